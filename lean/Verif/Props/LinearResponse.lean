import Verif.Props.TimeConvergence
import Verif.Spec.LinearResponse

/-!
# C150: response to weak perturbations
-/

namespace Barotropic
open Set

variable {g : Grid ℝ} {S : g.Sph}

/-! ### Expansions to first order -/

/-- `f ε = a + ε b` up to second order -/
def Expands {E : Type*} [NormedAddCommGroup E] [NormedSpace ℝ E] (f : ℝ → E) (a b : E) : Prop :=
  ∃ C, ∀ ε, |ε| ≤ 1 → ‖f ε - a - ε • b‖ ≤ C * ε ^ 2

section
variable {E F : Type*} [NormedAddCommGroup E] [NormedSpace ℝ E] [NormedAddCommGroup F] [NormedSpace ℝ F]

theorem Expands.add {f f' : ℝ → E} {a b a' b' : E} (h : Expands f a b) (h' : Expands f' a' b') : Expands (fun ε => f ε + f' ε) (a + a') (b + b') := by
  obtain ⟨C, h⟩ := h
  obtain ⟨C', h'⟩ := h'
  refine ⟨C + C', fun ε hε => ?_⟩
  rw [show f ε + f' ε - (a + a') - ε • (b + b') = (f ε - a - ε • b) + (f' ε - a' - ε • b') by rw [smul_add]; abel, add_mul]
  exact (norm_add_le _ _).trans (add_le_add (h ε hε) (h' ε hε))

theorem Expands.linear [FiniteDimensional ℝ E] {f : ℝ → E} {a b : E} (h : Expands f a b) (φ : E → F) (ha : ∀ x y, φ (x + y) = φ x + φ y)
    (hs : ∀ (c : ℝ) x, φ (c • x) = c • φ x) : Expands (fun ε => φ (f ε)) (φ a) (φ b) := by
  obtain ⟨C, h⟩ := h
  obtain ⟨c, hc, hb⟩ := linear_bound φ ha hs
  refine ⟨c * C, fun ε hε => ?_⟩
  rw [← sub_of_add ha, ← hs, ← sub_of_add ha, mul_assoc]
  exact (hb _).trans (mul_le_mul_of_nonneg_left (h ε hε) hc)

theorem Expands.neg {f : ℝ → E} {a b : E} (h : Expands f a b) : Expands (fun ε => -f ε) (-a) (-b) := by
  obtain ⟨C, h⟩ := h
  refine ⟨C, fun ε hε => ?_⟩
  rw [show -f ε - -a - ε • -b = -(f ε - a - ε • b) by rw [smul_neg]; abel, norm_neg]
  exact h ε hε

theorem Expands.sub_const {f : ℝ → E} {a b : E} (h : Expands f a b) (c : E) : Expands (fun ε => f ε - c) (a - c) b := by
  obtain ⟨C, h⟩ := h
  exact ⟨C, fun ε hε => by rw [show f ε - c - (a - c) - ε • b = f ε - a - ε • b by abel]; exact h ε hε⟩

theorem Expands.fst {f : ℝ → E × F} {a b : E × F} (h : Expands f a b) : Expands (fun ε => (f ε).1) a.1 b.1 := by
  obtain ⟨C, h⟩ := h
  exact ⟨C, fun ε hε => (norm_fst_le (f ε - a - ε • b)).trans (h ε hε)⟩

theorem Expands.snd {f : ℝ → E × F} {a b : E × F} (h : Expands f a b) : Expands (fun ε => (f ε).2) a.2 b.2 := by
  obtain ⟨C, h⟩ := h
  exact ⟨C, fun ε hε => (norm_snd_le (f ε - a - ε • b)).trans (h ε hε)⟩

theorem Expands.prod {f : ℝ → E} {f' : ℝ → F} {a b : E} {a' b' : F} (h : Expands f a b) (h' : Expands f' a' b') : Expands (fun ε => (f ε, f' ε)) (a, a') (b, b') := by
  obtain ⟨C, h⟩ := h
  obtain ⟨C', h'⟩ := h'
  refine ⟨max C C', fun ε hε => ?_⟩
  show ‖(f ε - a - ε • b, f' ε - a' - ε • b')‖ ≤ _
  rw [Prod.norm_def]
  exact max_le ((h ε hε).trans (mul_le_mul_of_nonneg_right (le_max_left _ _) (sq_nonneg _)))
    ((h' ε hε).trans (mul_le_mul_of_nonneg_right (le_max_right _ _) (sq_nonneg _)))

end

theorem Expands.mul {f f' : ℝ → g.Fld} {a b a' b' : g.Fld} (h : Expands f a b) (h' : Expands f' a' b') :
    Expands (fun ε => f ε * f' ε) (a * a') (a * b' + b * a') := by
  obtain ⟨C, h⟩ := h
  obtain ⟨C', h'⟩ := h'
  refine ⟨|C| * (‖a'‖ + ‖b'‖ + |C'|) + (‖a‖ + ‖b‖) * |C'| + ‖b‖ * ‖b'‖, fun ε hε => ?_⟩
  obtain ⟨r, hr⟩ : ∃ r, r = f ε - a - ε • b := ⟨_, rfl⟩
  obtain ⟨r', hr'⟩ : ∃ r', r' = f' ε - a' - ε • b' := ⟨_, rfl⟩
  have hr1 := h ε hε
  have hr1' := h' ε hε
  rw [← hr] at hr1
  rw [← hr'] at hr1'
  have e : f ε = a + ε • b + r := by rw [hr]; abel
  have e' : f' ε = a' + ε • b' + r' := by rw [hr']; abel
  have hε2 : ε ^ 2 ≤ 1 := by rw [← sq_abs]; exact pow_le_one₀ (abs_nonneg _) hε
  have hrC : ‖r‖ ≤ |C| * ε ^ 2 := hr1.trans (mul_le_mul_of_nonneg_right (le_abs_self _) (sq_nonneg _))
  have hrC' : ‖r'‖ ≤ |C'| * ε ^ 2 := hr1'.trans (mul_le_mul_of_nonneg_right (le_abs_self _) (sq_nonneg _))
  have hf' : ‖f' ε‖ ≤ ‖a'‖ + ‖b'‖ + |C'| := by
    rw [e']
    refine (norm_add_le _ _).trans (add_le_add ((norm_add_le _ _).trans (add_le_add_right ?_ _)) (hrC'.trans (mul_le_of_le_one_right (abs_nonneg _) hε2)))
    rw [norm_smul, Real.norm_eq_abs]
    exact mul_le_of_le_one_left (norm_nonneg _) hε
  have hab : ‖a + ε • b‖ ≤ ‖a‖ + ‖b‖ := by
    refine (norm_add_le _ _).trans (add_le_add_right ?_ _)
    rw [norm_smul, Real.norm_eq_abs]
    exact mul_le_of_le_one_left (norm_nonneg _) hε
  have split : f ε * f' ε - a * a' - ε • (a * b' + b * a') = r * f' ε + (a + ε • b) * r' + ε ^ 2 • (b * b') := by
    rw [hr, e']
    have : f ε = a + ε • b + r := e
    funext j i
    simp only [Pi.sub_apply, Pi.add_apply, Pi.mul_apply, Pi.smul_apply, smul_eq_mul]
    ring
  rw [split]
  have n1 : ‖r * f' ε‖ ≤ |C| * ε ^ 2 * (‖a'‖ + ‖b'‖ + |C'|) := (norm_mul_le _ _).trans (mul_le_mul hrC hf' (norm_nonneg _) (by positivity))
  have n2 : ‖(a + ε • b) * r'‖ ≤ (‖a‖ + ‖b‖) * (|C'| * ε ^ 2) := (norm_mul_le _ _).trans (mul_le_mul hab hrC' (norm_nonneg _) (by positivity))
  have n3 : ‖ε ^ 2 • (b * b')‖ ≤ ε ^ 2 * (‖b‖ * ‖b'‖) := by
    rw [norm_smul, Real.norm_eq_abs, abs_of_nonneg (sq_nonneg ε)]
    exact mul_le_mul_of_nonneg_left (norm_mul_le _ _) (sq_nonneg _)
  refine (norm_add_le _ _).trans ((add_le_add ((norm_add_le _ _).trans (add_le_add n1 n2)) n3).trans_eq ?_)
  ring

/-! ### The linearised budget -/

theorem rate_expands (hS : S.IsLinear) {R : ℝ → ℝ → g.Spc → g.Fld} {R' : ℝ → g.Spc → g.Spc → g.Fld} (hR : ForcingExpands R R') (t : ℝ) {q : ℝ → g.Spc}
    {a b : g.Spc} (h : Expands q a b) : Expands (fun ε => galerkinRate S (R ε) t (q ε)) (galerkinRate S (R 0) t a) (tangentRate S a b (R' t a b)) := by
  have uvadd : ∀ a a' : g.Spc, S.getuv (a + a') 0 = S.getuv a 0 + S.getuv a' 0 := fun a a' => by
    have := hS.getuv_add a a' 0 0
    rwa [add_zero] at this
  have uvsmul : ∀ (c : ℝ) (a : g.Spc), S.getuv (c • a) 0 = c • S.getuv a 0 := fun c a => by
    have := hS.getuv_smul c a 0
    rwa [smul_zero] at this
  have dadd : ∀ w w' : g.Fld × g.Fld, (S.getvrtdivspec (w + w').1 (w + w').2).2 = (S.getvrtdivspec w.1 w.2).2 + (S.getvrtdivspec w'.1 w'.2).2 :=
    fun w w' => congrArg Prod.snd (hS.getvrtdiv_add w.1 w'.1 w.2 w'.2)
  have hq := h.linear S.spectogrd hS.spectogrd_add hS.spectogrd_smul
  have hw := (h.sub_const (S.grdtospec g.fcor2)).linear (fun a : g.Spc => S.getuv a 0) uvadd uvsmul
  have hd := ((hq.mul hw.fst).prod (hq.mul hw.snd)).linear (fun w : g.Fld × g.Fld => (S.getvrtdivspec w.1 w.2).2) dadd
    (fun c w => congrArg Prod.snd (hS.getvrtdiv_smul c w.1 w.2))
  have hF : Expands (fun ε => R ε t (q ε)) (R 0 t a) (R' t a b) := by
    obtain ⟨B, hB⟩ := h
    obtain ⟨C, hC⟩ := hR t a b B
    exact ⟨C, fun ε hε => hC ε hε _ (hB ε hε)⟩
  have hf := hF.linear S.grdtospec hS.grdtospec_add hS.grdtospec_smul
  have e1 : ∀ (R : ℝ → g.Spc → g.Fld) (q : g.Spc), galerkinRate S R t q = S.grdtospec (R t q) + -(S.getvrtdivspec
      (S.spectogrd q * (S.getuv (q - S.grdtospec g.fcor2) 0).1) (S.spectogrd q * (S.getuv (q - S.grdtospec g.fcor2) 0).2)).2 := fun R q => by
    rw [← sub_eq_add_neg]
    rfl
  have e2 : tangentRate S a b (R' t a b) = S.grdtospec (R' t a b) + -(S.getvrtdivspec
      (S.spectogrd a * (S.getuv b 0).1 + S.spectogrd b * (S.getuv (a - S.grdtospec g.fcor2) 0).1)
      (S.spectogrd a * (S.getuv b 0).2 + S.spectogrd b * (S.getuv (a - S.grdtospec g.fcor2) 0).2)).2 := by
    rw [← sub_eq_add_neg]
    rfl
  have h2 := hf.add hd.neg
  simp only [e1, e2]
  exact h2

/-! ### The linearised scheme -/

theorem step_expands {M : ℝ → BModel g} (hν : 0 ≤ (M 0).diffusionCoeff) (hM : ∀ ε, (M ε).diffusionCoeff = (M 0).diffusionCoeff ∧
    (M ε).diffusionOrder = (M 0).diffusionOrder ∧ (M ε).diffusionBg = (M 0).diffusionBg) {τ : ℝ} (hτ : 0 ≤ τ) {old rate new : ℝ → g.Spc}
    {oldp ratep newp : g.Spc} (ho : Expands old (old 0) oldp) (hr : Expands rate (rate 0) ratep)
    (hn : ∀ ε, (M ε).ImplicitStep S τ (old ε) (rate ε) (new ε)) (hp : (M 0).TangentStep τ oldp ratep newp) : Expands new (new 0) newp := by
  obtain ⟨C, hC⟩ := ho
  obtain ⟨D, hD⟩ := hr
  refine ⟨C + τ * D, fun ε hε => ?_⟩
  have hb : (M ε).background S = (M 0).background S := by
    unfold BModel.background
    rw [(hM ε).2.2]
  have hCε := hC ε hε
  have hDε := hD ε hε
  have hpos : 0 ≤ (C + τ * D) * ε ^ 2 := by
    have := (norm_nonneg _).trans hCε
    have := mul_nonneg hτ ((norm_nonneg _).trans hDε)
    linarith
  refine (pi_norm_le_iff_of_nonneg hpos).mpr fun k => ?_
  obtain ⟨l, hl0, hl⟩ : ∃ l : ℝ, 0 ≤ l ∧ (M 0).diffusionCoeff * ((specN k : ℂ) * (specN k + 1) / (g.rsphere : ℂ) ^ 2) ^ (M 0).diffusionOrder = (l : ℂ) :=
    ⟨(M 0).diffusionCoeff * ((specN k : ℝ) * (specN k + 1) / g.rsphere ^ 2) ^ (M 0).diffusionOrder, by positivity, by push_cast; rfl⟩
  have h1 := hn ε k
  have h0 := hn 0 k
  have h2 := hp k
  rw [hb, (hM ε).1, (hM ε).2.1, hl] at h1
  rw [hl] at h0 h2
  have c1 := (norm_le_pi_norm (old ε - old 0 - ε • oldp) k).trans hCε
  have c2 := (norm_le_pi_norm (rate ε - rate 0 - ε • ratep) k).trans hDε
  simp only [Pi.sub_apply, Pi.smul_apply, Complex.real_smul] at c1 c2 ⊢
  have e : (new ε k - new 0 k - ε * newp k) * ((1 + τ * l : ℝ) : ℂ) =
      (old ε k - old 0 k - ε * oldp k) + (τ : ℂ) * (rate ε k - rate 0 k - ε * ratep k) := by
    push_cast
    linear_combination h1 - h0 - ε * h2
  have hτl : 1 ≤ 1 + τ * l := by
    have := mul_nonneg hτ hl0
    linarith
  have hnorm : ‖new ε k - new 0 k - ε * newp k‖ ≤ ‖(new ε k - new 0 k - ε * newp k) * ((1 + τ * l : ℝ) : ℂ)‖ := by
    rw [norm_mul, Complex.norm_real, Real.norm_eq_abs, abs_of_nonneg (zero_le_one.trans hτl)]
    exact le_mul_of_one_le_right (norm_nonneg _) hτl
  refine hnorm.trans ?_
  rw [e]
  refine (norm_add_le _ _).trans ?_
  rw [norm_mul, Complex.norm_real, Real.norm_eq_abs, abs_of_nonneg hτ, add_mul, mul_assoc]
  exact add_le_add c1 (mul_le_mul_of_nonneg_left c2 hτ)

theorem tangentStep_exists {M : BModel g} (hν : 0 ≤ M.diffusionCoeff) {τ : ℝ} (hτ : 0 ≤ τ) (old rate : g.Spc) : ∃ new, M.TangentStep τ old rate new := by
  refine ⟨fun k => (old k + τ * rate k) / ((1 + τ * (M.diffusionCoeff * ((specN k : ℝ) * (specN k + 1) / g.rsphere ^ 2) ^ M.diffusionOrder) : ℝ) : ℂ), fun k => ?_⟩
  have h : (1 + τ * (M.diffusionCoeff * ((specN k : ℝ) * (specN k + 1) / g.rsphere ^ 2) ^ M.diffusionOrder) : ℝ) ≠ 0 := by positivity
  have h' := Complex.ofReal_ne_zero.mpr h
  have e : (M.diffusionCoeff * ((specN k : ℂ) * (specN k + 1) / (g.rsphere : ℂ) ^ 2) ^ M.diffusionOrder : ℂ) =
    ((M.diffusionCoeff * ((specN k : ℝ) * (specN k + 1) / g.rsphere ^ 2) ^ M.diffusionOrder : ℝ) : ℂ) := by push_cast; rfl
  rw [e]
  obtain ⟨l, hl⟩ : ∃ l : ℝ, l = M.diffusionCoeff * ((specN k : ℝ) * (specN k + 1) / g.rsphere ^ 2) ^ M.diffusionOrder := ⟨_, rfl⟩
  simp only [← hl] at h' ⊢
  rw [div_eq_iff h', add_mul, mul_assoc, sub_mul, mul_assoc (l : ℂ), div_mul_cancel₀ _ h']
  push_cast
  ring

/-- C150: the linearised scheme has a solution -/
theorem tangent_exists {M : BModel g} (hν : 0 ≤ M.diffusionCoeff) (R' : ℝ → g.Spc → g.Spc → g.Fld) {dt : PyDelta} (hd : 0 < toSeconds dt) (n : ℕ)
    (x y : ℕ → St PyTime g) (p : g.Spc) : ∃ ξ η, M.TangentScheme S R' dt n x y p ξ η := by
  choose step hstep using fun (τ : {τ : ℝ // 0 ≤ τ}) (old rate : g.Spc) => tangentStep_exists hν τ.2 old rate
  let next : ℕ → g.Spc × g.Spc → g.Spc × g.Spc := fun k w =>
    let new := step ⟨2 * toSeconds dt, by positivity⟩ w.1 (tangentRate S (y k).q w.2 (R' (y k).time.sec (y k).q w.2))
    (fun m => w.2 m + 2 / 10 * (w.1 m - 2 * w.2 m + new m), new)
  let z : ℕ → g.Spc × g.Spc := fun k => Nat.rec (p, step ⟨toSeconds dt, hd.le⟩ p (tangentRate S (x 0).q p (R' (x 0).time.sec (x 0).q p))) next k
  exact ⟨fun k => (z k).1, fun k => (z k).2, rfl, hstep ⟨toSeconds dt, hd.le⟩ _ _, fun k _ => hstep ⟨2 * toSeconds dt, by positivity⟩ _ _, fun k _ m => rfl⟩

/-! ### The response of a run -/

theorem forced_unique {M : BModel g} {R : ℝ → g.Spc → g.Fld} (hM : M.ForcedBy R) (s : St PyTime g) {F : g.Fld} (hF : M.Forced s F) :
    pvBudget S (s.pv S) (s.u S) (s.v S) F = galerkinRate S R s.time.sec s.q := by
  have : F = R s.time.sec s.q := by
    rcases hM with ⟨h1, rfl⟩ | ⟨f, h1, h2⟩
    · rcases hF with ⟨-, rfl⟩ | ⟨f', h3, -⟩
      · rfl
      · rw [h1] at h3; cases h3
    · rcases hF with ⟨h3, -⟩ | ⟨f', h3, h4⟩
      · rw [h1] at h3; cases h3
      · rw [h1] at h3; cases h3
        rw [h2] at h4
        injection h4 with h4
        exact h4.symm
  rw [this]
  rfl

/-- C150: all states of the integrations with parameter `ε` differ from those with parameter 0 by `ε` times those of the linearised integration,
up to second order. -/
theorem scheme_expands (hS : S.IsLinear) {M : ℝ → BModel g} (hν : 0 ≤ (M 0).diffusionCoeff)
    (hM : ∀ ε, (M ε).diffusionCoeff = (M 0).diffusionCoeff ∧ (M ε).diffusionOrder = (M 0).diffusionOrder ∧ (M ε).diffusionBg = (M 0).diffusionBg)
    {R : ℝ → ℝ → g.Spc → g.Fld} {R' : ℝ → g.Spc → g.Spc → g.Fld} (hF : ∀ ε, (M ε).ForcedBy (R ε)) (hR : ForcingExpands R R') {s : ℝ → St PyTime g}
    (hst : ∀ ε, (s ε).time = (s 0).time) {p : g.Spc} (hs : Expands (fun ε => (s ε).q) (s 0).q p) {dt : PyDelta} (hd : 0 < toSeconds dt) {n : ℕ}
    {x y : ℝ → ℕ → St PyTime g} (hx : ∀ ε, (M ε).Scheme S (s ε) dt n (x ε) (y ε)) {ξ η : ℕ → g.Spc}
    (hξ : (M 0).TangentScheme S R' dt n (x 0) (y 0) p ξ η) :
    ∀ k ≤ n, Expands (fun ε => (x ε k).q) (x 0 k).q (ξ k) ∧ Expands (fun ε => (y ε k).q) (y 0 k).q (η k) := by
  intro k
  induction k with
  | zero =>
    intro _
    have h0 : Expands (fun ε => (x ε 0).q) (x 0 0).q (ξ 0) := by
      simp only [(hx _).start, hξ.start]
      exact hs
    refine ⟨h0, ?_⟩
    have hr := rate_expands hS hR (s 0).time.sec hs
    refine step_expands (S := S) (rate := fun ε => galerkinRate S (R ε) (s 0).time.sec (s ε).q) hν hM hd.le hs hr (fun ε => ?_) (oldp := p) ?_
    · obtain ⟨F, h1, h2⟩ := (hx ε).euler
      rwa [forced_unique (hF ε) _ h1, hst ε] at h2
    · have := hξ.euler
      rwa [hξ.start, (hx 0).start] at this
  | succ k ih =>
    intro hk
    obtain ⟨h1, h2⟩ := ih (by omega)
    have ht : ∀ ε, (y ε k).time = (y 0 k).time := fun ε => by
      rw [((hx ε).times k (by omega)).2, ((hx 0).times k (by omega)).2, hst ε]
    have hr := rate_expands hS hR (y 0 k).time.sec h2
    have h3 : Expands (fun ε => (y ε (k + 1)).q) (y 0 (k + 1)).q (η (k + 1)) := by
      refine step_expands (S := S) (rate := fun ε => galerkinRate S (R ε) (y 0 k).time.sec (y ε k).q) hν hM (by positivity) h1 hr (fun ε => ?_) (hξ.leapfrog k (by omega))
      obtain ⟨F, h4, h5⟩ := (hx ε).leapfrog k (by omega)
      rwa [forced_unique (hF ε) _ h4, ht ε] at h5
    refine ⟨?_, h3⟩
    have e : ∀ ε, (x ε (k + 1)).q = (6 / 10 : ℝ) • (y ε k).q + ((2 / 10 : ℝ) • (x ε k).q + (2 / 10 : ℝ) • (y ε (k + 1)).q) := fun ε => by
      funext m
      rw [(hx ε).filter k (by omega) m]
      simp only [Pi.add_apply, Pi.smul_apply, Complex.real_smul]
      push_cast
      ring
    have e' : ξ (k + 1) = (6 / 10 : ℝ) • η k + ((2 / 10 : ℝ) • ξ k + (2 / 10 : ℝ) • η (k + 1)) := by
      funext m
      rw [hξ.filter k (by omega) m]
      simp only [Pi.add_apply, Pi.smul_apply, Complex.real_smul]
      push_cast
      ring
    have scale : ∀ (c : ℝ) {f : ℝ → g.Spc} {a b : g.Spc}, Expands f a b → Expands (fun ε => c • f ε) (c • a) (c • b) := fun c f a b h =>
      h.linear (fun q => c • q) (fun _ _ => smul_add _ _ _) (fun _ _ => smul_comm _ _ _)
    simp only [e, e']
    exact (scale _ h2).add ((scale _ h1).add (scale _ h3))

/-- C150: linear response. The models `M ε` differ only in their forcing `R ε`, which depends on `ε` and PV to first order as `R'` says, and the initial
PV changes by `ε p`, up to second order. Then there is an integration that is linearised about the run with `ε = 0`, and each state returned by the run with
`ε` differs from the unperturbed state of the same time by `ε` times the linear perturbation, in PV and in wind, with an error that is of second order in `ε`. -/
theorem C150_linear_response (hS : S.IsLinear) {M : ℝ → BModel g} (hν : 0 ≤ (M 0).diffusionCoeff)
    (hM : ∀ ε, (M ε).diffusionCoeff = (M 0).diffusionCoeff ∧ (M ε).diffusionOrder = (M 0).diffusionOrder ∧ (M ε).diffusionBg = (M 0).diffusionBg)
    {R : ℝ → ℝ → g.Spc → g.Fld} {R' : ℝ → g.Spc → g.Spc → g.Fld} (hF : ∀ ε, (M ε).ForcedBy (R ε)) (hR : ForcingExpands R R') (s : ℝ → St PyTime g)
    (hst : ∀ ε, (s ε).time = (s 0).time) (p : g.Spc) (hs : ∃ C, ∀ ε, |ε| ≤ 1 → ‖(s ε).q - (s 0).q - ε • p‖ ≤ C * ε ^ 2) (dt : PyDelta) (tend : PyTime)
    (se : ℝ) (hc : (s 0).time.Compatible dt) (hk : (s 0).time.SameKind tend) (hd : 0 < toSeconds dt) (sf : ℝ → St PyTime g)
    (saved : ℝ → List (St PyTime g)) (h : ∀ ε, (M ε).Returns S (s ε) dt tend se (sf ε) (saved ε)) :
    ∃ (n : ℕ) (x y : ℕ → St PyTime g) (ξ η : ℕ → g.Spc) (C : ℝ), (M 0).Scheme S (s 0) dt n x y ∧ (M 0).TangentScheme S R' dt n x y p ξ η ∧
      sf 0 = x n ∧ ∀ ε, |ε| ≤ 1 → (sf ε).time = (x n).time ∧ ∀ w ∈ sf ε :: saved ε, (∃ k ≤ n, w.time = (x k).time) ∧ ∀ k ≤ n, w.time = (x k).time →
        ‖w.q - (x k).q - ε • ξ k‖ ≤ C * ε ^ 2 ∧ ‖w.pv S - (x k).pv S - ε • S.spectogrd (ξ k)‖ ≤ C * ε ^ 2 ∧
        ‖w.u S - (x k).u S - ε • (S.getuv (ξ k) 0).1‖ ≤ C * ε ^ 2 ∧ ‖w.v S - (x k).v S - ε • (S.getuv (ξ k) 0).2‖ ≤ C * ε ^ 2 := by
  have hr : ∀ ε, ∃ (n : ℕ) (x y : ℕ → St PyTime g) (ks : List ℕ), (M ε).Scheme S (s ε) dt n x y ∧ sf ε = x n ∧ saved ε = ks.map x ∧ (∀ k ∈ ks, k ≤ n) ∧
      tend.sec ≤ (s 0).time.sec + n * toSeconds dt ∧ ∀ m < n, (s 0).time.sec + m * toSeconds dt < tend.sec := fun ε => by
    rw [← hst ε]
    exact C100_run hS (by rw [(hM ε).1]; exact hν) (s ε) dt tend se (by rw [hst]; exact hc) (by rw [hst]; exact hk) hd _ _ (h ε)
  choose n' x y ks h1 h2 h3 h4 h5 h6 using hr
  have hn : ∀ ε, n' ε = n' 0 := fun ε => by
    rcases lt_trichotomy (n' ε) (n' 0) with hlt | heq | hlt
    · exact absurd (h5 ε) (not_le.mpr (h6 0 _ hlt))
    · exact heq
    · exact absurd (h5 0) (not_le.mpr (h6 ε _ hlt))
  obtain ⟨n, hn0⟩ : ∃ n, n = n' 0 := ⟨_, rfl⟩
  simp only [hn, ← hn0] at h1 h2 h3 h4 h5 h6
  obtain ⟨ξ, η, hξ⟩ := tangent_exists (S := S) hν R' hd n (x 0) (y 0) p
  have main := scheme_expands hS hν hM hF hR hst hs hd h1 hξ
  have uvadd : ∀ a a' : g.Spc, S.getuv (a + a') 0 = S.getuv a 0 + S.getuv a' 0 := fun a a' => by
    have := hS.getuv_add a a' 0 0
    rwa [add_zero] at this
  have uvsmul : ∀ (c : ℝ) (a : g.Spc), S.getuv (c • a) 0 = c • S.getuv a 0 := fun c a => by
    have := hS.getuv_smul c a 0
    rwa [smul_zero] at this
  have each : ∀ k ≤ n, ∃ C, ∀ ε, |ε| ≤ 1 → ‖(x ε k).q - (x 0 k).q - ε • ξ k‖ ≤ C * ε ^ 2 ∧
      ‖(x ε k).pv S - (x 0 k).pv S - ε • S.spectogrd (ξ k)‖ ≤ C * ε ^ 2 ∧ ‖(x ε k).u S - (x 0 k).u S - ε • (S.getuv (ξ k) 0).1‖ ≤ C * ε ^ 2 ∧
      ‖(x ε k).v S - (x 0 k).v S - ε • (S.getuv (ξ k) 0).2‖ ≤ C * ε ^ 2 := by
    intro k hk
    have e1 := (main k hk).1
    have e2 := e1.linear S.spectogrd hS.spectogrd_add hS.spectogrd_smul
    have e3 := (e1.sub_const (S.grdtospec g.fcor2)).linear (fun a : g.Spc => S.getuv a 0) uvadd uvsmul
    obtain ⟨C1, c1⟩ := e1
    obtain ⟨C2, c2⟩ := e2
    obtain ⟨C3, c3⟩ := e3.fst
    obtain ⟨C4, c4⟩ := e3.snd
    refine ⟨|C1| + |C2| + |C3| + |C4|, fun ε hε => ?_⟩
    have le : ∀ c, c ≤ |C1| + |C2| + |C3| + |C4| → c * ε ^ 2 ≤ (|C1| + |C2| + |C3| + |C4|) * ε ^ 2 := fun c hc => mul_le_mul_of_nonneg_right hc (sq_nonneg ε)
    have a1 := abs_nonneg C1
    have a2 := abs_nonneg C2
    have a3 := abs_nonneg C3
    have a4 := abs_nonneg C4
    exact ⟨(c1 ε hε).trans (le _ (by linarith [le_abs_self C1])), (c2 ε hε).trans (le _ (by linarith [le_abs_self C2])),
      (c3 ε hε).trans (le _ (by linarith [le_abs_self C3])), (c4 ε hε).trans (le _ (by linarith [le_abs_self C4]))⟩
  choose! c hcb using each
  refine ⟨n, x 0, y 0, ξ, η, ∑ k ∈ Finset.range (n + 1), |c k|, h1 0, hξ, h2 0, fun ε hε => ?_⟩
  have htime : ∀ k ≤ n, (x ε k).time = (x 0 k).time := fun k hk => by
    rw [((h1 ε).times k hk).1, ((h1 0).times k hk).1, hst ε]
  have hbound : ∀ k ≤ n, c k * ε ^ 2 ≤ (∑ k ∈ Finset.range (n + 1), |c k|) * ε ^ 2 := fun k hk =>
    mul_le_mul_of_nonneg_right ((le_abs_self _).trans (Finset.single_le_sum (f := fun k => |c k|) (fun _ _ => abs_nonneg _) (Finset.mem_range.mpr (by omega)))) (sq_nonneg _)
  refine ⟨by rw [h2, htime n le_rfl], fun w hw => ?_⟩
  obtain ⟨m, hm, rfl⟩ : ∃ m ≤ n, w = x ε m := by
    rcases List.mem_cons.mp hw with rfl | hw
    · exact ⟨n, le_rfl, h2 ε⟩
    · rw [h3 ε] at hw
      obtain ⟨m, hm, rfl⟩ := List.mem_map.mp hw
      exact ⟨m, h4 ε m hm, rfl⟩
  refine ⟨⟨m, hm, htime m hm⟩, fun k hk hkm => ?_⟩
  have : m = k := by
    have e := congrArg PyTime.sec (hkm)
    rw [((h1 ε).times m hm).1, ((h1 0).times k hk).1, hst ε, sec_stepTime hc, sec_stepTime hc] at e
    have e4 : (m : ℝ) * toSeconds dt = k * toSeconds dt := by linarith
    exact_mod_cast mul_right_cancel₀ hd.ne' e4
  subst this
  obtain ⟨b1, b2, b3, b4⟩ := hcb m hk ε hε
  exact ⟨b1.trans (hbound m hk), b2.trans (hbound m hk), b3.trans (hbound m hk), b4.trans (hbound m hk)⟩

/-- C150: the responses to two amplitudes, each divided by the amplitude, agree up to first order in the amplitudes. -/
theorem C150_amplitudes (hS : S.IsLinear) {M : ℝ → BModel g} (hν : 0 ≤ (M 0).diffusionCoeff)
    (hM : ∀ ε, (M ε).diffusionCoeff = (M 0).diffusionCoeff ∧ (M ε).diffusionOrder = (M 0).diffusionOrder ∧ (M ε).diffusionBg = (M 0).diffusionBg)
    {R : ℝ → ℝ → g.Spc → g.Fld} {R' : ℝ → g.Spc → g.Spc → g.Fld} (hF : ∀ ε, (M ε).ForcedBy (R ε)) (hR : ForcingExpands R R') (s : St PyTime g)
    (dt : PyDelta) (tend : PyTime) (se : ℝ) (hc : s.time.Compatible dt) (hk : s.time.SameKind tend) (hd : 0 < toSeconds dt) (sf : ℝ → St PyTime g)
    (saved : ℝ → List (St PyTime g)) (h : ∀ ε, (M ε).Returns S s dt tend se (sf ε) (saved ε)) :
    ∃ C, ∀ ε ε', ε ≠ 0 → ε' ≠ 0 → |ε| ≤ 1 → |ε'| ≤ 1 →
      ‖ε⁻¹ • ((sf ε).u S - (sf 0).u S) - ε'⁻¹ • ((sf ε').u S - (sf 0).u S)‖ ≤ C * (|ε| + |ε'|) ∧
      ‖ε⁻¹ • ((sf ε).v S - (sf 0).v S) - ε'⁻¹ • ((sf ε').v S - (sf 0).v S)‖ ≤ C * (|ε| + |ε'|) ∧
      ‖ε⁻¹ • ((sf ε).pv S - (sf 0).pv S) - ε'⁻¹ • ((sf ε').pv S - (sf 0).pv S)‖ ≤ C * (|ε| + |ε'|) := by
  obtain ⟨n, x, y, ξ, η, C, -, -, h0, hall⟩ := C150_linear_response hS hν hM hF hR (fun _ => s) (fun _ => rfl) 0
    ⟨0, fun ε _ => by simp⟩ dt tend se hc hk hd sf saved h
  have key : ∀ (a : ℝ → g.Fld) (b : g.Fld), (∀ ε, |ε| ≤ 1 → ‖a ε - a 0 - ε • b‖ ≤ C * ε ^ 2) → ∀ ε ε' : ℝ, ε ≠ 0 → ε' ≠ 0 → |ε| ≤ 1 → |ε'| ≤ 1 →
      ‖ε⁻¹ • (a ε - a 0) - ε'⁻¹ • (a ε' - a 0)‖ ≤ C * (|ε| + |ε'|) := by
    intro a b hab ε ε' hε hε' h1 h1'
    have one : ∀ ε : ℝ, ε ≠ 0 → |ε| ≤ 1 → ‖ε⁻¹ • (a ε - a 0) - b‖ ≤ C * |ε| := fun ε hε h1 => by
      have e : ε⁻¹ • (a ε - a 0) - b = ε⁻¹ • (a ε - a 0 - ε • b) := by rw [smul_sub _ _ (ε • b), smul_smul, inv_mul_cancel₀ hε, one_smul]
      rw [e, norm_smul, norm_inv, Real.norm_eq_abs, inv_mul_le_iff₀ (abs_pos.mpr hε)]
      refine (hab ε h1).trans_eq ?_
      rw [← sq_abs]
      ring
    have e : ε⁻¹ • (a ε - a 0) - ε'⁻¹ • (a ε' - a 0) = (ε⁻¹ • (a ε - a 0) - b) - (ε'⁻¹ • (a ε' - a 0) - b) := by abel
    rw [e, mul_add]
    exact (norm_sub_le _ _).trans (add_le_add (one ε hε h1) (one ε' hε' h1'))
  have fin := fun (ε : ℝ) (hε : |ε| ≤ 1) => ((hall ε hε).2 (sf ε) List.mem_cons_self).2 n le_rfl (hall ε hε).1
  rw [← h0] at fin
  refine ⟨C, fun ε ε' hε hε' h1 h1' => ⟨?_, ?_, ?_⟩⟩
  · exact key (fun ε => (sf ε).u S) _ (fun ε hε => (fin ε hε).2.2.1) ε ε' hε hε' h1 h1'
  · exact key (fun ε => (sf ε).v S) _ (fun ε hε => (fin ε hε).2.2.2) ε ε' hε hε' h1 h1'
  · exact key (fun ε => (sf ε).pv S) _ (fun ε hε => (fin ε hε).2.1) ε ε' hε hε' h1 h1'

/-! ### Forcing terms -/

/-- C150 applies to every forcing that is Lipschitz continuous, with a small factor. -/
theorem C150_weak {A : ℝ → g.Spc → g.Fld} (hA : ∀ t, LipschitzForcing A t t) : ForcingExpands (fun ε t q => ε • A t q) (fun t q _ => A t q) := by
  intro t q p B
  obtain ⟨L, hL⟩ := hA t (‖q‖ + ‖p‖ + |B|)
  refine ⟨|L| * (‖p‖ + |B|), fun ε hε q' hq' => ?_⟩
  have hε2 : ε ^ 2 ≤ |ε| := by
    rw [← sq_abs, sq]
    exact mul_le_of_le_one_left (abs_nonneg _) hε
  have d1 : ‖q' - q‖ ≤ |ε| * (‖p‖ + |B|) := by
    have e : q' - q = (q' - q - ε • p) + ε • p := by abel
    rw [e]
    refine (norm_add_le _ _).trans ?_
    rw [norm_smul, Real.norm_eq_abs]
    have b1 : B * ε ^ 2 ≤ |B| * |ε| := mul_le_mul (le_abs_self _) hε2 (sq_nonneg _) (abs_nonneg _)
    linarith
  have d2 : ‖q'‖ ≤ ‖q‖ + ‖p‖ + |B| := by
    have h1 := norm_add_le (q' - q) q
    rw [sub_add_cancel] at h1
    have h2 : |ε| * (‖p‖ + |B|) ≤ ‖p‖ + |B| := mul_le_of_le_one_left (by positivity) hε
    linarith
  have d3 : ‖q‖ ≤ ‖q‖ + ‖p‖ + |B| := by linarith [norm_nonneg p, abs_nonneg B]
  have d4 := hL t ⟨le_rfl, le_rfl⟩ t ⟨le_rfl, le_rfl⟩ q' q d2 d3
  rw [sub_self, abs_zero, zero_add] at d4
  dsimp only
  rw [zero_smul, sub_zero, ← smul_sub, norm_smul, Real.norm_eq_abs]
  have d5 : ‖A t q' - A t q‖ ≤ |L| * (|ε| * (‖p‖ + |B|)) :=
    d4.trans ((mul_le_mul_of_nonneg_right (le_abs_self _) (norm_nonneg _)).trans (mul_le_mul_of_nonneg_left d1 (abs_nonneg _)))
  refine (mul_le_mul_of_nonneg_left d5 (abs_nonneg _)).trans_eq ?_
  rw [← sq_abs ε]
  ring

/-- C150 applies to sums of such forcing terms. -/
theorem C150_sum {R Q : ℝ → ℝ → g.Spc → g.Fld} {R' Q' : ℝ → g.Spc → g.Spc → g.Fld} (hR : ForcingExpands R R') (hQ : ForcingExpands Q Q') :
    ForcingExpands (R + Q) (R' + Q') := by
  intro t q p B
  obtain ⟨C, hC⟩ := hR t q p B
  obtain ⟨D, hD⟩ := hQ t q p B
  refine ⟨C + D, fun ε hε q' hq' => ?_⟩
  have e : (R + Q) ε t q' - (R + Q) 0 t q - ε • (R' + Q') t q p = (R ε t q' - R 0 t q - ε • R' t q p) + (Q ε t q' - Q 0 t q - ε • Q' t q p) := by
    simp only [Pi.add_apply, smul_add]
    abel
  rw [e, add_mul]
  exact (norm_add_le _ _).trans (add_le_add (hC ε hε q' hq') (hD ε hε q' hq'))

/-- C150 applies to `LinearRelaxation`, which is linear. -/
theorem C150_relaxation (hS : S.IsLinear) (rate : ℝ) (ref : RVal g) :
    ∃ R, (∀ s, (Term.linearRelaxation S rate ref).toRhs s = .ok (R s.time.sec s.q)) ∧ ForcingExpands (fun _ => R) (fun _ _ p => (-rate) • S.spectogrd p) := by
  refine ⟨fun _ q j i => rate * (ref.at j i - S.spectogrd q j i), fun s => by cases ref <;> rfl, fun t q p B => ?_⟩
  obtain ⟨c, hc, hb⟩ := linear_bound S.spectogrd hS.spectogrd_add hS.spectogrd_smul
  refine ⟨|rate| * (c * B), fun ε _ q' hq' => ?_⟩
  have e : (fun j i => rate * (ref.at j i - S.spectogrd q' j i)) - (fun j i => rate * (ref.at j i - S.spectogrd q j i)) - ε • (-rate) • S.spectogrd p =
      (-rate) • S.spectogrd (q' - q - ε • p) := by
    rw [sub_of_add hS.spectogrd_add, sub_of_add hS.spectogrd_add, hS.spectogrd_smul]
    funext j i
    simp only [Pi.sub_apply, Pi.smul_apply, smul_eq_mul]
    ring
  rw [e, norm_smul, norm_neg, Real.norm_eq_abs, mul_assoc, mul_assoc]
  exact mul_le_mul_of_nonneg_left ((hb _).trans (mul_le_mul_of_nonneg_left hq' hc)) (abs_nonneg _)

/-- C150 applies to orography whose height is proportional to `ε`, with every kind of wind. -/
theorem C150_orography (hS : S.IsLinear) (o : ℝ → Orog) (h : g.Fld) (ho : ∀ ε, o ε = { o 1 with kind := (o ε).kind })
    (hh : ∀ ε, (o ε).kind.orography g = .ok (ε • h)) :
    ∃ A, (∀ ε s, ((o ε).term S).toRhs s = .ok (ε • A s.time.sec s.q)) ∧ (∀ t, LipschitzForcing A t t) := by
  have h1 : (o 1).kind.orography g = .ok h := by rw [hh 1, one_smul]
  let A : ℝ → g.Spc → g.Fld := fun t q => (o 1).combine ((o 1).getWind S ⟨.num t, q⟩) (Grid.gradient S h)
  have hA : ∀ ε s, ((o ε).term S).toRhs s = .ok (ε • A s.time.sec s.q) := by
    intro ε s
    have hg : (o ε).gradient S = .ok (ε • Grid.gradient S h) := by
      unfold Orog.gradient
      rw [hh ε]
      unfold Grid.gradient Grid.toSpectral
      dsimp only
      rw [hS.grdtospec_smul, hS.getgrad_smul]
    have hw : (o ε).getWind S s = (o 1).getWind S ⟨.num s.time.sec, s.q⟩ := by
      rw [ho ε]
      rfl
    have hcm : ∀ w G, (o ε).combine w (ε • G) = ε • (o 1).combine (g := g) w G := fun w G => by
      rw [ho ε]
      funext j i
      simp only [Orog.combine, Pi.smul_apply, smul_eq_mul, Prod.smul_fst, Prod.smul_snd]
      ring
    unfold Term.toRhs Orog.term Term.call Orog.force
    rw [hg]
    simp only [Except.map, hw, hcm]
    rfl
  refine ⟨A, hA, fun t => ?_⟩
  obtain ⟨R, hR, hL, -⟩ := (C114_forcing hS t t).2.1 (o 1) h h1
  have : R = A := by
    funext t q
    have e := hR ⟨.num t, q⟩
    rw [hA 1, one_smul] at e
    injection e with e
    exact e.symm
  rwa [← this]

/-- The mountains of `GaussianMountain` and `ZonalSineMountains` are proportional to their height. -/
theorem C150_mountains (g : Grid ℝ) (ε h a b c d : ℝ) (k : ℤ) :
    (∃ f : g.Fld, (OrogKind.gaussian h a b c d).orography g = .ok f ∧ (OrogKind.gaussian (ε * h) a b c d).orography g = .ok (ε • f)) ∧
    (∃ f : g.Fld, (OrogKind.sine h a b k).orography g = .ok f ∧ (OrogKind.sine (ε * h) a b k).orography g = .ok (ε • f)) := by
  refine ⟨⟨_, rfl, congrArg Except.ok ?_⟩, ⟨_, rfl, congrArg Except.ok ?_⟩⟩ <;>
  · funext j i
    simp only [OrogKind.gaussianHeight, OrogKind.sineHeight, Pi.smul_apply, smul_eq_mul]
    ring

/-- The hypotheses hold for runs with relaxation, diffusion and a mountain of height `ε` in the actual wind. -/
example (q : grid30.Spc) : ∃ (M : ℝ → BModel grid30) (R : ℝ → ℝ → grid30.Spc → grid30.Fld) (R' : ℝ → grid30.Spc → grid30.Spc → grid30.Fld)
    (sf : ℝ → St PyTime grid30) (saved : ℝ → List (St PyTime grid30)),
    (∀ ε, (M ε).diffusionCoeff = 1 ∧ (M ε).diffusionOrder = 2 ∧ (M ε).diffusionBg = none) ∧ (∀ ε, (M ε).ForcedBy (R ε)) ∧ ForcingExpands R R' ∧
    ∀ ε, (M ε).Returns wave30 ⟨.num 0, q⟩ (.num 1) (.num 30) 0 (sf ε) (saved ε) := by
  let o : ℝ → Orog := fun ε => ⟨.gaussian (ε * 1) 0 0 1 1, 1, .act 1, none⟩
  have hh : ∃ h : grid30.Fld, ∀ ε, (o ε).kind.orography grid30 = .ok (ε • h) := by
    obtain ⟨h, h1, -⟩ := (C150_mountains grid30 1 1 0 0 1 1 0).1
    refine ⟨h, fun ε => ?_⟩
    obtain ⟨h', h2, h3⟩ := (C150_mountains grid30 ε 1 0 0 1 1 0).1
    rw [h1] at h2
    injection h2 with h2
    rw [h2]
    exact h3
  obtain ⟨h, hh⟩ := hh
  obtain ⟨A, hA, hL⟩ := C150_orography (S := wave30) wave30_lawful.lin o h (fun ε => rfl) hh
  obtain ⟨Q, hQ, hQ'⟩ := C150_relaxation (S := wave30) wave30_lawful.lin 1 (.num 0)
  let M : ℝ → BModel grid30 := fun ε => ⟨some (Term.sum (.linearRelaxation wave30 1 (.num 0)) (Orog.term wave30 (o ε))).toRhs, 2, 1, none⟩
  have hF : ∀ ε s, (Term.sum (.linearRelaxation wave30 1 (.num 0)) (Orog.term wave30 (o ε))).toRhs s =
      .ok (((fun _ => Q) + fun ε t q => ε • A t q : ℝ → ℝ → grid30.Spc → grid30.Fld) ε s.time.sec s.q) := fun ε s => by
    have h1 := hQ s
    have h2 := hA ε s
    rw [toRhs_ok] at h1 h2 ⊢
    unfold Term.call
    rw [h1, h2]
    rfl
  have hret : ∀ ε, ∃ sf saved, (M ε).Returns wave30 ⟨.num 0, q⟩ (.num 1) (.num 30) 0 sf saved := fun ε =>
    C42_returns (fun f hf s => by
      cases hf
      exact ⟨_, hF ε s⟩) _ _ _ _ trivial trivial (by norm_num [toSeconds]) (.inl le_rfl) (by norm_num [PyTime.sec])
  choose sf saved hret using hret
  exact ⟨M, _, _, sf, saved, fun ε => ⟨rfl, rfl, rfl⟩, fun ε => .inr ⟨_, rfl, hF ε⟩, C150_sum hQ' (C150_weak hL), hret⟩

end Barotropic
