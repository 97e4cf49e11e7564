import Verif.Props.DampedWaves
import Verif.Props.LinearResponse
import Verif.Props.WaveguideStationary
import Verif.Spec.StationaryResponse

/-!
# C151: stationary waves
-/

namespace Barotropic
open Complex

/-! ### The scalar equation -/

section
variable {μ : ℂ} {δ : ℝ}

theorem forced_steady (hδ : 0 ≤ δ) (h : μ + δ ≠ 0) (j : ℕ) : forcedOscillation μ δ j =
    ((1 - (dampedOscillation μ δ j).1) / (μ + δ), (1 - (dampedOscillation μ δ j).2) / (μ + δ)) := by
  have h1 : (1 + δ : ℂ) ≠ 0 := by
    rw [← Complex.ofReal_one, ← Complex.ofReal_add, Complex.ofReal_ne_zero]
    positivity
  have h2 : (1 + 2 * δ : ℂ) ≠ 0 := by
    rw [← Complex.ofReal_one, ← Complex.ofReal_ofNat, ← Complex.ofReal_mul, ← Complex.ofReal_add, Complex.ofReal_ne_zero]
    positivity
  induction j with
  | zero =>
    simp only [forcedOscillation, dampedOscillation, sub_self, zero_div]
    refine Prod.ext rfl ?_
    dsimp only
    field_simp
    ring
  | succ j ih =>
    have hy : (forcedOscillation μ δ (j + 1)).2 = (1 - (dampedOscillation μ δ (j + 1)).2) / (μ + δ) := by
      simp only [forcedOscillation, dampedOscillation, ih]
      have e1 := div_mul_cancel₀ (1 - (dampedOscillation μ δ j).1) h
      have e2 := div_mul_cancel₀ (1 - (dampedOscillation μ δ j).2) h
      rw [eq_div_iff h, div_mul_eq_mul_div, div_eq_iff h2, sub_mul, div_mul_cancel₀ _ h2, one_mul]
      linear_combination e1 - 2 * μ * e2
    refine Prod.ext ?_ hy
    have hx : (forcedOscillation μ δ (j + 1)).1 = (forcedOscillation μ δ j).2 + 2 / 10 * ((forcedOscillation μ δ j).1 - 2 * (forcedOscillation μ δ j).2 +
      (forcedOscillation μ δ (j + 1)).2) := rfl
    have hx' : (dampedOscillation μ δ (j + 1)).1 = (dampedOscillation μ δ j).2 + 2 / 10 * ((dampedOscillation μ δ j).1 - 2 * (dampedOscillation μ δ j).2 +
      (dampedOscillation μ δ (j + 1)).2) := rfl
    rw [hx, hy, hx', ih]
    field_simp
    ring

theorem forced_resonant (j : ℕ) : forcedOscillation 0 0 j = ((j : ℂ), (j : ℂ) + 1) := by
  induction j with
  | zero => simp [forcedOscillation]
  | succ j ih =>
    simp only [forcedOscillation, ih]
    refine Prod.ext ?_ ?_ <;> · push_cast; ring

theorem forced_real (hμ : μ.im = 0) (j : ℕ) : (forcedOscillation μ δ j).1.im = 0 ∧ (forcedOscillation μ δ j).2.im = 0 := by
  obtain ⟨m, rfl⟩ : ∃ m : ℝ, μ = (m : ℂ) := ⟨μ.re, Complex.ext rfl (by rw [hμ, ofReal_im])⟩
  suffices h : ∃ a b : ℝ, forcedOscillation m δ j = ((a : ℂ), (b : ℂ)) by
    obtain ⟨a, b, h⟩ := h
    rw [h]
    exact ⟨ofReal_im _, ofReal_im _⟩
  induction j with
  | zero => exact ⟨0, 1 / (1 + δ), by simp [forcedOscillation]⟩
  | succ j ih =>
    obtain ⟨a, b, h⟩ := ih
    refine ⟨b + 2 / 10 * (a - 2 * b + (a + 2 * (1 - m * b)) / (1 + 2 * δ)), (a + 2 * (1 - m * b)) / (1 + 2 * δ), ?_⟩
    simp only [forcedOscillation, h]
    push_cast
    rfl

end

/-! ### Linearisation about a solid-body rotation -/

variable {N : ℕ → ℕ → ℝ} {g : Grid ℝ} {B : ℕ} {S : g.Sph}

/-- The advection in `tangentRate` -/
private noncomputable def adv (S : g.Sph) (q p : g.Spc) : g.Spc :=
  (S.getvrtdivspec (S.spectogrd q * (S.getuv p 0).1 + S.spectogrd p * (S.getuv (q - S.grdtospec g.fcor2) 0).1)
    (S.spectogrd q * (S.getuv p 0).2 + S.spectogrd p * (S.getuv (q - S.grdtospec g.fcor2) 0).2)).2

private theorem tangent_adv (q p : g.Spc) (F : g.Fld) : tangentRate S q p F = S.grdtospec F - adv S q p := rfl

private theorem uv_add (hS : S.IsLinear) (a a' : g.Spc) : S.getuv (a + a') 0 = S.getuv a 0 + S.getuv a' 0 := by
  have := hS.getuv_add a a' 0 0
  rwa [add_zero] at this

private theorem adv_add (hS : S.IsLinear) (q p p' : g.Spc) : adv S q (p + p') = adv S q p + adv S q p' := by
  unfold adv
  rw [uv_add hS, hS.spectogrd_add, ← Prod.snd_add, ← hS.getvrtdiv_add]
  congr 2 <;>
  · simp only [Prod.fst_add, Prod.snd_add]
    ring

private theorem adv_flux (hS : S.IsLinear) (q p : g.Spc) :
    (⟨0, q + p⟩ : St ℝ g).pvFluxSpectral S - (⟨0, q + -p⟩ : St ℝ g).pvFluxSpectral S = (2 : ℝ) • adv S q p := by
  have e : ∀ a : g.Spc, (⟨0, a⟩ : St ℝ g).pvFluxSpectral S = (S.getvrtdivspec
      (S.spectogrd a * (S.getuv (a - S.grdtospec g.fcor2) 0).1) (S.spectogrd a * (S.getuv (a - S.grdtospec g.fcor2) 0).2)).2 := fun a => rfl
  have dadd : ∀ w w' : g.Fld × g.Fld, (S.getvrtdivspec (w + w').1 (w + w').2).2 = (S.getvrtdivspec w.1 w.2).2 + (S.getvrtdivspec w'.1 w'.2).2 :=
    fun w w' => congrArg Prod.snd (hS.getvrtdiv_add w.1 w'.1 w.2 w'.2)
  have hsub := sub_of_add (φ := fun w : g.Fld × g.Fld => (S.getvrtdivspec w.1 w.2).2) dadd
  have hneg : S.spectogrd (-p) = -S.spectogrd p := by
    have := hS.spectogrd_smul (-1) p
    simpa using this
  have hnegw : S.getuv (-p) 0 = -S.getuv p 0 := by
    have := hS.getuv_smul (-1) p 0
    simpa using this
  have w1 : S.getuv (q + p - S.grdtospec g.fcor2) 0 = S.getuv (q - S.grdtospec g.fcor2) 0 + S.getuv p 0 := by
    rw [← uv_add hS]
    congr 1
    abel
  have w2 : S.getuv (q + -p - S.grdtospec g.fcor2) 0 = S.getuv (q - S.grdtospec g.fcor2) 0 + -S.getuv p 0 := by
    rw [← hnegw, ← uv_add hS]
    congr 1
    abel
  rw [e, e, w1, w2, hS.spectogrd_add, hS.spectogrd_add, hneg]
  obtain ⟨Q, hQ⟩ : ∃ Q, Q = S.spectogrd q := ⟨_, rfl⟩
  obtain ⟨P, hP⟩ : ∃ P, P = S.spectogrd p := ⟨_, rfl⟩
  obtain ⟨U, hU⟩ : ∃ U, U = S.getuv (q - S.grdtospec g.fcor2) 0 := ⟨_, rfl⟩
  obtain ⟨V, hV⟩ : ∃ V, V = S.getuv p 0 := ⟨_, rfl⟩
  have := hsub ((Q + P) * (U + V).1, (Q + P) * (U + V).2) ((Q + -P) * (U + -V).1, (Q + -P) * (U + -V).2)
  dsimp only at this
  unfold adv
  rw [← hQ, ← hP, ← hU, ← hV, ← this, ← Prod.smul_snd, ← hS.getvrtdiv_smul]
  congr 2 <;>
  · funext j i
    simp only [Prod.mk_sub_mk, Prod.fst_add, Prod.snd_add, Prod.fst_neg, Prod.snd_neg, Pi.sub_apply, Pi.add_apply, Pi.mul_apply, Pi.neg_apply, Pi.smul_apply, smul_eq_mul]
    ring

private theorem adv_single (hg : g.Valid) (h : Spharm.Exact N B S) (W : ℝ) {n : ℕ} (hn : 1 ≤ n) (hT : 2 * n ≤ g.ntrunc) (hB : 2 * n ≤ B) {a : g.Spc}
    (ha : SingleDegree n a) (k) : adv S (solidRotation N W) a k = I * (specM k * waveSpeed g.omega W (specN k) : ℝ) * a k := by
  have e := congrFun (adv_flux (S := S) h.linear (solidRotation N W) a) k
  rw [C107_wave hg h _ hn hT hB ha rfl, C107_wave hg h _ hn hT hB (fun k hk => by simp [ha k hk] : SingleDegree n (-a)) rfl] at e
  simp only [Pi.sub_apply, Pi.neg_apply, Pi.smul_apply, Complex.real_smul] at e
  by_cases hk : specN k = n
  · rw [hk]
    push_cast at e ⊢
    linear_combination -(1 / 2) * e
  · rw [ha k hk] at e ⊢
    push_cast at e
    linear_combination -(1 / 2) * e

/-- C151: about a solid-body rotation the linearised budget of PV is that of independent waves with the phase speeds of C107. -/
theorem C151_modes (hg : g.Valid) (h : Spharm.Exact N B S) (W : ℝ) {D : ℕ} (hT : 2 * D ≤ g.ntrunc) (hB : 2 * D ≤ B) {p : g.Spc}
    (hp : WaveBand D p) (F : g.Fld) (k) :
    tangentRate S (solidRotation N W) p F k = S.grdtospec F k - I * (specM k * waveSpeed g.omega W (specN k) : ℝ) * p k := by
  rw [tangent_adv, Pi.sub_apply]
  congr 1
  let c : ℕ → g.Spc := fun n k => if specN k = n + 1 then p k else 0
  have hsum : p = ∑ n ∈ Finset.range D, c n := by
    funext k
    rw [Finset.sum_apply]
    by_cases hk : specN k = 0 ∨ D < specN k
    · rw [hp k hk]
      refine (Finset.sum_eq_zero fun n hn => ?_).symm
      simp only [c]
      split_ifs
      · exact hp k hk
      · rfl
    · rw [Finset.sum_eq_single (specN k - 1)]
      · simp only [c]
        rw [if_pos (by omega)]
      · intro n _ hn
        simp only [c]
        rw [if_neg (by omega)]
      · intro hn
        exact absurd (Finset.mem_range.mpr (by omega)) hn
  have hmap : ∀ s : Finset ℕ, adv S (solidRotation N W) (∑ n ∈ s, c n) = ∑ n ∈ s, adv S (solidRotation N W) (c n) := fun s =>
    map_sum (AddMonoidHom.mk' (adv S (solidRotation N W)) (adv_add h.linear _)) c s
  rw [hsum, hmap, Finset.sum_apply, Finset.sum_apply, Finset.mul_sum]
  refine Finset.sum_congr rfl fun n hn => ?_
  have hn' := Finset.mem_range.mp hn
  exact adv_single hg h W (by omega) (by omega) (by omega) (fun k hk => if_neg hk : SingleDegree (n + 1) (c n)) k

/-! ### Runs -/

private theorem rotation_synthesis (h : Spharm.Exact N B S) (hT : 1 ≤ g.ntrunc) (W : ℝ) : S.spectogrd (solidRotation N W) = rotationField g W := by
  rw [h.synthesis]
  funext j i
  exact harmonicSum_solid h.norm_ne hT W _ _

private theorem damping_rate (M : BModel g) (k : Fin (nspec g.ntrunc)) :
    (M.diffusionCoeff * ((specN k : ℂ) * (specN k + 1) / (g.rsphere : ℂ) ^ 2) ^ M.diffusionOrder : ℂ) = (M.diffusionRate (specN k) : ℝ) := by
  unfold BModel.diffusionRate
  push_cast
  rfl

variable {M : ℝ → BModel g} {rate W : ℝ} {A : ℝ → g.Spc → g.Fld}

private theorem rate_nonneg (hg : g.Valid) (hM : WeaklyForced S M rate W A) (n : ℕ) : 0 ≤ (M 0).diffusionRate n := by
  unfold BModel.diffusionRate
  have := hg.rsphere_pos
  have := hM.nonneg
  positivity

/-- Without the weak forcing the solid-body rotation is kept. -/
private theorem base_steady (hg : g.Valid) (h : Spharm.Exact N B S) (hM : WeaklyForced S M rate W A) (hT : 2 ≤ g.ntrunc) (hB : 2 ≤ B) {s : St PyTime g}
    (hs : s.q = solidRotation N W) {dt : PyDelta} (hd : 0 < toSeconds dt) {n : ℕ} {x y : ℕ → St PyTime g} (hx : (M 0).Scheme S s dt n x y) :
    ∀ j ≤ n, (x j).q = solidRotation N W ∧ (y j).q = solidRotation N W := by
  have hback : ∀ k (z : ℂ), ((M 0).diffusionRate (specN k) : ℂ) * (z - (M 0).background S k) = (M 0).diffusionRate (specN k) * (z - (solidRotation N W : g.Spc) k) := by
    intro k z
    rcases hM.background with h0 | hb | ⟨hb, hW⟩
    · unfold BModel.diffusionRate
      rw [h0]; simp
    · unfold BModel.background
      rw [hb]
      dsimp only
      rw [rotation_analysis h (by omega) (by omega)]
    · unfold BModel.background
      rw [hb, hW]
      simp [solidRotation]
  have hrate : ∀ (w : St PyTime g) {F : g.Fld}, w.q = solidRotation N W → (M 0).Forced w F → pvBudget S (w.pv S) (w.u S) (w.v S) F = 0 := by
    intro w F hw hF
    rw [forced_unique (hM.forced 0) w hF, galerkinRate_eq, hw]
    have e1 : (fun j i => rate * (rotationField g W j i - S.spectogrd (solidRotation N W) j i)) + (0 : ℝ) • A w.time.sec (solidRotation N W) = 0 := by
      rw [rotation_synthesis h (by omega)]
      funext j i
      simp
    have e2 := C107_wave hg h (⟨w.time.sec, solidRotation N W + 0⟩ : St ℝ g) le_rfl hT hB (fun _ _ => rfl : SingleDegree 1 (0 : g.Spc)) rfl
    rw [add_zero] at e2
    rw [e1, e2]
    have := h.analysis_smul 0 0
    rw [zero_smul, zero_smul] at this
    rw [this]
    funext k
    simp
  have hstep : ∀ {τ : ℝ} {new : g.Spc}, 0 ≤ τ → (M 0).ImplicitStep S τ (solidRotation N W) 0 new → new = solidRotation N W := by
    intro τ new hτ hst
    funext k
    have h1 := hst k
    rw [damping_rate, hback, Pi.zero_apply] at h1
    have hne : ((1 + τ * (M 0).diffusionRate (specN k) : ℝ) : ℂ) ≠ 0 := by
      rw [Complex.ofReal_ne_zero]
      have := rate_nonneg hg hM (specN k)
      positivity
    have h2 : (new k - (solidRotation N W : g.Spc) k) * ((1 + τ * (M 0).diffusionRate (specN k) : ℝ) : ℂ) = 0 := by
      push_cast
      linear_combination h1
    exact sub_eq_zero.mp ((mul_eq_zero.mp h2).resolve_right hne)
  intro j
  induction j with
  | zero =>
    intro _
    obtain ⟨F, hF, hst⟩ := hx.euler
    rw [hrate s hs hF, hs] at hst
    exact ⟨by rw [hx.start, hs], hstep hd.le hst⟩
  | succ j ih =>
    intro hj
    obtain ⟨i1, i2⟩ := ih (by omega)
    obtain ⟨F, hF, hst⟩ := hx.leapfrog j (by omega)
    rw [hrate _ i2 hF, i1] at hst
    have hy := hstep (by positivity) hst
    refine ⟨?_, hy⟩
    funext m
    rw [hx.filter j (by omega) m, i1, i2, hy]
    ring

/-- The linearised integration about the solid-body rotation -/
private theorem tangent_modes (hg : g.Valid) (h : Spharm.Exact N B S) (hM : WeaklyForced S M rate W A) {D : ℕ} (hT : 2 * D ≤ g.ntrunc) (hB : 2 * D ≤ B)
    {F : g.Fld} (hF : ∀ t, A t (solidRotation N W) = F) (hFb : WaveBand D (S.grdtospec F)) {dt : PyDelta} (hd : 0 < toSeconds dt) {n : ℕ}
    {x y : ℕ → St PyTime g} (hxy : ∀ j ≤ n, (x j).q = solidRotation N W ∧ (y j).q = solidRotation N W) {ξ η : ℕ → g.Spc}
    (hξ : (M 0).TangentScheme S (fun t q p => (-rate) • S.spectogrd p + A t q) dt n x y 0 ξ η) :
    ∀ j ≤ n, (ξ j = fun k => (forcedOscillation (modeRate g rate W (specN k) (toSeconds dt) k) ((M 0).diffusionRate (specN k) * toSeconds dt) j).1 * (toSeconds dt * S.grdtospec F k)) ∧
      η j = fun k => (forcedOscillation (modeRate g rate W (specN k) (toSeconds dt) k) ((M 0).diffusionRate (specN k) * toSeconds dt) j).2 * (toSeconds dt * S.grdtospec F k) := by
  have step : ∀ (r t : ℝ) {f e : Fin (nspec g.ntrunc) → ℂ} {old q new : g.Spc}, 0 ≤ r → (∀ k, specM k = 0 → (f k).im = 0) →
      old = (fun k => e k * (toSeconds dt * S.grdtospec F k)) →
      q = (fun k => f k * (toSeconds dt * S.grdtospec F k)) →
      (M 0).TangentStep (r * toSeconds dt) old (tangentRate S (solidRotation N W) q ((-rate) • S.spectogrd q + A t (solidRotation N W))) new →
      ∀ k, new k = (e k + r * (1 - modeRate g rate W (specN k) (toSeconds dt) k * f k)) / (1 + r * ((M 0).diffusionRate (specN k) * toSeconds dt : ℝ)) *
        (toSeconds dt * S.grdtospec F k) := by
    intro r t f e old q new hr hf hold hq hst k
    have hqb : WaveBand D q := fun k hk => by rw [hq]; simp [hFb k hk]
    have hqr : RealZonal q := fun k hk => by
      have h1 := hf k hk
      have h2 := h.analysis_real F k hk
      rw [hq]
      simp [Complex.mul_im, h1, h2]
    have h1 := hst k
    have han : S.grdtospec ((-rate) • S.spectogrd q + A t (solidRotation N W)) k = S.grdtospec F k - rate * q k := by
      rw [h.analysis_add, h.analysis_smul, h.analysis q hqr fun k hk => hqb k (.inr (by omega)), hF]
      simp only [Pi.add_apply, Pi.smul_apply, Complex.real_smul]
      push_cast
      ring
    rw [C151_modes hg h W hT hB hqb, han, damping_rate] at h1
    have hpos : (0 : ℝ) < 1 + r * ((M 0).diffusionRate (specN k) * toSeconds dt) := by
      have := rate_nonneg hg hM (specN k)
      positivity
    have hne : (1 + r * ((M 0).diffusionRate (specN k) * toSeconds dt : ℝ) : ℂ) ≠ 0 := by
      have := Complex.ofReal_ne_zero.mpr hpos.ne'
      push_cast at this ⊢
      exact this
    rw [div_mul_eq_mul_div, eq_div_iff hne]
    have h2 : old k = e k * (toSeconds dt * S.grdtospec F k) := by rw [hold]
    have h3 : q k = f k * (toSeconds dt * S.grdtospec F k) := by rw [hq]
    rw [h2, h3] at h1
    unfold modeRate
    push_cast at h1 ⊢
    linear_combination h1
  intro j
  have hreal : ∀ j k, specM k = 0 → (forcedOscillation (modeRate g rate W (specN k) (toSeconds dt) k) ((M 0).diffusionRate (specN k) * toSeconds dt) j).2.im = 0 :=
    fun j k hk => (forced_real (by rw [modeRate_im, hk]; simp) j).2
  induction j with
  | zero =>
    intro _
    refine ⟨by rw [hξ.start]; funext k; simp [forcedOscillation], ?_⟩
    have he := hξ.euler
    rw [(hxy 0 (by omega)).1, hξ.start] at he
    funext k
    rw [← one_mul (toSeconds dt)] at he
    have := step 1 _ (f := fun _ => 0) (e := fun _ => 0) zero_le_one (fun _ _ => rfl) (by funext k; simp) (by funext k; simp) he k
    rw [this]
    simp [forcedOscillation]
  | succ j ih =>
    intro hj
    obtain ⟨i1, i2⟩ := ih (by omega)
    have he := hξ.leapfrog j (by omega)
    rw [(hxy j (by omega)).2] at he
    have hy : η (j + 1) = fun k => (forcedOscillation (modeRate g rate W (specN k) (toSeconds dt) k) ((M 0).diffusionRate (specN k) * toSeconds dt) (j + 1)).2 *
        (toSeconds dt * S.grdtospec F k) := by
      funext k
      rw [step 2 _ zero_le_two (hreal j) i1 i2 he k]
      simp only [forcedOscillation]
      push_cast
      ring
    refine ⟨?_, hy⟩
    funext k
    rw [hξ.filter j (by omega) k, i1, i2, hy]
    simp only [forcedOscillation]
    ring

private theorem relaxation_expands (hS : S.IsLinear) (rate W : ℝ) :
    ForcingExpands (fun (_ _ : ℝ) (q : g.Spc) j i => rate * (rotationField g W j i - S.spectogrd q j i)) (fun _ _ p => (-rate) • S.spectogrd p) := by
  obtain ⟨R, hR, hE⟩ := C150_relaxation hS rate (.fld (rotationField g W))
  have : R = fun (_ : ℝ) (q : g.Spc) j i => rate * (rotationField g W j i - S.spectogrd q j i) := by
    funext t q
    have e := hR ⟨.num t, q⟩
    have e' : (Term.linearRelaxation S rate (.fld (rotationField g W))).toRhs ⟨.num t, q⟩ = .ok fun j i => rate * (rotationField g W j i - S.spectogrd q j i) := rfl
    rw [e'] at e
    injection e with e
    exact e.symm
  rwa [this] at hE

/-- C151: response of a solid-body rotation to a weak forcing: each mode of PV follows the discretised equation of a forced and damped oscillation,
with an error of second order in the amplitude of the forcing. -/
theorem C151_response (hg : g.Valid) (h : Spharm.Exact N B S) (hM : WeaklyForced S M rate W A) (hA : ∀ t, LipschitzForcing A t t) {D : ℕ} (hD : 1 ≤ D)
    (hT : 2 * D ≤ g.ntrunc) (hB : 2 * D ≤ B) {F : g.Fld} (hF : ∀ t, A t (solidRotation N W) = F) (hFb : WaveBand D (S.grdtospec F)) (s : St PyTime g)
    (hs : s.q = solidRotation N W) (dt : PyDelta) (tend : PyTime) (se : ℝ) (hc : s.time.Compatible dt) (hk : s.time.SameKind tend) (hd : 0 < toSeconds dt)
    (sf : ℝ → St PyTime g) (saved : ℝ → List (St PyTime g)) (hret : ∀ ε, (M ε).Returns S s dt tend se (sf ε) (saved ε)) :
    ∃ C, ∀ ε, |ε| ≤ 1 → ∀ w ∈ sf ε :: saved ε, ∃ j : ℕ, w.time.sec - s.time.sec = j * toSeconds dt ∧ ∀ k,
      ‖w.q k - (solidRotation N W : g.Spc) k - ε * ((forcedOscillation (modeRate g rate W (specN k) (toSeconds dt) k)
        ((M 0).diffusionRate (specN k) * toSeconds dt) j).1 * (toSeconds dt * S.grdtospec F k))‖ ≤ C * ε ^ 2 := by
  obtain ⟨n, x, y, ξ, η, C, hx, hξ, -, hall⟩ := C150_linear_response h.linear hM.nonneg hM.same hM.forced
    (C150_sum (relaxation_expands h.linear rate W) (C150_weak hA)) (fun _ => s) (fun _ => rfl) 0 ⟨0, fun ε _ => by simp⟩ dt tend se hc hk hd sf saved hret
  have hbase := base_steady hg h hM (by omega) (by omega) hs hd hx
  have hmodes := tangent_modes hg h hM hT hB hF hFb hd hbase hξ
  refine ⟨C, fun ε hε w hw => ?_⟩
  obtain ⟨⟨j, hj, hjt⟩, hw'⟩ := (hall ε hε).2 w hw
  refine ⟨j, by rw [hjt, (hx.times j hj).1, sec_stepTime hc]; ring, fun k => ?_⟩
  have h1 := (norm_le_pi_norm _ k).trans (hw' j hj hjt).1
  rw [(hbase j hj).1, (hmodes j hj).1] at h1
  exact h1

/-- Steady state of the mode -/
private theorem impedance_eq (Δ : ℝ) (k : Fin (nspec g.ntrunc)) :
    modeRate g rate W (specN k) Δ k + (((M 0).diffusionRate (specN k) * Δ : ℝ) : ℂ) = Δ * (M 0).impedance rate W k := by
  unfold modeRate BModel.impedance
  push_cast
  ring

/-- C151: stationary waves. If the time step is stable for all forced modes, then after a sufficiently long time the change of PV is that of the stationary wave:
the forcing divided by rates of damping and frequency, apart from an error of second order in the amplitude of the forcing. -/
theorem C151_stationary (hg : g.Valid) (h : Spharm.Exact N B S) (hM : WeaklyForced S M rate W A) (hrate : 0 ≤ rate) (hA : ∀ t, LipschitzForcing A t t) {D : ℕ}
    (hD : 1 ≤ D) (hT : 2 * D ≤ g.ntrunc) (hB : 2 * D ≤ B) {F : g.Fld} (hF : ∀ t, A t (solidRotation N W) = F) (hFb : WaveBand D (S.grdtospec F))
    (s : St PyTime g) (hs : s.q = solidRotation N W) (dt : PyDelta) (hc : s.time.Compatible dt) (hd : 0 < toSeconds dt)
    (hm : ∀ k, S.grdtospec F k ≠ 0 → 0 < stabilityMargin (1 / (1 + 2 * ((M 0).diffusionRate (specN k) * toSeconds dt))) (modeRate g rate W (specN k) (toSeconds dt) k))
    {η : ℝ} (hη : 0 < η) :
    ∃ τ : ℝ, ∀ (tend : PyTime) (se : ℝ) (sf : ℝ → St PyTime g) (saved : ℝ → List (St PyTime g)), s.time.SameKind tend →
      (∀ ε, (M ε).Returns S s dt tend se (sf ε) (saved ε)) → ∃ C, ∀ ε, |ε| ≤ 1 → ∀ w ∈ sf ε :: saved ε, τ ≤ w.time.sec - s.time.sec → ∀ k,
        ‖w.q k - (solidRotation N W : g.Spc) k - ε * (S.grdtospec F k / (M 0).impedance rate W k)‖ ≤ |ε| * η + C * ε ^ 2 := by
  have mode : ∀ k, ∃ J : ℕ, ∀ j, J ≤ j → ‖(forcedOscillation (modeRate g rate W (specN k) (toSeconds dt) k) ((M 0).diffusionRate (specN k) * toSeconds dt) j).1 *
      (toSeconds dt * S.grdtospec F k) - S.grdtospec F k / (M 0).impedance rate W k‖ ≤ η := by
    intro k
    by_cases hk : S.grdtospec F k = 0
    · exact ⟨0, fun j _ => by rw [hk]; simpa using hη.le⟩
    have hδ : 0 ≤ (M 0).diffusionRate (specN k) * toSeconds dt := mul_nonneg (rate_nonneg hg hM _) hd.le
    have hμ : 0 ≤ (modeRate g rate W (specN k) (toSeconds dt) k).re := by rw [modeRate_re]; positivity
    have hmk := hm k hk
    have hdc : ((toSeconds dt : ℝ) : ℂ) ≠ 0 := Complex.ofReal_ne_zero.mpr hd.ne'
    have hne : modeRate g rate W (specN k) (toSeconds dt) k + (((M 0).diffusionRate (specN k) * toSeconds dt : ℝ) : ℂ) ≠ 0 := by
      intro h0
      have r0 := congrArg Complex.re h0
      have i0 := congrArg Complex.im h0
      rw [add_re, ofReal_re, zero_re] at r0
      rw [add_im, ofReal_im, zero_im, add_zero] at i0
      have d0 : (M 0).diffusionRate (specN k) * toSeconds dt = 0 := by linarith
      have m0 : (modeRate g rate W (specN k) (toSeconds dt) k).re = 0 := by linarith
      rw [d0] at hmk
      unfold stabilityMargin at hmk
      rw [i0, m0] at hmk
      norm_num at hmk
    have himp : (M 0).impedance rate W k ≠ 0 := by
      rw [impedance_eq] at hne
      exact right_ne_zero_of_mul hne
    obtain ⟨C, r, hC, hr0, hr1, hz⟩ := damped_stable hδ hμ hmk
    have hlim : Filter.Tendsto (fun j : ℕ => C * r ^ j * (‖S.grdtospec F k‖ / ‖(M 0).impedance rate W k‖)) Filter.atTop (nhds 0) := by
      have := ((tendsto_pow_atTop_nhds_zero_of_lt_one hr0.le hr1).const_mul C).mul_const (‖S.grdtospec F k‖ / ‖(M 0).impedance rate W k‖)
      simpa using this
    obtain ⟨J, hJ⟩ := Filter.eventually_atTop.mp (hlim.eventually (gt_mem_nhds hη))
    refine ⟨J, fun j hj => ?_⟩
    rw [forced_steady hδ hne]
    dsimp only
    have e : (1 - (dampedOscillation (modeRate g rate W (specN k) (toSeconds dt) k) ((M 0).diffusionRate (specN k) * toSeconds dt) j).1) /
        (modeRate g rate W (specN k) (toSeconds dt) k + (((M 0).diffusionRate (specN k) * toSeconds dt : ℝ) : ℂ)) * (toSeconds dt * S.grdtospec F k) -
        S.grdtospec F k / (M 0).impedance rate W k =
        -((dampedOscillation (modeRate g rate W (specN k) (toSeconds dt) k) ((M 0).diffusionRate (specN k) * toSeconds dt) j).1 *
          (S.grdtospec F k / (M 0).impedance rate W k)) := by
      rw [impedance_eq]
      field_simp
      ring
    rw [e, norm_neg, norm_mul, norm_div]
    exact (mul_le_mul_of_nonneg_right (hz j) (by positivity)).trans (hJ j hj).le
  choose J hJ using mode
  refine ⟨(∑ k, J k : ℕ) * toSeconds dt, fun tend se sf saved hk hret => ?_⟩
  obtain ⟨C, hC⟩ := C151_response hg h hM hA hD hT hB hF hFb s hs dt tend se hc hk hd sf saved hret
  refine ⟨C, fun ε hε w hw hτ k => ?_⟩
  obtain ⟨j, hj, hk'⟩ := hC ε hε w hw
  rw [hj] at hτ
  have hj' : ∑ k, J k ≤ j := by exact_mod_cast le_of_mul_le_mul_right hτ hd
  have h1 := hJ k j ((Finset.single_le_sum (f := J) (fun _ _ => Nat.zero_le _) (Finset.mem_univ k)).trans hj')
  have h2 := hk' k
  obtain ⟨z, hz⟩ : ∃ z, z = (forcedOscillation (modeRate g rate W (specN k) (toSeconds dt) k) ((M 0).diffusionRate (specN k) * toSeconds dt) j).1 *
      (toSeconds dt * S.grdtospec F k) := ⟨_, rfl⟩
  rw [← hz] at h1 h2
  have e : w.q k - (solidRotation N W : g.Spc) k - ε * (S.grdtospec F k / (M 0).impedance rate W k) =
      ε * (z - S.grdtospec F k / (M 0).impedance rate W k) + (w.q k - (solidRotation N W : g.Spc) k - ε * z) := by ring
  rw [e]
  refine (norm_add_le _ _).trans (add_le_add ?_ h2)
  rw [norm_mul, Complex.norm_real, Real.norm_eq_abs]
  exact mul_le_mul_of_nonneg_left h1 (abs_nonneg _)

/-- C151: resonance. A forced mode that is neither damped nor moving grows in proportion to time. -/
theorem C151_resonance (hg : g.Valid) (h : Spharm.Exact N B S) (hM : WeaklyForced S M rate W A) (hA : ∀ t, LipschitzForcing A t t) {D : ℕ} (hD : 1 ≤ D)
    (hT : 2 * D ≤ g.ntrunc) (hB : 2 * D ≤ B) {F : g.Fld} (hF : ∀ t, A t (solidRotation N W) = F) (hFb : WaveBand D (S.grdtospec F)) (s : St PyTime g)
    (hs : s.q = solidRotation N W) (dt : PyDelta) (tend : PyTime) (se : ℝ) (hc : s.time.Compatible dt) (hk : s.time.SameKind tend) (hd : 0 < toSeconds dt)
    (sf : ℝ → St PyTime g) (saved : ℝ → List (St PyTime g)) (hret : ∀ ε, (M ε).Returns S s dt tend se (sf ε) (saved ε)) :
    ∃ C, ∀ ε, |ε| ≤ 1 → ∀ w ∈ sf ε :: saved ε, ∀ k, rate = 0 → (M 0).diffusionRate (specN k) = 0 → (M 0).impedance rate W k = 0 →
      ‖w.q k - (solidRotation N W : g.Spc) k - ε * ((w.time.sec - s.time.sec : ℝ) * S.grdtospec F k)‖ ≤ C * ε ^ 2 := by
  obtain ⟨C, hC⟩ := C151_response hg h hM hA hD hT hB hF hFb s hs dt tend se hc hk hd sf saved hret
  refine ⟨C, fun ε hε w hw k h0 h1 h2 => ?_⟩
  obtain ⟨j, hj, hk'⟩ := hC ε hε w hw
  have h3 := hk' k
  have h4 := impedance_eq (M := M) (rate := rate) (W := W) (toSeconds dt) k
  rw [h2, h1, zero_mul, mul_zero, ofReal_zero, add_zero] at h4
  rw [h4, h1, zero_mul, forced_resonant] at h3
  rw [hj]
  push_cast
  convert h3 using 2
  ring

/-- C151: waves are stationary if their total wavenumber is the stationary wavenumber of the solid-body rotation at the equator; the response to a given forcing is the stronger the
less they differ. -/
theorem C151_wavenumber (hg : g.Valid) (M : BModel g) (rate W : ℝ) (hW : W ≠ g.omega) (k : Fin (nspec g.ntrunc)) :
    (M.impedance rate W k).re = rate + M.diffusionRate (specN k) ∧
    (M.impedance rate W k).im = specM k * (W - g.omega) *
      (1 - stationarySq g.rsphere (fun φ => 2 * W * Real.sin φ) (fun φ => g.rsphere * (W - g.omega) * Real.cos φ) 0 / (specN k * (specN k + 1))) := by
  have hne : W - g.omega ≠ 0 := sub_ne_zero.mpr hW
  have e := stationarySq_solid hg.rsphere_pos.ne' (Ω := g.omega) hne 0
  rw [show g.omega + (W - g.omega) = W by ring] at e
  rw [e]
  unfold BModel.impedance waveSpeed
  refine ⟨?_, ?_⟩
  · rw [add_re, ofReal_re, I_mul_re, ofReal_im]
    ring
  · rw [add_im, ofReal_im, I_mul_im, ofReal_re, zero_add, Real.cos_zero]
    by_cases hn : (specN k : ℝ) * (specN k + 1) = 0
    · rw [hn]; simp
    · field_simp

/-! Non-vacuity: a forced mode with relaxation, diffusion and a stable time step -/

example : ∃ (g : Grid ℝ) (S : g.Sph) (M : ℝ → BModel g) (A : ℝ → g.Spc → g.Fld) (F : g.Fld) (k : Fin (nspec g.ntrunc)), g.Valid ∧
    Spharm.Exact (fun _ _ => 1) 5 S ∧ WeaklyForced S M (1 / 20) 1 A ∧ (∀ t, LipschitzForcing A t t) ∧ 2 * 2 ≤ g.ntrunc ∧
    (∀ t, A t (solidRotation (fun _ _ => 1) 1) = F) ∧ WaveBand 2 (S.grdtospec F) ∧ S.grdtospec F k ≠ 0 ∧
    (∀ k, S.grdtospec F k ≠ 0 → 0 < stabilityMargin (1 / (1 + 2 * ((M 0).diffusionRate (specN k) * 1))) (modeRate g (1 / 20) 1 (specN k) 1 k)) ∧
    ∀ ε, ∃ sf saved, (M ε).Returns S ⟨.num 0, solidRotation (fun _ _ => 1) 1⟩ (.num 1) (.num 30) 0 sf saved := by
  have h7 : ({ grid30 with ntrunc := 6 } : Grid ℝ).nlat = 7 := by unfold Grid.nlat Grid.nlatOf grid30; norm_num
  obtain ⟨S, h, -⟩ := C105_exists (N := fun _ _ => 1) (B := 5) grid30_default_valid (by rw [h7]) (fun _ _ => one_ne_zero)
  obtain ⟨k, hk2, hk1⟩ := exists_mode (T := 6) (n := 2) (m := 1) (by norm_num) (by norm_num)
  have hsp : waveSpeed ({ grid30 with ntrunc := 6 } : Grid ℝ).omega 1 2 = -(1 / 3) := by unfold waveSpeed grid30; norm_num
  have har : RealZonal (oneMode k 1) := fun l _ => by
    unfold oneMode
    split_ifs <;> simp
  have hdeg : ∀ l, specN l ≠ 2 → oneMode k 1 l = 0 := fun l hl => by
    unfold oneMode
    rw [if_neg]
    rintro rfl
    exact hl hk2
  have hF : S.grdtospec (S.spectogrd (oneMode k 1)) = oneMode k 1 := h.analysis _ har fun l hl => hdeg l (by omega)
  let M : ℝ → BModel ({ grid30 with ntrunc := 6 } : Grid ℝ) := fun ε =>
    ⟨some (Term.sum (.linearRelaxation S (1 / 20) (.fld (rotationField _ 1))) (.func fun _ => .ok (.fld (ε • S.spectogrd (oneMode k 1))))).toRhs, 1, 1,
      some (rotationField _ 1)⟩
  have hM : WeaklyForced S M (1 / 20) 1 fun _ _ => S.spectogrd (oneMode k 1) :=
    ⟨fun ε => ⟨rfl, rfl, rfl⟩, zero_le_one, .inr (.inl rfl), fun ε => .inr ⟨_, rfl, fun s => rfl⟩⟩
  have hR : BModel.RelaxesTo S (⟨some (Term.linearRelaxation S (1 / 20) (.fld (rotationField _ 1))).toRhs, 1, 1, some (rotationField _ 1)⟩ :
      BModel ({ grid30 with ntrunc := 6 } : Grid ℝ)) (1 / 20) 1 :=
    ⟨.inr ⟨_, fun _ _ => rfl, rfl⟩, zero_le_one, .inr (.inl rfl)⟩
  refine ⟨{ grid30 with ntrunc := 6 }, S, M, fun _ _ => S.spectogrd (oneMode k 1), S.spectogrd (oneMode k 1), k, grid30_default_valid, h, hM,
    fun t B => ⟨0, fun _ _ _ _ _ _ _ _ => by simp⟩, by norm_num, fun _ => rfl, ?_, ?_, ?_, fun ε => ?_⟩
  · rw [hF]
    exact fun l hl => hdeg l (by omega)
  · rw [hF]
    simp [oneMode]
  · rw [hF]
    intro l hl
    have hlk : l = k := by
      by_contra hne
      exact hl (if_neg hne)
    subst hlk
    rw [hk2]
    refine C148_sufficient grid30_default_valid hR (by norm_num) one_pos l (.inl (by norm_num)) ?_
    rw [hsp, hk1]
    norm_num
  · exact C42_returns (fun f hf => by cases hf; exact fun s => ⟨_, rfl⟩) _ _ _ _ trivial trivial (by norm_num [toSeconds]) (.inl le_rfl) (by norm_num [PyTime.sec])

end Barotropic
