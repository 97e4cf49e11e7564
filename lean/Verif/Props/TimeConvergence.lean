import Verif.Spec.Galerkin
import Verif.Lemmas.TimeStep
import Verif.Props.Equation
import Verif.Props.Orography
import Verif.Props.Rhs
import Mathlib.Analysis.ODE.ExistUnique
import Mathlib.Topology.Algebra.Module.FiniteDimension
import Mathlib.Analysis.Normed.Module.FiniteDimension

/-!
# C114: convergence of the time integration
-/

namespace Barotropic
open Set

variable {g : Grid ℝ} {S : g.Sph} {M : BModel g}

/-! ## Bounds for linear maps between finite-dimensional spaces -/

theorem linear_bound {E F : Type*} [NormedAddCommGroup E] [NormedSpace ℝ E] [FiniteDimensional ℝ E] [NormedAddCommGroup F] [NormedSpace ℝ F]
    (φ : E → F) (ha : ∀ x y, φ (x + y) = φ x + φ y) (hs : ∀ (c : ℝ) x, φ (c • x) = c • φ x) : ∃ c, 0 ≤ c ∧ ∀ x, ‖φ x‖ ≤ c * ‖x‖ := by
  let l : E →ₗ[ℝ] F := { toFun := φ, map_add' := ha, map_smul' := hs }
  exact ⟨‖LinearMap.toContinuousLinearMap l‖, norm_nonneg _, fun x => (LinearMap.toContinuousLinearMap l).le_opNorm x⟩

theorem sub_of_add {E F : Type*} [AddCommGroup E] [AddCommGroup F] {φ : E → F} (ha : ∀ x y, φ (x + y) = φ x + φ y) (x y : E) :
    φ (x - y) = φ x - φ y := by
  rw [eq_sub_iff_add_eq, ← ha, sub_add_cancel]

/-- The advection of PV is Lipschitz continuous on bounded sets. -/
theorem flux_lipschitz (hS : S.IsLinear) (B : ℝ) : ∃ L, 0 ≤ L ∧ ∀ q q' : g.Spc, ‖q‖ ≤ B → ‖q'‖ ≤ B → ∀ t t' : ℝ,
    ‖(⟨t, q⟩ : St ℝ g).pvFluxSpectral S - (⟨t', q'⟩ : St ℝ g).pvFluxSpectral S‖ ≤ L * ‖q - q'‖ := by
  obtain ⟨cT, hcT, hT⟩ := linear_bound S.spectogrd hS.spectogrd_add hS.spectogrd_smul
  have uvadd : ∀ a a' : g.Spc, S.getuv (a + a') 0 = S.getuv a 0 + S.getuv a' 0 := fun a a' => by
    have := hS.getuv_add a a' 0 0
    rwa [add_zero] at this
  have uvsmul : ∀ (c : ℝ) (a : g.Spc), S.getuv (c • a) 0 = c • S.getuv a 0 := fun c a => by
    have := hS.getuv_smul c a 0
    rwa [smul_zero] at this
  obtain ⟨cV, hcV, hV⟩ := linear_bound (fun a : g.Spc => S.getuv a 0) uvadd uvsmul
  have dadd : ∀ w w' : g.Fld × g.Fld, (S.getvrtdivspec (w + w').1 (w + w').2).2 = (S.getvrtdivspec w.1 w.2).2 + (S.getvrtdivspec w'.1 w'.2).2 :=
    fun w w' => congrArg Prod.snd (hS.getvrtdiv_add w.1 w'.1 w.2 w'.2)
  obtain ⟨cD, hcD, hD⟩ := linear_bound (fun w : g.Fld × g.Fld => (S.getvrtdivspec w.1 w.2).2) dadd
    (fun c w => congrArg Prod.snd (hS.getvrtdiv_smul c w.1 w.2))
  set f : g.Spc := Grid.fcor2Spectral S with hf
  refine ⟨cD * (cT * |B| * cV + cT * (cV * (|B| + ‖f‖))), by positivity, fun q q' hq hq' t t' => ?_⟩
  set p := S.spectogrd q
  set p' := S.spectogrd q'
  set w := S.getuv (q - f) 0
  set w' := S.getuv (q' - f) 0
  have e : (⟨t, q⟩ : St ℝ g).pvFluxSpectral S - (⟨t', q'⟩ : St ℝ g).pvFluxSpectral S =
      (S.getvrtdivspec (p * w.1 - p' * w'.1) (p * w.2 - p' * w'.2)).2 := by
    have := sub_of_add (φ := fun w : g.Fld × g.Fld => (S.getvrtdivspec w.1 w.2).2) dadd (p * w.1, p * w.2) (p' * w'.1, p' * w'.2)
    exact this.symm
  rw [e]
  refine (hD (p * w.1 - p' * w'.1, p * w.2 - p' * w'.2)).trans ?_
  rw [mul_assoc]
  refine mul_le_mul_of_nonneg_left ?_ hcD
  have hqB : ‖q‖ ≤ |B| := hq.trans (le_abs_self B)
  have hqB' : ‖q'‖ ≤ |B| := hq'.trans (le_abs_self B)
  have hp : ‖p‖ ≤ cT * |B| := (hT q).trans (mul_le_mul_of_nonneg_left hqB hcT)
  have hpp : ‖p - p'‖ ≤ cT * ‖q - q'‖ := by
    have := hT (q - q')
    rwa [sub_of_add hS.spectogrd_add] at this
  have hw' : ‖w'‖ ≤ cV * (|B| + ‖f‖) :=
    (hV (q' - f)).trans (mul_le_mul_of_nonneg_left ((norm_sub_le _ _).trans (by linarith)) hcV)
  have hww : ‖w - w'‖ ≤ cV * ‖q - q'‖ := by
    have h1 := hV (q - q')
    have h2 : S.getuv (q - q') 0 = w - w' := by
      have := sub_of_add (φ := fun a : g.Spc => S.getuv a 0) uvadd (q - f) (q' - f)
      rwa [sub_sub_sub_cancel_right] at this
    rwa [h2] at h1
  have comp : ∀ u u' : g.Fld, ‖u - u'‖ ≤ ‖w - w'‖ → ‖u'‖ ≤ ‖w'‖ →
      ‖p * u - p' * u'‖ ≤ (cT * |B| * cV + cT * (cV * (|B| + ‖f‖))) * ‖q - q'‖ := by
    intro u u' h1 h2
    have e2 : p * u - p' * u' = p * (u - u') + (p - p') * u' := by ring
    rw [e2]
    refine (norm_add_le _ _).trans ?_
    have n1 : ‖p * (u - u')‖ ≤ cT * |B| * (cV * ‖q - q'‖) :=
      (norm_mul_le _ _).trans (mul_le_mul hp (h1.trans hww) (norm_nonneg _) (by positivity))
    have n2 : ‖(p - p') * u'‖ ≤ cT * ‖q - q'‖ * (cV * (|B| + ‖f‖)) :=
      (norm_mul_le _ _).trans (mul_le_mul hpp (h2.trans hw') (norm_nonneg _) (by positivity))
    linarith
  rw [Prod.norm_def]
  exact max_le (comp _ _ (norm_fst_le (w - w')) (norm_fst_le w')) (comp _ _ (norm_snd_le (w - w')) (norm_snd_le w'))

theorem galerkinRate_eq (R : ℝ → g.Spc → g.Fld) (t : ℝ) (q : g.Spc) :
    galerkinRate S R t q = S.grdtospec (R t q) - (⟨t, q⟩ : St ℝ g).pvFluxSpectral S := rfl

theorem rate_lipschitz (hS : S.IsLinear) {R : ℝ → g.Spc → g.Fld} {t0 t1 : ℝ} (hR : LipschitzForcing R t0 t1) (B : ℝ) : ∃ L, 0 ≤ L ∧
    ∀ t ∈ Icc t0 t1, ∀ t' ∈ Icc t0 t1, ∀ q q', ‖q‖ ≤ B → ‖q'‖ ≤ B →
      ‖galerkinRate S R t q - galerkinRate S R t' q'‖ ≤ L * (|t - t'| + ‖q - q'‖) := by
  obtain ⟨L1, hL1, h1⟩ := flux_lipschitz hS B
  obtain ⟨L2, h2⟩ := hR B
  obtain ⟨c, hc, hc'⟩ := linear_bound S.grdtospec hS.grdtospec_add hS.grdtospec_smul
  refine ⟨c * |L2| + L1, by positivity, fun t ht t' ht' q q' hq hq' => ?_⟩
  have e : galerkinRate S R t q - galerkinRate S R t' q' =
      S.grdtospec (R t q - R t' q') - ((⟨t, q⟩ : St ℝ g).pvFluxSpectral S - (⟨t', q'⟩ : St ℝ g).pvFluxSpectral S) := by
    rw [galerkinRate_eq, galerkinRate_eq, sub_of_add hS.grdtospec_add]
    abel
  rw [e]
  refine (norm_sub_le _ _).trans ?_
  have n1 := (hc' (R t q - R t' q')).trans (mul_le_mul_of_nonneg_left (h2 t ht t' ht' q q' hq hq') hc)
  have n2 := h1 q q' hq hq' t t'
  have hn : 0 ≤ |t - t'| + ‖q - q'‖ := by positivity
  have n3 : L2 * (|t - t'| + ‖q - q'‖) ≤ |L2| * (|t - t'| + ‖q - q'‖) := mul_le_mul_of_nonneg_right (le_abs_self _) hn
  have n4 := mul_le_mul_of_nonneg_left n3 hc
  have n5 : 0 ≤ L1 * |t - t'| := by positivity
  linarith

/-! ## Diffusion -/

private noncomputable def lamc (M : BModel g) (k : Fin (nspec g.ntrunc)) : ℝ :=
  M.diffusionCoeff * ((specN k : ℝ) * (specN k + 1) / g.rsphere ^ 2) ^ M.diffusionOrder

private theorem damping_eq (q : g.Spc) (k) : M.damping S q k = -((lamc M k : ℝ) : ℂ) * (q k - M.background S k) := by
  unfold BModel.damping lamc
  push_cast
  ring

private theorem lamc_nonneg (hν : 0 ≤ M.diffusionCoeff) (k) : 0 ≤ lamc M k := by
  unfold lamc; positivity

theorem damping_lipschitz (hν : 0 ≤ M.diffusionCoeff) : ∃ K, 0 ≤ K ∧ ∀ q q' : g.Spc, ‖M.damping S q - M.damping S q'‖ ≤ K * ‖q - q'‖ := by
  refine ⟨∑ k, lamc M k, Finset.sum_nonneg fun k _ => lamc_nonneg hν k, fun q q' => ?_⟩
  have hK : 0 ≤ ∑ k, lamc M k := Finset.sum_nonneg fun k _ => lamc_nonneg hν k
  rw [pi_norm_le_iff_of_nonneg (by positivity)]
  intro k
  have e : (M.damping S q - M.damping S q') k = -((lamc M k : ℝ) : ℂ) * (q - q') k := by
    rw [Pi.sub_apply, damping_eq, damping_eq, Pi.sub_apply]
    ring
  rw [e, norm_mul, norm_neg, Complex.norm_real, Real.norm_of_nonneg (lamc_nonneg hν k)]
  exact mul_le_mul (Finset.single_le_sum (fun k _ => lamc_nonneg hν k) (Finset.mem_univ k)) (norm_le_pi_norm _ k) (norm_nonneg _) hK

private theorem damping_dissipative (hν : 0 ≤ M.diffusionCoeff) {τ : ℝ} (hτ : 0 ≤ τ) (q q' : g.Spc) :
    ‖q - q'‖ ≤ ‖(q - q') - τ • (M.damping S q - M.damping S q')‖ := by
  rw [pi_norm_le_iff_of_nonneg (norm_nonneg _)]
  intro k
  refine le_trans ?_ (norm_le_pi_norm _ k)
  have e : ((q - q') - τ • (M.damping S q - M.damping S q')) k = ((1 + τ * lamc M k : ℝ) : ℂ) * (q - q') k := by
    simp only [Pi.sub_apply, Pi.smul_apply, damping_eq, Complex.real_smul]
    push_cast
    ring
  have := lamc_nonneg hν k
  have h1 : 1 ≤ 1 + τ * lamc M k := by
    have : 0 ≤ τ * lamc M k := by positivity
    linarith
  rw [e, norm_mul, Complex.norm_real, Real.norm_of_nonneg (by linarith)]
  exact le_mul_of_one_le_left (norm_nonneg _) h1

/-! ## Solutions -/

theorem solution_splitOde (hS : S.IsLinear) (hν : 0 ≤ M.diffusionCoeff) {R : ℝ → g.Spc → g.Fld} {t0 t1 : ℝ} (ht : t0 ≤ t1)
    (hR : LipschitzForcing R t0 t1) {Y : ℝ → g.Spc} (hY : M.Solution S R t0 t1 Y) :
    ∃ L K W, SplitOde (galerkinRate S R) (M.damping S) Y t0 t1 L K W := by
  have hcont : ContinuousOn Y (Icc t0 t1) := fun t ht => (hY t ht).continuousWithinAt
  obtain ⟨B, hB⟩ := isCompact_Icc.exists_bound_of_continuousOn hcont
  obtain ⟨L, hL, hlip⟩ := rate_lipschitz hS hR (B + 1)
  obtain ⟨K, hK, hdamp⟩ := damping_lipschitz (S := S) hν
  have hB0 : 0 ≤ B := (norm_nonneg _).trans (hB t0 ⟨le_rfl, ht⟩)
  have htube : ∀ t ∈ Icc t0 t1, ∀ q, ‖q - Y t‖ ≤ 1 → ‖q‖ ≤ B + 1 := by
    intro t ht q hq
    have h1 := norm_add_le (q - Y t) (Y t)
    rw [sub_add_cancel] at h1
    linarith [hB t ht]
  refine ⟨L, K, ‖galerkinRate S R t0 (Y t0)‖ + L * ((t1 - t0) + 2 * B) + (‖M.damping S 0‖ + K * B), hY, ?_, hdamp, ?_, ?_, hL, hK, ?_⟩
  · intro t ht t' ht' q q' hq hq'
    exact hlip t ht t' ht' q q' (htube t ht q hq) (htube t' ht' q' hq')
  · exact fun τ hτ q q' => damping_dissipative hν hτ q q'
  · intro t ht'
    refine (norm_add_le _ _).trans (add_le_add ?_ ?_)
    · have h1 := norm_add_le (galerkinRate S R t (Y t) - galerkinRate S R t0 (Y t0)) (galerkinRate S R t0 (Y t0))
      rw [sub_add_cancel] at h1
      have h2 := hlip t ht' t0 ⟨le_rfl, ht⟩ (Y t) (Y t0) (by linarith [hB t ht']) (by linarith [hB t0 ⟨le_rfl, ht⟩])
      have h3 : |t - t0| ≤ t1 - t0 := by rw [abs_of_nonneg (by linarith [ht'.1])]; linarith [ht'.2]
      have h4 : ‖Y t - Y t0‖ ≤ 2 * B := (norm_sub_le _ _).trans (by linarith [hB t ht', hB t0 ⟨le_rfl, ht⟩])
      have h5 := mul_le_mul_of_nonneg_left (add_le_add h3 h4) hL
      linarith
    · have h1 := norm_add_le (M.damping S (Y t) - M.damping S 0) (M.damping S 0)
      rw [sub_add_cancel] at h1
      have h2 := hdamp (Y t) 0
      rw [sub_zero] at h2
      have h3 := mul_le_mul_of_nonneg_left (hB t ht') hK
      linarith
  · have : 0 ≤ t1 - t0 := by linarith
    positivity

private theorem stepTime_sec {t0 : PyTime} {dt : PyDelta} (hc : t0.Compatible dt) (k : ℕ) : (stepTime t0 dt k).sec = t0.sec + k * toSeconds dt := by
  cases t0 <;> cases dt <;> simp only [PyTime.Compatible] at hc
  · rfl
  · simp only [stepTime, PyTime.sec, toSeconds]
    push_cast
    ring

private theorem rate_forced {R : ℝ → g.Spc → g.Fld} (hM : M.ForcedBy R) (s : St PyTime g) {F : g.Fld} (hF : M.Forced s F) :
    pvBudget S (s.pv S) (s.u S) (s.v S) F = galerkinRate S R s.time.sec s.q := by
  have : F = R s.time.sec s.q := by
    rcases hM with ⟨h1, rfl⟩ | ⟨f, h1, h2⟩
    · rcases hF with ⟨-, rfl⟩ | ⟨f', h3, -⟩
      · rfl
      · rw [h1] at h3; cases h3
    · rcases hF with ⟨h3, -⟩ | ⟨f', h3, h4⟩
      · rw [h1] at h3; cases h3
      · rw [h1] at h3; cases h3
        rw [h2] at h4
        injection h4 with h4
        exact h4.symm
  rw [this]
  rfl

private theorem implicit_vec {τ : ℝ} {old rate new : g.Spc} (h : M.ImplicitStep S τ old rate new) : new = old + τ • (rate + M.damping S new) := by
  funext k
  rw [h k]
  simp only [Pi.add_apply, Pi.smul_apply, BModel.damping, Complex.real_smul]
  ring

/-- C114: for every solution of the truncated equation the states returned by `run` differ from it by at most a constant times the time step,
for all time steps that are sufficiently small. -/
theorem C114_error (hS : S.IsLinear) (hν : 0 ≤ M.diffusionCoeff) {R : ℝ → g.Spc → g.Fld} (hM : M.ForcedBy R) (s : St PyTime g) {t1 : ℝ}
    (ht : s.time.sec ≤ t1) (hR : LipschitzForcing R s.time.sec t1) {Y : ℝ → g.Spc} (hY : M.Solution S R s.time.sec t1 Y)
    (h0 : Y s.time.sec = s.q) :
    ∃ C δ, 0 < δ ∧ ∀ (dt : PyDelta) (tend : PyTime) (se : ℝ) (sf : St PyTime g) (saved : List (St PyTime g)), s.time.Compatible dt →
      s.time.SameKind tend → 0 < toSeconds dt → toSeconds dt ≤ δ → tend.sec + 2 * toSeconds dt ≤ t1 → M.Returns S s dt tend se sf saved →
      ∀ w ∈ sf :: saved, ‖w.q - Y w.time.sec‖ ≤ C * toSeconds dt ∧ ‖w.pv S - S.spectogrd (Y w.time.sec)‖ ≤ C * toSeconds dt := by
  obtain ⟨L, K, W, hode⟩ := solution_splitOde hS hν ht hR hY
  obtain ⟨hL, hK, hW⟩ := hode.nonneg
  obtain ⟨cT, hcT, hT⟩ := linear_bound S.spectogrd hS.spectogrd_add hS.spectogrd_smul
  set C0 := 6 * (L * (1 + W) + K * W) * (t1 - s.time.sec) * Real.exp (2 * L * (t1 - s.time.sec)) with hC0
  have htt : 0 ≤ t1 - s.time.sec := by linarith
  have hC00 : 0 ≤ C0 := by positivity
  refine ⟨max C0 (cT * C0), 1 / (C0 + 1), by positivity, fun dt tend se sf saved hc hk hd hdδ htend hret => ?_⟩
  obtain ⟨n, x, y, ks, hsch, rfl, rfl, hks, hn1, hn2⟩ := C100_run hS hν s dt tend se hc hk hd sf saved hret
  set δ := toSeconds dt with hδ
  have hCδ : C0 * δ ≤ 1 := by
    rw [le_div_iff₀ (by positivity)] at hdδ
    linarith
  have key : ∀ k ≤ n, ‖(x k).q - Y (s.time.sec + k * δ)‖ ≤ C0 * δ := by
    by_cases hn0 : n = 0
    · intro k hk
      have : k = 0 := by omega
      subst this
      rw [hsch.start, Nat.cast_zero, zero_mul, add_zero, h0, sub_self, norm_zero]
      positivity
    have hbound : s.time.sec + (n + 1) * δ ≤ t1 := by
      have h1 := hn2 (n - 1) (by omega)
      have h2 : ((n - 1 : ℕ) : ℝ) = n - 1 := by
        rw [Nat.cast_sub (by omega), Nat.cast_one]
      rw [h2] at h1
      linarith
    have htx : ∀ k ≤ n, (y k).time.sec = s.time.sec + (k + 1) * δ := by
      intro k hk
      rw [(hsch.times k hk).2, stepTime_sec hc]
      push_cast
      rfl
    have main := hode.leapfrog_error (x := fun k => (x k).q) (y := fun k => (y k).q) (n := n) (ε := 2 / 10) hd (by norm_num) (by norm_num) hbound
      (by rw [hsch.start, h0])
      (by
        obtain ⟨F, hF, hst⟩ := hsch.euler
        rw [rate_forced hM s hF] at hst
        have := implicit_vec hst
        rw [hsch.start]
        exact this)
      (by
        intro k hk
        obtain ⟨F, hF, hst⟩ := hsch.leapfrog k hk
        rw [rate_forced hM (y k) hF, htx k hk.le] at hst
        exact implicit_vec hst)
      (by
        intro k hk
        funext m
        have := hsch.filter k hk m
        simp only [Pi.add_apply, Pi.sub_apply, Pi.smul_apply, Complex.real_smul]
        rw [this]
        push_cast
        ring) hCδ
    exact fun k hk => (main k hk).1
  have hall : ∀ k ≤ n, ‖(x k).q - Y (x k).time.sec‖ ≤ max C0 (cT * C0) * δ ∧ ‖(x k).pv S - S.spectogrd (Y (x k).time.sec)‖ ≤ max C0 (cT * C0) * δ := by
    intro k hk
    rw [(hsch.times k hk).1, stepTime_sec hc]
    have h1 := key k hk
    refine ⟨h1.trans (mul_le_mul_of_nonneg_right (le_max_left _ _) hd.le), ?_⟩
    have e : (x k).pv S - S.spectogrd (Y (s.time.sec + k * δ)) = S.spectogrd ((x k).q - Y (s.time.sec + k * δ)) :=
      (sub_of_add hS.spectogrd_add _ _).symm
    change ‖(x k).pv S - S.spectogrd (Y (s.time.sec + k * δ))‖ ≤ _
    rw [e]
    refine (hT _).trans ((mul_le_mul_of_nonneg_left h1 hcT).trans ?_)
    rw [← mul_assoc]
    exact mul_le_mul_of_nonneg_right (le_max_right _ _) hd.le
  intro w hw
  rcases List.mem_cons.1 hw with rfl | hw
  · exact hall n le_rfl
  · obtain ⟨k, hk, rfl⟩ := List.mem_map.1 hw
    exact hall k (hks k hk)

/-- C114: solutions with the same initial value are the same. -/
theorem C114_unique (hS : S.IsLinear) (hν : 0 ≤ M.diffusionCoeff) {R : ℝ → g.Spc → g.Fld} {t0 t1 : ℝ} (hR : LipschitzForcing R t0 t1)
    {Y Z : ℝ → g.Spc} (hY : M.Solution S R t0 t1 Y) (hZ : M.Solution S R t0 t1 Z) (h0 : Y t0 = Z t0) : ∀ t ∈ Icc t0 t1, Y t = Z t := by
  have hc : ∀ Y, M.Solution S R t0 t1 Y → ContinuousOn Y (Icc t0 t1) := fun Y hY t ht => (hY t ht).continuousWithinAt
  obtain ⟨B, hB⟩ := isCompact_Icc.exists_bound_of_continuousOn (hc Y hY)
  obtain ⟨B', hB'⟩ := isCompact_Icc.exists_bound_of_continuousOn (hc Z hZ)
  obtain ⟨L, hL, hlip⟩ := rate_lipschitz hS hR (max B B')
  obtain ⟨K, hK, hdamp⟩ := damping_lipschitz (S := S) hν
  have hr : ∀ Y, M.Solution S R t0 t1 Y → ∀ t ∈ Ico t0 t1, HasDerivWithinAt Y (galerkinRate S R t (Y t) + M.damping S (Y t)) (Ici t) t := by
    intro Y hY t ht
    refine (hY t (Ico_subset_Icc_self ht)).mono_of_mem_nhdsWithin ?_
    exact Filter.mem_of_superset (Icc_mem_nhdsGE ht.2) (Icc_subset_Icc_left ht.1)
  refine ODE_solution_unique_of_mem_Icc_right (v := fun t q => galerkinRate S R t q + M.damping S q) (s := fun _ => Metric.closedBall 0 (max B B'))
    (K := ⟨L + K, by positivity⟩) (fun t ht => ?_) (hc Y hY) (hr Y hY) (fun t ht => ?_) (hc Z hZ) (hr Z hZ) (fun t ht => ?_) h0
  · refine LipschitzOnWith.of_dist_le_mul fun q hq q' hq' => ?_
    rw [mem_closedBall_zero_iff] at hq hq'
    rw [dist_eq_norm, dist_eq_norm]
    have h1 := hlip t (Ico_subset_Icc_self ht) t (Ico_subset_Icc_self ht) q q' hq hq'
    rw [sub_self, abs_zero, zero_add] at h1
    have h2 := hdamp q q'
    have h3 := norm_add_le (galerkinRate S R t q - galerkinRate S R t q') (M.damping S q - M.damping S q')
    rw [show galerkinRate S R t q + M.damping S q - (galerkinRate S R t q' + M.damping S q') =
      (galerkinRate S R t q - galerkinRate S R t q') + (M.damping S q - M.damping S q') by abel]
    change _ ≤ (L + K) * _
    linarith
  · rw [mem_closedBall_zero_iff]
    exact (hB t (Ico_subset_Icc_self ht)).trans (le_max_left _ _)
  · rw [mem_closedBall_zero_iff]
    exact (hB' t (Ico_subset_Icc_self ht)).trans (le_max_right _ _)

/-- C114: for every initial value there is a solution for some time. -/
theorem C114_exists (hS : S.IsLinear) (hν : 0 ≤ M.diffusionCoeff) {R : ℝ → g.Spc → g.Fld} {t0 t1 : ℝ} (ht : t0 < t1) (hR : LipschitzForcing R t0 t1)
    (q : g.Spc) : ∃ t2 Y, t0 < t2 ∧ t2 ≤ t1 ∧ M.Solution S R t0 t2 Y ∧ Y t0 = q := by
  obtain ⟨L, hL, hlip⟩ := rate_lipschitz hS hR (‖q‖ + 1)
  obtain ⟨K, hK, hdamp⟩ := damping_lipschitz (S := S) hν
  have hball : ∀ x ∈ Metric.closedBall q 1, ‖x‖ ≤ ‖q‖ + 1 := by
    intro x hx
    rw [mem_closedBall_iff_norm] at hx
    have := norm_add_le (x - q) q
    rw [sub_add_cancel] at this
    linarith
  set V : ℝ := ‖galerkinRate S R t0 q‖ + L * ((t1 - t0) + 1) + (‖M.damping S q‖ + K) with hV
  have hV0 : 0 ≤ V := by
    have : 0 ≤ t1 - t0 := by linarith
    positivity
  set t2 := min t1 (t0 + 1 / (V + 1)) with ht2
  have h02 : t0 < t2 := lt_min ht (by have : 0 < 1 / (V + 1) := by positivity
                                      linarith)
  have h21 : t2 ≤ t1 := min_le_left _ _
  have hsub : Icc t0 t2 ⊆ Icc t0 t1 := Icc_subset_Icc_right h21
  have hpl : IsPicardLindelof (fun t q => galerkinRate S R t q + M.damping S q) (tmin := t0) (tmax := t2) ⟨t0, le_rfl, h02.le⟩ q 1 0 ⟨V, hV0⟩
      ⟨L + K, by positivity⟩ := by
    refine ⟨fun t ht => LipschitzOnWith.of_dist_le_mul fun x hx x' hx' => ?_, fun x hx => ?_, fun t ht x hx => ?_, ?_⟩
    · rw [dist_eq_norm, dist_eq_norm]
      have h1 := hlip t (hsub ht) t (hsub ht) x x' (hball x (by simpa using hx)) (hball x' (by simpa using hx'))
      rw [sub_self, abs_zero, zero_add] at h1
      have h2 := hdamp x x'
      have h3 := norm_add_le (galerkinRate S R t x - galerkinRate S R t x') (M.damping S x - M.damping S x')
      rw [show galerkinRate S R t x + M.damping S x - (galerkinRate S R t x' + M.damping S x') =
        (galerkinRate S R t x - galerkinRate S R t x') + (M.damping S x - M.damping S x') by abel]
      change _ ≤ (L + K) * _
      linarith
    · refine LipschitzOnWith.continuousOn (K := ⟨L, hL⟩) (LipschitzOnWith.of_dist_le_mul fun t ht t' ht' => ?_)
      rw [dist_eq_norm, add_sub_add_right_eq_sub]
      have h1 := hlip t (hsub ht) t' (hsub ht') x x (hball x (by simpa using hx)) (hball x (by simpa using hx))
      rw [sub_self, norm_zero, add_zero] at h1
      exact h1
    · have hx1 : ‖x - q‖ ≤ 1 := by rw [← mem_closedBall_iff_norm]; simpa using hx
      change _ ≤ V
      refine (norm_add_le _ _).trans (add_le_add ?_ ?_)
      · have h1 := norm_add_le (galerkinRate S R t x - galerkinRate S R t0 q) (galerkinRate S R t0 q)
        rw [sub_add_cancel] at h1
        have h2 := hlip t (hsub ht) t0 ⟨le_rfl, h02.le.trans h21⟩ x q (hball x (by simpa using hx)) (by linarith)
        have h3 : |t - t0| ≤ t1 - t0 := by rw [abs_of_nonneg (by linarith [ht.1])]; linarith [ht.2]
        have h5 := mul_le_mul_of_nonneg_left (add_le_add h3 hx1) hL
        linarith
      · have h1 := norm_add_le (M.damping S x - M.damping S q) (M.damping S q)
        rw [sub_add_cancel] at h1
        have h2 := hdamp x q
        have h3 := mul_le_mul_of_nonneg_left hx1 hK
        linarith
    · change V * max (t2 - t0) (t0 - t0) ≤ 1 - 0
      rw [sub_self, max_eq_left (by linarith), sub_zero]
      have h1 : t2 - t0 ≤ 1 / (V + 1) := by have := min_le_right t1 (t0 + 1 / (V + 1)); linarith
      refine (mul_le_mul_of_nonneg_left h1 hV0).trans ?_
      rw [mul_one_div, div_le_one (by positivity)]
      linarith
  obtain ⟨Y, h1, h2⟩ := hpl.exists_eq_forall_mem_Icc_hasDerivWithinAt₀
  exact ⟨t2, Y, h02, h21, h2, h1⟩

theorem converges_of_solution (hS : S.IsLinear) (hν : 0 ≤ M.diffusionCoeff) {R : ℝ → g.Spc → g.Fld} (hM : M.ForcedBy R)
    (s : St PyTime g) {t2 t3 : ℝ} (h03 : s.time.sec ≤ t3) (h32 : t3 < t2) (hR : LipschitzForcing R s.time.sec t2) {Y : ℝ → g.Spc}
    (hY : M.Solution S R s.time.sec t2 Y) (h0 : Y s.time.sec = s.q) : ∀ η > 0, ∃ δ > 0,
      ∀ (dt : PyDelta) (tend : PyTime) (se : ℝ), s.time.Compatible dt → s.time.SameKind tend → 0 < toSeconds dt → toSeconds dt < δ →
      s.time.sec ≤ tend.sec → tend.sec ≤ t3 → (se ≤ 0 ∨ ∃ x, s.time = .num x) →
      ∃ sf saved, M.Returns S s dt tend se sf saved ∧ tend.sec ≤ sf.time.sec ∧ ∀ w ∈ sf :: saved, w.time.sec ∈ Icc s.time.sec t2 ∧
        ‖w.q - Y w.time.sec‖ < η ∧ ‖w.pv S - S.spectogrd (Y w.time.sec)‖ < η := by
  obtain ⟨C, δ, hδ, herr⟩ := C114_error hS hν hM s (h03.trans h32.le) hR hY h0
  refine fun η hη => ⟨min δ (min ((t2 - t3) / 2) (η / (|C| + 1))), lt_min hδ (lt_min (by linarith) (by positivity)), ?_⟩
  intro dt tend se hc hk hd hdδ hst hend hse
  have htot : M.Total := by
    intro f hf s
    rcases hM with ⟨h1, -⟩ | ⟨f', h1, h2⟩
    · rw [h1] at hf; cases hf
    · rw [h1] at hf; cases hf
      exact ⟨_, h2 s⟩
  obtain ⟨sf, saved, hret⟩ := C42_returns (S := S) htot s dt tend se hc hk hd hse hst
  obtain ⟨n, e1, e2, -⟩ := C42_final_time s dt tend se hc hk sf saved hret
  have d1 := lt_of_lt_of_le hdδ (min_le_left _ _)
  have d2 := lt_of_lt_of_le hdδ ((min_le_right _ _).trans (min_le_left _ _))
  have d3 := lt_of_lt_of_le hdδ ((min_le_right _ _).trans (min_le_right _ _))
  refine ⟨sf, saved, hret, by rw [e1]; exact e2, fun w hw => ?_⟩
  obtain ⟨r1, r2⟩ := herr dt tend se sf saved hc hk hd d1.le (by linarith) hret w hw
  have hlt : C * toSeconds dt < η := by
    rw [lt_div_iff₀ (by positivity)] at d3
    have : C * toSeconds dt ≤ |C| * toSeconds dt := mul_le_mul_of_nonneg_right (le_abs_self C) hd.le
    linarith
  refine ⟨?_, r1.trans_lt hlt, r2.trans_lt hlt⟩
  obtain ⟨n', x, y, ks, hsch, rfl, rfl, hks, -, hn2⟩ := C100_run hS hν s dt tend se hc hk hd sf saved hret
  have htime : ∀ k ≤ n', (x k).time.sec ∈ Icc s.time.sec t2 := by
    intro k hk
    rw [(hsch.times k hk).1, stepTime_sec hc]
    refine ⟨le_add_of_nonneg_right (by positivity), ?_⟩
    rcases Nat.eq_zero_or_pos n' with h | h
    · have : k = 0 := by omega
      rw [this, Nat.cast_zero, zero_mul, add_zero]
      linarith
    · have h1 := hn2 (n' - 1) (by omega)
      have h2 : ((n' - 1 : ℕ) : ℝ) = n' - 1 := by
        rw [Nat.cast_sub (by omega), Nat.cast_one]
      rw [h2] at h1
      have h3 : (k : ℝ) * toSeconds dt ≤ n' * toSeconds dt := mul_le_mul_of_nonneg_right (Nat.cast_le.2 hk) hd.le
      linarith
  rcases List.mem_cons.1 hw with rfl | hw
  · exact htime n' le_rfl
  · obtain ⟨k, hk, rfl⟩ := List.mem_map.1 hw
    exact htime k (hks k hk)

/-- C114: convergence. For every initial state there is exactly one solution for some time, and the states returned by `run` are as close to it as
desired if the time step is sufficiently small. -/
theorem C114_converges (hS : S.IsLinear) (hν : 0 ≤ M.diffusionCoeff) {R : ℝ → g.Spc → g.Fld} (hM : M.ForcedBy R)
    (s : St PyTime g) {t1 : ℝ} (ht : s.time.sec < t1) (hR : LipschitzForcing R s.time.sec t1) :
    ∃ t2 Y, s.time.sec < t2 ∧ M.Solution S R s.time.sec t2 Y ∧ Y s.time.sec = s.q ∧ ∀ η > 0, ∃ δ > 0,
      ∀ (dt : PyDelta) (tend : PyTime) (se : ℝ), s.time.Compatible dt → s.time.SameKind tend → 0 < toSeconds dt → toSeconds dt < δ →
      s.time.sec ≤ tend.sec → tend.sec ≤ t2 → (se ≤ 0 ∨ ∃ x, s.time = .num x) →
      ∃ sf saved, M.Returns S s dt tend se sf saved ∧ tend.sec ≤ sf.time.sec ∧ ∀ w ∈ sf :: saved,
        ‖w.q - Y w.time.sec‖ < η ∧ ‖w.pv S - S.spectogrd (Y w.time.sec)‖ < η := by
  obtain ⟨t2, Y, h02, h21, hY, h0⟩ := C114_exists (S := S) hS hν ht hR s.q
  have hR2 : LipschitzForcing R s.time.sec t2 := fun B => by
    obtain ⟨L, hL⟩ := hR B
    exact ⟨L, fun t ht t' ht' => hL t (Icc_subset_Icc_right h21 ht) t' (Icc_subset_Icc_right h21 ht')⟩
  refine ⟨(s.time.sec + t2) / 2, Y, by linarith, fun t ht => ?_, h0, fun η hη => ?_⟩
  · have hs : Icc s.time.sec ((s.time.sec + t2) / 2) ⊆ Icc s.time.sec t2 := Icc_subset_Icc_right (by linarith)
    exact (hY t (hs ht)).mono hs
  · obtain ⟨δ, hδ, h⟩ := converges_of_solution hS hν hM s (t3 := (s.time.sec + t2) / 2) (by linarith) (by linarith) hR2 hY h0 η hη
    refine ⟨δ, hδ, fun dt tend se hc hk hd hdδ hst hend hse => ?_⟩
    obtain ⟨sf, saved, h1, h2, h3⟩ := h dt tend se hc hk hd hdδ hst hend hse
    exact ⟨sf, saved, h1, h2, fun w hw => (h3 w hw).2⟩

/-! ## Forcing terms -/

private theorem lipschitz_of_linear {R : ℝ → g.Spc → g.Fld} (φ : g.Spc → g.Fld) (ha : ∀ x y, φ (x + y) = φ x + φ y) (hs : ∀ (c : ℝ) x, φ (c • x) = c • φ x)
    (h : ∀ t t' q q', R t q - R t' q' = φ (q - q')) (t0 t1 : ℝ) : LipschitzForcing R t0 t1 ∧ LinearGrowth R t0 t1 := by
  obtain ⟨c, hc, hb⟩ := linear_bound φ ha hs
  refine ⟨fun B => ⟨c, fun t _ t' _ q q' _ _ => ?_⟩, ‖R 0 0‖ + c, fun t _ q => ?_⟩
  · rw [h]
    refine (hb _).trans (mul_le_mul_of_nonneg_left ?_ hc)
    linarith [abs_nonneg (t - t')]
  · have h1 := norm_add_le (R t q - R 0 0) (R 0 0)
    rw [sub_add_cancel, h, sub_zero] at h1
    have h2 := hb q
    have h3 : 0 ≤ ‖R 0 0‖ * ‖q‖ := by positivity
    linarith

/-- C114 applies to the terms `LinearRelaxation` and `Orography` (with every kind of wind), and to sums of such terms. `TimedOffSwitch` is not continuous. -/
theorem C114_forcing (hS : S.IsLinear) (t0 t1 : ℝ) :
    (∀ (rate : ℝ) (ref : RVal g), ∃ R, (∀ s, (Term.linearRelaxation S rate ref).toRhs s = .ok (R s.time.sec s.q)) ∧ LipschitzForcing R t0 t1 ∧ LinearGrowth R t0 t1) ∧
    (∀ (o : Orog) (h : g.Fld), o.kind.orography g = .ok h → ∃ R, (∀ s, (o.term S).toRhs s = .ok (R s.time.sec s.q)) ∧ LipschitzForcing R t0 t1 ∧ LinearGrowth R t0 t1) ∧
    ∀ (a b : Term g) (Ra Rb : ℝ → g.Spc → g.Fld), (∀ s, a.toRhs s = .ok (Ra s.time.sec s.q)) → (∀ s, b.toRhs s = .ok (Rb s.time.sec s.q)) →
      LipschitzForcing Ra t0 t1 ∧ LinearGrowth Ra t0 t1 → LipschitzForcing Rb t0 t1 ∧ LinearGrowth Rb t0 t1 →
      (∀ s, (Term.sum a b).toRhs s = .ok ((Ra + Rb) s.time.sec s.q)) ∧ LipschitzForcing (Ra + Rb) t0 t1 ∧ LinearGrowth (Ra + Rb) t0 t1 := by
  refine ⟨fun rate ref => ?_, fun o h hh => ?_, fun a b Ra Rb ha hb ⟨hLa, hGa⟩ ⟨hLb, hGb⟩ => ⟨fun s => ?_, fun B => ?_, ?_⟩⟩
  · refine ⟨fun _ q j i => rate * (ref.at j i - S.spectogrd q j i), fun s => ?_, ?_⟩
    · cases ref <;> rfl
    · refine lipschitz_of_linear (fun q => (-rate) • S.spectogrd q) (fun x y => ?_) (fun c x => ?_) (fun t t' q q' => ?_) t0 t1
      · rw [hS.spectogrd_add, smul_add]
      · rw [hS.spectogrd_smul, smul_comm]
      · rw [sub_of_add hS.spectogrd_add]
        funext j i
        simp only [Pi.sub_apply, Pi.smul_apply, smul_eq_mul]
        ring
  · have uvadd : ∀ a a' : g.Spc, S.getuv (a + a') 0 = S.getuv a 0 + S.getuv a' 0 := fun a a' => by
      have := hS.getuv_add a a' 0 0
      rwa [add_zero] at this
    have uvsmul : ∀ (c : ℝ) (a : g.Spc), S.getuv (c • a) 0 = c • S.getuv a 0 := fun c a => by
      have := hS.getuv_smul c a 0
      rwa [smul_zero] at this
    have uvsub : ∀ q q' f : g.Spc, S.getuv (q - q') 0 = S.getuv (q - f) 0 - S.getuv (q' - f) 0 := fun q q' f => by
      have := sub_of_add (φ := fun a : g.Spc => S.getuv a 0) uvadd (q - f) (q' - f)
      rwa [sub_sub_sub_cancel_right] at this
    set G := Grid.gradient S h with hG
    refine ⟨fun t q => o.combine (o.getWind S ⟨.num t, q⟩) G, fun s => ?_, ?_⟩
    · have : o.gradient S = .ok G := by
        unfold Orog.gradient
        rw [hh]
      unfold Term.toRhs Orog.term Term.call Orog.force
      rw [this]
      cases hw : o.wind <;> simp only [Except.map, Orog.getWind, hw] <;> rfl
    · set c : g.Fld := fun j i => -(match o.fcorRef with
        | none => g.fcor2 j i
        | some f => f) / o.scaleHeight with hc
      have hcomb : ∀ w : g.Fld × g.Fld, o.combine w G = c * (w.1 * G.1 + w.2 * G.2) := fun w => rfl
      cases hw : o.wind with
      | act f =>
        have e : ∀ t q, o.combine (o.getWind S ⟨.num t, q⟩) G =
            c * (f • (S.getuv (q - Grid.fcor2Spectral S) 0).1 * G.1 + f • (S.getuv (q - Grid.fcor2Spectral S) 0).2 * G.2) := by
          intro t q
          rw [hcomb]
          unfold Orog.getWind
          rw [hw]
          rfl
        refine lipschitz_of_linear (fun q => c * (f • (S.getuv q 0).1 * G.1 + f • (S.getuv q 0).2 * G.2)) (fun x y => ?_) (fun r x => ?_)
          (fun t t' q q' => ?_) t0 t1
        · rw [uvadd]
          funext j i
          simp only [Pi.add_apply, Pi.mul_apply, Pi.smul_apply, smul_eq_mul, Prod.fst_add, Prod.snd_add]
          ring
        · rw [uvsmul]
          funext j i
          simp only [Pi.add_apply, Pi.mul_apply, Pi.smul_apply, smul_eq_mul, Prod.smul_fst, Prod.smul_snd]
          ring
        · rw [e, e, uvsub q q' (Grid.fcor2Spectral S)]
          funext j i
          simp only [Pi.add_apply, Pi.sub_apply, Pi.mul_apply, Pi.smul_apply, smul_eq_mul, Prod.fst_sub, Prod.snd_sub]
          ring
      | zon f =>
        have e : ∀ t q, o.combine (o.getWind S ⟨.num t, q⟩) G =
            fun j i => c j i * (f * ((∑ i', (S.getuv (q - Grid.fcor2Spectral S) 0).1 j i') / g.nlon) * G.1 j i) := by
          intro t q
          rw [hcomb]
          unfold Orog.getWind
          rw [hw]
          funext j i
          simp only [Pi.mul_apply, Pi.add_apply, zero_mul, add_zero]
          rfl
        refine lipschitz_of_linear (fun q j i => c j i * (f * ((∑ i', (S.getuv q 0).1 j i') / g.nlon) * G.1 j i)) (fun x y => ?_) (fun r x => ?_)
          (fun t t' q q' => ?_) t0 t1
        · rw [uvadd]
          funext j i
          simp only [Pi.add_apply, Prod.fst_add, Finset.sum_add_distrib]
          ring
        · rw [uvsmul]
          funext j i
          simp only [Pi.smul_apply, smul_eq_mul, Prod.smul_fst, ← Finset.mul_sum]
          ring
        · rw [e, e, uvsub q q' (Grid.fcor2Spectral S)]
          funext j i
          simp only [Pi.sub_apply, Prod.fst_sub, Finset.sum_sub_distrib]
          ring
      | sbr f =>
        refine lipschitz_of_linear (fun _ => 0) (fun x y => by simp) (fun r x => by simp) (fun t t' q q' => ?_) t0 t1
        unfold Orog.getWind
        rw [hw]
        exact sub_self _
  · have h1 := ha s
    have h2 := hb s
    rw [toRhs_ok] at h1 h2 ⊢
    unfold Term.call
    rw [h1, h2]
    rfl
  · obtain ⟨La, h1⟩ := hLa B
    obtain ⟨Lb, h2⟩ := hLb B
    refine ⟨La + Lb, fun t ht t' ht' q q' hq hq' => ?_⟩
    rw [show (Ra + Rb) t q - (Ra + Rb) t' q' = (Ra t q - Ra t' q') + (Rb t q - Rb t' q') by simp only [Pi.add_apply]; abel]
    refine (norm_add_le _ _).trans ?_
    have := h1 t ht t' ht' q q' hq hq'
    have := h2 t ht t' ht' q q' hq hq'
    linarith
  · obtain ⟨A, h1⟩ := hGa
    obtain ⟨A', h2⟩ := hGb
    refine ⟨A + A', fun t ht q => ?_⟩
    have := norm_add_le (Ra t q) (Rb t q)
    have := h1 t ht q
    have := h2 t ht q
    rw [add_mul]
    exact (norm_add_le (Ra t q) (Rb t q)).trans (by linarith)

/-- Non-vacuity of C114: a model with relaxation, a mountain, diffusion and a background -/
example (q : grid30.Spc) : ∃ (M : BModel grid30) (R : ℝ → grid30.Spc → grid30.Fld), M.rhs ≠ none ∧ 0 < M.diffusionCoeff ∧ M.ForcedBy R ∧
    ∃ t2 Y, 0 < t2 ∧ M.Solution wave30 R 0 t2 Y ∧ Y 0 = q ∧ ∀ η > 0, ∃ δ > 0, ∀ h tend : ℝ, 0 < h → h < δ → 0 ≤ tend → tend ≤ t2 →
      ∃ sf saved, M.Returns wave30 ⟨.num 0, q⟩ (.num h) (.num tend) 0 sf saved ∧ ‖sf.q - Y sf.time.sec‖ < η := by
  obtain ⟨f1, f2, f3⟩ := C114_forcing (S := wave30) wave30_lawful.lin 0 1
  obtain ⟨Ra, ha, hLa⟩ := f1 1 (.num 0)
  obtain ⟨Rb, hb, hLb⟩ := f2 ⟨.gaussian 1 0 0 1 1, 1, .act 1, none⟩ _ rfl
  obtain ⟨hab, hL, -⟩ := f3 _ _ Ra Rb ha hb hLa hLb
  let M : BModel grid30 := ⟨some (Term.sum (.linearRelaxation wave30 1 (.num 0)) (Orog.term wave30 ⟨.gaussian 1 0 0 1 1, 1, .act 1, none⟩)).toRhs, 2, 1,
    some fun _ _ => 1⟩
  have hM : M.ForcedBy (Ra + Rb) := .inr ⟨_, rfl, hab⟩
  obtain ⟨t2, Y, h1, h2, h3, h4⟩ := C114_converges (S := wave30) (M := M) wave30_lawful.lin zero_le_one hM ⟨.num 0, q⟩ (t1 := 1)
    (by norm_num [PyTime.sec]) hL
  refine ⟨M, Ra + Rb, by simp [M], zero_lt_one, hM, t2, Y, h1, h2, h3, fun η hη => ?_⟩
  obtain ⟨δ, hδ, h5⟩ := h4 η hη
  refine ⟨δ, hδ, fun h tend hh hhδ ht ht2 => ?_⟩
  obtain ⟨sf, saved, r1, -, r2⟩ := h5 (.num h) (.num tend) 0 trivial trivial hh hhδ ht ht2 (.inl le_rfl)
  exact ⟨sf, saved, r1, (r2 sf List.mem_cons_self).1⟩

end Barotropic
