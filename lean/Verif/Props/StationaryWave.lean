import Verif.Spec.StationaryWave
import Verif.Props.WaveguideStationary
import Verif.Lemmas.Sphere
import Mathlib.Analysis.SpecialFunctions.Trigonometric.ArctanDeriv
import Mathlib.Analysis.Calculus.Deriv.MeanValue

/-!
# C165: stationary waves oscillate inside of waveguides only
-/

namespace Barotropic
open Real (cos sin)

theorem cos_pos_of {y : ℝ} (hy : y ∈ Set.Ioo (-(Real.pi / 2)) (Real.pi / 2)) : 0 < cos y := Real.cos_pos_of_mem_Ioo hy

theorem dlon_waveOf (k : ℕ) (A B : ℝ → ℝ) (x y : ℝ) : dlon (waveOf k A B) x y = k * waveOf k B (-A) x y := by
  have h : HasDerivAt (fun x => waveOf k A B x y) (A y * (-sin (k * x) * (k * 1)) + B y * (cos (k * x) * (k * 1))) x := by
    unfold waveOf
    exact (((Real.hasDerivAt_cos _).comp x ((hasDerivAt_id x).const_mul (k : ℝ))).const_mul _).add
      (((Real.hasDerivAt_sin _).comp x ((hasDerivAt_id x).const_mul (k : ℝ))).const_mul _)
  unfold dlon
  rw [h.deriv]
  simp only [waveOf, Pi.neg_apply]
  ring

theorem dlat_waveOf (k : ℕ) {A B : ℝ → ℝ} {y : ℝ} (hA : DifferentiableAt ℝ A y) (hB : DifferentiableAt ℝ B y) (x : ℝ) :
    dlat (waveOf k A B) x y = waveOf k (deriv A) (deriv B) x y :=
  ((hA.hasDerivAt.mul_const _).add (hB.hasDerivAt.mul_const _)).deriv

theorem structure_differentiable {A : ℝ → ℝ} (hA : ContDiff ℝ 2 A) : Differentiable ℝ A ∧ Differentiable ℝ (deriv A) ∧ Continuous (deriv A) ∧
    Differentiable ℝ fun z => cos z * deriv A z := by
  have h1 : ContDiff ℝ 1 (deriv A) := by
    have : ContDiff ℝ (1 + 1) A := by simpa [one_add_one_eq_two] using hA
    exact (contDiff_succ_iff_deriv.mp this).2.2
  have h2 : Differentiable ℝ (deriv A) := h1.differentiable (by norm_num)
  exact ⟨hA.differentiable (by norm_num), h2, h1.continuous, Real.differentiable_cos.mul h2⟩

/-- Laplacian of a wave -/
theorem laplacian_waveOf (r : ℝ) (k : ℕ) {A B : ℝ → ℝ} (hA : ContDiff ℝ 2 A) (hB : ContDiff ℝ 2 B) (x y : ℝ) :
    sphereLaplacian r (waveOf k A B) x y = waveOf k
      (fun y => (deriv (fun z => cos z * deriv A z) y / r - k ^ 2 * A y / (r * cos y)) / (r * cos y))
      (fun y => (deriv (fun z => cos z * deriv B z) y / r - k ^ 2 * B y / (r * cos y)) / (r * cos y)) x y := by
  obtain ⟨a1, a2, a3, a4⟩ := structure_differentiable hA
  obtain ⟨b1, b2, b3, b4⟩ := structure_differentiable hB
  have e1 : dlon (fun x y => (sphereGrad r (waveOf k A B) x y).1) x y = -(k ^ 2 * waveOf k A B x y) / (r * cos y) := by
    have hf : (fun x => (sphereGrad r (waveOf k A B) x y).1) = fun x => (k / (r * cos y)) * waveOf k B (-A) x y := by
      funext x
      unfold sphereGrad
      rw [dlon_waveOf]
      ring
    unfold dlon
    rw [hf, deriv_const_mul_field, show deriv (fun x => waveOf k B (-A) x y) x = dlon (waveOf k B (-A)) x y from rfl, dlon_waveOf]
    simp only [waveOf, Pi.neg_apply]
    ring
  have e2 : dlat (fun x y => (sphereGrad r (waveOf k A B) x y).2 * cos y) x y =
      waveOf k (deriv fun z => cos z * deriv A z) (deriv fun z => cos z * deriv B z) x y / r := by
    have hf : (fun y => (sphereGrad r (waveOf k A B) x y).2 * cos y) =
        fun y => (1 / r) * waveOf k (fun z => cos z * deriv A z) (fun z => cos z * deriv B z) x y := by
      funext y
      unfold sphereGrad
      rw [dlat_waveOf k (a1 y) (b1 y)]
      simp only [waveOf]
      ring
    unfold dlat
    rw [hf, deriv_const_mul_field, show deriv (fun y => waveOf k (fun z => cos z * deriv A z) (fun z => cos z * deriv B z) x y) y =
      dlat (waveOf k (fun z => cos z * deriv A z) (fun z => cos z * deriv B z)) x y from rfl, dlat_waveOf k (a4 y) (b4 y)]
    ring
  unfold sphereLaplacian sphereDiv
  rw [e1, e2]
  simp only [waveOf]
  ring

/-- The two phases of a wave are independent. -/
theorem waveOf_zero {k : ℕ} (hk : k ≠ 0) {A B : ℝ → ℝ} {y : ℝ} : (∀ x, waveOf k A B x y = 0) ↔ A y = 0 ∧ B y = 0 := by
  have hk' : (k : ℝ) ≠ 0 := by exact_mod_cast hk
  constructor
  · intro h
    have h0 := h 0
    have h1 := h (Real.pi / 2 / k)
    unfold waveOf at h0 h1
    rw [show (k : ℝ) * (Real.pi / 2 / k) = Real.pi / 2 by field_simp, Real.cos_pi_div_two, Real.sin_pi_div_two] at h1
    simp only [mul_zero, Real.cos_zero, Real.sin_zero, mul_one, add_zero, zero_add] at h0 h1
    exact ⟨h0, h1⟩
  · rintro ⟨h0, h1⟩ x
    simp [waveOf, h0, h1]

/-- C165: a wave of zonal wavenumber `k` is stationary iff its meridional structure is that of an oscillator in the Mercator projection, with the squared
meridional wavenumber `Ks² - k²`. -/
theorem C165_equation {r : ℝ} (hr : r ≠ 0) {Q U : ℝ → ℝ} (hU : ∀ y ∈ Set.Ioo (-(Real.pi / 2)) (Real.pi / 2), U y ≠ 0) {k : ℕ} (hk : k ≠ 0)
    {A B : ℝ → ℝ} (hA : ContDiff ℝ 2 A) (hB : ContDiff ℝ 2 B) :
    StationaryWave r Q U (waveOf k A B) ↔ ∀ y ∈ Set.Ioo (-(Real.pi / 2)) (Real.pi / 2),
      cos y * deriv (fun z => cos z * deriv A z) y + (stationarySq r Q U y - k ^ 2) * A y = 0 ∧
      cos y * deriv (fun z => cos z * deriv B z) y + (stationarySq r Q U y - k ^ 2) * B y = 0 := by
  have hk' : (k : ℝ) ≠ 0 := by exact_mod_cast hk
  unfold StationaryWave
  rw [forall_comm]
  refine forall_congr' fun y => ?_
  rw [forall_comm]
  refine forall_congr' fun hy => ?_
  have hc : cos y ≠ 0 := (cos_pos_of hy).ne'
  have hUy := hU y hy
  have key : ∀ x, U y / (r * cos y) * dlon (sphereLaplacian r (waveOf k A B)) x y + (sphereGrad r (waveOf k A B) x y).1 * (deriv Q y / r) =
      (k * U y / (r ^ 3 * cos y ^ 3)) * waveOf k (fun y => cos y * deriv (fun z => cos z * deriv B z) y + (stationarySq r Q U y - k ^ 2) * B y)
        (-fun y => cos y * deriv (fun z => cos z * deriv A z) y + (stationarySq r Q U y - k ^ 2) * A y) x y := by
    intro x
    have e : dlon (sphereLaplacian r (waveOf k A B)) x y = dlon (waveOf k
        (fun y => (deriv (fun z => cos z * deriv A z) y / r - k ^ 2 * A y / (r * cos y)) / (r * cos y))
        (fun y => (deriv (fun z => cos z * deriv B z) y / r - k ^ 2 * B y / (r * cos y)) / (r * cos y))) x y := by
      unfold dlon
      congr 1
      funext x
      exact laplacian_waveOf r k hA hB x y
    rw [e, dlon_waveOf]
    unfold sphereGrad
    rw [dlon_waveOf]
    simp only [waveOf, Pi.neg_apply, stationarySq, mercatorBeta, mercatorWind]
    field_simp
    ring
  have hpos : k * U y / (r ^ 3 * cos y ^ 3) ≠ 0 := div_ne_zero (mul_ne_zero hk' hUy) (mul_ne_zero (pow_ne_zero _ hr) (pow_ne_zero _ hc))
  simp only [key, mul_eq_zero, hpos, false_or]
  rw [waveOf_zero hk, Pi.neg_apply, neg_eq_zero]
  exact and_comm

/-- C165: between two latitudes where a stationary wave vanishes (or a pole) there is a part of a waveguide: if the stationary wavenumber did not
exceed the wavenumber anywhere between, the wave would vanish throughout. -/
theorem C165_zeros {K : ℝ → ℝ} {A : ℝ → ℝ} (hA : ContDiff ℝ 2 A) {k a b : ℝ} (ha : -(Real.pi / 2) ≤ a) (hb : b ≤ Real.pi / 2)
    (hode : ∀ y ∈ Set.Ioo a b, cos y * deriv (fun z => cos z * deriv A z) y + (K y - k ^ 2) * A y = 0)
    (h0a : A a = 0 ∨ a = -(Real.pi / 2)) (h0b : A b = 0 ∨ b = Real.pi / 2) (hK : ∃ y ∈ Set.Ioo a b, K y ≠ k ^ 2) (hne : ∃ y ∈ Set.Ioo a b, A y ≠ 0) :
    ∃ y ∈ Set.Ioo a b, k ^ 2 < K y := by
  by_contra hcon
  push Not at hcon
  obtain ⟨a1, a2, a3, a4⟩ := structure_differentiable hA
  have hcos : ∀ y ∈ Set.Ioo a b, 0 < cos y := fun y hy => cos_pos_of ⟨ha.trans_lt hy.1, hy.2.trans_le hb⟩
  obtain ⟨F, hF⟩ : ∃ F : ℝ → ℝ, F = fun z => A z * (cos z * deriv A z) := ⟨_, rfl⟩
  have hFd : ∀ y, HasDerivAt F (deriv A y * (cos y * deriv A y) + A y * deriv (fun z => cos z * deriv A z) y) y := by
    intro y; rw [hF]; exact (a1 y).hasDerivAt.mul (a4 y).hasDerivAt
  have hFa : F a = 0 := by
    rw [hF]; dsimp only
    rcases h0a with h | h
    · rw [h, zero_mul]
    · rw [h, Real.cos_neg, Real.cos_pi_div_two]; ring
  have hFb : F b = 0 := by
    rw [hF]; dsimp only
    rcases h0b with h | h
    · rw [h, zero_mul]
    · rw [h, Real.cos_pi_div_two]; ring
  have hval : ∀ y ∈ Set.Ioo a b, deriv F y = cos y * deriv A y ^ 2 + (k ^ 2 - K y) * A y ^ 2 / cos y := by
    intro y hy
    have hc := hcos y hy
    rw [(hFd y).deriv]
    have h := hode y hy
    have : deriv (fun z => cos z * deriv A z) y = (k ^ 2 - K y) * A y / cos y := by
      rw [eq_div_iff hc.ne']; linarith
    rw [this]
    field_simp
  have hnn : ∀ y ∈ Set.Ioo a b, 0 ≤ deriv F y := by
    intro y hy
    have hc := hcos y hy
    have := hcon y hy
    rw [hval y hy]
    have : 0 ≤ (k ^ 2 - K y) * A y ^ 2 / cos y := div_nonneg (mul_nonneg (by linarith) (sq_nonneg _)) hc.le
    positivity
  have hmono : MonotoneOn F (Set.Icc a b) := by
    refine monotoneOn_of_deriv_nonneg (convex_Icc a b) (fun y _ => (hFd y).continuousAt.continuousWithinAt)
      (fun y _ => (hFd y).differentiableAt.differentiableWithinAt) fun y hy => ?_
    rw [interior_Icc] at hy
    exact hnn y hy
  have hzero : ∀ y ∈ Set.Ioo a b, F y = 0 := by
    intro y hy
    have hab : a ≤ b := (hy.1.trans hy.2).le
    have h1 := hmono ⟨le_rfl, hab⟩ ⟨hy.1.le, hy.2.le⟩ hy.1.le
    have h2 := hmono ⟨hy.1.le, hy.2.le⟩ ⟨hab, le_rfl⟩ hy.2.le
    linarith
  have hd0 : ∀ y ∈ Set.Ioo a b, deriv F y = 0 := by
    intro y hy
    have : F =ᶠ[nhds y] fun _ => 0 := by
      filter_upwards [isOpen_Ioo.mem_nhds hy] with z hz using hzero z hz
    rw [this.deriv_eq]; simp
  have hparts : ∀ y ∈ Set.Ioo a b, deriv A y = 0 ∧ (k ^ 2 - K y) * A y ^ 2 = 0 := by
    intro y hy
    have hc := hcos y hy
    have h1 := hd0 y hy
    rw [hval y hy] at h1
    have hk := hcon y hy
    have p1 : 0 ≤ cos y * deriv A y ^ 2 := by positivity
    have p2 : 0 ≤ (k ^ 2 - K y) * A y ^ 2 / cos y := div_nonneg (mul_nonneg (by linarith) (sq_nonneg _)) hc.le
    have q1 : cos y * deriv A y ^ 2 = 0 := by linarith
    have q2 : (k ^ 2 - K y) * A y ^ 2 / cos y = 0 := by linarith
    refine ⟨?_, ?_⟩
    · rcases mul_eq_zero.mp q1 with h | h
      · exact absurd h hc.ne'
      · exact pow_eq_zero_iff (by norm_num) |>.mp h
    · rcases div_eq_zero_iff.mp q2 with h | h
      · exact h
      · exact absurd h hc.ne'
  have hconst : ∀ y ∈ Set.Ioo a b, ∀ z ∈ Set.Ioo a b, A y = A z := by
    intro y hy z hz
    refine (convex_Ioo a b).is_const_of_fderivWithin_eq_zero (𝕜 := ℝ) (f := A) a1.differentiableOn (fun x hx => ?_) hy hz
    rw [fderivWithin_of_isOpen isOpen_Ioo hx]
    ext
    simp [(hparts x hx).1]
  obtain ⟨y, hy, hKy⟩ := hK
  obtain ⟨z, hz, hAz⟩ := hne
  rcases mul_eq_zero.mp (hparts y hy).2 with h | h
  · exact hKy (by linarith)
  · have : A y = 0 := pow_eq_zero_iff (by norm_num) |>.mp h
    exact hAz ((hconst z hz y hy).trans this)

theorem mercatorY_deriv {y : ℝ} (hy : y ∈ Set.Ioo (-(Real.pi / 2)) (Real.pi / 2)) : HasDerivAt mercatorY (1 / cos y) y := by
  have hc := cos_pos_of hy
  have h := (Real.hasDerivAt_arsinh (Real.tan y)).comp y (Real.hasDerivAt_tan hc.ne')
  have e : Real.sqrt (1 + Real.tan y ^ 2) = 1 / cos y := by
    rw [Real.tan_eq_sin_div_cos, div_pow, show 1 + sin y ^ 2 / cos y ^ 2 = (1 / cos y) ^ 2 by
      field_simp; linarith [Real.sin_sq_add_cos_sq y]]
    exact Real.sqrt_sq (by positivity)
  rw [e] at h
  refine h.congr_deriv ?_
  field_simp

/-- C165: where the stationary wavenumber exceeds the wavenumber, `Ks² - k² ≥ m²`, stationary waves oscillate: they change sign or vanish somewhere in
every interval of latitude with the width `π / m` in the Mercator projection. -/
theorem C165_oscillates {K : ℝ → ℝ} {A : ℝ → ℝ} (hA : ContDiff ℝ 2 A) {k a b m : ℝ} (ha : -(Real.pi / 2) < a) (hab : a < b) (hb : b < Real.pi / 2)
    (hm : 0 < m) (hode : ∀ y ∈ Set.Ioo a b, cos y * deriv (fun z => cos z * deriv A z) y + (K y - k ^ 2) * A y = 0)
    (hK : ∀ y ∈ Set.Ioo a b, m ^ 2 ≤ K y - k ^ 2) (hwide : Real.pi / m ≤ mercatorY b - mercatorY a) : ∃ y ∈ Set.Icc a b, A y = 0 := by
  by_contra hcon
  push Not at hcon
  have hI : ∀ y ∈ Set.Icc a b, y ∈ Set.Ioo (-(Real.pi / 2)) (Real.pi / 2) := fun y hy => ⟨ha.trans_le hy.1, hy.2.trans_lt hb⟩
  -- the sign is constant
  have main : ∀ A : ℝ → ℝ, ContDiff ℝ 2 A → (∀ y ∈ Set.Ioo a b, cos y * deriv (fun z => cos z * deriv A z) y + (K y - k ^ 2) * A y = 0) →
      (∀ y ∈ Set.Icc a b, 0 < A y) → False := by
    intro A hA hode hpos
    obtain ⟨a1, a2, a3, a4⟩ := structure_differentiable hA
    obtain ⟨c, hc, hcY⟩ : ∃ c ∈ Set.Icc a b, mercatorY c = mercatorY a + Real.pi / m := by
      have hcont : ContinuousOn mercatorY (Set.Icc a b) := fun y hy => (mercatorY_deriv (hI y hy)).continuousAt.continuousWithinAt
      have hpm : 0 < Real.pi / m := div_pos Real.pi_pos hm
      exact intermediate_value_Icc hab.le hcont ⟨by linarith, by linarith⟩
    have hIc : ∀ y ∈ Set.Icc a c, y ∈ Set.Icc a b := fun y hy => ⟨hy.1, hy.2.trans hc.2⟩
    have hYmono : StrictMonoOn mercatorY (Set.Icc a b) := by
      refine strictMonoOn_of_deriv_pos (convex_Icc a b) (fun y hy => (mercatorY_deriv (hI y hy)).continuousAt.continuousWithinAt) fun y hy => ?_
      rw [interior_Icc] at hy
      have := hI y ⟨hy.1.le, hy.2.le⟩
      rw [(mercatorY_deriv this).deriv]
      have := cos_pos_of this
      positivity
    have hac : a ≤ c := hc.1
    obtain ⟨S, hS⟩ : ∃ S : ℝ → ℝ, S = fun y => sin (m * (mercatorY y - mercatorY a)) := ⟨_, rfl⟩
    obtain ⟨C, hC⟩ : ∃ C : ℝ → ℝ, C = fun y => cos (m * (mercatorY y - mercatorY a)) := ⟨_, rfl⟩
    have hSd : ∀ y ∈ Set.Icc a b, HasDerivAt S (C y * (m * (1 / cos y))) y := by
      intro y hy
      rw [hS, hC]
      exact (Real.hasDerivAt_sin _).comp y (((mercatorY_deriv (hI y hy)).sub_const _).const_mul m)
    have hCd : ∀ y ∈ Set.Icc a b, HasDerivAt C (-S y * (m * (1 / cos y))) y := by
      intro y hy
      rw [hS, hC]
      exact (Real.hasDerivAt_cos _).comp y (((mercatorY_deriv (hI y hy)).sub_const _).const_mul m)
    obtain ⟨w, hw⟩ : ∃ w : ℝ → ℝ, w = fun z => cos z * deriv A z := ⟨_, rfl⟩
    rw [← hw] at hode a4
    obtain ⟨V, hV⟩ : ∃ V : ℝ → ℝ, V = fun y => w y * S y - A y * (m * C y) := ⟨_, rfl⟩
    have hVd : ∀ y ∈ Set.Icc a b, HasDerivAt V ((deriv w y * S y + w y * (C y * (m * (1 / cos y)))) -
        (deriv A y * (m * C y) + A y * (m * (-S y * (m * (1 / cos y)))))) y := by
      intro y hy
      rw [hV]
      exact ((a4 y).hasDerivAt.mul (hSd y hy)).sub ((a1 y).hasDerivAt.mul ((hCd y hy).const_mul m))
    have hanti : AntitoneOn V (Set.Icc a c) := by
      refine antitoneOn_of_deriv_nonpos (convex_Icc a c) (fun y hy => (hVd y (hIc y hy)).continuousAt.continuousWithinAt)
        (fun y hy => (hVd y (hIc y (interior_subset hy))).differentiableAt.differentiableWithinAt) fun y hy => ?_
      rw [interior_Icc] at hy
      have hyb : y ∈ Set.Icc a b := hIc y ⟨hy.1.le, hy.2.le⟩
      have hyo : y ∈ Set.Ioo a b := ⟨hy.1, hy.2.trans_le hc.2⟩
      have hcy := cos_pos_of (hI y hyb)
      rw [(hVd y hyb).deriv]
      have hSy : 0 ≤ S y := by
        rw [hS]
        have l1 := hYmono ⟨le_rfl, hab.le⟩ hyb hy.1
        have l2 := hYmono hyb hc hy.2
        refine Real.sin_nonneg_of_nonneg_of_le_pi (mul_nonneg hm.le (by linarith)) ?_
        have : m * (mercatorY y - mercatorY a) ≤ m * (Real.pi / m) := mul_le_mul_of_nonneg_left (by linarith) hm.le
        rwa [mul_div_cancel₀ _ hm.ne'] at this
      have hodey := hode y hyo
      have hdw : deriv w y = -((K y - k ^ 2) * A y) / cos y := by
        rw [eq_div_iff hcy.ne']; linarith
      have hwy : w y = cos y * deriv A y := by rw [hw]
      rw [hdw, hwy]
      have e : (-((K y - k ^ 2) * A y) / cos y * S y + cos y * deriv A y * (C y * (m * (1 / cos y)))) -
          (deriv A y * (m * C y) + A y * (m * (-S y * (m * (1 / cos y))))) = -((K y - k ^ 2 - m ^ 2) * (A y * S y)) / cos y := by
        field_simp
        ring
      rw [e]
      have h1 := hK y hyo
      have h2 := hpos y hyb
      have : 0 ≤ (K y - k ^ 2 - m ^ 2) * (A y * S y) := mul_nonneg (by linarith) (mul_nonneg h2.le hSy)
      exact div_nonpos_of_nonpos_of_nonneg (by linarith) hcy.le
    have hend := hanti ⟨le_rfl, hac⟩ ⟨hac, le_rfl⟩ hac
    have hVa : V a = -(A a * m) := by
      rw [hV, hS, hC]
      simp
    have hVc : V c = A c * m := by
      rw [hV, hS, hC]
      dsimp only
      rw [hcY, show m * (mercatorY a + Real.pi / m - mercatorY a) = Real.pi by field_simp; ring, Real.sin_pi, Real.cos_pi]
      ring
    rw [hVa, hVc] at hend
    have p1 := mul_pos (hpos a ⟨le_rfl, hab.le⟩) hm
    have p2 := mul_pos (hpos c hc) hm
    linarith
  have hcontA : ContinuousOn A (Set.Icc a b) := hA.continuous.continuousOn
  rcases lt_or_gt_of_ne (hcon a ⟨le_rfl, hab.le⟩) with hneg | hpos
  · refine main (fun y => -A y) hA.neg (fun y hy => ?_) fun y hy => ?_
    · have e : (fun z => cos z * deriv (fun y => -A y) z) = fun z => -(cos z * deriv A z) := by
        funext z
        rw [deriv.fun_neg]; ring
      rw [e, deriv.fun_neg]
      linarith [hode y hy]
    · by_contra hle
      have hle' : 0 ≤ A y := by linarith
      obtain ⟨z, hz, hz0⟩ := intermediate_value_Icc hy.1 (hcontA.mono (Set.Icc_subset_Icc_right hy.2)) ⟨hneg.le, hle'⟩
      exact hcon z ⟨hz.1, hz.2.trans hy.2⟩ hz0
  · refine main A hA hode fun y hy => ?_
    by_contra hle
    have hle' : A y ≤ 0 := by linarith
    obtain ⟨z, hz, hz0⟩ := intermediate_value_Icc' hy.1 (hcontA.mono (Set.Icc_subset_Icc_right hy.2)) ⟨hle', hpos.le⟩
    exact hcon z ⟨hz.1, hz.2.trans hy.2⟩ hz0

/-- The stationary wavenumber exceeds a positive wavenumber iff its square exceeds the square. -/
theorem stationaryReal_gt {r : ℝ} {Q U : ℝ → ℝ} {k y : ℝ} (hk : 0 < k) (h : k ^ 2 < stationarySq r Q U (y * Real.pi / 180)) : k < stationaryReal r Q U y := by
  have hpos : 0 < stationarySq r Q U (y * Real.pi / 180) := (by positivity : (0 : ℝ) ≤ k ^ 2).trans_lt h
  unfold stationaryReal
  rw [sign_pos hpos, abs_of_pos hpos, SignType.coe_one, one_mul]
  exact Real.lt_sqrt_of_sq_lt h

theorem stationaryReal_eq {r : ℝ} {Q U : ℝ → ℝ} {k y : ℝ} (hk : 0 < k) (h : stationarySq r Q U (y * Real.pi / 180) = k ^ 2) : stationaryReal r Q U y = k := by
  have hpos : 0 < stationarySq r Q U (y * Real.pi / 180) := by rw [h]; positivity
  unfold stationaryReal
  rw [sign_pos hpos, abs_of_pos hpos, SignType.coe_one, one_mul, h, Real.sqrt_sq hk.le]

theorem degrees {a b y : ℝ} : y ∈ Set.Ioo (a * Real.pi / 180) (b * Real.pi / 180) ↔ y * 180 / Real.pi ∈ Set.Ioo a b := by
  have hp := Real.pi_pos
  rw [Set.mem_Ioo, Set.mem_Ioo, lt_div_iff₀ hp, div_lt_iff₀ hp, div_lt_iff₀ (by norm_num), lt_div_iff₀ (by norm_num)]

/-- C165: between two latitudes where a stationary wave vanishes, or a pole (in degrees), there is a part of a waveguide. -/
theorem C165_guides {r : ℝ} (hr : r ≠ 0) {Q U : ℝ → ℝ} (hU : ∀ y ∈ Set.Ioo (-(Real.pi / 2)) (Real.pi / 2), U y ≠ 0) {k : ℕ} (hk : k ≠ 0)
    {A B : ℝ → ℝ} (hA : ContDiff ℝ 2 A) (hB : ContDiff ℝ 2 B) (hψ : StationaryWave r Q U (waveOf k A B)) {W : List (ℝ × ℝ)}
    (hW : SimpleGuides (stationaryReal r Q U) k W) {a b : ℝ} (ha : -90 ≤ a) (hb : b ≤ 90)
    (h0a : (∀ x, waveOf k A B x (a * Real.pi / 180) = 0) ∨ a = -90) (h0b : (∀ x, waveOf k A B x (b * Real.pi / 180) = 0) ∨ b = 90)
    (hne : ∃ x, ∃ y ∈ Set.Ioo a b, waveOf k A B x (y * Real.pi / 180) ≠ 0) : ∃ q ∈ W, ∃ y ∈ Set.Ioo a b, q.2 < y ∧ y < q.1 := by
  have hp := Real.pi_pos
  have hk0 : (0 : ℝ) < k := by exact_mod_cast Nat.pos_of_ne_zero hk
  have hode := (C165_equation hr hU hk hA hB).mp hψ
  have hback : ∀ y : ℝ, y * 180 / Real.pi * Real.pi / 180 = y := fun y => by field_simp
  have hback' : ∀ y : ℝ, y * Real.pi / 180 * 180 / Real.pi = y := fun y => by field_simp
  have ha' : -(Real.pi / 2) ≤ a * Real.pi / 180 := by rw [le_div_iff₀ (by norm_num)]; nlinarith
  have hb' : b * Real.pi / 180 ≤ Real.pi / 2 := by rw [div_le_iff₀ (by norm_num)]; nlinarith
  have hsub : ∀ y ∈ Set.Ioo (a * Real.pi / 180) (b * Real.pi / 180), y ∈ Set.Ioo (-(Real.pi / 2)) (Real.pi / 2) :=
    fun y hy => ⟨ha'.trans_lt hy.1, hy.2.trans_le hb'⟩
  -- the latitudes of waveguides in the interval
  have hmem : ∀ y ∈ Set.Ioo a b, (k : ℝ) ≤ stationaryReal r Q U y → ∃ q ∈ W, q.2 ≤ y ∧ y ≤ q.1 := by
    intro y hy hf
    by_contra hcon
    push Not at hcon
    have := hW.outside y (ha.trans hy.1.le) (hy.2.le.trans hb) fun q hq => by
      rcases lt_or_ge y q.2 with h | h
      · exact .inr h
      · exact .inl (hcon q hq h)
    linarith
  have hnot : ∃ y ∈ Set.Ioo (a * Real.pi / 180) (b * Real.pi / 180), stationarySq r Q U y ≠ (k : ℝ) ^ 2 := by
    by_contra hcon
    push Not at hcon
    obtain ⟨-, y, hy, -⟩ := hne
    have hconst : ∀ z ∈ Set.Ioo a b, stationaryReal r Q U z = k := fun z hz =>
      stationaryReal_eq hk0 (hcon _ (degrees.mpr (by rw [hback']; exact hz)))
    obtain ⟨q, hq, h1, h2⟩ := hmem y hy (hconst y hy).ge
    have hder : deriv (stationaryReal r Q U) y = 0 := by
      have : stationaryReal r Q U =ᶠ[nhds y] fun _ => (k : ℝ) := by
        filter_upwards [isOpen_Ioo.mem_nhds hy] with z hz using hconst z hz
      rw [this.deriv_eq]; simp
    rcases h1.lt_or_eq with h1 | h1
    · rcases h2.lt_or_eq with h2 | h2
      · exact absurd (hW.inside q hq y h1 h2) (by rw [hconst y hy]; exact lt_irrefl _)
      · rcases hW.north q hq with ⟨h, -⟩ | ⟨-, -, h⟩
        · linarith [hy.2]
        · rw [← h2, hder] at h; exact lt_irrefl _ h
    · rcases hW.south q hq with ⟨h, -⟩ | ⟨-, -, h⟩
      · linarith [hy.1]
      · rw [h1, hder] at h; exact lt_irrefl _ h
  have hfound : ∃ y ∈ Set.Ioo (a * Real.pi / 180) (b * Real.pi / 180), (k : ℝ) ^ 2 < stationarySq r Q U y := by
    obtain ⟨x, y, hy, hxy⟩ := hne
    have hyr : y * Real.pi / 180 ∈ Set.Ioo (a * Real.pi / 180) (b * Real.pi / 180) := degrees.mpr (by rw [hback']; exact hy)
    have hpole : -90 * Real.pi / 180 = -(Real.pi / 2) ∧ 90 * Real.pi / 180 = Real.pi / 2 := ⟨by ring, by ring⟩
    have hend : ∀ C : ℝ → ℝ, (∀ z, (∀ x, waveOf k A B x z = 0) → C z = 0) →
        (C (a * Real.pi / 180) = 0 ∨ a * Real.pi / 180 = -(Real.pi / 2)) ∧ (C (b * Real.pi / 180) = 0 ∨ b * Real.pi / 180 = Real.pi / 2) := by
      intro C hC
      refine ⟨?_, ?_⟩
      · rcases h0a with h | h
        · exact .inl (hC _ h)
        · exact .inr (by rw [h]; exact hpole.1)
      · rcases h0b with h | h
        · exact .inl (hC _ h)
        · exact .inr (by rw [h]; exact hpole.2)
    by_cases hAy : A (y * Real.pi / 180) = 0
    · have hBy : B (y * Real.pi / 180) ≠ 0 := fun h => hxy (by simp [waveOf, hAy, h])
      obtain ⟨e1, e2⟩ := hend B fun z hz => ((waveOf_zero hk).mp hz).2
      exact C165_zeros hB ha' hb' (fun z hz => (hode z (hsub z hz)).2) e1 e2 hnot ⟨_, hyr, hBy⟩
    · obtain ⟨e1, e2⟩ := hend A fun z hz => ((waveOf_zero hk).mp hz).1
      exact C165_zeros hA ha' hb' (fun z hz => (hode z (hsub z hz)).1) e1 e2 hnot ⟨_, hyr, hAy⟩
  obtain ⟨y, hy, hKy⟩ := hfound
  have hyd := degrees.mp hy
  have hf : (k : ℝ) < stationaryReal r Q U (y * 180 / Real.pi) := stationaryReal_gt hk0 (by rw [hback]; exact hKy)
  obtain ⟨q, hq, h1, h2⟩ := hmem _ hyd hf.le
  refine ⟨q, hq, _, hyd, ?_, ?_⟩
  · rcases h1.lt_or_eq with h | h
    · exact h
    · rcases hW.south q hq with ⟨h', -⟩ | ⟨h', -⟩
      · linarith [hyd.1]
      · rw [h] at h'; linarith
  · rcases h2.lt_or_eq with h | h
    · exact h
    · rcases hW.north q hq with ⟨h', -⟩ | ⟨h', -⟩
      · linarith [hyd.2]
      · rw [← h] at h'; linarith

/-- C165: without waveguides there are no stationary waves. -/
theorem C165_none {r : ℝ} (hr : r ≠ 0) {Q U : ℝ → ℝ} (hU : ∀ y ∈ Set.Ioo (-(Real.pi / 2)) (Real.pi / 2), U y ≠ 0) {k : ℕ} (hk : k ≠ 0)
    {A B : ℝ → ℝ} (hA : ContDiff ℝ 2 A) (hB : ContDiff ℝ 2 B) (hψ : StationaryWave r Q U (waveOf k A B))
    (hW : SimpleGuides (stationaryReal r Q U) k []) (x y : ℝ) (hy : y ∈ Set.Icc (-(Real.pi / 2)) (Real.pi / 2)) : waveOf k A B x y = 0 := by
  have hp := Real.pi_pos
  have hopen : ∀ y ∈ Set.Ioo (-(Real.pi / 2)) (Real.pi / 2), waveOf k A B x y = 0 := by
    intro y hy
    by_contra hne
    obtain ⟨q, hq, -⟩ := C165_guides hr hU hk hA hB hψ hW (a := -90) (b := 90) le_rfl le_rfl (.inr rfl) (.inr rfl)
      ⟨x, y * 180 / Real.pi, degrees.mp (by rw [show -90 * Real.pi / 180 = -(Real.pi / 2) by ring, show 90 * Real.pi / 180 = Real.pi / 2 by ring]; exact hy),
        by rw [show y * 180 / Real.pi * Real.pi / 180 = y by field_simp]; exact hne⟩
    cases hq
  have hcl : closure (Set.Ioo (-(Real.pi / 2)) (Real.pi / 2)) = Set.Icc (-(Real.pi / 2)) (Real.pi / 2) := closure_Ioo (by linarith)
  have hcont : Continuous fun y => waveOf k A B x y := (hA.continuous.mul continuous_const).add (hB.continuous.mul continuous_const)
  have heq : Set.EqOn (fun y => waveOf k A B x y) (fun _ => 0) (closure (Set.Ioo (-(Real.pi / 2)) (Real.pi / 2))) :=
    Set.EqOn.closure (fun y hy => hopen y hy) hcont continuous_const
  rw [hcl] at heq
  exact heq hy

/-- C165 for the code: on fine grids, every stationary wave has a waveguide found by `extract_ks_waveguides` between two latitudes where it vanishes (up to the
second-order error of the edges of waveguides). -/
theorem C165_extracted {r : ℝ} (hr : 0 < r) {Q U : ℝ → ℝ} (hQ : ContDiff ℝ 5 Q) {u0 : ℝ} (hu0 : 0 < u0)
    (hU : ∀ φ ∈ Set.Icc (-(Real.pi / 2)) (Real.pi / 2), u0 * cos φ ≤ |U φ|) {k : ℕ} (hk : k ≠ 0) {W : List (ℝ × ℝ)}
    (hW : SimpleGuides (stationaryReal r Q U) k W) :
    ∃ h0 > 0, ∃ K > 0, ∀ g : Grid ℝ, g.Valid → g.rsphere = r → g.resolution * ((g.nlat : ℝ) - 1) = 180 → g.resolution < h0 →
      ∀ (order : Order) (_ : order = .none ∨ order = .int 4) (u p : ProfileOrField g) (_ : ∀ j, p.zonalMean j = Q (g.phi j))
        (_ : ∀ j, u.zonalMean j = U (g.phi j)) (minU : ℝ) (_ : 0 ≤ minU) (_ : ∀ j : Fin g.nlat, 0 < (j : ℕ) → (j : ℕ) < g.nlat - 1 → minU < |U (g.phi j)|),
        ∃ ks, g.stationaryWavenumber u (some p) order minU "complex" = .ok (.complex ks) ∧
          ∃ C : List (ℝ × ℝ), g.extractKsWaveguides (List.ofFn ks) (FloatX.fin k, FloatX.fin 0) = .ok (C.map toX) ∧
            ∀ A B : ℝ → ℝ, ContDiff ℝ 2 A → ContDiff ℝ 2 B → StationaryWave r Q U (waveOf k A B) → ∀ a b : ℝ, -90 ≤ a → b ≤ 90 →
              ((∀ x, waveOf k A B x (a * Real.pi / 180) = 0) ∨ a = -90) → ((∀ x, waveOf k A B x (b * Real.pi / 180) = 0) ∨ b = 90) →
              (∃ x, ∃ y ∈ Set.Ioo a b, waveOf k A B x (y * Real.pi / 180) ≠ 0) →
              ∃ q ∈ C, a < q.1 + K * g.resolution ^ 2 ∧ q.2 - K * g.resolution ^ 2 < b := by
  obtain ⟨h0, hh0, K, hK, H⟩ := C149_stationary hr hQ hu0 hU hW
  refine ⟨h0, hh0, K, hK, fun g hg hgr hsp hlt order ho u p hp hu minU hm hmin => ?_⟩
  obtain ⟨ks, e1, C, e2, e3⟩ := H g hg hgr hsp hlt order ho u p hp hu minU hm hmin
  refine ⟨ks, e1, C, e2, fun A B hA hB hψ a b ha hb h0a h0b hne => ?_⟩
  have hU' : ∀ y ∈ Set.Ioo (-(Real.pi / 2)) (Real.pi / 2), U y ≠ 0 := by
    intro y hy h
    have h1 := hU y ⟨hy.1.le, hy.2.le⟩
    rw [h, abs_zero] at h1
    have := mul_pos hu0 (cos_pos_of hy)
    linarith
  obtain ⟨q, hq, y, hy, h1, h2⟩ := C165_guides hr.ne' hU' hk hA hB hψ hW ha hb h0a h0b hne
  obtain ⟨c, hc, hcq⟩ : ∃ c ∈ C, |c.1 - q.1| ≤ K * g.resolution ^ 2 ∧ |c.2 - q.2| ≤ K * g.resolution ^ 2 := by
    clear * - e3 hq
    induction e3 with
    | nil => cases hq
    | cons h t ih =>
      rcases List.mem_cons.mp hq with rfl | hq
      · exact ⟨_, List.mem_cons_self, h⟩
      · obtain ⟨c, hc, hcq⟩ := ih hq
        exact ⟨c, List.mem_cons_of_mem _ hc, hcq⟩
  have g1 := abs_le.mp hcq.1
  have g2 := abs_le.mp hcq.2
  exact ⟨c, hc, by linarith [hy.1], by linarith [hy.2]⟩

/-- C165: on a solid-body rotation for which waves of degree `n` are stationary (C113), the harmonics of this degree are stationary waves in this sense. -/
theorem C165_harmonic {r : ℝ} (hr : r ≠ 0) {Ω R : ℝ} (hR : R ≠ 0) {n k : ℕ} (hk : k ≠ 0) (hn : 2 * (Ω + R) / R = n * (n + 1)) :
    StationaryWave r (fun φ => 2 * (Ω + R) * sin φ) (fun φ => r * R * cos φ) (waveOf k (legendre n k) fun _ => 0) := by
  have hc2 : ContDiff ℝ 2 (legendre n k) := contDiff_infty.mp (legendre_contDiff n k) 2
  refine (C165_equation hr (fun y hy => mul_ne_zero (mul_ne_zero hr hR) (cos_pos_of hy).ne') hk hc2 contDiff_const).mpr fun y hy => ⟨?_, by simp⟩
  have h1 := hasDerivAt_cos_mul_deriv_legendre n k y
  have e : (fun z => cos z * deriv (legendre n k) z) = fun z => deriv (legendre n k) z * cos z := by funext z; ring
  rw [e, h1.deriv, stationarySq_solid hr hR, hn]
  have h2 := legendreOverCos_mul_cos n k y
  linear_combination (k : ℝ) * h2

/-- Non-vacuity of C165: with twice the rotation of the planet, waves of degree 2 are stationary on the solid-body rotation; the one with wavenumber 1 vanishes at
the equator, and there is a waveguide of wavenumber 1. -/
example : StationaryWave 1 (fun φ => 2 * (2 + 1) * sin φ) (fun φ => 1 * 1 * cos φ) (waveOf 1 (legendre 2 1) fun _ => 0) ∧
    SimpleGuides (stationaryReal 1 (fun φ => 2 * (2 + 1) * sin φ) fun φ => 1 * 1 * cos φ) (1 : ℕ)
      [(Real.arccos (((1 : ℕ) : ℝ) / Real.sqrt (2 * (2 + 1) / 1)) * 180 / Real.pi, -(Real.arccos (((1 : ℕ) : ℝ) / Real.sqrt (2 * (2 + 1) / 1)) * 180 / Real.pi))] := by
  refine ⟨C165_harmonic one_ne_zero one_ne_zero one_ne_zero (by norm_num), solid_guides one_ne_zero (by norm_num) one_pos (by norm_num) ?_⟩
  rw [Real.lt_sqrt (by norm_num)]; norm_num

end Barotropic
