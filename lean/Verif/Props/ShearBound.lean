import Verif.Props.NormalModes

/-!
# C170: the growth of waves is bounded by the shear of the zonal flow
-/

namespace Barotropic
open Real (cos sin)

/-- Terms of the budget: the conversion is at most the shear times half of the wave energy. -/
theorem conversion_bound {C κ ω' a b a' b' : ℝ} (hC : 0 < C) :
    |κ * ω' * (a * (C * b') - b * (C * a'))| ≤ |ω'| * C / 2 * (C * (a' ^ 2 + b' ^ 2) + κ ^ 2 * (a ^ 2 + b ^ 2) / C) := by
  have h1 : κ * ω' * (a * (C * b') - b * (C * a')) = ω' * C * (κ * (a * b' - b * a')) := by ring
  have h2 : |κ * (a * b' - b * a')| ≤ (C * (a' ^ 2 + b' ^ 2) + κ ^ 2 * (a ^ 2 + b ^ 2) / C) / 2 := by
    have h3 : (C * (a' ^ 2 + b' ^ 2) + κ ^ 2 * (a ^ 2 + b ^ 2) / C) / 2 - κ * (a * b' - b * a') =
        ((C * b' - κ * a) ^ 2 + (C * a' + κ * b) ^ 2) / (2 * C) := by field_simp; ring
    have h4 : (C * (a' ^ 2 + b' ^ 2) + κ ^ 2 * (a ^ 2 + b ^ 2) / C) / 2 + κ * (a * b' - b * a') =
        ((C * b' + κ * a) ^ 2 + (C * a' - κ * b) ^ 2) / (2 * C) := by field_simp; ring
    have h5 : 0 ≤ ((C * b' - κ * a) ^ 2 + (C * a' + κ * b) ^ 2) / (2 * C) := by positivity
    have h6 : 0 ≤ ((C * b' + κ * a) ^ 2 + (C * a' - κ * b) ^ 2) / (2 * C) := by positivity
    rw [abs_le]
    constructor <;> linarith
  rw [h1, abs_mul, abs_mul, abs_of_pos hC]
  calc |ω'| * C * |κ * (a * b' - b * a')| ≤ |ω'| * C * ((C * (a' ^ 2 + b' ^ 2) + κ ^ 2 * (a ^ 2 + b ^ 2) / C) / 2) :=
        mul_le_mul_of_nonneg_left h2 (by positivity)
    _ = _ := by ring

variable {r : ℝ} {Q U ω : ℝ → ℝ} {k : ℕ} {A B : ℝ → ℝ} {σ c : ℝ}

/-- C170: a wave on a zonal flow with angular velocity `ω` grows (or decays) at most at half the rate of the strongest shear
`cos φ |dω/dφ|`, whatever its PV. -/
theorem C170_growth (hr : r ≠ 0) (hk : k ≠ 0) (hA : ContDiff ℝ 2 A) (hB : ContDiff ℝ 2 B) (hσ : σ ≠ 0)
    (hω : Differentiable ℝ ω) (hU : ∀ y ∈ Set.Ioo (-(Real.pi / 2)) (Real.pi / 2), U y = r * cos y * ω y)
    (hw : LinearWave r Q U (normalMode k A B σ c))
    (hne : ∃ y ∈ Set.Ioo (-(Real.pi / 2)) (Real.pi / 2), A y ≠ 0 ∨ B y ≠ 0) :
    ∃ y ∈ Set.Ioo (-(Real.pi / 2)) (Real.pi / 2), 2 * |σ| ≤ cos y * |deriv ω y| := by
  by_contra hcon
  push Not at hcon
  have hk' : (k : ℝ) ≠ 0 := by exact_mod_cast hk
  have hode := (C167_equation hr hk hA hB σ c).mp hw
  have hG := fun y => ((amplitude_deriv hA hB y).const_mul (σ ^ 2)).add
    ((((hω y).hasDerivAt.sub_const c).mul (momentumFlux_deriv hA hB y)).const_mul (σ * k))
  have hbudget : ∀ y ∈ Set.Ioo (-(Real.pi / 2)) (Real.pi / 2),
      σ ^ 2 * (cos y * (deriv A y ^ 2 + deriv B y ^ 2) + (A y * deriv (fun z => cos z * deriv A z) y + B y * deriv (fun z => cos z * deriv B z) y)) +
        σ * k * (deriv ω y * (A y * (cos y * deriv B y) - B y * (cos y * deriv A y)) +
          (ω y - c) * (A y * deriv (fun z => cos z * deriv B z) y - B y * deriv (fun z => cos z * deriv A z) y)) =
      σ ^ 2 * (cos y * (deriv A y ^ 2 + deriv B y ^ 2) + k ^ 2 * (A y ^ 2 + B y ^ 2) / cos y) +
        σ * (k * deriv ω y * (A y * (cos y * deriv B y) - B y * (cos y * deriv A y))) := by
    intro y hy
    have hc := (cos_pos_of hy).ne'
    obtain ⟨o1, o2⟩ := hode y hy
    have hang : angularWind r U y = ω y := by
      unfold angularWind
      rw [hU y hy]
      field_simp
    rw [hang] at o1 o2
    unfold modeLaplace at o1 o2
    rw [← sub_eq_zero, ← mul_right_inj' hc, mul_zero]
    field_simp
    linear_combination σ * (A y * o1 + B y * o2)
  have hpos : ∀ y ∈ Set.Ioo (-(Real.pi / 2)) (Real.pi / 2),
      |σ| * (|σ| - cos y * |deriv ω y| / 2) * (cos y * (deriv A y ^ 2 + deriv B y ^ 2) + k ^ 2 * (A y ^ 2 + B y ^ 2) / cos y) ≤
      σ ^ 2 * (cos y * (deriv A y ^ 2 + deriv B y ^ 2) + k ^ 2 * (A y ^ 2 + B y ^ 2) / cos y) +
        σ * (k * deriv ω y * (A y * (cos y * deriv B y) - B y * (cos y * deriv A y))) := by
    intro y hy
    have hc := cos_pos_of hy
    have h1 := conversion_bound (κ := k) (ω' := deriv ω y) (a := A y) (b := B y) (a' := deriv A y) (b' := deriv B y) hc
    have h2 := neg_abs_le (σ * (k * deriv ω y * (A y * (cos y * deriv B y) - B y * (cos y * deriv A y))))
    rw [abs_mul σ] at h2
    have h3 := mul_le_mul_of_nonneg_left h1 (abs_nonneg σ)
    have h4 : σ ^ 2 = |σ| * |σ| := by rw [abs_mul_abs_self]; ring
    rw [h4]
    linarith
  have hE : ∀ y ∈ Set.Ioo (-(Real.pi / 2)) (Real.pi / 2), 0 ≤ cos y * (deriv A y ^ 2 + deriv B y ^ 2) + k ^ 2 * (A y ^ 2 + B y ^ 2) / cos y := by
    intro y hy
    have hc := cos_pos_of hy
    positivity
  have hf : ∀ y ∈ Set.Ioo (-(Real.pi / 2)) (Real.pi / 2), 0 < |σ| * (|σ| - cos y * |deriv ω y| / 2) := fun y hy =>
    mul_pos (abs_pos.mpr hσ) (by have := hcon y hy; linarith)
  have hz := slope_vanishes hG (by simp) (by simp) (fun y hy => by
    rw [hbudget y hy]
    exact (mul_nonneg (hf y hy).le (hE y hy)).trans (hpos y hy))
  obtain ⟨y, hy, hab⟩ := hne
  have h1 := hz y hy
  rw [hbudget y hy] at h1
  have h2 := hpos y hy
  rw [h1] at h2
  have hc := cos_pos_of hy
  have h3 : 0 < cos y * (deriv A y ^ 2 + deriv B y ^ 2) + k ^ 2 * (A y ^ 2 + B y ^ 2) / cos y := by
    have : 0 < A y ^ 2 + B y ^ 2 := by
      rcases hab with h | h <;> positivity
    positivity
  exact absurd h2 (not_le.mpr (mul_pos (hf y hy) h3))

/-- C170: if the shear does not exceed `S`, no wave grows faster than with `exp (S t / 2)`. -/
theorem C170_amplitude (hr : r ≠ 0) (hk : k ≠ 0) (hA : ContDiff ℝ 2 A) (hB : ContDiff ℝ 2 B)
    (hω : Differentiable ℝ ω) (hU : ∀ y ∈ Set.Ioo (-(Real.pi / 2)) (Real.pi / 2), U y = r * cos y * ω y)
    (hw : LinearWave r Q U (normalMode k A B σ c)) {S : ℝ} (hS : ∀ y ∈ Set.Ioo (-(Real.pi / 2)) (Real.pi / 2), cos y * |deriv ω y| ≤ S)
    (t x y : ℝ) (hy : y ∈ Set.Ioo (-(Real.pi / 2)) (Real.pi / 2)) :
    |normalMode k A B σ c t x y| ≤ Real.exp (S / 2 * |t|) * |normalMode k A B σ c 0 (x - c * t) y| := by
  have h0 : normalMode k A B σ c t x y = Real.exp (σ * t) * normalMode k A B σ c 0 (x - c * t) y := by
    simp [normalMode]
  rw [h0, abs_mul, abs_of_pos (Real.exp_pos _)]
  by_cases hne : ∃ y ∈ Set.Ioo (-(Real.pi / 2)) (Real.pi / 2), A y ≠ 0 ∨ B y ≠ 0
  · refine mul_le_mul_of_nonneg_right (Real.exp_le_exp.mpr ?_) (abs_nonneg _)
    have hσ : |σ| ≤ S / 2 := by
      rcases eq_or_ne σ 0 with rfl | hσ
      · have h1 := hS y hy
        have h2 := cos_pos_of hy
        have h3 : 0 ≤ cos y * |deriv ω y| := by positivity
        rw [abs_zero]
        linarith
      · obtain ⟨z, hz, h⟩ := C170_growth hr hk hA hB hσ hω hU hw hne
        have := hS z hz
        linarith
    calc σ * t ≤ |σ * t| := le_abs_self _
      _ = |σ| * |t| := abs_mul _ _
      _ ≤ S / 2 * |t| := mul_le_mul_of_nonneg_right hσ (abs_nonneg _)
  · push Not at hne
    obtain ⟨ha, hb⟩ := hne y hy
    simp [normalMode, waveOf, ha, hb]

/-- C170: on a zonal flow without shear (solid-body rotation) waves do not grow, whatever the PV gradient is taken to be. -/
theorem C170_shearless {W : ℝ} (hr : r ≠ 0) (hk : k ≠ 0) (hA : ContDiff ℝ 2 A) (hB : ContDiff ℝ 2 B)
    (hU : ∀ y ∈ Set.Ioo (-(Real.pi / 2)) (Real.pi / 2), U y = r * cos y * W) (hw : LinearWave r Q U (normalMode k A B σ c))
    (hne : ∃ y ∈ Set.Ioo (-(Real.pi / 2)) (Real.pi / 2), A y ≠ 0 ∨ B y ≠ 0) : σ = 0 := by
  by_contra hσ
  obtain ⟨y, -, h⟩ := C170_growth (ω := fun _ => W) hr hk hA hB hσ (differentiable_const W) hU hw hne
  have := abs_pos.mpr hσ
  simp at h
  linarith

/-- Non-vacuity of C170: the hypotheses hold for a growing wave. -/
example : ∃ Q U A B ω : ℝ → ℝ, ContDiff ℝ 2 A ∧ ContDiff ℝ 2 B ∧ Continuous U ∧ Differentiable ℝ ω ∧ (∀ y, U y = 1 * cos y * ω y) ∧
    (∃ y ∈ Set.Ioo (-(Real.pi / 2)) (Real.pi / 2), A y ≠ 0 ∨ B y ≠ 0) ∧ LinearWave 1 Q U (normalMode 1 A B 1 0) := growing_wave

end Barotropic
