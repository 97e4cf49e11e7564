import Verif.Spec.WaveActivity
import Verif.Lemmas.RearrangeExists

/-!
# Local wave activity
-/

namespace Barotropic
open Real Set MeasureTheory
open scoped Classical

/-- contribution of a place with deviation `u`; `b`: north of the latitude -/
noncomputable def crossed (u : ℝ) (b : Prop) : ℝ := (if 0 ≤ u then u else 0) - if b then u else 0

theorem crossed_eq (u : ℝ) (b : Prop) : crossed u b = if 0 ≤ u ↔ b then 0 else |u| := by
  unfold crossed
  by_cases h : 0 ≤ u
  · by_cases hb : b <;> simp [h, hb, abs_of_nonneg h]
  · by_cases hb : b <;> simp [h, hb, abs_of_neg (not_le.1 h)]

theorem crossed_lip (u v : ℝ) (b : Prop) : |crossed u b - crossed v b| ≤ |u - v| := by
  unfold crossed
  by_cases hb : b
  · simp only [if_pos hb]
    split_ifs with h1 h2 h2
    · simp
    · rw [not_le] at h2
      rw [abs_le]
      constructor <;> linarith [le_abs_self (u - v), abs_nonneg (u - v)]
    · rw [not_le] at h1
      rw [abs_le, abs_sub_comm]
      constructor <;> linarith [le_abs_self (v - u), abs_nonneg (v - u)]
    · rw [show 0 - u - (0 - v) = -(u - v) by ring, abs_neg]
  · simp only [if_neg hb]
    split_ifs with h1 h2 h2
    · simp
    · rw [not_le] at h2
      rw [abs_le]
      constructor <;> linarith [le_abs_self (u - v), abs_nonneg (u - v)]
    · rw [not_le] at h1
      rw [abs_le, abs_sub_comm]
      constructor <;> linarith [le_abs_self (v - u), abs_nonneg (v - u)]
    · simp

theorem crossed_flip (u : ℝ) (b b' : Prop) : |crossed u b - crossed u b'| ≤ if b ↔ b' then 0 else |u| := by
  unfold crossed
  by_cases hb : b <;> by_cases hb' : b' <;> simp [hb, hb', abs_sub_comm]

theorem crossed_abs (u : ℝ) (b : Prop) : 0 ≤ crossed u b ∧ crossed u b ≤ |u| := by
  rw [crossed_eq]
  split_ifs <;> simp

theorem displaced_eq (Q : ℝ → ℝ → ℝ) (q x φe : ℝ) : displaced Q q x φe = ∫ φ in -(π / 2)..π / 2, crossed (Q x φ - q) (φe ≤ φ) * cos φ := by
  unfold displaced
  congr 1
  funext φ
  rw [crossed_eq]
  simp only [sub_nonneg]

variable {Q : ℝ → ℝ → ℝ} {P : ℝ → ℝ} {Lx Ly : ℝ}

theorem ContField.meridian (hQ : ContField Q) (x : ℝ) : ContinuousOn (Q x) latitudes :=
  hQ.comp (f := fun φ => (x, φ)) (by fun_prop) fun φ hφ => ⟨mem_univ _, hφ⟩

theorem crossed_integrable (hQ : ContField Q) (q x φe : ℝ) :
    IntervalIntegrable (fun φ => crossed (Q x φ - q) (φe ≤ φ) * cos φ) volume (-(π / 2)) (π / 2) := by
  have hc : ContinuousOn (fun φ => Q x φ - q) latitudes := (hQ.meridian x).sub continuousOn_const
  refine IntervalIntegrable.mul_continuousOn ?_ continuous_cos.continuousOn
  unfold crossed
  refine IntervalIntegrable.sub ?_ ?_
  · have : (fun φ => if 0 ≤ Q x φ - q then Q x φ - q else 0) = fun φ => max (Q x φ - q) 0 := by
      funext φ
      split_ifs with h
      · rw [max_eq_left h]
      · rw [max_eq_right (not_le.1 h).le]
    rw [this]
    refine ContinuousOn.intervalIntegrable ?_
    rw [uIcc_of_le poles_le]
    exact hc.sup continuousOn_const
  · have hi : IntervalIntegrable (fun φ => Q x φ - q) volume (-(π / 2)) (π / 2) := by
      refine ContinuousOn.intervalIntegrable ?_
      rwa [uIcc_of_le poles_le]
    rw [intervalIntegrable_iff] at hi ⊢
    have := hi.indicator (measurableSet_Ici (a := φe))
    refine this.congr (Filter.Eventually.of_forall fun φ => ?_)
    simp [indicator_apply]

/-- The integral over a band of latitudes -/
theorem band_integral {M s φe : ℝ} (hM : 0 ≤ M) (hs : 0 ≤ s) :
    IntervalIntegrable (fun φ => if |φ - φe| ≤ s / 2 then M else 0) volume (-(π / 2)) (π / 2) ∧
      ∫ φ in -(π / 2)..π / 2, (if |φ - φe| ≤ s / 2 then M else 0) ≤ M * s := by
  have e : (fun φ => if |φ - φe| ≤ s / 2 then M else 0) = (Icc (φe - s / 2) (φe + s / 2)).indicator fun _ => M := by
    funext φ
    rw [indicator_apply]
    congr 1
    rw [abs_le, mem_Icc]
    exact propext ⟨fun h => ⟨by linarith [h.1], by linarith [h.2]⟩, fun h => ⟨by linarith [h.1], by linarith [h.2]⟩⟩
  rw [e]
  constructor
  · rw [intervalIntegrable_iff]
    exact (integrableOn_const (by simp)).indicator measurableSet_Icc
  · rw [intervalIntegral.integral_of_le poles_le, setIntegral_indicator measurableSet_Icc, setIntegral_const, smul_eq_mul, mul_comm]
    refine mul_le_mul_of_nonneg_left ?_ hM
    refine (measureReal_mono inter_subset_right (by simp)).trans ?_
    rw [Real.volume_real_Icc_of_le (by linarith)]
    linarith

/-- Integrals along meridians whose integrands are close -/
theorem integral_close {f h : ℝ → ℝ} {a M s φe : ℝ} (hf : IntervalIntegrable f volume (-(π / 2)) (π / 2))
    (hh : IntervalIntegrable h volume (-(π / 2)) (π / 2)) (hM : 0 ≤ M) (hs : 0 ≤ s)
    (H : ∀ φ ∈ latitudes, |f φ - h φ| ≤ a * cos φ + if |φ - φe| ≤ s / 2 then M else 0) :
    |(∫ φ in -(π / 2)..π / 2, f φ) - ∫ φ in -(π / 2)..π / 2, h φ| ≤ 2 * a + M * s := by
  rw [← intervalIntegral.integral_sub hf hh]
  obtain ⟨b1, b2⟩ := band_integral (φe := φe) hM hs
  have hc : IntervalIntegrable (fun φ => a * cos φ) volume (-(π / 2)) (π / 2) := (continuous_const.mul continuous_cos).intervalIntegrable _ _
  refine (intervalIntegral.abs_integral_le_integral_abs poles_le).trans ?_
  refine (intervalIntegral.integral_mono_on poles_le (hf.sub hh).abs (hc.add b1) H).trans ?_
  rw [intervalIntegral.integral_add hc b1, intervalIntegral.integral_const_mul, integral_cos_lat, sin_neg, sin_pi_div_two]
  linarith

/-- Dependence of the displaced deviations on value and latitude -/
theorem displaced_close (hQ : ContField Q) {q q' x φ φ' M : ℝ} (hM : ∀ ψ ∈ latitudes, |Q x ψ - q| ≤ M) :
    |displaced Q q x φ - displaced Q q' x φ'| ≤ 2 * |q - q'| + M * (2 * |φ - φ'|) := by
  have hM0 : 0 ≤ M := (abs_nonneg _).trans (hM 0 ⟨by linarith [pi_pos], by linarith [pi_pos]⟩)
  rw [displaced_eq, displaced_eq]
  refine integral_close (φe := φ) (crossed_integrable hQ _ _ _) (crossed_integrable hQ _ _ _) hM0 (by positivity) fun ψ hψ => ?_
  have hc := cos_lat hψ
  rw [← sub_mul, abs_mul, abs_of_nonneg hc]
  have e : crossed (Q x ψ - q) (φ ≤ ψ) - crossed (Q x ψ - q') (φ' ≤ ψ)
      = (crossed (Q x ψ - q) (φ ≤ ψ) - crossed (Q x ψ - q) (φ' ≤ ψ)) + (crossed (Q x ψ - q) (φ' ≤ ψ) - crossed (Q x ψ - q') (φ' ≤ ψ)) := by ring
  have h1 := crossed_flip (Q x ψ - q) (φ ≤ ψ) (φ' ≤ ψ)
  have h2 := crossed_lip (Q x ψ - q) (Q x ψ - q') (φ' ≤ ψ)
  rw [show Q x ψ - q - (Q x ψ - q') = -(q - q') by ring, abs_neg] at h2
  have h3 := abs_add_le (crossed (Q x ψ - q) (φ ≤ ψ) - crossed (Q x ψ - q) (φ' ≤ ψ)) (crossed (Q x ψ - q) (φ' ≤ ψ) - crossed (Q x ψ - q') (φ' ≤ ψ))
  rw [← e] at h3
  have h4 := h3.trans (add_le_add h1 h2)
  have h5 := mul_le_mul_of_nonneg_right h4 hc
  refine h5.trans ?_
  rw [add_mul, add_comm]
  refine add_le_add le_rfl ?_
  have hc1 := cos_le_one ψ
  by_cases hb : φ ≤ ψ ↔ φ' ≤ ψ
  · rw [if_pos hb, zero_mul]
    split_ifs <;> simp [hM0]
  · rw [if_neg hb, if_pos]
    · have := mul_le_mul (hM ψ hψ) hc1 hc hM0
      linarith
    · rcases le_total φ φ' with h | h
      · rw [abs_of_nonpos (sub_nonpos.2 h)]
        have : φ ≤ ψ ∧ ψ < φ' := by
          by_cases h1 : φ ≤ ψ
          · exact ⟨h1, not_le.1 fun h2 => hb ⟨fun _ => h2, fun _ => h1⟩⟩
          · exact absurd ⟨fun h2 => absurd h2 h1, fun h2 => h.trans h2⟩ hb
        rw [abs_le]; constructor <;> linarith [this.1, this.2]
      · rw [abs_of_nonneg (sub_nonneg.2 h)]
        have : φ' ≤ ψ ∧ ψ < φ := by
          by_cases h1 : φ' ≤ ψ
          · exact ⟨h1, not_le.1 fun h2 => hb ⟨fun _ => h1, fun _ => h2⟩⟩
          · exact absurd ⟨fun h2 => h.trans h2, fun h2 => absurd h2 h1⟩ hb
        rw [abs_le]; constructor <;> linarith [this.1, this.2]

theorem displaced_lon (hQ : LipschitzField Q Lx Ly) (q x x' φ : ℝ) : |displaced Q q x φ - displaced Q q x' φ| ≤ 2 * (Lx * |x - x'|) := by
  rw [displaced_eq, displaced_eq]
  have := integral_close (φe := 0) (a := Lx * |x - x'|) (crossed_integrable hQ.cont q x φ) (crossed_integrable hQ.cont q x' φ) le_rfl le_rfl fun ψ hψ => by
    have hc := cos_lat hψ
    rw [← sub_mul, abs_mul, abs_of_nonneg hc]
    have h1 := crossed_lip (Q x ψ - q) (Q x' ψ - q) (φ ≤ ψ)
    rw [show Q x ψ - q - (Q x' ψ - q) = Q x ψ - Q x' ψ by ring] at h1
    have := mul_le_mul_of_nonneg_right (h1.trans (hQ.lon x x' ψ hψ)) hc
    simpa using this
  linarith

theorem displaced_mem (hQ : ContField Q) {q x φ M : ℝ} (hM : ∀ ψ ∈ latitudes, |Q x ψ - q| ≤ M) : 0 ≤ displaced Q q x φ ∧ displaced Q q x φ ≤ 2 * M := by
  rw [displaced_eq]
  constructor
  · refine intervalIntegral.integral_nonneg poles_le fun ψ hψ => mul_nonneg (crossed_abs _ _).1 (cos_lat hψ)
  · have : ∫ ψ in -(π / 2)..π / 2, crossed (Q x ψ - q) (φ ≤ ψ) * cos ψ ≤ ∫ ψ in -(π / 2)..π / 2, M * cos ψ := by
      refine intervalIntegral.integral_mono_on poles_le (crossed_integrable hQ _ _ _) ((continuous_const.mul continuous_cos).intervalIntegrable _ _) fun ψ hψ => ?_
      exact mul_le_mul_of_nonneg_right ((crossed_abs _ _).2.trans (hM ψ hψ)) (cos_lat hψ)
    rw [intervalIntegral.integral_const_mul, integral_cos_lat, sin_neg, sin_pi_div_two] at this
    linarith

end Barotropic
