import Verif.Props.FalwaError

/-!
# Rearranged fields and wave activity depend continuously on the field
-/

namespace Barotropic
open Real Set MeasureTheory
open scoped Classical

variable {A B : ℝ → ℝ → ℝ} {PA PB : ℝ → ℝ} {η : ℝ}

/-- Areas do not depend on the values at the poles. -/
theorem areaAbove_congr (h : ∀ x φ, cos φ ≠ 0 → A x φ = B x φ) (c : ℝ) : areaAbove A c = areaAbove B c := by
  unfold areaAbove sphereIntegral
  congr 1
  refine intervalIntegral.integral_congr fun x _ => intervalIntegral.integral_congr fun φ _ => ?_
  by_cases hc : cos φ = 0
  · simp [hc]
  · dsimp only
    rw [h x φ hc]

theorem IsRearrangement.congr (h : ∀ x φ, cos φ ≠ 0 → A x φ = B x φ) (hP : IsRearrangement A PA) : IsRearrangement B PA :=
  ⟨hP.continuous, hP.increasing, fun c => (areaAbove_congr h c).symm.trans (hP.area c)⟩

theorem areaAbove_shift (hA : ContField A) (hB : ContField B) (h : ∀ x, ∀ φ ∈ latitudes, cos φ ≠ 0 → A x φ ≤ B x φ + η) (c : ℝ) : areaAbove A (c + η) ≤ areaAbove B c := by
  rw [areaAbove_eq, areaAbove_eq]
  refine intervalIntegral.integral_mono_on (by positivity) (meridAbove_integrable hA _ _ _) (meridAbove_integrable hB _ _ _) fun x _ => ?_
  refine intervalIntegral.integral_mono_on poles_le (above_integrable hA _ x le_rfl poles_le le_rfl) (above_integrable hB _ x le_rfl poles_le le_rfl)
    fun φ hφ => ?_
  unfold above
  rcases (cos_lat hφ).eq_or_lt with hc | hc
  · rw [← hc, mul_zero, mul_zero]
  · have := h x φ hφ hc.ne'
    split_ifs with h1 h2
    · exact le_rfl
    · exact absurd (by linarith) h2
    · simpa using hc.le
    · exact le_rfl

/-- Rearranging does not increase the distance of fields. -/
theorem rearr_contract (hA : ContField A) (hB : ContField B) (hPA : IsRearrangement A PA) (hPB : IsRearrangement B PB)
    (h : ∀ x, ∀ φ ∈ latitudes, cos φ ≠ 0 → |A x φ - B x φ| ≤ η) : ∀ φ ∈ latitudes, |PA φ - PB φ| ≤ η := by
  have key : ∀ {A B : ℝ → ℝ → ℝ} {PA PB : ℝ → ℝ}, ContField A → ContField B → IsRearrangement A PA → IsRearrangement B PB →
      (∀ x, ∀ φ ∈ latitudes, cos φ ≠ 0 → |A x φ - B x φ| ≤ η) → ∀ φ ∈ latitudes, PA φ - PB φ ≤ η := by
    intro A B PA PB hA hB hPA hPB h φ hφ
    by_contra hlt
    rw [not_le] at hlt
    obtain ⟨c, h1, h2⟩ := exists_between (show PB φ < PA φ - η by linarith)
    have e : areaAbove (fun _ φ => PA φ) (c + η) ≤ areaAbove (fun _ φ => PB φ) c := by
      rw [← hPA.area, ← hPB.area]
      exact areaAbove_shift hA hB (fun x φ hφ hc => by have := (abs_le.1 (h x φ hφ hc)).2; linarith) c
    have h2' : c + η < PA φ := by linarith
    rcases eq_or_lt_of_le hφ.2 with h | h
    · have hs : -(π / 2) < φ := by linarith [pi_pos]
      obtain ⟨ψ, a, b, d⟩ := perturb_south hPA.continuous hφ hs h2'
      have u := area_profile_ge hPA.continuous hPA.increasing a d.le
      have v := area_profile_le hPB.continuous hPB.increasing hφ h1
      linarith [cap_lt a hφ b]
    · obtain ⟨ψ, a, b, d⟩ := perturb_north hPB.continuous hφ h h1
      have u := area_profile_le hPB.continuous hPB.increasing a d
      have v := area_profile_ge hPA.continuous hPA.increasing hφ h2'.le
      linarith [cap_lt hφ a b]
  intro φ hφ
  rw [abs_le]
  have := key hA hB hPA hPB h φ hφ
  have := key hB hA hPB hPA (fun x φ hφ hc => by rw [abs_sub_comm]; exact h x φ hφ hc) φ hφ
  constructor <;> linarith

theorem rearr_close (hA : ContField A) (hB : ContField B) (hPA : IsRearrangement A PA) (hPB : IsRearrangement B PB)
    (h : ∀ x φ, cos φ ≠ 0 → |A x φ - B x φ| ≤ η) : ∀ φ ∈ latitudes, |PA φ - PB φ| ≤ η :=
  rearr_contract hA hB hPA hPB fun x φ _ hc => h x φ hc

/-- Wave activity depends continuously on the field. -/
theorem localWaveActivity_close {r : ℝ} (hr : 0 < r) (hA : ContField A) (hB : ContField B) (h : ∀ x φ, cos φ ≠ 0 → |A x φ - B x φ| ≤ η) {φ : ℝ}
    (hP : |PA φ - PB φ| ≤ η) (hc : 0 < cos φ) (x : ℝ) : |localWaveActivity r A PA x φ - localWaveActivity r B PB x φ| ≤ r / cos φ * (4 * η) := by
  unfold localWaveActivity
  rw [← mul_sub, abs_mul, abs_of_pos (by positivity)]
  refine mul_le_mul_of_nonneg_left ?_ (by positivity)
  rw [displaced_eq, displaced_eq]
  have := integral_close (φe := 0) (a := 2 * η) (crossed_integrable hA (PA φ) x φ) (crossed_integrable hB (PB φ) x φ) le_rfl le_rfl fun ψ hψ => by
    rw [← sub_mul, abs_mul, abs_of_nonneg (cos_lat hψ)]
    rcases (cos_lat hψ).eq_or_lt with hc | hc
    · rw [← hc]; simp
    · have h1 := crossed_lip (A x ψ - PA φ) (B x ψ - PB φ) (φ ≤ ψ)
      have h2 : |A x ψ - PA φ - (B x ψ - PB φ)| ≤ 2 * η := by
        rw [show A x ψ - PA φ - (B x ψ - PB φ) = (A x ψ - B x ψ) - (PA φ - PB φ) by ring]
        have := h x ψ hc.ne'
        have := abs_sub (A x ψ - B x ψ) (PA φ - PB φ)
        linarith
      have := mul_le_mul_of_nonneg_right (h1.trans h2) hc.le
      simpa using this
  linarith

theorem displaced_continuous {Lx Ly : ℝ} (hQ : LipschitzField A Lx Ly) (q φ : ℝ) : Continuous fun x => displaced A q x φ := by
  have hL := hQ.nonneg.1
  refine LipschitzWith.continuous (K := ⟨2 * Lx, by positivity⟩) (LipschitzWith.of_dist_le_mul fun x x' => ?_)
  rw [Real.dist_eq, Real.dist_eq]
  have := displaced_lon hQ q x x' φ
  show _ ≤ 2 * Lx * |x - x'|
  linarith

theorem waveActivity_close {r Lx Ly Lx' Ly' : ℝ} (hr : 0 < r) (hA : LipschitzField A Lx Ly) (hB : LipschitzField B Lx' Ly')
    (h : ∀ x φ, cos φ ≠ 0 → |A x φ - B x φ| ≤ η) {φ : ℝ} (hP : |PA φ - PB φ| ≤ η) (hc : 0 < cos φ) :
    |waveActivity r A PA φ - waveActivity r B PB φ| ≤ r / cos φ * (4 * η) := by
  have hp := pi_pos
  have iA : IntervalIntegrable (fun x => localWaveActivity r A PA x φ) volume 0 (2 * π) :=
    (continuous_const.mul (displaced_continuous hA (PA φ) φ)).intervalIntegrable _ _
  have iB : IntervalIntegrable (fun x => localWaveActivity r B PB x φ) volume 0 (2 * π) :=
    (continuous_const.mul (displaced_continuous hB (PB φ) φ)).intervalIntegrable _ _
  unfold waveActivity
  rw [← sub_div, ← intervalIntegral.integral_sub iA iB, abs_div, abs_of_pos (by positivity : 0 < 2 * π), div_le_iff₀ (by positivity)]
  have := intervalIntegral.norm_integral_le_of_norm_le_const (a := 0) (b := 2 * π) (C := r / cos φ * (4 * η))
    (f := fun x => localWaveActivity r A PA x φ - localWaveActivity r B PB x φ)
    fun x _ => by rw [Real.norm_eq_abs]; exact localWaveActivity_close hr hA.cont hB.cont h hP hc x
  rw [Real.norm_eq_abs, sub_zero, abs_of_pos (by positivity : 0 < 2 * π)] at this
  exact this

theorem displaced_congr (h : ∀ x φ, cos φ ≠ 0 → A x φ = B x φ) (q x φ : ℝ) : displaced A q x φ = displaced B q x φ := by
  unfold displaced
  refine intervalIntegral.integral_congr fun ψ _ => ?_
  by_cases hc : cos ψ = 0
  · simp [hc]
  · rw [h x ψ hc]

theorem waveActivity_congr (h : ∀ x φ, cos φ ≠ 0 → A x φ = B x φ) (r : ℝ) (P : ℝ → ℝ) (φ : ℝ) : waveActivity r A P φ = waveActivity r B P φ := by
  unfold waveActivity localWaveActivity
  simp only [displaced_congr h]

end Barotropic
