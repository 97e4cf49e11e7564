import Verif.Spec.Rearrange
import Mathlib.Analysis.SpecialFunctions.Integrals.Basic
import Mathlib.MeasureTheory.Integral.Prod
import Mathlib.MeasureTheory.Measure.Lebesgue.Basic
import Mathlib.Analysis.SpecialFunctions.Trigonometric.Bounds

/-!
# Areas where a field exceeds a value
-/

namespace Barotropic
open Real Set MeasureTheory
open scoped Classical

/-- A field that is continuous on the sphere -/
def ContField (Q : ℝ → ℝ → ℝ) : Prop := ContinuousOn (fun p : ℝ × ℝ => Q p.1 p.2) (univ ×ˢ latitudes)

/-- integrand along a meridian -/
noncomputable def above (Q : ℝ → ℝ → ℝ) (c x φ : ℝ) : ℝ := (if c ≤ Q x φ then 1 else 0) * cos φ

/-- integral along a meridian -/
noncomputable def meridAbove (Q : ℝ → ℝ → ℝ) (c x : ℝ) : ℝ := ∫ φ in -(π / 2)..π / 2, above Q c x φ

theorem areaAbove_eq (Q : ℝ → ℝ → ℝ) (c : ℝ) : areaAbove Q c = ∫ x in (0 : ℝ)..2 * π, meridAbove Q c x := by
  unfold areaAbove sphereIntegral meridAbove above
  rw [one_pow, one_mul]

theorem poles_le : -(π / 2) ≤ π / 2 := by linarith [pi_pos]

theorem cos_lat {φ : ℝ} (h : φ ∈ latitudes) : 0 ≤ cos φ := cos_nonneg_of_mem_Icc h

theorem above_bound (Q : ℝ → ℝ → ℝ) (c x φ : ℝ) : ‖above Q c x φ‖ ≤ 1 := by
  unfold above
  rw [Real.norm_eq_abs]
  split_ifs
  · rw [one_mul]; exact abs_cos_le_one φ
  · simp

variable {Q : ℝ → ℝ → ℝ}

theorem LipschitzField.nonneg {Lx Ly : ℝ} (h : LipschitzField Q Lx Ly) : 0 ≤ Lx ∧ 0 ≤ Ly := by
  have hp := one_le_pi_div_two
  have a := (abs_nonneg _).trans (h.lon 0 1 0 ⟨by linarith, by linarith⟩)
  have b := (abs_nonneg _).trans (h.lat 0 0 ⟨by linarith, by linarith⟩ 1 ⟨by linarith, by linarith⟩)
  norm_num at a b
  exact ⟨a, b⟩

theorem LipschitzField.cont {Lx Ly : ℝ} (h : LipschitzField Q Lx Ly) : ContField Q := by
  obtain ⟨a, b⟩ := h.nonneg
  refine LipschitzOnWith.continuousOn (K := ⟨Lx + Ly, by positivity⟩) (LipschitzOnWith.of_dist_le_mul fun p hp p' hp' => ?_)
  rw [Real.dist_eq]
  have h1 := h.lon p.1 p'.1 p.2 hp.2
  have h2 := h.lat p'.1 p.2 hp.2 p'.2 hp'.2
  have d1 : |p.1 - p'.1| ≤ dist p p' := by rw [← Real.dist_eq]; exact le_max_left _ _
  have d2 : |p.2 - p'.2| ≤ dist p p' := by rw [← Real.dist_eq]; exact le_max_right _ _
  have e : Q p.1 p.2 - Q p'.1 p'.2 = (Q p.1 p.2 - Q p'.1 p.2) + (Q p'.1 p.2 - Q p'.1 p'.2) := by ring
  show |Q p.1 p.2 - Q p'.1 p'.2| ≤ (Lx + Ly) * dist p p'
  rw [e]
  refine (abs_add_le _ _).trans ?_
  have := mul_le_mul_of_nonneg_left d1 a
  have := mul_le_mul_of_nonneg_left d2 b
  linarith

/-- the set where the value is exceeded -/
private theorem closed_above (hQ : ContField Q) (c : ℝ) : IsClosed {p : ℝ × ℝ | p.2 ∈ latitudes ∧ c ≤ Q p.1 p.2} := by
  have := hQ.preimage_isClosed_of_isClosed (isClosed_univ.prod isClosed_Icc) (isClosed_Ici (a := c))
  convert this using 1
  ext p
  simp

private noncomputable def aboveM (Q : ℝ → ℝ → ℝ) (c : ℝ) : ℝ × ℝ → ℝ := {p : ℝ × ℝ | p.2 ∈ latitudes ∧ c ≤ Q p.1 p.2}.indicator fun p => cos p.2

private theorem aboveM_measurable (hQ : ContField Q) (c : ℝ) : Measurable (aboveM Q c) :=
  (continuous_cos.measurable.comp measurable_snd).indicator (closed_above hQ c).measurableSet

private theorem aboveM_eq {c x φ : ℝ} (hφ : φ ∈ latitudes) : aboveM Q c (x, φ) = above Q c x φ := by
  unfold aboveM above
  by_cases h : c ≤ Q x φ
  · rw [indicator_of_mem (show (x, φ) ∈ {p : ℝ × ℝ | p.2 ∈ latitudes ∧ c ≤ Q p.1 p.2} from ⟨hφ, h⟩), if_pos h, one_mul]
  · rw [indicator_of_notMem (fun h' => h h'.2), if_neg h, zero_mul]

theorem above_integrable (hQ : ContField Q) (c x : ℝ) {a b : ℝ} (ha : -(π / 2) ≤ a) (hab : a ≤ b) (hb : b ≤ π / 2) :
    IntervalIntegrable (above Q c x) volume a b := by
  rw [intervalIntegrable_iff_integrableOn_Ioc_of_le hab]
  have hm : Measurable fun φ => aboveM Q c (x, φ) := (aboveM_measurable hQ c).comp measurable_prodMk_left
  have hi : IntegrableOn (fun φ => aboveM Q c (x, φ)) (Ioc a b) := by
    refine Measure.integrableOn_of_bounded (M := 1) (by simp) hm.aestronglyMeasurable (Filter.Eventually.of_forall fun φ => ?_)
    unfold aboveM
    refine (norm_indicator_le_norm_self _ _).trans ?_
    rw [Real.norm_eq_abs]
    exact abs_cos_le_one φ
  refine hi.congr_fun (fun φ hφ => aboveM_eq ⟨ha.trans hφ.1.le, hφ.2.trans hb⟩) measurableSet_Ioc

theorem meridAbove_measurable (hQ : ContField Q) (c : ℝ) : StronglyMeasurable (meridAbove Q c) := by
  have h : StronglyMeasurable fun x => ∫ φ, aboveM Q c (x, φ) ∂volume.restrict (Ioc (-(π / 2)) (π / 2)) :=
    (aboveM_measurable hQ c).stronglyMeasurable.integral_prod_right'
  convert h using 2 with x
  unfold meridAbove
  rw [intervalIntegral.integral_of_le poles_le]
  exact setIntegral_congr_fun measurableSet_Ioc fun φ hφ => (aboveM_eq ⟨hφ.1.le, hφ.2⟩).symm

theorem integral_cos_lat (φ : ℝ) : ∫ x in φ..π / 2, cos x = 1 - sin φ := by rw [integral_cos, sin_pi_div_two]

theorem meridAbove_mem (hQ : ContField Q) (c x : ℝ) : 0 ≤ meridAbove Q c x ∧ meridAbove Q c x ≤ 2 := by
  constructor
  · refine intervalIntegral.integral_nonneg poles_le fun φ hφ => ?_
    unfold above
    have := cos_lat hφ
    split_ifs <;> simp [this]
  · have : meridAbove Q c x ≤ ∫ φ in -(π / 2)..π / 2, cos φ := by
      refine intervalIntegral.integral_mono_on poles_le (above_integrable hQ c x le_rfl poles_le le_rfl) (continuous_cos.intervalIntegrable _ _) fun φ hφ => ?_
      unfold above
      have := cos_lat hφ
      split_ifs <;> simp [this]
    rw [integral_cos_lat, sin_neg, sin_pi_div_two] at this
    linarith

theorem meridAbove_integrable (hQ : ContField Q) (c a b : ℝ) : IntervalIntegrable (meridAbove Q c) volume a b := by
  rw [intervalIntegrable_iff]
  refine Measure.integrableOn_of_bounded (M := 2) (by simp) (meridAbove_measurable hQ c).aestronglyMeasurable (Filter.Eventually.of_forall fun x => ?_)
  obtain ⟨h0, h2⟩ := meridAbove_mem hQ c x
  rw [Real.norm_eq_abs, abs_of_nonneg h0]
  exact h2

theorem meridAbove_anti (hQ : ContField Q) {c c' : ℝ} (h : c ≤ c') (x : ℝ) : meridAbove Q c' x ≤ meridAbove Q c x := by
  refine intervalIntegral.integral_mono_on poles_le (above_integrable hQ c' x le_rfl poles_le le_rfl) (above_integrable hQ c x le_rfl poles_le le_rfl)
    fun φ hφ => ?_
  unfold above
  have hc := cos_lat hφ
  split_ifs with h1 h2
  · exact le_rfl
  · exact absurd (h.trans h1) h2
  · simpa using hc
  · exact le_rfl

theorem areaAbove_anti (hQ : ContField Q) {c c' : ℝ} (h : c ≤ c') : areaAbove Q c' ≤ areaAbove Q c := by
  rw [areaAbove_eq, areaAbove_eq]
  exact intervalIntegral.integral_mono_on (by positivity) (meridAbove_integrable hQ _ _ _) (meridAbove_integrable hQ _ _ _) fun x _ => meridAbove_anti hQ h x

/-! ## Profiles -/

variable {P : ℝ → ℝ}

theorem contField_of_profile (hP : ContinuousOn P latitudes) : ContField fun _ φ => P φ :=
  hP.comp continuousOn_snd fun _ hp => hp.2

theorem area_profile (P : ℝ → ℝ) (c : ℝ) : areaAbove (fun _ φ => P φ) c = 2 * π * meridAbove (fun _ φ => P φ) c 0 := by
  rw [areaAbove_eq, show (fun x => meridAbove (fun _ φ => P φ) c x) = fun _ => meridAbove (fun _ φ => P φ) c 0 from rfl, intervalIntegral.integral_const]
  simp

theorem split_profile (hP : ContinuousOn P latitudes) (c : ℝ) {φ : ℝ} (hφ : φ ∈ latitudes) :
    meridAbove (fun _ φ => P φ) c 0 = (∫ ψ in -(π / 2)..φ, above (fun _ φ => P φ) c 0 ψ) + ∫ ψ in φ..π / 2, above (fun _ φ => P φ) c 0 ψ :=
  (intervalIntegral.integral_add_adjacent_intervals (above_integrable (contField_of_profile hP) c 0 le_rfl hφ.1 hφ.2)
    (above_integrable (contField_of_profile hP) c 0 hφ.1 hφ.2 le_rfl)).symm

/-- If the value at `φ` is at least `c`, the whole polar cap north of `φ` exceeds `c`. -/
theorem area_profile_ge (hP : ContinuousOn P latitudes) (hm : MonotoneOn P latitudes) {c φ : ℝ} (hφ : φ ∈ latitudes) (h : c ≤ P φ) :
    2 * π * (1 - sin φ) ≤ areaAbove (fun _ φ => P φ) c := by
  rw [area_profile, split_profile hP c hφ]
  refine mul_le_mul_of_nonneg_left ?_ (by positivity)
  have h1 : 0 ≤ ∫ ψ in -(π / 2)..φ, above (fun _ φ => P φ) c 0 ψ := by
    refine intervalIntegral.integral_nonneg hφ.1 fun ψ hψ => ?_
    unfold above
    have := cos_lat ⟨hψ.1, hψ.2.trans hφ.2⟩
    split_ifs <;> simp [this]
  have h2 : ∫ ψ in φ..π / 2, above (fun _ φ => P φ) c 0 ψ = ∫ ψ in φ..π / 2, cos ψ := by
    refine intervalIntegral.integral_congr fun ψ hψ => ?_
    rw [uIcc_of_le hφ.2] at hψ
    unfold above
    rw [if_pos (h.trans (hm hφ ⟨hφ.1.trans hψ.1, hψ.2⟩ hψ.1)), one_mul]
  rw [h2, integral_cos_lat]
  linarith

/-- If the value at `φ` is less than `c`, only latitudes north of `φ` exceed `c`. -/
theorem area_profile_le (hP : ContinuousOn P latitudes) (hm : MonotoneOn P latitudes) {c φ : ℝ} (hφ : φ ∈ latitudes) (h : P φ < c) :
    areaAbove (fun _ φ => P φ) c ≤ 2 * π * (1 - sin φ) := by
  rw [area_profile, split_profile hP c hφ]
  refine mul_le_mul_of_nonneg_left ?_ (by positivity)
  have h1 : ∫ ψ in -(π / 2)..φ, above (fun _ φ => P φ) c 0 ψ = ∫ ψ in -(π / 2)..φ, 0 := by
    refine intervalIntegral.integral_congr fun ψ hψ => ?_
    rw [uIcc_of_le hφ.1] at hψ
    unfold above
    rw [if_neg (not_le.2 ((hm ⟨hψ.1, hψ.2.trans hφ.2⟩ hφ hψ.2).trans_lt h)), zero_mul]
  have h2 : ∫ ψ in φ..π / 2, above (fun _ φ => P φ) c 0 ψ ≤ ∫ ψ in φ..π / 2, cos ψ := by
    refine intervalIntegral.integral_mono_on hφ.2 (above_integrable (contField_of_profile hP) c 0 hφ.1 hφ.2 le_rfl)
      (continuous_cos.intervalIntegrable _ _) fun ψ hψ => ?_
    unfold above
    have := cos_lat ⟨hφ.1.trans hψ.1, hψ.2⟩
    split_ifs <;> simp [this]
  rw [h1, intervalIntegral.integral_zero]
  rw [integral_cos_lat] at h2
  linarith

end Barotropic
