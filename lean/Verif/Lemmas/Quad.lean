import Verif.Model.Quad
import Verif.Lemmas.GridReal
import Mathlib.Analysis.SpecialFunctions.Integrals.Basic
import Mathlib.MeasureTheory.Integral.IntervalIntegral.FundThmCalculus

/-!
# The spherical trapezoidal rule as an integral
-/

namespace Barotropic
open Real Set MeasureTheory intervalIntegral

/-- The affine function through `(x0, y0)` and `(x1, y1)`. -/
noncomputable def aff (x0 x1 y0 y1 φ : ℝ) : ℝ := y0 + (y1 - y0) * ((φ - x0) / (x1 - x0))

theorem aff_continuous (x0 x1 y0 y1 : ℝ) : Continuous (aff x0 x1 y0 y1) := by
  unfold aff; fun_prop

theorem aff_slope {x0 x1 : ℝ} (y0 y1 φ : ℝ) :
    aff x0 x1 y0 y1 φ = (y1 - y0) / (x1 - x0) * φ + (y0 - (y1 - y0) / (x1 - x0) * x0) := by
  unfold aff; ring

theorem integral_affine_cos (a b s t : ℝ) :
    ∫ x in s..t, (a * x + b) * cos x = (a * t + b) * sin t + a * cos t - ((a * s + b) * sin s + a * cos s) := by
  have h : ∀ x ∈ uIcc s t, HasDerivAt (fun x => (a * x + b) * sin x + a * cos x) ((a * x + b) * cos x) x := by
    intro x _
    have h1 : HasDerivAt (fun x => a * x + b) a x := by
      simpa using ((hasDerivAt_id x).const_mul a).add_const b
    have h2 := (h1.mul (hasDerivAt_sin x)).add ((hasDerivAt_cos x).const_mul a)
    exact h2.congr_deriv (by simp)
  rw [integral_eq_sub_of_hasDerivAt h]
  apply Continuous.intervalIntegrable
  fun_prop

/-- integrand of one interval -/
noncomputable def segFun (x0 x1 y0 y1 z0 z1 φ : ℝ) : ℝ :=
  if 0 ≤ aff x0 x1 z0 z1 φ then aff x0 x1 y0 y1 φ * cos φ else 0

theorem aff_nonneg {x0 x1 z0 z1 φ : ℝ} (hx : x1 < x0) (h0 : 0 ≤ z0) (h1 : 0 ≤ z1) (ha : x1 ≤ φ) (hb : φ ≤ x0) :
    0 ≤ aff x0 x1 z0 z1 φ := by
  have e : aff x0 x1 z0 z1 φ = (z0 * (φ - x1) + z1 * (x0 - φ)) / (x0 - x1) := by
    unfold aff
    have h1 : x1 - x0 ≠ 0 := by linarith
    have h2 : x0 - x1 ≠ 0 := by linarith
    rw [eq_div_iff h2]
    field_simp
    ring
  rw [e]
  apply div_nonneg _ (by linarith)
  apply add_nonneg
  · exact mul_nonneg h0 (by linarith)
  · exact mul_nonneg h1 (by linarith)

theorem aff_neg {x0 x1 z0 z1 φ : ℝ} (hx : x1 < x0) (h0 : z0 < 0) (h1 : z1 < 0) (ha : x1 ≤ φ) (hb : φ ≤ x0) :
    aff x0 x1 z0 z1 φ < 0 := by
  have e : aff x0 x1 z0 z1 φ = (z0 * (φ - x1) + z1 * (x0 - φ)) / (x0 - x1) := by
    unfold aff
    have h1 : x1 - x0 ≠ 0 := by linarith
    have h2 : x0 - x1 ≠ 0 := by linarith
    rw [eq_div_iff h2]
    field_simp
    ring
  rw [e]
  apply div_neg_of_neg_of_pos _ (by linarith)
  rcases eq_or_lt_of_le ha with h | h
  · subst h; nlinarith
  · have := mul_neg_of_neg_of_pos h0 (show 0 < φ - x1 by linarith)
    have := mul_nonpos_of_nonpos_of_nonneg h1.le (show 0 ≤ x0 - φ by linarith)
    linarith

/-- The root formula of the scheme. -/
theorem aff_root {x0 x1 z0 z1 : ℝ} (hx : x1 < x0) (hz : z0 ≠ z1) (φ : ℝ) :
    aff x0 x1 z0 z1 φ = (z1 - z0) / (x1 - x0) * (φ - (x0 - z0 / (z1 - z0) * (x1 - x0))) := by
  unfold aff
  have h1 : x1 - x0 ≠ 0 := by linarith
  have h2 : z1 - z0 ≠ 0 := sub_ne_zero.2 (Ne.symm hz)
  field_simp
  ring

theorem root_alt {x0 x1 z0 z1 : ℝ} (hz : z0 ≠ z1) :
    x1 - z1 / (z1 - z0) * (x1 - x0) = x0 - z0 / (z1 - z0) * (x1 - x0) := by
  have h2 : z1 - z0 ≠ 0 := sub_ne_zero.2 (Ne.symm hz)
  field_simp
  ring

theorem cont_aff_cos (x0 x1 y0 y1 : ℝ) : Continuous fun φ => aff x0 x1 y0 y1 φ * cos φ :=
  (aff_continuous _ _ _ _).mul continuous_cos

/-- The formula for one interval is the integral of the interpolated integrand over the interpolated domain. -/
theorem seg_integral {x0 x1 : ℝ} (hx : x1 < x0) (y0 y1 z0 z1 : ℝ) :
    IntervalIntegrable (segFun x0 x1 y0 y1 z0 z1) volume x1 x0 ∧
    (if 0 ≤ z0 ∨ 0 ≤ z1 then sptrapzSeg x0 x1 y0 y1 z0 z1 else 0) =
      ∫ φ in x1..x0, segFun x0 x1 y0 y1 z0 z1 φ := by
  have F : ∀ s t, ∫ φ in s..t, aff x0 x1 y0 y1 φ * cos φ =
      ((y1 - y0) / (x1 - x0) * t + (y0 - (y1 - y0) / (x1 - x0) * x0)) * sin t + (y1 - y0) / (x1 - x0) * cos t
      - (((y1 - y0) / (x1 - x0) * s + (y0 - (y1 - y0) / (x1 - x0) * x0)) * sin s
        + (y1 - y0) / (x1 - x0) * cos s) := by
    intro s t
    rw [← integral_affine_cos]
    apply intervalIntegral.integral_congr
    intro φ _
    simp only [aff_slope]
  have I : ∀ s t, IntervalIntegrable (fun φ => aff x0 x1 y0 y1 φ * cos φ) volume s t :=
    fun s t => (cont_aff_cos x0 x1 y0 y1).intervalIntegrable s t
  have Z : ∀ s t, IntervalIntegrable (fun _ : ℝ => (0 : ℝ)) volume s t := fun s t => intervalIntegrable_const
  by_cases h0 : 0 ≤ z0 <;> by_cases h1 : 0 ≤ z1
  · have e : EqOn (fun φ => aff x0 x1 y0 y1 φ * cos φ) (segFun x0 x1 y0 y1 z0 z1) (Ioo x1 x0) := by
      intro φ hφ
      unfold segFun
      rw [if_pos (aff_nonneg hx h0 h1 hφ.1.le hφ.2.le)]
    refine ⟨(I x1 x0).congr_uIoo (by rw [uIoo_of_le hx.le]; exact e), ?_⟩
    rw [← integral_congr_Ioo_of_le hx.le e, F, if_pos (.inl h0)]
    simp only [sptrapzSeg, h0, h1, not_true, and_false, false_and, if_false]
    ring
  · -- positive part is north of the root
    have hz : z0 ≠ z1 := by intro h; rw [h] at h0; exact h1 h0
    have hlt : z1 < z0 := by linarith [not_le.1 h1]
    have hs : 0 < (z1 - z0) / (x1 - x0) := div_pos_of_neg_of_neg (by linarith) (by linarith)
    have hneg := not_le.1 h1
    set ρ := x0 - z0 / (z1 - z0) * (x1 - x0) with hρ
    have hρ' : x1 - z1 / (z1 - z0) * (x1 - x0) = ρ := root_alt hz
    have hρ0 : ρ ≤ x0 := by
      have : 0 ≤ z0 / (z1 - z0) * (x1 - x0) :=
        mul_nonneg_of_nonpos_of_nonpos (div_nonpos_of_nonneg_of_nonpos h0 (by linarith)) (by linarith)
      linarith
    have hρ1 : x1 < ρ := by
      have : z1 / (z1 - z0) * (x1 - x0) < 0 :=
        mul_neg_of_pos_of_neg (div_pos_of_neg_of_neg (by linarith) (by linarith)) (by linarith)
      linarith
    have e1 : EqOn (fun _ => (0 : ℝ)) (segFun x0 x1 y0 y1 z0 z1) (Ioo x1 ρ) := by
      intro φ hφ
      unfold segFun
      rw [if_neg]
      rw [aff_root hx hz, not_le]
      exact mul_neg_of_pos_of_neg hs (by have := hφ.2; linarith)
    have e2 : EqOn (fun φ => aff x0 x1 y0 y1 φ * cos φ) (segFun x0 x1 y0 y1 z0 z1) (Ioo ρ x0) := by
      intro φ hφ
      unfold segFun
      rw [if_pos]
      rw [aff_root hx hz]
      exact mul_nonneg hs.le (by have := hφ.1; linarith)
    have i1 : IntervalIntegrable (segFun x0 x1 y0 y1 z0 z1) volume x1 ρ :=
      (Z x1 ρ).congr_uIoo (by rw [uIoo_of_le hρ1.le]; exact e1)
    have i2 : IntervalIntegrable (segFun x0 x1 y0 y1 z0 z1) volume ρ x0 :=
      (I ρ x0).congr_uIoo (by rw [uIoo_of_le hρ0]; exact e2)
    refine ⟨i1.trans i2, ?_⟩
    rw [← integral_add_adjacent_intervals i1 i2, ← integral_congr_Ioo_of_le hρ1.le e1,
      ← integral_congr_Ioo_of_le hρ0 e2, F, if_pos (.inl h0)]
    simp only [sptrapzSeg, h0, h1, not_true, false_and, if_false, not_false_eq_true, and_self, if_true, hρ',
      intervalIntegral.integral_zero]
    ring
  · have hz : z0 ≠ z1 := by intro h; rw [h] at h0; exact h0 h1
    have hneg := not_le.1 h0
    have hlt : z0 < z1 := by linarith
    have hs : (z1 - z0) / (x1 - x0) < 0 := div_neg_of_pos_of_neg (by linarith) (by linarith)
    set ρ := x0 - z0 / (z1 - z0) * (x1 - x0) with hρ
    have hρ0 : ρ < x0 := by
      have : 0 < z0 / (z1 - z0) * (x1 - x0) :=
        mul_pos_of_neg_of_neg (div_neg_of_neg_of_pos hneg (by linarith)) (by linarith)
      linarith
    have hρ1 : x1 ≤ ρ := by
      have h : x1 - z1 / (z1 - z0) * (x1 - x0) = ρ := root_alt hz
      have : z1 / (z1 - z0) * (x1 - x0) ≤ 0 :=
        mul_nonpos_of_nonneg_of_nonpos (div_nonneg h1 (by linarith)) (by linarith)
      linarith
    have e1 : EqOn (fun φ => aff x0 x1 y0 y1 φ * cos φ) (segFun x0 x1 y0 y1 z0 z1) (Ioo x1 ρ) := by
      intro φ hφ
      unfold segFun
      rw [if_pos]
      rw [aff_root hx hz]
      exact mul_nonneg_of_nonpos_of_nonpos hs.le (by have := hφ.2; linarith)
    have e2 : EqOn (fun _ => (0 : ℝ)) (segFun x0 x1 y0 y1 z0 z1) (Ioo ρ x0) := by
      intro φ hφ
      unfold segFun
      rw [if_neg]
      rw [aff_root hx hz, not_le]
      exact mul_neg_of_neg_of_pos hs (by have := hφ.1; linarith)
    have i1 : IntervalIntegrable (segFun x0 x1 y0 y1 z0 z1) volume x1 ρ :=
      (I x1 ρ).congr_uIoo (by rw [uIoo_of_le hρ1]; exact e1)
    have i2 : IntervalIntegrable (segFun x0 x1 y0 y1 z0 z1) volume ρ x0 :=
      (Z ρ x0).congr_uIoo (by rw [uIoo_of_le hρ0.le]; exact e2)
    refine ⟨i1.trans i2, ?_⟩
    rw [← integral_add_adjacent_intervals i1 i2, ← integral_congr_Ioo_of_le hρ1 e1,
      ← integral_congr_Ioo_of_le hρ0.le e2, F, if_pos (.inr h1)]
    simp only [sptrapzSeg, h0, h1, not_true, false_and, if_false, not_false_eq_true, and_self, if_true, ← hρ,
      intervalIntegral.integral_zero]
    ring
  · have e : EqOn (fun _ => (0 : ℝ)) (segFun x0 x1 y0 y1 z0 z1) (Ioo x1 x0) := by
      intro φ hφ
      unfold segFun
      rw [if_neg (not_le.2 (aff_neg hx (not_le.1 h0) (not_le.1 h1) hφ.1.le hφ.2.le))]
    refine ⟨(Z x1 x0).congr_uIoo (by rw [uIoo_of_le hx.le]; exact e), ?_⟩
    rw [← integral_congr_Ioo_of_le hx.le e, if_neg (by rw [not_or]; exact ⟨h0, h1⟩)]
    simp

/-- A whole meridian: the sum is the integral of any function that agrees with the interpolated integrand. -/
theorem col_integral (r : ℝ) {n : ℕ} {x : ℕ → ℝ} (y z : ℕ → ℝ) (hx : ∀ j < n, x (j + 1) < x j) (G : ℝ → ℝ)
    (hG : ∀ j < n, EqOn G (segFun (x j) (x (j + 1)) (y j) (y (j + 1)) (z j) (z (j + 1))) (Ioo (x (j + 1)) (x j))) :
    IntervalIntegrable G volume (x n) (x 0) ∧ sptrapzCol r n x y z = r * ∫ φ in (x n)..(x 0), G φ := by
  have hi : ∀ j < n, IntervalIntegrable G volume (x (j + 1)) (x j) := by
    intro j hj
    refine (seg_integral (hx j hj) (y j) (y (j + 1)) (z j) (z (j + 1))).1.congr_uIoo ?_
    rw [uIoo_of_le (hx j hj).le]
    exact (hG j hj).symm
  have hi' : ∀ j < n, IntervalIntegrable G volume (x j) (x (j + 1)) := fun j hj => (hi j hj).symm
  refine ⟨(IntervalIntegrable.trans_iterate hi').symm, ?_⟩
  rw [integral_symm, ← sum_integral_adjacent_intervals hi', ← Finset.sum_neg_distrib, Finset.mul_sum]
  unfold sptrapzCol
  apply Finset.sum_congr rfl
  intro j hj
  have hj := Finset.mem_range.1 hj
  rw [← integral_symm, ← mul_ite_zero, (seg_integral (hx j hj) (y j) (y (j + 1)) (z j) (z (j + 1))).2]
  congr 1
  exact (integral_congr_Ioo_of_le (hx j hj).le (hG j hj)).symm

end Barotropic
