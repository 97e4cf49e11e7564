import Verif.Lemmas.Binary64Sum
import Mathlib.Data.Real.Basic

/-!
# Rounded quotients
-/

namespace Barotropic
open Binary64

theorem fac_le {k : ℕ} (hk : k ≤ 100) : ((1 : ℝ) + 1 / 2 ^ 53) ^ k ≤ 3 / 2 := by
  have : ((1 : ℝ) + 1 / 2 ^ 53) ^ k ≤ (1 + 1 / 2 ^ 53) ^ 100 := pow_le_pow_right₀ (by norm_num) hk
  refine this.trans ?_
  norm_num

theorem Binary64.Close.up {k m : ℕ} {b b' x y : ℝ} (hb : 0 ≤ b) (hbb : b ≤ b') (hkm : k ≤ m) (h : Close k b x y) : Close m b' x y :=
  (Close.mono hb h hkm).trans (mul_le_mul_of_nonneg_right hbb (sub_nonneg.2 (one_le_fac m)))

/-- Reciprocals of numbers with a relative error -/
theorem Binary64.Close.recip {k : ℕ} (hk : k ≤ 100) {d d' : ℝ} (hd : d ≠ 0) (h : Close k |d| d d') :
    Close (k + k) (1 / |d|) (1 / d) (1 / d') := by
  have hs := fac_le hk
  have h1 : (1 : ℝ) ≤ (1 + 1 / 2 ^ 53) ^ k := one_le_fac k
  unfold Close at *
  rw [pow_add]
  generalize ((1 : ℝ) + 1 / 2 ^ 53) ^ k = s at *
  have hd0 : 0 < |d| := abs_pos.2 hd
  have hd' : |d| * (2 - s) ≤ |d'| := by
    have : |d| - |d'| ≤ |d' - d| := by rw [abs_sub_comm]; exact abs_sub_abs_le_abs_sub d d'
    nlinarith
  have hd'0 : 0 < |d'| := lt_of_lt_of_le (by nlinarith) hd'
  have hn : d' ≠ 0 := abs_pos.1 hd'0
  have e : 1 / d' - 1 / d = (d - d') / (d * d') := by field_simp
  rw [e, abs_div, abs_mul, abs_sub_comm, div_mul_eq_mul_div, one_mul, div_le_div_iff₀ (mul_pos hd0 hd'0) hd0]
  have h3 : (s * s - 1) * (|d| * (2 - s)) ≤ (s * s - 1) * |d'| := mul_le_mul_of_nonneg_left hd' (by nlinarith)
  have h4 : s - 1 ≤ (s * s - 1) * (2 - s) := by nlinarith [mul_nonneg (sub_nonneg.2 h1) (show (0 : ℝ) ≤ 1 + s - s * s by nlinarith)]
  have h5 : |d| * (s - 1) ≤ |d| * ((s * s - 1) * (2 - s)) := mul_le_mul_of_nonneg_left h4 hd0.le
  calc |d' - d| * |d| ≤ |d| * (s - 1) * |d| := mul_le_mul_of_nonneg_right h hd0.le
    _ ≤ (s * s - 1) * |d'| * |d| := mul_le_mul_of_nonneg_right (by linarith) hd0.le
    _ = (s * s - 1) * (|d| * |d'|) := by ring

/-- Quotients -/
theorem Binary64.Close.quot {k m : ℕ} (hm : m ≤ 100) {b a a' d d' : ℝ} (hd : d ≠ 0) (ha : |a| ≤ b) (h : Close k b a a')
    (h' : Close m |d| d d') : Close (k + (m + m)) (b / |d|) (a / d) (a' / d') := by
  have := h.mul ha (show |1 / d| ≤ 1 / |d| by rw [abs_div, abs_one]) (h'.recip hm hd)
  rwa [mul_one_div, mul_one_div, mul_one_div] at this

theorem abs_quot_le {a b d : ℝ} (ha : |a| ≤ b) : |a / d| ≤ b / |d| := by
  rw [abs_div]; exact div_le_div_of_nonneg_right ha (abs_nonneg _)

end Barotropic
