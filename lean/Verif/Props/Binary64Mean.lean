import Verif.Model.Binary64Mean
import Verif.Lemmas.Binary64Sum
import Mathlib.Algebra.Order.BigOperators.Ring.Finset

set_option linter.unusedSectionVars false

/-!
# C136: means and filters in double precision
-/

namespace Barotropic
open Binary64

variable {K : Type*} [Field K] [LinearOrder K] [IsStrictOrderedRing K] [FloorRing K]

theorem Binary64.Near.inv {d : ℕ} {S S' : K} (hS : 0 < S) (h : Near d S S') : Close (2 * d) S⁻¹ S⁻¹ S'⁻¹ ∧ 0 < S' := by
  have hu1 := u_lt (K := K); have hu0 := u_pos (K := K)
  have hpow : 0 < (1 - 1 / 2 ^ 53 : K) ^ d := pow_pos (by linarith) d
  have hS' : 0 < S' := lt_of_lt_of_le (mul_pos hS hpow) h.1
  refine ⟨?_, hS'⟩
  have hx : (1 : K) ≤ (1 + 1 / 2 ^ 53) ^ d := one_le_fac d
  have hx2 : ((1 : K) + 1 / 2 ^ 53) ^ (2 * d) = (1 + 1 / 2 ^ 53) ^ d * (1 + 1 / 2 ^ 53) ^ d := by rw [two_mul, pow_add]
  have hup : S'⁻¹ ≤ S⁻¹ * (1 + 1 / 2 ^ 53) ^ (2 * d) := by
    rw [inv_le_iff_one_le_mul₀ hS']
    have h1 : (1 : K) ≤ (1 + 1 / 2 ^ 53) ^ (2 * d) * (1 - 1 / 2 ^ 53) ^ d := by
      rw [pow_mul, ← mul_pow]
      exact one_le_pow₀ (by norm_num)
    have h2 : S⁻¹ * (1 + 1 / 2 ^ 53) ^ (2 * d) * (S * (1 - 1 / 2 ^ 53) ^ d) = (1 + 1 / 2 ^ 53) ^ (2 * d) * (1 - 1 / 2 ^ 53 : K) ^ d := by
      field_simp
    rw [← h2] at h1
    refine h1.trans ?_
    exact mul_le_mul_of_nonneg_left h.1 (mul_nonneg (inv_nonneg.2 hS.le) (by positivity))
  have hlo : S⁻¹ ≤ S'⁻¹ * (1 + 1 / 2 ^ 53) ^ d := by
    rw [inv_le_iff_one_le_mul₀ hS]
    have : S'⁻¹ * S' ≤ S'⁻¹ * (S * (1 + 1 / 2 ^ 53) ^ d) := mul_le_mul_of_nonneg_left h.2 (inv_nonneg.2 hS'.le)
    rw [inv_mul_cancel₀ hS'.ne'] at this
    linarith
  unfold Close
  rw [abs_le]
  constructor
  · have e : S⁻¹ - S'⁻¹ ≤ S⁻¹ * ((1 + 1 / 2 ^ 53) ^ (2 * d) - 1) := by
      set x : K := (1 + 1 / 2 ^ 53) ^ d
      have hxp : 0 < x := by linarith
      have h3 : S⁻¹ / x ≤ S'⁻¹ := (div_le_iff₀ hxp).2 hlo
      rw [hx2]
      have h4 : S⁻¹ * (1 - 1 / x) ≤ S⁻¹ * (x * x - 1) := by
        refine mul_le_mul_of_nonneg_left ?_ (inv_nonneg.2 hS.le)
        have h5 : 1 - 1 / x ≤ x - 1 := by
          rw [sub_le_iff_le_add, ← sub_nonneg]
          have : x - 1 + 1 / x - 1 = (x - 1) ^ 2 / x := by field_simp; ring
          rw [this]; positivity
        nlinarith
      have h6 : S⁻¹ * (1 - 1 / x) = S⁻¹ - S⁻¹ / x := by ring
      linarith
    linarith
  · rw [mul_sub, mul_one]; linarith

theorem quot_close {k d : ℕ} {b T T' S S' : K} (hT : |T| ≤ b) (h : Close k b T T') (hS : 0 < S) (h' : Near d S S') :
    Close (k + 2 * d) (b / S) (T / S) (T' / S') := by
  rw [div_eq_mul_inv, div_eq_mul_inv, div_eq_mul_inv]
  exact h.mul hT (by rw [abs_of_pos (inv_pos.2 hS)]) (h'.inv hS).1

/-- Means of every kind do not decrease where the field increases, whatever the rounding and the order of summation. -/
theorem C136_monotone (t s : SumTree) {a : ℕ → K} (ha : ∀ j, 0 ≤ a j) (w : ℕ) :
    (∀ f g : ℕ → ℕ → K, (∀ j i, f j i ≤ g j i) → meanAll t s a w f ≤ meanAll t s a w g) ∧
      (∀ f g : ℕ → K, (∀ j, f j ≤ g j) → meanMeridional t s a f ≤ meanMeridional t s a g) ∧
      (∀ f g : ℕ → K, (∀ j, f j ≤ g j) → meanZonal t w f ≤ meanZonal t w g) := by
  have hs : 0 ≤ s.eval a := SumTree.eval_nonneg ha s
  refine ⟨fun f g h => ?_, fun f g h => ?_, fun f g h => ?_⟩
  · refine rnd_mono (div_le_div_of_nonneg_right (rnd_mono (div_le_div_of_nonneg_right (SumTree.eval_mono (fun k => ?_) t) hs))
      (Nat.cast_nonneg _))
    exact rnd_mono (mul_le_mul_of_nonneg_right (h _ _) (ha _))
  · exact rnd_mono (div_le_div_of_nonneg_right (SumTree.eval_mono (fun k => rnd_mono (mul_le_mul_of_nonneg_right (h _) (ha _))) t) hs)
  · exact rnd_mono (div_le_div_of_nonneg_right (SumTree.eval_mono h t) (Nat.cast_nonneg _))

theorem term_close {f a : K} (ha : 0 ≤ a) : Close 1 (|f| * a) (f * a) (rnd (f * a)) ∧ |f * a| ≤ |f| * a := by
  have : |f * a| ≤ |f| * a := by rw [abs_mul, abs_of_nonneg ha]
  exact ⟨(Close.refl _ _).rnd this, this⟩

theorem abs_div_le {x b c : K} (hc : 0 ≤ c) (hx : |x| ≤ b) : |x / c| ≤ b / c := by
  rw [abs_div, abs_of_nonneg hc]; exact div_le_div_of_nonneg_right hx hc

/-- The area-weighted mean is accurate relative to the mean of the sizes of the values. -/
theorem C136_mean {h w : ℕ} {t s : SumTree} (ht : t.Sums (h * w)) (hs : s.Sums h) (hw : 0 < w) {a : ℕ → K} (ha : ∀ j, 0 ≤ a j)
    (hS : 0 < ∑ j ∈ Finset.range h, a j) (f : ℕ → ℕ → K) :
    |meanAll t s a w f - (∑ k ∈ Finset.range (h * w), f (k / w) (k % w) * a (k / w)) / (∑ j ∈ Finset.range h, a j) / w| ≤
      (∑ k ∈ Finset.range (h * w), |f (k / w) (k % w)| * a (k / w)) / (∑ j ∈ Finset.range h, a j) / w *
        ((1 + 1 / 2 ^ 53) ^ (t.depth + 2 * s.depth + 3) - 1) := by
  have hw' : (0 : K) < w := by exact_mod_cast hw
  have h1 := SumTree.eval_close (k := 1) (fun k => (term_close (f := f (k / w) (k % w)) (ha (k / w))).2) (fun k => (term_close (ha _)).1) t
  have hab := SumTree.abs_total (fun k => (term_close (f := f (k / w) (k % w)) (ha (k / w))).2) t
  have h2 := SumTree.eval_near ha (fun j => Near.refl (a j)) s
  rw [SumTree.total_sums ht, SumTree.total_sums ht] at h1 hab
  rw [SumTree.total_sums hs, Nat.zero_add] at h2
  have h3 := (quot_close hab h1 hS h2).rnd (abs_div_le hS.le hab)
  have h4 := (h3.div hw').rnd (abs_div_le hw'.le (abs_div_le hS.le hab))
  exact h4.mono ((abs_nonneg _).trans (abs_div_le hw'.le (abs_div_le hS.le hab))) (by omega)

theorem C136_meridional {h : ℕ} {t s : SumTree} (ht : t.Sums h) (hs : s.Sums h) {a : ℕ → K} (ha : ∀ j, 0 ≤ a j)
    (hS : 0 < ∑ j ∈ Finset.range h, a j) (f : ℕ → K) :
    |meanMeridional t s a f - (∑ j ∈ Finset.range h, f j * a j) / (∑ j ∈ Finset.range h, a j)| ≤
      (∑ j ∈ Finset.range h, |f j| * a j) / (∑ j ∈ Finset.range h, a j) * ((1 + 1 / 2 ^ 53) ^ (t.depth + 2 * s.depth + 2) - 1) := by
  have h1 := SumTree.eval_close (k := 1) (fun k => (term_close (f := f k) (ha k)).2) (fun k => (term_close (ha _)).1) t
  have hab := SumTree.abs_total (fun k => (term_close (f := f k) (ha k)).2) t
  have h2 := SumTree.eval_near ha (fun j => Near.refl (a j)) s
  rw [SumTree.total_sums ht, SumTree.total_sums ht] at h1 hab
  rw [SumTree.total_sums hs, Nat.zero_add] at h2
  have h3 := (quot_close hab h1 hS h2).rnd (abs_div_le hS.le hab)
  exact h3.mono ((abs_nonneg _).trans (abs_div_le hS.le hab)) (by omega)

theorem C136_zonal {w : ℕ} {t : SumTree} (ht : t.Sums w) (hw : 0 < w) (f : ℕ → K) :
    |meanZonal t w f - (∑ i ∈ Finset.range w, f i) / w| ≤ (∑ i ∈ Finset.range w, |f i|) / w * ((1 + 1 / 2 ^ 53) ^ (t.depth + 1) - 1) := by
  have hw' : (0 : K) < w := by exact_mod_cast hw
  have h1 := SumTree.eval_close (f := f) (fun k => le_refl |f k|) (fun k => Close.refl _ _) t
  have hab := SumTree.abs_total (f := f) (fun k => le_refl |f k|) t
  rw [SumTree.total_sums ht, SumTree.total_sums ht] at h1 hab
  exact ((h1.div hw').rnd (abs_div_le hw'.le hab)).mono ((abs_nonneg _).trans (abs_div_le hw'.le hab)) (by omega)

/-- Means of a constant field are that constant up to the roundings. -/
theorem C136_constant {h w : ℕ} {t s z : SumTree} (ht : t.Sums (h * w)) (hs : s.Sums h) (hz : z.Sums w) (hw : 0 < w) {a : ℕ → K}
    (ha : ∀ j, 0 ≤ a j) (hS : 0 < ∑ j ∈ Finset.range h, a j) (c : K) :
    |meanAll t s a w (fun _ _ => c) - c| ≤ |c| * ((1 + 1 / 2 ^ 53) ^ (t.depth + 2 * s.depth + 3) - 1) ∧
      |meanMeridional s s a (fun _ => c) - c| ≤ |c| * ((1 + 1 / 2 ^ 53) ^ (3 * s.depth + 2) - 1) ∧
      |meanZonal z w (fun _ => c) - c| ≤ |c| * ((1 + 1 / 2 ^ 53) ^ (z.depth + 1) - 1) := by
  have hw' : (0 : K) < w := by exact_mod_cast hw
  have e1 : ∀ x : K, (∑ k ∈ Finset.range (h * w), x * a (k / w)) / (∑ j ∈ Finset.range h, a j) / w = x := by
    intro x
    have e : ∑ k ∈ Finset.range (h * w), x * a (k / w) = x * (w * ∑ j ∈ Finset.range h, a j) := by
      rw [← Finset.mul_sum]
      congr 1
      clear ht hs hS
      induction h with
      | zero => simp
      | succ h ih =>
        rw [Nat.succ_mul, Finset.sum_range_add, ih, Finset.sum_range_succ, mul_add]
        congr 1
        rw [Finset.sum_congr rfl (g := fun _ => a h)]
        · simp
        · intro i hi
          rw [Finset.mem_range] at hi
          congr 1
          rw [Nat.mul_comm, Nat.mul_add_div hw, Nat.div_eq_of_lt hi, Nat.add_zero]
    rw [e]; field_simp
  have e2 : ∀ x : K, (∑ j ∈ Finset.range h, x * a j) / (∑ j ∈ Finset.range h, a j) = x := by
    intro x; rw [← Finset.mul_sum]; field_simp
  have e3 : ∀ x : K, (∑ _i ∈ Finset.range w, x) / w = x := by intro x; simp; field_simp
  refine ⟨?_, ?_, ?_⟩
  · have := C136_mean ht hs hw ha hS (fun _ _ => c)
    rw [e1, e1] at this
    exact this
  · have := C136_meridional hs hs ha hS (fun _ => c)
    rw [e2, e2] at this
    rw [show 3 * s.depth + 2 = s.depth + 2 * s.depth + 2 by ring]
    exact this
  · have := C136_zonal hz hw (fun _ => c)
    rw [e3, e3] at this
    exact this

/-- Not exactly: the zonal mean of a constant field can be larger than every value of it. -/
theorem C136_constant_refuted : ∃ (t : SumTree) (c : ℚ), t.Sums 3 ∧ IsDouble c ∧ c < meanZonal t 3 fun _ => c :=
  ⟨.node (.node (.leaf 0) (.leaf 1)) (.leaf 2), rnd (1 / 10), List.Perm.refl _, rnd_isDouble _, by decide +kernel⟩

/-- Normalized weights of non-negative windows are non-negative and add up to 1 up to roundings. -/
theorem C136_window {n : ℕ} {s : SumTree} (hs : s.Sums n) {win : ℕ → K} (hw : ∀ k, 0 ≤ win k) (hS : 0 < ∑ k ∈ Finset.range n, win k) :
    (∀ k, 0 ≤ windowWeight s win k) ∧
      |∑ k ∈ Finset.range n, windowWeight s win k - 1| ≤ (1 + 1 / 2 ^ 53) ^ (2 * s.depth + 1) - 1 := by
  have h2 := SumTree.eval_near hw (fun j => Near.refl (win j)) s
  rw [SumTree.total_sums hs, Nat.zero_add] at h2
  refine ⟨fun k => rnd_nonneg (div_nonneg (hw k) (SumTree.eval_nonneg hw s)), ?_⟩
  set S := ∑ k ∈ Finset.range n, win k with hSd
  have hk : ∀ k, Close (2 * s.depth + 1) (win k / S) (win k / S) (windowWeight s win k) := by
    intro k
    have ha : |win k| ≤ win k := (abs_of_nonneg (hw k)).le
    have := (quot_close ha (Close.refl _ _) hS h2).rnd (abs_div_le hS.le ha)
    exact this.mono (div_nonneg (hw k) hS.le) (by omega)
  have e : (1 : K) = ∑ k ∈ Finset.range n, win k / S := by rw [← Finset.sum_div, div_self hS.ne']
  calc |∑ k ∈ Finset.range n, windowWeight s win k - 1| = |∑ k ∈ Finset.range n, (windowWeight s win k - win k / S)| := by
        rw [Finset.sum_sub_distrib, ← e]
    _ ≤ ∑ k ∈ Finset.range n, |windowWeight s win k - win k / S| := Finset.abs_sum_le_sum_abs _ _
    _ ≤ ∑ k ∈ Finset.range n, win k / S * ((1 + 1 / 2 ^ 53) ^ (2 * s.depth + 1) - 1) := Finset.sum_le_sum fun k _ => hk k
    _ = _ := by rw [← Finset.sum_mul, ← e, one_mul]

/-- Filters with non-negative weights do not decrease where the field increases, keep fields of one sign, and are accurate. -/
theorem C136_filter {n : ℕ} {t : SumTree} (ht : t.Sums n) {weight : ℕ → K} (hw : ∀ k, 0 ≤ weight k) :
    (∀ f g : ℕ → K, (∀ k, f k ≤ g k) → convolveAt t weight f ≤ convolveAt t weight g) ∧
      (∀ f : ℕ → K, (∀ k, 0 ≤ f k) → 0 ≤ convolveAt t weight f) ∧
      ∀ f : ℕ → K, |convolveAt t weight f - ∑ k ∈ Finset.range n, f k * weight k| ≤
        (∑ k ∈ Finset.range n, |f k| * weight k) * ((1 + 1 / 2 ^ 53) ^ (t.depth + 1) - 1) := by
  refine ⟨fun f g h => SumTree.eval_mono (fun k => rnd_mono (mul_le_mul_of_nonneg_right (h k) (hw k))) t,
    fun f h => SumTree.eval_nonneg (fun k => rnd_nonneg (mul_nonneg (h k) (hw k))) t, fun f => ?_⟩
  have h1 := SumTree.eval_close (k := 1) (fun k => (term_close (f := f k) (hw k)).2) (fun k => (term_close (hw _)).1) t
  rw [SumTree.total_sums ht, SumTree.total_sums ht, Nat.add_comm] at h1
  exact h1

/-- The normalized boxcar window of three points does not keep constants: three weights `1/3` and the constant 7. -/
theorem C136_filter_refuted : ∃ (s t : SumTree) (c : ℚ), s.Sums 3 ∧ t.Sums 3 ∧ IsDouble c ∧
    convolveAt t (windowWeight s fun _ => 1) (fun _ => c) ≠ c :=
  ⟨.node (.node (.leaf 0) (.leaf 1)) (.leaf 2), .node (.node (.leaf 0) (.leaf 1)) (.leaf 2), 7, List.Perm.refl _, List.Perm.refl _,
    ⟨7, 0, by norm_num, by norm_num⟩, by decide +kernel⟩

/-! ### Non-vacuity -/

example : (SumTree.node (.node (.leaf 0) (.leaf 1)) (.leaf 2)).Sums 3 ∧ (SumTree.node (.leaf 0) (.node (.leaf 1) (.leaf 2))).depth = 2 :=
  ⟨List.Perm.refl _, rfl⟩

/-- Two rows and one column with areas 1 and 3 -/
example : meanAll (.node (.leaf 0) (.leaf 1)) (.node (.leaf 0) (.leaf 1)) (fun j => if j = 0 then 1 else 3) 1 (fun j _ => (4 * j : ℚ)) = 3 ∧
    meanMeridional (.node (.leaf 0) (.leaf 1)) (.node (.leaf 0) (.leaf 1)) (fun j => if j = 0 then 1 else 3) (fun j => (4 * j : ℚ)) = 3 ∧
    convolveAt (.node (.leaf 0) (.leaf 1)) (windowWeight (.node (.leaf 0) (.leaf 1)) fun _ => 1) (fun k => (2 * k : ℚ)) = 1 := by
  decide +kernel

end Barotropic
