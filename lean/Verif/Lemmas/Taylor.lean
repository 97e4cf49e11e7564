import Mathlib.Analysis.Calculus.IteratedDeriv.Lemmas
import Mathlib.Analysis.Calculus.MeanValue
import Mathlib.Analysis.Calculus.Deriv.Pow

/-!
# Taylor's theorem with a bound of the remainder, in both directions
-/

namespace Barotropic
open Finset

private theorem taylor_right (n : ℕ) : ∀ {F : ℝ → ℝ} {a b M : ℝ}, a ≤ b → ContDiff ℝ n F → (∀ y ∈ Set.Icc a b, |iteratedDeriv n F y| ≤ M) →
    |F b - ∑ k ∈ range n, iteratedDeriv k F a / k.factorial * (b - a) ^ k| ≤ M * (b - a) ^ n / n.factorial := by
  induction n with
  | zero =>
    intro F a b M hab _ hM
    have := hM b ⟨hab, le_rfl⟩
    simpa using this
  | succ n ih =>
    intro F a b M hab hF hM
    have hdF : ContDiff ℝ n (deriv F) := (contDiff_succ_iff_deriv.mp (by exact_mod_cast hF)).2.2
    have hd : Differentiable ℝ F := hF.differentiable (by simp)
    have hR : ∀ x, HasDerivAt (fun x => F x - ∑ k ∈ range (n + 1), iteratedDeriv k F a / k.factorial * (x - a) ^ k)
        (deriv F x - ∑ k ∈ range n, iteratedDeriv k (deriv F) a / k.factorial * (x - a) ^ k) x := by
      intro x
      refine (hd x).hasDerivAt.sub ?_
      have h1 : HasDerivAt (fun x => ∑ k ∈ range (n + 1), iteratedDeriv k F a / k.factorial * (x - a) ^ k)
          (∑ k ∈ range (n + 1), iteratedDeriv k F a / k.factorial * (k * (x - a) ^ (k - 1))) x := by
        refine HasDerivAt.fun_sum fun k _ => ?_
        have := (((hasDerivAt_id x).sub_const a).pow k).const_mul (iteratedDeriv k F a / k.factorial)
        refine this.congr_deriv ?_
        simp
      refine h1.congr_deriv ?_
      rw [sum_range_succ']
      simp only [Nat.cast_zero, zero_mul, mul_zero, add_zero]
      refine sum_congr rfl fun k _ => ?_
      rw [iteratedDeriv_succ', Nat.factorial_succ, Nat.add_sub_cancel]
      have hk : ((k : ℝ) + 1) ≠ 0 := by positivity
      have hf : (k.factorial : ℝ) ≠ 0 := by positivity
      push_cast
      field_simp
    have hB : ∀ x, HasDerivAt (fun x => M * (x - a) ^ (n + 1) / (n + 1).factorial) (M * (x - a) ^ n / n.factorial) x := by
      intro x
      have := ((((hasDerivAt_id x).sub_const a).pow (n + 1)).const_mul M).div_const (((n + 1).factorial : ℕ) : ℝ)
      refine this.congr_deriv ?_
      rw [Nat.factorial_succ]
      have hk : ((n : ℝ) + 1) ≠ 0 := by positivity
      have hf : (n.factorial : ℝ) ≠ 0 := by positivity
      push_cast
      simp
      field_simp
    refine image_norm_le_of_norm_deriv_right_le_deriv_boundary (f := fun x => F x - ∑ k ∈ range (n + 1), iteratedDeriv k F a / k.factorial * (x - a) ^ k)
      (f' := fun x => deriv F x - ∑ k ∈ range n, iteratedDeriv k (deriv F) a / k.factorial * (x - a) ^ k)
      (fun x _ => (hR x).continuousAt.continuousWithinAt) (fun x _ => (hR x).hasDerivWithinAt) ?_ hB (fun x hx => ?_) ⟨hab, le_rfl⟩
    · rw [sum_range_succ']
      simp
    · exact ih hx.1 hdF fun y hy => by
        rw [← iteratedDeriv_succ']
        exact hM y ⟨hy.1, hy.2.trans hx.2.le⟩

/-- Taylor's theorem -/
theorem taylor_bound {F : ℝ → ℝ} {n : ℕ} (hF : ContDiff ℝ n F) {a b M : ℝ} (hM : ∀ y ∈ Set.uIcc a b, |iteratedDeriv n F y| ≤ M) :
    |F b - ∑ k ∈ range n, iteratedDeriv k F a / k.factorial * (b - a) ^ k| ≤ M * |b - a| ^ n / n.factorial := by
  rcases le_total a b with hab | hab
  · rw [abs_of_nonneg (sub_nonneg.mpr hab)]
    exact taylor_right n hab hF fun y hy => hM y (by rwa [Set.uIcc_of_le hab])
  · have h := taylor_right n (F := fun x => F (-x)) (a := -a) (b := -b) (M := M) (neg_le_neg hab) (hF.comp contDiff_neg) fun y hy => by
      rw [iteratedDeriv_comp_neg]
      have : |(-1 : ℝ) ^ n • iteratedDeriv n F (-y)| = |iteratedDeriv n F (-y)| := by
        rw [smul_eq_mul, abs_mul, abs_pow, abs_neg, abs_one, one_pow, one_mul]
      rw [this]
      refine hM _ ?_
      rw [Set.uIcc_of_ge hab]
      exact ⟨by linarith [hy.2], by linarith [hy.1]⟩
    have e : ∀ k, iteratedDeriv k (fun x => F (-x)) (-a) / k.factorial * (-b - -a) ^ k = iteratedDeriv k F a / k.factorial * (b - a) ^ k := by
      intro k
      rw [iteratedDeriv_comp_neg, neg_neg, smul_eq_mul, show -b - -a = -1 * (b - a) by ring, mul_pow]
      have : (-1 : ℝ) ^ k * (-1) ^ k = 1 := by rw [← mul_pow]; norm_num
      linear_combination (iteratedDeriv k F a / k.factorial * (b - a) ^ k) * this
    rw [sum_congr rfl fun k _ => e k, neg_neg] at h
    rw [abs_of_nonpos (sub_nonpos.mpr hab), show -(b - a) = -b - -a by ring]
    exact h

end Barotropic
