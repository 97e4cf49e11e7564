import Verif.Lemmas.PLInterp
import Verif.Lemmas.Taylor
import Verif.Lemmas.GridReal
import Verif.Spec.Sphere
import Mathlib.MeasureTheory.Integral.IntervalIntegral.TrapezoidalRule
import Mathlib.MeasureTheory.Integral.Prod
import Mathlib.Analysis.SpecialFunctions.Integrals.Basic
import Mathlib.Analysis.SpecialFunctions.Trigonometric.Bounds

/-!
# Errors of linear interpolation, midpoint and trapezoidal rules
-/

namespace Barotropic
open Real Set MeasureTheory Grid

private theorem taylor2 {F : ℝ → ℝ} (hF : ContDiff ℝ 2 F) {lo hi M : ℝ} (hM : ∀ y ∈ Icc lo hi, |iteratedDeriv 2 F y| ≤ M) {x y : ℝ}
    (hx : x ∈ Icc lo hi) (hy : y ∈ Icc lo hi) : |F y - (F x + deriv F x * (y - x))| ≤ M * (y - x) ^ 2 / 2 := by
  have := taylor_bound (n := 2) (by exact_mod_cast hF) fun z hz => hM z (uIcc_subset_Icc hx hy hz)
  simp only [Finset.sum_range_succ, Finset.sum_range_zero, iteratedDeriv_zero, iteratedDeriv_one] at this
  simpa [Nat.factorial] using this

/-- linear interpolation -/
theorem linear_error {F : ℝ → ℝ} (hF : ContDiff ℝ 2 F) {a b M : ℝ} (hM : ∀ y ∈ Icc a b, |iteratedDeriv 2 F y| ≤ M) (hab : a < b) {x : ℝ}
    (hx : x ∈ Icc a b) : |aff b a (F b) (F a) x - F x| ≤ M * (b - a) ^ 2 / 8 := by
  have h1 := taylor2 hF hM hx (left_mem_Icc.2 hab.le)
  have h2 := taylor2 hF hM hx (right_mem_Icc.2 hab.le)
  have hM0 : 0 ≤ M := (abs_nonneg _).trans (hM x hx)
  set A := F a - (F x + deriv F x * (a - x))
  set B := F b - (F x + deriv F x * (b - x))
  have hd : 0 < b - a := by linarith
  have e : (aff b a (F b) (F a) x - F x) * (b - a) = (b - x) * A + (x - a) * B := by
    unfold aff
    have : a - b ≠ 0 := by linarith
    rw [← neg_sub a b]
    simp only [A, B]
    field_simp
    ring
  have h3 : |(aff b a (F b) (F a) x - F x) * (b - a)| ≤ M * (b - a) ^ 2 / 8 * (b - a) := by
    rw [e]
    have p1 : |(b - x) * A| ≤ (b - x) * (M * (a - x) ^ 2 / 2) := by
      rw [abs_mul, abs_of_nonneg (by linarith [hx.2])]
      exact mul_le_mul_of_nonneg_left h1 (by linarith [hx.2])
    have p2 : |(x - a) * B| ≤ (x - a) * (M * (b - x) ^ 2 / 2) := by
      rw [abs_mul, abs_of_nonneg (by linarith [hx.1])]
      exact mul_le_mul_of_nonneg_left h2 (by linarith [hx.1])
    refine (abs_add_le _ _).trans ((add_le_add p1 p2).trans ?_)
    have : (b - x) * (M * (a - x) ^ 2 / 2) + (x - a) * (M * (b - x) ^ 2 / 2)
        = M * (b - a) ^ 2 / 8 * (b - a) - M * (b - a) / 2 * ((a + b) / 2 - x) ^ 2 := by ring
    rw [this]
    have : 0 ≤ M * (b - a) / 2 * ((a + b) / 2 - x) ^ 2 := by positivity
    linarith
  rw [abs_mul, abs_of_pos hd] at h3
  exact le_of_mul_le_mul_right h3 hd

/-- An interpolant on the latitudes of the grid -/
theorem interp_error {g : Grid ℝ} (hg : g.Valid) {F : ℝ → ℝ} (hF : ContDiff ℝ 2 F) {M : ℝ}
    (hM : ∀ φ ∈ Icc (-(π / 2)) (π / 2), |iteratedDeriv 2 F φ| ≤ M) {Y : ℝ → ℝ} (hY : IsPLInterp (n := g.nlat) g.phi (fun j => F (g.phi j)) Y) {φ : ℝ}
    (hφ : φ ∈ Icc (-(π / 2)) (π / 2)) : |Y φ - F φ| ≤ M * (π / ((g.nlat : ℝ) - 1)) ^ 2 / 8 := by
  have hn := hg.nlat_ge
  obtain ⟨k, hk, h1, h2⟩ := exists_segment (x := g.phi) (n := g.nlat - 1) (φ := φ) (by omega) (by rw [phi_zero hg]; exact hφ.2)
    (by rw [phi_last hg]; exact hφ.1)
  rw [interp_aff hY (show k + 1 < g.nlat by omega) (phi_seg hg k hk) ⟨h1, h2⟩]
  have := linear_error hF (a := g.phi (k + 1)) (b := g.phi k) (M := M) (fun y hy => hM y
    ⟨(phi_mem hg (show k + 1 < g.nlat by omega)).1.trans hy.1, hy.2.trans (phi_mem hg (show k < g.nlat by omega)).2⟩) (phi_seg hg k hk) ⟨h1, h2⟩
  have e : g.phi k - g.phi (k + 1) = π / ((g.nlat : ℝ) - 1) := by
    rw [phi_eq hg, phi_eq hg]; push_cast; ring
  rwa [e] at this

/-- The trapezoidal rule on the circle -/
theorem circle_error {f : ℝ → ℝ} (hf : ContDiff ℝ 2 f) (hper : f (2 * π) = f 0) {L : ℝ} (hL : ∀ x ∈ Icc 0 (2 * π), |iteratedDeriv 2 f x| ≤ L) {n : ℕ}
    (hn : 0 < n) : |2 * π / n * ∑ i ∈ Finset.range n, f (i * (2 * π / n)) - ∫ x in (0 : ℝ)..2 * π, f x| ≤ 2 * π * L * (2 * π / n) ^ 2 / 12 := by
  have hp : (0 : ℝ) < 2 * π := by positivity
  have hL0 : 0 ≤ L := (abs_nonneg _).trans (hL 0 ⟨le_rfl, hp.le⟩)
  have hs : uIcc 0 (2 * π) = Icc 0 (2 * π) := uIcc_of_le hp.le
  have := trapezoidal_error_le_of_c2 (f := f) (a := 0) (b := 2 * π) (ζ := L) hf.contDiffOn ?_ hn
  · have e : trapezoidal_integral f n 0 (2 * π) = 2 * π / n * ∑ i ∈ Finset.range n, f (i * (2 * π / n)) := by
      unfold trapezoidal_integral
      obtain ⟨m, rfl⟩ : ∃ m, n = m + 1 := ⟨n - 1, by omega⟩
      rw [Finset.sum_range_succ', hper, Nat.add_sub_cancel, sub_zero]
      congr 1
      rw [add_comm]
      congr 1
      · refine Finset.sum_congr rfl fun i _ => ?_
        congr 1
        push_cast
        ring
      · simp
    unfold trapezoidal_error at this
    rw [e] at this
    refine this.trans (le_of_eq ?_)
    rw [sub_zero, abs_of_pos hp]
    have : (n : ℝ) ≠ 0 := by positivity
    field_simp
  · intro x
    rw [hs]
    by_cases hx : x ∈ Icc 0 (2 * π)
    · rw [iteratedDerivWithin_eq_iteratedDeriv (uniqueDiffOn_Icc hp) hf.contDiffAt hx]
      exact hL x hx
    · rw [iteratedDerivWithin_succ, derivWithin_zero_of_notMem_closure (by rwa [isClosed_Icc.closure_eq]), abs_zero]
      exact hL0

theorem integral_cos_poles : ∫ φ in -(π / 2)..π / 2, cos φ = 2 := by
  rw [integral_cos]; simp; norm_num

/-- weighted with the cosine of latitude -/
theorem cos_weight {H : ℝ → ℝ} {ε : ℝ} (hH : ∀ φ ∈ Icc (-(π / 2)) (π / 2), |H φ| ≤ ε) :
    |∫ φ in -(π / 2)..π / 2, H φ * cos φ| ≤ 2 * ε := by
  have hp := pi_pos
  have := intervalIntegral.norm_integral_le_of_norm_le (μ := volume) (f := fun φ => H φ * cos φ) (g := fun φ => ε * cos φ)
    (a := -(π / 2)) (b := π / 2) (by linarith) (Filter.Eventually.of_forall fun t ht => ?_)
    ((continuous_const.mul continuous_cos).intervalIntegrable _ _)
  · rw [intervalIntegral.integral_const_mul, integral_cos_poles] at this
    rw [mul_comm 2 ε]
    exact this
  · have hc : 0 ≤ cos t := cos_nonneg_of_mem_Icc (Ioc_subset_Icc_self ht)
    rw [norm_mul, Real.norm_eq_abs, Real.norm_of_nonneg hc]
    exact mul_le_mul_of_nonneg_right (hH t (Ioc_subset_Icc_self ht)) hc

/-- the sum over all meridians -/
theorem zonal_error {F : ℝ → ℝ → ℝ} (hF : ContDiff ℝ 2 fun p : ℝ × ℝ => F p.1 p.2) (hper : ∀ φ, F (2 * π) φ = F 0 φ) {L : ℝ}
    (hL : ∀ x ∈ Icc 0 (2 * π), ∀ φ ∈ Icc (-(π / 2)) (π / 2), |iteratedDeriv 2 (fun x => F x φ) x| ≤ L) {n : ℕ} (hn : 0 < n) :
    |2 * π / n * ∑ i ∈ Finset.range n, (∫ φ in -(π / 2)..π / 2, F (i * (2 * π / n)) φ * cos φ)
      - ∫ x in (0 : ℝ)..2 * π, ∫ φ in -(π / 2)..π / 2, F x φ * cos φ| ≤ 2 * (2 * π * L * (2 * π / n) ^ 2 / 12) := by
  have hc : Continuous fun p : ℝ × ℝ => F p.1 p.2 * cos p.2 := hF.continuous.mul (continuous_cos.comp continuous_snd)
  have hx : ∀ x, Continuous fun φ => F x φ := fun x => hF.continuous.comp (continuous_const.prodMk continuous_id)
  have hφ : ∀ φ, ContDiff ℝ 2 fun x => F x φ := fun φ => hF.comp (contDiff_id.prodMk contDiff_const)
  rw [intervalIntegral_intervalIntegral_swap (F := fun x φ => F x φ * cos φ)
    ((hc.continuousOn.integrableOn_compact (isCompact_uIcc.prod isCompact_uIcc)).mono_set (prod_mono uIoc_subset_uIcc uIoc_subset_uIcc))]
  have e1 : 2 * π / n * ∑ i ∈ Finset.range n, (∫ φ in -(π / 2)..π / 2, F (i * (2 * π / n)) φ * cos φ)
      = ∫ φ in -(π / 2)..π / 2, (2 * π / n * ∑ i ∈ Finset.range n, F (i * (2 * π / n)) φ) * cos φ := by
    rw [← intervalIntegral.integral_finsetSum, ← intervalIntegral.integral_const_mul]
    · congr 1; funext φ; rw [Finset.mul_sum, Finset.mul_sum, Finset.sum_mul]
      exact Finset.sum_congr rfl fun i _ => by ring
    · exact fun i _ => ((hx _).mul continuous_cos).intervalIntegrable _ _
  have hI : Continuous fun φ => ∫ x in (0 : ℝ)..2 * π, F x φ := by
    apply intervalIntegral.continuous_parametric_intervalIntegral_of_continuous'
    exact hF.continuous.comp (continuous_snd.prodMk continuous_fst)
  have e2 : (∫ φ in -(π / 2)..π / 2, ∫ x in (0 : ℝ)..2 * π, F x φ * cos φ)
      = ∫ φ in -(π / 2)..π / 2, (∫ x in (0 : ℝ)..2 * π, F x φ) * cos φ := by
    congr 1; funext φ; rw [intervalIntegral.integral_mul_const]
  rw [e1, e2, ← intervalIntegral.integral_sub]
  · simp only [← sub_mul]
    exact cos_weight fun φ h => circle_error (hφ φ) (hper φ) (fun x hx => hL x hx φ h) hn
  · refine Continuous.intervalIntegrable ?_ _ _
    exact (continuous_const.mul (continuous_finsetSum _ fun i _ => hx _)).mul continuous_cos
  · exact (hI.mul continuous_cos).intervalIntegrable _ _

/-- one cell of the boxcounting scheme -/
theorem cell_error {F : ℝ → ℝ} (hF : ContDiff ℝ 2 F) {lo hi M1 M2 : ℝ} (hM1 : ∀ y ∈ Icc lo hi, |deriv F y| ≤ M1)
    (hM2 : ∀ y ∈ Icc lo hi, |iteratedDeriv 2 F y| ≤ M2) {a b c : ℝ} (hab : a ≤ b) (hc : c ∈ Icc lo hi) (ha : lo ≤ a) (hb : b ≤ hi)
    (hsym : cos c * ((b - c) ^ 2 - (a - c) ^ 2) = 0) :
    |F c * (sin b - sin a) - ∫ φ in a..b, F φ * cos φ| ≤ (M1 + M2 / 2) * (((b - c) ^ 3 - (a - c) ^ 3) / 3) := by
  have hd : Differentiable ℝ F := hF.differentiable (by norm_num)
  have hint : ∀ n : ℕ, ∫ φ in a..b, (φ - c) ^ n = ((b - c) ^ (n + 1) - (a - c) ^ (n + 1)) / (n + 1) := by
    intro n
    rw [intervalIntegral.integral_comp_sub_right (fun x => x ^ n), integral_pow]
  have hlin : ∫ φ in a..b, deriv F c * cos c * (φ - c) = 0 := by
    have := hint 1
    simp only [pow_one, Nat.cast_one, Nat.reduceAdd] at this
    rw [intervalIntegral.integral_const_mul, this]
    linear_combination (deriv F c / 2) * hsym
  have e : F c * (sin b - sin a) - ∫ φ in a..b, F φ * cos φ
      = -∫ φ in a..b, ((F φ - F c) * cos φ - deriv F c * cos c * (φ - c)) := by
    rw [intervalIntegral.integral_sub, hlin]
    · simp only [sub_mul]
      rw [intervalIntegral.integral_sub, intervalIntegral.integral_const_mul, integral_cos]
      · ring
      · exact (hF.continuous.mul continuous_cos).intervalIntegrable _ _
      · exact (continuous_const.mul continuous_cos).intervalIntegrable _ _
    · exact ((hF.continuous.sub continuous_const).mul continuous_cos).intervalIntegrable _ _
    · exact (continuous_const.mul (continuous_id.sub continuous_const)).intervalIntegrable _ _
  rw [e, abs_neg]
  have := intervalIntegral.norm_integral_le_of_norm_le (μ := volume)
    (f := fun φ => (F φ - F c) * cos φ - deriv F c * cos c * (φ - c)) (g := fun φ => (M1 + M2 / 2) * (φ - c) ^ 2)
    hab (Filter.Eventually.of_forall fun t ht => ?_)
    ((continuous_const.mul ((continuous_id.sub continuous_const).pow 2)).intervalIntegrable _ _)
  · rw [intervalIntegral.integral_const_mul, hint 2] at this
    refine this.trans (le_of_eq ?_)
    norm_num
  · rw [Real.norm_eq_abs]
    have ht' : t ∈ Icc lo hi := ⟨ha.trans ht.1.le, ht.2.trans hb⟩
    have h2 := taylor2 hF hM2 hc ht'
    have hcos : |cos t - cos c| ≤ |t - c| := abs_cos_sub_cos_le t c
    have hid : (F t - F c) * cos t - deriv F c * cos c * (t - c)
        = (F t - (F c + deriv F c * (t - c))) * cos t + deriv F c * (t - c) * (cos t - cos c) := by ring
    rw [hid]
    refine (abs_add_le _ _).trans ?_
    rw [abs_mul, abs_mul, abs_mul]
    have p1 : |F t - (F c + deriv F c * (t - c))| * |cos t| ≤ M2 * (t - c) ^ 2 / 2 * 1 :=
      mul_le_mul h2 (abs_cos_le_one t) (abs_nonneg _) ((abs_nonneg _).trans h2)
    have p2 : |deriv F c| * |t - c| * |cos t - cos c| ≤ M1 * |t - c| * |t - c| := by
      have := hM1 c hc
      have h0 := abs_nonneg (deriv F c)
      have : |deriv F c| * |t - c| ≤ M1 * |t - c| := mul_le_mul_of_nonneg_right this (abs_nonneg _)
      exact mul_le_mul this hcos (abs_nonneg _) (mul_nonneg (h0.trans (hM1 c hc)) (abs_nonneg _))
    have e3 : |t - c| * |t - c| = (t - c) ^ 2 := by rw [← sq, sq_abs]
    rw [mul_assoc M1, e3] at p2
    linarith

end Barotropic
