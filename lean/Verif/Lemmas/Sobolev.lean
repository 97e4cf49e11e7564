import Verif.Lemmas.Stability
import Verif.Lemmas.Addition

/-!
# Bounds of sums of harmonics and their gradients by mean squares
-/

namespace Barotropic
open Real (cos sin)

variable {T : ℕ} {N : ℕ → ℕ → ℝ} {r : ℝ}

/-- Mean square of a field with derivatives up to order `s`, by spectral coefficients -/
noncomputable def sobolev (r : ℝ) (N : ℕ → ℕ → ℝ) (s : ℕ) (c : SpecField T) : ℝ :=
  ∑ k, ((specN k : ℝ) + 1) ^ (2 * s) * (modeNorm r N k * modeDot (specM k) (c k) (c k))

theorem modePower_nonneg (hr : r ≠ 0) (hN : ∀ n m, N n m ≠ 0) (c : SpecField T) (k : Fin (nspec T)) :
    0 ≤ modeNorm r N k * modeDot (specM k) (c k) (c k) := mul_nonneg (modeNorm_pos hr hN k).le (modeDot_self_nonneg _ _)

theorem sobolev_nonneg (hr : r ≠ 0) (hN : ∀ n m, N n m ≠ 0) (s : ℕ) (c : SpecField T) : 0 ≤ sobolev r N s c :=
  Finset.sum_nonneg fun k _ => mul_nonneg (by positivity) (modePower_nonneg hr hN c k)

theorem sobolev_zero (hr : r ≠ 0) (c : SpecField T) : sobolev r N 0 c = spherePair r (harmonicSum N c) (harmonicSum N c) := by
  rw [parseval hr]
  simp [sobolev]

theorem sobolev_mono (hr : r ≠ 0) (hN : ∀ n m, N n m ≠ 0) {s s' : ℕ} (h : s ≤ s') (c : SpecField T) : sobolev r N s c ≤ sobolev r N s' c := by
  refine Finset.sum_le_sum fun k _ => mul_le_mul_of_nonneg_right ?_ (modePower_nonneg hr hN c k)
  exact pow_le_pow_right₀ (by have : (0 : ℝ) ≤ specN k := Nat.cast_nonneg _; linarith) (by omega)

/-- Fields without low degrees are small compared to their derivatives. -/
theorem sobolev_tail (hr : r ≠ 0) (hN : ∀ n m, N n m ≠ 0) (s j B : ℕ) (c : SpecField T) (hc : ∀ k, specN k ≤ B → c k = 0) :
    ((B : ℝ) + 1) ^ (2 * j) * sobolev r N s c ≤ sobolev r N (s + j) c := by
  unfold sobolev
  rw [Finset.mul_sum]
  refine Finset.sum_le_sum fun k _ => ?_
  by_cases hk : specN k ≤ B
  · rw [hc k hk, modeDot_zero]; simp
  · have h1 : (B : ℝ) + 1 ≤ (specN k : ℝ) + 1 := by
      have : (B : ℝ) ≤ specN k := by exact_mod_cast (not_le.mp hk).le
      linarith
    rw [← mul_assoc]
    refine mul_le_mul_of_nonneg_right ?_ (modePower_nonneg hr hN c k)
    rw [show 2 * (s + j) = 2 * j + 2 * s by ring, pow_add]
    exact mul_le_mul_of_nonneg_right (pow_le_pow_left₀ (by positivity) h1 _) (by positivity)

theorem sobolev_degMul (hr : r ≠ 0) (hN : ∀ n m, N n m ≠ 0) (s d : ℕ) {A : ℝ} (a : ℕ → ℝ) (ha : ∀ n : ℕ, |a n| ≤ A * ((n : ℝ) + 1) ^ d) (c : SpecField T) :
    sobolev r N s (degMul a c) ≤ A ^ 2 * sobolev r N (s + d) c := by
  unfold sobolev
  rw [Finset.mul_sum]
  refine Finset.sum_le_sum fun k _ => ?_
  have e : modeDot (specM k) (degMul a c k) (degMul a c k) = a (specN k) ^ 2 * modeDot (specM k) (c k) (c k) := by
    unfold degMul
    rw [modeDot_smul, modeDot_comm, modeDot_smul]
    ring
  rw [e]
  have h1 : a (specN k) ^ 2 ≤ A ^ 2 * ((specN k : ℝ) + 1) ^ (2 * d) := by
    have := pow_le_pow_left₀ (abs_nonneg _) (ha (specN k)) 2
    rwa [sq_abs, mul_pow, ← pow_mul, mul_comm d 2] at this
  have h2 := mul_le_mul_of_nonneg_right h1 (mul_nonneg (pow_nonneg (by positivity : (0 : ℝ) ≤ (specN k : ℝ) + 1) (2 * s)) (modePower_nonneg hr hN c k))
  rw [show 2 * (s + d) = 2 * s + 2 * d by ring, pow_add]
  refine le_trans (le_of_eq ?_) (h2.trans (le_of_eq ?_)) <;> ring

/-- Derivatives of even order by powers of the Laplacian -/
theorem sobolev_laplace (hr : r ≠ 0) (hN : ∀ n m, N n m ≠ 0) (k : ℕ) (c : SpecField T) :
    sobolev r N (2 * k) c ≤ sobolev r N 0 c + (2 * r ^ 2) ^ (2 * k) * sobolev r N 0 (degMul (fun n => (n * (n + 1) / r ^ 2) ^ k) c) := by
  unfold sobolev
  rw [Finset.mul_sum, ← Finset.sum_add_distrib]
  refine Finset.sum_le_sum fun l _ => ?_
  have e : modeDot (specM l) (degMul (fun n => (n * (n + 1) / r ^ 2) ^ k) c l) (degMul (fun n => (n * (n + 1) / r ^ 2) ^ k) c l) =
      ((specN l * (specN l + 1) / r ^ 2) ^ k) ^ 2 * modeDot (specM l) (c l) (c l) := by
    unfold degMul
    rw [modeDot_smul, modeDot_comm, modeDot_smul]
    ring
  rw [e]
  have h0 := modePower_nonneg hr hN c l
  have key : ((specN l : ℝ) + 1) ^ (2 * (2 * k)) ≤ 1 + (2 * r ^ 2) ^ (2 * k) * ((specN l * (specN l + 1) / r ^ 2) ^ k) ^ 2 := by
    have e2 : (2 * r ^ 2) ^ (2 * k) * (((specN l : ℝ) * (specN l + 1) / r ^ 2) ^ k) ^ 2 = (2 * ((specN l : ℝ) * (specN l + 1))) ^ (2 * k) := by
      rw [← pow_mul, mul_comm k 2, ← mul_pow]
      congr 1
      field_simp
    rw [e2]
    rcases Nat.eq_zero_or_pos (specN l) with h | h
    · rw [h]
      have : (0 : ℝ) ≤ (2 * (((0 : ℕ) : ℝ) * (((0 : ℕ) : ℝ) + 1))) ^ (2 * k) := by positivity
      simp only [Nat.cast_zero, zero_add, one_pow]
      simp only [Nat.cast_zero, zero_add] at this
      linarith
    · have hn : (1 : ℝ) ≤ specN l := by exact_mod_cast h
      have : ((specN l : ℝ) + 1) ^ (2 * (2 * k)) ≤ (2 * ((specN l : ℝ) * (specN l + 1))) ^ (2 * k) := by
        rw [pow_mul]
        exact pow_le_pow_left₀ (by positivity) (by nlinarith) _
      linarith
  have h2 := mul_le_mul_of_nonneg_right key h0
  refine h2.trans (le_of_eq ?_)
  simp only [mul_zero, pow_zero, one_mul]
  ring

/-! ## Bounds at points -/

theorem modeValue_sq (m : ℕ) (a : ℂ) (x : ℝ) : ((a * Complex.exp (Complex.I * ((m * x : ℝ) : ℂ))).re) ^ 2 ≤ modeDot m a a := by
  unfold modeDot
  split_ifs with hm
  · simp [hm, sq]
  · have h1 := Complex.abs_re_le_norm (a * Complex.exp (Complex.I * ((m * x : ℝ) : ℂ)))
    have h2 : ‖Complex.exp (Complex.I * ((m * x : ℝ) : ℂ))‖ = 1 := by rw [mul_comm]; exact Complex.norm_exp_ofReal_mul_I _
    rw [norm_mul, h2, mul_one] at h1
    have h3 := pow_le_pow_left₀ (abs_nonneg _) h1 2
    rw [sq_abs] at h3
    refine h3.trans (le_of_eq ?_)
    rw [← Complex.normSq_eq_norm_sq, Complex.normSq_apply]

/-- Cauchy–Schwarz -/
theorem modeSum_sq_le (hr : r ≠ 0) (hN : ∀ n m, N n m ≠ 0) {w : ℕ → ℝ} (hw : ∀ n, 0 < w n) (P : ℕ → ℕ → ℝ → ℝ) (c : SpecField T) (x y : ℝ) :
    modeSum N P c x y ^ 2 ≤ (∑ k, w (specN k) * (modeNorm r N k * modeDot (specM k) (c k) (c k))) *
      ∑ n ∈ Finset.range (T + 1), (w n)⁻¹ * ((2 * n + 1) / (4 * Real.pi * r ^ 2)) * (squares n (P n) y / squares n (legendre n) 0) := by
  rw [← sum_kernel hr hN (fun n => (w n)⁻¹) P y]
  unfold modeSum
  refine Finset.sum_sq_le_sum_mul_sum_of_sq_le_mul _ (fun k _ => mul_nonneg (hw _).le (modePower_nonneg hr hN c k))
    (fun k _ => mul_nonneg (inv_nonneg.mpr (hw _).le) (div_nonneg (sq_nonneg _) (modeNorm_pos hr hN k).le)) fun k _ => ?_
  have h1 := modeValue_sq (specM k) (c k) x
  have h2 := (modeNorm_pos hr hN k).ne'
  have h3 := (hw (specN k)).ne'
  rw [mul_pow, mul_comm]
  refine (mul_le_mul_of_nonneg_right h1 (sq_nonneg _)).trans (le_of_eq ?_)
  field_simp

theorem squares_pos (n : ℕ) : 0 < squares n (legendre n) 0 := by
  have h1 := squares_norm n
  have h2 := latNorm_pos (Nat.zero_le n)
  have h3 : (0 : ℝ) < (2 * n + 1) * latNorm n 0 := by positivity
  linarith

theorem squares_nonneg (n : ℕ) (P : ℕ → ℝ → ℝ) (y : ℝ) : 0 ≤ squares n P y :=
  Finset.sum_nonneg fun m hm => mul_nonneg (div_nonneg (modeCount_pos m).le (ladder_pos (by simpa [Nat.lt_succ_iff] using hm)).le) (sq_nonneg _)

theorem squares_ratio (n : ℕ) (y : ℝ) : squares n (legendre n) y / squares n (legendre n) 0 = 1 := by
  rw [squares_const n y, div_self (squares_pos n).ne']

theorem squares_ratio_lat (n : ℕ) {y : ℝ} (hy : cos y ≠ 0) : squares n (fun m => deriv (legendre n m)) y / squares n (legendre n) 0 ≤ n * (n + 1) := by
  rw [div_le_iff₀ (squares_pos n), ← squares_gradient n hy]
  linarith [squares_nonneg n (legendreOverCos n) y]

theorem squares_ratio_lon (n : ℕ) {y : ℝ} (hy : cos y ≠ 0) : squares n (legendreOverCos n) y / squares n (legendre n) 0 ≤ n * (n + 1) := by
  rw [div_le_iff₀ (squares_pos n), ← squares_gradient n hy]
  linarith [squares_nonneg n (fun m => deriv (legendre n m)) y]

theorem modeDot_timesI (m : ℕ) (a : ℂ) : modeDot m (Complex.I * a) (Complex.I * a) = if m = 0 then a.im ^ 2 else modeDot m a a := by
  unfold modeDot
  split_ifs with hm
  · simp; ring
  · simp; ring

/-- The derivative along parallels does not depend on zonal modes. -/
theorem lamDeriv_nonzonal (c : SpecField T) (x y : ℝ) : lamDeriv N c x y = modeSum N legendreOverCos (fun k => if specM k = 0 then 0 else Complex.I * c k) x y := by
  unfold lamDeriv modeSum timesI
  refine Finset.sum_congr rfl fun k _ => ?_
  by_cases hk : specM k = 0
  · rw [hk, legendreOverCos_zonal]; simp
  · dsimp only
    rw [if_neg hk]

section bounds
variable (hr : r ≠ 0) (hN : ∀ n m, N n m ≠ 0) {w : ℕ → ℝ} (hw : ∀ n, 0 < w n) (c : SpecField T) (x : ℝ) {y : ℝ}
include hr hN hw

theorem harmonicSum_sq_le : harmonicSum N c x y ^ 2 ≤ (∑ k, w (specN k) * (modeNorm r N k * modeDot (specM k) (c k) (c k))) *
    ∑ n ∈ Finset.range (T + 1), (w n)⁻¹ * ((2 * n + 1) / (4 * Real.pi * r ^ 2)) := by
  refine (modeSum_sq_le hr hN hw legendre c x y).trans (le_of_eq ?_)
  congr 1
  exact Finset.sum_congr rfl fun n _ => by rw [squares_ratio, mul_one]

theorem phiDeriv_sq_le (hy : cos y ≠ 0) : phiDeriv N c x y ^ 2 ≤ (∑ k, w (specN k) * (modeNorm r N k * modeDot (specM k) (c k) (c k))) *
    ∑ n ∈ Finset.range (T + 1), (w n)⁻¹ * ((2 * n + 1) / (4 * Real.pi * r ^ 2)) * (n * (n + 1)) := by
  have hpi := Real.pi_pos
  refine (modeSum_sq_le hr hN hw (fun n m => deriv (legendre n m)) c x y).trans (mul_le_mul_of_nonneg_left ?_ ?_)
  · refine Finset.sum_le_sum fun n _ => mul_le_mul_of_nonneg_left (squares_ratio_lat n hy) ?_
    have := hw n
    positivity
  · exact Finset.sum_nonneg fun k _ => mul_nonneg (hw _).le (modePower_nonneg hr hN c k)

theorem lamDeriv_sq_le (hy : cos y ≠ 0) : lamDeriv N c x y ^ 2 ≤ (∑ k, w (specN k) * (modeNorm r N k * modeDot (specM k) (c k) (c k))) *
    ∑ n ∈ Finset.range (T + 1), (w n)⁻¹ * ((2 * n + 1) / (4 * Real.pi * r ^ 2)) * (n * (n + 1)) := by
  have hpi := Real.pi_pos
  rw [lamDeriv_nonzonal]
  have h0 : 0 ≤ ∑ n ∈ Finset.range (T + 1), (w n)⁻¹ * ((2 * n + 1) / (4 * Real.pi * r ^ 2)) * (squares n (legendreOverCos n) y / squares n (legendre n) 0) :=
    Finset.sum_nonneg fun n _ => by
      have h1 := hw n
      have h2 := squares_nonneg n (legendreOverCos n) y
      have h3 := squares_pos n
      positivity
  refine (modeSum_sq_le hr hN hw legendreOverCos _ x y).trans (mul_le_mul ?_ ?_ h0 ?_)
  · refine Finset.sum_le_sum fun k _ => mul_le_mul_of_nonneg_left (mul_le_mul_of_nonneg_left ?_ (modeNorm_pos hr hN k).le) (hw _).le
    split_ifs with hk
    · rw [modeDot_zero]; exact modeDot_self_nonneg _ _
    · rw [modeDot_timesI, if_neg hk]
  · refine Finset.sum_le_sum fun n _ => mul_le_mul_of_nonneg_left (squares_ratio_lon n hy) ?_
    have := hw n
    positivity
  · exact Finset.sum_nonneg fun k _ => mul_nonneg (hw _).le (modePower_nonneg hr hN c k)

end bounds

theorem sum_inv_sq_le (M : ℕ) : ∑ n ∈ Finset.range M, 1 / ((n : ℝ) + 1) ^ 2 ≤ 2 := by
  have : ∀ M : ℕ, ∑ n ∈ Finset.range (M + 1), 1 / ((n : ℝ) + 1) ^ 2 ≤ 2 - 1 / ((M : ℝ) + 1) := by
    intro M
    induction M with
    | zero => norm_num
    | succ M ih =>
      rw [Finset.sum_range_succ]
      have h : 1 / ((M : ℝ) + 1 + 1) ^ 2 ≤ 1 / ((M : ℝ) + 1) - 1 / ((M : ℝ) + 1 + 1) := by
        rw [div_sub_div _ _ (by positivity) (by positivity), div_le_div_iff₀ (by positivity) (by positivity)]
        nlinarith [(Nat.cast_nonneg M : (0 : ℝ) ≤ M)]
      push_cast
      linarith
  rcases M with _ | M
  · simp
  · have h1 := this M
    have h2 : (0 : ℝ) < 1 / ((M : ℝ) + 1) := by positivity
    linarith

/-- Sobolev's inequality for values -/
theorem harmonicSum_sobolev (hr : r ≠ 0) (hN : ∀ n m, N n m ≠ 0) (c : SpecField T) (x y : ℝ) :
    harmonicSum N c x y ^ 2 ≤ sobolev r N 2 c / (Real.pi * r ^ 2) := by
  have hpi := Real.pi_pos
  refine (harmonicSum_sq_le (w := fun n => ((n : ℝ) + 1) ^ (2 * 2)) hr hN (fun n => by positivity) c x).trans ?_
  rw [div_eq_mul_inv]
  refine mul_le_mul_of_nonneg_left ?_ (sobolev_nonneg hr hN 2 c)
  have h2 := mul_le_mul_of_nonneg_right (sum_inv_sq_le (T + 1)) (by positivity : (0 : ℝ) ≤ (2 * Real.pi * r ^ 2)⁻¹)
  refine le_trans ?_ (h2.trans (le_of_eq (by field_simp)))
  rw [Finset.sum_mul]
  refine Finset.sum_le_sum fun n _ => ?_
  have hn : (0 : ℝ) ≤ n := Nat.cast_nonneg n
  rw [div_eq_mul_inv (2 * (n : ℝ) + 1), ← mul_assoc, show (4 * Real.pi * r ^ 2)⁻¹ = 2⁻¹ * (2 * Real.pi * r ^ 2)⁻¹ by rw [← mul_inv]; ring_nf, ← mul_assoc]
  refine mul_le_mul_of_nonneg_right ?_ (by positivity)
  rw [one_div, inv_mul_eq_div, ← div_eq_mul_inv, div_div, inv_eq_one_div, div_le_div_iff₀ (by positivity) (by positivity)]
  have : (2 * (n : ℝ) + 1) * (n + 1) ^ 2 ≤ 2 * ((n : ℝ) + 1) ^ 4 := by nlinarith [pow_nonneg hn 2, pow_nonneg hn 3, pow_nonneg hn 4]
  simp only [Nat.reduceMul]
  linarith

theorem gradient_kernel (hr : r ≠ 0) (M : ℕ) : ∑ n ∈ Finset.range M, (((n : ℝ) + 1) ^ (2 * 3))⁻¹ * ((2 * n + 1) / (4 * Real.pi * r ^ 2)) * (n * (n + 1)) ≤
    (Real.pi * r ^ 2)⁻¹ := by
  have hpi := Real.pi_pos
  have h2 := mul_le_mul_of_nonneg_right (sum_inv_sq_le M) (by positivity : (0 : ℝ) ≤ (2 * Real.pi * r ^ 2)⁻¹)
  refine le_trans ?_ (h2.trans (le_of_eq (by field_simp)))
  rw [Finset.sum_mul]
  refine Finset.sum_le_sum fun n _ => ?_
  have hn : (0 : ℝ) ≤ n := Nat.cast_nonneg n
  rw [show (((n : ℝ) + 1) ^ (2 * 3))⁻¹ * ((2 * n + 1) / (4 * Real.pi * r ^ 2)) * (n * (n + 1)) =
    ((2 * n + 1) * (n * (n + 1)) / (2 * ((n : ℝ) + 1) ^ 6)) * (2 * Real.pi * r ^ 2)⁻¹ by field_simp; ring]
  refine mul_le_mul_of_nonneg_right ?_ (by positivity)
  rw [div_le_div_iff₀ (by positivity) (by positivity)]
  nlinarith [pow_nonneg hn 2, pow_nonneg hn 3, pow_nonneg hn 4, pow_nonneg hn 5, pow_nonneg hn 6]

/-- Sobolev's inequality for gradients -/
theorem phiDeriv_sobolev (hr : r ≠ 0) (hN : ∀ n m, N n m ≠ 0) (c : SpecField T) (x : ℝ) {y : ℝ} (hy : cos y ≠ 0) :
    phiDeriv N c x y ^ 2 ≤ sobolev r N 3 c / (Real.pi * r ^ 2) := by
  refine (phiDeriv_sq_le (w := fun n => ((n : ℝ) + 1) ^ (2 * 3)) hr hN (fun n => by positivity) c x hy).trans ?_
  rw [div_eq_mul_inv]
  exact mul_le_mul_of_nonneg_left (gradient_kernel hr _) (sobolev_nonneg hr hN 3 c)

theorem lamDeriv_sobolev (hr : r ≠ 0) (hN : ∀ n m, N n m ≠ 0) (c : SpecField T) (x : ℝ) {y : ℝ} (hy : cos y ≠ 0) :
    lamDeriv N c x y ^ 2 ≤ sobolev r N 3 c / (Real.pi * r ^ 2) := by
  refine (lamDeriv_sq_le (w := fun n => ((n : ℝ) + 1) ^ (2 * 3)) hr hN (fun n => by positivity) c x hy).trans ?_
  rw [div_eq_mul_inv]
  exact mul_le_mul_of_nonneg_left (gradient_kernel hr _) (sobolev_nonneg hr hN 3 c)

/-- Fields of limited degree are bounded by their mean square. -/
theorem harmonicSum_inverse (hr : r ≠ 0) (hN : ∀ n m, N n m ≠ 0) (c : SpecField T) (x y : ℝ) :
    harmonicSum N c x y ^ 2 ≤ ((T : ℝ) + 1) ^ 2 / (4 * Real.pi * r ^ 2) * sphereIntegral r (fun x y => harmonicSum N c x y ^ 2) := by
  have h := harmonicSum_sq_le (w := fun _ => 1) (y := y) hr hN (fun n => one_pos) c x
  have e : ∀ T : ℕ, ∑ n ∈ Finset.range (T + 1), (2 * (n : ℝ) + 1) = ((T : ℝ) + 1) ^ 2 := by
    intro T
    induction T with
    | zero => simp
    | succ T ih => rw [Finset.sum_range_succ, ih]; push_cast; ring
  simp only [one_mul, inv_one] at h
  rw [← Finset.sum_div, e, ← parseval hr] at h
  rw [mul_comm]
  refine h.trans (le_of_eq ?_)
  congr 1
  exact sphereIntegral_congr r fun x y _ => by ring

theorem gradient_inverse (hr : r ≠ 0) (hN : ∀ n m, N n m ≠ 0) (c : SpecField T) (x : ℝ) {y : ℝ} (hy : cos y ≠ 0) :
    lamDeriv N c x y ^ 2 ≤ ((T : ℝ) + 1) ^ 4 / (4 * Real.pi * r ^ 2) * sphereIntegral r (fun x y => harmonicSum N c x y ^ 2) ∧
    phiDeriv N c x y ^ 2 ≤ ((T : ℝ) + 1) ^ 4 / (4 * Real.pi * r ^ 2) * sphereIntegral r (fun x y => harmonicSum N c x y ^ 2) := by
  have hpi := Real.pi_pos
  have e : ∀ T : ℕ, ∑ n ∈ Finset.range (T + 1), (2 * (n : ℝ) + 1) * (n * (n + 1)) ≤ ((T : ℝ) + 1) ^ 4 := by
    intro T
    induction T with
    | zero => simp
    | succ T ih =>
      rw [Finset.sum_range_succ]
      push_cast
      nlinarith [(Nat.cast_nonneg T : (0 : ℝ) ≤ T), pow_nonneg (Nat.cast_nonneg T : (0 : ℝ) ≤ T) 2, pow_nonneg (Nat.cast_nonneg T : (0 : ℝ) ≤ T) 3]
  have e2 : ∑ n ∈ Finset.range (T + 1), (1 : ℝ)⁻¹ * ((2 * (n : ℝ) + 1) / (4 * Real.pi * r ^ 2)) * (n * (n + 1)) ≤ ((T : ℝ) + 1) ^ 4 / (4 * Real.pi * r ^ 2) := by
    have := div_le_div_of_nonneg_right (e T) (by positivity : (0 : ℝ) ≤ 4 * Real.pi * r ^ 2)
    rw [Finset.sum_div] at this
    refine le_trans (le_of_eq (Finset.sum_congr rfl fun n _ => ?_)) this
    ring
  have e3 : ∑ k, (1 : ℝ) * (modeNorm r N k * modeDot (specM k) (c k) (c k)) = sphereIntegral r (fun x y => harmonicSum N c x y ^ 2) := by
    simp only [one_mul]
    rw [← parseval hr]
    exact sphereIntegral_congr r fun x y _ => by ring
  have e4 : 0 ≤ ∑ k, (1 : ℝ) * (modeNorm r N k * modeDot (specM k) (c k) (c k)) :=
    Finset.sum_nonneg fun k _ => mul_nonneg zero_le_one (modePower_nonneg hr hN c k)
  rw [← e3, mul_comm]
  exact ⟨(lamDeriv_sq_le (w := fun _ => 1) hr hN (fun n => one_pos) c x hy).trans (mul_le_mul_of_nonneg_left e2 e4),
    (phiDeriv_sq_le (w := fun _ => 1) hr hN (fun n => one_pos) c x hy).trans (mul_le_mul_of_nonneg_left e2 e4)⟩

end Barotropic
