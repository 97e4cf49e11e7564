import Verif.Lemmas.Parseval

/-!
# Addition theorem of spherical harmonics

The sum of the squares of the normalised harmonics of a degree, and of their gradients, is the same everywhere on the sphere.
-/

namespace Barotropic
open Real (cos sin)

/-! ## Ladder of orders -/

theorem legendre_sin_over (n m : ℕ) (y : ℝ) :
    2 * sin y * legendreOverCos n (m + 1) y = legendre n (m + 2) y + (n * (n + 1) - m * (m + 1)) * legendre n m y := by
  have ho := congrArg (Polynomial.eval (sin y)) (rodrigues_ode n m)
  simp only [Polynomial.eval_add, Polynomial.eval_sub, Polynomial.eval_mul, Polynomial.eval_pow, Polynomial.eval_X,
    Polynomial.eval_one, Polynomial.eval_C, Polynomial.eval_zero] at ho
  unfold legendreOverCos legendre
  simp only [Nat.add_sub_cancel]
  push_cast
  have hc : cos y ^ (m + 2) = cos y ^ m * (1 - sin y ^ 2) := by rw [pow_add, Real.cos_sq']
  rw [hc]
  linear_combination (-(cos y ^ m)) * ho

theorem deriv_legendre_over (n m : ℕ) (y : ℝ) : deriv (legendre n m) y = legendre n (m + 1) y - sin y * legendreOverCos n m y := by
  rw [deriv_legendre]
  unfold legendreOverCos legendre
  ring

theorem deriv_legendre_zonal (n : ℕ) (y : ℝ) : deriv (legendre n 0) y = legendre n 1 y := by
  rw [deriv_legendre_over, legendreOverCos_zonal]
  ring

theorem deriv_legendre_succ (n m : ℕ) (y : ℝ) :
    deriv (legendre n (m + 1)) y = (legendre n (m + 2) y - (n * (n + 1) - m * (m + 1)) * legendre n m y) / 2 := by
  rw [deriv_legendre_over]
  linear_combination (-1 / 2) * legendre_sin_over n m y

theorem legendre_hasDeriv (n m : ℕ) (y : ℝ) : HasDerivAt (legendre n m) (deriv (legendre n m) y) y :=
  (hasDerivAt_legendre n m y).differentiableAt.hasDerivAt

theorem legendre_top (n : ℕ) (y : ℝ) : legendre n (n + 1) y = 0 := by
  unfold legendre
  rw [rodrigues_zero_of_lt (Nat.lt_succ_self n)]
  simp

/-! ## Sum of squares -/

/-- Squared norm of the associated Legendre functions relative to order zero -/
noncomputable def ladder (n m : ℕ) : ℝ := ∏ j ∈ Finset.range m, ((n : ℝ) * (n + 1) - j * (j + 1))

theorem ladder_zero (n : ℕ) : ladder n 0 = 1 := by simp [ladder]

theorem ladder_succ (n m : ℕ) : ladder n (m + 1) = ladder n m * ((n : ℝ) * (n + 1) - m * (m + 1)) := by
  unfold ladder; rw [Finset.prod_range_succ]

theorem ladder_pos {n m : ℕ} (h : m ≤ n) : 0 < ladder n m := by
  refine Finset.prod_pos fun j hj => ?_
  have : (j : ℝ) + 1 ≤ n := by exact_mod_cast (Finset.mem_range.mp hj).trans_le h
  have hj0 : (0 : ℝ) ≤ j := Nat.cast_nonneg j
  nlinarith

/-- Zonal modes occur once, other modes twice (cosine and sine). -/
noncomputable def modeCount (m : ℕ) : ℝ := if m = 0 then 1 else 2

theorem modeCount_pos (m : ℕ) : 0 < modeCount m := by unfold modeCount; split_ifs <;> norm_num

/-- Sum of the squares of all harmonics of degree `n` at a latitude -/
noncomputable def squares (n : ℕ) (P : ℕ → ℝ → ℝ) (y : ℝ) : ℝ := ∑ m ∈ Finset.range (n + 1), modeCount m / ladder n m * P m y ^ 2

theorem cross_zero (n : ℕ) (y : ℝ) : ∑ m ∈ Finset.range (n + 1), modeCount m / ladder n m * (legendre n m y * deriv (legendre n m) y) = 0 := by
  have key : ∀ M, M ≤ n → ∑ m ∈ Finset.range (M + 1), modeCount m / ladder n m * (legendre n m y * deriv (legendre n m) y) =
      legendre n M y * legendre n (M + 1) y / ladder n M := by
    intro M hM
    induction M with
    | zero => simp [modeCount, ladder_zero, deriv_legendre_zonal]
    | succ M ih =>
      rw [Finset.sum_range_succ, ih (by omega), deriv_legendre_succ]
      have h1 := ladder_pos (show M ≤ n by omega)
      have h2 := ladder_pos hM
      rw [ladder_succ] at h2 ⊢
      have h3 : (n : ℝ) * (n + 1) - M * (M + 1) ≠ 0 := fun h => by rw [h, mul_zero] at h2; exact lt_irrefl _ h2
      have h4 : ladder n M ≠ 0 := h1.ne'
      have hc : modeCount (M + 1) = 2 := by simp [modeCount]
      rw [hc]
      field_simp
      ring
  rw [key n le_rfl, legendre_top]
  simp

theorem squares_hasDeriv (n : ℕ) (y : ℝ) : HasDerivAt (squares n (legendre n)) 0 y := by
  unfold squares
  have h : HasDerivAt (fun y => ∑ m ∈ Finset.range (n + 1), modeCount m / ladder n m * legendre n m y ^ 2)
      (∑ m ∈ Finset.range (n + 1), modeCount m / ladder n m * (((2 : ℕ) : ℝ) * legendre n m y ^ (2 - 1) * deriv (legendre n m) y)) y := by
    refine HasDerivAt.fun_sum fun m _ => ?_
    exact ((legendre_hasDeriv n m y).pow 2).const_mul _
  refine h.congr_deriv ?_
  rw [← mul_zero (2 : ℝ), ← cross_zero n y, Finset.mul_sum]
  refine Finset.sum_congr rfl fun m _ => ?_
  simp
  ring

theorem squares_const (n : ℕ) (y : ℝ) : squares n (legendre n) y = squares n (legendre n) 0 :=
  is_const_of_deriv_eq_zero (fun y => (squares_hasDeriv n y).differentiableAt) (fun y => (squares_hasDeriv n y).deriv) y 0

theorem squares_gradient (n : ℕ) {y : ℝ} (hy : cos y ≠ 0) :
    squares n (fun m => deriv (legendre n m)) y + squares n (legendreOverCos n) y = n * (n + 1) * squares n (legendre n) 0 := by
  have h : HasDerivAt (fun y => ∑ m ∈ Finset.range (n + 1), modeCount m / ladder n m * (legendre n m y * (deriv (legendre n m) y * cos y)))
      (∑ m ∈ Finset.range (n + 1), modeCount m / ladder n m * (deriv (legendre n m) y * (deriv (legendre n m) y * cos y) +
        legendre n m y * (m * legendreOverCos n m y - n * (n + 1) * cos y * legendre n m y))) y :=
    HasDerivAt.fun_sum fun m _ => ((legendre_hasDeriv n m y).mul (hasDerivAt_cos_mul_deriv_legendre n m y)).const_mul _
  have e : (fun y => ∑ m ∈ Finset.range (n + 1), modeCount m / ladder n m * (legendre n m y * (deriv (legendre n m) y * cos y))) = fun _ => 0 := by
    funext y
    rw [← zero_mul (cos y), ← cross_zero n y, Finset.sum_mul]
    exact Finset.sum_congr rfl fun m _ => by ring
  rw [e] at h
  have h0 := h.unique (hasDerivAt_const y (0 : ℝ))
  rw [← squares_const n y]
  refine mul_left_cancel₀ hy ?_
  rw [← sub_eq_zero, ← h0]
  unfold squares
  rw [← Finset.sum_add_distrib, Finset.mul_sum, Finset.mul_sum, Finset.mul_sum, ← Finset.sum_sub_distrib]
  refine Finset.sum_congr rfl fun m _ => ?_
  linear_combination modeCount m / ladder n m * legendreOverCos n m y * legendreOverCos_mul_cos n m y

/-! ## Norms -/

/-- Squared norm of the latitude dependence -/
noncomputable def latNorm (n m : ℕ) : ℝ := ∫ y in -(Real.pi / 2)..Real.pi / 2, legendre n m y ^ 2 * cos y

theorem legendre_continuous (n m : ℕ) : Continuous (legendre n m) := (legendre_contDiff n m).continuous

theorem latNorm_succ (n m : ℕ) : latNorm n (m + 1) = ((n : ℝ) * (n + 1) - m * (m + 1)) * latNorm n m := by
  have hd : ∀ y, HasDerivAt (fun y => legendre n m y * legendre n (m + 1) y * cos y)
      (legendre n (m + 1) y ^ 2 * cos y - ((n : ℝ) * (n + 1) - m * (m + 1)) * (legendre n m y ^ 2 * cos y)) y := by
    intro y
    have h := ((legendre_hasDeriv n m y).mul (legendre_hasDeriv n (m + 1) y)).mul (Real.hasDerivAt_cos y)
    refine h.congr_deriv ?_
    simp only [Pi.mul_apply]
    rw [deriv_legendre_over n m, deriv_legendre_succ]
    have e1 := legendre_sin_over n m y
    have e2 := legendreOverCos_mul_cos n m y
    have e3 := legendreOverCos_mul_cos n (m + 1) y
    push_cast at e3
    linear_combination (-(sin y * legendre n (m + 1) y)) * e2 + (sin y * legendre n m y) * e3 + (-1 / 2) * (legendre n m y * cos y) * e1
  have hc1 : Continuous fun y => legendre n (m + 1) y ^ 2 * cos y := ((legendre_continuous n (m + 1)).pow 2).mul Real.continuous_cos
  have hc2 : Continuous fun y => legendre n m y ^ 2 * cos y := ((legendre_continuous n m).pow 2).mul Real.continuous_cos
  have hc3 : Continuous fun y => ((n : ℝ) * (n + 1) - m * (m + 1)) * (legendre n m y ^ 2 * cos y) := continuous_const.mul hc2
  have h := intervalIntegral.integral_eq_sub_of_hasDerivAt (a := -(Real.pi / 2)) (b := Real.pi / 2) (fun y _ => hd y)
    ((hc1.sub hc3).intervalIntegrable _ _)
  rw [intervalIntegral.integral_sub (hc1.intervalIntegrable _ _) (hc3.intervalIntegrable _ _),
    intervalIntegral.integral_const_mul, Real.cos_neg, Real.cos_pi_div_two] at h
  unfold latNorm
  linarith

theorem latNorm_eq (n m : ℕ) : latNorm n m = ladder n m * latNorm n 0 := by
  induction m with
  | zero => rw [ladder_zero, one_mul]
  | succ m ih => rw [latNorm_succ, ih, ladder_succ]; ring

theorem squares_norm (n : ℕ) : 2 * squares n (legendre n) 0 = (2 * n + 1) * latNorm n 0 := by
  have hc : ∀ m, Continuous fun y => legendre n m y ^ 2 * cos y := fun m => ((legendre_continuous n m).pow 2).mul Real.continuous_cos
  have e1 : ∫ y in -(Real.pi / 2)..Real.pi / 2, squares n (legendre n) y * cos y = 2 * squares n (legendre n) 0 := by
    simp only [squares_const n]
    rw [intervalIntegral.integral_const_mul, integral_cos, Real.sin_neg, Real.sin_pi_div_two]
    ring
  have e2 : ∫ y in -(Real.pi / 2)..Real.pi / 2, squares n (legendre n) y * cos y = ∑ m ∈ Finset.range (n + 1), modeCount m * latNorm n 0 := by
    unfold squares
    simp only [Finset.sum_mul, mul_assoc]
    have hi : ∀ m ∈ Finset.range (n + 1), IntervalIntegrable (fun y => modeCount m / ladder n m * (legendre n m y ^ 2 * cos y)) MeasureTheory.volume
        (-(Real.pi / 2)) (Real.pi / 2) := fun m _ => (continuous_const.mul (hc m)).intervalIntegrable _ _
    rw [intervalIntegral.integral_finsetSum hi]
    refine Finset.sum_congr rfl fun m hm => ?_
    rw [intervalIntegral.integral_const_mul]
    change _ * latNorm n m = _
    rw [latNorm_eq]
    have := (ladder_pos (n := n) (m := m) (by simpa [Nat.lt_succ_iff] using hm)).ne'
    field_simp
  rw [← e1, e2, ← Finset.sum_mul]
  congr 1
  rw [Finset.sum_range_succ']
  simp [modeCount]
  ring

theorem latNorm_pos {n m : ℕ} (h : m ≤ n) : 0 < latNorm n m := by
  have hpi := Real.pi_pos
  have hc : Continuous fun y => legendre n m y ^ 2 * cos y := ((legendre_continuous n m).pow 2).mul Real.continuous_cos
  refine intervalIntegral.integral_pos (by linarith) hc.continuousOn (fun y hy => ?_) ?_
  · exact mul_nonneg (sq_nonneg _) (Real.cos_nonneg_of_mem_Icc ⟨by linarith [hy.1], hy.2⟩)
  · have hp0 : rodrigues n m ≠ 0 := fun h0 => rodrigues_coeff_ne h (by rw [h0]; simp)
    obtain ⟨z, hz, hz'⟩ : ∃ z ∈ Set.Ioo (-1 : ℝ) 1, (rodrigues n m).eval z ≠ 0 := by
      by_contra hcon
      push Not at hcon
      exact hp0 (Polynomial.eq_zero_of_infinite_isRoot _ ((Set.Ioo_infinite (by norm_num : (-1 : ℝ) < 1)).mono fun z hz => hcon z hz))
    have hy1 : -(Real.pi / 2) < Real.arcsin z := Real.neg_pi_div_two_lt_arcsin.mpr hz.1
    have hy2 : Real.arcsin z < Real.pi / 2 := Real.arcsin_lt_pi_div_two.mpr hz.2
    have hc : 0 < cos (Real.arcsin z) := Real.cos_pos_of_mem_Ioo ⟨hy1, hy2⟩
    refine ⟨Real.arcsin z, ⟨hy1.le, hy2.le⟩, mul_pos ?_ hc⟩
    refine (sq_nonneg _).lt_of_ne' (pow_ne_zero 2 ?_)
    unfold legendre
    rw [Real.sin_arcsin hz.1.le hz.2.le]
    exact mul_ne_zero (pow_ne_zero _ hc.ne') hz'

theorem integral_cos_mode (m : ℕ) : ∫ x in (0 : ℝ)..2 * Real.pi, cos (m * x) ^ 2 = 2 * Real.pi / modeCount m := by
  unfold modeCount
  split_ifs with hm
  · simp [hm]
  · have hm' : (m : ℝ) ≠ 0 := by exact_mod_cast hm
    have h := intervalIntegral.integral_comp_mul_left (a := 0) (b := 2 * Real.pi) (fun x => cos x ^ 2) hm'
    rw [h, integral_cos_sq]
    have h1 : sin (m * (2 * Real.pi)) = 0 := by
      have := Real.sin_nat_mul_pi (2 * m)
      rw [← this]
      congr 1
      push_cast
      ring
    rw [h1]
    simp only [mul_zero, Real.sin_zero, smul_eq_mul, sub_zero]
    field_simp
    ring

variable {T : ℕ} {N : ℕ → ℕ → ℝ}

theorem modeNorm_eq (r : ℝ) (N : ℕ → ℕ → ℝ) (k : Fin (nspec T)) :
    modeNorm r N k = r ^ 2 * N (specN k) (specM k) ^ 2 * (2 * Real.pi / modeCount (specM k)) * (ladder (specN k) (specM k) * latNorm (specN k) 0) := by
  have e : ∀ x y, harmonicSum N (Pi.single k 1 : SpecField T) x y = N (specN k) (specM k) * legendre (specN k) (specM k) y * cos (specM k * x) := by
    intro x y
    unfold harmonicSum
    rw [modeSum_single N legendre k (fun l hl => by simp [hl]), Pi.single_eq_same, one_mul, mul_comm Complex.I, Complex.exp_ofReal_mul_I_re]
  rw [← latNorm_eq, ← integral_cos_mode]
  have inner : ∀ x, (∫ y in -(Real.pi / 2)..Real.pi / 2, harmonicSum N (Pi.single k 1 : SpecField T) x y * harmonicSum N (Pi.single k 1 : SpecField T) x y * cos y) =
      N (specN k) (specM k) ^ 2 * latNorm (specN k) (specM k) * cos (specM k * x) ^ 2 := by
    intro x
    unfold latNorm
    rw [mul_assoc, mul_comm (∫ y in _.._, _), ← mul_assoc, ← intervalIntegral.integral_const_mul]
    refine intervalIntegral.integral_congr fun y _ => ?_
    simp only [e]
    ring
  unfold modeNorm spherePair sphereIntegral
  simp only [inner]
  rw [intervalIntegral.integral_const_mul]
  ring

/-- Sums over all modes by degree and order -/
theorem sum_modes (f : ℕ → ℕ → ℝ) : ∑ k : Fin (nspec T), f (specN k) (specM k) = ∑ n ∈ Finset.range (T + 1), ∑ m ∈ Finset.range (n + 1), f n m := by
  rw [Finset.sum_sigma']
  refine Finset.sum_bij (fun k _ => ⟨specN k, specM k⟩) (fun k _ => ?_) (fun k _ l _ h => ?_) (fun ⟨n, m⟩ h => ?_) (fun k _ => rfl)
  · simp only [Finset.mem_sigma, Finset.mem_range]
    exact ⟨Nat.lt_succ_of_le (specN_le k), Nat.lt_succ_of_le (specM_le_specN k)⟩
  · simp only [Sigma.mk.injEq, heq_eq_eq] at h
    exact specIndex_inj h.2 h.1
  · simp only [Finset.mem_sigma, Finset.mem_range, Nat.lt_succ_iff] at h
    obtain ⟨k, h1, h2⟩ := exists_mode h.2 h.1
    exact ⟨k, Finset.mem_univ _, by simp [h1, h2]⟩

/-- The sum over the normalised modes of each degree -/
theorem sum_kernel {r : ℝ} (hr : r ≠ 0) (hN : ∀ n m, N n m ≠ 0) (w : ℕ → ℝ) (P : ℕ → ℕ → ℝ → ℝ) (y : ℝ) :
    ∑ k : Fin (nspec T), w (specN k) * ((N (specN k) (specM k) * P (specN k) (specM k) y) ^ 2 / modeNorm r N k) =
      ∑ n ∈ Finset.range (T + 1), w n * ((2 * n + 1) / (4 * Real.pi * r ^ 2)) * (squares n (P n) y / squares n (legendre n) 0) := by
  have h1 : ∀ k : Fin (nspec T), w (specN k) * ((N (specN k) (specM k) * P (specN k) (specM k) y) ^ 2 / modeNorm r N k) =
      (fun n m => w n * (1 / (2 * Real.pi * r ^ 2 * latNorm n 0)) * (modeCount m / ladder n m * P n m y ^ 2)) (specN k) (specM k) := by
    intro k
    have a1 := hN (specN k) (specM k)
    have a2 := (ladder_pos (specM_le_specN k)).ne'
    have a3 := (latNorm_pos (Nat.zero_le (specN k))).ne'
    have a4 := (modeCount_pos (specM k)).ne'
    have a5 := Real.pi_pos.ne'
    dsimp only
    rw [modeNorm_eq]
    field_simp
  rw [Finset.sum_congr rfl fun k _ => h1 k, sum_modes (fun n m => w n * (1 / (2 * Real.pi * r ^ 2 * latNorm n 0)) * (modeCount m / ladder n m * P n m y ^ 2))]
  refine Finset.sum_congr rfl fun n _ => ?_
  rw [← Finset.mul_sum]
  change _ * squares n (P n) y = _
  have b1 := squares_norm n
  have a3 := (latNorm_pos (Nat.zero_le n)).ne'
  have b2 : squares n (legendre n) 0 = (2 * n + 1) * latNorm n 0 / 2 := by linarith
  have a5 := Real.pi_pos.ne'
  have a6 : (2 * (n : ℝ) + 1) ≠ 0 := by positivity
  rw [b2]
  field_simp
  ring

end Barotropic
