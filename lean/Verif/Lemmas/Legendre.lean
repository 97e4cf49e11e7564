import Verif.Spec.Harmonics
import Mathlib.Algebra.Polynomial.Sequence
import Mathlib.Algebra.Polynomial.Roots
import Mathlib.LinearAlgebra.Basis.VectorSpace
import Mathlib.LinearAlgebra.Finsupp.LinearCombination
import Mathlib.LinearAlgebra.Pi

/-!
# Associated Legendre functions: degree, parity, derivatives, functionals that pick out coefficients
-/

namespace Barotropic
open Polynomial

/-! ## Polynomials -/

theorem rodrigues_derivative (n m : ℕ) : derivative (rodrigues n m) = rodrigues n (m + 1) := by
  unfold rodrigues
  rw [← Function.iterate_succ_apply' derivative]
  rfl

theorem base_monic (n : ℕ) : ((X ^ 2 - 1 : ℝ[X]) ^ n).Monic := by
  have : (X ^ 2 - 1 : ℝ[X]) = X ^ 2 - C 1 := by simp
  rw [this]
  exact (monic_X_pow_sub_C 1 two_ne_zero).pow n

theorem base_natDegree (n : ℕ) : ((X ^ 2 - 1 : ℝ[X]) ^ n).natDegree = 2 * n := by
  have : (X ^ 2 - 1 : ℝ[X]) = X ^ 2 - C 1 := by simp
  rw [natDegree_pow, this, natDegree_X_pow_sub_C]
  ring

theorem rodrigues_coeff {n m : ℕ} (h : m ≤ n) : (rodrigues n m).coeff (n - m) = ((2 * n).descFactorial (n + m) : ℝ) := by
  unfold rodrigues
  rw [coeff_iterate_derivative, show n - m + (n + m) = 2 * n by omega]
  have := base_monic n
  unfold Monic leadingCoeff at this
  rw [base_natDegree] at this
  rw [this]; simp

theorem rodrigues_coeff_ne {n m : ℕ} (h : m ≤ n) : (rodrigues n m).coeff (n - m) ≠ 0 := by
  rw [rodrigues_coeff h]
  have := Nat.descFactorial_pos.mpr (show n + m ≤ 2 * n by omega)
  exact_mod_cast this.ne'

theorem rodrigues_natDegree_le (n m : ℕ) : (rodrigues n m).natDegree ≤ n - m := by
  unfold rodrigues
  refine (natDegree_iterate_derivative _ _).trans ?_
  rw [base_natDegree]; omega

theorem rodrigues_degree {n m : ℕ} (h : m ≤ n) : (rodrigues n m).degree = ((n - m : ℕ) : WithBot ℕ) :=
  degree_eq_of_le_of_coeff_ne_zero (natDegree_le_iff_degree_le.mp (rodrigues_natDegree_le n m)) (rodrigues_coeff_ne h)

theorem rodrigues_zero_of_lt {n m : ℕ} (h : n < m) : rodrigues n m = 0 := by
  unfold rodrigues
  exact iterate_derivative_eq_zero (by rw [base_natDegree]; omega)

theorem rodrigues_neg (n m : ℕ) (x : ℝ) : (rodrigues n m).eval (-x) = (-1) ^ (n + m) * (rodrigues n m).eval x := by
  have key : ∀ (p : ℝ[X]) (k : ℕ), derivative^[k] (p.comp (-X)) = C ((-1) ^ k) * (derivative^[k] p).comp (-X) := by
    intro p k
    induction k with
    | zero => simp
    | succ k ih =>
      rw [Function.iterate_succ_apply', ih, Function.iterate_succ_apply', derivative_C_mul, derivative_comp]
      simp only [derivative_neg, derivative_X, pow_succ, map_mul, map_neg, map_one]
      ring
  have h := key ((X ^ 2 - 1) ^ n) (n + m)
  have e : ((X ^ 2 - 1 : ℝ[X]) ^ n).comp (-X) = (X ^ 2 - 1) ^ n := by simp
  rw [e] at h
  have h2 := congrArg (eval x) h
  rw [eval_mul, eval_C, eval_comp, eval_neg, eval_X] at h2
  unfold rodrigues
  rw [h2, ← mul_assoc, ← pow_add, ← two_mul, pow_mul]
  simp

/-- Legendre's differential equation for derivatives of `(x² - 1)^n` -/
theorem rodrigues_ode (n m : ℕ) :
    (1 - X ^ 2) * rodrigues n (m + 2) - C (2 * (m + 1) : ℝ) * X * rodrigues n (m + 1) +
      C ((n : ℝ) * (n + 1) - m * (m + 1)) * rodrigues n m = 0 := by
  obtain ⟨W, hW, h0, hn⟩ : ∃ W : ℕ → ℝ[X], (∀ k, derivative (W k) = W (k + 1)) ∧ W 0 = (X ^ 2 - 1) ^ n ∧
      ∀ m, rodrigues n m = W (n + m) :=
    ⟨fun k => derivative^[k] ((X ^ 2 - 1) ^ n), fun k => (Function.iterate_succ_apply' _ _ _).symm, rfl, fun _ => rfl⟩
  have dX : derivative (X ^ 2 - 1 : ℝ[X]) = 2 * X := by
    rw [derivative_sub, derivative_one, sub_zero, derivative_X_sq]; rfl
  have h1 : (X ^ 2 - 1) * W 1 = 2 * (n : ℝ[X]) * X * W 0 := by
    rw [← hW, h0, derivative_pow, dX]
    rcases n with _ | n
    · simp
    · simp only [Nat.add_sub_cancel, pow_succ, map_natCast]
      push_cast
      ring
  have key : ∀ k : ℕ, (X ^ 2 - 1) * W (k + 2) + 2 * ((k : ℝ[X]) + 1) * X * W (k + 1) + ((k : ℝ[X]) + 1) * (k : ℝ[X]) * W k =
      2 * (n : ℝ[X]) * (X * W (k + 1) + ((k : ℝ[X]) + 1) * W k) := by
    intro k
    induction k with
    | zero =>
      have d := congrArg derivative h1
      rw [derivative_mul, dX, derivative_mul, derivative_mul, derivative_mul, hW, hW, derivative_X, derivative_natCast] at d
      simp only [derivative_ofNat] at d
      push_cast
      linear_combination d
    | succ k ih =>
      have d := congrArg derivative ih
      simp only [derivative_add, derivative_mul, dX, derivative_X, derivative_natCast, derivative_ofNat, derivative_one, hW] at d
      push_cast
      linear_combination d
  have h := key (n + m)
  rw [hn, hn, hn]
  simp only [map_mul, map_add, map_sub, map_natCast, map_ofNat, map_one, Nat.cast_add, ← add_assoc] at h ⊢
  linear_combination -h

/-! ## Functionals -/

/-- Sums of polynomials of different degree are determined by their values at sufficiently many points. -/
theorem exists_dual {n M : ℕ} (S : ℕ → ℝ[X]) (hS : ∀ i, (S i).degree = i) (x w : Fin M → ℝ)
    (hx : Function.Injective x) (hn : n ≤ (Finset.univ.filter fun j => w j ≠ 0).card) :
    ∃ D : ℕ → Fin M → ℝ, ∀ i < n, ∀ i' < n, ∑ j, D i j * (w j * (S i').eval (x j)) = if i = i' then 1 else 0 := by
  classical
  let Sq : Polynomial.Sequence ℝ := ⟨S, hS⟩
  have hli : LinearIndependent ℝ S := Sq.linearIndependent
  let L : (Fin n → ℝ) →ₗ[ℝ] (Fin M → ℝ) := Fintype.linearCombination ℝ (fun i : Fin n => fun j => w j * (S i).eval (x j))
  have hL : ∀ c j, L c j = w j * (∑ i : Fin n, c i • S i).eval (x j) := by
    intro c j
    simp only [L, Fintype.linearCombination_apply, Finset.sum_apply, Pi.smul_apply, smul_eq_mul, eval_finsetSum, eval_smul,
      Finset.mul_sum]
    exact Finset.sum_congr rfl fun i _ => by ring
  have hinj : LinearMap.ker L = ⊥ := by
    rw [LinearMap.ker_eq_bot']
    intro c hc
    have hz : (∑ i : Fin n, c i • S i) = 0 := by
      rcases Nat.eq_zero_or_pos n with rfl | hpos
      · simp
      refine eq_zero_of_natDegree_lt_card_of_eval_eq_zero (ι := {j // w j ≠ 0}) _ (f := fun j => x j.1)
        (fun a b h => Subtype.ext (hx h)) ?_ ?_
      · rintro ⟨j, hj⟩
        have := congrFun hc j
        rw [hL] at this
        exact (mul_eq_zero.mp this).resolve_left hj
      · rw [Fintype.card_subtype]
        refine lt_of_lt_of_le ?_ hn
        rw [Nat.lt_iff_le_pred hpos]
        refine natDegree_sum_le_of_forall_le _ _ fun i _ => (natDegree_smul_le _ _).trans ?_
        rw [natDegree_eq_of_degree_eq_some (hS i)]
        have := i.isLt
        omega
    have hli' := Fintype.linearIndependent_iff.mp (hli.comp (fun i : Fin n => i.val) Fin.val_injective) c hz
    exact funext hli'
  obtain ⟨G, hG⟩ := L.exists_leftInverse_of_injective hinj
  refine ⟨fun i j => if h : i < n then G (Pi.single j 1) ⟨i, h⟩ else 0, fun i hi i' hi' => ?_⟩
  have h1 : ∑ j, (w j * (S i').eval (x j)) • (Pi.single j (1 : ℝ) : Fin M → ℝ) = L (Pi.single ⟨i', hi'⟩ 1) := by
    funext j
    rw [hL]
    simp [Finset.sum_apply, Pi.single_apply]
  have h2 := congrFun (congrArg G h1) ⟨i, hi⟩
  rw [map_sum, Finset.sum_apply] at h2
  have h3 : G (L (Pi.single ⟨i', hi'⟩ 1)) = Pi.single ⟨i', hi'⟩ 1 := by
    rw [← LinearMap.comp_apply, hG]; rfl
  rw [h3] at h2
  simp only [map_smul, Pi.smul_apply, smul_eq_mul] at h2
  simp only [hi, dif_pos]
  rw [show (if i = i' then (1 : ℝ) else 0) = (Pi.single (⟨i', hi'⟩ : Fin n) (1 : ℝ) : Fin n → ℝ) ⟨i, hi⟩ by
    simp [Pi.single_apply, Fin.ext_iff], ← h2]
  exact Finset.sum_congr rfl fun j _ => by ring

/-! ## Functions of latitude -/

theorem hasDerivAt_legendre (n m : ℕ) (phi : ℝ) : HasDerivAt (legendre n m)
    (-(m * Real.cos phi ^ (m - 1) * Real.sin phi * (rodrigues n m).eval (Real.sin phi)) +
      Real.cos phi ^ (m + 1) * (rodrigues n (m + 1)).eval (Real.sin phi)) phi := by
  have h1 := (Real.hasDerivAt_cos phi).pow m
  have h2 := ((rodrigues n m).hasDerivAt (Real.sin phi)).comp phi (Real.hasDerivAt_sin phi)
  have h := h1.mul h2
  rw [rodrigues_derivative] at h
  refine HasDerivAt.congr_deriv (f := legendre n m) h ?_
  simp only [Function.comp, pow_succ, Pi.pow_apply]
  ring

theorem deriv_legendre (n m : ℕ) (phi : ℝ) : deriv (legendre n m) phi =
    -(m * Real.cos phi ^ (m - 1) * Real.sin phi * (rodrigues n m).eval (Real.sin phi)) +
      Real.cos phi ^ (m + 1) * (rodrigues n (m + 1)).eval (Real.sin phi) := (hasDerivAt_legendre n m phi).deriv

theorem legendre_neg (n m : ℕ) (phi : ℝ) : legendre n m (-phi) = (-1) ^ (n + m) * legendre n m phi := by
  unfold legendre; rw [Real.cos_neg, Real.sin_neg, rodrigues_neg]; ring

theorem legendreOverCos_neg (n m : ℕ) (phi : ℝ) : legendreOverCos n m (-phi) = (-1) ^ (n + m) * legendreOverCos n m phi := by
  unfold legendreOverCos; rw [Real.cos_neg, Real.sin_neg, rodrigues_neg]; ring

theorem deriv_legendre_neg (n m : ℕ) (phi : ℝ) : deriv (legendre n m) (-phi) = -((-1) ^ (n + m) * deriv (legendre n m) phi) := by
  rw [deriv_legendre, deriv_legendre, Real.cos_neg, Real.sin_neg, rodrigues_neg, rodrigues_neg]
  ring

theorem legendre_zero : legendre 0 0 = fun _ => 1 := by
  funext phi; simp [legendre, rodrigues]

theorem legendre_one (phi : ℝ) : legendre 1 0 phi = 2 * Real.sin phi := by
  simp [legendre, rodrigues]
  left; norm_num

/-- Linear combination of both derivatives from which vector harmonics are recognised -/
noncomputable def vecLegendre (n m : ℕ) (phi : ℝ) : ℝ := -deriv (legendre n m) phi + legendreOverCos n m phi

theorem vecLegendre_eq {n m : ℕ} (hm : 1 ≤ m) (phi : ℝ) : vecLegendre n m phi =
    Real.cos phi ^ (m - 1) * (1 + Real.sin phi) * (C (m : ℝ) * rodrigues n m - (1 - X) * rodrigues n (m + 1)).eval (Real.sin phi) := by
  unfold vecLegendre legendreOverCos
  rw [deriv_legendre]
  obtain ⟨m, rfl⟩ : ∃ k, m = k + 1 := ⟨m - 1, by omega⟩
  have h := Real.cos_sq' phi
  simp only [Nat.add_sub_cancel, eval_sub, eval_mul, eval_C, eval_one, eval_X, pow_succ] at h ⊢
  linear_combination (-(Real.cos phi ^ m * (rodrigues n (m + 1 + 1)).eval (Real.sin phi))) * h

theorem vecLegendre_zonal (n : ℕ) (phi : ℝ) : vecLegendre n 0 phi = -Real.cos phi * (rodrigues n 1).eval (Real.sin phi) := by
  unfold vecLegendre legendreOverCos
  rw [deriv_legendre]
  simp

theorem vecPoly_degree {n m : ℕ} (hm : 1 ≤ m) (hn : m ≤ n) :
    (C (m : ℝ) * rodrigues n m - (1 - X) * rodrigues n (m + 1)).degree = ((n - m : ℕ) : WithBot ℕ) := by
  have e : (C (m : ℝ) * rodrigues n m - (1 - X) * rodrigues n (m + 1)) =
      C (m : ℝ) * rodrigues n m - rodrigues n (m + 1) + X * rodrigues n (m + 1) := by ring
  refine degree_eq_of_le_of_coeff_ne_zero ?_ ?_
  · rw [← natDegree_le_iff_degree_le, e]
    have h1 := rodrigues_natDegree_le n m
    have h2 := rodrigues_natDegree_le n (m + 1)
    refine (natDegree_add_le _ _).trans (max_le ((natDegree_sub_le _ _).trans (max_le ?_ ?_)) ?_)
    · exact (natDegree_C_mul_le _ _).trans h1
    · omega
    · rcases Nat.eq_or_lt_of_le hn with rfl | h
      · rw [rodrigues_zero_of_lt (by omega)]; simp
      · refine (natDegree_mul_le).trans ?_
        rw [natDegree_X]; omega
  · rw [e]
    have h0 : (rodrigues n (m + 1)).coeff (n - m) = 0 := by
      rcases Nat.eq_or_lt_of_le hn with rfl | h
      · rw [rodrigues_zero_of_lt (by omega)]; simp
      · refine coeff_eq_zero_of_natDegree_lt ?_
        have h2 := rodrigues_natDegree_le n (m + 1)
        omega
    have h1 : (X * rodrigues n (m + 1)).coeff (n - m) = ((n : ℝ) - m) * (rodrigues n m).coeff (n - m) := by
      rcases Nat.eq_or_lt_of_le hn with rfl | h
      · rw [rodrigues_zero_of_lt (by omega)]; simp
      · obtain ⟨i, hi⟩ : ∃ i, n - m = i + 1 := ⟨n - m - 1, by omega⟩
        rw [hi, coeff_X_mul, ← rodrigues_derivative, coeff_derivative]
        have : (n : ℝ) = m + (i + 1) := by
          have : n = m + (i + 1) := by omega
          exact_mod_cast this
        rw [this]; ring
    rw [coeff_add, coeff_sub, coeff_C_mul, h0, h1]
    have h2 := rodrigues_coeff_ne hn
    have h3 : (n : ℝ) ≠ 0 := by
      have : n ≠ 0 := by omega
      exact_mod_cast this
    rw [show (m : ℝ) * (rodrigues n m).coeff (n - m) - 0 + ((n : ℝ) - m) * (rodrigues n m).coeff (n - m) =
      n * (rodrigues n m).coeff (n - m) by ring]
    exact mul_ne_zero h3 h2

end Barotropic
