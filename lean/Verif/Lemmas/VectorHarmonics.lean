import Verif.Lemmas.Sphere
import Mathlib.Algebra.Algebra.Operations
import Mathlib.Algebra.Algebra.Pi

/-!
# Products of scalar and vector harmonics are sums of vector harmonics

A vector field with components `u`, `v` is represented by the complex function `u - i v`.
-/

namespace Barotropic
open Complex Polynomial

/-- Polynomials are sums of polynomials from a list with one polynomial for every degree. -/
theorem mem_of_degree_seq (R : ℕ → ℝ[X]) (hR : ∀ i, (R i).degree = i) (M : Submodule ℝ ℝ[X]) (D : ℕ) (h : ∀ i ≤ D, R i ∈ M) :
    ∀ p : ℝ[X], p.natDegree ≤ D → p ∈ M := by
  have key : ∀ i, ∀ p : ℝ[X], p.natDegree ≤ i → ∃ c : ℝ, p - c • R i = 0 ∨ (p - c • R i).natDegree < i := by
    intro i p hp
    have hc : (R i).coeff i ≠ 0 := coeff_ne_zero_of_eq_degree (hR i)
    have hd : (R i).natDegree = i := natDegree_eq_of_degree_eq_some (hR i)
    refine ⟨p.coeff i / (R i).coeff i, ?_⟩
    set q := p - (p.coeff i / (R i).coeff i) • R i with hq
    have h0 : q.coeff i = 0 := by
      rw [hq, coeff_sub, coeff_smul, smul_eq_mul]
      field_simp
      ring
    have h1 : q.natDegree ≤ i := by
      rw [hq]
      refine (natDegree_sub_le _ _).trans (max_le hp ((natDegree_smul_le _ _).trans hd.le))
    by_cases hz : q = 0
    · exact .inl hz
    · right
      refine lt_of_le_of_ne h1 fun e => ?_
      rw [← e] at h0
      exact hz (leadingCoeff_eq_zero.mp h0)
  induction D with
  | zero =>
    intro p hp
    obtain ⟨c, hc | hc⟩ := key 0 p hp
    · rw [sub_eq_zero.mp hc]
      exact M.smul_mem _ (h 0 le_rfl)
    · omega
  | succ D ih =>
    intro p hp
    obtain ⟨c, hc⟩ := key (D + 1) p hp
    have h1 : p - c • R (D + 1) ∈ M := by
      rcases hc with hc | hc
      · rw [hc]; exact M.zero_mem
      · exact ih (fun i hi => h i (by omega)) _ (by omega)
    have := M.add_mem h1 (M.smul_mem c (h (D + 1) le_rfl))
    rwa [sub_add_cancel] at this

/-! ## Spaces of functions -/

/-- Products of powers of `cos φ exp(iλ)`, `cos φ exp(-iλ)` and `sin φ` -/
noncomputable def mono (a b j : ℕ) : ℝ → ℝ → ℂ := fun x y =>
  ((Real.cos y : ℂ) * exp (I * x)) ^ a * ((Real.cos y : ℂ) * exp (-(I * x))) ^ b * (Real.sin y : ℂ) ^ j

/-- Three special vector fields -/
noncomputable def vecBase : Fin 3 → ℝ → ℝ → ℂ := ![fun _ y => (Real.cos y : ℂ), fun x y => (1 + (Real.sin y : ℂ)) * exp (I * x),
  fun x y => (1 - (Real.sin y : ℂ)) * exp (-(I * x))]

/-- Functions on the sphere that are polynomials of degree `d` -/
noncomputable def scalarSpace (d : ℕ) : Submodule ℂ (ℝ → ℝ → ℂ) := Submodule.span ℂ {f | ∃ a b j, a + b + j ≤ d ∧ f = mono a b j}

/-- Vector fields on the sphere that are polynomials of degree `d` -/
noncomputable def vectorSpace (d : ℕ) : Submodule ℂ (ℝ → ℝ → ℂ) :=
  Submodule.span ℂ {f | ∃ a b j i, a + b + j + 1 ≤ d ∧ f = mono a b j * vecBase i}

theorem mono_mul (a b j a' b' j' : ℕ) : mono a b j * mono a' b' j' = mono (a + a') (b + b') (j + j') := by
  funext x y
  simp only [mono, Pi.mul_apply, pow_add]
  ring

theorem scalar_mul_vector {d d' : ℕ} {f w : ℝ → ℝ → ℂ} (hf : f ∈ scalarSpace d) (hw : w ∈ vectorSpace d') : f * w ∈ vectorSpace (d + d') := by
  have h := Submodule.mul_mem_mul hf hw
  unfold scalarSpace vectorSpace at h
  rw [Submodule.span_mul_span] at h
  refine Submodule.span_mono ?_ h
  rintro _ ⟨_, ⟨a, b, j, h1, rfl⟩, _, ⟨a', b', j', i, h2, rfl⟩, rfl⟩
  refine ⟨a + a', b + b', j + j', i, by omega, ?_⟩
  simp only
  rw [← mul_assoc, mono_mul]

theorem exp_mul_exp_neg (x : ℝ) : exp (I * x) * exp (-(I * x)) = 1 := by rw [← Complex.exp_add]; simp

theorem exp_mul_nat (m : ℕ) (x : ℝ) : exp (I * ((m * x : ℝ) : ℂ)) = exp (I * x) ^ m := by
  rw [← Complex.exp_nat_mul]; congr 1; push_cast; ring

theorem exp_mul_nat_neg (m : ℕ) (x : ℝ) : exp (-(I * ((m * x : ℝ) : ℂ))) = exp (-(I * x)) ^ m := by
  rw [← Complex.exp_nat_mul]; congr 1; push_cast; ring

theorem conj_exp_nat (m : ℕ) (x : ℝ) : (starRingEnd ℂ) (exp (I * ((m : ℂ) * x))) = exp (-(I * ((m : ℂ) * x))) := by
  rw [← Complex.exp_conj]; simp

theorem conj_exp (x : ℝ) : (starRingEnd ℂ) (exp (I * x)) = exp (-(I * x)) := by
  rw [← Complex.exp_conj]; simp

/-- Polynomials in `sin φ` may be multiplied if there is room for their degree. -/
theorem mul_poly_mem (M : Submodule ℂ (ℝ → ℝ → ℂ)) (F : ℝ → ℝ → ℂ) (D : ℕ)
    (h : ∀ j ≤ D, (fun x y => F x y * (Real.sin y : ℂ) ^ j) ∈ M) (p : ℝ[X]) (hp : p.natDegree ≤ D) :
    (fun x y => F x y * ((p.eval (Real.sin y) : ℝ) : ℂ)) ∈ M := by
  have e : (fun x y => F x y * ((p.eval (Real.sin y) : ℝ) : ℂ)) =
      ∑ j ∈ Finset.range (D + 1), ((p.coeff j : ℝ) : ℂ) • fun x y => F x y * (Real.sin y : ℂ) ^ j := by
    funext x y
    rw [eval_eq_sum_range' (show p.natDegree < D + 1 by omega)]
    simp only [Finset.sum_apply, Pi.smul_apply, smul_eq_mul]
    push_cast
    rw [Finset.mul_sum]
    exact Finset.sum_congr rfl fun j _ => by ring
  rw [e]
  exact M.sum_mem fun j hj => M.smul_mem _ (h j (by have := Finset.mem_range.mp hj; omega))

/-- The other combination of both derivatives -/
noncomputable def vecLegendre' (n m : ℕ) (phi : ℝ) : ℝ := -deriv (legendre n m) phi - legendreOverCos n m phi

theorem vecLegendre'_eq_neg (n m : ℕ) (y : ℝ) : vecLegendre' n m y = -(-1) ^ (n + m) * vecLegendre n m (-y) := by
  unfold vecLegendre' vecLegendre
  rw [deriv_legendre_neg, legendreOverCos_neg]
  have := neg_one_pow_mul_self (n + m)
  linear_combination (-deriv (legendre n m) y - legendreOverCos n m y) * (-this)

/-- Polynomial in `sin φ` that belongs to vector harmonics -/
noncomputable def vecPoly (n m : ℕ) : ℝ[X] := C (m : ℝ) * rodrigues n m - (1 - X) * rodrigues n (m + 1)

theorem legendre_mem {n m d : ℕ} (h : m ≤ n) (hd : n ≤ d) :
    (fun x y => (legendre n m y : ℂ) * exp (I * ((m * x : ℝ) : ℂ))) ∈ scalarSpace d ∧
    (fun x y => (legendre n m y : ℂ) * exp (-(I * ((m * x : ℝ) : ℂ)))) ∈ scalarSpace d := by
  constructor
  · have := mul_poly_mem (scalarSpace d) (mono m 0 0) (n - m) (fun j hj => Submodule.subset_span ⟨m, 0, j, by omega, by
      funext x y; simp [mono]⟩) (rodrigues n m) (rodrigues_natDegree_le n m)
    convert this using 3 with x y
    rw [exp_mul_nat]
    simp only [mono, legendre, mul_pow]
    push_cast
    ring
  · have := mul_poly_mem (scalarSpace d) (mono 0 m 0) (n - m) (fun j hj => Submodule.subset_span ⟨0, m, j, by omega, by
      funext x y; simp [mono]⟩) (rodrigues n m) (rodrigues_natDegree_le n m)
    convert this using 3 with x y
    rw [exp_mul_nat_neg]
    simp only [mono, legendre, mul_pow]
    push_cast
    ring

theorem vecLegendre_mem {n m d : ℕ} (h : m ≤ n) (hd : n ≤ d) :
    (fun x y => (vecLegendre n m y : ℂ) * exp (I * ((m * x : ℝ) : ℂ))) ∈ vectorSpace d ∧
    (fun x y => (vecLegendre' n m y : ℂ) * exp (-(I * ((m * x : ℝ) : ℂ)))) ∈ vectorSpace d := by
  rcases Nat.eq_zero_or_pos m with rfl | hm
  · have h1 : (fun (x : ℝ) y => (vecLegendre n 0 y : ℂ) * exp (I * (((0 : ℕ) * x : ℝ) : ℂ))) ∈ vectorSpace d := by
      rcases Nat.eq_zero_or_pos n with rfl | hn
      · convert (vectorSpace d).zero_mem using 3 with x y
        rw [vecLegendre_zonal, rodrigues_zero_of_lt (by omega)]; simp
      have := mul_poly_mem (vectorSpace d) (mono 0 0 0 * vecBase 0) (n - 1) (fun j hj => Submodule.subset_span ⟨0, 0, j, 0, by omega, by
        funext x y; simp [mono, vecBase]; ring⟩) (-rodrigues n 1) (by rw [natDegree_neg]; exact rodrigues_natDegree_le n 1)
      convert this using 3 with x y
      rw [vecLegendre_zonal]
      simp [mono, vecBase]
    refine ⟨h1, ?_⟩
    convert h1 using 3 with x y
    have : vecLegendre' n 0 y = vecLegendre n 0 y := by
      unfold vecLegendre' vecLegendre; rw [legendreOverCos_zonal]; ring
    rw [this]; simp
  · have hd' : (vecPoly n m).natDegree ≤ n - m := (natDegree_le_iff_degree_le.mpr (vecPoly_degree hm h).le)
    have hb : ∀ j ≤ n - m, (fun x y => (mono (m - 1) 0 0 * vecBase 1) x y * (Real.sin y : ℂ) ^ j) ∈ vectorSpace d := fun j hj =>
      Submodule.subset_span ⟨m - 1, 0, j, 1, by omega, by funext x y; simp [mono, vecBase]; ring⟩
    have hb' : ∀ j ≤ n - m, (fun x y => (mono 0 (m - 1) 0 * vecBase 2) x y * (Real.sin y : ℂ) ^ j) ∈ vectorSpace d := fun j hj =>
      Submodule.subset_span ⟨0, m - 1, j, 2, by omega, by funext x y; simp [mono, vecBase]; ring⟩
    obtain ⟨m, rfl⟩ : ∃ k, m = k + 1 := ⟨m - 1, by omega⟩
    constructor
    · have := mul_poly_mem _ _ _ hb _ hd'
      convert this using 3 with x y
      rw [exp_mul_nat, vecLegendre_eq hm]
      simp only [mono, vecBase, vecPoly, Pi.mul_apply, Nat.add_sub_cancel, mul_pow, pow_zero, mul_one, Matrix.cons_val_one, Matrix.cons_val_zero]
      push_cast
      ring
    · have := mul_poly_mem _ _ _ hb' (((-1) ^ (n + (m + 1)) : ℝ) • (-(vecPoly n (m + 1)).comp (-X))) (by
        refine (natDegree_smul_le _ _).trans ?_
        rw [natDegree_neg]
        refine natDegree_comp_le.trans ?_
        rw [natDegree_neg, natDegree_X, mul_one]
        exact hd')
      convert this using 3 with x y
      rw [exp_mul_nat_neg, vecLegendre'_eq_neg, vecLegendre_eq hm]
      simp only [mono, vecBase, vecPoly, Pi.mul_apply, Nat.add_sub_cancel, mul_pow, pow_zero, mul_one, one_mul, Matrix.cons_val, eval_smul,
        eval_neg, eval_comp, eval_X, Real.cos_neg, Real.sin_neg, smul_eq_mul]
      push_cast
      ring

/-! ## Fields as elements of the spaces -/

variable {T : ℕ} (N : ℕ → ℕ → ℝ)

/-- The wind with streamfunction `a` and velocity potential `b` on the unit sphere, as a complex function -/
noncomputable def windC (a b : SpecField T) : ℝ → ℝ → ℂ := fun x y =>
  ((-phiDeriv N a x y + lamDeriv N b x y : ℝ) : ℂ) - I * ((lamDeriv N a x y + phiDeriv N b x y : ℝ) : ℂ)

theorem harmonicSum_mem {d : ℕ} (s : SpecField T) (hs : BandLimited d s) : (fun x y => (harmonicSum N s x y : ℂ)) ∈ scalarSpace d := by
  have e : (fun x y => (harmonicSum N s x y : ℂ)) = ∑ k,
      (((N (specN k) (specM k) / 2 * s k : ℂ) • fun x y => (legendre (specN k) (specM k) y : ℂ) * exp (I * ((specM k * x : ℝ) : ℂ))) +
        ((N (specN k) (specM k) / 2 * (starRingEnd ℂ) (s k) : ℂ) •
          fun x y => (legendre (specN k) (specM k) y : ℂ) * exp (-(I * ((specM k * x : ℝ) : ℂ))))) := by
    funext x y
    unfold harmonicSum modeSum
    simp only [Finset.sum_apply, Pi.add_apply, Pi.smul_apply, smul_eq_mul]
    push_cast
    refine Finset.sum_congr rfl fun k _ => ?_
    rw [Complex.re_eq_add_conj, map_mul, conj_exp_nat]
    ring
  rw [e]
  refine Submodule.sum_mem _ fun k _ => ?_
  by_cases hk : specN k ≤ d
  · have := legendre_mem (specM_le_specN k) hk
    exact Submodule.add_mem _ (Submodule.smul_mem _ _ this.1) (Submodule.smul_mem _ _ this.2)
  · rw [hs k (by omega)]
    simp

theorem windC_eq (a b : SpecField T) : windC N a b = ∑ k,
    (((N (specN k) (specM k) / 2 * (a k + I * b k) : ℂ) •
        fun x y => (vecLegendre (specN k) (specM k) y : ℂ) * exp (I * ((specM k * x : ℝ) : ℂ))) +
      ((N (specN k) (specM k) / 2 * ((starRingEnd ℂ) (a k) + I * (starRingEnd ℂ) (b k)) : ℂ) •
        fun x y => (vecLegendre' (specN k) (specM k) y : ℂ) * exp (-(I * ((specM k * x : ℝ) : ℂ))))) := by
  funext x y
  unfold windC phiDeriv lamDeriv modeSum vecLegendre vecLegendre' timesI
  simp only [Finset.sum_apply, Pi.add_apply, Pi.smul_apply, smul_eq_mul]
  rw [← Finset.sum_neg_distrib, ← Finset.sum_add_distrib, ← Finset.sum_add_distrib]
  push_cast
  rw [Finset.mul_sum, ← Finset.sum_sub_distrib]
  refine Finset.sum_congr rfl fun k _ => ?_
  simp only [Complex.re_eq_add_conj, map_mul, conj_exp_nat, Complex.conj_I]
  have hI := Complex.I_sq
  ring_nf
  rw [hI]
  ring

theorem windC_mem {d : ℕ} (a b : SpecField T) (ha : BandLimited d a) (hb : BandLimited d b) : windC N a b ∈ vectorSpace d := by
  rw [windC_eq]
  refine Submodule.sum_mem _ fun k _ => ?_
  by_cases hk : specN k ≤ d
  · have := vecLegendre_mem (specM_le_specN k) hk
    exact Submodule.add_mem _ (Submodule.smul_mem _ _ this.1) (Submodule.smul_mem _ _ this.2)
  · rw [ha k (by omega), hb k (by omega)]
    simp

theorem windC_add (a a' b b' : SpecField T) : windC N (a + a') (b + b') = windC N a b + windC N a' b' := by
  funext x y
  simp only [windC, Pi.add_apply, phiDeriv_add, lamDeriv_add]
  push_cast
  ring

theorem windC_smul (c : ℝ) (a b : SpecField T) : windC N (c • a) (c • b) = (c : ℂ) • windC N a b := by
  funext x y
  simp only [windC, Pi.smul_apply, phiDeriv_smul, lamDeriv_smul, smul_eq_mul]
  push_cast
  ring

theorem windC_I (a b : SpecField T) : windC N (-b) a = I • windC N a b := by
  have h1 : ∀ x y, phiDeriv N (-b) x y = -phiDeriv N b x y := fun x y => modeSum_neg ..
  have h2 : ∀ x y, lamDeriv N (-b) x y = -lamDeriv N b x y := fun x y => by
    unfold lamDeriv
    rw [← modeSum_neg]
    congr 1
    funext k; simp [timesI]
  funext x y
  simp only [windC, Pi.smul_apply, h1, h2, smul_eq_mul]
  have hI := Complex.I_sq
  push_cast
  linear_combination ((lamDeriv N a x y : ℂ) + phiDeriv N b x y) * hI

/-- Winds with streamfunction and velocity potential of limited degree -/
noncomputable def windSpace (T : ℕ) (d : ℕ) : Submodule ℂ (ℝ → ℝ → ℂ) where
  carrier := {w | ∃ a b : SpecField T, RealZonal a ∧ RealZonal b ∧ BandLimited d a ∧ BandLimited d b ∧ w = windC N a b}
  zero_mem' := ⟨0, 0, fun k _ => by simp, fun k _ => by simp, fun k _ => rfl, fun k _ => rfl, by
    have := windC_smul N 0 (0 : SpecField T) 0
    simpa using this.symm⟩
  add_mem' := by
    rintro _ _ ⟨a, b, h1, h2, h3, h4, rfl⟩ ⟨a', b', h1', h2', h3', h4', rfl⟩
    exact ⟨a + a', b + b', fun k hk => by simp [h1 k hk, h1' k hk], fun k hk => by simp [h2 k hk, h2' k hk],
      fun k hk => by simp [h3 k hk, h3' k hk], fun k hk => by simp [h4 k hk, h4' k hk], (windC_add ..).symm⟩
  smul_mem' := by
    rintro c _ ⟨a, b, h1, h2, h3, h4, rfl⟩
    refine ⟨c.re • a + c.im • -b, c.re • b + c.im • a, fun k hk => by simp [h1 k hk, h2 k hk], fun k hk => by simp [h1 k hk, h2 k hk],
      fun k hk => by simp [h3 k hk, h4 k hk], fun k hk => by simp [h3 k hk, h4 k hk], ?_⟩
    rw [windC_add, windC_smul, windC_smul, windC_I]
    funext x y
    simp only [Pi.add_apply, Pi.smul_apply, smul_eq_mul]
    linear_combination (-(windC N a b x y)) * Complex.re_add_im c

variable {N}

theorem exists_mode {n m : ℕ} (hmn : m ≤ n) (hn : n ≤ T) : ∃ k : Fin (nspec T), specN k = n ∧ specM k = m := by
  obtain ⟨k, hk⟩ := List.mem_iff_get.mp (mem_specIndex.mpr (show ((m, n) : ℕ × ℕ).1 ≤ (m, n).2 ∧ (m, n).2 ≤ T from ⟨hmn, hn⟩))
  exact ⟨k, congrArg Prod.snd hk, congrArg Prod.fst hk⟩

/-- A single mode -/
noncomputable def oneMode (k : Fin (nspec T)) (c : ℂ) : SpecField T := fun l => if l = k then c else 0

theorem windC_oneMode (k : Fin (nspec T)) (c c' : ℂ) : windC N (oneMode k c) (oneMode k c') =
      (((N (specN k) (specM k) / 2 * (c + I * c') : ℂ) •
          fun x y => (vecLegendre (specN k) (specM k) y : ℂ) * exp (I * ((specM k * x : ℝ) : ℂ))) +
        ((N (specN k) (specM k) / 2 * ((starRingEnd ℂ) c + I * (starRingEnd ℂ) c') : ℂ) •
          fun x y => (vecLegendre' (specN k) (specM k) y : ℂ) * exp (-(I * ((specM k * x : ℝ) : ℂ))))) := by
  rw [windC_eq, Finset.sum_eq_single k]
  · simp [oneMode]
  · intro l _ hl; simp [oneMode, hl]
  · simp

theorem vec_mode_mem (hN : ∀ n m, N n m ≠ 0) {n m d : ℕ} (hm : 1 ≤ m) (hmn : m ≤ n) (hn : n ≤ d) (hd : d ≤ T) :
    (fun x y => (vecLegendre n m y : ℂ) * exp (I * ((m * x : ℝ) : ℂ))) ∈ windSpace N T d ∧
    (fun x y => (vecLegendre' n m y : ℂ) * exp (-(I * ((m * x : ℝ) : ℂ)))) ∈ windSpace N T d := by
  obtain ⟨k, rfl, rfl⟩ := exists_mode hmn (hn.trans hd)
  have hne : (N (specN k) (specM k) : ℂ) ≠ 0 := by exact_mod_cast hN _ _
  have hI := Complex.I_sq
  have hb : ∀ c, BandLimited d (oneMode k c) := fun c l hl => by
    unfold oneMode
    rw [if_neg]; rintro rfl; omega
  have hz : ∀ c, RealZonal (oneMode k c) := fun c l hl => by
    unfold oneMode
    rw [if_neg]; rfl; rintro rfl; omega
  constructor
  · refine ⟨oneMode k (1 / N (specN k) (specM k)), oneMode k (-I / N (specN k) (specM k)), hz _, hz _, hb _, hb _, ?_⟩
    rw [windC_oneMode]
    simp only [map_div₀, map_neg, map_one, Complex.conj_I, Complex.conj_ofReal]
    have e1 : (N (specN k) (specM k) : ℂ) / 2 * (1 / N (specN k) (specM k) + I * (-I / N (specN k) (specM k))) = 1 := by
      field_simp; linear_combination -hI
    have e2 : (N (specN k) (specM k) : ℂ) / 2 * (1 / N (specN k) (specM k) + I * (- -I / N (specN k) (specM k))) = 0 := by
      field_simp; linear_combination hI
    rw [e1, e2, one_smul, zero_smul, add_zero]
  · refine ⟨oneMode k (1 / N (specN k) (specM k)), oneMode k (I / N (specN k) (specM k)), hz _, hz _, hb _, hb _, ?_⟩
    rw [windC_oneMode]
    simp only [map_div₀, map_one, Complex.conj_I, Complex.conj_ofReal]
    have e1 : (N (specN k) (specM k) : ℂ) / 2 * (1 / N (specN k) (specM k) + I * (I / N (specN k) (specM k))) = 0 := by
      field_simp; linear_combination hI
    have e2 : (N (specN k) (specM k) : ℂ) / 2 * (1 / N (specN k) (specM k) + I * (-I / N (specN k) (specM k))) = 1 := by
      field_simp; linear_combination -hI
    rw [e1, e2, one_smul, zero_smul, zero_add]

theorem vec_zonal_mem (hN : ∀ n m, N n m ≠ 0) {n d : ℕ} (hn : n ≤ d) (hd : d ≤ T) :
    (fun (_ : ℝ) y => (vecLegendre n 0 y : ℂ)) ∈ windSpace N T d := by
  obtain ⟨k, rfl, hk⟩ := exists_mode (Nat.zero_le n) (hn.trans hd)
  have hne : (N (specN k) 0 : ℂ) ≠ 0 := by exact_mod_cast hN _ _
  have hb : ∀ c, BandLimited d (oneMode k c) := fun c l hl => by
    unfold oneMode
    rw [if_neg]; rintro rfl; omega
  refine ⟨oneMode k ((1 / N (specN k) 0 : ℝ) : ℂ), oneMode k 0, ?_, ?_, hb _, hb _, ?_⟩
  · intro l _; unfold oneMode; split_ifs <;> simp
  · intro l _; unfold oneMode; split_ifs <;> simp
  · rw [windC_oneMode, hk]
    have : ∀ y, vecLegendre' (specN k) 0 y = vecLegendre (specN k) 0 y := fun y => by
      unfold vecLegendre' vecLegendre; rw [legendreOverCos_zonal]; ring
    funext x y
    simp [this]
    field_simp
    norm_num

/-! Three forms of vector fields -/

theorem posForm_mem (hN : ∀ n m, N n m ≠ 0) {m d : ℕ} (hm : 1 ≤ m) (hd : d ≤ T) (p : ℝ[X]) (hp : p.natDegree + m ≤ d) :
    (fun (x y : ℝ) => (Real.cos y : ℂ) ^ (m - 1) * (1 + (Real.sin y : ℂ)) * ((p.eval (Real.sin y) : ℝ) : ℂ) * exp (I * x) ^ m) ∈
      windSpace N T d := by
  let L : ℝ[X] →ₗ[ℝ] (ℝ → ℝ → ℂ) :=
    { toFun := fun p x y => (Real.cos y : ℂ) ^ (m - 1) * (1 + (Real.sin y : ℂ)) * ((p.eval (Real.sin y) : ℝ) : ℂ) * exp (I * x) ^ m
      map_add' := fun p q => by funext x y; simp; ring
      map_smul' := fun c p => by funext x y; simp; ring }
  refine mem_of_degree_seq (fun i => vecPoly (m + i) m) (fun i => ?_) (((windSpace N T d).restrictScalars ℝ).comap L) (d - m)
    (fun i hi => ?_) p (by omega)
  · have := vecPoly_degree hm (show m ≤ m + i by omega)
    rw [Nat.add_sub_cancel_left] at this
    exact this
  · have := (vec_mode_mem (T := T) hN hm (show m ≤ m + i by omega) (show m + i ≤ d by omega) hd).1
    change L (vecPoly (m + i) m) ∈ windSpace N T d
    convert this using 3 with x y
    rw [exp_mul_nat, vecLegendre_eq hm]
    simp only [L, vecPoly, LinearMap.coe_mk, AddHom.coe_mk]
    push_cast
    ring

theorem negForm_mem (hN : ∀ n m, N n m ≠ 0) {m d : ℕ} (hm : 1 ≤ m) (hd : d ≤ T) (p : ℝ[X]) (hp : p.natDegree + m ≤ d) :
    (fun (x y : ℝ) => (Real.cos y : ℂ) ^ (m - 1) * (1 - (Real.sin y : ℂ)) * ((p.eval (Real.sin y) : ℝ) : ℂ) * exp (-(I * x)) ^ m) ∈
      windSpace N T d := by
  let L : ℝ[X] →ₗ[ℝ] (ℝ → ℝ → ℂ) :=
    { toFun := fun p x y => (Real.cos y : ℂ) ^ (m - 1) * (1 - (Real.sin y : ℂ)) * ((p.eval (-Real.sin y) : ℝ) : ℂ) * exp (-(I * x)) ^ m
      map_add' := fun p q => by funext x y; simp; ring
      map_smul' := fun c p => by funext x y; simp; ring }
  have := mem_of_degree_seq (fun i => vecPoly (m + i) m) (fun i => ?_) (((windSpace N T d).restrictScalars ℝ).comap L) (d - m)
    (fun i hi => ?_) (p.comp (-X)) (by
      refine natDegree_comp_le.trans ?_
      rw [natDegree_neg, natDegree_X, mul_one]; omega)
  · change L (p.comp (-X)) ∈ windSpace N T d at this
    convert this using 3 with x y
    simp [L]
  · have := vecPoly_degree hm (show m ≤ m + i by omega)
    rw [Nat.add_sub_cancel_left] at this
    exact this
  · have := (vec_mode_mem (T := T) hN hm (show m ≤ m + i by omega) (show m + i ≤ d by omega) hd).2
    have := (windSpace N T d).smul_mem (-(-1 : ℂ) ^ (m + i + m)) this
    change L (vecPoly (m + i) m) ∈ windSpace N T d
    convert this using 1
    funext x y
    have h1 : (-1 : ℂ) ^ (m + i + m) * (-1) ^ (m + i + m) = 1 := by rw [← pow_add, ← two_mul, pow_mul]; simp
    simp only [Pi.smul_apply, smul_eq_mul]
    rw [exp_mul_nat_neg, vecLegendre'_eq_neg, vecLegendre_eq hm]
    simp only [L, vecPoly, LinearMap.coe_mk, AddHom.coe_mk, Real.cos_neg, Real.sin_neg, ofReal_mul, ofReal_add, ofReal_pow, ofReal_neg, ofReal_one]
    generalize (-1 : ℂ) ^ (m + i + m) = σ at h1 ⊢
    linear_combination (-(Real.cos y : ℂ) ^ (m - 1) * (1 - (Real.sin y : ℂ)) * (((C (m : ℝ) * rodrigues (m + i) m - (1 - X) * rodrigues (m + i) (m + 1)).eval (-Real.sin y) : ℝ) : ℂ) * exp (-(I * x)) ^ m) * h1

theorem zonalForm_mem (hN : ∀ n m, N n m ≠ 0) {d : ℕ} (hd : d ≤ T) (p : ℝ[X]) (hp : p.natDegree + 1 ≤ d) :
    (fun (_ y : ℝ) => (Real.cos y : ℂ) * ((p.eval (Real.sin y) : ℝ) : ℂ)) ∈ windSpace N T d := by
  let L : ℝ[X] →ₗ[ℝ] (ℝ → ℝ → ℂ) :=
    { toFun := fun p _ y => (Real.cos y : ℂ) * ((p.eval (Real.sin y) : ℝ) : ℂ)
      map_add' := fun p q => by funext x y; simp; ring
      map_smul' := fun c p => by funext x y; simp; ring }
  refine mem_of_degree_seq (fun i => rodrigues (i + 1) 1) (fun i => ?_) (((windSpace N T d).restrictScalars ℝ).comap L) (d - 1)
    (fun i hi => ?_) p (by omega)
  · exact rodrigues_degree (show 1 ≤ i + 1 by omega)
  · have := (windSpace N T d).smul_mem (-1 : ℂ) (vec_zonal_mem (T := T) hN (show i + 1 ≤ d by omega) hd)
    change L (rodrigues (i + 1) 1) ∈ windSpace N T d
    convert this using 1
    funext x y
    simp only [Pi.smul_apply, smul_eq_mul]
    rw [vecLegendre_zonal]
    simp [L]

/-! ## Reduction to the three forms -/

theorem cos_mul_cos (y : ℝ) : (Real.cos y : ℂ) * Real.cos y = (1 - (Real.sin y : ℂ)) * (1 + (Real.sin y : ℂ)) := by
  have : Real.cos y * Real.cos y = (1 - Real.sin y) * (1 + Real.sin y) := by
    have := Real.sin_sq_add_cos_sq y; linear_combination this
  exact_mod_cast this

theorem mono_pos (m b j : ℕ) (x y : ℝ) : mono (b + m) b j x y =
    ((1 - (Real.sin y : ℂ)) * (1 + (Real.sin y : ℂ))) ^ b * (Real.sin y : ℂ) ^ j * ((Real.cos y : ℂ) ^ m * exp (I * x) ^ m) := by
  have h : ((Real.cos y : ℂ) * exp (I * x)) * ((Real.cos y : ℂ) * exp (-(I * x))) = (1 - (Real.sin y : ℂ)) * (1 + (Real.sin y : ℂ)) := by
    rw [← cos_mul_cos]; linear_combination (Real.cos y : ℂ) * Real.cos y * exp_mul_exp_neg x
  unfold mono
  rw [← h, mul_pow _ _ b, pow_add, ← mul_pow (Real.cos y : ℂ) _ m]
  ring

theorem mono_neg (m b j : ℕ) (x y : ℝ) : mono b (b + m) j x y =
    ((1 - (Real.sin y : ℂ)) * (1 + (Real.sin y : ℂ))) ^ b * (Real.sin y : ℂ) ^ j * ((Real.cos y : ℂ) ^ m * exp (-(I * x)) ^ m) := by
  have h : ((Real.cos y : ℂ) * exp (I * x)) * ((Real.cos y : ℂ) * exp (-(I * x))) = (1 - (Real.sin y : ℂ)) * (1 + (Real.sin y : ℂ)) := by
    rw [← cos_mul_cos]; linear_combination (Real.cos y : ℂ) * Real.cos y * exp_mul_exp_neg x
  unfold mono
  rw [← h, mul_pow _ _ b, pow_add, ← mul_pow (Real.cos y : ℂ) _ m]
  ring

/-- Polynomial factors of the reduced forms -/
noncomputable def redPoly (b j e f : ℕ) : ℝ[X] := ((1 - X) * (1 + X)) ^ b * X ^ j * (1 - X) ^ e * (1 + X) ^ f

theorem redPoly_natDegree (b j e f : ℕ) : (redPoly b j e f).natDegree ≤ 2 * b + j + e + f := by
  have h1 : (1 - X : ℝ[X]).natDegree ≤ 1 := by compute_degree
  have h2 : (1 + X : ℝ[X]).natDegree ≤ 1 := by compute_degree
  have h3 : ((1 - X) * (1 + X) : ℝ[X]).natDegree ≤ 2 := natDegree_mul_le_of_le h1 h2
  have h4 : (((1 - X) * (1 + X) : ℝ[X]) ^ b).natDegree ≤ b * 2 := natDegree_pow_le_of_le b h3
  have h5 : ((X : ℝ[X]) ^ j).natDegree ≤ j := by compute_degree
  have h6 : ((1 - X : ℝ[X]) ^ e).natDegree ≤ e * 1 := natDegree_pow_le_of_le e h1
  have h7 : ((1 + X : ℝ[X]) ^ f).natDegree ≤ f * 1 := natDegree_pow_le_of_le f h2
  have := natDegree_mul_le_of_le (natDegree_mul_le_of_le (natDegree_mul_le_of_le h4 h5) h6) h7
  unfold redPoly
  omega

theorem redPoly_eval (b j e f : ℕ) (y : ℝ) : (((redPoly b j e f).eval (Real.sin y) : ℝ) : ℂ) =
    ((1 - (Real.sin y : ℂ)) * (1 + (Real.sin y : ℂ))) ^ b * (Real.sin y : ℂ) ^ j * (1 - (Real.sin y : ℂ)) ^ e * (1 + (Real.sin y : ℂ)) ^ f := by
  simp [redPoly]

theorem base_mem (hN : ∀ n m, N n m ≠ 0) {d : ℕ} (hd : d ≤ T) (a b j : ℕ) (i : Fin 3) (h : a + b + j + 1 ≤ d) :
    mono a b j * vecBase i ∈ windSpace N T d := by
  have hE := exp_mul_exp_neg
  have hc := cos_mul_cos
  fin_cases i
  · rcases lt_trichotomy a b with hab | rfl | hab
    · obtain ⟨m, rfl⟩ : ∃ m, b = a + (m + 1) := ⟨b - a - 1, by omega⟩
      have := negForm_mem (T := T) hN (m := m + 1) (d := d) (by omega) hd (redPoly a j 0 1) (by have := redPoly_natDegree a j 0 1; omega)
      convert this using 1
      funext x y
      rw [Pi.mul_apply, Pi.mul_apply, mono_neg, redPoly_eval]
      simp only [vecBase, Fin.zero_eta, Matrix.cons_val_zero, Nat.add_sub_cancel]
      generalize ((1 - (Real.sin y : ℂ)) * (1 + (Real.sin y : ℂ))) ^ a = A
      linear_combination (A * (Real.sin y : ℂ) ^ j * (Real.cos y : ℂ) ^ m * exp (-(I * x)) ^ (m + 1)) * hc y
    · have := zonalForm_mem (T := T) hN (d := d) hd (redPoly a j 0 0) (by have := redPoly_natDegree a j 0 0; omega)
      convert this using 1
      funext x y
      rw [Pi.mul_apply, Pi.mul_apply, redPoly_eval]
      have := mono_pos 0 a j x y
      rw [add_zero] at this
      rw [this]
      simp only [vecBase, Fin.zero_eta, Matrix.cons_val_zero]
      ring
    · obtain ⟨m, rfl⟩ : ∃ m, a = b + (m + 1) := ⟨a - b - 1, by omega⟩
      have := posForm_mem (T := T) hN (m := m + 1) (d := d) (by omega) hd (redPoly b j 1 0) (by have := redPoly_natDegree b j 1 0; omega)
      convert this using 1
      funext x y
      rw [Pi.mul_apply, Pi.mul_apply, mono_pos, redPoly_eval]
      simp only [vecBase, Fin.zero_eta, Matrix.cons_val_zero, Nat.add_sub_cancel]
      generalize ((1 - (Real.sin y : ℂ)) * (1 + (Real.sin y : ℂ))) ^ b = A
      linear_combination (A * (Real.sin y : ℂ) ^ j * (Real.cos y : ℂ) ^ m * exp (I * x) ^ (m + 1)) * hc y
  · rcases lt_trichotomy (a + 1) b with hab | rfl | hab
    · obtain ⟨m, rfl⟩ : ∃ m, b = a + (m + 2) := ⟨b - a - 2, by omega⟩
      have := negForm_mem (T := T) hN (m := m + 1) (d := d) (by omega) hd (redPoly a j 0 2) (by have := redPoly_natDegree a j 0 2; omega)
      convert this using 1
      funext x y
      rw [Pi.mul_apply, Pi.mul_apply, mono_neg, redPoly_eval]
      simp only [vecBase, Fin.mk_one, Matrix.cons_val_one, Matrix.cons_val_zero, Nat.add_sub_cancel]
      generalize ((1 - (Real.sin y : ℂ)) * (1 + (Real.sin y : ℂ))) ^ a = A
      linear_combination (A * (Real.sin y : ℂ) ^ j * (Real.cos y : ℂ) ^ m * exp (-(I * x)) ^ (m + 1) * (1 + (Real.sin y : ℂ))) * hc y +
        (A * (Real.sin y : ℂ) ^ j * (Real.cos y : ℂ) ^ (m + 2) * exp (-(I * x)) ^ (m + 1) * (1 + (Real.sin y : ℂ))) * hE x
    · have := zonalForm_mem (T := T) hN (d := d) hd (redPoly a j 0 1) (by have := redPoly_natDegree a j 0 1; omega)
      convert this using 1
      funext x y
      rw [Pi.mul_apply, Pi.mul_apply, redPoly_eval, mono_neg]
      simp only [vecBase, Fin.mk_one, Matrix.cons_val_one, Matrix.cons_val_zero]
      generalize ((1 - (Real.sin y : ℂ)) * (1 + (Real.sin y : ℂ))) ^ a = A
      linear_combination (A * (Real.sin y : ℂ) ^ j * (Real.cos y : ℂ) * (1 + (Real.sin y : ℂ))) * hE x
    · obtain ⟨m, rfl⟩ : ∃ m, a = b + m := ⟨a - b, by omega⟩
      have := posForm_mem (T := T) hN (m := m + 1) (d := d) (by omega) hd (redPoly b j 0 0) (by have := redPoly_natDegree b j 0 0; omega)
      convert this using 1
      funext x y
      rw [Pi.mul_apply, Pi.mul_apply, mono_pos, redPoly_eval]
      simp only [vecBase, Fin.mk_one, Matrix.cons_val_one, Matrix.cons_val_zero, Nat.add_sub_cancel]
      ring
  · rcases lt_trichotomy (b + 1) a with hab | rfl | hab
    · obtain ⟨m, rfl⟩ : ∃ m, a = b + (m + 2) := ⟨a - b - 2, by omega⟩
      have := posForm_mem (T := T) hN (m := m + 1) (d := d) (by omega) hd (redPoly b j 2 0) (by have := redPoly_natDegree b j 2 0; omega)
      convert this using 1
      funext x y
      rw [Pi.mul_apply, Pi.mul_apply, mono_pos, redPoly_eval]
      simp only [vecBase, Fin.reduceFinMk, Matrix.cons_val, Nat.add_sub_cancel]
      generalize ((1 - (Real.sin y : ℂ)) * (1 + (Real.sin y : ℂ))) ^ b = A
      linear_combination (A * (Real.sin y : ℂ) ^ j * (Real.cos y : ℂ) ^ m * exp (I * x) ^ (m + 1) * (1 - (Real.sin y : ℂ))) * hc y +
        (A * (Real.sin y : ℂ) ^ j * (Real.cos y : ℂ) ^ (m + 2) * exp (I * x) ^ (m + 1) * (1 - (Real.sin y : ℂ))) * hE x
    · have := zonalForm_mem (T := T) hN (d := d) hd (redPoly b j 1 0) (by have := redPoly_natDegree b j 1 0; omega)
      convert this using 1
      funext x y
      rw [Pi.mul_apply, Pi.mul_apply, redPoly_eval, mono_pos]
      simp only [vecBase, Fin.reduceFinMk, Matrix.cons_val]
      generalize ((1 - (Real.sin y : ℂ)) * (1 + (Real.sin y : ℂ))) ^ b = A
      linear_combination (A * (Real.sin y : ℂ) ^ j * (Real.cos y : ℂ) * (1 - (Real.sin y : ℂ))) * hE x
    · obtain ⟨m, rfl⟩ : ∃ m, b = a + m := ⟨b - a, by omega⟩
      have := negForm_mem (T := T) hN (m := m + 1) (d := d) (by omega) hd (redPoly a j 0 0) (by have := redPoly_natDegree a j 0 0; omega)
      convert this using 1
      funext x y
      rw [Pi.mul_apply, Pi.mul_apply, mono_neg, redPoly_eval]
      simp only [vecBase, Fin.reduceFinMk, Matrix.cons_val, Nat.add_sub_cancel]
      ring

/-- Polynomial vector fields are winds. -/
theorem vectorSpace_le (hN : ∀ n m, N n m ≠ 0) {d : ℕ} (hd : d ≤ T) : vectorSpace d ≤ windSpace N T d := by
  refine Submodule.span_le.mpr ?_
  rintro _ ⟨a, b, j, i, h, rfl⟩
  exact base_mem hN hd a b j i h

/-- Products of scalar fields of degree `d` and winds of degree `d'` are winds of degree `d + d'`. -/
theorem exists_wind_product (hN : ∀ n m, N n m ≠ 0) {d d' : ℕ} (hd : d + d' ≤ T) (q a b : SpecField T) (hq : BandLimited d q)
    (ha : BandLimited d' a) (hb : BandLimited d' b) : ∃ a' b' : SpecField T, RealZonal a' ∧ RealZonal b' ∧ BandLimited (d + d') a' ∧
      BandLimited (d + d') b' ∧
      (∀ x y, harmonicSum N q x y * (-phiDeriv N a x y + lamDeriv N b x y) = -phiDeriv N a' x y + lamDeriv N b' x y) ∧
      ∀ x y, harmonicSum N q x y * (lamDeriv N a x y + phiDeriv N b x y) = lamDeriv N a' x y + phiDeriv N b' x y := by
  obtain ⟨a', b', h1, h2, h3, h4, h5⟩ := vectorSpace_le hN hd (scalar_mul_vector (harmonicSum_mem N q hq) (windC_mem N a b ha hb))
  refine ⟨a', b', h1, h2, h3, h4, fun x y => ?_, fun x y => ?_⟩
  all_goals
    have e := congrFun (congrFun h5 x) y
    simp only [Pi.mul_apply, windC] at e
  · have := congrArg Complex.re e
    simpa [-ofReal_add, -ofReal_neg] using this
  · have := congrArg Complex.im e
    simp [-ofReal_add, -ofReal_neg] at this
    linarith

end Barotropic
