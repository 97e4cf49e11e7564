import Verif.Lemmas.Turn
import Verif.Props.SpectralAccuracy
import Verif.Props.Galerkin

/-!
# Spherical harmonics in turned coordinates
-/

namespace Barotropic
open Real (cos sin)
open Matrix

variable {Q : Matrix (Fin 3) (Fin 3) ℝ} {T : ℕ} {N : ℕ → ℕ → ℝ}

theorem harmonicSum_ext {T' : ℕ} {a : SpecField T} {b : SpecField T'} (h : ∀ x y, cos y ≠ 0 → harmonicSum N a x y = harmonicSum N b x y) (x y : ℝ) :
    harmonicSum N a x y = harmonicSum N b x y := by
  have c1 : Continuous fun y => harmonicSum N a x y := (differentiable_lat legendre_contDiff a x).continuous
  have c2 : Continuous fun y => harmonicSum N b x y := (differentiable_lat legendre_contDiff b x).continuous
  exact congrFun (c1.ext_on dense_nonpolar c2 fun y hy => h x y hy) y

/-- Coefficients are determined by the values. -/
theorem harmonic_unique (hN : ∀ n m, N n m ≠ 0) {a b : SpecField T} (ha : RealZonal a) (hb : RealZonal b)
    (h : ∀ x y, cos y ≠ 0 → harmonicSum N a x y = harmonicSum N b x y) : a = b := by
  have e : harmonicSum N (a - b) = harmonicSum N (0 : SpecField T) := by
    funext x y
    rw [harmonicSum_sub, harmonicSum_ext h, sub_self]
    exact (modeSum_eq_zero N legendre (fun _ => .inl rfl) x y).symm
  have h1 := parseval (r := 1) one_ne_zero (N := N) (a - b) (a - b)
  have h2 := parseval (r := 1) one_ne_zero (N := N) (0 : SpecField T) (a - b)
  have h0 : spherePair 1 (harmonicSum N (a - b)) (harmonicSum N (a - b)) = 0 := by
    nth_rewrite 1 [e]
    rw [h2]
    exact Finset.sum_eq_zero fun k _ => by rw [Pi.zero_apply, modeDot_zero, mul_zero]
  rw [h0] at h1
  have h3 := (Finset.sum_eq_zero_iff_of_nonneg (fun k _ => mul_nonneg (modeNorm_pos one_ne_zero hN k).le (modeDot_self_nonneg _ _))).mp h1.symm
  funext k
  have h4 := (mul_eq_zero.mp (h3 k (Finset.mem_univ k))).resolve_left (modeNorm_pos one_ne_zero hN k).ne'
  rw [← sub_eq_zero]
  have him : specM k = 0 → (a k - b k).im = 0 := fun hk => by rw [Complex.sub_im, ha k hk, hb k hk, sub_zero]
  rw [Pi.sub_apply] at h4
  generalize a k - b k = z at *
  unfold modeDot at h4
  split_ifs at h4 with hk
  · refine Complex.ext ?_ (him hk)
    simpa using h4
  · have : z.re * z.re = 0 ∧ z.im * z.im = 0 := by
      constructor <;> nlinarith [mul_self_nonneg z.re, mul_self_nonneg z.im]
    refine Complex.ext ?_ ?_
    · simpa using this.1
    · simpa using this.2

/-! ## Harmonics as polynomials of Cartesian coordinates -/

theorem exists_trig (m : ℕ) : ∃ C D : MvPolynomial (Fin 4) ℝ, ∀ t x y,
    C.eval (spacetime t x y) = cos y ^ m * cos (m * x) ∧ D.eval (spacetime t x y) = cos y ^ m * sin (m * x) := by
  induction m with
  | zero => exact ⟨1, 0, fun t x y => by simp⟩
  | succ m ih =>
    obtain ⟨C, D, h⟩ := ih
    refine ⟨MvPolynomial.X 1 * C - MvPolynomial.X 2 * D, MvPolynomial.X 1 * D + MvPolynomial.X 2 * C, fun t x y => ?_⟩
    have s1 : (spacetime t x y) 1 = cos y * cos x := rfl
    have s2 : (spacetime t x y) 2 = cos y * sin x := rfl
    have e : ((m + 1 : ℕ) : ℝ) * x = m * x + x := by push_cast; ring
    simp only [map_sub, map_add, map_mul, MvPolynomial.eval_X, s1, s2, (h t x y).1, (h t x y).2, e, Real.cos_add, Real.sin_add]
    constructor <;> ring

theorem exists_lat (p : Polynomial ℝ) : ∃ P : MvPolynomial (Fin 4) ℝ, ∀ t x y, P.eval (spacetime t x y) = p.eval (sin y) := by
  refine ⟨Polynomial.aeval (MvPolynomial.X 3 : MvPolynomial (Fin 4) ℝ) p, fun t x y => ?_⟩
  have h3 : (spacetime t x y) 3 = sin y := rfl
  induction p using Polynomial.induction_on' with
  | add p q hp hq => simp only [map_add, hp, hq, Polynomial.eval_add]
  | monomial n a => simp [Polynomial.aeval_monomial, h3]

theorem exists_poly (s : SpecField T) : ∃ P : MvPolynomial (Fin 4) ℝ, ∀ t x y, harmonicSum N s x y = P.eval (spacetime t x y) := by
  have h : ∀ k : Fin (nspec T), ∃ P : MvPolynomial (Fin 4) ℝ, ∀ t x y,
      P.eval (spacetime t x y) = N (specN k) (specM k) * legendre (specN k) (specM k) y * (s k * Complex.exp (Complex.I * (specM k * x : ℝ))).re := by
    intro k
    obtain ⟨C, D, hm⟩ := exists_trig (specM k)
    obtain ⟨P, hP⟩ := exists_lat (rodrigues (specN k) (specM k))
    refine ⟨MvPolynomial.C (N (specN k) (specM k)) * P * (MvPolynomial.C (s k).re * C - MvPolynomial.C (s k).im * D), fun t x y => ?_⟩
    simp only [map_mul, map_sub, MvPolynomial.eval_C, hP, (hm t x y).1, (hm t x y).2]
    rw [Complex.mul_re, mul_comm Complex.I, Complex.exp_ofReal_mul_I_re, Complex.exp_ofReal_mul_I_im]
    unfold legendre
    ring
  choose P hP using h
  refine ⟨∑ k, P k, fun t x y => ?_⟩
  rw [map_sum]
  unfold harmonicSum modeSum
  exact (Finset.sum_congr rfl fun k _ => hP k t x y).symm

theorem exists_turned_poly (P : MvPolynomial (Fin 4) ℝ) (Q : Matrix (Fin 3) (Fin 3) ℝ) : ∃ P' : MvPolynomial (Fin 4) ℝ, ∀ p, P'.eval p = P.eval (turnL Q p) := by
  induction P using MvPolynomial.induction_on with
  | C a => exact ⟨MvPolynomial.C a, fun p => by simp⟩
  | add P P' h h' =>
    obtain ⟨A, hA⟩ := h
    obtain ⟨B, hB⟩ := h'
    exact ⟨A + B, fun p => by rw [map_add, map_add, hA, hB]⟩
  | mul_X P i h =>
    obtain ⟨A, hA⟩ := h
    have hi : ∃ L : MvPolynomial (Fin 4) ℝ, ∀ p, L.eval p = turnL Q p i := by
      have h3 : ∀ a b c : ℝ, ∃ L : MvPolynomial (Fin 4) ℝ, ∀ p, L.eval p = a * p 1 + b * p 2 + c * p 3 := fun a b c =>
        ⟨MvPolynomial.C a * MvPolynomial.X 1 + MvPolynomial.C b * MvPolynomial.X 2 + MvPolynomial.C c * MvPolynomial.X 3, fun p => by simp⟩
      fin_cases i
      · exact ⟨MvPolynomial.X 0, fun p => by simp [turnL_0]⟩
      · exact h3 (Q 0 0) (Q 0 1) (Q 0 2)
      · exact h3 (Q 1 0) (Q 1 1) (Q 1 2)
      · exact h3 (Q 2 0) (Q 2 1) (Q 2 2)
    obtain ⟨L, hL⟩ := hi
    exact ⟨A * L, fun p => by rw [map_mul, map_mul, hA, hL, MvPolynomial.eval_X]⟩

/-! ## Turned fields -/

theorem SingleDegree.laplacian {n : ℕ} {s : SpecField T} (hs : SingleDegree n s) {P : MvPolynomial (Fin 4) ℝ}
    (hP : ∀ t x y, harmonicSum N s x y = P.eval (spacetime t x y)) (t x y : ℝ) :
    onSphere (lapl fun p => P.eval p) t x y = -(n * (n + 1)) * harmonicSum N s x y := by
  have hsm := mvPoly_smooth P
  have key : ∀ x y, cos y ≠ 0 → onSphere (lapl fun p => P.eval p) t x y = onSphere (fun p => -((n : ℝ) * (n + 1)) * P.eval p) t x y := by
    intro x y hy
    have h1 := sphereLaplacian_onSphere hsm 1 t x hy
    have e : onSphere (fun p => P.eval p) t = harmonicSum N s := by
      funext x y
      exact (hP t x y).symm
    rw [e, sphereLaplacian_harmonicSum one_ne_zero s hy x, one_pow, div_one] at h1
    have e2 : (-degMul (fun n => (n : ℝ) * (n + 1) / 1) s) = (-((n : ℝ) * (n + 1))) • s := by
      funext k
      simp only [Pi.neg_apply, degMul, Pi.smul_apply, Complex.real_smul]
      by_cases hk : specN k = n
      · rw [hk]
        push_cast
        ring
      · rw [hs k hk]
        simp
    rw [← h1, e2]
    change modeSum _ _ _ _ _ = _
    rw [modeSum_smul]
    change _ * harmonicSum N s x y = _
    rw [hP t]
    rfl
  have := onSphere_ext (lapl_smooth hsm).continuous (continuous_const.mul hsm.continuous) key x y
  rw [this, hP t]
  rfl

/-- A field of one degree in turned coordinates has the same degree. -/
theorem exists_turn_degree (hN : ∀ n m, N n m ≠ 0) (hQ : Q * Qᵀ = 1) (hQ' : Qᵀ * Q = 1) {n : ℕ} {s : SpecField T} (hs : SingleDegree n s) :
    ∃ s' : SpecField T, RealZonal s' ∧ SingleDegree n s' ∧
      ∀ x y x' y', turnL Q (spacetime 0 x y) = spacetime 0 x' y' → harmonicSum N s' x y = harmonicSum N s x' y' := by
  by_cases hn : n ≤ T
  swap
  · refine ⟨0, fun k _ => rfl, fun k _ => rfl, fun x y x' y' _ => ?_⟩
    have : s = 0 := funext fun k => hs k (by have := specN_le k; omega)
    rw [this]
    exact (modeSum_eq_zero N legendre (fun _ => .inl rfl) x y).trans (modeSum_eq_zero N legendre (fun _ => .inl rfl) x' y').symm
  obtain ⟨P, hP⟩ := exists_poly (N := N) s
  obtain ⟨P', hP'⟩ := exists_turned_poly P Q
  obtain ⟨D, hD⟩ := mvPoly_harmonic P'
  obtain ⟨c, -, -, hc⟩ := hD N hN (max D T) (le_max_left _ _)
  obtain ⟨d, hd⟩ : ∃ d, d = realZonal (c 0) := ⟨_, rfl⟩
  have hdr : RealZonal d := hd ▸ realZonal_real _
  have hdv : ∀ x y, harmonicSum N d x y = P.eval (turnL Q (spacetime 0 x y)) := fun x y => by
    rw [hd, harmonicSum_realZonal, ← hc, hP']
  have hval : ∀ x y x' y', turnL Q (spacetime 0 x y) = spacetime 0 x' y' → harmonicSum N d x y = harmonicSum N s x' y' := fun x y x' y' e => by
    rw [hdv, e, ← hP]
  have hpt : ∀ x y, ∃ x' y', turnL Q (spacetime 0 x y) = spacetime 0 x' y' := fun x y => by
    obtain ⟨x', y', e⟩ := exists_lonlat (turnL_unit hQ' (spacetime_unit 0 x y))
    exact ⟨x', y', e.symm⟩
  have hsm := mvPoly_smooth P
  have hdeg : SingleDegree n d := by
    have e : -degMul (fun n => (n : ℝ) * (n + 1) / 1 ^ 2) d = (-((n : ℝ) * (n + 1))) • d := by
      refine harmonic_unique hN ?_ ?_ fun x y hy => ?_
      · intro k hk
        simp [degMul, hdr k hk]
      · intro k hk
        simp [hdr k hk]
      · rw [← sphereLaplacian_harmonicSum one_ne_zero d hy x]
        have e : harmonicSum N d = onSphere (fun p => P.eval (turnL Q p)) 0 := by
          funext x y
          exact hdv x y
        rw [e, sphereLaplacian_onSphere (turn_smooth hsm Q) 1 0 x hy, one_pow, div_one]
        change lapl (fun p => P.eval (turnL Q p)) (spacetime 0 x y) = modeSum _ _ _ _ _
        rw [lapl_turn (F := fun p => P.eval p) hsm hQ, modeSum_smul]
        obtain ⟨x', y', hxy⟩ := hpt x y
        rw [hxy]
        have := hs.laplacian hP 0 x' y'
        rw [← hval x y x' y' hxy] at this
        exact this
    intro k hk
    have ek := congrFun e k
    simp only [Pi.neg_apply, degMul, Pi.smul_apply, Complex.real_smul] at ek
    have hne : ((specN k : ℝ) * (specN k + 1) - n * (n + 1)) ≠ 0 := by
      have : (specN k : ℝ) ≠ n := by exact_mod_cast hk
      rw [show (specN k : ℝ) * (specN k + 1) - n * (n + 1) = ((specN k : ℝ) - n) * (specN k + n + 1) by ring]
      exact mul_ne_zero (sub_ne_zero.mpr this) (by positivity)
    have h0 : (((specN k : ℝ) * (specN k + 1) - n * (n + 1) : ℝ) : ℂ) * d k = 0 := by
      push_cast at ek ⊢
      linear_combination -ek
    exact (mul_eq_zero.mp h0).resolve_left (by exact_mod_cast hne)
  have hback : retrunc (max D T) (retrunc T d) = d := by
    funext k
    by_cases hk : specN k = n
    · obtain ⟨l, hl, hl'⟩ := exists_mode (T := T) (specM_le_specN k) (hk.le.trans hn)
      rw [retrunc_apply (retrunc T d) hl' hl, retrunc_apply d hl'.symm hl.symm]
    · rw [hdeg k hk]
      by_cases hkT : T < specN k
      · exact retrunc_zero_of _ hkT
      · obtain ⟨l, hl, hl'⟩ := exists_mode (T := T) (specM_le_specN k) (not_lt.mp hkT)
        rw [retrunc_apply (retrunc T d) hl' hl, retrunc_apply d hl'.symm hl.symm, hdeg k hk]
  refine ⟨retrunc T d, retrunc_real hdr, fun k hk => ?_, fun x y x' y' e => ?_⟩
  · obtain ⟨l, hl, hl'⟩ := exists_mode (T := max D T) (specM_le_specN k) ((specN_le k).trans (le_max_right _ _))
    rw [retrunc_apply d hl' hl]
    exact hdeg l (by rw [hl]; exact hk)
  · rw [← hval x y x' y' e, ← harmonicSum_retrunc (le_max_right D T) (retrunc T d), hback]

end Barotropic
