import Verif.Lemmas.ExactLawful
import Verif.Spec.Sphere
import Mathlib.Analysis.SpecialFunctions.Trigonometric.DerivHyp
import Mathlib.Analysis.Calculus.ContDiff.Polynomial
import Mathlib.Analysis.SpecialFunctions.Complex.CircleAddChar

/-!
# Derivatives of sums of spherical harmonics
-/

namespace Barotropic
open Complex

/-! ## Legendre functions -/

theorem rodrigues_contDiff (n m : ℕ) : ContDiff ℝ (⊤ : ℕ∞) fun x => (rodrigues n m).eval x :=
  (rodrigues n m).contDiff_aeval (R := ℝ) (𝕜 := ℝ) _

theorem legendre_contDiff (n m : ℕ) : ContDiff ℝ (⊤ : ℕ∞) (legendre n m) :=
  (Real.contDiff_cos.pow m).mul ((rodrigues_contDiff n m).comp Real.contDiff_sin)

theorem legendreOverCos_contDiff (n m : ℕ) : ContDiff ℝ (⊤ : ℕ∞) (legendreOverCos n m) :=
  ((contDiff_const.mul (Real.contDiff_cos.pow (m - 1)))).mul ((rodrigues_contDiff n m).comp Real.contDiff_sin)

theorem derivLegendre_contDiff (n m : ℕ) : ContDiff ℝ (⊤ : ℕ∞) (deriv (legendre n m)) :=
  ((contDiff_infty_iff_deriv (𝕜 := ℝ)).mp (legendre_contDiff n m)).2

theorem legendreOverCos_mul_cos (n m : ℕ) (y : ℝ) : legendreOverCos n m y * Real.cos y = m * legendre n m y := by
  unfold legendreOverCos legendre
  cases m with
  | zero => simp
  | succ m => simp only [Nat.add_sub_cancel, pow_succ]; ring

/-- The differential equation of the associated Legendre functions -/
theorem hasDerivAt_cos_mul_deriv_legendre (n m : ℕ) (y : ℝ) :
    HasDerivAt (fun y => deriv (legendre n m) y * Real.cos y)
      (m * legendreOverCos n m y - n * (n + 1) * Real.cos y * legendre n m y) y := by
  have h1 := (Real.hasDerivAt_cos y).pow m
  have h2 := (Real.hasDerivAt_cos y).pow (m + 2)
  have h3 := ((rodrigues n m).hasDerivAt (Real.sin y)).comp y (Real.hasDerivAt_sin y)
  have h4 := ((rodrigues n (m + 1)).hasDerivAt (Real.sin y)).comp y (Real.hasDerivAt_sin y)
  have h5 := Real.hasDerivAt_sin y
  have e : (fun y => deriv (legendre n m) y * Real.cos y) = fun y =>
      -((m : ℝ) * (Real.cos y ^ m * Real.sin y * (rodrigues n m).eval (Real.sin y))) +
        Real.cos y ^ (m + 2) * (rodrigues n (m + 1)).eval (Real.sin y) := by
    funext y
    rw [deriv_legendre]
    cases m with
    | zero => simp; ring
    | succ m => simp only [Nat.add_sub_cancel]; ring
  rw [e]
  have h := (((h1.mul h5).mul h3).const_mul (m : ℝ)).neg.add (h2.mul h4)
  refine h.congr_deriv ?_
  have ho := congrArg (Polynomial.eval (Real.sin y)) (rodrigues_ode n m)
  simp only [Polynomial.eval_add, Polynomial.eval_sub, Polynomial.eval_mul, Polynomial.eval_pow, Polynomial.eval_X,
    Polynomial.eval_one, Polynomial.eval_C, Polynomial.eval_zero] at ho
  simp only [rodrigues_derivative, Function.comp, Pi.mul_apply, Pi.pow_apply]
  unfold legendreOverCos legendre
  have hc := Real.sin_sq_add_cos_sq y
  cases m with
  | zero =>
    simp only [Nat.cast_zero, zero_mul, neg_zero, zero_add, pow_zero, one_mul, mul_zero, pow_one] at ho ⊢
    push_cast
    have : Real.cos y ^ 2 = 1 - Real.sin y ^ 2 := by linarith
    norm_num at ho ⊢
    linear_combination (Real.cos y) * ho + Real.cos y * (Polynomial.eval (Real.sin y) (rodrigues n 2)) * this
  | succ m =>
    simp only [Nat.add_sub_cancel, show m + 1 + 2 - 1 = m + 2 by omega]
    push_cast at ho ⊢
    linear_combination (Real.cos y ^ (m + 2)) * ho +
      (Real.cos y ^ (m + 2) * (Polynomial.eval (Real.sin y) (rodrigues n (m + 1 + 2))) +
        (m + 1) ^ 2 * Real.cos y ^ m * (Polynomial.eval (Real.sin y) (rodrigues n (m + 1)))) * hc

/-! ## Sums over modes -/

section sums
variable {T : ℕ} (N : ℕ → ℕ → ℝ)

theorem modeSum_congrP {P P' : ℕ → ℕ → ℝ → ℝ} {y y' : ℝ} (h : ∀ n m, P n m y = P' n m y') (s : SpecField T) (x : ℝ) :
    modeSum N P s x y = modeSum N P' s x y' := by
  unfold modeSum; simp only [h]

theorem modeSum_addP (P P' : ℕ → ℕ → ℝ → ℝ) (s : SpecField T) (x y : ℝ) :
    modeSum N (fun n m y => P n m y + P' n m y) s x y = modeSum N P s x y + modeSum N P' s x y := by
  unfold modeSum
  rw [← Finset.sum_add_distrib]
  exact Finset.sum_congr rfl fun k _ => by ring

theorem modeSum_mulP (P : ℕ → ℕ → ℝ → ℝ) (c : ℝ → ℝ) (s : SpecField T) (x y : ℝ) :
    modeSum N (fun n m y => P n m y * c y) s x y = modeSum N P s x y * c y := by
  unfold modeSum
  rw [Finset.sum_mul]
  exact Finset.sum_congr rfl fun k _ => by ring

theorem modeSum_degMul (P : ℕ → ℕ → ℝ → ℝ) (c : ℕ → ℝ) (s : SpecField T) (x y : ℝ) :
    modeSum N P (degMul c s) x y = modeSum N (fun n m y => c n * P n m y) s x y := by
  unfold modeSum degMul
  exact Finset.sum_congr rfl fun k _ => by rw [mul_assoc (_ : ℂ), Complex.re_ofReal_mul]; ring

theorem modeSum_timesI_timesI (P : ℕ → ℕ → ℝ → ℝ) (s : SpecField T) (x y : ℝ) :
    modeSum N P (timesI (timesI s)) x y = -modeSum N P s x y := by
  rw [← modeSum_neg]
  congr 1
  funext k
  have hI := Complex.I_mul_I
  simp only [timesI, Pi.neg_apply, ← mul_assoc, hI]
  ring

theorem hasDerivAt_modeSum_lon (P : ℕ → ℕ → ℝ → ℝ) (s : SpecField T) (x y : ℝ) :
    HasDerivAt (fun x => modeSum N P s x y) (modeSum N (fun n m y => m * P n m y) (timesI s) x y) x := by
  unfold modeSum
  refine HasDerivAt.fun_sum fun k _ => ?_
  have h1 : HasDerivAt (fun x : ℝ => Complex.exp (I * ((specM k * x : ℝ) : ℂ)))
      (Complex.exp (I * ((specM k * x : ℝ) : ℂ)) * (I * (specM k : ℂ))) x := by
    have h0 : HasDerivAt (fun x : ℝ => ((specM k * x : ℝ) : ℂ)) (specM k : ℂ) x := by
      have := ((hasDerivAt_id x).const_mul (specM k : ℝ)).ofReal_comp
      simpa using this
    exact (h0.const_mul I).cexp
  have h2 := (h1.const_mul (s k))
  have h3 := (Complex.reCLM.hasFDerivAt.comp_hasDerivAt x h2).const_mul (N (specN k) (specM k) * P (specN k) (specM k) y)
  refine h3.congr_deriv ?_
  simp only [timesI, Complex.reCLM_apply]
  rw [show s k * (Complex.exp (I * ((specM k * x : ℝ) : ℂ)) * (I * (specM k : ℂ))) =
    ((specM k : ℝ) : ℂ) * (I * s k * Complex.exp (I * ((specM k * x : ℝ) : ℂ))) by push_cast; ring, Complex.re_ofReal_mul]
  ring

theorem hasDerivAt_modeSum_lat {P P' : ℕ → ℕ → ℝ → ℝ} {y : ℝ} (hP : ∀ n m, HasDerivAt (P n m) (P' n m y) y) (s : SpecField T) (x : ℝ) :
    HasDerivAt (fun y => modeSum N P s x y) (modeSum N P' s x y) y := by
  unfold modeSum
  refine HasDerivAt.fun_sum fun k _ => ?_
  exact ((hP _ _).const_mul _).mul_const _

theorem dlon_modeSum (P : ℕ → ℕ → ℝ → ℝ) (s : SpecField T) (x y : ℝ) :
    dlon (modeSum N P s) x y = modeSum N (fun n m y => m * P n m y) (timesI s) x y := (hasDerivAt_modeSum_lon N P s x y).deriv

theorem dlat_modeSum {P P' : ℕ → ℕ → ℝ → ℝ} {y : ℝ} (hP : ∀ n m, HasDerivAt (P n m) (P' n m y) y) (s : SpecField T) (x : ℝ) :
    dlat (modeSum N P s) x y = modeSum N P' s x y := (hasDerivAt_modeSum_lat N hP s x).deriv

theorem modeSum_smooth {P : ℕ → ℕ → ℝ → ℝ} (hP : ∀ n m, ContDiff ℝ (⊤ : ℕ∞) (P n m)) (s : SpecField T) :
    SphereSmooth (modeSum N P s) := by
  constructor
  · unfold modeSum
    refine ContDiff.sum (s := Finset.univ) (f := fun (k : Fin (nspec T)) (p : ℝ × ℝ) => N (specN k) (specM k) * P (specN k) (specM k) p.2 *
      (s k * Complex.exp (I * ((specM k * p.1 : ℝ) : ℂ))).re) fun k _ => ?_
    refine (contDiff_const.mul ((hP _ _).comp contDiff_snd)).mul ?_
    refine Complex.reCLM.contDiff.comp (contDiff_const.mul (ContDiff.cexp (contDiff_const.mul ?_)))
    exact Complex.ofRealCLM.contDiff.comp (contDiff_const.mul contDiff_fst)
  · intro lam phi
    unfold modeSum
    have h : ∀ k : Fin (nspec T), Complex.exp (I * ((specM k * (lam + 2 * Real.pi) : ℝ) : ℂ)) =
        Complex.exp (I * ((specM k * lam : ℝ) : ℂ)) := fun k => by
      rw [Complex.exp_eq_exp_iff_exists_int]
      exact ⟨specM k, by push_cast; ring⟩
    simp only [h]

end sums

end Barotropic
