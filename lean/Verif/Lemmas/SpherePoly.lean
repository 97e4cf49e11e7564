import Verif.Lemmas.VectorHarmonics
import Verif.Spec.SmoothSolution
import Mathlib.Algebra.MvPolynomial.Eval
import Mathlib.Analysis.Calculus.Deriv.Pow

/-!
# Polynomials of the Cartesian coordinates are sums of spherical harmonics
-/

namespace Barotropic
open Real (cos sin)
open Polynomial

variable {T : ℕ} {N : ℕ → ℕ → ℝ}

noncomputable def cosMode (m : ℕ) (p : ℝ[X]) (x y : ℝ) : ℝ := cos y ^ m * p.eval (sin y) * cos (m * x)

noncomputable def sinMode (m : ℕ) (p : ℝ[X]) (x y : ℝ) : ℝ := cos y ^ m * p.eval (sin y) * sin (m * x)

noncomputable def spherePolys : Submodule ℝ (ℝ → ℝ → ℝ) := Submodule.span ℝ {f | ∃ m p, f = cosMode m p ∨ f = sinMode m p}

theorem cosMode_mem (m : ℕ) (p : ℝ[X]) : cosMode m p ∈ spherePolys := Submodule.subset_span ⟨m, p, .inl rfl⟩
theorem sinMode_mem (m : ℕ) (p : ℝ[X]) : sinMode m p ∈ spherePolys := Submodule.subset_span ⟨m, p, .inr rfl⟩

/-- Closure under multiplication by a function -/
theorem mul_mem_of_modes (c : ℝ → ℝ → ℝ) (h : ∀ m p, (fun x y => c x y * cosMode m p x y) ∈ spherePolys ∧ (fun x y => c x y * sinMode m p x y) ∈ spherePolys)
    {f : ℝ → ℝ → ℝ} (hf : f ∈ spherePolys) : (fun x y => c x y * f x y) ∈ spherePolys := by
  induction hf using Submodule.span_induction with
  | mem f hf =>
    obtain ⟨m, p, rfl | rfl⟩ := hf
    · exact (h m p).1
    · exact (h m p).2
  | zero =>
    have : (fun x y => c x y * (0 : ℝ → ℝ → ℝ) x y) = 0 := by funext x y; simp
    rw [this]; exact zero_mem _
  | add f f' _ _ hf hf' =>
    have : (fun x y => c x y * (f + f') x y) = (fun x y => c x y * f x y) + fun x y => c x y * f' x y := by funext x y; simp [mul_add]
    rw [this]; exact add_mem hf hf'
  | smul a f _ hf =>
    have : (fun x y => c x y * (a • f) x y) = a • fun x y => c x y * f x y := by
      funext x y
      simp only [Pi.smul_apply, smul_eq_mul]
      ring
    rw [this]; exact Submodule.smul_mem _ _ hf

theorem mul_sin_mem {f : ℝ → ℝ → ℝ} (hf : f ∈ spherePolys) : (fun x y => sin y * f x y) ∈ spherePolys := by
  refine mul_mem_of_modes (fun _ y => sin y) (fun m p => ⟨?_, ?_⟩) hf
  · convert cosMode_mem m (X * p) using 1
    funext x y
    simp only [cosMode, eval_mul, eval_X]
    ring
  · convert sinMode_mem m (X * p) using 1
    funext x y
    simp only [sinMode, eval_mul, eval_X]
    ring

theorem cos_pow_two (y : ℝ) (m : ℕ) : cos y ^ (m + 2) = cos y ^ m * (1 - sin y ^ 2) := by
  rw [pow_add, Real.cos_sq']

theorem cos_succ_mul (m : ℕ) (x : ℝ) : cos x * cos ((m + 1 : ℕ) * x) = 1 / 2 * cos ((m + 2 : ℕ) * x) + 1 / 2 * cos (m * x) := by
  have e1 : ((m + 2 : ℕ) : ℝ) * x = (m + 1 : ℕ) * x + x := by push_cast; ring
  have e2 : (m : ℝ) * x = (m + 1 : ℕ) * x - x := by push_cast; ring
  rw [e1, e2, Real.cos_add, Real.cos_sub]
  ring

theorem cos_succ_mul' (m : ℕ) (x : ℝ) : cos x * sin ((m + 1 : ℕ) * x) = 1 / 2 * sin ((m + 2 : ℕ) * x) + 1 / 2 * sin (m * x) := by
  have e1 : ((m + 2 : ℕ) : ℝ) * x = (m + 1 : ℕ) * x + x := by push_cast; ring
  have e2 : (m : ℝ) * x = (m + 1 : ℕ) * x - x := by push_cast; ring
  rw [e1, e2, Real.sin_add, Real.sin_sub]
  ring

theorem sin_succ_mul (m : ℕ) (x : ℝ) : sin x * cos ((m + 1 : ℕ) * x) = 1 / 2 * sin ((m + 2 : ℕ) * x) + -1 / 2 * sin (m * x) := by
  have e1 : ((m + 2 : ℕ) : ℝ) * x = (m + 1 : ℕ) * x + x := by push_cast; ring
  have e2 : (m : ℝ) * x = (m + 1 : ℕ) * x - x := by push_cast; ring
  rw [e1, e2, Real.sin_add, Real.sin_sub]
  ring

theorem sin_succ_mul' (m : ℕ) (x : ℝ) : sin x * sin ((m + 1 : ℕ) * x) = -1 / 2 * cos ((m + 2 : ℕ) * x) + 1 / 2 * cos (m * x) := by
  have e1 : ((m + 2 : ℕ) : ℝ) * x = (m + 1 : ℕ) * x + x := by push_cast; ring
  have e2 : (m : ℝ) * x = (m + 1 : ℕ) * x - x := by push_cast; ring
  rw [e1, e2, Real.cos_add, Real.cos_sub]
  ring

theorem comb_mem {f f' F : ℝ → ℝ → ℝ} (a b : ℝ) (hf : f ∈ spherePolys) (hf' : f' ∈ spherePolys) (h : ∀ x y, F x y = a * f x y + b * f' x y) :
    F ∈ spherePolys := by
  have : F = a • f + b • f' := by funext x y; simp [h]
  rw [this]
  exact add_mem (Submodule.smul_mem _ _ hf) (Submodule.smul_mem _ _ hf')

theorem mul_x_mem {f : ℝ → ℝ → ℝ} (hf : f ∈ spherePolys) : (fun x y => cos y * cos x * f x y) ∈ spherePolys := by
  refine mul_mem_of_modes (fun x y => cos y * cos x) (fun m p => ?_) hf
  cases m with
  | zero =>
    refine ⟨comb_mem 1 0 (cosMode_mem 1 p) (cosMode_mem 1 p) fun x y => ?_, comb_mem 0 0 (cosMode_mem 1 p) (cosMode_mem 1 p) fun x y => ?_⟩
    · simp [cosMode]; ring
    · simp [sinMode]
  | succ m =>
    refine ⟨comb_mem (1 / 2) (1 / 2) (cosMode_mem (m + 2) p) (cosMode_mem m ((1 - X ^ 2) * p)) fun x y => ?_,
      comb_mem (1 / 2) (1 / 2) (sinMode_mem (m + 2) p) (sinMode_mem m ((1 - X ^ 2) * p)) fun x y => ?_⟩
    · have h1 := cos_succ_mul m x
      have h2 := cos_pow_two y m
      simp only [cosMode, eval_mul, eval_sub, eval_one, eval_pow, eval_X]
      linear_combination (cos y ^ (m + 2) * p.eval (sin y)) * h1 + (p.eval (sin y) * (1 / 2) * cos (m * x)) * h2
    · have h1 := cos_succ_mul' m x
      have h2 := cos_pow_two y m
      simp only [sinMode, eval_mul, eval_sub, eval_one, eval_pow, eval_X]
      linear_combination (cos y ^ (m + 2) * p.eval (sin y)) * h1 + (p.eval (sin y) * (1 / 2) * sin (m * x)) * h2

theorem mul_y_mem {f : ℝ → ℝ → ℝ} (hf : f ∈ spherePolys) : (fun x y => cos y * sin x * f x y) ∈ spherePolys := by
  refine mul_mem_of_modes (fun x y => cos y * sin x) (fun m p => ?_) hf
  cases m with
  | zero =>
    refine ⟨comb_mem 1 0 (sinMode_mem 1 p) (cosMode_mem 1 p) fun x y => ?_, comb_mem 0 0 (cosMode_mem 1 p) (cosMode_mem 1 p) fun x y => ?_⟩
    · simp [cosMode, sinMode]; ring
    · simp [sinMode]
  | succ m =>
    refine ⟨comb_mem (1 / 2) (-1 / 2) (sinMode_mem (m + 2) p) (sinMode_mem m ((1 - X ^ 2) * p)) fun x y => ?_,
      comb_mem (-1 / 2) (1 / 2) (cosMode_mem (m + 2) p) (cosMode_mem m ((1 - X ^ 2) * p)) fun x y => ?_⟩
    · have h1 := sin_succ_mul m x
      have h2 := cos_pow_two y m
      simp only [cosMode, sinMode, eval_mul, eval_sub, eval_one, eval_pow, eval_X]
      linear_combination (cos y ^ (m + 2) * p.eval (sin y)) * h1 + (p.eval (sin y) * (-1 / 2) * sin (m * x)) * h2
    · have h1 := sin_succ_mul' m x
      have h2 := cos_pow_two y m
      simp only [cosMode, sinMode, eval_mul, eval_sub, eval_one, eval_pow, eval_X]
      linear_combination (cos y ^ (m + 2) * p.eval (sin y)) * h1 + (p.eval (sin y) * (1 / 2) * cos (m * x)) * h2

/-! ## Harmonics -/

/-- Polynomials for which the mode is a sum of harmonics -/
noncomputable def modeSpace (N : ℕ → ℕ → ℝ) (T : ℕ) (E : ℝ[X] →ₗ[ℝ] ℝ → ℝ → ℝ) : Submodule ℝ ℝ[X] where
  carrier := {p | ∃ s : SpecField T, ∀ x y, E p x y = harmonicSum N s x y}
  zero_mem' := ⟨0, fun x y => by
    rw [map_zero]
    exact (modeSum_eq_zero N legendre (fun _ => .inl rfl) x y).symm⟩
  add_mem' := by
    rintro p p' ⟨s, e⟩ ⟨s', e'⟩
    refine ⟨s + s', fun x y => ?_⟩
    rw [map_add, Pi.add_apply, Pi.add_apply, e, e']
    exact (modeSum_add N legendre s s' x y).symm
  smul_mem' := by
    rintro a p ⟨s, e⟩
    refine ⟨a • s, fun x y => ?_⟩
    rw [map_smul, Pi.smul_apply, Pi.smul_apply, e]
    exact (modeSum_smul N legendre a s x y).symm

noncomputable def modeMap (m : ℕ) (f : ℝ → ℝ) : ℝ[X] →ₗ[ℝ] ℝ → ℝ → ℝ where
  toFun p x y := cos y ^ m * p.eval (sin y) * f x
  map_add' p p' := by
    funext x y
    simp only [eval_add, Pi.add_apply]
    ring
  map_smul' a p := by
    funext x y
    simp only [eval_smul, smul_eq_mul, Pi.smul_apply, RingHom.id_apply]
    ring

/-- Modes of one order are sums of harmonics of that order. -/
theorem mode_harmonic (hN : ∀ n m, N n m ≠ 0) {m : ℕ} {p : ℝ[X]} (hT : m + p.natDegree ≤ T) :
    (∃ s : SpecField T, ∀ x y, cosMode m p x y = harmonicSum N s x y) ∧ ∃ s : SpecField T, ∀ x y, sinMode m p x y = harmonicSum N s x y := by
  have key : ∀ (f : ℝ → ℝ) (c : ℂ), (∀ x, f x = (c * Complex.exp (Complex.I * (m * x : ℝ))).re) → p ∈ modeSpace N T (modeMap m f) := by
    intro f c hf
    refine mem_of_degree_seq (fun i => rodrigues (m + i) m) (fun i => ?_) _ (T - m) (fun i hi => ?_) p (by omega)
    · rw [rodrigues_degree (by omega), Nat.add_sub_cancel_left]
    · obtain ⟨k, hk, hk'⟩ := exists_mode (T := T) (show m ≤ m + i by omega) (by omega)
      refine ⟨oneMode k (((1 / N (m + i) m : ℝ) : ℂ) * c), fun x y => ?_⟩
      have : harmonicSum N (oneMode k (((1 / N (m + i) m : ℝ) : ℂ) * c)) x y = _ :=
        modeSum_single N legendre k (fun l hl => by simp [oneMode, hl]) x y
      rw [this, hk, hk']
      have e : oneMode k (((1 / N (m + i) m : ℝ) : ℂ) * c) k = ((1 / N (m + i) m : ℝ) : ℂ) * c := by simp [oneMode]
      rw [e, mul_assoc (_ : ℂ), Complex.re_ofReal_mul, ← hf]
      have := hN (m + i) m
      change cos y ^ m * (rodrigues (m + i) m).eval (sin y) * f x = _
      unfold legendre
      field_simp
  constructor
  · refine key (fun x => cos (m * x)) 1 fun x => ?_
    rw [one_mul, mul_comm Complex.I, Complex.exp_ofReal_mul_I_re]
  · refine key (fun x => sin (m * x)) (-Complex.I) fun x => ?_
    rw [mul_comm Complex.I, neg_mul, Complex.neg_re, Complex.I_mul_re, Complex.exp_ofReal_mul_I_im, neg_neg]

theorem spherePolys_harmonic {f : ℝ → ℝ → ℝ} (hf : f ∈ spherePolys) :
    ∃ D, ∀ N : ℕ → ℕ → ℝ, (∀ n m, N n m ≠ 0) → ∀ T, D ≤ T → ∃ s : SpecField T, ∀ x y, f x y = harmonicSum N s x y := by
  induction hf using Submodule.span_induction with
  | mem f hf =>
    obtain ⟨m, p, rfl | rfl⟩ := hf
    · exact ⟨m + p.natDegree, fun N hN T hT => (mode_harmonic hN hT).1⟩
    · exact ⟨m + p.natDegree, fun N hN T hT => (mode_harmonic hN hT).2⟩
  | zero => exact ⟨0, fun N _ T _ => ⟨0, fun x y => (modeSum_eq_zero N legendre (fun _ => .inl rfl) x y).symm⟩⟩
  | add f f' _ _ hf hf' =>
    obtain ⟨D, h⟩ := hf
    obtain ⟨D', h'⟩ := hf'
    refine ⟨max D D', fun N hN T hT => ?_⟩
    obtain ⟨s, e⟩ := h N hN T ((le_max_left _ _).trans hT)
    obtain ⟨s', e'⟩ := h' N hN T ((le_max_right _ _).trans hT)
    refine ⟨s + s', fun x y => ?_⟩
    rw [Pi.add_apply, Pi.add_apply, e, e']
    exact (modeSum_add N legendre s s' x y).symm
  | smul a f _ hf =>
    obtain ⟨D, h⟩ := hf
    refine ⟨D, fun N hN T hT => ?_⟩
    obtain ⟨s, e⟩ := h N hN T hT
    refine ⟨a • s, fun x y => ?_⟩
    rw [Pi.smul_apply, Pi.smul_apply, e]
    exact (modeSum_smul ..).symm

/-! ## Polynomials of time and position -/

/-- Sums of powers of time multiplied with polynomials on the sphere -/
noncomputable def timePolys : Submodule ℝ (ℝ → ℝ → ℝ → ℝ) :=
  Submodule.span ℝ {f | ∃ (e : ℕ) (h : ℝ → ℝ → ℝ), h ∈ spherePolys ∧ f = fun t x y => t ^ e * h x y}

theorem timePolys_mul (c : ℝ → ℝ → ℝ → ℝ) (h : ∀ (e : ℕ) (u : ℝ → ℝ → ℝ), u ∈ spherePolys → (fun t x y => c t x y * (t ^ e * u x y)) ∈ timePolys)
    {f : ℝ → ℝ → ℝ → ℝ} (hf : f ∈ timePolys) : (fun t x y => c t x y * f t x y) ∈ timePolys := by
  induction hf using Submodule.span_induction with
  | mem f hf =>
    obtain ⟨e, u, hu, rfl⟩ := hf
    exact h e u hu
  | zero =>
    have : (fun t x y => c t x y * (0 : ℝ → ℝ → ℝ → ℝ) t x y) = 0 := by funext t x y; simp
    rw [this]; exact zero_mem _
  | add f f' _ _ hf hf' =>
    have : (fun t x y => c t x y * (f + f') t x y) = (fun t x y => c t x y * f t x y) + fun t x y => c t x y * f' t x y := by
      funext t x y; simp [mul_add]
    rw [this]; exact add_mem hf hf'
  | smul a f _ hf =>
    have : (fun t x y => c t x y * (a • f) t x y) = a • fun t x y => c t x y * f t x y := by
      funext t x y
      simp only [Pi.smul_apply, smul_eq_mul]
      ring
    rw [this]; exact Submodule.smul_mem _ _ hf

theorem one_mem_spherePolys : (fun _ _ => 1 : ℝ → ℝ → ℝ) ∈ spherePolys := by
  convert cosMode_mem 0 1 using 1
  funext x y
  simp [cosMode]

theorem mvPoly_timePolys (P : MvPolynomial (Fin 4) ℝ) : (fun t x y => P.eval (spacetime t x y)) ∈ timePolys := by
  induction P using MvPolynomial.induction_on with
  | C a =>
    have : (fun t x y => (MvPolynomial.C a).eval (spacetime t x y)) = a • (fun t _ _ => t ^ 0 * 1 : ℝ → ℝ → ℝ → ℝ) := by
      funext t x y; simp
    rw [this]
    exact Submodule.smul_mem _ _ (Submodule.subset_span ⟨0, _, one_mem_spherePolys, rfl⟩)
  | add p q hp hq =>
    have : (fun t x y => (p + q).eval (spacetime t x y)) = (fun t x y => p.eval (spacetime t x y)) + fun t x y => q.eval (spacetime t x y) := by
      funext t x y; simp
    rw [this]; exact add_mem hp hq
  | mul_X p i hp =>
    have : (fun t x y => (p * MvPolynomial.X i).eval (spacetime t x y)) = fun t x y => spacetime t x y i * p.eval (spacetime t x y) := by
      funext t x y; simp [mul_comm]
    rw [this]
    refine timePolys_mul (fun t x y => spacetime t x y i) (fun e u hu => Submodule.subset_span ?_) hp
    fin_cases i
    · refine ⟨e + 1, u, hu, ?_⟩
      funext t x y
      simp [spacetime]; ring
    · refine ⟨e, _, mul_x_mem hu, ?_⟩
      funext t x y
      simp [spacetime]; ring
    · refine ⟨e, _, mul_y_mem hu, ?_⟩
      funext t x y
      simp [spacetime]; ring
    · refine ⟨e, _, mul_sin_mem hu, ?_⟩
      funext t x y
      simp [spacetime]; ring

theorem timePolys_harmonic {f : ℝ → ℝ → ℝ → ℝ} (hf : f ∈ timePolys) :
    ∃ D, ∀ N : ℕ → ℕ → ℝ, (∀ n m, N n m ≠ 0) → ∀ T, D ≤ T →
      ∃ c c' : ℝ → SpecField T, (∀ t, HasDerivAt c (c' t) t) ∧ ∀ t x y, f t x y = harmonicSum N (c t) x y := by
  induction hf using Submodule.span_induction with
  | mem f hf =>
    obtain ⟨e, u, hu, rfl⟩ := hf
    obtain ⟨D, h⟩ := spherePolys_harmonic hu
    refine ⟨D, fun N hN T hT => ?_⟩
    obtain ⟨s, hs⟩ := h N hN T hT
    refine ⟨fun t => t ^ e • s, _, fun t => (hasDerivAt_pow e t).smul_const s, fun t x y => ?_⟩
    beta_reduce
    rw [hs]
    exact (modeSum_smul N legendre _ s x y).symm
  | zero => exact ⟨0, fun N _ T _ => ⟨0, 0, fun t => hasDerivAt_const t 0, fun t x y => (modeSum_eq_zero N legendre (fun _ => .inl rfl) x y).symm⟩⟩
  | add f f' _ _ hf hf' =>
    obtain ⟨D, h⟩ := hf
    obtain ⟨D', h'⟩ := hf'
    refine ⟨max D D', fun N hN T hT => ?_⟩
    obtain ⟨s, _, d, e⟩ := h N hN T ((le_max_left _ _).trans hT)
    obtain ⟨s', _, d', e'⟩ := h' N hN T ((le_max_right _ _).trans hT)
    refine ⟨fun t => s t + s' t, _, fun t => (d t).add (d' t), fun t x y => ?_⟩
    rw [Pi.add_apply, Pi.add_apply, Pi.add_apply, e, e']
    exact (modeSum_add N legendre (s t) (s' t) x y).symm
  | smul a f _ hf =>
    obtain ⟨D, h⟩ := hf
    refine ⟨D, fun N hN T hT => ?_⟩
    obtain ⟨s, _, d, e⟩ := h N hN T hT
    refine ⟨fun t => a • s t, _, fun t => (d t).const_smul a, fun t x y => ?_⟩
    rw [Pi.smul_apply, Pi.smul_apply, Pi.smul_apply, e]
    exact (modeSum_smul N legendre a (s t) x y).symm

/-- A polynomial of time and Cartesian coordinates has coefficients that are differentiable functions of time. -/
theorem mvPoly_harmonic (P : MvPolynomial (Fin 4) ℝ) :
    ∃ D, ∀ N : ℕ → ℕ → ℝ, (∀ n m, N n m ≠ 0) → ∀ T, D ≤ T →
      ∃ c c' : ℝ → SpecField T, (∀ t, HasDerivAt c (c' t) t) ∧ ∀ t x y, P.eval (spacetime t x y) = harmonicSum N (c t) x y :=
  timePolys_harmonic (mvPoly_timePolys P)

end Barotropic
