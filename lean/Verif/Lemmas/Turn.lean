import Verif.Lemmas.Ambient
import Verif.Lemmas.Approx
import Verif.Lemmas.SpherePoly
import Verif.Lemmas.Dealias
import Verif.Lemmas.Parseval
import Verif.Spec.Isotropy
import Verif.Props.Waves
import Mathlib.LinearAlgebra.Matrix.Adjugate

/-!
# Rotations and reflections of functions on the sphere
-/

namespace Barotropic
open Real (cos sin)
open Matrix

variable {F G : (Fin 4 → ℝ) → ℝ} {Q : Matrix (Fin 3) (Fin 3) ℝ} {T : ℕ} {N : ℕ → ℕ → ℝ}

/-- Rotation of the Cartesian coordinates -/
noncomputable def turnL (Q : Matrix (Fin 3) (Fin 3) ℝ) : (Fin 4 → ℝ) →L[ℝ] (Fin 4 → ℝ) :=
  ContinuousLinearMap.pi ![.proj 0, Q 0 0 • .proj 1 + Q 0 1 • .proj 2 + Q 0 2 • .proj 3, Q 1 0 • .proj 1 + Q 1 1 • .proj 2 + Q 1 2 • .proj 3,
    Q 2 0 • .proj 1 + Q 2 1 • .proj 2 + Q 2 2 • .proj 3]

theorem turnL_0 (p : Fin 4 → ℝ) : turnL Q p 0 = p 0 := rfl
theorem turnL_1 (p : Fin 4 → ℝ) : turnL Q p 1 = Q 0 0 * p 1 + Q 0 1 * p 2 + Q 0 2 * p 3 := rfl
theorem turnL_2 (p : Fin 4 → ℝ) : turnL Q p 2 = Q 1 0 * p 1 + Q 1 1 * p 2 + Q 1 2 * p 3 := rfl
theorem turnL_3 (p : Fin 4 → ℝ) : turnL Q p 3 = Q 2 0 * p 1 + Q 2 1 * p 2 + Q 2 2 * p 3 := rfl

theorem turn_smooth (hF : ContDiff ℝ (⊤ : ℕ∞) F) (Q : Matrix (Fin 3) (Fin 3) ℝ) : ContDiff ℝ (⊤ : ℕ∞) fun p => F (turnL Q p) := hF.comp (turnL Q).contDiff

theorem pd_turn (hF : ContDiff ℝ (⊤ : ℕ∞) F) (i : Fin 4) (p : Fin 4 → ℝ) : pd i (fun p => F (turnL Q p)) p =
    turnL Q (Pi.single i 1) 0 * pd 0 F (turnL Q p) + turnL Q (Pi.single i 1) 1 * pd 1 F (turnL Q p) + turnL Q (Pi.single i 1) 2 * pd 2 F (turnL Q p) +
      turnL Q (Pi.single i 1) 3 * pd 3 F (turnL Q p) := by
  rw [← fderiv_pd]
  have h := (hF.differentiable (by simp) (turnL Q p)).hasFDerivAt.comp p (turnL Q).hasFDerivAt
  unfold pd
  change fderiv ℝ (F ∘ turnL Q) p _ = _
  rw [h.fderiv]
  rfl

theorem pd_turn1 (hF : ContDiff ℝ (⊤ : ℕ∞) F) : pd 1 (fun p => F (turnL Q p)) = fun p => Q 0 0 * pd 1 F (turnL Q p) + Q 1 0 * pd 2 F (turnL Q p) + Q 2 0 * pd 3 F (turnL Q p) := by
  funext p
  rw [pd_turn hF, turnL_0, turnL_1, turnL_2, turnL_3]
  simp

theorem pd_turn2 (hF : ContDiff ℝ (⊤ : ℕ∞) F) : pd 2 (fun p => F (turnL Q p)) = fun p => Q 0 1 * pd 1 F (turnL Q p) + Q 1 1 * pd 2 F (turnL Q p) + Q 2 1 * pd 3 F (turnL Q p) := by
  funext p
  rw [pd_turn hF, turnL_0, turnL_1, turnL_2, turnL_3]
  simp

theorem pd_turn3 (hF : ContDiff ℝ (⊤ : ℕ∞) F) : pd 3 (fun p => F (turnL Q p)) = fun p => Q 0 2 * pd 1 F (turnL Q p) + Q 1 2 * pd 2 F (turnL Q p) + Q 2 2 * pd 3 F (turnL Q p) := by
  funext p
  rw [pd_turn hF, turnL_0, turnL_1, turnL_2, turnL_3]
  simp

theorem pd_lin {A B C : (Fin 4 → ℝ) → ℝ} (hA : ContDiff ℝ (⊤ : ℕ∞) A) (hB : ContDiff ℝ (⊤ : ℕ∞) B) (hC : ContDiff ℝ (⊤ : ℕ∞) C) (a b c : ℝ) (i : Fin 4) :
    pd i (fun p => a * A p + b * B p + c * C p) = fun p => a * pd i A p + b * pd i B p + c * pd i C p := by
  funext p
  have dA := (hA.differentiable (by simp) p).hasFDerivAt.const_mul a
  have dB := (hB.differentiable (by simp) p).hasFDerivAt.const_mul b
  have dC := (hC.differentiable (by simp) p).hasFDerivAt.const_mul c
  unfold pd
  change fderiv ℝ (((fun y => a * A y) + fun y => b * B y) + fun y => c * C y) p _ = _
  rw [((dA.add dB).add dC).fderiv]
  rfl

theorem ortho_entry (hQ : Q * Qᵀ = 1) (i j : Fin 3) : Q i 0 * Q j 0 + Q i 1 * Q j 1 + Q i 2 * Q j 2 = if i = j then 1 else 0 := by
  have := congrFun (congrFun hQ i) j
  rw [Matrix.mul_apply, Fin.sum_univ_three, Matrix.one_apply] at this
  exact this

set_option maxHeartbeats 1000000 in
theorem lapl_turn (hF : ContDiff ℝ (⊤ : ℕ∞) F) (hQ : Q * Qᵀ = 1) (p : Fin 4 → ℝ) : lapl (fun p => F (turnL Q p)) p = lapl F (turnL Q p) := by
  have h1 := fun i => pd_smooth hF i
  have l := fun (a b c : ℝ) i => pd_lin (h1 1) (h1 2) (h1 3) a b c i
  have s := fun (a b c : ℝ) => ((contDiff_const (c := a)).mul (h1 1)).add ((contDiff_const (c := b)).mul (h1 2)) |>.add ((contDiff_const (c := c)).mul (h1 3))
  have e := fun (a b c : ℝ) => pd_turn1 (Q := Q) (F := fun p => a * pd 1 F p + b * pd 2 F p + c * pd 3 F p) (s a b c)
  have e' := fun (a b c : ℝ) => pd_turn2 (Q := Q) (F := fun p => a * pd 1 F p + b * pd 2 F p + c * pd 3 F p) (s a b c)
  have e'' := fun (a b c : ℝ) => pd_turn3 (Q := Q) (F := fun p => a * pd 1 F p + b * pd 2 F p + c * pd 3 F p) (s a b c)
  unfold lapl
  rw [pd_turn1 hF, pd_turn2 hF, pd_turn3 hF]
  simp only [e, e', e'', l, turnL_1, turnL_2, turnL_3]
  rw [pd_comm hF 2 1, pd_comm hF 3 1, pd_comm hF 3 2]
  have o := ortho_entry hQ
  have o00 := o 0 0
  have o11 := o 1 1
  have o22 := o 2 2
  have o01 := o 0 1
  have o02 := o 0 2
  have o12 := o 1 2
  simp only [↓reduceIte, show ((0 : Fin 3) = 1) = False by simp, show ((0 : Fin 3) = 2) = False by simp, show ((1 : Fin 3) = 2) = False by simp] at o00 o11 o22 o01 o02 o12
  generalize pd 1 (pd 1 F) (turnL Q p) = H11
  generalize pd 2 (pd 2 F) (turnL Q p) = H22
  generalize pd 3 (pd 3 F) (turnL Q p) = H33
  generalize pd 1 (pd 2 F) (turnL Q p) = H12
  generalize pd 1 (pd 3 F) (turnL Q p) = H13
  generalize pd 2 (pd 3 F) (turnL Q p) = H23
  linear_combination H11 * o00 + H22 * o11 + H33 * o22 + 2 * H12 * o01 + 2 * H13 * o02 + 2 * H23 * o12

/-- Triple product of the position and two gradients -/
noncomputable def triple (F G : (Fin 4 → ℝ) → ℝ) (p : Fin 4 → ℝ) : ℝ :=
  p 1 * (pd 2 F p * pd 3 G p - pd 3 F p * pd 2 G p) + p 2 * (pd 3 F p * pd 1 G p - pd 1 F p * pd 3 G p) + p 3 * (pd 1 F p * pd 2 G p - pd 2 F p * pd 1 G p)

theorem cofactor (hQ : Q * Qᵀ = 1) : Q.adjugate = Q.det • Qᵀ := by
  calc Q.adjugate = Q.adjugate * (Q * Qᵀ) := by rw [hQ, mul_one]
    _ = Q.det • Qᵀ := by rw [← mul_assoc, Matrix.adjugate_mul, Matrix.smul_mul, one_mul]

set_option maxHeartbeats 1000000 in
theorem triple_turn (hF : ContDiff ℝ (⊤ : ℕ∞) F) (hG : ContDiff ℝ (⊤ : ℕ∞) G) (hQ : Q * Qᵀ = 1) (p : Fin 4 → ℝ) :
    triple (fun p => F (turnL Q p)) (fun p => G (turnL Q p)) p = Q.det * triple F G (turnL Q p) := by
  have c := cofactor hQ
  rw [Matrix.adjugate_fin_three] at c
  have e := fun i j => congrFun (congrFun c i) j
  have e00 := e 0 0
  have e01 := e 0 1
  have e02 := e 0 2
  have e10 := e 1 0
  have e11 := e 1 1
  have e12 := e 1 2
  have e20 := e 2 0
  have e21 := e 2 1
  have e22 := e 2 2
  simp only [Matrix.smul_apply, Matrix.transpose_apply, smul_eq_mul, Matrix.of_apply, Matrix.cons_val', Matrix.cons_val_zero, Matrix.cons_val_one, Matrix.cons_val] at e00 e01 e02 e10 e11 e12 e20 e21 e22
  unfold triple
  rw [pd_turn1 hF, pd_turn2 hF, pd_turn3 hF, pd_turn1 hG, pd_turn2 hG, pd_turn3 hG]
  simp only [turnL_1, turnL_2, turnL_3]
  generalize Q.det = d at *
  generalize pd 1 F (turnL Q p) = a1
  generalize pd 2 F (turnL Q p) = a2
  generalize pd 3 F (turnL Q p) = a3
  generalize pd 1 G (turnL Q p) = b1
  generalize pd 2 G (turnL Q p) = b2
  generalize pd 3 G (turnL Q p) = b3
  linear_combination p 1 * (a2 * b3 - a3 * b2) * e00 + p 1 * (a3 * b1 - a1 * b3) * e01 + p 1 * (a1 * b2 - a2 * b1) * e02 +
    p 2 * (a2 * b3 - a3 * b2) * e10 + p 2 * (a3 * b1 - a1 * b3) * e11 + p 2 * (a1 * b2 - a2 * b1) * e12 +
    p 3 * (a2 * b3 - a3 * b2) * e20 + p 3 * (a3 * b1 - a1 * b3) * e21 + p 3 * (a1 * b2 - a2 * b1) * e22

theorem sphereFlux_triple (hF : ContDiff ℝ (⊤ : ℕ∞) F) (hG : ContDiff ℝ (⊤ : ℕ∞) G) {r : ℝ} (hr : r ≠ 0) (t x : ℝ) {y : ℝ} (hy : cos y ≠ 0) :
    sphereFlux r (onSphere F t) (onSphere G t) x y = onSphere (triple G F) t x y / r ^ 2 := by
  rw [sphereFlux_onSphere hF hG hr t x hy]
  congr 1
  have s1 : (spacetime t x y) 1 = cos y * cos x := rfl
  have s2 : (spacetime t x y) 2 = cos y * sin x := rfl
  have s3 : (spacetime t x y) 3 = sin y := rfl
  unfold east north onSphere triple
  rw [s1, s2, s3]
  have hx := Real.sin_sq_add_cos_sq x
  generalize pd 1 F (spacetime t x y) = a1
  generalize pd 2 F (spacetime t x y) = a2
  generalize pd 3 F (spacetime t x y) = a3
  generalize pd 1 G (spacetime t x y) = b1
  generalize pd 2 G (spacetime t x y) = b2
  generalize pd 3 G (spacetime t x y) = b3
  linear_combination sin y * (b1 * a2 - b2 * a1) * hx

/-! ## Points of the sphere -/

theorem dense_nonpolar : Dense {y : ℝ | cos y ≠ 0} := by
  have : {y : ℝ | cos y = 0}.Countable := by
    have : {y : ℝ | cos y = 0} ⊆ Set.range fun k : ℤ => (2 * k + 1) * Real.pi / 2 := by
      intro y hy
      obtain ⟨k, hk⟩ := Real.cos_eq_zero_iff.mp hy
      exact ⟨k, hk.symm⟩
    exact (Set.countable_range _).mono this
  exact this.dense_compl ℝ

theorem onSphere_ext (hF : Continuous F) (hG : Continuous G) {t : ℝ} (h : ∀ x y, cos y ≠ 0 → onSphere F t x y = onSphere G t x y) (x y : ℝ) :
    onSphere F t x y = onSphere G t x y := by
  have hc : Continuous fun y => spacetime t x y := by
    refine continuous_pi fun i => ?_
    fin_cases i
    · exact continuous_const
    · exact Real.continuous_cos.mul continuous_const
    · exact Real.continuous_cos.mul continuous_const
    · exact Real.continuous_sin
  exact congrFun ((hF.comp hc).ext_on dense_nonpolar (hG.comp hc) fun y hy => h x y hy) y

theorem exists_lonlat {p : Fin 4 → ℝ} (hp : p 1 ^ 2 + p 2 ^ 2 + p 3 ^ 2 = 1) : ∃ x y, spacetime (p 0) x y = p := by
  refine ⟨Complex.arg ⟨p 1, p 2⟩, Real.arcsin (p 3), ?_⟩
  have h3 : |p 3| ≤ 1 := by
    rw [← sq_le_one_iff_abs_le_one]
    nlinarith [sq_nonneg (p 1), sq_nonneg (p 2)]
  obtain ⟨h3a, h3b⟩ := abs_le.mp h3
  have hc : cos (Real.arcsin (p 3)) = ‖(⟨p 1, p 2⟩ : ℂ)‖ := by
    rw [Real.cos_arcsin, Complex.norm_def]
    congr 1
    simp only [Complex.normSq_mk]
    linarith
  have e1 : ‖(⟨p 1, p 2⟩ : ℂ)‖ * cos (Complex.arg ⟨p 1, p 2⟩) = p 1 := Complex.norm_mul_cos_arg _
  have e2 : ‖(⟨p 1, p 2⟩ : ℂ)‖ * sin (Complex.arg ⟨p 1, p 2⟩) = p 2 := Complex.norm_mul_sin_arg _
  funext i
  fin_cases i
  · rfl
  · change cos (Real.arcsin (p 3)) * cos _ = p 1
    rw [hc, e1]
  · change cos (Real.arcsin (p 3)) * sin _ = p 2
    rw [hc, e2]
  · exact Real.sin_arcsin h3a h3b

theorem spacetime_unit (t x y : ℝ) : (spacetime t x y) 1 ^ 2 + (spacetime t x y) 2 ^ 2 + (spacetime t x y) 3 ^ 2 = 1 := by
  change (cos y * cos x) ^ 2 + (cos y * sin x) ^ 2 + sin y ^ 2 = 1
  have hx := Real.sin_sq_add_cos_sq x
  have hy := Real.sin_sq_add_cos_sq y
  linear_combination cos y ^ 2 * hx + hy

theorem turnL_unit (hQ : Qᵀ * Q = 1) {p : Fin 4 → ℝ} (hp : p 1 ^ 2 + p 2 ^ 2 + p 3 ^ 2 = 1) : turnL Q p 1 ^ 2 + turnL Q p 2 ^ 2 + turnL Q p 3 ^ 2 = 1 := by
  have o := ortho_entry (Q := Qᵀ) (by rw [Matrix.transpose_transpose]; exact hQ)
  simp only [Matrix.transpose_apply] at o
  have o00 := o 0 0
  have o11 := o 1 1
  have o22 := o 2 2
  have o01 := o 0 1
  have o02 := o 0 2
  have o12 := o 1 2
  simp only [↓reduceIte, show ((0 : Fin 3) = 1) = False by simp, show ((0 : Fin 3) = 2) = False by simp, show ((1 : Fin 3) = 2) = False by simp] at o00 o11 o22 o01 o02 o12
  rw [turnL_1, turnL_2, turnL_3]
  linear_combination hp + p 1 ^ 2 * o00 + p 2 ^ 2 * o11 + p 3 ^ 2 * o22 + 2 * p 1 * p 2 * o01 + 2 * p 1 * p 3 * o02 + 2 * p 2 * p 3 * o12

end Barotropic
