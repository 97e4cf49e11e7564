import Verif.Spec.Sphere
import Mathlib.Analysis.SpecialFunctions.Trigonometric.Deriv
import Mathlib.Analysis.Calculus.ContDiff.Operations
import Mathlib.Analysis.Calculus.Deriv.Prod
import Mathlib.MeasureTheory.Integral.DivergenceTheorem
import Mathlib.Analysis.Calculus.ParametricIntervalIntegral
import Mathlib.MeasureTheory.Integral.DominatedConvergence

/-!
# Gauss' theorem on the sphere
-/

namespace Barotropic
open Real (cos sin)

namespace SphereSmooth
variable {F G : ℝ → ℝ → ℝ}

theorem mul (hF : SphereSmooth F) (hG : SphereSmooth G) : SphereSmooth fun x y => F x y * G x y :=
  ⟨hF.smooth.mul hG.smooth, fun x y => by rw [hF.periodic, hG.periodic]⟩

theorem add (hF : SphereSmooth F) (hG : SphereSmooth G) : SphereSmooth fun x y => F x y + G x y :=
  ⟨hF.smooth.add hG.smooth, fun x y => by rw [hF.periodic, hG.periodic]⟩

theorem sub (hF : SphereSmooth F) (hG : SphereSmooth G) : SphereSmooth fun x y => F x y - G x y :=
  ⟨hF.smooth.sub hG.smooth, fun x y => by rw [hF.periodic, hG.periodic]⟩

theorem neg (hF : SphereSmooth F) : SphereSmooth fun x y => -F x y :=
  ⟨hF.smooth.neg, fun x y => by rw [hF.periodic]⟩

theorem div_const (hF : SphereSmooth F) (c : ℝ) : SphereSmooth fun x y => F x y / c :=
  ⟨hF.smooth.div_const c, fun x y => by rw [hF.periodic]⟩

theorem pow (hF : SphereSmooth F) (p : ℕ) : SphereSmooth fun x y => F x y ^ p :=
  ⟨hF.smooth.pow p, fun x y => by rw [hF.periodic]⟩

theorem lat {f : ℝ → ℝ} (hf : ContDiff ℝ (⊤ : ℕ∞) f) : SphereSmooth fun _ y => f y :=
  ⟨hf.comp contDiff_snd, fun _ _ => rfl⟩

theorem differentiable (hF : SphereSmooth F) : Differentiable ℝ fun p : ℝ × ℝ => F p.1 p.2 := hF.smooth.differentiable (by simp)

theorem hasDerivAt_lon (hF : SphereSmooth F) (x y : ℝ) : HasDerivAt (fun x => F x y) (dlon F x y) x := by
  have h : DifferentiableAt ℝ (fun x => F x y) x :=
    DifferentiableAt.comp (g := fun p : ℝ × ℝ => F p.1 p.2) (f := fun x => (x, y)) x (hF.differentiable (x, y))
      (differentiableAt_id.prodMk (differentiableAt_const y))
  exact h.hasDerivAt

theorem hasDerivAt_lat (hF : SphereSmooth F) (x y : ℝ) : HasDerivAt (fun y => F x y) (dlat F x y) y := by
  have h : DifferentiableAt ℝ (fun y => F x y) y :=
    DifferentiableAt.comp (g := fun p : ℝ × ℝ => F p.1 p.2) (f := fun y => (x, y)) y (hF.differentiable (x, y))
      ((differentiableAt_const x).prodMk differentiableAt_id)
  exact h.hasDerivAt

end SphereSmooth

/-- Product rule -/
theorem sphereDiv_mul {A U V : ℝ → ℝ → ℝ} (hA : SphereSmooth A) (hU : SphereSmooth U) (hV : SphereSmooth V) {r : ℝ} (hr : r ≠ 0) (x : ℝ) {y : ℝ}
    (hy : cos y ≠ 0) : sphereDiv r (fun x y => A x y * U x y) (fun x y => A x y * V x y) x y =
      A x y * sphereDiv r U V x y + (U x y * (sphereGrad r A x y).1 + V x y * (sphereGrad r A x y).2) := by
  have hc : SphereSmooth fun x y => V x y * cos y := hV.mul (.lat Real.contDiff_cos)
  have h1 : dlon (fun x y => A x y * U x y) x y = dlon A x y * U x y + A x y * dlon U x y :=
    ((hA.hasDerivAt_lon x y).mul (hU.hasDerivAt_lon x y)).deriv
  have h2 : dlat (fun x y => A x y * V x y * cos y) x y = dlat A x y * (V x y * cos y) + A x y * dlat (fun x y => V x y * cos y) x y := by
    have := ((hA.hasDerivAt_lat x y).mul (hc.hasDerivAt_lat x y)).deriv
    rw [← this]
    unfold dlat
    congr 1
    funext y
    simp only [Pi.mul_apply]
    ring
  unfold sphereDiv sphereGrad
  rw [h1, h2]
  field_simp
  ring

/-- Gauss' theorem: integrals of divergences are zero. -/
theorem sphereIntegral_div {F G H : ℝ → ℝ → ℝ} (hF : SphereSmooth F) (hG : SphereSmooth G) {r : ℝ} (hr : r ≠ 0)
    (hH : ∀ x y, cos y ≠ 0 → H x y = sphereDiv r F G x y) : sphereIntegral r H = 0 := by
  have hc : SphereSmooth fun x y => G x y * cos y := hG.mul (.lat Real.contDiff_cos)
  let f : ℝ × ℝ → ℝ := fun p => F p.1 p.2
  let k : ℝ × ℝ → ℝ := fun p => G p.1 p.2 * cos p.2
  have e1 : ∀ x y, fderiv ℝ f (x, y) (1, 0) = dlon F x y := by
    intro x y
    have h0 : HasDerivAt (fun x : ℝ => (x, y)) ((1 : ℝ), (0 : ℝ)) x := HasDerivAt.prodMk (hasDerivAt_id x) (hasDerivAt_const x y)
    have h1 := HasFDerivAt.comp_hasDerivAt (l := f) x (hF.differentiable (x, y)).hasFDerivAt h0
    exact h1.deriv.symm
  have e2 : ∀ x y, fderiv ℝ k (x, y) (0, 1) = dlat (fun x y => G x y * cos y) x y := by
    intro x y
    have h0 : HasDerivAt (fun y : ℝ => (x, y)) ((0 : ℝ), (1 : ℝ)) y := HasDerivAt.prodMk (hasDerivAt_const y x) (hasDerivAt_id y)
    have h1 := HasFDerivAt.comp_hasDerivAt (l := k) y (hc.differentiable (x, y)).hasFDerivAt h0
    exact h1.deriv.symm
  have cf : Continuous fun p => fderiv ℝ f p (1, 0) + fderiv ℝ k p (0, 1) :=
    ((hF.smooth.continuous_fderiv (by simp)).clm_apply continuous_const).add
      ((hc.smooth.continuous_fderiv (by simp)).clm_apply continuous_const)
  have key := MeasureTheory.integral2_divergence_prod_of_hasFDerivAt f k (fderiv ℝ f) (fderiv ℝ k) 0 (-(Real.pi / 2)) (2 * Real.pi) (Real.pi / 2)
    hF.smooth.continuous.continuousOn hc.smooth.continuous.continuousOn (fun p _ => (hF.differentiable p).hasFDerivAt)
    (fun p _ => (hc.differentiable p).hasFDerivAt)
    (cf.continuousOn.integrableOn_compact (isCompact_uIcc.prod isCompact_uIcc))
  have b1 : ∀ x, k (x, Real.pi / 2) = 0 := fun x => by simp [k]
  have b2 : ∀ x, k (x, -(Real.pi / 2)) = 0 := fun x => by simp [k]
  have b3 : ∀ y, f (2 * Real.pi, y) = f (0, y) := fun y => by
    have := hF.periodic 0 y
    rwa [zero_add] at this
  simp only [b1, b2, b3, intervalIntegral.integral_zero, sub_zero, zero_add, sub_self, e1, e2] at key
  have hpi := Real.pi_pos
  have hin : ∀ x, ∫ y in -(Real.pi / 2)..Real.pi / 2, H x y * cos y =
      (∫ y in -(Real.pi / 2)..Real.pi / 2, (dlon F x y + dlat (fun x y => G x y * cos y) x y)) / r := by
    intro x
    rw [← intervalIntegral.integral_div]
    refine intervalIntegral.integral_congr_Ioo_of_le (by linarith) fun y hy => ?_
    have hcos : cos y ≠ 0 := (Real.cos_pos_of_mem_Ioo hy).ne'
    change H x y * cos y = _
    rw [hH x y hcos]
    unfold sphereDiv
    field_simp
  unfold sphereIntegral
  simp only [hin]
  rw [intervalIntegral.integral_div, key]
  simp

/-! ## Linearity -/

theorem sphereIntegral_congr {F G : ℝ → ℝ → ℝ} (r : ℝ) (h : ∀ x y, cos y ≠ 0 → F x y = G x y) : sphereIntegral r F = sphereIntegral r G := by
  have e : (fun x y => F x y * cos y) = fun x y => G x y * cos y := by
    funext x y
    by_cases hy : cos y = 0
    · simp [hy]
    · rw [h x y hy]
  unfold sphereIntegral
  simp only [congrFun (congrFun e _) _]

theorem sphereIntegral_lin {F G : ℝ → ℝ → ℝ} (hF : SphereSmooth F) (hG : SphereSmooth G) (r a b : ℝ) :
    sphereIntegral r (fun x y => a * F x y + b * G x y) = a * sphereIntegral r F + b * sphereIntegral r G := by
  have cF : Continuous fun p : ℝ × ℝ => F p.1 p.2 * cos p.2 := hF.smooth.continuous.mul (Real.continuous_cos.comp continuous_snd)
  have cG : Continuous fun p : ℝ × ℝ => G p.1 p.2 * cos p.2 := hG.smooth.continuous.mul (Real.continuous_cos.comp continuous_snd)
  have iF : Continuous fun x => ∫ y in -(Real.pi / 2)..Real.pi / 2, F x y * cos y :=
    intervalIntegral.continuous_parametric_intervalIntegral_of_continuous' (f := fun x y => F x y * cos y) cF _ _
  have iG : Continuous fun x => ∫ y in -(Real.pi / 2)..Real.pi / 2, G x y * cos y :=
    intervalIntegral.continuous_parametric_intervalIntegral_of_continuous' (f := fun x y => G x y * cos y) cG _ _
  have inner : ∀ x, ∫ y in -(Real.pi / 2)..Real.pi / 2, (a * F x y + b * G x y) * cos y =
      a * (∫ y in -(Real.pi / 2)..Real.pi / 2, F x y * cos y) + b * ∫ y in -(Real.pi / 2)..Real.pi / 2, G x y * cos y := by
    intro x
    have cFx : Continuous fun y => F x y * cos y := cF.comp (continuous_const.prodMk continuous_id)
    have cGx : Continuous fun y => G x y * cos y := cG.comp (continuous_const.prodMk continuous_id)
    rw [← intervalIntegral.integral_const_mul, ← intervalIntegral.integral_const_mul,
      ← intervalIntegral.integral_add ((cFx.const_mul a).intervalIntegrable _ _) ((cGx.const_mul b).intervalIntegrable _ _)]
    congr 1
    funext y
    ring
  unfold sphereIntegral
  simp only [inner]
  rw [intervalIntegral.integral_add ((iF.const_mul a).intervalIntegrable _ _) ((iG.const_mul b).intervalIntegrable _ _),
    intervalIntegral.integral_const_mul, intervalIntegral.integral_const_mul]
  ring

theorem sphereDiv_lin {F F' G G' : ℝ → ℝ → ℝ} (hF : SphereSmooth F) (hF' : SphereSmooth F') (hG : SphereSmooth G) (hG' : SphereSmooth G')
    (r a b x y : ℝ) : sphereDiv r (fun x y => a * F x y + b * F' x y) (fun x y => a * G x y + b * G' x y) x y =
      a * sphereDiv r F G x y + b * sphereDiv r F' G' x y := by
  have hc : SphereSmooth fun x y => G x y * cos y := hG.mul (.lat Real.contDiff_cos)
  have hc' : SphereSmooth fun x y => G' x y * cos y := hG'.mul (.lat Real.contDiff_cos)
  have h1 : dlon (fun x y => a * F x y + b * F' x y) x y = a * dlon F x y + b * dlon F' x y :=
    (((hF.hasDerivAt_lon x y).const_mul a).add ((hF'.hasDerivAt_lon x y).const_mul b)).deriv
  have h2 : dlat (fun x y => (a * G x y + b * G' x y) * cos y) x y =
      a * dlat (fun x y => G x y * cos y) x y + b * dlat (fun x y => G' x y * cos y) x y := by
    have := (((hc.hasDerivAt_lat x y).const_mul a).add ((hc'.hasDerivAt_lat x y).const_mul b)).deriv
    rw [← this]
    unfold dlat
    congr 1
    funext y
    simp only [Pi.add_apply]
    ring
  unfold sphereDiv
  rw [h1, h2]
  ring

/-! ## Green's identity -/

/-- `(Bx, By)` is the gradient of a function, `L` its divergence: `∫ ∇A·∇B = -∫ A ΔB` -/
theorem sphereIntegral_green {A Bx By L : ℝ → ℝ → ℝ} (hA : SphereSmooth A) (hx : SphereSmooth Bx) (hy : SphereSmooth By) (hL : SphereSmooth L)
    {Ax Ay : ℝ → ℝ → ℝ} (hAx : SphereSmooth Ax) (hAy : SphereSmooth Ay) {r : ℝ} (hr : r ≠ 0)
    (hgrad : ∀ x y, cos y ≠ 0 → sphereGrad r A x y = (Ax x y, Ay x y))
    (hdiv : ∀ x y, cos y ≠ 0 → sphereDiv r Bx By x y = L x y) :
    sphereIntegral r (fun x y => Ax x y * Bx x y + Ay x y * By x y) = -sphereIntegral r fun x y => A x y * L x y := by
  have h := sphereIntegral_div (hA.mul hx) (hA.mul hy) hr
    (H := fun x y => 1 * (Ax x y * Bx x y + Ay x y * By x y) + 1 * (A x y * L x y)) fun x y h0 => by
      rw [sphereDiv_mul hA hx hy hr x h0, hgrad x y h0, hdiv x y h0]
      ring
  rw [sphereIntegral_lin ((hAx.mul hx).add (hAy.mul hy)) (hA.mul hL)] at h
  linarith

/-! ## Flows -/

/-- `Q` is advected by the non-divergent wind `(U, V)` with streamfunction `Ψ`; `R` is the divergence of its flux. -/
structure Flow (r : ℝ) (Q Ψ U V R : ℝ → ℝ → ℝ) : Prop where
  sQ : SphereSmooth Q
  sΨ : SphereSmooth Ψ
  sU : SphereSmooth U
  sV : SphereSmooth V
  sR : SphereSmooth R
  wind : ∀ x y, cos y ≠ 0 → sphereGrad r Ψ x y = (V x y, -U x y)
  div : ∀ x y, cos y ≠ 0 → sphereDiv r U V x y = 0
  adv : ∀ x y, cos y ≠ 0 → R x y = U x y * (sphereGrad r Q x y).1 + V x y * (sphereGrad r Q x y).2

variable {r : ℝ} {Q Ψ U V R : ℝ → ℝ → ℝ}

theorem sphereGrad_pow {Q : ℝ → ℝ → ℝ} (hQ : SphereSmooth Q) (r : ℝ) (p : ℕ) (x y : ℝ) :
    sphereGrad r (fun x y => Q x y ^ (p + 1)) x y =
      ((p + 1) * Q x y ^ p * (sphereGrad r Q x y).1, (p + 1) * Q x y ^ p * (sphereGrad r Q x y).2) := by
  have h1 : dlon (fun x y => Q x y ^ (p + 1)) x y = (p + 1) * Q x y ^ p * dlon Q x y := by
    refine ((hQ.hasDerivAt_lon x y).pow (p + 1)).deriv.trans ?_
    simp
  have h2 : dlat (fun x y => Q x y ^ (p + 1)) x y = (p + 1) * Q x y ^ p * dlat Q x y := by
    refine ((hQ.hasDerivAt_lat x y).pow (p + 1)).deriv.trans ?_
    simp
  unfold sphereGrad
  rw [h1, h2]
  simp only [mul_div_assoc]

theorem sphereGrad_mul {A Q : ℝ → ℝ → ℝ} (hA : SphereSmooth A) (hQ : SphereSmooth Q) (r x y : ℝ) :
    sphereGrad r (fun x y => A x y * Q x y) x y =
      ((sphereGrad r A x y).1 * Q x y + A x y * (sphereGrad r Q x y).1, (sphereGrad r A x y).2 * Q x y + A x y * (sphereGrad r Q x y).2) := by
  have h1 : dlon (fun x y => A x y * Q x y) x y = dlon A x y * Q x y + A x y * dlon Q x y :=
    ((hA.hasDerivAt_lon x y).mul (hQ.hasDerivAt_lon x y)).deriv
  have h2 : dlat (fun x y => A x y * Q x y) x y = dlat A x y * Q x y + A x y * dlat Q x y :=
    ((hA.hasDerivAt_lat x y).mul (hQ.hasDerivAt_lat x y)).deriv
  unfold sphereGrad
  rw [h1, h2]
  refine Prod.ext ?_ ?_ <;> simp only <;> ring

theorem sphereGrad_sin (r x y : ℝ) : sphereGrad r (fun _ y => sin y) x y = (0, cos y / r) := by
  have h1 : dlon (fun _ y => sin y) x y = 0 := by simp [dlon]
  have h2 : dlat (fun _ y => sin y) x y = cos y := by simp [dlat]
  simp [sphereGrad, h1, h2]

namespace Flow

/-- Advection of powers: all moments of `Q` are conserved. -/
theorem casimir (h : Flow r Q Ψ U V R) (hr : r ≠ 0) (p : ℕ) : sphereIntegral r (fun x y => Q x y ^ p * R x y) = 0 := by
  have hA : SphereSmooth fun x y => Q x y ^ (p + 1) / (p + 1) := (h.sQ.pow (p + 1)).div_const _
  refine sphereIntegral_div (hA.mul h.sU) (hA.mul h.sV) hr fun x y h0 => ?_
  have hp : (p : ℝ) + 1 ≠ 0 := by positivity
  have hg : sphereGrad r (fun x y => Q x y ^ (p + 1) / (p + 1)) x y = (Q x y ^ p * (sphereGrad r Q x y).1, Q x y ^ p * (sphereGrad r Q x y).2) := by
    have := sphereGrad_pow h.sQ r p x y
    unfold sphereGrad at this ⊢
    have d1 : dlon (fun x y => Q x y ^ (p + 1) / (p + 1)) x y = dlon (fun x y => Q x y ^ (p + 1)) x y / (p + 1) := by
      simp [dlon]
    have d2 : dlat (fun x y => Q x y ^ (p + 1) / (p + 1)) x y = dlat (fun x y => Q x y ^ (p + 1)) x y / (p + 1) := by
      simp [dlat]
    have t1 := (Prod.ext_iff.mp this).1
    have t2 := (Prod.ext_iff.mp this).2
    simp only at t1 t2
    rw [d1, d2, div_right_comm, div_right_comm _ _ r, t1, t2]
    refine Prod.ext ?_ ?_ <;> simp only <;> field_simp
  rw [sphereDiv_mul hA h.sU h.sV hr x h0, h.div x y h0, hg, h.adv x y h0]
  ring

/-- Energy -/
theorem energy (h : Flow r Q Ψ U V R) (hr : r ≠ 0) : sphereIntegral r (fun x y => Ψ x y * R x y) = 0 := by
  have hA := h.sΨ.mul h.sQ
  refine sphereIntegral_div (hA.mul h.sU) (hA.mul h.sV) hr fun x y h0 => ?_
  rw [sphereDiv_mul hA h.sU h.sV hr x h0, h.div x y h0, sphereGrad_mul h.sΨ h.sQ, h.wind x y h0, h.adv x y h0]
  ring

/-- Angular momentum: if `Q` is the absolute vorticity (and a constant) -/
theorem momentum (h : Flow r Q Ψ U V R) (hr : r ≠ 0) {Ω mean : ℝ}
    (hc : ∀ x y, cos y ≠ 0 → Q x y = sphereCurl r U V x y + 2 * Ω * sin y + mean) : sphereIntegral r (fun x y => sin y * R x y) = 0 := by
  have hsin : SphereSmooth fun _ y => sin y := .lat Real.contDiff_sin
  have hcos : SphereSmooth fun _ y => cos y := .lat Real.contDiff_cos
  have hA := hsin.mul h.sQ
  have hf : SphereSmooth fun _ y => (2 * Ω * sin y + mean) * cos y :=
    .lat (((contDiff_const.mul Real.contDiff_sin).add contDiff_const).mul Real.contDiff_cos)
  have hF2 : SphereSmooth fun x y => cos y * (V x y ^ 2 - U x y ^ 2) / 2 := (hcos.mul ((h.sV.pow 2).sub (h.sU.pow 2))).div_const 2
  have hG2 : SphereSmooth fun x y => -(U x y * V x y * cos y) := ((h.sU.mul h.sV).mul hcos).neg
  have hF3 : SphereSmooth fun x y => Ψ x y * ((2 * Ω * sin y + mean) * cos y) := h.sΨ.mul hf
  have hz : SphereSmooth fun _ _ => (0 : ℝ) := .lat contDiff_const
  have hF23 : SphereSmooth fun x y => 1 * (cos y * (V x y ^ 2 - U x y ^ 2) / 2) + 1 * (Ψ x y * ((2 * Ω * sin y + mean) * cos y)) := by
    simpa using hF2.add hF3
  have hG23 : SphereSmooth fun x y => 1 * -(U x y * V x y * cos y) + 1 * 0 := by simpa using hG2
  have hF : SphereSmooth fun x y => 1 * (sin y * Q x y * U x y) +
      (-r⁻¹) * (1 * (cos y * (V x y ^ 2 - U x y ^ 2) / 2) + 1 * (Ψ x y * ((2 * Ω * sin y + mean) * cos y))) :=
    ((SphereSmooth.lat contDiff_const).mul (hA.mul h.sU)).add ((SphereSmooth.lat contDiff_const).mul hF23)
  have hG : SphereSmooth fun x y => 1 * (sin y * Q x y * V x y) + (-r⁻¹) * (1 * -(U x y * V x y * cos y) + 1 * 0) :=
    ((SphereSmooth.lat contDiff_const).mul (hA.mul h.sV)).add ((SphereSmooth.lat contDiff_const).mul hG23)
  refine sphereIntegral_div hF hG hr fun x y h0 => ?_
  rw [sphereDiv_lin (hA.mul h.sU) hF23 (hA.mul h.sV) hG23, sphereDiv_lin hF2 hF3 hG2 hz, sphereDiv_mul hA h.sU h.sV hr x h0, h.div x y h0,
    sphereGrad_mul hsin h.sQ, sphereGrad_sin, h.adv x y h0]
  have hd := h.div x y h0
  have hUc := h.sU.mul hcos
  have hVc := h.sV.mul hcos
  have d1 : dlon (fun x y => cos y * (V x y ^ 2 - U x y ^ 2) / 2) x y = cos y * (V x y * dlon V x y - U x y * dlon U x y) := by
    have := (((((h.sV.hasDerivAt_lon x y).pow 2).sub ((h.sU.hasDerivAt_lon x y).pow 2)).const_mul (cos y)).div_const 2).deriv
    refine Eq.trans this ?_
    simp
    ring
  have d2 : dlat (fun x y => -(U x y * V x y * cos y) * cos y) x y =
      -(dlat (fun x y => U x y * cos y) x y * (V x y * cos y) + U x y * cos y * dlat (fun x y => V x y * cos y) x y) := by
    have := ((hUc.hasDerivAt_lat x y).mul (hVc.hasDerivAt_lat x y)).neg.deriv
    rw [← this]
    unfold dlat
    congr 1
    funext y
    simp only [Pi.mul_apply, Pi.neg_apply]
    ring
  have e2 : sphereDiv r (fun x y => cos y * (V x y ^ 2 - U x y ^ 2) / 2) (fun x y => -(U x y * V x y * cos y)) x y =
      sphereCurl r U V x y * V x y * cos y := by
    unfold sphereDiv sphereCurl at *
    rw [div_eq_zero_iff, or_iff_left (mul_ne_zero hr h0)] at hd
    rw [d1, d2]
    field_simp
    linear_combination (-(U x y)) * hd
  have e3 : sphereDiv r (fun x y => Ψ x y * ((2 * Ω * sin y + mean) * cos y)) (fun _ _ => 0) x y = (2 * Ω * sin y + mean) * V x y * cos y := by
    have d3 : dlon (fun x y => Ψ x y * ((2 * Ω * sin y + mean) * cos y)) x y = dlon Ψ x y * ((2 * Ω * sin y + mean) * cos y) :=
      ((h.sΨ.hasDerivAt_lon x y).mul_const _).deriv
    have d4 : dlat (fun _ y => 0 * cos y) x y = 0 := by simp [dlat]
    have hw := (Prod.ext_iff.mp (h.wind x y h0)).1
    simp only [sphereGrad] at hw
    unfold sphereDiv
    rw [d3, d4, ← hw]
    field_simp
    ring
  rw [e2, e3, hc x y h0]
  simp only
  field_simp
  ring

end Flow

end Barotropic
