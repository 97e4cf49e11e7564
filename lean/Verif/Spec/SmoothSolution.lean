import Verif.Spec.Waves

/-!
# Smooth solutions of the barotropic vorticity equation with diffusion

Independent of the model. Smoothness is that of a function of time and of the Cartesian coordinates, so that it includes the poles.
-/

namespace Barotropic
open Real (cos sin)

/-- Time and Cartesian coordinates of a point on the unit sphere -/
noncomputable def spacetime (t x y : ℝ) : Fin 4 → ℝ := ![t, cos y * cos x, cos y * sin x, sin y]

/-- Absolute vorticity of the flow with streamfunction `Ψ` -/
noncomputable def absVort (r Ω : ℝ) (Ψ : ℝ → ℝ → ℝ) (x y : ℝ) : ℝ := sphereLaplacian r Ψ x y + 2 * Ω * sin y

/-- `(-Δ)^k` -/
noncomputable def hyperLaplacian (r : ℝ) (k : ℕ) : (ℝ → ℝ → ℝ) → ℝ → ℝ → ℝ := (fun A x y => -sphereLaplacian r A x y)^[k]

/-- The streamfunction `Ψ` is smooth and satisfies `∂Q/∂t + ∇·(Q u) = -ν (-Δ)^order (Q - B)` between the times `t0` and `t1`, where `Q` is the absolute
vorticity and `B` the absolute vorticity of a solid-body rotation with angular velocity `W`. -/
structure SmoothSolution (r Ω ν : ℝ) (order : ℕ) (W t0 t1 : ℝ) (Ψ : ℝ → ℝ → ℝ → ℝ) : Prop where
  smooth : ∃ F : (Fin 4 → ℝ) → ℝ, ContDiff ℝ (⊤ : ℕ∞) F ∧ ∀ t x y, Ψ t x y = F (spacetime t x y)
  equation : ∀ t ∈ Set.Icc t0 t1, ∀ x y, cos y ≠ 0 → HasDerivAt (fun t => absVort r Ω (Ψ t) x y)
    (-sphereFlux r (absVort r Ω (Ψ t)) (Ψ t) x y - ν * hyperLaplacian r order (fun x y => absVort r Ω (Ψ t) x y - 2 * W * sin y) x y) t

/-- Mean square difference of two functions on the sphere (not divided by the area) -/
noncomputable def sqDist (r : ℝ) (A B : ℝ → ℝ → ℝ) : ℝ := sphereIntegral r fun x y => (A x y - B x y) ^ 2

/-- Mean square difference of the winds with streamfunctions `A` and `B` (not divided by the area) -/
noncomputable def windDist (r : ℝ) (A B : ℝ → ℝ → ℝ) : ℝ :=
  sphereIntegral r fun x y => ((sphereGrad r A x y).1 - (sphereGrad r B x y).1) ^ 2 + ((sphereGrad r A x y).2 - (sphereGrad r B x y).2) ^ 2

end Barotropic
