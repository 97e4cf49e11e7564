import Verif.Spec.SmoothSolution
import Verif.Spec.Galerkin
import Verif.Spec.Harmonics

/-!
# Smooth solutions of the barotropic vorticity equation with diffusion and forcing
-/

namespace Barotropic
open Real (cos sin)

/-- The streamfunction `Ψ` is smooth and satisfies `∂Q/∂t + ∇·(Q u) = -ν (-Δ)^order (Q - B) + Φ` between the times `t0` and `t1`, where `Q` is the absolute
vorticity, `B` the absolute vorticity of a solid-body rotation with angular velocity `W` and `Φ` the forcing (as function of time and position). -/
structure ForcedSolution (r Ω ν : ℝ) (order : ℕ) (W : ℝ) (Φ : ℝ → ℝ → ℝ → ℝ) (t0 t1 : ℝ) (Ψ : ℝ → ℝ → ℝ → ℝ) : Prop where
  smooth : ∃ F : (Fin 4 → ℝ) → ℝ, ContDiff ℝ (⊤ : ℕ∞) F ∧ ∀ t x y, Ψ t x y = F (spacetime t x y)
  equation : ∀ t ∈ Set.Icc t0 t1, ∀ x y, cos y ≠ 0 → HasDerivAt (fun t => absVort r Ω (Ψ t) x y)
    (-sphereFlux r (absVort r Ω (Ψ t)) (Ψ t) x y - ν * hyperLaplacian r order (fun x y => absVort r Ω (Ψ t) x y - 2 * W * sin y) x y + Φ t x y) t

/-- Forcing by relaxation of the absolute vorticity towards `A` -/
noncomputable def relaxing (r Ω rate : ℝ) (A : ℝ → ℝ → ℝ) (Ψ : ℝ → ℝ → ℝ → ℝ) (t x y : ℝ) : ℝ := rate * (A x y - absVort r Ω (Ψ t) x y)

/-- `R` represents the forcing `Φ` of the flow with streamfunction `Ψ`: the difference of its values for two states is bounded by the difference of their PV
(squared, `K`), and close to PV of `Ψ` its values are close to `Φ` (within `ε`), both in the mean square. -/
structure RepresentsForcing {g : Grid ℝ} (N : ℕ → ℕ → ℝ) (S : g.Sph) (R : ℝ → g.Spc → g.Fld) (K ε Ω : ℝ) (Φ : ℝ → ℝ → ℝ → ℝ) (t0 t1 : ℝ)
    (Ψ : ℝ → ℝ → ℝ → ℝ) : Prop where
  bound : ∀ t ∈ Set.Icc t0 t1, ∀ q q', sqDist g.rsphere (harmonicSum N (S.grdtospec (R t q))) (harmonicSum N (S.grdtospec (R t q'))) ≤
    K * sqDist g.rsphere (harmonicSum N q) (harmonicSum N q')
  close : ∀ t ∈ Set.Icc t0 t1, ∃ q, sqDist g.rsphere (harmonicSum N q) (absVort g.rsphere Ω (Ψ t)) ≤ ε ∧
    sqDist g.rsphere (harmonicSum N (S.grdtospec (R t q))) (Φ t) ≤ ε

end Barotropic
