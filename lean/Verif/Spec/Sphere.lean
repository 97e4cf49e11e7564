import Mathlib.Analysis.SpecialFunctions.Trigonometric.Deriv
import Mathlib.Analysis.SpecialFunctions.Trigonometric.Basic
import Mathlib.Analysis.Calculus.ContDiff.Defs
import Mathlib.MeasureTheory.Integral.IntervalIntegral.Basic

/-!
# Differential operators on a sphere

In longitude `lam` and latitude `phi` (radians), for functions on the sphere of radius `r`, away from the poles.
-/

namespace Barotropic
open Real (cos)

/-- `∂F/∂λ` -/
noncomputable def dlon (F : ℝ → ℝ → ℝ) (lam phi : ℝ) : ℝ := deriv (fun x => F x phi) lam

/-- `∂F/∂φ` -/
noncomputable def dlat (F : ℝ → ℝ → ℝ) (lam phi : ℝ) : ℝ := deriv (fun y => F lam y) phi

/-- Smooth function of longitude and latitude, periodic in longitude -/
structure SphereSmooth (F : ℝ → ℝ → ℝ) : Prop where
  smooth : ContDiff ℝ (⊤ : ℕ∞) fun p : ℝ × ℝ => F p.1 p.2
  periodic : ∀ lam phi, F (lam + 2 * Real.pi) phi = F lam phi

/-- Eastward and northward component of the gradient -/
noncomputable def sphereGrad (r : ℝ) (F : ℝ → ℝ → ℝ) (lam phi : ℝ) : ℝ × ℝ := (dlon F lam phi / (r * cos phi), dlat F lam phi / r)

/-- Vertical component of the curl of the vector field with eastward component `U` and northward component `V` -/
noncomputable def sphereCurl (r : ℝ) (U V : ℝ → ℝ → ℝ) (lam phi : ℝ) : ℝ :=
  (dlon V lam phi - dlat (fun x y => U x y * cos y) lam phi) / (r * cos phi)

/-- Divergence -/
noncomputable def sphereDiv (r : ℝ) (U V : ℝ → ℝ → ℝ) (lam phi : ℝ) : ℝ :=
  (dlon U lam phi + dlat (fun x y => V x y * cos y) lam phi) / (r * cos phi)

/-- Laplacian: divergence of the gradient -/
noncomputable def sphereLaplacian (r : ℝ) (F : ℝ → ℝ → ℝ) : ℝ → ℝ → ℝ :=
  sphereDiv r (fun x y => (sphereGrad r F x y).1) (fun x y => (sphereGrad r F x y).2)

/-- Integral over the sphere -/
noncomputable def sphereIntegral (r : ℝ) (F : ℝ → ℝ → ℝ) : ℝ :=
  r ^ 2 * ∫ lam in (0 : ℝ)..2 * Real.pi, ∫ phi in -(Real.pi / 2)..Real.pi / 2, F lam phi * cos phi

end Barotropic
