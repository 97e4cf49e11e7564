import Verif.Spec.Galerkin
import Mathlib.Analysis.Calculus.Deriv.Basic

/-!
# C160: reversibility
-/

namespace Barotropic
variable {T : ℕ}

/-- The field with east and west exchanged: coefficients of `f(-λ, φ)` -/
noncomputable def eastWest (a : SpecField T) : SpecField T := fun k => (starRingEnd ℂ) (a k)

/-- Divergence of a vector field in the phase space of real and imaginary parts of all coefficients -/
noncomputable def phaseDivergence (F : SpecField T → SpecField T) (q : SpecField T) : ℝ :=
  ∑ k, (deriv (fun ε : ℝ => (F (q + ε • (Pi.single k 1 : SpecField T)) k).re) 0 + deriv (fun ε : ℝ => (F (q + ε • (Pi.single k Complex.I : SpecField T)) k).im) 0)

end Barotropic
