import Verif.Spec.Sphere
import Verif.Spec.Mercator
import Mathlib.Analysis.SpecialFunctions.Arsinh

/-!
# Stationary waves on zonal flows
-/

namespace Barotropic
open Real (cos sin)

/-- The wave with streamfunction `ψ` is stationary on the zonal flow `U` with PV `Q` (to first order in amplitude): advection of its vorticity by the flow
balances its advection of the flow's PV. -/
def StationaryWave (r : ℝ) (Q U : ℝ → ℝ) (ψ : ℝ → ℝ → ℝ) : Prop :=
  ∀ x, ∀ y ∈ Set.Ioo (-(Real.pi / 2)) (Real.pi / 2),
    U y / (r * cos y) * dlon (sphereLaplacian r ψ) x y + (sphereGrad r ψ x y).1 * (deriv Q y / r) = 0

/-- Wave of zonal wavenumber `k` with given meridional structure -/
noncomputable def waveOf (k : ℕ) (A B : ℝ → ℝ) (x y : ℝ) : ℝ := A y * cos (k * x) + B y * sin (k * x)

/-- Northward coordinate of the Mercator projection (on the unit sphere) -/
noncomputable def mercatorY (y : ℝ) : ℝ := Real.arsinh (Real.tan y)

end Barotropic
