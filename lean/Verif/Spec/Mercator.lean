import Mathlib.Analysis.SpecialFunctions.Trigonometric.Deriv

/-!
# Stationary wavenumber of a zonal flow in Mercator coordinates (Hoskins and Karoly 1981)
-/

namespace Barotropic

/-- Meridional gradient of PV, times the scale factor of the Mercator projection -/
noncomputable def mercatorBeta (r : ℝ) (Q : ℝ → ℝ) (φ : ℝ) : ℝ := Real.cos φ * (deriv Q φ / r)

/-- Zonal wind in the Mercator projection -/
noncomputable def mercatorWind (U : ℝ → ℝ) (φ : ℝ) : ℝ := U φ / Real.cos φ

/-- Square of the stationary zonal wavenumber (documentation of `stationary_wavenumber`) -/
noncomputable def stationarySq (r : ℝ) (Q U : ℝ → ℝ) (φ : ℝ) : ℝ := r ^ 2 * mercatorBeta r Q φ / mercatorWind U φ

/-- `Q` is the PV of the zonal flow `U` on a sphere of radius `r` that rotates with angular velocity `Ω`. -/
def PvOfZonalFlow (r Ω : ℝ) (U Q : ℝ → ℝ) : Prop :=
  ∀ φ, Real.cos φ ≠ 0 → Q φ = 2 * Ω * Real.sin φ - deriv (fun y => U y * Real.cos y) φ / (r * Real.cos φ)

end Barotropic
