import Verif.Model.Binary64Geometry
import Verif.Spec.Binary64Trapz
import Mathlib.Analysis.SpecialFunctions.Trigonometric.Basic

/-!
# The true geometry of a grid of `n + 1` latitudes
-/

namespace Barotropic

/-- Latitude `j` -/
noncomputable def trueLatitude (n j : ℕ) : ℝ := Real.pi / 2 - j * (Real.pi / n)

/-- The northern boundary of the gridboxes at latitude `j`: half-way to the next latitude or the North Pole -/
noncomputable def northEdge (n j : ℕ) : ℝ := if j = 0 then Real.pi / 2 else (trueLatitude n (j - 1) + trueLatitude n j) / 2

/-- The southern boundary of the gridboxes at latitude `j` -/
noncomputable def southEdge (n j : ℕ) : ℝ := if j = n then -(Real.pi / 2) else (trueLatitude n j + trueLatitude n (j + 1)) / 2

/-- Area of a gridbox of the width `dlam` at latitude `j` on a sphere of radius `r` -/
noncomputable def bandArea (n : ℕ) (r dlam : ℝ) (j : ℕ) : ℝ := r ^ 2 * dlam * (Real.sin (northEdge n j) - Real.sin (southEdge n j))

end Barotropic
