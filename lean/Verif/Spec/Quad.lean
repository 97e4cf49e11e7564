import Mathlib.Analysis.SpecialFunctions.Trigonometric.Basic

/-!
# Specification vocabulary for quadrature and zonalization
-/

namespace Barotropic

/-- `Y` is the piecewise-linear interpolant of the values `y` at the points `x 0, x 1, …, x (n-1)`. -/
def IsPLInterp {n : ℕ} (x : ℕ → ℝ) (y : Fin n → ℝ) (Y : ℝ → ℝ) : Prop :=
  ∀ (j : ℕ) (h : j + 1 < n) (t : ℝ), 0 ≤ t → t ≤ 1 →
    Y (x j + t * (x (j + 1) - x j)) = y ⟨j, by omega⟩ + t * (y ⟨j + 1, h⟩ - y ⟨j, by omega⟩)

/-- The two quadrature schemes. -/
def KnownMethod (m : String) : Prop := m = "boxcount" ∨ m = "sptrapz"

end Barotropic
