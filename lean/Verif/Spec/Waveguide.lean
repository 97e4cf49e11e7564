import Verif.Model.FloatX

/-!
# Specification vocabulary for stationary wavenumbers and waveguides
-/

namespace Barotropic

/-- The number with the sign of `x` whose square is `|x|` -/
noncomputable def FloatX.signedSqrt : FloatX → FloatX
  | .fin x => .fin (SignType.sign x * Real.sqrt |x|)
  | x => x

/-- Intervals of latitudes as the code returns them: `(start, end)` from north to south -/
def toX (p : ℝ × ℝ) : FloatX × FloatX := (FloatX.fin p.1, FloatX.fin p.2)

/-- Value of the piecewise linear interpolant of `x` at a fraction `t` of the way from row `i` to row `i+1`. The latitude there
is `lat i - t * resolution`. -/
def lin (x : ℕ → ℝ) (i : ℕ) (t : ℝ) : ℝ := (1 - t) * x i + t * x (i + 1)

/-- The latitude is in the closed interval from `p.1` (north) to `p.2` (south). -/
def Within (p : ℝ × ℝ) (l : ℝ) : Prop := p.2 ≤ l ∧ l ≤ p.1

end Barotropic
