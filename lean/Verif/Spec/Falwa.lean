import Verif.Model.Zonalize

/-!
# Specification vocabulary for wave activity
-/

namespace Barotropic

/-- There is at least one contour. -/
def Levels.Some : Levels → Prop
  | .none => True
  | .int n => 1 ≤ n
  | .array qs => qs ≠ []

/-- All contour values lie strictly between the extremes of the field: always the case for automatically chosen
contours of a non-constant field. -/
def Levels.Inside {h w : ℕ} (f : Fin h → Fin w → ℝ) : Levels → Prop
  | .none => ∃ j i j' i', f j i ≠ f j' i'
  | .int _ => ∃ j i j' i', f j i ≠ f j' i'
  | .array qs => ∀ q ∈ qs, (∃ j i, f j i < q) ∧ ∃ j i, q < f j i

/-- The contours of the field `a * f + b` that correspond to given contours of `f`; numbers of contours stay as they are. -/
def Levels.affine (a b : ℝ) : Levels → Levels
  | .array qs => .array (qs.map fun q => a * q + b)
  | l => l

/-- The same grid on a planet with another radius -/
abbrev Grid.withRadius (g : Grid ℝ) (r : ℝ) : Grid ℝ := { g with rsphere := r }

end Barotropic
