import Verif.Model.Plot

/-!
# Vocabulary for statements about plots
-/

namespace Barotropic
variable {K : Type*} [Field K] [LinearOrder K] [IsStrictOrderedRing K] [FloorRing K]

/-- No meridian of the grid is closer to the meridian `c` than the meridian number `m`, where the longitudes `x` and `x + 360` are
the same meridian. -/
def Grid.Nearest (g : Grid K) (m : ℕ) (c : K) : Prop :=
  ∃ z : ℤ, ∀ i < g.nlon, ∀ z' : ℤ, |g.lon m + 360 * z - c| ≤ |g.lon i + 360 * z' - c|

/-- Entry in row `r` and column `c` of a list of rows -/
def entry {α : Type*} (a : List (List α)) (r c : ℕ) : Option α := a[r]?.bind fun row => row[c]?

/-- Length of a time unit, in seconds -/
def unitSeconds (unit : String) : K :=
  if unit = "min" then 60 else if unit = "h" then 3600 else if unit = "d" then 86400 else 1

/-- Row (from the north) and column of the box on the 9 × 36 map that contains a point -/
def boxRow (lat : K) : ℤ := 8 - min 8 ⌊(lat + 90) / 20⌋

/-- See `boxRow` -/
def boxCol (lon : K) : ℤ := ⌊lon / 10⌋

/-- The line segments that are drawn through a sequence of points: consecutive points are connected unless one of them is missing
(NaN). -/
def drawnSegments {α β : Type*} : List (α × Option β) → List ((α × β) × (α × β))
  | (x, some y) :: (x', some y') :: l => ((x, y), (x', y')) :: drawnSegments ((x', some y') :: l)
  | _ :: l => drawnSegments l
  | [] => []

end Barotropic
