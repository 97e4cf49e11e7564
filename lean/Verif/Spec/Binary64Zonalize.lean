import Verif.Model.Binary64Zonalize
import Mathlib.Algebra.BigOperators.Intervals

/-!
# What sums, areas and interpolation should be, without rounding
-/

namespace Barotropic
namespace Binary64

variable {K : Type*} [Field K] [LinearOrder K] [IsStrictOrderedRing K] [FloorRing K]

/-- A tree adds every term with index below `n` exactly once. -/
def SumTree.Sums (t : SumTree) (n : ℕ) : Prop := t.leaves.Perm (List.range n)

/-- The area of all boxes of an `h × w` field on which the field is not below a threshold -/
def areaAbove (h w : ℕ) (a : ℕ → K) (f : ℕ → ℕ → K) (q : K) : K :=
  ∑ i ∈ Finset.range w, ∑ j ∈ Finset.range h, if q ≤ f j i then a j else 0

/-- The line through two points -/
def line (x0 x1 x y0 y1 : K) : K := y0 + (x - x0) / (x1 - x0) * (y1 - y0)

/-- `v` is on the polygon through knots at position `x`: the value of a knot at `x` or on the line between two adjacent knots around `x`. -/
inductive OnPolygon (x : K) : List (K × K) → K → Prop
  | knot {l : List (K × K)} {a : K × K} : a ∈ l → a.1 = x → OnPolygon x l a.2
  | cell {pre post : List (K × K)} {a b : K × K} : a.1 < x → x < b.1 → OnPolygon x (pre ++ a :: b :: post) (line a.1 b.1 x a.2 b.2)

end Binary64
end Barotropic
