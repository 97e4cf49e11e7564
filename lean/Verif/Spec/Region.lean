import Mathlib.Order.Defs.LinearOrder
import Verif.Model.Region

/-!
# Specification of region selections
-/

namespace Barotropic
variable {K : Type*} [Field K] [LinearOrder K] [IsStrictOrderedRing K] [FloorRing K]

/-- A slice bound as the user writes it: omitted or a number. -/
def optBound : Option K → Bound K
  | none => .none
  | some x => .num x

/-- `x` lies in the closed latitude range with the given end points, in either order; an omitted bound is
unbounded (start = southern, stop = northern when only one is given). -/
def InLatRange (a b : Option K) (x : K) : Prop :=
  match a, b with
  | none, none => True
  | none, some b => x ≤ b
  | some a, none => a ≤ x
  | some a, some b => (a ≤ x ∧ x ≤ b) ∨ (b ≤ x ∧ x ≤ a)

/-- `x` lies on the eastward arc from `a` to `b`. -/
def InLonArc (a b : Option K) (x : K) : Prop :=
  match a, b with
  | none, none => True
  | none, some b => x ≤ b
  | some a, none => a ≤ x
  | some a, some b => if a ≤ b then a ≤ x ∧ x ≤ b else a ≤ x ∨ x ≤ b

/-- Well-formed slice component: no step, bounds omitted or numeric. -/
def Sel.GoodSlice : Sel K → Prop
  | .slice a b step => a ≠ .other ∧ b ≠ .other ∧ step = false
  | _ => False

/-- The selection component can be resolved against the coordinates `coord 0, …, coord (n-1)`. -/
def Sel.OkFor (strings : List String) (n : ℕ) (coord : ℕ → K) : Sel K → Prop
  | .num x => ∃! i, i < n ∧ isclose (coord i) x
  | .str s => s ∈ strings
  | s => s.GoodSlice

/-- The whole selection is acceptable: one component (longitude only) or two (longitude, latitude). -/
def Selection.Acceptable (g : Grid K) : Selection K → Prop
  | .single s => s.OkFor [] g.nlon g.lon
  | .tuple [s, t] => s.OkFor [] g.nlon g.lon ∧ t.OkFor ["N", "S"] g.nlat g.lat
  | .tuple _ => False

end Barotropic
