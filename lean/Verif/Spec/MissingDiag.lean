import Mathlib.Data.Nat.Basic
import Mathlib.Data.Option.Basic

/-!
# Specification: values on which a meridional derivative depends
-/

namespace Barotropic

/-- Whether the derivative at row `j` of `h` depends on row `r`: centred differences depend on the rows up to 2 (order 4) or 1 (order 2)
rows away but not on row `j` itself; the rows next to the edge (order 4) and the pole rows (of fields) depend on the 5 or 3
outermost rows; pole rows of profiles depend on nothing. -/
def UsedRow (four poles : Bool) (h j r : ℕ) : Prop :=
  let n := if four then 5 else 3
  let offset := if four then j = 1 else False
  let offset' := if four then j + 2 = h else False
  if j = 0 then poles = true ∧ r < n
  else if j + 1 = h then poles = true ∧ h ≤ r + n ∧ r < h
  else if offset then r < n
  else if offset' then h ≤ r + n ∧ r < h
  else r ≠ j ∧ 2 * r + n ≥ 2 * j + 1 ∧ 2 * r + 1 ≤ 2 * j + n

/-- An entry `j` of a column of `h` values -/
def columnEntry {α : Type*} {h : ℕ} (f : Fin h → Option α) (j : ℕ) : Option α := if hj : j < h then f ⟨j, hj⟩ else none

end Barotropic
