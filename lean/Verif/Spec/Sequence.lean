import Mathlib.Data.Int.Order.Basic
import Mathlib.Order.Basic
import Mathlib.Data.List.Basic

/-!
# Slices of sequences as described in the documentation of Python
-/

namespace Barotropic

/-- A bound of a slice of a sequence of length `n`: `default` if it is omitted; negative numbers count from the end; the result
is limited to `[lo, hi]`. -/
def sliceBound (n lo hi default : ℤ) : Option ℤ → ℤ
  | none => default
  | some i => max lo (min hi (if i < 0 then i + n else i))

/-- `idx` are the indices of the slice `start:stop:d` of a sequence of length `n`: in the direction of `d`, the indices from
`start` up to and without `stop` whose distance from `start` is a multiple of `d`. -/
structure IsSlice (n : ℕ) (start stop : Option ℤ) (d : ℤ) (idx : List ℤ) : Prop where
  up : 0 < d → idx.Pairwise (· < ·) ∧
    ∀ j, j ∈ idx ↔ sliceBound n 0 n 0 start ≤ j ∧ j < sliceBound n 0 n n stop ∧ d ∣ j - sliceBound n 0 n 0 start
  down : d < 0 → idx.Pairwise (· > ·) ∧
    ∀ j, j ∈ idx ↔ j ≤ sliceBound n (-1) (n - 1) (n - 1) start ∧ sliceBound n (-1) (n - 1) (-1) stop < j ∧
      d ∣ sliceBound n (-1) (n - 1) (n - 1) start - j

end Barotropic
