import Mathlib.Order.Basic
import Mathlib.Data.List.Basic

/-!
# Which steps of a run are saved
-/

namespace Barotropic

/-- Of the steps `k + 1, …, n` with times `t`, those in `ks` are saved: exactly those that have reached the next of the times
`ts m, ts (m + 1), …`, one for each saved state. -/
structure SavesAt {K : Type*} [LE K] (t ts : ℕ → K) (k m n : ℕ) (ks : List ℕ) : Prop where
  sorted : ks.Pairwise (· < ·)
  range : ∀ j ∈ ks, k < j ∧ j ≤ n
  mem : ∀ j, k < j → j ≤ n → (j ∈ ks ↔ ts (m + ks.countP (· < j)) ≤ t j)

end Barotropic
