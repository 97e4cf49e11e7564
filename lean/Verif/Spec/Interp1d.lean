import Verif.Model.Basic
import Mathlib.Data.Real.Basic
import Mathlib.Data.Fintype.Basic

/-!
# What linear interpolation means
-/

namespace Barotropic

/-- `y` is the value at `x` of the straight line through two of the points (`pos k`, `val k`) that have no other point
between them and have `x` between them. -/
def OnSegment {ι : Type*} (pos val : ι → ℝ) (x y : ℝ) : Prop :=
  ∃ p q, pos p ≤ x ∧ x ≤ pos q ∧ pos p < pos q ∧ (∀ k, ¬ (pos p < pos k ∧ pos k < pos q)) ∧
    (y - val p) * (pos q - pos p) = (val q - val p) * (x - pos p)

/-- Positions and values with the two poles added -/
def withPoles {k : ℕ} (v : Fin k → ℝ) (north south : ℝ) : Fin k ⊕ Bool → ℝ
  | .inl j => v j
  | .inr true => north
  | .inr false => south

end Barotropic
