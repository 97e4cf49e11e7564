import Verif.Model.Filter

/-!
# Specification vocabulary for rounding and filtering
-/

namespace Barotropic

variable {K : Type*} [Field K] [LinearOrder K]

/-- `r` is the integer nearest to `x`, the even one if there are two. -/
def IsRounded (x : K) (r : ℤ) : Prop := |x - r| ≤ 1 / 2 ∧ (|x - r| = 1 / 2 → Even r)

/-- North-south (or east-west) reversed 1-dimensional data or weights. -/
def reversed {α : Type*} {n : ℕ} (f : Fin n → α) : Fin n → α := fun i => f i.rev

/-- Zonally rotated 1-dimensional data. -/
def rotated {α : Type*} {n : ℕ} (d : ℕ) (f : Fin n → α) : Fin n → α := fun i => f ⟨(i.val + d) % n, Nat.mod_lt _ i.pos⟩

end Barotropic
