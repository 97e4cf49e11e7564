import Mathlib.Algebra.Order.Field.Basic

/-!
# Double precision numbers
-/

namespace Barotropic
variable {K : Type*} [Field K] [LinearOrder K] [IsStrictOrderedRing K]

/-- A number with a significand of 53 bits. Exponents are not limited. -/
def IsDouble (x : K) : Prop := ∃ m e : ℤ, |m| ≤ 2 ^ 53 ∧ x = m * 2 ^ e

/-- `y` is the double nearest to `x`; if another one is as near, `y` has an even significand. -/
def IsNearest (x y : K) : Prop :=
  IsDouble y ∧ (∀ z, IsDouble z → |x - y| ≤ |x - z|) ∧
    ∀ z, IsDouble z → z ≠ y → |x - y| = |x - z| → ∃ m e : ℤ, 2 ^ 52 ≤ |m| ∧ |m| ≤ 2 ^ 53 ∧ Even m ∧ y = m * 2 ^ e

/-- A multiple of `2 ^ (-s)`, e.g. with `s` binary digits after the point -/
def Dyadic (s : ℕ) (x : K) : Prop := ∃ m : ℤ, x = m / 2 ^ s

end Barotropic
