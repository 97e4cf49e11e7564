import Mathlib.Algebra.Order.Field.Basic

/-!
# Single precision numbers
-/

namespace Barotropic
variable {K : Type*} [Field K] [LinearOrder K] [IsStrictOrderedRing K]

/-- A number with a significand of 24 bits that is a multiple of `2 ^ (-149)`. Large exponents are not limited. -/
def IsSingle (x : K) : Prop := ∃ m e : ℤ, |m| ≤ 2 ^ 24 ∧ -149 ≤ e ∧ x = m * 2 ^ e

/-- `y` is the single precision number nearest to `x`; if another one is as near, `y` has an even significand. -/
def IsNearestSingle (x y : K) : Prop :=
  IsSingle y ∧ (∀ z, IsSingle z → |x - y| ≤ |x - z|) ∧
    ∀ z, IsSingle z → z ≠ y → |x - y| = |x - z| → ∃ m e : ℤ, (2 ^ 23 ≤ |m| ∨ e = -149) ∧ |m| ≤ 2 ^ 24 ∧ -149 ≤ e ∧ Even m ∧ y = m * 2 ^ e

/-- What an implicit step of diffusion of order `k` multiplies coefficients of degree `n` with -/
noncomputable def diffusionFactor (r dt coeff : K) (k n : ℕ) : K := 1 / (1 + dt * coeff * (n * (n + 1) / r ^ 2) ^ k)

end Barotropic
