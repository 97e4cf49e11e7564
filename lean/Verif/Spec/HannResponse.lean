import Mathlib.Analysis.SpecialFunctions.Trigonometric.Basic
import Mathlib.Algebra.BigOperators.Group.Finset.Basic
import Mathlib.Data.Int.Interval

/-!
# Specification of the frequency response of a Hann window
-/

namespace Barotropic
open Finset

/-- Response of a Hann window reaching `n` gridpoints to both sides (cosine bell, normalized) to a wave whose phase changes by `θ` from
one gridpoint to the next. -/
noncomputable def hannResponse (n : ℕ) (θ : ℝ) : ℝ :=
  ∑ s ∈ Icc (-(n : ℤ)) n, (1 + Real.cos (Real.pi * s / n)) / (2 * n) * Real.cos (s * θ)

end Barotropic
