import Mathlib.Analysis.SpecialFunctions.Complex.Circle
import Mathlib.Topology.Algebra.InfiniteSum.Basic

/-!
# C152: wave packets
-/

namespace Barotropic
open Complex

/-- `∑ c_l exp(ilλ)`: a function of longitude with the given Fourier coefficients -/
noncomputable def fourierSeries (c : ℤ → ℂ) (lam : ℝ) : ℂ := ∑' l, c l * exp (I * (l * lam : ℝ))

/-- The sum of the magnitudes of the coefficients outside of a band -/
noncomputable def outside (c : ℤ → ℂ) (kmin kmax : ℤ) : ℝ := ∑' l, if kmin ≤ l ∧ l ≤ kmax then 0 else ‖c l‖

end Barotropic
