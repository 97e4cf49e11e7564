import Verif.Model.Binary64Falwa
import Mathlib.Algebra.BigOperators.Intervals

/-!
# Wave activity of a column without rounding
-/

namespace Barotropic
namespace Binary64

variable {K : Type*} [Field K] [LinearOrder K] [IsStrictOrderedRing K] [FloorRing K]

/-- Integral of `pv - q` over `pv >= q` minus that over `lat >= y` along a column of `h` boxes, divided by `c` -/
def waveActivity (h : ℕ) (r dlam : K) (a lat pv : ℕ → K) (q y c : K) : K :=
  (∑ j ∈ Finset.range h, ((if q ≤ pv j then a j * (pv j - q) else 0) - (if y ≤ lat j then a j * (pv j - q) else 0))) / r / dlam / c

/-- The sizes of all terms of `waveActivity` together -/
def waveActivitySize (h : ℕ) (r dlam : K) (a lat pv : ℕ → K) (q y c : K) : K :=
  (∑ j ∈ Finset.range h, ((if q ≤ pv j then a j * |pv j - q| else 0) + (if y ≤ lat j then a j * |pv j - q| else 0))) / r / dlam / c

end Binary64
end Barotropic
