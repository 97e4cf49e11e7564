import Verif.Model.Binary64Trapz
import Verif.Model.Quad

/-!
# Spherical trapezoidal rule: assumptions about the library and size of errors
-/

namespace Barotropic
open Binary64

/-- Functions of the mathematical library with an error of less than 2⁻⁵³ -/
structure GoodTrig (sn cs : ℝ → ℝ) : Prop where
  sin : ∀ x, |sn x - Real.sin x| ≤ 1 / 2 ^ 53
  cos : ∀ x, |cs x - Real.cos x| ≤ 1 / 2 ^ 53

/-- Latitudes in radians from north to south with intervals between `D` and 2 -/
structure Meridian (n : ℕ) (D : ℝ) (x : ℕ → ℝ) : Prop where
  pos : 0 < D
  bound : ∀ j ≤ n, |x j| ≤ 2
  step : ∀ j < n, D ≤ x j - x (j + 1)
  short : ∀ j < n, x j - x (j + 1) ≤ 2

/-- The error of a column with values of the size `M` -/
noncomputable def trapzError (t : SumTree) (n : ℕ) (r M D : ℝ) : ℝ :=
  n * (160 * r * M / D * ((1 + 1 / 2 ^ 53) ^ 29 - 1)) * (1 + 1 / 2 ^ 53) ^ t.depth + 4 * r * M * ((1 + 1 / 2 ^ 53) ^ t.depth - 1)

/-- Wave activity of a column: the difference of two integrals, divided by `c`. -/
noncomputable def waveActivityTrapz (n : ℕ) (r : ℝ) (x lat pv : ℕ → ℝ) (q y c : ℝ) : ℝ :=
  (sptrapzCol r n x (fun j => pv j - q) (fun j => pv j - q) - sptrapzCol r n x (fun j => pv j - q) (fun j => lat j - y)) / c

/-- The error of wave activity -/
noncomputable def falwaTrapzError (t : SumTree) (n : ℕ) (r M D c : ℝ) : ℝ :=
  (2 * trapzError t n r M D * (1 + 1 / 2 ^ 53) ^ 2 + 2 * (4 * r * M) * ((1 + 1 / 2 ^ 53) ^ 2 - 1)) / c

/-- The error of an integral over `w` columns whose errors are at most `B` and whose values are at most `b` -/
noncomputable def quadError (s : SumTree) (w : ℕ) (r dlam b B : ℝ) : ℝ :=
  r * dlam * (w * (B * (1 + 1 / 2 ^ 53) ^ s.depth + b * ((1 + 1 / 2 ^ 53) ^ s.depth - 1)) * (1 + 1 / 2 ^ 53) ^ 2 +
    w * b * ((1 + 1 / 2 ^ 53) ^ 2 - 1))

end Barotropic
