import Verif.Model.Binary64
import Verif.Model.Derivative

/-!
# Meridional derivative in double precision  (grid.py:316-343)
-/

namespace Barotropic
namespace Binary64

variable {K : Type*} [Field K] [LinearOrder K] [IsStrictOrderedRing K] [FloorRing K]

/-- `c0*f[i0] + c1*f[i1] + …` from left to right, every product and every sum rounded; `- c*f` is `+ (-c)*f` and (for `f` of doubles) a coefficient of
±1 is no operation. -/
def combine (f : ℕ → K) : List (ℤ × ℕ) → K
  | [] => 0
  | p :: ps => ps.foldl (fun acc p => rnd (acc + rnd (p.1 * f p.2))) (rnd (p.1 * f p.2))

/-- Coefficients and rows of the 3-point stencil in row `j` of `h` (grid.py:322-327) -/
def coeffs2 (poles : Bool) (h j : ℕ) : List (ℤ × ℕ) :=
  if j = 0 then if poles then [(-3, 0), (4, 1), (-1, 2)] else []
  else if j = h - 1 then if poles then [(1, h - 3), (-4, h - 2), (3, h - 1)] else []
  else [(1, j + 1), (-1, j - 1)]

/-- Coefficients and rows of the 5-point stencil in row `j` of `h` (grid.py:331-340) -/
def coeffs4 (poles : Bool) (h j : ℕ) : List (ℤ × ℕ) :=
  if j = 0 then if poles then [(-25, 0), (48, 1), (-36, 2), (16, 3), (-3, 4)] else []
  else if j = h - 1 then if poles then [(3, h - 5), (-16, h - 4), (36, h - 3), (-48, h - 2), (25, h - 1)] else []
  else if j = 1 then [(-3, 0), (-10, 1), (18, 2), (-6, 3), (1, 4)]
  else if j = h - 2 then [(-1, h - 5), (6, h - 4), (-18, h - 3), (10, h - 2), (3, h - 1)]
  else [(1, j - 2), (-8, j - 1), (8, j + 1), (-1, j + 2)]

/-- `derivative_meridional(f, order=2)` (grid.py:318-328) of a column in row `j`; `poles` for 2-dimensional input -/
def derivative2 (dphi : K) (poles : Bool) (h : ℕ) (f : ℕ → K) (j : ℕ) : K := rnd (rnd (combine f (coeffs2 poles h j) / 2) / dphi)

/-- `derivative_meridional(f, order=4)` (grid.py:329-342) of a column in row `j` -/
def derivative4 (dphi : K) (poles : Bool) (h : ℕ) (f : ℕ → K) (j : ℕ) : K := rnd (rnd (combine f (coeffs4 poles h j) / 12) / dphi)

end Binary64
end Barotropic
