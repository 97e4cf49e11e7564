import Verif.Model.Hn2016

/-!
# Contour areas, equivalent latitudes and interpolation in double precision

(grid.py:471-484, 516-522, 576-597, 599-662, 666-697) Every operation is rounded as on a computer.
-/

namespace Barotropic
namespace Binary64

variable {K : Type*} [Field K] [LinearOrder K] [IsStrictOrderedRing K] [FloorRing K]

/-- The order in which `np.sum` adds terms (pairwise, blocked, in lanes, …) depends on shape and machine: a binary tree whose leaves are
the indices of the terms. -/
inductive SumTree
  | leaf (i : ℕ)
  | node (l r : SumTree)

namespace SumTree

/-- `np.sum` in the order of a tree, rounded after every addition -/
def eval (f : ℕ → K) : SumTree → K
  | leaf i => f i
  | node l r => rnd (l.eval f + r.eval f)

/-- The longest chain of additions -/
def depth : SumTree → ℕ
  | leaf _ => 0
  | node l r => max l.depth r.depth + 1

/-- Indices of the terms -/
def leaves : SumTree → List ℕ
  | leaf i => [i]
  | node l r => l.leaves ++ r.leaves

end SumTree

/-- One column of `quad_meridional(ones, z=(field-thresh), method="boxcount")` (grid.py:516-522, called in grid.py:649): `a` are the
values of `gridpoint_area` and `f` is the column of the field. Terms outside of the domain do not count. -/
def boxLine (t : SumTree) (r dlam : K) (a f : ℕ → K) (thresh : K) : K :=
  rnd (rnd (t.eval (fun j => if 0 ≤ rnd (f j - thresh) then rnd (a j * 1) else 0) / r) / dlam)

/-- `quad(ones, z=(field-thresh), method="boxcount")` (grid.py:484, called in grid.py:649); `t` is the order of summation along meridians
and `s` along a circle of latitude. -/
def boxArea (t s : SumTree) (r dlam : K) (a : ℕ → K) (f : ℕ → ℕ → K) (thresh : K) : K :=
  rnd (rnd (r * dlam) * s.eval (fun i => boxLine t r dlam a (fun j => f j i) thresh))

/-- The argument of `arcsin` in `equivalent_latitude` (grid.py:592-595), `p` is `np.pi` -/
def sineOf (p r area : K) : K :=
  let sine := rnd (1 - rnd (rnd (rnd (1 / 2 * area) / p) / rnd (r ^ 2)))
  let sine := if 1 ≤ sine then 1 else sine
  if sine ≤ -1 then -1 else sine

/-- `Grid.equivalent_latitude` (grid.py:576-597), `asin` is `np.arcsin` -/
def equivalentLatitude (p r : K) (asin : K → K) (area : K) : K := rad2deg p (asin (sineOf p r area))

/-- Contour areas of a field of width `w` scaled to the globe (grid.py:649-656) and their equivalent latitudes -/
def contourLatitude (t s : SumTree) (p r dlam : K) (asin : K → K) (a : ℕ → K) (nlon w : ℕ) (f : ℕ → ℕ → K) (thresh : K) : K :=
  equivalentLatitude p r asin (rnd (boxArea t s r dlam a f thresh * rnd ((nlon : K) / (w : K))))

/-- Number `k` of `n` automatic contour levels (grid.py:640-642), `sin` is `np.sin`. `lo` and `hi` are minimum and maximum of the
field (grid.py:627-628). -/
def contourLevel (p : K) (sin : K → K) (lo hi : K) (n k : ℕ) : K :=
  rnd (1 / 2 * rnd (rnd (rnd (rnd (hi - lo) * sin (rnd (rnd (1 / 2 * p) * linspace (-1) 1 (n + 2) (k + 1)))) + lo) + hi))

/-- One cell of `np.interp`: `slope * (x - x0) + y0` -/
def lerp (x0 x1 x y0 y1 : K) : K := rnd (rnd (rnd (rnd (y1 - y0) / rnd (x1 - x0)) * rnd (x - x0)) + y0)

/-- `np.interp`, to which the linear `interp1d` of a profile (grid.py:689) delegates: `lerp` is used between the last knot `a` with
`a.1 ≤ x` and its successor; a knot that is hit exactly returns its value. -/
def npInterp : K × K → List (K × K) → K → K
  | a, [], _ => a.2
  | a, b :: l, x =>
    if b.1 ≤ x then npInterp b l x
    else if a.1 = x then a.2
    else lerp a.1 b.1 x a.2 b.2

/-- The knots of `Grid.interp1d_meridional` (grid.py:687-689): pole values are added at 90 and -90 and `interp1d` sorts the knots with
a stable sort. -/
def meridionalKnots (ks : List (K × K)) (north south : K) : List (K × K) :=
  ((90, north) :: ks ++ [(-90, south)]).mergeSort fun a b => decide (a.1 ≤ b.1)

/-- `Grid.interpolate_meridional` (grid.py:691-697) at the latitude `x` -/
def interpolateMeridional (ks : List (K × K)) (north south x : K) : K :=
  match meridionalKnots ks north south with
  | [] => 0
  | a :: l => npInterp a l x

/-- `Grid.zonalize` with `quad="boxcount"` and given levels (grid.py:643-662) at the latitude `x`; `lo` and `hi` are minimum and
maximum of the field (grid.py:627-628). -/
def zonalize (t s : SumTree) (p r dlam : K) (asin : K → K) (a : ℕ → K) (nlon w : ℕ) (f : ℕ → ℕ → K) (lo hi : K) (levels : List K)
    (x : K) : K :=
  interpolateMeridional (levels.map fun q => (contourLatitude t s p r dlam asin a nlon w f q, q)) hi lo x

end Binary64
end Barotropic
