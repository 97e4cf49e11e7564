import Verif.Model.Binary64Zonalize

/-!
# Spherical trapezoidal rule in double precision

(grid.py:524-570, diagnostics.py:86-90) Every operation is rounded as on a computer. The functions `np.sin` and `np.cos` are parameters.
-/

namespace Barotropic
namespace Binary64

variable {K : Type*} [Field K] [LinearOrder K] [IsStrictOrderedRing K] [FloorRing K]

/-- Left end of the integration in an interval (grid.py:545-550) -/
def trapzStart (x0 x1 z0 z1 : K) : K :=
  if ¬ 0 ≤ z0 ∧ 0 ≤ z1 then rnd (x0 - rnd (rnd (z0 / rnd (z1 - z0)) * rnd (x1 - x0))) else x0

/-- Right end of the integration in an interval (grid.py:553-558) -/
def trapzEnd (x0 x1 z0 z1 : K) : K :=
  if 0 ≤ z0 ∧ ¬ 0 ≤ z1 then rnd (x1 - rnd (rnd (z1 / rnd (z1 - z0)) * rnd (x1 - x0))) else x1

/-- One interval of `quad_meridional(…, method="sptrapz")` (grid.py:535-568) -/
def trapzSeg (sn cs : K → K) (r x0 x1 y0 y1 z0 z1 : K) : K :=
  let aa := rnd (rnd (y1 - y0) / rnd (x1 - x0))
  let bb := rnd (y0 - rnd (aa * x0))
  let xs := trapzStart x0 x1 z0 z1
  let xe := trapzEnd x0 x1 z0 z1
  rnd (r * rnd (rnd (rnd (aa * rnd (cs xs - cs xe)) + rnd (rnd (rnd (aa * xs) + bb) * sn xs)) -
    rnd (rnd (rnd (aa * xe) + bb) * sn xe)))

/-- One column of `quad_meridional(y, z, method="sptrapz")` (grid.py:570): the terms are added in an order `t` -/
def trapzColumn (t : SumTree) (sn cs : K → K) (r : K) (x y z : ℕ → K) : K :=
  t.eval fun j => if 0 ≤ z j ∨ 0 ≤ z (j + 1) then trapzSeg sn cs r (x j) (x (j + 1)) (y j) (y (j + 1)) (z j) (z (j + 1)) else 0

/-- `quad(y, z, method="sptrapz")` (grid.py:484) -/
def trapzQuad (t s : SumTree) (sn cs : K → K) (r dlam : K) (x : ℕ → K) (y z : ℕ → ℕ → K) : K :=
  rnd (rnd (r * dlam) * s.eval fun i => trapzColumn t sn cs r x (fun j => y j i) (fun j => z j i))

/-- One value of `falwa(…, interpolate=False, quad="sptrapz")` (diagnostics.py:86-90): `pv` is the column of the field, `x` are the
latitudes in radians, `q` and `y` are the value and the latitude of the contour, `c` is `np.cos(np.deg2rad(y))`. -/
def falwaTrapz (t : SumTree) (sn cs : K → K) (r : K) (x lat pv : ℕ → K) (q y c : K) : K :=
  rnd (rnd (trapzColumn t sn cs r x (fun j => rnd (pv j - q)) (fun j => rnd (pv j - q)) -
    trapzColumn t sn cs r x (fun j => rnd (pv j - q)) (fun j => rnd (lat j - y))) / c)

end Binary64
end Barotropic
