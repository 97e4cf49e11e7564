import Verif.Model.Binary64Zonalize

/-!
# Wave activity with boxcounting in double precision

(grid.py:516-522, diagnostics.py:32-96) Every operation is rounded as on a computer.
-/

namespace Barotropic
namespace Binary64

variable {K : Type*} [Field K] [LinearOrder K] [IsStrictOrderedRing K] [FloorRing K]

/-- One column of `quad_meridional(y, z, method="boxcount")` (grid.py:516-522): `a` are the values of `gridpoint_area`, `y` and `z` the
columns of the fields. Terms outside of the domain do not count. The terms of a column are added in an order `t` that does not depend
on the domain (`np.sum` along the first axis adds row by row). -/
def boxMeridional (t : SumTree) (r dlam : K) (a y z : ℕ → K) : K :=
  rnd (rnd (t.eval (fun j => if 0 ≤ z j then rnd (a j * y j) else 0) / r) / dlam)

/-- One value of `falwa(…, interpolate=False, quad="boxcount")` (diagnostics.py:86-90): `pv` is the column of the field, `q` and `y` are
the value and the latitude of the contour, `c` is `np.cos(np.deg2rad(y))`. -/
def falwaAt (t : SumTree) (r dlam : K) (a lat pv : ℕ → K) (q y c : K) : K :=
  rnd (rnd (boxMeridional t r dlam a (fun j => rnd (pv j - q)) (fun j => rnd (pv j - q)) -
    boxMeridional t r dlam a (fun j => rnd (pv j - q)) (fun j => rnd (lat j - y))) / c)

/-- One value of `fawa(…, interpolate=False, quad="boxcount")` (diagnostics.py:39-40): the mean of a row of `w` values -/
def fawaAt (t s : SumTree) (r dlam : K) (a lat : ℕ → K) (pv : ℕ → ℕ → K) (w : ℕ) (q y c : K) : K :=
  rnd (s.eval (fun i => falwaAt t r dlam a lat (fun j => pv j i) q y c) / w)

/-- One column of a 2-dimensional linear `interp1d` (`_call_linear` of scipy): `searchsorted(x, x_new)` (left) clipped to `1 … n-1`
selects the interval. At least two knots. -/
def callLinear : K × K → K × K → List (K × K) → K → K
  | a, b, [], x => lerp a.1 b.1 x a.2 b.2
  | a, b, c :: l, x => if x ≤ b.1 then lerp a.1 b.1 x a.2 b.2 else callLinear b c l x

/-- One column of `interpolate_meridional(falwa, yy, pole_values=(0., 0.))` (diagnostics.py:96, grid.py:687-697) at the latitude `x` -/
def interpolateColumn (ks : List (K × K)) (x : K) : K :=
  match meridionalKnots ks 0 0 with
  | a :: b :: l => callLinear a b l x
  | _ => 0

end Binary64
end Barotropic
