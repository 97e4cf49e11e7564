import Verif.Model.Mean
import Verif.Model.Derivative

/-!
# Numerical quadrature  (grid.py:469-573)
-/

namespace Barotropic

/-- The type of arrays with the same shape as a given array (only 2-dimensional arrays matter). -/
def Arr.Like {α : Type*} : Arr α → Type _
  | .d2 h w _ => Fin h → Fin w → α
  | _ => PUnit

open Finset

/-- One interval of the spherical trapezoidal rule, without the factor `rsphere` (grid.py:535-568): left/right points
`x0`, `x1` with values `y0`, `y1` of the integrand and `z0`, `z1` of the domain field. -/
noncomputable def sptrapzSeg (x0 x1 y0 y1 z0 z1 : ℝ) : ℝ :=
  let dx := x1 - x0
  let dy := y1 - y0
  let aa := dy / dx
  let bb := y0 - aa * x0
  let xs := if ¬ 0 ≤ z0 ∧ 0 ≤ z1 then x0 - z0 / (z1 - z0) * dx else x0
  let xe := if 0 ≤ z0 ∧ ¬ 0 ≤ z1 then x1 - z1 / (z1 - z0) * dx else x1
  aa * (Real.cos xs - Real.cos xe) + (aa * xs + bb) * Real.sin xs - (aa * xe + bb) * Real.sin xe

/-- The sum over the intervals of a meridian with points `x 0, …, x n`; only intervals with a non-negative `z` at one
end contribute (grid.py:570). -/
noncomputable def sptrapzCol (r : ℝ) (n : ℕ) (x y z : ℕ → ℝ) : ℝ :=
  ∑ j ∈ range n, if 0 ≤ z j ∨ 0 ≤ z (j + 1) then
    r * sptrapzSeg (x j) (x (j + 1)) (y j) (y (j + 1)) (z j) (z (j + 1)) else 0

namespace Grid

/-- Boxcounting along one meridian (grid.py:516-522): sum of gridpoint area times value where `z >= 0`, divided by the
zonal extent. -/
noncomputable def boxcountCol (g : Grid ℝ) (y z : Fin g.nlat → ℝ) : ℝ :=
  (∑ j, if 0 ≤ z j then g.gridpointArea j * y j else 0) / g.rsphere / g.dlam

/-- `Grid.quad_meridional` for a field with `nlat` rows and `w` columns and a `z` of the same shape
(grid.py:511-573). `z=None` means `True` everywhere (boxcount) or a field of ones (sptrapz). A field wider than the
grid makes the sptrapz scheme fail when the latitudes are combined with it (`phi2[:,:w]` has only `nlon` columns;
broadcasting ValueError). -/
noncomputable def quadMeridionalCore (g : Grid ℝ) {w : ℕ} (y : Fin g.nlat → Fin w → ℝ)
    (z : Option (Fin g.nlat → Fin w → ℝ)) (method : String) : Except PyErr (Fin w → ℝ) :=
  let z := z.getD fun _ _ => 1
  if method = "boxcount" then .ok fun i => g.boxcountCol (fun j => y j i) (fun j => z j i)
  else if method = "sptrapz" then
    if g.nlon < w then .error .valueError
    else .ok fun i => sptrapzCol g.rsphere (g.nlat - 1) g.phi (col fun j => y j i) (col fun j => z j i)
  else .error .valueError

/-- `Grid.quad_meridional` (grid.py:486-573). The domain field `z` is assumed to have the shape of `y`; fields of
other shapes are not modelled. -/
noncomputable def quadMeridional (g : Grid ℝ) (y : Arr ℝ) (z : Option y.Like) (method : String := "sptrapz") :
    Except PyErr (Arr ℝ) :=
  match y, z with
  | .d2 h w y, z =>
    if hh : h = g.nlat then
      match g.quadMeridionalCore (fun j => y (j.cast hh.symm)) (z.map fun z j => z (j.cast hh.symm)) method with
      | .ok v => .ok (.d1 w v)
      | .error e => .error e
    else .error .assertionError
  | _, _ => .error .assertionError

/-- `Grid.quad` for a field with `nlat` rows (grid.py:471-484) -/
noncomputable def quadCore (g : Grid ℝ) {w : ℕ} (y : Fin g.nlat → Fin w → ℝ)
    (z : Option (Fin g.nlat → Fin w → ℝ)) (method : String) : Except PyErr ℝ :=
  match g.quadMeridionalCore y z method with
  | .ok v => .ok (g.rsphere * g.dlam * ∑ i, v i)
  | .error e => .error e

/-- `Grid.quad` (grid.py:484) -/
noncomputable def quad (g : Grid ℝ) (y : Arr ℝ) (z : Option y.Like) (method : String := "sptrapz") :
    Except PyErr ℝ :=
  match g.quadMeridional y z method with
  | .ok (.d1 _ v) => .ok (g.rsphere * g.dlam * ∑ i, v i)
  | .ok _ => .error .valueError
  | .error e => .error e

end Grid
end Barotropic
