import Verif.Model.GridReal
import Verif.Model.Region

/-!
# Gridpoint areas and area-weighted means  (grid.py:413-467, 1002-1012)
-/

namespace Barotropic
open Real

/-- The `axis` argument of `Grid.mean`: `None`, an integer, a string or some other object. -/
inductive Axis
  | none
  | int (k : ℤ)
  | str (s : String)
  | other

namespace Grid

/-- `mid_phi[j]`, `j < nlat - 1` (grid.py:424) -/
noncomputable def midPhi (g : Grid ℝ) (j : ℕ) : ℝ := 1 / 2 * (g.phi (j + 1) + g.phi j)

/-- `Grid.gridpoint_area[j]`, `j < nlat` (grid.py:415-432). The three assignments of lines 428-431 touch disjoint
entries because `nlat >= 3`. -/
noncomputable def gridpointArea (g : Grid ℝ) (j : ℕ) : ℝ :=
  let scale := g.rsphere * g.rsphere * g.dlam
  if j = 0 then scale * (1 - sin (g.midPhi 0))
  else if j = g.nlat - 1 then scale * (1 + sin (g.midPhi (g.nlat - 2)))
  else scale * (sin (g.midPhi (j - 1)) - sin (g.midPhi j))

/-- The normalised sums of `Grid.mean` (grid.py:459-467) for weights `area` (already restricted to the region) and
an `h × w` field. For an empty region the code divides 0 by 0 (NaN with a RuntimeWarning); here that is 0, and the
theorems only speak about non-empty regions. -/
noncomputable def meanCore {h w : ℕ} (area : Fin h → ℝ) (f : Fin h → Fin w → ℝ) : Axis → Except PyErr (Arr ℝ)
  | .none => .ok (.d0 ((∑ j, ∑ i, f j i * area j) / (∑ j, area j) / w))
  | .int 0 | .int (-2) | .str "meridional" => .ok (.d1 w fun i => (∑ j, f j i * area j) / ∑ j, area j)
  | .int 1 | .int (-1) | .str "zonal" => .ok (.d1 h fun j => (∑ i, f j i) / w)
  | _ => .error .valueError

/-- `Grid.mean` (grid.py:434-467). `region` is a `GridRegion` of the same grid or `None` (other objects with an
`extract` method are not modelled). `area[:,None]` is the region-extracted `gridpoint_area` (grid.py:1002-1005). -/
noncomputable def mean (g : Grid ℝ) (field : Arr ℝ) (axis : Axis) (region : Option (Region g)) :
    Except PyErr (Arr ℝ) :=
  match region with
  | none =>
    match field with
    | .d2 h w f =>
      if hs : h = g.nlat ∧ w = g.nlon then meanCore (fun j : Fin h => g.gridpointArea j) f axis
      else .error .assertionError
    | _ => .error .assertionError
  | some r =>
    if field.shape = [g.nlat, g.nlon] then
      match r.extract [field] with
      | .ok [.d2 h w f] =>
        if hs : h = r.shape.1 then
          meanCore (fun k : Fin h => r.takeLat (fun j => g.gridpointArea j) (Fin.cast hs k)) f axis
        else .error .valueError
      | .ok _ => .error .valueError
      | .error e => .error e
    else
      match field with
      | .d2 h w f =>
        if hs : h = r.shape.1 ∧ w = r.shape.2 then
          meanCore (fun k : Fin h => r.takeLat (fun j => g.gridpointArea j) (Fin.cast hs.1 k)) f axis
        else .error .assertionError
      | _ => .error .assertionError

end Grid

/-- `GridRegion.mean` (grid.py:1007-1012) -/
noncomputable def Region.mean {g : Grid ℝ} (r : Region g) (field : Arr ℝ) : Except PyErr (Arr ℝ) :=
  g.mean field .none (some r)

end Barotropic
