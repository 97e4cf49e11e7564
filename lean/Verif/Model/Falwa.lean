import Verif.Model.Zonalize

/-!
# Finite-amplitude (local) wave activity  (diagnostics.py:32-96, state.py:238-253)
-/

namespace Barotropic

/-- Division where a zero denominator is not a number. -/
noncomputable def divO (a b : ℝ) : Option ℝ := if b = 0 then none else some (a / b)

namespace Grid

/-- Contours and latitudes used by `falwa` (diagnostics.py:76-83): those of `zonalize`, or for boxcounting the
zonalized profile interpolated to the dual latitudes. -/
noncomputable def falwaContours (g : Grid ℝ) (pv : Fin g.nlat → Fin g.nlon → ℝ) (levels : Levels) (quad : String) :
    Except PyErr (List (ℝ × ℝ)) :=
  match g.zonalizeContours pv levels quad with
  | .error e => .error e
  | .ok out =>
    if quad = "boxcount" then
      match meridionalKnots (out.map Prod.swap) (fieldMax pv) (fieldMin pv) with
      | [] => .error .valueError
      | a :: l => .ok ((List.range (g.nlat - 1)).map fun j =>
          let y := 1 / 2 * (g.lat j + g.lat (j + 1))
          (npInterp lerp a l y, y))
    else .ok out

/-- One row of FALWA (diagnostics.py:86-90): the difference of the integrals over `pv >= q` and over `lat >= y`,
divided by the cosine of `y`. -/
noncomputable def falwaRow (g : Grid ℝ) (pv : Fin g.nlat → Fin g.nlon → ℝ) (quad : String) (q y : ℝ) :
    Except PyErr (Fin g.nlon → Option ℝ) :=
  match g.quadMeridionalCore (fun j i => pv j i - q) (some fun j i => pv j i - q) quad,
      g.quadMeridionalCore (fun j i => pv j i - q) (some fun j i => g.lat2 j i - y) quad with
  | .ok a, .ok b => .ok fun i => divO (a i - b i) (Real.cos (deg2rad y))
  | .error e, _ => .error e
  | _, .error e => .error e

/-- `falwa(pv, grid, levels, interpolate=False, quad)` (diagnostics.py:74-94): pairs of latitude and FALWA row. -/
noncomputable def falwaContoured (g : Grid ℝ) (pv : Fin g.nlat → Fin g.nlon → ℝ) (levels : Levels) (quad : String) :
    Except PyErr (List (ℝ × (Fin g.nlon → Option ℝ))) :=
  match g.falwaContours pv levels quad with
  | .error e => .error e
  | .ok out => out.mapM fun p =>
    match g.falwaRow pv quad p.1 p.2 with
    | .ok row => .ok (p.2, row)
    | .error e => .error e

/-- `falwa(pv, grid, levels, interpolate=True, quad)` (diagnostics.py:96) -/
noncomputable def falwa (g : Grid ℝ) (pv : Fin g.nlat → Fin g.nlon → ℝ) (levels : Levels := .none)
    (quad : String := "sptrapz") : Except PyErr (Fin g.nlat → Fin g.nlon → Option ℝ) :=
  match g.falwaContoured pv levels quad with
  | .error e => .error e
  | .ok rows =>
    match meridionalKnots rows (fun _ => some 0) (fun _ => some 0) with
    | a :: b :: l => .ok fun j => callLinear lerpRow a b l (g.lat j)
    | _ => .error .valueError

/-- `row.mean(axis=ZONAL)` with NaN -/
noncomputable def meanO {w : ℕ} (row : Fin w → Option ℝ) : Option ℝ :=
  if ∀ i, (row i).isSome then some ((∑ i, (row i).getD 0) / w) else none

/-- `fawa(pv, grid, levels, interpolate=False, quad)` (diagnostics.py:37-44) -/
noncomputable def fawaContoured (g : Grid ℝ) (pv : Fin g.nlat → Fin g.nlon → ℝ) (levels : Levels) (quad : String) :
    Except PyErr (List (ℝ × Option ℝ)) :=
  match g.falwaContoured pv levels quad with
  | .error e => .error e
  | .ok rows => .ok (rows.map fun p => (p.1, meanO p.2))

/-- `fawa(pv, grid, levels, interpolate=True, quad)` (diagnostics.py:46) -/
noncomputable def fawa (g : Grid ℝ) (pv : Fin g.nlat → Fin g.nlon → ℝ) (levels : Levels := .none)
    (quad : String := "sptrapz") : Except PyErr (Fin g.nlat → Option ℝ) :=
  match g.fawaContoured pv levels quad with
  | .error e => .error e
  | .ok rows =>
    match meridionalKnots rows (some 0) (some 0) with
    | [] => .error .valueError
    | a :: l => .ok fun j => npInterp lerpO a l (g.lat j)

/-- `State.fawa` (state.py:245): zonal mean of the interpolated FALWA. -/
noncomputable def stateFawa (g : Grid ℝ) (pv : Fin g.nlat → Fin g.nlon → ℝ) : Except PyErr (Fin g.nlat → Option ℝ) :=
  match g.falwa pv with
  | .error e => .error e
  | .ok f => .ok fun j => meanO (f j)

end Grid
end Barotropic
