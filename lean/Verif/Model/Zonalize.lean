import Verif.Model.Quad
import Mathlib.Analysis.SpecialFunctions.Trigonometric.Inverse

/-!
# Meridional interpolation, equivalent latitude, zonalization  (grid.py:575-697)
-/

namespace Barotropic

/-! ## Linear interpolation -/

section Interp
variable {V : Type*}

/-- `scipy.interpolate.interp1d` sorts the knots with a stable sort (`argsort(x, kind="mergesort")`). -/
noncomputable def sortKnots (l : List (ℝ × V)) : List (ℝ × V) := l.mergeSort fun a b => decide (a.1 ≤ b.1)

/-- The knots of `Grid.interp1d_meridional` (grid.py:685-689): pole values are added at 90 and -90. -/
noncomputable def meridionalKnots (ks : List (ℝ × V)) (north south : V) : List (ℝ × V) :=
  sortKnots ((90, north) :: ks ++ [(-90, south)])

/-- Evaluation of a 1-dimensional linear `interp1d`, which delegates to `np.interp`: `lerp` is used between the last
knot `a` with `a.1 ≤ x` and its successor; a knot that is hit exactly returns its value. Sorted, non-empty list of
knots; arguments outside of the knots do not occur here because of the padding with ±90. -/
noncomputable def npInterp (lerp : ℝ → ℝ → ℝ → V → V → V) : ℝ × V → List (ℝ × V) → ℝ → V
  | a, [], _ => a.2
  | a, b :: l, x =>
    if b.1 ≤ x then npInterp lerp b l x
    else if a.1 = x then a.2
    else lerp a.1 b.1 x a.2 b.2

/-- Evaluation of a 2-dimensional linear `interp1d` (`_call_linear`): `searchsorted(x, x_new)` (left) clipped to
`1 … n-1` selects the interval. At least two knots. -/
noncomputable def callLinear (lerp : ℝ → ℝ → ℝ → V → V → V) : ℝ × V → ℝ × V → List (ℝ × V) → ℝ → V
  | a, b, [], x => lerp a.1 b.1 x a.2 b.2
  | a, b, c :: l, x =>
    if x ≤ b.1 then lerp a.1 b.1 x a.2 b.2 else callLinear lerp b c l x

end Interp

/-- `slope * (x - x_lo) + y_lo` with `slope = (y_hi - y_lo) / (x_hi - x_lo)` -/
noncomputable def lerp (x0 x1 x y0 y1 : ℝ) : ℝ := (y1 - y0) / (x1 - x0) * (x - x0) + y0

/-- The same with NaN (`none`): NaN values propagate and an interval of zero length gives NaN (0/0 or inf*0). -/
noncomputable def lerpO (x0 x1 x : ℝ) (y0 y1 : Option ℝ) : Option ℝ :=
  match y0, y1 with
  | some y0, some y1 => if x0 = x1 then none else some (lerp x0 x1 x y0 y1)
  | _, _ => none

/-- `lerpO` for each column of a row -/
noncomputable def lerpRow {w : ℕ} (x0 x1 x : ℝ) (y0 y1 : Fin w → Option ℝ) : Fin w → Option ℝ :=
  fun i => lerpO x0 x1 x (y0 i) (y1 i)

namespace Grid

/-- The clipping of grid.py:594-595 -/
noncomputable def clipSine (s : ℝ) : ℝ :=
  let s := if 1 ≤ s then 1 else s
  if s ≤ -1 then -1 else s

/-- One entry of `Grid.equivalent_latitude` (grid.py:592-597) -/
noncomputable def eqLat (g : Grid ℝ) (area : ℝ) : ℝ :=
  rad2deg (Real.arcsin (clipSine (1 - 1 / 2 * area / Real.pi / g.rsphere ^ 2)))

/-- `Grid.equivalent_latitude` (grid.py:577-597). The item assignments fail for numbers (and for 0-dimensional arrays,
whose arithmetic yields numpy scalars): TypeError. -/
noncomputable def equivalentLatitude (g : Grid ℝ) : Arr ℝ → Except PyErr (Arr ℝ)
  | .d0 _ => .error .typeError
  | .d1 n a => .ok (.d1 n fun k => g.eqLat (a k))
  | .d2 h w a => .ok (.d2 h w fun j i => g.eqLat (a j i))
  | .nd s => .ok (.nd s)

end Grid

/-- The `levels` argument of `zonalize`: `None`, an `int`, or a 1-dimensional array of contour values. -/
inductive Levels
  | none
  | int (n : ℤ)
  | array (q : List ℝ)

/-- `np.min(field)` (of a non-empty field) -/
noncomputable def fieldMin {h w : ℕ} (f : Fin h → Fin w → ℝ) : ℝ := ⨅ p : Fin h × Fin w, f p.1 p.2

/-- `np.max(field)` (of a non-empty field) -/
noncomputable def fieldMax {h w : ℕ} (f : Fin h → Fin w → ℝ) : ℝ := ⨆ p : Fin h × Fin w, f p.1 p.2

namespace Grid

/-- Contour `k` of `n` automatically chosen ones, `k = 0 … n-1` (grid.py:640-642) -/
noncomputable def autoLevel (qmin qmax : ℝ) (n k : ℕ) : ℝ :=
  1 / 2 * ((qmax - qmin) * Real.sin (1 / 2 * Real.pi * linspace (-1) 1 (n + 2) (k + 1)) + qmin + qmax)

/-- The contour values used by `zonalize` (grid.py:627-645) -/
noncomputable def contourLevels (g : Grid ℝ) {w : ℕ} (field : Fin g.nlat → Fin w → ℝ) (levels : Levels) (quad : String) :
    List ℝ :=
  let auto := fun n : ℕ => (List.range n).map (autoLevel (fieldMin field) (fieldMax field) n)
  match levels with
  | .none => auto (g.nlat * if quad = "boxcount" then 2 else 1)
  | .int n => auto n.toNat
  | .array q => q

/-- `zonalize(field, levels, interpolate=False, quad)` for a field with `nlat` rows and `w` columns (grid.py:626-660);
the list of pairs (contour value, equivalent latitude). Without columns `np.min` fails, without levels (including
non-positive integers) `np.vectorize` (or `np.linspace`) fails, all with ValueError. -/
noncomputable def zonalizeContours (g : Grid ℝ) {w : ℕ} (field : Fin g.nlat → Fin w → ℝ) (levels : Levels)
    (quad : String) : Except PyErr (List (ℝ × ℝ)) :=
  if w = 0 then .error .valueError
  else if g.contourLevels field levels quad = [] then .error .valueError
  else
    (g.contourLevels field levels quad).mapM fun q =>
      match g.quadCore (fun _ _ => 1) (some fun j i => field j i - q) quad with
      | .ok area => .ok (q, g.eqLat (area * (g.nlon / w)))
      | .error e => .error e

/-- `zonalize(field, levels, interpolate=True, quad)` (grid.py:662): the contour values interpolated to the latitudes
of the grid. -/
noncomputable def zonalize (g : Grid ℝ) {w : ℕ} (field : Fin g.nlat → Fin w → ℝ) (levels : Levels) (quad : String) :
    Except PyErr (Fin g.nlat → ℝ) :=
  match g.zonalizeContours field levels quad with
  | .error e => .error e
  | .ok out =>
    match meridionalKnots (out.map Prod.swap) (fieldMax field) (fieldMin field) with
    | [] => .error .valueError
    | a :: l => .ok fun j => npInterp lerp a l (g.lat j)

end Grid
end Barotropic
