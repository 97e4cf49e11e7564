import Verif.Model.GridReal

/-!
# Meridional derivative  (grid.py:296-343)
-/

namespace Barotropic

/-- The `order` argument of `derivative_meridional`: `None`, a number equal to an integer, or
some object equal to neither. -/
inductive Order
  | none
  | int (k : ℤ)
  | other
  deriving DecidableEq

namespace Grid

/-- Entry `j` of the numerator of the 3-point stencil along one column `a` with `h` rows (grid.py:322-327); pole rows
are only evaluated for 2-dimensional input. -/
def stencil2 (poles : Bool) (h : ℕ) (a : ℕ → ℝ) (j : ℕ) : ℝ :=
  if j = 0 then if poles then -3 * a 0 + 4 * a 1 - a 2 else 0
  else if j = h - 1 then if poles then a (h - 3) - 4 * a (h - 2) + 3 * a (h - 1) else 0
  else a (j + 1) - a (j - 1)

/-- Entry `j` of the numerator of the 5-point stencil (grid.py:331-340). -/
def stencil4 (poles : Bool) (h : ℕ) (a : ℕ → ℝ) (j : ℕ) : ℝ :=
  if j = 0 then
    if poles then -25 * a 0 + 48 * a 1 - 36 * a 2 + 16 * a 3 - 3 * a 4 else 0
  else if j = h - 1 then
    if poles then 3 * a (h - 5) - 16 * a (h - 4) + 36 * a (h - 3) - 48 * a (h - 2) + 25 * a (h - 1) else 0
  else if j = 1 then -3 * a 0 - 10 * a 1 + 18 * a 2 - 6 * a 3 + a 4
  else if j = h - 2 then -a (h - 5) + 6 * a (h - 4) - 18 * a (h - 3) + 10 * a (h - 2) + 3 * a (h - 1)
  else a (j - 2) - 8 * a (j - 1) + 8 * a (j + 1) - a (j + 2)

/-- `f[j]` for the rows that exist. -/
def col {h : ℕ} (f : Fin h → ℝ) (j : ℕ) : ℝ := if hj : j < h then f ⟨j, hj⟩ else 0

/-- Order 2 (grid.py:316-328). The number of rows `h` of the input is not checked against `nlat`; with too few rows
the explicit row accesses raise IndexError, as does 0-dimensional input. -/
noncomputable def derivative2 (g : Grid ℝ) (f : Arr ℝ) : Except PyErr (Arr ℝ) :=
  if g.nlat < 3 then .error .assertionError
  else
    match f with
    | .d1 h v => .ok (.d1 h fun j => stencil2 false h (col v) j / 2 / g.dphi)
    | .d2 h w v =>
      if h < 3 then .error .indexError
      else .ok (.d2 h w fun j i => stencil2 true h (col fun j => v j i) j / 2 / g.dphi)
    | _ => .error .indexError

/-- Order 4 (grid.py:329-342). -/
noncomputable def derivative4 (g : Grid ℝ) (f : Arr ℝ) : Except PyErr (Arr ℝ) :=
  if g.nlat < 5 then .error .assertionError
  else
    match f with
    | .d1 h v =>
      if h < 5 then .error .indexError
      else .ok (.d1 h fun j => stencil4 false h (col v) j / 12 / g.dphi)
    | .d2 h w v =>
      if h < 5 then .error .indexError
      else .ok (.d2 h w fun j i => stencil4 true h (col fun j => v j i) j / 12 / g.dphi)
    | _ => .error .indexError

/-- `Grid.derivative_meridional` (grid.py:316-343). -/
noncomputable def derivativeMeridional (g : Grid ℝ) (f : Arr ℝ) (order : Order) : Except PyErr (Arr ℝ) :=
  if 2 < f.ndim then .error .assertionError
  else if order = .int 2 then g.derivative2 f
  else if order = .none ∨ order = .int 4 then g.derivative4 f
  else .error .notImplementedError

end Grid
end Barotropic
