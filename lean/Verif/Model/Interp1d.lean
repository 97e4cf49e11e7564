import Verif.Model.Falwa

/-!
# Meridional interpolation as a method of its own  (grid.py:666-697)
-/

namespace Barotropic

/-- A configured linear `scipy.interpolate.interp1d` with sorted knots (at least two): of a profile, or of a field with `w`
columns. -/
inductive Interp1d
  | d1 (a b : ℝ × ℝ) (l : List (ℝ × ℝ))
  | d2 (w : ℕ) (a b : ℝ × (Fin w → Option ℝ)) (l : List (ℝ × (Fin w → Option ℝ)))

namespace Interp1d

/-- The smallest and the largest knot -/
noncomputable def range : Interp1d → ℝ × ℝ
  | d1 a b l => (a.1, ((a :: b :: l).getLast (by simp)).1)
  | d2 _ a b l => (a.1, ((a :: b :: l).getLast (by simp)).1)

/-- Evaluation of the interpolant for an array of positions: ValueError if one is outside of the range of the knots
(`bounds_error`), otherwise `np.interp` for profiles and `_call_linear` for fields. NaN is `none`. -/
noncomputable def call {n : ℕ} (p : Interp1d) (x : Fin n → ℝ) : Except PyErr (Arr (Option ℝ)) :=
  open Classical in
  if ∃ j, x j < p.range.1 ∨ p.range.2 < x j then .error .valueError
  else match p with
    | d1 a b l => .ok (.d1 n fun j => some (npInterp lerp a (b :: l) (x j)))
    | d2 w a b l => .ok (.d2 n w fun j => callLinear lerpRow a b l (x j))

end Interp1d

namespace Grid

/-- `Grid.interp1d_meridional` (grid.py:666-689) with `kind="linear"` and two pole values (north, south): the positions are
padded with 90 and -90, the field with the pole values; scipy sorts. Fields of other rank: AssertionError (line 683).
Different numbers of positions and rows: ValueError from scipy. -/
noncomputable def interp1dMeridional (field : Arr ℝ) {k : ℕ} (lat : Fin k → ℝ) (north south : ℝ) : Except PyErr Interp1d :=
  match field with
  | .d1 n f =>
    if h : n = k then
      match meridionalKnots ((List.finRange k).map fun j => (lat j, f (j.cast h.symm))) north south with
      | a :: b :: l => .ok (.d1 a b l)
      | _ => .error .valueError
    else .error .valueError
  | .d2 n w f =>
    if h : n = k then
      match meridionalKnots ((List.finRange k).map fun j => (lat j, fun i : Fin w => some (f (j.cast h.symm) i)))
          (fun _ => some north) (fun _ => some south) with
      | a :: b :: l => .ok (.d2 w a b l)
      | _ => .error .valueError
    else .error .valueError
  | _ => .error .assertionError

/-- `Grid.interpolate_meridional` (grid.py:691-697) -/
noncomputable def interpolateMeridional (g : Grid ℝ) (field : Arr ℝ) {k : ℕ} (lat : Fin k → ℝ) (north south : ℝ) :
    Except PyErr (Arr (Option ℝ)) :=
  match interp1dMeridional field lat north south with
  | .ok p => p.call fun j : Fin g.nlat => g.lat j
  | .error e => .error e

end Grid
end Barotropic
