import Verif.Model.Filter
import Mathlib.Analysis.SpecialFunctions.Trigonometric.Basic

/-!
# Wavenumber-dependent smoothing  (diagnostics.py:172-229)

`scipy.signal.convolve2d(..., boundary="wrap")` wraps indices once only, which is the same as periodic continuation if half of
the window is not longer than the field. This is the case for fields with at least 2 columns (see `C63_windows`); fields with
one column are not modelled correctly.
-/

namespace Barotropic

/-- The `wavenumber` argument: a 1-dimensional array of some size, or a 2-dimensional array with the shape of the field
(2-dimensional arrays of other shapes are not modelled). -/
inductive WavenumberArg (h w : ℕ)
  | profile (n : ℕ) (k : Fin n → ℝ)
  | field (k : Fin h → Fin w → ℝ)

/-- `np.clip(wavenumber, 1., nlon / 2)` (diagnostics.py:201), i.e. `minimum(maximum(wavenumber, 1), nlon/2)` -/
noncomputable def clipWavenumber (nlon : ℕ) (k : ℝ) : ℝ := min (max k 1) (nlon / 2)

/-- `((nlon // wavenumber) * 2 + 1).astype(int)` (diagnostics.py:206) for a clipped wavenumber -/
noncomputable def hannWidth (nlon : ℕ) (k : ℝ) : ℕ := ⌊(nlon : ℝ) / clipWavenumber nlon k⌋₊ * 2 + 1

/-- `scipy.signal.hann(width)[m]` for `width > 1` -/
noncomputable def hann (width m : ℕ) : ℝ := 1 / 2 - 1 / 2 * Real.cos (2 * Real.pi * m / (width - 1 : ℕ))

/-- `hann / np.sum(hann)` (diagnostics.py:220) -/
noncomputable def hannWeights (width : ℕ) (m : Fin width) : ℝ := hann width m / ∑ k : Fin width, hann width k

/-- The wavenumber at each gridpoint (diagnostics.py:194-196) -/
noncomputable def WavenumberArg.expand {h w : ℕ} : WavenumberArg h w → Except PyErr (Fin h → Fin w → ℝ)
  | .profile n k => if hn : h = n then .ok fun j _ => k (Fin.cast hn j) else .error .assertionError
  | .field k => .ok k

/-- `filter_by_wavenumber` (diagnostics.py:172-229). The list `convs` has one smoothed field (or zeros) per odd width
(lines 212-224), the result is looked up in this list (lines 227-229, IndexError if the list is too short); `max` of an empty
set raises ValueError. -/
noncomputable def filterByWavenumber {h w : ℕ} (field : Fin h → Fin w → ℝ) (wavenumber : WavenumberArg h w) :
    Except PyErr (Arr ℝ) :=
  match wavenumber.expand with
  | .error e => .error e
  | .ok k =>
    let used : List ℕ := (List.finRange h).flatMap fun j => (List.finRange w).map fun i => hannWidth w (k j i)
    if used = [] then .error .valueError
    else
      let convs : List (Fin h → Fin w → ℝ) := (List.range ((used.foldl max 0 + 1) / 2)).map fun n =>
        if 2 * n + 1 ∈ used then fun j i => convolve (wrapExt (field j)) (hannWeights (2 * n + 1)) i else fun _ _ => 0
      if ∀ j i, (hannWidth w (k j i) - 1) / 2 < convs.length then
        .ok (.d2 h w fun j i => (convs.getD ((hannWidth w (k j i) - 1) / 2) fun _ _ => 0) j i)
      else .error .indexError

/-- `convolve` for data with NaN: every product with NaN is NaN (also for weight 0) and so is every sum. -/
noncomputable def convolveO {m : ℕ} (e : ℤ → Option ℝ) (w : Fin m → ℝ) (i : ℕ) : Option ℝ :=
  if ∀ k : Fin m, (e (i + (m / 2 : ℕ) - k.val)).isSome then some (convolve (fun t => (e t).getD 0) w i) else none

/-- `wrapExt` for data with NaN -/
noncomputable def wrapExtO {n : ℕ} (f : Fin n → Option ℝ) (t : ℤ) : Option ℝ :=
  if h : (t % n).toNat < n then f ⟨(t % n).toNat, h⟩ else none

/-- `filter_by_wavenumber` (diagnostics.py:172-229) for fields with NaN, as `filterByWavenumber` -/
noncomputable def filterByWavenumberO {h w : ℕ} (field : Fin h → Fin w → Option ℝ) (wavenumber : WavenumberArg h w) :
    Except PyErr (Fin h → Fin w → Option ℝ) :=
  match wavenumber.expand with
  | .error e => .error e
  | .ok k =>
    let used : List ℕ := (List.finRange h).flatMap fun j => (List.finRange w).map fun i => hannWidth w (k j i)
    if used = [] then .error .valueError
    else
      let convs : List (Fin h → Fin w → Option ℝ) := (List.range ((used.foldl max 0 + 1) / 2)).map fun n =>
        if 2 * n + 1 ∈ used then fun j i => convolveO (wrapExtO (field j)) (hannWeights (2 * n + 1)) i else fun _ _ => some 0
      if ∀ j i, (hannWidth w (k j i) - 1) / 2 < convs.length then
        .ok fun j i => (convs.getD ((hannWidth w (k j i) - 1) / 2) fun _ _ => some 0) j i
      else .error .indexError

end Barotropic
