import Verif.Model.Grid

/-!
# Filtering  (grid.py:699-774)

Fields and windows are real (`scipy.ndimage.convolve` would truncate the result for integer fields, which is not modelled).
-/

namespace Barotropic

variable {K : Type*} [Field K] [LinearOrder K] [IsStrictOrderedRing K] [FloorRing K]

/-- Python's `round(x)`: the nearest integer, the even one if there are two. -/
def pyRound (x : K) : ℤ :=
  if x - ⌊x⌋ < 1 / 2 then ⌊x⌋
  else if 1 / 2 < x - ⌊x⌋ then ⌊x⌋ + 1
  else if ⌊x⌋ % 2 = 0 then ⌊x⌋ else ⌊x⌋ + 1

/-- A 1-dimensional array of weights. -/
abbrev Weights (K : Type*) := (n : ℕ) × (Fin n → K)

/-- The `window` and `width` arguments: a gridded window (`width` is None) or a window specification with a width. -/
inductive WindowArg (W K : Type*)
  | gridded (w : Weights K)
  | named (window : W) (width : K)

/-- Extension of 1-dimensional data beyond its ends, `mode="wrap"` of `scipy.ndimage` -/
def wrapExt {n : ℕ} (f : Fin n → K) (t : ℤ) : K :=
  if h : (t % n).toNat < n then f ⟨(t % n).toNat, h⟩ else 0

/-- Extension of 1-dimensional data beyond its ends, `mode="reflect"` of `scipy.ndimage`: `d c b a | a b c d | d c b a` -/
def reflectExt {n : ℕ} (f : Fin n → K) (t : ℤ) : K :=
  if h : (t % (2 * n : ℕ)).toNat < n then f ⟨(t % (2 * n : ℕ)).toNat, h⟩
  else if h : 2 * n - 1 - (t % (2 * n : ℕ)).toNat < n then f ⟨2 * n - 1 - (t % (2 * n : ℕ)).toNat, h⟩ else 0

/-- `scipy.ndimage.convolve` along one axis, entry `i`, for weights `w` and extended data `e` -/
def convolve {m : ℕ} (e : ℤ → K) (w : Fin m → K) (i : ℕ) : K := ∑ k : Fin m, w k * e (i + (m / 2 : ℕ) - k.val)

namespace Grid

/-- Number of gridpoints of a window (grid.py:716-717) -/
def filterWidth (g : Grid K) (width : K) : ℤ :=
  if pyRound (width / g.dlon) % 2 = 1 then pyRound (width / g.dlon) else pyRound (width / g.dlon) + 1

/-- `Grid.get_filter_window` (grid.py:701-719). `getWindow` is `scipy.signal.get_window(·, ·, fftbins=False)`, which raises
ValueError for negative lengths. A window with sum 0 results in NaN or infinities in the code, here in 0; the theorems assume
a sum different from 0. -/
def getFilterWindow {W : Type*} (getWindow : W → (n : ℕ) → Except PyErr (Fin n → K)) (g : Grid K) (window : W) (width : K) :
    Except PyErr (Weights K) :=
  if g.filterWidth width < 0 then .error .valueError
  else match getWindow window (g.filterWidth width).toNat with
    | .error e => .error e
    | .ok w => .ok ⟨(g.filterWidth width).toNat, fun i => w i / ∑ k, w k⟩

/-- `if width is not None: window = self.get_filter_window(window, width)` (grid.py:736-737, 764-765) -/
def resolveWindow {W : Type*} (getWindow : W → (n : ℕ) → Except PyErr (Fin n → K)) (g : Grid K) :
    WindowArg W K → Except PyErr (Weights K)
  | .gridded w => .ok w
  | .named window width => g.getFilterWindow getWindow window width

/-- `Grid.filter_meridional` (grid.py:721-746). `scipy.ndimage.convolve` raises RuntimeError if there are no weights. -/
def filterMeridional {W : Type*} (getWindow : W → (n : ℕ) → Except PyErr (Fin n → K)) (g : Grid K) (field : Arr K)
    (window : WindowArg W K) : Except PyErr (Arr K) :=
  match g.resolveWindow getWindow window with
  | .error e => .error e
  | .ok ⟨m, w⟩ =>
    match field with
    | .d1 n f =>
      if n ≠ g.nlat then .error .assertionError
      else if m = 0 then .error .runtimeError
      else .ok (.d1 n fun j => convolve (reflectExt f) w j)
    | .d2 h n f =>
      if h ≠ g.nlat then .error .assertionError
      else if m = 0 then .error .runtimeError
      else .ok (.d2 h n fun j i => convolve (reflectExt fun j' => f j' i) w j)
    | _ => .error .valueError

/-- `Grid.filter_zonal` (grid.py:749-774) -/
def filterZonal {W : Type*} (getWindow : W → (n : ℕ) → Except PyErr (Fin n → K)) (g : Grid K) (field : Arr K)
    (window : WindowArg W K) : Except PyErr (Arr K) :=
  match g.resolveWindow getWindow window with
  | .error e => .error e
  | .ok ⟨m, w⟩ =>
    match field with
    | .d1 n f =>
      if n ≠ g.nlon then .error .assertionError
      else if m = 0 then .error .runtimeError
      else .ok (.d1 n fun i => convolve (wrapExt f) w i)
    | .d2 h n f =>
      if n ≠ g.nlon then .error .assertionError
      else if m = 0 then .error .runtimeError
      else .ok (.d2 h n fun j i => convolve (wrapExt (f j)) w i)
    | _ => .error .valueError

end Grid
end Barotropic
