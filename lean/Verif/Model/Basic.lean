import Mathlib.Algebra.Order.Floor.Ring
import Mathlib.Algebra.Order.Field.Basic
import Mathlib.Algebra.BigOperators.Group.Finset.Basic
import Mathlib.Data.Fintype.BigOperators

/-!
# Python/numpy vocabulary used by the model

Exceptions are values (`Except PyErr α`); arrays carry their shape.
-/

namespace Barotropic

/-- Exception classes that the modelled code can raise. -/
inductive PyErr
  | typeError | valueError | assertionError | indexError | notImplementedError
  | nameError | attributeError | recursionError | zeroDivisionError | keyError | runtimeError
  deriving DecidableEq, Repr

/-- A numpy array of rank 0, 1 or 2 with its shape, or an array of higher rank (contents irrelevant to the
modelled code: every function that looks at an array of rank ≥ 3 only rejects it). -/
inductive Arr (α : Type*)
  | d0 (x : α)
  | d1 (n : ℕ) (v : Fin n → α)
  | d2 (h w : ℕ) (v : Fin h → Fin w → α)
  | nd (shape : List ℕ)

namespace Arr
variable {α : Type*}

/-- `array.shape` -/
def shape : Arr α → List ℕ
  | d0 _ => []
  | d1 n _ => [n]
  | d2 h w _ => [h, w]
  | nd s => s

/-- The `nd` constructor is meant for rank 3 and higher only. -/
def WF : Arr α → Prop
  | nd s => 3 ≤ s.length
  | _ => True

/-- `array.ndim` -/
def ndim (a : Arr α) : ℕ := a.shape.length

end Arr

section Numeric
variable {K : Type*} [Field K] [LinearOrder K]

/-- `np.isclose(a, b)` with the default `rtol=1e-5`, `atol=1e-8` (note the asymmetry: the tolerance is relative
to the second argument). Used in grid.py:89-90, 800, 835, io.py:269-284. -/
def isclose (a b : K) : Prop := |a - b| ≤ 1 / 10 ^ 8 + 1 / 10 ^ 5 * |b|

instance (a b : K) : Decidable (isclose a b) := by unfold isclose; infer_instance

/-- `np.linspace(a, b, n, endpoint=True)[i]` (for `n = 1` numpy returns `[a]`). -/
def linspace (a b : K) (n i : ℕ) : K := if n ≤ 1 then a else a + i * ((b - a) / ((n : K) - 1))

/-- `np.linspace(a, b, n, endpoint=False)[i]` -/
def linspaceOpen (a b : K) (n i : ℕ) : K := a + i * ((b - a) / (n : K))

end Numeric

/-- `np.roll(l, k)` for a 1-dimensional array and a shift `k ≥ 0`: the last `k` entries move to the front. -/
def npRoll {α : Type*} (l : List α) (k : ℕ) : List α := l.rotateRight k

end Barotropic
