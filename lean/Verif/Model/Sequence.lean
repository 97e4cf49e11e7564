import Verif.Model.StateList

/-!
# StateList objects as sequences  (state.py:420, 441-454)

`StateList` inherits `__contains__`, `__reversed__`, `index` and `count` from `collections.abc.Sequence`; these call
`__getitem__`, `__len__` and `__iter__` of the class. Simplification: sequences are lists of objects of any type `O`; equality
in `O` is identity of objects (`State` does not define `__eq__`). Indices that are neither integers nor slices of integers are
`other`.
-/

namespace Barotropic
namespace Sequence
variable {O : Type}

/-- What can be written in square brackets -/
inductive Index
  | int (i : ℤ)
  | slice (start stop step : Option ℤ)
  | other

/-- What indexing returns: an element of the tuple or another tuple. -/
inductive Item (O : Type)
  | one (x : O)
  | tuple (l : List O)

/-- `tuple[i]`: negative numbers count from the end. -/
def nth (l : List O) (i : ℤ) : Except PyErr O :=
  let j := if i < 0 then i + l.length else i
  if j < 0 then .error .indexError
  else match l[j.toNat]? with
    | some x => .ok x
    | none => .error .indexError

/-- Bound of a slice as index (`PySlice_AdjustIndices` of the interpreter) -/
def clamp (n step i : ℤ) : ℤ :=
  if i < 0 then (if i + n < 0 then (if step < 0 then -1 else 0) else i + n)
  else if n ≤ i then (if step < 0 then n - 1 else n) else i

/-- Indices selected by a slice of a sequence with `n` elements (`slice.indices`); ValueError if the step is zero. -/
def sliceIndices (n : ℕ) (start stop step : Option ℤ) : Except PyErr (List ℤ) :=
  let d := step.getD 1
  if d = 0 then .error .valueError
  else
    let a := match start with
      | some i => clamp n d i
      | none => if d < 0 then n - 1 else 0
    let b := match stop with
      | some i => clamp n d i
      | none => if d < 0 then -1 else n
    let count : ℤ :=
      if d < 0 then (if b < a then (a - b - 1) / (-d) + 1 else 0)
      else (if a < b then (b - a - 1) / d + 1 else 0)
    .ok ((List.range count.toNat).map fun k : ℕ => a + k * d)

/-- `StateList.__getitem__` (state.py:441-442): indexing of the tuple `self._states` -/
def getitem (l : List O) : Index → Except PyErr (Item O)
  | .int i => match nth l i with
    | .ok x => .ok (.one x)
    | .error e => .error e
  | .slice start stop step =>
    match sliceIndices l.length start stop step with
    | .ok idx => .ok (.tuple (idx.filterMap fun i => l[i.toNat]?))
    | .error e => .error e
  | .other => .error .typeError

/-- `StateList.__len__` (state.py:444-445) -/
def len (l : List O) : ℕ := l.length

/-- `StateList.__repr__` (state.py:450-451) -/
def repr (l : List O) : String := s!"<StateList with {len l} states>"

/-- `Sequence.__reversed__`: `for i in reversed(range(len(self))): yield self[i]` -/
def reversed (l : List O) : Except PyErr (List O) := (List.range (len l)).reverse.mapM fun i : ℕ => nth l i

variable [DecidableEq O]

/-- `Sequence.__contains__`: iterates until the object is found. -/
def contains (x : O) : List O → Bool
  | [] => false
  | v :: l => if v = x then true else contains x l

/-- `Sequence.count` -/
def count (l : List O) (x : O) : ℕ := (l.map fun v => if v = x then 1 else 0).sum

/-- The loop of `Sequence.index`: `fuel` is a bound on the number of iterations, `stop` the given bound. -/
def indexLoop (l : List O) (x : O) (stop : Option ℤ) : ℕ → ℤ → Except PyErr ℤ
  | 0, _ => .error .valueError
  | fuel + 1, i =>
    if ∃ s ∈ stop, s ≤ i then .error .valueError
    else match nth l i with
      | .error _ => .error .valueError
      | .ok v => if v = x then .ok i else indexLoop l x stop fuel (i + 1)

/-- `Sequence.index(value, start=0, stop=None)`; a loop that starts at `i ≥ 0` ends after at most `len(self) + 1 - i` steps. -/
def index (l : List O) (x : O) (start : ℤ) (stop : Option ℤ) : Except PyErr ℤ :=
  let i := if start < 0 then max (l.length + start) 0 else start
  let s := stop.map fun s : ℤ => if s < 0 then s + l.length else s
  indexLoop l x s (l.length + 1) i

end Sequence
end Barotropic
