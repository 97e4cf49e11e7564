import Verif.Model.Run

/-!
# StateList  (state.py:398-517)

`functools.partial(self.map, attr)` is modelled as a function; class attributes of `State` are a parameter.
Simplification: arrays and numbers are real.
-/

namespace Barotropic

/-- A numpy array: shape and entries in C order. -/
structure NdArr where
  shape : List ℕ
  data : List ℝ

/-- Python objects that functions of states return. `other` is anything that is neither ndarray, number nor State. -/
inductive PyObj (τ : Type) (H : GridHeap)
  | ndarray (a : NdArr)
  | number (x : ℝ)
  | state (s : AnySt τ H)
  | other (tag : ℕ)

namespace PyObj
variable {τ : Type} {H : GridHeap}

/-- `isinstance(x, np.ndarray)` -/
def asNdarray : PyObj τ H → Option NdArr
  | ndarray a => some a
  | _ => none

/-- `isinstance(x, numbers.Number)` -/
def asNumber : PyObj τ H → Option ℝ
  | number x => some x
  | _ => none

/-- `isinstance(x, State)` -/
def asState : PyObj τ H → Option (AnySt τ H)
  | state s => some s
  | _ => none

end PyObj

/-- The states of a `StateList` object (`self._states`). -/
structure SList (τ : Type) (H : GridHeap) where
  states : List (AnySt τ H)

namespace SList
variable {τ : Type} {H : GridHeap}

/-- `StateList.grid` (state.py:512): address of the grid of the first state. -/
def grid (l : SList τ H) : Option ℕ := l.states.head?.map (·.1)

/-- The checks in `StateList.__init__` (state.py:435-439), `first` is the grid of `self._states[0]` if that is a State. -/
noncomputable def check (first : Option ℕ) : List (PyObj τ H) → Except PyErr (List (AnySt τ H))
  | [] => .ok []
  | x :: xs =>
    match x.asState with
    | none => .error .typeError
    | some s =>
      let first' := first.getD s.1
      if (H.grid first').eq (H.grid s.1) then
        match check (some first') xs with
        | .ok l => .ok (s :: l)
        | .error e => .error e
      else .error .assertionError

/-- `StateList.__init__` (state.py:433-439) -/
noncomputable def make (xs : List (PyObj τ H)) : Except PyErr (SList τ H) :=
  match check none xs with
  | .ok l => .ok ⟨l⟩
  | .error e => .error e

/-- `StateList.__add__` (state.py:453-454); `other` is any iterable. -/
noncomputable def add (l : SList τ H) (other : List (PyObj τ H)) : Except PyErr (SList τ H) :=
  make (l.states.map .state ++ other)

/-- What `_convert_sequence` returns. -/
inductive Container (τ : Type) (H : GridHeap)
  | ndarray (a : NdArr)
  | stateList (l : SList τ H)
  | list (l : List (PyObj τ H))

/-- `np.asarray` of a list of arrays: stacked if the shapes agree, ValueError otherwise (numpy ≥ 1.24). -/
def stack (l : List NdArr) : Except PyErr NdArr :=
  match l with
  | [] => .ok ⟨[0], []⟩
  | a :: rest =>
    if ∀ b ∈ rest, b.shape = a.shape then .ok ⟨(rest.length + 1) :: a.shape, ((a :: rest).map NdArr.data).flatten⟩
    else .error .valueError

/-- `_convert_sequence` (state.py:410-417) -/
noncomputable def convertSequence (seq : List (PyObj τ H)) : Except PyErr (Container τ H) :=
  if ∀ x ∈ seq, x.asNdarray.isSome then
    match stack (seq.filterMap PyObj.asNdarray) with
    | .ok a => .ok (.ndarray a)
    | .error e => .error e
  else if ∀ x ∈ seq, x.asNumber.isSome then
    .ok (.ndarray ⟨[seq.length], seq.filterMap PyObj.asNumber⟩)
  else if ∀ x ∈ seq, x.asState.isSome then
    match make seq with
    | .ok l => .ok (.stateList l)
    | .error e => .error e
  else .ok (.list seq)

/-- `StateList.map` (state.py:485); `func` with its additional arguments already supplied. -/
noncomputable def map (l : SList τ H) (func : AnySt τ H → Except PyErr (PyObj τ H)) : Except PyErr (Container τ H) := do
  let seq ← l.states.mapM func
  convertSequence seq

/-- The class `State` as seen by `getattr`: callable class attributes (unbound methods, with arguments of type `α`), and
attributes of instances. -/
structure StateCls (τ : Type) (H : GridHeap) (α : Type) where
  method : String → Option (AnySt τ H → α → Except PyErr (PyObj τ H))
  attr : String → AnySt τ H → Except PyErr (PyObj τ H)

/-- Result of `StateList.__getattr__`: a partially evaluated function or a container. -/
inductive AttrRes (τ : Type) (H : GridHeap) (α : Type)
  | bound (f : α → Except PyErr (Container τ H))
  | value (c : Container τ H)

/-- `StateList.__getattr__` (state.py:465-468) -/
noncomputable def getattr {α : Type} (C : StateCls τ H α) (l : SList τ H) (name : String) : Except PyErr (AttrRes τ H α) :=
  match C.method name with
  | some m => .ok (.bound fun args => l.map fun s => m s args)
  | none => do
    let seq ← l.states.mapM (C.attr name)
    let c ← convertSequence seq
    return .value c

/-- Second return value of a model run: `StateList`, or a plain list (model.py:74). -/
inductive Steps (τ : Type) (H : GridHeap)
  | stateList (l : SList τ H)
  | plain (l : List (AnySt τ H))

/-- A call may also not terminate: `none`. -/
abbrev Fail := Option PyErr

/-- `StateList.run` (state.py:499-505), `modelRun` is `model.run(state, *args, **kwargs)`. -/
noncomputable def run (l : SList τ H) (modelRun : AnySt τ H → Except Fail (AnySt τ H × Steps τ H)) :
    Except Fail (SList τ H × List (Steps τ H)) := do
  let res ← l.states.mapM modelRun
  match make (res.map fun r => .state r.1) with
  | .ok last => return (last, res.map Prod.snd)
  | .error e => throw (some e)

end SList

/-- `BarotropicModel.run` on states of any grid. `M i` is the behaviour of the model object on grid `i`. -/
noncomputable def modelRunAny {H : GridHeap} (M : ∀ i, BModel (H.grid i)) (dt : PyDelta) (tend : PyTime) (saveEvery : ℝ)
    (fuel : ℕ) (s : AnySt PyTime H) : Except SList.Fail (AnySt PyTime H × SList.Steps PyTime H) :=
  match (M s.1).run (H.sph s.1) s.2 dt tend saveEvery fuel with
  | .outOfFuel => .error none
  | .raised e => .error (some e)
  | .early sf l => .ok (⟨s.1, sf⟩, .plain (l.map fun x => ⟨s.1, x⟩))
  | .done sf l =>
    match SList.make (l.map fun x => .state ⟨s.1, x⟩) with
    | .ok sl => .ok (⟨s.1, sf⟩, .stateList sl)
    | .error e => .error (some e)

end Barotropic
