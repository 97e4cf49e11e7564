import Verif.Model.StateList

/-!
# StateList objects and Python's protocols for attributes, copying and pickling  (state.py:433-468)

The standard library functions are modelled as far as they touch attributes of a `StateList`.
-/

namespace Barotropic
namespace SList
variable {τ : Type} {H : GridHeap} {α : Type}

/-- An instance of the class: `none` if the attribute `_states` does not exist (yet). `object.__new__` creates such an
instance, `__init__` sets the attribute (state.py:434). -/
abbrev Inst (τ : Type) (H : GridHeap) := Option (SList τ H)

/-- `iter(self)` (state.py:447-448) with `limit` levels left until the recursion limit of the interpreter. If the instance
has no attribute `_states`, evaluation of `self._states` calls `__getattr__("_states")` (state.py:465-468), which
iterates over `self`. -/
noncomputable def iter (C : StateCls τ H α) (o : Inst τ H) : ℕ → Except PyErr (List (AnySt τ H))
  | 0 => .error .recursionError
  | limit + 1 =>
    match o with
    | some l => .ok l.states
    | none =>
      match C.method "_states" with
      | some _ => .error .typeError -- a partial object is not iterable
      | none => do
        let states ← iter C none limit
        let seq ← states.mapM (C.attr "_states")
        match ← convertSequence seq with
        | .stateList l => return l.states
        | _ => .error .typeError

/-- `StateList.__getattr__` (state.py:465-468) of an instance. Called for names that are found neither in the class
`StateList` nor in the instance. -/
noncomputable def getattrInst (C : StateCls τ H α) (o : Inst τ H) (limit : ℕ) (name : String) :
    Except PyErr (AttrRes τ H α) :=
  match C.method name with
  | some m => .ok (.bound fun args => do
      let states ← iter C o limit
      let seq ← states.mapM fun s => m s args
      convertSequence seq)
  | none => do
    let states ← iter C o limit
    let seq ← states.mapM (C.attr name)
    let c ← convertSequence seq
    return .value c

/-- `hasattr(o, name)`: only AttributeError means that there is no such attribute. -/
noncomputable def hasattr (C : StateCls τ H α) (o : Inst τ H) (limit : ℕ) (name : String) : Except PyErr Bool :=
  match getattrInst C o limit name with
  | .ok _ => .ok true
  | .error .attributeError => .ok false
  | .error e => .error e

/-- Reconstruction of an object from its instance dictionary in `copy.copy`, `copy.deepcopy` and `pickle.loads`: a new
instance without attributes is created; if it has no method `__setstate__` its dictionary is updated. (Nothing is
said about `__setstate__` because `State` does not define it; the argument is ignored.) -/
noncomputable def reconstruct (C : StateCls τ H α) (limit : ℕ) (dict : SList τ H) : Except PyErr (Inst τ H) :=
  match hasattr C none limit "__setstate__" with
  | .error e => .error e
  | .ok true => .error .typeError
  | .ok false => .ok (some dict)

/-- `copy.copy(o)` and `pickle.loads(pickle.dumps(o))`, for states that can be pickled -/
noncomputable def copy (C : StateCls τ H α) (limit : ℕ) (o : SList τ H) : Except PyErr (Inst τ H) := reconstruct C limit o

/-- `copy.deepcopy(o)`: `getattr(o, "__deepcopy__", None)` is called if it exists. Otherwise the dictionary is copied (for
`copyStates`, any function that copies the states) and the object reconstructed. -/
noncomputable def deepcopy (C : StateCls τ H α) (limit : ℕ) (copyStates : SList τ H → Except PyErr (SList τ H))
    (o : SList τ H) : Except PyErr (Inst τ H) :=
  match getattrInst C (some o) limit "__deepcopy__" with
  | .ok _ => .error .typeError -- no container is callable
  | .error .attributeError => do
    let dict ← copyStates o
    reconstruct C limit dict
  | .error e => .error e

end SList

/-- Callable attributes of the class `State`: the methods of state.py:49-395 and what every class inherits from `object`
and `type`. -/
def stateCallables : List String :=
  ["__init__", "__repr__", "from_wind", "from_vorticity", "add_wind", "add_vorticity", "_invert_pv",
   "extract_ks_waveguides", "run", "as_hn2016", "from_hn2016",
   "__class__", "__new__", "__getattribute__", "__setattr__", "__delattr__", "__hash__", "__str__", "__format__", "__eq__",
   "__ne__", "__lt__", "__le__", "__gt__", "__ge__", "__dir__", "__sizeof__", "__reduce__", "__reduce_ex__",
   "__getstate__", "__init_subclass__", "__subclasshook__", "mro", "__call__", "__subclasses__", "__instancecheck__",
   "__subclasscheck__", "__prepare__", "__or__", "__ror__"]

end Barotropic
