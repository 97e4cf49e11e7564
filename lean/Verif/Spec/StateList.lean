import Verif.Model.StateList

/-!
# Vocabulary for statements about sequences of states
-/

namespace Barotropic
variable {τ : Type} {H : GridHeap}

/-- Every grid equals (`==`) that of the first state. -/
def Homogeneous (l : List (AnySt τ H)) : Prop :=
  ∀ f, l.head? = some f → ∀ s ∈ l, (H.grid f.1).eq (H.grid s.1)

/-- Number of entries agrees with the shape. -/
def NdArr.WF (a : NdArr) : Prop := a.data.length = a.shape.prod

/-- `len(c)` -/
def SList.Container.len : SList.Container τ H → ℕ
  | .ndarray a => a.shape.headD 0
  | .stateList l => l.states.length
  | .list l => l.length

/-- `c[k]`. Entries of a one-dimensional array are numbers. -/
def SList.Container.get : SList.Container τ H → ℕ → Option (PyObj τ H)
  | .ndarray ⟨[_], d⟩, k => d[k]?.map .number
  | .ndarray ⟨n :: s, d⟩, k => if k < n then some (.ndarray ⟨s, (d.drop (k * s.prod)).take s.prod⟩) else none
  | .ndarray ⟨[], _⟩, _ => none
  | .stateList l, k => l.states[k]?.map .state
  | .list l, k => l[k]?

/-- Equal, up to numpy's conversion of zero-dimensional arrays to numbers. -/
def PyObj.Same (x y : PyObj τ H) : Prop := x = y ∨ ∃ v, x = .ndarray ⟨[], [v]⟩ ∧ y = .number v

/-- Objects obtained from successful operations that return a StateList. -/
inductive SList.Obtained : SList τ H → Prop
  | make {xs l} : SList.make xs = .ok l → Obtained l
  | add {l other l'} : Obtained l → l.add other = .ok l' → Obtained l'
  | map {l f l'} : Obtained l → l.map f = .ok (.stateList l') → Obtained l'
  | attr {α : Type} {C : SList.StateCls τ H α} {l name l'} : Obtained l → l.getattr C name = .ok (.value (.stateList l')) → Obtained l'
  | method {α : Type} {C : SList.StateCls τ H α} {l name f args l'} : Obtained l → l.getattr C name = .ok (.bound f) →
      f args = .ok (.stateList l') → Obtained l'
  | run {l mr last steps} : Obtained l → l.run mr = .ok (last, steps) → Obtained last

end Barotropic
