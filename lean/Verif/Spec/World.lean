import Verif.Model.World
import Verif.Spec.State
import Verif.Spec.Orography

/-!
# What operations on shared objects should return: functions of the contents of the states they are given
-/

namespace Barotropic
variable {g : Grid ℝ}

/-- The value of a user-defined forcing, if every property it reads has its uncached value -/
noncomputable def Prog.value (S : g.Sph) (s : St PyTime g) : Prog g → Except PyErr (RVal g)
  | .ret r => r
  | .read p k => (k (propValue S s p)).value S s

/-- The forcing with all gradients evaluated afresh -/
noncomputable def Forcing.term (orog : ℕ → Orog) (S : g.Sph) : Forcing g → Term g
  | .number x => .number x
  | .func f => .func fun s => f.value S s
  | .switch tend => .timedOffSwitch tend
  | .relaxation rate ref => .linearRelaxation S rate ref
  | .orography t => (orog t).term S
  | .sum a b => .sum (a.term orog S) (b.term orog S)
  | .prod a b => .prod (a.term orog S) (b.term orog S)

/-- The model on contents -/
noncomputable def WModel.isolated (orog : ℕ → Orog) (S : g.Sph) (M : WModel g) : BModel g where
  rhs := M.rhs.map fun f => (f.term orog S).toRhs
  diffusionOrder := M.diffusionOrder
  diffusionCoeff := M.diffusionCoeff
  diffusionBg := M.diffusionBg

variable {H : RhsHeap}

/-- Object `k` exists and has this time and spectral PV. -/
def World.Content (w : World H) (i k : ℕ) (s : St PyTime (H.grid i)) : Prop :=
  ∃ o, (w.states i)[k]? = some o ∧ o.time = s.time ∧ o.pvSpectral = some s.q

/-- Object `k` exists and every property reads as the uncached one of `s`. -/
def World.Shows (w : World H) (i k : ℕ) (s : St PyTime (H.grid i)) : Prop :=
  ∃ o, (w.states i)[k]? = some o ∧ ∀ p, (StateObj.read (H.sph i) p o).1 = propValue (H.sph i) s p

/-- The outcome of a run on objects agrees with the outcome of a run on contents: the same exception, or states that show
the same properties. -/
def World.Agrees (w : World H) (i : ℕ) : Except PyErr WModel.Ret → BModel.Outcome (H.grid i) → Prop
  | .error e, .raised e' => e = e'
  | .ok .outOfFuel, .outOfFuel => True
  | .ok (.early k ks), .early s ss => w.Shows i k s ∧ List.Forall₂ (w.Shows i) ks ss
  | .ok (.done k ks), .done s ss => w.Shows i k s ∧ List.Forall₂ (w.Shows i) ks ss
  | _, _ => False

/-- Agreement of a step that returns states -/
def World.AgreesStep (w : World H) (i : ℕ) : Except PyErr (List ℕ) → Except PyErr (List (St PyTime (H.grid i))) → Prop
  | .error e, .error e' => e = e'
  | .ok ks, .ok ss => List.Forall₂ (w.Shows i) ks ss
  | _, _ => False

end Barotropic
