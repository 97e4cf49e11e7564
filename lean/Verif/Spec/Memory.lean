import Verif.Model.Memory

/-!
# What it means that functions do not modify arrays
-/

namespace Barotropic

/-- All buffers that are in use in `m` exist in `m'` and have the same contents. -/
def Mem.Unchanged (m m' : Mem) : Prop := m.next ≤ m'.next ∧ ∀ b < m.next, m'.cell b = m.cell b

/-- A program that does not raise and does not modify the arrays that existed before; its result and the memory at the
end satisfy `R`. -/
def Does {β : Type} (m : Mem) (p : Mp β) (R : β → Mem → Prop) : Prop :=
  ∃ x m', p m = (.ok x, m') ∧ m.Unchanged m' ∧ R x m'

/-- A program that does not modify the arrays that existed before and returns a new array with contents `v`. -/
def YieldsNew {ι α : Type} [Stored α] (m : Mem) (p : Mp (Nd ι α)) (v : ι → α) : Prop :=
  Does m p fun a m' => m.next ≤ a.buf ∧ a.buf < m'.next ∧ m'.read a = v

/-- A program that does not modify the arrays that existed before and raises or returns as described by `r`; results are
related to those of `r` by `R`. -/
def Refines {β γ : Type} (m : Mem) (p : Mp β) (r : Except PyErr γ) (R : β → γ → Mem → Prop) : Prop :=
  match r with
  | .ok c => Does m p fun x m' => R x c m'
  | .error e => ∃ m', p m = (.error e, m') ∧ m.Unchanged m'

/-- The array exists. -/
def Nd.Valid {ι α : Type} (a : Nd ι α) (m : Mem) : Prop := a.buf < m.next

namespace StateRef
variable {g : Grid ℝ} (S : g.Sph)

/-- If the attribute is not `None`, it is an existing array that contains `f`. -/
def Holds (m : Mem) (a : Option g.FldRef) (f : g.Fld) : Prop := ∀ b, a = some b → b.Valid m ∧ fld m b = f

/-- The object has the content `st`: its spectral PV is that of `st` and the fields it keeps are those that belong to
this spectral PV. -/
structure Rep (m : Mem) (s : StateRef g) (st : St PyTime g) : Prop where
  time : s.time = st.time
  valid : s.pvSpectral.Valid m
  q : m.read s.pvSpectral = st.q
  pv : Holds m s.pv (st.pv S)
  u : Holds m s.u (st.u S)
  v : Holds m s.v (st.v S)
  streamfunction : Holds m s.streamfunction (st.streamfunction S)

/-- The buffers of the arrays that the object refers to -/
def bufs (s : StateRef g) : List ℕ :=
  s.pvSpectral.buf :: [s.pv, s.u, s.v, s.streamfunction].filterMap (Option.map Nd.buf)

end StateRef

/-- The array `fcor2_spectral` of the grid -/
def IsF2s {g : Grid ℝ} (S : g.Sph) (m : Mem) (f2s : g.SpcRef) : Prop :=
  f2s.Valid m ∧ m.read f2s = Grid.fcor2Spectral S

/-- The forcing does not modify arrays (except the ones it creates) and evaluates the function `f`; the state it was given
is still the same afterwards (fields may have been read and kept). -/
def IsRhs {g : Grid ℝ} (S : g.Sph) (rhs : StateRef g → Mp (g.FldRef × StateRef g)) (f : St PyTime g → Except PyErr g.Fld) :
    Prop :=
  ∀ m s st, StateRef.Rep S m s st → Refines m (rhs s) (f st) fun x r m' =>
    StateRef.fld m' x.1 = r ∧ StateRef.Rep S m' x.2 st ∧ ∀ b ∈ x.2.bufs, b ∈ s.bufs ∨ m.next ≤ b

/-- The model with arrays in memory has the parameters of the model `M0`. -/
structure ModelRef.Rep {g : Grid ℝ} (S : g.Sph) (m : Mem) (M : ModelRef g) (M0 : BModel g) : Prop where
  rhs : match M.rhs, M0.rhs with
    | none, none => True
    | some rhs, some f => IsRhs S rhs f
    | _, _ => False
  order : M.diffusionOrder = M0.diffusionOrder
  coeff : M.diffusionCoeff = M0.diffusionCoeff
  bg : match M.diffusionBg, M0.diffusionBg with
    | none, none => True
    | some a, some f => a.Valid m ∧ StateRef.fld m a = f
    | _, _ => False

/-- The result of `run` with arrays in memory is that of the model without memory. -/
def ModelRef.Outcome.Rep {g : Grid ℝ} (S : g.Sph) (m : Mem) : ModelRef.Outcome g → BModel.Outcome g → Prop
  | .outOfFuel, .outOfFuel => True
  | .early s l, .early st l' => StateRef.Rep S m s st ∧ List.Forall₂ (StateRef.Rep S m) l l'
  | .done s l, .done st l' => StateRef.Rep S m s st ∧ List.Forall₂ (StateRef.Rep S m) l l'
  | _, _ => False

end Barotropic
