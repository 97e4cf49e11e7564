import Verif.Model.Rhs

/-!
# Runs with shared objects  (model.py, rhs.py, state.py)

`Model/Run.lean` and `Model/Rhs.lean` describe the integration on immutable contents. Here the same code is written on
objects: `State` objects with their caches, which are shared between runs, and the gradient cache of the class
`Orography`, which is shared by all terms. Every statement reads the properties of the objects it reads in the code.

Not modelled: assignments by the user to attributes of objects or in place to the arrays they hold; user-defined forcings
that keep state of their own.
-/

namespace Barotropic

/-- The objects that change while a program runs: state objects by grid and number, and the gradient cache (rhs.py:168).
Models, terms and grids are never assigned to. -/
structure World (H : RhsHeap) where
  states : ∀ i, List (StateObj PyTime (H.grid i))
  cache : LruCache

/-- Nothing has been created yet. -/
def World.empty (H : RhsHeap) : World H := ⟨fun _ => [], ⟨[], 0⟩⟩

/-- A computation on the objects; changes persist when an exception is raised later. -/
def Wd (H : RhsHeap) (α : Type) := World H → Except PyErr α × World H

namespace Wd
variable {H : RhsHeap} {α : Type}

instance (H : RhsHeap) : Monad (Wd H) where
  pure a := fun w => (.ok a, w)
  bind m f := fun w => match m w with
    | (.ok a, w') => f a w'
    | (.error e, w') => (.error e, w')

/-- a computation without access to objects -/
def lift (r : Except PyErr α) : Wd H α := fun w => (r, w)

/-- the result instead of the exception (`try`) -/
def attempt (m : Wd H α) : Wd H (Except PyErr α) := fun w => (.ok (m w).1, (m w).2)

/-- reading from state object `k` on grid `i` (there are no dangling references, the error does not occur) -/
def rd (i k : ℕ) (m : Rd PyTime (H.grid i) α) : Wd H α := fun w =>
  match (w.states i)[k]? with
  | none => (.error .nameError, w)
  | some o => ((m o).1, { w with states := Function.update w.states i ((w.states i).set k (m o).2) })

/-- a new state object; returns its number -/
def alloc (i : ℕ) (o : StateObj PyTime (H.grid i)) : Wd H ℕ := fun w =>
  (.ok (w.states i).length, { w with states := Function.update w.states i (w.states i ++ [o]) })

/-- `term._orography_gradient(grid)` (rhs.py:168-175) -/
noncomputable def gradient (hash : RhsHeap.KeyHash) (term grid : ℕ) : Wd H (Arr ℝ × Arr ℝ) := fun w =>
  ((H.cachedGradient hash (term, grid) w.cache).1, { w with cache := (H.cachedGradient hash (term, grid) w.cache).2 })

end Wd

/-- A user-defined forcing: it reads properties of the state it is given, in any order and depending on what it has read
(exceptions may be caught), and then returns or raises. -/
inductive Prog (g : Grid ℝ)
  | ret (r : Except PyErr (RVal g))
  | read (p : StateProp) (k : Except PyErr (PropVal PyTime g) → Prog g)

/-- Forcing terms as objects (rhs.py), used with one grid; orographic terms are given by their address. -/
inductive Forcing (g : Grid ℝ)
  | number (x : ℝ)
  | func (f : Prog g)
  | switch (tend : PyTime)
  | relaxation (rate : ℝ) (reference : RVal g)
  | orography (term : ℕ)
  | sum (a b : Forcing g)
  | prod (a b : Forcing g)

/-- A `BarotropicModel` (model.py:39-44) used with one grid -/
structure WModel (g : Grid ℝ) where
  rhs : Option (Forcing g)
  diffusionOrder : ℕ
  diffusionCoeff : ℝ
  diffusionBg : Option g.Fld

section calls
variable {H : RhsHeap} (hash : RhsHeap.KeyHash) (i : ℕ)

/-- call of a user-defined forcing with state `k` -/
noncomputable def Prog.exec (k : ℕ) : Prog (H.grid i) → Wd H (RVal (H.grid i))
  | .ret r => Wd.lift r
  | .read p c => do
    let x ← Wd.attempt (Wd.rd i k (StateObj.read (H.sph i) p))
    (c x).exec k

/-- `self._get_wind(state)` (rhs.py:143, 145, 147) -/
noncomputable def Orog.windW (o : Orog) (k : ℕ) : Wd H ((H.grid i).Fld × (H.grid i).Fld) :=
  match o.wind with
  | .act f => do
    let u ← Wd.rd i k (StateObj.readU (H.sph i))
    let v ← Wd.rd i k (StateObj.readV (H.sph i))
    return (fun j i => f * u j i, fun j i => f * v j i)
  | .zon f => do
    let u ← Wd.rd i k (StateObj.readU (H.sph i))
    return (fun j _ => f * ((∑ i', u j i') / (H.grid i).nlon), fun _ _ => 0)
  | .sbr f => return (fun j _ => f * Real.cos ((H.grid i).phi j), fun _ _ => 0)

/-- `Orography.__call__` (rhs.py:177-186). A gradient of another shape does not broadcast (simplification: shapes with
ones would). -/
noncomputable def Orog.callW (term k : ℕ) : Wd H (RVal (H.grid i)) := do
  let uv ← (H.orog term).windW i k
  let grad ← Wd.gradient hash term i
  match grad.1.asFld (H.grid i), grad.2.asFld (H.grid i) with
  | some x, some y => return .fld ((H.orog term).combine uv (x, y))
  | _, _ => Wd.lift (.error .valueError)

/-- `term(state)` (rhs.py:35-36, 48-49, 70-71, 90-91, 177-186) -/
noncomputable def Forcing.callW (k : ℕ) : Forcing (H.grid i) → Wd H (RVal (H.grid i))
  | .number _ => Wd.lift (.error .typeError)
  | .func f => f.exec i k
  | .switch tend => do
    let s ← Wd.rd i k Rd.get
    let b ← Wd.lift (s.time.le tend)
    return if b then .num 1 else .num 0
  | .relaxation rate ref => do
    let pv ← Wd.rd i k (StateObj.readPv (H.sph i))
    return (RVal.num rate).mul (ref.sub (.fld pv))
  | .orography t => Orog.callW hash i t k
  | .sum a b => do
    let x ← a.callW k
    let y ← b.callW k
    return x.add y
  | .prod a b => do
    let x ← a.callW k
    let y ← b.callW k
    return x.mul y

namespace WModel
variable (M : WModel (H.grid i))

/-- `_pv_tendency_spectral` (model.py:152-157) -/
noncomputable def tendencyW (k : ℕ) : Wd H (H.grid i).Spc := do
  let flux ← Wd.rd i k (StateObj.readPvFlux (H.sph i))
  match M.rhs with
  | none => return -flux
  | some f =>
    let r ← f.callW hash i k
    match r with
    | .num _ => Wd.lift (.error .attributeError)
    | .fld r => return -flux + Grid.toSpectral (H.sph i) r

/-- `_apply_diffusion` (model.py:159-175) -/
noncomputable def diffuse {g : Grid ℝ} (S : g.Sph) (M : WModel g) (dt : ℝ) (q : g.Spc) : g.Spc :=
  match M.diffusionBg with
  | none => Grid.solveDiffusionSpectral q M.diffusionCoeff dt M.diffusionOrder
  | some b =>
    let background := Grid.toSpectral S b
    Grid.solveDiffusionSpectral (q - background) M.diffusionCoeff dt M.diffusionOrder + background

/-- `euler` (model.py:101-109); the number of the new state -/
noncomputable def eulerW (k : ℕ) (dt : PyDelta) : Wd H ℕ := do
  let dts := toSeconds dt
  let q ← Wd.rd i k (StateObj.readPvSpectral (H.sph i))
  let tend ← M.tendencyW hash i k
  let q := q + (dts : ℂ) • tend
  let q := M.diffuse (H.sph i) dts q
  let s ← Wd.rd i k Rd.get
  let t ← Wd.lift (s.time.add dt)
  Wd.alloc i { time := t, pvSpectral := some q }

/-- `leapfrog` (model.py:127-150); the numbers of the filtered current state and of the new state. -/
noncomputable def leapfrogW (old now : ℕ) (filter : ℝ) : Wd H (ℕ × ℕ) := do
  let sNow ← Wd.rd i now Rd.get
  let sOld ← Wd.rd i old Rd.get
  let dt ← Wd.lift (sNow.time.sub sOld.time)
  let dts := toSeconds dt
  let qOld ← Wd.rd i old (StateObj.readPvSpectral (H.sph i))
  let tend ← M.tendencyW hash i now
  let qNew := qOld + ((2 * dts : ℝ) : ℂ) • tend
  let qNew := M.diffuse (H.sph i) (2 * dts) qNew
  let sNow ← Wd.rd i now Rd.get
  let t ← Wd.lift (sNow.time.add dt)
  let new ← Wd.alloc i { time := t, pvSpectral := some qNew }
  let qNow ← Wd.rd i now (StateObj.readPvSpectral (H.sph i))
  let qOld ← Wd.rd i old (StateObj.readPvSpectral (H.sph i))
  let qNow := ((1 - 2 * filter : ℝ) : ℂ) • qNow + (filter : ℂ) • (qOld + qNew)
  let sNow ← Wd.rd i now Rd.get
  let filtered ← Wd.alloc i { time := sNow.time, pvSpectral := some qNow }
  return (filtered, new)

/-- What `run` returns, with numbers of state objects -/
inductive Ret
  | outOfFuel
  | early (s : ℕ) (states : List ℕ)
  | done (s : ℕ) (states : List ℕ)

/-- `while state.time < tend: …` (model.py:84-88) -/
noncomputable def loopW (tend : PyTime) (saveEvery : ℝ) : ℕ → ℕ → ℕ → List ℕ → ℝ → Wd H Ret
  | 0, _, _, _, _ => return .outOfFuel
  | fuel + 1, state, stateNew, states, tSave => do
    let s ← Wd.rd i state Rd.get
    let go ← Wd.lift (s.time.lt tend)
    if go then do
      let (state, stateNew) ← M.leapfrogW hash i state stateNew (2 / 10)
      if saveEvery > 0 then do
        let s ← Wd.rd i state Rd.get
        let save ← Wd.lift (s.time.ge (.num tSave))
        if save then loopW tend saveEvery fuel state stateNew (states ++ [state]) (tSave + saveEvery)
        else loopW tend saveEvery fuel state stateNew states tSave
      else loopW tend saveEvery fuel state stateNew states tSave
    else return .done state states

/-- `run` (model.py:73-89) from state `k` on grid `i` -/
noncomputable def runW (k : ℕ) (dt : PyDelta) (tend : PyTime) (saveEvery : ℝ) (fuel : ℕ) : Wd H Ret := do
  let s ← Wd.rd i k Rd.get
  let before ← Wd.lift (tend.lt s.time)
  if before then return .early k [k]
  else do
    let s1 ← M.eulerW hash i k dt
    M.loopW hash i tend saveEvery fuel k s1 [k] saveEvery

end WModel
end calls

/-! ## Programs -/

/-- What a user can do with the objects -/
inductive Op (H : RhsHeap)
  /-- `State(grid, time, pv=pv)` -/
  | newPv (i : ℕ) (time : PyTime) (pv : (H.grid i).Fld)
  /-- `State(grid, time, pv_spectral=q)` -/
  | newSpectral (i : ℕ) (time : PyTime) (q : (H.grid i).Spc)
  /-- `state.property` -/
  | read (i k : ℕ) (p : StateProp)
  /-- `term(state)` -/
  | force (i k : ℕ) (f : Forcing (H.grid i))
  /-- `model.euler(state, dt)` -/
  | euler (i k : ℕ) (M : WModel (H.grid i)) (dt : PyDelta)
  /-- `model.leapfrog(old, now, filter)` with two states on the same grid -/
  | leapfrog (i old now : ℕ) (M : WModel (H.grid i)) (filter : ℝ)
  /-- `model.run(state, dt, tend, save_every)` -/
  | run (i k : ℕ) (M : WModel (H.grid i)) (dt : PyDelta) (tend : PyTime) (saveEvery : ℝ) (fuel : ℕ)

/-- `State.__init__` with PV, as in `StateObj.init` (state.py:48-59) -/
def newState {H : RhsHeap} (i : ℕ) (r : Except PyErr (StateObj PyTime (H.grid i))) : Wd H ℕ := do
  let o ← Wd.lift r
  Wd.alloc i o

/-- The state objects that an operation refers to -/
def Op.uses {H : RhsHeap} : Op H → List (ℕ × ℕ)
  | .newPv .. | .newSpectral .. => []
  | .read i k _ | .force i k _ | .euler i k _ _ | .run i k .. => [(i, k)]
  | .leapfrog i old now _ _ => [(i, old), (i, now)]

/-- The objects after an operation; its exceptions are caught. -/
noncomputable def Op.step {H : RhsHeap} (hash : RhsHeap.KeyHash) : Op H → World H → World H
  | .newPv i t pv, w => (newState i (StateObj.init (H.sph i) t (some pv) none) w).2
  | .newSpectral i t q, w => (newState i (StateObj.init (H.sph i) t none (some q)) w).2
  | .read i k p, w => (Wd.rd i k (StateObj.read (H.sph i) p) w).2
  | .force i k f, w => (f.callW hash i k w).2
  | .euler i k M dt, w => (M.eulerW hash i k dt w).2
  | .leapfrog i old now M filter, w => (M.leapfrogW hash i old now filter w).2
  | .run i k M dt tend se fuel, w => (M.runW hash i k dt tend se fuel w).2

/-- As `Op.step`; an operation on objects that do not exist cannot be written and is skipped. -/
noncomputable def Op.exec {H : RhsHeap} (hash : RhsHeap.KeyHash) (op : Op H) (w : World H) : World H :=
  if ∀ a ∈ op.uses, a.2 < (w.states a.1).length then op.step hash w else w

/-- The objects after a program -/
noncomputable def execs {H : RhsHeap} (hash : RhsHeap.KeyHash) (ops : List (Op H)) (w : World H) : World H :=
  ops.foldl (fun w op => op.exec hash w) w

end Barotropic
