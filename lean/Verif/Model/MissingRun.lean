import Verif.Model.Rhs
import Mathlib.Data.Option.NAry

/-!
# Missing values in states, forcings and model runs

(state.py:141-225, model.py:73-175, rhs.py:35-91, 141-186) The model of states, forcing terms and time stepping with fields and spectral
coefficients in which some values are NaN, `none` here. The transforms of spharm are sums over all gridpoints or over all coefficients: if one
term is NaN, all results are NaN. Simplifications: no rounding; infinite values are not distinguished from NaN; for `getuv` and `getgrad`,
which do not use the first coefficient, that coefficient is treated like the others.
-/

namespace Barotropic
namespace Missing

variable (g : Grid ℝ)

/-- A gridded field with missing values -/
abbrev MFld := Fin g.nlat → Fin g.nlon → Option ℝ

/-- Spectral coefficients with missing values -/
abbrev MSpc := Fin (nspec g.ntrunc) → Option ℂ

variable {g}

open Classical in
/-- The numbers of a field without missing values -/
noncomputable def MFld.complete (f : MFld g) : Option g.Fld :=
  if h : ∀ j i, (f j i).isSome then some fun j i => (f j i).get (h j i) else none

open Classical in
/-- The numbers of a spectral field without missing values -/
noncomputable def MSpc.complete (q : MSpc g) : Option g.Spc :=
  if h : ∀ k, (q k).isSome then some fun k => (q k).get (h k) else none

/-- A field in which all values are missing -/
def MFld.blank : MFld g := fun _ _ => none

/-- A spectral field in which all values are missing -/
def MSpc.blank : MSpc g := fun _ => none

/-- A field of numbers -/
def MFld.of (f : g.Fld) : MFld g := fun j i => some (f j i)

/-- A spectral field of numbers -/
def MSpc.of (q : g.Spc) : MSpc g := fun k => some (q k)

variable (S : g.Sph)

/-- `Grid.to_spectral` (grid.py:198) -/
noncomputable def toSpectral (f : MFld g) : MSpc g :=
  match f.complete with
  | some f => .of (S.grdtospec f)
  | none => .blank

/-- `Grid.to_grid` (grid.py:209) -/
noncomputable def toGrid (q : MSpc g) : MFld g :=
  match q.complete with
  | some q => .of (S.spectogrd q)
  | none => .blank

/-- `Grid.wind` (grid.py:227) for spectral vorticity and divergence -/
noncomputable def wind (vo di : MSpc g) : MFld g × MFld g :=
  match vo.complete, di.complete with
  | some vo, some di => (.of (S.getuv vo di).1, .of (S.getuv vo di).2)
  | _, _ => (.blank, .blank)

/-- `Grid.divergence_spectral` (grid.py:259, 276) -/
noncomputable def divergenceSpectral (u v : MFld g) : MSpc g :=
  match u.complete, v.complete with
  | some u, some v => .of (S.getvrtdivspec u v).2
  | _, _ => .blank

/-- `Grid.gradient` (grid.py:294) -/
noncomputable def gradient (f : MFld g) : MFld g × MFld g :=
  match (toSpectral S f).complete with
  | some q => (.of (S.getgrad q).1, .of (S.getgrad q).2)
  | none => (.blank, .blank)

/-- Pointwise arithmetic of numpy on fields: NaN where an operand is -/
def MFld.map₂ (op : ℝ → ℝ → ℝ) (f f' : MFld g) : MFld g := fun j i => Option.map₂ op (f j i) (f' j i)

@[inherit_doc MFld.map₂] def MSpc.map₂ (op : ℂ → ℂ → ℂ) (q q' : MSpc g) : MSpc g := fun k => Option.map₂ op (q k) (q' k)

/-- Multiplication of coefficients with a number -/
def MSpc.scale (c : ℂ) (q : MSpc g) : MSpc g := fun k => (q k).map (c * ·)

/-- `Grid.solve_diffusion_spectral` (grid.py:410-411) -/
noncomputable def solveDiffusionSpectral (q : MSpc g) (coeff dt : ℝ) (order : ℕ) : MSpc g := fun k =>
  (q k).map (· / ((1 + dt * coeff * g.eig k ^ order : ℝ) : ℂ))

/-- `Grid.solve_poisson_spectral` (grid.py:381-383): entry 0 stays zero whatever the value of the first coefficient -/
noncomputable def solvePoissonSpectral (q : MSpc g) : MSpc g := fun k =>
  if k.val = 0 then some 0 else (q k).map fun x => -x / ((g.eig k + 0 : ℝ) : ℂ)

/-! ## States -/

/-- Content of a state: time and spectral PV -/
structure MSt (g : Grid ℝ) where
  time : PyTime
  q : MSpc g

namespace MSt

/-- `State(grid, time, pv=pv)` (state.py:54) -/
noncomputable def ofPv (time : PyTime) (pv : MFld g) : MSt g := ⟨time, toSpectral S pv⟩

/-- A state without missing values -/
def of (s : St PyTime g) : MSt g := ⟨s.time, .of s.q⟩

/-- `State.pv` (state.py:144) -/
noncomputable def pv (s : MSt g) : MFld g := toGrid S s.q

/-- `State.vorticity` (state.py:198) -/
noncomputable def vorticity (s : MSt g) : MFld g := (s.pv S).map₂ (· - ·) (.of g.fcor2)

/-- `State.vorticity_spectral` (state.py:210) -/
noncomputable def vorticitySpectral (s : MSt g) : MSpc g := s.q.map₂ (· - ·) (.of (Grid.fcor2Spectral S))

/-- `State.u`, `State.v` (state.py:163-180) -/
noncomputable def wind (s : MSt g) : MFld g × MFld g := Missing.wind S (s.vorticitySpectral S) (.of 0)

/-- `State.streamfunction` (state.py:183-188) -/
noncomputable def streamfunction (s : MSt g) : MFld g := toGrid S (solvePoissonSpectral (s.vorticitySpectral S))

/-- `State.pv_flux_spectral` (state.py:193) -/
noncomputable def pvFluxSpectral (s : MSt g) : MSpc g :=
  divergenceSpectral S ((s.pv S).map₂ (· * ·) (s.wind S).1) ((s.pv S).map₂ (· * ·) (s.wind S).2)

/-- `State.enstrophy` (state.py:215) -/
noncomputable def enstrophy (s : MSt g) : MFld g := fun j i => (s.pv S j i).map fun x => 1 / 2 * x ^ 2

/-- `State.energy` (state.py:225) -/
noncomputable def energy (s : MSt g) : MFld g := (s.wind S).1.map₂ (fun u v => 1 / 2 * (u * u + v * v)) (s.wind S).2

end MSt

/-! ## Forcing terms -/

/-- What a forcing term returns -/
inductive MVal (g : Grid ℝ)
  | num (x : ℝ)
  | fld (f : MFld g)

namespace MVal

/-- numpy arithmetic of numbers and fields -/
def map₂ (op : ℝ → ℝ → ℝ) : MVal g → MVal g → MVal g
  | num x, num y => num (op x y)
  | num x, fld f => fld fun j i => (f j i).map (op x)
  | fld f, num y => fld fun j i => (f j i).map (op · y)
  | fld f, fld f' => fld (f.map₂ op f')

/-- A value without missing values -/
def of : RVal g → MVal g
  | .num x => num x
  | .fld f => fld (.of f)

end MVal

/-- Forcing terms by their `__call__` -/
abbrev MTerm (g : Grid ℝ) := MSt g → Except PyErr (MVal g)

namespace MTerm

/-- `_RHSSum.__call__`, `_RHSProduct.__call__` (rhs.py:35-36, 48-49) -/
def combine (op : ℝ → ℝ → ℝ) (a b : MTerm g) : MTerm g := fun s => do
  let x ← a s
  let y ← b s
  return x.map₂ op y

/-- `TimedOffSwitch` (rhs.py:67-71) -/
noncomputable def timedOffSwitch (tend : PyTime) : MTerm g := fun s =>
  match s.time.le tend with
  | .error e => .error e
  | .ok true => .ok (.num 1)
  | .ok false => .ok (.num 0)

/-- `LinearRelaxation` (rhs.py:85-91) -/
noncomputable def linearRelaxation (rate : ℝ) (reference : MVal g) : MTerm g := fun s =>
  .ok ((MVal.num rate).map₂ (· * ·) (reference.map₂ (· - ·) (.fld (s.pv S))))

/-- `Orography.__call__` (rhs.py:168-186) with the actual wind (factor 1), for an orography with missing values. -/
noncomputable def orography (height : MFld g) (scaleHeight : ℝ) : MTerm g := fun s =>
  .ok (.fld fun j i => Option.map₂ (fun x y => -g.fcor2 j i / scaleHeight * (x + y))
    (Option.map₂ (· * ·) ((s.wind S).1 j i) ((gradient S height).1 j i))
    (Option.map₂ (· * ·) ((s.wind S).2 j i) ((gradient S height).2 j i)))

/-- A term as `rhs` of a model (model.py:156); `to_spectral` of a number raises AttributeError. -/
def toRhs (t : MTerm g) (s : MSt g) : Except PyErr (MFld g) :=
  match t s with
  | .error e => .error e
  | .ok (.num _) => .error .attributeError
  | .ok (.fld f) => .ok f

end MTerm

/-! ## Time integration -/

/-- `BarotropicModel` (model.py:39-44) with a forcing and a background that may have missing values -/
structure MModel (g : Grid ℝ) where
  rhs : Option (MSt g → Except PyErr (MFld g))
  diffusionOrder : ℕ
  diffusionCoeff : ℝ
  diffusionBg : Option (MFld g)

namespace MModel
variable (M : MModel g)

/-- `_pv_tendency_spectral` (model.py:152-157) -/
noncomputable def tendency (s : MSt g) : Except PyErr (MSpc g) :=
  let tendency := (s.pvFluxSpectral S).scale (-1)
  match M.rhs with
  | none => .ok tendency
  | some f =>
    match f s with
    | .error e => .error e
    | .ok r => .ok (tendency.map₂ (· + ·) (toSpectral S r))

/-- `_apply_diffusion` (model.py:159-175) -/
noncomputable def applyDiffusion (dt : ℝ) (q : MSpc g) : MSpc g :=
  match M.diffusionBg with
  | none => solveDiffusionSpectral q M.diffusionCoeff dt M.diffusionOrder
  | some b =>
    let background := toSpectral S b
    (solveDiffusionSpectral (q.map₂ (· - ·) background) M.diffusionCoeff dt M.diffusionOrder).map₂ (· + ·) background

/-- `euler` (model.py:101-109) -/
noncomputable def euler (s : MSt g) (dt : PyDelta) : Except PyErr (MSt g) := do
  let dts := toSeconds dt
  let tend ← M.tendency S s
  let q := s.q.map₂ (· + ·) (tend.scale (dts : ℂ))
  let q := M.applyDiffusion S dts q
  let t ← s.time.add dt
  return ⟨t, q⟩

/-- `leapfrog` (model.py:127-150) -/
noncomputable def leapfrog (old now : MSt g) (filter : ℝ) : Except PyErr (MSt g × MSt g) := do
  let dt ← now.time.sub old.time
  let dts := toSeconds dt
  let tend ← M.tendency S now
  let qnew := old.q.map₂ (· + ·) (tend.scale ((2 * dts : ℝ) : ℂ))
  let qnew := M.applyDiffusion S (2 * dts) qnew
  let t ← now.time.add dt
  let qnow := (now.q.scale ((1 - 2 * filter : ℝ) : ℂ)).map₂ (· + ·) ((old.q.map₂ (· + ·) qnew).scale (filter : ℂ))
  return (⟨now.time, qnow⟩, ⟨t, qnew⟩)

/-- Variables of the loop in `run` (model.py:75-89) -/
structure Loop (g : Grid ℝ) where
  state : MSt g
  stateNew : MSt g
  states : List (MSt g)
  tSave : ℝ

/-- Loop body (model.py:85-88) -/
noncomputable def body (saveEvery : ℝ) (l : Loop g) : Except PyErr (Loop g) := do
  let (state, stateNew) ← M.leapfrog S l.state l.stateNew (2 / 10)
  if saveEvery > 0 then
    if ← state.time.ge (.num l.tSave) then
      return ⟨state, stateNew, l.states ++ [state], l.tSave + saveEvery⟩
    else return ⟨state, stateNew, l.states, l.tSave⟩
  else return ⟨state, stateNew, l.states, l.tSave⟩

/-- What a call returns -/
inductive Outcome (g : Grid ℝ)
  | outOfFuel
  | raised (e : PyErr)
  | early (s : MSt g) (states : List (MSt g))
  | done (s : MSt g) (states : List (MSt g))

/-- `while state.time < tend: …` (model.py:84-88), at most `fuel` evaluations of the condition -/
noncomputable def loop (tend : PyTime) (saveEvery : ℝ) : ℕ → Loop g → Outcome g
  | 0, _ => .outOfFuel
  | fuel + 1, l =>
    match l.state.time.lt tend with
    | .error e => .raised e
    | .ok false => .done l.state l.states
    | .ok true =>
      match M.body S saveEvery l with
      | .error e => .raised e
      | .ok l' => loop tend saveEvery fuel l'

/-- `run` (model.py:73-89) -/
noncomputable def run (s : MSt g) (dt : PyDelta) (tend : PyTime) (saveEvery : ℝ) (fuel : ℕ) : Outcome g :=
  match tend.lt s.time with
  | .error e => .raised e
  | .ok true => .early s [s]
  | .ok false =>
    match M.euler S s dt with
    | .error e => .raised e
    | .ok s1 => M.loop S tend saveEvery fuel ⟨s, s1, [s], saveEvery⟩

end MModel
end Missing
end Barotropic
