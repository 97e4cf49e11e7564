import Verif.Model.State

/-!
# Time integration  (model.py)
-/

namespace Barotropic

/-! ## Times -/

/-- The `time` of a state: a number (seconds) or a `datetime` (microseconds since some epoch; the range limit of
`datetime` is not modelled). -/
inductive PyTime
  | num (x : ℝ)
  | datetime (us : ℤ)

/-- A time step: a number (seconds) or a `timedelta` (microseconds). -/
inductive PyDelta
  | num (x : ℝ)
  | timedelta (us : ℤ)

namespace PyTime

/-- `a < b`; numbers and datetimes do not compare. -/
noncomputable def lt : PyTime → PyTime → Except PyErr Bool
  | num a, num b => .ok (decide (a < b))
  | datetime a, datetime b => .ok (decide (a < b))
  | _, _ => .error .typeError

/-- `a >= b` -/
noncomputable def ge : PyTime → PyTime → Except PyErr Bool
  | num a, num b => .ok (decide (b ≤ a))
  | datetime a, datetime b => .ok (decide (b ≤ a))
  | _, _ => .error .typeError

/-- `time + dt` -/
noncomputable def add : PyTime → PyDelta → Except PyErr PyTime
  | num a, .num d => .ok (num (a + d))
  | datetime a, .timedelta d => .ok (datetime (a + d))
  | _, _ => .error .typeError

/-- `a - b` -/
noncomputable def sub : PyTime → PyTime → Except PyErr PyDelta
  | num a, num b => .ok (.num (a - b))
  | datetime a, datetime b => .ok (.timedelta (a - b))
  | _, _ => .error .typeError

end PyTime

/-- `_to_seconds` (model.py:178-186) -/
noncomputable def toSeconds : PyDelta → ℝ
  | .num x => x
  | .timedelta us => us / 10 ^ 6

/-! ## Model -/

/-- `BarotropicModel` (model.py:39-44) on a fixed grid. The forcing is a function of the state (built in `Model/Rhs.lean`
from the classes of rhs.py) that may raise. -/
structure BModel (g : Grid ℝ) where
  rhs : Option (St PyTime g → Except PyErr g.Fld)
  diffusionOrder : ℕ
  diffusionCoeff : ℝ
  diffusionBg : Option g.Fld

namespace BModel
variable {g : Grid ℝ} (S : g.Sph) (M : BModel g)

/-- `_pv_tendency_spectral` (model.py:152-157) -/
noncomputable def tendency (s : St PyTime g) : Except PyErr g.Spc :=
  let tendency := -s.pvFluxSpectral S
  match M.rhs with
  | none => .ok tendency
  | some f =>
    match f s with
    | .error e => .error e
    | .ok r => .ok (tendency + Grid.toSpectral S r)

/-- `_apply_diffusion` (model.py:159-175) -/
noncomputable def applyDiffusion (dt : ℝ) (q : g.Spc) : g.Spc :=
  match M.diffusionBg with
  | none => Grid.solveDiffusionSpectral q M.diffusionCoeff dt M.diffusionOrder
  | some b =>
    let background := Grid.toSpectral S b
    Grid.solveDiffusionSpectral (q - background) M.diffusionCoeff dt M.diffusionOrder + background

/-- `euler` (model.py:101-109) -/
noncomputable def euler (s : St PyTime g) (dt : PyDelta) : Except PyErr (St PyTime g) := do
  let dts := toSeconds dt
  let tend ← M.tendency S s
  let q := s.q + (dts : ℂ) • tend
  let q := M.applyDiffusion S dts q
  let t ← s.time.add dt
  return ⟨t, q⟩

/-- `leapfrog` (model.py:127-150): the filtered current state and the new state. -/
noncomputable def leapfrog (old now : St PyTime g) (filter : ℝ) : Except PyErr (St PyTime g × St PyTime g) := do
  let dt ← now.time.sub old.time
  let dts := toSeconds dt
  let tend ← M.tendency S now
  let qnew := old.q + ((2 * dts : ℝ) : ℂ) • tend
  let qnew := M.applyDiffusion S (2 * dts) qnew
  let t ← now.time.add dt
  let qnow := ((1 - 2 * filter : ℝ) : ℂ) • now.q + (filter : ℂ) • (old.q + qnew)
  return (⟨now.time, qnow⟩, ⟨t, qnew⟩)

/-- Variables of the loop in `run` (model.py:75-89). `t_save` and `save_every` are numbers. -/
structure Loop (g : Grid ℝ) where
  state : St PyTime g
  stateNew : St PyTime g
  states : List (St PyTime g)
  tSave : ℝ

/-- Loop body (model.py:85-88) -/
noncomputable def body (saveEvery : ℝ) (l : Loop g) : Except PyErr (Loop g) := do
  let (state, stateNew) ← M.leapfrog S l.state l.stateNew (2 / 10)
  if saveEvery > 0 then
    if ← state.time.ge (.num l.tSave) then
      return ⟨state, stateNew, l.states ++ [state], l.tSave + saveEvery⟩
    else return ⟨state, stateNew, l.states, l.tSave⟩
  else return ⟨state, stateNew, l.states, l.tSave⟩

/-- What a call returns. `run` returns a plain list instead of a `StateList` if `tend` lies before the initial time
(model.py:73-74). -/
inductive Outcome (g : Grid ℝ)
  | outOfFuel
  | raised (e : PyErr)
  | early (s : St PyTime g) (states : List (St PyTime g))
  | done (s : St PyTime g) (states : List (St PyTime g))

/-- `while state.time < tend: …` (model.py:84-88), at most `fuel` evaluations of the condition. -/
noncomputable def loop (tend : PyTime) (saveEvery : ℝ) : ℕ → Loop g → Outcome g
  | 0, _ => .outOfFuel
  | fuel + 1, l =>
    match l.state.time.lt tend with
    | .error e => .raised e
    | .ok false => .done l.state l.states
    | .ok true =>
      match M.body S saveEvery l with
      | .error e => .raised e
      | .ok l' => loop tend saveEvery fuel l'

/-- `run` (model.py:73-89). (`StateList(states)` cannot fail here because all states share one grid object.) -/
noncomputable def run (s : St PyTime g) (dt : PyDelta) (tend : PyTime) (saveEvery : ℝ) (fuel : ℕ) : Outcome g :=
  match tend.lt s.time with
  | .error e => .raised e
  | .ok true => .early s [s]
  | .ok false =>
    match M.euler S s dt with
    | .error e => .raised e
    | .ok s1 => M.loop S tend saveEvery fuel ⟨s, s1, [s], saveEvery⟩

end BModel
end Barotropic
