import Verif.Model.MissingRun

/-!
# Vocabulary for missing values in states and runs
-/

namespace Barotropic
namespace Missing

variable {g : Grid ℝ}

/-- A value is missing at some gridpoint. -/
def MFld.HasMissing (f : MFld g) : Prop := ∃ j i, f j i = none

/-- Every value of the field is missing. -/
def MFld.AllMissing (f : MFld g) : Prop := ∀ j i, f j i = none

/-- Every coefficient of the state is missing. -/
def MSt.AllMissing (s : MSt g) : Prop := ∀ k, s.q k = none

/-- No coefficient of the state is missing. -/
def MSt.NoneMissing (s : MSt g) : Prop := ∀ k, ∃ x, s.q k = some x

/-- The model with missing values has the same parameters as the model of numbers, and its forcing has the same values on states without missing
values. -/
structure MModel.Extends (M' : MModel g) (M : BModel g) : Prop where
  order : M'.diffusionOrder = M.diffusionOrder
  coeff : M'.diffusionCoeff = M.diffusionCoeff
  background : M'.diffusionBg = M.diffusionBg.map .of
  rhs : (M.rhs = none ∧ M'.rhs = none) ∨
    ∃ f f', M.rhs = some f ∧ M'.rhs = some f' ∧ ∀ s, f' (.of s) = (f s).map .of

/-- A forcing term with missing values has the values of a term of numbers on states without missing values. -/
def MTerm.Agrees (a' : MTerm g) (a : St PyTime g → Except PyErr (RVal g)) : Prop := ∀ s, a' (.of s) = (a s).map .of

/-- The forcing never raises. -/
def MModel.Total (M : MModel g) : Prop := ∀ f, M.rhs = some f → ∀ s, ∃ r, f s = .ok r

/-- An outcome of the model of numbers as outcome with (no) missing values -/
def MModel.Outcome.of : BModel.Outcome g → MModel.Outcome g
  | .outOfFuel => .outOfFuel
  | .raised e => .raised e
  | .early s l => .early (.of s) (l.map .of)
  | .done s l => .done (.of s) (l.map .of)

/-- What a call tells about times and errors: the kind of outcome, the exception, time of the final state and times of the saved states -/
inductive Report
  | outOfFuel
  | raised (e : PyErr)
  | early (t : PyTime) (ts : List PyTime)
  | done (t : PyTime) (ts : List PyTime)

@[inherit_doc Report] def MModel.Outcome.report : MModel.Outcome g → Report
  | .outOfFuel => .outOfFuel
  | .raised e => .raised e
  | .early s l => .early s.time (l.map (·.time))
  | .done s l => .done s.time (l.map (·.time))

end Missing
end Barotropic
