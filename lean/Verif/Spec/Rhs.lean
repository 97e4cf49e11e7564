import Verif.Model.Rhs
import Verif.Spec.Run

/-!
# Vocabulary for statements about forcing terms
-/

namespace Barotropic
variable {g : Grid ℝ}

/-- Value at a gridpoint -/
def RVal.at (j : Fin g.nlat) (i : Fin g.nlon) : RVal g → ℝ
  | .num x => x
  | .fld f => f j i

/-- A Python expression of sums and products -/
inductive RExpr (g : Grid ℝ)
  | leaf (t : Term g)
  | add (a b : RExpr g)
  | mul (a b : RExpr g)

namespace RExpr

/-- The object that the expression evaluates to -/
noncomputable def build : RExpr g → Except PyErr (Term g)
  | leaf t => .ok t
  | add a b => do
    let x ← a.build
    let y ← b.build
    x.pyAdd y
  | mul a b => do
    let x ← a.build
    let y ← b.build
    x.pyMul y

/-- Terms in the expression from left to right -/
def leaves : RExpr g → List (Term g)
  | leaf t => [t]
  | add a b => a.leaves ++ b.leaves
  | mul a b => a.leaves ++ b.leaves

/-- The value of the expression given the values of the terms -/
def value (val : Term g → ℝ) : RExpr g → ℝ
  | leaf t => val t
  | add a b => a.value val + b.value val
  | mul a b => a.value val * b.value val

/-- As forcings of a model, the expressions give the same results for all runs (if both expressions are accepted by
Python). -/
def SameEffect (e e' : RExpr g) : Prop :=
  ∀ t t', e.build = .ok t → e'.build = .ok t' → ∀ (S : g.Sph) (M : BModel g) s dt tend se sf saved,
    (BModel.Returns S { M with rhs := some t.toRhs } s dt tend se sf saved ↔
     BModel.Returns S { M with rhs := some t'.toRhs } s dt tend se sf saved)

end RExpr
end Barotropic
