import Verif.Model.Rhs

/-!
# Text representations of models and forcings  (formatting.py:5-12, 65-72, rhs.py:38-39, 51-52)
-/

namespace Barotropic
namespace Repr

/-- `str.maketrans(x, y)` and `str.translate`: characters of `x` are replaced by those of `y` at the same position. -/
def translate (x y : List Char) (s : String) : String :=
  String.ofList (s.toList.map fun c => ((x.zip y).lookup c).getD c)

/-- `sub` (formatting.py:5, 8-9) of a number, given by its `str` -/
def sub (s : String) : String := translate "0123456789+-".toList "₀₁₂₃₄₅₆₇₈₉₊₋".toList s

/-- `sup` (formatting.py:6, 11-12) of a number, given by its `str` -/
def sup (s : String) : String := translate "0123456789+-".toList "⁰¹²³⁴⁵⁶⁷⁸⁹⁺⁻".toList s

/-- The exponent shown by `barotropic_model_repr` (formatting.py:66) -/
def modelExponent (diffusionOrder : ℕ) : String := sup (toString (2 * diffusionOrder))

/-- The equation shown by `barotropic_model_repr` (formatting.py:69) -/
def modelEquation (diffusionOrder : ℕ) : String := "    ∂q/∂t = -∇(u·q) - κ∇" ++ modelExponent diffusionOrder ++ "q + RHS "

/-- Pieces of the text that is shown for a forcing. Simplification: whatever is shown for an operand that is neither a sum nor
a product of the package (a number, a function, an object) counts as one piece. -/
inductive Tok
  | leaf (s : String)
  | lpar | rpar | plus | times
  deriving DecidableEq

/-- Forcings as objects -/
inductive Tree
  | leaf (s : String)
  | sum (a b : Tree)
  | prod (a b : Tree)
  deriving DecidableEq

/-- `_RHSSum.__repr__`, `_RHSProduct.__repr__` (rhs.py:38-39, 51-52) -/
def rhsRepr : Tree → List Tok
  | .leaf s => [.leaf s]
  | .sum a b => [.lpar] ++ rhsRepr a ++ [.plus] ++ rhsRepr b ++ [.rpar]
  | .prod a b => [.lpar] ++ rhsRepr a ++ [.times] ++ rhsRepr b ++ [.rpar]

end Repr
end Barotropic
