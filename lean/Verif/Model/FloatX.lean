import Mathlib.Analysis.SpecialFunctions.Sqrt

/-!
# Floating point numbers with infinities and NaN

Finite numbers are real numbers (no rounding, one zero).
-/

namespace Barotropic

inductive FloatX
  | fin (x : ℝ)
  | pinf
  | ninf
  | nan

namespace FloatX

/-- `x * inf`, also `x / 0` for a positive zero -/
noncomputable def signInf (x : ℝ) : FloatX := if 0 < x then pinf else if x < 0 then ninf else nan

def add : FloatX → FloatX → FloatX
  | fin a, fin b => fin (a + b)
  | nan, _ | _, nan => nan
  | pinf, ninf | ninf, pinf => nan
  | pinf, _ | _, pinf => pinf
  | ninf, _ | _, ninf => ninf

def neg : FloatX → FloatX
  | fin a => fin (-a)
  | pinf => ninf
  | ninf => pinf
  | nan => nan

def sub (a b : FloatX) : FloatX := a.add b.neg

noncomputable def mul : FloatX → FloatX → FloatX
  | fin a, fin b => fin (a * b)
  | nan, _ | _, nan => nan
  | fin a, pinf | pinf, fin a => signInf a
  | fin a, ninf | ninf, fin a => signInf (-a)
  | pinf, pinf | ninf, ninf => pinf
  | pinf, ninf | ninf, pinf => ninf

noncomputable def div : FloatX → FloatX → FloatX
  | fin a, fin b => if b = 0 then signInf a else fin (a / b)
  | nan, _ | _, nan => nan
  | fin _, pinf | fin _, ninf => fin 0
  | pinf, fin b => if b < 0 then ninf else pinf
  | ninf, fin b => if b < 0 then pinf else ninf
  | pinf, pinf | pinf, ninf | ninf, pinf | ninf, ninf => nan

/-- `a < b`, False if one of them is NaN -/
def Lt : FloatX → FloatX → Prop
  | fin a, fin b => a < b
  | nan, _ | _, nan => False
  | ninf, ninf | pinf, pinf | pinf, ninf => False
  | ninf, _ | _, pinf => True
  | pinf, _ | _, ninf => False

/-- `a <= b`, False if one of them is NaN -/
def Le : FloatX → FloatX → Prop
  | fin a, fin b => a ≤ b
  | nan, _ | _, nan => False
  | ninf, _ | _, pinf => True
  | pinf, _ | _, ninf => False

/-- `np.isinf` -/
def isinf : FloatX → Prop
  | pinf | ninf => True
  | _ => False

/-- `np.sqrt` of a complex number with imaginary part 0, as real and imaginary part -/
noncomputable def csqrt : FloatX → FloatX × FloatX
  | fin x => if 0 ≤ x then (fin (Real.sqrt x), fin 0) else (fin 0, fin (Real.sqrt (-x)))
  | pinf => (pinf, fin 0)
  | ninf => (fin 0, pinf)
  | nan => (nan, nan)

/-- `np.real(z) - np.imag(z)` -/
def realVariant (z : FloatX × FloatX) : FloatX := z.1.sub z.2

end FloatX
end Barotropic
