import Verif.Model.Binary64

/-!
# Diffusion in single precision  (grid.py:70-77, 408-411)

Spectral fields and the eigenvalues of the Laplacian are arrays of the numpy type complex64, with all imaginary parts of the eigenvalues
equal to zero. Here every operation of `solve_diffusion_spectral` on one coefficient is rounded.
-/

namespace Barotropic
namespace Binary32

variable {K : Type*} [Field K] [LinearOrder K] [IsStrictOrderedRing K] [FloorRing K]

/-- Exponent of the last bit of numbers of the size of `x`; numbers below `2 ^ (-126)` are multiples of `2 ^ (-149)`. -/
def lastBit (x : K) : ℤ := max (Int.log 2 |x| - 23) (-149)

/-- The number nearest to `x`: rounded to 24 bits, ties to even, with gradual underflow -/
def rnd (x : K) : K := pyRound (x / 2 ^ lastBit x) * 2 ^ lastBit x

/-- The result of an operation whose exact result is `x`; `none` if it is too large for single precision (infinity) -/
def fin (x : K) : Option K := if |rnd x| < 2 ^ 128 then some (rnd x) else none

/-- `_laplacian_eigenvalues` for degree `n` (grid.py:75-77): computed in double precision, then converted -/
def eig (r : K) (n : ℕ) : Option K :=
  fin (Binary64.rnd (Binary64.rnd (Binary64.rnd ((n : K) * Binary64.rnd (1 + (n : K))) / r) / r))

/-- The multiplications with which `eigenvalues ** order` is computed (grid.py:410). numpy squares repeatedly; results below hold for
all orders of multiplication. -/
inductive PowTree
  | zero
  | one
  | mul (a b : PowTree)

namespace PowTree

/-- the exponent -/
def order : PowTree → ℕ
  | zero => 0
  | one => 1
  | mul a b => a.order + b.order

/-- the number of multiplications -/
def mults : PowTree → ℕ
  | zero => 0
  | one => 0
  | mul a b => a.mults + b.mults + 1

/-- the power of `x`, with rounded products -/
def eval (x : K) : PowTree → Option K
  | zero => some 1
  | one => some x
  | mul a b => (a.eval x).bind fun p => (b.eval x).bind fun q => fin (p * q)

end PowTree

/-- Division of the real or imaginary part `x` of a coefficient by `1. + p` (grid.py:411). numpy divides complex numbers by multiplication
with the reciprocal of the larger part of the denominator. If the product `p` is infinite, the result is zero. -/
def divide (x p : K) : K := if |rnd p| < 2 ^ 128 then rnd (x * rnd (1 / rnd (1 + rnd p))) else 0

/-- The real or imaginary part `x` of a coefficient of degree `n` after `solve_diffusion_spectral` with `dt * coeff ≥ 0`
(grid.py:408-411). `dt * coeff` is a product of two doubles that is converted to single precision. `none` stands for NaN: infinite
coefficients or eigenvalues have the imaginary part 0, which gives NaN in the complex product `dt * coeff * eigenvalues_op`. -/
def solveDiffusion (r dt coeff : K) (t : PowTree) (n : ℕ) (x : K) : Option K :=
  (eig r n).bind fun l => (t.eval l).bind fun e => (fin (Binary64.rnd (dt * coeff))).map fun c => divide x (c * e)

/-- The multiplications of numpy for `eigenvalues ** k` (`npy_cpow`): `k` in binary digits, least significant first. `p` is the current
repeated square, `acc` the product so far. -/
def powLoop (acc p : PowTree) (k : ℕ) : PowTree :=
  if k ≤ 1 then (if k = 1 then .mul acc p else acc)
  else powLoop (if k % 2 = 1 then .mul acc p else acc) (.mul p p) (k / 2)
termination_by k
decreasing_by omega

/-- `eigenvalues ** order` (grid.py:410): orders 1, 2 and 3 are special cases -/
def powTree (k : ℕ) : PowTree :=
  if k = 0 then .zero
  else if k = 1 then .one
  else if k = 2 then .mul .one .one
  else if k = 3 then .mul (.mul .one .one) .one
  else powLoop .zero .one k

end Binary32
end Barotropic
