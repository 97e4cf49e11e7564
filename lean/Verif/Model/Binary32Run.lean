import Verif.Model.Binary32

/-!
# Time steps in single precision  (model.py:77-150)

Steps of one spectral coefficient (its real or imaginary part), with the PV tendency of the coefficient given. Simplification: there is no
overflow outside of the diffusion.
-/

namespace Barotropic
namespace Binary32

variable {K : Type*} [Field K] [LinearOrder K] [IsStrictOrderedRing K] [FloorRing K]

/-- `pv_spectral + dts * tendency` (model.py:102, 132): a number in double precision times an array in single precision -/
def advance (x dts tend : K) : K := rnd (x + rnd (rnd dts * tend))

/-- The default `filter_parameter=0.2` (model.py:111) -/
def defaultFilter : K := Binary64.rnd (1 / 5)

/-- Robert-Asselin filter (model.py:141-144); `1. - 2. * filter_parameter` is computed in double precision. -/
def raFilter (f old now new : K) : K :=
  rnd (rnd (rnd (Binary64.rnd (1 - Binary64.rnd (2 * f))) * now) + rnd (rnd f * rnd (old + new)))

/-- `leapfrog` (model.py:111-150): the filtered current and the new coefficient. Degree `n`, order of diffusion as in `t`. -/
def leapfrog (r coeff : K) (t : PowTree) (n : ℕ) (dts f tend : K) (p : K × K) : Option (K × K) :=
  (solveDiffusion r (2 * dts) coeff t n (advance p.1 (2 * dts) tend)).map fun new => (raFilter f p.1 p.2 new, new)

/-- The coefficients of the two states that `run` keeps after `k` iterations (model.py:77-85), starting with an Euler step
(model.py:101-103). `tend k` is the tendency in step `k`. -/
def pair (r coeff : K) (t : PowTree) (n : ℕ) (dts : K) (tend : ℕ → K) (x : K) : ℕ → Option (K × K)
  | 0 => (solveDiffusion r dts coeff t n (advance x dts (tend 0))).map fun new => (x, new)
  | k + 1 => (pair r coeff t n dts tend x k).bind (leapfrog r coeff t n dts defaultFilter (tend (k + 1)))

end Binary32
end Barotropic
