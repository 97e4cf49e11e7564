import Verif.Model.Binary64Mean

/-!
# Values of states, forcings and initial conditions at a gridpoint in double precision

(state.py, rhs.py, init.py) Every operation is rounded as on a computer.
-/

namespace Barotropic
namespace Binary64

variable {K : Type*} [Field K] [LinearOrder K] [IsStrictOrderedRing K] [FloorRing K]

/-- PV of `State.from_vorticity` (state.py:92) where the Coriolis parameter is `f` -/
def pvOfVorticity (f ζ : K) : K := rnd (f + ζ)

/-- `State.vorticity` (state.py:198) -/
def vorticityOf (f pv : K) : K := rnd (pv - f)

/-- PV of `State.add_vorticity` (state.py:132) of a state with PV `pv` and another with PV `pv'` -/
def addVorticity (f pv pv' : K) : K := rnd (pv + vorticityOf f pv')

/-- `State.enstrophy` (state.py:215) -/
def enstrophy (pv : K) : K := rnd (1 / 2 * rnd (pv * pv))

/-- `State.eddy_enstrophy` (state.py:220) in column `i` of a row of `w` values -/
def eddyEnstrophy (t : SumTree) (w : ℕ) (pv : ℕ → K) (i : ℕ) : K := enstrophy (rnd (pv i - meanZonal t w pv))

/-- `State.energy` (state.py:225) -/
def energy (u v : K) : K := rnd (1 / 2 * rnd (rnd (u * u) + rnd (v * v)))

/-- `LinearRelaxation.__call__` (rhs.py:91) -/
def relaxation (rate ref pv : K) : K := rnd (rate * rnd (ref - pv))

/-- `Orography.__call__` (rhs.py:186): `gx` and `gy` are the gradient of the orography -/
def orographic (f h u v gx gy : K) : K := rnd (rnd (-f / h) * rnd (rnd (u * gx) + rnd (v * gy)))

/-- `gaussian_jet` (init.py:82) before the subtraction; `ex` is `np.exp` -/
def bell (ex : K → K) (amplitude center σ lat : K) : K :=
  rnd (amplitude * ex (rnd (rnd (-(1 / 2) * rnd (rnd (lat - center) * rnd (lat - center))) / rnd (σ * σ))))

/-- `gaussian_jet` (init.py:86): subtraction of a linear function, `us` and `un` are the values at the poles -/
def levelled (us un u lat : K) : K :=
  rnd (rnd (u - rnd (1 / 2 * rnd (us + un))) + rnd (rnd (rnd (us - un) * lat) / 180))

/-- Zonal wind of `gaussian_jet` (init.py:82-86) -/
def jet (ex : K → K) (amplitude center σ lat : K) : K :=
  levelled (bell ex amplitude center σ (-90)) (bell ex amplitude center σ 90) (bell ex amplitude center σ lat) lat

end Binary64
end Barotropic
