import Verif.Model.Binary64
import Verif.Model.Hn2016

/-!
# Grid geometry in double precision

(grid.py:60-66, 79, 111, 122, 416-432) Coordinates in radians, Coriolis parameter, circumference and gridpoint areas with every operation rounded.
The functions of the mathematical library are parameters. Simplifications: no overflow and underflow.
-/

namespace Barotropic
namespace Binary64

variable {K : Type*} [Field K] [LinearOrder K] [IsStrictOrderedRing K] [FloorRing K]

/-- `np.deg2rad`: one multiplication with the constant π/180 -/
def deg2rad (x : K) : K := rnd (x * rnd (pi64 / 180))

/-- `self.phi` (grid.py:62) of a grid with `n` latitudes -/
def phi (n j : ℕ) : K := deg2rad (lat n j)

/-- `coriolis(lat)` (grid.py:122) -/
def coriolis (sn : K → K) (omega x : K) : K := rnd (rnd (2 * omega) * sn (deg2rad x))

/-- `circumference(lat)` (grid.py:111) -/
def circumference (cs : K → K) (r x : K) : K := rnd (rnd (rnd (2 * pi64) * r) * cs (deg2rad x))

/-- `mid_phi` (grid.py:424) -/
def midPhi (n j : ℕ) : K := rnd (1 / 2 * rnd (phi n (j + 1) + phi n j))

/-- The latitude term of `gridpoint_area` (grid.py:428-431) for at least two latitudes -/
def latitudeTerm (sn : K → K) (n j : ℕ) : K :=
  if j = 0 then rnd (1 - sn (midPhi n 0))
  else if j = n - 1 then rnd (1 + sn (midPhi n (n - 2)))
  else rnd (sn (midPhi n (j - 1)) - sn (midPhi n j))

/-- `gridpoint_area` (grid.py:416-432), `dlam` is `self.dlam` -/
def gridpointArea (sn : K → K) (n : ℕ) (r dlam : K) (j : ℕ) : K := rnd (rnd (rnd (r * r) * dlam) * latitudeTerm sn n j)

end Binary64
end Barotropic
