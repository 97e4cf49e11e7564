import Verif.Model.State
import Verif.Model.Binary64

/-!
# Conversion from falwa/hn2016 without a given grid  (state.py:345-372, constants.py:2-3)
-/

namespace Barotropic

/-- `EARTH_RADIUS` (constants.py:2), the default `rsphere` of `Grid` (grid.py:44) -/
def planetRadius {K : Type*} [Field K] : K := 6371200

/-- `EARTH_OMEGA` (constants.py:3), the default `omega` of `Grid` (grid.py:44) -/
def planetOmega {K : Type*} [Field K] : K := 7292 / 10 ^ 8

/-- `State.from_hn2016` (state.py:363-372): `grid` is given or `None`. `dphi0` is the entry `barofield.dphi[0]`, `sph` are the transforms of
each grid. The result is a grid and a state on it. -/
noncomputable def fromHn2016Any {τ : Type} (sph : ∀ g : Grid ℝ, g.Sph) (grid : Option (Grid ℝ)) (time : τ) (dphi0 : ℝ) (b : BaroField) :
    Except PyErr (Σ g : Grid ℝ, St τ g) :=
  match (match grid with
    | some g => .ok g
    | none => Grid.make (rad2deg dphi0) planetRadius planetOmega none : Except PyErr (Grid ℝ)) with
  | .error e => .error e
  | .ok g =>
    match fromHn2016 (sph g) time b with
    | .error e => .error e
    | .ok s => .ok ⟨g, s⟩

/-- `dphi[0]` of a `BarotropicField` with `n` latitudes for which no `dphi` is given: `np.pi / (nlat - 1)` -/
noncomputable def falwaDphi (n : ℕ) : ℝ := Real.pi / (n - 1 : ℕ)

namespace Binary64
variable {K : Type*} [Field K] [LinearOrder K] [IsStrictOrderedRing K] [FloorRing K]

/-- `np.rad2deg(dphi)` in double precision, `p` is `np.pi` -/
def rad2deg (p dphi : K) : K := rnd (dphi * rnd (180 / p))

/-- `np.pi` -/
def pi64 : K := 884279719003555 / 2 ^ 48

/-- The resolution of the grid (state.py:364) for a field with `n` latitudes -/
def hnResolution (p : K) (n : ℕ) : K := rad2deg p (rnd (p / (n - 1 : ℕ)))

end Binary64
end Barotropic
