import Verif.Model.State
import Mathlib.Analysis.SpecialFunctions.Exp

/-!
# Initial conditions  (init.py)
-/

namespace Barotropic
namespace Init
variable {τ : Type} {g : Grid ℝ} (S : g.Sph)

/-- `motionless` (init.py:17) -/
noncomputable def motionless (time : τ) : St τ g := .ofPv S time g.fcor2

/-- `np.repeat(a, grid.nlon).reshape(grid.shape)` for a 1-d array of size nlat: entry (j,i) of the result is entry
`j*nlon + i` of the repeated array, which is entry `(j*nlon + i) // nlon` of `a`. -/
noncomputable def repeatReshape (a : ℕ → ℝ) : g.Fld := fun j i => a ((j.val * g.nlon + i.val) / g.nlon)

/-- entries of a 1-d array by number -/
noncomputable def entry {n : ℕ} (v : Fin n → ℝ) (k : ℕ) : ℝ := if h : k < n then v ⟨k, h⟩ else 0

/-- `assert a.ndim == 1 and a.size == grid.nlat` (init.py:36-37, 43-44) -/
noncomputable def profile (g : Grid ℝ) : Arr ℝ → Except PyErr (ℕ → ℝ)
  | .d1 n v => if n = g.nlat then .ok (entry v) else .error .assertionError
  | _ => .error .assertionError

/-- `zonally_symmetric` (init.py:34-47) -/
noncomputable def zonallySymmetric (time : τ) (u pv : Option (Arr ℝ)) : Except PyErr (St τ g) :=
  match u, pv with
  | some u, none => do
    let u ← profile g u
    return .fromWind S time (repeatReshape u) 0
  | none, some pv => do
    let pv ← profile g pv
    return .ofPv S time (repeatReshape pv)
  | _, _ => .error .valueError

/-- Zonal wind of `solid_body_rotation` (init.py:61) -/
noncomputable def solidBodyWind (g : Grid ℝ) (amplitude : ℝ) : g.Fld := fun j _ => amplitude * Real.cos (g.phi j)

/-- `solid_body_rotation` (init.py:61-63) -/
noncomputable def solidBodyRotation (time : τ) (amplitude : ℝ) : St τ g :=
  .fromWind S time (solidBodyWind g amplitude) 0

/-- The bell-shaped profile (init.py:82) -/
noncomputable def bell (g : Grid ℝ) (amplitude center stdev : ℝ) (j : ℕ) : ℝ :=
  amplitude * Real.exp (-(1 / 2) * (g.lat j - center) ^ 2 / stdev ^ 2)

/-- Zonal wind of `gaussian_jet` (init.py:82-86). Simplification: division by a zero `stdev_lat` gives 0 here, nan or
inf in numpy. -/
noncomputable def gaussianWind (g : Grid ℝ) (amplitude center stdev : ℝ) : g.Fld := fun j _ =>
  let south := bell g amplitude center stdev (g.nlat - 1)
  let north := bell g amplitude center stdev 0
  bell g amplitude center stdev j - 1 / 2 * (south + north) + (south - north) * g.lat j / 180

/-- `gaussian_jet` (init.py:82-89) -/
noncomputable def gaussianJet (time : τ) (amplitude center stdev : ℝ) : St τ g :=
  .fromWind S time (gaussianWind g amplitude center stdev) 0

/-- Zonal wind of `held_1985` (init.py:108-110) -/
noncomputable def heldWind (g : Grid ℝ) (A B C : ℝ) : g.Fld := fun j _ =>
  A * Real.cos (g.phi j) - B * Real.cos (g.phi j) ^ 3 + C * Real.cos (g.phi j) ^ 6 * Real.sin (g.phi j) ^ 2

/-- `held_1985` (init.py:108-112) -/
noncomputable def held1985 (time : τ) (A B C : ℝ) : St τ g := .fromWind S time (heldWind g A B C) 0

end Init
end Barotropic
