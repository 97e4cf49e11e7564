import Verif.Model.Grid
import Mathlib.Analysis.SpecialFunctions.Trigonometric.Basic

/-!
# Real-valued grid quantities  (grid.py:60-81, 102-122)
-/

namespace Barotropic

/-- `np.deg2rad` -/
noncomputable def deg2rad (x : ℝ) : ℝ := x * (Real.pi / 180)

/-- `np.rad2deg` -/
noncomputable def rad2deg (x : ℝ) : ℝ := x * (180 / Real.pi)

namespace Grid

/-- `self.lam` (grid.py:61) -/
noncomputable def lam (g : Grid ℝ) (i : ℕ) : ℝ := deg2rad (g.lon i)

/-- `self.phi` (grid.py:62) -/
noncomputable def phi (g : Grid ℝ) (j : ℕ) : ℝ := deg2rad (g.lat j)

/-- `self.dlam` (grid.py:65) -/
noncomputable def dlam (g : Grid ℝ) : ℝ := deg2rad g.dlon

/-- `self.dphi` (grid.py:66) -/
noncomputable def dphi (g : Grid ℝ) : ℝ := deg2rad g.dlat

/-- `Grid.circumference` (grid.py:111) -/
noncomputable def circumference (g : Grid ℝ) (lat : ℝ) : ℝ :=
  2 * Real.pi * g.rsphere * Real.cos (deg2rad lat)

/-- `Grid.coriolis` (grid.py:122) -/
noncomputable def coriolis (g : Grid ℝ) (lat : ℝ) : ℝ :=
  2 * g.omega * Real.sin (deg2rad lat)

/-- `self.fcor` (grid.py:79) -/
noncomputable def fcor (g : Grid ℝ) (j : ℕ) : ℝ := g.coriolis (g.lat j)

/-- `self.fcor2` (grid.py:80; `lat2` of line 56 is `lat` repeated along longitude) -/
noncomputable def fcor2 (g : Grid ℝ) : Fin g.nlat → Fin g.nlon → ℝ := fun j _ => g.coriolis (g.lat j)

/-- `self.lon2` (grid.py:56) -/
noncomputable def lon2 (g : Grid ℝ) : Fin g.nlat → Fin g.nlon → ℝ := fun _ i => g.lon i

/-- `self.lat2` (grid.py:56) -/
noncomputable def lat2 (g : Grid ℝ) : Fin g.nlat → Fin g.nlon → ℝ := fun j _ => g.lat j

end Grid
end Barotropic
