import Verif.Model.GridReal
import Mathlib.Data.Complex.Basic
import Mathlib.Data.List.Range

/-!
# Spectral transforms and operators  (grid.py:68-81, 187-294, 345-411)

`spharm` (SPHEREPACK) is external code: the transforms are a *parameter* of the model (`Spharm`). Nothing is assumed
about them in this file.
-/

namespace Barotropic

/-- The spectral indices `(m, n)` (zonal wavenumber, total wavenumber/degree) of a triangular truncation `T`, in the
storage order of `spharm.getspecindx(T)`: `m = 0`: `n = 0..T`, `m = 1`: `n = 1..T`, … (used in grid.py:74). -/
def specIndex (T : ℕ) : List (ℕ × ℕ) :=
  (List.range (T + 1)).flatMap fun m => (List.range (T + 1 - m)).map fun k => (m, m + k)

/-- Number of spectral coefficients, `(T+1)(T+2)/2`. -/
def nspec (T : ℕ) : ℕ := (specIndex T).length

/-- Zonal wavenumber `m` of the k-th coefficient. -/
def specM {T : ℕ} (k : Fin (nspec T)) : ℕ := ((specIndex T).get k).1

/-- Degree `n` of the k-th coefficient: `_, specindxn = spharm.getspecindx(self._ntrunc)` (grid.py:74). -/
def specN {T : ℕ} (k : Fin (nspec T)) : ℕ := ((specIndex T).get k).2

/-- A spectral field: one complex coefficient for each index. -/
abbrev SpecField (T : ℕ) := Fin (nspec T) → ℂ

/-- A gridded field. -/
abbrev GridField (nlat nlon : ℕ) := Fin nlat → Fin nlon → ℝ

/-- The five functions of `spharm.Spharmt` that are called by `Grid`. -/
structure Spharm (nlat nlon T : ℕ) where
  /-- `grdtospec(f, T)` -/
  grdtospec : GridField nlat nlon → SpecField T
  /-- `spectogrd(s)` -/
  spectogrd : SpecField T → GridField nlat nlon
  /-- `getuv(vrtspec, divspec)` -/
  getuv : SpecField T → SpecField T → GridField nlat nlon × GridField nlat nlon
  /-- `getvrtdivspec(u, v, T)` -/
  getvrtdivspec : GridField nlat nlon → GridField nlat nlon → SpecField T × SpecField T
  /-- `getgrad(s)` -/
  getgrad : SpecField T → GridField nlat nlon × GridField nlat nlon

namespace Grid
variable (g : Grid ℝ)

/-- Gridded fields on `g` (arrays of shape `g.shape`). -/
abbrev Fld := GridField g.nlat g.nlon

/-- Spectral fields on `g`. -/
abbrev Spc := SpecField g.ntrunc

/-- The spharm object of `g` (grid.py:68). -/
abbrev Sph := Spharm g.nlat g.nlon g.ntrunc

/-- `self._laplacian_eigenvalues = n * (1. + n) / rsphere / rsphere` (grid.py:74-77) -/
noncomputable def eig (k : Fin (nspec g.ntrunc)) : ℝ :=
  (specN k : ℝ) * (1 + specN k) / g.rsphere / g.rsphere

variable {g} (S : g.Sph)

/-- `Grid.to_spectral` (grid.py:198) -/
def toSpectral (f : g.Fld) : g.Spc := S.grdtospec f

/-- `Grid.to_grid` (grid.py:209) -/
def toGrid (s : g.Spc) : g.Fld := S.spectogrd s

/-- `self.fcor2_spectral` (grid.py:81) -/
noncomputable def fcor2Spectral : g.Spc := toSpectral S g.fcor2

/-- `Grid.wind` (grid.py:223-227); each argument is gridded or spectral. (A spectral array is one-dimensional, so
its shape never equals the grid shape.) -/
def wind (vorticity divergence : g.Fld ⊕ g.Spc) : g.Fld × g.Fld :=
  let vo := match vorticity with
    | .inl f => toSpectral S f
    | .inr s => s
  let di := match divergence with
    | .inl f => toSpectral S f
    | .inr s => s
  S.getuv vo di

/-- `Grid.vorticity_divergence_spectral` (grid.py:274-276) -/
def vorticityDivergenceSpectral (u v : g.Fld) : g.Spc × g.Spc := S.getvrtdivspec u v

/-- `Grid.vorticity_spectral` (grid.py:243) -/
def vorticitySpectral (u v : g.Fld) : g.Spc := (vorticityDivergenceSpectral S u v).1

/-- `Grid.vorticity` (grid.py:239) -/
def vorticity (u v : g.Fld) : g.Fld := toGrid S (vorticitySpectral S u v)

/-- `Grid.divergence_spectral` (grid.py:259) -/
def divergenceSpectral (u v : g.Fld) : g.Spc := (vorticityDivergenceSpectral S u v).2

/-- `Grid.divergence` (grid.py:255) -/
def divergence (u v : g.Fld) : g.Fld := toGrid S (divergenceSpectral S u v)

/-- The names that the module grid.py defines or imports at top level (grid.py:1-8 and the top-level
statements `class Grid`, `class GridRegionIndexer`, `class GridRegion`), plus nothing else: the function
`vorticity_divergence_spectral` exists only as a method. -/
def moduleGlobals : List String :=
  ["Number", "np", "scipy", "spharm", "formatting", "EARTH_RADIUS", "EARTH_OMEGA", "MERIDIONAL",
   "Grid", "GridRegionIndexer", "GridRegion"]

/-- Evaluation of a bare global name inside a method: NameError if the module does not define it. -/
def lookupGlobal {α : Type*} (name : String) (val : α) : Except PyErr α :=
  if name ∈ moduleGlobals then .ok val else .error .nameError

/-- `Grid.vorticity_divergence` (grid.py:271-272). Line 271 calls the *global* name
`vorticity_divergence_spectral`, not the method. -/
def vorticityDivergence (u v : g.Fld) : Except PyErr (g.Fld × g.Fld) := do
  let f ← lookupGlobal "vorticity_divergence_spectral" (vorticityDivergenceSpectral S)
  let (vort, div) := f u v
  return (toGrid S vort, toGrid S div)

/-- `Grid.gradient` (grid.py:294) -/
def gradient (f : g.Fld) : g.Fld × g.Fld := S.getgrad (toSpectral S f)

/-- `Grid.laplace_spectral` (grid.py:358) -/
noncomputable def laplaceSpectral (f : g.Spc) : g.Spc := fun k => -f k * (g.eig k : ℂ)

/-- `Grid.laplace` (grid.py:354) -/
noncomputable def laplace (f : g.Fld) : g.Fld := toGrid S (laplaceSpectral (toSpectral S f))

/-- `Grid.solve_poisson_spectral` (grid.py:381-383): entry 0 stays zero, the others are divided.
Simplification: division by zero (only possible for negative `op_add`) gives 0 here, inf/nan in numpy. -/
noncomputable def solvePoissonSpectral (rhs : g.Spc) (opAdd : ℝ) : g.Spc := fun k =>
  if k.val = 0 then 0 else -rhs k / ((g.eig k + opAdd : ℝ) : ℂ)

/-- `Grid.solve_poisson` (grid.py:375-377) -/
noncomputable def solvePoisson (rhs : g.Fld) (opAdd : ℝ) : g.Fld :=
  toGrid S (solvePoissonSpectral (toSpectral S rhs) opAdd)

/-- `Grid.solve_diffusion_spectral` (grid.py:410-411). Simplification: `order` is a natural number. -/
noncomputable def solveDiffusionSpectral (f : g.Spc) (coeff dt : ℝ) (order : ℕ) : g.Spc := fun k =>
  f k / ((1 + dt * coeff * g.eig k ^ order : ℝ) : ℂ)

/-- `Grid.solve_diffusion` (grid.py:404-406) -/
noncomputable def solveDiffusion (f : g.Fld) (coeff dt : ℝ) (order : ℕ) : g.Fld :=
  toGrid S (solveDiffusionSpectral (toSpectral S f) coeff dt order)

end Grid
end Barotropic
