import Verif.Spec.Sphere
import Verif.Spec.Harmonics
import Verif.Model.State

/-!
# Integrals of a flow on the sphere
-/

namespace Barotropic

/-- Kinetic energy of the non-divergent wind with streamfunction `Ψ` (per unit of mass and area) -/
noncomputable def totalEnergy (r : ℝ) (Ψ : ℝ → ℝ → ℝ) : ℝ :=
  sphereIntegral r fun x y => ((sphereGrad r Ψ x y).1 ^ 2 + (sphereGrad r Ψ x y).2 ^ 2) / 2

noncomputable def totalEnstrophy (r : ℝ) (Q : ℝ → ℝ → ℝ) : ℝ := sphereIntegral r fun x y => Q x y ^ 2 / 2

/-- Angular momentum about the axis, relative to the surface: `r cos φ` times the eastward wind -/
noncomputable def totalMomentum (r : ℝ) (Ψ : ℝ → ℝ → ℝ) : ℝ :=
  sphereIntegral r fun x y => r * Real.cos y * -(sphereGrad r Ψ x y).2

/-- The product of two functions -/
noncomputable def spherePair (r : ℝ) (F G : ℝ → ℝ → ℝ) : ℝ := sphereIntegral r fun x y => F x y * G x y

/-- The product of the winds with streamfunctions `Ψ` and `X` -/
noncomputable def windPair (r : ℝ) (Ψ X : ℝ → ℝ → ℝ) : ℝ :=
  sphereIntegral r fun x y => (sphereGrad r Ψ x y).1 * (sphereGrad r X x y).1 + (sphereGrad r Ψ x y).2 * (sphereGrad r X x y).2

variable {g : Grid ℝ} {τ : Type}

/-- The function on the sphere whose values are `pv` -/
noncomputable def St.pvFn (N : ℕ → ℕ → ℝ) (s : St τ g) : ℝ → ℝ → ℝ := harmonicSum N s.q

/-- The function on the sphere whose values are `streamfunction` -/
noncomputable def St.streamFn (N : ℕ → ℕ → ℝ) (S : g.Sph) (s : St τ g) : ℝ → ℝ → ℝ :=
  harmonicSum N (Grid.solvePoissonSpectral (s.vorticitySpectral S) 0)

/-- The function on the sphere with coefficients `pv_flux_spectral` -/
noncomputable def St.fluxFn (N : ℕ → ℕ → ℝ) (S : g.Sph) (s : St τ g) : ℝ → ℝ → ℝ := harmonicSum N (s.pvFluxSpectral S)

/-- Streamfunction of the wind whose vorticity is the flux -/
noncomputable def St.fluxStreamFn (N : ℕ → ℕ → ℝ) (S : g.Sph) (s : St τ g) : ℝ → ℝ → ℝ :=
  harmonicSum N (Grid.solvePoissonSpectral (s.pvFluxSpectral S) 0)

end Barotropic
