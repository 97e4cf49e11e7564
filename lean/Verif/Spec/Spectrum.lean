import Verif.Spec.Conservation

/-!
# Kinetic energy by degree
-/

namespace Barotropic

variable {T : ℕ} {g : Grid ℝ} {τ : Type}

/-- The part of a field with the scales of degree `l` -/
def degreePart (l : ℕ) (a : SpecField T) : SpecField T := fun k => if specN k = l then a k else 0

/-- Kinetic energy of the scales of degree `l`: that of the flow whose streamfunction is the part of `streamfunction` with degree `l` -/
noncomputable def St.degreeEnergy (N : ℕ → ℕ → ℝ) (S : g.Sph) (s : St τ g) (l : ℕ) : ℝ :=
  totalEnergy g.rsphere (harmonicSum N (degreePart l (Grid.solvePoissonSpectral (s.vorticitySpectral S) 0)))

end Barotropic
