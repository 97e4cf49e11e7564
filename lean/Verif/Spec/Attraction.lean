import Verif.Spec.Galerkin
import Verif.Spec.DampedWaves
import Verif.Spec.Conservation

/-!
# Relaxation towards an arbitrary reference
-/

namespace Barotropic
variable {g : Grid ℝ}

/-- Enstrophy of the difference of PV from that of a solid-body rotation with angular velocity `W` -/
noncomputable def excessEnstrophy (r W : ℝ) (Q : ℝ → ℝ → ℝ) : ℝ := totalEnstrophy r fun x y => Q x y - 2 * W * Real.sin y

/-- `rate (reference - PV)` as function of time and coefficients of PV -/
noncomputable def relaxationTo (S : g.Sph) (rate : ℝ) (reference : g.Fld) : ℝ → g.Spc → g.Fld :=
  fun _ q j i => rate * (reference j i - S.spectogrd q j i)

/-- Diffusion, if there is any, acts on the difference from PV of a solid-body rotation (PV itself if `W = 0`). -/
def BModel.DiffusesTowards (M : BModel g) (W : ℝ) : Prop :=
  0 ≤ M.diffusionCoeff ∧ (M.diffusionCoeff = 0 ∨ M.diffusionBg = some (rotationField g W) ∨ (M.diffusionBg = none ∧ W = 0))

/-- `LinearRelaxation` towards `reference` with the given rate is the only forcing. -/
def BModel.RelaxesTowards (S : g.Sph) (M : BModel g) (rate : ℝ) (reference : g.Fld) : Prop :=
  ∃ ref : RVal g, (∀ j i, ref.at j i = reference j i) ∧ M.rhs = some (Term.linearRelaxation S rate ref).toRhs

end Barotropic
