import Verif.Spec.Galerkin
import Verif.Spec.Waves

/-!
# C153: planets that rotate at different rates
-/

namespace Barotropic
variable {g : Grid ℝ}

/-- The same grid on a planet with another angular velocity -/
abbrev Grid.spun (g : Grid ℝ) (Ω : ℝ) : Grid ℝ := { g with omega := Ω }

/-- The angle by which a point on the second planet is ahead of the same point on the first planet at time `t`, if they coincide at time `t0` -/
noncomputable def lead (g : Grid ℝ) (Ω t0 t : ℝ) : ℝ := (Ω - g.omega) * (t - t0)

/-- Models of the same processes on planets with different angular velocities. The diffusion acts towards the same zonally symmetric PV. The forcing is the same as seen from space. -/
structure BModel.SameFromSpace (S : g.Sph) {Ω : ℝ} (t0 : ℝ) (M : BModel g) (R : ℝ → g.Spc → g.Fld) (M' : BModel (g.spun Ω)) (R' : ℝ → g.Spc → g.Fld) : Prop where
  coeff : M'.diffusionCoeff = M.diffusionCoeff
  order : M'.diffusionOrder = M.diffusionOrder
  background : M.diffusionCoeff = 0 ∨ (BModel.background (g := g.spun Ω) S M' = M.background S ∧ ∀ k, specM k ≠ 0 → M.background S k = 0)
  forcing : ∀ t q, S.grdtospec (R' t (shiftEast (-lead g Ω t0 t) q)) = shiftEast (-lead g Ω t0 t) (S.grdtospec (R t q))

end Barotropic
