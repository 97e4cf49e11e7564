import Verif.Spec.Conservation
import Verif.Spec.Symmetry
import Mathlib.LinearAlgebra.UnitaryGroup

/-!
# C154: the truncated equations have no preferred direction
-/

namespace Barotropic
open Matrix
variable {g : Grid ℝ}

/-- Cartesian coordinates of a point on the unit sphere -/
noncomputable def unitVec (x y : ℝ) : Fin 3 → ℝ := ![Real.cos y * Real.cos x, Real.cos y * Real.sin x, Real.sin y]

/-- `f'` is `f`, carried along with the sphere by a rotation or reflection `Q`. Reflections change the sign (as they do with the vorticity of a flow). -/
def Turned (Q : Matrix (Fin 3) (Fin 3) ℝ) (f f' : ℝ → ℝ → ℝ) : Prop :=
  ∀ x y x' y', unitVec x' y' = Q *ᵥ unitVec x y → f' x' y' = Q.det * f x y

/-- `M'` does the same as `M` after the sphere has been turned. -/
structure BModel.Turns (N : ℕ → ℕ → ℝ) (S : g.Sph) (Q : Matrix (Fin 3) (Fin 3) ℝ) (M M' : BModel g) : Prop where
  order : M'.diffusionOrder = M.diffusionOrder
  coeff : M'.diffusionCoeff = M.diffusionCoeff
  bg : (M.diffusionBg = none ∧ M'.diffusionBg = none) ∨
    ∃ b b', M.diffusionBg = some b ∧ M'.diffusionBg = some b' ∧ Turned Q (harmonicSum N (S.grdtospec b)) (harmonicSum N (S.grdtospec b'))
  none : M.rhs = none → M'.rhs = none
  rhs : ∀ f, M.rhs = some f → ∃ f', M'.rhs = some f' ∧ ∀ s s' : St PyTime g, s'.time = s.time → Turned Q (s.pvFn N) (s'.pvFn N) →
    (∃ e, f s = .error e ∧ f' s' = .error e) ∨
      ∃ r r', f s = .ok r ∧ f' s' = .ok r' ∧ Turned Q (harmonicSum N (S.grdtospec r)) (harmonicSum N (S.grdtospec r'))

end Barotropic
