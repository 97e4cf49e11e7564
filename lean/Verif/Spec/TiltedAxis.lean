import Verif.Spec.Conservation

/-!
# Angular momentum about axes in the equatorial plane: C163
-/

namespace Barotropic

/-- Angular momentum of the wind with streamfunction `Ψ` about the axis that points to the longitude `α` on the equator: the component of `r × wind` in this direction, where `r × wind` is
`r` times (eastward wind) to the north and `r` times (northward wind) to the west. -/
noncomputable def equatorialMomentum (r α : ℝ) (Ψ : ℝ → ℝ → ℝ) : ℝ :=
  sphereIntegral r fun x y =>
    let u := -(sphereGrad r Ψ x y).2
    let v := (sphereGrad r Ψ x y).1
    let north := -(Real.sin y * Real.cos (x - α))
    let east := -Real.sin (x - α)
    r * (u * north - v * east)

/-- The square of the angular momentum about all axes in the equatorial plane -/
noncomputable def tiltSq (r : ℝ) (Ψ : ℝ → ℝ → ℝ) : ℝ := equatorialMomentum r 0 Ψ ^ 2 + equatorialMomentum r (Real.pi / 2) Ψ ^ 2

end Barotropic
