import Verif.Spec.Harmonics
import Verif.Spec.Sphere

/-!
# Solutions of the barotropic vorticity equation

Independent of the model.
-/

namespace Barotropic
open Complex

/-- Divergence of the flux of `Q` with the non-divergent wind that has streamfunction `Ψ` -/
noncomputable def sphereFlux (r : ℝ) (Q Ψ : ℝ → ℝ → ℝ) : ℝ → ℝ → ℝ :=
  sphereDiv r (fun x y => Q x y * -(sphereGrad r Ψ x y).2) (fun x y => Q x y * (sphereGrad r Ψ x y).1)

/-- `Q t`, `Ψ t` (absolute vorticity and streamfunction at time `t`) solve the barotropic vorticity equation without forcing and
diffusion on a sphere with radius `r` that rotates with angular velocity `Ω`: `∂Q/∂t + ∇·(Q u) = 0`, `Q = ΔΨ + 2Ω sin φ`. -/
structure BarotropicSolution (r Ω : ℝ) (Q Ψ : ℝ → ℝ → ℝ → ℝ) : Prop where
  smooth : ∀ t, SphereSmooth (Q t) ∧ SphereSmooth (Ψ t)
  vorticity : ∀ t x y, Real.cos y ≠ 0 → Q t x y = sphereLaplacian r (Ψ t) x y + 2 * Ω * Real.sin y
  advection : ∀ t x y, Real.cos y ≠ 0 → HasDerivAt (fun t => Q t x y) (-sphereFlux r (Q t) (Ψ t) x y) t

variable {T : ℕ}

/-- Coefficients of `2 W sin φ`: absolute vorticity of a solid-body rotation with angular velocity `W` (as seen from space) -/
noncomputable def solidRotation (N : ℕ → ℕ → ℝ) (W : ℝ) : SpecField T :=
  fun k => if specM k = 0 ∧ specN k = 1 then ((W / N 1 0 : ℝ) : ℂ) else 0

/-- All modes have the same degree. -/
def SingleDegree (n : ℕ) (a : SpecField T) : Prop := ∀ k, specN k ≠ n → a k = 0

/-- Angular phase speed of a wave of degree `n` on a solid-body rotation `W` (relative to the surface, which rotates with `Ω`) -/
noncomputable def waveSpeed (Ω W : ℝ) (n : ℕ) : ℝ := (W - Ω) - 2 * W / (n * (n + 1))

/-- Eastward rotation of a field by the angle `α` -/
noncomputable def shiftEast (α : ℝ) (a : SpecField T) : SpecField T := fun k => exp (-(I * (specM k * α : ℝ))) * a k

/-- Discretisation of `dz/dt = -iω z`, `z(0) = 1` with time step `h`, `θ = ω h`: an Euler step, then leapfrog steps with a
Robert-Asselin filter. The filtered value of step `j` and the unfiltered value of step `j + 1`. -/
noncomputable def oscillation (θ : ℝ) : ℕ → ℂ × ℂ
  | 0 => (1, 1 - I * θ)
  | j + 1 =>
    let x := (oscillation θ j).1
    let y := (oscillation θ j).2
    let y' := x - 2 * (I * θ * y)
    (y + 2 / 10 * (x - 2 * y + y'), y')

end Barotropic
