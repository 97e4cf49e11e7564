import Verif.Spec.Rhs
import Verif.Spec.Waves

/-!
# Waves with relaxation and diffusion
-/

namespace Barotropic

/-- Discretisation of `dz/dt = -(κ + iω) z - ν z`, `z(0) = 1` with time step `h`, `μ = (κ + iω) h`, `δ = ν h`: an Euler step, then leapfrog
steps with a Robert-Asselin filter, the last term implicit. The filtered value of step `j` and the unfiltered value of step `j + 1`. -/
noncomputable def dampedOscillation (μ : ℂ) (δ : ℝ) : ℕ → ℂ × ℂ
  | 0 => (1, (1 - μ) / (1 + δ))
  | j + 1 =>
    let x := (dampedOscillation μ δ j).1
    let y := (dampedOscillation μ δ j).2
    let y' := (x - 2 * (μ * y)) / (1 + 2 * δ)
    (y + 2 / 10 * (x - 2 * y + y'), y')

/-- Positive where the discretised equation is stable, negative where it is not; `d` is the factor `1 / (1 + 2δ)` of the implicit term. -/
noncomputable def stabilityMargin (d : ℝ) (μ : ℂ) : ℝ :=
  ((3 - d) * (5 + 3 * d) - 4 * d * (6 + 5 * d) * μ.re - 12 * d ^ 2 * (μ.re ^ 2 + μ.im ^ 2)) *
    ((1 - d) * (5 + 3 * d) + 4 * d * (3 + d) * μ.re + 4 * d ^ 2 * (μ.re ^ 2 + μ.im ^ 2)) - 32 * d ^ 2 * (3 - 2 * d) ^ 2 * μ.im ^ 2

variable {g : Grid ℝ}

/-- Absolute vorticity of a solid-body rotation with angular velocity `W` on the grid -/
noncomputable def rotationField (g : Grid ℝ) (W : ℝ) : g.Fld := fun j _ => 2 * W * Real.sin (g.phi j)

/-- `LinearRelaxation` towards PV of a solid-body rotation is the only forcing (none if the rate is zero), and diffusion, if there is any,
acts on the difference from it. -/
def BModel.RelaxesTo (S : g.Sph) (M : BModel g) (rate W : ℝ) : Prop :=
  ((M.rhs = none ∧ rate = 0) ∨ ∃ ref : RVal g, (∀ j i, ref.at j i = rotationField g W j i) ∧ M.rhs = some (Term.linearRelaxation S rate ref).toRhs) ∧
  0 ≤ M.diffusionCoeff ∧ (M.diffusionCoeff = 0 ∨ M.diffusionBg = some (rotationField g W) ∨ (M.diffusionBg = none ∧ W = 0))

/-- Rate at which diffusion damps modes of degree `n` -/
noncomputable def BModel.diffusionRate (M : BModel g) (n : ℕ) : ℝ := M.diffusionCoeff * (n * (n + 1) / g.rsphere ^ 2) ^ M.diffusionOrder

end Barotropic
