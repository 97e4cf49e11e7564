import Verif.Spec.DampedWaves
import Verif.Spec.LinearResponse

/-!
# C151: stationary waves
-/

namespace Barotropic
open Complex

/-- Discretisation of `dz/dt = 1/h - (κ + iω) z - ν z`, `z(0) = 0` with time step `h`, `μ = (κ + iω) h`, `δ = ν h`, in the same way as `dampedOscillation` -/
noncomputable def forcedOscillation (μ : ℂ) (δ : ℝ) : ℕ → ℂ × ℂ
  | 0 => (0, 1 / (1 + δ))
  | j + 1 =>
    let x := (forcedOscillation μ δ j).1
    let y := (forcedOscillation μ δ j).2
    let y' := (x + 2 * (1 - μ * y)) / (1 + 2 * δ)
    (y + 2 / 10 * (x - 2 * y + y'), y')

variable {g : Grid ℝ}

/-- `κ + ν_n + i m c_n`: PV of a stationary wave is the forcing divided by this factor. `κ` is the rate of the relaxation, `ν_n` that of the diffusion and `c_n` the phase speed. -/
noncomputable def BModel.impedance (M : BModel g) (rate W : ℝ) (k : Fin (nspec g.ntrunc)) : ℂ :=
  ((rate + M.diffusionRate (specN k) : ℝ) : ℂ) + I * (specM k * waveSpeed g.omega W (specN k) : ℝ)

/-- The models differ only in a forcing that is proportional to `ε`; all have `LinearRelaxation` (none if the rate is zero) and diffusion towards the same solid-body rotation. -/
structure WeaklyForced (S : g.Sph) (M : ℝ → BModel g) (rate W : ℝ) (A : ℝ → g.Spc → g.Fld) : Prop where
  same : ∀ ε, (M ε).diffusionCoeff = (M 0).diffusionCoeff ∧ (M ε).diffusionOrder = (M 0).diffusionOrder ∧ (M ε).diffusionBg = (M 0).diffusionBg
  nonneg : 0 ≤ (M 0).diffusionCoeff
  background : (M 0).diffusionCoeff = 0 ∨ (M 0).diffusionBg = some (rotationField g W) ∨ ((M 0).diffusionBg = none ∧ W = 0)
  forced : ∀ ε, (M ε).ForcedBy fun t q => (fun j i => rate * (rotationField g W j i - S.spectogrd q j i)) + ε • A t q

/-- Only modes of degrees 1 to `D` -/
def WaveBand (D : ℕ) (p : g.Spc) : Prop := ∀ k, specN k = 0 ∨ D < specN k → p k = 0

end Barotropic
