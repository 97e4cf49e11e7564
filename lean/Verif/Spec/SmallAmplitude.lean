import Verif.Spec.WaveActivity

/-!
# Waves of small amplitude on a zonally symmetric basic state
-/

namespace Barotropic

open Set

/-- A zonally symmetric basic state with gradient `B'` that is positive between the poles; it changes at most by `L` per radian of latitude. -/
structure BasicState (B B' : ℝ → ℝ) (L : ℝ) : Prop where
  lip : ∀ φ ∈ latitudes, ∀ φ' ∈ latitudes, |B φ - B φ'| ≤ L * |φ - φ'|
  deriv : ∀ φ ∈ Ioo (-(Real.pi / 2)) (Real.pi / 2), HasDerivAt B (B' φ) φ
  gradient : ContinuousOn B' (Ioo (-(Real.pi / 2)) (Real.pi / 2))
  pos : ∀ φ ∈ Ioo (-(Real.pi / 2)) (Real.pi / 2), 0 < B' φ

/-- The basic state with a wave of amplitude `ε` -/
def withWave (B : ℝ → ℝ) (η : ℝ → ℝ → ℝ) (ε : ℝ) (x φ : ℝ) : ℝ := B φ + ε * η x φ

/-- Mean along a circle of latitude -/
noncomputable def circleMean (η : ℝ → ℝ → ℝ) (φ : ℝ) : ℝ := (∫ x in (0 : ℝ)..2 * Real.pi, η x φ) / (2 * Real.pi)

/-- Pseudomomentum of linear wave theory: half the square of the eddy divided by the gradient of the basic state, here per radian of latitude on a sphere
of radius `r`. -/
noncomputable def pseudomomentum (r : ℝ) (B' : ℝ → ℝ) (η : ℝ → ℝ → ℝ) (x φ : ℝ) : ℝ := r * (η x φ - circleMean η φ) ^ 2 / (2 * B' φ)

end Barotropic
