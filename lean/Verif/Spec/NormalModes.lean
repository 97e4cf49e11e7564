import Verif.Spec.StationaryWave

/-!
# Normal modes of zonal flows
-/

namespace Barotropic
open Real (cos sin)

/-- The wave with streamfunction `Ψ t` at time `t` obeys the equation of the model on the zonal flow `U` with PV `Q`, to first order in amplitude. -/
def LinearWave (r : ℝ) (Q U : ℝ → ℝ) (Ψ : ℝ → ℝ → ℝ → ℝ) : Prop :=
  ∀ t x, ∀ y ∈ Set.Ioo (-(Real.pi / 2)) (Real.pi / 2),
    deriv (fun t => sphereLaplacian r (Ψ t) x y) t + U y / (r * cos y) * dlon (sphereLaplacian r (Ψ t)) x y +
      (sphereGrad r (Ψ t) x y).1 * (deriv Q y / r) = 0

/-- Wave of zonal wavenumber `k` that grows exponentially at the rate `σ` and moves eastward with angular velocity `c` -/
noncomputable def normalMode (k : ℕ) (A B : ℝ → ℝ) (σ c t x y : ℝ) : ℝ := Real.exp (σ * t) * waveOf k A B (x - c * t) y

/-- Angular velocity of a zonal flow -/
noncomputable def angularWind (r : ℝ) (U : ℝ → ℝ) (y : ℝ) : ℝ := U y / (r * cos y)

end Barotropic
