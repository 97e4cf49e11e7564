import Verif.Spec.Sphere

/-!
# Conservative motion on the sphere
-/

namespace Barotropic
open Real (cos)

/-- `q t x φ` is materially conserved by the non-divergent wind `U`, `V` (smooth up to the poles) on a sphere of radius `r`. -/
structure ConservativeFlow (r : ℝ) (q U V : ℝ → ℝ → ℝ → ℝ) : Prop where
  smooth : ContDiff ℝ (⊤ : ℕ∞) fun p : ℝ × ℝ × ℝ => q p.1 p.2.1 p.2.2
  periodic : ∀ t x φ, q t (x + 2 * Real.pi) φ = q t x φ
  eastward : ∀ t, SphereSmooth (U t)
  northward : ∀ t, SphereSmooth (V t)
  nondivergent : ∀ t x φ, cos φ ≠ 0 → sphereDiv r (U t) (V t) x φ = 0
  conserved : ∀ t x φ, cos φ ≠ 0 →
    deriv (fun s => q s x φ) t = -(U t x φ * (sphereGrad r (q t) x φ).1 + V t x φ * (sphereGrad r (q t) x φ).2)

/-- `q` is the absolute vorticity of the wind with planetary vorticity `f` (up to a constant that may be included in `f`). -/
def IsAbsoluteVorticity (r : ℝ) (f : ℝ → ℝ) (q U V : ℝ → ℝ → ℝ → ℝ) : Prop :=
  ∀ t x φ, cos φ ≠ 0 → q t x φ = sphereCurl r (U t) (V t) x φ + f φ

/-- Zonal mean of a function on the sphere -/
noncomputable def zonalMeanFn (F : ℝ → ℝ → ℝ) (φ : ℝ) : ℝ := (∫ x in (0 : ℝ)..2 * Real.pi, F x φ) / (2 * Real.pi)

end Barotropic
