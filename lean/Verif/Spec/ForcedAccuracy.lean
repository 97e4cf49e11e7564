import Verif.Spec.Accuracy
import Verif.Spec.ForcedSolution

/-!
# Accuracy of forcings
-/

namespace Barotropic

/-- `R` follows the forcing `Φ` of the flow with streamfunction `Ψ`: the difference of its values for two states is bounded by the difference of their PV (squared, `K`), and
the difference to `Φ` is bounded by the difference of PV to that of `Ψ` and `ε`, all in the mean square. -/
structure FollowsForcing {g : Grid ℝ} (N : ℕ → ℕ → ℝ) (S : g.Sph) (R : ℝ → g.Spc → g.Fld) (K ε Ω : ℝ) (Φ : ℝ → ℝ → ℝ → ℝ) (t0 t1 : ℝ)
    (Ψ : ℝ → ℝ → ℝ → ℝ) : Prop where
  bound : ∀ t ∈ Set.Icc t0 t1, ∀ q q', sqDist g.rsphere (harmonicSum N (S.grdtospec (R t q))) (harmonicSum N (S.grdtospec (R t q'))) ≤
    K * sqDist g.rsphere (harmonicSum N q) (harmonicSum N q')
  near : ∀ t ∈ Set.Icc t0 t1, ∀ q, sqDist g.rsphere (harmonicSum N (S.grdtospec (R t q))) (Φ t) ≤
    K * sqDist g.rsphere (harmonicSum N q) (absVort g.rsphere Ω (Ψ t)) + ε

end Barotropic
