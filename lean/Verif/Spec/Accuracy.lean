import Verif.Spec.SmoothSolution

/-!
# Accuracy of fields on the sphere
-/

namespace Barotropic
open Real (cos sin)

/-- `A` approximates `B` on the sphere: the mean square error is within `C X`, the squared error at every point within `C X (T + 1)²` and the squared error of the
gradient at every point within `C X (T + 1)⁴`. -/
structure Accurate (C r : ℝ) (T : ℕ) (X : ℝ) (A B : ℝ → ℝ → ℝ) : Prop where
  mean : sqDist r A B ≤ C * X
  value : ∀ x y, cos y ≠ 0 → (A x y - B x y) ^ 2 ≤ C * ((T : ℝ) + 1) ^ 2 * X
  gradient : ∀ x y, cos y ≠ 0 → ((sphereGrad r A x y).1 - (sphereGrad r B x y).1) ^ 2 + ((sphereGrad r A x y).2 - (sphereGrad r B x y).2) ^ 2 ≤
    C * ((T : ℝ) + 1) ^ 4 * X

end Barotropic
