import Verif.Spec.Symmetry
import Verif.Spec.Quad

/-!
# Vocabulary: mirror images of zonalized fields and of wave activity
-/

namespace Barotropic
variable {g : Grid ℝ}

/-- No contour of the zonalization runs along the grid: no gridpoint has exactly the value of a contour (boxcounting), or no two
neighbouring points of a meridian do (spherical trapezoidal rule). -/
def Grid.OffGrid (g : Grid ℝ) {w : ℕ} (f : Fin g.nlat → Fin w → ℝ) (levels : Levels) (m : String) : Prop :=
  ∀ out, g.zonalizeContours f levels m = .ok out → ∀ p ∈ out,
    if m = "boxcount" then ∀ j i, f j i ≠ p.1
    else ∀ i, ∀ j j' : Fin g.nlat, j'.val = j.val + 1 → f j i = p.1 → f j' i ≠ p.1

/-- No two contours have the same equivalent latitude `x`. -/
def Grid.Untied (g : Grid ℝ) {w : ℕ} (f : Fin g.nlat → Fin w → ℝ) (levels : Levels) (m : String) (x : ℝ) : Prop :=
  ∀ out, g.zonalizeContours f levels m = .ok out → ∀ p ∈ out, ∀ p' ∈ out, p.2 = x → p'.2 = x → p = p'

/-- No two contours have the same equivalent latitude at one of the latitudes at which `falwa` interpolates between contours: the
dual latitudes for boxcounting and the latitudes of the grid otherwise. -/
def Grid.FalwaUntied (g : Grid ℝ) (f : Fin g.nlat → Fin g.nlon → ℝ) (levels : Levels) (m : String) : Prop :=
  if m = "boxcount" then ∀ j : ℕ, j + 1 < g.nlat → g.Untied f levels m (1 / 2 * (g.lat j + g.lat (j + 1)))
  else ∀ j : Fin g.nlat, g.Untied f levels m (g.lat j)

end Barotropic
