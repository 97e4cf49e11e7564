import Verif.Spec.Rearrange
import Verif.Model.Binary64Zonalize
import Verif.Model.Binary64Geometry

/-!
# Profiles that agree with a rearrangement up to a shift in latitude and an error of the values
-/

namespace Barotropic

/-- A contour of the value `q` whose polar cap ends where the sine of latitude is `s`: values of the profile are at least `q` north of it
and at most `q` south of it, up to an error of `ε`, more than `κ` away from it. -/
def SineBrackets (P : ℝ → ℝ) (ε κ s q : ℝ) : Prop :=
  ∀ φ ∈ latitudes, (s + κ < Real.sin φ → q - ε ≤ P φ) ∧ (Real.sin φ < s - κ → P φ ≤ q + ε)

/-- `v` is a value the profile `P` takes near the latitude `ψ`: it is at most `ε` above every value north and at most `ε` below every
value south of `ψ`, more than `κ` away from `ψ` in sine of latitude. -/
def NearProfile (P : ℝ → ℝ) (ε κ ψ v : ℝ) : Prop :=
  ∀ φ ∈ latitudes, (Real.sin ψ + κ < Real.sin φ → v ≤ P φ + ε) ∧ (Real.sin φ < Real.sin ψ - κ → P φ - ε ≤ v)

/-- The computed areas of the gridboxes of the `n + 1` latitudes; there are no other boxes. -/
noncomputable def gridBoxes (sn : ℝ → ℝ) (n : ℕ) (r dlam : ℝ) (j : ℕ) : ℝ := if j ≤ n then Binary64.gridpointArea sn (n + 1) r dlam j else 0

/-- An `np.arcsin` that does not decrease, is a right angle at ±1 and accurate to `2⁻⁵²` -/
structure GoodAsin (asin : ℝ → ℝ) : Prop where
  mono : ∀ s s', -1 ≤ s → s ≤ s' → s' ≤ 1 → asin s ≤ asin s'
  one : asin 1 = Binary64.rnd (Binary64.pi64 / 2)
  neg_one : asin (-1) = -Binary64.rnd (Binary64.pi64 / 2)
  close : ∀ s, -1 ≤ s → s ≤ 1 → |asin s - Real.arcsin s| ≤ 1 / 2 ^ 52

end Barotropic
