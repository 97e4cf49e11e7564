import Mathlib.Analysis.Calculus.ContDiff.Defs
import Mathlib.Analysis.Calculus.Deriv.Basic
import Verif.Spec.Waveguide
import Verif.Spec.Mercator
import Mathlib.Analysis.SpecialFunctions.Trigonometric.Basic

/-!
# C149: waveguides of a continuous profile
-/

namespace Barotropic

/-- The latitudes (in degrees, from north to south) where `f` exceeds `c` are those between the pairs of `W`, robustly: by more than `E` except within `δ` of
the edges. Waveguides and the gaps between them are wider than a grid cell `h`, which is wider than the uncertain part at an edge. An edge beyond a
pole (by at most `δ`) belongs to a waveguide that contains the pole. -/
structure RobustGuides (f : ℝ → ℝ) (c : ℝ) (E : ℝ → ℝ) (δ h : ℝ) (W : List (ℝ × ℝ)) : Prop where
  inside : ∀ q ∈ W, ∀ y, q.2 + δ ≤ y → y ≤ q.1 - δ → c + E y < f y
  outside : ∀ y, -90 ≤ y → y ≤ 90 → (∀ q ∈ W, q.1 + δ < y ∨ y < q.2 - δ) → f y < c - E y
  width : ∀ q ∈ W, q.2 + 2 * δ + h < q.1
  gap : W.Pairwise fun q q' => q'.1 + 2 * δ < q.2
  north : ∀ q ∈ W, q.1 ≤ 90 + δ
  south : ∀ q ∈ W, -90 - δ ≤ q.2
  cell : 2 * δ < h
  nonneg : 0 ≤ δ

/-- The latitudes (in degrees, from north to south) where the continuous profile `f` exceeds `c` are those between the pairs of `W`; `f` passes through `c` with
nonzero slope at the edges other than the poles. -/
structure SimpleGuides (f : ℝ → ℝ) (c : ℝ) (W : List (ℝ × ℝ)) : Prop where
  cont : ContinuousOn f (Set.Icc (-90) 90)
  bounds : ∀ q ∈ W, -90 ≤ q.2 ∧ q.2 < q.1 ∧ q.1 ≤ 90
  separate : W.Pairwise fun q q' => q'.1 < q.2
  inside : ∀ q ∈ W, ∀ y, q.2 < y → y < q.1 → c < f y
  outside : ∀ y, -90 ≤ y → y ≤ 90 → (∀ q ∈ W, q.1 < y ∨ y < q.2) → f y < c
  north : ∀ q ∈ W, (q.1 = 90 ∧ c < f 90) ∨ (f q.1 = c ∧ ContDiffAt ℝ 2 f q.1 ∧ deriv f q.1 < 0)
  south : ∀ q ∈ W, (q.2 = -90 ∧ c < f (-90)) ∨ (f q.2 = c ∧ ContDiffAt ℝ 2 f q.2 ∧ 0 < deriv f q.2)

/-- The real variant of the stationary wavenumber of a zonal flow at latitude `y` in degrees -/
noncomputable def stationaryReal (r : ℝ) (Q U : ℝ → ℝ) (y : ℝ) : ℝ :=
  SignType.sign (stationarySq r Q U (y * Real.pi / 180)) * Real.sqrt |stationarySq r Q U (y * Real.pi / 180)|

/-- The condition of `has_waveguide` for a waveguide in midlatitudes (examples/waveguidability-wirth-2020.ipynb) -/
def Midlatitude (p : ℝ × ℝ) : Prop := 80 > p.1 ∧ p.1 > 40 ∧ 50 > p.2 ∧ p.2 > 10

end Barotropic
