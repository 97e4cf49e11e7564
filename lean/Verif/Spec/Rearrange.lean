import Verif.Spec.Sphere

/-!
# Rearrangement of a field into a profile of equivalent latitude

Longitude `x` and latitude `φ` in radians.
-/

namespace Barotropic

open Set

/-- Latitudes from pole to pole -/
abbrev latitudes : Set ℝ := Icc (-(Real.pi / 2)) (Real.pi / 2)

/-- A field on the sphere that changes at most by `Lx` per radian of longitude and `Ly` per radian of latitude. -/
structure LipschitzField (Q : ℝ → ℝ → ℝ) (Lx Ly : ℝ) : Prop where
  periodic : ∀ x, ∀ φ ∈ latitudes, Q (x + 2 * Real.pi) φ = Q x φ
  lon : ∀ x x', ∀ φ ∈ latitudes, |Q x φ - Q x' φ| ≤ Lx * |x - x'|
  lat : ∀ x, ∀ φ ∈ latitudes, ∀ φ' ∈ latitudes, |Q x φ - Q x φ'| ≤ Ly * |φ - φ'|

open Classical in
/-- Area of the part of the unit sphere where the field is at least `c` -/
noncomputable def areaAbove (Q : ℝ → ℝ → ℝ) (c : ℝ) : ℝ := sphereIntegral 1 fun x φ => if c ≤ Q x φ then 1 else 0

/-- `P` is the field `Q` rearranged into a zonally symmetric field that increases northward, such that every value is exceeded in an area of the same
size. -/
structure IsRearrangement (Q : ℝ → ℝ → ℝ) (P : ℝ → ℝ) : Prop where
  continuous : ContinuousOn P latitudes
  increasing : MonotoneOn P latitudes
  area : ∀ c, areaAbove Q c = areaAbove (fun _ φ => P φ) c

end Barotropic
