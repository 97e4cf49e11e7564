import Verif.Spec.Rearrange

/-!
# Local wave activity of a field on the sphere (Huang and Nakamura 2016)
-/

namespace Barotropic

open Classical in
/-- Deviation of the field from the value `q`, integrated along the meridian `x` over the places that were displaced across the latitude `φe`: values
less than `q` north of it and values of at least `q` south of it. -/
noncomputable def displaced (Q : ℝ → ℝ → ℝ) (q x φe : ℝ) : ℝ :=
  ∫ φ in -(Real.pi / 2)..Real.pi / 2, (if q ≤ Q x φ ↔ φe ≤ φ then 0 else |Q x φ - q|) * Real.cos φ

/-- Finite-amplitude local wave activity on a sphere of radius `r`; `P` is the profile of the rearranged field. -/
noncomputable def localWaveActivity (r : ℝ) (Q : ℝ → ℝ → ℝ) (P : ℝ → ℝ) (x φe : ℝ) : ℝ := r / Real.cos φe * displaced Q (P φe) x φe

/-- Finite-amplitude wave activity: the zonal mean -/
noncomputable def waveActivity (r : ℝ) (Q : ℝ → ℝ → ℝ) (P : ℝ → ℝ) (φe : ℝ) : ℝ :=
  (∫ x in (0 : ℝ)..2 * Real.pi, localWaveActivity r Q P x φe) / (2 * Real.pi)

end Barotropic
