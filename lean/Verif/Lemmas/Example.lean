import Verif.Lemmas.Zonalize

/-!
# A small concrete grid for the non-vacuity examples
-/

namespace Barotropic
open Grid

/-- 30° resolution, unit sphere -/
noncomputable def grid30 : Grid ℝ := ⟨30, 1, 1, 2⟩

theorem grid30_nlat : grid30.nlat = 7 := by
  have : ⌊180 / (30 : ℝ)⌋₊ = 6 := by rw [Nat.floor_eq_iff (by norm_num)]; constructor <;> norm_num
  unfold grid30 Grid.nlat nlatOf; simp only [this]

theorem grid30_nlon : grid30.nlon = 12 := by
  have : ⌊360 / (30 : ℝ)⌋₊ = 12 := by rw [Nat.floor_eq_iff (by norm_num)]; constructor <;> norm_num
  unfold grid30 Grid.nlon nlonOf; simp only [this]

theorem grid30_valid : grid30.Valid :=
  ⟨by unfold grid30; norm_num, by unfold grid30; norm_num, by rw [grid30_nlon]; norm_num,
    by rw [grid30_nlat]; norm_num, by rw [grid30_nlat]; unfold grid30; norm_num⟩

theorem grid30_spacing : grid30.resolution * grid30.nlon = 360 := by
  rw [grid30_nlon]; unfold grid30; norm_num

end Barotropic
