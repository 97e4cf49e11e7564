import Verif.Model.Grid
import Mathlib.Tactic.Linarith
import Mathlib.Tactic.Ring
import Mathlib.Tactic.FieldSimp
import Mathlib.Tactic.NormNum
import Mathlib.Tactic.Positivity

set_option linter.unusedSectionVars false

namespace Barotropic
variable {K : Type*} [Field K] [LinearOrder K] [IsStrictOrderedRing K] [FloorRing K]

namespace Grid

/-- What `Grid.make` guarantees about the grids it returns. -/
structure Valid (g : Grid K) : Prop where
  res_pos : 0 < g.resolution
  rsphere_pos : 0 < g.rsphere
  nlon_ge : 4 ≤ g.nlon
  nlat_ge : 3 ≤ g.nlat
  ntrunc_le : g.ntrunc ≤ g.nlat - 1

theorem make_ok {res rs om : K} {nt : Option ℕ} {g : Grid K} (h : make res rs om nt = .ok g) :
    g.Valid ∧ g.resolution = res ∧ g.rsphere = rs ∧ g.omega = om ∧
      g.ntrunc = nt.getD (nlatOf res - 1) := by
  unfold make at h
  split_ifs at h with h1 h2 h3
  dsimp only at h
  split_ifs at h with h4
  injection h with h
  subst h
  rw [not_or, not_or] at h3
  refine ⟨⟨lt_of_le_of_ne (not_lt.1 h2) (Ne.symm h1), not_le.1 h3.1, not_lt.1 h3.2.1, not_lt.1 h3.2.2,
    not_lt.1 h4⟩, rfl, rfl, rfl, rfl⟩

theorem make_of_valid {g : Grid K} (h : g.Valid) :
    make g.resolution g.rsphere g.omega (some g.ntrunc) = .ok g := by
  have h1 := h.res_pos
  have h2 := h.rsphere_pos
  have h3 := h.nlon_ge
  have h4 := h.nlat_ge
  have h5 := h.ntrunc_le
  unfold nlon nlat at *
  unfold make
  rw [if_neg h1.ne', if_neg (not_lt.2 h1.le), if_neg (by
    rw [not_or, not_or]; exact ⟨not_le.2 h2, not_lt.2 h3, not_lt.2 h4⟩)]
  simp only [Option.getD_some]
  rw [if_neg (not_lt.2 h5)]

namespace Valid
variable {g : Grid K} (h : g.Valid)
include h

theorem nlon_pos : (0 : K) < g.nlon := by
  have := h.nlon_ge; exact_mod_cast (by omega : 0 < g.nlon)

theorem nlatm1_pos : (0 : K) < (g.nlat : K) - 1 := by
  have := h.nlat_ge
  have : (3 : K) ≤ g.nlat := by exact_mod_cast this
  linarith

end Valid

theorem lat_eq {g : Grid K} (h : g.Valid) (j : ℕ) : g.lat j = 90 - j * (180 / ((g.nlat : K) - 1)) := by
  have := h.nlat_ge
  unfold lat linspace
  rw [if_neg (by omega)]
  have := h.nlatm1_pos.ne'
  field_simp
  ring

theorem lon_eq (g : Grid K) (i : ℕ) : g.lon i = i * (360 / (g.nlon : K)) := by
  unfold lon linspaceOpen; simp

theorem lat_last {g : Grid K} (h : g.Valid) : g.lat (g.nlat - 1) = -90 := by
  rw [lat_eq h, Nat.cast_sub (by have := h.nlat_ge; omega)]
  have := h.nlatm1_pos.ne'
  field_simp
  push_cast
  ring

theorem lat_strictAnti {g : Grid K} (h : g.Valid) : StrictAnti g.lat := by
  intro a b hab
  rw [lat_eq h, lat_eq h]
  have : (a : K) < b := by exact_mod_cast hab
  have h2 : 0 < 180 / ((g.nlat : K) - 1) := div_pos (by norm_num) h.nlatm1_pos
  nlinarith

theorem lon_strictMono {g : Grid K} (h : g.Valid) : StrictMono g.lon := by
  intro a b hab
  rw [lon_eq, lon_eq]
  have : (a : K) < b := by exact_mod_cast hab
  have h2 : 0 < 360 / (g.nlon : K) := div_pos (by norm_num) h.nlon_pos
  nlinarith

theorem lon_nonneg {g : Grid K} (h : g.Valid) (i : ℕ) : 0 ≤ g.lon i := by
  rw [lon_eq]
  have := h.nlon_pos
  positivity

theorem lon_lt {g : Grid K} (h : g.Valid) {i : ℕ} (hi : i < g.nlon) : g.lon i < 360 := by
  rw [lon_eq]
  have : (i : K) < g.nlon := by exact_mod_cast hi
  have := h.nlon_pos
  rw [← mul_div_assoc, div_lt_iff₀ this]
  nlinarith

theorem lat_mem {g : Grid K} (h : g.Valid) {j : ℕ} (hj : j < g.nlat) : -90 ≤ g.lat j ∧ g.lat j ≤ 90 := by
  constructor
  · rw [← lat_last h]
    exact (lat_strictAnti h).antitone (by omega)
  · have : g.lat 0 = 90 := by rw [lat_eq h]; simp
    rw [← this]
    exact (lat_strictAnti h).antitone (by omega)

end Grid
end Barotropic
