import Verif.Lemmas.IoCoords
import Verif.Props.Grid
import Mathlib.Data.Rat.Floor

/-!
# C70 Coordinates that `from_dataset` accepts
-/

set_option linter.unusedSectionVars false

namespace Barotropic
open Io
variable {K : Type*} [Field K] [LinearOrder K] [IsStrictOrderedRing K] [FloorRing K]

/-- The coordinates are accepted iff longitudes and latitudes are regular within the tolerances, and the grid is the one with the
first spacing of longitudes as resolution. -/
theorem C70_accepts (lon lat : List K) (rs om : K) (nt : Option ℕ) (g : Grid K) : gridFromCoords lon lat rs om nt = .ok g ↔
    LonOk lon (lon.getD 1 0 - lon.getD 0 0) ∧ LatOk lat lon.length (lon.getD 1 0 - lon.getD 0 0) ∧
      Grid.make (lon.getD 1 0 - lon.getD 0 0) rs om nt = .ok g := by
  unfold gridFromCoords
  cases h1 : checkLon lon with
  | error e =>
    refine ⟨fun h => (by cases h), fun h => ?_⟩
    rw [(checkLon_ok _ _).mpr h.1] at h1
    cases h1
  | ok d =>
    have hl := (checkLon_ok _ _).mp h1
    rw [← hl.first]
    dsimp only
    cases h2 : checkLat lon.length d lat with
    | error e =>
      refine ⟨fun h => (by cases h), fun h => ?_⟩
      rw [(checkLat_ok _ _ hl.two _).mpr h.2.1] at h2
      cases h2
    | ok u =>
      exact ⟨fun h => ⟨hl, (checkLat_ok _ _ hl.two _).mp h2, h⟩, fun h => h.2.2⟩

/-- Other coordinates raise, with AssertionError unless there is only one longitude (IndexError) or the grid cannot be constructed. -/
theorem C70_rejects (lon lat : List K) (rs om : K) (nt : Option ℕ) :
    ((∀ d, ¬ LonOk lon d) → ∃ e, gridFromCoords lon lat rs om nt = .error e ∧ (e = .assertionError ∨ e = .indexError)) ∧
    (∀ d, LonOk lon d → ¬ LatOk lat lon.length d → ∃ e, gridFromCoords lon lat rs om nt = .error e ∧
      (e = .assertionError ∨ e = .indexError)) ∧
    (∀ i, i + 1 < lon.length → lon.getD (i + 1) 0 < lon.getD i 0 → 1 / 10 ^ 4 < lon.getD 1 0 - lon.getD 0 0 →
      ∃ e, gridFromCoords lon lat rs om nt = .error e) ∧
    (lon.getD 1 0 ≤ lon.getD 0 0 → ∃ e, gridFromCoords lon lat rs om nt = .error e) ∧
    (lat.getD 0 0 ≤ lat.getD 1 0 → ∃ e, gridFromCoords lon lat rs om nt = .error e) := by
  have hex : (∀ g, gridFromCoords lon lat rs om nt ≠ .ok g) → ∃ e, gridFromCoords lon lat rs om nt = .error e := by
    intro h
    cases hc : gridFromCoords lon lat rs om nt with
    | error e => exact ⟨e, rfl⟩
    | ok g => exact absurd hc (h g)
  refine ⟨fun h => ?_, fun d hd h => ?_, fun i hi h1 h2 => hex fun g hg => ?_, fun h => hex fun g hg => ?_, fun h => hex fun g hg => ?_⟩
  · unfold gridFromCoords
    cases h1 : checkLon lon with
    | error e => exact ⟨e, rfl, checkLon_error lon e h1⟩
    | ok d => exact absurd ((checkLon_ok _ _).mp h1) (h d)
  · unfold gridFromCoords
    rw [(checkLon_ok _ _).mpr hd]
    dsimp only
    cases h2 : checkLat lon.length d lat with
    | error e => exact ⟨e, rfl, checkLat_error lat _ _ e h2⟩
    | ok u => exact absurd ((checkLat_ok _ _ hd.two _).mp h2) h
  · have hl := ((C70_accepts _ _ _ _ _ _).mp hg).1
    have := spacing_close (hl.spacing i hi)
    rw [abs_of_pos hl.pos, abs_le] at this
    linarith [this.1]
  · have := ((C70_accepts _ _ _ _ _ _).mp hg).1.pos
    linarith
  · have := ((C70_accepts _ _ _ _ _ _).mp hg).2.1.neg
    linarith

/-- The shape of the grid is that of the dataset, or there is one longitude or latitude less. -/
theorem C70_shape_partial (lon lat : List K) (rs om : K) (nt : Option ℕ) (g : Grid K) (hg : gridFromCoords lon lat rs om nt = .ok g)
    (hn : lon.length ≤ 40000) :
    (g.nlon = lon.length ∨ g.nlon + 1 = lon.length) ∧ (g.nlat = lat.length ∨ g.nlat + 1 = lat.length) ∧
    (g.nlon = lon.length ↔ lon.length * (lon.getD 1 0 - lon.getD 0 0) ≤ 360) ∧
    (lon.length * (lon.getD 1 0 - lon.getD 0 0) ≤ 360 → g.nlat = lat.length) := by
  obtain ⟨hl, ht, hm⟩ := (C70_accepts _ _ _ _ _ _).mp hg
  obtain ⟨hv, hres, -⟩ := Grid.make_ok hm
  have hd := hl.pos
  generalize lon.getD 1 0 - lon.getD 0 0 = d at *
  have hd90 : d ≤ 90 := ((C01_accepts _ _ _ _).mp ⟨g, hm⟩).2.1
  have htot := lon_total hl (by linarith)
  have hn2 := hl.two
  have hnum := ht.number
  generalize hN : lon.length = n at *
  generalize lat.length = m at *
  have hn' : (n : K) ≤ 40000 := by exact_mod_cast hn
  have hn2' : (2 : K) ≤ n := by exact_mod_cast hn2
  obtain ⟨hX1, hX2⟩ := near_count hn2' hn' hd htot
  have hnlon : g.nlon = ⌊360 / d⌋₊ := by unfold Grid.nlon Grid.nlonOf; rw [hres]
  have hnlat : g.nlat = ⌊180 / d⌋₊ + 1 := by unfold Grid.nlat Grid.nlatOf; rw [hres]
  have hup : g.nlon < n + 1 := by
    rw [hnlon, Nat.floor_lt (by positivity), div_lt_iff₀ hd]; push_cast; exact hX1
  have hlo : n - 1 ≤ g.nlon := by
    rw [hnlon, Nat.le_floor_iff (by positivity), le_div_iff₀ hd, Nat.cast_sub (by omega)]
    push_cast; exact hX2
  have hiff : g.nlon = n ↔ (n : K) * d ≤ 360 := by
    rw [← le_div_iff₀ hd, ← Nat.le_floor_iff (by positivity), ← hnlon]
    omega
  have h2 : ((2 * (n / 2 : ℕ) : ℕ) : K) ≤ n := by exact_mod_cast Nat.mul_div_le n 2
  have h3 : (n : K) < ((2 * (n / 2 : ℕ) + 2 : ℕ) : K) := by exact_mod_cast (by omega : n < 2 * (n / 2) + 2)
  have h3' : (n : K) + 1 ≤ ((2 * (n / 2 : ℕ) + 2 : ℕ) : K) := by exact_mod_cast (by omega : n + 1 ≤ 2 * (n / 2) + 2)
  push_cast at h2 h3 h3'
  have hlat_up : ⌊180 / d⌋₊ < n / 2 + 1 := by
    rw [Nat.floor_lt (by positivity), div_lt_iff₀ hd]
    push_cast
    nlinarith
  have hlat_lo : n / 2 - 1 ≤ ⌊180 / d⌋₊ := by
    rw [Nat.le_floor_iff (by positivity), le_div_iff₀ hd, Nat.cast_sub (by omega)]
    push_cast
    nlinarith
  refine ⟨by omega, by omega, hiff, fun hc => ?_⟩
  have : n / 2 ≤ ⌊180 / d⌋₊ := by
    rw [Nat.le_floor_iff (by positivity), le_div_iff₀ hd]
    nlinarith
  omega

/-- If the shapes agree and the number of longitudes is even, the coordinates agree up to 0.02 degrees and the positions of the
first longitude and the first latitude, which are not checked (see `C70_offset_refuted`). -/
theorem C70_coords_partial (lon lat : List K) (rs om : K) (nt : Option ℕ) (g : Grid K) (hg : gridFromCoords lon lat rs om nt = .ok g)
    (hn : lon.length ≤ 40000) (hlon : g.nlon = lon.length) (hlat : g.nlat = lat.length) (heven : 2 ∣ lon.length) :
    (∀ i < g.nlon, |lon.getD i 0 - lon.getD 0 0 - g.lon i| ≤ 2 / 100) ∧
    (∀ j < g.nlat, |(lat.getD j 0 - lat.getD 0 0) - (g.lat j - 90)| ≤ 2 / 100) := by
  obtain ⟨hl, ht, hm⟩ := (C70_accepts _ _ _ _ _ _).mp hg
  obtain ⟨hv, hres, -⟩ := Grid.make_ok hm
  have hd := hl.pos
  generalize lon.getD 1 0 - lon.getD 0 0 = d at *
  have hd90 : d ≤ 90 := ((C01_accepts _ _ _ _).mp ⟨g, hm⟩).2.1
  have htot := lon_total hl (by linarith)
  have hn2 := hl.two
  have hn' : (lon.length : K) ≤ 40000 := by exact_mod_cast hn
  have hn2' : (2 : K) ≤ lon.length := by exact_mod_cast hn2
  have htot' : |(lon.length : K) * d - 360| ≤ 88 / 10 ^ 4 := htot.trans (by linarith)
  -- distance of an equally spaced coordinate from that with spacing 360/n
  have hfrac : ∀ i : K, 0 ≤ i → i ≤ lon.length → |i * d - i * (360 / lon.length)| ≤ 88 / 10 ^ 4 := by
    intro i h0 h1
    have e : i * d - i * (360 / lon.length) = i / lon.length * (lon.length * d - 360) := by
      field_simp
    rw [e, abs_mul, abs_of_nonneg (div_nonneg h0 (by linarith))]
    have : i / lon.length ≤ 1 := (div_le_one (by linarith)).mpr h1
    calc i / lon.length * |(lon.length : K) * d - 360| ≤ 1 * |(lon.length : K) * d - 360| :=
          mul_le_mul_of_nonneg_right this (abs_nonneg _)
      _ ≤ _ := by rw [one_mul]; exact htot'
  rw [abs_le] at htot'
  have hnd : (lon.length : K) * d ≤ 361 := by linarith [htot'.2]
  constructor
  · intro i hi
    rw [hlon] at hi
    have h1 := regular_dev hl.toRegular i hi
    have hi' : (i : K) ≤ lon.length := by exact_mod_cast hi.le
    have hi0 : (0 : K) ≤ i := Nat.cast_nonneg _
    have h2 := hfrac i hi0 hi'
    have hid : (i : K) * d ≤ 361 := (mul_le_mul_of_nonneg_right hi' hd.le).trans hnd
    rw [abs_of_pos hd] at h1
    have e : g.lon i = i * (360 / lon.length) := by
      unfold Grid.lon linspaceOpen
      rw [hlon]; ring
    rw [e]
    have := abs_add_le (lon.getD i 0 - lon.getD 0 0 - i * d) (i * d - i * (360 / lon.length))
    rw [show lon.getD i 0 - lon.getD 0 0 - (i : K) * d + (i * d - i * (360 / lon.length)) =
      lon.getD i 0 - lon.getD 0 0 - i * (360 / lon.length) by ring] at this
    have h3 : (i : K) * (2 / 10 ^ 8 + 101 / 10 ^ 7 * d) ≤ 50 / 10 ^ 4 := by nlinarith
    linarith
  · intro j hj
    rw [hlat] at hj
    have h1 := regular_dev ht.regular j hj
    have hs := ht.same
    have hnum := ht.number
    generalize hd' : lat.getD 1 0 - lat.getD 0 0 = d' at *
    rw [abs_neg, abs_of_pos hd] at hs
    obtain ⟨m, hm2⟩ := heven
    have hjm : j ≤ m := by omega
    have hmK : (lon.length : K) = 2 * m := by rw [hm2]; push_cast; ring
    have hj' : (j : K) ≤ lon.length := by
      have : (j : K) ≤ m := by exact_mod_cast hjm
      have h0 : (0 : K) ≤ m := Nat.cast_nonneg _
      linarith
    have hj0 : (0 : K) ≤ j := Nat.cast_nonneg _
    have hjd : (j : K) * d ≤ 361 := (mul_le_mul_of_nonneg_right hj' hd.le).trans hnd
    have h2 := hfrac j hj0 hj'
    have hd'abs : |d'| ≤ 1 / 10 ^ 8 + (1 + 1 / 10 ^ 5) * d := by
      have := abs_add_le (d' - -d) (-d)
      rw [sub_add_cancel, abs_neg, abs_of_pos hd] at this
      linarith
    have e : g.lat j = 90 - j * (360 / lon.length) := by
      rw [Grid.lat_eq hv, hlat, hnum, hmK, hm2]
      have : (m : K) ≠ 0 := by
        have : 0 < m := by omega
        exact_mod_cast this.ne'
      have e2 : 2 * m / 2 = m := by omega
      rw [e2]
      push_cast
      rw [add_sub_cancel_right]
      have e3 : (360 : K) / (2 * m) = 180 / m := by
        rw [div_eq_div_iff (mul_ne_zero two_ne_zero this) this]; ring
      rw [e3]
    rw [e]
    have h4 : |(j : K) * d' + j * d| ≤ 50 / 10 ^ 4 := by
      rw [← mul_add, abs_mul, abs_of_nonneg hj0]
      rw [sub_neg_eq_add] at hs
      calc (j : K) * |d' + d| ≤ j * (1 / 10 ^ 8 + 1 / 10 ^ 5 * d) := mul_le_mul_of_nonneg_left hs hj0
        _ ≤ _ := by nlinarith
    have h3 : (j : K) * (2 / 10 ^ 8 + 101 / 10 ^ 7 * |d'|) ≤ 51 / 10 ^ 4 := by
      have : (j : K) * |d'| ≤ j * (1 / 10 ^ 8 + (1 + 1 / 10 ^ 5) * d) := mul_le_mul_of_nonneg_left hd'abs hj0
      nlinarith
    have h5 := h1.trans h3
    rw [abs_le] at h2 h4 h5 ⊢
    constructor
    · linarith [h2.1, h2.2, h4.1, h4.2, h5.1, h5.2]
    · linarith [h2.1, h2.2, h4.1, h4.2, h5.1, h5.2]

/-- The coordinates of a regular grid are accepted and give the same grid. -/
theorem C70_own_grid (g : Grid K) (hv : g.Valid) (hsp : g.resolution * g.nlon = 360) (heven : 2 ∣ g.nlon) :
    gridFromCoords ((List.range g.nlon).map fun i => g.lon i) ((List.range g.nlat).map fun j => g.lat j) g.rsphere g.omega
      (some g.ntrunc) = .ok g := by
  have hpos := hv.res_pos
  have hn4 := hv.nlon_ge
  obtain ⟨m, hm⟩ := heven
  have hnlat : g.nlat = m + 1 := by
    unfold Grid.nlat Grid.nlatOf
    congr 1
    have : (180 : K) / g.resolution = m := by
      rw [div_eq_iff hpos.ne']
      rw [hm] at hsp; push_cast at hsp; linarith
    rw [this, Nat.floor_natCast]
  have hnlonK : (0 : K) < g.nlon := hv.nlon_pos
  have hlon : ∀ i : ℕ, g.lon i = i * g.resolution := by
    intro i
    unfold Grid.lon linspaceOpen
    rw [sub_zero, zero_add, ← hsp, mul_div_assoc, div_self hnlonK.ne', mul_one]
  have hlat : ∀ j : ℕ, g.lat j = 90 - j * g.resolution := by
    intro j
    rw [Grid.lat_eq hv, hnlat]
    have hmK : (m : K) ≠ 0 := by have : 0 < m := by omega
                                 exact_mod_cast this.ne'
    have : (180 : K) = g.resolution * m := by rw [hm] at hsp; push_cast at hsp; linarith
    rw [this]
    push_cast
    rw [add_sub_cancel_right]
    field_simp
  have gLon : ∀ i < g.nlon, ((List.range g.nlon).map fun i : ℕ => g.lon i).getD i 0 = i * g.resolution := by
    intro i hi
    rw [List.getD_eq_getElem?_getD, List.getElem?_map, List.getElem?_range hi]
    simp [hlon]
  have gLat : ∀ j < g.nlat, ((List.range g.nlat).map fun j : ℕ => g.lat j).getD j 0 = 90 - j * g.resolution := by
    intro i hi
    rw [List.getD_eq_getElem?_getD, List.getElem?_map, List.getElem?_range hi]
    simp [hlat]
  have hd : ((List.range g.nlon).map fun i : ℕ => g.lon i).getD 1 0 - ((List.range g.nlon).map fun i : ℕ => g.lon i).getD 0 0 =
      g.resolution := by rw [gLon 1 (by omega), gLon 0 (by omega)]; simp
  have hd' : ((List.range g.nlat).map fun i : ℕ => g.lat i).getD 1 0 - ((List.range g.nlat).map fun i : ℕ => g.lat i).getD 0 0 =
      -g.resolution := by rw [gLat 1 (by omega), gLat 0 (by omega)]; simp
  have hz : ∀ x : K, |x - x| ≤ 1 / 10 ^ 8 + 1 / 10 ^ 5 * |x| := by
    intro x
    rw [sub_self, abs_zero]
    have := abs_nonneg x
    positivity
  rw [C70_accepts, hd]
  refine ⟨⟨⟨by simp; omega, hd.symm, fun i hi => ?_⟩, hpos, ?_⟩, ⟨⟨by simp; omega, rfl, fun i hi => ?_⟩, ?_, ?_, ?_⟩,
    Grid.make_of_valid hv⟩
  · simp only [List.length_map, List.length_range] at hi
    rw [gLon i (by omega), gLon (i + 1) hi]
    have : ((i + 1 : ℕ) : K) * g.resolution - i * g.resolution = g.resolution := by push_cast; ring
    rw [this]; exact hz _
  · simp only [List.length_map, List.length_range]
    rw [gLon _ (by omega), gLon 0 (by omega), Nat.cast_sub (by omega)]
    have : ((g.nlon : K) - (1 : ℕ)) * g.resolution - (0 : ℕ) * g.resolution = 360 - g.resolution := by
      push_cast; linarith
    rw [this]; exact hz _
  · simp only [List.length_map, List.length_range] at hi
    rw [hd', gLat i (by omega), gLat (i + 1) hi]
    have : 90 - ((i + 1 : ℕ) : K) * g.resolution - (90 - i * g.resolution) = -g.resolution := by push_cast; ring
    rw [this]; exact hz _
  · simp only [List.length_map, List.length_range]; omega
  · rw [hd']; linarith
  · rw [hd']; exact hz _

/-! ### Where the property fails -/

deriving instance DecidableEq for Grid

/-- Spacing slightly greater than 360/n at the first longitude: the grid has one longitude less than the dataset (5 instead of 6)
and one latitude less. -/
theorem C70_shape_refuted : ∃ g : Grid ℚ, gridFromCoords [0, 600001 / 10000, 120, 180, 240, 300] [90, 30, -30, -90] 1 1 none = .ok g ∧
    g.nlon = 5 ∧ g.nlat = 3 :=
  ⟨⟨600001 / 10000, 1, 1, 2⟩, by decide +kernel, by decide +kernel, by decide +kernel⟩

/-- The first longitude and latitude are arbitrary: here the dataset starts at 180°W and at 100°N. -/
theorem C70_offset_refuted : ∃ g : Grid ℚ, gridFromCoords [-180, -90, 0, 90] [100, 10, -80] 1 1 none = .ok g ∧
    g.lon 0 = 0 ∧ g.lat 0 = 90 :=
  ⟨⟨90, 1, 1, 2⟩, by decide +kernel, by decide +kernel, by decide +kernel⟩

/-- Odd number of longitudes: the latitudes of the grid are 90, 0, -90, those of the dataset 90, 18, -54. -/
theorem C70_odd_refuted : ∃ g : Grid ℚ, gridFromCoords [0, 72, 144, 216, 288] [90, 18, -54] 1 1 none = .ok g ∧
    g.nlon = 5 ∧ g.nlat = 3 ∧ g.lat 1 = 0 ∧ g.lat 2 = -90 :=
  ⟨⟨72, 1, 1, 2⟩, by decide +kernel, by decide +kernel, by decide +kernel, by decide +kernel, by decide +kernel⟩

/-- Non-vacuity: an accepted and some rejected datasets -/
example : (∃ g : Grid ℚ, gridFromCoords [0, 60, 120, 180, 240, 300] [90, 30, -30, -90] 1 1 none = .ok g) ∧
    gridFromCoords [300, 240, 180, 120, 60, 0] [(90 : ℚ), 30, -30, -90] 1 1 none = .error .assertionError ∧
    gridFromCoords [0, 60, 120, 180, 240, 300] [(-90 : ℚ), -30, 30, 90] 1 1 none = .error .assertionError ∧
    gridFromCoords [0, 60, 120, 180] [(90 : ℚ), 30, -30] 1 1 none = .error .assertionError :=
  ⟨⟨⟨60, 1, 1, 3⟩, by decide +kernel⟩, by decide +kernel, by decide +kernel, by decide +kernel⟩

end Barotropic
