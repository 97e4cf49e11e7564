import Verif.Lemmas.Grid
import Mathlib.Algebra.Order.Archimedean.Real.Basic

/-!
# C01–C03: grid coordinates, declared spacing, equality and hash
-/

set_option linter.unusedSectionVars false

namespace Barotropic
variable {K : Type*} [Field K] [LinearOrder K] [IsStrictOrderedRing K] [FloorRing K]

/-- C01 (acceptance): exactly the resolutions in (0, 90], positive radii and truncations `≤ nlat - 1` are accepted. -/
theorem C01_accepts (res rs om : K) (nt : Option ℕ) :
    (∃ g, Grid.make res rs om nt = .ok g) ↔
      0 < res ∧ res ≤ 90 ∧ 0 < rs ∧ (∀ n, nt = some n → n + 1 ≤ Grid.nlatOf res) := by
  constructor
  · rintro ⟨g, h⟩
    obtain ⟨hv, h1, h2, -, h4⟩ := Grid.make_ok h
    refine ⟨h1 ▸ hv.res_pos, ?_, h2 ▸ hv.rsphere_pos, ?_⟩
    · have h5 := hv.nlon_ge
      unfold Grid.nlon Grid.nlonOf at h5
      rw [h1] at h5
      have h6 : ((4 : ℕ) : K) ≤ 360 / res := (Nat.le_floor_iff' (by norm_num)).1 h5
      rw [le_div_iff₀ (h1 ▸ hv.res_pos)] at h6
      push_cast at h6
      linarith
    · intro n hn
      have h5 := hv.ntrunc_le
      have h6 := hv.nlat_ge
      unfold Grid.nlat at h5 h6
      rw [h4, hn, h1] at h5
      rw [h1] at h6
      simp only [Option.getD_some] at h5
      omega
  · rintro ⟨h1, h2, h3, h4⟩
    have h5 : 4 ≤ Grid.nlonOf res := by
      unfold Grid.nlonOf
      rw [Nat.le_floor_iff' (by norm_num), le_div_iff₀ h1]; push_cast; linarith
    have h6 : 3 ≤ Grid.nlatOf res := by
      unfold Grid.nlatOf
      have : 2 ≤ ⌊180 / res⌋₊ := by
        rw [Nat.le_floor_iff' (by norm_num), le_div_iff₀ h1]; push_cast; linarith
      omega
    unfold Grid.make
    rw [if_neg h1.ne', if_neg (not_lt.2 h1.le), if_neg (by rw [not_or, not_or]; exact
      ⟨not_le.2 h3, not_lt.2 h5, not_lt.2 h6⟩)]
    dsimp only
    rw [if_neg]
    · exact ⟨_, rfl⟩
    · cases nt with
      | none => simp
      | some n => have := h4 n rfl; simp only [Option.getD_some]; omega

/-- C01: the coordinates of every constructible grid. -/
theorem C01_grid_coordinates (res rs om : K) (nt : Option ℕ) (g : Grid K)
    (hg : Grid.make res rs om nt = .ok g) :
    -- latitudes: 90 … -90, uniformly decreasing
    (g.lat 0 = 90 ∧ g.lat (g.nlat - 1) = -90 ∧
      ∃ d > 0, ∀ j, j + 1 < g.nlat → g.lat (j + 1) = g.lat j - d) ∧
    -- longitudes: 0 …, uniformly increasing, one more step closes the circle
    (g.lon 0 = 0 ∧ (∀ i, i < g.nlon → 0 ≤ g.lon i ∧ g.lon i < 360) ∧
      ∃ d > 0, (∀ i, i + 1 < g.nlon → g.lon (i + 1) = g.lon i + d) ∧ g.lon (g.nlon - 1) + d = 360) ∧
    -- enough points for every stencil-free operation
    3 ≤ g.nlat ∧ 4 ≤ g.nlon := by
  obtain ⟨h, -⟩ := Grid.make_ok hg
  refine ⟨⟨?_, Grid.lat_last h, 180 / ((g.nlat : K) - 1), div_pos (by norm_num) h.nlatm1_pos, ?_⟩,
    ⟨?_, ?_, 360 / (g.nlon : K), div_pos (by norm_num) h.nlon_pos, ?_, ?_⟩, h.nlat_ge, h.nlon_ge⟩
  · rw [Grid.lat_eq h]; simp
  · intro j _
    rw [Grid.lat_eq h, Grid.lat_eq h]; push_cast; ring
  · rw [Grid.lon_eq]; simp
  · exact fun i hi => ⟨Grid.lon_nonneg h i, Grid.lon_lt h hi⟩
  · intro i _
    rw [Grid.lon_eq, Grid.lon_eq]; push_cast; ring
  · rw [Grid.lon_eq, Nat.cast_sub (by have := h.nlon_ge; omega)]
    have := h.nlon_pos.ne'
    field_simp
    push_cast
    ring

/-- Non-vacuity of C01: the default 2.5° grid is accepted and has shape (73, 144). -/
example : ∃ g, Grid.make (5 / 2 : ℚ) 6371200 (7292 / 10 ^ 8) none = .ok g ∧ g.shape = (73, 144) := by
  refine ⟨⟨5 / 2, 6371200, 7292 / 10 ^ 8, 72⟩, ?_, ?_⟩
  · have h1 : Grid.nlonOf (5 / 2 : ℚ) = 144 := by unfold Grid.nlonOf; norm_num
    have h2 : Grid.nlatOf (5 / 2 : ℚ) = 73 := by unfold Grid.nlatOf; norm_num
    unfold Grid.make
    simp only [h1, h2]; norm_num
  · have h1 : Grid.nlonOf (5 / 2 : ℚ) = 144 := by unfold Grid.nlonOf; norm_num
    have h2 : Grid.nlatOf (5 / 2 : ℚ) = 73 := by unfold Grid.nlatOf; norm_num
    simp [Grid.shape, Grid.nlat, Grid.nlon, h1, h2]

/-! ## C02 -/

/-- C02, the true part: the declared spacing is the actual spacing iff the resolution divides 360° (longitude),
180° (latitude). Missing: the unconditional statement, refuted below. -/
theorem C02_spacing_partial (res rs om : K) (nt : Option ℕ) (g : Grid K)
    (hg : Grid.make res rs om nt = .ok g) :
    ((∀ i, i + 1 < g.nlon → g.lon (i + 1) - g.lon i = g.dlon) ↔ ∃ n : ℕ, n * res = 360) ∧
    ((∀ j, j + 1 < g.nlat → g.lat (j + 1) - g.lat j = g.dlat) ↔ ∃ n : ℕ, n * res = 180) := by
  obtain ⟨h, h1, -⟩ := Grid.make_ok hg
  have hr := h.res_pos
  rw [h1] at hr
  unfold Grid.dlon Grid.dlat
  rw [h1]
  constructor
  · constructor
    · intro hs
      have h0 := hs 0 (by have := h.nlon_ge; omega)
      refine ⟨g.nlon, ?_⟩
      rw [Grid.lon_eq, Grid.lon_eq] at h0
      have := h.nlon_pos.ne'
      rw [← h0]
      push_cast
      field_simp
      ring
    · rintro ⟨n, hn⟩ i _
      have : g.nlon = n := by
        unfold Grid.nlon Grid.nlonOf
        rw [h1, ← hn, mul_div_assoc, div_self hr.ne', mul_one, Nat.floor_natCast]
      have h2 := h.nlon_pos
      rw [this] at h2
      rw [Grid.lon_eq, Grid.lon_eq, this, ← hn]
      push_cast
      field_simp
      ring
  · constructor
    · intro hs
      have h0 := hs 0 (by have := h.nlat_ge; omega)
      refine ⟨g.nlat - 1, ?_⟩
      rw [Grid.lat_eq h, Grid.lat_eq h] at h0
      have h3 := h.nlatm1_pos.ne'
      have h4 : res = 180 / ((g.nlat : K) - 1) := by push_cast at h0; linarith
      rw [h4, Nat.cast_sub (by have := h.nlat_ge; omega)]
      push_cast
      field_simp
    · rintro ⟨n, hn⟩ j _
      have : g.nlat = n + 1 := by
        unfold Grid.nlat Grid.nlatOf
        rw [h1, ← hn, mul_div_assoc, div_self hr.ne', mul_one, Nat.floor_natCast]
      have h2 := h.nlatm1_pos
      rw [this] at h2
      push_cast at h2
      have h5 : (n : K) ≠ 0 := by intro h6; rw [h6] at h2; simp at h2
      rw [Grid.lat_eq h, Grid.lat_eq h, this, ← hn]
      push_cast
      field_simp
      ring

/-- C02 refuted: `Grid(7.)` is accepted but its longitudes are 360/51° apart, not `dlon` = 7°, and its latitudes
180/25° = 7.2° apart. -/
theorem C02_spacing_refuted :
    ∃ g : Grid ℝ, Grid.make 7 6371200 0 none = .ok g ∧
      g.lon 1 - g.lon 0 ≠ g.dlon ∧ g.lat 1 - g.lat 0 ≠ g.dlat := by
  have h1 : Grid.nlonOf (7 : ℝ) = 51 := by
    unfold Grid.nlonOf; rw [Nat.floor_eq_iff (by norm_num)]; constructor <;> norm_num
  have h2 : Grid.nlatOf (7 : ℝ) = 26 := by
    have : ⌊180 / (7 : ℝ)⌋₊ = 25 := by rw [Nat.floor_eq_iff (by norm_num)]; constructor <;> norm_num
    unfold Grid.nlatOf; rw [this]
  refine ⟨⟨7, 6371200, 0, 25⟩, ?_, ?_, ?_⟩
  · unfold Grid.make; simp only [h1, h2]; norm_num
  · unfold Grid.lon linspaceOpen Grid.nlon Grid.dlon; simp only [h1]; norm_num
  · unfold Grid.lat linspace Grid.nlat Grid.dlat; simp only [h2]; norm_num

/-! ## C03 -/

/-- C03, the true part: equality is reflexive, equal grids share shape, truncation and all coordinates, and for
grids with the same radius and angular velocity it is symmetric, transitive and agrees with the hash.
Missing: everything refuted below. -/
theorem C03_equality_partial (g h k : Grid K) :
    g.eq g ∧
    (g.eq h → g.shape = h.shape ∧ g.ntrunc = h.ntrunc ∧ (∀ i, g.lon i = h.lon i) ∧ (∀ j, g.lat j = h.lat j)) ∧
    (g.rsphere = h.rsphere → g.omega = h.omega → g.eq h →
      h.eq g ∧ (h.eq k → g.eq k) ∧ ∀ hashFn, g.hash hashFn = h.hash hashFn) := by
  have key : ∀ x : K, isclose x x := fun x => by
    unfold isclose; simp only [sub_self, abs_zero]; positivity
  refine ⟨⟨rfl, key _, key _, rfl⟩, ?_, ?_⟩
  · rintro ⟨h1, -, -, h4⟩
    have h5 : g.nlat = h.nlat := congrArg Prod.fst h1
    have h6 : g.nlon = h.nlon := congrArg Prod.snd h1
    refine ⟨h1, h4, ?_, ?_⟩
    · intro i; unfold Grid.lon; rw [h6]
    · intro j; unfold Grid.lat; rw [h5]
  · intro hr ho he
    refine ⟨⟨he.1.symm, hr ▸ key _, ho ▸ key _, he.2.2.2.symm⟩, ?_, ?_⟩
    · intro hk
      exact ⟨he.1.trans hk.1, hr ▸ hk.2.1, ho ▸ hk.2.2.1, he.2.2.2.trans hk.2.2.2⟩
    · intro f
      unfold Grid.hash Grid.hashKey
      rw [he.1, hr, ho, he.2.2.2]

/-- C03 refuted: grids accepted by the constructor for which equality is not symmetric; not transitive; holds
although the hashed tuples differ (so the hashes differ for every injective hash); holds with equal hash although
the declared spacings, on which quadrature and derivatives depend, differ. -/
theorem C03_equality_refuted :
    (∃ g h : Grid ℚ, g.Valid ∧ h.Valid ∧ g.eq h ∧ ¬ h.eq g) ∧
    (∃ g h k : Grid ℚ, g.Valid ∧ h.Valid ∧ k.Valid ∧ g.eq h ∧ h.eq k ∧ ¬ g.eq k) ∧
    (∃ g h : Grid ℚ, g.Valid ∧ h.Valid ∧ g.eq h ∧ ∀ f, Function.Injective f → g.hash f ≠ h.hash f) ∧
    (∃ g h : Grid ℚ, g.Valid ∧ h.Valid ∧ g.eq h ∧ (∀ f, g.hash f = h.hash f) ∧ g.dlon ≠ h.dlon) := by
  have n10 : Grid.nlonOf (10 : ℚ) = 36 := by unfold Grid.nlonOf; norm_num
  have m10 : Grid.nlatOf (10 : ℚ) = 19 := by unfold Grid.nlatOf; norm_num
  have n7 : Grid.nlonOf (7 : ℚ) = 51 := by
    unfold Grid.nlonOf; rw [Nat.floor_eq_iff (by norm_num)]; constructor <;> norm_num
  have m7 : Grid.nlatOf (7 : ℚ) = 26 := by
    have : ⌊180 / (7 : ℚ)⌋₊ = 25 := by rw [Nat.floor_eq_iff (by norm_num)]; constructor <;> norm_num
    unfold Grid.nlatOf; rw [this]
  have n8 : Grid.nlonOf (705 / 100 : ℚ) = 51 := by
    unfold Grid.nlonOf; rw [Nat.floor_eq_iff (by norm_num)]; constructor <;> norm_num
  have m8 : Grid.nlatOf (705 / 100 : ℚ) = 26 := by
    have : ⌊180 / (705 / 100 : ℚ)⌋₊ = 25 := by
      rw [Nat.floor_eq_iff (by norm_num)]; constructor <;> norm_num
    unfold Grid.nlatOf; rw [this]
  have v10 : ∀ r : ℚ, 0 < r → (⟨10, r, 0, 18⟩ : Grid ℚ).Valid := fun r hr =>
    ⟨by norm_num, hr, by simp [Grid.nlon, n10], by simp [Grid.nlat, m10], by simp [Grid.nlat, m10]⟩
  refine ⟨⟨⟨10, 1000000, 0, 18⟩, ⟨10, 1000010 + 5 / 100000, 0, 18⟩, v10 _ (by norm_num), v10 _ (by norm_num), ?_, ?_⟩,
    ⟨⟨10, 1000000, 0, 18⟩, ⟨10, 1000006, 0, 18⟩, ⟨10, 1000012, 0, 18⟩, v10 _ (by norm_num), v10 _ (by norm_num),
      v10 _ (by norm_num), ?_, ?_, ?_⟩,
    ⟨⟨10, 1000000, 0, 18⟩, ⟨10, 1000006, 0, 18⟩, v10 _ (by norm_num), v10 _ (by norm_num), ?_, ?_⟩,
    ⟨⟨7, 1000, 0, 25⟩, ⟨705 / 100, 1000, 0, 25⟩,
      ⟨by norm_num, by norm_num, by simp [Grid.nlon, n7], by simp [Grid.nlat, m7], by simp [Grid.nlat, m7]⟩,
      ⟨by norm_num, by norm_num, by simp [Grid.nlon, n8], by simp [Grid.nlat, m8], by simp [Grid.nlat, m8]⟩,
      ?_, ?_, ?_⟩⟩
  · refine ⟨rfl, ?_, ?_, rfl⟩ <;> · unfold isclose; norm_num [abs]
  · rintro ⟨-, h, -⟩; revert h; unfold isclose; norm_num [abs]
  · refine ⟨rfl, ?_, ?_, rfl⟩ <;> · unfold isclose; norm_num [abs]
  · refine ⟨rfl, ?_, ?_, rfl⟩ <;> · unfold isclose; norm_num [abs]
  · rintro ⟨-, h, -⟩; revert h; unfold isclose; norm_num [abs]
  · refine ⟨rfl, ?_, ?_, rfl⟩ <;> · unfold isclose; norm_num [abs]
  · intro f hf h
    have := hf h
    simp [Grid.hashKey] at this
  · refine ⟨?_, ?_, ?_, rfl⟩
    · simp [Grid.shape, Grid.nlat, Grid.nlon, n7, m7, n8, m8]
    · unfold isclose; norm_num [abs]
    · unfold isclose; norm_num [abs]
  · intro f
    simp [Grid.hash, Grid.hashKey, Grid.shape, Grid.nlat, Grid.nlon, n7, m7, n8, m8]
  · simp [Grid.dlon]; norm_num

end Barotropic
