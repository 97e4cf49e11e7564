import Verif.Spec.Plot
import Verif.Lemmas.Region
import Verif.Lemmas.Filter
import Mathlib.Data.Rat.Floor

/-!
# Formatting of times and regions (C78, C81)
-/

set_option linter.unusedSectionVars false

namespace Barotropic
open Plot
variable {K : Type*} [Field K] [LinearOrder K] [IsStrictOrderedRing K] [FloorRing K]

/-! ### C78 -/

/-- C78: the four cases -/
theorem timeUnit_cases (t : K) : (t ≤ 120 ∧ timeUnit t = (t, "s")) ∨ (120 < t ∧ t ≤ 7200 ∧ timeUnit t = (t / 60, "min")) ∨
    (7200 < t ∧ t ≤ 864000 ∧ timeUnit t = (t / 60 / 60, "h")) ∨ (864000 < t ∧ timeUnit t = (t / 60 / 60 / 24, "d")) := by
  have e1 : (120 : K) < t / 60 ↔ 7200 < t := by rw [lt_div_iff₀ (by norm_num)]; norm_num
  have e2 : (240 : K) < t / 60 / 60 ↔ 864000 < t := by rw [lt_div_iff₀ (by norm_num), lt_div_iff₀ (by norm_num)]; norm_num
  have e3 : (240 : K) < t / 60 ↔ 14400 < t := by rw [lt_div_iff₀ (by norm_num)]; norm_num
  unfold timeUnit
  dsimp only
  by_cases h1 : 120 < t
  · right
    simp only [if_pos h1, e1]
    by_cases h2 : 7200 < t
    · right
      simp only [if_pos h2, e2]
      by_cases h3 : 864000 < t
      · right; simp [h3]
      · left; simp [h3, h2, not_lt.mp h3]
    · left
      simp only [if_neg h2, e3]
      rw [if_neg (by linarith [not_lt.mp h2])]
      exact ⟨h1, not_lt.mp h2, rfl⟩
  · left
    simp only [if_neg h1]
    rw [if_neg (by linarith [not_lt.mp h1])]
    exact ⟨not_lt.mp h1, rfl⟩

/-- C78: the number times the length of the unit is the time. -/
theorem C78_value (t : K) : (timeUnit t).1 * unitSeconds (timeUnit t).2 = t := by
  rcases timeUnit_cases t with ⟨_, h⟩ | ⟨_, _, h⟩ | ⟨_, _, h⟩ | ⟨_, h⟩ <;> rw [h] <;> simp [unitSeconds] <;> field_simp
  · norm_num
  · norm_num

/-- C78: the number does not exceed 240 (120 for seconds and minutes) unless the unit is days, and units larger than seconds are used
for numbers larger than 2 only. -/
theorem C78_range (t : K) : ((timeUnit t).2 = "s" ∧ (timeUnit t).1 ≤ 120) ∨ ((timeUnit t).2 = "min" ∧ 2 < (timeUnit t).1 ∧ (timeUnit t).1 ≤ 120) ∨
    ((timeUnit t).2 = "h" ∧ 2 < (timeUnit t).1 ∧ (timeUnit t).1 ≤ 240) ∨ ((timeUnit t).2 = "d" ∧ 10 < (timeUnit t).1) := by
  rcases timeUnit_cases t with ⟨h1, h⟩ | ⟨h1, h2, h⟩ | ⟨h1, h2, h⟩ | ⟨h1, h⟩ <;> rw [h]
  · exact .inl ⟨rfl, h1⟩
  · exact .inr (.inl ⟨rfl, by rw [lt_div_iff₀ (by norm_num)]; linarith, by rw [div_le_iff₀ (by norm_num)]; linarith⟩)
  · exact .inr (.inr (.inl ⟨rfl, by rw [lt_div_iff₀ (by norm_num), lt_div_iff₀ (by norm_num)]; linarith,
      by rw [div_le_iff₀ (by norm_num), div_le_iff₀ (by norm_num)]; linarith⟩))
  · exact .inr (.inr (.inr ⟨rfl, by rw [lt_div_iff₀ (by norm_num), lt_div_iff₀ (by norm_num), lt_div_iff₀ (by norm_num)]; linarith⟩))

/-- C78: what is shown for a number differs from it by at most a twentieth of the unit. -/
theorem C78_shown (t : K) : ∃ k unit, formatTime (.number t) = .ok (.numeric k unit) ∧ unit ∈ ["s", "min", "h", "d"] ∧
    |(k : K) / 10 * unitSeconds unit - t| ≤ unitSeconds unit / 20 := by
  refine ⟨_, _, rfl, ?_, ?_⟩
  · rcases timeUnit_cases t with ⟨_, h⟩ | ⟨_, _, h⟩ | ⟨_, _, h⟩ | ⟨_, h⟩ <;> rw [h] <;> simp
  · have hv := C78_value t
    have hp : (0 : K) < unitSeconds (timeUnit t).2 := by
      unfold unitSeconds; split_ifs <;> norm_num
    have hr := (pyRound_spec (10 * (timeUnit t).1)).1
    change |((pyRound (10 * (timeUnit t).1) : ℤ) : K) / 10 * unitSeconds (timeUnit t).2 - t| ≤ unitSeconds (timeUnit t).2 / 20
    generalize unitSeconds (K := K) (timeUnit t).2 = c at *
    generalize (timeUnit t).1 = x at *
    rw [← hv]
    generalize pyRound (10 * x) = k at *
    rw [show (k : K) / 10 * c - x * c = -((10 * x - k) * (c / 10)) by ring, abs_neg, abs_mul, abs_of_pos (by positivity : 0 < c / 10)]
    nlinarith [abs_nonneg (10 * x - (k : K))]

/-- C78: objects with a calendar date are shown in ISO format. -/
theorem C78_datetime (us : ℤ) : formatTime (K := K) (.datetime us) = .ok (.iso us) := rfl

/-- C78: negative times are always shown in seconds, unlike positive times of the same size. -/
theorem C78_negative_refuted (t : K) (ht : t ≤ 0) : timeUnit t = (t, "s") := by
  rcases timeUnit_cases t with ⟨h1, h⟩ | ⟨h1, _⟩ | ⟨h1, _⟩ | ⟨h1, _⟩
  · exact h
  all_goals linarith

/-- C78: times that are arrays without dimensions (as in states made by `from_dataset`) cannot be formatted, hence the `repr` of such a
state and all figures with the time in the title fail. -/
theorem C78_array_refuted (t : K) : formatTime (.array0 t) = .error .attributeError := rfl

example : formatTime (.number (86400 : ℚ)) = .ok (.numeric 240 "h") := by decide +kernel
example : formatTime (.number (864001 : ℚ)) = .ok (.numeric 100 "d") := by decide +kernel
example : formatTime (.number (-86400 : ℚ)) = .ok (.numeric (-864000) "s") := by decide +kernel
example : formatTime (.number (150 : ℚ)) = .ok (.numeric 25 "min") := by decide +kernel

/-! ### C81 -/

theorem histPos_iff (x : List K) (lo w : K) (hw : 0 < w) (n k : ℕ) (hk : k < n) (hx : ∀ a ∈ x, lo ≤ a ∧ a ≤ lo + n * w) :
    histPos x lo (lo + n * w) n k = true ↔ ∃ a ∈ x, min ((n : ℤ) - 1) ⌊(a - lo) / w⌋ = k := by
  have hn : (0 : K) < n := by exact_mod_cast (by omega : 0 < n)
  have e : ∀ j : ℕ, linspace lo (lo + n * w) (n + 1) j = lo + j * w := by
    intro j
    unfold linspace
    rw [if_neg (by omega)]
    push_cast
    rw [add_sub_cancel_left, add_sub_cancel_right, mul_div_cancel_left₀ _ hn.ne']
  simp only [histPos, List.any_eq_true, decide_eq_true_eq, e]
  refine exists_congr fun a => and_congr_right fun ha => ?_
  obtain ⟨h1, h2⟩ := hx a ha
  have f1 := Int.floor_le ((a - lo) / w)
  have f2 := Int.lt_floor_add_one ((a - lo) / w)
  rw [le_div_iff₀ hw] at f1
  rw [div_lt_iff₀ hw] at f2
  have g1 : ∀ j : ℤ, (j : K) * w ≤ a - lo ↔ j ≤ ⌊(a - lo) / w⌋ := fun j => by rw [Int.le_floor, le_div_iff₀ hw]
  have h3 : ⌊(a - lo) / w⌋ ≤ n := by
    rw [← Int.floor_natCast (R := K) n]
    refine Int.floor_le_floor ?_
    rw [div_le_iff₀ hw]; linarith
  have i1 : lo + (k : K) * w ≤ a ↔ (k : ℤ) ≤ ⌊(a - lo) / w⌋ := by
    rw [← g1]; push_cast; constructor <;> intro h <;> linarith
  have i2 : a < lo + ((k + 1 : ℕ) : K) * w ↔ ⌊(a - lo) / w⌋ < (k + 1 : ℤ) := by
    rw [← not_le, ← not_le, ← g1]; push_cast; constructor <;> intro h h' <;> exact h (by linarith)
  have i3 : a = lo + n * w ↔ ⌊(a - lo) / w⌋ = n := by
    constructor
    · rintro rfl
      rw [add_sub_cancel_left, mul_div_cancel_right₀ _ hw.ne', Int.floor_natCast]
    · intro h
      have := (g1 n).mpr h.ge
      push_cast at this
      exact le_antisymm h2 (by linarith)
  rw [i1, i2, i3]
  omega

theorem region_lat_mem {g : Grid K} (hg : g.Valid) (r : Region g) : ∀ a ∈ r.lat, -90 ≤ a ∧ a ≤ -90 + ((9 : ℕ) : K) * 20 := by
  intro a ha
  obtain ⟨j, -, rfl⟩ := List.mem_map.mp ha
  have := Grid.lat_mem hg j.2
  push_cast
  exact ⟨this.1, by linarith [this.2]⟩

theorem region_lon_mem {g : Grid K} (hg : g.Valid) (r : Region g) : ∀ a ∈ r.lon, 0 ≤ a ∧ a ≤ 0 + ((36 : ℕ) : K) * 10 := by
  intro a ha
  obtain ⟨i, -, rfl⟩ := List.mem_map.mp ha
  have h1 := Grid.lon_lt hg i.2
  push_cast
  exact ⟨Grid.lon_nonneg hg _, by linarith⟩

/-- C81: the map has 9 rows with 36 characters, and a character is an X if and only if a gridpoint of the region is in its box: rows are 20
degrees of latitude from north to south, columns are 10 degrees of longitude. -/
theorem C81_map {g : Grid K} (hg : g.Valid) (r : Region g) (a b : ℕ) :
    ((entry (regionMap r) a b).isSome ↔ a < 9 ∧ b < 36) ∧
      (entry (regionMap r) a b = some true ↔ ∃ φ ∈ r.lat, ∃ l ∈ r.lon, boxRow φ = a ∧ boxCol l = b) := by
  have hlat := region_lat_mem hg r
  have hlon := region_lon_mem hg r
  by_cases ha : a < 9
  · by_cases hb : b < 36
    · have e : entry (regionMap r) a b = some (histPos r.lat (-90) 90 9 (8 - a) && histPos r.lon 0 360 36 b) := by
        have : (((List.range 9).map fun k => histPos r.lat (-90) 90 9 k).reverse)[a]? = some (histPos r.lat (-90) 90 9 (8 - a)) := by
          rw [List.getElem?_reverse (by simpa using ha)]
          simp only [List.length_map, List.length_range, List.getElem?_map]
          rw [List.getElem?_range (by omega)]
          simp [show 9 - 1 - a = 8 - a by omega]
        simp only [entry, regionMap, List.getElem?_map, this, Option.map_some, Option.bind_some, List.getElem?_range hb]
      rw [e]
      refine ⟨by simp [ha, hb], ?_⟩
      have h1 := histPos_iff r.lat (-90) 20 (by norm_num) 9 (8 - a) (by omega) hlat
      have h2 := histPos_iff r.lon 0 10 (by norm_num) 36 b hb hlon
      rw [show (-90 : K) + ((9 : ℕ) : K) * 20 = 90 by norm_num] at h1
      rw [show (0 : K) + ((36 : ℕ) : K) * 10 = 360 by norm_num] at h2
      simp only [Option.some.injEq, Bool.and_eq_true, h1, h2]
      constructor
      · rintro ⟨⟨φ, hφ, h3⟩, ⟨l, hl, h4⟩⟩
        refine ⟨φ, hφ, l, hl, ?_, ?_⟩
        · unfold boxRow
          rw [sub_neg_eq_add] at h3
          push_cast at h3
          omega
        · obtain ⟨i, -, rfl⟩ := List.mem_map.mp hl
          have h5 : ⌊g.lon i / 10⌋ < 36 := by
            rw [Int.floor_lt, div_lt_iff₀ (by norm_num)]
            have := Grid.lon_lt hg i.2
            push_cast
            linarith
          unfold boxCol
          rw [sub_zero] at h4
          push_cast at h4
          omega
      · rintro ⟨φ, hφ, l, hl, h3, h4⟩
        refine ⟨⟨φ, hφ, ?_⟩, ⟨l, hl, ?_⟩⟩
        · unfold boxRow at h3
          rw [sub_neg_eq_add]
          push_cast
          omega
        · unfold boxCol at h4
          rw [sub_zero]
          push_cast
          omega
    · have e : entry (regionMap r) a b = none := by
        have h36 : (List.range 36)[b]? = none := List.getElem?_eq_none (by simpa using hb)
        simp only [entry, regionMap, List.getElem?_map]
        cases ((List.range 9).map fun k => histPos r.lat (-90) 90 9 k).reverse[a]? with
        | none => rfl
        | some y => simp only [Option.map_some, Option.bind_some, List.getElem?_map, h36, Option.map_none]
      rw [e]
      refine ⟨by simp [hb], ?_⟩
      simp only [reduceCtorEq, false_iff]
      rintro ⟨φ, hφ, l, hl, h3, h4⟩
      obtain ⟨i, -, rfl⟩ := List.mem_map.mp hl
      have h5 : ⌊g.lon i / 10⌋ < 36 := by
        rw [Int.floor_lt, div_lt_iff₀ (by norm_num)]
        have := Grid.lon_lt hg i.2
        push_cast
        linarith
      unfold boxCol at h4
      omega
  · have e : entry (regionMap r) a b = none := by
      simp only [entry, regionMap, List.getElem?_map]
      rw [List.getElem?_eq_none (by simpa using ha)]
      simp
    rw [e]
    refine ⟨by simp [ha], ?_⟩
    simp only [reduceCtorEq, false_iff]
    rintro ⟨φ, hφ, l, hl, h3, h4⟩
    have h5 : 0 ≤ ⌊(φ + 90) / 20⌋ := by
      rw [Int.floor_nonneg]
      exact div_nonneg (by linarith [(hlat φ hφ).1]) (by norm_num)
    unfold boxRow at h3
    omega

/-- C81: the header has the southernmost and northernmost latitude of a region, and its first and last longitude. -/
theorem C81_bounds {g : Grid K} (hg : g.Valid) {sel : Selection K} {r : Region g} (h : g.region sel = .ok r) (h1 : r.lat ≠ []) (h2 : r.lon ≠ []) :
    ∃ s n w e, regionBounds r = .ok ((s, n), (w, e)) ∧ s ∈ r.lat ∧ n ∈ r.lat ∧ (∀ φ ∈ r.lat, s ≤ φ ∧ φ ≤ n) ∧
      r.lon.head? = some w ∧ r.lon.getLast? = some e := by
  have hp := Grid.lat_pairwise hg (Grid.region_lat_sorted hg h)
  change r.lat.Pairwise (· > ·) at hp
  obtain ⟨n, ln, hn⟩ := List.exists_cons_of_ne_nil h1
  obtain ⟨w, lw, hw⟩ := List.exists_cons_of_ne_nil h2
  obtain ⟨s, hs⟩ : ∃ s, r.lat.getLast? = some s := ⟨_, List.getLast?_eq_getLast_of_ne_nil h1⟩
  obtain ⟨e, he⟩ : ∃ e, r.lon.getLast? = some e := ⟨_, List.getLast?_eq_getLast_of_ne_nil h2⟩
  have hnh : r.lat.head? = some n := by rw [hn]; rfl
  have hwh : r.lon.head? = some w := by rw [hw]; rfl
  refine ⟨s, n, w, e, ?_, List.mem_of_getLast? hs, List.mem_of_head? hnh, fun φ hφ => ⟨?_, ?_⟩, hwh, he⟩
  · simp only [regionBounds, hs, hnh, hwh, he]
  · obtain ⟨l, hl⟩ := List.getLast?_eq_some_iff.mp hs
    rw [hl] at hφ hp
    rcases List.mem_append.mp hφ with h3 | h3
    · exact ((List.pairwise_append.mp hp).2.2 φ h3 s (by simp)).le
    · rw [List.mem_singleton.mp h3]
  · rw [hn] at hφ hp
    rcases List.mem_cons.mp hφ with h3 | h3
    · rw [h3]
    · exact ((List.pairwise_cons.mp hp).1 φ h3).le

/-- C81: the representation of a region without gridpoints is an error. -/
theorem C81_empty_refuted {g : Grid K} (r : Region g) (h : r.lat = [] ∨ r.lon = []) : regionBounds r = .error .indexError := by
  unfold regionBounds
  rcases h with h | h <;> rw [h] <;> simp

/-- The region from 270 to 0 degrees east in the northern hemisphere of the 90 degree grid (latitudes 90, 0, -90 and longitudes 0, 90,
180, 270) -/
def mapRegion : Except PyErr (Region (⟨90, 1, 1, 2⟩ : Grid ℚ)) :=
  Grid.region _ (.tuple [.slice (.num 270) (.num 0) false, .str "N"])

example : (match mapRegion with | .ok r => (regionBounds r).toOption | _ => none) = some ((0, 90), (270, 0)) := by decide +kernel

/-- The pole is in the first row, the equator in the middle. -/
example : (match mapRegion with
    | .ok r => [(0, 0), (0, 27), (4, 27), (8, 27), (0, 9)].map fun p : ℕ × ℕ => entry (regionMap r) p.1 p.2
    | _ => []) = [some true, some true, some true, some false, some false] := by decide +kernel

end Barotropic
