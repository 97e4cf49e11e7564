import Verif.Spec.Plot
import Verif.Lemmas.Grid
import Verif.Lemmas.Region
import Verif.Lemmas.Filter
import Mathlib.Data.Rat.Floor

/-!
# Centering of maps and the summary plot (C74, C79)
-/

set_option linter.unusedSectionVars false

namespace Barotropic
open Plot
variable {K : Type*} [Field K] [LinearOrder K] [IsStrictOrderedRing K] [FloorRing K]

/-! ### Lemmas -/

theorem pyMod_spec (x : K) : 0 ≤ pyMod x 360 ∧ pyMod x 360 < 360 ∧ ∃ z : ℤ, x = pyMod x 360 + 360 * z := by
  have h1 := Int.floor_le (x / 360)
  have h2 := Int.lt_floor_add_one (x / 360)
  have h3 : x / 360 * 360 = x := div_mul_cancel₀ _ (by norm_num)
  unfold pyMod
  refine ⟨by linarith, by linarith, ⌊x / 360⌋, by ring⟩

theorem pyMod_eq {x y : K} (h0 : 0 ≤ y) (h1 : y < 360) (z : ℤ) (h : x = y + 360 * z) : pyMod x 360 = y := by
  have : ⌊x / 360⌋ = z := by
    rw [Int.floor_eq_iff]
    constructor
    · rw [le_div_iff₀ (by norm_num)]; linarith
    · rw [div_lt_iff₀ (by norm_num)]; linarith
  unfold pyMod
  rw [this, h]; ring

theorem argmin_spec (p : ℕ → K) (n : ℕ) (hn : 0 < n) :
    argmin p n < n ∧ (∀ i < n, p (argmin p n) ≤ p i) ∧ ∀ i < argmin p n, p (argmin p n) < p i := by
  induction n with
  | zero => omega
  | succ n ih =>
    rcases Nat.eq_zero_or_pos n with h0 | h0
    · subst h0
      refine ⟨by simp [argmin], fun i hi => ?_, fun i hi => ?_⟩
      · obtain rfl : i = 0 := by omega
        simp [argmin]
      · simp [argmin] at hi
    · obtain ⟨a, b, c⟩ := ih h0
      obtain ⟨m, rfl⟩ : ∃ m, n = m + 1 := ⟨n - 1, by omega⟩
      have e : argmin p (m + 1 + 1) = if p (m + 1) < p (argmin p (m + 1)) then m + 1 else argmin p (m + 1) := rfl
      rw [e]
      split_ifs with h
      · refine ⟨by omega, fun i hi => ?_, fun i hi => lt_of_lt_of_le h (b i hi)⟩
        rcases Nat.lt_succ_iff_lt_or_eq.mp hi with h1 | h1
        · exact h.le.trans (b i h1)
        · rw [h1]
      · refine ⟨by omega, fun i hi => ?_, c⟩
        rcases Nat.lt_succ_iff_lt_or_eq.mp hi with h1 | h1
        · exact b i h1
        · rw [h1]; exact not_lt.mp h

/-- The column of the field that is shown in column `k` -/
def srcCol {w : ℕ} (shift : ℤ) (k : Fin w) : Fin w := ⟨((k - shift) % (w : ℤ)).toNat, by
  have hw : (0 : ℤ) < w := by have := k.2; omega
  have h1 := Int.emod_nonneg ((k : ℤ) - shift) hw.ne'
  have h2 := Int.emod_lt_of_pos ((k : ℤ) - shift) hw
  omega⟩

theorem srcCol_spec {w : ℕ} (shift : ℤ) (k : Fin w) : ∃ z : ℤ, (k : ℤ) - shift = (srcCol shift k : ℕ) + w * z := by
  have hw : (0 : ℤ) < w := by have := k.2; omega
  have h1 := Int.emod_nonneg ((k : ℤ) - shift) hw.ne'
  refine ⟨((k : ℤ) - shift) / w, ?_⟩
  have h2 := Int.emod_add_mul_ediv ((k : ℤ) - shift) w
  simp only [srcCol]
  omega

theorem srcCol_eq {w : ℕ} (shift : ℤ) (k m : Fin w) (z : ℤ) (h : (k : ℤ) - shift = m + w * z) : srcCol shift k = m := by
  apply Fin.ext
  have h1 : ((k : ℤ) - shift) % w = m := by
    rw [h, Int.add_mul_emod_self_left]
    exact Int.emod_eq_of_lt (by omega) (by have := m.2; omega)
  simp [srcCol, h1]

theorem srcCol_bijective {w : ℕ} (shift : ℤ) : Function.Bijective (srcCol (w := w) shift) := by
  rw [← Finite.injective_iff_bijective]
  intro a b h
  obtain ⟨z, hz⟩ := srcCol_spec shift a
  obtain ⟨z', hz'⟩ := srcCol_spec shift b
  rw [h] at hz
  have h1 : srcCol (w := w) 0 a = b := srcCol_eq 0 a b (z - z') (by rw [mul_sub]; omega)
  have h2 : srcCol (w := w) 0 a = a := srcCol_eq 0 a a 0 (by omega)
  rw [← h2, h1]

/-- What `roll_lon` returns for the longitudes of a grid -/
theorem rollLon_eq {g : Grid K} (hg : g.Valid) (center : K) :
    ∃ offset, rollLon g.nlon g.lon center = .ok (rollShift g.nlon g.lon center, offset) ∧
      ∃ z : ℤ, offset = 360 / g.nlon * ((rollShift g.nlon g.lon center : ℤ) : K) + 360 * z := by
  have hn : 0 < g.nlon := by have := hg.nlon_ge; omega
  have hnK := hg.nlon_pos.ne'
  obtain ⟨h1, -, -⟩ := argmin_spec (fun i => |g.lon i - pyMod center 360|) g.nlon hn
  unfold rollLon
  rw [if_neg hn.ne']
  dsimp only
  have h2 : rollShift g.nlon g.lon center = (g.nlon / 2 : ℕ) - (argmin (fun i => |g.lon i - pyMod center 360|) g.nlon : ℕ) := rfl
  generalize rollShift g.nlon g.lon center = s at *
  split_ifs with c1 c2
  · refine ⟨_, rfl, 0, ?_⟩
    rw [Grid.lon_eq]
    have : ((s.toNat : ℕ) : K) = (s : K) := by
      have : ((s.toNat : ℕ) : ℤ) = s := Int.toNat_of_nonneg c1.1
      exact_mod_cast congrArg (Int.cast (R := K)) this
    rw [this]; push_cast; ring
  · refine ⟨_, rfl, 1, ?_⟩
    rw [Grid.lon_eq]
    have : ((((g.nlon : ℤ) + s).toNat : ℕ) : K) = (g.nlon : K) + (s : K) := by
      have : ((((g.nlon : ℤ) + s).toNat : ℕ) : ℤ) = g.nlon + s := Int.toNat_of_nonneg (by omega)
      have := congrArg (Int.cast (R := K)) this
      push_cast at this
      exact this
    rw [this]; push_cast; field_simp; ring
  · omega

theorem label_eq {g : Grid K} (hg : g.Valid) (shift : ℤ) (offset : K)
    (h : ∃ z : ℤ, offset = 360 / g.nlon * (shift : K) + 360 * z) (k : Fin g.nlon) :
    lonLabel offset (g.lon k) = g.lon (srcCol shift k) := by
  obtain ⟨z, h⟩ := h
  obtain ⟨z', h'⟩ := srcCol_spec shift k
  have hnK := hg.nlon_pos.ne'
  refine pyMod_eq (Grid.lon_nonneg hg _) (Grid.lon_lt hg (srcCol shift k).2) (z' - z) ?_
  have h2 : ((k : ℕ) : K) - shift = ((srcCol shift k : ℕ) : K) + g.nlon * z' := by exact_mod_cast congrArg (Int.cast (R := K)) h'
  have h3 : ((k : ℕ) : K) = shift + ((srcCol shift k : ℕ) : K) + g.nlon * z' := by linear_combination h2
  rw [Grid.lon_eq, Grid.lon_eq, h, h3]
  push_cast
  field_simp
  ring

theorem mid_lt {g : Grid K} (hg : g.Valid) : g.nlon / 2 < g.nlon := by have := hg.nlon_ge; omega

theorem srcCol_mid {g : Grid K} (hg : g.Valid) (center : K) (mid : Fin g.nlon) (hmid : (mid : ℕ) = g.nlon / 2) :
    (srcCol (rollShift g.nlon g.lon center) mid : ℕ) = argmin (fun i => |g.lon i - pyMod center 360|) g.nlon := by
  have hn : 0 < g.nlon := by have := hg.nlon_ge; omega
  obtain ⟨h1, -, -⟩ := argmin_spec (fun i => |g.lon i - pyMod center 360|) g.nlon hn
  have := srcCol_eq (rollShift g.nlon g.lon center) mid ⟨_, h1⟩ 0 (by unfold rollShift; rw [hmid]; push_cast; ring)
  rw [this]

theorem spacing_facts {g : Grid K} (hg : g.Valid) : 0 < 360 / (g.nlon : K) ∧ 360 / (g.nlon : K) ≤ 90 ∧
    g.lon (g.nlon - 1) = 360 - 360 / (g.nlon : K) := by
  have h4 : (4 : K) ≤ g.nlon := by exact_mod_cast hg.nlon_ge
  have hp := hg.nlon_pos
  refine ⟨by positivity, by rw [div_le_iff₀ hp]; linarith, ?_⟩
  rw [Grid.lon_eq, Nat.cast_sub (by have := hg.nlon_ge; omega)]
  field_simp
  push_cast
  ring

theorem lon_le_last {g : Grid K} (hg : g.Valid) {i : ℕ} (hi : i < g.nlon) : g.lon i ≤ 360 - 360 / (g.nlon : K) := by
  rw [← (spacing_facts hg).2.2]
  exact (Grid.lon_strictMono hg).monotone (by omega)

theorem intCast_ge_one {z : ℤ} (h : 0 < z) : (1 : K) ≤ z := by exact_mod_cast h
theorem intCast_le_neg_one {z : ℤ} (h : z < 0) : (z : K) ≤ -1 := by exact_mod_cast (show z ≤ -1 by omega)

/-! ### C74 -/

/-- C74: `roll_lon` never fails on the longitudes of a grid. Every column of the field is shown exactly once, and the label at the
position of a column is the longitude of the data shown there. -/
theorem C74_labels {g : Grid K} (hg : g.Valid) (center : K) :
    ∃ shift offset, ∃ col : Fin g.nlon → Fin g.nlon, rollLon g.nlon g.lon center = .ok (shift, offset) ∧
      Function.Bijective col ∧ (∀ (f : Fin g.nlat → Fin g.nlon → K) j k, roll shift f j k = f j (col k)) ∧
      ∀ k : Fin g.nlon, lonLabel offset (g.lon k) = g.lon (col k) := by
  obtain ⟨offset, h1, h2⟩ := rollLon_eq hg center
  exact ⟨_, offset, srcCol _, h1, srcCol_bijective _, fun _ _ _ => rfl, label_eq hg _ _ h2⟩

/-- C74: the columns stay in cyclic order, from west to east. -/
theorem C74_cyclic {g : Grid K} (hg : g.Valid) (center : K) {shift : ℤ} {offset : K}
    (h : rollLon g.nlon g.lon center = .ok (shift, offset)) (k k' : Fin g.nlon) (hk : (k' : ℕ) = k + 1) :
    ∃ z : ℤ, lonLabel offset (g.lon k') = lonLabel offset (g.lon k) + 360 / g.nlon + 360 * z := by
  obtain ⟨offset', h1, h2⟩ := rollLon_eq hg center
  rw [h] at h1
  cases h1
  rw [label_eq hg _ _ h2, label_eq hg _ _ h2, Grid.lon_eq, Grid.lon_eq]
  obtain ⟨z, hz⟩ := srcCol_spec (rollShift g.nlon g.lon center) k
  obtain ⟨z', hz'⟩ := srcCol_spec (rollShift g.nlon g.lon center) k'
  refine ⟨z - z', ?_⟩
  have hnK := hg.nlon_pos.ne'
  have h3 : ((srcCol (rollShift g.nlon g.lon center) k' : ℕ) : ℤ) = (srcCol (rollShift g.nlon g.lon center) k : ℕ) + 1 + g.nlon * (z - z') := by
    rw [hk] at hz'
    push_cast at hz'
    rw [mul_sub]
    omega
  have h4 := congrArg (Int.cast (R := K)) h3
  push_cast at h4
  rw [h4]
  push_cast
  field_simp

/-- C74 (partial: the centre is not within half a spacing west of Greenwich): the column in the middle is the meridian of the grid
that is closest to the centre. -/
theorem C74_center_partial {g : Grid K} (hg : g.Valid) {center : K} (hc : pyMod center 360 ≤ 360 - 360 / (g.nlon : K) / 2) {shift : ℤ} {offset : K}
    (h : rollLon g.nlon g.lon center = .ok (shift, offset)) (mid : Fin g.nlon) (hmid : (mid : ℕ) = g.nlon / 2) :
    ∃ m : Fin g.nlon, (∀ (f : Fin g.nlat → Fin g.nlon → K) j, roll shift f j mid = f j m) ∧ g.Nearest m center := by
  obtain ⟨offset', h1, -⟩ := rollLon_eq hg center
  rw [h] at h1
  cases h1
  refine ⟨srcCol _ mid, fun _ _ => rfl, ?_⟩
  rw [srcCol_mid hg center mid hmid]
  have hn : 0 < g.nlon := by have := hg.nlon_ge; omega
  obtain ⟨-, h2, -⟩ := argmin_spec (fun i => |g.lon i - pyMod center 360|) g.nlon hn
  obtain ⟨c0, c1, z0, hz0⟩ := pyMod_spec center
  obtain ⟨d0, d1, d2⟩ := spacing_facts hg
  generalize argmin (fun i => |g.lon i - pyMod center 360|) g.nlon = m at h2 ⊢
  refine ⟨z0, fun i hi z' => ?_⟩
  have e1 : g.lon m + 360 * z0 - center = g.lon m - pyMod center 360 := by linear_combination -hz0
  have e2 : g.lon i + 360 * z' - center = g.lon i + 360 * ((z' - z0 : ℤ) : K) - pyMod center 360 := by
    push_cast; linear_combination -hz0
  rw [e1, e2]
  generalize z' - z0 = w
  have l1 := Grid.lon_nonneg hg i
  have l2 := lon_le_last hg hi
  rcases lt_trichotomy w 0 with hw | hw | hw
  · have := intCast_le_neg_one (K := K) hw
    refine (h2 0 hn).trans ?_
    rw [Grid.lon_eq]
    simp only [Nat.cast_zero, zero_mul, zero_sub, abs_neg, abs_of_nonneg c0]
    rw [abs_of_neg (by linarith)]
    linarith
  · subst hw; simpa using h2 i hi
  · have := intCast_ge_one (K := K) hw
    refine (h2 (g.nlon - 1) (by omega)).trans ?_
    rw [d2]
    refine le_trans (b := 360 - pyMod center 360) (abs_le.mpr ⟨by linarith, by linarith⟩) ?_
    exact le_trans (by linarith) (le_abs_self _)

/-- C74: for centres within half a spacing west of Greenwich the column in the middle is not the closest one: the periodicity of
longitude is not considered. -/
theorem C74_center_refuted {g : Grid K} (hg : g.Valid) {center : K} (hc : 360 - 360 / (g.nlon : K) / 2 < pyMod center 360) {shift : ℤ} {offset : K}
    (h : rollLon g.nlon g.lon center = .ok (shift, offset)) (mid : Fin g.nlon) (hmid : (mid : ℕ) = g.nlon / 2) :
    ∃ m : Fin g.nlon, (∀ (f : Fin g.nlat → Fin g.nlon → K) j, roll shift f j mid = f j m) ∧ ¬ g.Nearest m center := by
  obtain ⟨offset', h1, -⟩ := rollLon_eq hg center
  rw [h] at h1
  cases h1
  refine ⟨srcCol _ mid, fun _ _ => rfl, ?_⟩
  rw [srcCol_mid hg center mid hmid]
  have hn : 0 < g.nlon := by have := hg.nlon_ge; omega
  obtain ⟨h0, h2, -⟩ := argmin_spec (fun i => |g.lon i - pyMod center 360|) g.nlon hn
  obtain ⟨c0, c1, z0, hz0⟩ := pyMod_spec center
  obtain ⟨d0, d1, d2⟩ := spacing_facts hg
  generalize argmin (fun i => |g.lon i - pyMod center 360|) g.nlon = m at h0 h2 ⊢
  have l2 := lon_le_last hg h0
  have h3 := h2 (g.nlon - 1) (by omega)
  rw [d2, abs_of_neg (by linarith), abs_of_neg (by linarith)] at h3
  have l3 : g.lon m = 360 - 360 / (g.nlon : K) := le_antisymm l2 (by linarith)
  rintro ⟨z, hz⟩
  have h4 := hz 0 hn (z0 + 1)
  have e1 : g.lon m + 360 * z - center = g.lon m + 360 * ((z - z0 : ℤ) : K) - pyMod center 360 := by
    push_cast; linear_combination -hz0
  have e2 : g.lon 0 + 360 * ((z0 + 1 : ℤ) : K) - center = 360 - pyMod center 360 := by
    rw [Grid.lon_eq]; push_cast; linear_combination -hz0
  rw [e1, e2, l3, abs_of_pos (by linarith : 0 < 360 - pyMod center 360)] at h4
  generalize z - z0 = w at h4
  obtain ⟨h5, h6⟩ := abs_le.mp h4
  rcases lt_trichotomy w 0 with hw | hw | hw
  · have := intCast_le_neg_one (K := K) hw
    linarith
  · subst hw; simp only [Int.cast_zero, mul_zero, add_zero] at h5; linarith
  · have := intCast_ge_one (K := K) hw
    linarith

/-- C74: for all centres, the column in the middle is less than one spacing away from the centre. -/
theorem C74_center_bound {g : Grid K} (hg : g.Valid) (center : K) {shift : ℤ} {offset : K}
    (h : rollLon g.nlon g.lon center = .ok (shift, offset)) (mid : Fin g.nlon) (hmid : (mid : ℕ) = g.nlon / 2) :
    ∃ z : ℤ, |lonLabel offset (g.lon mid) + 360 * z - center| < 360 / g.nlon := by
  obtain ⟨offset', h1, h1'⟩ := rollLon_eq hg center
  rw [h] at h1
  cases h1
  rw [label_eq hg _ _ h1', srcCol_mid hg center mid hmid]
  have hn : 0 < g.nlon := by have := hg.nlon_ge; omega
  obtain ⟨h0, h2, -⟩ := argmin_spec (fun i => |g.lon i - pyMod center 360|) g.nlon hn
  obtain ⟨c0, c1, z0, hz0⟩ := pyMod_spec center
  obtain ⟨d0, d1, d2⟩ := spacing_facts hg
  generalize argmin (fun i => |g.lon i - pyMod center 360|) g.nlon = m at h0 h2 ⊢
  refine ⟨z0, ?_⟩
  have e1 : g.lon m + 360 * z0 - center = g.lon m - pyMod center 360 := by linear_combination -hz0
  rw [e1]
  generalize pyMod center 360 = c at *
  have hc0 : 0 ≤ c / (360 / (g.nlon : K)) := div_nonneg c0 d0.le
  have f1 := Nat.floor_le hc0
  have f2 := Nat.lt_floor_add_one (c / (360 / (g.nlon : K)))
  have f3 : ⌊c / (360 / (g.nlon : K))⌋₊ < g.nlon := by
    rw [Nat.floor_lt hc0, div_lt_iff₀ d0, mul_div_cancel₀ _ hg.nlon_pos.ne']
    exact c1
  refine (h2 _ f3).trans_lt ?_
  rw [Grid.lon_eq]
  rw [le_div_iff₀ d0] at f1
  rw [div_lt_iff₀ d0] at f2
  rw [abs_lt]
  constructor <;> linarith

/-- C74: the ticks are 30 degrees apart, their labels are the longitudes rounded to integers. -/
theorem C74_ticks (offset : K) (k : ℕ) (hk : k < 12) :
    ∃ l : ℤ, (lonTicks offset)[k]? = some (30 * (k : K), l) ∧ |lonLabel offset (30 * (k : K)) - l| ≤ 1 / 2 := by
  refine ⟨_, ?_, (pyRound_spec _).1⟩
  simp [lonTicks, hk]

/-! ### C79 -/

theorem thin_get {α : Type*} (s h w : ℕ) (hs : 0 < s) (a : ℕ → ℕ → α) (r c : ℕ) (x : α) (hx : entry (thin s h w a) r c = some x) :
    s / 2 + r * s < h ∧ s / 2 + c * s < w ∧ x = a (s / 2 + r * s) (s / 2 + c * s) ∧
      ∀ b : ℕ → ℕ → α, entry (thin s h w b) r c = some (b (s / 2 + r * s) (s / 2 + c * s)) := by
  have key : ∀ n k, k < (n - s / 2 + (s - 1)) / s → s / 2 + k * s < n := by
    intro n k hk
    rw [Nat.lt_div_iff_mul_lt hs] at hk
    have : s * k = k * s := mul_comm _ _
    omega
  by_cases hr : r < (h - s / 2 + (s - 1)) / s
  · by_cases hc : c < (w - s / 2 + (s - 1)) / s
    · simp [entry, thin, sliceIdx, hr, hc] at hx
      refine ⟨key _ _ hr, key _ _ hc, hx.symm, fun b => ?_⟩
      simp [entry, thin, sliceIdx, hr, hc]
    · simp [entry, thin, sliceIdx, hr, hc] at hx
  · simp [entry, thin, sliceIdx, hr] at hx

theorem thin_head {α : Type*} (s h w : ℕ) (hs : 0 < s) (a : ℕ → ℕ → α) (hh : s / 2 < h) (hw : s / 2 < w) :
    entry (thin s h w a) 0 0 = some (a (s / 2) (s / 2)) := by
  have h1 : 0 < (h - s / 2 + (s - 1)) / s := Nat.div_pos (by omega) hs
  have h2 : 0 < (w - s / 2 + (s - 1)) / s := Nat.div_pos (by omega) hs
  simp [entry, thin, sliceIdx, h1, h2]

theorem spacing_pos (n : ℕ) (ny : ℤ) : 0 < spacing n ny := by unfold spacing; omega

theorem summaryPanel_eq {g : Grid K} (hg : g.Valid) (pv : Fin g.nlat → Fin g.nlon → K) (u v : ℕ → ℕ → K) (hemisphere : String) (center : K) :
    ∃ s offset, 0 < s ∧ s / 2 < g.nlat ∧ (∃ z : ℤ, offset = 360 / g.nlon * ((rollShift g.nlon g.lon center : ℤ) : K) + 360 * z) ∧
      rollLon g.nlon g.lon center = .ok (rollShift g.nlon g.lon center, offset) ∧
      summaryPanel g pv u v hemisphere center = .ok ⟨roll (rollShift g.nlon g.lon center) fun j i => 10000 * pv j i,
        thin s g.nlat g.nlon (fun _ i => g.lon i), thin s g.nlat g.nlon (fun j _ => g.lat j), thin s g.nlat g.nlon u,
        thin s g.nlat g.nlon v, offset⟩ := by
  obtain ⟨offset, h1, h2⟩ := rollLon_eq hg center
  have h3 := hg.nlat_ge
  refine ⟨_, offset, spacing_pos g.nlat (if hemisphere = "both" then 13 else 21), ?_, h2, h1, ?_⟩
  · unfold spacing
    split_ifs
    · rw [Int.fdiv_eq_ediv_of_nonneg _ (by norm_num : (0 : ℤ) ≤ 13)]; omega
    · rw [Int.fdiv_eq_ediv_of_nonneg _ (by norm_num : (0 : ℤ) ≤ 21)]; omega
  unfold summaryPanel reduceVectors
  rw [h1]
  dsimp only
  rw [if_neg (by split_ifs <;> norm_num)]

/-- C79: if the map is centered at 180 degrees (the default) everything in the panel is labelled correctly: PV and the wind vectors. -/
theorem C79_default {g : Grid K} (hg : g.Valid) (pv : Fin g.nlat → Fin g.nlon → K) (u v : ℕ → ℕ → K) (hemisphere : String)
    {center : K} (hc : pyMod center 360 = 180) :
    ∃ p, summaryPanel g pv u v hemisphere center = .ok p ∧ (∀ (j : Fin g.nlat) (k : Fin g.nlon), p.pv j k = 10000 * pv j k ∧ lonLabel p.offset (g.lon k) = g.lon k) ∧
      ∀ r c x, entry p.x r c = some x → ∃ j < g.nlat, ∃ i < g.nlon, lonLabel p.offset x = g.lon i ∧
        entry p.y r c = some (g.lat j) ∧ entry p.u r c = some (u j i) ∧ entry p.v r c = some (v j i) := by
  have hn : 0 < g.nlon := by have := hg.nlon_ge; omega
  have hs : rollShift g.nlon g.lon center = 0 := by
    obtain ⟨h0, h2, h3⟩ := argmin_spec (fun i => |g.lon i - pyMod center 360|) g.nlon hn
    unfold rollShift
    rw [hc] at *
    generalize argmin (fun i => |g.lon i - 180|) g.nlon = m at *
    obtain ⟨d0, d1, d2⟩ := spacing_facts hg
    have hnK := hg.nlon_pos
    have key : ∀ i : ℕ, g.lon i - 180 = (360 / (g.nlon : K) / 2) * ((2 * (i : ℤ) - g.nlon : ℤ) : K) := by
      intro i
      rw [Grid.lon_eq]; push_cast; field_simp; ring
    have d3 : 0 < 360 / (g.nlon : K) / 2 := by linarith
    have key2 : ∀ i : ℕ, |g.lon i - 180| = (360 / (g.nlon : K) / 2) * ((|2 * (i : ℤ) - g.nlon| : ℤ) : K) := by
      intro i
      rw [key, abs_mul, abs_of_pos d3, Int.cast_abs]
    have h4 := h2 (g.nlon / 2) (by omega)
    rw [key2, key2, mul_le_mul_iff_right₀ d3, Int.cast_le] at h4
    have a1 := abs_cases (2 * ((g.nlon / 2 : ℕ) : ℤ) - g.nlon)
    have a2 := abs_cases (2 * (m : ℤ) - g.nlon)
    by_contra hne
    rcases lt_or_ge (g.nlon / 2) m with h5 | h5
    · have h6 := h3 (g.nlon / 2) h5
      rw [key2, key2, mul_lt_mul_iff_right₀ d3, Int.cast_lt] at h6
      omega
    · omega
  obtain ⟨s, offset, s0, -, h2, -, h4⟩ := summaryPanel_eq hg pv u v hemisphere center
  have hl := label_eq hg _ _ h2
  rw [hs] at h4 hl
  have h0 : ∀ k : Fin g.nlon, srcCol 0 k = k := fun k => srcCol_eq 0 k k 0 (by omega)
  refine ⟨_, h4, fun j k => ⟨?_, ?_⟩, fun r c x hx => ?_⟩
  · show 10000 * pv j (srcCol 0 k) = _
    rw [h0]
  · dsimp only; rw [hl, h0]
  · obtain ⟨a, b, e, f⟩ := thin_get s _ _ s0 _ r c x hx
    refine ⟨_, a, _, b, ?_, ?_, ?_, ?_⟩
    · subst e
      have := hl ⟨_, b⟩
      rw [h0] at this
      exact this
    · exact (thin_get s _ _ s0 _ r c x hx).2.2.2 fun j _ => g.lat j
    · exact f u
    · exact f v

/-- C79: with any centre that moves the map, every wind vector is drawn at a wrong longitude: the vector of column `i` is at a position
labelled with a longitude other than that of column `i`, and the PV that is drawn there is from the column with this other longitude. -/
theorem C79_refuted {g : Grid K} (hg : g.Valid) (pv : Fin g.nlat → Fin g.nlon → K) (u v : ℕ → ℕ → K) (hemisphere : String)
    {center : K} {shift : ℤ} {offset : K} (h : rollLon g.nlon g.lon center = .ok (shift, offset)) (hs : shift ≠ 0) :
    ∃ p, summaryPanel g pv u v hemisphere center = .ok p ∧ (∃ x, entry p.x 0 0 = some x) ∧
      ∀ r c x, entry p.x r c = some x → ∃ j : Fin g.nlat, ∃ i : Fin g.nlon, ∃ i' : Fin g.nlon,
        entry p.u r c = some (u j i) ∧ entry p.v r c = some (v j i) ∧ entry p.y r c = some (g.lat j) ∧
        x = g.lon i ∧ p.pv j i = 10000 * pv j i' ∧ lonLabel p.offset x = g.lon i' ∧ g.lon i' ≠ g.lon i := by
  obtain ⟨s, offset', s0, s1, h2, h3, h4⟩ := summaryPanel_eq hg pv u v hemisphere center
  rw [h] at h3
  cases h3
  refine ⟨_, h4, ?_, fun r c x hx => ?_⟩
  · exact ⟨_, thin_head s _ _ s0 _ s1 (s1.trans (Grid.nlat_lt_nlon hg))⟩
  · obtain ⟨a, b, e, f⟩ := thin_get s _ _ s0 _ r c x hx
    refine ⟨⟨_, a⟩, ⟨_, b⟩, srcCol _ ⟨_, b⟩, f u, f v, f fun j _ => g.lat j, e, rfl, ?_, ?_⟩
    · subst e
      exact label_eq hg _ _ h2 ⟨_, b⟩
    · intro hcon
      have hk := Fin.ext ((Grid.lon_strictMono hg).injective hcon)
      obtain ⟨z, hz⟩ := srcCol_spec (rollShift g.nlon g.lon center) ⟨_, b⟩
      rw [hk] at hz
      have hn : 0 < g.nlon := by have := hg.nlon_ge; omega
      have h5 := (argmin_spec (fun i => |g.lon i - pyMod center 360|) g.nlon hn).1
      have h6 : rollShift g.nlon g.lon center = (g.nlon / 2 : ℕ) - (argmin (fun i => |g.lon i - pyMod center 360|) g.nlon : ℕ) := rfl
      generalize rollShift g.nlon g.lon center = sh at *
      rcases lt_trichotomy z 0 with hz0 | hz0 | hz0
      · have : (g.nlon : ℤ) * z ≤ g.nlon * (-1) := mul_le_mul_of_nonneg_left (by omega) (by omega)
        omega
      · subst hz0; simp only [mul_zero] at hz; omega
      · have : (g.nlon : ℤ) * 1 ≤ g.nlon * z := mul_le_mul_of_nonneg_left (by omega) (by omega)
        omega

/-! ### Examples -/

/-- The 10 degree grid -/
def plotGrid : Grid ℚ := ⟨10, 6371200, 1, 18⟩

theorem plotGrid_valid : plotGrid.Valid := ⟨by decide +kernel, by decide +kernel, by decide +kernel, by decide +kernel, by decide +kernel⟩

/-- Default: nothing is moved -/
example : rollLon plotGrid.nlon plotGrid.lon 180 = .ok (0, 0) := by decide +kernel

/-- Centre at Greenwich: the map is moved by 180 degrees, so the wind vectors in the summary plot are on the wrong side of the globe. -/
example : rollLon plotGrid.nlon plotGrid.lon 0 = .ok (18, 180) := by decide +kernel

example : pyMod (0 : ℚ) 360 ≤ 360 - 360 / (plotGrid.nlon : ℚ) / 2 := by decide +kernel

/-- Centre at 359 degrees east: 350 degrees east is in the middle, although 0 degrees is closer. -/
example : rollLon plotGrid.nlon plotGrid.lon 359 = .ok (-17, 190) ∧ lonLabel (190 : ℚ) (plotGrid.lon 18) = 350 := by decide +kernel

example : 360 - 360 / (plotGrid.nlon : ℚ) / 2 < pyMod 359 360 := by decide +kernel

/-- A label can be 360 instead of 0. -/
example : (lonTicks (1 / 4 : ℚ))[0]? = some (0, 360) := by decide +kernel

end Barotropic
