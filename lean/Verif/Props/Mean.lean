import Verif.Lemmas.Mean
import Verif.Spec.Mean
import Mathlib.Tactic.FinCases

/-!
# C10–C12: gridpoint areas and area-weighted means
-/

namespace Barotropic
open Grid Finset

/-! ## C10 -/

theorem C10_area_positive_symmetric (g : Grid ℝ) (hg : g.Valid) :
    (∀ j < g.nlat, 0 < g.gridpointArea j) ∧
    (∀ j < g.nlat, g.gridpointArea (g.nlat - 1 - j) = g.gridpointArea j) :=
  ⟨fun _ hj => gridpointArea_pos hg hj, fun _ hj => gridpointArea_symm hg hj⟩

/-- The total area of all gridpoints is `4πr²` exactly when `resolution * nlon = 360`; in general it is off by the
factor `resolution * nlon / 360`. (Full claim: always `4πr²`; refuted below.) -/
theorem C10_total_partial (g : Grid ℝ) (hg : g.Valid) :
    (g.nlon : ℝ) * ∑ j ∈ range g.nlat, g.gridpointArea j
      = 4 * Real.pi * g.rsphere ^ 2 * (g.resolution * g.nlon / 360) ∧
    ((g.nlon : ℝ) * ∑ j ∈ range g.nlat, g.gridpointArea j = 4 * Real.pi * g.rsphere ^ 2 ↔
      g.resolution * g.nlon = 360) := by
  have h1 : (g.nlon : ℝ) * ∑ j ∈ range g.nlat, g.gridpointArea j
      = 4 * Real.pi * g.rsphere ^ 2 * (g.resolution * g.nlon / 360) := by
    rw [sum_gridpointArea hg]
    unfold dlam deg2rad dlon
    ring
  refine ⟨h1, ?_⟩
  rw [h1]
  have : 0 < 4 * Real.pi * g.rsphere ^ 2 := by
    have := hg.rsphere_pos; have := Real.pi_pos; positivity
  rw [mul_eq_left₀ this.ne', div_eq_one_iff_eq (by norm_num)]

private theorem valid90 : (⟨90, 1, 1, 2⟩ : Grid ℝ).Valid ∧ (⟨90, 1, 1, 2⟩ : Grid ℝ).nlat = 3 ∧
    (⟨90, 1, 1, 2⟩ : Grid ℝ).nlon = 4 := by
  have h1 : (⟨90, 1, 1, 2⟩ : Grid ℝ).nlat = 3 := by
    have : ⌊180 / (90 : ℝ)⌋₊ = 2 := by rw [Nat.floor_eq_iff (by norm_num)]; constructor <;> norm_num
    unfold Grid.nlat nlatOf; simp only [this]
  have h2 : (⟨90, 1, 1, 2⟩ : Grid ℝ).nlon = 4 := by
    have : ⌊360 / (90 : ℝ)⌋₊ = 4 := by rw [Nat.floor_eq_iff (by norm_num)]; constructor <;> norm_num
    unfold Grid.nlon nlonOf; simp only [this]
  exact ⟨⟨by norm_num, by norm_num, by rw [h2], by rw [h1], by rw [h1]⟩, h1, h2⟩

private theorem valid7 : (⟨7, 1, 1, 2⟩ : Grid ℝ).Valid ∧ (⟨7, 1, 1, 2⟩ : Grid ℝ).nlon = 51 := by
  have h1 : (⟨7, 1, 1, 2⟩ : Grid ℝ).nlat = 26 := by
    have : ⌊180 / (7 : ℝ)⌋₊ = 25 := by rw [Nat.floor_eq_iff (by norm_num)]; constructor <;> norm_num
    unfold Grid.nlat nlatOf; simp only [this]
  have h2 : (⟨7, 1, 1, 2⟩ : Grid ℝ).nlon = 51 := by
    have : ⌊360 / (7 : ℝ)⌋₊ = 51 := by rw [Nat.floor_eq_iff (by norm_num)]; constructor <;> norm_num
    unfold Grid.nlon nlonOf; simp only [this]
  exact ⟨⟨by norm_num, by norm_num, by rw [h2]; norm_num, by rw [h1]; norm_num, by rw [h1]; norm_num⟩, h2⟩

/-- The unconditional claim is false: on a 7° grid the gridpoint areas do not add up to the area of the sphere. -/
theorem C10_total_refuted :
    ∃ g : Grid ℝ, g.Valid ∧ (g.nlon : ℝ) * ∑ j ∈ range g.nlat, g.gridpointArea j ≠ 4 * Real.pi * g.rsphere ^ 2 := by
  refine ⟨_, valid7.1, ?_⟩
  rw [Ne, (C10_total_partial _ valid7.1).2, valid7.2]
  norm_num

/-- Non-vacuity: on a 90° grid the areas do tile the sphere. -/
example : ∃ g : Grid ℝ, g.Valid ∧ g.resolution * g.nlon = 360 :=
  ⟨_, valid90.1, by rw [valid90.2.2]; norm_num⟩

/-! ## C11 -/

/-- A weighted average with positive weights is linear, reproduces constants and lies between bounds. -/
private theorem weighted_average {ι : Type*} [Fintype ι] (w : ι → ℝ) (hw : ∀ i, 0 ≤ w i) (hs : 0 < ∑ i, w i)
    (M : (ι → ℝ) → ℝ) (hM : ∀ f, M f = (∑ i, w i * f i) / ∑ i, w i) :
    (∀ a b f h, M (fun i => a * f i + b * h i) = a * M f + b * M h) ∧
    (∀ c, M (fun _ => c) = c) ∧
    (∀ f lo hi, (∀ i, 0 < w i → lo ≤ f i ∧ f i ≤ hi) → lo ≤ M f ∧ M f ≤ hi) := by
  refine ⟨?_, ?_, ?_⟩
  · intro a b f h
    rw [hM, hM, hM, mul_div, mul_div, ← add_div]
    congr 1
    rw [mul_sum, mul_sum, ← sum_add_distrib]
    apply sum_congr rfl
    intro i _
    ring
  · intro c
    rw [hM, ← sum_mul]
    field_simp
  · intro f lo hi hb
    rw [hM]
    constructor
    · rw [le_div_iff₀ hs, mul_sum]
      apply sum_le_sum
      intro i _
      rcases (hw i).lt_or_eq with h | h
      · nlinarith [(hb i h).1]
      · rw [← h]; simp
    · rw [div_le_iff₀ hs, mul_sum]
      apply sum_le_sum
      intro i _
      rcases (hw i).lt_or_eq with h | h
      · nlinarith [(hb i h).2]
      · rw [← h]; simp

private theorem mean_none (g : Grid ℝ) (f : Fin g.nlat → Fin g.nlon → ℝ) (ax : Axis) :
    g.mean (.d2 g.nlat g.nlon f) ax none = meanCore (fun j : Fin g.nlat => g.gridpointArea j) f ax := by
  unfold Grid.mean
  dsimp only
  rw [dif_pos ⟨rfl, rfl⟩]

private theorem extract_d2 {g : Grid ℝ} (r : Region g) (f : Fin g.nlat → Fin g.nlon → ℝ) :
    r.extract [.d2 g.nlat g.nlon f] = .ok [.d2 r.shape.1 r.shape.2 (r.take2 f)] := by
  unfold Region.extract
  dsimp only
  rw [List.mapM_cons, List.mapM_nil]
  simp only [Region.extractOne, and_self, dif_pos]
  rfl

private theorem mean_some (g : Grid ℝ) (r : Region g) (f : Fin g.nlat → Fin g.nlon → ℝ) (ax : Axis) :
    g.mean (.d2 g.nlat g.nlon f) ax (some r)
      = meanCore (r.takeLat fun j : Fin g.nlat => g.gridpointArea j) (r.take2 f) ax := by
  unfold Grid.mean
  dsimp only
  rw [if_pos (show (Arr.d2 g.nlat g.nlon f).shape = [g.nlat, g.nlon] from rfl), extract_d2]
  dsimp only
  rw [dif_pos rfl]
  rfl

private theorem mean_some_extracted (g : Grid ℝ) (r : Region g) (hs : r.shape ≠ (g.nlat, g.nlon))
    (f : Fin r.shape.1 → Fin r.shape.2 → ℝ) (ax : Axis) :
    g.mean (.d2 r.shape.1 r.shape.2 f) ax (some r)
      = meanCore (r.takeLat fun j : Fin g.nlat => g.gridpointArea j) f ax := by
  have : ¬ (Arr.d2 r.shape.1 r.shape.2 f).shape = [g.nlat, g.nlon] := by
    intro h
    simp only [Arr.shape, List.cons.injEq, and_true] at h
    exact hs (Prod.ext h.1 h.2)
  unfold Grid.mean
  dsimp only
  rw [if_neg this, dif_pos ⟨rfl, rfl⟩]
  rfl

private theorem nodups {g : Grid ℝ} (hg : g.Valid) {r : Region g} (h : ∃ sel, g.region sel = .ok r) :
    r.latIndices.Nodup ∧ r.lonIndices.Nodup := by
  obtain ⟨sel, hr⟩ := h
  exact ⟨(region_lat_sorted hg hr).imp (fun h => h.ne), (region_lon_twoRuns hg hr).nodup⟩

/-- `mean(field, region=...)` is the average over the gridpoints of the region weighted by gridpoint area. -/
theorem C11_mean_value (g : Grid ℝ) (hg : g.Valid) (reg : Option (Region g)) (hreg : FromSelection reg)
    (hne : ∃ j i, inRegion reg j i) :
    ∃ M : (Fin g.nlat → Fin g.nlon → ℝ) → ℝ,
      (∀ f, g.mean (.d2 g.nlat g.nlon f) .none reg = .ok (.d0 (M f))) ∧
      (∀ f, M f = (∑ j : Fin g.nlat, ∑ i, if inRegion reg j i then g.gridpointArea j * f j i else 0) /
        (∑ j : Fin g.nlat, ∑ i, if inRegion reg j i then g.gridpointArea j else 0)) ∧
      (0 < ∑ j : Fin g.nlat, ∑ i, if inRegion reg j i then g.gridpointArea j else 0) := by
  have hpos : ∀ j : Fin g.nlat, 0 < g.gridpointArea j := fun j => gridpointArea_pos hg j.2
  have hS : 0 < ∑ j : Fin g.nlat, ∑ i, if inRegion reg j i then g.gridpointArea j else 0 := by
    obtain ⟨j, i, hji⟩ := hne
    apply sum_pos'
    · intro j _
      apply sum_nonneg
      intro i _
      split_ifs
      · exact (hpos j).le
      · exact le_rfl
    · refine ⟨j, mem_univ _, sum_pos' ?_ ⟨i, mem_univ _, ?_⟩⟩
      · intro i _
        split_ifs
        · exact (hpos j).le
        · exact le_rfl
      · rw [if_pos hji]; exact hpos j
  refine ⟨fun f => (∑ j : Fin g.nlat, ∑ i, if inRegion reg j i then g.gridpointArea j * f j i else 0) /
        (∑ j : Fin g.nlat, ∑ i, if inRegion reg j i then g.gridpointArea j else 0), ?_, fun _ => rfl, hS⟩
  intro f
  cases reg with
  | none =>
    rw [mean_none]
    unfold meanCore
    dsimp only
    congr 2
    have hin : ∀ (j : Fin g.nlat) (i : Fin g.nlon) (a : ℝ), (if inRegion (none : Option (Region g)) j i then a else 0) = a :=
      fun _ _ _ => if_pos trivial
    simp only [hin]
    simp only [sum_const, card_univ, Fintype.card_fin, nsmul_eq_mul, ← mul_sum, ← sum_mul]
    rw [div_div, mul_comm (∑ j : Fin g.nlat, g.gridpointArea j)]
    congr 1
    apply sum_congr rfl
    intro j _
    ring
  | some r =>
    obtain ⟨n1, n2⟩ := nodups hg (hreg r rfl)
    rw [mean_some]
    unfold meanCore
    dsimp only
    congr 2
    have e1 : ∑ k, ∑ l, r.take2 f k l * r.takeLat (fun j : Fin g.nlat => g.gridpointArea j) k =
        ∑ j : Fin g.nlat, ∑ i, if inRegion (some r) j i then g.gridpointArea j * f j i else 0 := by
      unfold Region.take2 Region.takeLat
      rw [sum_get_eq n1 (fun j => ∑ l, f j (r.lonIndices.get l) * g.gridpointArea j)]
      apply sum_congr rfl
      intro j _
      rw [sum_get_eq n2 (fun i => f j i * g.gridpointArea j)]
      unfold inRegion Region.mask
      by_cases hj : j ∈ r.latIndices
      · simp [hj, mul_comm]
      · simp [hj]
    have e2 : (∑ k, r.takeLat (fun j : Fin g.nlat => g.gridpointArea j) k) * (r.lonIndices.length : ℝ) =
        ∑ j : Fin g.nlat, ∑ i, if inRegion (some r) j i then g.gridpointArea j else 0 := by
      unfold Region.takeLat
      rw [sum_get_eq n1 (fun j : Fin g.nlat => g.gridpointArea j), sum_mul]
      apply sum_congr rfl
      intro j _
      have : ((r.lonIndices.length : ℕ) : ℝ) = ∑ i : Fin g.nlon, if i ∈ r.lonIndices then (1 : ℝ) else 0 := by
        rw [← sum_get_eq n2 (fun _ => (1 : ℝ))]
        simp
      rw [this, mul_sum]
      apply sum_congr rfl
      intro i _
      unfold inRegion Region.mask
      by_cases hj : j ∈ r.latIndices
      · simp [hj]
      · simp [hj]
    rw [div_div, e1, e2]

/-- The mean is linear, reproduces constants, and lies between any bounds of the field on the region. -/
theorem C11_mean_is_mean (g : Grid ℝ) (hg : g.Valid) (reg : Option (Region g)) (hreg : FromSelection reg)
    (hne : ∃ j i, inRegion reg j i) :
    ∃ M : (Fin g.nlat → Fin g.nlon → ℝ) → ℝ,
      (∀ f, g.mean (.d2 g.nlat g.nlon f) .none reg = .ok (.d0 (M f))) ∧
      (∀ a b f h, M (fun j i => a * f j i + b * h j i) = a * M f + b * M h) ∧
      (∀ c, M (fun _ _ => c) = c) ∧
      (∀ f lo hi, (∀ j i, inRegion reg j i → lo ≤ f j i ∧ f j i ≤ hi) → lo ≤ M f ∧ M f ≤ hi) := by
  obtain ⟨M, h1, h2, h3⟩ := C11_mean_value g hg reg hreg hne
  have hpos : ∀ j : Fin g.nlat, 0 < g.gridpointArea j := fun j => gridpointArea_pos hg j.2
  let w : Fin g.nlat × Fin g.nlon → ℝ := fun p => if inRegion reg p.1 p.2 then g.gridpointArea p.1 else 0
  have hw : ∑ p, w p = ∑ j : Fin g.nlat, ∑ i, if inRegion reg j i then g.gridpointArea j else 0 :=
    Fintype.sum_prod_type _
  have key := weighted_average w (fun p => by
      dsimp only [w]; split_ifs
      · exact (hpos p.1).le
      · exact le_rfl) (by rw [hw]; exact h3) (fun F => M fun j i => F (j, i)) (by
      intro F
      rw [h2, hw, Fintype.sum_prod_type]
      congr 1
      apply sum_congr rfl
      intro j _
      apply sum_congr rfl
      intro i _
      dsimp only [w]
      split_ifs <;> simp)
  refine ⟨M, h1, ?_, ?_, ?_⟩
  · intro a b f h
    exact key.1 a b (fun p => f p.1 p.2) (fun p => h p.1 p.2)
  · intro c
    exact key.2.1 c
  · intro f lo hi hb
    apply key.2.2 (fun p => f p.1 p.2) lo hi
    intro p hp
    apply hb
    by_contra hc
    dsimp only [w] at hp
    rw [if_neg hc] at hp
    exact lt_irrefl _ hp

/-- Meridional means: one value per longitude of the region, the area-weighted average along that meridian. -/
theorem C11_meridional (g : Grid ℝ) (hg : g.Valid) (reg : Option (Region g)) (hreg : FromSelection reg)
    (hne : ∃ j i, inRegion reg j i) (ax : Axis) (hax : ax.IsMeridional) :
    ∃ M : (Fin g.nlat → ℝ) → ℝ,
      (∀ f, reg = none → g.mean (.d2 g.nlat g.nlon f) ax reg = .ok (.d1 g.nlon fun i => M fun j => f j i)) ∧
      (∀ f r, reg = some r → ∃ out, g.mean (.d2 g.nlat g.nlon f) ax reg = .ok (.d1 r.shape.2 out) ∧
        ∀ (l : Fin r.shape.2) (i : Fin g.nlon), r.lon[(l : ℕ)]? = some (g.lon i) → out l = M fun j => f j i) ∧
      (∀ a b f h, M (fun j => a * f j + b * h j) = a * M f + b * M h) ∧
      (∀ c, M (fun _ => c) = c) ∧
      (∀ f lo hi, (∀ j, (∃ i, inRegion reg j i) → lo ≤ f j ∧ f j ≤ hi) → lo ≤ M f ∧ M f ≤ hi) := by
  have hpos : ∀ j : Fin g.nlat, 0 < g.gridpointArea j := fun j => gridpointArea_pos hg j.2
  have hcore : ∀ {h w : ℕ} (area : Fin h → ℝ) (f : Fin h → Fin w → ℝ),
      meanCore area f ax = .ok (.d1 w fun i => (∑ j, f j i * area j) / ∑ j, area j) := by
    intro h w area f
    rcases hax with rfl | rfl | rfl <;> rfl
  let inLat : Fin g.nlat → Prop := fun j => ∃ i, inRegion reg j i
  have : DecidablePred inLat := fun j => by dsimp only [inLat]; infer_instance
  let w : Fin g.nlat → ℝ := fun j => if inLat j then g.gridpointArea j else 0
  have hw0 : ∀ j, 0 ≤ w j := by
    intro j; dsimp only [w]; split_ifs
    · exact (hpos j).le
    · exact le_rfl
  have hws : 0 < ∑ j, w j := by
    obtain ⟨j, hj⟩ := hne
    apply sum_pos' (fun j _ => hw0 j) ⟨j, mem_univ _, ?_⟩
    dsimp only [w]
    rw [if_pos hj]
    exact hpos j
  have key := weighted_average w hw0 hws (fun f => (∑ j, w j * f j) / ∑ j, w j) (fun _ => rfl)
  refine ⟨fun f => (∑ j, w j * f j) / ∑ j, w j, ?_, ?_, key.1, key.2.1, ?_⟩
  · rintro f rfl
    rw [mean_none, hcore]
    have hin : ∀ j, inLat j := by
      intro j
      obtain ⟨_, i, _⟩ := hne
      exact ⟨i, trivial⟩
    congr 2
    funext i
    congr 1
    · apply sum_congr rfl
      intro j _
      dsimp only [w]
      rw [if_pos (hin j), mul_comm]
    · apply sum_congr rfl
      intro j _
      dsimp only [w]
      rw [if_pos (hin j)]
  · rintro f r rfl
    obtain ⟨n1, n2⟩ := nodups hg (hreg r rfl)
    have hin : ∀ j, inLat j ↔ j ∈ r.latIndices := by
      intro j
      dsimp only [inLat]
      unfold inRegion Region.mask
      constructor
      · rintro ⟨i, hi⟩
        simp at hi
        exact hi.1
      · intro hj
        obtain ⟨_, i, hi⟩ := hne
        unfold inRegion Region.mask at hi
        simp at hi
        exact ⟨i, by simp [hj, hi.2]⟩
    refine ⟨_, (mean_some g r f ax).trans (hcore _ _), ?_⟩
    intro l i hl
    unfold Region.lon at hl
    rw [List.getElem?_map] at hl
    have hl' : r.lonIndices[(l : ℕ)]? = some (r.lonIndices.get l) := List.getElem?_eq_getElem _
    rw [hl'] at hl
    simp only [Option.map_some, Option.some.injEq] at hl
    have hli : r.lonIndices.get l = i := Fin.ext ((lon_strictMono hg).injective hl)
    unfold Region.take2 Region.takeLat
    rw [hli, sum_get_eq n1 (fun j : Fin g.nlat => g.gridpointArea j),
      sum_get_eq n1 (fun j => f j i * g.gridpointArea j)]
    congr 1
    · apply sum_congr rfl
      intro j _
      dsimp only [w]
      by_cases hj : j ∈ r.latIndices
      · rw [if_pos hj, if_pos ((hin j).2 hj), mul_comm]
      · rw [if_neg hj, if_neg (fun h => hj ((hin j).1 h)), zero_mul]
    · apply sum_congr rfl
      intro j _
      dsimp only [w]
      by_cases hj : j ∈ r.latIndices
      · rw [if_pos hj, if_pos ((hin j).2 hj)]
      · rw [if_neg hj, if_neg (fun h => hj ((hin j).1 h))]
  · intro f lo hi hb
    apply key.2.2
    intro j hj
    apply hb
    by_contra hc
    dsimp only [w] at hj
    rw [if_neg hc] at hj
    exact lt_irrefl _ hj

/-- Zonal means: one value per latitude of the region, the plain average over the region's longitudes. -/
theorem C11_zonal (g : Grid ℝ) (hg : g.Valid) (reg : Option (Region g)) (hreg : FromSelection reg)
    (hne : ∃ j i, inRegion reg j i) (ax : Axis) (hax : ax.IsZonal) :
    ∃ M : (Fin g.nlon → ℝ) → ℝ,
      (∀ f, reg = none → g.mean (.d2 g.nlat g.nlon f) ax reg = .ok (.d1 g.nlat fun j => M (f j))) ∧
      (∀ f r, reg = some r → ∃ out, g.mean (.d2 g.nlat g.nlon f) ax reg = .ok (.d1 r.shape.1 out) ∧
        ∀ (k : Fin r.shape.1) (j : Fin g.nlat), r.lat[(k : ℕ)]? = some (g.lat j) → out k = M (f j)) ∧
      (∀ a b f h, M (fun j => a * f j + b * h j) = a * M f + b * M h) ∧
      (∀ c, M (fun _ => c) = c) ∧
      (∀ f lo hi, (∀ i, (∃ j, inRegion reg j i) → lo ≤ f i ∧ f i ≤ hi) → lo ≤ M f ∧ M f ≤ hi) := by
  have hcore : ∀ {h w : ℕ} (area : Fin h → ℝ) (f : Fin h → Fin w → ℝ),
      meanCore area f ax = .ok (.d1 h fun j => (∑ i, f j i) / w) := by
    intro h w area f
    rcases hax with rfl | rfl | rfl <;> rfl
  let inLon : Fin g.nlon → Prop := fun i => ∃ j, inRegion reg j i
  have : DecidablePred inLon := fun j => by dsimp only [inLon]; infer_instance
  let w : Fin g.nlon → ℝ := fun i => if inLon i then 1 else 0
  have hw0 : ∀ j, 0 ≤ w j := by
    intro j; dsimp only [w]; split_ifs <;> norm_num
  have hws : 0 < ∑ j, w j := by
    obtain ⟨j, i, hj⟩ := hne
    apply sum_pos' (fun j _ => hw0 j) ⟨i, mem_univ _, ?_⟩
    dsimp only [w]
    rw [if_pos ⟨j, hj⟩]
    norm_num
  have key := weighted_average w hw0 hws (fun f => (∑ j, w j * f j) / ∑ j, w j) (fun _ => rfl)
  refine ⟨fun f => (∑ j, w j * f j) / ∑ j, w j, ?_, ?_, key.1, key.2.1, ?_⟩
  · rintro f rfl
    rw [mean_none, hcore]
    have hin : ∀ i, inLon i := by
      intro i
      obtain ⟨j, _, _⟩ := hne
      exact ⟨j, trivial⟩
    congr 2
    funext j
    congr 1
    · apply sum_congr rfl
      intro i _
      dsimp only [w]
      rw [if_pos (hin i), one_mul]
    · dsimp only [w]
      simp [hin]
  · rintro f r rfl
    obtain ⟨n1, n2⟩ := nodups hg (hreg r rfl)
    have hin : ∀ i, inLon i ↔ i ∈ r.lonIndices := by
      intro i
      dsimp only [inLon]
      unfold inRegion Region.mask
      constructor
      · rintro ⟨i, hi⟩
        simp at hi
        exact hi.2
      · intro hj
        obtain ⟨j, _, hi⟩ := hne
        unfold inRegion Region.mask at hi
        simp at hi
        exact ⟨j, by simp [hj, hi.1]⟩
    refine ⟨_, (mean_some g r f ax).trans (hcore _ _), ?_⟩
    intro k j hk
    unfold Region.lat at hk
    rw [List.getElem?_map] at hk
    have hk' : r.latIndices[(k : ℕ)]? = some (r.latIndices.get k) := List.getElem?_eq_getElem _
    rw [hk'] at hk
    simp only [Option.map_some, Option.some.injEq] at hk
    have hkj : r.latIndices.get k = j := Fin.ext ((lat_strictAnti hg).injective hk)
    have hlen : ((r.lonIndices.length : ℕ) : ℝ) = ∑ i : Fin g.nlon, if i ∈ r.lonIndices then (1 : ℝ) else 0 := by
      rw [← sum_get_eq n2 (fun _ => (1 : ℝ))]
      simp
    unfold Region.take2
    rw [hkj, hlen, sum_get_eq n2 (fun i => f j i)]
    congr 1
    · apply sum_congr rfl
      intro i _
      dsimp only [w]
      by_cases hi : i ∈ r.lonIndices
      · rw [if_pos hi, if_pos ((hin i).2 hi), one_mul]
      · rw [if_neg hi, if_neg (fun h => hi ((hin i).1 h)), zero_mul]
    · apply sum_congr rfl
      intro i _
      dsimp only [w]
      by_cases hi : i ∈ r.lonIndices
      · rw [if_pos hi, if_pos ((hin i).2 hi)]
      · rw [if_neg hi, if_neg (fun h => hi ((hin i).1 h))]
  · intro f lo hi hb
    apply key.2.2
    intro j hj
    apply hb
    by_contra hc
    dsimp only [w] at hj
    rw [if_neg hc] at hj
    exact lt_irrefl _ hj

/-- Permuting the longitudes of a global field (in particular rotating it) leaves the global mean and the zonal means
unchanged and permutes the meridional means. -/
theorem C11_rotation (g : Grid ℝ) (f : Fin g.nlat → Fin g.nlon → ℝ) (σ : Equiv.Perm (Fin g.nlon)) :
    g.mean (.d2 g.nlat g.nlon fun j i => f j (σ i)) .none none = g.mean (.d2 g.nlat g.nlon f) .none none ∧
    (∀ ax : Axis, ax.IsZonal →
      g.mean (.d2 g.nlat g.nlon fun j i => f j (σ i)) ax none = g.mean (.d2 g.nlat g.nlon f) ax none) ∧
    (∀ ax : Axis, ax.IsMeridional → ∃ m : Fin g.nlon → ℝ,
      g.mean (.d2 g.nlat g.nlon f) ax none = .ok (.d1 g.nlon m) ∧
      g.mean (.d2 g.nlat g.nlon fun j i => f j (σ i)) ax none = .ok (.d1 g.nlon fun i => m (σ i))) := by
  refine ⟨?_, ?_, ?_⟩
  · rw [mean_none, mean_none]
    unfold meanCore
    dsimp only
    congr 4
    apply sum_congr rfl
    intro j _
    exact Equiv.sum_comp σ (fun i => f j i * g.gridpointArea j)
  · intro ax hax
    rw [mean_none, mean_none]
    have hcore : ∀ {h w : ℕ} (area : Fin h → ℝ) (f : Fin h → Fin w → ℝ),
        meanCore area f ax = .ok (.d1 h fun j => (∑ i, f j i) / w) := by
      intro h w area f
      rcases hax with rfl | rfl | rfl <;> rfl
    rw [hcore, hcore]
    congr 2
    funext j
    congr 1
    exact Equiv.sum_comp σ (fun i => f j i)
  · intro ax hax
    rw [mean_none, mean_none]
    have hcore : ∀ {h w : ℕ} (area : Fin h → ℝ) (f : Fin h → Fin w → ℝ),
        meanCore area f ax = .ok (.d1 w fun i => (∑ j, f j i * area j) / ∑ j, area j) := by
      intro h w area f
      rcases hax with rfl | rfl | rfl <;> rfl
    rw [hcore, hcore]
    exact ⟨_, rfl, rfl⟩

/-- The mean is the area-weighted mean of the zonal means and the plain average of the meridional means. -/
theorem C11_iterated (g : Grid ℝ) (r : Region g) (reg : Option (Region g)) (hreg : reg = none ∨ reg = some r)
    (f : Fin g.nlat → Fin g.nlon → ℝ) (axz axm : Axis) (hz : axz.IsZonal) (hm : axm.IsMeridional) :
    ∃ (h w : ℕ) (m : ℝ) (z : Fin h → ℝ) (y : Fin w → ℝ) (area : Fin h → ℝ),
      g.mean (.d2 g.nlat g.nlon f) .none reg = .ok (.d0 m) ∧
      g.mean (.d2 g.nlat g.nlon f) axz reg = .ok (.d1 h z) ∧
      g.mean (.d2 g.nlat g.nlon f) axm reg = .ok (.d1 w y) ∧
      (reg = none → List.ofFn area = (List.range g.nlat).map g.gridpointArea) ∧
      (reg = some r → r.extract [.d1 g.nlat fun j => g.gridpointArea j] = .ok [.d1 h area]) ∧
      m = (∑ k, area k * z k) / ∑ k, area k ∧ m = (∑ l, y l) / w := by
  have hcorez : ∀ {h w : ℕ} (area : Fin h → ℝ) (f : Fin h → Fin w → ℝ),
      meanCore area f axz = .ok (.d1 h fun j => (∑ i, f j i) / w) := by
    intro h w area f
    rcases hz with rfl | rfl | rfl <;> rfl
  have hcorem : ∀ {h w : ℕ} (area : Fin h → ℝ) (f : Fin h → Fin w → ℝ),
      meanCore area f axm = .ok (.d1 w fun i => (∑ j, f j i * area j) / ∑ j, area j) := by
    intro h w area f
    rcases hm with rfl | rfl | rfl <;> rfl
  have alg1 : ∀ {h w : ℕ} (area : Fin h → ℝ) (f : Fin h → Fin w → ℝ),
      (∑ j, ∑ i, f j i * area j) / (∑ j, area j) / w = (∑ k, area k * ((∑ i, f k i) / w)) / ∑ k, area k := by
    intro h w area f
    rw [div_right_comm]
    congr 1
    rw [sum_div]
    apply sum_congr rfl
    intro j _
    rw [← sum_mul]
    ring
  have alg2 : ∀ {h w : ℕ} (area : Fin h → ℝ) (f : Fin h → Fin w → ℝ),
      (∑ j, ∑ i, f j i * area j) / (∑ j, area j) / w = (∑ l, (∑ j, f j l * area j) / ∑ j, area j) / w := by
    intro h w area f
    rw [← sum_div, sum_comm]
  rcases hreg with rfl | rfl
  · refine ⟨g.nlat, g.nlon, _, _, _, fun j => g.gridpointArea j, mean_none g f .none,
      (mean_none g f axz).trans (hcorez _ _), (mean_none g f axm).trans (hcorem _ _), ?_, ?_, ?_, ?_⟩
    · intro _
      apply List.ext_getElem <;> simp
    · intro h; simp at h
    · exact alg1 _ _
    · exact alg2 _ _
  · refine ⟨r.shape.1, r.shape.2, _, _, _, r.takeLat fun j => g.gridpointArea j, mean_some g r f .none,
      (mean_some g r f axz).trans (hcorez _ _), (mean_some g r f axm).trans (hcorem _ _), ?_, ?_, ?_, ?_⟩
    · intro h; simp at h
    · intro _
      unfold Region.extract
      dsimp only
      rw [List.mapM_cons, List.mapM_nil]
      simp only [Region.extractOne, dif_pos]
      rfl
    · exact alg1 _ _
    · exact alg2 _ _

/-- What `mean` rejects: a field of the wrong shape (AssertionError), then an unknown axis (ValueError). -/
theorem C11_errors (g : Grid ℝ) (field : Arr ℝ) (hwf : field.WF) (ax : Axis) (reg : Option (Region g)) :
    let shapeOk := field.shape = [g.nlat, g.nlon] ∨ ∃ r, reg = some r ∧ field.shape = [r.shape.1, r.shape.2]
    let axisOk := ax = .none ∨ ax.IsMeridional ∨ ax.IsZonal
    (¬ shapeOk → g.mean field ax reg = .error .assertionError) ∧
    (shapeOk → ¬ axisOk → g.mean field ax reg = .error .valueError) ∧
    (shapeOk → axisOk → ∃ out, g.mean field ax reg = .ok out) := by
  intro shapeOk axisOk
  have hbad : ¬ axisOk → ∀ {h w : ℕ} (area : Fin h → ℝ) (f : Fin h → Fin w → ℝ),
      meanCore area f ax = .error .valueError := by
    intro hax h w area f
    unfold meanCore
    split
    all_goals first
      | rfl
      | exact (hax (by simp [axisOk, Axis.IsMeridional, Axis.IsZonal])).elim
  have hgood : axisOk → ∀ {h w : ℕ} (area : Fin h → ℝ) (f : Fin h → Fin w → ℝ),
      ∃ out, meanCore area f ax = .ok out := by
    intro hax h w area f
    rcases hax with rfl | (rfl | rfl | rfl) | (rfl | rfl | rfl) <;> exact ⟨_, rfl⟩
  cases reg with
  | none =>
    cases field with
    | nd s =>
      have : ¬ shapeOk := by
        have : 3 ≤ s.length := hwf
        rintro (h | ⟨r', hr, h⟩) <;> simp only [Arr.shape] at h <;> rw [h] at this <;> simp at this
      exact ⟨fun _ => rfl, fun h => (this h).elim, fun h => (this h).elim⟩
    | d0 x => exact ⟨fun _ => rfl, fun h => by simp [shapeOk, Arr.shape] at h, fun h => by simp [shapeOk, Arr.shape] at h⟩
    | d1 n v => exact ⟨fun _ => rfl, fun h => by simp [shapeOk, Arr.shape] at h, fun h => by simp [shapeOk, Arr.shape] at h⟩
    | d2 h w f =>
      by_cases hs : h = g.nlat ∧ w = g.nlon
      · obtain ⟨rfl, rfl⟩ := hs
        rw [mean_none]
        refine ⟨fun h => (h (.inl rfl)).elim, fun _ ha => hbad ha _ _, fun _ ha => hgood ha _ _⟩
      · have : ¬ shapeOk := by
          simp only [shapeOk, Arr.shape]
          simpa using hs
        refine ⟨fun _ => ?_, fun h => (this h).elim, fun h => (this h).elim⟩
        unfold Grid.mean
        dsimp only
        rw [dif_neg hs]
  | some r =>
    cases field with
    | nd s =>
      have hl : 3 ≤ s.length := hwf
      have hne : ¬ (Arr.nd s : Arr ℝ).shape = [g.nlat, g.nlon] := by
        intro h; simp only [Arr.shape] at h; rw [h] at hl; simp at hl
      have : ¬ shapeOk := by
        rintro (h | ⟨r', hr, h⟩) <;> simp only [Arr.shape] at h <;> rw [h] at hl <;> simp at hl
      refine ⟨fun _ => ?_, fun h => (this h).elim, fun h => (this h).elim⟩
      unfold Grid.mean
      dsimp only
      rw [if_neg hne]
    | d0 x =>
      have : ¬ shapeOk := by simp [shapeOk, Arr.shape]
      refine ⟨fun _ => ?_, fun h => (this h).elim, fun h => (this h).elim⟩
      unfold Grid.mean
      dsimp only
      rw [if_neg (by simp [Arr.shape])]
    | d1 n v =>
      have : ¬ shapeOk := by simp [shapeOk, Arr.shape]
      refine ⟨fun _ => ?_, fun h => (this h).elim, fun h => (this h).elim⟩
      unfold Grid.mean
      dsimp only
      rw [if_neg (by simp [Arr.shape])]
    | d2 h w f =>
      by_cases hs : h = g.nlat ∧ w = g.nlon
      · obtain ⟨rfl, rfl⟩ := hs
        rw [mean_some]
        exact ⟨fun h => (h (.inl rfl)).elim, fun _ ha => hbad ha _ _, fun _ ha => hgood ha _ _⟩
      · by_cases hs2 : h = r.shape.1 ∧ w = r.shape.2
        · obtain ⟨rfl, rfl⟩ := hs2
          rw [mean_some_extracted g r (by intro h; apply hs; rw [h]; exact ⟨rfl, rfl⟩)]
          exact ⟨fun h => (h (.inr ⟨r, rfl, rfl⟩)).elim, fun _ ha => hbad ha _ _, fun _ ha => hgood ha _ _⟩
        · have : ¬ shapeOk := by
            simp only [shapeOk, Arr.shape]
            rintro (h | ⟨r', hr, h⟩)
            · simp at h; exact hs h
            · simp only [Option.some.injEq] at hr
              subst hr
              simp at h; exact hs2 h
          refine ⟨fun _ => ?_, fun h => (this h).elim, fun h => (this h).elim⟩
          unfold Grid.mean
          dsimp only
          rw [if_neg (by simpa [Arr.shape] using hs), dif_neg hs2]

/-- `GridRegion.mean` is `Grid.mean` restricted to the region. -/
theorem C11_region_mean (g : Grid ℝ) (r : Region g) (field : Arr ℝ) :
    r.mean field = g.mean field .none (some r) := rfl

/-! ## C12 -/

/-- Full claim: `mean(extract(f), axis, region) = mean(f, axis, region)` for all regions and axes. It holds whenever
the region's shape differs from the grid's, or the region is not wrapped around the date line, or no meridional mean is
asked for; missing is exactly the case refuted below. -/
theorem C12_extracted_partial (g : Grid ℝ) (hg : g.Valid) (sel : Selection ℝ) (r : Region g)
    (hr : g.region sel = .ok r) (f : Fin g.nlat → Fin g.nlon → ℝ) (ax : Axis) (ex : Arr ℝ)
    (hex : r.extract [.d2 g.nlat g.nlon f] = .ok [ex])
    (h : r.shape ≠ g.shape ∨ r.lon.Pairwise (· < ·) ∨ ¬ ax.IsMeridional) :
    g.mean ex ax (some r) = g.mean (.d2 g.nlat g.nlon f) ax (some r) := by
  rw [extract_d2] at hex
  injection hex with hex
  injection hex with hex
  subst hex
  by_cases hs : r.shape = g.shape
  · -- the extracted field is extracted once more
    have hlat : r.latIndices.length = g.nlat := congrArg Prod.fst hs
    have hlon : r.lonIndices.length = g.nlon := congrArg Prod.snd hs
    have hsl := region_lat_sorted hg hr
    have n2 := (region_lon_twoRuns hg hr).nodup
    have el : r.latIndices = List.finRange g.nlat := sorted_full hsl hlat
    let F' : Fin g.nlat → Fin g.nlon → ℝ := fun j i => r.take2 f (Fin.cast hlat.symm j) (Fin.cast hlon.symm i)
    have hcast : (Arr.d2 r.shape.1 r.shape.2 (r.take2 f)) = .d2 g.nlat g.nlon F' := by
      have gen : ∀ (a b c d : ℕ) (hac : c = a) (hbd : d = b) (v : Fin a → Fin b → ℝ),
          Arr.d2 a b v = .d2 c d fun j i => v (Fin.cast hac j) (Fin.cast hbd i) := by
        intro a b c d hac hbd v
        subst hac hbd
        rfl
      exact gen _ _ _ _ hlat.symm hlon.symm _
    rw [hcast, mean_some, mean_some]
    have hget : ∀ k : Fin r.latIndices.length, Fin.cast hlat.symm (r.latIndices.get k) = k := by
      intro k
      apply Fin.ext
      have : ∀ (l : List (Fin g.nlat)), l = List.finRange g.nlat → ∀ k : Fin l.length, ((l.get k : Fin _) : ℕ) = k := by
        rintro l rfl k
        simp
      simpa using this _ el k
    have hF' : ∀ k l, r.take2 F' k l =
        f (r.latIndices.get k) (r.lonIndices.get (Fin.cast hlon.symm (r.lonIndices.get l))) := by
      intro k l
      unfold Region.take2
      dsimp only [F']
      unfold Region.take2
      rw [hget]
    have hsum : ∀ (F : Fin g.nlon → ℝ), ∑ l, F (r.lonIndices.get (Fin.cast hlon.symm (r.lonIndices.get l)))
        = ∑ l, F (r.lonIndices.get l) := by
      intro F
      rw [sum_get_full n2 hlon (fun i => F (r.lonIndices.get (Fin.cast hlon.symm i)))]
      exact Equiv.sum_comp (finCongr hlon.symm) (fun l => F (r.lonIndices.get l))
    by_cases hax : ax.IsMeridional
    · rcases h with h | h | h
      · exact (h hs).elim
      · have hsl' : r.lonIndices.Pairwise (· < ·) := by
          unfold Region.lon at h
          rw [List.pairwise_map] at h
          exact h.imp (fun {a b} hab => (lon_strictMono hg).lt_iff_lt.1 hab)
        have el' : r.lonIndices = List.finRange g.nlon := sorted_full hsl' hlon
        have hget' : ∀ l : Fin r.lonIndices.length, Fin.cast hlon.symm (r.lonIndices.get l) = l := by
          intro k
          apply Fin.ext
          have : ∀ (l : List (Fin g.nlon)), l = List.finRange g.nlon → ∀ k : Fin l.length, ((l.get k : Fin _) : ℕ) = k := by
            rintro l rfl k
            simp
          simpa using this _ el' k
        have : r.take2 F' = r.take2 f := by
          funext k l
          rw [hF', hget']
          rfl
        rw [this]
      · exact (h hax).elim
    · unfold meanCore
      split
      · congr 4
        apply sum_congr rfl
        intro k _
        simp only [hF']
        exact hsum (fun i => f (r.latIndices.get k) i * r.takeLat (fun j : Fin g.nlat => g.gridpointArea j) k)
      · exact (hax (.inl rfl)).elim
      · exact (hax (.inr (.inl rfl))).elim
      · exact (hax (.inr (.inr rfl))).elim
      all_goals first
        | rfl
        | (congr 2
           funext k
           congr 1
           simp only [hF']
           exact hsum (fun i => f (r.latIndices.get k) i))
  · exact (mean_some_extracted g r hs (r.take2 f) ax).trans (mean_some g r f ax).symm

private theorem finRange_cast {n m : ℕ} (h : n = m) : List.finRange m = (List.finRange n).map (Fin.cast h) := by
  subst h; simp

private theorem region90 : ∃ r, (⟨90, 1, 1, 2⟩ : Grid ℝ).region (.single (.slice (.num 180) (.num 90) false)) = .ok r ∧
    r.lon = [180, 270, 0, 90] ∧ r.lat = [90, 0, -90] := by
  obtain ⟨hv, h3, h4⟩ := valid90
  have hlon : (⟨90, 1, 1, 2⟩ : Grid ℝ).getLonIndices (.slice (.num 180) (.num 90) false) =
      .ok ((⟨90, 1, 1, 2⟩ : Grid ℝ).lonSlice (some 180) (some 90)) := rfl
  have hlat : (⟨90, 1, 1, 2⟩ : Grid ℝ).getLatIndices (.slice .none .none false) =
      .ok (List.finRange _) := rfl
  refine ⟨_, by rw [region_eq hv]; dsimp only [selComponents]; rw [hlon, hlat], ?_, ?_⟩
  · unfold Region.lon
    dsimp only
    rw [lonSlice_wrap hv (by norm_num), finRange_cast h4.symm]
    simp only [List.finRange_succ, List.finRange_zero, List.map_cons, List.map_nil, List.filter_cons, lon_eq, h4,
      List.filter_nil, List.map_append]
    norm_num
  · unfold Region.lat
    dsimp only
    rw [finRange_cast h3.symm]
    simp only [List.finRange_succ, List.finRange_zero, List.map_cons, List.map_nil, lat_eq hv, h3]
    norm_num

/-- The unconditional claim is false: for the full-globe region `region[180:90]` on a 90° grid the meridional mean of
the extracted field differs from the meridional mean of the original field, because `mean` extracts it again. -/
theorem C12_extracted_refuted :
    ∃ (g : Grid ℝ) (sel : Selection ℝ) (r : Region g) (f : Fin g.nlat → Fin g.nlon → ℝ) (ex : Arr ℝ),
      g.Valid ∧ g.region sel = .ok r ∧ r.extract [.d2 g.nlat g.nlon f] = .ok [ex] ∧
      g.mean ex (.str "meridional") (some r) ≠ g.mean (.d2 g.nlat g.nlon f) (.str "meridional") (some r) := by
  obtain ⟨hv, h3, h4⟩ := valid90
  obtain ⟨r, hr, hlon, hlat⟩ := region90
  generalize hg : (⟨90, 1, 1, 2⟩ : Grid ℝ) = g at *
  have hl4 : r.lonIndices.length = g.nlon := by
    have : r.lon.length = 4 := by rw [hlon]; rfl
    have h5 : r.lonIndices.length = r.lon.length := by simp [Region.lon]
    omega
  have hl3 : r.latIndices.length = g.nlat := by
    have : r.lat.length = 3 := by rw [hlat]; rfl
    have h5 : r.latIndices.length = r.lat.length := by simp [Region.lat]
    omega
  let f : Fin g.nlat → Fin g.nlon → ℝ := fun _ i => g.lon i
  let F' : Fin g.nlat → Fin g.nlon → ℝ := fun j i => r.take2 f (Fin.cast hl3.symm j) (Fin.cast hl4.symm i)
  refine ⟨g, _, r, f, .d2 g.nlat g.nlon F', hv, hr, ?_, ?_⟩
  · rw [extract_d2]
    have gen : ∀ (a b c d : ℕ) (hac : c = a) (hbd : d = b) (v : Fin a → Fin b → ℝ),
        Arr.d2 a b v = .d2 c d fun j i => v (Fin.cast hac j) (Fin.cast hbd i) := by
      intro a b c d hac hbd v
      subst hac hbd
      rfl
    have := gen _ _ _ _ hl3.symm hl4.symm (r.take2 f)
    exact congrArg (fun x => Except.ok [x]) this
  · have hne : ∃ j i, inRegion (some r) j i := by
      refine ⟨r.latIndices.get ⟨0, by omega⟩, r.lonIndices.get ⟨0, by omega⟩, ?_⟩
      simp [inRegion, Region.mask]
    obtain ⟨M, -, hM, -, hconst, -⟩ := C11_meridional g hv (some r)
      (fun r' h => ⟨.single (.slice (.num 180) (.num 90) false), by
        simp only [Option.some.injEq] at h; rw [← h]; exact hr⟩) hne (.str "meridional")
      (.inr (.inr rfl))
    obtain ⟨o1, e1, v1⟩ := hM f r rfl
    obtain ⟨o2, e2, v2⟩ := hM F' r rfl
    rw [e1, e2]
    intro h
    injection h with h
    injection h with _ h
    have h := congrFun h ⟨0, by show 0 < r.lonIndices.length; omega⟩
    have l2 : g.lon 2 = 180 := by rw [lon_eq, h4]; norm_num
    have l0 : r.lon[0]? = some (g.lon ((⟨2, by omega⟩ : Fin g.nlon) : ℕ)) := by rw [hlon, l2]; rfl
    have a1 := v1 ⟨0, by show 0 < r.lonIndices.length; omega⟩ ⟨2, by omega⟩ l0
    have a2 := v2 ⟨0, by show 0 < r.lonIndices.length; omega⟩ ⟨2, by omega⟩ l0
    have b1 : o1 ⟨0, by show 0 < r.lonIndices.length; omega⟩ = 180 := by
      rw [a1, ← l2]; exact hconst _
    have b2 : o2 ⟨0, by show 0 < r.lonIndices.length; omega⟩ = 0 := by
      rw [a2]
      have : (fun j => F' j ⟨2, by omega⟩) = fun _ => (0 : ℝ) := by
        funext j
        show g.lon (r.lonIndices.get ⟨2, by omega⟩) = 0
        have h5 : r.lon[2]? = some 0 := by rw [hlon]; rfl
        unfold Region.lon at h5
        rw [List.getElem?_map, List.getElem?_eq_getElem (by omega)] at h5
        simpa using h5
      rw [this]
      exact hconst 0
    rw [b1, b2] at h
    norm_num at h

/-- Non-vacuity of the C11/C12 theorems: a valid grid with a non-empty region made by a selection. -/
example : ∃ (g : Grid ℝ) (r : Region g), g.Valid ∧ FromSelection (some r) ∧ ∃ j i, inRegion (some r) j i := by
  obtain ⟨r, hr, hlon, hlat⟩ := region90
  refine ⟨_, r, valid90.1, fun r' h => ⟨.single (.slice (.num 180) (.num 90) false), by
        simp only [Option.some.injEq] at h; rw [← h]; exact hr⟩, ?_⟩
  have h1 : r.lonIndices.length = 4 := by
    have : r.lon.length = 4 := by rw [hlon]; rfl
    rw [← this]; simp [Region.lon]
  have h2 : r.latIndices.length = 3 := by
    have : r.lat.length = 3 := by rw [hlat]; rfl
    rw [← this]; simp [Region.lat]
  exact ⟨r.latIndices.get ⟨0, by omega⟩, r.lonIndices.get ⟨0, by omega⟩, by simp [inRegion, Region.mask]⟩

end Barotropic
