import Verif.Lemmas.Region
import Verif.Spec.Region
import Verif.Model.GridReal
import Mathlib.Data.Rat.Floor

/-!
# C05–C09: region selection
-/

set_option linter.unusedSectionVars false

namespace Barotropic
variable {K : Type*} [Field K] [LinearOrder K] [IsStrictOrderedRing K] [FloorRing K]

open Grid

/-! ## C05 -/

private theorem checkSlice_opt (a b : Option K) :
    checkSlice (.slice (optBound a) (optBound b) false) = .ok (a, b) := by
  cases a <;> cases b <;> rfl

private theorem mem_latSlice (g : Grid K) (a b : Option K) (j : Fin g.nlat) :
    j ∈ g.latSlice a b ↔ InLatRange a b (g.lat j) := by
  rcases a with _ | a <;> rcases b with _ | b
  · simp [latSlice, InLatRange]
  · simp [latSlice, InLatRange]
  · simp [latSlice, InLatRange]
  · simp only [latSlice, InLatRange, List.mem_filter, List.mem_finRange, true_and, decide_eq_true_eq,
      min_le_iff, le_max_iff]
    constructor
    · rintro ⟨h1, h2⟩
      rcases le_total a b with h | h
      · left; constructor
        · rcases h1 with h1 | h1 <;> linarith
        · rcases h2 with h2 | h2 <;> linarith
      · right; constructor
        · rcases h1 with h1 | h1 <;> linarith
        · rcases h2 with h2 | h2 <;> linarith
    · rintro (⟨h1, h2⟩ | ⟨h1, h2⟩)
      · exact ⟨.inl h1, .inr h2⟩
      · exact ⟨.inr h1, .inl h2⟩

private theorem getLat_slice (g : Grid K) (a b : Option K) :
    g.getLatIndices (.slice (optBound a) (optBound b) false) = .ok (g.latSlice a b) := by
  unfold getLatIndices
  dsimp only
  rw [checkSlice_opt]

private theorem getLon_slice (g : Grid K) (a b : Option K) :
    g.getLonIndices (.slice (optBound a) (optBound b) false) = .ok (g.lonSlice a b) := by
  unfold getLonIndices
  dsimp only
  rw [checkSlice_opt]

/-- The latitudes of a region: exactly those grid latitudes satisfying `P`, from north to south. -/
private theorem lat_spec {g : Grid K} (hg : g.Valid) {r : Region g} {P : K → Prop}
    (hs : r.latIndices.Pairwise (· < ·)) (h : ∀ j, j ∈ r.latIndices ↔ P (g.lat j)) :
    r.lat.Pairwise (· > ·) ∧ ∀ x, x ∈ r.lat ↔ (∃ j < g.nlat, x = g.lat j) ∧ P x := by
  refine ⟨lat_pairwise hg hs, ?_⟩
  intro x
  unfold Region.lat
  rw [List.mem_map]
  constructor
  · rintro ⟨j, hj, rfl⟩
    exact ⟨⟨j, j.2, rfl⟩, (h j).1 hj⟩
  · rintro ⟨⟨j, hj, rfl⟩, hP⟩
    exact ⟨⟨j, hj⟩, (h ⟨j, hj⟩).2 hP, rfl⟩

/-- `region[:, a:b]`: exists, and has exactly the grid latitudes of the closed range, north to south. -/
theorem C05_latitude_slice (g : Grid K) (hg : g.Valid) (a b : Option K) (lonSel : Sel K) :
    (∃ r, g.region (.tuple [.slice .none .none false, .slice (optBound a) (optBound b) false]) = .ok r) ∧
    ∀ r, g.region (.tuple [lonSel, .slice (optBound a) (optBound b) false]) = .ok r →
      r.lat.Pairwise (· > ·) ∧ (∀ x, x ∈ r.lat ↔ (∃ j < g.nlat, x = g.lat j) ∧ InLatRange a b x) := by
  constructor
  · rw [region_eq hg]
    dsimp only [selComponents]
    rw [show (Sel.slice Bound.none Bound.none false : Sel K)
      = .slice (optBound none) (optBound none) false from rfl, getLon_slice, getLat_slice]
    exact ⟨_, rfl⟩
  · intro r hr
    obtain ⟨s0, s1, hs, -, h1⟩ := region_ok hg hr
    simp only [selComponents, Option.some.injEq, Prod.mk.injEq] at hs
    rw [← hs.2, getLat_slice] at h1
    injection h1 with h1
    refine lat_spec hg (region_lat_sorted hg hr) ?_
    intro j
    rw [← h1]
    exact mem_latSlice g a b j

/-- Swapping the two bounds gives the same region. -/
theorem C05_swap (g : Grid K) (a b : K) (lonSel : Sel K) :
    g.region (.tuple [lonSel, .slice (.num a) (.num b) false]) =
    g.region (.tuple [lonSel, .slice (.num b) (.num a) false]) := by
  have : g.getLatIndices (.slice (.num a) (.num b) false) = g.getLatIndices (.slice (.num b) (.num a) false) := by
    have h1 := getLat_slice g (some a) (some b)
    have h2 := getLat_slice g (some b) (some a)
    dsimp only [optBound] at h1 h2
    rw [h1, h2]
    unfold latSlice
    dsimp only
    rw [min_comm, max_comm]
  unfold Grid.region
  dsimp only
  rw [this]

/-- `"N"` and `"S"` are the closed hemispheres. -/
theorem C05_hemispheres (g : Grid K) (hg : g.Valid) (lonSel : Sel K) :
    (∀ r, g.region (.tuple [lonSel, .str "N"]) = .ok r →
      r.lat.Pairwise (· > ·) ∧ ∀ x, x ∈ r.lat ↔ (∃ j < g.nlat, x = g.lat j) ∧ 0 ≤ x) ∧
    (∀ r, g.region (.tuple [lonSel, .str "S"]) = .ok r →
      r.lat.Pairwise (· > ·) ∧ ∀ x, x ∈ r.lat ↔ (∃ j < g.nlat, x = g.lat j) ∧ x ≤ 0) ∧
    (∃ r, g.region (.tuple [.slice .none .none false, .str "N"]) = .ok r) ∧
    (∃ r, g.region (.tuple [.slice .none .none false, .str "S"]) = .ok r) := by
  have hN : g.getLatIndices (.str "N") = .ok (g.latSlice (some 0) (some 90)) := rfl
  have hS : g.getLatIndices (.str "S") = .ok (g.latSlice (some (-90)) (some 0)) := rfl
  have hlon := getLon_slice g none none
  dsimp only [optBound] at hlon
  refine ⟨?_, ?_, ?_, ?_⟩
  · intro r hr
    obtain ⟨s0, s1, hs, -, h1⟩ := region_ok hg hr
    simp only [selComponents, Option.some.injEq, Prod.mk.injEq] at hs
    rw [← hs.2, hN] at h1
    injection h1 with h1
    refine lat_spec hg (P := fun x => 0 ≤ x) (region_lat_sorted hg hr) ?_
    intro j
    rw [← h1, mem_latSlice]
    have := lat_mem hg j.2
    unfold InLatRange
    dsimp only
    constructor
    · rintro (h | h) <;> linarith [h.1, h.2]
    · intro h; exact .inl ⟨h, this.2⟩
  · intro r hr
    obtain ⟨s0, s1, hs, -, h1⟩ := region_ok hg hr
    simp only [selComponents, Option.some.injEq, Prod.mk.injEq] at hs
    rw [← hs.2, hS] at h1
    injection h1 with h1
    refine lat_spec hg (P := fun x => x ≤ 0) (region_lat_sorted hg hr) ?_
    intro j
    rw [← h1, mem_latSlice]
    have := lat_mem hg j.2
    unfold InLatRange
    dsimp only
    constructor
    · rintro (h | h) <;> linarith [h.1, h.2]
    · intro h; exact .inl ⟨this.1, h⟩
  · rw [region_eq hg]
    dsimp only [selComponents]
    rw [hlon, hN]
    exact ⟨_, rfl⟩
  · rw [region_eq hg]
    dsimp only [selComponents]
    rw [hlon, hS]
    exact ⟨_, rfl⟩

/-! ## C06 -/

private theorem lon_spec {g : Grid K} {l : List (Fin g.nlon)} {P : K → Prop}
    (h : ∀ i, i ∈ l ↔ P (g.lon i)) (x : K) :
    x ∈ (l.map fun i : Fin g.nlon => g.lon i) ↔ (∃ i < g.nlon, x = g.lon i) ∧ P x := by
  rw [List.mem_map]
  constructor
  · rintro ⟨j, hj, rfl⟩
    exact ⟨⟨j, j.2, rfl⟩, (h j).1 hj⟩
  · rintro ⟨⟨j, hj, rfl⟩, hP⟩
    exact ⟨⟨j, hj⟩, (h ⟨j, hj⟩).2 hP, rfl⟩

private theorem region_lon_slice {g : Grid K} (hg : g.Valid) {a b : Option K} {sel : Selection K} {r : Region g}
    (hs : (selComponents sel).map Prod.fst = some (.slice (optBound a) (optBound b) false))
    (hr : g.region sel = .ok r) : r.lonIndices = g.lonSlice a b := by
  obtain ⟨s0, s1, hs', h0, -⟩ := region_ok hg hr
  rw [hs'] at hs
  simp only [Option.map_some, Option.some.injEq] at hs
  rw [hs, getLon_slice] at h0
  injection h0 with h0
  exact h0.symm

/-- `region[a:b]` and `region[a:b, latSel]`: exactly the grid longitudes on the eastward arc from `a` to `b`, each
once. If the arc does not wrap, they are increasing; if it wraps (`b < a`), the eastern part (`≥ a`) comes first and
the western part (`≤ b`) second, each increasing. -/
theorem C06_longitude_slice (g : Grid K) (hg : g.Valid) (a b : Option K) :
    (∃ r, g.region (.single (.slice (optBound a) (optBound b) false)) = .ok r) ∧
    ∀ sel r, (sel = .single (.slice (optBound a) (optBound b) false) ∨
        ∃ latSel, sel = .tuple [.slice (optBound a) (optBound b) false, latSel]) →
      g.region sel = .ok r →
      r.lon.Nodup ∧
      (∀ x, x ∈ r.lon ↔ (∃ i < g.nlon, x = g.lon i) ∧ InLonArc a b x) ∧
      ((∀ a' b', a = some a' → b = some b' → a' ≤ b') → r.lon.Pairwise (· < ·)) ∧
      (∀ a' b', a = some a' → b = some b' → b' < a' →
        ∃ east west, r.lon = east ++ west ∧ east.Pairwise (· < ·) ∧ west.Pairwise (· < ·) ∧
          (∀ x, x ∈ east ↔ (∃ i < g.nlon, x = g.lon i) ∧ a' ≤ x) ∧
          (∀ x, x ∈ west ↔ (∃ i < g.nlon, x = g.lon i) ∧ x ≤ b')) := by
  constructor
  · rw [region_eq hg]
    dsimp only [selComponents]
    rw [show (Sel.slice Bound.none Bound.none false : Sel K)
      = .slice (optBound none) (optBound none) false from rfl, getLon_slice, getLat_slice]
    exact ⟨_, rfl⟩
  · intro sel r hsel hr
    have hidx : r.lonIndices = g.lonSlice a b := by
      apply region_lon_slice hg _ hr
      rcases hsel with rfl | ⟨l, rfl⟩ <;> rfl
    have hinj : Function.Injective (fun i : Fin g.nlon => g.lon i) := by
      intro i j hij
      exact Fin.ext ((lon_strictMono hg).injective hij)
    refine ⟨?_, ?_, ?_, ?_⟩
    · exact (region_lon_twoRuns hg hr).nodup.map hinj
    · unfold Region.lon
      rw [hidx]
      apply lon_spec
      intro i
      rcases a with _ | a <;> rcases b with _ | b
      · simp [lonSlice, InLonArc]
      · simp [lonSlice, InLonArc]
      · simp [lonSlice, InLonArc]
      · by_cases hab : b < a
        · rw [lonSlice_wrap hg hab]
          simp [InLonArc, not_le.2 hab]
        · simp [lonSlice, InLonArc, hab, not_lt.1 hab]
    · intro hab
      unfold Region.lon
      rw [hidx]
      apply lon_pairwise hg
      rcases a with _ | a <;> rcases b with _ | b
      · exact List.pairwise_lt_finRange _
      · exact finRange_filter_pairwise _
      · exact finRange_filter_pairwise _
      · have := not_lt.2 (hab a b rfl rfl)
        unfold lonSlice
        dsimp only
        rw [if_neg this]
        exact finRange_filter_pairwise _
    · rintro a' b' rfl rfl hab
      refine ⟨((List.finRange g.nlon).filter fun i : Fin g.nlon => decide (a' ≤ g.lon i)).map
          fun i : Fin g.nlon => g.lon i,
        ((List.finRange g.nlon).filter fun i : Fin g.nlon => decide (g.lon i ≤ b')).map
          fun i : Fin g.nlon => g.lon i, ?_, ?_, ?_, ?_, ?_⟩
      · unfold Region.lon
        rw [hidx, lonSlice_wrap hg hab, List.map_append]
      · exact lon_pairwise hg (finRange_filter_pairwise _)
      · exact lon_pairwise hg (finRange_filter_pairwise _)
      · apply lon_spec
        intro i; simp
      · apply lon_spec
        intro i; simp

/-! ## C07 -/

/-- Selections never trip the assertions of `GridRegion.__init__`. -/
theorem C07_no_assertion (g : Grid K) (hg : g.Valid) (sel : Selection K) :
    g.region sel ≠ .error .assertionError := by
  have hc : ∀ s : Sel K, checkSlice s ≠ .error .assertionError := by
    intro s
    unfold checkSlice
    repeat' split
    all_goals simp
  have hlon : ∀ s : Sel K, g.getLonIndices s ≠ .error .assertionError := by
    intro s
    unfold getLonIndices
    split
    · dsimp only; split <;> simp
    · split
      · rename_i e he
        intro h
        injection h with h
        subst h
        exact hc _ he
      · simp
  have hlat : ∀ s : Sel K, g.getLatIndices s ≠ .error .assertionError := by
    intro s
    unfold getLatIndices
    split
    · dsimp only; split <;> simp
    · dsimp only
      split
      · rename_i e he
        intro h
        injection h with h
        subst h
        exact hc _ he
      · simp
  rw [region_eq hg]
  split
  · simp
  · rename_i s0 s1 _
    split
    · rename_i e he
      intro h; injection h with h; subst h
      exact hlon _ he
    · split
      · rename_i e he
        intro h; injection h with h; subst h
        exact hlat _ he
      · simp

/-- The mask marks exactly the selected coordinate pairs; the number of marked cells is the product of the shape;
the shape is the pair of coordinate lengths. -/
theorem C07_mask (g : Grid K) (hg : g.Valid) (sel : Selection K) (r : Region g) (hr : g.region sel = .ok r) :
    (∀ (j : Fin g.nlat) (i : Fin g.nlon), r.mask j i = true ↔ g.lat j ∈ r.lat ∧ g.lon i ∈ r.lon) ∧
    r.shape = (r.lat.length, r.lon.length) ∧
    (Finset.univ.filter fun p : Fin g.nlat × Fin g.nlon => r.mask p.1 p.2 = true).card = r.shape.1 * r.shape.2 := by
  have hlatinj : ∀ j : Fin g.nlat, g.lat j ∈ r.lat ↔ j ∈ r.latIndices := by
    intro j
    unfold Region.lat
    rw [List.mem_map]
    constructor
    · rintro ⟨k, hk, h⟩
      rwa [← Fin.ext ((lat_strictAnti hg).injective h)]
    · intro h; exact ⟨j, h, rfl⟩
  have hloninj : ∀ j : Fin g.nlon, g.lon j ∈ r.lon ↔ j ∈ r.lonIndices := by
    intro j
    unfold Region.lon
    rw [List.mem_map]
    constructor
    · rintro ⟨k, hk, h⟩
      rwa [← Fin.ext ((lon_strictMono hg).injective h)]
    · intro h; exact ⟨j, h, rfl⟩
  refine ⟨?_, ?_, ?_⟩
  · intro j i
    rw [hlatinj, hloninj]
    simp [Region.mask]
  · simp [Region.shape, Region.lat, Region.lon]
  · have h1 : (Finset.univ.filter fun p : Fin g.nlat × Fin g.nlon => r.mask p.1 p.2 = true)
        = r.latIndices.toFinset ×ˢ r.lonIndices.toFinset := by
      ext p
      simp [Region.mask]
    rw [h1, Finset.card_product,
      List.toFinset_card_of_nodup ((region_lat_sorted hg hr).imp (fun h => h.ne)),
      List.toFinset_card_of_nodup (region_lon_twoRuns hg hr).nodup]
    rfl

/-- Extraction of a 2-dimensional field: the result has the region's shape and its value at a position is the value
of the field at the gridpoint with the region's coordinates at this position. -/
theorem C07_extract_2d {α : Type*} (g : Grid K) (hg : g.Valid) (sel : Selection K) (r : Region g)
    (_hr : g.region sel = .ok r) (f : Fin g.nlat → Fin g.nlon → α) :
    ∃ out : Fin r.shape.1 → Fin r.shape.2 → α,
      r.extract [.d2 g.nlat g.nlon f] = .ok [.d2 r.shape.1 r.shape.2 out] ∧
      ∀ (k : Fin r.shape.1) (l : Fin r.shape.2) (j : Fin g.nlat) (i : Fin g.nlon), r.lat[(k : ℕ)]? = some (g.lat j) → r.lon[(l : ℕ)]? = some (g.lon i) →
        out k l = f j i := by
  refine ⟨r.take2 f, ?_, ?_⟩
  · unfold Region.extract
    dsimp only
    rw [List.mapM_cons, List.mapM_nil]
    simp only [Region.extractOne, and_self, dif_pos]
    rfl
  · intro k l j i hk hl
    unfold Region.lat at hk
    unfold Region.lon at hl
    rw [List.getElem?_map] at hk hl
    have hk' : r.latIndices[(k : ℕ)]? = some (r.latIndices.get k) := List.getElem?_eq_getElem _
    have hl' : r.lonIndices[(l : ℕ)]? = some (r.lonIndices.get l) := List.getElem?_eq_getElem _
    rw [hk'] at hk
    rw [hl'] at hl
    simp only [Option.map_some, Option.some.injEq] at hk hl
    unfold Region.take2
    rw [Fin.ext ((lat_strictAnti hg).injective hk), Fin.ext ((lon_strictMono hg).injective hl)]

/-- One-dimensional fields are meridional or zonal profiles according to their length (never ambiguous); extraction
picks the region's latitudes or longitudes. Coordinates extract to the region's coordinates. -/
theorem C07_extract_1d {α : Type*} (g : Grid K) (hg : g.Valid) (sel : Selection K) (r : Region g)
    (_hr : g.region sel = .ok r) (u : Fin g.nlat → α) (v : Fin g.nlon → α) :
    g.nlat ≠ g.nlon ∧
    (∃ out : Fin r.shape.1 → α, r.extract [.d1 g.nlat u] = .ok [.d1 r.shape.1 out] ∧
      ∀ (k : Fin r.shape.1) (j : Fin g.nlat), r.lat[(k : ℕ)]? = some (g.lat j) → out k = u j) ∧
    (∃ out : Fin r.shape.2 → α, r.extract [.d1 g.nlon v] = .ok [.d1 r.shape.2 out] ∧
      ∀ (k : Fin r.shape.2) (i : Fin g.nlon), r.lon[(k : ℕ)]? = some (g.lon i) → out k = v i) := by
  have hne : g.nlon ≠ g.nlat := (nlat_lt_nlon hg).ne'
  refine ⟨hne.symm, ⟨r.takeLat u, ?_, ?_⟩, ⟨r.takeLon v, ?_, ?_⟩⟩
  · unfold Region.extract
    dsimp only
    rw [List.mapM_cons, List.mapM_nil]
    simp only [Region.extractOne, dif_pos]
    rfl
  · intro k j hk
    unfold Region.lat at hk
    rw [List.getElem?_map] at hk
    have hk' : r.latIndices[(k : ℕ)]? = some (r.latIndices.get k) := List.getElem?_eq_getElem _
    rw [hk'] at hk
    simp only [Option.map_some, Option.some.injEq] at hk
    unfold Region.takeLat
    rw [Fin.ext ((lat_strictAnti hg).injective hk)]
  · unfold Region.extract
    dsimp only
    rw [List.mapM_cons, List.mapM_nil]
    simp only [Region.extractOne, dif_neg hne, dif_pos]
    rfl
  · intro k j hk
    unfold Region.lon at hk
    rw [List.getElem?_map] at hk
    have hk' : r.lonIndices[(k : ℕ)]? = some (r.lonIndices.get k) := List.getElem?_eq_getElem _
    rw [hk'] at hk
    simp only [Option.map_some, Option.some.injEq] at hk
    unfold Region.takeLon
    rw [Fin.ext ((lon_strictMono hg).injective hk)]

/-- Coordinates extract to the region's coordinates (1D and 2D). -/
theorem C07_extract_coordinates (g : Grid K) (hg : g.Valid) (sel : Selection K) (r : Region g)
    (_hr : g.region sel = .ok r) :
    (∃ out, r.extract [.d1 g.nlat fun j => g.lat j] = .ok [.d1 r.shape.1 out] ∧ List.ofFn out = r.lat) ∧
    (∃ out, r.extract [.d1 g.nlon fun i => g.lon i] = .ok [.d1 r.shape.2 out] ∧ List.ofFn out = r.lon) ∧
    (∃ out, r.extract [.d2 g.nlat g.nlon fun j _ => g.lat j] = .ok [.d2 r.shape.1 r.shape.2 out] ∧
      ∀ l, List.ofFn (fun k => out k l) = r.lat) ∧
    (∃ out, r.extract [.d2 g.nlat g.nlon fun _ i => g.lon i] = .ok [.d2 r.shape.1 r.shape.2 out] ∧
      ∀ k, List.ofFn (out k) = r.lon) := by
  have hne : g.nlon ≠ g.nlat := (nlat_lt_nlon hg).ne'
  have hlat : List.ofFn (fun k : Fin r.latIndices.length => g.lat (r.latIndices.get k)) = r.lat := by
    unfold Region.lat
    conv_rhs => rw [← List.ofFn_get r.latIndices, List.map_ofFn]
    rfl
  have hlon : List.ofFn (fun k : Fin r.lonIndices.length => g.lon (r.lonIndices.get k)) = r.lon := by
    unfold Region.lon
    conv_rhs => rw [← List.ofFn_get r.lonIndices, List.map_ofFn]
    rfl
  refine ⟨⟨r.takeLat fun j => g.lat j, ?_, hlat⟩, ⟨r.takeLon fun i => g.lon i, ?_, hlon⟩,
    ⟨r.take2 fun j _ => g.lat j, ?_, fun l => hlat⟩, ⟨r.take2 fun _ i => g.lon i, ?_, fun k => hlon⟩⟩
  all_goals
    unfold Region.extract
    dsimp only
    rw [List.mapM_cons, List.mapM_nil]
    simp only [Region.extractOne, dif_neg hne, dif_pos, and_self]
    rfl

/-- What `extract` rejects: no argument at all, or any argument that is neither a profile nor a field of the grid's
size; with several arguments every one must be acceptable and the results come in the same order. -/
theorem C07_extract_errors {α : Type*} (g : Grid K) (r : Region g) (fs : List (Arr α)) :
    let good : Arr α → Prop := fun a => a.shape = [g.nlat] ∨ a.shape = [g.nlon] ∨ a.shape = [g.nlat, g.nlon]
    (r.extract fs = .error .valueError ∧ (fs = [] ∨ ∃ a ∈ fs, r.extract [a] = .error .valueError)) ∨
    (fs ≠ [] ∧ ∃ outs, r.extract fs = .ok outs ∧
      List.Forall₂ (fun a o => r.extract [a] = .ok [o] ∧ good a) fs outs) := by
  intro good
  have one : ∀ a : Arr α, r.extract [a] = (r.extractOne a).map (fun o => [o]) := by
    intro a
    unfold Region.extract
    dsimp only
    rw [List.mapM_cons, List.mapM_nil]
    cases r.extractOne a <;> rfl
  have herr : ∀ a : Arr α, r.extractOne a = .error .valueError ∨
      ((∃ o, r.extractOne a = .ok o) ∧ (a.shape = [g.nlat] ∨ a.shape = [g.nlon] ∨ a.shape = [g.nlat, g.nlon])) := by
    intro a
    cases a with
    | d0 x => exact .inl rfl
    | nd s => exact .inl rfl
    | d1 n v =>
      unfold Region.extractOne
      dsimp only
      split_ifs with h1 h2
      · exact .inr ⟨⟨_, rfl⟩, .inl (by simp [Arr.shape, h1])⟩
      · exact .inr ⟨⟨_, rfl⟩, .inr (.inl (by simp [Arr.shape, h2]))⟩
      · exact .inl rfl
    | d2 h w v =>
      unfold Region.extractOne
      dsimp only
      split_ifs with h1
      · exact .inr ⟨⟨_, rfl⟩, .inr (.inr (by simp [Arr.shape, h1.1, h1.2]))⟩
      · exact .inl rfl
  have many : ∀ l : List (Arr α),
      (l.mapM r.extractOne = .error .valueError ∧ ∃ a ∈ l, r.extract [a] = .error .valueError) ∨
      (∃ outs, l.mapM r.extractOne = .ok outs ∧
        List.Forall₂ (fun a o => r.extract [a] = .ok [o] ∧ good a) l outs) := by
    intro l
    induction l with
    | nil => exact .inr ⟨[], rfl, List.Forall₂.nil⟩
    | cons a t ih =>
      rw [List.mapM_cons]
      rcases herr a with h | ⟨⟨o, h⟩, hs⟩
      · left
        refine ⟨by rw [h]; rfl, a, by simp, ?_⟩
        rw [one, h]; rfl
      · rcases ih with ⟨ih, b, hb, hbe⟩ | ⟨outs, ih, hf⟩
        · left
          exact ⟨by rw [h, ih]; rfl, b, by simp [hb], hbe⟩
        · right
          refine ⟨o :: outs, by rw [h, ih]; rfl, List.Forall₂.cons ⟨?_, hs⟩ hf⟩
          rw [one, h]; rfl
  cases fs with
  | nil => exact .inl ⟨rfl, .inl rfl⟩
  | cons a t =>
    have hdef : r.extract (a :: t) = (a :: t).mapM r.extractOne := rfl
    rw [hdef]
    rcases many (a :: t) with ⟨h1, h2⟩ | ⟨outs, h1, h2⟩
    · exact .inl ⟨h1, .inr h2⟩
    · exact .inr ⟨by simp, outs, h1, h2⟩

/-! ## C08 -/

/-- `lon_mono` never fails, is strictly increasing, spans less than 360°, and equals `lon` up to subtracting 360. -/
theorem C08_lon_mono (g : Grid K) (hg : g.Valid) (sel : Selection K) (r : Region g) (hr : g.region sel = .ok r) :
    ∃ l, r.lonMono = .ok l ∧ l.Pairwise (· < ·) ∧
      List.Forall₂ (fun m x => m = x ∨ m = x - 360) l r.lon ∧
      ∀ x ∈ l, ∀ y ∈ l, y - x < 360 := by
  obtain ⟨b, a, hl, hb, ha, hab⟩ := region_lon_twoRuns hg hr
  have hlon : r.lon = (b.map fun i : Fin g.nlon => g.lon i) ++ (a.map fun i : Fin g.nlon => g.lon i) := by
    unfold Region.lon; rw [hl, List.map_append]
  have hrange : ∀ x ∈ r.lon, 0 ≤ x ∧ x < 360 := by
    unfold Region.lon
    intro x hx
    rw [List.mem_map] at hx
    obtain ⟨i, -, rfl⟩ := hx
    exact ⟨lon_nonneg hg i, lon_lt hg i.2⟩
  have hab' : ∀ x ∈ (a.map fun i : Fin g.nlon => g.lon i), ∀ y ∈ (b.map fun i : Fin g.nlon => g.lon i), x < y := by
    intro x hx y hy
    rw [List.mem_map] at hx hy
    obtain ⟨i, hi, rfl⟩ := hx
    obtain ⟨j, hj, rfl⟩ := hy
    exact lon_strictMono hg (a := i) (b := j) (hab i hi j hj)
  have hb' := lon_pairwise hg hb
  have ha' := lon_pairwise hg ha
  revert hlon hab' hb' ha'
  generalize (b.map fun i : Fin g.nlon => g.lon i) = B
  generalize (a.map fun i : Fin g.nlon => g.lon i) = A
  intro hlon hab' hB hA
  have sortedCase : r.lon.Pairwise (· < ·) → ∃ l, r.lonMono = .ok l ∧ l.Pairwise (· < ·) ∧
      List.Forall₂ (fun m x => m = x ∨ m = x - 360) l r.lon ∧ ∀ x ∈ l, ∀ y ∈ l, y - x < 360 := by
    intro hs
    refine ⟨r.lon, ?_, hs, ?_, ?_⟩
    · unfold Region.lonMono
      dsimp only
      rw [Region.jumps_sorted _ hs]
    · exact List.forall₂_same.2 (fun x _ => .inl rfl)
    · intro x hx y hy
      linarith [(hrange x hx).1, (hrange y hy).2]
  by_cases hA0 : A = []
  · apply sortedCase; rw [hlon, hA0, List.append_nil]; exact hB
  by_cases hB0 : B = []
  · apply sortedCase; rw [hlon, hB0, List.nil_append]; exact hA
  refine ⟨B.map (fun x => x - 360) ++ A, ?_, ?_, ?_, ?_⟩
  · unfold Region.lonMono
    dsimp only
    rw [hlon, Region.jumps_two B A hB hA hB0 hA0 hab']
    dsimp only
    have : B.length - 1 + 1 = B.length := by
      have := List.length_pos_iff.2 hB0
      omega
    rw [this, mapIdx_split]
  · rw [List.pairwise_append]
    refine ⟨?_, hA, ?_⟩
    · rw [List.pairwise_map]
      exact hB.imp (fun h => by linarith)
    · intro x hx y hy
      rw [List.mem_map] at hx
      obtain ⟨z, hz, rfl⟩ := hx
      have h1 := hrange z (by rw [hlon]; simp [hz])
      have h2 := hrange y (by rw [hlon]; simp [hy])
      linarith [h1.2, h2.1]
  · rw [hlon]
    apply List.rel_append
    · rw [List.forall₂_map_left_iff]
      exact List.forall₂_same.2 (fun x _ => .inr rfl)
    · exact List.forall₂_same.2 (fun x _ => .inl rfl)
  · intro x hx y hy
    rw [List.mem_append, List.mem_map] at hx hy
    rcases hx with ⟨x', hx, rfl⟩ | hx <;> rcases hy with ⟨y', hy, rfl⟩ | hy
    · have h1 := hrange x' (by rw [hlon]; simp [hx])
      have h2 := hrange y' (by rw [hlon]; simp [hy])
      linarith [h1.1, h2.2]
    · have := hab' y hy x' hx
      linarith
    · have h1 := hrange x (by rw [hlon]; simp [hx])
      have h2 := hrange y' (by rw [hlon]; simp [hy])
      linarith [h1.1, h2.2]
    · have h1 := hrange x (by rw [hlon]; simp [hx])
      have h2 := hrange y (by rw [hlon]; simp [hy])
      linarith [h1.1, h2.2]

/-! ## C09 -/

private theorem filter_length_one {n : ℕ} (p : Fin n → Prop) [DecidablePred p] (q : ℕ → Prop)
    (hpq : ∀ i : Fin n, p i ↔ q i) :
    ((List.finRange n).filter fun i => decide (p i)).length = 1 ↔ ∃! i, i < n ∧ q i := by
  rw [List.length_eq_one_iff]
  have hnd : ((List.finRange n).filter fun i => decide (p i)).Nodup := (List.nodup_finRange n).filter _
  constructor
  · rintro ⟨a, ha⟩
    have hm : ∀ i : Fin n, p i ↔ i = a := by
      intro i
      have : i ∈ (List.finRange n).filter (fun i => decide (p i)) ↔ i ∈ [a] := by rw [ha]
      simpa using this
    refine ⟨a, ⟨a.2, (hpq a).1 ((hm a).2 rfl)⟩, ?_⟩
    rintro i ⟨hi, hq⟩
    have := (hm ⟨i, hi⟩).1 ((hpq ⟨i, hi⟩).2 hq)
    rw [← this]
  · rintro ⟨i, ⟨hi, hq⟩, huniq⟩
    refine ⟨⟨i, hi⟩, ?_⟩
    rw [← List.perm_singleton]
    rw [List.perm_ext_iff_of_nodup hnd (List.nodup_singleton _)]
    intro a
    simp only [List.mem_filter, List.mem_finRange, true_and, decide_eq_true_eq, List.mem_singleton]
    constructor
    · intro h
      exact Fin.ext (huniq a ⟨a.2, (hpq a).1 h⟩)
    · rintro rfl
      exact (hpq _).2 hq

private theorem checkSlice_iff (s : Sel K) :
    (s.GoodSlice ∧ ∃ p, checkSlice s = .ok p) ∨ (¬ s.GoodSlice ∧ checkSlice s = .error .indexError) := by
  cases s with
  | num x => exact .inr ⟨id, rfl⟩
  | str x => exact .inr ⟨id, rfl⟩
  | other => exact .inr ⟨id, rfl⟩
  | slice a b st =>
    cases a <;> cases b <;> cases st <;> simp [Sel.GoodSlice, checkSlice]

private theorem getLon_iff (g : Grid K) (s : Sel K) :
    (s.OkFor [] g.nlon g.lon ∧ ∃ l, g.getLonIndices s = .ok l) ∨
    (¬ s.OkFor [] g.nlon g.lon ∧ g.getLonIndices s = .error .indexError) := by
  cases s with
  | num x =>
    have := filter_length_one (n := g.nlon) (fun i => isclose (g.lon i) x) (fun i => isclose (g.lon i) x)
      (fun _ => Iff.rfl)
    unfold getLonIndices Sel.OkFor
    dsimp only
    split_ifs with h
    · exact .inr ⟨fun hh => h (this.2 hh), rfl⟩
    · exact .inl ⟨this.1 (not_not.1 h), _, rfl⟩
  | str x => exact .inr ⟨by simp [Sel.OkFor], rfl⟩
  | other => exact .inr ⟨id, rfl⟩
  | slice a b st =>
    unfold getLonIndices Sel.OkFor
    dsimp only
    rcases checkSlice_iff (.slice a b st : Sel K) with ⟨h1, p, h2⟩ | ⟨h1, h2⟩
    · rw [h2]; exact .inl ⟨h1, _, rfl⟩
    · rw [h2]; exact .inr ⟨h1, rfl⟩

private theorem getLat_iff (g : Grid K) (s : Sel K) :
    (s.OkFor ["N", "S"] g.nlat g.lat ∧ ∃ l, g.getLatIndices s = .ok l) ∨
    (¬ s.OkFor ["N", "S"] g.nlat g.lat ∧ g.getLatIndices s = .error .indexError) := by
  cases s with
  | num x =>
    have := filter_length_one (n := g.nlat) (fun i => isclose (g.lat i) x) (fun i => isclose (g.lat i) x)
      (fun _ => Iff.rfl)
    unfold getLatIndices Sel.OkFor
    dsimp only
    split_ifs with h
    · exact .inr ⟨fun hh => h (this.2 hh), rfl⟩
    · exact .inl ⟨this.1 (not_not.1 h), _, rfl⟩
  | str x =>
    by_cases hN : x = "N"
    · subst hN; exact .inl ⟨by simp [Sel.OkFor], _, rfl⟩
    by_cases hS : x = "S"
    · subst hS; exact .inl ⟨by simp [Sel.OkFor], _, rfl⟩
    · right
      refine ⟨by simp [Sel.OkFor, hN, hS], ?_⟩
      unfold getLatIndices
      dsimp only
      split
      · rename_i e he
        split at he
        · rename_i h; simp_all
        · rename_i h; simp_all
        · injection he with he; rw [← he]
      · rename_i lo hi he
        split at he
        · rename_i h; simp_all
        · rename_i h; simp_all
        · simp [checkSlice] at he
  | other => exact .inr ⟨id, rfl⟩
  | slice a b st =>
    unfold getLatIndices Sel.OkFor
    dsimp only
    rcases checkSlice_iff (.slice a b st : Sel K) with ⟨h1, p, h2⟩ | ⟨h1, h2⟩
    · rw [h2]; exact .inl ⟨h1, _, rfl⟩
    · rw [h2]; exact .inr ⟨h1, rfl⟩

/-- A selection either is acceptable and yields a region or raises IndexError; nothing else happens. -/
theorem C09_selection_errors (g : Grid K) (hg : g.Valid) (sel : Selection K) :
    (sel.Acceptable g ∧ ∃ r, g.region sel = .ok r) ∨
    (¬ sel.Acceptable g ∧ g.region sel = .error .indexError) := by
  have two : ∀ s0 s1 : Sel K, g.region (.tuple [s0, s1]) = match g.getLonIndices s0 with
        | .error e => .error e
        | .ok lon => match g.getLatIndices s1 with
          | .error e => .error e
          | .ok lat => .ok ⟨lat, lon⟩ := by
    intro s0 s1
    rw [region_eq hg]; rfl
  cases sel with
  | single s =>
    have h0 : g.region (.single s) = g.region (.tuple [s, .slice .none .none false]) := rfl
    have hlat : g.getLatIndices (.slice .none .none false) = .ok (g.latSlice none none) := rfl
    rw [h0, two, hlat]
    rcases getLon_iff g s with ⟨h1, l, h2⟩ | ⟨h1, h2⟩
    · rw [h2]; exact .inl ⟨h1, _, rfl⟩
    · rw [h2]; exact .inr ⟨h1, rfl⟩
  | tuple l =>
    match l with
    | [] => exact .inr ⟨id, rfl⟩
    | [a] => exact .inr ⟨id, rfl⟩
    | a :: b :: c :: t => exact .inr ⟨id, rfl⟩
    | [s, t] =>
      rw [two]
      rcases getLon_iff g s with ⟨h1, l, h2⟩ | ⟨h1, h2⟩
      · rw [h2]
        rcases getLat_iff g t with ⟨h3, m, h4⟩ | ⟨h3, h4⟩
        · rw [h4]; exact .inl ⟨⟨h1, h3⟩, _, rfl⟩
        · rw [h4]; exact .inr ⟨fun h => h3 h.2, rfl⟩
      · rw [h2]; exact .inr ⟨fun h => h1 h.1, rfl⟩

/-- A successful numeric selection yields exactly the one close coordinate. -/
theorem C09_scalar (g : Grid K) (hg : g.Valid) (x y : K) :
    (∀ r t, g.region (.tuple [.num x, t]) = .ok r →
      ∃ i < g.nlon, isclose (g.lon i) x ∧ r.lon = [g.lon i] ∧ ∀ k < g.nlon, isclose (g.lon k) x → k = i) ∧
    (∀ r s, g.region (.tuple [s, .num y]) = .ok r →
      ∃ j < g.nlat, isclose (g.lat j) y ∧ r.lat = [g.lat j] ∧ ∀ k < g.nlat, isclose (g.lat k) y → k = j) := by
  constructor
  · intro r t hr
    obtain ⟨s0, s1, hs, h0, -⟩ := region_ok hg hr
    simp only [selComponents, Option.some.injEq, Prod.mk.injEq] at hs
    rw [← hs.1] at h0
    unfold getLonIndices at h0
    dsimp only at h0
    split_ifs at h0 with h
    injection h0 with h0
    obtain ⟨a, ha⟩ := List.length_eq_one_iff.1 (not_not.1 h)
    have hm : ∀ i : Fin g.nlon, isclose (g.lon i) x ↔ i = a := by
      intro i
      have : i ∈ (List.finRange g.nlon).filter (fun i : Fin g.nlon => decide (isclose (g.lon i) x)) ↔ i ∈ [a] := by
        rw [ha]
      simpa using this
    refine ⟨a, a.2, (hm a).2 rfl, ?_, ?_⟩
    · unfold Region.lon; rw [← h0, ha]; rfl
    · intro k hk hc
      have := (hm ⟨k, hk⟩).1 hc
      rw [← this]
  · intro r t hr
    obtain ⟨s0, s1, hs, -, h0⟩ := region_ok hg hr
    simp only [selComponents, Option.some.injEq, Prod.mk.injEq] at hs
    rw [← hs.2] at h0
    unfold getLatIndices at h0
    dsimp only at h0
    split_ifs at h0 with h
    injection h0 with h0
    obtain ⟨a, ha⟩ := List.length_eq_one_iff.1 (not_not.1 h)
    have hm : ∀ i : Fin g.nlat, isclose (g.lat i) y ↔ i = a := by
      intro i
      have : i ∈ (List.finRange g.nlat).filter (fun i : Fin g.nlat => decide (isclose (g.lat i) y)) ↔ i ∈ [a] := by
        rw [ha]
      simpa using this
    refine ⟨a, a.2, (hm a).2 rfl, ?_, ?_⟩
    · unfold Region.lat; rw [← h0, ha]; rfl
    · intro k hk hc
      have := (hm ⟨k, hk⟩).1 hc
      rw [← this]

/-! ## Non-vacuity: a concrete 30° grid with a region wrapping across the date line -/

private theorem valid30 : (⟨30, 1, 1, 6⟩ : Grid ℚ).Valid := by
  refine ⟨by norm_num, by norm_num, ?_, ?_, ?_⟩ <;> decide +kernel

example : (⟨30, 1, 1, 6⟩ : Grid ℚ).Valid ∧
    ((⟨30, 1, 1, 6⟩ : Grid ℚ).region (.tuple [.slice (.num 300) (.num 60) false, .str "N"])).bind
      (fun r => r.lonMono.map fun m => (r.lon, r.lat, m)) =
      .ok ([300, 330, 0, 30, 60], [90, 60, 30, 0], [-60, -30, 0, 30, 60]) :=
  ⟨valid30, by decide +kernel⟩

example : ((⟨30, 1, 1, 6⟩ : Grid ℚ).region (.tuple [.num 60, .num (-30)])).map
    (fun r => (r.lon, r.lat)) = .ok ([60], [-30]) := by decide +kernel

end Barotropic
