import Verif.Model.Missing
import Mathlib.Data.Rat.Floor
import Mathlib.Tactic.Linarith
import Mathlib.Tactic.NormNum

/-!
# C140: missing values (NaN)

The expected behaviour — a value that depends on a missing value is missing — is stated for every quantity through the set of values on which it
depends. It holds for means and for both quadratures, whose integration domain however silently excludes missing values; and it fails for the
gridded local wave activity, which is zero.
-/

set_option linter.unusedSectionVars false

namespace Barotropic

open Missing

variable {K : Type*} [Field K] [LinearOrder K]

/-- A field of `h × w` values with at least one missing value -/
def HasMissing (h w : ℕ) (f : ℕ → ℕ → Option K) : Prop := ∃ j < h, ∃ i < w, f j i = none

namespace Missing

theorem add_none (x y : Option K) : add x y = none ↔ x = none ∨ y = none := by cases x <;> cases y <;> simp [add]
theorem sub_none (x y : Option K) : sub x y = none ↔ x = none ∨ y = none := by cases x <;> cases y <;> simp [sub]
theorem mul_none (x y : Option K) : mul x y = none ↔ x = none ∨ y = none := by cases x <;> cases y <;> simp [mul]

theorem div_none (x y : Option K) (hy : y ≠ some 0) : div x y = none ↔ x = none ∨ y = none := by
  cases x <;> cases y <;> simp_all [div]

theorem div_none_left (y : Option K) : div none y = none := rfl

theorem nonneg_none : nonneg (none : Option K) = false := rfl

theorem sumWhere_zero (mask : ℕ → Bool) (f : ℕ → Option K) : sumWhere 0 mask f = some 0 := rfl

theorem sumWhere_succ (n : ℕ) (mask : ℕ → Bool) (f : ℕ → Option K) :
    sumWhere (n + 1) mask f = if mask n then add (sumWhere n mask f) (f n) else sumWhere n mask f := by
  simp [sumWhere, List.range_succ]

theorem sumWhere_none (n : ℕ) (mask : ℕ → Bool) (f : ℕ → Option K) : sumWhere n mask f = none ↔ ∃ j < n, mask j = true ∧ f j = none := by
  induction n with
  | zero => simp [sumWhere_zero]
  | succ n ih =>
    rw [sumWhere_succ]
    constructor
    · intro h
      by_cases hm : mask n = true
      · rw [if_pos hm, add_none, ih] at h
        rcases h with ⟨j, hj, h⟩ | h
        · exact ⟨j, by omega, h⟩
        · exact ⟨n, by omega, hm, h⟩
      · rw [if_neg hm, ih] at h
        obtain ⟨j, hj, h⟩ := h
        exact ⟨j, by omega, h⟩
    · rintro ⟨j, hj, hm, hf⟩
      rcases Nat.lt_succ_iff_lt_or_eq.1 hj with h | rfl
      · have := ih.2 ⟨j, h, hm, hf⟩
        simp [this, add]
      · rw [if_pos hm, add_none]
        exact Or.inr hf

theorem sumWhere_congr (n : ℕ) {m m' : ℕ → Bool} {f f' : ℕ → Option K} (hm : ∀ j < n, m j = m' j) (hf : ∀ j < n, m j = true → f j = f' j) :
    sumWhere n m f = sumWhere n m' f' := by
  induction n with
  | zero => rfl
  | succ n ih =>
    rw [sumWhere_succ, sumWhere_succ, ih (fun j h => hm j (by omega)) (fun j h => hf j (by omega)), ← hm n (by omega)]
    by_cases h : m n = true
    · rw [if_pos h, if_pos h, hf n (by omega) h]
    · rw [if_neg h, if_neg h]

theorem sum_none (n : ℕ) (f : ℕ → Option K) : sum n f = none ↔ ∃ j < n, f j = none := by simp [sum, sumWhere_none]

theorem foldl_map₂_none {α : Type*} (pick : K → K → K) (l : List α) (g : α → Option K) (acc : Option K) :
    l.foldl (fun acc i => Option.map₂ pick acc (g i)) acc = none ↔ acc = none ∨ ∃ i ∈ l, g i = none := by
  induction l generalizing acc with
  | nil => simp
  | cons a l ih =>
    rw [List.foldl_cons, ih, Option.map₂_eq_none_iff]
    simp [or_assoc]

theorem extremum_none (pick : K → K → K) (h w : ℕ) (f : ℕ → ℕ → Option K) (hf : HasMissing h w f) : extremum pick h w f = none := by
  have key : ∀ (l : List ℕ) (acc : Option K), (acc = none ∨ ∃ j ∈ l, ∃ i < w, f j i = none) →
      l.foldl (fun acc j => (List.range w).foldl (fun acc i => Option.map₂ pick acc (f j i)) acc) acc = none := by
    intro l
    induction l with
    | nil => intro acc h; simpa using h
    | cons a l ih =>
      intro acc h
      rw [List.foldl_cons]
      apply ih
      rw [foldl_map₂_none]
      rcases h with h | ⟨j, hj, i, hi, h⟩
      · exact Or.inl (Or.inl h)
      · rcases List.mem_cons.1 hj with rfl | hj
        · exact Or.inl (Or.inr ⟨i, List.mem_range.2 hi, h⟩)
        · exact Or.inr ⟨j, hj, i, hi, h⟩
  obtain ⟨j, hj, i, hi, h⟩ := hf
  exact key _ _ (Or.inr ⟨j, List.mem_range.2 hj, i, hi, h⟩)

end Missing

/-- C140: a mean is missing exactly if one of the values is: over everything, -/
theorem C140_mean (G : Geometry K) (w : ℕ) (hw : (w : K) ≠ 0) (hA : ∑ j ∈ Finset.range G.nlat, G.area j ≠ 0) (f : ℕ → ℕ → Option K) :
    meanAll G w f = none ↔ HasMissing G.nlat w f := by
  rw [meanAll, div_none _ _ (by simpa using hw), div_none _ _ (by simpa using hA)]
  simp [sum_none, mul_none, HasMissing]

/-- … over a meridian … -/
theorem C140_mean_meridional (G : Geometry K) (hA : ∑ j ∈ Finset.range G.nlat, G.area j ≠ 0) (f : ℕ → Option K) :
    meanMeridional G f = none ↔ ∃ j < G.nlat, f j = none := by
  rw [meanMeridional, div_none _ _ (by simpa using hA)]
  simp [sum_none, mul_none]

/-- … and over a circle of latitude. -/
theorem C140_mean_zonal (w : ℕ) (hw : (w : K) ≠ 0) (f : ℕ → Option K) : meanZonal w f = none ↔ ∃ i < w, f i = none := by
  rw [meanZonal, div_none _ _ (by simpa using hw)]
  simp [sum_none]

/-- C140: a boxcounted integral is missing exactly if the integrand is missing somewhere in the domain. -/
theorem C140_boxcount (G : Geometry K) (hr : G.rsphere ≠ 0) (hd : G.dlam ≠ 0) (y z : ℕ → Option K) :
    boxColumn G y z = none ↔ ∃ j < G.nlat, (∃ v, z j = some v ∧ 0 ≤ v) ∧ y j = none := by
  rw [boxColumn, div_none _ _ (by simpa using hd), div_none _ _ (by simpa using hr), sumWhere_none]
  simp only [mul_none, reduceCtorEq, false_or, or_false]
  constructor
  · rintro ⟨j, hj, hz, hy⟩
    refine ⟨j, hj, ?_, hy⟩
    cases hv : z j with
    | none => simp [hv, nonneg] at hz
    | some v => exact ⟨v, rfl, by simpa [hv, nonneg] using hz⟩
  · rintro ⟨j, hj, ⟨v, hv, h0⟩, hy⟩
    exact ⟨j, hj, by simp [hv, nonneg, h0], hy⟩

/-- C140: where the field that defines the domain is missing, the boxcounted integral silently excludes the gridpoint: any negative value there
gives the same integral. -/
theorem C140_boxcount_excludes (G : Geometry K) (y z : ℕ → Option K) (v : K) (hv : v < 0) :
    boxColumn G y z = boxColumn G y fun j => some ((z j).getD v) := by
  rw [boxColumn, boxColumn]
  congr 2
  apply sumWhere_congr
  · intro j _
    cases hz : z j with
    | none => simp [nonneg, hv]
    | some x => simp
  · intros; rfl

theorem Missing.trapzInterval_none [IsStrictOrderedRing K] (G : Geometry K) (L : Library K) (x0 x1 : K) (hx : x0 ≠ x1) (y0 y1 z0 z1 : Option K)
    (hz : (nonneg z0 || nonneg z1) = true) :
    trapzInterval G L x0 x1 y0 y1 z0 z1 = none ↔ y0 = none ∨ y1 = none ∨ z0 = none ∨ z1 = none := by
  have hdx : x1 - x0 ≠ 0 := sub_ne_zero.2 (Ne.symm hx)
  cases y0 with
  | none => simp [trapzInterval, sub, div, mul, add]
  | some y0 =>
  cases y1 with
  | none => simp [trapzInterval, sub, div, mul, add]
  | some y1 =>
  cases z0 with
  | none =>
    have h1 : nonneg z1 = true := by simpa [nonneg] using hz
    simp [trapzInterval, sub, div, mul, add, nonneg_none, h1]
  | some z0 =>
  cases z1 with
  | none =>
    have h1 : nonneg (some z0) = true := by simpa [nonneg_none] using hz
    simp [trapzInterval, sub, div, mul, add, nonneg_none, h1, hdx]
  | some z1 =>
    by_cases h0 : 0 ≤ z0 <;> by_cases h1 : 0 ≤ z1
    · simp [trapzInterval, sub, div, mul, add, nonneg, h0, h1, hdx]
    · have : z1 - z0 ≠ 0 := by intro h; exact h1 (by linarith)
      simp [trapzInterval, sub, div, mul, add, nonneg, h0, h1, hdx, this]
    · have : z1 - z0 ≠ 0 := by intro h; exact h0 (by linarith)
      simp [trapzInterval, sub, div, mul, add, nonneg, h0, h1, hdx, this]
    · simp [nonneg, h0, h1] at hz

/-- C140: a trapezoidal integral is missing exactly if, in an interval that reaches into the domain, the integrand or the field that defines the
domain is missing at one of the two ends. -/
theorem C140_trapz [IsStrictOrderedRing K] (G : Geometry K) (L : Library K) (hphi : ∀ j, j + 1 < G.nlat → G.phi j ≠ G.phi (j + 1)) (y z : ℕ → Option K) :
    trapzColumn G L y z = none ↔ ∃ j, j + 1 < G.nlat ∧ ((∃ v, z j = some v ∧ 0 ≤ v) ∨ ∃ v, z (j + 1) = some v ∧ 0 ≤ v) ∧
      (y j = none ∨ y (j + 1) = none ∨ z j = none ∨ z (j + 1) = none) := by
  have hn : ∀ x : Option K, nonneg x = true ↔ ∃ v, x = some v ∧ 0 ≤ v := by intro x; cases x <;> simp [nonneg]
  rw [trapzColumn, sumWhere_none]
  constructor
  · rintro ⟨j, hj, hz, h⟩
    refine ⟨j, by omega, ?_, (trapzInterval_none G L _ _ (hphi j (by omega)) _ _ _ _ hz).1 h⟩
    rwa [Bool.or_eq_true, hn, hn] at hz
  · rintro ⟨j, hj, hz, h⟩
    have hz' : (nonneg (z j) || nonneg (z (j + 1))) = true := by rwa [Bool.or_eq_true, hn, hn]
    exact ⟨j, by omega, hz', (trapzInterval_none G L _ _ (hphi j hj) _ _ _ _ hz').2 h⟩

/-- C140: an integral over the sphere is missing exactly if one of the columns is. -/
theorem C140_quad (G : Geometry K) (L : Library K) (boxcount : Bool) (w : ℕ) (y z : ℕ → ℕ → Option K) :
    quad G L boxcount w y z = none ↔ ∃ i < w, column G L boxcount (fun j => y j i) (fun j => z j i) = none := by
  simp [quad, mul_none, sum_none]

/-- C140: the areas of the zonalization drop missing values: with boxcounting, they are the areas for the field with the missing values replaced
by anything below the contour. They are never missing. -/
theorem C140_area_boxcount [IsStrictOrderedRing K] (G : Geometry K) (L : Library K) (w : ℕ) (f : ℕ → ℕ → Option K) (q v : K) (hv : v < q) :
    contourArea G L true w f (some q) = contourArea G L true w (fun j i => some ((f j i).getD v)) (some q) := by
  have : ∀ i, column G L true (fun _ => some 1) (fun j => sub (f j i) (some q)) =
      column G L true (fun _ => some 1) (fun j => sub (some ((f j i).getD v)) (some q)) := by
    intro i
    show boxColumn G _ _ = boxColumn G _ _
    rw [C140_boxcount_excludes G _ _ (v - q) (by linarith)]
    congr 1
    funext j
    cases f j i <;> rfl
  simp only [contourArea, quad, this]

@[inherit_doc C140_area_boxcount]
theorem C140_area_boxcount_present (G : Geometry K) (L : Library K) (hr : G.rsphere ≠ 0) (hd : G.dlam ≠ 0) (w : ℕ) (f : ℕ → ℕ → Option K) (q : Option K) :
    contourArea G L true w f q ≠ none := by
  rw [contourArea, Ne, C140_quad]
  rintro ⟨i, _, h⟩
  obtain ⟨j, _, _, h⟩ := (C140_boxcount G hr hd _ _).1 h
  simp at h

/-- C140: with the trapezoidal rule, the area is missing exactly if a missing value is the meridional neighbour of a value on or above the
contour. Other missing values are dropped. -/
theorem C140_area_trapz [IsStrictOrderedRing K] (G : Geometry K) (L : Library K) (hphi : ∀ j, j + 1 < G.nlat → G.phi j ≠ G.phi (j + 1)) (w : ℕ)
    (f : ℕ → ℕ → Option K) (q : K) :
    contourArea G L false w f (some q) = none ↔ ∃ i < w, ∃ j, j + 1 < G.nlat ∧
      ((f j i = none ∧ ∃ v, f (j + 1) i = some v ∧ q ≤ v) ∨ (f (j + 1) i = none ∧ ∃ v, f j i = some v ∧ q ≤ v)) := by
  rw [contourArea, C140_quad]
  refine exists_congr fun i => and_congr_right fun _ => ?_
  show trapzColumn G L _ _ = none ↔ _
  rw [C140_trapz G L hphi]
  refine exists_congr fun j => and_congr_right fun _ => ?_
  cases f j i <;> cases f (j + 1) i <;> simp [sub]

/-- C140: a single missing value makes all automatic contour values missing … -/
theorem C140_levels (G : Geometry K) (w n : ℕ) (s : ℕ → K) (f : ℕ → ℕ → Option K) (hf : HasMissing G.nlat w f) :
    autoLevels G w n s f = List.replicate n none := by
  rw [autoLevels, extremum_none _ _ _ _ hf, extremum_none _ _ _ _ hf]
  simp [mul, add, sub, List.map_const']

theorem Missing.column_all_none (G : Geometry K) (L : Library K) (hr : G.rsphere ≠ 0) (hd : G.dlam ≠ 0) (boxcount : Bool) (y : ℕ → Option K) :
    column G L boxcount y (fun _ => none) = some 0 := by
  have h : ∀ n (g : ℕ → Option K), sumWhere n (fun _ => false) g = some 0 := by
    intro n g
    induction n with
    | zero => rfl
    | succ n ih => rw [sumWhere_succ, ih]; rfl
  cases boxcount
  · simp [column, trapzColumn, nonneg, h]
  · simp [column, boxColumn, nonneg, h, div, hr, hd]

/-- … and moves all contours to the equivalent latitude of the area 0, without any sign that it is wrong, -/
theorem C140_contours (G : Geometry K) (L : Library K) (hr : G.rsphere ≠ 0) (hd : G.dlam ≠ 0) (boxcount : Bool) (w n : ℕ) (s : ℕ → K)
    (f : ℕ → ℕ → Option K) (hf : HasMissing G.nlat w f) :
    contours G L boxcount w f (autoLevels G w n s f) = List.replicate n (none, some (L.equivalentLatitude 0)) := by
  have h0 : ∀ m, sum m (fun _ => (some 0 : Option K)) = some 0 := by
    intro m
    induction m with
    | zero => rfl
    | succ m ih => rw [sum, sumWhere_succ, if_pos rfl]; rw [sum] at ih; rw [ih]; simp [add]
  have hs : ∀ x : Option K, sub x none = none := by intro x; cases x <;> rfl
  rw [C140_levels G w n s f hf, contours, List.map_replicate, contourArea, quad]
  simp only [hs, column_all_none G L hr hd, h0]
  simp [mul]

theorem Missing.mem_knots {ks : List (Option K × Option K)} {north south : Option K} {a : K × Option K} (h : a ∈ knots ks north south) :
    a = (90, north) ∨ a = (-90, south) ∨ ∃ k ∈ ks, a.2 = k.1 := by
  rw [knots, List.mem_insertionSort] at h
  simp only [List.mem_cons, List.mem_append, List.mem_filterMap, Option.map_eq_some_iff, List.not_mem_nil, or_false] at h
  rcases h with h | ⟨k, hk, y, _, rfl⟩ | h
  · exact Or.inl h
  · exact Or.inr (Or.inr ⟨k, hk, rfl⟩)
  · exact Or.inr (Or.inl h)

theorem Missing.interp1_none (x : K) (a : K × Option K) (l : List (K × Option K)) (h : ∀ b ∈ a :: l, b.2 = none) : interp1 x a l = none := by
  induction l generalizing a with
  | nil => exact h a (by simp)
  | cons b l ih =>
    rw [interp1]
    split
    · exact ih b fun c hc => h c (List.mem_cons_of_mem _ hc)
    · split
      · exact h a (by simp)
      · simp [line, h a (by simp), add]

theorem Missing.interpProfile_none (ks : List (Option K × Option K)) (hk : ∀ k ∈ ks, k.1 = none) (x : K) : interpProfile ks none none x = none := by
  rw [interpProfile]
  split
  · rename_i a l h
    apply interp1_none
    intro b hb
    rw [← h] at hb
    rcases mem_knots hb with rfl | rfl | ⟨k, hk', e⟩
    · rfl
    · rfl
    · rw [e, hk k hk']
  · rfl

/-- … so that the zonalized profile is missing everywhere. -/
theorem C140_zonalize (G : Geometry K) (L : Library K) (hr : G.rsphere ≠ 0) (hd : G.dlam ≠ 0) (boxcount : Bool) (w n : ℕ) (s : ℕ → K)
    (f : ℕ → ℕ → Option K) (hf : HasMissing G.nlat w f) (j : ℕ) : zonalize G L boxcount w f (autoLevels G w n s f) j = none := by
  rw [zonalize, C140_contours G L hr hd boxcount w n s f hf, extremum_none _ _ _ _ hf, extremum_none _ _ _ _ hf]
  apply interpProfile_none
  intro k hk
  rw [(List.mem_replicate.1 hk).2]

theorem Missing.falwaAt_none [IsStrictOrderedRing K] (G : Geometry K) (L : Library K) (hr : G.rsphere ≠ 0) (hd : G.dlam ≠ 0) (hn : 2 ≤ G.nlat)
    (hphi : ∀ j, j + 1 < G.nlat → G.phi j ≠ G.phi (j + 1)) (boxcount : Bool) (f : ℕ → ℕ → Option K) (y : K) (hy : y ≤ G.lat 0) (i : ℕ) :
    falwaAt G L boxcount f none (some y) i = none := by
  have hs : ∀ x : Option K, sub x none = none := by intro x; cases x <;> rfl
  have : column G L boxcount (fun j => sub (f j i) none) (fun j => sub (some (G.lat j)) (some y)) = none := by
    have h0 : 0 ≤ G.lat 0 - y := by linarith
    cases boxcount
    · exact (C140_trapz G L hphi _ _).2 ⟨0, by omega, Or.inl ⟨_, rfl, h0⟩, Or.inl (hs _)⟩
    · exact (C140_boxcount G hr hd _ _).2 ⟨0, by omega, ⟨_, rfl, h0⟩, hs _⟩
  rw [falwaAt, this, hs, div_none_left]

/-- C140: the local wave activity of the contours is then missing too, with both methods, -/
theorem C140_falwa [IsStrictOrderedRing K] (G : Geometry K) (L : Library K) (hr : G.rsphere ≠ 0) (hd : G.dlam ≠ 0) (hn : 2 ≤ G.nlat)
    (hphi : ∀ j, j + 1 < G.nlat → G.phi j ≠ G.phi (j + 1)) (hlat : ∀ j < G.nlat, G.lat j ≤ G.lat 0) (hL : L.equivalentLatitude 0 ≤ G.lat 0)
    (boxcount : Bool) (w n : ℕ) (s : ℕ → K) (f : ℕ → ℕ → Option K) (hf : HasMissing G.nlat w f) (i : ℕ) :
    ∀ a ∈ falwa G L boxcount w f (autoLevels G w n s f) i, a = none := by
  intro a ha
  rw [falwa, falwaContours, C140_contours G L hr hd boxcount w n s f hf, extremum_none _ _ _ _ hf, extremum_none _ _ _ _ hf] at ha
  cases boxcount
  · simp only [Bool.false_eq_true, if_false, List.map_replicate] at ha
    rw [(List.mem_replicate.1 ha).2]
    exact falwaAt_none G L hr hd hn hphi _ _ _ hL _
  · simp only [if_true, List.map_map, List.mem_map, List.mem_range, Function.comp_def] at ha
    obtain ⟨j, hj, rfl⟩ := ha
    rw [interpProfile_none _ (fun k hk => by rw [(List.mem_replicate.1 hk).2])]
    refine falwaAt_none G L hr hd hn hphi _ _ _ ?_ _
    have h1 := hlat j (by omega)
    have h2 := hlat (j + 1) (by omega)
    linarith

theorem Missing.insertionSort_descending {l : List (K × Option K)} (h : l.Pairwise fun a b => b.1 < a.1) :
    l.insertionSort (fun a b : K × Option K => a.1 ≤ b.1) = l.reverse := by
  have key : ∀ (a : K × Option K) (m : List (K × Option K)), (∀ b ∈ m, b.1 < a.1) →
      m.orderedInsert (fun a b : K × Option K => a.1 ≤ b.1) a = m ++ [a] := by
    intro a m hm
    induction m with
    | nil => rfl
    | cons b m ih =>
      rw [List.orderedInsert, if_neg (not_le.2 (hm b (by simp))), ih fun c hc => hm c (List.mem_cons_of_mem _ hc)]
      rfl
  induction l with
  | nil => rfl
  | cons a l ih =>
    rw [List.pairwise_cons] at h
    rw [List.insertionSort_cons, ih h.2, key a _ fun b hb => h.1 b (List.mem_reverse.1 hb), List.reverse_cons]

theorem Missing.interp2_none (x : K) (a b : K × Option K) (l : List (K × Option K)) (h : (a :: b :: l).IsChain fun a b => a.2 = none ∨ b.2 = none) :
    interp2 x a b l = none := by
  have hl : ∀ a b : K × Option K, a.2 = none ∨ b.2 = none → line a b x = none := by
    rintro a b (h | h)
    · rw [line, h, add_none]; exact Or.inr rfl
    · have : ∀ y : Option K, sub none y = none := fun y => rfl
      rw [line, h, this, div_none_left, add_none]
      exact Or.inl rfl
  induction l generalizing a b with
  | nil => exact hl _ _ (List.isChain_cons_cons.1 h).1
  | cons c l ih =>
    rw [interp2]
    split
    · exact hl _ _ (List.isChain_cons_cons.1 h).1
    · exact ih b c (List.isChain_cons_cons.1 h).2

/-- … and with boxcounting also on the grid. -/
theorem C140_falwa_boxcount [IsStrictOrderedRing K] (G : Geometry K) (L : Library K) (hr : G.rsphere ≠ 0) (hd : G.dlam ≠ 0) (hn : 2 ≤ G.nlat)
    (hlat : ∀ j k, j < k → k < G.nlat → G.lat k < G.lat j) (hN : G.lat 0 = 90) (hS : G.lat (G.nlat - 1) = -90)
    (w n : ℕ) (s : ℕ → K) (f : ℕ → ℕ → Option K) (hf : HasMissing G.nlat w f) (j i : ℕ) :
    falwaGridded G L true w f (autoLevels G w n s f) j i = none := by
  have hmid : ∀ j < G.nlat - 1, G.lat (j + 1) < 1 / 2 * (G.lat j + G.lat (j + 1)) ∧ 1 / 2 * (G.lat j + G.lat (j + 1)) < G.lat j := by
    intro j hj
    have := hlat j (j + 1) (by omega) (by omega)
    constructor <;> linarith
  have hanti : ∀ j k, j ≤ k → k < G.nlat → G.lat k ≤ G.lat j := by
    intro j k hjk hk
    rcases hjk.lt_or_eq with h | rfl
    · exact (hlat j k h hk).le
    · exact le_rfl
  rw [falwaGridded, falwaContours, C140_contours G L hr hd true w n s f hf, extremum_none _ _ _ _ hf, extremum_none _ _ _ _ hf]
  simp only [if_true, List.map_map, Function.comp_def]
  have hA : ∀ j < G.nlat - 1, falwaAt G L true f (interpProfile (List.replicate n (none, some (L.equivalentLatitude 0))) none none
      (1 / 2 * (G.lat j + G.lat (j + 1)))) (some (1 / 2 * (G.lat j + G.lat (j + 1)))) i = none := by
    intro j hj
    have hs : ∀ x : Option K, sub x none = none := by intro x; cases x <;> rfl
    rw [interpProfile_none _ (fun k hk => by rw [(List.mem_replicate.1 hk).2])]
    have : column G L true (fun j => sub (f j i) none) (fun k => sub (some (G.lat k)) (some (1 / 2 * (G.lat j + G.lat (j + 1))))) = none := by
      refine (C140_boxcount G hr hd _ _).2 ⟨0, by omega, ⟨_, rfl, ?_⟩, hs _⟩
      have := hmid j hj
      have := hanti 0 j (by omega) (by omega)
      linarith
    rw [falwaAt, this, hs, div_none_left]
  have hk : knots (List.map (fun j => (falwaAt G L true f (interpProfile (List.replicate n (none, some (L.equivalentLatitude 0))) none none
      (1 / 2 * (G.lat j + G.lat (j + 1)))) (some (1 / 2 * (G.lat j + G.lat (j + 1)))) i, some (1 / 2 * (G.lat j + G.lat (j + 1)))))
      (List.range (G.nlat - 1))) (some 0) (some 0) =
      ((-90, some 0) :: ((List.range (G.nlat - 1)).map fun j => (1 / 2 * (G.lat j + G.lat (j + 1)), (none : Option K))).reverse) ++ [(90, some 0)] := by
    have e : List.filterMap (fun k : Option K × Option K => k.2.map fun y => (y, k.1)) (List.map (fun j => (falwaAt G L true f (interpProfile
        (List.replicate n (none, some (L.equivalentLatitude 0))) none none (1 / 2 * (G.lat j + G.lat (j + 1))))
        (some (1 / 2 * (G.lat j + G.lat (j + 1)))) i, some (1 / 2 * (G.lat j + G.lat (j + 1))))) (List.range (G.nlat - 1))) =
        (List.range (G.nlat - 1)).map fun j => (1 / 2 * (G.lat j + G.lat (j + 1)), (none : Option K)) := by
      rw [List.filterMap_map, ← List.filterMap_eq_map]
      apply List.filterMap_congr
      intro j hj
      simp only [Function.comp_apply, Option.map_some, hA j (List.mem_range.1 hj)]
    rw [knots, e, insertionSort_descending]
    · simp
    · rw [List.pairwise_cons, List.pairwise_append]
      refine ⟨?_, ?_, by simp, ?_⟩
      · intro b hb
        rcases List.mem_append.1 hb with hb | hb
        · obtain ⟨j, hj, rfl⟩ := List.mem_map.1 hb
          have hj := List.mem_range.1 hj
          have := hmid j hj
          have := hanti 0 j (by omega) (by omega)
          show 1 / 2 * (G.lat j + G.lat (j + 1)) < 90
          linarith
        · rw [List.mem_singleton.1 hb]
          show (-90 : K) < 90
          linarith [hlat 0 (G.nlat - 1) (by omega) (by omega)]
      · rw [List.pairwise_map]
        refine List.Pairwise.imp_of_mem ?_ List.pairwise_lt_range
        intro a b ha hb hab
        have hb := List.mem_range.1 hb
        have h1 := (hmid b hb).2
        have h2 := (hmid a (by omega)).1
        have := hanti (a + 1) b (by omega) (by omega)
        show 1 / 2 * (G.lat b + G.lat (b + 1)) < 1 / 2 * (G.lat a + G.lat (a + 1))
        linarith
      · intro a ha b hb
        obtain ⟨j, hj, rfl⟩ := List.mem_map.1 ha
        have hj := List.mem_range.1 hj
        rw [List.mem_singleton.1 hb]
        have := hmid j hj
        have := hanti (j + 1) (G.nlat - 1) (by omega) (by omega)
        show -90 < 1 / 2 * (G.lat j + G.lat (j + 1))
        linarith
  rw [interpColumn, hk]
  obtain ⟨m, hm⟩ : ∃ m, G.nlat - 1 = m + 1 := ⟨G.nlat - 2, by omega⟩
  obtain ⟨M, hM, hne⟩ : ∃ M : List (K × Option K), M = ((List.range (G.nlat - 1)).map fun j => (1 / 2 * (G.lat j + G.lat (j + 1)), (none : Option K))).reverse ∧
      M ≠ [] := ⟨_, rfl, by simp [hm]⟩
  have hMn : ∀ a ∈ M, a.2 = none := by
    intro a ha
    rw [hM] at ha
    obtain ⟨_, _, rfl⟩ := List.mem_map.1 (List.mem_reverse.1 ha)
    rfl
  rw [← hM]
  have chain : ∀ (M : List (K × Option K)) (a e : K × Option K), M ≠ [] → (∀ b ∈ M, b.2 = none) →
      ((a :: M) ++ [e]).IsChain fun a b => a.2 = none ∨ b.2 = none := by
    intro M
    induction M with
    | nil => intro a e h; exact absurd rfl h
    | cons b M ih =>
      intro a e _ h
      have hb : b.2 = none := h b (by simp)
      rw [List.cons_append, List.cons_append, List.isChain_cons_cons]
      refine ⟨Or.inr hb, ?_⟩
      rcases M with _ | ⟨c, M⟩
      · simp [hb]
      · exact ih b e (by simp) fun c hc => h c (List.mem_cons_of_mem _ hc)
  have hc := chain M (-90, some 0) (90, some 0) hne hMn
  obtain ⟨b, M', rfl⟩ := List.exists_cons_of_ne_nil hne
  exact interp2_none _ _ _ _ hc

theorem Missing.insertionSort_poles [IsStrictOrderedRing K] (n : ℕ) (v s : Option K) :
    (List.replicate n ((90 : K), v) ++ [(-90, s)]).insertionSort (fun a b : K × Option K => a.1 ≤ b.1) = (-90, s) :: List.replicate n (90, v) := by
  have h90 : ¬ (90 : K) ≤ -90 := by norm_num
  induction n with
  | zero => rfl
  | succ n ih =>
    rw [List.replicate_succ, List.cons_append, List.insertionSort_cons, ih, List.orderedInsert, if_neg h90]
    congr 1
    cases n with
    | zero => rfl
    | succ n => rw [List.replicate_succ, List.orderedInsert, if_pos le_rfl]

/-- C140 does not hold for the gridded local wave activity with the default trapezoidal rule: whatever the field, one missing value makes the
result zero **everywhere**. All contours (with missing values) sit on the north pole behind the value 0 that is prescribed there, and the sorting
of `interp1d` is stable, so that the interpolation only ever sees the two values at the poles. -/
theorem C140_falwa_refuted [IsStrictOrderedRing K] (G : Geometry K) (L : Library K) (hr : G.rsphere ≠ 0) (hd : G.dlam ≠ 0)
    (hL : L.equivalentLatitude 0 = 90) (w n : ℕ) (s : ℕ → K) (f : ℕ → ℕ → Option K) (hf : HasMissing G.nlat w f) (j i : ℕ) (hj : G.lat j ≤ 90) :
    falwaGridded G L false w f (autoLevels G w n s f) j i = some 0 := by
  have h90 : ¬ (90 : K) ≤ -90 := by norm_num
  have hd90 : (90 : K) + 90 ≠ 0 := by norm_num
  rw [falwaGridded, falwaContours, C140_contours G L hr hd false w n s f hf, hL]
  simp only [Bool.false_eq_true, if_false, List.map_replicate]
  obtain ⟨v, hv⟩ : ∃ v, v = falwaAt G L false f none (some 90) i := ⟨_, rfl⟩
  rw [← hv, interpColumn]
  have hk : knots (List.replicate n (v, some (90 : K))) (some 0) (some 0) = (-90, some 0) :: (90, some 0) :: List.replicate n (90, v) := by
    have e : List.filterMap (fun k : Option K × Option K => k.2.map fun y => (y, k.1)) (List.replicate n (v, some (90 : K))) =
        List.replicate n (90, v) := by
      induction n with
      | zero => rfl
      | succ n ih => rw [List.replicate_succ, List.replicate_succ, List.filterMap_cons, ih]; rfl
    rw [knots, e, List.insertionSort_cons, insertionSort_poles, List.orderedInsert, if_neg h90]
    cases n with
    | zero => rfl
    | succ n => rw [List.replicate_succ, List.orderedInsert, if_pos le_rfl]
  have hline : line ((-90 : K), some (0 : K)) (90, some 0) (G.lat j) = some 0 := by simp [line, sub, div, mul, add, hd90]
  rw [hk]
  cases n with
  | zero => exact hline
  | succ n =>
    show interp2 _ _ _ (List.replicate (n + 1) _) = _
    rw [List.replicate_succ, interp2, if_pos hj, hline]

/-! ## A grid of 3 latitudes and 2 longitudes -/

namespace MissingExample

def geometry : Geometry ℚ := ⟨3, 2, 1, 3, fun j => 90 - 90 * j, fun j => 1 - j, fun j => if j = 1 then 2 else 1⟩

def library : Library ℚ := ⟨id, fun x => 1 - x ^ 2 / 2, fun a => 90 - 15 * a, fun x => 1 - (x / 90) ^ 2⟩

def missing : ℕ → ℕ → Option ℚ := fun j i => if j = 1 ∧ i = 0 then none else some (2 - j + i)

example : HasMissing 3 2 missing := ⟨1, by decide, 0, by decide, by decide⟩
example : meanAll geometry 2 missing = none := by decide +kernel
example : meanAll geometry 2 (fun j i => some (j + i)) = some (3 / 2) := by decide +kernel
example : meanZonal 2 (missing 2) = some (1 / 2) := by decide +kernel
example : contourArea geometry library true 2 missing (some 1) = some 5 := by decide +kernel
example : contourArea geometry library true 2 (fun j i => some (2 - j + i)) (some 1) = some 7 := by decide +kernel
example : contourArea geometry library false 2 missing (some 1) = none := by decide +kernel
example : contourArea geometry library false 2 missing (some (5 / 2)) ≠ none := by decide +kernel
example : zonalize geometry library false 2 missing (autoLevels geometry 2 3 (fun k => k / 4) missing) 1 = none := by decide +kernel
example : falwa geometry library false 2 missing (autoLevels geometry 2 2 (fun k => k / 4) missing) 1 = [none, none] := by decide +kernel
example : falwaGridded geometry library true 2 missing (autoLevels geometry 2 2 (fun k => k / 4) missing) 1 1 = none := by decide +kernel
example : falwaGridded geometry library false 2 missing (autoLevels geometry 2 2 (fun k => k / 4) missing) 1 1 = some 0 := by decide +kernel
example : library.equivalentLatitude 0 = 90 := by decide +kernel
example : ∀ j, j + 1 < geometry.nlat → geometry.phi j ≠ geometry.phi (j + 1) := by
  intro j _; show (1 : ℚ) - j ≠ 1 - ((j + 1 : ℕ) : ℚ); push_cast; intro h; linarith

end MissingExample

end Barotropic
