import Verif.Model.Region
import Verif.Lemmas.Grid
import Mathlib.Data.List.Sort
import Mathlib.Data.List.FinRange
import Mathlib.Data.List.GetD

set_option linter.unusedSectionVars false

namespace Barotropic

/-- Filtering a sorted list by "small or large" = small ones followed by large ones. -/
theorem filter_or_append {α : Type*} (r : α → α → Prop) (p q : α → Bool)
    (hp : ∀ a b, r a b → p b = true → p a = true)
    (hpq : ∀ a, p a = true → q a = true → False) :
    ∀ l : List α, l.Pairwise r → (∀ a b, r a b → q a = true → p b = true → False) →
      l.filter (fun a => p a || q a) = l.filter p ++ l.filter q := by
  intro l
  induction l with
  | nil => simp
  | cons x xs ih =>
    intro hl hqp
    rw [List.pairwise_cons] at hl
    have ih := ih hl.2 hqp
    by_cases hx : p x = true
    · have hq : q x = false := by
        cases hq : q x with
        | false => rfl
        | true => exact (hpq x hx hq).elim
      simp [hx, hq, ih]
    · have hnil : xs.filter p = [] := by
        rw [List.filter_eq_nil_iff]
        intro b hb hpb
        exact hx (hp x b (hl.1 b hb) hpb)
      have hx' : p x = false := by simpa using hx
      rw [hnil, List.nil_append] at ih
      rw [List.filter_cons, List.filter_cons, List.filter_cons, hx', hnil]
      simp only [Bool.false_or, List.nil_append, Bool.false_eq_true, if_false]
      split <;> simp [ih]

theorem npRoll_append {α : Type*} (a b : List α) : npRoll (a ++ b) b.length = b ++ a := by
  unfold npRoll List.rotateRight
  simp only [List.length_append]
  split
  · rename_i h
    rcases a with _ | ⟨x, xs⟩
    · simp
    · rcases b with _ | ⟨y, ys⟩
      · simp
      · simp at h; omega
  · rename_i h
    rcases a with _ | ⟨x, xs⟩
    · simp
    · have : b.length % ((x :: xs).length + b.length) = b.length := by
        apply Nat.mod_eq_of_lt; simp
      simp only [this]
      have h2 : (x :: xs).length + b.length - b.length = (x :: xs).length := by omega
      rw [h2]
      simp

theorem filter_range_eq_singleton {n m : ℕ} (hm : m < n) (p : ℕ → Prop) [DecidablePred p]
    (hp : ∀ k, k < n → (p k ↔ k = m)) : (List.range n).filter (fun k => decide (p k)) = [m] := by
  have h1 : (List.range n).filter (fun k => decide (p k)) = (List.range n).filter (fun k => k == m) := by
    apply List.filter_congr
    intro k hk
    rw [List.mem_range] at hk
    have := hp k hk
    by_cases hkm : k = m
    · subst hkm; simp [this.2 rfl]
    · have : ¬ p k := fun h => hkm (this.1 h)
      simp [this, hkm]
  rw [h1, List.filter_beq, List.count_eq_one_of_mem List.nodup_range (List.mem_range.2 hm)]
  rfl

theorem filter_range_eq_nil {n : ℕ} (p : ℕ → Prop) [DecidablePred p]
    (hp : ∀ k, k < n → ¬ p k) : (List.range n).filter (fun k => decide (p k)) = [] := by
  rw [List.filter_eq_nil_iff]
  intro k hk
  rw [List.mem_range] at hk
  simpa using hp k hk

theorem mapIdx_split {α : Type*} (f : α → α) (b a : List α) :
    (b ++ a).mapIdx (fun i x => if i < b.length then f x else x) = b.map f ++ a := by
  apply List.ext_getElem
  · simp
  · intro i h1 h2
    simp only [List.getElem_mapIdx]
    by_cases hi : i < b.length
    · rw [if_pos hi, List.getElem_append_left hi, List.getElem_append_left (by simpa using hi), List.getElem_map]
    · rw [if_neg hi, List.getElem_append_right (by simpa using hi), List.getElem_append_right (by simpa using hi)]
      simp

variable {K : Type*} [Field K] [LinearOrder K] [IsStrictOrderedRing K] [FloorRing K]

namespace Grid

theorem nlat_lt_nlon {g : Grid K} (h : g.Valid) : g.nlat < g.nlon := by
  have h1 := h.nlat_ge
  have : 2 * (g.nlat - 1) ≤ g.nlon := by
    unfold nlat nlon nlatOf nlonOf
    rw [Nat.add_sub_cancel]
    apply Nat.le_floor
    have h2 : ((⌊180 / g.resolution⌋₊ : ℕ) : K) ≤ 180 / g.resolution :=
      Nat.floor_le (div_nonneg (by norm_num) h.res_pos.le)
    have h3 : (360 : K) / g.resolution = 2 * (180 / g.resolution) := by ring
    rw [h3]
    push_cast
    linarith
  omega

theorem finRange_filter_pairwise {n : ℕ} (p : Fin n → Bool) :
    ((List.finRange n).filter p).Pairwise (· < ·) :=
  (List.pairwise_lt_finRange n).filter p

/-- Shape of every longitude index array: an eastern run followed by a western run of smaller indices. -/
def TwoRuns {n : ℕ} (l : List (Fin n)) : Prop :=
  ∃ b a : List (Fin n), l = b ++ a ∧ b.Pairwise (· < ·) ∧ a.Pairwise (· < ·) ∧ ∀ x ∈ a, ∀ y ∈ b, x < y

theorem TwoRuns.of_sorted {n : ℕ} {l : List (Fin n)} (h : l.Pairwise (· < ·)) : TwoRuns l :=
  ⟨l, [], by simp, h, List.Pairwise.nil, by simp⟩

theorem TwoRuns.nodup {n : ℕ} {l : List (Fin n)} (h : TwoRuns l) : l.Nodup := by
  obtain ⟨b, a, rfl, hb, ha, hab⟩ := h
  rw [List.nodup_append]
  refine ⟨hb.imp (fun h => h.ne), ha.imp (fun h => h.ne), ?_⟩
  intro x hx y hy hxy
  have := hab y hy x hx
  exact this.ne hxy.symm

theorem lonSlice_wrap {g : Grid K} (h : g.Valid) {lo hi : K} (hlt : hi < lo) :
    g.lonSlice (some lo) (some hi) =
      ((List.finRange g.nlon).filter fun i : Fin g.nlon => decide (lo ≤ g.lon i)) ++
      ((List.finRange g.nlon).filter fun i : Fin g.nlon => decide (g.lon i ≤ hi)) := by
  unfold lonSlice
  simp only [if_pos hlt]
  have h1 : ((List.finRange g.nlon).filter fun i : Fin g.nlon => decide (g.lon i ≤ hi ∨ lo ≤ g.lon i)) =
      ((List.finRange g.nlon).filter fun i : Fin g.nlon => decide (g.lon i ≤ hi)) ++
      ((List.finRange g.nlon).filter fun i : Fin g.nlon => decide (lo ≤ g.lon i)) := by
    have := filter_or_append (fun a b : Fin g.nlon => a < b) (fun i : Fin g.nlon => decide (g.lon i ≤ hi))
      (fun i : Fin g.nlon => decide (lo ≤ g.lon i)) ?_ ?_ (List.finRange g.nlon) (List.pairwise_lt_finRange _) ?_
    · rw [← this]
      apply List.filter_congr
      intro x _
      simp [Bool.decide_or]
    · intro a b hab
      simp only [decide_eq_true_eq]
      intro hb
      have := lon_strictMono h (a := a) (b := b) hab
      linarith
    · intro a
      simp only [decide_eq_true_eq]
      intro h1 h2
      linarith
    · intro a b hab
      simp only [decide_eq_true_eq]
      intro h1 h2
      have := lon_strictMono h (a := a) (b := b) hab
      linarith
  rw [h1, List.countP_eq_length_filter, npRoll_append]

theorem lonSlice_twoRuns {g : Grid K} (h : g.Valid) (lo hi : Option K) : TwoRuns (g.lonSlice lo hi) := by
  rcases lo with _ | lo <;> rcases hi with _ | hi
  · exact TwoRuns.of_sorted (List.pairwise_lt_finRange _)
  · exact TwoRuns.of_sorted (finRange_filter_pairwise _)
  · exact TwoRuns.of_sorted (finRange_filter_pairwise _)
  · by_cases hlt : hi < lo
    · rw [lonSlice_wrap h hlt]
      refine ⟨_, _, rfl, finRange_filter_pairwise _, finRange_filter_pairwise _, ?_⟩
      intro x hx y hy
      simp only [List.mem_filter, decide_eq_true_eq] at hx hy
      have := (lon_strictMono h).lt_iff_lt (a := (x : ℕ)) (b := (y : ℕ))
      exact this.1 (by linarith [hx.2, hy.2])
    · unfold lonSlice
      simp only [if_neg hlt]
      exact TwoRuns.of_sorted (finRange_filter_pairwise _)

theorem latSlice_sorted (g : Grid K) (lo hi : Option K) : (g.latSlice lo hi).Pairwise (· < ·) := by
  rcases lo with _ | lo <;> rcases hi with _ | hi
  · exact List.pairwise_lt_finRange _
  · exact finRange_filter_pairwise _
  · exact finRange_filter_pairwise _
  · exact finRange_filter_pairwise _

theorem getLatIndices_sorted {g : Grid K} {s : Sel K} {l} (h : g.getLatIndices s = .ok l) :
    l.Pairwise (· < ·) := by
  unfold getLatIndices at h
  split at h
  · dsimp only at h
    split_ifs at h
    injection h with h
    subst h
    exact finRange_filter_pairwise _
  · dsimp only at h
    split at h
    · simp at h
    · injection h with h
      subst h
      exact latSlice_sorted _ _ _

theorem getLonIndices_twoRuns {g : Grid K} (hg : g.Valid) {s : Sel K} {l} (h : g.getLonIndices s = .ok l) :
    TwoRuns l := by
  unfold getLonIndices at h
  split at h
  · dsimp only at h
    split_ifs at h
    injection h with h
    subst h
    exact TwoRuns.of_sorted (finRange_filter_pairwise _)
  · split at h
    · simp at h
    · injection h with h
      subst h
      exact lonSlice_twoRuns hg _ _

theorem length_le_of_nodup {n : ℕ} {l : List (Fin n)} (h : l.Nodup) : l.length ≤ n := by
  have := List.Nodup.length_le_card h
  simpa using this

theorem mkRegion_ok {g : Grid K} {a : List (Fin g.nlat)} {b : List (Fin g.nlon)} (ha : a.Nodup) (hb : b.Nodup) :
    g.mkRegion a b = .ok ⟨a, b⟩ := by
  unfold mkRegion
  rw [if_pos (length_le_of_nodup ha), if_pos (length_le_of_nodup hb)]

/-- The components of a selection: `(longitude, latitude)`; `none` if the dimension count is wrong. -/
def selComponents : Selection K → Option (Sel K × Sel K)
  | .single s => some (s, .slice .none .none false)
  | .tuple [a, b] => some (a, b)
  | .tuple _ => none

theorem region_eq {g : Grid K} (hg : g.Valid) (sel : Selection K) :
    g.region sel = match selComponents sel with
      | none => .error .indexError
      | some (s0, s1) =>
        match g.getLonIndices s0 with
        | .error e => .error e
        | .ok lon => match g.getLatIndices s1 with
          | .error e => .error e
          | .ok lat => .ok ⟨lat, lon⟩ := by
  have key : ∀ s0 s1, (match g.getLonIndices s0 with
        | .error e => (.error e : Except PyErr (Region g))
        | .ok lon => match g.getLatIndices s1 with
          | .error e => .error e
          | .ok lat => g.mkRegion lat lon) = (match g.getLonIndices s0 with
        | .error e => (.error e : Except PyErr (Region g))
        | .ok lon => match g.getLatIndices s1 with
          | .error e => .error e
          | .ok lat => .ok ⟨lat, lon⟩) := by
    intro s0 s1
    cases h0 : g.getLonIndices s0 with
    | error e => rfl
    | ok lon =>
      cases h1 : g.getLatIndices s1 with
      | error e => rfl
      | ok lat =>
        exact mkRegion_ok ((getLatIndices_sorted h1).imp (fun h => h.ne)) (getLonIndices_twoRuns hg h0).nodup
  cases sel with
  | single s => exact key s (.slice .none .none false)
  | tuple l =>
    match l with
    | [] => rfl
    | [a] => rfl
    | [a, b] => exact key a b
    | a :: b :: c :: t => rfl

theorem region_ok {g : Grid K} (hg : g.Valid) {sel : Selection K} {r : Region g} (h : g.region sel = .ok r) :
    ∃ s0 s1, selComponents sel = some (s0, s1) ∧ g.getLonIndices s0 = .ok r.lonIndices ∧
      g.getLatIndices s1 = .ok r.latIndices := by
  rw [region_eq hg] at h
  cases hs : selComponents sel with
  | none => rw [hs] at h; simp at h
  | some p =>
    obtain ⟨s0, s1⟩ := p
    rw [hs] at h
    dsimp only at h
    cases h0 : g.getLonIndices s0 with
    | error e => rw [h0] at h; simp at h
    | ok lon =>
      rw [h0] at h
      dsimp only at h
      cases h1 : g.getLatIndices s1 with
      | error e => rw [h1] at h; simp at h
      | ok lat =>
        rw [h1] at h
        dsimp only at h
        injection h with h
        subst h
        exact ⟨s0, s1, rfl, h0, h1⟩

theorem region_lat_sorted {g : Grid K} (hg : g.Valid) {sel : Selection K} {r : Region g} (h : g.region sel = .ok r) :
    r.latIndices.Pairwise (· < ·) := by
  obtain ⟨s0, s1, -, -, h1⟩ := region_ok hg h
  exact getLatIndices_sorted h1

theorem region_lon_twoRuns {g : Grid K} (hg : g.Valid) {sel : Selection K} {r : Region g}
    (h : g.region sel = .ok r) : TwoRuns r.lonIndices := by
  obtain ⟨s0, s1, -, h0, -⟩ := region_ok hg h
  exact getLonIndices_twoRuns hg h0

theorem lat_pairwise {g : Grid K} (hg : g.Valid) {l : List (Fin g.nlat)} (h : l.Pairwise (· < ·)) :
    (l.map fun j : Fin g.nlat => g.lat j).Pairwise (· > ·) := by
  rw [List.pairwise_map]
  exact List.Pairwise.imp (fun {a b : Fin g.nlat} (hab : a < b) => lat_strictAnti hg (a := (a : ℕ)) (b := b) hab) h

theorem lon_pairwise {g : Grid K} (hg : g.Valid) {l : List (Fin g.nlon)} (h : l.Pairwise (· < ·)) :
    (l.map fun j : Fin g.nlon => g.lon j).Pairwise (· < ·) := by
  rw [List.pairwise_map]
  exact List.Pairwise.imp (fun {a b : Fin g.nlon} (hab : a < b) => lon_strictMono hg (a := (a : ℕ)) (b := b) hab) h

end Grid

namespace Region

theorem jumps_sorted (l : List K) (h : l.Pairwise (· < ·)) : jumps l = [] := by
  unfold jumps
  apply filter_range_eq_nil
  intro k hk
  rw [not_lt, sub_nonneg]
  have h1 : k + 1 < l.length := by omega
  rw [List.getD_eq_getElem _ _ h1, List.getD_eq_getElem _ _ (by omega)]
  exact (List.pairwise_iff_getElem.1 h k (k + 1) (by omega) h1 (by omega)).le

theorem jumps_two (b a : List K) (hb : b.Pairwise (· < ·)) (ha : a.Pairwise (· < ·)) (hb0 : b ≠ []) (ha0 : a ≠ [])
    (hab : ∀ x ∈ a, ∀ y ∈ b, x < y) : jumps (b ++ a) = [b.length - 1] := by
  unfold jumps
  have hbl : 0 < b.length := List.length_pos_iff.2 hb0
  have hal : 0 < a.length := List.length_pos_iff.2 ha0
  apply filter_range_eq_singleton
  · simp; omega
  · intro k hk
    rw [List.length_append] at hk
    rw [List.getD_eq_getElem _ _ (by simp; omega), List.getD_eq_getElem _ _ (by simp; omega), sub_neg]
    constructor
    · intro hlt
      by_contra hne
      rcases lt_or_gt_of_ne hne with h1 | h1
      · rw [List.getElem_append_left (by omega), List.getElem_append_left (by omega)] at hlt
        exact lt_asymm hlt (List.pairwise_iff_getElem.1 hb k (k + 1) (by omega) (by omega) (by omega))
      · rw [List.getElem_append_right (by omega), List.getElem_append_right (by omega)] at hlt
        exact lt_asymm hlt (List.pairwise_iff_getElem.1 ha _ _ (by omega) (by omega) (by omega))
    · intro hkm
      subst hkm
      rw [List.getElem_append_right (by omega), List.getElem_append_left (by omega)]
      exact hab _ (List.getElem_mem _) _ (List.getElem_mem _)

end Region
end Barotropic
