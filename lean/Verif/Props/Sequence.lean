import Verif.Model.Sequence
import Verif.Spec.Sequence
import Verif.Props.StateList
import Verif.Props.Grid
import Mathlib.Data.List.Sort

/-!
# StateList objects as sequences: C132
-/

namespace Barotropic
open Sequence

variable {O : Type}

/-! ## Indices -/

/-- C132: `self[i]` is the element with index `i` for `0 ≤ i < len(self)`, and the element `-i` places before the end for
`-len(self) ≤ i < 0`. Everything else raises IndexError. -/
theorem C132_int (l : List O) (i : ℤ) :
    (∀ h : 0 ≤ i ∧ i < l.length, getitem l (.int i) = .ok (.one (l[i.toNat]'(by omega)))) ∧
    (∀ h : -l.length ≤ i ∧ i < 0, getitem l (.int i) = .ok (.one (l[l.length - (-i).toNat]'(by omega)))) ∧
    (i < -l.length ∨ l.length ≤ i → getitem l (.int i) = .error .indexError) := by
  refine ⟨fun h => ?_, fun h => ?_, fun h => ?_⟩
  · unfold getitem nth
    simp only
    rw [if_neg (by omega : ¬ i < 0), if_neg (by omega : ¬ i < 0), List.getElem?_eq_getElem (by omega)]
  · unfold getitem nth
    simp only
    rw [if_pos h.2, if_neg (by omega), List.getElem?_eq_getElem (by omega)]
    have : (i + l.length).toNat = l.length - (-i).toNat := by omega
    simp only [this]
  · unfold getitem nth
    simp only
    rcases h with h | h
    · rw [if_pos (by omega : i < 0), if_pos (by omega)]
    · rw [if_neg (by omega : ¬ i < 0), if_neg (by omega : ¬ i < 0), List.getElem?_eq_none (by omega)]

/-! ## Slices -/

theorem clamp_up (n : ℕ) {d : ℤ} (hd : 0 < d) (i : ℤ) : clamp n d i = max 0 (min (n : ℤ) (if i < 0 then i + n else i)) := by
  unfold clamp
  rw [if_neg (by omega : ¬ d < 0), if_neg (by omega : ¬ d < 0)]
  split_ifs <;> omega

theorem clamp_down (n : ℕ) {d : ℤ} (hd : d < 0) (i : ℤ) :
    clamp n d i = max (-1) (min ((n : ℤ) - 1) (if i < 0 then i + n else i)) := by
  unfold clamp
  rw [if_pos hd, if_pos hd]
  split_ifs <;> omega

theorem mem_up {a b d j : ℤ} (hd : 0 < d) :
    j ∈ (List.range (if a < b then (b - a - 1) / d + 1 else 0 : ℤ).toNat).map (fun k : ℕ => a + k * d) ↔
      a ≤ j ∧ j < b ∧ d ∣ j - a := by
  rw [List.mem_map]
  constructor
  · rintro ⟨k, hk, rfl⟩
    rw [List.mem_range] at hk
    split_ifs at hk with hab
    · have h0 : 0 ≤ (b - a - 1) / d := Int.ediv_nonneg (by omega) hd.le
      have hk' : (k : ℤ) ≤ (b - a - 1) / d := by omega
      have h1 : (k : ℤ) * d ≤ b - a - 1 := (Int.le_ediv_iff_mul_le hd).mp hk'
      have h2 : 0 ≤ (k : ℤ) * d := by positivity
      exact ⟨by omega, by omega, ⟨k, by ring⟩⟩
    · simp at hk
  · rintro ⟨h1, h2, c, hc⟩
    have hc0 : 0 ≤ c := by
      by_contra hlt
      have : d * c < 0 := mul_neg_of_pos_of_neg hd (by omega)
      omega
    refine ⟨c.toNat, ?_, ?_⟩
    · rw [List.mem_range, if_pos (by omega)]
      have : c ≤ (b - a - 1) / d := (Int.le_ediv_iff_mul_le hd).mpr (by rw [mul_comm]; omega)
      omega
    · rw [Int.toNat_of_nonneg hc0, mul_comm, ← hc]; ring

theorem mem_down {a b d j : ℤ} (hd : d < 0) :
    j ∈ (List.range (if b < a then (a - b - 1) / (-d) + 1 else 0 : ℤ).toNat).map (fun k : ℕ => a + k * d) ↔
      j ≤ a ∧ b < j ∧ d ∣ a - j := by
  have h := @mem_up (-a) (-b) (-d) (-j) (by omega)
  have e1 : (if -a < -b then (-b - -a - 1) / -d + 1 else 0 : ℤ) = if b < a then (a - b - 1) / (-d) + 1 else 0 := by
    rw [show -b - -a - 1 = a - b - 1 by ring]
    split_ifs <;> first | rfl | omega
  rw [e1] at h
  constructor
  · intro hj
    obtain ⟨h1, h2, h3⟩ := h.mp (by
      rw [List.mem_map] at hj ⊢
      obtain ⟨k, hk, rfl⟩ := hj
      exact ⟨k, hk, by ring⟩)
    exact ⟨by omega, by omega, by
      rw [neg_dvd] at h3
      rwa [show a - j = -j - -a by ring]⟩
  · rintro ⟨h1, h2, h3⟩
    have hj := h.mpr ⟨by omega, by omega, by
      rw [neg_dvd, show -j - -a = a - j by ring]
      exact h3⟩
    rw [List.mem_map] at hj ⊢
    obtain ⟨k, hk, hj⟩ := hj
    exact ⟨k, hk, by linarith⟩

theorem sorted_up (a : ℤ) {d : ℤ} (hd : 0 < d) (m : ℕ) : ((List.range m).map fun k : ℕ => a + k * d).Pairwise (· < ·) := by
  rw [List.pairwise_map]
  refine List.pairwise_lt_range.imp fun {i j} hij => ?_
  have : (i : ℤ) * d < j * d := by
    apply mul_lt_mul_of_pos_right _ hd
    exact_mod_cast hij
  omega

theorem sorted_down (a : ℤ) {d : ℤ} (hd : d < 0) (m : ℕ) : ((List.range m).map fun k : ℕ => a + k * d).Pairwise (· > ·) := by
  rw [List.pairwise_map]
  refine List.pairwise_lt_range.imp fun {i j} hij => ?_
  have : (j : ℤ) * d < i * d := by
    apply mul_lt_mul_of_neg_right _ hd
    exact_mod_cast hij
  omega

/-- C132: the indices of a slice are those of Python's documentation, in order and without repetition. -/
theorem C132_indices (n : ℕ) (start stop step : Option ℤ) (h : step ≠ some 0) :
    ∃ idx, sliceIndices n start stop step = .ok idx ∧ IsSlice n start stop (step.getD 1) idx := by
  have hd : step.getD 1 ≠ 0 := by cases step <;> simp_all
  unfold sliceIndices
  simp only
  rw [if_neg hd]
  refine ⟨_, rfl, fun hp => ?_, fun hn => ?_⟩
  · have hn : ¬ step.getD 1 < 0 := by omega
    cases start <;> cases stop <;> simp only [sliceBound, if_neg hn, clamp_up n hp] <;>
      exact ⟨sorted_up _ hp _, fun j => mem_up hp⟩
  · cases start <;> cases stop <;> simp only [sliceBound, if_pos hn, clamp_down n hn] <;>
      exact ⟨sorted_down _ hn _, fun j => mem_down hn⟩

theorem sliceBound_mem (n lo hi dflt : ℤ) (h : lo ≤ hi) (hd : lo ≤ dflt ∧ dflt ≤ hi) (o : Option ℤ) :
    lo ≤ sliceBound n lo hi dflt o ∧ sliceBound n lo hi dflt o ≤ hi := by
  cases o with
  | none => exact hd
  | some i => simp only [sliceBound]; omega

theorem IsSlice.range {n : ℕ} {start stop : Option ℤ} {d : ℤ} {idx : List ℤ} (h : IsSlice n start stop d idx) (hd : d ≠ 0) :
    ∀ j ∈ idx, 0 ≤ j ∧ j < n := by
  intro j hj
  rcases lt_or_gt_of_ne hd with hn | hp
  · obtain ⟨h1, h2, -⟩ := ((h.down hn).2 j).mp hj
    have k1 := sliceBound_mem n (-1) (n - 1) (n - 1) (by omega) (by omega) start
    have k2 := sliceBound_mem n (-1) (n - 1) (-1) (by omega) (by omega) stop
    omega
  · obtain ⟨h1, h2, -⟩ := ((h.up hp).2 j).mp hj
    have k1 := sliceBound_mem n 0 n 0 (by omega) (by omega) start
    have k2 := sliceBound_mem n 0 n n (by omega) (by omega) stop
    omega

/-- The indices of a slice are determined by the description. -/
theorem IsSlice.unique {n : ℕ} {start stop : Option ℤ} {d : ℤ} {idx idx' : List ℤ} (h : IsSlice n start stop d idx)
    (h' : IsSlice n start stop d idx') (hd : d ≠ 0) : idx = idx' := by
  rcases lt_or_gt_of_ne hd with hn | hp
  · exact (h.down hn).1.eq_of_mem_iff (h'.down hn).1 fun {j} => ((h.down hn).2 j).trans ((h'.down hn).2 j).symm
  · exact (h.up hp).1.eq_of_mem_iff (h'.up hp).1 fun {j} => ((h.up hp).2 j).trans ((h'.up hp).2 j).symm

/-- C132: a slice is the tuple of the elements at the indices of the slice, in their order; no index is out of range. A step
of zero raises ValueError. Other things in brackets raise TypeError. -/
theorem C132_slice (l : List O) (start stop step : Option ℤ) :
    (step = some 0 → getitem l (.slice start stop step) = .error .valueError) ∧
    (step ≠ some 0 → ∃ idx r, IsSlice l.length start stop (step.getD 1) idx ∧ getitem l (.slice start stop step) = .ok (.tuple r) ∧
      r.length = idx.length ∧ ∀ (k : ℕ) (hk : k < idx.length), r[k]? = l[idx[k].toNat]? ∧ 0 ≤ idx[k] ∧ idx[k] < l.length) ∧
    getitem l .other = .error .typeError := by
  refine ⟨fun h => ?_, fun h => ?_, rfl⟩
  · subst h; rfl
  · have hd : step.getD 1 ≠ 0 := by cases step <;> simp_all
    obtain ⟨idx, h1, h2⟩ := C132_indices l.length start stop step h
    have hr := h2.range hd
    have key : ∀ idx : List ℤ, (∀ j ∈ idx, 0 ≤ j ∧ j < l.length) →
        (idx.filterMap fun i => l[i.toNat]?).length = idx.length ∧
        ∀ (k : ℕ) (hk : k < idx.length), (idx.filterMap fun i => l[i.toNat]?)[k]? = l[idx[k].toNat]? := by
      intro idx
      induction idx with
      | nil => intro _; exact ⟨rfl, fun k hk => by simp at hk⟩
      | cons a t ih =>
        intro h
        obtain ⟨i1, i2⟩ := ih fun j hj => h j (List.mem_cons_of_mem _ hj)
        have ha := h a (by simp)
        have hx : l[a.toNat]? = some (l[a.toNat]'(by omega)) := List.getElem?_eq_getElem (by omega)
        rw [List.filterMap_cons_some (f := fun i : ℤ => l[i.toNat]?) hx]
        refine ⟨by simp [i1], fun k hk => ?_⟩
        cases k with
        | zero => simp [hx]
        | succ k => simpa using i2 k (by simpa using hk)
    refine ⟨idx, idx.filterMap fun i => l[i.toNat]?, h2, ?_, (key idx hr).1, fun k hk => ⟨(key idx hr).2 k hk, ?_⟩⟩
    · unfold getitem
      simp only [h1]
    · exact hr _ (List.getElem_mem hk)

/-- C132: `self[a:b]` of non-negative numbers are the elements from `a` to before `b`, as far as they exist. -/
theorem C132_range (l : List O) (a b : ℕ) :
    getitem l (.slice (some a) (some b) none) = .ok (.tuple ((l.take b).drop a)) := by
  obtain ⟨idx, r, h1, h2, h3, h4⟩ := (C132_slice l (some a) (some b) none).2.1 (by simp)
  rw [h2]
  congr 2
  have hs : IsSlice l.length (some (a : ℤ)) (some (b : ℤ)) 1
      ((List.range (min b l.length - a)).map fun k : ℕ => (a : ℤ) + k * 1) := by
    refine ⟨fun _ => ⟨sorted_up _ one_pos _, fun j => ?_⟩, fun h => by omega⟩
    simp only [List.mem_map, List.mem_range, sliceBound, isUnit_one, IsUnit.dvd, and_true]
    rw [if_neg (by omega), if_neg (by omega)]
    constructor
    · rintro ⟨k, hk, rfl⟩; omega
    · rintro ⟨h1, h2⟩; exact ⟨(j - a).toNat, by omega, by omega⟩
  have he : idx = _ := IsSlice.unique h1 hs (by simp)
  subst he
  apply List.ext_getElem?
  intro k
  rw [List.getElem?_drop, List.getElem?_take]
  by_cases hk : k < min b l.length - a
  · rw [(h4 k (by simpa using hk)).1, if_pos (by omega)]
    simp only [List.getElem_map, List.getElem_range]
    congr 1
    omega
  · rw [List.getElem?_eq_none (by rw [h3]; simpa using hk)]
    split_ifs with hb
    · rw [List.getElem?_eq_none (by omega)]
    · rfl

/-- C132: `self[::-1]` are all elements in reversed order, as given by `reversed(self)`. -/
theorem C132_reversed (l : List O) :
    getitem l (.slice none none (some (-1))) = .ok (.tuple l.reverse) ∧ reversed l = .ok l.reverse := by
  constructor
  · obtain ⟨idx, r, h1, h2, h3, h4⟩ := (C132_slice l none none (some (-1))).2.1 (by simp)
    rw [h2]
    congr 2
    have hs : IsSlice l.length none none (-1) ((List.range l.length).map fun k : ℕ => ((l.length : ℤ) - 1) + k * (-1)) := by
      refine ⟨fun h => by omega, fun _ => ⟨sorted_down _ (by omega) _, fun j => ?_⟩⟩
      simp only [List.mem_map, List.mem_range, sliceBound, Int.reduceNeg, neg_dvd, isUnit_one, IsUnit.dvd, and_true]
      constructor
      · rintro ⟨k, hk, rfl⟩; omega
      · rintro ⟨h1, h2⟩; exact ⟨(l.length - 1 - j).toNat, by omega, by omega⟩
    have he : idx = _ := IsSlice.unique h1 hs (by simp)
    subst he
    apply List.ext_getElem?
    intro k
    by_cases hk : k < l.length
    · rw [(h4 k (by simpa using hk)).1, List.getElem?_reverse hk]
      simp only [List.getElem_map, List.getElem_range]
      congr 1
      omega
    · rw [List.getElem?_eq_none (by rw [h3]; simpa using hk), List.getElem?_eq_none (by simpa using hk)]
  · have key : ∀ is : List ℕ, (∀ i ∈ is, i < l.length) →
        is.mapM (fun i : ℕ => nth l i) = .ok (is.filterMap fun i => l[i]?) := by
      intro is
      induction is with
      | nil => intro _; rfl
      | cons i t ih =>
        intro h
        have hi := h i (by simp)
        have hx : l[i]? = some l[i] := List.getElem?_eq_getElem hi
        have hn : nth l i = .ok l[i] := by
          unfold nth
          simp only
          rw [if_neg (by omega : ¬ (i : ℤ) < 0), if_neg (by omega : ¬ (i : ℤ) < 0)]
          simp [hx]
        rw [List.mapM_cons, hn, ih fun j hj => h j (List.mem_cons_of_mem _ hj),
          List.filterMap_cons_some (f := fun i : ℕ => l[i]?) hx]
        rfl
    unfold reversed len
    rw [key _ fun i hi => by simpa using hi, List.filterMap_reverse]
    congr 2
    apply List.ext_getElem?
    intro k
    have : (List.range l.length).filterMap (fun i => l[i]?) = l := by
      have h : ∀ l : List O, (List.range l.length).filterMap (fun i => l[i]?) = l := by
        intro l
        induction l with
        | nil => rfl
        | cons a t ih =>
          rw [List.length_cons, List.range_succ_eq_map, List.filterMap_cons_some (f := fun i => (a :: t)[i]?) (by rfl)]
          rw [List.filterMap_map]
          congr 1
      exact h l
    rw [this]

/-- C132: `self[:]` are all elements, `self[:k]` and `self[k:]` together too. -/
theorem C132_split (l : List O) (k : ℕ) :
    getitem l (.slice none none none) = .ok (.tuple l) ∧
    getitem l (.slice none (some k) none) = .ok (.tuple (l.take k)) ∧
    getitem l (.slice (some k) none none) = .ok (.tuple (l.drop k)) := by
  have h0 : ∀ stop, getitem l (.slice none stop none) = getitem l (.slice (some (0 : ℕ)) stop none) := by
    intro stop
    unfold getitem sliceIndices
    have : clamp l.length 1 0 = 0 := by unfold clamp; split_ifs <;> omega
    simp [this]
  have h1 : ∀ start, getitem l (.slice start none none) = getitem l (.slice start (some (l.length : ℕ)) none) := by
    intro start
    unfold getitem sliceIndices
    have : clamp l.length 1 (l.length : ℤ) = l.length := by unfold clamp; split_ifs <;> omega
    simp [this]
  refine ⟨?_, ?_, ?_⟩
  · rw [h0, h1, C132_range]; simp
  · rw [h0, C132_range]; simp
  · rw [h1, C132_range]; simp

/-! ## Searching -/

variable [DecidableEq O]

/-- C132: `x in self` and `self.count(x)`. -/
theorem C132_contains (l : List O) (x : O) : (contains x l = true ↔ x ∈ l) ∧ Sequence.count l x = List.count x l := by
  constructor
  · induction l with
    | nil => simp [contains]
    | cons a t ih =>
      unfold contains
      split_ifs with h
      · simp [h]
      · rw [ih, List.mem_cons]
        constructor
        · exact .inr
        · rintro (h' | h')
          · exact absurd h'.symm h
          · exact h'
  · induction l with
    | nil => rfl
    | cons a t ih =>
      unfold Sequence.count at *
      rw [List.map_cons, List.sum_cons, ih, List.count_cons]
      by_cases h : a = x
      · simp [h]; omega
      · simp [h]

theorem indexLoop_spec (l : List O) (x : O) (stop : Option ℤ) :
    ∀ (fuel : ℕ) (i : ℤ), 0 ≤ i → l.length < fuel + i →
      (∀ k, indexLoop l x stop fuel i = .ok k ↔
        i ≤ k ∧ (∀ s ∈ stop, k < s) ∧ l[k.toNat]? = some x ∧ ∀ j, i ≤ j → j < k → l[j.toNat]? ≠ some x) ∧
      (∀ e, indexLoop l x stop fuel i = .error e → e = .valueError) := by
  intro fuel
  induction fuel with
  | zero =>
    intro i hi hf
    refine ⟨fun k => ⟨fun h => (by cases h), fun ⟨h1, _, h2, _⟩ => ?_⟩, fun e h => by cases h; rfl⟩
    rw [List.getElem?_eq_none (by omega)] at h2
    cases h2
  | succ n ih =>
    intro i hi hf
    unfold indexLoop
    by_cases hs : ∃ s ∈ stop, s ≤ i
    · rw [if_pos hs]
      refine ⟨fun k => ⟨fun h => (by cases h), fun ⟨h1, h2, _⟩ => ?_⟩, fun e h => by cases h; rfl⟩
      obtain ⟨s, hs1, hs2⟩ := hs
      have := h2 s hs1
      omega
    · rw [if_neg hs]
      have hn : nth l i = match l[i.toNat]? with
          | some x => .ok x
          | none => .error .indexError := by
        unfold nth
        simp only
        rw [if_neg (by omega : ¬ i < 0), if_neg (by omega : ¬ i < 0)]
        cases l[i.toNat]? <;> rfl
      rw [hn]
      cases hx : l[i.toNat]? with
      | none =>
        refine ⟨fun k => ⟨fun h => (by cases h), fun ⟨h1, _, h2, _⟩ => ?_⟩, fun e h => by cases h; rfl⟩
        rw [List.getElem?_eq_none_iff] at hx
        rw [List.getElem?_eq_none (by omega)] at h2
        cases h2
      | some v =>
        dsimp only
        split_ifs with hv
        · subst hv
          refine ⟨fun k => ⟨fun h => ?_, fun ⟨h1, _, h2, h3⟩ => ?_⟩, fun e h => by cases h⟩
          · cases h
            refine ⟨le_refl _, fun s h => ?_, hx, fun j h1 h2 => by omega⟩
            by_contra hlt
            exact hs ⟨s, h, by omega⟩
          · by_cases hik : i = k
            · rw [hik]
            · exact absurd hx (h3 i (le_refl _) (by omega))
        · obtain ⟨i1, i2⟩ := ih (i + 1) (by omega) (by push_cast at hf ⊢; omega)
          refine ⟨fun k => (i1 k).trans ⟨fun ⟨h1, h2, h3, h4⟩ => ⟨by omega, h2, h3, fun j hj1 hj2 => ?_⟩,
            fun ⟨h1, h2, h3, h4⟩ => ⟨?_, h2, h3, fun j hj1 hj2 => h4 j (by omega) hj2⟩⟩, i2⟩
          · by_cases hij : j = i
            · subst hij
              rw [hx]
              intro h
              cases h
              exact hv rfl
            · exact h4 j (by omega) hj2
          · by_contra hlt
            have : k = i := by omega
            subst this
            rw [hx] at h3
            cases h3
            exact hv rfl

/-- C132: `self.index(x, start, stop)` is the first index in the slice `start:stop` at which there is the object; ValueError if
there is none. -/
theorem C132_index (l : List O) (x : O) (start : ℤ) (stop : Option ℤ) (k : ℤ) :
    (index l x start stop = .ok k ↔ (0 ≤ k ∧ (if start < 0 then start + l.length else start) ≤ k ∧
      (∀ s ∈ stop, k < if s < 0 then s + l.length else s) ∧ l[k.toNat]? = some x ∧
      ∀ j, 0 ≤ j → (if start < 0 then start + l.length else start) ≤ j → j < k → l[j.toNat]? ≠ some x)) ∧
    ∀ e, index l x start stop = .error e → e = .valueError := by
  unfold index
  simp only
  obtain ⟨i, hi⟩ : ∃ i : ℤ, i = if start < 0 then max (l.length + start) 0 else start := ⟨_, rfl⟩
  rw [← hi]
  have hi0 : 0 ≤ i := by rw [hi]; split_ifs <;> omega
  obtain ⟨h1, h2⟩ := indexLoop_spec l x (stop.map fun s : ℤ => if s < 0 then s + l.length else s) (l.length + 1) i hi0
    (by push_cast; omega)
  refine ⟨(h1 k).trans ?_, h2⟩
  have hle : ∀ j : ℤ, i ≤ j ↔ 0 ≤ j ∧ (if start < 0 then start + l.length else start) ≤ j := by
    intro j
    rw [hi]
    split_ifs <;> omega
  rw [hle]
  constructor
  · rintro ⟨⟨h1, h2⟩, h3, h4, h5⟩
    refine ⟨h1, h2, fun s hs => h3 _ ?_, h4, fun j hj1 hj2 hj3 => h5 j ((hle j).mpr ⟨hj1, hj2⟩) hj3⟩
    rw [Option.mem_def] at hs
    simp [hs]
  · rintro ⟨h1, h2, h3, h4, h5⟩
    refine ⟨⟨h1, h2⟩, fun s hs => ?_, h4, fun j hj1 hj3 => h5 j ((hle j).mp hj1).1 ((hle j).mp hj1).2 hj3⟩
    rw [Option.mem_def, Option.map_eq_some_iff] at hs
    obtain ⟨s', hs', rfl⟩ := hs
    exact h3 s' hs'

/-! ## StateLists -/

section
variable {τ : Type} {H : GridHeap}

/-- What square brackets return for a StateList is never a StateList: states, or tuples of states that have to be made into a
StateList again (`StateList(states[1:])`). C132: this works for slices if equality of the grids in the list is symmetric and
transitive, e.g. if there is only one grid object. -/
theorem C132_rebuild_partial (l : SList τ H) (start stop step : Option ℤ) (r : List (AnySt τ H))
    (hl : Homogeneous l.states) (hr : getitem l.states (.slice start stop step) = .ok (.tuple r))
    (hsymm : ∀ a ∈ l.states, ∀ b ∈ l.states, (H.grid a.1).eq (H.grid b.1) → (H.grid b.1).eq (H.grid a.1))
    (htrans : ∀ a ∈ l.states, ∀ b ∈ l.states, ∀ c ∈ l.states,
      (H.grid a.1).eq (H.grid b.1) → (H.grid b.1).eq (H.grid c.1) → (H.grid a.1).eq (H.grid c.1)) :
    SList.make (r.map .state) = .ok ⟨r⟩ := by
  rw [C39_success]
  refine ⟨rfl, ?_⟩
  have hsub : ∀ s ∈ r, s ∈ l.states := by
    intro s hs
    unfold getitem at hr
    simp only at hr
    cases hi : sliceIndices l.states.length start stop step with
    | error e => rw [hi] at hr; cases hr
    | ok idx =>
      rw [hi] at hr
      cases hr
      obtain ⟨i, -, h⟩ := List.mem_filterMap.mp hs
      exact List.mem_of_getElem? h
  intro f hf s hs
  cases hh : l.states.head? with
  | none =>
    rw [List.head?_eq_none_iff] at hh
    have := hsub s hs
    rw [hh] at this
    cases this
  | some h0 =>
    have m0 : h0 ∈ l.states := List.mem_of_head? hh
    have mf : f ∈ l.states := hsub f (List.mem_of_head? hf)
    exact htrans f mf h0 m0 s (hsub s hs) (hsymm h0 m0 f mf (hl h0 hh f mf)) (hl h0 hh s (hsub s hs))

/-- Non-vacuity: states on one grid object. -/
example (s : St τ (H.grid 0)) : SList.make ([⟨0, s⟩].map PyObj.state) = .ok (⟨[⟨0, s⟩]⟩ : SList τ H) := by
  have hself : ∀ g : Grid ℝ, g.eq g := fun g => (C03_equality_partial g g g).1
  exact C132_rebuild_partial ⟨[⟨0, s⟩, ⟨0, s⟩]⟩ (some 1) none none _ (by
    intro f hf s' hs'
    simp only [List.head?_cons, Option.some.injEq] at hf
    subst hf
    simp only [List.mem_cons, List.not_mem_nil, or_false, or_self] at hs'
    subst hs'
    exact hself _) ((C132_split _ 1).2.2) (by simp [hself]) (by simp [hself])

/-- C132 refuted in general: a part of a StateList need not be the content of any StateList, because equality of grids is not
transitive (C03). Three valid grids that differ in the radius of the sphere by a few metres; the first is equal to the others. -/
theorem C132_rebuild_refuted : ∃ (H : GridHeap) (l : SList Unit H) (r : List (AnySt Unit H)),
    (∀ i, (H.grid i).Valid) ∧ SList.make (l.states.map .state) = .ok l ∧
    getitem l.states (.slice (some (1 : ℕ)) none none) = .ok (.tuple r) ∧
    SList.make (r.map .state) = .error .assertionError := by
  have n10 : Grid.nlonOf (10 : ℝ) = 36 := by unfold Grid.nlonOf; norm_num
  have m10 : Grid.nlatOf (10 : ℝ) = 19 := by unfold Grid.nlatOf; norm_num
  have v10 : ∀ r : ℝ, 0 < r → (⟨10, r, 0, 18⟩ : Grid ℝ).Valid := fun r hr =>
    ⟨by norm_num, hr, by simp [Grid.nlon, n10], by simp [Grid.nlat, m10], by simp [Grid.nlat, m10]⟩
  let H : GridHeap :=
    ⟨fun i => ⟨10, if i = 1 then 1000009 else if i = 2 then 999991 else 1000000, 0, 18⟩,
      fun _ => ⟨fun _ => 0, fun _ => 0, fun _ _ => (0, 0), fun _ _ => (0, 0), fun _ => (0, 0)⟩⟩
  let s : ∀ i, AnySt Unit H := fun i => ⟨i, ⟨(), 0⟩⟩
  have e00 : (H.grid 0).eq (H.grid 0) := (C03_equality_partial _ (H.grid 0) (H.grid 0)).1
  have e01 : (H.grid 0).eq (H.grid 1) := by
    refine ⟨rfl, ?_, ?_, rfl⟩ <;> · unfold isclose; norm_num [H, abs]
  have e02 : (H.grid 0).eq (H.grid 2) := by
    refine ⟨rfl, ?_, ?_, rfl⟩ <;> · unfold isclose; norm_num [H, abs]
  have e11 : (H.grid 1).eq (H.grid 1) := (C03_equality_partial _ (H.grid 1) (H.grid 1)).1
  have e12 : ¬ (H.grid 1).eq (H.grid 2) := by
    rintro ⟨-, h, -⟩; revert h; unfold isclose; norm_num [H, abs]
  refine ⟨H, ⟨[s 0, s 1, s 2]⟩, [s 1, s 2], fun i => v10 _ ?_, ?_, (C132_split _ 1).2.2, ?_⟩
  · split_ifs <;> norm_num
  · rw [C39_success]
    refine ⟨rfl, fun f hf x hx => ?_⟩
    simp only [List.head?_cons, Option.some.injEq] at hf
    subst hf
    simp only [List.mem_cons, List.not_mem_nil, or_false] at hx
    rcases hx with rfl | rfl | rfl
    · exact e00
    · exact e01
    · exact e02
  · unfold SList.make
    simp only [List.map_cons, List.map_nil, SList.check, PyObj.asState, Option.getD_none, Option.getD_some]
    rw [if_pos e11, if_neg e12]

/-- C132: length and text of a StateList. -/
theorem C132_length (l : SList τ H) (i : ℤ) :
    ((∃ x, getitem l.states (.int i) = .ok (.one x)) ↔ -(len l.states : ℤ) ≤ i ∧ i < len l.states) ∧
    repr l.states = "<StateList with " ++ toString l.states.length ++ " states>" := by
  refine ⟨⟨fun ⟨x, hx⟩ => ?_, fun h => ?_⟩, ?_⟩
  · by_contra hlt
    rw [(C132_int l.states i).2.2 (by unfold len at hlt; omega)] at hx
    cases hx
  · unfold len at h
    rcases lt_or_ge i 0 with h0 | h0
    · exact ⟨_, (C132_int l.states i).2.1 ⟨h.1, h0⟩⟩
    · exact ⟨_, (C132_int l.states i).1 ⟨h0, h.2⟩⟩
  · rfl

end

/-- Non-vacuity: indices, slices and searches. -/
example : getitem [10, 11, 12, 13] (.int (-1)) = .ok (.one 13) := rfl
example : getitem [10, 11, 12, 13] (.slice (some (-1)) (some 0) (some (-2))) = .ok (.tuple [13, 11]) := rfl
example : getitem [10, 11, 12, 13] (.slice (some 1) (some 100) (some 2)) = .ok (.tuple [11, 13]) := rfl
example : index [10, 11, 12, 11] 11 (-2) none = .ok 3 := by decide +kernel
example : index [10, 11, 12, 11] 11 2 (some 3) = .error .valueError := by decide +kernel

end Barotropic
