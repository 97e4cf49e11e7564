import Verif.Model.Zonalize
import Mathlib.Tactic.Linarith
import Mathlib.Tactic.FieldSimp
import Mathlib.Tactic.Ring

/-!
# Facts about the linear interpolation of sorted knots
-/

namespace Barotropic

theorem lerp_left (x0 x1 y0 y1 : ℝ) : lerp x0 x1 x0 y0 y1 = y0 := by unfold lerp; ring

theorem lerp_right {x0 x1 : ℝ} (h : x0 < x1) (y0 y1 : ℝ) : lerp x0 x1 x1 y0 y1 = y1 := by
  have : x1 - x0 ≠ 0 := by linarith
  unfold lerp; field_simp; ring

theorem lerp_const (x0 x1 x c : ℝ) : lerp x0 x1 x c c = c := by unfold lerp; simp

/-- convex combination -/
theorem lerp_convex {x0 x1 x : ℝ} (h : x0 < x1) (h0 : x0 ≤ x) (h1 : x ≤ x1) (y0 y1 : ℝ) :
    ∃ t, 0 ≤ t ∧ t ≤ 1 ∧ lerp x0 x1 x y0 y1 = (1 - t) * y0 + t * y1 := by
  have h2 : 0 < x1 - x0 := by linarith
  refine ⟨(x - x0) / (x1 - x0), div_nonneg (by linarith) h2.le, by rw [div_le_one h2]; linarith, ?_⟩
  unfold lerp; field_simp; ring

theorem lerp_ge {x0 x1 x y0 y1 m : ℝ} (h : x0 < x1) (h0 : x0 ≤ x) (h1 : x ≤ x1) (a : m ≤ y0) (b : m ≤ y1) :
    m ≤ lerp x0 x1 x y0 y1 := by
  obtain ⟨t, t0, t1, e⟩ := lerp_convex h h0 h1 y0 y1
  rw [e]; nlinarith

theorem lerp_le {x0 x1 x y0 y1 m : ℝ} (h : x0 < x1) (h0 : x0 ≤ x) (h1 : x ≤ x1) (a : y0 ≤ m) (b : y1 ≤ m) :
    lerp x0 x1 x y0 y1 ≤ m := by
  obtain ⟨t, t0, t1, e⟩ := lerp_convex h h0 h1 y0 y1
  rw [e]; nlinarith

theorem lerp_mono {x0 x1 x x' y0 y1 : ℝ} (h : x0 < x1) (hx : x ≤ x') (hy : y0 ≤ y1) :
    lerp x0 x1 x y0 y1 ≤ lerp x0 x1 x' y0 y1 := by
  unfold lerp
  have : 0 ≤ (y1 - y0) / (x1 - x0) := div_nonneg (by linarith) (by linarith)
  nlinarith

/-! ### np.interp -/

section NpInterp
variable {V : Type*} (L : ℝ → ℝ → ℝ → V → V → V)

/-- The result is the value of a knot at the argument, of the last knot, or is interpolated between two knots. -/
theorem npInterp_cases (a : ℝ × V) (l : List (ℝ × V)) (x : ℝ) (hx : a.1 ≤ x) :
    (∃ p ∈ a :: l, p.1 = x ∧ npInterp L a l x = p.2) ∨
    (∃ p ∈ a :: l, ∃ q ∈ a :: l, p.1 < x ∧ x < q.1 ∧ npInterp L a l x = L p.1 q.1 x p.2 q.2) ∨
    ((∀ p ∈ a :: l, p.1 ≤ x) ∧ npInterp L a l x = ((a :: l).getLast (by simp)).2) := by
  induction l generalizing a with
  | nil => exact .inr (.inr ⟨by simpa using hx, rfl⟩)
  | cons b l ih =>
    unfold npInterp
    by_cases hb : b.1 ≤ x
    · rw [if_pos hb]
      rcases ih b hb with ⟨p, hp, h⟩ | ⟨p, hp, q, hq, h⟩ | ⟨h, h'⟩
      · exact .inl ⟨p, List.mem_cons_of_mem _ hp, h⟩
      · exact .inr (.inl ⟨p, List.mem_cons_of_mem _ hp, q, List.mem_cons_of_mem _ hq, h⟩)
      · refine .inr (.inr ⟨?_, ?_⟩)
        · intro p hp
          rcases List.mem_cons.1 hp with rfl | hp
          · exact hx
          · exact h p hp
        · rw [h', List.getLast_cons_cons]
    · rw [if_neg hb]
      by_cases ha : a.1 = x
      · rw [if_pos ha]
        exact .inl ⟨a, by simp, ha, rfl⟩
      · rw [if_neg ha]
        exact .inr (.inl ⟨a, by simp, b, by simp, lt_of_le_of_ne hx ha, not_le.1 hb, rfl⟩)

theorem npInterp_last (a : ℝ × V) (l : List (ℝ × V)) (x : ℝ) (h : ∀ p ∈ l, p.1 ≤ x) :
    npInterp L a l x = ((a :: l).getLast (by simp)).2 := by
  induction l generalizing a with
  | nil => rfl
  | cons b l ih =>
    unfold npInterp
    rw [if_pos (h b (by simp)), ih b fun p hp => h p (List.mem_cons_of_mem _ hp), List.getLast_cons_cons]

end NpInterp

theorem npInterp_ge {m : ℝ} (a : ℝ × ℝ) (l : List (ℝ × ℝ)) {x : ℝ} (hx : a.1 ≤ x) (h : ∀ p ∈ a :: l, m ≤ p.2) :
    m ≤ npInterp lerp a l x := by
  induction l generalizing a with
  | nil => exact h a (by simp)
  | cons b l ih =>
    unfold npInterp
    split_ifs with h1 h2
    · exact ih b h1 fun p hp => h p (List.mem_cons_of_mem _ hp)
    · exact h a (by simp)
    · exact lerp_ge (by linarith [not_le.1 h1]) hx (not_le.1 h1).le (h a (by simp)) (h b (by simp))

theorem npInterp_le {m : ℝ} (a : ℝ × ℝ) (l : List (ℝ × ℝ)) {x : ℝ} (hx : a.1 ≤ x) (h : ∀ p ∈ a :: l, p.2 ≤ m) :
    npInterp lerp a l x ≤ m := by
  induction l generalizing a with
  | nil => exact h a (by simp)
  | cons b l ih =>
    unfold npInterp
    split_ifs with h1 h2
    · exact ih b h1 fun p hp => h p (List.mem_cons_of_mem _ hp)
    · exact h a (by simp)
    · exact lerp_le (by linarith [not_le.1 h1]) hx (not_le.1 h1).le (h a (by simp)) (h b (by simp))

theorem npInterp_mono (a : ℝ × ℝ) (l : List (ℝ × ℝ)) (hs : (a :: l).Pairwise fun p q => p.2 ≤ q.2)
    {x x' : ℝ} (hx : a.1 ≤ x) (hxx : x ≤ x') : npInterp lerp a l x ≤ npInterp lerp a l x' := by
  induction l generalizing a with
  | nil => exact le_rfl
  | cons b l ih =>
    have hs' := List.pairwise_cons.1 hs
    have hab := hs'.1 b (by simp)
    have hbl := List.pairwise_cons.1 hs'.2
    unfold npInterp
    by_cases h1 : b.1 ≤ x
    · rw [if_pos h1, if_pos (h1.trans hxx)]
      exact ih b hs'.2 h1
    · rw [if_neg h1]
      have h1' := not_le.1 h1
      by_cases h2 : b.1 ≤ x'
      · rw [if_pos h2]
        have k1 : b.2 ≤ npInterp lerp b l x' := npInterp_ge b l h2 (by
          intro p hp
          rcases List.mem_cons.1 hp with rfl | hp
          · exact le_rfl
          · exact hbl.1 p hp)
        refine le_trans ?_ k1
        split_ifs
        · exact hab
        · exact lerp_le (by linarith) hx h1'.le hab le_rfl
      · rw [if_neg h2]
        have h2' := not_le.1 h2
        by_cases h3 : a.1 = x
        · rw [if_pos h3]
          split_ifs
          · exact le_rfl
          · exact lerp_ge (by linarith) (by linarith) h2'.le le_rfl hab
        · rw [if_neg h3, if_neg (by intro h; exact h3 (by linarith))]
          exact lerp_mono (by linarith) hxx hab

/-! ### interp1d for 2-dimensional data -/

/-- The interval used by `_call_linear` has positive length and contains the argument. -/
theorem callLinear_cases {V : Type*} (L : ℝ → ℝ → ℝ → V → V → V) (a b : ℝ × V) (l : List (ℝ × V)) (x : ℝ)
    (hab : a.1 < b.1 ∨ a.1 < x) (hx : a.1 ≤ x) (hl : x ≤ ((a :: b :: l).getLast (by simp)).1) :
    ∃ p ∈ a :: b :: l, ∃ q ∈ a :: b :: l, p.1 < q.1 ∧ p.1 ≤ x ∧ x ≤ q.1 ∧
      callLinear L a b l x = L p.1 q.1 x p.2 q.2 := by
  induction l generalizing a b with
  | nil =>
    have hl : x ≤ b.1 := by simpa using hl
    exact ⟨a, by simp, b, by simp, by rcases hab with h | h <;> linarith, hx, hl, rfl⟩
  | cons c l ih =>
    unfold callLinear
    by_cases h : x ≤ b.1
    · rw [if_pos h]
      exact ⟨a, by simp, b, by simp, by rcases hab with h | h <;> linarith, hx, h, rfl⟩
    · rw [if_neg h]
      have h := not_le.1 h
      obtain ⟨p, hp, q, hq, r⟩ := ih b c (.inr h) h.le (by rw [List.getLast_cons (by simp)] at hl; exact hl)
      exact ⟨p, List.mem_cons_of_mem _ hp, q, List.mem_cons_of_mem _ hq, r⟩

/-! ### Sorting -/

theorem sortKnots_pairwise {V : Type*} (l : List (ℝ × V)) : (sortKnots l).Pairwise fun p q => p.1 ≤ q.1 := by
  have := List.pairwise_mergeSort (le := fun a b : ℝ × V => decide (a.1 ≤ b.1))
    (by intro a b c h1 h2; simp only [decide_eq_true_eq] at *; exact h1.trans h2)
    (by intro a b; simp only [Bool.or_eq_true, decide_eq_true_eq]; exact le_total _ _) l
  exact this.imp fun h => by simpa using h

theorem sortKnots_perm {V : Type*} (l : List (ℝ × V)) : (sortKnots l).Perm l := List.mergeSort_perm _ _

/-- Interior knots that are already sorted stay in order between the pole values. -/
theorem meridionalKnots_sorted {V : Type*} (ks : List (ℝ × V)) (n s : V) (h : ks.Pairwise fun p q => p.1 ≤ q.1)
    (hin : ∀ p ∈ ks, -90 < p.1 ∧ p.1 < 90) : meridionalKnots ks n s = (-90, s) :: (ks ++ [(90, n)]) := by
  classical
  have hperm : (meridionalKnots ks n s).Perm ((-90, s) :: (ks ++ [(90, n)])) := by
    unfold meridionalKnots
    refine (sortKnots_perm _).trans ?_
    have : ((90, n) :: ks ++ [(-90, s)]).Perm ((-90, s) :: ((90, n) :: ks)) := List.perm_append_singleton _ _
    refine this.trans ?_
    exact List.Perm.cons _ (List.perm_append_singleton _ _).symm
  have hsorted := sortKnots_pairwise ((90, n) :: ks ++ [(-90, s)])
  have hsub : ks.Sublist (meridionalKnots ks n s) := by
    unfold meridionalKnots sortKnots
    apply List.sublist_mergeSort
    · intro a b c h1 h2; simp only [decide_eq_true_eq] at *; exact h1.trans h2
    · intro a b; simp only [Bool.or_eq_true, decide_eq_true_eq]; exact le_total _ _
    · exact h.imp fun h => by simpa using h
    · exact (List.sublist_cons_self _ _).trans (List.sublist_append_left _ _)
  change (meridionalKnots ks n s).Pairwise _ at hsorted
  generalize meridionalKnots ks n s = r at hperm hsorted hsub
  -- first element
  have hlen : r.length = ks.length + 2 := by rw [hperm.length_eq]; simp
  obtain ⟨a, r', rfl⟩ : ∃ a r', r = a :: r' := by
    cases r with
    | nil => simp at hlen
    | cons a r' => exact ⟨a, r', rfl⟩
  have hmem : ∀ p : ℝ × V, p ∈ a :: r' ↔ p = (-90, s) ∨ p ∈ ks ∨ p = (90, n) := by
    intro p; rw [hperm.mem_iff]; simp
  have ha : a = (-90, s) := by
    have h1 : (-90, s) ∈ a :: r' := (hmem _).2 (.inl rfl)
    rcases List.mem_cons.1 h1 with h1 | h1
    · exact h1.symm
    · have h2 := (List.pairwise_cons.1 hsorted).1 _ h1
      rcases (hmem a).1 (by simp) with h | h | h
      · exact h
      · have := (hin a h).1; simp only at h2; linarith
      · rw [h] at h2; simp only at h2; norm_num at h2
  subst ha
  have hperm' := hperm.cons_inv
  have hsub' : ks.Sublist r' := by
    cases ks with
    | nil => exact List.nil_sublist _
    | cons k ks =>
      rcases List.sublist_cons_iff.1 hsub with h | ⟨t, ht, -⟩
      · exact h
      · have := (hin k (by simp)).1
        have e : k = (-90, s) := (List.cons.inj ht).1
        rw [e] at this
        simp at this
  congr 1
  -- last element
  have hlen' : r'.length = ks.length + 1 := by simpa using hlen
  obtain ⟨r'', b, rfl⟩ : ∃ r'' b, r' = r'' ++ [b] := by
    rcases List.eq_nil_or_concat r' with h | ⟨r'', b, h⟩
    · rw [h] at hlen'; simp at hlen'
    · exact ⟨r'', b, by simpa using h⟩
  have hs2 := (List.pairwise_cons.1 hsorted).2
  have hmem' : ∀ p : ℝ × V, p ∈ r'' ++ [b] ↔ p ∈ ks ∨ p = (90, n) := by
    intro p; rw [hperm'.mem_iff]; simp
  have hb : b = (90, n) := by
    have h1 : (90, n) ∈ r'' ++ [b] := (hmem' _).2 (.inr rfl)
    rcases List.mem_append.1 h1 with h1 | h1
    · have h2 := (List.pairwise_append.1 hs2).2.2 _ h1 b (by simp)
      rcases (hmem' b).1 (by simp) with h | h
      · have := (hin b h).2; simp only at h2; linarith
      · exact h
    · exact (List.mem_singleton.1 h1).symm
  subst hb
  congr 1
  have hsub'' : ks.Sublist r'' := by
    have := hsub'
    rw [← List.reverse_sublist] at this
    rw [← List.reverse_sublist]
    simp only [List.reverse_append, List.reverse_cons, List.reverse_nil, List.nil_append, List.singleton_append] at this
    cases hk : ks.reverse with
    | nil => exact List.nil_sublist _
    | cons k ks' =>
      rw [hk] at this
      rcases List.sublist_cons_iff.1 this with h | ⟨t, ht, -⟩
      · exact h
      · have hkm : k ∈ ks := by rw [← List.mem_reverse, hk]; simp
        have := (hin k hkm).2
        rw [(List.cons.inj ht).1] at this
        simp at this
  exact (hsub''.eq_of_length (by simp at hlen'; omega)).symm

end Barotropic
