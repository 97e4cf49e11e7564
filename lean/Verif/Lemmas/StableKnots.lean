import Verif.Lemmas.Interp

/-!
# Knots at the poles: the order in which the sort leaves them, and interpolation between them
-/

namespace Barotropic
variable {V : Type*}

theorem sortKnots_cons (a : ℝ × V) (l : List (ℝ × V)) :
    ∃ l1 l2, sortKnots (a :: l) = l1 ++ a :: l2 ∧ sortKnots l = l1 ++ l2 ∧ (∀ b ∈ l1, b.1 < a.1) ∧ ∀ b ∈ l2, a.1 ≤ b.1 := by
  obtain ⟨l1, l2, h1, h2, h3⟩ := List.mergeSort_cons (le := fun a b : ℝ × V => decide (a.1 ≤ b.1))
    (fun a b c h h' => by simp only [decide_eq_true_eq] at *; exact h.trans h') (fun a b => by simp only [Bool.or_eq_true, decide_eq_true_eq]; exact le_total _ _) a l
  refine ⟨l1, l2, h1, h2, fun b hb => by simpa using h3 b hb, fun b hb => ?_⟩
  have hs := sortKnots_pairwise (a :: l)
  rw [show sortKnots (a :: l) = l1 ++ a :: l2 from h1, List.pairwise_append] at hs
  exact (List.pairwise_cons.1 hs.2.1).1 b hb

/-- A list that consists of elements below `c` followed by others is split in one way only. -/
theorem split_unique {c : ℝ} {l1 l2 m1 m2 : List (ℝ × V)} (h : l1 ++ l2 = m1 ++ m2) (h1 : ∀ b ∈ l1, b.1 < c) (h2 : ∀ b ∈ l2, c ≤ b.1)
    (h3 : ∀ b ∈ m1, b.1 < c) (h4 : ∀ b ∈ m2, c ≤ b.1) : l1 = m1 ∧ l2 = m2 := by
  have key : ∀ l : List (ℝ × V), (∀ b ∈ l, b.1 < c) → l.filter (fun b => decide (b.1 < c)) = l := fun l h =>
    List.filter_eq_self.mpr fun b hb => by simpa using h b hb
  have key2 : ∀ l : List (ℝ × V), (∀ b ∈ l, c ≤ b.1) → l.filter (fun b => decide (b.1 < c)) = [] := fun l h =>
    List.filter_eq_nil_iff.mpr fun b hb => by simpa using h b hb
  have e := congrArg (List.filter fun b => decide (b.1 < c)) h
  rw [List.filter_append, List.filter_append, key _ h1, key _ h3, key2 _ h2, key2 _ h4, List.append_nil, List.append_nil] at e
  exact ⟨e, by rw [e] at h; exact List.append_cancel_left h⟩

theorem sortKnots_south (s : V) (A B : List (ℝ × V)) (hA : ∀ p ∈ A, p.1 = -90) (hB : ∀ p ∈ B, -90 < p.1) (hs : B.Pairwise fun p q => p.1 ≤ q.1) :
    sortKnots (A ++ B ++ [(-90, s)]) = A ++ (-90, s) :: B := by
  induction A with
  | nil =>
    induction B with
    | nil => simp [sortKnots]
    | cons b B ih =>
      obtain ⟨l1, l2, h1, h2, h3, h4⟩ := sortKnots_cons b (B ++ [(-90, s)])
      have hb := hB b (by simp)
      have hh := List.pairwise_cons.1 hs
      have ih' := ih (fun p hp => hB p (by simp [hp])) hh.2
      simp only [List.nil_append] at ih'
      obtain ⟨e1, e2⟩ := split_unique (c := b.1) (l1 := l1) (l2 := l2) (m1 := [(-90, s)]) (m2 := B) (by rw [← h2, ih']; rfl) h3 h4 (by simpa using hb) hh.1
      simp only [List.nil_append, List.cons_append]
      rw [h1, e1, e2]
      rfl
  | cons a A ih =>
    have ih' := ih fun p hp => hA p (by simp [hp])
    obtain ⟨l1, l2, h1, h2, h3, h4⟩ := sortKnots_cons a (A ++ B ++ [(-90, s)])
    have ha := hA a (by simp)
    obtain ⟨e1, e2⟩ := split_unique (c := a.1) (l1 := l1) (l2 := l2) (m1 := []) (m2 := A ++ (-90, s) :: B) (by rw [← h2, ih']; rfl) h3 h4 (by simp) (by
      intro p hp
      rw [ha]
      rcases List.mem_append.1 hp with hp | hp
      · exact (hA p (by simp [hp])).ge
      · rcases List.mem_cons.1 hp with rfl | hp
        · exact le_rfl
        · exact (hB p hp).le)
    simp only [List.cons_append]
    rw [h1, e1, e2]
    rfl

/-- The value of the south pole follows all other knots there, the value of the north pole precedes all other knots there. -/
theorem meridionalKnots_poles (n s : V) (A B C : List (ℝ × V)) (hA : ∀ p ∈ A, p.1 = -90) (hB : ∀ p ∈ B, -90 < p.1 ∧ p.1 < 90)
    (hC : ∀ p ∈ C, p.1 = 90) (hs : B.Pairwise fun p q => p.1 ≤ q.1) : meridionalKnots (A ++ B ++ C) n s = A ++ (-90, s) :: (B ++ (90, n) :: C) := by
  have e := sortKnots_south s A (B ++ C) hA (by
    intro p hp
    rcases List.mem_append.1 hp with hp | hp
    · exact (hB p hp).1
    · rw [hC p hp]; norm_num) (by
    rw [List.pairwise_append]
    refine ⟨hs, List.pairwise_of_forall_mem_list fun p hp q hq => by rw [hC p hp, hC q hq], fun p hp q hq => ?_⟩
    rw [hC q hq]
    exact (hB p hp).2.le)
  obtain ⟨l1, l2, h1, h2, h3, h4⟩ := sortKnots_cons (90, n) (A ++ (B ++ C) ++ [(-90, s)])
  obtain ⟨e1, e2⟩ := split_unique (c := 90) (l1 := l1) (l2 := l2) (m1 := A ++ (-90, s) :: B) (m2 := C) (by rw [← h2, e]; simp) h3 h4 (by
    intro p hp
    rcases List.mem_append.1 hp with hp | hp
    · rw [hA p hp]; norm_num
    · rcases List.mem_cons.1 hp with rfl | hp
      · norm_num
      · exact (hB p hp).2) (fun p hp => (hC p hp).ge)
  unfold meridionalKnots
  rw [List.append_assoc A B C, List.cons_append, h1, e1, e2]
  simp

/-- Knots in ascending order consist of those at the south pole, those between the poles, and those at the north pole. -/
theorem split_poles (ks : List (ℝ × V)) (hs : ks.Pairwise fun p q => p.1 ≤ q.1) (hin : ∀ p ∈ ks, -90 ≤ p.1 ∧ p.1 ≤ 90) :
    ∃ A C, (∀ p ∈ A, p.1 = -90) ∧ (∀ p ∈ C, p.1 = 90) ∧ ks = A ++ ks.filter (fun p => decide (-90 < p.1 ∧ p.1 < 90)) ++ C := by
  induction ks with
  | nil => exact ⟨[], [], by simp, by simp, rfl⟩
  | cons a l ih =>
    have hh := List.pairwise_cons.1 hs
    obtain ⟨A, C, hA, hC, e⟩ := ih hh.2 fun p hp => hin p (by simp [hp])
    have ha := hin a (by simp)
    by_cases h1 : a.1 = -90
    · refine ⟨a :: A, C, by simpa [h1] using fun x y h => hA (x, y) h, hC, ?_⟩
      rw [List.filter_cons_of_neg (by simp [h1])]
      simp only [List.cons_append]
      rw [← e]
    · have h1' : -90 < a.1 := lt_of_le_of_ne ha.1 (Ne.symm h1)
      have hA0 : A = [] := by
        rcases A with - | ⟨b, A⟩
        · rfl
        · have := hh.1 b (by rw [e]; simp)
          rw [hA b (by simp)] at this
          linarith
      subst hA0
      by_cases h2 : a.1 = 90
      · have hnil : l.filter (fun p => decide (-90 < p.1 ∧ p.1 < 90)) = [] := List.filter_eq_nil_iff.mpr fun b hb => by
          have := hh.1 b hb
          simp only [decide_eq_true_eq, not_and, not_lt]
          intro
          linarith
        refine ⟨[], a :: C, by simp, by simpa [h2] using fun x y h => hC (x, y) h, ?_⟩
        rw [List.filter_cons_of_neg (by simp [h2]), hnil]
        rw [hnil] at e
        simpa using e
      · refine ⟨[], C, by simp, hC, ?_⟩
        rw [List.filter_cons_of_pos (by simp only [decide_eq_true_eq]; exact ⟨h1', lt_of_le_of_ne ha.2 h2⟩)]
        simp only [List.nil_append, List.cons_append] at e ⊢
        rw [← e]

theorem npInterp_skip (lp : ℝ → ℝ → ℝ → V → V → V) (a : ℝ × V) (A : List (ℝ × V)) (b : ℝ × V) (l : List (ℝ × V)) {x : ℝ} (hA : ∀ p ∈ A, p.1 ≤ x) (hb : b.1 ≤ x) :
    npInterp lp a (A ++ b :: l) x = npInterp lp b l x := by
  induction A generalizing a with
  | nil =>
    simp only [List.nil_append]
    rw [npInterp, if_pos hb]
  | cons c A ih =>
    simp only [List.cons_append]
    rw [npInterp, if_pos (hA c (by simp)), ih _ fun p hp => hA p (by simp [hp])]

theorem npInterp_cut (lp : ℝ → ℝ → ℝ → V → V → V) (a : ℝ × V) (B : List (ℝ × V)) (b : ℝ × V) (C : List (ℝ × V)) {x : ℝ} (hb : x < b.1) :
    npInterp lp a (B ++ b :: C) x = npInterp lp a (B ++ [b]) x := by
  induction B generalizing a with
  | nil =>
    simp only [List.nil_append]
    rw [npInterp, npInterp, if_neg (not_le.2 hb), if_neg (not_le.2 hb)]
  | cons c B ih =>
    simp only [List.cons_append]
    rw [npInterp, npInterp]
    split_ifs
    · exact ih _
    · rfl
    · rfl

/-- `v` is the value at `x` on the line between the last knot up to `x` and the first knot beyond `x`. -/
def Bracketed (K : List (ℝ × ℝ)) (x v : ℝ) : Prop :=
  ∃ p ∈ K, ∃ r ∈ K, p.1 ≤ x ∧ x < r.1 ∧ v = lerp p.1 r.1 x p.2 r.2 ∧ p.2 ≤ r.2 ∧ (∀ k ∈ K, k.1 ≤ x → k.2 ≤ p.2 ∧ k.1 ≤ p.1) ∧ ∀ k ∈ K, x < k.1 → r.2 ≤ k.2 ∧ r.1 ≤ k.1

theorem npInterp_bracketed (a : ℝ × ℝ) (l : List (ℝ × ℝ)) {x : ℝ} (ha : a.1 ≤ x) (hl : ∃ p ∈ l, x < p.1)
    (hs : (a :: l).Pairwise fun p q => p.1 ≤ q.1 ∧ p.2 ≤ q.2) : Bracketed (a :: l) x (npInterp lerp a l x) := by
  induction l generalizing a with
  | nil => simp at hl
  | cons b l ih =>
    have hh := List.pairwise_cons.1 hs
    by_cases hb : b.1 ≤ x
    · rw [npInterp, if_pos hb]
      obtain ⟨p, hp, r, hr, h1, h2, h3, h4, h5, h6⟩ := ih b hb (by
        obtain ⟨p, hp, h⟩ := hl
        rcases List.mem_cons.1 hp with rfl | hp
        · linarith
        · exact ⟨p, hp, h⟩) hh.2
      refine ⟨p, by simp [List.mem_cons.1 hp], r, by simp [List.mem_cons.1 hr], h1, h2, h3, h4, fun k hk hkx => ?_, fun k hk hkx => ?_⟩
      · rcases List.mem_cons.1 hk with rfl | hk
        · have := hh.1 p hp
          exact ⟨this.2, this.1⟩
        · exact h5 k hk hkx
      · rcases List.mem_cons.1 hk with rfl | hk
        · linarith
        · exact h6 k hk hkx
    · have hbx := not_le.1 hb
      refine ⟨a, by simp, b, by simp, ha, hbx, ?_, (hh.1 b (by simp)).2, fun k hk hkx => ?_, fun k hk hkx => ?_⟩
      · rw [npInterp, if_neg hb]
        split_ifs with h
        · rw [h]; simp [lerp]
        · rfl
      · rcases List.mem_cons.1 hk with rfl | hk
        · exact ⟨le_rfl, le_rfl⟩
        · exfalso
          rcases List.mem_cons.1 hk with rfl | hk
          · exact hb hkx
          · have := ((List.pairwise_cons.1 hh.2).1 k hk).1
            linarith
      · rcases List.mem_cons.1 hk with rfl | hk
        · linarith
        · rcases List.mem_cons.1 hk with rfl | hk
          · exact ⟨le_rfl, le_rfl⟩
          · have := (List.pairwise_cons.1 hh.2).1 k hk
            exact ⟨this.2, this.1⟩

/-- Lines whose ends are further to the left and higher are higher. -/
theorem lerp_order {x p1 p2 r1 r2 p1' p2' r1' r2' : ℝ} (h1 : p1' ≤ p1) (hp : p1 ≤ x) (hr : x < r1') (h2 : r1' ≤ r1) (h3 : p2 ≤ p2') (h4 : r2 ≤ r2') (h5 : p2' ≤ r2') :
    lerp p1 r1 x p2 r2 ≤ lerp p1' r1' x p2' r2' := by
  unfold lerp
  have d : 0 < r1 - p1 := by linarith
  have d' : 0 < r1' - p1' := by linarith
  obtain ⟨w, hw⟩ : ∃ w, w = (x - p1) / (r1 - p1) := ⟨_, rfl⟩
  obtain ⟨w', hw'⟩ : ∃ w', w' = (x - p1') / (r1' - p1') := ⟨_, rfl⟩
  have e : (r2 - p2) / (r1 - p1) * (x - p1) + p2 = (r2 - p2) * w + p2 := by rw [hw]; ring
  have e' : (r2' - p2') / (r1' - p1') * (x - p1') + p2' = (r2' - p2') * w' + p2' := by rw [hw']; ring
  have w0 : 0 ≤ w := by rw [hw]; exact div_nonneg (by linarith) d.le
  have w1 : w ≤ 1 := by rw [hw, div_le_one d]; linarith
  have hww : w ≤ w' := by
    rw [hw, hw', div_le_div_iff₀ d d']
    nlinarith [mul_nonneg (sub_nonneg.2 hp) (sub_nonneg.2 h2), mul_nonneg (sub_nonneg.2 h1) (sub_nonneg.2 hr.le), mul_nonneg (sub_nonneg.2 h1) (sub_nonneg.2 h2), mul_nonneg (sub_nonneg.2 h1) (sub_nonneg.2 hp)]
  rw [e, e']
  nlinarith [mul_nonneg (sub_nonneg.2 h5) (sub_nonneg.2 hww), mul_nonneg (sub_nonneg.2 h3) (sub_nonneg.2 w1), mul_nonneg (sub_nonneg.2 h4) w0]

theorem lerp_le_right {x p1 p2 r1 r2 : ℝ} (hp : p1 ≤ x) (hr : x < r1) (h : p2 ≤ r2) : p2 ≤ lerp p1 r1 x p2 r2 ∧ lerp p1 r1 x p2 r2 ≤ r2 := by
  unfold lerp
  have d : 0 < r1 - p1 := by linarith
  have e : (r2 - p2) / (r1 - p1) * (x - p1) = (r2 - p2) * ((x - p1) / (r1 - p1)) := by ring
  have w0 : 0 ≤ (x - p1) / (r1 - p1) := div_nonneg (by linarith) d.le
  have w1 : (x - p1) / (r1 - p1) ≤ 1 := by rw [div_le_one d]; linarith
  rw [e]
  constructor <;> nlinarith

/-- The knots of a profile: the poles and the contours `q` of `L` with latitudes `y q` strictly between the poles -/
def ProfileKnots (L : List ℝ) (y : ℝ → ℝ) (lo hi : ℝ) (K : List (ℝ × ℝ)) : Prop :=
  ∀ k, k ∈ K ↔ k = (-90, lo) ∨ k = (90, hi) ∨ ∃ q ∈ L, k = (y q, q) ∧ -90 < y q ∧ y q < 90

/-- Profiles are in the order of the latitudes of their contours. -/
theorem bracketed_order {L : List ℝ} {y y' : ℝ → ℝ} {lo hi lo' hi' x v v' : ℝ} {K K' : List (ℝ × ℝ)} (hK : ProfileKnots L y lo hi K) (hK' : ProfileKnots L y' lo' hi' K')
    (hy : ∀ q ∈ L, y' q ≤ y q) (hlo : lo ≤ lo') (hhi : hi ≤ hi') (hm : ∀ q ∈ L, -90 ≤ y' q) (hM : ∀ q ∈ L, y q ≤ 90) (h90 : ∀ q ∈ L, y q = 90 → hi ≤ q) (h90' : ∀ q ∈ L, y' q = -90 → q ≤ lo')
    (h0 : -90 ≤ x) (h1 : x < 90) (hv : Bracketed K x v) (hv' : Bracketed K' x v') : v ≤ v' := by
  obtain ⟨p, hp, r, hr, hpx, hxr, rfl, hpr, hbelow, habove⟩ := hv
  obtain ⟨p', hp', r', hr', hpx', hxr', rfl, hpr', hbelow', habove'⟩ := hv'
  have south' : lo' ≤ p'.2 ∧ -90 ≤ p'.1 := hbelow' (-90, lo') ((hK' _).2 (.inl rfl)) h0
  have south : lo ≤ p.2 ∧ -90 ≤ p.1 := hbelow (-90, lo) ((hK _).2 (.inl rfl)) h0
  have north : r.2 ≤ hi ∧ r.1 ≤ 90 := habove (90, hi) ((hK _).2 (.inr (.inl rfl))) h1
  have north' : r'.2 ≤ hi' ∧ r'.1 ≤ 90 := habove' (90, hi') ((hK' _).2 (.inr (.inl rfl))) h1
  -- contours up to x
  have up' : ∀ q ∈ L, y' q ≤ x → q ≤ p'.2 := fun q hq hqx => by
    rcases eq_or_lt_of_le (hm q hq) with e | e
    · exact (h90' q hq e.symm).trans south'.1
    · exact (hbelow' (y' q, q) ((hK' _).2 (.inr (.inr ⟨q, hq, rfl, e, by linarith⟩))) hqx).1
  have dn : ∀ q ∈ L, x < y q → r.2 ≤ q := fun q hq hqx => by
    rcases eq_or_lt_of_le (hM q hq) with e | e
    · exact north.1.trans (h90 q hq e)
    · exact (habove (y q, q) ((hK _).2 (.inr (.inr ⟨q, hq, rfl, by linarith, e⟩))) hqx).1
  have hp2 : p.2 ≤ p'.2 := by
    rcases (hK p).1 hp with rfl | rfl | ⟨q, hq, rfl, hq1, hq2⟩
    · exact hlo.trans south'.1
    · simp only at hpx; linarith
    · exact up' q hq ((hy q hq).trans hpx)
  have hr2 : r.2 ≤ r'.2 := by
    rcases (hK' r').1 hr' with rfl | rfl | ⟨q, hq, rfl, hq1, hq2⟩
    · simp only at hxr'; linarith
    · exact north.1.trans hhi
    · exact dn q hq (lt_of_lt_of_le hxr' (hy q hq))
  rcases le_or_gt r.2 p'.2 with hA | hB
  · exact (lerp_le_right hpx hxr hpr).2.trans (hA.trans (lerp_le_right hpx' hxr' hpr').1)
  · refine lerp_order ?_ hpx hxr' ?_ hp2 hr2 hpr'
    · rcases (hK' p').1 hp' with rfl | rfl | ⟨q, hq, rfl, hq1, hq2⟩
      · exact south.2
      · simp only at hpx'; linarith
      · have hyx : y q ≤ x := by
          by_contra hc
          exact absurd (dn q hq (not_le.1 hc)) (not_le.2 hB)
        exact (hy q hq).trans (hbelow (y q, q) ((hK _).2 (.inr (.inr ⟨q, hq, rfl, lt_of_lt_of_le hq1 (hy q hq), by linarith⟩))) hyx).2
    · rcases (hK r).1 hr with rfl | rfl | ⟨q, hq, rfl, hq1, hq2⟩
      · simp only at hxr; linarith
      · exact north'.2
      · have hyx : x < y' q := by
          by_contra hc
          exact absurd (up' q hq (not_lt.1 hc)) (not_le.2 hB)
        exact (habove' (y' q, q) ((hK' _).2 (.inr (.inr ⟨q, hq, rfl, by linarith, lt_of_le_of_lt (hy q hq) hq2⟩))) hyx).2.trans (hy q hq)

end Barotropic
