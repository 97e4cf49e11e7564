import Verif.Lemmas.Interp

/-!
# Interpolation between mirrored knots
-/

namespace Barotropic
variable {V W : Type*}

/-- Between two neighbouring knots. -/
theorem npInterp_bracket (L : ℝ → ℝ → ℝ → V → V → V) {x : ℝ} {p q : ℝ × V} (hp : p.1 < x) (hq : x < q.1) :
    ∀ (u v : List (ℝ × V)) (a : ℝ × V) (l : List (ℝ × V)), (∀ k ∈ u, k.1 ≤ x) → a :: l = u ++ p :: q :: v →
      npInterp L a l x = L p.1 q.1 x p.2 q.2 := by
  intro u
  induction u with
  | nil =>
    intro v a l _ h
    simp only [List.nil_append, List.cons.injEq] at h
    obtain ⟨rfl, rfl⟩ := h
    unfold npInterp
    rw [if_neg (not_le.2 hq), if_neg hp.ne]
  | cons c u ih =>
    intro v a l hu h
    simp only [List.cons_append, List.cons.injEq] at h
    obtain ⟨rfl, rfl⟩ := h
    cases u with
    | nil =>
      simp only [List.nil_append]
      unfold npInterp
      rw [if_pos hp.le]
      exact ih v p (q :: v) (by simp) rfl
    | cons d u =>
      simp only [List.cons_append]
      unfold npInterp
      rw [if_pos (hu d (by simp))]
      exact ih v d _ (fun k hk => hu k (List.mem_cons_of_mem _ hk)) rfl

/-- The last knot that is not beyond the argument. -/
theorem npInterp_split (L : ℝ → ℝ → ℝ → V → V → V) {x : ℝ} (l : List (ℝ × V)) :
    ∀ a : ℝ × V, (a :: l).Pairwise (fun p q => p.1 ≤ q.1) → a.1 ≤ x →
      ∃ u p v, a :: l = u ++ p :: v ∧ p.1 ≤ x ∧ (∀ k ∈ u, k.1 ≤ p.1) ∧ (∀ k ∈ v, x < k.1) ∧
        (p.1 = x → npInterp L a l x = p.2) := by
  induction l with
  | nil => intro a _ ha; exact ⟨[], a, [], rfl, ha, by simp, by simp, fun _ => rfl⟩
  | cons b l ih =>
    intro a hs ha
    have hs' := List.pairwise_cons.1 hs
    by_cases hb : b.1 ≤ x
    · obtain ⟨u, p, v, h1, h2, h3, h4, h5⟩ := ih b hs'.2 hb
      refine ⟨a :: u, p, v, by rw [h1]; rfl, h2, ?_, h4, fun h => ?_⟩
      · intro k hk
        rcases List.mem_cons.1 hk with rfl | hk
        · exact hs'.1 p (by rw [h1]; simp)
        · exact h3 k hk
      · unfold npInterp
        rw [if_pos hb, h5 h]
    · refine ⟨[], a, b :: l, rfl, ha, by simp, ?_, fun h => ?_⟩
      · intro k hk
        have hb := not_le.1 hb
        rcases List.mem_cons.1 hk with rfl | hk
        · exact hb
        · exact lt_of_lt_of_le hb ((List.pairwise_cons.1 hs'.2).1 k hk)
      · unfold npInterp
        rw [if_neg hb, if_pos h]

/-- The mirror image of a list of knots. -/
def mirrorKnots (μ : V → W) (l : List (ℝ × V)) : List (ℝ × W) := l.reverse.map fun p => (-p.1, μ p.2)

theorem mirrorKnots_sorted {μ : V → W} {l : List (ℝ × V)} (h : l.Pairwise fun p q => p.1 ≤ q.1) :
    (mirrorKnots μ l).Pairwise fun p q => p.1 ≤ q.1 := by
  unfold mirrorKnots
  rw [List.pairwise_map, List.pairwise_reverse]
  exact h.imp fun h => neg_le_neg h

theorem mem_mirrorKnots {μ : V → W} {l : List (ℝ × V)} {k : ℝ × W} :
    k ∈ mirrorKnots μ l ↔ ∃ p ∈ l, (-p.1, μ p.2) = k := by simp [mirrorKnots]

/-- Interpolation between mirrored knots gives the mirrored value, unless different knots are at the argument. -/
theorem npInterp_mirror {L : ℝ → ℝ → ℝ → V → V → V} {M : ℝ → ℝ → ℝ → W → W → W} {μ : V → W} {S : V → Prop}
    (hL : ∀ x0 x1 x y0 y1, x0 < x1 → S y0 → S y1 → M (-x1) (-x0) (-x) (μ y1) (μ y0) = μ (L x0 x1 x y0 y1))
    {a : ℝ × V} {l : List (ℝ × V)} (hS : ∀ k ∈ a :: l, S k.2)
    {a' : ℝ × W} {l' : List (ℝ × W)} (h : a' :: l' = mirrorKnots μ (a :: l)) (hs : (a :: l).Pairwise fun p q => p.1 ≤ q.1)
    {x : ℝ} (hx : a.1 ≤ x) (hx' : a'.1 ≤ -x) (hu : ∀ p ∈ a :: l, ∀ q ∈ a :: l, p.1 = x → q.1 = x → p = q) :
    npInterp M a' l' (-x) = μ (npInterp L a l x) := by
  obtain ⟨u, p, v, h1, h2, h3, h4, h5⟩ := npInterp_split L l a hs hx
  rcases h2.lt_or_eq with h2 | h2
  · cases v with
    | nil =>
      exfalso
      have : a' = (-p.1, μ p.2) := by
        rw [h1] at h
        simp only [mirrorKnots, List.reverse_append, List.reverse_cons, List.reverse_nil, List.nil_append, List.singleton_append,
          List.map_cons, List.cons.injEq] at h
        exact h.1
      rw [this] at hx'
      dsimp only at hx'
      linarith
    | cons q v =>
      have hq : x < q.1 := h4 q (by simp)
      rw [npInterp_bracket L h2 hq u v a l (fun k hk => (h3 k hk).trans h2.le) h1]
      rw [npInterp_bracket (p := (-q.1, μ q.2)) (q := (-p.1, μ p.2)) M (x := -x) (by dsimp only; linarith) (by dsimp only; linarith)
        (mirrorKnots μ v) (mirrorKnots μ u) a' l']
      · exact hL _ _ _ _ _ (by linarith) (hS p (by rw [h1]; simp)) (hS q (by rw [h1]; simp))
      · intro k hk
        obtain ⟨r, hr, rfl⟩ := mem_mirrorKnots.1 hk
        have := h4 r (List.mem_cons_of_mem _ hr)
        dsimp only; linarith
      · rw [h, h1]; simp [mirrorKnots]
  · obtain ⟨u', p', v', h1', h2', h3', h4', h5'⟩ := npInterp_split M l' a' (by rw [h]; exact mirrorKnots_sorted hs) hx'
    have hm : (-p.1, μ p.2) ∈ u' ++ p' :: v' := by
      rw [← h1', h]; exact mem_mirrorKnots.2 ⟨p, by rw [h1]; simp, rfl⟩
    have hp' : p'.1 = -x := by
      rcases List.mem_append.1 hm with hm | hm
      · have := h3' _ hm; dsimp only at this; linarith
      · rcases List.mem_cons.1 hm with hm | hm
        · rw [← hm, h2]
        · have := h4' _ hm; dsimp only at this; linarith
    rw [h5 h2, h5' hp']
    obtain ⟨r, hr, e⟩ := mem_mirrorKnots.1 (show p' ∈ mirrorKnots μ (a :: l) by rw [← h, h1']; simp)
    have hr1 : r.1 = x := by rw [← e] at hp'; dsimp only at hp'; linarith
    rw [← e, hu r hr p (by rw [h1]; simp) hr1 h2]

/-- `_call_linear` agrees with `np.interp` unless different knots are at the argument. -/
theorem callLinear_eq_npInterp {L : ℝ → ℝ → ℝ → V → V → V} {S : V → Prop}
    (h0 : ∀ x0 x1 y0 y1, x0 < x1 → S y0 → S y1 → L x0 x1 x0 y0 y1 = y0)
    (h1 : ∀ x0 x1 y0 y1, x0 < x1 → S y0 → S y1 → L x0 x1 x1 y0 y1 = y1) {x : ℝ} (l : List (ℝ × V)) :
    ∀ (a b : ℝ × V), (∀ k ∈ a :: b :: l, S k.2) → (a :: b :: l).Pairwise (fun p q => p.1 ≤ q.1) →
      (a.1 < b.1 ∨ a.1 < x) → a.1 ≤ x → x ≤ ((a :: b :: l).getLast (by simp)).1 →
      (∀ p ∈ a :: b :: l, ∀ q ∈ a :: b :: l, p.1 = x → q.1 = x → p = q) →
      callLinear L a b l x = npInterp L a (b :: l) x := by
  -- the value at a knot
  have hit : ∀ (a : ℝ × V) (l : List (ℝ × V)), (a :: l).Pairwise (fun p q => p.1 ≤ q.1) →
      (∀ p ∈ a :: l, ∀ q ∈ a :: l, p.1 = x → q.1 = x → p = q) → ∀ k ∈ a :: l, k.1 = x → a.1 ≤ x → npInterp L a l x = k.2 := by
    intro a l hs hu k hk hkx hx
    obtain ⟨u, p, v, h1, h2, h3, h4, h5⟩ := npInterp_split L l a hs hx
    have hpx : p.1 = x := by
      rw [h1] at hk
      rcases List.mem_append.1 hk with hk | hk
      · have := h3 _ hk; linarith
      · rcases List.mem_cons.1 hk with rfl | hk
        · exact hkx
        · have := h4 _ hk; linarith
    rw [h5 hpx, hu p (by rw [h1]; simp) k hk hpx hkx]
  induction l with
  | nil =>
    intro a b hS hs hab ha hl hu
    have hl : x ≤ b.1 := by simpa using hl
    have hab : a.1 < b.1 := by rcases hab with h | h <;> linarith
    change L a.1 b.1 x a.2 b.2 = _
    rcases ha.lt_or_eq with ha | ha
    · rcases hl.lt_or_eq with hl | hl
      · rw [npInterp_bracket L ha hl [] [] a [b] (by simp) rfl]
      · rw [hit a [b] hs hu b (by simp) hl.symm ha.le, hl]
        exact h1 _ _ _ _ hab (hS a (by simp)) (hS b (by simp))
    · rw [hit a [b] hs hu a (by simp) ha ha.le, ← ha]
      exact h0 _ _ _ _ hab (hS a (by simp)) (hS b (by simp))
  | cons c l ih =>
    intro a b hS hs hab ha hl hu
    unfold callLinear
    by_cases hb : x ≤ b.1
    · rw [if_pos hb]
      have hab : a.1 < b.1 := by rcases hab with h | h <;> linarith
      rcases ha.lt_or_eq with ha | ha
      · rcases hb.lt_or_eq with hl | hl
        · rw [npInterp_bracket L ha hl [] (c :: l) a (b :: c :: l) (by simp) rfl]
        · rw [hit a (b :: c :: l) hs hu b (by simp) hl.symm ha.le, hl]
          exact h1 _ _ _ _ hab (hS a (by simp)) (hS b (by simp))
      · rw [hit a (b :: c :: l) hs hu a (by simp) ha ha.le, ← ha]
        exact h0 _ _ _ _ hab (hS a (by simp)) (hS b (by simp))
    · rw [if_neg hb]
      have hb := not_le.1 hb
      rw [ih b c (fun k hk => hS k (List.mem_cons_of_mem _ hk)) (List.pairwise_cons.1 hs).2 (.inr hb) hb.le
        (by rw [List.getLast_cons (by simp)] at hl; exact hl)
        (fun p hp q hq => hu p (List.mem_cons_of_mem _ hp) q (List.mem_cons_of_mem _ hq))]
      conv_rhs => unfold npInterp
      rw [if_pos hb.le]

end Barotropic
