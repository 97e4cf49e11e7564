import Verif.Model.Interp1d
import Verif.Spec.Interp1d
import Verif.Lemmas.NpInterp
import Verif.Props.Units

/-!
# Meridional interpolation (C91)
-/

namespace Barotropic
open Grid

/-! ### Knots -/

theorem knots_perm {V : Type*} {k : ℕ} (lat : Fin k → ℝ) (f : Fin k → V) (n s : V) :
    (meridionalKnots ((List.finRange k).map fun j => (lat j, f j)) n s).Perm
      ((90, n) :: (List.finRange k).map (fun j => (lat j, f j)) ++ [(-90, s)]) := sortKnots_perm _

theorem knots_mem {V : Type*} {k : ℕ} (lat : Fin k → ℝ) (f : Fin k → V) (n s : V) (p : ℝ × V) :
    p ∈ meridionalKnots ((List.finRange k).map fun j => (lat j, f j)) n s ↔
      p = (90, n) ∨ p = (-90, s) ∨ ∃ j, p = (lat j, f j) := by
  rw [(knots_perm lat f n s).mem_iff]
  simp only [List.cons_append, List.mem_cons, List.mem_append, List.mem_map, List.mem_finRange, true_and, List.not_mem_nil, or_false]
  constructor
  · rintro (h | ⟨j, h⟩ | h)
    · exact .inl h
    · exact .inr (.inr ⟨j, h.symm⟩)
    · exact .inr (.inl h)
  · rintro (h | h | ⟨j, h⟩)
    · exact .inl h
    · exact .inr (.inr h)
    · exact .inr (.inl ⟨j, h.symm⟩)

/-- Distinct latitudes give strictly increasing knots. -/
theorem knots_strict {V : Type*} {k : ℕ} {lat : Fin k → ℝ} (hi : Function.Injective lat) (hr : ∀ j, -90 < lat j ∧ lat j < 90)
    (f : Fin k → V) (n s : V) :
    (meridionalKnots ((List.finRange k).map fun j => (lat j, f j)) n s).Pairwise fun p q => p.1 < q.1 := by
  have hnd : ((meridionalKnots ((List.finRange k).map fun j => (lat j, f j)) n s).map Prod.fst).Nodup := by
    rw [((knots_perm lat f n s).map Prod.fst).nodup_iff]
    simp only [List.cons_append, List.map_cons, List.map_append, List.map_map, List.map_nil]
    rw [List.nodup_cons, List.nodup_append]
    refine ⟨?_, ?_, by simp, ?_⟩
    · simp only [List.mem_append, List.mem_map, List.mem_finRange, true_and, Function.comp, List.mem_singleton, not_or, not_exists]
      exact ⟨fun j h => by have := (hr j).2; linarith, by norm_num⟩
    · exact (List.nodup_map_iff (f := Prod.fst ∘ fun j => (lat j, f j)) hi).2 (List.nodup_finRange k)
    · intro a ha b hb
      simp only [List.mem_map, List.mem_finRange, true_and, Function.comp, List.mem_singleton] at ha hb
      obtain ⟨j, rfl⟩ := ha
      rw [hb]
      exact (hr j).1.ne'
  have hs : (meridionalKnots ((List.finRange k).map fun j => (lat j, f j)) n s).Pairwise fun p q => p.1 ≤ q.1 := sortKnots_pairwise _
  rw [List.Nodup, List.pairwise_map] at hnd
  exact (hs.and hnd).imp fun h => lt_of_le_of_ne h.1 h.2

/-- Every position within the range lies between two neighbours. -/
theorem exists_neighbours {V : Type*} (a b : ℝ × V) (l : List (ℝ × V)) {x : ℝ} (hx : a.1 ≤ x)
    (hl : x ≤ ((a :: b :: l).getLast (by simp)).1) :
    ∃ pre p q post, a :: b :: l = pre ++ p :: q :: post ∧ p.1 ≤ x ∧ x ≤ q.1 := by
  induction l generalizing a b with
  | nil => exact ⟨[], a, b, [], rfl, hx, hl⟩
  | cons c l ih =>
    by_cases h : x ≤ b.1
    · exact ⟨[], a, b, c :: l, rfl, hx, h⟩
    · obtain ⟨pre, p, q, post, e, h1, h2⟩ := ih b c (not_le.1 h).le (by rwa [List.getLast_cons (by simp)] at hl)
      exact ⟨a :: pre, p, q, post, by rw [e]; rfl, h1, h2⟩

/-- Nothing lies between neighbours of a sorted list. -/
theorem neighbours_gap {V : Type*} {r pre post : List (ℝ × V)} {p q : ℝ × V} (hs : r.Pairwise fun p q => p.1 < q.1)
    (e : r = pre ++ p :: q :: post) : p.1 < q.1 ∧ ∀ c ∈ r, ¬ (p.1 < c.1 ∧ c.1 < q.1) := by
  subst e
  obtain ⟨-, h2, h3⟩ := List.pairwise_append.1 hs
  have h4 := List.pairwise_cons.1 h2
  have h5 := List.pairwise_cons.1 h4.2
  refine ⟨h4.1 q (by simp), fun c hc => ?_⟩
  rintro ⟨h6, h7⟩
  rcases List.mem_append.1 hc with hc | hc
  · have := h3 c hc p (by simp); linarith
  · rcases List.mem_cons.1 hc with rfl | hc
    · exact lt_irrefl _ h6
    · rcases List.mem_cons.1 hc with rfl | hc
      · exact lt_irrefl _ h7
      · have := h5.1 c hc; linarith

theorem callLinear_between {w : ℕ} {x : ℝ} (i : Fin w) (pre : List (ℝ × (Fin w → Option ℝ))) :
    ∀ (a b p q : ℝ × (Fin w → Option ℝ)) (l post : List (ℝ × (Fin w → Option ℝ))) (u v : ℝ),
      (a :: b :: l).Pairwise (fun p q => p.1 < q.1) → (∀ c ∈ a :: b :: l, ∃ y, c.2 i = some y) →
      a :: b :: l = pre ++ p :: q :: post → p.1 ≤ x → x ≤ q.1 → p.2 i = some u → q.2 i = some v →
      callLinear lerpRow a b l x i = some (lerp p.1 q.1 x u v) := by
  induction pre with
  | nil =>
    intro a b p q l post u v hs hS e h1 h2 hu hv
    simp only [List.nil_append, List.cons.injEq] at e
    obtain ⟨rfl, rfl, rfl⟩ := e
    have hlt : a.1 < b.1 := (List.pairwise_cons.1 hs).1 b (by simp)
    have : lerpRow a.1 b.1 x a.2 b.2 i = some (lerp a.1 b.1 x u v) := by
      unfold lerpRow
      rw [hu, hv]
      exact lerpO_some hlt
    cases l with
    | nil => exact this
    | cons c l =>
      unfold callLinear
      rw [if_pos h2]
      exact this
  | cons d pre ih =>
    intro a b p q l post u v hs hS e h1 h2 hu hv
    simp only [List.cons_append, List.cons.injEq] at e
    obtain ⟨rfl, e⟩ := e
    cases l with
    | nil =>
      have := congrArg List.length e
      simp at this
      omega
    | cons c l =>
      unfold callLinear
      have hs' := List.pairwise_cons.1 hs
      by_cases hb : x ≤ b.1
      · rw [if_pos hb]
        have hbp : b.1 ≤ p.1 := by
          cases pre with
          | nil =>
            simp only [List.nil_append, List.cons.injEq] at e
            rw [e.1]
          | cons d' pre =>
            simp only [List.cons_append, List.cons.injEq] at e
            obtain ⟨rfl, e⟩ := e
            exact ((List.pairwise_cons.1 hs'.2).1 p (by rw [e]; simp)).le
        have hbx : b.1 = x := le_antisymm (hbp.trans h1) hb
        have hpx : p.1 = x := le_antisymm h1 (by rw [← hbx]; exact hbp)
        have hpb : p = b := by
          cases pre with
          | nil =>
            simp only [List.nil_append, List.cons.injEq] at e
            exact e.1.symm
          | cons d' pre =>
            simp only [List.cons_append, List.cons.injEq] at e
            obtain ⟨rfl, e⟩ := e
            have := (List.pairwise_cons.1 hs'.2).1 p (by rw [e]; simp)
            linarith
        obtain ⟨y, hy⟩ := hS a (by simp)
        subst hpb
        unfold lerpRow
        rw [hy, hu, lerpO_some (hs'.1 p (by simp)), ← hpx, lerp_right (hs'.1 p (by simp)), lerp_left]
      · rw [if_neg hb]
        exact ih b c p q l post u v hs'.2 (fun c hc => hS c (List.mem_cons_of_mem _ hc)) e h1 h2 hu hv

theorem lerp_line {x0 x1 x y0 y1 : ℝ} (h : x0 < x1) : (lerp x0 x1 x y0 y1 - y0) * (x1 - x0) = (y1 - y0) * (x - x0) := by
  have : x1 - x0 ≠ 0 := by linarith
  unfold lerp
  field_simp
  ring

/-! ## C91 -/

/-- The knots of the interpolant start and end at the poles. -/
theorem knots_ends {V : Type*} {k : ℕ} {lat : Fin k → ℝ} (hr : ∀ j, -90 ≤ lat j ∧ lat j ≤ 90) (f : Fin k → V) (n s : V)
    {a b : ℝ × V} {l : List (ℝ × V)} (hk : meridionalKnots ((List.finRange k).map fun j => (lat j, f j)) n s = a :: b :: l) :
    a.1 = -90 ∧ ((a :: b :: l).getLast (by simp)).1 = 90 := by
  have hs : (a :: b :: l).Pairwise fun p q => p.1 ≤ q.1 := by rw [← hk]; exact sortKnots_pairwise _
  have hm := knots_mem lat f n s
  simp only [hk] at hm
  have hb : ∀ p ∈ a :: b :: l, -90 ≤ p.1 ∧ p.1 ≤ 90 := by
    intro p hp
    rcases (hm p).1 hp with rfl | rfl | ⟨j, rfl⟩
    · norm_num
    · norm_num
    · exact hr j
  constructor
  · refine le_antisymm ?_ (hb a (by simp)).1
    have h1 : ((-90 : ℝ), s) ∈ a :: b :: l := (hm _).2 (.inr (.inl rfl))
    rcases List.mem_cons.1 h1 with h1 | h1
    · rw [← h1]
    · exact (List.pairwise_cons.1 hs).1 _ h1
  · refine le_antisymm (hb _ (List.getLast_mem _)).2 ?_
    have h1 : ((90 : ℝ), n) ∈ a :: b :: l := (hm _).2 (.inl rfl)
    exact List.Pairwise.rel_getLast_of_rel_getLast_getLast hs h1 le_rfl

/-- C91: for distinct latitudes between the poles, in any order, the interpolant of a profile is defined exactly from pole to pole
and its graph consists of the straight lines between neighbouring points; the pole values are the outermost points. -/
theorem C91_profile {k : ℕ} (f lat : Fin k → ℝ) (hi : Function.Injective lat) (hr : ∀ j, -90 < lat j ∧ lat j < 90)
    (north south : ℝ) : ∃ p, interp1dMeridional (.d1 k f) lat north south = .ok p ∧ p.range = (-90, 90) ∧
      (∀ {n : ℕ} (x : Fin n → ℝ), (∃ j, x j < -90 ∨ 90 < x j) → p.call x = .error .valueError) ∧
      ∀ {n : ℕ} (x : Fin n → ℝ), (∀ j, -90 ≤ x j ∧ x j ≤ 90) → ∃ y : Fin n → ℝ, p.call x = .ok (.d1 n fun j => some (y j)) ∧
        ∀ j, OnSegment (withPoles lat 90 (-90)) (withPoles f north south) (x j) (y j) := by
  obtain ⟨a, b, l, hk⟩ := meridionalKnots_two ((List.finRange k).map fun j => (lat j, f j)) north south
  have hends := knots_ends (fun j => ⟨(hr j).1.le, (hr j).2.le⟩) f north south hk
  have hstrict := knots_strict hi hr f north south
  have hmem := knots_mem lat f north south
  rw [hk] at hstrict
  simp only [hk] at hmem
  have hrange : (Interp1d.d1 a b l).range = (-90, 90) := Prod.ext hends.1 hends.2
  refine ⟨.d1 a b l, ?_, hrange, ?_, ?_⟩
  · unfold interp1dMeridional
    dsimp only
    rw [dif_pos rfl]
    simp only [Fin.cast_eq_self]
    rw [hk]
  · intro n x hx
    unfold Interp1d.call
    rw [hrange, if_pos hx]
  · intro n x hx
    refine ⟨fun j => npInterp lerp a (b :: l) (x j), ?_, fun j => ?_⟩
    · unfold Interp1d.call
      rw [hrange, if_neg (by push Not; exact hx)]
    · obtain ⟨pre, p, q, post, e, h1, h2⟩ := exists_neighbours a b l (x := x j) (by rw [hends.1]; exact (hx j).1) (by rw [hends.2]; exact (hx j).2)
      have hv := npInterp_between (ι := ℝ × ℝ) Prod.fst Prod.snd (x j) pre a p q (b :: l) post hstrict e h1 h2
      simp only [Prod.mk.eta, List.map_id'] at hv
      obtain ⟨g1, g2⟩ := neighbours_gap hstrict e
      have idx : ∀ c ∈ a :: b :: l, ∃ t, withPoles lat 90 (-90) t = c.1 ∧ withPoles f north south t = c.2 := by
        intro c hc
        rcases (hmem c).1 hc with rfl | rfl | ⟨j, rfl⟩
        · exact ⟨.inr true, rfl, rfl⟩
        · exact ⟨.inr false, rfl, rfl⟩
        · exact ⟨.inl j, rfl, rfl⟩
      obtain ⟨tp, p1, p2⟩ := idx p (by rw [e]; simp)
      obtain ⟨tq, q1, q2⟩ := idx q (by rw [e]; simp)
      refine ⟨tp, tq, by rw [p1]; exact h1, by rw [q1]; exact h2, by rw [p1, q1]; exact g1, ?_, ?_⟩
      · intro t
        rw [p1, q1]
        have : ∃ c ∈ a :: b :: l, withPoles lat 90 (-90) t = c.1 := by
          match t with
          | .inl j => exact ⟨(lat j, f j), (hmem _).2 (.inr (.inr ⟨j, rfl⟩)), rfl⟩
          | .inr true => exact ⟨(90, north), (hmem _).2 (.inl rfl), rfl⟩
          | .inr false => exact ⟨(-90, south), (hmem _).2 (.inr (.inl rfl)), rfl⟩
        obtain ⟨c, hc, e'⟩ := this
        rw [e']
        exact g2 c hc
      · rw [p1, q1, p2, q2]
        dsimp only
        rw [hv]
        exact lerp_line g1

/-- C91 for fields: every column is interpolated like a profile, without NaN. -/
theorem C91_field {k w : ℕ} (f : Fin k → Fin w → ℝ) (lat : Fin k → ℝ) (hi : Function.Injective lat)
    (hr : ∀ j, -90 < lat j ∧ lat j < 90) (north south : ℝ) :
    ∃ p, interp1dMeridional (.d2 k w f) lat north south = .ok p ∧ p.range = (-90, 90) ∧
      (∀ {n : ℕ} (x : Fin n → ℝ), (∃ j, x j < -90 ∨ 90 < x j) → p.call x = .error .valueError) ∧
      ∀ {n : ℕ} (x : Fin n → ℝ), (∀ j, -90 ≤ x j ∧ x j ≤ 90) →
        ∃ y : Fin n → Fin w → ℝ, p.call x = .ok (.d2 n w fun j i => some (y j i)) ∧
        ∀ j i, OnSegment (withPoles lat 90 (-90)) (withPoles (fun j => f j i) north south) (x j) (y j i) := by
  obtain ⟨a, b, l, hk⟩ := meridionalKnots_two ((List.finRange k).map fun j => (lat j, fun i => some (f j i)))
    (fun _ : Fin w => some north) (fun _ => some south)
  have hends := knots_ends (fun j => ⟨(hr j).1.le, (hr j).2.le⟩) (fun j i => some (f j i)) (fun _ : Fin w => some north)
    (fun _ => some south) hk
  have hstrict := knots_strict hi hr (fun j i => some (f j i)) (fun _ : Fin w => some north) (fun _ => some south)
  have hmem := knots_mem lat (fun j i => some (f j i)) (fun _ : Fin w => some north) (fun _ => some south)
  rw [hk] at hstrict
  simp only [hk] at hmem
  have hrange : (Interp1d.d2 w a b l).range = (-90, 90) := Prod.ext hends.1 hends.2
  have idx : ∀ c ∈ a :: b :: l, ∃ t, withPoles lat 90 (-90) t = c.1 ∧
      ∀ i, c.2 i = some (withPoles (fun j => f j i) north south t) := by
    intro c hc
    rcases (hmem c).1 hc with rfl | rfl | ⟨j, rfl⟩
    · exact ⟨.inr true, rfl, fun _ => rfl⟩
    · exact ⟨.inr false, rfl, fun _ => rfl⟩
    · exact ⟨.inl j, rfl, fun _ => rfl⟩
  have key : ∀ x, -90 ≤ x → x ≤ 90 → ∀ i, ∃ y, callLinear lerpRow a b l x i = some y ∧
      OnSegment (withPoles lat 90 (-90)) (withPoles (fun j => f j i) north south) x y := by
    intro x x1 x2 i
    obtain ⟨pre, p, q, post, e, h1, h2⟩ := exists_neighbours a b l (x := x) (by rw [hends.1]; exact x1) (by rw [hends.2]; exact x2)
    obtain ⟨g1, g2⟩ := neighbours_gap hstrict e
    obtain ⟨tp, p1, p2⟩ := idx p (by rw [e]; simp)
    obtain ⟨tq, q1, q2⟩ := idx q (by rw [e]; simp)
    refine ⟨_, callLinear_between i pre a b p q l post _ _ hstrict (fun c hc => ?_) e h1 h2 (p2 i) (q2 i),
      tp, tq, by rw [p1]; exact h1, by rw [q1]; exact h2, by rw [p1, q1]; exact g1, ?_, ?_⟩
    · obtain ⟨t, _, ht⟩ := idx c hc
      exact ⟨_, ht i⟩
    · intro t
      rw [p1, q1]
      have : ∃ c ∈ a :: b :: l, withPoles lat 90 (-90) t = c.1 := by
        match t with
        | .inl j => exact ⟨(lat j, fun i => some (f j i)), (hmem _).2 (.inr (.inr ⟨j, rfl⟩)), rfl⟩
        | .inr true => exact ⟨(90, fun _ => some north), (hmem _).2 (.inl rfl), rfl⟩
        | .inr false => exact ⟨(-90, fun _ => some south), (hmem _).2 (.inr (.inl rfl)), rfl⟩
      obtain ⟨c, hc, e'⟩ := this
      rw [e']
      exact g2 c hc
    · rw [p1, q1]
      exact lerp_line g1
  refine ⟨.d2 w a b l, ?_, hrange, ?_, ?_⟩
  · unfold interp1dMeridional
    dsimp only
    rw [dif_pos rfl]
    simp only [Fin.cast_eq_self]
    rw [hk]
  · intro n x hx
    unfold Interp1d.call
    rw [hrange, if_pos hx]
  · intro n x hx
    choose y hy using fun j => key (x j) (hx j).1 (hx j).2
    refine ⟨y, ?_, fun j i => (hy j i).2⟩
    unfold Interp1d.call
    rw [hrange, if_neg (by push Not; exact hx)]
    dsimp only
    refine congrArg Except.ok (congrArg (Arr.d2 n w) (funext fun j => funext fun i => (hy j i).1))

/-- The straight lines determine the value: two interpolants of the same points agree (so the order of the points is irrelevant),
and at a point the interpolant has the value of that point. -/
theorem C91_unique {ι : Type*} {pos val : ι → ℝ} (hi : Function.Injective pos) {x y y' : ℝ} (h : OnSegment pos val x y)
    (h' : OnSegment pos val x y') : y = y' := by
  have hit : ∀ {x y}, OnSegment pos val x y → ∀ k, pos k = x → y = val k := by
    rintro x y ⟨p, q, h1, h2, h3, h4, h5⟩ k rfl
    have h6 := h4 k
    rcases h1.lt_or_eq with h1 | h1
    · rcases h2.lt_or_eq with h2 | h2
      · exact absurd ⟨h1, h2⟩ h6
      · rw [← hi h2] at h5 h3
        have : pos k - pos p ≠ 0 := by linarith
        have := mul_right_cancel₀ this h5
        linarith
    · rw [hi h1] at h5 h3
      rw [sub_self, mul_zero] at h5
      rcases mul_eq_zero.1 h5 with h5 | h5 <;> linarith
  by_cases hk : ∃ k, pos k = x
  · obtain ⟨k, hk⟩ := hk
    rw [hit h k hk, hit h' k hk]
  · push Not at hk
    obtain ⟨p, q, h1, h2, h3, h4, h5⟩ := h
    obtain ⟨p', q', h1', h2', h3', h4', h5'⟩ := h'
    have a1 := lt_of_le_of_ne h1 (hk p)
    have a2 := lt_of_le_of_ne h2 (hk q).symm
    have b1 := lt_of_le_of_ne h1' (hk p')
    have b2 := lt_of_le_of_ne h2' (hk q').symm
    have e1 : p = p' := by
      refine hi (le_antisymm (not_lt.1 fun h => h4' p ⟨h, by linarith⟩) (not_lt.1 fun h => h4 p' ⟨h, by linarith⟩))
    have e2 : q = q' := by
      refine hi (le_antisymm (not_lt.1 fun h => h4 q' ⟨by linarith, h⟩) (not_lt.1 fun h => h4' q ⟨by linarith, h⟩))
    subst e1 e2
    have : pos q - pos p ≠ 0 := by linarith
    have := mul_right_cancel₀ this (h5.trans h5'.symm)
    linarith

theorem C91_hit {ι : Type*} {pos val : ι → ℝ} (hi : Function.Injective pos) {k : ι} {y : ℝ} (h : OnSegment pos val (pos k) y) :
    y = val k := by
  obtain ⟨p, q, h1, h2, h3, h4, h5⟩ := h
  have h6 := h4 k
  rcases h1.lt_or_eq with h1 | h1
  · rcases h2.lt_or_eq with h2 | h2
    · exact absurd ⟨h1, h2⟩ h6
    · rw [← hi h2] at h5 h3
      have : pos k - pos p ≠ 0 := by linarith
      have := mul_right_cancel₀ this h5
      linarith
  · rw [hi h1] at h5 h3
    rw [sub_self, mul_zero] at h5
    rcases mul_eq_zero.1 h5 with h5 | h5 <;> linarith

/-- C91: values between the extremes of the points and the pole values -/
theorem C91_bounds {ι : Type*} {pos val : ι → ℝ} {x y : ℝ} (h : OnSegment pos val x y) :
    ∃ p q, val p ≤ y ∧ y ≤ val q := by
  obtain ⟨p, q, h1, h2, h3, h4, h5⟩ := h
  have hd : 0 < pos q - pos p := by linarith
  rcases le_total (val p) (val q) with hv | hv
  · refine ⟨p, q, ?_, ?_⟩
    · by_contra hc
      have : (y - val p) * (pos q - pos p) < 0 := mul_neg_of_neg_of_pos (by linarith) hd
      have : 0 ≤ (val q - val p) * (x - pos p) := mul_nonneg (by linarith) (by linarith)
      linarith
    · by_contra hc
      have : (val q - val p) * (pos q - pos p) < (y - val p) * (pos q - pos p) := mul_lt_mul_of_pos_right (by linarith) hd
      have : (val q - val p) * (x - pos p) ≤ (val q - val p) * (pos q - pos p) := mul_le_mul_of_nonneg_left (by linarith) (by linarith)
      linarith
  · refine ⟨q, p, ?_, ?_⟩
    · by_contra hc
      have : (y - val p) * (pos q - pos p) < (val q - val p) * (pos q - pos p) := mul_lt_mul_of_pos_right (by linarith) hd
      have : (val q - val p) * (pos q - pos p) ≤ (val q - val p) * (x - pos p) :=
        mul_le_mul_of_nonpos_left (by linarith) (by linarith)
      linarith
    · by_contra hc
      have : 0 < (y - val p) * (pos q - pos p) := mul_pos (by linarith) hd
      have : (val q - val p) * (x - pos p) ≤ 0 := mul_nonpos_of_nonpos_of_nonneg (by linarith) (by linarith)
      linarith

/-- `np.interp` at a knot, if knots at the same position have the same value -/
theorem npInterp_at {V : Type*} (L : ℝ → ℝ → ℝ → V → V → V) (l : List (ℝ × V)) : ∀ (a c : ℝ × V),
    (a :: l).Pairwise (fun p q => p.1 ≤ q.1) → (∀ p ∈ a :: l, ∀ q ∈ a :: l, p.1 = q.1 → p.2 = q.2) → c ∈ a :: l →
    npInterp L a l c.1 = c.2 := by
  induction l with
  | nil =>
    intro a c _ _ hc
    rw [List.mem_singleton.1 hc]
    rfl
  | cons b l ih =>
    intro a c hs hd hc
    have hs' := List.pairwise_cons.1 hs
    unfold npInterp
    by_cases hb : b.1 ≤ c.1
    · rw [if_pos hb]
      have ih' := fun c => ih b c hs'.2 fun p hp q hq => hd p (List.mem_cons_of_mem _ hp) q (List.mem_cons_of_mem _ hq)
      rcases List.mem_cons.1 hc with rfl | hc
      · have e : b.1 = c.1 := le_antisymm hb (hs'.1 b (by simp))
        rw [← e, ih' b (by simp)]
        exact hd b (by simp) c (by simp) e
      · exact ih' c hc
    · rw [if_neg hb]
      rcases List.mem_cons.1 hc with rfl | hc
      · rw [if_pos rfl]
      · rcases List.mem_cons.1 hc with rfl | hc
        · exact absurd le_rfl hb
        · exact absurd ((List.pairwise_cons.1 hs'.2).1 c hc) hb

/-- C91: a profile on the latitudes of the grid stays as it is. -/
theorem C91_own (g : Grid ℝ) (hg : g.Valid) (f : Fin g.nlat → ℝ) :
    g.interpolateMeridional (.d1 g.nlat f) (fun j : Fin g.nlat => g.lat j) (f ⟨0, nlat_pos g⟩) (f ⟨g.nlat - 1, Nat.sub_lt (nlat_pos g) one_pos⟩)
      = .ok (.d1 g.nlat fun j => some (f j)) := by
  set n := f ⟨0, nlat_pos g⟩ with hn
  set s := f ⟨g.nlat - 1, Nat.sub_lt (nlat_pos g) one_pos⟩ with hs
  obtain ⟨a, b, l, hk⟩ := meridionalKnots_two ((List.finRange g.nlat).map fun j : Fin g.nlat => (g.lat j, f j)) n s
  have hr : ∀ j : Fin g.nlat, -90 ≤ g.lat j ∧ g.lat j ≤ 90 := fun j => g.lat_mem hg j.2
  have hends := knots_ends hr f n s hk
  have hmem := knots_mem (fun j : Fin g.nlat => g.lat j) f n s
  simp only [hk] at hmem
  have hsort : (a :: b :: l).Pairwise fun p q => p.1 ≤ q.1 := by rw [← hk]; exact sortKnots_pairwise _
  have h0 : g.lat 0 = 90 := by simp [lat_eq hg]
  have hl := lat_last hg
  have hval : ∀ p ∈ a :: b :: l, ∃ j : Fin g.nlat, p = (g.lat j, f j) := by
    intro p hp
    rcases (hmem p).1 hp with rfl | rfl | h
    · exact ⟨⟨0, nlat_pos g⟩, by rw [hn]; exact Prod.ext h0.symm rfl⟩
    · exact ⟨⟨g.nlat - 1, Nat.sub_lt (nlat_pos g) one_pos⟩, by rw [hs]; exact Prod.ext hl.symm rfl⟩
    · exact h
  have hd : ∀ p ∈ a :: b :: l, ∀ q ∈ a :: b :: l, p.1 = q.1 → p.2 = q.2 := by
    intro p hp q hq e
    obtain ⟨j, rfl⟩ := hval p hp
    obtain ⟨j', rfl⟩ := hval q hq
    have : j = j' := Fin.ext ((lat_strictAnti hg).injective e)
    rw [this]
  unfold interpolateMeridional interp1dMeridional
  dsimp only
  rw [dif_pos rfl]
  simp only [Fin.cast_eq_self]
  rw [hk]
  dsimp only
  unfold Interp1d.call
  rw [show (Interp1d.d1 a b l).range = (-90, 90) from Prod.ext hends.1 hends.2, if_neg (by push Not; exact hr)]
  dsimp only
  refine congrArg Except.ok (congrArg (Arr.d1 g.nlat) (funext fun j => congrArg some ?_))
  exact npInterp_at lerp (b :: l) a (g.lat j, f j) hsort hd ((hmem _).2 (.inr (.inr ⟨j, rfl⟩)))

/-- C91 refuted for fields on latitudes that include the poles (like those of the grid): the southernmost row of the result is
NaN, whatever the field and the pole values. -/
theorem C91_own_field_refuted (g : Grid ℝ) (hg : g.Valid) {w : ℕ} (f : Fin g.nlat → Fin w → ℝ) (north south : ℝ) :
    ∃ F, g.interpolateMeridional (.d2 g.nlat w f) (fun j : Fin g.nlat => g.lat j) north south = .ok (.d2 g.nlat w F) ∧
      ∀ i, F ⟨g.nlat - 1, Nat.sub_lt (nlat_pos g) one_pos⟩ i = none := by
  obtain ⟨a, b, l, hk⟩ := meridionalKnots_two ((List.finRange g.nlat).map fun j : Fin g.nlat => (g.lat j, fun i => some (f j i)))
    (fun _ : Fin w => some north) (fun _ => some south)
  have hr : ∀ j : Fin g.nlat, -90 ≤ g.lat j ∧ g.lat j ≤ 90 := fun j => g.lat_mem hg j.2
  have hends := knots_ends hr (fun j i => some (f j i)) (fun _ : Fin w => some north) (fun _ => some south) hk
  have hsort : (a :: b :: l).Pairwise fun p q => p.1 ≤ q.1 := by rw [← hk]; exact sortKnots_pairwise _
  have hperm := knots_perm (fun j : Fin g.nlat => g.lat j) (fun j i => some (f j i)) (fun _ : Fin w => some north) (fun _ => some south)
  rw [hk] at hperm
  have hl := lat_last hg
  -- two knots at the South Pole
  have hb : b.1 = -90 := by
    have hp := (hperm.map Prod.fst).countP_eq (fun x => decide (x = -90))
    by_contra hne
    have h1 : ∀ p ∈ b :: l, p.1 ≠ -90 := by
      intro p hp hc
      have h2 := (List.pairwise_cons.1 hsort)
      have h3 := h2.1 b (by simp)
      rw [hends.1] at h3
      rcases List.mem_cons.1 hp with rfl | hp
      · exact hne hc
      · have := (List.pairwise_cons.1 h2.2).1 p hp
        exact hne (le_antisymm (by linarith) h3)
    have h2 : ((a :: b :: l).map Prod.fst).countP (fun x => decide (x = -90)) ≤ 1 := by
      rw [List.map_cons, List.countP_cons]
      have : ((b :: l).map Prod.fst).countP (fun x => decide (x = -90)) = 0 := by
        rw [List.countP_eq_zero]
        intro x hx
        obtain ⟨p, hp, rfl⟩ := List.mem_map.1 hx
        simpa using h1 p hp
      rw [this]
      split_ifs <;> simp
    have h3 : 2 ≤ (((90, fun _ : Fin w => some north) :: (List.finRange g.nlat).map (fun j : Fin g.nlat => (g.lat j, fun i => some (f j i)))
        ++ [(-90, fun _ => some south)]).map Prod.fst).countP (fun x => decide (x = -90)) := by
      rw [List.map_append, List.countP_append, List.map_cons, List.countP_cons]
      have : 1 ≤ (((List.finRange g.nlat).map (fun j : Fin g.nlat => (g.lat j, fun i => some (f j i)))).map Prod.fst).countP
          (fun x => decide (x = -90)) := by
        rw [Nat.one_le_iff_ne_zero, ← Nat.pos_iff_ne_zero, List.countP_pos_iff]
        refine ⟨-90, ?_, by simp⟩
        simp only [List.map_map, List.mem_map, List.mem_finRange, true_and, Function.comp]
        exact ⟨⟨g.nlat - 1, Nat.sub_lt (nlat_pos g) one_pos⟩, hl⟩
      have h4 : (([((-90 : ℝ), fun _ : Fin w => some south)] : List _).map Prod.fst).countP (fun x => decide (x = -90)) = 1 := by simp
      omega
    omega
  unfold interpolateMeridional interp1dMeridional
  dsimp only
  rw [dif_pos rfl]
  simp only [Fin.cast_eq_self]
  rw [hk]
  dsimp only
  unfold Interp1d.call
  rw [show (Interp1d.d2 w a b l).range = (-90, 90) from Prod.ext hends.1 hends.2, if_neg (by push Not; exact hr)]
  dsimp only
  refine ⟨_, rfl, fun i => ?_⟩
  dsimp only
  rw [hl]
  have : ∀ y0 y1 : Fin w → Option ℝ, lerpRow (-90) (-90) (-90) y0 y1 i = none := by
    intro y0 y1
    unfold lerpRow lerpO
    cases y0 i <;> cases y1 i <;> simp
  cases l with
  | nil =>
    unfold callLinear
    rw [hends.1, hb, this]
  | cons c l =>
    unfold callLinear
    rw [if_pos hb.ge, hends.1, hb, this]

/-- The zonalized profile of `zonalize` is `interpolate_meridional` of its contours. -/
theorem C91_zonalize (g : Grid ℝ) (hg : g.Valid) {w : ℕ} (f : Fin g.nlat → Fin w → ℝ) (levels : Levels) (m : String)
    {out : List (ℝ × ℝ)} (h : g.zonalizeContours f levels m = .ok out) (hy : ∀ p ∈ out, -90 ≤ p.2 ∧ p.2 ≤ 90) :
    ∃ Z, g.zonalize f levels m = .ok Z ∧
      g.interpolateMeridional (.d1 out.length fun j => out[j].1) (fun j : Fin out.length => out[j].2) (fieldMax f) (fieldMin f)
        = .ok (.d1 g.nlat fun j => some (Z j)) := by
  have hlist : (List.finRange out.length).map (fun j => ((out[j].2, out[j].1) : ℝ × ℝ)) = out.map Prod.swap := by
    apply List.ext_getElem
    · simp
    · intro j h1 h2
      simp [Prod.swap]
  obtain ⟨a, b, l, hk⟩ := meridionalKnots_two (out.map Prod.swap) (fieldMax f) (fieldMin f)
  have hk' := hk
  rw [← hlist] at hk'
  have hends := knots_ends (fun j => hy out[j] (List.getElem_mem _)) (fun j => out[j].1) _ _ hk'
  refine ⟨fun j => npInterp lerp a (b :: l) (g.lat j), ?_, ?_⟩
  · unfold zonalize
    rw [h]
    dsimp only
    rw [hk]
  · unfold interpolateMeridional interp1dMeridional
    dsimp only
    rw [dif_pos rfl]
    simp only [Fin.cast_eq_self]
    rw [hk']
    dsimp only
    unfold Interp1d.call
    rw [show (Interp1d.d1 a b l).range = (-90, 90) from Prod.ext hends.1 hends.2,
      if_neg (by push Not; exact fun j => g.lat_mem hg j.2)]

/-- Non-vacuity of C91 -/
example : ∃ p, interp1dMeridional (.d1 2 ![1, 3]) ![10, -20] 0 5 = .ok p ∧
    p.call (n := 3) ![10, 90, -5] = .ok (.d1 3 fun j => some (![1, 0, 2] j)) := by
  have hi : Function.Injective (![10, -20] : Fin 2 → ℝ) := by
    intro i j h
    fin_cases i <;> fin_cases j <;> simp at h ⊢ <;> norm_num at h
  have hr : ∀ j, -90 < (![10, -20] : Fin 2 → ℝ) j ∧ (![10, -20] : Fin 2 → ℝ) j < 90 := by
    intro j; fin_cases j <;> norm_num
  obtain ⟨p, h1, -, -, h2⟩ := C91_profile ![1, 3] ![10, -20] hi hr 0 5
  refine ⟨p, h1, ?_⟩
  obtain ⟨y, h3, h4⟩ := h2 (n := 3) ![10, 90, -5] (by intro j; fin_cases j <;> norm_num)
  rw [h3]
  have hinj : Function.Injective (withPoles (![10, -20] : Fin 2 → ℝ) 90 (-90)) := by
    rintro (i | i) (j | j) h <;> [fin_cases i <;> fin_cases j; (fin_cases i <;> cases j); (cases i <;> fin_cases j); (cases i <;> cases j)] <;>
      first | rfl | (exfalso; simp [withPoles] at h; try norm_num at h)
  refine congrArg Except.ok (congrArg (Arr.d1 3) (funext fun j => congrArg some ?_))
  fin_cases j
  · exact C91_hit hinj (k := .inl 0) (h4 0)
  · exact C91_hit hinj (k := .inr true) (h4 1)
  · refine C91_unique hinj (h4 2) ⟨.inl 1, .inl 0, ?_, ?_, ?_, ?_, ?_⟩
    · simp [withPoles]; norm_num
    · simp [withPoles]; norm_num
    · simp [withPoles]; norm_num
    · rintro (k | k) <;> [fin_cases k; cases k] <;> simp [withPoles] <;> norm_num
    · simp [withPoles]; norm_num

end Barotropic
