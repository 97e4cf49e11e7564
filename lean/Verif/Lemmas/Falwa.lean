import Verif.Model.Falwa
import Verif.Spec.Falwa
import Verif.Spec.Quad
import Verif.Lemmas.PLInterp
import Verif.Lemmas.Interp
import Verif.Lemmas.Zonalize

/-!
# Lemmas about wave activity
-/

namespace Barotropic
open Real Set Grid

/-! ### Interpolation with NaN -/

theorem lerpO_some {x0 x1 x y0 y1 : ℝ} (h : x0 < x1) : lerpO x0 x1 x (some y0) (some y1) = some (lerp x0 x1 x y0 y1) := by
  simp only [lerpO, if_neg h.ne]

theorem lerpO_ge {x0 x1 x : ℝ} {y0 y1 : Option ℝ} {v m : ℝ} (hx : x0 ≤ x) (hx' : x ≤ x1)
    (h0 : ∀ v, y0 = some v → m ≤ v) (h1 : ∀ v, y1 = some v → m ≤ v) (h : lerpO x0 x1 x y0 y1 = some v) : m ≤ v := by
  cases y0 with
  | none => simp [lerpO] at h
  | some y0 =>
    cases y1 with
    | none => simp [lerpO] at h
    | some y1 =>
      unfold lerpO at h
      dsimp only at h
      split_ifs at h with he
      injection h with h
      rw [← h]
      exact lerp_ge (lt_of_le_of_ne (hx.trans hx') he) hx hx' (h0 _ rfl) (h1 _ rfl)

theorem callLinear_ge {w : ℕ} {m : ℝ} (a b : ℝ × (Fin w → Option ℝ)) (l : List (ℝ × (Fin w → Option ℝ))) {x : ℝ}
    (hx : a.1 ≤ x) (hl : x ≤ ((a :: b :: l).getLast (by simp)).1)
    (h : ∀ p ∈ a :: b :: l, ∀ i v, p.2 i = some v → m ≤ v) (i : Fin w) (v : ℝ)
    (hv : callLinear lerpRow a b l x i = some v) : m ≤ v := by
  induction l generalizing a b with
  | nil =>
    have hl : x ≤ b.1 := by simpa using hl
    exact lerpO_ge hx hl (h a (by simp) i) (h b (by simp) i) hv
  | cons c l ih =>
    unfold callLinear at hv
    split_ifs at hv with hb
    · exact lerpO_ge hx hb (h a (by simp) i) (h b (by simp) i) hv
    · exact ih b c (not_le.1 hb).le (by rw [List.getLast_cons (by simp)] at hl; exact hl)
        (fun p hp => h p (List.mem_cons_of_mem _ hp)) hv

theorem sortKnots_map {V W : Type*} (F : V → W) (l : List (ℝ × V)) :
    sortKnots (l.map fun p => (p.1, F p.2)) = (sortKnots l).map fun p => (p.1, F p.2) := by
  unfold sortKnots
  exact (List.map_mergeSort (r := fun a b : ℝ × V => decide (a.1 ≤ b.1)) (s := fun a b : ℝ × W => decide (a.1 ≤ b.1))
    (f := fun p => (p.1, F p.2)) (fun _ _ _ _ => rfl)).symm

theorem meridionalKnots_map {V W : Type*} (F : V → W) (l : List (ℝ × V)) (n s : V) :
    meridionalKnots (l.map fun p => (p.1, F p.2)) (F n) (F s) = (meridionalKnots l n s).map fun p => (p.1, F p.2) := by
  unfold meridionalKnots
  rw [← sortKnots_map]
  simp

theorem callLinear_map {V W : Type*} (F : V → W) (L : ℝ → ℝ → ℝ → V → V → V) (M : ℝ → ℝ → ℝ → W → W → W)
    (S : V → Prop) (h : ∀ x0 x1 x y0 y1, S y0 → S y1 → F (L x0 x1 x y0 y1) = M x0 x1 x (F y0) (F y1))
    (a b : ℝ × V) (l : List (ℝ × V)) (hS : ∀ p ∈ a :: b :: l, S p.2) (x : ℝ) :
    F (callLinear L a b l x) = callLinear M (a.1, F a.2) (b.1, F b.2) (l.map fun p => (p.1, F p.2)) x := by
  induction l generalizing a b with
  | nil => exact h _ _ _ _ _ (hS a (by simp)) (hS b (by simp))
  | cons c l ih =>
    rw [List.map_cons]
    unfold callLinear
    split_ifs
    · exact h _ _ _ _ _ (hS a (by simp)) (hS b (by simp))
    · exact ih b c fun p hp => hS p (List.mem_cons_of_mem _ hp)

/-- `np.interp` at the first knot when equal knots have equal values -/
theorem npInterp_first {V : Type*} (L : ℝ → ℝ → ℝ → V → V → V) (a : ℝ × V) (l : List (ℝ × V))
    (hd : ∀ p ∈ l, a.1 = p.1 → a.2 = p.2) (hs : (a :: l).Pairwise fun p q => p.1 ≤ q.1) : npInterp L a l a.1 = a.2 := by
  induction l generalizing a with
  | nil => rfl
  | cons b l ih =>
    unfold npInterp
    have hs' := List.pairwise_cons.1 hs
    by_cases h : b.1 ≤ a.1
    · have e : a.1 = b.1 := le_antisymm (hs'.1 b (by simp)) h
      have e2 := hd b (by simp) e
      rw [if_pos h, e, e2]
      exact ih b (fun p hp hb => by rw [← e2]; exact hd p (by simp [hp]) (e.trans hb)) hs'.2
    · rw [if_neg h, if_pos rfl]

/-- The two interpolation algorithms agree if equal knots have equal values. -/
theorem npInterp_eq_callLinear (a b : ℝ × Option ℝ) (l : List (ℝ × Option ℝ)) {x : ℝ}
    (hab : a.1 < b.1 ∨ a.1 < x) (hx : a.1 ≤ x) (hl : x ≤ ((a :: b :: l).getLast (by simp)).1)
    (hs : (a :: b :: l).Pairwise fun p q => p.1 ≤ q.1)
    (hd : (a :: b :: l).Pairwise fun p q => p.1 = q.1 → p.2 = q.2) (hS : ∀ p ∈ a :: b :: l, ∃ v, p.2 = some v) :
    npInterp lerpO a (b :: l) x = callLinear lerpO a b l x := by
  have left : ∀ {a b : ℝ × Option ℝ}, (∃ v, a.2 = some v) → (∃ v, b.2 = some v) → a.1 < b.1 →
      lerpO a.1 b.1 a.1 a.2 b.2 = a.2 := by
    rintro a b ⟨v, hv⟩ ⟨u, hu⟩ h
    rw [hv, hu, lerpO_some h, lerp_left]
  have right : ∀ {a b : ℝ × Option ℝ}, (∃ v, a.2 = some v) → (∃ v, b.2 = some v) → a.1 < b.1 →
      lerpO a.1 b.1 b.1 a.2 b.2 = b.2 := by
    rintro a b ⟨v, hv⟩ ⟨u, hu⟩ h
    rw [hv, hu, lerpO_some h, lerp_right h]
  induction l generalizing a b with
  | nil =>
    have hl : x ≤ b.1 := by simpa using hl
    have hab' : a.1 < b.1 := by rcases hab with h | h <;> linarith
    unfold npInterp callLinear
    split_ifs with h1 h2
    · have : x = b.1 := le_antisymm hl h1
      rw [this, right (hS a (by simp)) (hS b (by simp)) hab']
      rfl
    · rw [← h2, left (hS a (by simp)) (hS b (by simp)) hab']
    · rfl
  | cons c l ih =>
    have hs' := List.pairwise_cons.1 hs
    have hd' := List.pairwise_cons.1 hd
    rw [npInterp, callLinear]
    by_cases hb : x ≤ b.1
    · rw [if_pos hb]
      have hab' : a.1 < b.1 := by rcases hab with h | h <;> linarith
      split_ifs with h1 h2
      · have : x = b.1 := le_antisymm hb h1
        rw [this, right (hS a (by simp)) (hS b (by simp)) hab',
          npInterp_first _ _ _ (List.pairwise_cons.1 hd'.2).1 hs'.2]
      · rw [← h2, left (hS a (by simp)) (hS b (by simp)) hab']
      · rfl
    · rw [if_neg hb, if_pos (not_le.1 hb).le]
      exact ih b c (.inr (not_le.1 hb)) (not_le.1 hb).le (by rw [List.getLast_cons (by simp)] at hl; exact hl) hs'.2 hd'.2
        fun p hp => hS p (List.mem_cons_of_mem _ hp)

/-! ### Zonal mean with NaN -/

theorem meanO_some {w : ℕ} (r : Fin w → ℝ) : meanO (fun i => some (r i)) = some ((∑ i, r i) / w) := by
  unfold meanO
  rw [if_pos (by intro i; rfl)]
  rfl

theorem meanO_lerp {w : ℕ} (hw : 0 < w) (x0 x1 x : ℝ) (y0 y1 : Fin w → Option ℝ) (h0 : ∃ r : Fin w → ℝ, y0 = fun i => some (r i))
    (h1 : ∃ r : Fin w → ℝ, y1 = fun i => some (r i)) : meanO (lerpRow x0 x1 x y0 y1) = lerpO x0 x1 x (meanO y0) (meanO y1) := by
  obtain ⟨r, rfl⟩ := h0
  obtain ⟨s, rfl⟩ := h1
  rw [meanO_some, meanO_some]
  unfold lerpRow lerpO
  dsimp only
  split_ifs with h
  · unfold meanO
    rw [if_neg]
    intro hc
    simpa using hc ⟨0, hw⟩
  · rw [meanO_some]
    congr 1
    unfold lerp
    rw [Finset.sum_add_distrib, ← Finset.sum_mul, ← Finset.sum_div, Finset.sum_sub_distrib]
    have : (w : ℝ) ≠ 0 := by exact_mod_cast hw.ne'
    field_simp

/-! ### The rows -/

namespace Grid
variable {g : Grid ℝ}

/-- value of FALWA before the division by the cosine -/
noncomputable def falwaNum (g : Grid ℝ) (m : String) (pv : Fin g.nlat → Fin g.nlon → ℝ) (q y : ℝ) (i : Fin g.nlon) : ℝ :=
  g.colQuad m (fun j => pv j i - q) (fun j => pv j i - q) - g.colQuad m (fun j => pv j i - q) (fun j => g.lat j - y)

theorem falwaRow_ok {m : String} (hm : KnownMethod m) (pv : Fin g.nlat → Fin g.nlon → ℝ) (q y : ℝ) :
    g.falwaRow pv m q y = .ok fun i => divO (g.falwaNum m pv q y i) (cos (deg2rad y)) := by
  have hm' : g.OkMethod m g.nlon := hm.imp_right fun h => ⟨h, le_rfl⟩
  unfold falwaRow
  rw [quadMeridionalCore_ok hm', quadMeridionalCore_ok hm']
  rfl

theorem falwaNum_nonneg (hg : g.Valid) (m : String) (pv : Fin g.nlat → Fin g.nlon → ℝ) (q y : ℝ) (i : Fin g.nlon) :
    0 ≤ g.falwaNum m pv q y i := sub_nonneg.2 (colQuad_self_max hg m _ _)

theorem cos_deg_nonneg {y : ℝ} (h0 : -90 ≤ y) (h1 : y ≤ 90) : 0 ≤ cos (deg2rad y) := by
  have hp := pi_pos
  apply cos_nonneg_of_neg_pi_div_two_le_of_le <;> unfold deg2rad <;> nlinarith

theorem cos_deg_pos {y : ℝ} (h0 : -90 < y) (h1 : y < 90) : 0 < cos (deg2rad y) := by
  have hp := pi_pos
  apply cos_pos_of_mem_Ioo
  constructor <;> unfold deg2rad <;> nlinarith

theorem contourLevels_some (hg : g.Valid) {w : ℕ} (f : Fin g.nlat → Fin w → ℝ) {levels : Levels} (hl : levels.Some) (m : String) :
    g.contourLevels f levels m ≠ [] := by
  intro hc
  cases levels with
  | array qs => exact hl hc
  | none =>
    obtain ⟨n, hn, e⟩ := contourLevels_auto hg f (levels := .none) trivial m
    rw [hc] at e; have := congrArg List.length e; simp at this; omega
  | int k =>
    obtain ⟨n, hn, e⟩ := contourLevels_auto hg f (levels := .int k) hl m
    rw [hc] at e; have := congrArg List.length e; simp at this; omega

theorem contourLevels_inside (hg : g.Valid) {w : ℕ} (hw0 : 0 < w) (f : Fin g.nlat → Fin w → ℝ) {levels : Levels}
    (hs : levels.Some) (hl : levels.Inside f) (m : String) :
    ∀ q ∈ g.contourLevels f levels m, (∃ j i, f j i < q) ∧ ∃ j i, q < f j i := by
  have hh : 0 < g.nlat := by have := hg.nlat_ge; omega
  have auto : levels.Auto → (∃ j i j' i', f j i ≠ f j' i') →
      ∀ q ∈ g.contourLevels f levels m, (∃ j i, f j i < q) ∧ ∃ j i, q < f j i := by
    rintro ha ⟨j, i, j', i', hne⟩ q hq
    obtain ⟨n, hn, e⟩ := contourLevels_auto hg f ha m
    obtain ⟨j0, i0, h0⟩ := fieldMin_attained hh hw0 f
    obtain ⟨j1, i1, h1⟩ := fieldMax_attained hh hw0 f
    have hmm : fieldMin f ≤ fieldMax f := by rw [← h0]; exact le_fieldMax f j0 i0
    have hlt : fieldMin f < fieldMax f := by
      apply lt_of_le_of_ne hmm
      intro he
      apply hne
      have a1 := fieldMin_le f j i
      have a2 := le_fieldMax f j i
      have a3 := fieldMin_le f j' i'
      have a4 := le_fieldMax f j' i'
      linarith
    rw [e] at hq
    obtain ⟨k, hk, rfl⟩ := List.mem_map.1 hq
    have := autoLevel_mem hlt (List.mem_range.1 hk)
    exact ⟨⟨j0, i0, h0 ▸ this.1⟩, ⟨j1, i1, h1 ▸ this.2⟩⟩
  cases levels with
  | none => exact auto trivial hl
  | int n => exact auto hs hl
  | array qs => exact hl

/-- The contours used by FALWA: always within the poles, strictly for boxcounting and for contours inside of the range
of the field. -/
theorem falwaContours_ok (hg : g.Valid) {m : String} (hm : KnownMethod m) (pv : Fin g.nlat → Fin g.nlon → ℝ)
    {levels : Levels} (hl : levels.Some) :
    ∃ out, g.falwaContours pv levels m = .ok out ∧ (∀ p ∈ out, -90 ≤ p.2 ∧ p.2 ≤ 90) ∧
      ((m = "boxcount" ∨ levels.Inside pv) → ∀ p ∈ out, -90 < p.2 ∧ p.2 < 90) ∧
      (m ≠ "boxcount" → g.zonalizeContours pv levels m = .ok out ∧
        out = (g.contourLevels pv levels m).map fun q => (q, g.eqLat (g.contourArea m pv q))) ∧
      (m = "boxcount" → out.Pairwise fun p q => q.2 < p.2) := by
  have hm' : g.OkMethod m g.nlon := hm.imp_right fun h => ⟨h, le_rfl⟩
  have hw0 : 0 < g.nlon := by have := hg.nlon_ge; omega
  have hz := zonalizeContours_ok hw0.ne' hm' pv (contourLevels_some hg pv hl m)
  unfold falwaContours
  rw [hz]
  dsimp only
  by_cases hb : m = "boxcount"
  · rw [if_pos hb]
    set ks := (((g.contourLevels pv levels m).map fun q => (q, g.eqLat (g.contourArea m pv q))).map Prod.swap) with hks
    match hk : meridionalKnots ks (fieldMax pv) (fieldMin pv) with
    | [] =>
      have : (-90, fieldMin pv) ∈ meridionalKnots ks (fieldMax pv) (fieldMin pv) :=
        (sortKnots_perm _).mem_iff.2 (by simp)
      rw [hk] at this
      simp at this
    | a :: l =>
      have hin : ∀ p ∈ (List.range (g.nlat - 1)).map (fun j : ℕ =>
          ((npInterp lerp a l (1 / 2 * (g.lat j + g.lat (j + 1))), 1 / 2 * (g.lat j + g.lat (j + 1))) : ℝ × ℝ)),
          -90 < p.2 ∧ p.2 < 90 := by
        intro p hp
        obtain ⟨j, hj, rfl⟩ := List.mem_map.1 hp
        have hj := List.mem_range.1 hj
        have h1 := g.lat_mem hg (show j < g.nlat by omega)
        have h2 := g.lat_mem hg (show j + 1 < g.nlat by omega)
        have h3 := g.lat_strictAnti hg (show j < j + 1 by omega)
        dsimp only
        constructor <;> linarith
      refine ⟨_, rfl, fun p hp => ⟨(hin p hp).1.le, (hin p hp).2.le⟩, fun _ => hin, fun h => absurd hb h, fun _ => ?_⟩
      rw [List.pairwise_map]
      refine (List.pairwise_lt_range (n := g.nlat - 1)).imp ?_
      intro a b hab
      have h1 := g.lat_strictAnti hg hab
      have h2 := g.lat_strictAnti hg (show a + 1 < b + 1 by omega)
      dsimp only
      linarith
  · rw [if_neg hb]
    refine ⟨_, rfl, ?_, ?_, fun _ => ⟨rfl, rfl⟩, fun h => absurd h hb⟩
    · intro p hp
      obtain ⟨q, _, rfl⟩ := List.mem_map.1 hp
      exact eqLat_mem _
    · rintro (h | hin) p hp
      · exact absurd h hb
      · obtain ⟨q, hq, rfl⟩ := List.mem_map.1 hp
        have := contourLevels_inside hg hw0 pv hl hin m q hq
        have := eqLat_interior hg.rsphere_pos (contourArea_pos hg m pv this.2) (contourArea_lt hg m pv this.1)
        exact ⟨this.1, this.2.1⟩

theorem falwaContoured_of {m : String} (hm : KnownMethod m) {pv : Fin g.nlat → Fin g.nlon → ℝ}
    {levels : Levels} {out : List (ℝ × ℝ)} (h : g.falwaContours pv levels m = .ok out) :
    g.falwaContoured pv levels m
      = .ok (out.map fun p => (p.2, fun i => divO (g.falwaNum m pv p.1 p.2 i) (cos (deg2rad p.2)))) := by
  unfold falwaContoured
  rw [h]
  dsimp only
  rw [← mapM_ok]
  congr 1
  funext p
  rw [falwaRow_ok hm]

/-- the knots of the final interpolation -/
theorem falwa_of {m : String} {pv : Fin g.nlat → Fin g.nlon → ℝ} {levels : Levels}
    {rows : List (ℝ × (Fin g.nlon → Option ℝ))} (h : g.falwaContoured pv levels m = .ok rows)
    (hin : ∀ p ∈ rows, -90 ≤ p.1 ∧ p.1 ≤ 90) :
    ∃ a b l, meridionalKnots rows (fun _ => some 0) (fun _ => some 0) = a :: b :: l ∧
      g.falwa pv levels m = .ok (fun j => callLinear lerpRow a b l (g.lat j)) ∧
      a.1 = -90 ∧ ((a :: b :: l).getLast (by simp)).1 = 90 ∧
      (a :: b :: l).Pairwise (fun p q => p.1 ≤ q.1) ∧
      (∀ p, p ∈ a :: b :: l ↔ p = (90, fun _ => some 0) ∨ p = (-90, fun _ => some 0) ∨ p ∈ rows) := by
  have hperm : (meridionalKnots rows (fun _ => some 0) (fun _ => some 0)).Perm _ := sortKnots_perm _
  have hsort : (meridionalKnots rows (fun _ => some 0) (fun _ => some 0)).Pairwise fun p q => p.1 ≤ q.1 :=
    sortKnots_pairwise _
  match hk : meridionalKnots rows (fun _ => some 0) (fun _ => some 0) with
  | [] => rw [hk] at hperm; exact absurd hperm.length_eq (by simp)
  | [_] => rw [hk] at hperm; exact absurd hperm.length_eq (by simp)
  | a :: b :: l =>
    rw [hk] at hperm hsort
    have hmem : ∀ p, p ∈ a :: b :: l ↔ p = (90, fun _ => some 0) ∨ p = (-90, fun _ => some 0) ∨ p ∈ rows := by
      intro p
      rw [hperm.mem_iff]
      simp only [List.mem_append, List.mem_cons, List.not_mem_nil, or_false]
      tauto
    have hb : ∀ p ∈ a :: b :: l, -90 ≤ p.1 ∧ p.1 ≤ 90 := by
      intro p hp
      rcases (hmem p).1 hp with rfl | rfl | hp
      · norm_num
      · norm_num
      · exact hin p hp
    refine ⟨a, b, l, rfl, ?_, ?_, ?_, hsort, hmem⟩
    · unfold falwa
      rw [h]
      dsimp only
      rw [hk]
    · apply le_antisymm _ (hb a (by simp)).1
      have : ((-90 : ℝ), fun _ : Fin g.nlon => some (0 : ℝ)) ∈ a :: b :: l := (hmem _).2 (.inr (.inl rfl))
      rcases List.mem_cons.1 this with h | h
      · rw [← h]
      · exact (List.pairwise_cons.1 hsort).1 _ h
    · apply le_antisymm (hb _ (List.getLast_mem _)).2
      have : ((90 : ℝ), fun _ : Fin g.nlon => some (0 : ℝ)) ∈ a :: b :: l := (hmem _).2 (.inl rfl)
      exact List.Pairwise.rel_getLast_of_rel_getLast_getLast hsort this le_rfl

theorem knots_first_lt {V : Type*} {rows : List (ℝ × V)} {n s : V} {a b : ℝ × V} {l : List (ℝ × V)}
    (hk : meridionalKnots rows n s = a :: b :: l) (ha : a.1 = -90)
    (hsort : (a :: b :: l).Pairwise fun p q => p.1 ≤ q.1) (h : ∀ p ∈ rows, -90 < p.1) : a.1 < b.1 := by
  -- only one knot is at the South Pole
  have hperm : (meridionalKnots rows n s).Perm _ := sortKnots_perm _
  rw [hk] at hperm
  have hcount := hperm.countP_eq fun p => decide (p.1 = -90)
  have hc : ((90, n) :: rows ++ [(-90, s)] : List (ℝ × V)).countP (fun p => decide (p.1 = -90)) = 1 := by
    have h0 : rows.countP (fun p => decide (p.1 = -90)) = 0 := by
      rw [List.countP_eq_zero]
      intro p hp
      have := h p hp
      simp only [decide_eq_true_eq]
      linarith
    rw [List.cons_append, List.countP_cons, List.countP_append, h0]
    norm_num
  rw [hc] at hcount
  have hle := (List.pairwise_cons.1 hsort).1 b (by simp)
  apply lt_of_le_of_ne hle
  intro he
  rw [List.countP_cons, List.countP_cons, ha] at hcount
  rw [ha] at he
  rw [← he] at hcount
  simp at hcount

end Grid
end Barotropic
