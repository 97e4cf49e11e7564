import Verif.Props.Missing
import Verif.Props.Falwa

/-!
# C140: without missing values

The model with missing values (Model/Missing) is the model of the code on real numbers (Model/Quad, Zonalize, Falwa) for fields without
missing values.
-/

namespace Barotropic

open Missing Real

/-- The geometry of a grid -/
noncomputable def Grid.geometry (g : Grid ℝ) : Geometry ℝ where
  nlat := g.nlat
  nlon := g.nlon
  rsphere := g.rsphere
  dlam := g.dlam
  lat := g.lat
  phi := g.phi
  area := g.gridpointArea

/-- Functions of real numbers -/
noncomputable def Grid.library (g : Grid ℝ) : Library ℝ where
  sin := sin
  cos := cos
  equivalentLatitude := g.eqLat
  cosd x := cos (deg2rad x)

namespace Missing

theorem sumWhere_some (n : ℕ) (mask : ℕ → Bool) (f : ℕ → ℝ) :
    sumWhere n mask (fun j => some (f j)) = some (∑ j ∈ Finset.range n, if mask j then f j else 0) := by
  induction n with
  | zero => rfl
  | succ n ih =>
    rw [sumWhere_succ, ih, Finset.sum_range_succ]
    by_cases h : mask n = true
    · rw [if_pos h, if_pos h]; rfl
    · rw [if_neg h, if_neg h, add_zero]

theorem sum_some (n : ℕ) (f : ℕ → ℝ) : sum n (fun j => some (f j)) = some (∑ j ∈ Finset.range n, f j) := by simp [sum, sumWhere_some]

theorem trapzInterval_some (G : Geometry ℝ) (L : Library ℝ) (hs : L.sin = sin) (hc : L.cos = cos) {x0 x1 : ℝ} (hx : x0 ≠ x1) (y0 y1 z0 z1 : ℝ)
    (hz : 0 ≤ z0 ∨ 0 ≤ z1) :
    trapzInterval G L x0 x1 (some y0) (some y1) (some z0) (some z1) = some (G.rsphere * sptrapzSeg x0 x1 y0 y1 z0 z1) := by
  have hdx : x1 - x0 ≠ 0 := sub_ne_zero.2 (Ne.symm hx)
  by_cases h0 : 0 ≤ z0 <;> by_cases h1 : 0 ≤ z1
  · simp [trapzInterval, sptrapzSeg, sub, div, mul, add, nonneg, h0, h1, hdx, hs, hc]
  · have : z1 - z0 ≠ 0 := by intro h; exact h1 (by linarith)
    simp [trapzInterval, sptrapzSeg, sub, div, mul, add, nonneg, h0, h1, hdx, hs, hc, this]
  · have : z1 - z0 ≠ 0 := by intro h; exact h0 (by linarith)
    simp [trapzInterval, sptrapzSeg, sub, div, mul, add, nonneg, h0, h1, hdx, hs, hc, this]
  · exact absurd hz (by simp [h0, h1])

end Missing

/-- A column of `quad_meridional` -/
theorem C140_present_column {g : Grid ℝ} (hg : g.Valid) {m : String} (hm : KnownMethod m) (y z : ℕ → ℝ) :
    column g.geometry g.library (m = "boxcount") (fun j => some (y j)) (fun j => some (z j)) = some (g.colQuad m (fun j => y j) fun j => z j) := by
  have hr := hg.rsphere_pos.ne'
  have hd := (Grid.dlam_pos hg).ne'
  rcases hm with rfl | rfl
  · show boxColumn _ _ _ = _
    have e : ∀ j, mul (some (g.geometry.area j)) (some (y j)) = some (g.gridpointArea j * y j) := fun j => rfl
    unfold boxColumn Grid.colQuad Grid.boxcountCol
    simp only [e, sumWhere_some]
    have : (fun j => nonneg (some (z j))) = fun j => decide (0 ≤ z j) := rfl
    simp only [div, nonneg, Grid.geometry, hr, hd, if_true, if_false]
    congr 3
    rw [Finset.sum_range]
    simp
  · show trapzColumn _ _ _ _ = _
    unfold trapzColumn Grid.colQuad sptrapzCol
    have key : ∀ j < g.nlat - 1, (nonneg (some (z j)) || nonneg (some (z (j + 1)))) = true →
        trapzInterval g.geometry g.library (g.geometry.phi j) (g.geometry.phi (j + 1)) (some (y j)) (some (y (j + 1))) (some (z j)) (some (z (j + 1))) =
          some (g.rsphere * sptrapzSeg (g.phi j) (g.phi (j + 1)) (y j) (y (j + 1)) (z j) (z (j + 1))) := by
      intro j _ h
      have h' : 0 ≤ z j ∨ 0 ≤ z (j + 1) := by simpa [nonneg] using h
      exact trapzInterval_some g.geometry g.library rfl rfl (Grid.phi_strictAnti hg (show j < j + 1 by omega)).ne' _ _ _ _ h'
    rw [show g.geometry.nlat = g.nlat from rfl, sumWhere_congr _ (fun _ _ => rfl) key, sumWhere_some]
    simp only [String.reduceEq, if_false]
    congr 1
    refine Finset.sum_congr rfl fun j hj => ?_
    have hj := Finset.mem_range.1 hj
    have c1 : ∀ v : ℕ → ℝ, Grid.col (fun j : Fin g.nlat => v j) j = v j := fun v => by rw [Grid.col, dif_pos (by omega)]
    have c2 : ∀ v : ℕ → ℝ, Grid.col (fun j : Fin g.nlat => v j) (j + 1) = v (j + 1) := fun v => by rw [Grid.col, dif_pos (by omega)]
    rw [c1, c2, c1, c2]
    simp [nonneg]

/-- `quad` -/
theorem C140_present_quad {g : Grid ℝ} (hg : g.Valid) {m : String} {w : ℕ} (hm : g.OkMethod m w) (y z : ℕ → ℕ → ℝ) :
    (quad g.geometry g.library (m = "boxcount") w (fun j i => some (y j i)) fun j i => some (z j i)) =
      (g.quadCore (w := w) (fun j i => y j i) (some fun j i => z j i) m).toOption := by
  have hk : KnownMethod m := hm.imp_right fun h => h.1
  rw [Grid.quadCore_ok hm]
  unfold quad
  simp only [C140_present_column hg hk (fun j => y j _) (fun j => z j _), sum_some]
  show some _ = some _
  rw [Finset.sum_range]
  rfl

/-- `mean` -/
theorem C140_present_mean {g : Grid ℝ} (hg : g.Valid) {w : ℕ} (hw : w ≠ 0) (f : ℕ → ℕ → ℝ) :
    (Arr.d0 <$> meanAll g.geometry w fun j i => some (f j i)) =
        (Grid.meanCore (w := w) (fun j : Fin g.nlat => g.gridpointArea j) (fun j i => f j i) .none).toOption ∧
      (∀ i, meanMeridional g.geometry (fun j => some (f j i)) = some ((∑ j : Fin g.nlat, f j i * g.gridpointArea j) / ∑ j : Fin g.nlat, g.gridpointArea j)) ∧
      ∀ j, meanZonal w (fun i => some (f j i)) = some ((∑ i : Fin w, f j i) / w) := by
  have hA : ∑ j ∈ Finset.range g.nlat, g.gridpointArea j ≠ 0 := by
    rw [Finset.sum_range]
    have : Nonempty (Fin g.nlat) := ⟨⟨0, by have := hg.nlat_ge; omega⟩⟩
    exact (Finset.sum_pos (fun j _ => Grid.gridpointArea_pos hg j.2) Finset.univ_nonempty).ne'
  have hw' : (w : ℝ) ≠ 0 := by exact_mod_cast hw
  have e : ∀ a b : ℝ, mul (some a) (some b) = some (a * b) := fun _ _ => rfl
  refine ⟨?_, ?_, ?_⟩
  · unfold meanAll
    simp only [e, sum_some]
    simp only [Grid.geometry, div, hA, hw', if_false]
    rw [Finset.sum_range, Finset.sum_range]
    simp only [Finset.sum_range]
    rfl
  · intro i
    unfold meanMeridional
    simp only [e, sum_some]
    simp only [Grid.geometry, div, hA, if_false]
    rw [Finset.sum_range, Finset.sum_range]
  · intro j
    unfold meanZonal
    simp only [sum_some]
    simp only [div, hw', if_false]
    rw [Finset.sum_range]

namespace Missing

theorem foldl_some {α : Type*} (pick : ℝ → ℝ → ℝ) (l : List α) (v : α → ℝ) (acc : ℝ) :
    l.foldl (fun acc i => Option.map₂ pick acc (some (v i))) (some acc) = some (l.foldl (fun acc i => pick acc (v i)) acc) := by
  induction l generalizing acc with
  | nil => rfl
  | cons a l ih => exact ih _

theorem extremum_some (pick : ℝ → ℝ → ℝ) (h w : ℕ) (f : ℕ → ℕ → ℝ) : extremum pick h w (fun j i => some (f j i)) =
    some ((List.range h).foldl (fun acc j => (List.range w).foldl (fun acc i => pick acc (f j i)) acc) (f 0 0)) := by
  have key : ∀ (l : List ℕ) (acc : ℝ), l.foldl (fun acc j => (List.range w).foldl (fun acc i => Option.map₂ pick acc (some (f j i))) acc) (some acc) =
      some (l.foldl (fun acc j => (List.range w).foldl (fun acc i => pick acc (f j i)) acc) acc) := by
    intro l
    induction l with
    | nil => intro acc; rfl
    | cons a l ih => intro acc; rw [List.foldl_cons, foldl_some, ih]; rfl
  exact key _ _

theorem extremum_min {h w : ℕ} (hh : h ≠ 0) (hw : w ≠ 0) (f : ℕ → ℕ → ℝ) :
    extremum min h w (fun j i => some (f j i)) = some (fieldMin fun (j : Fin h) (i : Fin w) => f j i) := by
  rw [extremum_some]
  congr 1
  have h1 : ∀ (l : List ℕ) (v : ℕ → ℝ) (acc c : ℝ), c ≤ l.foldl (fun acc i => min acc (v i)) acc ↔ c ≤ acc ∧ ∀ i ∈ l, c ≤ v i := by
    intro l v
    induction l with
    | nil => intro acc c; simp
    | cons a l ih => intro acc c; rw [List.foldl_cons, ih, le_min_iff]; simp [and_assoc]
  have h2 : ∀ (l : List ℕ) (acc c : ℝ), c ≤ l.foldl (fun acc j => (List.range w).foldl (fun acc i => min acc (f j i)) acc) acc ↔
      c ≤ acc ∧ ∀ j ∈ l, ∀ i ∈ List.range w, c ≤ f j i := by
    intro l
    induction l with
    | nil => intro acc c; simp
    | cons a l ih => intro acc c; rw [List.foldl_cons, ih, h1]; simp [and_assoc]
  have : Nonempty (Fin h × Fin w) := ⟨⟨⟨0, by omega⟩, ⟨0, by omega⟩⟩⟩
  refine eq_of_forall_le_iff fun c => ?_
  rw [h2, fieldMin, le_ciInf_iff (Set.finite_range _).bddBelow]
  simp only [List.mem_range]
  constructor
  · rintro ⟨_, h⟩ p
    exact h _ p.1.2 _ p.2.2
  · intro h'
    exact ⟨h' ⟨⟨0, by omega⟩, ⟨0, by omega⟩⟩, fun j hj i hi => h' ⟨⟨j, hj⟩, ⟨i, hi⟩⟩⟩

theorem extremum_max {h w : ℕ} (hh : h ≠ 0) (hw : w ≠ 0) (f : ℕ → ℕ → ℝ) :
    extremum max h w (fun j i => some (f j i)) = some (fieldMax fun (j : Fin h) (i : Fin w) => f j i) := by
  rw [extremum_some]
  congr 1
  have h1 : ∀ (l : List ℕ) (v : ℕ → ℝ) (acc c : ℝ), l.foldl (fun acc i => max acc (v i)) acc ≤ c ↔ acc ≤ c ∧ ∀ i ∈ l, v i ≤ c := by
    intro l v
    induction l with
    | nil => intro acc c; simp
    | cons a l ih => intro acc c; rw [List.foldl_cons, ih, max_le_iff]; simp [and_assoc]
  have h2 : ∀ (l : List ℕ) (acc c : ℝ), l.foldl (fun acc j => (List.range w).foldl (fun acc i => max acc (f j i)) acc) acc ≤ c ↔
      acc ≤ c ∧ ∀ j ∈ l, ∀ i ∈ List.range w, f j i ≤ c := by
    intro l
    induction l with
    | nil => intro acc c; simp
    | cons a l ih => intro acc c; rw [List.foldl_cons, ih, h1]; simp [and_assoc]
  have : Nonempty (Fin h × Fin w) := ⟨⟨⟨0, by omega⟩, ⟨0, by omega⟩⟩⟩
  refine eq_of_forall_ge_iff fun c => ?_
  rw [h2, fieldMax, ciSup_le_iff (Set.finite_range _).bddAbove]
  simp only [List.mem_range]
  constructor
  · rintro ⟨_, h⟩ p
    exact h _ p.1.2 _ p.2.2
  · intro h'
    exact ⟨h' ⟨⟨0, by omega⟩, ⟨0, by omega⟩⟩, fun j hj i hi => h' ⟨⟨j, hj⟩, ⟨i, hi⟩⟩⟩

end Missing

/-- The sines of the automatic contour levels -/
noncomputable def levelSine (n k : ℕ) : ℝ := sin (1 / 2 * π * linspace (-1) 1 (n + 2) (k + 1))

/-- Automatic contour levels -/
theorem C140_present_levels {g : Grid ℝ} (hg : g.Valid) {w : ℕ} (hw : w ≠ 0) (f : ℕ → ℕ → ℝ) (n : ℤ) (m : String) :
    autoLevels g.geometry w n.toNat (levelSine n.toNat) (fun j i => some (f j i)) =
      (g.contourLevels (w := w) (fun j i => f j i) (.int n) m).map some := by
  have hh : g.nlat ≠ 0 := by have := hg.nlat_ge; omega
  unfold autoLevels Grid.contourLevels
  rw [show g.geometry.nlat = g.nlat from rfl, extremum_min hh hw, extremum_max hh hw, List.map_map]
  rfl

/-- Contours of the zonalization -/
theorem C140_present_contours {g : Grid ℝ} (hg : g.Valid) {m : String} {w : ℕ} (hw : w ≠ 0) (hm : g.OkMethod m w) (f : ℕ → ℕ → ℝ) (levels : Levels)
    {out : List (ℝ × ℝ)} (h : g.zonalizeContours (w := w) (fun j i => f j i) levels m = .ok out) :
    contours g.geometry g.library (m = "boxcount") w (fun j i => some (f j i)) ((g.contourLevels (w := w) (fun j i => f j i) levels m).map some) =
      out.map fun p => (some p.1, some p.2) := by
  have hne : g.contourLevels (w := w) (fun j i => f j i) levels m ≠ [] := by
    intro e
    unfold Grid.zonalizeContours at h
    rw [if_neg hw, if_pos e] at h
    simp at h
  rw [Grid.zonalizeContours_ok hw hm _ hne] at h
  obtain rfl := Except.ok.inj h
  have hk : KnownMethod m := hm.imp_right fun h => h.1
  unfold contours contourArea quad
  rw [List.map_map, List.map_map]
  refine List.map_congr_left fun q _ => ?_
  have e : ∀ i j, sub (some (f j i)) (some q) = some (f j i - q) := fun _ _ => rfl
  simp only [Function.comp_apply, e]
  have hc := fun i => C140_present_column hg hk (fun _ => 1) (fun j => f j i - q)
  simp only [hc, sum_some]
  rw [Finset.sum_range]
  rfl

namespace Missing

theorem insertionSort_eq_sortKnots {V : Type*} (l : List (ℝ × V)) : l.insertionSort (fun a b : ℝ × V => a.1 ≤ b.1) = sortKnots l := by
  induction l with
  | nil => simp [sortKnots]
  | cons a l ih =>
    obtain ⟨l1, l2, h1, h2, h3⟩ := List.mergeSort_cons (le := fun a b : ℝ × V => decide (a.1 ≤ b.1))
      (fun a b c hab hbc => by simp only [decide_eq_true_eq] at *; exact hab.trans hbc)
      (fun a b => by simpa using le_total a.1 b.1) a l
    have hs := sortKnots_pairwise (a :: l)
    rw [List.insertionSort_cons, ih]
    unfold sortKnots at hs ⊢
    rw [h1] at hs
    rw [h1, h2]
    have h3' : ∀ b ∈ l1, ¬ a.1 ≤ b.1 := by intro b hb; simpa using h3 b hb
    have ha : ∀ b ∈ l2, a.1 ≤ b.1 := (List.pairwise_cons.1 (List.pairwise_append.1 hs).2.1).1
    clear h1 h2 h3 hs
    induction l1 with
    | nil =>
      cases l2 with
      | nil => rfl
      | cons b l2 => rw [List.nil_append, List.nil_append, List.orderedInsert, if_pos (ha b (by simp))]
    | cons c l1 ih1 =>
      rw [List.cons_append, List.cons_append, List.orderedInsert, if_neg (h3' c (by simp)), ih1 fun b hb => h3' b (List.mem_cons_of_mem _ hb)]

theorem knots_eq (ks : List (ℝ × Option ℝ)) (n s : Option ℝ) : knots (ks.map fun p => (p.2, some p.1)) n s = meridionalKnots ks n s := by
  have e : List.filterMap (fun k : Option ℝ × Option ℝ => k.2.map fun y => (y, k.1)) (ks.map fun p => (p.2, some p.1)) = ks := by
    induction ks with
    | nil => rfl
    | cons a ks ih => rw [List.map_cons, List.filterMap_cons, ih]; rfl
  rw [knots, e, insertionSort_eq_sortKnots]
  rfl

theorem line_eq (a b : ℝ × Option ℝ) (x : ℝ) : line a b x = lerpO a.1 b.1 x a.2 b.2 := by
  obtain ⟨a, y0⟩ := a
  obtain ⟨b, y1⟩ := b
  cases y0 <;> cases y1
  · rfl
  · rfl
  · rfl
  · by_cases h : a = b
    · subst h; simp [line, lerpO, sub, div, mul, add]
    · have : b - a ≠ 0 := sub_ne_zero.2 (Ne.symm h)
      simp [line, lerpO, lerp, sub, div, mul, add, h, this]

theorem interp1_eq (x : ℝ) (a : ℝ × Option ℝ) (l : List (ℝ × Option ℝ)) : interp1 x a l = npInterp lerpO a l x := by
  induction l generalizing a with
  | nil => rfl
  | cons b l ih => rw [interp1, npInterp, ih, line_eq]

theorem interp2_eq (x : ℝ) (a b : ℝ × Option ℝ) (l : List (ℝ × Option ℝ)) : interp2 x a b l = callLinear lerpO a b l x := by
  induction l generalizing a b with
  | nil => rw [interp2, callLinear, line_eq]
  | cons c l ih => rw [interp2, callLinear, ih, line_eq]

theorem npInterp_some (a : ℝ × ℝ) (l : List (ℝ × ℝ)) {x : ℝ} (hx : a.1 ≤ x) :
    npInterp lerpO (a.1, some a.2) (l.map fun p => (p.1, some p.2)) x = some (npInterp lerp a l x) := by
  induction l generalizing a with
  | nil => rfl
  | cons b l ih =>
    rw [List.map_cons, npInterp, npInterp]
    by_cases h : b.1 ≤ x
    · rw [if_pos h, if_pos h]; exact ih b h
    · rw [if_neg h, if_neg h]
      split_ifs
      · rfl
      · exact lerpO_some (lt_of_le_of_lt hx (not_le.1 h))

/-- Interpolation of a profile without missing values -/
theorem interpProfile_some (out : List (ℝ × ℝ)) (n s : ℝ) {a : ℝ × ℝ} {l : List (ℝ × ℝ)} (h : meridionalKnots (out.map Prod.swap) n s = a :: l)
    {x : ℝ} (hx : -90 ≤ x) : interpProfile (out.map fun p => (some p.1, some p.2)) (some n) (some s) x = some (npInterp lerp a l x) := by
  have e : out.map (fun p => (some p.1, some p.2)) = ((out.map Prod.swap).map fun p => (p.1, some p.2)).map fun p => (p.2, some p.1) := by
    rw [List.map_map, List.map_map]; rfl
  have ha : a.1 ≤ x := by
    have hs := sortKnots_pairwise ((90, n) :: out.map Prod.swap ++ [(-90, s)])
    have hp := sortKnots_perm ((90, n) :: out.map Prod.swap ++ [(-90, s)])
    change (meridionalKnots (out.map Prod.swap) n s).Pairwise _ at hs
    change (meridionalKnots (out.map Prod.swap) n s).Perm _ at hp
    rw [h] at hs hp
    have hm : ((-90 : ℝ), s) ∈ a :: l := hp.symm.subset (by simp)
    rcases List.mem_cons.1 hm with rfl | hm
    · exact hx
    · exact ((List.pairwise_cons.1 hs).1 _ hm).trans hx
  rw [interpProfile, e, knots_eq, meridionalKnots_map some, h]
  show interp1 _ _ _ = _
  rw [interp1_eq]
  exact npInterp_some a l ha

end Missing

/-- Zonalized profiles -/
theorem C140_present_zonalize {g : Grid ℝ} (hg : g.Valid) {m : String} {w : ℕ} (hw : w ≠ 0) (hm : g.OkMethod m w) (f : ℕ → ℕ → ℝ) (levels : Levels)
    {out : Fin g.nlat → ℝ} (h : g.zonalize (w := w) (fun j i => f j i) levels m = .ok out) (j : Fin g.nlat) :
    zonalize g.geometry g.library (m = "boxcount") w (fun j i => some (f j i)) ((g.contourLevels (w := w) (fun j i => f j i) levels m).map some) j =
      some (out j) := by
  have hh : g.nlat ≠ 0 := by have := hg.nlat_ge; omega
  unfold Grid.zonalize at h
  cases hz : g.zonalizeContours (w := w) (fun j i => f j i) levels m with
  | error e => rw [hz] at h; simp at h
  | ok cs =>
    rw [hz] at h
    unfold zonalize
    rw [C140_present_contours hg hw hm f levels hz, show g.geometry.nlat = g.nlat from rfl, extremum_min hh hw, extremum_max hh hw]
    dsimp only at h
    split at h
    · simp at h
    · rename_i a l hk
      obtain rfl := Except.ok.inj h
      exact interpProfile_some cs _ _ hk (Grid.lat_mem hg j.2).1

/-- Contours used by `falwa` -/
theorem C140_present_falwaContours {g : Grid ℝ} (hg : g.Valid) {m : String} (hm : KnownMethod m) (f : ℕ → ℕ → ℝ) (levels : Levels)
    {out : List (ℝ × ℝ)} (h : g.falwaContours (fun j i => f j i) levels m = .ok out) :
    falwaContours g.geometry g.library (m = "boxcount") g.nlon (fun j i => some (f j i))
      ((g.contourLevels (w := g.nlon) (fun j i => f j i) levels m).map some) = out.map fun p => (some p.1, some p.2) := by
  have hh : g.nlat ≠ 0 := by have := hg.nlat_ge; omega
  have hw : g.nlon ≠ 0 := by have := hg.nlon_ge; omega
  have hm' : g.OkMethod m g.nlon := hm.imp_right fun h => ⟨h, le_rfl⟩
  unfold Grid.falwaContours at h
  cases hz : g.zonalizeContours (w := g.nlon) (fun j i => f j i) levels m with
  | error e => rw [hz] at h; simp at h
  | ok cs =>
    rw [hz] at h
    unfold falwaContours
    rw [C140_present_contours hg hw hm' f levels hz, show g.geometry.nlat = g.nlat from rfl, extremum_min hh hw, extremum_max hh hw]
    dsimp only at h ⊢
    by_cases hb : m = "boxcount"
    · rw [if_pos hb] at h
      simp only [hb, decide_true, if_true]
      split at h
      · simp at h
      · rename_i a l hk
        obtain rfl := Except.ok.inj h
        rw [List.map_map]
        refine List.map_congr_left fun j hj => ?_
        have hj := List.mem_range.1 hj
        have h1 := (Grid.lat_mem hg (show j < g.nlat by omega)).1
        have h2 := (Grid.lat_mem hg (show j + 1 < g.nlat by omega)).1
        have := interpProfile_some cs _ _ hk (x := 1 / 2 * (g.lat j + g.lat (j + 1))) (by linarith)
        rw [show g.geometry.lat = g.lat from rfl, this]
        rfl
    · rw [if_neg hb] at h
      obtain rfl := Except.ok.inj h
      simp only [hb, decide_false, Bool.false_eq_true, if_false]

/-- One value of local wave activity -/
theorem C140_present_falwaAt {g : Grid ℝ} (hg : g.Valid) {m : String} (hm : KnownMethod m) (f : ℕ → ℕ → ℝ) (q y : ℝ) (i : Fin g.nlon) :
    falwaAt g.geometry g.library (m = "boxcount") (fun j i => some (f j i)) (some q) (some y) i =
      divO (g.falwaNum m (fun j i => f j i) q y i) (cos (deg2rad y)) := by
  have e1 : ∀ j : ℕ, sub (some (f j i)) (some q) = some (f j i - q) := fun _ => rfl
  have e2 : ∀ j : ℕ, sub (some (g.geometry.lat j)) (some y) = some (g.lat j - y) := fun _ => rfl
  unfold falwaAt
  simp only [e1, e2]
  rw [C140_present_column hg hm (fun j => f j i - q) (fun j => f j i - q), C140_present_column hg hm (fun j => f j i - q) fun j => g.lat j - y]
  rfl

/-- C140: without missing values the gridded local wave activity is that of Model/Falwa, about which C24–C27 and others are proved. -/
theorem C140_present {g : Grid ℝ} (hg : g.Valid) {m : String} (hm : KnownMethod m) (f : ℕ → ℕ → ℝ) (levels : Levels)
    {out : Fin g.nlat → Fin g.nlon → Option ℝ} (h : g.falwa (fun j i => f j i) levels m = .ok out) (j : Fin g.nlat) (i : Fin g.nlon) :
    falwaGridded g.geometry g.library (m = "boxcount") g.nlon (fun j i => some (f j i))
      ((g.contourLevels (w := g.nlon) (fun j i => f j i) levels m).map some) j i = out j i := by
  unfold Grid.falwa at h
  cases hr : g.falwaContoured (fun j i => f j i) levels m with
  | error e => rw [hr] at h; simp at h
  | ok rows =>
    rw [hr] at h
    dsimp only at h
    unfold Grid.falwaContoured at hr
    cases hc : g.falwaContours (fun j i => f j i) levels m with
    | error e => rw [hc] at hr; simp at hr
    | ok cs =>
      rw [hc] at hr
      dsimp only at hr
      simp only [Grid.falwaRow_ok hm] at hr
      rw [Grid.mapM_ok] at hr
      obtain rfl := Except.ok.inj hr
      unfold falwaGridded interpColumn
      rw [C140_present_falwaContours hg hm f levels hc, List.map_map]
      have e : cs.map ((fun c : Option ℝ × Option ℝ => (falwaAt g.geometry g.library (m = "boxcount") (fun j i => some (f j i)) c.1 c.2 i, c.2)) ∘
          fun p => (some p.1, some p.2)) =
          ((cs.map fun p : ℝ × ℝ => (p.2, fun i : Fin g.nlon => divO (g.falwaNum m (fun j i => f j i) p.1 p.2 i) (cos (deg2rad p.2)))).map
            fun p => (p.1, p.2 i)).map fun p => (p.2, some p.1) := by
        rw [List.map_map, List.map_map]
        refine List.map_congr_left fun p _ => ?_
        simp only [Function.comp_apply, C140_present_falwaAt hg hm f p.1 p.2 i]
      rw [e, knots_eq, meridionalKnots_map (fun r : Fin g.nlon → Option ℝ => r i) _ (fun _ => some 0) (fun _ => some 0)]
      split at h
      · rename_i a b l hk
        obtain rfl := Except.ok.inj h
        rw [hk]
        show interp2 _ _ _ _ = _
        rw [interp2_eq]
        exact (callLinear_map (fun r : Fin g.nlon → Option ℝ => r i) lerpRow lerpO (fun _ => True) (fun _ _ _ _ _ _ _ => rfl) a b l
          (fun _ _ => trivial) _).symm
      · simp at h

example : ∃ F, grid30.falwa (fun j i => ((j : ℕ) : ℝ) * (i : ℕ)) .none "sptrapz" = .ok F :=
  let ⟨_, F, _, hF, _⟩ := C24_nonneg_partial grid30 grid30_valid "sptrapz" (.inr rfl) (fun j i => ((j : ℕ) : ℝ) * (i : ℕ)) .none trivial
  ⟨F, hF⟩

/-- C140: with a missing value, the gridded local wave activity of any valid grid is zero. -/
theorem C140_falwa_grid_refuted {g : Grid ℝ} (hg : g.Valid) (f : ℕ → ℕ → Option ℝ) (hf : HasMissing g.nlat g.nlon f) (n : ℕ) (s : ℕ → ℝ) (j : Fin g.nlat)
    (i : ℕ) : falwaGridded g.geometry g.library false g.nlon f (autoLevels g.geometry g.nlon n s f) j i = some 0 :=
  C140_falwa_refuted g.geometry g.library hg.rsphere_pos.ne' (Grid.dlam_pos hg).ne' (Grid.eqLat_nonpos hg.rsphere_pos le_rfl) _ _ _ _ hf _ _
    (Grid.lat_mem hg j.2).2

end Barotropic
