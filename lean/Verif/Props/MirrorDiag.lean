import Verif.Lemmas.MirrorQuad
import Verif.Lemmas.MirrorInterp
import Verif.Props.Mirror
import Verif.Props.Zonalize
import Verif.Props.Falwa

/-!
# Zonalized fields and wave activity of the mirror image: C155
-/

namespace Barotropic
open Grid (fieldMin_attained fieldMax_attained fieldMin_le le_fieldMax)
variable {g : Grid ℝ}

theorem mirrorDiag_lat (hg : g.Valid) {j : ℕ} (hj : j < g.nlat) : g.lat (g.nlat - 1 - j) = -g.lat j := by
  have h1 := hg.nlatm1_pos.ne'
  have : ((g.nlat - 1 - j : ℕ) : ℝ) = (g.nlat : ℝ) - 1 - j := by
    rw [Nat.cast_sub (by omega), Nat.cast_sub (by omega)]; simp
  rw [Grid.lat_eq hg, Grid.lat_eq hg, this]
  field_simp
  ring

theorem mirrorDiag_lat_rev (hg : g.Valid) (j : Fin g.nlat) : g.lat j.rev = -g.lat j := by
  rw [← mirrorDiag_lat hg j.isLt]; congr 1; rw [Fin.val_rev]; omega

theorem fieldMin_mirror {h w : ℕ} (hh : 0 < h) (hw : 0 < w) (f : Fin h → Fin w → ℝ) :
    fieldMin (fun j i => -f j.rev i) = -fieldMax f := by
  obtain ⟨j, i, hj⟩ := fieldMin_attained hh hw (fun j i => -f j.rev i)
  obtain ⟨j', i', hj'⟩ := fieldMax_attained hh hw f
  apply le_antisymm
  · rw [← hj']
    have := fieldMin_le (fun j i => -f j.rev i) j'.rev i'
    simpa using this
  · rw [← hj]
    exact neg_le_neg (le_fieldMax f _ _)

theorem fieldMax_mirror {h w : ℕ} (hh : 0 < h) (hw : 0 < w) (f : Fin h → Fin w → ℝ) :
    fieldMax (fun j i => -f j.rev i) = -fieldMin f := by
  have := fieldMin_mirror hh hw (fun j i => -f j.rev i)
  simp only [Fin.rev_rev, neg_neg] at this
  rw [this, neg_neg]

theorem autoLevel_mirror (a b : ℝ) {n k : ℕ} (hk : k < n) :
    Grid.autoLevel (-b) (-a) n k = -Grid.autoLevel a b n (n - 1 - k) := by
  have e : linspace (-1 : ℝ) 1 (n + 2) (n - 1 - k + 1) = -linspace (-1 : ℝ) 1 (n + 2) (k + 1) := by
    rw [Grid.linspace_sym, Grid.linspace_sym]
    have : ((n - 1 - k : ℕ) : ℝ) = (n : ℝ) - 1 - k := by
      rw [Nat.cast_sub (by omega), Nat.cast_sub (by omega)]; simp
    rw [this]
    have : (n : ℝ) + 1 ≠ 0 := by positivity
    field_simp
    ring
  unfold Grid.autoLevel
  rw [e, mul_neg, Real.sin_neg]
  ring

/-- Automatic contours of the mirror image. -/
theorem contourLevels_mirror (hg : g.Valid) {w : ℕ} (hw : w ≠ 0) (f : Fin g.nlat → Fin w → ℝ) {levels : Levels}
    (hl : levels.Auto) (m : String) :
    g.contourLevels (fun j i => -f j.rev i) levels m = (g.contourLevels f levels m).reverse.map fun q => -q := by
  have hn := hg.nlat_ge
  have key : ∀ n, (List.range n).map (Grid.autoLevel (fieldMin fun (j : Fin g.nlat) i => -f j.rev i)
      (fieldMax fun (j : Fin g.nlat) i => -f j.rev i) n)
      = ((List.range n).map (Grid.autoLevel (fieldMin f) (fieldMax f) n)).reverse.map fun q => -q := by
    intro n
    rw [fieldMin_mirror (by omega) (by omega), fieldMax_mirror (by omega) (by omega)]
    apply List.ext_getElem
    · simp
    · intro k h1 h2
      have hk : k < n := by simpa using h1
      simp only [List.getElem_map, List.getElem_range, List.getElem_reverse, List.length_map, List.length_range]
      exact autoLevel_mirror _ _ hk
  cases levels with
  | none => exact key _
  | int n => exact key _
  | array q => exact hl.elim

/-- The contours of the mirror image and what is known about those of the field. -/
theorem contours_mirror (hg : g.Valid) (hs : g.resolution * g.nlon = 360) {w : ℕ} (hw : w ≠ 0) {m : String}
    (hm : g.OkMethod m w) (f : Fin g.nlat → Fin w → ℝ) {levels : Levels} (hl : levels.Auto) (ho : g.OffGrid f levels m) :
    ∃ out, g.zonalizeContours f levels m = .ok out ∧
      g.zonalizeContours (fun j i => -f j.rev i) levels m = .ok (out.reverse.map fun p => (-p.1, -p.2)) ∧
      out.Pairwise (fun p q => p.2 ≤ q.2) ∧ ∀ p ∈ out, -90 < p.2 ∧ p.2 < 90 := by
  have hn := hg.nlat_ge
  obtain ⟨n, hn0, e⟩ := Grid.contourLevels_auto hg f hl m
  have hne : g.contourLevels f levels m ≠ [] := by
    rw [e]; intro h; have := congrArg List.length h; simp at this; omega
  have hne' : g.contourLevels (fun j i => -f j.rev i) levels m ≠ [] := by
    rw [contourLevels_mirror hg hw f hl]
    simpa using hne
  have z := Grid.zonalizeContours_ok hw hm f hne
  have z' := Grid.zonalizeContours_ok hw hm (fun j i => -f j.rev i) hne'
  obtain ⟨j0, i0, h0⟩ := fieldMin_attained (by omega) (by omega) f
  obtain ⟨j1, i1, h1⟩ := fieldMax_attained (by omega) (by omega) f
  have hmm : fieldMin f ≤ fieldMax f := by rw [← h0]; exact le_fieldMax f j0 i0
  have hlt : fieldMin f < fieldMax f := by
    apply lt_of_le_of_ne hmm
    intro he
    have hc : ∀ j i, f j i = fieldMin f := fun j i => by
      have a1 := fieldMin_le f j i
      have a2 := le_fieldMax f j i
      linarith
    have hq : Grid.autoLevel (fieldMin f) (fieldMax f) n 0 = fieldMin f := by
      unfold Grid.autoLevel; rw [← he]; ring
    have := ho _ z (fieldMin f, g.eqLat (g.contourArea m f (fieldMin f))) (by
      rw [List.mem_map]
      refine ⟨fieldMin f, ?_, rfl⟩
      rw [e, List.mem_map]
      exact ⟨0, List.mem_range.2 hn0, hq⟩)
    split_ifs at this with hb
    · exact this j0 i0 (hc _ _)
    · exact this i0 ⟨0, by omega⟩ ⟨1, by omega⟩ rfl (hc _ _) (hc _ _)
  refine ⟨_, z, ?_, ?_, ?_⟩
  · rw [z', contourLevels_mirror hg hw f hl]
    congr 1
    rw [List.map_map, ← List.map_reverse, List.map_map]
    apply List.map_congr_left
    intro q hq
    have hq := List.mem_reverse.1 hq
    simp only [Function.comp_apply, Prod.mk.injEq, true_and]
    rw [Grid.contourArea_mirror hg hs hw m f q (ho _ z (q, _) (List.mem_map.2 ⟨q, hq, rfl⟩)), Grid.eqLat_mirror hg]
  · rw [e, List.map_map, List.pairwise_map]
    refine (List.Pairwise.and_mem.1 List.pairwise_lt_range).imp ?_
    rintro a b ⟨_, hb, hab⟩
    exact Grid.eqLat_antitone hg.rsphere_pos (Grid.contourArea_antitone hg m f
      (Grid.autoLevel_mono hlt.le hab.le (List.mem_range.1 hb)))
  · intro p hp
    obtain ⟨q, hq, rfl⟩ := List.mem_map.1 hp
    rw [e] at hq
    obtain ⟨k, hk, rfl⟩ := List.mem_map.1 hq
    have := Grid.autoLevel_mem hlt (List.mem_range.1 hk)
    have := Grid.eqLat_interior hg.rsphere_pos
      (Grid.contourArea_pos hg m f (q := Grid.autoLevel (fieldMin f) (fieldMax f) n k) ⟨j1, i1, by rw [h1]; exact this.2⟩)
      (Grid.contourArea_lt hg m f (q := Grid.autoLevel (fieldMin f) (fieldMax f) n k) ⟨j0, i0, by rw [h0]; exact this.1⟩)
    exact ⟨this.1, this.2.1⟩

/-- The knots of the meridional interpolation of the mirror image. -/
theorem knots_mirror {V W : Type*} (μ : V → W) (ks : List (ℝ × V)) (n s : V) (h : ks.Pairwise fun p q => p.1 ≤ q.1)
    (hin : ∀ p ∈ ks, -90 < p.1 ∧ p.1 < 90) :
    meridionalKnots (mirrorKnots μ ks) (μ s) (μ n) = mirrorKnots μ (meridionalKnots ks n s) := by
  rw [meridionalKnots_sorted _ _ _ h hin, meridionalKnots_sorted _ _ _ (mirrorKnots_sorted h)]
  · simp [mirrorKnots]
  · intro p hp
    obtain ⟨q, hq, rfl⟩ := mem_mirrorKnots.1 hp
    have := hin q hq
    dsimp only
    constructor <;> linarith

theorem lerp_mirror (x0 x1 x y0 y1 : ℝ) (h : x0 < x1) : lerp (-x1) (-x0) (-x) (-y1) (-y0) = -lerp x0 x1 x y0 y1 := by
  unfold lerp
  have h1 : x1 - x0 ≠ 0 := by linarith
  rw [show -x0 - -x1 = x1 - x0 by ring]
  field_simp
  ring

/-- The zonalized profile at any latitude: the knots of the field and of its mirror image. -/
theorem profile_mirror (hg : g.Valid) (hs : g.resolution * g.nlon = 360) {w : ℕ} (hw : w ≠ 0) {m : String}
    (hm : g.OkMethod m w) (f : Fin g.nlat → Fin w → ℝ) {levels : Levels} (hl : levels.Auto) (ho : g.OffGrid f levels m) :
    ∃ out a l a' l', g.zonalizeContours f levels m = .ok out ∧
      g.zonalizeContours (fun j i => -f j.rev i) levels m = .ok (out.reverse.map fun p => (-p.1, -p.2)) ∧
      meridionalKnots (out.map Prod.swap) (fieldMax f) (fieldMin f) = a :: l ∧
      meridionalKnots ((out.reverse.map fun p => (-p.1, -p.2)).map Prod.swap) (fieldMax fun j i => -f j.rev i)
        (fieldMin fun j i => -f j.rev i) = a' :: l' ∧
      ∀ x, -90 ≤ x → x ≤ 90 → g.Untied f levels m x → npInterp lerp a' l' (-x) = -npInterp lerp a l x := by
  have hn := hg.nlat_ge
  obtain ⟨out, z, z', hsort, hin⟩ := contours_mirror hg hs hw hm f hl ho
  have hsort' : (out.map Prod.swap).Pairwise fun p q => p.1 ≤ q.1 := by
    rw [List.pairwise_map]; exact hsort
  have hin' : ∀ p ∈ out.map Prod.swap, -90 < p.1 ∧ p.1 < 90 := by
    intro p hp
    obtain ⟨q, hq, rfl⟩ := List.mem_map.1 hp
    exact hin q hq
  have k := meridionalKnots_sorted _ (fieldMax f) (fieldMin f) hsort' hin'
  have k' := knots_mirror (fun v : ℝ => -v) _ (fieldMax f) (fieldMin f) hsort' hin'
  have e : mirrorKnots (fun v : ℝ => -v) (out.map Prod.swap) = (out.reverse.map fun p => (-p.1, -p.2)).map Prod.swap := by
    simp [mirrorKnots, Function.comp_def]
  rw [e, ← fieldMax_mirror (by omega) (by omega), ← fieldMin_mirror (by omega) (by omega)] at k'
  have hk : ∃ a' l', mirrorKnots (fun v : ℝ => -v) ((-90, fieldMin f) :: (out.map Prod.swap ++ [(90, fieldMax f)])) = a' :: l' ∧
      a'.1 = -90 := ⟨_, _, by simp [mirrorKnots]; exact ⟨rfl, rfl⟩, by norm_num⟩
  obtain ⟨a', l', hk, ha'⟩ := hk
  refine ⟨out, _, _, a', l', z, z', k, by rw [k', k, hk], ?_⟩
  intro x hx hx' hu
  refine npInterp_mirror (L := lerp) (M := lerp) (S := fun _ => True) (fun x0 x1 x y0 y1 h _ _ => lerp_mirror x0 x1 x y0 y1 h)
    (fun _ _ => trivial) hk.symm ?_ hx (by rw [ha']; linarith) ?_
  · rw [← k]; exact sortKnots_pairwise _
  · intro p hp q hq h1 h2
    have hc : ∀ p ∈ ((-90, fieldMin f) :: (out.map Prod.swap ++ [(90, fieldMax f)]) : List (ℝ × ℝ)), p.1 = x →
        (x = -90 ∧ p = (-90, fieldMin f)) ∨ (x = 90 ∧ p = (90, fieldMax f)) ∨
          (-90 < x ∧ x < 90 ∧ ∃ r ∈ out, r.2 = x ∧ p = Prod.swap r) := by
      intro p hp h
      rcases List.mem_cons.1 hp with rfl | hp
      · exact .inl ⟨h.symm, rfl⟩
      · rcases List.mem_append.1 hp with hp | hp
        · obtain ⟨r, hr, rfl⟩ := List.mem_map.1 hp
          have := hin r hr
          have h : r.2 = x := h
          exact .inr (.inr ⟨by linarith, by linarith, r, hr, h, rfl⟩)
        · obtain rfl := List.mem_singleton.1 hp
          exact .inr (.inl ⟨h.symm, rfl⟩)
    rcases hc p hp h1 with ⟨a1, rfl⟩ | ⟨a1, rfl⟩ | ⟨a1, a2, r, hr, hrx, rfl⟩ <;>
      rcases hc q hq h2 with ⟨b1, rfl⟩ | ⟨b1, rfl⟩ | ⟨b1, b2, r', hr', hrx', rfl⟩
    · rfl
    · linarith
    · linarith
    · linarith
    · rfl
    · linarith
    · linarith
    · linarith
    · rw [hu out z r hr r' hr' hrx hrx']

/-- **C155.** The zonalized mirror image is the mirror image of the zonalized field. -/
theorem C155_zonalize (hg : g.Valid) (hs : g.resolution * g.nlon = 360) {w : ℕ} (hw : w ≠ 0) {m : String}
    (hm : g.OkMethod m w) (f : Fin g.nlat → Fin w → ℝ) {levels : Levels} (hl : levels.Auto) (ho : g.OffGrid f levels m)
    (hu : ∀ j : Fin g.nlat, g.Untied f levels m (g.lat j)) :
    ∃ z, g.zonalize f levels m = .ok z ∧ g.zonalize (fun j i => -f j.rev i) levels m = .ok fun j => -z j.rev := by
  obtain ⟨out, a, l, a', l', z, z', k, k', h⟩ := profile_mirror hg hs hw hm f hl ho
  refine ⟨fun j => npInterp lerp a l (g.lat j), ?_, ?_⟩
  · unfold Grid.zonalize
    rw [z]; dsimp only; rw [k]
  · unfold Grid.zonalize
    rw [z']; dsimp only; rw [k']
    dsimp only
    congr 1
    funext j
    have hj := Grid.lat_mem hg j.rev.isLt
    rw [← h _ hj.1 hj.2 (hu j.rev), mirrorDiag_lat_rev hg, neg_neg]

/-! ### Wave activity -/

theorem lerp_ends {x0 x1 : ℝ} (y0 y1 : ℝ) (h : x0 < x1) : lerp x0 x1 x0 y0 y1 = y0 ∧ lerp x0 x1 x1 y0 y1 = y1 := by
  unfold lerp
  have h1 : x1 - x0 ≠ 0 := by linarith
  constructor
  · ring
  · rw [div_mul_cancel₀ _ h1]; ring

/-- a row without missing values -/
def FullRow {w : ℕ} (r : Fin w → Option ℝ) : Prop := ∃ v : Fin w → ℝ, r = fun i => some (v i)

theorem lerpRow_mirror {w : ℕ} (x0 x1 x : ℝ) (y0 y1 : Fin w → Option ℝ) (h : x0 < x1) (h0 : FullRow y0) (h1 : FullRow y1) :
    lerpRow (-x1) (-x0) (-x) y1 y0 = lerpRow x0 x1 x y0 y1 := by
  obtain ⟨u, rfl⟩ := h0
  obtain ⟨v, rfl⟩ := h1
  funext i
  unfold lerpRow
  rw [lerpO_some h, lerpO_some (neg_lt_neg h)]
  congr 1
  unfold lerp
  have h1 : x1 - x0 ≠ 0 := by linarith
  rw [show -x0 - -x1 = x1 - x0 by ring]
  field_simp
  ring

/-- Rows of the mirror image and their interpolation. -/
theorem callLinear_mirror {w : ℕ} {rows : List (ℝ × (Fin w → Option ℝ))} (hsort : rows.Pairwise fun p q => p.1 ≤ q.1)
    (hin : ∀ p ∈ rows, -90 < p.1 ∧ p.1 < 90) (hS : ∀ p ∈ rows, FullRow p.2)
    {a b a' b' : ℝ × (Fin w → Option ℝ)} {l l' : List (ℝ × (Fin w → Option ℝ))}
    (hk : meridionalKnots rows (fun _ => some 0) (fun _ => some 0) = a :: b :: l)
    (hk' : meridionalKnots (mirrorKnots id rows) (fun _ => some 0) (fun _ => some 0) = a' :: b' :: l')
    {x : ℝ} (hx : -90 ≤ x) (hx' : x ≤ 90) (hu : ∀ p ∈ rows, ∀ q ∈ rows, p.1 = x → q.1 = x → p = q) :
    callLinear lerpRow a' b' l' (-x) = callLinear lerpRow a b l x := by
  have h0 : ∀ (x0 x1 : ℝ) (y0 y1 : Fin w → Option ℝ), x0 < x1 → FullRow y0 → FullRow y1 → lerpRow x0 x1 x0 y0 y1 = y0 := by
    rintro x0 x1 _ _ h ⟨u, rfl⟩ ⟨v, rfl⟩
    funext i; unfold lerpRow; rw [lerpO_some h, (lerp_ends _ _ h).1]
  have h1 : ∀ (x0 x1 : ℝ) (y0 y1 : Fin w → Option ℝ), x0 < x1 → FullRow y0 → FullRow y1 → lerpRow x0 x1 x1 y0 y1 = y1 := by
    rintro x0 x1 _ _ h ⟨u, rfl⟩ ⟨v, rfl⟩
    funext i; unfold lerpRow; rw [lerpO_some h, (lerp_ends _ _ h).2]
  have hmk := knots_mirror (id : (Fin w → Option ℝ) → _) rows (fun _ => some 0) (fun _ => some 0) hsort hin
  rw [id, hk, hk'] at hmk
  have hsk : (a :: b :: l).Pairwise fun p q => p.1 ≤ q.1 := by rw [← hk]; exact sortKnots_pairwise _
  have hsk' : (a' :: b' :: l').Pairwise fun p q => p.1 ≤ q.1 := by rw [← hk']; exact sortKnots_pairwise _
  have hks := meridionalKnots_sorted rows (fun _ => some 0) (fun _ => some 0) hsort hin
  rw [hk] at hks
  have hSk : ∀ k ∈ a :: b :: l, FullRow k.2 := by
    rw [hks]
    intro k hk
    rcases List.mem_cons.1 hk with rfl | hk
    · exact ⟨fun _ => 0, rfl⟩
    · rcases List.mem_append.1 hk with hk | hk
      · exact hS k hk
      · obtain rfl := List.mem_singleton.1 hk; exact ⟨fun _ => 0, rfl⟩
  have hSk' : ∀ k ∈ a' :: b' :: l', FullRow k.2 := by
    rw [hmk]
    intro k hk
    obtain ⟨r, hr, rfl⟩ := mem_mirrorKnots.1 hk
    exact hSk r hr
  have huk : ∀ p ∈ a :: b :: l, ∀ q ∈ a :: b :: l, p.1 = x → q.1 = x → p = q := by
    rw [hks]
    have hc : ∀ p ∈ ((-90, fun _ => some 0) :: (rows ++ [(90, fun _ => some 0)]) : List (ℝ × (Fin w → Option ℝ))), p.1 = x →
        (x = -90 ∧ p = (-90, fun _ => some 0)) ∨ (x = 90 ∧ p = (90, fun _ => some 0)) ∨ (-90 < x ∧ x < 90 ∧ p ∈ rows) := by
      intro p hp h
      rcases List.mem_cons.1 hp with rfl | hp
      · exact .inl ⟨h.symm, rfl⟩
      · rcases List.mem_append.1 hp with hp | hp
        · have := hin p hp
          exact .inr (.inr ⟨by linarith, by linarith, hp⟩)
        · obtain rfl := List.mem_singleton.1 hp
          exact .inr (.inl ⟨h.symm, rfl⟩)
    intro p hp q hq e1 e2
    rcases hc p hp e1 with ⟨a1, rfl⟩ | ⟨a1, rfl⟩ | ⟨a1, a2, hp'⟩ <;>
      rcases hc q hq e2 with ⟨b1, rfl⟩ | ⟨b1, rfl⟩ | ⟨b1, b2, hq'⟩
    · rfl
    · linarith
    · linarith
    · linarith
    · rfl
    · linarith
    · linarith
    · linarith
    · exact hu p hp' q hq' e1 e2
  have huk' : ∀ p ∈ a' :: b' :: l', ∀ q ∈ a' :: b' :: l', p.1 = -x → q.1 = -x → p = q := by
    rw [hmk]
    intro p hp q hq e1 e2
    obtain ⟨r, hr, rfl⟩ := mem_mirrorKnots.1 hp
    obtain ⟨r', hr', rfl⟩ := mem_mirrorKnots.1 hq
    rw [huk r hr r' hr' (neg_injective e1) (neg_injective e2)]
  have ha : a.1 = -90 := by simp only [List.cons.injEq] at hks; rw [hks.1]
  have hlast : ((a :: b :: l).getLast (by simp)).1 = 90 := by
    simp only [hks]; simp
  have hmin : ∀ p ∈ mirrorKnots id rows, -90 < p.1 ∧ p.1 < 90 := by
    intro p hp
    obtain ⟨r, hr, rfl⟩ := mem_mirrorKnots.1 hp
    have := hin r hr
    dsimp only; constructor <;> linarith
  have hks' := meridionalKnots_sorted (mirrorKnots id rows) (fun _ => some 0) (fun _ => some 0) (mirrorKnots_sorted hsort) hmin
  rw [hk'] at hks'
  have ha' : a'.1 = -90 := by simp only [List.cons.injEq] at hks'; rw [hks'.1]
  have hlast' : ((a' :: b' :: l').getLast (by simp)).1 = 90 := by
    simp only [hks']; simp
  have hab := Grid.knots_first_lt hk ha hsk fun p hp => (hin p hp).1
  have hab' := Grid.knots_first_lt hk' ha' hsk' fun p hp => (hmin p hp).1
  rw [callLinear_eq_npInterp h0 h1 l a b hSk hsk (.inl hab) (by rw [ha]; exact hx) (by rw [hlast]; exact hx') huk,
    callLinear_eq_npInterp h0 h1 l' a' b' hSk' hsk' (.inl hab') (by rw [ha']; linarith) (by rw [hlast']; linarith) huk']
  exact npInterp_mirror (L := lerpRow) (M := lerpRow) (μ := id) (S := FullRow)
    (fun x0 x1 x y0 y1 h h0 h1 => lerpRow_mirror x0 x1 x y0 y1 h h0 h1) hSk hmk hsk (by rw [ha]; exact hx)
    (by rw [ha']; linarith) huk

/-- Knots in reverse order are sorted first. -/
theorem meridionalKnots_reverse {V : Type*} (ks : List (ℝ × V)) (n s : V) (h : ks.Pairwise fun p q => q.1 < p.1)
    (hin : ∀ p ∈ ks, -90 < p.1 ∧ p.1 < 90) : meridionalKnots ks n s = meridionalKnots ks.reverse n s := by
  have hperm : (meridionalKnots ks n s).Perm (meridionalKnots ks.reverse n s) := by
    refine (sortKnots_perm _).trans (List.Perm.trans ?_ (sortKnots_perm _).symm)
    exact (List.Perm.cons _ ((List.reverse_perm ks).symm.append_right _))
  have hu : ∀ p ∈ ks, ∀ q ∈ ks, p.1 = q.1 → p = q := by
    intro p hp q hq e
    by_contra hne
    haveI : Std.Symm (fun p q : ℝ × V => p.1 ≠ q.1) := ⟨fun _ _ h => h.symm⟩
    exact (h.imp (S := fun p q : ℝ × V => p.1 ≠ q.1) fun h => h.ne').forall hp hq hne e
  refine hperm.eq_of_pairwise (le := fun p q : ℝ × V => p.1 ≤ q.1) ?_ (sortKnots_pairwise _) (sortKnots_pairwise _)
  have hc : ∀ p ∈ meridionalKnots ks n s, p = (-90, s) ∨ p = (90, n) ∨ p ∈ ks := by
    intro p hp
    have := (sortKnots_perm _).mem_iff.1 hp
    simp only [List.mem_append, List.mem_cons, List.not_mem_nil, or_false] at this
    tauto
  intro p q hp hq h1 h2
  have e := le_antisymm h1 h2
  have hq := hperm.mem_iff.2 hq
  rcases hc p hp with rfl | rfl | hp <;> rcases hc q hq with rfl | rfl | hq
  · rfl
  · norm_num at e
  · have := (hin q hq).1; dsimp only at e; linarith
  · norm_num at e
  · rfl
  · have := (hin q hq).2; dsimp only at e; linarith
  · have := (hin p hp).1; dsimp only at e; linarith
  · have := (hin p hp).2; dsimp only at e; linarith
  · exact hu p hp q hq e

/-- The contours of `falwa` for the mirror image. -/
theorem falwaContours_mirror (hg : g.Valid) (hs : g.resolution * g.nlon = 360) {m : String} (hm : KnownMethod m)
    (f : Fin g.nlat → Fin g.nlon → ℝ) {levels : Levels} (hl : levels.Auto) (ho : g.OffGrid f levels m)
    (hu : g.FalwaUntied f levels m) :
    ∃ out, g.falwaContours f levels m = .ok out ∧
      g.falwaContours (fun j i => -f j.rev i) levels m = .ok (out.reverse.map fun p => (-p.1, -p.2)) := by
  have hw : g.nlon ≠ 0 := by have := hg.nlon_ge; omega
  obtain ⟨out, a, l, a', l', z, z', k, k', h⟩ :=
    profile_mirror hg hs hw (hm.imp_right fun h => ⟨h, le_rfl⟩) f hl ho
  unfold Grid.falwaContours
  rw [z, z']
  dsimp only
  by_cases hb : m = "boxcount"
  · unfold Grid.FalwaUntied at hu
    rw [if_pos hb] at hu
    simp only [if_pos hb]
    rw [k, k']
    refine ⟨_, rfl, ?_⟩
    dsimp only
    congr 1
    apply List.ext_getElem
    · simp
    · intro i h1 h2
      have hi : i < g.nlat - 1 := by simpa using h1
      simp only [List.getElem_map, List.getElem_range, List.getElem_reverse, List.length_map, List.length_range]
      have e1 : g.lat (g.nlat - 1 - 1 - i) = -g.lat (i + 1) := by
        rw [← mirrorDiag_lat hg (by omega)]; congr 1; omega
      have e2 : g.lat (g.nlat - 1 - 1 - i + 1) = -g.lat i := by
        rw [← mirrorDiag_lat hg (by omega)]; congr 1; omega
      have hU := hu (g.nlat - 1 - 1 - i) (by omega)
      rw [e1, e2] at hU
      have m1 := Grid.lat_mem hg (show i < g.nlat by omega)
      have m2 := Grid.lat_mem hg (show i + 1 < g.nlat by omega)
      have := h _ (by linarith) (by linarith) hU
      rw [e1, e2, ← this]
      rw [show -(1 / 2 * (-g.lat (i + 1) + -g.lat i)) = 1 / 2 * (g.lat i + g.lat (i + 1)) by ring]
  · simp only [if_neg hb]
    exact ⟨out, rfl, rfl⟩

/-- **C155.** Local wave activity of the mirror image is the mirror image of local wave activity. -/
theorem C155_falwa (hg : g.Valid) (hs : g.resolution * g.nlon = 360) {m : String} (hm : KnownMethod m)
    (f : Fin g.nlat → Fin g.nlon → ℝ) {levels : Levels} (hl : levels.Auto) (ho : g.OffGrid f levels m)
    (hu : g.FalwaUntied f levels m) :
    ∃ F, g.falwa f levels m = .ok F ∧ g.falwa (fun j i => -f j.rev i) levels m = .ok fun j => F j.rev := by
  have hw : g.nlon ≠ 0 := by have := hg.nlon_ge; omega
  have hsome : levels.Some := by
    cases levels with
    | none => trivial
    | int n => exact hl
    | array q => exact hl.elim
  obtain ⟨out, c, c'⟩ := falwaContours_mirror hg hs hm f hl ho hu
  obtain ⟨out2, c2, _, hin, hsp, hbx⟩ := Grid.falwaContours_ok hg hm f hsome
  obtain rfl : out = out2 := by rw [c] at c2; exact Except.ok.inj c2
  obtain ⟨out3, z, z', hsort, hin3⟩ := contours_mirror hg hs hw (hm.imp_right fun h => ⟨h, le_rfl⟩) f hl ho
  -- interior
  have hin : ∀ p ∈ out, -90 < p.2 ∧ p.2 < 90 := by
    by_cases hb : m = "boxcount"
    · exact hin (.inl hb)
    · obtain rfl : out = out3 := by have := (hsp hb).1; rw [z] at this; exact (Except.ok.inj this).symm
      exact hin3
  have r := Grid.falwaContoured_of hm c
  have r' := Grid.falwaContoured_of hm c'
  obtain ⟨rows, hrows⟩ : ∃ rows, rows = out.map fun p =>
    (p.2, fun i => divO (g.falwaNum m f p.1 p.2 i) (Real.cos (deg2rad p.2))) := ⟨_, rfl⟩
  have hrows' : (out.reverse.map fun p => (-p.1, -p.2)).map (fun p =>
      (p.2, fun i => divO (g.falwaNum m (fun j i => -f j.rev i) p.1 p.2 i) (Real.cos (deg2rad p.2)))) = mirrorKnots id rows := by
    unfold mirrorKnots
    rw [hrows, ← List.map_reverse, List.map_map, List.map_map]
    apply List.map_congr_left
    intro p hp
    have hp := List.mem_reverse.1 hp
    simp only [Function.comp_apply, id]
    congr 1
    funext i
    rw [Grid.falwaNum_mirror hg m f p.1 p.2 i (mirrorDiag_lat_rev hg)]
    · congr 1
      unfold deg2rad
      rw [neg_mul, Real.cos_neg]
    · intro hb j hj
      subst hb
      unfold Grid.falwaContours at c
      rw [z] at c
      dsimp only at c
      rw [if_pos rfl] at c
      split at c
      · simp at c
      · obtain rfl := (Except.ok.inj c).symm
        obtain ⟨k, hk, rfl⟩ := List.mem_map.1 hp
        dsimp only at hj
        have s1 := Grid.lat_strictAnti hg (show k < k + 1 by omega)
        rcases le_or_gt j.val k with h | h
        · have := (Grid.lat_strictAnti hg).antitone h
          linarith
        · have := (Grid.lat_strictAnti hg).antitone (show k + 1 ≤ j.val from h)
          linarith
  rw [← hrows] at r
  rw [hrows'] at r'
  have hinr : ∀ p ∈ rows, -90 < p.1 ∧ p.1 < 90 := by
    intro p hp
    rw [hrows] at hp
    obtain ⟨q, hq, rfl⟩ := List.mem_map.1 hp
    exact hin q hq
  have hinr' : ∀ p ∈ mirrorKnots id rows, -90 < p.1 ∧ p.1 < 90 := by
    intro p hp
    obtain ⟨q, hq, rfl⟩ := mem_mirrorKnots.1 hp
    have := hinr q hq
    dsimp only; constructor <;> linarith
  have hfull : ∀ p ∈ rows, FullRow p.2 := by
    intro p hp
    rw [hrows] at hp
    obtain ⟨q, hq, rfl⟩ := List.mem_map.1 hp
    refine ⟨fun i => g.falwaNum m f q.1 q.2 i / Real.cos (deg2rad q.2), ?_⟩
    funext i
    exact if_neg (Grid.cos_deg_pos (hin q hq).1 (hin q hq).2).ne'
  obtain ⟨a, b, l, k, F, -⟩ := Grid.falwa_of r fun p hp => ⟨(hinr p hp).1.le, (hinr p hp).2.le⟩
  obtain ⟨a', b', l', k', F', -⟩ := Grid.falwa_of r' fun p hp => ⟨(hinr' p hp).1.le, (hinr' p hp).2.le⟩
  refine ⟨_, F, ?_⟩
  rw [F']
  congr 1
  funext j
  have hj := Grid.lat_mem hg j.rev.isLt
  have e : g.lat j = -g.lat j.rev := by rw [mirrorDiag_lat_rev hg, neg_neg]
  rw [e]
  by_cases hb : m = "boxcount"
  · have hd : rows.Pairwise fun p q => q.1 < p.1 := by
      rw [hrows, List.pairwise_map]; exact hbx hb
    have hd' : (mirrorKnots id rows).Pairwise fun p q => q.1 < p.1 := by
      unfold mirrorKnots
      rw [List.pairwise_map, List.pairwise_reverse]
      exact hd.imp fun h => neg_lt_neg h
    rw [meridionalKnots_reverse _ _ _ hd hinr] at k
    rw [meridionalKnots_reverse _ _ _ hd' hinr'] at k'
    have e : (mirrorKnots id rows).reverse = mirrorKnots id rows.reverse := by simp [mirrorKnots]
    rw [e] at k'
    refine callLinear_mirror (rows := rows.reverse) ?_ (fun p hp => hinr p (List.mem_reverse.1 hp))
      (fun p hp => hfull p (List.mem_reverse.1 hp)) k k' hj.1 hj.2 ?_
    · rw [List.pairwise_reverse]; exact hd.imp le_of_lt
    · intro p hp q hq h1 h2
      by_contra hne
      haveI : Std.Symm (fun p q : ℝ × (Fin g.nlon → Option ℝ) => p.1 ≠ q.1) := ⟨fun _ _ h => h.symm⟩
      exact (hd.imp (S := fun p q : ℝ × (Fin g.nlon → Option ℝ) => p.1 ≠ q.1) fun h => h.ne').forall
        (List.mem_reverse.1 hp) (List.mem_reverse.1 hq) hne (h1.trans h2.symm)
  · obtain rfl : out = out3 := by have := (hsp hb).1; rw [z] at this; exact (Except.ok.inj this).symm
    unfold Grid.FalwaUntied at hu
    rw [if_neg hb] at hu
    refine callLinear_mirror ?_ hinr hfull k k' hj.1 hj.2 ?_
    · rw [hrows, List.pairwise_map]; exact hsort
    · intro p hp q hq h1 h2
      rw [hrows] at hp hq
      obtain ⟨u, hu', rfl⟩ := List.mem_map.1 hp
      obtain ⟨v, hv', rfl⟩ := List.mem_map.1 hq
      rw [hu j.rev out z u hu' v hv' h1 h2]

/-! ### States -/

/-- **C155.** Zonalized PV and wave activity of the mirror image of a state. -/
theorem C155_state {τ : Type} {S : g.Sph} (hS : Spharm.Lawful S) (h : S.Mirrors) (hg : g.Valid)
    (hs : g.resolution * g.nlon = 360) (s : St τ g) (ho : g.OffGrid (s.pv S) .none "sptrapz")
    (hu : ∀ j : Fin g.nlat, g.Untied (s.pv S) .none "sptrapz" (g.lat j)) :
    (∃ z, s.pvZonalized S = .ok z ∧ s.mirrored.pvZonalized S = .ok fun j => -z j.rev) ∧
    (∃ F, s.falwa S = .ok F ∧ s.mirrored.falwa S = .ok fun j => F j.rev) ∧
    ∃ A, g.stateFawa (s.pv S) = .ok A ∧ g.stateFawa (s.mirrored.pv S) = .ok fun j => A j.rev := by
  have hn : g.nlon ≠ 0 := by have := hg.nlon_ge; omega
  have e : s.mirrored.pv S = fun j i => -s.pv S j.rev i := St.pv_mirrored hS.lin h s
  obtain ⟨F, h1, h2⟩ := C155_falwa hg hs (.inr rfl) (s.pv S) (levels := .none) trivial ho (by
    unfold Grid.FalwaUntied; rw [if_neg (by decide)]; exact hu)
  refine ⟨?_, ⟨F, h1, ?_⟩, ⟨fun j => Grid.meanO (F j), ?_, ?_⟩⟩
  · unfold St.pvZonalized
    rw [e]
    exact C155_zonalize hg hs hn (.inr ⟨rfl, le_rfl⟩) (s.pv S) trivial ho hu
  · unfold St.falwa
    rw [e]; exact h2
  · unfold Grid.stateFawa
    rw [h1]
  · unfold Grid.stateFawa
    rw [e, h2]

/-- **C155.** If PV is antisymmetric about the equator, so is the zonalized PV, and wave activity is symmetric. -/
theorem C155_antisymmetric (hg : g.Valid) (hs : g.resolution * g.nlon = 360) {m : String} (hm : KnownMethod m)
    (f : Fin g.nlat → Fin g.nlon → ℝ) (hf : ∀ j i, f j.rev i = -f j i) {levels : Levels} (hl : levels.Auto)
    (ho : g.OffGrid f levels m) (hu : ∀ j : Fin g.nlat, g.Untied f levels m (g.lat j)) (hu' : g.FalwaUntied f levels m) :
    (∃ z, g.zonalize f levels m = .ok z ∧ ∀ j, z j.rev = -z j) ∧
    ∃ F, g.falwa f levels m = .ok F ∧ ∀ j, F j.rev = F j := by
  have hn : g.nlon ≠ 0 := by have := hg.nlon_ge; omega
  have e : (fun (j : Fin g.nlat) i => -f j.rev i) = f := by funext j i; rw [hf, neg_neg]
  obtain ⟨z, h1, h2⟩ := C155_zonalize hg hs hn (hm.imp_right fun h => ⟨h, le_rfl⟩) f hl ho hu
  obtain ⟨F, h3, h4⟩ := C155_falwa hg hs hm f hl ho hu'
  rw [e] at h2 h4
  refine ⟨⟨z, h1, fun j => ?_⟩, F, h3, fun j => ?_⟩
  · have := congrFun (Except.ok.inj (h1.symm.trans h2)) j
    linarith
  · have := congrFun (Except.ok.inj (h3.symm.trans h4)) j
    exact this.symm

/-! ### When the conditions hold, and what happens otherwise -/

/-- For zonally symmetric fields that increase northward the conditions hold. -/
theorem C155_increasing (hg : g.Valid) (hs : g.resolution * g.nlon = 360) {w : ℕ} (hw0 : 0 < w) (hw : w ≤ g.nlon)
    (p : Fin g.nlat → ℝ) (hp : ∀ j j', j < j' → p j' < p j) {levels : Levels} (hl : levels.Auto) :
    g.OffGrid (w := w) (fun j _ => p j) levels "sptrapz" ∧
      ∀ x, g.Untied (w := w) (fun j _ => p j) levels "sptrapz" x := by
  have hn := hg.nlat_ge
  refine ⟨?_, ?_⟩
  · intro out _ c _
    rw [if_neg (by decide)]
    intro i j j' hj h1 h2
    have := hp j j' (by rw [Fin.lt_def]; omega)
    dsimp only at h1 h2
    linarith
  · intro x out z c hc c' hc' h1 h2
    obtain ⟨P, hP⟩ := interp_exists hg p
    have hne : levels ≠ .array [] ∧ ∀ n, levels = .int n → 1 ≤ n := by
      cases levels with
      | none => simp
      | int n => exact ⟨by simp, fun n e => by cases e; exact hl⟩
      | array q => exact hl.elim
    obtain ⟨out', z', -, -, key⟩ := C23_symmetric g hg hs w hw0 hw p hp P hP levels hne
    obtain rfl : out = out' := by rw [z] at z'; exact Except.ok.inj z'
    have hsome : levels.Some := by
      cases levels with
      | none => trivial
      | int n => exact hl
      | array q => exact hl.elim
    have hins : levels.Inside (fun (j : Fin g.nlat) (_ : Fin w) => p j) := by
      have : ∃ j i j' i', (fun (j : Fin g.nlat) (_ : Fin w) => p j) j i ≠ (fun (j : Fin g.nlat) (_ : Fin w) => p j) j' i' :=
        ⟨⟨0, by omega⟩, ⟨0, hw0⟩, ⟨1, by omega⟩, ⟨0, hw0⟩, (hp _ _ (by simp [Fin.lt_def])).ne'⟩
      cases levels with
      | none => exact this
      | int n => exact this
      | array q => exact hl.elim
    have hz := Grid.zonalizeContours_ok hw0.ne' (.inr ⟨rfl, hw⟩) (fun (j : Fin g.nlat) (_ : Fin w) => p j)
      (Grid.contourLevels_some hg _ hsome "sptrapz")
    have hout := Except.ok.inj (z.symm.trans hz)
    subst hout
    -- every contour is crossed
    have cross : ∀ q ∈ g.contourLevels (fun (j : Fin g.nlat) (_ : Fin w) => p j) levels "sptrapz",
        ∃ φ ∈ Set.Icc (-(Real.pi / 2)) (Real.pi / 2), P φ = q := by
      intro q hq
      obtain ⟨⟨j0, _, h0⟩, ⟨j1, _, h1⟩⟩ := Grid.contourLevels_inside hg hw0 _ hsome hins "sptrapz" q hq
      -- the first row below the contour
      have hex : ∃ k : ℕ, ∃ hk : k < g.nlat, p ⟨k, hk⟩ < q := ⟨j0, j0.isLt, h0⟩
      classical
      obtain ⟨hk, hkq⟩ := Nat.find_spec hex
      obtain ⟨k, hkk⟩ : ∃ k, k + 1 = Nat.find hex := by
        refine ⟨Nat.find hex - 1, Nat.sub_add_cancel (Nat.pos_of_ne_zero fun h => ?_)⟩
        have hp0 : p ⟨0, by omega⟩ < q := by
          have : (⟨Nat.find hex, hk⟩ : Fin g.nlat) = ⟨0, by omega⟩ := Fin.ext h
          rw [← this]; exact hkq
        rcases Nat.eq_zero_or_pos j1.val with h' | h'
        · have : j1 = ⟨0, by omega⟩ := Fin.ext h'
          rw [this] at h1; linarith
        · have := hp ⟨0, by omega⟩ j1 h'
          linarith
      have hk1 : k + 1 < g.nlat := by omega
      have hkq' : p ⟨k + 1, hk1⟩ < q := by
        have : (⟨Nat.find hex, hk⟩ : Fin g.nlat) = ⟨k + 1, hk1⟩ := Fin.ext hkk.symm
        rw [← this]; exact hkq
      have hqk : q ≤ p ⟨k, by omega⟩ := by
        by_contra hc
        exact Nat.find_min hex (show k < Nat.find hex by omega) ⟨by omega, not_le.1 hc⟩
      have hd : p ⟨k, by omega⟩ - p ⟨k + 1, hk1⟩ > 0 := by linarith
      have t0 : 0 ≤ (p ⟨k, by omega⟩ - q) / (p ⟨k, by omega⟩ - p ⟨k + 1, hk1⟩) := div_nonneg (by linarith) hd.le
      have t1 : (p ⟨k, by omega⟩ - q) / (p ⟨k, by omega⟩ - p ⟨k + 1, hk1⟩) ≤ 1 := by
        rw [div_le_one hd]; linarith
      have hval := hP k hk1 _ t0 t1
      refine ⟨_, ?_, hval.trans ?_⟩
      · have l0 := Grid.phi_zero hg
        have l1 := Grid.phi_last hg
        have a1 := (Grid.phi_strictAnti hg).antitone (Nat.zero_le k)
        have a2 := (Grid.phi_strictAnti hg).antitone (show k + 1 ≤ g.nlat - 1 by omega)
        have a3 := Grid.phi_strictAnti hg (Nat.lt_succ_self k)
        rw [l0] at a1
        rw [l1] at a2
        have b1 := mul_nonneg t0 (show 0 ≤ g.phi k - g.phi (k + 1) by linarith)
        have b2 := mul_nonneg (sub_nonneg.2 t1) (show 0 ≤ g.phi k - g.phi (k + 1) by linarith)
        constructor <;> linarith
      · field_simp
        ring
    obtain ⟨q, hq, rfl⟩ := List.mem_map.1 hc
    obtain ⟨q', hq', rfl⟩ := List.mem_map.1 hc'
    obtain ⟨φ, hφ, e⟩ := cross q hq
    obtain ⟨φ', hφ', e'⟩ := cross q' hq'
    have k1 := key _ hc φ hφ e
    have k2 := key _ hc' φ' hφ' e'
    have : φ = φ' := by
      have := congrArg deg2rad ((k1.symm.trans (h1.trans h2.symm)).trans k2)
      rwa [deg2rad_rad2deg, deg2rad_rad2deg] at this
    have : q = q' := by rw [← e, ← e', this]
    rw [this]

/-- One at the North Pole, minus one at the South Pole and zero everywhere else. -/
noncomputable def polarField (g : Grid ℝ) : Fin g.nlat → Fin g.nlon → ℝ := fun j _ =>
  if j.val = 0 then 1 else if j.val = g.nlat - 1 then -1 else 0

theorem polarField_rev (hg : g.Valid) (j : Fin g.nlat) (i : Fin g.nlon) : polarField g j.rev i = -polarField g j i := by
  have hn := hg.nlat_ge
  have := j.isLt
  unfold polarField
  rw [Fin.val_rev]
  by_cases h0 : j.val = 0
  · rw [if_neg (by omega), if_pos (by omega), if_pos h0]
  · by_cases h1 : j.val = g.nlat - 1
    · rw [if_pos (by omega), if_neg h0, if_pos h1]; ring
    · rw [if_neg (by omega), if_neg (by omega), if_neg h0, if_neg h1]; ring

theorem polarField_bounds (hg : g.Valid) : fieldMin (polarField g) = -1 ∧ fieldMax (polarField g) = 1 := by
  have hn := hg.nlat_ge
  have hw : 0 < g.nlon := by have := hg.nlon_ge; omega
  have hb : ∀ j i, -1 ≤ polarField g j i ∧ polarField g j i ≤ 1 := by
    intro j i; unfold polarField; split_ifs <;> norm_num
  constructor
  · apply le_antisymm
    · have := fieldMin_le (polarField g) ⟨g.nlat - 1, by omega⟩ ⟨0, hw⟩
      unfold polarField at this ⊢
      dsimp only at this
      rwa [if_neg (by omega), if_pos rfl] at this
    · obtain ⟨j, i, h⟩ := fieldMin_attained (by omega) hw (polarField g)
      rw [← h]; exact (hb j i).1
  · apply le_antisymm
    · obtain ⟨j, i, h⟩ := fieldMax_attained (by omega) hw (polarField g)
      rw [← h]; exact (hb j i).2
    · have := le_fieldMax (polarField g) ⟨0, by omega⟩ ⟨0, hw⟩
      unfold polarField at this ⊢
      dsimp only at this
      rwa [if_pos rfl] at this

/-- The contour in the middle of the range encloses everything but the last interval before the South Pole. -/
theorem polarField_lat (hg : g.Valid) (hs : g.resolution * g.nlon = 360) :
    g.eqLat (g.contourArea "sptrapz" (polarField g) 0) = g.lat (g.nlat - 2) := by
  have hn := hg.nlat_ge
  have hw : (g.nlon : ℝ) ≠ 0 := by have := hg.nlon_ge; exact_mod_cast (by omega : g.nlon ≠ 0)
  obtain ⟨ψ, hψ⟩ : ∃ ψ, ψ = g.phi (g.nlat - 2) := ⟨_, rfl⟩
  have h0 : -(Real.pi / 2) ≤ ψ := by
    have := (Grid.phi_strictAnti hg).antitone (show g.nlat - 2 ≤ g.nlat - 1 by omega)
    rwa [Grid.phi_last hg, ← hψ] at this
  have h1 : ψ ≤ Real.pi / 2 := by
    have := (Grid.phi_strictAnti hg).antitone (Nat.zero_le (g.nlat - 2))
    rwa [Grid.phi_zero hg, ← hψ] at this
  have hcol : ∀ i, g.colQuad "sptrapz" (fun _ => 1) (fun j => polarField g j i - 0) = g.rsphere * (1 - Real.sin ψ) := by
    intro i
    rw [← sptrapzCol_north hg h0 h1]
    unfold Grid.colQuad
    rw [if_neg (by decide)]
    have e1 : ∀ j ≤ g.nlat - 1, (Grid.col fun _ : Fin g.nlat => (1 : ℝ)) j = 1 := by
      intro j hj; rw [col_of_lt _ (by omega)]
    rw [sptrapzCol_congr (u := fun _ => 1) (v := fun j => if j = 0 then 1 else if j = g.nlat - 1 then -1 else 0) _ _ e1 (by
      intro j hj
      rw [col_of_lt _ (by omega)]
      unfold polarField
      dsimp only
      rw [sub_zero])]
    apply sptrapzCol_domain (Grid.phi_seg hg)
    intro j hj φ hφ
    have hseg := Grid.phi_seg hg j hj
    rw [aff_id hseg, sub_nonneg]
    have nn : ∀ k, k < g.nlat - 1 → (0 : ℝ) ≤ if k = 0 then 1 else if k = g.nlat - 1 then -1 else 0 := by
      intro k hk
      rw [if_neg (show ¬ k = g.nlat - 1 by omega)]
      split_ifs <;> norm_num
    rcases Nat.lt_or_ge (j + 1) (g.nlat - 1) with h | h
    · refine iff_of_true (aff_nonneg hseg (nn j hj) (nn (j + 1) h) hφ.1.le hφ.2.le) ?_
      have := (Grid.phi_strictAnti hg).antitone (show j + 1 ≤ g.nlat - 2 by omega)
      rw [hψ]
      exact this.trans hφ.1.le
    · have e : j = g.nlat - 2 := by omega
      refine iff_of_false ?_ ?_
      · rw [not_le, if_neg (show ¬ j = 0 by omega), if_neg (show ¬ j = g.nlat - 1 by omega), if_neg (show ¬ j + 1 = 0 by omega),
          if_pos (show j + 1 = g.nlat - 1 by omega)]
        unfold aff
        have : 0 < (φ - g.phi j) / (g.phi (j + 1) - g.phi j) :=
          div_pos_of_neg_of_neg (by linarith [hφ.2]) (by linarith)
        linarith
      · rw [not_le, hψ, ← e]; exact hφ.2
  have harea : g.contourArea "sptrapz" (polarField g) 0 = 2 * Real.pi * g.rsphere ^ 2 * (1 - Real.sin ψ) := by
    unfold Grid.contourArea
    rw [Finset.sum_congr rfl fun i _ => hcol i]
    simp only [Finset.sum_const, Finset.card_univ, Fintype.card_fin, nsmul_eq_mul]
    rw [← Grid.dlam_nlon_eq hg hs]
    field_simp
  rw [harea, Grid.eqLat_cap hg.rsphere_pos h0 h1, hψ]
  exact rad2deg_deg2rad _

/-- **C155** fails when a contour runs along the grid: the field that vanishes everywhere except at the poles, where it has opposite
values, is antisymmetric about the equator, but the middle contour is assigned to the last latitude before the South Pole and the
zonalized field is not antisymmetric. -/
theorem C155_plateau_refuted (hg : g.Valid) (hs : g.resolution * g.nlon = 360) (h4 : 4 ≤ g.nlat) :
    (∀ j i, polarField g j.rev i = -polarField g j i) ∧
    g.zonalizeContours (polarField g) (.int 1) "sptrapz" = .ok [(0, g.lat (g.nlat - 2))] ∧
    ∃ z, g.zonalize (polarField g) (.int 1) "sptrapz" = .ok z ∧ ¬ ∀ j, z j.rev = -z j := by
  have hw : g.nlon ≠ 0 := by have := hg.nlon_ge; omega
  obtain ⟨b1, b2⟩ := polarField_bounds hg
  have hlev : g.contourLevels (polarField g) (.int 1) "sptrapz" = [0] := by
    change (List.range 1).map (Grid.autoLevel (fieldMin (polarField g)) (fieldMax (polarField g)) 1) = [0]
    rw [b1, b2]
    simp only [List.range_one, List.map_cons, List.map_nil, List.cons.injEq, and_true]
    unfold Grid.autoLevel
    rw [Grid.linspace_sym]
    norm_num
  have hz := Grid.zonalizeContours_ok hw (.inr ⟨rfl, le_rfl⟩ : g.OkMethod "sptrapz" g.nlon) (polarField g) (levels := .int 1)
    (by rw [hlev]; simp)
  rw [hlev] at hz
  simp only [List.map_cons, List.map_nil] at hz
  rw [polarField_lat hg hs] at hz
  have s1 := Grid.lat_strictAnti hg (show g.nlat - 2 < g.nlat - 1 by omega)
  have s2 := Grid.lat_strictAnti hg (show 1 < g.nlat - 2 by omega)
  have s3 := Grid.lat_strictAnti hg (show 0 < 1 by omega)
  have m1 := Grid.lat_mem hg (show g.nlat - 1 < g.nlat by omega)
  have m0 := Grid.lat_mem hg (show 0 < g.nlat by omega)
  have hk := meridionalKnots_sorted [(g.lat (g.nlat - 2), (0 : ℝ))] 1 (-1) (by simp) (by
    intro p hp
    obtain rfl := List.mem_singleton.1 hp
    dsimp only
    constructor <;> linarith)
  refine ⟨polarField_rev hg, hz, ?_⟩
  unfold Grid.zonalize
  rw [hz]
  dsimp only
  rw [b1, b2, show List.map Prod.swap [((0 : ℝ), g.lat (g.nlat - 2))] = [(g.lat (g.nlat - 2), 0)] from rfl, hk]
  refine ⟨_, rfl, fun h => ?_⟩
  have h := h ⟨1, by omega⟩
  have er : (⟨1, by omega⟩ : Fin g.nlat).rev.val = g.nlat - 2 := by rw [Fin.val_rev]
  dsimp only at h
  rw [er] at h
  simp only [List.cons_append, List.nil_append] at h
  unfold npInterp at h
  dsimp only at h
  rw [if_pos le_rfl, if_pos s2.le] at h
  unfold npInterp at h
  dsimp only at h
  rw [if_neg (by linarith), if_pos rfl, if_neg (by linarith), if_neg s2.ne] at h
  unfold lerp at h
  have : 0 < (1 - 0) / (90 - g.lat (g.nlat - 2)) * (g.lat 1 - g.lat (g.nlat - 2)) :=
    mul_pos (div_pos (by norm_num) (by linarith)) (by linarith)
  linarith

/-- Non-vacuity of C155: the planetary vorticity of a rotating planet satisfies the conditions and its zonalization is antisymmetric. -/
example : ∃ z, grid30.zonalize (fun j (_ : Fin grid30.nlon) => Real.sin (grid30.phi j)) .none "sptrapz" = .ok z ∧
    ∀ j, z j.rev = -z j := by
  have hp : ∀ j j' : Fin grid30.nlat, j < j' → Real.sin (grid30.phi j') < Real.sin (grid30.phi j) := by
    intro j j' h
    have h1 := Grid.phi_mem grid30_valid j'.isLt
    have h2 := Grid.phi_mem grid30_valid j.isLt
    exact Real.sin_lt_sin_of_lt_of_le_pi_div_two h1.1 h2.2 (Grid.phi_strictAnti grid30_valid h)
  have hn : 0 < grid30.nlon := by rw [grid30_nlon]; norm_num
  obtain ⟨ho, hu⟩ := C155_increasing grid30_valid grid30_spacing hn le_rfl (fun j => Real.sin (grid30.phi j)) hp
    (levels := .none) trivial
  refine (C155_antisymmetric grid30_valid grid30_spacing (.inr rfl) _ (fun j _ => ?_) (levels := .none) trivial ho (fun j => hu _) ?_).1
  · rw [Grid.phi_rev grid30_valid, Real.sin_neg]
  · unfold Grid.FalwaUntied; rw [if_neg (by decide)]; exact fun j => hu _

end Barotropic
