import Verif.Lemmas.PLInterp
import Verif.Lemmas.Interp
import Verif.Lemmas.Zonalize
import Verif.Lemmas.Example
import Mathlib.Logic.Equiv.Fin.Basic

/-!
# C19 – C23: equivalent latitude and zonalization
-/

namespace Barotropic
open Real Set Grid

/-! ## C19 -/

/-- Full property for 1- and 2-dimensional arrays of areas. Missing: numbers (see `C19_number_refuted`). -/
theorem C19_equivalent_latitude_partial (g : Grid ℝ) (hr : 0 < g.rsphere) :
    ∃ E : ℝ → ℝ,
      (∀ n a, g.equivalentLatitude (.d1 n a) = .ok (.d1 n fun k => E (a k))) ∧
      (∀ h w a, g.equivalentLatitude (.d2 h w a) = .ok (.d2 h w fun j i => E (a j i))) ∧
      (∀ lat, -90 ≤ lat → lat ≤ 90 → E (2 * π * g.rsphere ^ 2 * (1 - sin (deg2rad lat))) = lat) ∧
      (∀ a b, a ≤ b → E b ≤ E a) ∧
      (∀ a b, 0 ≤ a → a < b → b ≤ 4 * π * g.rsphere ^ 2 → E b < E a) ∧
      (∀ a, -90 ≤ E a ∧ E a ≤ 90) ∧
      (∀ a, a ≤ 0 → E a = 90) ∧
      (∀ a, 4 * π * g.rsphere ^ 2 ≤ a → E a = -90) := by
  refine ⟨g.eqLat, fun _ _ => rfl, fun _ _ _ => rfl, ?_, fun a b h => eqLat_antitone hr h, ?_, eqLat_mem,
    fun a h => eqLat_nonpos hr h, fun a h => eqLat_full hr h⟩
  · intro lat h0 h1
    have hp := pi_pos
    rw [eqLat_cap hr (φ := deg2rad lat), rad2deg_deg2rad]
    · unfold deg2rad; nlinarith
    · unfold deg2rad; nlinarith
  · intro a b h0 hab hb
    apply lt_of_le_of_ne (eqLat_antitone hr hab.le)
    intro e
    rcases eq_or_lt_of_le h0 with rfl | h0
    · have hb' := eqLat_nonpos (g := g) hr (le_refl (0 : ℝ))
      rcases eq_or_lt_of_le hb with rfl | hb
      · rw [eqLat_full hr le_rfl, hb'] at e; norm_num at e
      · have := (eqLat_interior hr hab hb).2.1
        linarith
    · have ha := eqLat_interior hr h0 (hab.trans_le hb)
      rcases eq_or_lt_of_le hb with rfl | hb
      · rw [eqLat_full hr le_rfl] at e; linarith [ha.1]
      · have hb' := eqLat_interior hr (h0.trans hab) hb
        rw [e, ha.2.2] at hb'
        exact absurd hb'.2.2 hab.ne

/-- The documentation allows a number as the argument, but the code raises a TypeError for every number. -/
theorem C19_number_refuted (g : Grid ℝ) (a : ℝ) : g.equivalentLatitude (.d0 a) = .error .typeError := rfl

/-- Non-vacuity of C19: half of the unit sphere. -/
example : grid30.equivalentLatitude (.d1 1 fun _ => 2 * π) = .ok (.d1 1 fun _ => 0) := by
  obtain ⟨E, h1, _, h2, _⟩ := C19_equivalent_latitude_partial grid30 grid30_valid.rsphere_pos
  rw [h1]
  have := h2 0 (by norm_num) (by norm_num)
  unfold deg2rad grid30 at this
  simp only [zero_mul, sin_zero, sub_zero, one_pow, mul_one] at this
  rw [this]

/-! ## C20 -/

/-- The contours with their equivalent latitudes. -/
theorem C20_contours (g : Grid ℝ) (hg : g.Valid) (m : String) (hm : KnownMethod m) (w : ℕ) (hw0 : 0 < w)
    (hw : w ≤ g.nlon) (f : Fin g.nlat → Fin w → ℝ) (qs : List ℝ) (hqs : qs ≠ []) :
    ∃ out, g.zonalizeContours f (.array qs) m = .ok out ∧ out.map Prod.fst = qs ∧
      (∀ p ∈ out, -90 ≤ p.2 ∧ p.2 ≤ 90) ∧
      (∀ p ∈ out, ∀ p' ∈ out, p.1 ≤ p'.1 → p.2 ≤ p'.2) ∧
      (∀ p ∈ out, (∀ j i, f j i < p.1) → p.2 = 90) ∧
      (g.resolution * g.nlon = 360 → ∀ p ∈ out, (∀ j i, p.1 ≤ f j i) → p.2 = -90) := by
  have hm' : g.OkMethod m w := hm.imp_right fun h => ⟨h, hw⟩
  have hr := hg.rsphere_pos
  refine ⟨_, zonalizeContours_ok hw0.ne' hm' f hqs, ?_, ?_, ?_, ?_, ?_⟩
  · show List.map _ (List.map _ qs) = qs
    rw [List.map_map]
    exact List.map_id qs
  · rintro p hp
    obtain ⟨q, _, rfl⟩ := List.mem_map.1 hp
    exact eqLat_mem _
  · rintro p hp p' hp' h
    obtain ⟨q, _, rfl⟩ := List.mem_map.1 hp
    obtain ⟨q', _, rfl⟩ := List.mem_map.1 hp'
    exact eqLat_antitone hr (contourArea_antitone hg m f h)
  · rintro p hp h
    obtain ⟨q, _, rfl⟩ := List.mem_map.1 hp
    show g.eqLat _ = _
    rw [contourArea_none hg m f h]
    exact eqLat_nonpos hr le_rfl
  · rintro hs p hp h
    obtain ⟨q, _, rfl⟩ := List.mem_map.1 hp
    show g.eqLat _ = _
    rw [contourArea_all hg hw0.ne' m f h, dlam_nlon_eq hg hs]
    apply eqLat_full hr
    linarith

/-- The automatic contours behave the same: they are ordinary contour values, strictly between the extremes of the
field unless it is constant. -/
theorem C20_auto_contours (g : Grid ℝ) (hg : g.Valid) (m : String) (w : ℕ) (hw0 : 0 < w)
    (f : Fin g.nlat → Fin w → ℝ) (levels : Levels) (hl : levels.Auto) :
    ∃ qs, qs ≠ [] ∧ g.zonalizeContours f levels m = g.zonalizeContours f (.array qs) m ∧ qs.Pairwise (· ≤ ·) ∧
      ((∃ j i j' i', f j i ≠ f j' i') → ∀ q ∈ qs, (∃ j i, f j i < q) ∧ (∃ j i, q < f j i)) ∧
      (∀ n : ℤ, levels = .int n → (qs.length : ℤ) = n) ∧
      (levels = .none → qs.length = if m = "boxcount" then 2 * g.nlat else g.nlat) := by
  obtain ⟨n, hn, e⟩ := contourLevels_auto hg f hl m
  have hh : 0 < g.nlat := by have := hg.nlat_ge; omega
  have hlen : (g.contourLevels f levels m).length = n := by rw [e]; simp
  obtain ⟨j0, i0, h0⟩ := fieldMin_attained hh hw0 f
  obtain ⟨j1, i1, h1⟩ := fieldMax_attained hh hw0 f
  have hmm : fieldMin f ≤ fieldMax f := by rw [← h0]; exact le_fieldMax f j0 i0
  refine ⟨g.contourLevels f levels m, ?_, rfl, ?_, ?_, ?_, ?_⟩
  · intro hc
    rw [hc] at hlen
    simp at hlen
    omega
  · rw [e, List.pairwise_map]
    refine List.Pairwise.imp_of_mem ?_ (List.pairwise_lt_range (n := n))
    intro a b ha hb hab
    exact autoLevel_mono hmm hab.le (List.mem_range.1 hb)
  · rintro ⟨j, i, j', i', hne⟩ q hq
    have hlt : fieldMin f < fieldMax f := by
      apply lt_of_le_of_ne hmm
      intro he
      apply hne
      have a1 := fieldMin_le f j i
      have a2 := le_fieldMax f j i
      have a3 := fieldMin_le f j' i'
      have a4 := le_fieldMax f j' i'
      linarith
    rw [e] at hq
    obtain ⟨k, hk, rfl⟩ := List.mem_map.1 hq
    have := autoLevel_mem hlt (List.mem_range.1 hk)
    exact ⟨⟨j0, i0, h0 ▸ this.1⟩, ⟨j1, i1, h1 ▸ this.2⟩⟩
  · rintro k rfl
    have hk : 1 ≤ k := hl
    unfold contourLevels
    simp only [List.length_map, List.length_range]
    omega
  · rintro rfl
    unfold contourLevels
    simp only [List.length_map, List.length_range]
    split_ifs <;> omega

/-- Non-vacuity of C20. -/
example : ∃ out, grid30.zonalizeContours (w := 1) (fun _ _ => 0) (.array [-1, 1]) "boxcount" = .ok out ∧
    out = [(-1, -90), (1, 90)] := by
  obtain ⟨out, h1, h2, _, _, h3, h4⟩ := C20_contours grid30 grid30_valid "boxcount" (.inl rfl) 1 one_pos
    (by rw [grid30_nlon]; norm_num) (fun _ _ => 0) [-1, 1] (by simp)
  refine ⟨out, h1, ?_⟩
  match out, h2, h3, h4 with
  | [a, b], h2, h3, h4 =>
    simp only [List.map_cons, List.map_nil, List.cons.injEq, and_true] at h2
    have e1 := h4 grid30_spacing a (by simp) (by intro _ _; rw [h2.1]; norm_num)
    have e2 := h3 b (by simp) (by intro _ _; rw [h2.2]; norm_num)
    rw [← e1, ← h2.1, ← h2.2]
    simp [← e2]
  | [], h2, _, _ => simp at h2
  | [_], h2, _, _ => simp at h2
  | _ :: _ :: _ :: _, h2, _, _ => simp at h2

/-! ## C21 -/

/-- The interpolated profile of any non-empty field with automatically chosen contours. -/
theorem C21_profile (g : Grid ℝ) (hg : g.Valid) (m : String) (hm : KnownMethod m) (w : ℕ) (hw0 : 0 < w)
    (hw : w ≤ g.nlon) (f : Fin g.nlat → Fin w → ℝ) (levels : Levels) (hl : levels.Auto) :
    ∃ (R : Fin g.nlat → ℝ) (lo hi : ℝ), g.zonalize f levels m = .ok R ∧
      ((∃ j i, f j i = lo) ∧ ∀ j i, lo ≤ f j i) ∧ ((∃ j i, f j i = hi) ∧ ∀ j i, f j i ≤ hi) ∧
      (∀ j j', j ≤ j' → R j' ≤ R j) ∧ (∀ j, lo ≤ R j ∧ R j ≤ hi) ∧
      (∀ j : Fin g.nlat, (j : ℕ) = 0 → R j = hi) ∧ (∀ j : Fin g.nlat, (j : ℕ) + 1 = g.nlat → R j = lo) := by
  have hm' : g.OkMethod m w := hm.imp_right fun h => ⟨h, hw⟩
  have hr := hg.rsphere_pos
  have hh : 0 < g.nlat := by have := hg.nlat_ge; omega
  obtain ⟨n, hn, e⟩ := contourLevels_auto hg f hl m
  have hne : g.contourLevels f levels m ≠ [] := by
    rw [e]; intro hc; have := congrArg List.length hc; simp at this; omega
  obtain ⟨j0, i0, h0⟩ := fieldMin_attained hh hw0 f
  obtain ⟨j1, i1, h1⟩ := fieldMax_attained hh hw0 f
  have hmm : fieldMin f ≤ fieldMax f := by rw [← h0]; exact le_fieldMax f j0 i0
  have hlat : ∀ j : Fin g.nlat, -90 ≤ g.lat j ∧ g.lat j ≤ 90 := fun j => g.lat_mem hg j.2
  have hout := zonalizeContours_ok hw0.ne' hm' f hne
  set out := (g.contourLevels f levels m).map fun q => (q, g.eqLat (g.contourArea m f q)) with hout'
  rcases eq_or_lt_of_le hmm with hc | hlt
  · -- constant field: every knot has the same value
    have hval : ∀ p ∈ meridionalKnots (out.map Prod.swap) (fieldMax f) (fieldMin f), p.2 = fieldMax f := by
      intro p hp
      have hp := (sortKnots_perm _).mem_iff.1 hp
      simp only [List.mem_append, List.mem_cons, List.mem_map, List.not_mem_nil, or_false] at hp
      rcases hp with (rfl | ⟨p', hp', rfl⟩) | rfl
      · rfl
      · rw [hout', e] at hp'
        obtain ⟨q, hq, rfl⟩ := List.mem_map.1 hp'
        obtain ⟨k, _, rfl⟩ := List.mem_map.1 hq
        show autoLevel _ _ _ _ = _
        unfold autoLevel
        rw [hc]; ring
      · exact hc
    have hmem : (-90, fieldMin f) ∈ meridionalKnots (out.map Prod.swap) (fieldMax f) (fieldMin f) :=
      (sortKnots_perm _).mem_iff.2 (by simp)
    have hsort : (meridionalKnots (out.map Prod.swap) (fieldMax f) (fieldMin f)).Pairwise fun p q => p.1 ≤ q.1 :=
      sortKnots_pairwise _
    match hk : meridionalKnots (out.map Prod.swap) (fieldMax f) (fieldMin f) with
    | [] => rw [hk] at hmem; simp at hmem
    | a :: l =>
      rw [hk] at hval hmem hsort
      have ha : ∀ j : Fin g.nlat, a.1 ≤ g.lat j := by
        intro j
        refine le_trans ?_ (hlat j).1
        rcases List.mem_cons.1 hmem with h | h
        · rw [← h]
        · exact (List.pairwise_cons.1 hsort).1 _ h
      have hR : ∀ j : Fin g.nlat, npInterp lerp a l (g.lat j) = fieldMax f := fun j =>
        le_antisymm (npInterp_le a l (ha j) fun p hp => (hval p hp).le)
          (npInterp_ge a l (ha j) fun p hp => (hval p hp).ge)
      refine ⟨fun j => npInterp lerp a l (g.lat j), fieldMin f, fieldMax f, ?_, ⟨⟨j0, i0, h0⟩, fieldMin_le f⟩,
        ⟨⟨j1, i1, h1⟩, le_fieldMax f⟩, ?_, ?_, ?_, ?_⟩
      · unfold zonalize
        rw [hout]
        dsimp only
        rw [hk]
      · intro j j' _; dsimp only; rw [hR, hR]
      · intro j; dsimp only; rw [hR]; exact ⟨hmm, le_rfl⟩
      · intro j _; exact hR j
      · intro j _; dsimp only; rw [hR, hc]
  · have hq : ∀ q ∈ g.contourLevels f levels m, fieldMin f < q ∧ q < fieldMax f := by
      intro q hq
      rw [e] at hq
      obtain ⟨k, hk, rfl⟩ := List.mem_map.1 hq
      exact autoLevel_mem hlt (List.mem_range.1 hk)
    have hqs : (g.contourLevels f levels m).Pairwise (· ≤ ·) := by
      rw [e, List.pairwise_map]
      refine List.Pairwise.imp_of_mem ?_ (List.pairwise_lt_range (n := n))
      intro a b ha hb hab
      exact autoLevel_mono hmm hab.le (List.mem_range.1 hb)
    have hk : meridionalKnots (out.map Prod.swap) (fieldMax f) (fieldMin f)
        = (-90, fieldMin f) :: (out.map Prod.swap ++ [(90, fieldMax f)]) := by
      apply meridionalKnots_sorted
      · rw [hout', List.map_map, List.pairwise_map]
        exact hqs.imp fun h => eqLat_antitone hr (contourArea_antitone hg m f h)
      · intro p hp
        rw [hout', List.map_map] at hp
        obtain ⟨q, hq', rfl⟩ := List.mem_map.1 hp
        have := eqLat_interior hr (contourArea_pos hg m f ⟨j1, i1, h1 ▸ (hq q hq').2⟩)
          (contourArea_lt hg m f ⟨j0, i0, h0 ▸ (hq q hq').1⟩)
        exact ⟨this.1, this.2.1⟩
    have hvals : ∀ p ∈ ((-90 : ℝ), fieldMin f) :: (out.map Prod.swap ++ [(90, fieldMax f)]),
        fieldMin f ≤ p.2 ∧ p.2 ≤ fieldMax f := by
      intro p hp
      simp only [List.mem_append, List.mem_cons, List.mem_map, List.not_mem_nil, or_false] at hp
      rcases hp with rfl | ⟨p', hp', rfl⟩ | rfl
      · exact ⟨le_rfl, hmm⟩
      · rw [hout'] at hp'
        obtain ⟨q, hq', rfl⟩ := List.mem_map.1 hp'
        exact ⟨(hq q hq').1.le, (hq q hq').2.le⟩
      · exact ⟨hmm, le_rfl⟩
    have hmono : (((-90 : ℝ), fieldMin f) :: (out.map Prod.swap ++ [(90, fieldMax f)])).Pairwise fun p q => p.2 ≤ q.2 := by
      rw [List.pairwise_cons]
      refine ⟨fun p hp => (hvals p (List.mem_cons_of_mem _ hp)).1, ?_⟩
      rw [List.pairwise_append]
      refine ⟨?_, by simp, ?_⟩
      · rw [hout', List.map_map, List.pairwise_map]
        exact hqs
      · intro p hp p' hp'
        rw [List.mem_singleton.1 hp']
        exact (hvals p (by simp only [List.mem_cons, List.mem_append]; exact .inr (.inl hp))).2
    refine ⟨fun j => npInterp lerp (-90, fieldMin f) (out.map Prod.swap ++ [(90, fieldMax f)]) (g.lat j),
      fieldMin f, fieldMax f, ?_, ⟨⟨j0, i0, h0⟩, fieldMin_le f⟩, ⟨⟨j1, i1, h1⟩, le_fieldMax f⟩, ?_, ?_, ?_, ?_⟩
    · unfold zonalize
      rw [hout]
      dsimp only
      rw [hk]
    · intro j j' hjj
      refine npInterp_mono _ _ hmono (hlat j').1 ?_
      rcases eq_or_lt_of_le hjj with rfl | h
      · exact le_rfl
      · exact (g.lat_strictAnti hg h).le
    · intro j
      exact ⟨npInterp_ge _ _ (hlat j).1 fun p hp => (hvals p hp).1, npInterp_le _ _ (hlat j).1 fun p hp => (hvals p hp).2⟩
    · intro j hj
      have : g.lat j = 90 := by rw [hj]; rw [lat_eq hg]; simp
      dsimp only
      rw [npInterp_last]
      · simp
      · intro p hp
        rw [this]
        simp only [List.mem_append, List.mem_cons, List.mem_map, List.not_mem_nil, or_false] at hp
        rcases hp with ⟨p', hp', rfl⟩ | rfl
        · rw [hout'] at hp'
          obtain ⟨q, _, rfl⟩ := List.mem_map.1 hp'
          exact (eqLat_mem _).2
        · exact le_rfl
    · intro j hj
      have : g.lat j = -90 := by
        have := g.lat_last hg
        rwa [show g.nlat - 1 = (j : ℕ) by omega] at this
      dsimp only
      rw [this]
      have hb : ∀ p ∈ out.map Prod.swap ++ [(90, fieldMax f)], -90 < p.1 := by
        intro p hp
        simp only [List.mem_append, List.mem_cons, List.mem_map, List.not_mem_nil, or_false] at hp
        rcases hp with ⟨p', hp', rfl⟩ | rfl
        · rw [hout'] at hp'
          obtain ⟨q, hq', rfl⟩ := List.mem_map.1 hp'
          exact (eqLat_interior hr (contourArea_pos hg m f ⟨j1, i1, h1 ▸ (hq q hq').2⟩)
            (contourArea_lt hg m f ⟨j0, i0, h0 ▸ (hq q hq').1⟩)).1
        · norm_num
      match hl : out.map Prod.swap ++ [(90, fieldMax f)] with
      | [] => simp at hl
      | b :: l =>
        unfold npInterp
        rw [if_neg (not_le.2 (hb b (by rw [hl]; simp))), if_pos rfl]

/-- Non-vacuity of C21. -/
example : grid30.Valid ∧ KnownMethod "sptrapz" ∧ 5 ≤ grid30.nlon ∧ Levels.Auto (.int 4) :=
  ⟨grid30_valid, .inr rfl, by rw [grid30_nlon]; norm_num, by show (1 : ℤ) ≤ 4; norm_num⟩

/-! ## C22 -/

theorem contourLevels_values {g : Grid ℝ} {w w' : ℕ} {f : Fin g.nlat → Fin w → ℝ} {f' : Fin g.nlat → Fin w' → ℝ}
    (h : Set.range (fun p : Fin g.nlat × Fin w => f p.1 p.2) = Set.range (fun p : Fin g.nlat × Fin w' => f' p.1 p.2))
    : fieldMin f = fieldMin f' ∧ fieldMax f = fieldMax f' ∧
      ∀ levels m, g.contourLevels f levels m = g.contourLevels f' levels m := by
  have h1 : fieldMin f = fieldMin f' := by unfold fieldMin iInf; rw [h]
  have h2 : fieldMax f = fieldMax f' := by unfold fieldMax iSup; rw [h]
  refine ⟨h1, h2, fun levels m => ?_⟩
  unfold contourLevels
  rw [h1, h2]

/-- A permutation of the longitudes (columns) of the field changes neither the contours nor the interpolated profile, nor an error. -/
theorem C22_permutation (g : Grid ℝ) (w : ℕ) (f : Fin g.nlat → Fin w → ℝ) (σ : Equiv.Perm (Fin w)) (levels : Levels)
    (m : String) :
    g.zonalizeContours (fun j i => f j (σ i)) levels m = g.zonalizeContours f levels m ∧
    g.zonalize (fun j i => f j (σ i)) levels m = g.zonalize f levels m := by
  have hrange : Set.range (fun p : Fin g.nlat × Fin w => f p.1 (σ p.2))
      = Set.range (fun p : Fin g.nlat × Fin w => f p.1 p.2) := by
    ext y
    constructor
    · rintro ⟨p, rfl⟩; exact ⟨(p.1, σ p.2), rfl⟩
    · rintro ⟨p, rfl⟩; exact ⟨(p.1, σ.symm p.2), by simp⟩
  obtain ⟨h1, h2, h3⟩ := contourLevels_values (f := fun j i => f j (σ i)) hrange
  have hq : ∀ q, g.quadCore (fun _ _ => 1) (some fun j (i : Fin w) => f j (σ i) - q) m
      = g.quadCore (fun _ _ => 1) (some fun j i => f j i - q) m := by
    intro q
    by_cases hm : g.OkMethod m w
    · rw [quadCore_ok hm, quadCore_ok hm]
      congr 2
      exact Equiv.sum_comp σ fun i => g.colQuad m (fun _ => 1) fun j => f j i - q
    · unfold quadCore quadMeridionalCore
      dsimp only
      have a1 : m ≠ "boxcount" := fun h => hm (.inl h)
      rw [if_neg a1, if_neg a1]
      by_cases hs : m = "sptrapz"
      · have a2 : ¬ w ≤ g.nlon := fun h => hm (.inr ⟨hs, h⟩)
        simp only [hs, if_true, not_le.1 a2]
      · rw [if_neg hs, if_neg hs]
  have key : g.zonalizeContours (fun j i => f j (σ i)) levels m = g.zonalizeContours f levels m := by
    unfold zonalizeContours
    rw [h3]
    simp only [hq]
  refine ⟨key, ?_⟩
  unfold zonalize
  rw [key, h1, h2]

/-- Repeating a sector `k` times side by side changes nothing. -/
theorem C22_duplication (g : Grid ℝ) (m : String) (hm : KnownMethod m) (w k : ℕ) (hk : 0 < k) (hw : k * w ≤ g.nlon)
    (f : Fin g.nlat → Fin w → ℝ) (levels : Levels) :
    g.zonalizeContours (w := k * w) (fun j i => f j i.modNat) levels m = g.zonalizeContours f levels m ∧
    g.zonalize (w := k * w) (fun j i => f j i.modNat) levels m = g.zonalize f levels m := by
  have hm1 : g.OkMethod m (k * w) := hm.imp_right fun h => ⟨h, hw⟩
  have hm2 : g.OkMethod m w := hm.imp_right fun h => ⟨h, (Nat.le_mul_of_pos_left w hk).trans hw⟩
  have hsurj : ∀ i : Fin w, ∃ i' : Fin (k * w), i'.modNat = i := by
    intro i
    refine ⟨finProdFinEquiv (⟨0, hk⟩, i), ?_⟩
    have := congrArg Prod.snd (finProdFinEquiv.symm_apply_apply ((⟨0, hk⟩, i) : Fin k × Fin w))
    exact this
  have hrange : Set.range (fun p : Fin g.nlat × Fin (k * w) => f p.1 p.2.modNat)
      = Set.range (fun p : Fin g.nlat × Fin w => f p.1 p.2) := by
    ext y
    constructor
    · rintro ⟨p, rfl⟩; exact ⟨(p.1, p.2.modNat), rfl⟩
    · rintro ⟨p, rfl⟩
      obtain ⟨i', hi'⟩ := hsurj p.2
      exact ⟨(p.1, i'), by simp only [hi']⟩
  obtain ⟨h1, h2, h3⟩ := contourLevels_values (f := fun j (i : Fin (k * w)) => f j i.modNat) hrange
  have key : g.zonalizeContours (w := k * w) (fun j i => f j i.modNat) levels m = g.zonalizeContours f levels m := by
    unfold zonalizeContours
    rw [h3]
    rcases Nat.eq_zero_or_pos w with rfl | hw0
    · simp
    · rw [if_neg (by positivity), if_neg hw0.ne']
      congr 2
      funext q
      rw [quadCore_ok hm1, quadCore_ok hm2]
      dsimp only [Option.getD]
      congr 3
      have hsum : ∑ i : Fin (k * w), g.colQuad m (fun _ => 1) (fun j => f j i.modNat - q)
          = k * ∑ i : Fin w, g.colQuad m (fun _ => 1) (fun j => f j i - q) := by
        rw [← finProdFinEquiv.sum_comp, Fintype.sum_prod_type]
        have : ∀ (a : Fin k) (b : Fin w), (finProdFinEquiv (a, b)).modNat = b := by
          intro a b
          have := congrArg Prod.snd (finProdFinEquiv.symm_apply_apply ((a, b) : Fin k × Fin w))
          exact this
        simp only [this, Finset.sum_const, Finset.card_univ, Fintype.card_fin, nsmul_eq_mul]
      rw [hsum]
      push_cast
      have a1 : (k : ℝ) ≠ 0 := by exact_mod_cast hk.ne'
      have a2 : (w : ℝ) ≠ 0 := by exact_mod_cast hw0.ne'
      field_simp
  refine ⟨key, ?_⟩
  unfold zonalize
  rw [key, h1, h2]

/-- Non-vacuity of C22: a third of the globe three times on a 30° grid. -/
example : KnownMethod "sptrapz" ∧ 3 * 4 ≤ grid30.nlon := ⟨.inr rfl, by rw [grid30_nlon]⟩

/-! ## C23 -/

/-- For a strictly decreasing, zonally symmetric profile the equivalent latitude of every contour is where the linearly
interpolated profile `P` takes the contour value. -/
theorem C23_symmetric (g : Grid ℝ) (hg : g.Valid) (hs : g.resolution * g.nlon = 360) (w : ℕ) (hw0 : 0 < w)
    (hw : w ≤ g.nlon) (p : Fin g.nlat → ℝ) (hp : ∀ j j', j < j' → p j' < p j) (P : ℝ → ℝ) (hP : IsPLInterp g.phi p P)
    (levels : Levels) (hl : levels ≠ .array [] ∧ ∀ n, levels = .int n → 1 ≤ n) :
    ∃ out, g.zonalizeContours (w := w) (fun j _ => p j) levels "sptrapz" = .ok out ∧ out ≠ [] ∧
      (∀ qs, levels = .array qs → out.map Prod.fst = qs) ∧
      ∀ c ∈ out, ∀ φ ∈ Icc (-(π / 2)) (π / 2), P φ = c.1 → c.2 = rad2deg φ := by
  have hm' : g.OkMethod "sptrapz" w := .inr ⟨rfl, hw⟩
  have hr := hg.rsphere_pos
  have hne : g.contourLevels (fun j (_ : Fin w) => p j) levels "sptrapz" ≠ [] := by
    intro hc
    cases levels with
    | array qs => exact hl.1 (by rw [show qs = [] from hc])
    | none =>
      obtain ⟨n, hn, e⟩ := contourLevels_auto hg (fun j (_ : Fin w) => p j) (levels := .none) trivial "sptrapz"
      rw [hc] at e; have := congrArg List.length e; simp at this; omega
    | int k =>
      obtain ⟨n, hn, e⟩ := contourLevels_auto hg (fun j (_ : Fin w) => p j) (levels := .int k) (hl.2 k rfl) "sptrapz"
      rw [hc] at e; have := congrArg List.length e; simp at this; omega
  refine ⟨_, zonalizeContours_ok hw0.ne' hm' _ hne, by simpa using hne, ?_, ?_⟩
  · rintro qs rfl
    rw [List.map_map]
    exact List.map_id qs
  · rintro c hc φ hφ hPφ
    obtain ⟨q, _, rfl⟩ := List.mem_map.1 hc
    dsimp only at hPφ ⊢
    have hn := hg.nlat_ge
    obtain ⟨k, hk, hk1, hk2⟩ := exists_segment (x := g.phi) (n := g.nlat - 1) (by omega) (φ := φ)
      (by rw [phi_zero hg]; exact hφ.2) (by rw [phi_last hg]; exact hφ.1)
    have haff := interp_aff hP (show k + 1 < g.nlat by omega) (phi_seg hg k hk) ⟨hk1, hk2⟩
    have harea : g.contourArea "sptrapz" (fun j (_ : Fin w) => p j) q = 2 * π * g.rsphere ^ 2 * (1 - sin φ) := by
      have hcol : g.colQuad "sptrapz" (fun _ => 1) (fun j => p j - q) = g.rsphere * (1 - sin φ) := by
        rw [← sptrapzCol_north hg hφ.1 hφ.2]
        unfold colQuad
        rw [if_neg (by decide)]
        have e1 : ∀ j ≤ g.nlat - 1, (col fun _ : Fin g.nlat => (1 : ℝ)) j = 1 := by
          intro j hj
          rw [col_of_lt _ (by omega)]
        rw [sptrapzCol_congr (u := fun _ => 1) (v := fun j => col p j - q) _ _ e1 (by
          intro j hj
          rw [col_of_lt _ (by omega), col_of_lt _ (by omega)])]
        apply sptrapzCol_domain (phi_seg hg)
        intro j hj ψ hψ
        rw [above_iff_north (phi_seg hg) (p := col p) (by
            intro j hj
            rw [col_of_lt _ (show j < g.nlat by omega), col_of_lt _ (show j + 1 < g.nlat by omega)]
            exact hp _ _ (by simp)) hk ⟨hk1, hk2⟩ (by
            rw [col_of_lt _ (show k < g.nlat by omega), col_of_lt _ (show k + 1 < g.nlat by omega), ← haff, hPφ]) hj hψ,
          aff_id (phi_seg hg j hj), sub_nonneg]
      unfold contourArea
      rw [Finset.sum_congr rfl fun i _ => hcol]
      simp only [Finset.sum_const, Finset.card_univ, Fintype.card_fin, nsmul_eq_mul]
      have hd := dlam_nlon_eq hg hs
      have hw' : (w : ℝ) ≠ 0 := by exact_mod_cast hw0.ne'
      have : g.rsphere * g.dlam * (w * (g.rsphere * (1 - sin φ))) * (g.nlon / w)
          = g.rsphere ^ 2 * (g.dlam * g.nlon) * (1 - sin φ) := by field_simp
      rw [this, hd]; ring
    rw [harea, eqLat_cap hr hφ.1 hφ.2]

/-- Non-vacuity of C23: the profile `-j` on the 30° grid, its interpolant, and the value in the middle. -/
example : ∃ P, IsPLInterp grid30.phi (fun j : Fin grid30.nlat => -((j : ℕ) : ℝ)) P ∧ grid30.resolution * grid30.nlon = 360 ∧
    (∀ j j' : Fin grid30.nlat, j < j' → -((j' : ℕ) : ℝ) < -((j : ℕ) : ℝ)) := by
  obtain ⟨P, hP⟩ := interp_exists grid30_valid fun j => -((j : ℕ) : ℝ)
  refine ⟨P, hP, grid30_spacing, fun j j' h => ?_⟩
  have : ((j : ℕ) : ℝ) < ((j' : ℕ) : ℝ) := by exact_mod_cast h
  linarith

end Barotropic
