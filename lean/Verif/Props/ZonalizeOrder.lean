import Verif.Lemmas.StableKnots
import Verif.Props.Zonalize
import Verif.Props.Waveguide

/-!
# C161: zonalization preserves the order of fields
-/

namespace Barotropic
open Real Grid
variable {g : Grid ℝ} {w : ℕ} {m : String}

theorem contourArea_order (hg : g.Valid) (m : String) {f f' : Fin g.nlat → Fin w → ℝ} (h : ∀ j i, f j i ≤ f' j i) (q : ℝ) : g.contourArea m f q ≤ g.contourArea m f' q := by
  have hr := hg.rsphere_pos
  have hd := dlam_pos hg
  unfold contourArea
  refine mul_le_mul_of_nonneg_right (mul_le_mul_of_nonneg_left (Finset.sum_le_sum fun i _ => ?_) (by positivity)) (by positivity)
  exact colQuad_mono hg m (fun _ => zero_le_one) fun j => by linarith [h j i]

theorem contourArea_shift (m : String) (f : Fin g.nlat → Fin w → ℝ) (q c : ℝ) : g.contourArea m (fun j i => f j i + c) (q + c) = g.contourArea m f q := by
  unfold contourArea
  simp only [add_sub_add_right_eq_sub]

/-- C161: if the values of two fields differ by at most `c`, then the equivalent latitude of each contour in one field lies between those of the contours
`q - c` and `q + c` in the other. -/
theorem C161_contours (hg : g.Valid) (hm : KnownMethod m) (hw0 : 0 < w) (hw : w ≤ g.nlon) {f f' : Fin g.nlat → Fin w → ℝ} {c : ℝ} (h : ∀ j i, |f' j i - f j i| ≤ c) (q : ℝ) :
    ∃ a b y, g.zonalizeContours f (.array [q - c, q + c]) m = .ok [(q - c, a), (q + c, b)] ∧ g.zonalizeContours f' (.array [q]) m = .ok [(q, y)] ∧ a ≤ y ∧ y ≤ b := by
  have hm' : g.OkMethod m w := hm.imp_right fun h => ⟨h, hw⟩
  refine ⟨_, _, _, zonalizeContours_ok hw0.ne' hm' f (by simp [contourLevels]), zonalizeContours_ok hw0.ne' hm' f' (by simp [contourLevels]),
    eqLat_antitone hg.rsphere_pos ?_, eqLat_antitone hg.rsphere_pos ?_⟩
  · rw [← contourArea_shift m f (q - c) c, sub_add_cancel]
    exact contourArea_order hg m (fun j i => by linarith [(abs_le.1 (h j i)).2]) q
  · rw [← contourArea_shift m f' q c]
    exact contourArea_order hg m (fun j i => by linarith [(abs_le.1 (h j i)).1]) _

theorem eqLat_lt_of_pos (hr : 0 < g.rsphere) {a : ℝ} (h : 0 < a) : g.eqLat a < 90 := by
  rcases lt_or_ge a (4 * π * g.rsphere ^ 2) with h1 | h1
  · exact (eqLat_interior hr h h1).2.1
  · rw [eqLat_full hr h1]; norm_num

theorem lt_eqLat_of_lt (hr : 0 < g.rsphere) {a : ℝ} (h : a < 4 * π * g.rsphere ^ 2) : -90 < g.eqLat a := by
  rcases lt_or_ge 0 a with h1 | h1
  · exact (eqLat_interior hr h1 h).1
  · rw [eqLat_nonpos hr h1]; norm_num

/-- Profiles with given contours -/
theorem zonalize_given (hg : g.Valid) (hres : g.resolution * g.nlon = 360) (hm : KnownMethod m) (hw0 : 0 < w) (hw : w ≤ g.nlon) (f : Fin g.nlat → Fin w → ℝ) {L : List ℝ} (hL : L ≠ [])
    (hs : L.Pairwise (· ≤ ·)) : ∃ R K, g.zonalize f (.array L) m = .ok R ∧ ProfileKnots L (fun q => g.eqLat (g.contourArea m f q)) (fieldMin f) (fieldMax f) K ∧
      (∀ j : Fin g.nlat, g.lat j < 90 → Bracketed K (g.lat j) (R j)) ∧
      ∀ j : Fin g.nlat, g.lat j = 90 → (R j = fieldMax f ∧ ∀ q ∈ L, g.eqLat (g.contourArea m f q) ≠ 90) ∨
        R j ∈ L ∧ g.eqLat (g.contourArea m f (R j)) = 90 ∧ ∀ q ∈ L, q ≤ R j := by
  have hm' : g.OkMethod m w := hm.imp_right fun h => ⟨h, hw⟩
  have hr := hg.rsphere_pos
  have hh : 0 < g.nlat := by have := hg.nlat_ge; omega
  obtain ⟨j0, i0, h0⟩ := fieldMin_attained hh hw0 f
  obtain ⟨j1, i1, h1⟩ := fieldMax_attained hh hw0 f
  have hmm : fieldMin f ≤ fieldMax f := by rw [← h0]; exact le_fieldMax f j0 i0
  have hlat : ∀ j : Fin g.nlat, -90 ≤ g.lat j ∧ g.lat j ≤ 90 := fun j => g.lat_mem hg j.2
  obtain ⟨y, hy⟩ : ∃ y : ℝ → ℝ, y = fun q => g.eqLat (g.contourArea m f q) := ⟨_, rfl⟩
  have hymono : ∀ q q', q ≤ q' → y q ≤ y q' := fun q q' h => by
    rw [hy]
    exact eqLat_antitone hr (contourArea_antitone hg m f h)
  have hrange : ∀ q, -90 ≤ y q ∧ y q ≤ 90 := fun q => by rw [hy]; exact eqLat_mem _
  have hlow : ∀ q, -90 < y q → fieldMin f ≤ q := fun q h => by
    by_contra hc
    refine absurd ?_ h.ne'
    rw [hy]
    dsimp only
    rw [contourArea_all hg hw0.ne' m f fun j i => (not_le.1 hc).le.trans (fieldMin_le f j i), dlam_nlon_eq hg hres]
    exact eqLat_full hr (by linarith)
  have hhigh : ∀ q, y q < 90 → q ≤ fieldMax f := fun q h => by
    by_contra hc
    refine absurd ?_ h.ne
    rw [hy]
    dsimp only
    rw [contourArea_none hg m f fun j i => lt_of_le_of_lt (le_fieldMax f j i) (not_le.1 hc)]
    exact eqLat_nonpos hr le_rfl
  obtain ⟨ks, hks⟩ : ∃ ks, ks = L.map fun q => (y q, q) := ⟨_, rfl⟩
  have hkmem : ∀ k, k ∈ ks ↔ ∃ q ∈ L, k = (y q, q) := fun k => by
    rw [hks, List.mem_map]
    exact ⟨fun ⟨q, h, e⟩ => ⟨q, h, e.symm⟩, fun ⟨q, h, e⟩ => ⟨q, h, e.symm⟩⟩
  have hsort : ks.Pairwise fun p q => p.1 ≤ q.1 ∧ p.2 ≤ q.2 := by
    rw [hks, List.pairwise_map]
    exact hs.imp fun h => ⟨hymono _ _ h, h⟩
  obtain ⟨A, C, hA, hC, hsplit⟩ := split_poles ks (hsort.imp fun h => h.1) fun p hp => by
    obtain ⟨q, -, rfl⟩ := (hkmem p).1 hp
    exact hrange q
  obtain ⟨B, hBdef⟩ : ∃ B, B = ks.filter fun p => decide (-90 < p.1 ∧ p.1 < 90) := ⟨_, rfl⟩
  rw [← hBdef] at hsplit
  have hBmem : ∀ k, k ∈ B ↔ ∃ q ∈ L, k = (y q, q) ∧ -90 < y q ∧ y q < 90 := fun k => by
    rw [hBdef, List.mem_filter, hkmem]
    constructor
    · rintro ⟨⟨q, hq, rfl⟩, h⟩
      exact ⟨q, hq, rfl, by simpa using h⟩
    · rintro ⟨q, hq, rfl, h⟩
      exact ⟨⟨q, hq, rfl⟩, by simpa using h⟩
  have hBin : ∀ p ∈ B, -90 < p.1 ∧ p.1 < 90 := fun p hp => by
    obtain ⟨q, -, rfl, h⟩ := (hBmem p).1 hp
    exact h
  have hBsort : B.Pairwise fun p q => p.1 ≤ q.1 ∧ p.2 ≤ q.2 := by rw [hBdef]; exact hsort.filter _
  have hknots := meridionalKnots_poles (fieldMax f) (fieldMin f) A B C hA hBin hC (hBsort.imp fun h => h.1)
  have hKs : ((-90, fieldMin f) :: (B ++ [(90, fieldMax f)])).Pairwise fun p q : ℝ × ℝ => p.1 ≤ q.1 ∧ p.2 ≤ q.2 := by
    rw [List.pairwise_cons, List.pairwise_append]
    refine ⟨fun p hp => ?_, hBsort, by simp, fun p hp q hq => ?_⟩
    · rcases List.mem_append.1 hp with hp | hp
      · obtain ⟨q, -, rfl, h, -⟩ := (hBmem p).1 hp
        exact ⟨h.le, hlow q h⟩
      · rw [List.mem_singleton.1 hp]
        exact ⟨by norm_num, hmm⟩
    · rw [List.mem_singleton.1 hq]
      obtain ⟨q, -, rfl, -, h⟩ := (hBmem p).1 hp
      exact ⟨h.le, hhigh q h⟩
  -- the list of knots begins with some knot at the south pole
  obtain ⟨a, l, hal⟩ : ∃ a l, A ++ (-90, fieldMin f) :: (B ++ (90, fieldMax f) :: C) = a :: l := by
    cases A with
    | nil => exact ⟨_, _, rfl⟩
    | cons a A => exact ⟨_, _, rfl⟩
  have hzon : g.zonalize f (.array L) m = .ok fun j => npInterp lerp a l (g.lat j) := by
    unfold zonalize
    rw [zonalizeContours_ok hw0.ne' hm' f (show g.contourLevels f (.array L) m ≠ [] from hL)]
    have e : ((g.contourLevels f (.array L) m).map fun q => (q, g.eqLat (g.contourArea m f q))).map Prod.swap = A ++ B ++ C := by
      rw [← hsplit, hks, hy, List.map_map]
      rfl
    dsimp only
    rw [e, hknots, hal]
  have hskip : ∀ x, -90 ≤ x → npInterp lerp a l x = npInterp lerp (-90, fieldMin f) (B ++ (90, fieldMax f) :: C) x := fun x hx => by
    cases A with
    | nil =>
      simp only [List.nil_append, List.cons.injEq] at hal
      rw [← hal.1, ← hal.2]
    | cons b A =>
      simp only [List.cons_append, List.cons.injEq] at hal
      rw [← hal.1, ← hal.2]
      exact npInterp_skip _ _ _ _ _ (fun p hp => by rw [hA p (by simp [hp])]; exact hx) hx
  refine ⟨_, (-90, fieldMin f) :: (B ++ [(90, fieldMax f)]), hzon, fun k => ?_, fun j hj => ?_, fun j hj => ?_⟩
  · rw [List.mem_cons, List.mem_append, List.mem_singleton, hBmem, hy]
    exact or_congr_right or_comm
  · rw [hskip _ (hlat j).1, npInterp_cut _ _ _ _ _ hj]
    exact npInterp_bracketed _ _ (hlat j).1 ⟨(90, fieldMax f), by simp, hj⟩ hKs
  · rw [hskip _ (hlat j).1, hj, npInterp_skip _ _ _ _ _ (fun p hp => (hBin p hp).2.le) le_rfl]
    have hCmem : ∀ q ∈ L, y q = 90 → (y q, q) ∈ C := fun q hq h => by
      have e : (y q, q) ∈ ks := (hkmem _).2 ⟨q, hq, rfl⟩
      rw [hsplit, List.mem_append, List.mem_append] at e
      rcases e with (e | e) | e
      · have := hA _ e
        simp only at this
        linarith
      · have := (hBin _ e).2
        simp only at this
        linarith
      · exact e
    have hCL : ∀ p ∈ C, ∃ q ∈ L, p = (y q, q) := fun p hp => (hkmem p).1 (by rw [hsplit]; simp [hp])
    rw [npInterp_last _ _ _ _ fun p hp => (hC p hp).le]
    rcases List.eq_nil_or_concat C with rfl | ⟨C', c, rfl⟩
    · refine .inl ⟨rfl, fun q hq h => ?_⟩
      have := hCmem q hq (by rw [hy]; exact h)
      simp at this
    · right
      simp only [List.concat_eq_append] at *
      obtain ⟨q, hq, rfl⟩ := hCL c (by simp)
      have hq90 : y q = 90 := hC (y q, q) (by simp)
      have e : (((90 : ℝ), fieldMax f) :: (C' ++ [(y q, q)])).getLast (by simp) = (y q, q) := by
        simp
      rw [e]
      refine ⟨hq, by rw [hy] at hq90; exact hq90, fun q' hq' => ?_⟩
      have hmem : (y q', q') ∈ A ++ B ++ C' ∨ (y q', q') = (y q, q) := by
        have e2 : (y q', q') ∈ ks := (hkmem _).2 ⟨q', hq', rfl⟩
        rw [hsplit] at e2
        simpa [or_assoc] using e2
      rcases hmem with h | h
      · rw [hsplit, ← List.append_assoc, List.pairwise_append] at hsort
        exact (hsort.2.2 _ h (y q, q) (by simp)).2
      · exact (Prod.ext_iff.1 h).2.le

/-- C161: with given contours in ascending order, larger fields have larger profiles. -/
theorem C161_order (hg : g.Valid) (hres : g.resolution * g.nlon = 360) (hm : KnownMethod m) (hw0 : 0 < w) (hw : w ≤ g.nlon) {f f' : Fin g.nlat → Fin w → ℝ}
    (h : ∀ j i, f j i ≤ f' j i) {L : List ℝ} (hL : L ≠ []) (hs : L.Pairwise (· ≤ ·)) :
    ∃ R R', g.zonalize f (.array L) m = .ok R ∧ g.zonalize f' (.array L) m = .ok R' ∧ ∀ j, R j ≤ R' j := by
  have hr := hg.rsphere_pos
  have hh : 0 < g.nlat := by have := hg.nlat_ge; omega
  obtain ⟨R, K, hR, hK, hb, hn⟩ := zonalize_given hg hres hm hw0 hw f hL hs
  obtain ⟨R', K', hR', hK', hb', hn'⟩ := zonalize_given hg hres hm hw0 hw f' hL hs
  refine ⟨R, R', hR, hR', fun j => ?_⟩
  obtain ⟨j0, i0, h0⟩ := fieldMin_attained hh hw0 f'
  obtain ⟨j1, i1, h1⟩ := fieldMax_attained hh hw0 f
  have hlo : fieldMin f ≤ fieldMin f' := by rw [← h0]; exact (fieldMin_le f j0 i0).trans (h j0 i0)
  have hhi : fieldMax f ≤ fieldMax f' := by rw [← h1]; exact (h j1 i1).trans (le_fieldMax f' j1 i1)
  have hy : ∀ q, g.eqLat (g.contourArea m f' q) ≤ g.eqLat (g.contourArea m f q) := fun q => eqLat_antitone hr (contourArea_order hg m h q)
  rcases lt_or_eq_of_le (g.lat_mem hg j.2).2 with hj | hj
  · refine bracketed_order hK hK' (fun q _ => hy q) hlo hhi (fun q _ => (eqLat_mem _).1) (fun q _ => (eqLat_mem _).2) (fun q _ e => ?_) (fun q _ e => ?_) (g.lat_mem hg j.2).1 hj (hb j hj) (hb' j hj)
    · by_contra hc
      exact absurd e (eqLat_lt_of_pos hr (contourArea_pos hg m f ⟨j1, i1, h1 ▸ not_le.1 hc⟩)).ne
    · by_contra hc
      exact absurd e (lt_eqLat_of_lt hr (contourArea_lt hg m f' ⟨j0, i0, h0 ▸ not_le.1 hc⟩)).ne'
  · rcases hn j hj with ⟨e, e2⟩ | ⟨e, e2, e3⟩ <;> rcases hn' j hj with ⟨e', e2'⟩ | ⟨e', e2', e3'⟩
    · rw [e, e']; exact hhi
    · exact absurd (le_antisymm (eqLat_mem _).2 (by rw [← e2']; exact hy _)) (e2 _ e')
    · rw [e']
      by_contra hc
      refine e2' _ e ?_
      rw [contourArea_none hg m f' fun j i => lt_of_le_of_lt (le_fieldMax f' j i) (not_le.1 hc)]
      exact eqLat_nonpos hr le_rfl
    · exact e3' _ e

/-- C161: away from the north pole, the values of profiles with given contours do not leave the range of the field. -/
theorem C161_range (hg : g.Valid) (hres : g.resolution * g.nlon = 360) (hm : KnownMethod m) (hw0 : 0 < w) (hw : w ≤ g.nlon) (f : Fin g.nlat → Fin w → ℝ)
    {L : List ℝ} (hL : L ≠ []) (hs : L.Pairwise (· ≤ ·)) : ∃ R, g.zonalize f (.array L) m = .ok R ∧
      (∀ j : Fin g.nlat, 0 < (j : ℕ) → (∃ j' i', f j' i' ≤ R j) ∧ ∃ j' i', R j ≤ f j' i') ∧
      ∀ j : Fin g.nlat, (j : ℕ) = 0 → ∀ q ∈ L, (∀ j i, f j i < q) → (∀ q' ∈ L, q' ≤ q) → R j = q := by
  have hr := hg.rsphere_pos
  have hh : 0 < g.nlat := by have := hg.nlat_ge; omega
  obtain ⟨R, K, hR, hK, hb, hn⟩ := zonalize_given hg hres hm hw0 hw f hL hs
  obtain ⟨j0, i0, h0⟩ := fieldMin_attained hh hw0 f
  obtain ⟨j1, i1, h1⟩ := fieldMax_attained hh hw0 f
  have hlat0 : g.lat 0 = 90 := by rw [lat_eq hg]; simp
  refine ⟨R, hR, fun j hj => ?_, fun j hj q hq hf hmax => ?_⟩
  · have hj90 : g.lat j < 90 := by
      rw [← hlat0]
      exact g.lat_strictAnti hg hj
    obtain ⟨p, hp, r, hr', hpx, hxr, e, hpr, hbelow, habove⟩ := hb j hj90
    have b := lerp_le_right hpx hxr hpr
    rw [← e] at b
    exact ⟨⟨j0, i0, by rw [h0]; exact (hbelow (-90, fieldMin f) ((hK _).2 (.inl rfl)) (g.lat_mem hg j.2).1).1.trans b.1⟩,
      ⟨j1, i1, by rw [h1]; exact b.2.trans (habove (90, fieldMax f) ((hK _).2 (.inr (.inl rfl))) hj90).1⟩⟩
  · have hq90 : g.eqLat (g.contourArea m f q) = 90 := by
      rw [contourArea_none hg m f hf]
      exact eqLat_nonpos hr le_rfl
    rcases hn j (by rw [hj]; exact hlat0) with ⟨-, e⟩ | ⟨e, -, e3⟩
    · exact absurd hq90 (e q hq)
    · exact le_antisymm (hmax _ e) (e3 q hq)

/-- The profile of a zonally symmetric field with a single automatic contour that is the value at a latitude of the grid -/
theorem zonalize_single (hg : g.Valid) (hres : g.resolution * g.nlon = 360) (p : Fin g.nlat → ℝ) (hp : ∀ j j', j < j' → p j' < p j) (n s k : Fin g.nlat)
    (hn : (n : ℕ) = 0) (hs : (s : ℕ) + 1 = g.nlat) (h1 : n < k) (h2 : k < s) (hk : p k = 1 / 2 * (p s + p n)) :
    g.zonalize (w := g.nlon) (fun j _ => p j) (.int 1) "sptrapz" = .ok fun j => npInterp lerp (-90, p s) [(g.lat k, p k), (90, p n)] (g.lat j) := by
  have hw0 : 0 < g.nlon := by exact_mod_cast hg.nlon_pos
  have hm' : g.OkMethod "sptrapz" g.nlon := .inr ⟨rfl, le_rfl⟩
  have hmono : ∀ j j', j ≤ j' → p j' ≤ p j := fun j j' h => by
    rcases eq_or_lt_of_le h with rfl | h
    · exact le_rfl
    · exact (hp _ _ h).le
  have hmin : fieldMin (fun j (_ : Fin g.nlon) => p j) = p s := by
    obtain ⟨j, i, e⟩ := fieldMin_attained (by omega) hw0 fun j (_ : Fin g.nlon) => p j
    refine le_antisymm (fieldMin_le (fun j (_ : Fin g.nlon) => p j) s ⟨0, hw0⟩) ?_
    rw [← e]
    exact hmono _ _ (by rw [Fin.le_def]; omega)
  have hmax : fieldMax (fun j (_ : Fin g.nlon) => p j) = p n := by
    obtain ⟨j, i, e⟩ := fieldMax_attained (by omega) hw0 fun j (_ : Fin g.nlon) => p j
    refine le_antisymm ?_ (le_fieldMax (fun j (_ : Fin g.nlon) => p j) n ⟨0, hw0⟩)
    rw [← e]
    exact hmono _ _ (by rw [Fin.le_def]; omega)
  have hlev : g.contourLevels (fun j (_ : Fin g.nlon) => p j) (.int 1) "sptrapz" = [p k] := by
    unfold contourLevels
    rw [hmin, hmax, hk]
    have e : linspace (-1) 1 (1 + 2) (0 + 1) = (0 : ℝ) := by
      unfold linspace
      norm_num
    simp [autoLevel, e]
  obtain ⟨P, hP⟩ := interp_exists hg p
  obtain ⟨out, hout, -, -, hc⟩ := C23_symmetric g hg hres g.nlon hw0 le_rfl p hp P hP (.int 1) ⟨by simp, fun n h => by cases h; norm_num⟩
  have hok := zonalizeContours_ok hw0.ne' hm' (fun j (_ : Fin g.nlon) => p j) (levels := .int 1) (by rw [hlev]; simp)
  rw [hlev] at hok
  rw [hout] at hok
  have hout' := Except.ok.inj hok
  have hPk : P (g.phi k) = p k := by
    have e := hP k (by omega) 0 le_rfl zero_le_one
    simpa using e
  have hy := hc _ (by rw [hout']; exact List.mem_singleton.2 rfl) (g.phi k) ⟨(phi_mem hg k.2).1, (phi_mem hg k.2).2⟩ hPk
  have hlat : rad2deg (g.phi k) = g.lat k := by
    unfold phi
    exact rad2deg_deg2rad _
  unfold zonalize
  rw [hout, hout', List.map_singleton, hmin, hmax]
  dsimp only at hy ⊢
  rw [List.map_singleton]
  rw [hy, hlat, Prod.swap_prod_mk, meridionalKnots_sorted _ _ _ (by simp)]
  · rfl
  · intro q hq
    rw [List.mem_singleton.1 hq]
    have e0 : g.lat (n : ℕ) = 90 := by rw [hn, lat_eq hg]; simp
    have e1 : g.lat (s : ℕ) = -90 := by
      have := g.lat_last hg
      rwa [show g.nlat - 1 = (s : ℕ) by omega] at this
    exact ⟨by rw [← e1]; exact g.lat_strictAnti hg h2, by rw [← e0]; exact g.lat_strictAnti hg h1⟩

/-- C161: automatic contours depend on the extremes of the field, and with them larger fields can have smaller profiles. -/
theorem C161_automatic_refuted : ∃ (p p' : Fin grid30.nlat → ℝ) (R R' : Fin grid30.nlat → ℝ), (∀ j, p j ≤ p' j) ∧
    grid30.zonalize (w := grid30.nlon) (fun j _ => p j) (.int 1) "sptrapz" = .ok R ∧
    grid30.zonalize (w := grid30.nlon) (fun j _ => p' j) (.int 1) "sptrapz" = .ok R' ∧ ∃ j, R' j < R j := by
  have h7 := grid30_nlat
  have hlt : ∀ j : Fin grid30.nlat, (j : ℕ) < 7 := fun j => by have := j.2; omega
  obtain ⟨p, hpd⟩ : ∃ p : Fin grid30.nlat → ℝ, p = fun (j : Fin grid30.nlat) => if (j : ℕ) = 0 then 6 else if (j : ℕ) = 6 then 0 else (11 : ℝ) / 2 - ((j : ℕ) : ℝ) / 2 := ⟨_, rfl⟩
  obtain ⟨p', hpd'⟩ : ∃ p : Fin grid30.nlat → ℝ, p = fun (j : Fin grid30.nlat) => if (j : ℕ) = 0 then 12 else if (j : ℕ) = 6 then 0 else (13 : ℝ) / 2 - ((j : ℕ) : ℝ) / 2 := ⟨_, rfl⟩
  have hp : ∀ j j', j < j' → p j' < p j := fun j j' h => by
    rw [hpd]
    obtain ⟨a, ha⟩ := j
    obtain ⟨b, hb⟩ := j'
    rw [Fin.lt_def] at h
    dsimp only at h ⊢
    have hb7 : b < 7 := by omega
    have ha7 : a < 7 := by omega
    interval_cases a <;> interval_cases b <;> first | omega | norm_num
  have hp' : ∀ j j', j < j' → p' j' < p' j := fun j j' h => by
    rw [hpd']
    obtain ⟨a, ha⟩ := j
    obtain ⟨b, hb⟩ := j'
    rw [Fin.lt_def] at h
    dsimp only at h ⊢
    have hb7 : b < 7 := by omega
    have ha7 : a < 7 := by omega
    interval_cases a <;> interval_cases b <;> first | omega | norm_num
  have e := zonalize_single grid30_valid grid30_spacing p hp ⟨0, by omega⟩ ⟨6, by omega⟩ ⟨5, by omega⟩ rfl (by dsimp only; omega) (by simp [Fin.lt_def]) (by simp [Fin.lt_def]) (by rw [hpd]; norm_num)
  have e' := zonalize_single grid30_valid grid30_spacing p' hp' ⟨0, by omega⟩ ⟨6, by omega⟩ ⟨1, by omega⟩ rfl (by dsimp only; omega) (by simp [Fin.lt_def]) (by simp [Fin.lt_def]) (by rw [hpd']; norm_num)
  refine ⟨p, p', _, _, fun j => ?_, e, e', ⟨3, by omega⟩, ?_⟩
  · rw [hpd, hpd']
    dsimp only
    split_ifs <;> linarith
  · simp only [grid30_lat, hpd, hpd', npInterp, lerp]
    norm_num

/-- C161: if a contour exceeds all values of the field, the profile at the north pole does, too. -/
theorem C161_pole_refuted : ∃ (f : Fin grid30.nlat → Fin grid30.nlon → ℝ) (R : Fin grid30.nlat → ℝ),
    grid30.zonalize f (.array [1]) "sptrapz" = .ok R ∧ ∃ j, ∀ j' i', f j' i' < R j := by
  have h7 := grid30_nlat
  obtain ⟨R, hR, -, h⟩ := C161_range grid30_valid grid30_spacing (.inr rfl) (by rw [grid30_nlon]; norm_num) le_rfl (fun (_ : Fin grid30.nlat) (_ : Fin grid30.nlon) => (0 : ℝ)) (L := [1]) (by simp) (by simp)
  refine ⟨_, R, hR, ⟨0, by omega⟩, fun j' i' => ?_⟩
  rw [h ⟨0, by omega⟩ rfl 1 (by simp) (fun _ _ => zero_lt_one) (by simp)]
  exact zero_lt_one

/-- Non-vacuity of C161. -/
example : grid30.Valid ∧ grid30.resolution * grid30.nlon = 360 ∧ KnownMethod "boxcount" ∧ 12 ≤ grid30.nlon ∧ ([1, 2] : List ℝ).Pairwise (· ≤ ·) :=
  ⟨grid30_valid, grid30_spacing, .inl rfl, by rw [grid30_nlon], by simp⟩

end Barotropic
