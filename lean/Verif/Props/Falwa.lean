import Verif.Lemmas.Falwa
import Verif.Props.Zonalize

/-!
# C24 – C27: finite-amplitude (local) wave activity
-/

namespace Barotropic
open Real Set Grid

/-! ## C24 -/

/-- FALWA succeeds and every value that is a number is non-negative, contoured and interpolated, for both quadratures
and all levels. All values are numbers for boxcounting or if the contours are strictly inside of the range of PV (the
automatic contours of non-constant PV are). Missing: NaN can appear otherwise (see `C24_constant_refuted`). -/
theorem C24_nonneg_partial (g : Grid ℝ) (hg : g.Valid) (m : String) (hm : KnownMethod m)
    (pv : Fin g.nlat → Fin g.nlon → ℝ) (levels : Levels) (hl : levels.Some) :
    ∃ rows F, g.falwaContoured pv levels m = .ok rows ∧ g.falwa pv levels m = .ok F ∧
      (∀ p ∈ rows, ∀ i v, p.2 i = some v → 0 ≤ v) ∧ (∀ j i v, F j i = some v → 0 ≤ v) ∧
      ((m = "boxcount" ∨ levels.Inside pv) →
        (∀ p ∈ rows, ∀ i, ∃ v, p.2 i = some v ∧ 0 ≤ v) ∧ ∀ j i, ∃ v, F j i = some v ∧ 0 ≤ v) := by
  obtain ⟨out, hout, hin, hin', -, -⟩ := falwaContours_ok hg hm pv hl
  have hrows := falwaContoured_of hm hout
  set rows := out.map fun p => (p.2, fun i => divO (g.falwaNum m pv p.1 p.2 i) (cos (deg2rad p.2))) with hr
  have hb : ∀ p ∈ rows, -90 ≤ p.1 ∧ p.1 ≤ 90 := by
    intro p hp
    obtain ⟨p', hp', rfl⟩ := List.mem_map.1 hp
    exact hin p' hp'
  have hnn : ∀ p ∈ rows, ∀ i v, p.2 i = some v → 0 ≤ v := by
    intro p hp i v hv
    obtain ⟨p', hp', rfl⟩ := List.mem_map.1 hp
    dsimp only [divO] at hv
    split_ifs at hv
    injection hv with hv
    rw [← hv]
    exact div_nonneg (falwaNum_nonneg hg m pv _ _ i) (cos_deg_nonneg (hin p' hp').1 (hin p' hp').2)
  have hsome : (m = "boxcount" ∨ levels.Inside pv) → ∀ p ∈ rows, (-90 < p.1 ∧ p.1 < 90) ∧ ∀ i, ∃ v, p.2 i = some v := by
    intro h p hp
    obtain ⟨p', hp', rfl⟩ := List.mem_map.1 hp
    have := hin' h p' hp'
    exact ⟨this, fun i => ⟨_, if_neg (cos_deg_pos this.1 this.2).ne'⟩⟩
  obtain ⟨a, b, l, hk, hF, ha, hlast, hsort, hmem⟩ := falwa_of hrows hb
  have hlat : ∀ j : Fin g.nlat, -90 ≤ g.lat j ∧ g.lat j ≤ 90 := fun j => g.lat_mem hg j.2
  have hknn : ∀ p ∈ a :: b :: l, ∀ i v, p.2 i = some v → 0 ≤ v := by
    intro p hp i v hv
    rcases (hmem p).1 hp with rfl | rfl | hp
    · injection hv with hv; rw [← hv]
    · injection hv with hv; rw [← hv]
    · exact hnn p hp i v hv
  have hFnn : ∀ (j : Fin g.nlat) i v, callLinear lerpRow a b l (g.lat j) i = some v → 0 ≤ v := fun j i v hv =>
    callLinear_ge a b l (ha ▸ (hlat j).1) (hlast ▸ (hlat j).2) hknn i v hv
  refine ⟨rows, _, hrows, hF, hnn, hFnn, fun h => ⟨?_, ?_⟩⟩
  · intro p hp i
    obtain ⟨v, hv⟩ := (hsome h p hp).2 i
    exact ⟨v, hv, hnn p hp i v hv⟩
  · intro j i
    have hab := knots_first_lt hk ha hsort fun p hp => (hsome h p hp).1.1
    obtain ⟨p, hp, q, hq, hpq, -, -, e⟩ := callLinear_cases lerpRow a b l (g.lat j) (.inl hab) (ha ▸ (hlat j).1)
      (hlast ▸ (hlat j).2)
    have hs : ∀ p ∈ a :: b :: l, ∃ v, p.2 i = some v := by
      intro p hp
      rcases (hmem p).1 hp with rfl | rfl | hp
      · exact ⟨0, rfl⟩
      · exact ⟨0, rfl⟩
      · exact (hsome h p hp).2 i
    obtain ⟨u, hu⟩ := hs p hp
    obtain ⟨v, hv⟩ := hs q hq
    have : callLinear lerpRow a b l (g.lat j) i = some (lerp p.1 q.1 (g.lat j) u v) := by
      rw [e]
      unfold lerpRow
      rw [hu, hv, lerpO_some hpq]
    exact ⟨_, this, hFnn j i _ this⟩

/-- The South Pole row of FALWA (sptrapz) of constant PV is NaN: all contours are at the South Pole, where the
division by the cosine is 0/0. (In exact arithmetic; with floating point numbers the cosine is merely tiny.) -/
theorem C24_constant_refuted (g : Grid ℝ) (hg : g.Valid) (hs : g.resolution * g.nlon = 360) (c : ℝ) (levels : Levels)
    (hl : levels.Auto) :
    ∃ F, g.falwa (fun _ _ => c) levels "sptrapz" = .ok F ∧ ∀ j : Fin g.nlat, (j : ℕ) + 1 = g.nlat → ∀ i, F j i = none := by
  have hm : KnownMethod "sptrapz" := .inr rfl
  have hls : levels.Some := by cases levels <;> first | trivial | exact hl | exact hl.elim
  obtain ⟨out, hout, hin, -, hz, -⟩ := falwaContours_ok hg hm (fun _ _ => c) hls
  obtain ⟨hz, hz'⟩ := hz (by decide)
  have hrows := falwaContoured_of hm hout
  have hw0 : 0 < g.nlon := by have := hg.nlon_ge; omega
  have hh : 0 < g.nlat := by have := hg.nlat_ge; omega
  have hmin : fieldMin (fun (_ : Fin g.nlat) (_ : Fin g.nlon) => c) = c := by
    obtain ⟨_, _, h⟩ := fieldMin_attained hh hw0 fun _ _ => c
    exact h.symm
  have hmax : fieldMax (fun (_ : Fin g.nlat) (_ : Fin g.nlon) => c) = c := by
    obtain ⟨_, _, h⟩ := fieldMax_attained hh hw0 fun _ _ => c
    exact h.symm
  have hall : ∀ p ∈ out, p.2 = -90 := by
    intro p hp
    rw [hz'] at hp
    obtain ⟨q, hq, rfl⟩ := List.mem_map.1 hp
    obtain ⟨n, hn, e⟩ := contourLevels_auto hg (fun (_ : Fin g.nlat) (_ : Fin g.nlon) => c) hl "sptrapz"
    rw [e] at hq
    obtain ⟨k, _, rfl⟩ := List.mem_map.1 hq
    have : autoLevel (fieldMin (fun (_ : Fin g.nlat) (_ : Fin g.nlon) => c)) (fieldMax fun (_ : Fin g.nlat) (_ : Fin g.nlon) => c) n k = c := by
      rw [hmin, hmax]; unfold autoLevel; ring
    dsimp only
    rw [this, contourArea_all hg hw0.ne' _ _ (fun _ _ => le_rfl), dlam_nlon_eq hg hs]
    apply eqLat_full hg.rsphere_pos
    linarith
  have hcos : cos (deg2rad (-90)) = 0 := by
    have : deg2rad (-90) = -(π / 2) := by unfold deg2rad; ring
    rw [this, cos_neg, cos_pi_div_two]
  set rows := out.map fun p => (p.2, fun i => divO (g.falwaNum "sptrapz" (fun _ _ => c) p.1 p.2 i) (cos (deg2rad p.2))) with hr
  have hb : ∀ p ∈ rows, p = (-90, fun _ => none) := by
    intro p hp
    obtain ⟨p', hp', rfl⟩ := List.mem_map.1 hp
    ext1
    · exact hall p' hp'
    · funext i
      dsimp only [divO]
      rw [hall p' hp', hcos, if_pos rfl]
  have hne : rows ≠ [] := by
    rw [hr]
    intro h
    have : out = [] := List.map_eq_nil_iff.1 h
    rw [this] at hz'
    exact contourLevels_some hg _ hls "sptrapz" (List.map_eq_nil_iff.1 hz'.symm)
  obtain ⟨a, b, l, hk, hF, ha, hlast, hsort, hmem⟩ := falwa_of hrows (by
    intro p hp; rw [hb p hp]; norm_num)
  refine ⟨_, hF, fun j hj i => ?_⟩
  have hlat : g.lat j = -90 := by
    have := g.lat_last hg
    rwa [show g.nlat - 1 = (j : ℕ) by omega] at this
  have hb1 : b.1 = -90 := by
    -- at least two knots are at the South Pole
    have hperm : (meridionalKnots rows (fun _ => some 0) (fun _ => some 0)).Perm _ := sortKnots_perm _
    rw [hk] at hperm
    by_contra hb1
    have hb1 : -90 < b.1 := lt_of_le_of_ne (by rw [← ha]; exact (List.pairwise_cons.1 hsort).1 b (by simp)) (Ne.symm hb1)
    have hcount := hperm.countP_eq fun p => decide (p.1 = -90)
    have h0 : (b :: l).countP (fun p => decide (p.1 = -90)) = 0 := by
      rw [List.countP_eq_zero]
      intro p hp
      have : b.1 ≤ p.1 := by
        rcases List.mem_cons.1 hp with rfl | hp
        · exact le_rfl
        · exact (List.pairwise_cons.1 (List.pairwise_cons.1 hsort).2).1 p hp
      simp only [decide_eq_true_eq]
      linarith
    obtain ⟨r, rs, hrs⟩ := List.exists_cons_of_ne_nil hne
    have hr1 : r.1 = -90 := by rw [hb r (by rw [hrs]; simp)]
    rw [List.countP_cons, h0, hrs] at hcount
    simp only [List.cons_append, List.countP_cons, List.countP_append, List.countP_nil, hr1, ha, decide_true, if_true] at hcount
    omega
  show callLinear lerpRow a b l (g.lat j) i = none
  rw [hlat]
  have hres : lerpRow a.1 b.1 (-90) a.2 b.2 i = none := by
    unfold lerpRow lerpO
    rw [ha, hb1]
    cases a.2 i <;> cases b.2 i <;> simp
  cases l with
  | nil => exact hres
  | cons c l =>
    unfold callLinear
    rw [if_pos hb1.ge]
    exact hres

/-- Non-vacuity of C24: default arguments and a PV field that is not constant. -/
example : grid30.Valid ∧ Levels.none.Some ∧
    Levels.Inside (fun (j : Fin grid30.nlat) (_ : Fin grid30.nlon) => ((j : ℕ) : ℝ)) .none :=
  ⟨grid30_valid, trivial, ⟨0, by rw [grid30_nlat]; norm_num⟩, ⟨0, by rw [grid30_nlon]; norm_num⟩,
    ⟨1, by rw [grid30_nlat]; norm_num⟩, ⟨0, by rw [grid30_nlon]; norm_num⟩, by norm_num⟩

/-! ## C25 -/

/-- FALWA (sptrapz) of zonally symmetric PV that strictly decreases from north to south is zero. -/
theorem C25_undisturbed (g : Grid ℝ) (hg : g.Valid) (hs : g.resolution * g.nlon = 360) (p : Fin g.nlat → ℝ)
    (hp : ∀ j j', j < j' → p j' < p j) (levels : Levels) (hl : levels.Some)
    (hi : levels.Inside fun j (_ : Fin g.nlon) => p j) :
    ∃ rows, g.falwaContoured (fun j _ => p j) levels "sptrapz" = .ok rows ∧ (∀ r ∈ rows, ∀ i, r.2 i = some 0) ∧
      g.falwa (fun j _ => p j) levels "sptrapz" = .ok fun _ _ => some 0 := by
  have hm : KnownMethod "sptrapz" := .inr rfl
  obtain ⟨out, hout, hin, hin', hz, -⟩ := falwaContours_ok hg hm (fun j _ => p j) hl
  obtain ⟨hz, hz'⟩ := hz (by decide)
  have hrows := falwaContoured_of hm hout
  have hw0 : 0 < g.nlon := by have := hg.nlon_ge; omega
  have hn := hg.nlat_ge
  have hpc : ∀ j < g.nlat - 1, col p (j + 1) < col p j := by
    intro j hj
    rw [col_of_lt _ (show j < g.nlat by omega), col_of_lt _ (show j + 1 < g.nlat by omega)]
    exact hp _ _ (by simp)
  obtain ⟨P, hP⟩ := interp_exists hg p
  obtain ⟨out', hout', -, -, hval⟩ := C23_symmetric g hg hs g.nlon hw0 le_rfl p hp P hP levels (by
    constructor
    · rintro rfl; exact hl rfl
    · rintro n rfl; exact hl)
  rw [hz] at hout'
  injection hout' with e
  subst e
  have hanti : Antitone p := fun j j' h => by
    rcases eq_or_lt_of_le h with rfl | h
    · exact le_rfl
    · exact (hp _ _ h).le
  have hzero : ∀ c ∈ out, ∀ i, g.falwaNum "sptrapz" (fun j _ => p j) c.1 c.2 i = 0 := by
    intro c hc i
    have hq : (∃ j, p j < c.1) ∧ ∃ j, c.1 < p j := by
      have hc' := hc
      rw [hz'] at hc'
      obtain ⟨q, hq, rfl⟩ := List.mem_map.1 hc'
      obtain ⟨⟨j, i, h1⟩, ⟨j', i', h2⟩⟩ := contourLevels_inside hg hw0 _ hl hi "sptrapz" q hq
      exact ⟨⟨j, h1⟩, ⟨j', h2⟩⟩
    obtain ⟨k, hk, hk1, hk2⟩ := exists_segment (x := col p) (n := g.nlat - 1) (by omega) (φ := c.1)
      (by
        obtain ⟨j, hj⟩ := hq.2
        rw [col_of_lt _ (show 0 < g.nlat by omega)]
        exact hj.le.trans (hanti (Fin.mk_le_of_le_val (Nat.zero_le _))))
      (by
        obtain ⟨j, hj⟩ := hq.1
        rw [col_of_lt _ (show g.nlat - 1 < g.nlat by omega)]
        refine le_trans (hanti ?_) hj.le
        have := j.2
        rw [Fin.le_def]
        simp only
        omega)
    have hx := phi_seg hg k hk
    have hpk := hpc k hk
    have hd1 : col p (k + 1) - col p k ≠ 0 := by linarith
    have hd2 : g.phi (k + 1) - g.phi k ≠ 0 := by linarith
    set t := (c.1 - col p k) / (col p (k + 1) - col p k) with ht
    have ht0 : 0 ≤ t := div_nonneg_of_nonpos (by linarith) (by linarith)
    have ht1 : t ≤ 1 := by rw [ht, div_le_one_of_neg (by linarith)]; linarith
    set ψ := g.phi k + t * (g.phi (k + 1) - g.phi k) with hψ
    have hψ1 : g.phi (k + 1) ≤ ψ := by rw [hψ]; nlinarith
    have hψ2 : ψ ≤ g.phi k := by rw [hψ]; nlinarith
    have haff : aff (g.phi k) (g.phi (k + 1)) (col p k) (col p (k + 1)) ψ = c.1 := by
      unfold aff
      rw [hψ, ht]
      field_simp
      ring
    have hψm : ψ ∈ Icc (-(π / 2)) (π / 2) :=
      ⟨(phi_mem hg (show k + 1 < g.nlat by omega)).1.trans hψ1, hψ2.trans (phi_mem hg (show k < g.nlat by omega)).2⟩
    have hPψ : P ψ = c.1 := by
      rw [interp_aff hP (show k + 1 < g.nlat by omega) hx ⟨hψ1, hψ2⟩, ← haff,
        col_of_lt _ (show k < g.nlat by omega), col_of_lt _ (show k + 1 < g.nlat by omega)]
    have hy := hval c hc ψ hψm hPψ
    unfold falwaNum
    rw [sub_eq_zero]
    unfold colQuad
    rw [if_neg (by decide), if_neg (by decide)]
    apply sptrapzCol_domain (phi_seg hg)
    intro j hj φ hφ
    have c1 : ∀ j, j < g.nlat → (col fun j => p j - c.1) j = col p j - c.1 := by
      intro j hj; rw [col_of_lt _ hj, col_of_lt _ hj]
    have c2 : ∀ j, j < g.nlat → (col fun j : Fin g.nlat => g.lat j - c.2) j = 180 / π * (g.phi j - ψ) := by
      intro j hj
      rw [col_of_lt _ hj, hy]
      have : g.lat j = rad2deg (g.phi j) := by
        unfold phi
        rw [rad2deg_deg2rad]
      rw [this]
      unfold rad2deg
      ring
    rw [c1 j (by omega), c1 (j + 1) (by omega), c2 j (by omega), c2 (j + 1) (by omega),
      above_iff_north (phi_seg hg) hpc hk ⟨hψ1, hψ2⟩ haff hj hφ]
    have hx' := phi_seg hg j hj
    have : aff (g.phi j) (g.phi (j + 1)) (180 / π * (g.phi j - ψ)) (180 / π * (g.phi (j + 1) - ψ)) φ
        = 180 / π * (φ - ψ) := by
      rw [← aff_id hx' ψ φ]
      unfold aff
      ring
    rw [this]
    have hpi := pi_pos
    rw [mul_nonneg_iff_of_pos_left (by positivity), sub_nonneg]
  set rows := out.map fun p' => (p'.2, fun i => divO (g.falwaNum "sptrapz" (fun j _ => p j) p'.1 p'.2 i) (cos (deg2rad p'.2))) with hr
  have hrz : ∀ r ∈ rows, (-90 < r.1 ∧ r.1 < 90) ∧ r.2 = fun _ => some 0 := by
    intro r hr'
    obtain ⟨c, hc, rfl⟩ := List.mem_map.1 hr'
    have hb := hin' (.inr hi) c hc
    refine ⟨hb, ?_⟩
    funext i
    dsimp only [divO]
    rw [if_neg (cos_deg_pos hb.1 hb.2).ne', hzero c hc i, zero_div]
  refine ⟨rows, hrows, fun r hr' i => by rw [(hrz r hr').2], ?_⟩
  obtain ⟨a, b, l, hk, hF, ha, hlast, hsort, hmem⟩ := falwa_of hrows fun r hr' => ⟨(hrz r hr').1.1.le, (hrz r hr').1.2.le⟩
  have hab := knots_first_lt hk ha hsort fun r hr' => (hrz r hr').1.1
  rw [hF]
  congr 1
  funext j i
  have hlat := g.lat_mem hg j.2
  obtain ⟨r, hr1, q, hq1, hrq, -, -, e⟩ := callLinear_cases lerpRow a b l (g.lat j) (.inl hab) (ha ▸ hlat.1) (hlast ▸ hlat.2)
  have hs0 : ∀ r ∈ a :: b :: l, r.2 i = some 0 := by
    intro r hr1
    rcases (hmem r).1 hr1 with rfl | rfl | h
    · rfl
    · rfl
    · rw [(hrz r h).2]
  rw [e]
  unfold lerpRow
  rw [hs0 r hr1, hs0 q hq1, lerpO_some hrq, lerp_const]

/-- Non-vacuity of C25: the profile `-j` with default levels. -/
example : (∀ j j' : Fin grid30.nlat, j < j' → -((j' : ℕ) : ℝ) < -((j : ℕ) : ℝ)) ∧
    Levels.Inside (fun (j : Fin grid30.nlat) (_ : Fin grid30.nlon) => -((j : ℕ) : ℝ)) .none := by
  refine ⟨fun j j' h => ?_, ⟨0, by rw [grid30_nlat]; norm_num⟩, ⟨0, by rw [grid30_nlon]; norm_num⟩,
    ⟨1, by rw [grid30_nlat]; norm_num⟩, ⟨0, by rw [grid30_nlon]; norm_num⟩, by norm_num⟩
  have : ((j : ℕ) : ℝ) < ((j' : ℕ) : ℝ) := by exact_mod_cast h
  linarith

/-! ## C26 -/

/-- Contours of the same equivalent latitude have the same zonal mean FALWA. -/
theorem falwaNum_sum_eq {g : Grid ℝ} (hg : g.Valid) (hs : g.resolution * g.nlon = 360) (pv : Fin g.nlat → Fin g.nlon → ℝ)
    {q1 q2 : ℝ} (hq : q1 ≤ q2) (hlt : ∃ j i, q2 < pv j i) (hgt : ∃ j i, pv j i < q1)
    (he : g.eqLat (g.contourArea "sptrapz" pv q1) = g.eqLat (g.contourArea "sptrapz" pv q2)) :
    ∑ i, g.falwaNum "sptrapz" pv q1 (g.eqLat (g.contourArea "sptrapz" pv q1)) i
      = ∑ i, g.falwaNum "sptrapz" pv q2 (g.eqLat (g.contourArea "sptrapz" pv q2)) i := by
  have hr := hg.rsphere_pos
  have hd := dlam_pos hg
  have hn : (0 : ℝ) < g.nlon := by exact_mod_cast (by have := hg.nlon_ge; omega : 0 < g.nlon)
  have i1 := eqLat_interior hr (contourArea_pos hg "sptrapz" pv (hlt.imp fun j h => h.imp fun i h => hq.trans_lt h))
    (contourArea_lt hg "sptrapz" pv hgt)
  have i2 := eqLat_interior hr (contourArea_pos hg "sptrapz" pv hlt)
    (contourArea_lt hg "sptrapz" pv (hgt.imp fun j h => h.imp fun i h => h.trans_le hq))
  have harea : g.contourArea "sptrapz" pv q1 = g.contourArea "sptrapz" pv q2 := by rw [← i1.2.2, ← i2.2.2, he]
  set y := g.eqLat (g.contourArea "sptrapz" pv q2) with hy
  rw [he]
  -- areas of the columns
  set A1 : Fin g.nlon → ℝ := fun i => g.colQuad "sptrapz" (fun _ => 1) fun j => pv j i - q1 with hA1
  set A2 : Fin g.nlon → ℝ := fun i => g.colQuad "sptrapz" (fun _ => 1) fun j => pv j i - q2 with hA2
  have e1 : g.contourArea "sptrapz" pv q1 = g.rsphere * g.dlam * ∑ i, A1 i := by
    unfold contourArea; rw [div_self hn.ne', mul_one]
  have e2 : g.contourArea "sptrapz" pv q2 = g.rsphere * g.dlam * ∑ i, A2 i := by
    unfold contourArea; rw [div_self hn.ne', mul_one]
  have hsum : ∑ i, A1 i = ∑ i, A2 i := by
    have := e1.symm.trans (harea.trans e2)
    exact mul_left_cancel₀ (by positivity) this
  have hle : ∀ i, A2 i ≤ A1 i := fun i => colQuad_mono hg _ (fun _ => zero_le_one) fun j => by linarith
  have hA : ∀ i, A1 i = A2 i := by
    intro i
    have h0 : ∑ i, (A1 i - A2 i) = 0 := by rw [Finset.sum_sub_distrib, hsum, sub_self]
    have := (Finset.sum_eq_zero_iff_of_nonneg fun i _ => sub_nonneg.2 (hle i)).1 h0 i (Finset.mem_univ i)
    linarith
  -- integrals over the areas
  have lin : ∀ i (z : Fin g.nlat → ℝ), g.colQuad "sptrapz" (fun j => pv j i - q1) z
      = g.colQuad "sptrapz" (fun j => pv j i - q2) z + (q2 - q1) * g.colQuad "sptrapz" (fun _ => 1) z := by
    intro i z
    have := colQuad_linear (g := g) "sptrapz" 1 (q2 - q1) (fun j => pv j i - q2) (fun _ => 1) z
    rw [one_mul] at this
    rw [← this]
    congr 1
    funext j
    ring
  have hD : ∀ i, g.colQuad "sptrapz" (fun j => pv j i - q1) (fun j => pv j i - q1)
      = g.colQuad "sptrapz" (fun j => pv j i - q2) (fun j => pv j i - q2) + (q2 - q1) * A1 i := by
    intro i
    have u1 := colQuad_self_max hg "sptrapz" (fun j => pv j i - q1) (fun j => pv j i - q2)
    have u2 := colQuad_self_max hg "sptrapz" (fun j => pv j i - q2) (fun j => pv j i - q1)
    have l1 := lin i fun j => pv j i - q1
    have l2 := lin i fun j => pv j i - q2
    have := hA i
    simp only [hA1, hA2] at this ⊢
    rw [this] at l1
    rw [this]
    linarith
  have hN : ∀ i : Fin g.nlon, g.colQuad "sptrapz" (fun _ => 1) (fun j => g.lat j - y) = g.rsphere * (1 - sin (deg2rad y)) := by
    intro _
    have hpi := pi_pos
    rw [← sptrapzCol_north hg (ψ := deg2rad y) (by unfold deg2rad; nlinarith [i2.1]) (by unfold deg2rad; nlinarith [i2.2.1])]
    unfold colQuad
    rw [if_neg (by decide)]
    have hn' := hg.nlat_ge
    rw [sptrapzCol_congr (u := fun _ => 1) (v := fun j => g.lat j - y) _ _ (by
        intro j hj; rw [col_of_lt _ (by omega)]) (by intro j hj; rw [col_of_lt _ (by omega)])]
    apply sptrapzCol_domain (phi_seg hg)
    intro j hj φ _
    have hx' := phi_seg hg j hj
    have c2 : ∀ j, g.lat j - y = 180 / π * (g.phi j - deg2rad y) := by
      intro j
      unfold phi deg2rad
      field_simp
    have : aff (g.phi j) (g.phi (j + 1)) (g.lat j - y) (g.lat (j + 1) - y) φ = 180 / π * (φ - deg2rad y) := by
      rw [← aff_id hx' (deg2rad y) φ, c2, c2]
      unfold aff
      ring
    rw [this, aff_id hx', mul_nonneg_iff_of_pos_left (by positivity)]
  have hAsum : ∑ i, A1 i = g.nlon * (g.rsphere * (1 - sin (deg2rad y))) := by
    have h3 := i2.2.2
    rw [← harea, e1] at h3
    have hdn := dlam_nlon_eq hg hs
    have : g.rsphere * g.dlam * ∑ i, A1 i = g.rsphere * g.dlam * (g.nlon * (g.rsphere * (1 - sin (deg2rad y)))) := by
      rw [← h3, ← harea, ← hdn] at *
      have : g.rsphere * g.dlam * (g.nlon * (g.rsphere * (1 - sin (deg2rad y))))
        = (g.dlam * g.nlon) * g.rsphere ^ 2 * (1 - sin (deg2rad y)) := by ring
      rw [this]
    exact mul_left_cancel₀ (by positivity) this
  unfold falwaNum
  have : ∀ i, g.colQuad "sptrapz" (fun j => pv j i - q1) (fun j => pv j i - q1)
      - g.colQuad "sptrapz" (fun j => pv j i - q1) (fun j => g.lat j - y)
      = (g.colQuad "sptrapz" (fun j => pv j i - q2) (fun j => pv j i - q2)
      - g.colQuad "sptrapz" (fun j => pv j i - q2) (fun j => g.lat j - y))
      + (q2 - q1) * (A1 i - g.rsphere * (1 - sin (deg2rad y))) := by
    intro i
    rw [hD i, lin i fun j => g.lat j - y, hN i]
    ring
  have hs0 : ∑ i, (A1 i - g.rsphere * (1 - sin (deg2rad y))) = 0 := by
    rw [Finset.sum_sub_distrib, hAsum]; simp
  rw [Finset.sum_congr rfl fun i _ => this i, Finset.sum_add_distrib, ← Finset.mul_sum, hs0, mul_zero, add_zero]

/-- FAWA is the zonal mean of FALWA, contoured or interpolated, obtained from `diagnostics.fawa` or from `State.fawa`,
and non-negative. For boxcounting there is no further condition; for sptrapz the contours must lie inside of the range
of PV and the declared longitude spacing must be the true one. Missing: constant PV (see `C26_constant_refuted`). -/
theorem C26_fawa_partial (g : Grid ℝ) (hg : g.Valid) (m : String) (hm : KnownMethod m)
    (pv : Fin g.nlat → Fin g.nlon → ℝ) (levels : Levels) (hl : levels.Some)
    (h : m = "boxcount" ∨ (levels.Inside pv ∧ g.resolution * g.nlon = 360)) :
    ∃ (rows : List (ℝ × (Fin g.nlon → ℝ))) (F : Fin g.nlat → Fin g.nlon → ℝ),
      g.falwaContoured pv levels m = .ok (rows.map fun r => (r.1, fun i => some (r.2 i))) ∧
      g.fawaContoured pv levels m = .ok (rows.map fun r => (r.1, some ((∑ i, r.2 i) / g.nlon))) ∧
      g.falwa pv levels m = .ok (fun j i => some (F j i)) ∧
      g.fawa pv levels m = .ok (fun j => some ((∑ i, F j i) / g.nlon)) ∧
      (levels = .none → m = "sptrapz" → g.stateFawa pv = .ok fun j => some ((∑ i, F j i) / g.nlon)) ∧
      (∀ j, 0 ≤ (∑ i, F j i) / g.nlon) := by
  have hw0 : 0 < g.nlon := by have := hg.nlon_ge; omega
  have hn : (0 : ℝ) < g.nlon := by exact_mod_cast hw0
  have h' : m = "boxcount" ∨ levels.Inside pv := h.imp_right And.left
  obtain ⟨out, hout, -, hin, hz, hbox⟩ := falwaContours_ok hg hm pv hl
  have hin := hin h'
  have hrows0 := falwaContoured_of hm hout
  set rows : List (ℝ × (Fin g.nlon → ℝ)) := out.map fun p => (p.2, fun i => g.falwaNum m pv p.1 p.2 i / cos (deg2rad p.2)) with hr
  have hrows : g.falwaContoured pv levels m = .ok (rows.map fun r => (r.1, fun i => some (r.2 i))) := by
    rw [hrows0, hr, List.map_map]
    congr 1
    apply List.map_congr_left
    intro p hp
    have := hin p hp
    show _ = (p.2, _)
    congr 1
    funext i
    exact if_neg (cos_deg_pos this.1 this.2).ne'
  have hrb : ∀ r ∈ rows.map (fun r => (r.1, fun i => (some (r.2 i) : Option ℝ))), -90 < r.1 ∧ r.1 < 90 := by
    intro r hr0
    obtain ⟨r', hr1, rfl⟩ := List.mem_map.1 hr0
    obtain ⟨p, hp, rfl⟩ := List.mem_map.1 hr1
    exact hin p hp
  obtain ⟨rows', F', hc, hF, -, -, hsome⟩ := C24_nonneg_partial g hg m hm pv levels hl
  have hsome := (hsome h').2
  choose F hFv hF0 using hsome
  have hF'' : F' = fun j i => some (F j i) := by funext j i; exact hFv j i
  rw [hF''] at hF
  obtain ⟨a, b, l, hk, hFk, ha, hlast, hsort, hmem⟩ := falwa_of hrows fun r hr' => ⟨(hrb r hr').1.le, (hrb r hr').2.le⟩
  have hab := knots_first_lt hk ha hsort fun r hr' => (hrb r hr').1
  have hreal : ∀ p ∈ a :: b :: l, ∃ r : Fin g.nlon → ℝ, p.2 = fun i => some (r i) := by
    intro p hp
    rcases (hmem p).1 hp with rfl | rfl | hp
    · exact ⟨fun _ => 0, rfl⟩
    · exact ⟨fun _ => 0, rfl⟩
    · obtain ⟨r, _, rfl⟩ := List.mem_map.1 hp
      exact ⟨r.2, rfl⟩
  have hmean0 : meanO (fun _ : Fin g.nlon => some (0 : ℝ)) = some 0 := by
    rw [meanO_some]; simp
  have hfc : g.fawaContoured pv levels m = .ok (rows.map fun r => (r.1, some ((∑ i, r.2 i) / g.nlon))) := by
    unfold fawaContoured
    rw [hrows]
    dsimp only
    rw [List.map_map]
    congr 1
    apply List.map_congr_left
    intro r _
    show (r.1, meanO fun i => some (r.2 i)) = _
    rw [meanO_some]
  have hfc' : g.fawaContoured pv levels m
      = .ok ((rows.map fun r => (r.1, fun i => (some (r.2 i) : Option ℝ))).map fun p => (p.1, meanO p.2)) := by
    unfold fawaContoured
    rw [hrows]
  have hdup : ∀ p ∈ a :: b :: l, ∀ p' ∈ a :: b :: l, p.1 = p'.1 → meanO p.2 = meanO p'.2 := by
    have hrr : ∀ c ∈ out, ∀ c' ∈ out, c.2 = c'.2 →
        ∑ i, g.falwaNum m pv c.1 c.2 i = ∑ i, g.falwaNum m pv c'.1 c'.2 i := by
      by_cases hb : m = "boxcount"
      · have hp := hbox hb
        have : ∀ c ∈ out, ∀ c' ∈ out, c.2 = c'.2 → c = c' := by
          intro c hc' c' hc''
          haveI : Std.Symm fun c c' : ℝ × ℝ => c.2 = c'.2 → c = c' := ⟨fun c c' h e => (h e.symm).symm⟩
          exact List.Pairwise.forall_of_forall (R := fun c c' : ℝ × ℝ => c.2 = c'.2 → c = c') (fun _ _ _ => rfl)
            (hp.imp fun h e => absurd e h.ne') hc' hc''
        intro c hc' c' hc'' e
        rw [this c hc' c' hc'' e]
      · have hm2 : m = "sptrapz" := hm.resolve_left hb
        subst hm2
        obtain ⟨-, ho⟩ := hz hb
        obtain ⟨hi, hs⟩ := h.resolve_left hb
        intro c hc' c' hc'' e
        rw [ho] at hc' hc''
        obtain ⟨q, hq, rfl⟩ := List.mem_map.1 hc'
        obtain ⟨q', hq', rfl⟩ := List.mem_map.1 hc''
        have in1 := contourLevels_inside hg hw0 pv hl hi "sptrapz" q hq
        have in2 := contourLevels_inside hg hw0 pv hl hi "sptrapz" q' hq'
        rcases le_total q q' with hqq | hqq
        · exact falwaNum_sum_eq hg hs pv hqq in2.2 in1.1 e
        · exact (falwaNum_sum_eq hg hs pv hqq in1.2 in2.1 e.symm).symm
    intro p hp p' hp' e
    rcases (hmem p).1 hp with rfl | rfl | hp <;> rcases (hmem p').1 hp' with rfl | rfl | hp'
    · rfl
    · norm_num at e
    · have := (hrb p' hp').2; dsimp only at e; linarith
    · norm_num at e
    · rfl
    · have := (hrb p' hp').1; dsimp only at e; linarith
    · have := (hrb p hp).2; dsimp only at e; linarith
    · have := (hrb p hp).1; dsimp only at e; linarith
    · obtain ⟨r, hr', rfl⟩ := List.mem_map.1 hp
      obtain ⟨c, hc', rfl⟩ := List.mem_map.1 hr'
      obtain ⟨r', hr'', rfl⟩ := List.mem_map.1 hp'
      obtain ⟨c', hc'', rfl⟩ := List.mem_map.1 hr''
      dsimp only at e ⊢
      rw [meanO_some, meanO_some, ← Finset.sum_div, ← Finset.sum_div, hrr c hc' c' hc'' e, e]
  have hFj : ∀ j : Fin g.nlat, callLinear lerpRow a b l (g.lat j) = fun i => some (F j i) := by
    rw [hFk] at hF
    injection hF with hF
    intro j
    exact congrFun hF j
  refine ⟨rows, F, hrows, hfc, hF, ?_, ?_, ?_⟩
  · unfold fawa
    rw [hfc']
    dsimp only
    have hkm := meridionalKnots_map (fun r : Fin g.nlon → Option ℝ => meanO r)
      (rows.map fun r => (r.1, fun i => (some (r.2 i) : Option ℝ))) (fun _ => some 0) (fun _ => some 0)
    rw [hmean0, hk] at hkm
    rw [hkm]
    simp only [List.map_cons]
    congr 1
    funext j
    have hlat := g.lat_mem hg j.2
    have hcl := callLinear_map (fun r : Fin g.nlon → Option ℝ => meanO r) lerpRow lerpO
      (fun y => ∃ r : Fin g.nlon → ℝ, y = fun i => some (r i))
      (fun x0 x1 x y0 y1 h0 h1 => meanO_lerp hw0 x0 x1 x y0 y1 h0 h1) a b l hreal (g.lat j)
    rw [hFj, meanO_some] at hcl
    have hmap : ∀ p ∈ (a.1, meanO a.2) :: (b.1, meanO b.2) :: l.map (fun p => (p.1, meanO p.2)),
        ∃ p' ∈ a :: b :: l, p = (p'.1, meanO p'.2) := by
      intro p hp
      have : p ∈ (a :: b :: l).map (fun p => (p.1, meanO p.2)) := hp
      obtain ⟨p', hp', rfl⟩ := List.mem_map.1 this
      exact ⟨p', hp', rfl⟩
    rw [npInterp_eq_callLinear, ← hcl]
    · exact .inl hab
    · show a.1 ≤ _; rw [ha]; exact hlat.1
    · have : (((a.1, meanO a.2) :: (b.1, meanO b.2) :: l.map (fun p => (p.1, meanO p.2))).getLast (by simp)).1
          = ((a :: b :: l).getLast (by simp)).1 := by
        have := List.getLast_map (f := fun p : ℝ × (Fin g.nlon → Option ℝ) => (p.1, meanO p.2)) (l := a :: b :: l) (by simp)
        exact congrArg Prod.fst this
      rw [this, hlast]
      exact hlat.2
    · have : ((a :: b :: l).map (fun p => (p.1, meanO p.2))).Pairwise fun p q => p.1 ≤ q.1 := by
        rw [List.pairwise_map]; exact hsort
      exact this
    · have : ((a :: b :: l).map (fun p => (p.1, meanO p.2))).Pairwise fun p q => p.1 = q.1 → p.2 = q.2 := by
        rw [List.pairwise_map]
        exact hsort.imp_of_mem fun hp hq _ => hdup _ hp _ hq
      exact this
    · intro p hp
      obtain ⟨p', hp', rfl⟩ := hmap p hp
      obtain ⟨r, hr'⟩ := hreal p' hp'
      exact ⟨_, by dsimp only; rw [hr', meanO_some]⟩
  · rintro rfl rfl
    unfold stateFawa
    rw [hF]
    dsimp only
    congr 1
    funext j
    exact meanO_some _
  · intro j
    exact div_nonneg (Finset.sum_nonneg fun i _ => hF0 j i) hn.le

theorem npInterp_hit {V : Type*} (L : ℝ → ℝ → ℝ → V → V → V) (l : List (ℝ × V)) (a c d : ℝ × V) {x : ℝ}
    (h : ∀ p ∈ l, p.1 ≤ x) (hc : c.1 = x) (hd : x < d.1) : npInterp L a (l ++ [c, d]) x = c.2 := by
  induction l generalizing a with
  | nil =>
    show npInterp L a [c, d] x = c.2
    unfold npInterp
    rw [if_pos hc.le]
    unfold npInterp
    rw [if_neg (not_le.2 hd), if_pos hc]
  | cons b l ih =>
    rw [List.cons_append]
    unfold npInterp
    rw [if_pos (h b (by simp))]
    exact ih b fun p hp => h p (List.mem_cons_of_mem _ hp)

/-- The stable sort keeps South Pole rows in front of the padding. -/
theorem meridionalKnots_south {V : Type*} (rows : List (ℝ × V)) (n s : V) (h : ∀ p ∈ rows, p.1 = -90) :
    meridionalKnots rows n s = rows ++ [(-90, s), (90, n)] := by
  have hle : ∀ p ∈ rows ++ [(-90, s)], p.1 = -90 := by
    intro p hp
    rcases List.mem_append.1 hp with hp | hp
    · exact h p hp
    · rw [List.mem_singleton.1 hp]
  have trans : ∀ a b c : ℝ × V, decide (a.1 ≤ b.1) = true → decide (b.1 ≤ c.1) = true → decide (a.1 ≤ c.1) = true := by
    intro a b c h1 h2; simp only [decide_eq_true_eq] at *; exact h1.trans h2
  have total : ∀ a b : ℝ × V, (decide (a.1 ≤ b.1) || decide (b.1 ≤ a.1)) = true := by
    intro a b; simp only [Bool.or_eq_true, decide_eq_true_eq]; exact le_total _ _
  have hsorted : (rows ++ [(-90, s)]).mergeSort (fun a b => decide (a.1 ≤ b.1)) = rows ++ [(-90, s)] := by
    apply List.mergeSort_of_pairwise
    have : (rows ++ [(-90, s)]).Pairwise fun _ _ => True := List.pairwise_of_forall (fun _ _ => trivial)
    refine this.imp_of_mem ?_
    intro a b ha hb _
    rw [hle a ha, hle b hb]
    simp
  obtain ⟨l1, l2, e1, e2, -⟩ := List.mergeSort_cons trans total ((90, n) : ℝ × V) (rows ++ [(-90, s)])
  rw [hsorted] at e2
  have hp := sortKnots_pairwise ((90, n) :: (rows ++ [(-90, s)]))
  unfold sortKnots at hp
  rw [e1] at hp
  have hl2 : l2 = [] := by
    rw [List.eq_nil_iff_forall_not_mem]
    intro b hb
    have h1 := (List.pairwise_cons.1 (List.pairwise_append.1 hp).2.1).1 b hb
    have h2 := hle b (by rw [e2]; exact List.mem_append_right _ hb)
    dsimp only at h1
    linarith
  rw [hl2, List.append_nil] at e2
  unfold meridionalKnots sortKnots
  rw [List.cons_append, e1, hl2, ← e2]
  simp

/-- For constant PV `diagnostics.fawa` is zero at the South Pole where `State.fawa` is NaN (exact arithmetic). -/
theorem C26_constant_refuted (g : Grid ℝ) (hg : g.Valid) (hs : g.resolution * g.nlon = 360) (c : ℝ) :
    ∃ W S, g.fawa (fun _ _ => c) = .ok W ∧ g.stateFawa (fun _ _ => c) = .ok S ∧
      ∀ j : Fin g.nlat, (j : ℕ) + 1 = g.nlat → W j = some 0 ∧ S j = none := by
  have hw0 : 0 < g.nlon := by have := hg.nlon_ge; omega
  have hh : 0 < g.nlat := by have := hg.nlat_ge; omega
  have hm : KnownMethod "sptrapz" := .inr rfl
  obtain ⟨out, hout, hin, -, hz, -⟩ := falwaContours_ok hg hm (fun _ _ => c) (levels := .none) trivial
  obtain ⟨hz, hz'⟩ := hz (by decide)
  have hrows := falwaContoured_of hm hout
  have hall : ∀ p ∈ out, p.2 = -90 := by
    intro p hp
    have hlev := C20_auto_contours g hg "sptrapz" g.nlon hw0 (fun _ _ => c) .none trivial
    rw [hz'] at hp
    obtain ⟨q, hq, rfl⟩ := List.mem_map.1 hp
    obtain ⟨n, hn, e⟩ := contourLevels_auto hg (fun (_ : Fin g.nlat) (_ : Fin g.nlon) => c) (levels := .none) trivial "sptrapz"
    rw [e] at hq
    obtain ⟨k, _, rfl⟩ := List.mem_map.1 hq
    have hmin : fieldMin (fun (_ : Fin g.nlat) (_ : Fin g.nlon) => c) = c := by
      obtain ⟨_, _, h⟩ := fieldMin_attained hh hw0 fun _ _ => c
      exact h.symm
    have hmax : fieldMax (fun (_ : Fin g.nlat) (_ : Fin g.nlon) => c) = c := by
      obtain ⟨_, _, h⟩ := fieldMax_attained hh hw0 fun _ _ => c
      exact h.symm
    have : autoLevel (fieldMin (fun (_ : Fin g.nlat) (_ : Fin g.nlon) => c)) (fieldMax fun (_ : Fin g.nlat) (_ : Fin g.nlon) => c) n k = c := by
      rw [hmin, hmax]; unfold autoLevel; ring
    dsimp only
    rw [this, contourArea_all hg hw0.ne' _ _ (fun _ _ => le_rfl), dlam_nlon_eq hg hs]
    apply eqLat_full hg.rsphere_pos
    linarith
  obtain ⟨F, hF, hF0⟩ := C24_constant_refuted g hg hs c .none trivial
  have hfc : g.fawaContoured (fun _ _ => c) .none "sptrapz" = .ok ((out.map fun p =>
      (p.2, fun i => divO (g.falwaNum "sptrapz" (fun _ _ => c) p.1 p.2 i) (cos (deg2rad p.2)))).map fun p => (p.1, meanO p.2)) := by
    unfold fawaContoured
    rw [hrows]
  set rows := (out.map fun p =>
      (p.2, fun i => divO (g.falwaNum "sptrapz" (fun _ _ => c) p.1 p.2 i) (cos (deg2rad p.2)))).map fun p => (p.1, meanO p.2) with hr
  have hsp : ∀ p ∈ rows, p.1 = -90 := by
    intro p hp
    rw [hr, List.map_map] at hp
    obtain ⟨p', hp', rfl⟩ := List.mem_map.1 hp
    exact hall p' hp'
  have hk := meridionalKnots_south rows (some (0 : ℝ)) (some 0) hsp
  have hlat : ∀ j : Fin g.nlat, (j : ℕ) + 1 = g.nlat → g.lat j = -90 := by
    intro j hj
    have := g.lat_last hg
    rwa [show g.nlat - 1 = (j : ℕ) by omega] at this
  have hS : g.stateFawa (fun _ _ => c) = .ok fun j => meanO (F j) := by
    unfold stateFawa; rw [hF]
  have hSn : ∀ j : Fin g.nlat, (j : ℕ) + 1 = g.nlat → meanO (F j) = none := by
    intro j hj
    unfold meanO
    rw [if_neg]
    intro h
    have := h ⟨0, hw0⟩
    rw [hF0 j hj] at this
    simp at this
  unfold fawa
  rw [hfc]
  dsimp only
  rw [hk]
  match hrow : rows with
  | [] => exact ⟨_, _, rfl, hS, fun j hj => ⟨by
      rw [hlat j hj]
      unfold npInterp
      rw [if_neg (by norm_num), if_pos rfl], hSn j hj⟩⟩
  | r :: rs => exact ⟨_, _, rfl, hS, fun j hj => ⟨by
      rw [hlat j hj]
      exact npInterp_hit _ rs r _ _ (fun p hp => (hsp p (List.mem_cons_of_mem _ hp)).le) rfl (by norm_num), hSn j hj⟩⟩

/-! ## C27 -/

theorem falwaContours_perm (g : Grid ℝ) (pv : Fin g.nlat → Fin g.nlon → ℝ) (σ : Equiv.Perm (Fin g.nlon)) (levels : Levels)
    (m : String) : g.falwaContours (fun j i => pv j (σ i)) levels m = g.falwaContours pv levels m := by
  have hrange : Set.range (fun p : Fin g.nlat × Fin g.nlon => pv p.1 (σ p.2))
      = Set.range (fun p : Fin g.nlat × Fin g.nlon => pv p.1 p.2) := by
    ext y
    constructor
    · rintro ⟨p, rfl⟩; exact ⟨(p.1, σ p.2), rfl⟩
    · rintro ⟨p, rfl⟩; exact ⟨(p.1, σ.symm p.2), by simp⟩
  obtain ⟨h1, h2, -⟩ := contourLevels_values (f := fun j i => pv j (σ i)) hrange
  unfold falwaContours
  rw [(C22_permutation g g.nlon pv σ levels m).1, h1, h2]

theorem falwaRow_perm (g : Grid ℝ) (pv : Fin g.nlat → Fin g.nlon → ℝ) (σ : Equiv.Perm (Fin g.nlon)) (m : String) (q y : ℝ) :
    g.falwaRow (fun j i => pv j (σ i)) m q y = (g.falwaRow pv m q y).map fun row i => row (σ i) := by
  by_cases hm : KnownMethod m
  · rw [falwaRow_ok hm, falwaRow_ok hm]
    rfl
  · unfold falwaRow quadMeridionalCore
    dsimp only
    have a1 : m ≠ "boxcount" := fun h => hm (.inl h)
    have a2 : m ≠ "sptrapz" := fun h => hm (.inr h)
    simp only [if_neg a1, if_neg a2]
    rfl

theorem mapM_except_map {α β γ : Type} (f : α → Except PyErr β) (F : β → γ) (l : List α) :
    (l.mapM fun a => (f a).map F) = (l.mapM f).map (List.map F) := by
  induction l with
  | nil => rfl
  | cons a l ih =>
    rw [List.mapM_cons, List.mapM_cons, ih]
    cases f a with
    | error e => rfl
    | ok b =>
      cases l.mapM f with
      | error e => rfl
      | ok bs => rfl

/-- Permuting the longitudes of PV (in particular a rotation) permutes FALWA in the same way and leaves FAWA as it is:
contoured and interpolated, also for errors. -/
theorem C27_rotation (g : Grid ℝ) (pv : Fin g.nlat → Fin g.nlon → ℝ) (σ : Equiv.Perm (Fin g.nlon)) (levels : Levels)
    (m : String) :
    g.falwaContoured (fun j i => pv j (σ i)) levels m
      = (g.falwaContoured pv levels m).map (List.map fun r => (r.1, fun i => r.2 (σ i))) ∧
    g.falwa (fun j i => pv j (σ i)) levels m = (g.falwa pv levels m).map (fun F j i => F j (σ i)) ∧
    g.fawaContoured (fun j i => pv j (σ i)) levels m = g.fawaContoured pv levels m ∧
    g.fawa (fun j i => pv j (σ i)) levels m = g.fawa pv levels m ∧
    g.stateFawa (fun j i => pv j (σ i)) = g.stateFawa pv := by
  have hc : ∀ levels m, g.falwaContoured (fun j i => pv j (σ i)) levels m
      = (g.falwaContoured pv levels m).map (List.map fun r => (r.1, fun i => r.2 (σ i))) := by
    intro levels m
    unfold falwaContoured
    rw [falwaContours_perm]
    cases g.falwaContours pv levels m with
    | error e => rfl
    | ok out =>
      dsimp only
      rw [← mapM_except_map]
      congr 1
      funext p
      rw [falwaRow_perm]
      cases g.falwaRow pv m p.1 p.2 <;> rfl
  have hmean : ∀ row : Fin g.nlon → Option ℝ, meanO (fun i => row (σ i)) = meanO row := by
    intro row
    unfold meanO
    have h1 : (∀ i, (row (σ i)).isSome) ↔ ∀ i, (row i).isSome :=
      ⟨fun h i => by simpa using h (σ.symm i), fun h i => h _⟩
    rw [Equiv.sum_comp σ fun i => (row i).getD 0]
    simp only [h1]
  have hf : ∀ levels m, g.falwa (fun j i => pv j (σ i)) levels m = (g.falwa pv levels m).map (fun F j i => F j (σ i)) := by
    intro levels m
    unfold falwa
    rw [hc]
    cases g.falwaContoured pv levels m with
    | error e => rfl
    | ok rows =>
      have hk := meridionalKnots_map (fun (r : Fin g.nlon → Option ℝ) i => r (σ i)) rows (fun _ => some 0) (fun _ => some 0)
      dsimp only [Except.map]
      rw [hk]
      match meridionalKnots rows (fun _ => some 0) (fun _ => some 0) with
      | [] => rfl
      | [_] => rfl
      | a :: b :: l =>
        simp only [List.map_cons]
        congr 1
        funext j
        exact (callLinear_map (fun (r : Fin g.nlon → Option ℝ) i => r (σ i)) lerpRow lerpRow (fun _ => True)
          (fun _ _ _ _ _ _ _ => rfl) a b l (fun _ _ => trivial) (g.lat j)).symm
  have hfc : g.fawaContoured (fun j i => pv j (σ i)) levels m = g.fawaContoured pv levels m := by
    unfold fawaContoured
    rw [hc]
    cases g.falwaContoured pv levels m with
    | error e => rfl
    | ok rows =>
      dsimp only [Except.map]
      rw [List.map_map]
      congr 1
      apply List.map_congr_left
      intro r _
      exact congrArg _ (hmean r.2)
  refine ⟨hc levels m, hf levels m, hfc, ?_, ?_⟩
  · unfold fawa
    rw [hfc]
  · unfold stateFawa
    rw [hf]
    cases g.falwa pv with
    | error e => rfl
    | ok F =>
      dsimp only [Except.map]
      congr 1
      funext j
      exact hmean (F j)

/-- Non-vacuity of C27: rotation by one gridpoint is a permutation that moves every column, and FALWA of a wavy field
is a success. -/
example : (∃ σ : Equiv.Perm (Fin grid30.nlon), ∀ i, σ i ≠ i) ∧
    ∀ pv, ∃ F, grid30.falwa pv .none "boxcount" = .ok F := by
  constructor
  · rw [grid30_nlon]
    exact ⟨finRotate 12, by decide⟩
  · intro pv
    obtain ⟨_, F, _, hF, _⟩ := C24_nonneg_partial grid30 grid30_valid "boxcount" (.inl rfl) pv .none trivial
    exact ⟨F, hF⟩

end Barotropic
