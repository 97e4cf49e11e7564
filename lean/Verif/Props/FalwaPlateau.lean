import Verif.Props.FalwaError

/-!
# C116: with the default quadrature FALWA does not converge where the rearranged field is constant

All equivalent latitudes of contours lie in the part of the sphere where the rearranged field increases. FALWA is interpolated linearly to the rest of
the sphere, whatever the resolution.
-/

namespace Barotropic
open Real Set MeasureTheory Grid

/-- a field that is positive in the southern hemisphere only -/
noncomputable def southField (_ φ : ℝ) : ℝ := max 0 (-sin φ)

/-- its rearranged profile -/
noncomputable def southProfile (φ : ℝ) : ℝ := max 0 (sin φ)

theorem south_lipschitz : LipschitzField southField 0 1 := by
  refine ⟨fun _ _ _ => rfl, fun _ _ _ _ => by simp [southField], fun _ φ _ φ' _ => ?_⟩
  unfold southField
  have h := abs_max_sub_max_le_abs (-sin φ) (-sin φ') 0
  have h2 := abs_sin_sub_sin_le φ φ'
  rw [max_comm 0, max_comm 0, one_mul]
  refine h.trans ?_
  rw [show -sin φ - -sin φ' = -(sin φ - sin φ') by ring, abs_neg]
  exact h2

theorem south_rearranged : IsRearrangement southField southProfile := by
  refine ⟨?_, ?_, fun c => ?_⟩
  · unfold southProfile
    fun_prop
  · intro φ hφ φ' hφ' h
    exact max_le_max le_rfl (strictMonoOn_sin.monotoneOn hφ hφ' h)
  · unfold areaAbove sphereIntegral
    congr 2
    funext x
    have h := intervalIntegral.integral_comp_neg (a := -(π / 2)) (b := π / 2) fun φ => (if c ≤ southProfile φ then (1 : ℝ) else 0) * cos φ
    rw [neg_neg] at h
    rw [← h]
    refine intervalIntegral.integral_congr fun φ _ => ?_
    simp only [southField, southProfile, sin_neg, cos_neg]
    congr

theorem south_integral : ∫ φ in -(π / 2)..π / 2, max 0 (-sin φ) * cos φ = 1 / 2 := by
  have hp := pi_pos
  have hc : Continuous fun φ => max 0 (-sin φ) * cos φ := by fun_prop
  rw [← intervalIntegral.integral_add_adjacent_intervals (hc.intervalIntegrable (-(π / 2)) 0) (hc.intervalIntegrable 0 (π / 2))]
  have e1 : ∫ φ in -(π / 2)..0, max 0 (-sin φ) * cos φ = ∫ φ in -(π / 2)..0, -(sin φ * cos φ) := by
    refine intervalIntegral.integral_congr fun φ hφ => ?_
    rw [uIcc_of_le (by linarith)] at hφ
    have := sin_nonpos_of_nonpos_of_neg_pi_le hφ.2 (by linarith [hφ.1])
    rw [max_eq_right (by linarith)]
    ring
  have e2 : ∫ φ in 0..π / 2, max 0 (-sin φ) * cos φ = ∫ φ in 0..π / 2, (0 : ℝ) := by
    refine intervalIntegral.integral_congr fun φ hφ => ?_
    rw [uIcc_of_le (by linarith)] at hφ
    have := sin_nonneg_of_nonneg_of_le_pi hφ.1 (by linarith [hφ.2])
    rw [max_eq_left (by linarith)]
    ring
  rw [e1, e2, intervalIntegral.integral_neg, integral_sin_mul_cos₁]
  simp
  norm_num

/-- upper bound of the wave activity of the field -/
theorem south_displaced_le {q : ℝ} (hq : 0 ≤ q) (x φ : ℝ) : displaced southField q x φ ≤ 1 / 2 + 2 * q := by
  have hp := pi_pos
  rw [displaced_eq]
  have e : ∫ φ in -(π / 2)..π / 2, (max 0 (-sin φ) * cos φ + q * cos φ) = 1 / 2 + 2 * q := by
    rw [intervalIntegral.integral_add (Continuous.intervalIntegrable (by fun_prop) _ _) (Continuous.intervalIntegrable (by fun_prop) _ _),
      south_integral, intervalIntegral.integral_const_mul, integral_cos, sin_neg, sin_pi_div_two]
    ring
  rw [← e]
  refine intervalIntegral.integral_mono_on (by linarith) (crossed_integrable south_lipschitz.cont _ _ _)
    (Continuous.intervalIntegrable (by fun_prop) _ _) fun ψ hψ => ?_
  rw [← add_mul]
  refine mul_le_mul_of_nonneg_right ((crossed_abs _ _).2.trans ?_) (cos_lat hψ)
  unfold southField
  rw [abs_le]
  constructor <;> linarith [le_max_left 0 (-sin ψ)]

/-- wave activity in the middle of the southern hemisphere -/
theorem south_displaced_ge (x : ℝ) : 1 / 4 ≤ displaced southField 0 x (-(π / 4)) := by
  have hp := pi_pos
  have hi := crossed_integrable south_lipschitz.cont 0 x (-(π / 4))
  rw [displaced_eq]
  have h1 : IntervalIntegrable (fun φ => crossed (southField x φ - 0) (-(π / 4) ≤ φ) * cos φ) volume (-(π / 2)) (-(π / 4)) :=
    hi.mono_set (by rw [uIcc_of_le (by linarith), uIcc_of_le (by linarith)]; exact Icc_subset_Icc le_rfl (by linarith))
  have h2 : IntervalIntegrable (fun φ => crossed (southField x φ - 0) (-(π / 4) ≤ φ) * cos φ) volume (-(π / 4)) (π / 2) :=
    hi.mono_set (by rw [uIcc_of_le (by linarith), uIcc_of_le (by linarith)]; exact Icc_subset_Icc (by linarith) le_rfl)
  rw [← intervalIntegral.integral_add_adjacent_intervals h1 h2]
  have k2 : 0 ≤ ∫ φ in -(π / 4)..π / 2, crossed (southField x φ - 0) (-(π / 4) ≤ φ) * cos φ :=
    intervalIntegral.integral_nonneg (by linarith) fun φ hφ => mul_nonneg (crossed_abs _ _).1 (cos_lat ⟨by linarith [hφ.1], hφ.2⟩)
  have k1 : ∫ φ in -(π / 2)..-(π / 4), -(sin φ * cos φ) ≤ ∫ φ in -(π / 2)..-(π / 4), crossed (southField x φ - 0) (-(π / 4) ≤ φ) * cos φ := by
    refine intervalIntegral.integral_mono_on_of_le_Ioo (by linarith) (Continuous.intervalIntegrable (by fun_prop) _ _) h1 fun φ hφ => ?_
    have hc := cos_lat (φ := φ) ⟨hφ.1.le, by linarith [hφ.2]⟩
    have e : crossed (southField x φ - 0) (-(π / 4) ≤ φ) = max 0 (-sin φ) := by
      unfold crossed
      rw [if_pos (by unfold southField; simp), if_neg (not_le.2 hφ.2)]
      unfold southField
      ring
    rw [e, ← neg_mul]
    exact mul_le_mul_of_nonneg_right (le_max_right _ _) hc
  have e : ∫ φ in -(π / 2)..-(π / 4), -(sin φ * cos φ) = 1 / 4 := by
    rw [intervalIntegral.integral_neg, integral_sin_mul_cos₁, sin_neg, sin_neg, sin_pi_div_two, sin_pi_div_four]
    have : √2 ^ 2 = (2 : ℝ) := sq_sqrt (by norm_num)
    linarith [show (-(√2 / 2)) ^ 2 = √2 ^ 2 / 4 by ring]
  linarith

variable {g : Grid ℝ}

/-- The area enclosed by a contour of the sampled field does not exceed a hemisphere if the equator is on the grid. -/
theorem south_contourArea (hg : g.Valid) (hs : g.resolution * g.nlon = 360) {k : ℕ} (hk : g.nlat = 2 * k + 1) {q : ℝ} (hq : 0 < q) :
    g.contourArea "sptrapz" (fun j (i : Fin g.nlon) => southField (g.lam i) (g.phi j)) q ≤ 2 * π * g.rsphere ^ 2 := by
  have hp := pi_pos
  have hr := hg.rsphere_pos
  have hn := hg.nlat_ge
  have heq : g.phi k = 0 := by
    rw [phi_eq hg, hk]
    have hk0 : (k : ℝ) ≠ 0 := by
      have : k ≠ 0 := by omega
      exact_mod_cast this
    push_cast
    field_simp
    ring
  have hcol : g.colQuad "sptrapz" (fun _ => 1) (fun j => max 0 (-sin (g.phi j)) - q) ≤ g.rsphere := by
    obtain ⟨Z, hZ⟩ := interp_exists hg fun j => max 0 (-sin (g.phi j)) - q
    have h := col_integral g.rsphere (col fun _ : Fin g.nlat => (1 : ℝ)) (col fun j : Fin g.nlat => max 0 (-sin (g.phi j)) - q) (phi_seg hg)
      (fun φ => if 0 ≤ Z φ then cos φ else 0) (by
        intro j hj φ hφ
        have hj' : j + 1 < g.nlat := by omega
        have e2 := interp_aff hZ hj' (phi_seg hg j hj) (Ioo_subset_Icc_self hφ)
        unfold segFun
        rw [col_of_lt _ (show j < g.nlat by omega), col_of_lt _ hj', col_of_lt _ (show j < g.nlat by omega), col_of_lt _ hj']
        simp only [e2]
        unfold aff
        simp)
    rw [phi_last hg, phi_zero hg] at h
    have e : g.colQuad "sptrapz" (fun _ => 1) (fun j => max 0 (-sin (g.phi j)) - q) = g.rsphere * ∫ φ in -(π / 2)..π / 2, if 0 ≤ Z φ then cos φ else 0 := by
      rw [← h.2]
      unfold colQuad
      rw [if_neg (by decide)]
    rw [e]
    refine (mul_le_mul_of_nonneg_left ?_ hr.le).trans (mul_one _).le
    have i1 : IntervalIntegrable (fun φ => if 0 ≤ Z φ then cos φ else 0) volume (-(π / 2)) 0 :=
      h.1.mono_set (by rw [uIcc_of_le (by linarith), uIcc_of_le (by linarith)]; exact Icc_subset_Icc le_rfl (by linarith))
    have i2 : IntervalIntegrable (fun φ => if 0 ≤ Z φ then cos φ else 0) volume 0 (π / 2) :=
      h.1.mono_set (by rw [uIcc_of_le (by linarith), uIcc_of_le (by linarith)]; exact Icc_subset_Icc (by linarith) le_rfl)
    rw [← intervalIntegral.integral_add_adjacent_intervals i1 i2]
    have k1 : ∫ φ in -(π / 2)..0, (if 0 ≤ Z φ then cos φ else 0) ≤ ∫ φ in -(π / 2)..0, cos φ := by
      refine intervalIntegral.integral_mono_on (by linarith) i1 (Continuous.intervalIntegrable (by fun_prop) _ _) fun φ hφ => ?_
      have hc := cos_lat (φ := φ) ⟨hφ.1, by linarith [hφ.2]⟩
      split_ifs
      · exact le_rfl
      · exact hc
    have k2 : ∫ φ in 0..π / 2, (if 0 ≤ Z φ then cos φ else 0) = ∫ φ in 0..π / 2, (0 : ℝ) := by
      refine intervalIntegral.integral_congr fun φ hφ => ?_
      rw [uIcc_of_le (by linarith)] at hφ
      obtain ⟨j, hj, s1, s2⟩ := exists_segment (x := g.phi) (n := k) (by omega) (φ := φ) (by rw [phi_zero hg]; exact hφ.2) (by rw [heq]; exact hφ.1)
      have hj' : j + 1 < g.nlat := by omega
      have e2 := interp_aff hZ hj' (phi_seg hg j (by omega)) ⟨s1, s2⟩
      have hanti : ∀ a b : ℕ, a ≤ b → g.phi b ≤ g.phi a := fun a b h => (phi_strictAnti hg).antitone h
      have hz : ∀ a : ℕ, a ≤ k → max 0 (-sin (g.phi a)) = 0 := by
        intro a ha
        have h1 := hanti _ _ ha
        have h2 := hanti 0 a (by omega)
        rw [phi_zero hg] at h2
        have := sin_nonneg_of_nonneg_of_le_pi (x := g.phi a) (by linarith) (by linarith)
        rw [max_eq_left (by linarith)]
      have hv : Z φ = -q := by
        rw [e2]
        simp only [hz j (by omega), hz (j + 1) (by omega)]
        unfold aff
        ring
      rw [if_neg (by rw [hv]; linarith)]
    rw [k2, intervalIntegral.integral_zero, add_zero]
    refine k1.trans (le_of_eq ?_)
    rw [integral_cos, sin_neg, sin_pi_div_two, sin_zero]
    ring
  have hw := hg.nlon_pos
  unfold contourArea southField
  rw [Finset.sum_const, Finset.card_univ, Fintype.card_fin, nsmul_eq_mul, div_self hw.ne', mul_one]
  have e : g.rsphere * g.dlam * (g.nlon * g.colQuad "sptrapz" (fun _ => 1) fun j => max 0 (-sin (g.phi j)) - q)
      = g.rsphere * (g.dlam * g.nlon) * g.colQuad "sptrapz" (fun _ => 1) (fun j => max 0 (-sin (g.phi j)) - q) := by ring
  rw [e, dlam_nlon_eq hg hs]
  have := mul_le_mul_of_nonneg_left hcol (by positivity : 0 ≤ g.rsphere * (2 * π))
  linarith [show g.rsphere * (2 * π) * g.rsphere = 2 * π * g.rsphere ^ 2 by ring]

/-- C116, negative: with the default quadrature FALWA misses the local wave activity of some field by 5 % of the radius (times the amplitude of PV) in
the middle of a hemisphere, at arbitrarily fine resolution. -/
theorem C116_plateau_refuted : ∃ (Q : ℝ → ℝ → ℝ) (Lx Ly : ℝ) (P : ℝ → ℝ), LipschitzField Q Lx Ly ∧ IsRearrangement Q P ∧ ∀ r > 0, ∀ δ > 0,
    ∃ g : Grid ℝ, g.Valid ∧ g.resolution * g.nlon = 360 ∧ g.rsphere = r ∧ g.resolution ≤ δ ∧
      ∃ F, g.falwa (fun j (i : Fin g.nlon) => Q (g.lam i) (g.phi j)) .none "sptrapz" = .ok F ∧
        ∃ j : Fin g.nlat, g.phi j = -(π / 4) ∧ ∀ i, ∃ v, F j i = some v ∧ v + r / 20 ≤ localWaveActivity r Q P (g.lam i) (g.phi j) := by
  refine ⟨southField, 0, 1, southProfile, south_lipschitz, south_rearranged, fun r hr δ hδ => ?_⟩
  have hp := pi_pos
  have hp3 := pi_gt_three
  have hp4 : π < 3.15 := pi_lt_d2
  obtain ⟨k0, hk0⟩ := exists_nat_gt (45 / δ)
  obtain ⟨k, hk⟩ : ∃ k : ℕ, k = k0 + 2250 := ⟨_, rfl⟩
  have hkR : (k : ℝ) = k0 + 2250 := by rw [hk]; push_cast; rfl
  have hk0' : (0 : ℝ) ≤ k0 := Nat.cast_nonneg _
  have hkpos : (0 : ℝ) < k := by linarith
  obtain ⟨g, hg'⟩ : ∃ g : Grid ℝ, g = ⟨45 / k, r, 0, 0⟩ := ⟨_, rfl⟩
  have hres : g.resolution = 45 / k := by rw [hg']
  have hgr : g.rsphere = r := by rw [hg']
  have hnlon : g.nlon = 8 * k := by
    unfold nlon nlonOf
    rw [hres, show (360 : ℝ) / (45 / k) = ((8 * k : ℕ) : ℝ) by push_cast; field_simp; norm_num, Nat.floor_natCast]
  have hnlat : g.nlat = 4 * k + 1 := by
    unfold nlat nlatOf
    rw [hres, show (180 : ℝ) / (45 / k) = ((4 * k : ℕ) : ℝ) by push_cast; field_simp; norm_num, Nat.floor_natCast]
  have hg : g.Valid := by
    refine ⟨by rw [hres]; positivity, by rw [hgr]; exact hr, by omega, by omega, ?_⟩
    rw [hg']
    exact Nat.zero_le _
  have hs : g.resolution * g.nlon = 360 := by
    rw [hres, hnlon]
    push_cast
    field_simp
    norm_num
  have hstep : lonStep g ≤ 1 / 1700 := by
    unfold lonStep
    rw [hnlon, div_le_iff₀ (by push_cast; linarith)]
    push_cast
    linarith
  have hstep0 := lonStep_pos hg
  refine ⟨g, hg, hs, hgr, ?_, ?_⟩
  · rw [hres, div_le_iff₀ hkpos]
    rw [div_lt_iff₀ hδ] at hk0
    nlinarith
  obtain ⟨f, hf⟩ : ∃ f, f = fun (j : Fin g.nlat) (i : Fin g.nlon) => southField (g.lam i) (g.phi j) := ⟨_, rfl⟩
  have hphi : ∀ a : ℕ, g.phi a = π / 2 - a * (π / (4 * k)) := by
    intro a
    rw [phi_eq hg, hnlat]
    push_cast
    rw [add_sub_cancel_right]
  have hj45 : g.phi (3 * k) = -(π / 4) := by
    rw [hphi]
    push_cast
    field_simp
    ring
  have hlat45 : g.lat (3 * k) = -45 := by
    rw [lat_eq hg, hnlat]
    push_cast
    rw [add_sub_cancel_right]
    field_simp
    ring
  have hm : KnownMethod "sptrapz" := .inr rfl
  have hn : g.nlat = if "sptrapz" = "boxcount" then 2 * g.nlat else g.nlat := by rw [if_neg (by decide)]
  have hcount : ContourCount g .none "sptrapz" g.nlat := .inr ⟨rfl, hn⟩
  have hne : southField (g.lam 0) (g.phi 0) ≠ southField (g.lam 0) (g.phi (g.nlat - 1)) := by
    rw [phi_zero hg, phi_last hg]
    unfold southField
    rw [sin_neg, sin_pi_div_two]
    norm_num
  have h0lat : 0 < g.nlat := by omega
  have h0lon : 0 < g.nlon := by omega
  have hin : ∃ (j j' : Fin g.nlat) (i i' : Fin g.nlon), southField (g.lam i) (g.phi j) ≠ southField (g.lam i') (g.phi j') :=
    ⟨⟨0, h0lat⟩, ⟨g.nlat - 1, by omega⟩, ⟨0, h0lon⟩, ⟨0, h0lon⟩, hne⟩
  have hfr : fieldRange 0 1 = π := by unfold fieldRange; ring
  obtain ⟨E1, E2, E3⟩ := default_errors hg hs le_rfl zero_le_one "sptrapz" hn
  have E3' : falwaError g 0 1 g.nlat ≤ 1 / 100 := by
    rw [hfr] at E3
    refine E3.trans ?_
    have : (4 * 1 + 0 + 4 * π) * lonStep g ≤ 17 * (1 / 1700) := mul_le_mul (by linarith) hstep hstep0.le (by norm_num)
    linarith
  obtain ⟨rows, hrows, hrow⟩ := C116_contoured g hg hs "sptrapz" hm southField 0 1 south_lipschitz southProfile south_rearranged .none g.nlat hcount (.inr hin)
  obtain ⟨-, -, -, hbr⟩ := zonal_knots g hg hs "sptrapz" hm southField 0 1 south_lipschitz southProfile south_rearranged .none g.nlat hcount f hf _ rfl
  rw [← hf] at hrows ⊢
  obtain ⟨out, hout, -, -, hz, -⟩ := falwaContours_ok hg hm f (levels := .none) trivial
  have ho := (hz (by decide)).2
  have hr' := falwaContoured_of hm hout
  rw [hrows] at hr'
  injection hr' with hr'
  -- all contours are in the northern hemisphere
  have hinside := contourLevels_inside hg h0lon f (levels := .none) trivial (by
    obtain ⟨j, j', i, i', h⟩ := hin
    rw [hf]
    exact ⟨j, i, j', i', h⟩) "sptrapz"
  have hnorth : ∀ p ∈ rows, 0 ≤ p.1 := by
    intro p hp
    rw [hr', ho, List.map_map] at hp
    obtain ⟨q, hq, rfl⟩ := List.mem_map.1 hp
    obtain ⟨⟨j, i, hji⟩, -⟩ := hinside q hq
    have hq0 : 0 < q := by
      refine lt_of_le_of_lt ?_ hji
      rw [hf]
      exact le_max_left _ _
    have := south_contourArea hg hs (k := 2 * k) (by omega) hq0
    rw [← hf] at this
    have h2 := eqLat_antitone (g := g) (hg.rsphere_pos) this
    have h3 := eqLat_cap (g := g) hg.rsphere_pos (φ := 0) (by linarith) (by linarith)
    rw [sin_zero, sub_zero, mul_one] at h3
    rw [h3] at h2
    dsimp only [Function.comp]
    refine le_trans (le_of_eq ?_) h2
    unfold rad2deg
    ring
  -- and one of them is close to the equator
  have hlt : fieldMin f < fieldMax f := by
    refine lt_of_le_of_lt (fieldMin_le f ⟨0, h0lat⟩ ⟨0, h0lon⟩) (lt_of_lt_of_le ?_ (le_fieldMax f ⟨g.nlat - 1, by omega⟩ ⟨0, h0lon⟩))
    rw [hf]
    dsimp only
    rw [phi_zero hg, phi_last hg]
    unfold southField
    rw [sin_neg, sin_pi_div_two]
    norm_num
  obtain ⟨hch, hbr⟩ := hbr hlt
  have hdense : ∃ p ∈ rows, deg2rad p.1 < 1 / 100 := by
    have hsin : (9 / 1000 : ℝ) < sin (1 / 100) := by
      have := sin_gt_sub_cube (x := 1 / 100) (by norm_num)
      linarith
    have e0 : southProfile 0 = 0 := by unfold southProfile; simp
    have e1 : sin (1 / 100) ≤ southProfile (1 / 100) := le_max_right _ _
    have hd : 2 * (π * (2 * π * 0 + π * 1) / (2 * (g.nlat + 1)) + 2 * sampleError g 0 1) < southProfile (1 / 100) - southProfile 0 := by
      unfold fieldRange at E1
      have h1 : (2 * π * 0 + π * 1) * lonStep g ≤ 3.15 * (1 / 1700) := mul_le_mul (by linarith) hstep hstep0.le (by norm_num)
      rw [e0]
      linarith
    obtain ⟨p, hp, -, k2⟩ := contour_between (by positivity) (by
      have := latStep_pos hg
      unfold sampleError
      positivity) south_rearranged.increasing (fieldMin f) (fieldMax f) _ hch hbr (φ := 0) (φ' := 1 / 100)
      ⟨by linarith, by linarith⟩ ⟨by linarith, by linarith⟩ (by linarith) hd
    rw [← ho] at hp
    obtain ⟨p'', hp'', rfl⟩ := List.mem_map.1 hp
    refine ⟨_, hr' ▸ List.mem_map_of_mem hp'', k2⟩
  have hb90 : ∀ p ∈ rows, -90 < p.1 ∧ p.1 < 90 := fun p hp => (hrow p hp).1
  obtain ⟨a, b, l, hk', hF, ha, hlast, hsort, hmem⟩ := falwa_of hrows fun p hp => ⟨(hb90 p hp).1.le, (hb90 p hp).2.le⟩
  refine ⟨_, hF, ⟨3 * k, by omega⟩, hj45, fun i => ?_⟩
  have hlt' := knots_first_lt hk' ha hsort fun p hp => (hb90 p hp).1
  obtain ⟨p, hp, q, hq, r1, r2, r3, r4, r5, r6⟩ := callLinear_near lerpRow a b l (g.lat (3 * k)) hsort (.inl hlt') (by rw [ha, hlat45]; norm_num)
    (by rw [hlast, hlat45]; norm_num)
  rw [hlat45] at r2 r3 r4 r5 r6
  obtain ⟨s, hsr, hsd⟩ := hdense
  have hpS : p = (-90, fun _ => some 0) := by
    rcases (hmem p).1 hp with rfl | h | h
    · dsimp only at r2
      linarith
    · exact h
    · linarith [hnorth p h]
  have hqs := r6 s ((hmem s).2 (.inr (.inr hsr))) (by linarith [hnorth s hsr])
  have hqr : q ∈ rows := by
    rcases (hmem q).1 hq with rfl | rfl | h
    · dsimp only at hqs
      linarith [(hb90 s hsr).2]
    · dsimp only at r3
      linarith
    · exact h
  obtain ⟨v, hv, hva⟩ := (hrow q hqr).2 i
  have hq0 := hnorth q hqr
  have hqd : deg2rad q.1 < 1 / 100 := by
    refine lt_of_le_of_lt ?_ hsd
    unfold deg2rad
    gcongr
  have hqd0 : 0 ≤ deg2rad q.1 := by unfold deg2rad; positivity
  refine ⟨lerp (-90) q.1 (-45) 0 v, ?_, ?_⟩
  · dsimp only
    rw [hlat45, r4, hpS]
    unfold lerpRow
    dsimp only
    rw [hv, lerpO_some (by rw [hpS] at r1; exact r1)]
  -- the value at the southernmost contour
  obtain ⟨c, hc⟩ : ∃ c, c = cos (deg2rad q.1) := ⟨_, rfl⟩
  have hc99 : 0.99 ≤ c := by
    have := one_sub_sq_div_two_le_cos (x := deg2rad q.1)
    rw [hc]
    nlinarith
  have hsin : sin (deg2rad q.1) ≤ 1 / 100 := (sin_le hqd0).trans hqd.le
  have hsin0 : 0 ≤ sin (deg2rad q.1) := sin_nonneg_of_nonneg_of_le_pi hqd0 (by linarith)
  have hvb : v ≤ r / c * 0.53 := by
    have h1 := (abs_le.1 hva).2
    rw [hgr, ← hc] at h1
    unfold localWaveActivity at h1
    rw [← hc] at h1
    have hq' : southProfile (deg2rad q.1) = sin (deg2rad q.1) := max_eq_right hsin0
    rw [hq'] at h1
    have h2 := south_displaced_le hsin0 (g.lam i) (deg2rad q.1)
    have hrc : 0 ≤ r / c := by positivity
    have h3 := mul_le_mul_of_nonneg_left h2 hrc
    have h4 := mul_le_mul_of_nonneg_left E3' hrc
    have h5 := mul_le_mul_of_nonneg_left hsin hrc
    linarith
  have hvb2 : v ≤ r * 0.54 := by
    refine hvb.trans ?_
    rw [div_mul_eq_mul_div, div_le_iff₀ (by linarith)]
    nlinarith
  have hlerp : lerp (-90) q.1 (-45) 0 v ≤ r * 0.27 := by
    unfold lerp
    rw [sub_zero, add_zero, div_mul_eq_mul_div, div_le_iff₀ (by linarith)]
    have := mul_le_mul_of_nonneg_left hq0 hr.le
    linarith
  have hA : r * 0.35 ≤ localWaveActivity r southField southProfile (g.lam i) (g.phi (3 * k)) := by
    rw [hj45]
    unfold localWaveActivity
    have hP0 : southProfile (-(π / 4)) = 0 := by
      unfold southProfile
      rw [sin_neg, sin_pi_div_four]
      have := sqrt_nonneg (2 : ℝ)
      exact max_eq_left (by linarith)
    rw [hP0, cos_neg, cos_pi_div_four]
    have h2 := south_displaced_ge (g.lam i)
    have hs2 : (1.4 : ℝ) ≤ √2 := by
      apply le_sqrt_of_sq_le
      norm_num
    have e : r / (√2 / 2) = r * √2 := by
      have : √2 * √2 = (2 : ℝ) := mul_self_sqrt (by norm_num)
      rw [div_eq_iff (by positivity)]
      linear_combination (-r / 2) * this
    rw [e]
    have h3 : r * 1.4 ≤ r * √2 := mul_le_mul_of_nonneg_left hs2 hr.le
    have h4 := mul_le_mul h3 h2 (by norm_num) (by positivity)
    linarith
  linarith

/-- solid-body rotation has a strictly increasing profile and meets the conditions of `C116_converges` for both quadratures -/
example : LipschitzField (fun _ φ => sin φ) 0 1 ∧ IsRearrangement (fun _ φ => sin φ) sin ∧ StrictMonoOn sin latitudes :=
  ⟨⟨fun _ _ _ => rfl, fun _ _ _ _ => by simp, fun _ φ _ φ' _ => by rw [one_mul]; exact abs_sin_sub_sin_le φ φ'⟩,
    ⟨continuous_sin.continuousOn, strictMonoOn_sin.monotoneOn, fun _ => rfl⟩, strictMonoOn_sin⟩

end Barotropic
