import Verif.Props.WaveguideLimit

/-!
# C149: waveguides of zonal flows
-/

namespace Barotropic
open Grid FloatX

variable {g : Grid ℝ}

theorem signedRoot_close (x y : ℝ) : |((SignType.sign x : ℝ) * Real.sqrt |x|) - (SignType.sign y * Real.sqrt |y|)| ≤ Real.sqrt (2 * |x - y|) := by
  have key : ∀ a b : ℝ, 0 ≤ b → b ≤ a → |Real.sqrt a - Real.sqrt b| ≤ Real.sqrt (2 * |a - b|) := by
    intro a b hb hab
    rw [abs_of_nonneg (sub_nonneg.mpr (Real.sqrt_le_sqrt hab)), abs_of_nonneg (sub_nonneg.mpr hab), Real.le_sqrt (sub_nonneg.mpr (Real.sqrt_le_sqrt hab)) (by linarith)]
    have h1 := Real.sq_sqrt hb
    have h2 := Real.sq_sqrt (hb.trans hab)
    nlinarith [Real.sqrt_nonneg b, Real.sqrt_le_sqrt hab]
  have key' : ∀ a b : ℝ, 0 ≤ a → 0 ≤ b → |Real.sqrt a - Real.sqrt b| ≤ Real.sqrt (2 * |a - b|) := by
    intro a b ha hb
    rcases le_total b a with h | h
    · exact key a b hb h
    · rw [abs_sub_comm, abs_sub_comm a b]
      exact key b a ha h
  have opp : ∀ a b : ℝ, 0 ≤ a → 0 ≤ b → Real.sqrt a + Real.sqrt b ≤ Real.sqrt (2 * (a + b)) := by
    intro a b ha hb
    rw [Real.le_sqrt (by positivity) (by positivity)]
    nlinarith [Real.sq_sqrt ha, Real.sq_sqrt hb, sq_nonneg (Real.sqrt a - Real.sqrt b)]
  have pos : ∀ z : ℝ, 0 ≤ z → (SignType.sign z : ℝ) * Real.sqrt |z| = Real.sqrt z := by
    intro z hz
    rcases hz.eq_or_lt with rfl | h
    · simp
    · rw [sign_pos h, abs_of_pos h]
      simp
  have neg : ∀ z : ℝ, z ≤ 0 → (SignType.sign z : ℝ) * Real.sqrt |z| = -Real.sqrt (-z) := by
    intro z hz
    rcases hz.eq_or_lt with rfl | h
    · simp
    · rw [sign_neg h, abs_of_neg h]
      simp
  rcases le_total 0 x with hx | hx <;> rcases le_total 0 y with hy | hy
  · rw [pos x hx, pos y hy]
    exact key' x y hx hy
  · rw [pos x hx, neg y hy, sub_neg_eq_add, abs_of_nonneg (by positivity), abs_of_nonneg (show 0 ≤ x - y by linarith), sub_eq_add_neg]
    exact opp x (-y) hx (by linarith)
  · rw [neg x hx, pos y hy, abs_sub_comm x y, abs_of_nonneg (show 0 ≤ y - x by linarith), sub_eq_add_neg, ← neg_add, abs_neg, abs_of_nonneg (by positivity), sub_eq_add_neg,
      add_comm (Real.sqrt _)]
    exact opp y (-x) hy (by linarith)
  · rw [neg x hx, neg y hy, show -Real.sqrt (-x) - -Real.sqrt (-y) = Real.sqrt (-y) - Real.sqrt (-x) by ring, show x - y = -y - -x by ring]
    exact key' (-y) (-x) (by linarith) (by linarith)

/-- the square of the stationary wavenumber is 0 at the poles -/
theorem squared_pole (hg : g.Valid) (u p : ProfileOrField g) (order : Order) {minU : ℝ} (hm : 0 ≤ minU) (s : Fin g.nlat → FloatX)
    (hs : g.stationaryWavenumber u (some p) order minU "squared" = .ok (.real s)) (j : Fin g.nlat) (hj : (j : ℕ) = 0 ∨ (j : ℕ) = g.nlat - 1) : s j = fin 0 := by
  rcases stationary_eq u (some p) order minU with ⟨e, h⟩ | ⟨q, d, h1, h2, h⟩
  · rw [h] at hs; cases hs
  · simp only [ksPv, Except.ok.injEq] at h1
    subst h1
    have := C65_values hg u p order hm s d hs h2 j
    have hd := derivativeProfile_pole _ _ _ h2 j hj
    rcases le_or_gt |u.zonalMean j| minU with hu | hu
    · exact (this.1 hu).2.2 hd
    · rw [this.2 hu, hd]
      simp

/-- C149: the waveguides that are extracted from the stationary wavenumber computed from smooth zonal-mean PV and wind (of a state, say) on fine grids are those
of the exact stationary wavenumber, with edges accurate to second order. The wind does not vanish (it may be proportional to the cosine of latitude at the poles)
and exceeds the threshold `minU` at the gridpoints other than the poles. -/
theorem C149_stationary {r : ℝ} (hr : 0 < r) {Q U : ℝ → ℝ} (hQ : ContDiff ℝ 5 Q) {u0 : ℝ} (hu0 : 0 < u0)
    (hU : ∀ φ ∈ Set.Icc (-(Real.pi / 2)) (Real.pi / 2), u0 * Real.cos φ ≤ |U φ|) {c : ℝ} {W : List (ℝ × ℝ)} (hW : SimpleGuides (stationaryReal r Q U) c W) :
    ∃ h0 > 0, ∃ K > 0, ∀ g : Grid ℝ, g.Valid → g.rsphere = r → g.resolution * ((g.nlat : ℝ) - 1) = 180 → g.resolution < h0 →
      ∀ (order : Order) (_ : order = .none ∨ order = .int 4) (u p : ProfileOrField g) (_ : ∀ j, p.zonalMean j = Q (g.phi j))
        (_ : ∀ j, u.zonalMean j = U (g.phi j)) (minU : ℝ) (_ : 0 ≤ minU) (_ : ∀ j : Fin g.nlat, 0 < (j : ℕ) → (j : ℕ) < g.nlat - 1 → minU < |U (g.phi j)|),
        ∃ ks, g.stationaryWavenumber u (some p) order minU "complex" = .ok (.complex ks) ∧
          ∃ C : List (ℝ × ℝ), g.extractKsWaveguides (List.ofFn ks) (fin c, fin 0) = .ok (C.map toX) ∧
            List.Forall₂ (fun p q => |p.1 - q.1| ≤ K * g.resolution ^ 2 ∧ |p.2 - q.2| ≤ K * g.resolution ^ 2) C W := by
  obtain ⟨M, hM⟩ : ∃ M, ∀ φ ∈ Set.Icc (-(Real.pi / 2)) (Real.pi / 2), |iteratedDeriv 5 Q φ| ≤ M := by
    obtain ⟨M, hM⟩ := (isCompact_Icc (a := -(Real.pi / 2)) (b := Real.pi / 2)).exists_bound_of_continuousOn (hQ.continuous_iteratedDeriv 5 le_rfl).continuousOn
    exact ⟨M, fun φ hφ => by simpa using hM φ hφ⟩
  have hM0 : 0 ≤ M := (abs_nonneg _).trans (hM 0 ⟨by have := Real.pi_pos; linarith, by have := Real.pi_pos; linarith⟩)
  obtain ⟨A, hA⟩ : ∃ A, A = Real.sqrt (2 * (r / u0 * M)) := ⟨_, rfl⟩
  have hA0 : 0 ≤ A := by rw [hA]; exact Real.sqrt_nonneg _
  obtain ⟨h0, hh0, K, hK, H⟩ := C149_converges hW hA0
  refine ⟨min h0 45, by positivity, K, hK, fun g hg hgr hsp hlt order ho u p hp hu minU hm hmin => ?_⟩
  have hres := hg.res_pos
  have hlt0 := hlt.trans_le (min_le_left _ _)
  have hlt1 := hlt.trans_le (min_le_right _ _)
  have hn2 := hg.nlat_ge
  have hlat : 5 ≤ g.nlat := by
    by_contra h
    have : (g.nlat : ℝ) ≤ 4 := by exact_mod_cast (show g.nlat ≤ 4 by omega)
    nlinarith
  have hn1 : (0 : ℝ) < (g.nlat : ℝ) - 1 := by
    have : (5 : ℝ) ≤ g.nlat := by exact_mod_cast hlat
    linarith
  have hpi : Real.pi / ((g.nlat : ℝ) - 1) = g.resolution * (Real.pi / 180) := by
    rw [div_eq_iff hn1.ne']
    linear_combination (-Real.pi / 180) * hsp
  obtain ⟨s, hs, hx⟩ := C113_given hg hsp hlat order ho u p hQ hp hu hM hm
  obtain ⟨ks, rs, hc, -, hv⟩ := C65_variants u (some p) order minU s hs
  have hval : ∀ j : Fin g.nlat, ∃ x, s j = fin x ∧ |x - stationarySq r Q U (g.phi j)| ≤ r / u0 * M * g.resolution ^ 4 := by
    intro j
    by_cases hj : (j : ℕ) = 0 ∨ (j : ℕ) = g.nlat - 1
    · refine ⟨0, squared_pole hg u p order hm s hs j hj, ?_⟩
      have hcos : Real.cos (g.phi j) = 0 := by
        rcases hj with h | h
        · rw [h, phi_zero hg, Real.cos_pi_div_two]
        · rw [h, phi_last hg, Real.cos_neg, Real.cos_pi_div_two]
      unfold stationarySq mercatorWind
      rw [hcos, div_zero, div_zero, sub_zero, abs_zero]
      positivity
    · have h0 : 0 < (j : ℕ) := by omega
      have h1 : (j : ℕ) < g.nlat - 1 := by omega
      obtain ⟨x, e, hb⟩ := hx j h0 h1 (hmin j h0 h1)
      refine ⟨x, e, ?_⟩
      rw [hgr] at hb
      have hφ := phi_mem hg j.isLt
      have hcos : 0 < Real.cos (g.phi j) := by
        apply Real.cos_pos_of_mem_Ioo
        constructor
        · rw [← phi_last hg]; exact phi_strictAnti hg h1
        · rw [← phi_zero hg]; exact phi_strictAnti hg h0
      have hUj := hU (g.phi j) hφ
      have hUpos : 0 < |U (g.phi j)| := lt_of_lt_of_le (by positivity) hUj
      refine hb.trans ?_
      have e1 : r * Real.cos (g.phi j) ^ 2 / |U (g.phi j)| ≤ r / u0 := by
        rw [div_le_div_iff₀ hUpos hu0]
        have hc1 := Real.cos_le_one (g.phi j)
        have : Real.cos (g.phi j) ^ 2 * u0 ≤ |U (g.phi j)| := by nlinarith
        nlinarith
      have e2 : error4 g.nlat j ≤ 1 := by
        unfold error4
        rw [if_neg (by omega)]
        split_ifs <;> norm_num
      have e0 : 0 ≤ error4 g.nlat j := by
        unfold error4
        split_ifs <;> norm_num
      have e3 : (Real.pi / ((g.nlat : ℝ) - 1)) ^ 4 ≤ g.resolution ^ 4 := by
        rw [hpi]
        have := Real.pi_lt_four
        have := Real.pi_pos
        exact pow_le_pow_left₀ (by positivity) (by nlinarith) 4
      have e4 : error4 g.nlat j * M * (Real.pi / ((g.nlat : ℝ) - 1)) ^ 4 ≤ 1 * M * g.resolution ^ 4 := by gcongr
      calc r * Real.cos (g.phi j) ^ 2 / |U (g.phi j)| * (error4 g.nlat j * M * (Real.pi / ((g.nlat : ℝ) - 1)) ^ 4)
          ≤ r / u0 * (1 * M * g.resolution ^ 4) := mul_le_mul e1 e4 (by positivity) (by positivity)
        _ = r / u0 * M * g.resolution ^ 4 := by ring
  choose x hx1 hx2 using hval
  obtain ⟨w, hw⟩ : ∃ w : ℕ → ℝ, w = fun j => if h : j < g.nlat then (SignType.sign (x ⟨j, h⟩) : ℝ) * Real.sqrt |x ⟨j, h⟩| else 0 := ⟨_, rfl⟩
  have hwj : ∀ j : Fin g.nlat, w j = (SignType.sign (x j) : ℝ) * Real.sqrt |x j| := by
    intro j
    rw [hw]
    exact dif_pos j.isLt
  refine ⟨ks, hc, H g hg hsp hlt0 ks (fin c, fin 0) w ?_ (fun j => ?_) fun j hj => ?_⟩
  · simp [realVariant, FloatX.sub, FloatX.add, FloatX.neg]
  · have h1 := (hv j).1
    have h2 := (hv j).2.1
    rw [h1, hx1 j] at h2
    rw [hwj]
    exact h2.symm
  · have := hwj ⟨j, hj⟩
    rw [show w j = _ from this]
    unfold stationaryReal
    have hphi : g.lat j * Real.pi / 180 = g.phi j := by
      unfold phi deg2rad
      exact mul_div_assoc _ _ _
    rw [hphi]
    refine (signedRoot_close _ _).trans ?_
    have : 2 * |x ⟨j, hj⟩ - stationarySq r Q U (g.phi j)| ≤ 2 * (r / u0 * M) * (g.resolution ^ 2) ^ 2 := by
      have := hx2 ⟨j, hj⟩
      rw [← pow_mul]
      linarith
    refine (Real.sqrt_le_sqrt this).trans_eq ?_
    rw [Real.sqrt_mul (by positivity), Real.sqrt_sq (by positivity), hA]

/-! ### Solid-body rotation -/

/-- The square of the stationary wavenumber of solid-body rotation -/
theorem stationarySq_solid {r : ℝ} (hr : r ≠ 0) {Ω A : ℝ} (hA : A ≠ 0) (φ : ℝ) :
    stationarySq r (fun φ => 2 * (Ω + A) * Real.sin φ) (fun φ => r * A * Real.cos φ) φ = 2 * (Ω + A) / A * Real.cos φ ^ 2 := by
  have hd : deriv (fun φ => 2 * (Ω + A) * Real.sin φ) φ = 2 * (Ω + A) * Real.cos φ := ((Real.hasDerivAt_sin φ).const_mul _).deriv
  unfold stationarySq mercatorBeta mercatorWind
  rw [hd]
  by_cases hc : Real.cos φ = 0
  · simp [hc]
  · field_simp

theorem stationaryReal_solid {r : ℝ} (hr : r ≠ 0) {Ω A : ℝ} (hΩ : 0 ≤ Ω) (hA : 0 < A) {y : ℝ} (h1 : -90 ≤ y) (h2 : y ≤ 90) :
    stationaryReal r (fun φ => 2 * (Ω + A) * Real.sin φ) (fun φ => r * A * Real.cos φ) y =
      Real.sqrt (2 * (Ω + A) / A) * Real.cos (y * Real.pi / 180) := by
  have hp := Real.pi_pos
  have hc : 0 ≤ Real.cos (y * Real.pi / 180) := Real.cos_nonneg_of_mem_Icc ⟨by nlinarith, by nlinarith⟩
  have hk : 0 < 2 * (Ω + A) / A := by positivity
  unfold stationaryReal
  rw [stationarySq_solid hr hA.ne']
  rcases hc.eq_or_lt with h | h
  · rw [← h]
    simp
  · rw [sign_pos (by positivity), abs_of_pos (by positivity), Real.sqrt_mul hk.le, Real.sqrt_sq hc]
    simp

/-- Solid-body rotation has one waveguide for all wavenumbers below the maximum of the stationary wavenumber. It is symmetric about the equator. -/
theorem solid_guides {r : ℝ} (hr : r ≠ 0) {Ω A : ℝ} (hΩ : 0 ≤ Ω) (hA : 0 < A) {c : ℝ} (hc : 0 < c) (hc1 : c < Real.sqrt (2 * (Ω + A) / A)) :
    SimpleGuides (stationaryReal r (fun φ => 2 * (Ω + A) * Real.sin φ) fun φ => r * A * Real.cos φ) c
      [(Real.arccos (c / Real.sqrt (2 * (Ω + A) / A)) * 180 / Real.pi, -(Real.arccos (c / Real.sqrt (2 * (Ω + A) / A)) * 180 / Real.pi))] := by
  have hp := Real.pi_pos
  obtain ⟨f, hf⟩ : ∃ f, f = stationaryReal r (fun φ => 2 * (Ω + A) * Real.sin φ) fun φ => r * A * Real.cos φ := ⟨_, rfl⟩
  obtain ⟨k, hk⟩ : ∃ k, k = Real.sqrt (2 * (Ω + A) / A) := ⟨_, rfl⟩
  have hfy : ∀ y, -90 ≤ y → y ≤ 90 → f y = k * Real.cos (y * Real.pi / 180) := fun y h1 h2 => by
    rw [hf, hk]
    exact stationaryReal_solid hr hΩ hA h1 h2
  rw [← hf, ← hk]
  rw [← hk] at hc1
  have hk0 : 0 < k := hc.trans hc1
  obtain ⟨θ, hθ⟩ : ∃ θ, θ = Real.arccos (c / k) := ⟨_, rfl⟩
  have q1 : c / k < 1 := by rwa [div_lt_one hk0]
  have q0 : 0 < c / k := by positivity
  have hcos : Real.cos θ = c / k := by rw [hθ]; exact Real.cos_arccos (by linarith) q1.le
  have hθ0 : 0 < θ := by rw [hθ]; exact Real.arccos_pos.mpr q1
  have hθ1 : θ < Real.pi / 2 := by rw [hθ]; exact Real.arccos_lt_pi_div_two.mpr q0
  rw [← hθ]
  obtain ⟨y0, hy0⟩ : ∃ y0, y0 = θ * 180 / Real.pi := ⟨_, rfl⟩
  rw [← hy0]
  have hyθ : y0 * Real.pi / 180 = θ := by rw [hy0]; field_simp
  have y1 : 0 < y0 := by rw [hy0]; positivity
  have y2 : y0 < 90 := by
    by_contra h
    rw [not_lt] at h
    nlinarith
  have hder : ∀ y, HasDerivAt (fun y => k * Real.cos (y * Real.pi / 180)) (k * (-Real.sin (y * Real.pi / 180) * (Real.pi / 180))) y := by
    intro y
    have e : HasDerivAt (fun y : ℝ => y * Real.pi / 180) (Real.pi / 180) y := by
      have := ((hasDerivAt_id y).mul_const Real.pi).div_const 180
      rwa [one_mul] at this
    exact ((Real.hasDerivAt_cos _).comp y e).const_mul k
  have hloc : ∀ y, -90 < y → y < 90 → f =ᶠ[nhds y] fun y => k * Real.cos (y * Real.pi / 180) := by
    intro y h1 h2
    filter_upwards [Ioo_mem_nhds h1 h2] with z hz
    exact hfy z hz.1.le hz.2.le
  have hsmooth : ∀ y, -90 < y → y < 90 → ContDiffAt ℝ 2 f y := by
    intro y h1 h2
    refine ContDiffAt.congr_of_eventuallyEq ?_ (hloc y h1 h2)
    exact ((Real.contDiff_cos.comp ((contDiff_id.mul contDiff_const).div_const 180)).const_smul k).contDiffAt
  have hdf : ∀ y, -90 < y → y < 90 → deriv f y = k * (-Real.sin (y * Real.pi / 180) * (Real.pi / 180)) := by
    intro y h1 h2
    rw [(hloc y h1 h2).deriv_eq, (hder y).deriv]
  have hsin : 0 < Real.sin θ := Real.sin_pos_of_pos_of_lt_pi hθ0 (by linarith)
  have hneg : -y0 * Real.pi / 180 = -θ := by rw [← hyθ]; ring
  have hin : ∀ y, -y0 < y → y < y0 → c < f y := by
    intro y h1 h2
    rw [hfy y (by linarith) (by linarith), ← div_lt_iff₀' hk0, ← hcos, ← Real.cos_abs (y * Real.pi / 180)]
    refine Real.cos_lt_cos_of_nonneg_of_le_pi (abs_nonneg _) (by linarith) ?_
    rw [abs_lt, ← hyθ]
    constructor
    · rw [← neg_div, ← neg_mul]
      gcongr
    · gcongr
  have hout : ∀ y, -90 ≤ y → y ≤ 90 → (y0 < y ∨ y < -y0) → f y < c := by
    intro y h1 h2 h3
    rw [hfy y h1 h2, ← lt_div_iff₀' hk0, ← hcos, ← Real.cos_abs (y * Real.pi / 180)]
    have hb : |y * Real.pi / 180| ≤ Real.pi := by
      rw [abs_le]
      constructor <;> nlinarith
    refine Real.cos_lt_cos_of_nonneg_of_le_pi hθ0.le hb ?_
    rw [lt_abs, ← hyθ]
    refine h3.imp (fun h => by gcongr) fun h => ?_
    rw [← neg_div, ← neg_mul]
    have : y0 < -y := by linarith
    gcongr
  refine ⟨?_, ?_, List.pairwise_singleton _ _, ?_, ?_, ?_, ?_⟩
  · exact ((Real.continuous_cos.comp ((continuous_id.mul continuous_const).div_const 180)).const_smul k).continuousOn.congr fun y hy => hfy y hy.1 hy.2
  · intro q hq
    rw [List.mem_singleton.mp hq]
    refine ⟨?_, ?_, ?_⟩ <;> dsimp only <;> linarith
  · intro q hq
    rw [List.mem_singleton.mp hq]
    exact hin
  · intro y h1 h2 h3
    exact hout y h1 h2 (h3 _ List.mem_cons_self)
  · intro q hq
    rw [List.mem_singleton.mp hq]
    refine .inr ⟨?_, hsmooth y0 (by linarith) y2, ?_⟩
    · dsimp only
      rw [hfy y0 (by linarith) y2.le, hyθ, hcos]
      field_simp
    · dsimp only
      rw [hdf y0 (by linarith) y2, hyθ]
      have : 0 < k * (Real.sin θ * (Real.pi / 180)) := by positivity
      linarith
  · intro q hq
    rw [List.mem_singleton.mp hq]
    refine .inr ⟨?_, hsmooth (-y0) (by linarith) (by linarith), ?_⟩
    · dsimp only
      rw [hfy (-y0) (by linarith) (by linarith), hneg, Real.cos_neg, hcos]
      field_simp
    · dsimp only
      rw [hdf (-y0) (by linarith) (by linarith), hneg, Real.sin_neg, neg_neg]
      positivity

/-- C149: on fine grids solid-body rotation has one waveguide for every wavenumber below the maximum of the stationary wavenumber. It extends across the equator
and its edges are, up to second order, where the cosine of latitude is the wavenumber divided by the maximum. -/
theorem C149_solid_rotation {r : ℝ} (hr : 0 < r) {Ω A : ℝ} (hΩ : 0 ≤ Ω) (hA : 0 < A) {c : ℝ} (hc : 0 < c) (hc1 : c < Real.sqrt (2 * (Ω + A) / A)) :
    ∃ h0 > 0, ∃ K > 0, ∀ g : Grid ℝ, g.Valid → g.rsphere = r → g.resolution * ((g.nlat : ℝ) - 1) = 180 → g.resolution < h0 →
      ∀ (order : Order) (_ : order = .none ∨ order = .int 4) (u p : ProfileOrField g) (_ : ∀ j, p.zonalMean j = 2 * (Ω + A) * Real.sin (g.phi j))
        (_ : ∀ j, u.zonalMean j = r * A * Real.cos (g.phi j)) (minU : ℝ) (_ : 0 ≤ minU)
        (_ : ∀ j : Fin g.nlat, 0 < (j : ℕ) → (j : ℕ) < g.nlat - 1 → minU < |r * A * Real.cos (g.phi j)|),
        ∃ ks n s, g.stationaryWavenumber u (some p) order minU "complex" = .ok (.complex ks) ∧
          g.extractKsWaveguides (List.ofFn ks) (fin c, fin 0) = .ok [(fin n, fin s)] ∧
          |n - Real.arccos (c / Real.sqrt (2 * (Ω + A) / A)) * 180 / Real.pi| ≤ K * g.resolution ^ 2 ∧
          |s + Real.arccos (c / Real.sqrt (2 * (Ω + A) / A)) * 180 / Real.pi| ≤ K * g.resolution ^ 2 := by
  obtain ⟨h0, hh0, K, hK, H⟩ := C149_stationary hr (Q := fun φ => 2 * (Ω + A) * Real.sin φ) (U := fun φ => r * A * Real.cos φ) (by fun_prop) (u0 := r * A)
    (by positivity) (fun φ _ => le_abs_self _) (solid_guides hr.ne' hΩ hA hc hc1)
  refine ⟨h0, hh0, K, hK, fun g hg hgr hsp hlt order ho u p hp hu minU hm hmin => ?_⟩
  obtain ⟨ks, e1, C, e2, e3⟩ := H g hg hgr hsp hlt order ho u p hp hu minU hm hmin
  cases e3 with
  | cons h t =>
    rename_i q C'
    cases t
    refine ⟨ks, q.1, q.2, e1, e2, h.1, ?_⟩
    have := h.2
    rwa [sub_neg_eq_add] at this

/-- The derivative of PV of solid-body rotation at gridpoints that are not next to the poles -/
theorem solid_derivative (hg : g.Valid) (hsp : g.resolution * ((g.nlat : ℝ) - 1) = 180) {B : ℝ} (hB : 0 < B) :
    ∃ l > 0, ∀ j, 2 ≤ j → j + 2 < g.nlat →
      stencil4 false g.nlat (col fun j : Fin g.nlat => B * Real.sin (g.phi j)) j / 12 / g.dphi = l * Real.cos (g.phi j) := by
  have hn2 := hg.nlat_ge
  have hn1 : (0 : ℝ) < (g.nlat : ℝ) - 1 := by
    have : (3 : ℝ) ≤ g.nlat := by exact_mod_cast hn2
    linarith
  obtain ⟨h, hh⟩ : ∃ h, h = Real.pi / ((g.nlat : ℝ) - 1) := ⟨_, rfl⟩
  have hh0 : 0 < h := by rw [hh]; exact div_pos Real.pi_pos hn1
  have hh1 : h ≤ Real.pi := by
    rw [hh, div_le_iff₀ hn1]
    have : (3 : ℝ) ≤ g.nlat := by exact_mod_cast hn2
    nlinarith [Real.pi_pos]
  have hphi : ∀ j, g.phi j = Real.pi / 2 - j * h := fun j => by rw [hh]; exact phi_eq hg j
  have hd : g.dphi = -h := by
    have : h = g.resolution * (Real.pi / 180) := by
      rw [hh, div_eq_iff hn1.ne']
      linear_combination (-Real.pi / 180) * hsp
    rw [this]
    unfold dphi Grid.dlat deg2rad
    ring
  by_cases hn5 : g.nlat < 5
  · exact ⟨1, one_pos, fun j h1 h2 => by omega⟩
  have hsin : 0 < Real.sin h := by
    refine Real.sin_pos_of_pos_of_lt_pi hh0 ?_
    rw [hh, div_lt_iff₀ hn1]
    have : (5 : ℝ) ≤ g.nlat := by exact_mod_cast not_lt.mp hn5
    nlinarith [Real.pi_pos]
  refine ⟨B * ((8 - 2 * Real.cos h) * Real.sin h) / (6 * h), ?_, fun j h1 h2 => ?_⟩
  · have := Real.cos_le_one h
    have : 0 < 8 - 2 * Real.cos h := by linarith
    positivity
  · have c : ∀ i < g.nlat, col (fun j : Fin g.nlat => B * Real.sin (g.phi j)) i = B * Real.sin (g.phi i) := fun i hi => col_of_lt _ hi
    unfold stencil4
    rw [if_neg (by omega), if_neg (by omega), if_neg (by omega), if_neg (by omega), c _ (by omega), c _ (by omega), c _ (by omega), c _ (by omega)]
    obtain ⟨x, hx⟩ : ∃ x, x = g.phi j := ⟨_, rfl⟩
    have e1 : g.phi (j - 2) = x + 2 * h := by
      rw [hx, hphi, hphi, Nat.cast_sub h1]
      push_cast
      ring
    have e2 : g.phi (j - 1) = x + h := by
      rw [hx, hphi, hphi, Nat.cast_sub (by omega)]
      push_cast
      ring
    have e3 : g.phi (j + 1) = x - h := by
      rw [hx, hphi, hphi]
      push_cast
      ring
    have e4 : g.phi (j + 2) = x - 2 * h := by
      rw [hx, hphi, hphi]
      push_cast
      ring
    rw [e1, e2, e3, e4, ← hx, hd, Real.sin_add, Real.sin_add, Real.sin_sub, Real.sin_sub, Real.sin_two_mul]
    field_simp
    ring

/-- C149: no waveguide of solid-body rotation satisfies the condition for waveguides in midlatitudes, on any grid of at most 10 degrees and for any wavenumber, as
examples/waveguidability-wirth-2020.ipynb states. -/
theorem C149_not_midlatitude (hg : g.Valid) (hsp : g.resolution * ((g.nlat : ℝ) - 1) = 180) (hres : g.resolution ≤ 10) {Ω A : ℝ} (hΩ : 0 ≤ Ω) (hA : 0 < A)
    {order : Order} (ho : order = .none ∨ order = .int 4) (u p : ProfileOrField g) (hp : ∀ j, p.zonalMean j = 2 * (Ω + A) * Real.sin (g.phi j))
    (hu : ∀ j, u.zonalMean j = g.rsphere * A * Real.cos (g.phi j)) {minU : ℝ} (hm : 0 ≤ minU)
    (hmin : ∀ j : Fin g.nlat, 0 < (j : ℕ) → (j : ℕ) < g.nlat - 1 → minU < |g.rsphere * A * Real.cos (g.phi j)|) (c : ℝ) :
    ∃ ks, g.stationaryWavenumber u (some p) order minU "complex" = .ok (.complex ks) ∧
      ∃ C : List (ℝ × ℝ), g.extractKsWaveguides (List.ofFn ks) (fin c, fin 0) = .ok (C.map toX) ∧ ∀ p ∈ C, ¬ Midlatitude p := by
  have hr := hg.rsphere_pos
  have hrp := hg.res_pos
  have hn2 := hg.nlat_ge
  have hp0 := Real.pi_pos
  have hlat5 : 5 ≤ g.nlat := by
    by_contra h
    have : (g.nlat : ℝ) ≤ 4 := by exact_mod_cast (show g.nlat ≤ 4 by omega)
    nlinarith
  obtain ⟨s, hsdef⟩ : ∃ s : Fin g.nlat → FloatX, s = fun j : Fin g.nlat => ksSquared (Real.cos (g.phi j) ^ 2 * g.rsphere *
    (stencil4 false g.nlat (col fun j : Fin g.nlat => 2 * (Ω + A) * Real.sin (g.phi j)) j / 12 / g.dphi)) (u.zonalMean j) minU := ⟨_, rfl⟩
  have hpz : p.zonalMean = fun j : Fin g.nlat => 2 * (Ω + A) * Real.sin (g.phi j) := funext hp
  have hd := (derivativeProfile_four hlat5 ho fun j : Fin g.nlat => 2 * (Ω + A) * Real.sin (g.phi j)).2
  have hs : g.stationaryWavenumber u (some p) order minU "squared" = .ok (.real s) := by
    unfold stationaryWavenumber ksPv
    dsimp only
    rw [hpz, hd, hsdef]
    simp only [if_true]
  obtain ⟨ks, rs, hc, -, hv⟩ := C65_variants u (some p) order minU s hs
  have hval : ∀ j : Fin g.nlat, ∃ x, s j = fin x ∧ (0 < (j : ℕ) → (j : ℕ) < g.nlat - 1 → x = Real.cos (g.phi j) ^ 2 * g.rsphere *
      (stencil4 false g.nlat (col fun j : Fin g.nlat => 2 * (Ω + A) * Real.sin (g.phi j)) j / 12 / g.dphi) / (g.rsphere * A * Real.cos (g.phi j))) := by
    intro j
    by_cases hj : (j : ℕ) = 0 ∨ (j : ℕ) = g.nlat - 1
    · exact ⟨0, squared_pole hg u p order hm s hs j hj, fun h1 h2 => by omega⟩
    · have h0 : 0 < (j : ℕ) := by omega
      have h1 : (j : ℕ) < g.nlat - 1 := by omega
      have := (C65_values hg u p order hm s _ hs (by rw [hpz]; exact hd) j).2 (by rw [hu]; exact hmin j h0 h1)
      exact ⟨_, this, fun _ _ => by rw [hu]⟩
  choose x hx1 hx2 using hval
  obtain ⟨w, hw⟩ : ∃ w : ℕ → ℝ, w = fun j => if h : j < g.nlat then (SignType.sign (x ⟨j, h⟩) : ℝ) * Real.sqrt |x ⟨j, h⟩| else 0 := ⟨_, rfl⟩
  have hwj : ∀ j : Fin g.nlat, w j = (SignType.sign (x j) : ℝ) * Real.sqrt |x j| := by
    intro j
    rw [hw]
    exact dif_pos j.isLt
  obtain ⟨C, e1, -, -, -, -, -, e2⟩ := C66_finite_partial hg hsp ks (fin c, fin 0) w c (fun j => by
    have h1 := (hv j).1
    have h2 := (hv j).2.1
    rw [h1, hx1 j] at h2
    rw [hwj]
    exact h2.symm) (by simp [realVariant, FloatX.sub, FloatX.add, FloatX.neg])
  refine ⟨ks, hc, C, e1, fun q hq hmid => ?_⟩
  obtain ⟨-, -, m1, m2⟩ := hmid
  obtain ⟨l, hl, hder⟩ := solid_derivative hg hsp (B := 2 * (Ω + A)) (by positivity)
  have hlat : ∀ j, g.lat j = 90 - j * g.resolution := lat_spacing hg hsp
  rcases e2 q hq with h | ⟨i, hi, t, t0, t1, eq, el, ex⟩
  · linarith [h.1]
  · have hi0 : g.lat i - t * g.resolution ≤ g.lat i := by nlinarith
    have hi1 : g.lat i ≤ g.lat i - t * g.resolution + g.resolution := by nlinarith
    have hnext : g.lat (i + 1) = g.lat i - g.resolution := by
      rw [hlat, hlat]
      push_cast
      ring
    have hi2 : 2 ≤ i := by
      by_contra h
      have : (i : ℝ) ≤ 1 := by exact_mod_cast (show i ≤ 1 by omega)
      have := hlat i
      nlinarith
    have hi3 : i + 1 + 2 < g.nlat := by
      by_contra h
      have : (g.nlat : ℝ) ≤ (i : ℝ) + 3 := by exact_mod_cast (show g.nlat ≤ i + 3 by omega)
      have := hlat i
      nlinarith
    have hxv : ∀ j (hj : j < g.nlat), 2 ≤ j → j + 2 < g.nlat → 0 < g.lat j → g.lat j < 90 → x ⟨j, hj⟩ = l / A * Real.cos (g.phi j) ^ 2 := by
      intro j hj a1 a2 a3 a4
      have hcos : 0 < Real.cos (g.phi j) := by
        apply Real.cos_pos_of_mem_Ioo
        unfold phi deg2rad
        constructor <;> nlinarith
      rw [hx2 ⟨j, hj⟩ (by show 0 < j; omega) (by show j < g.nlat - 1; omega)]
      dsimp only
      rw [hder j a1 a2]
      field_simp
    have x1 := hxv i (by omega) hi2 (by omega) (by linarith) (by linarith)
    have x2 := hxv (i + 1) hi (by omega) hi3 (by linarith) (by linarith)
    have hlt : x ⟨i, by omega⟩ < x ⟨i + 1, hi⟩ := by
      rw [x1, x2]
      have hc0 : 0 < Real.cos (g.phi i) := by
        apply Real.cos_pos_of_mem_Ioo
        unfold phi deg2rad
        constructor <;> nlinarith
      have : Real.cos (g.phi i) < Real.cos (g.phi (i + 1)) := by
        refine Real.cos_lt_cos_of_nonneg_of_le_pi ?_ ?_ (phi_strictAnti hg (Nat.lt_succ_self i))
        · unfold phi deg2rad
          have : 0 < g.lat (i + 1) := by linarith
          positivity
        · unfold phi deg2rad
          nlinarith
      have hlA : 0 < l / A := by positivity
      exact mul_lt_mul_of_pos_left (pow_lt_pow_left₀ this hc0.le two_ne_zero) hlA
    have hwlt : w i < w (i + 1) := by
      have h1 := hwj ⟨i, by omega⟩
      have h2 := hwj ⟨i + 1, hi⟩
      dsimp only at h1 h2
      rw [h1, h2]
      exact ((C65_order (fin (x ⟨i, by omega⟩)) (fin (x ⟨i + 1, hi⟩))).1).mpr hlt
    unfold lin at el
    have := mul_nonneg (sub_nonneg.mpr t1.le) (sub_nonneg.mpr hwlt.le)
    linarith

/-- Non-vacuity of C149: there are grids as fine as required on which solid-body rotation satisfies the assumptions, and the one of 10 degrees is fine enough for the
last theorem. Wavenumber 1 is less than the maximum of the stationary wavenumber, 2. -/
example : (∀ δ > 0, ∃ g : Grid ℝ, g.Valid ∧ g.rsphere = 1 ∧ g.resolution * ((g.nlat : ℝ) - 1) = 180 ∧ g.resolution < δ ∧ g.resolution ≤ 10 ∧
      ∀ j : Fin g.nlat, 0 < (j : ℕ) → (j : ℕ) < g.nlat - 1 → 0 < |1 * 1 * Real.cos (g.phi j)|) ∧
    (1 : ℝ) < Real.sqrt (2 * (1 + 1) / 1) ∧ ¬ Midlatitude (60, -60) ∧ Midlatitude (60, 30) := by
  refine ⟨fun δ hδ => ?_, ?_, by norm_num [Midlatitude], by norm_num [Midlatitude]⟩
  · obtain ⟨k, hk⟩ := exists_nat_gt (max (180 / δ) 18)
    have hk1 : 180 / δ < k := (le_max_left _ _).trans_lt hk
    have hk2 : (18 : ℝ) < k := (le_max_right _ _).trans_lt hk
    have hk0 : (0 : ℝ) < k := by linarith
    have hk3 : 18 < k := by exact_mod_cast hk2
    have h1 : (⟨180 / k, 1, 1, 0⟩ : Grid ℝ).nlon = 2 * k := by
      unfold Grid.nlon nlonOf
      rw [show (360 : ℝ) / (180 / k) = ((2 * k : ℕ) : ℝ) by push_cast; field_simp; norm_num, Nat.floor_natCast]
    have h2 : (⟨180 / k, 1, 1, 0⟩ : Grid ℝ).nlat = k + 1 := by
      unfold Grid.nlat nlatOf
      rw [show (180 : ℝ) / (180 / k) = (k : ℝ) by field_simp, Nat.floor_natCast]
    have hv : (⟨180 / k, 1, 1, 0⟩ : Grid ℝ).Valid := ⟨by positivity, one_pos, by rw [h1]; omega, by rw [h2]; omega, by simp⟩
    refine ⟨⟨180 / k, 1, 1, 0⟩, hv, rfl, by rw [h2]; push_cast; field_simp; ring, ?_, ?_, fun j j0 j1 => ?_⟩
    · show 180 / (k : ℝ) < δ
      rw [div_lt_iff₀ hδ] at hk1
      rw [div_lt_iff₀ hk0]
      linarith
    · show 180 / (k : ℝ) ≤ 10
      rw [div_le_iff₀ hk0]
      linarith
    · rw [one_mul, one_mul]
      refine abs_pos.mpr (ne_of_gt (Real.cos_pos_of_mem_Ioo ⟨?_, ?_⟩))
      · rw [← phi_last hv]; exact phi_strictAnti hv j1
      · rw [← phi_zero hv]; exact phi_strictAnti hv j0
  · rw [Real.lt_sqrt (by norm_num)]
    norm_num

end Barotropic
