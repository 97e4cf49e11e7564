import Verif.Lemmas.Transport
import Verif.Props.FalwaError

/-!
# C117, C118: zonalized PV and wave activity of conservative flows
-/

namespace Barotropic
open Real Set MeasureTheory Grid

/-- Smooth functions on the sphere are Lipschitz continuous. -/
theorem SphereSmooth.lipschitz {F : ℝ → ℝ → ℝ} (hF : SphereSmooth F) : ∃ Lx Ly, LipschitzField F Lx Ly := by
  have hp := pi_pos
  have e1 : ∀ x y, dlon F x y = fderiv ℝ (fun p : ℝ × ℝ => F p.1 p.2) (x, y) (1, 0) := by
    intro x y
    have h0 : HasDerivAt (fun x : ℝ => (x, y)) ((1 : ℝ), (0 : ℝ)) x := HasDerivAt.prodMk (hasDerivAt_id x) (hasDerivAt_const x y)
    exact (HasFDerivAt.comp_hasDerivAt (l := fun p : ℝ × ℝ => F p.1 p.2) x (hF.differentiable (x, y)).hasFDerivAt h0).deriv
  have e2 : ∀ x y, dlat F x y = fderiv ℝ (fun p : ℝ × ℝ => F p.1 p.2) (x, y) (0, 1) := by
    intro x y
    have h0 : HasDerivAt (fun y : ℝ => (x, y)) ((0 : ℝ), (1 : ℝ)) y := HasDerivAt.prodMk (hasDerivAt_const y x) (hasDerivAt_id y)
    exact (HasFDerivAt.comp_hasDerivAt (l := fun p : ℝ × ℝ => F p.1 p.2) y (hF.differentiable (x, y)).hasFDerivAt h0).deriv
  have hc := hF.smooth.continuous_fderiv (by simp)
  have c1 : Continuous fun p : ℝ × ℝ => dlon F p.1 p.2 := by
    simp only [e1]
    exact (hc.comp (f := fun p : ℝ × ℝ => (p.1, p.2)) (by fun_prop)).clm_apply continuous_const
  have c2 : Continuous fun p : ℝ × ℝ => dlat F p.1 p.2 := by
    simp only [e2]
    exact (hc.comp (f := fun p : ℝ × ℝ => (p.1, p.2)) (by fun_prop)).clm_apply continuous_const
  have hK : IsCompact (Icc 0 (2 * π) ×ˢ latitudes) := isCompact_Icc.prod isCompact_Icc
  obtain ⟨A, hA⟩ := hK.exists_bound_of_continuousOn c1.continuousOn
  obtain ⟨B, hB⟩ := hK.exists_bound_of_continuousOn c2.continuousOn
  have hper : Function.Periodic F (2 * π) := fun x => funext fun y => hF.periodic x y
  have p1 : ∀ y, Function.Periodic (fun x => dlon F x y) (2 * π) := by
    intro y x
    change deriv (fun x => F x y) (x + 2 * π) = deriv (fun x => F x y) x
    rw [← deriv_comp_add_const]
    have e : (fun x => F (x + 2 * π) y) = fun x => F x y := funext fun z => hF.periodic z y
    rw [e]
  have p2 : ∀ y, Function.Periodic (fun x => dlat F x y) (2 * π) := by
    intro y x
    change deriv (fun y => F (x + 2 * π) y) y = deriv (fun y => F x y) y
    have e : (fun y => F (x + 2 * π) y) = fun y => F x y := funext fun z => hF.periodic x z
    rw [e]
  have hA' : ∀ x, ∀ y ∈ latitudes, ‖dlon F x y‖ ≤ A := by
    intro x y hy
    obtain ⟨z, hz, e⟩ := (p1 y).exists_mem_Ico₀ two_pi_pos x
    rw [e]
    exact hA (z, y) ⟨Ico_subset_Icc_self hz, hy⟩
  have hB' : ∀ x, ∀ y ∈ latitudes, ‖dlat F x y‖ ≤ B := by
    intro x y hy
    obtain ⟨z, hz, e⟩ := (p2 y).exists_mem_Ico₀ two_pi_pos x
    rw [e]
    exact hB (z, y) ⟨Ico_subset_Icc_self hz, hy⟩
  refine ⟨A, B, fun x y _ => hF.periodic x y, fun x x' y hy => ?_, fun x y hy y' hy' => ?_⟩
  · have := convex_univ.norm_image_sub_le_of_norm_hasDerivWithin_le (f := fun x => F x y) (f' := fun x => dlon F x y) (s := univ)
      (fun z _ => (hF.hasDerivAt_lon z y).hasDerivWithinAt) (fun z _ => hA' z y hy) (mem_univ x') (mem_univ x)
    simpa only [Real.norm_eq_abs] using this
  · have := (convex_Icc (-(π / 2)) (π / 2)).norm_image_sub_le_of_norm_hasDerivWithin_le (f := fun y => F x y) (f' := fun y => dlat F x y)
      (fun z _ => (hF.hasDerivAt_lat x z).hasDerivWithinAt) (fun z hz => hB' x z hz) hy' hy
    simpa only [Real.norm_eq_abs] using this

variable {r : ℝ} {q U V : ℝ → ℝ → ℝ → ℝ}

/-- C117: the rearranged field is the same at all times. -/
theorem C117_background (r : ℝ) (q U V : ℝ → ℝ → ℝ → ℝ) (h : ConservativeFlow r q U V) (hr : r ≠ 0) (P : ℝ → ℝ) (t t' : ℝ)
    (hP : IsRearrangement (q t) P) : IsRearrangement (q t') P :=
  ⟨hP.continuous, hP.increasing, fun c => (h.area_const hr c t' t).trans (hP.area c)⟩

/-- C117: zonalized PV of a conservative flow changes in time only by an error of the order of the resolution. -/
theorem C117_zonalize (r : ℝ) (q U V : ℝ → ℝ → ℝ → ℝ) (h : ConservativeFlow r q U V) (hr : r ≠ 0) (t t' : ℝ) :
    ∃ C : ℝ, ∀ (g : Grid ℝ), g.Valid → g.resolution * g.nlon = 360 → ∀ m, KnownMethod m →
      ∃ R R', g.zonalize (fun j (i : Fin g.nlon) => q t (g.lam i) (g.phi j)) .none m = .ok R ∧
        g.zonalize (fun j (i : Fin g.nlon) => q t' (g.lam i) (g.phi j)) .none m = .ok R' ∧ ∀ j : Fin g.nlat, |R j - R' j| ≤ C * g.resolution := by
  obtain ⟨Lx, Ly, hL⟩ := (h.sphereSmooth t).lipschitz
  obtain ⟨Lx', Ly', hL'⟩ := (h.sphereSmooth t').lipschitz
  obtain ⟨P, hP⟩ := C115_exists _ _ _ hL
  obtain ⟨C, hC⟩ := C115_converges _ _ _ hL P hP
  obtain ⟨C', hC'⟩ := C115_converges _ _ _ hL' P (C117_background r q U V h hr P t t' hP)
  refine ⟨C + C', fun g hg hs m hm => ?_⟩
  obtain ⟨R, e, hR⟩ := hC g hg hs m hm
  obtain ⟨R', e', hR'⟩ := hC' g hg hs m hm
  refine ⟨R, R', e, e', fun j => ?_⟩
  have := abs_sub_le (R j) (P (g.phi j)) (R' j)
  rw [abs_sub_comm (P _)] at this
  linarith [hR j, hR' j]

/-! ## Non-acceleration -/

/-- Stokes' theorem for polar caps -/
theorem cap_circulation {r : ℝ} (hr : r ≠ 0) {F G : ℝ → ℝ → ℝ} (hF : SphereSmooth F) (hG : SphereSmooth G) {φe : ℝ} (hφ : φe ∈ latitudes) :
    ∫ x in (0 : ℝ)..2 * π, ∫ y in φe..π / 2, sphereCurl r F G x y * cos y = cos φe / r * ∫ x in (0 : ℝ)..2 * π, F x φe := by
  have hc : SphereSmooth fun x y => -(F x y * cos y) := (hF.mul (.lat Real.contDiff_cos)).neg
  let f : ℝ × ℝ → ℝ := fun p => G p.1 p.2
  let k : ℝ × ℝ → ℝ := fun p => -(F p.1 p.2 * cos p.2)
  have e1 : ∀ x y, fderiv ℝ f (x, y) (1, 0) = dlon G x y := by
    intro x y
    have h0 : HasDerivAt (fun x : ℝ => (x, y)) ((1 : ℝ), (0 : ℝ)) x := HasDerivAt.prodMk (hasDerivAt_id x) (hasDerivAt_const x y)
    exact (HasFDerivAt.comp_hasDerivAt (l := f) x (hG.differentiable (x, y)).hasFDerivAt h0).deriv.symm
  have e2 : ∀ x y, fderiv ℝ k (x, y) (0, 1) = -dlat (fun x y => F x y * cos y) x y := by
    intro x y
    have h0 : HasDerivAt (fun y : ℝ => (x, y)) ((0 : ℝ), (1 : ℝ)) y := HasDerivAt.prodMk (hasDerivAt_const y x) (hasDerivAt_id y)
    have h1 := (HasFDerivAt.comp_hasDerivAt (l := k) y (hc.differentiable (x, y)).hasFDerivAt h0).deriv.symm
    rw [h1]
    unfold dlat
    exact deriv.fun_neg
  have cf : Continuous fun p => fderiv ℝ f p (1, 0) + fderiv ℝ k p (0, 1) :=
    ((hG.smooth.continuous_fderiv (by simp)).clm_apply continuous_const).add
      ((hc.smooth.continuous_fderiv (by simp)).clm_apply continuous_const)
  have key := MeasureTheory.integral2_divergence_prod_of_hasFDerivAt f k (fderiv ℝ f) (fderiv ℝ k) 0 φe (2 * π) (π / 2)
    hG.smooth.continuous.continuousOn hc.smooth.continuous.continuousOn (fun p _ => (hG.differentiable p).hasFDerivAt)
    (fun p _ => (hc.differentiable p).hasFDerivAt)
    (cf.continuousOn.integrableOn_compact (isCompact_uIcc.prod isCompact_uIcc))
  have b1 : ∀ x, k (x, π / 2) = 0 := fun x => by simp [k]
  have b2 : ∀ x, k (x, φe) = -(cos φe * F x φe) := fun x => by simp only [k]; ring
  have b3 : ∀ y, f (2 * π, y) = f (0, y) := fun y => by
    have := hG.periodic 0 y
    rwa [zero_add] at this
  simp only [b1, b2, b3, intervalIntegral.integral_zero, intervalIntegral.integral_neg, intervalIntegral.integral_const_mul, e1, e2] at key
  have hin : ∀ x, ∫ y in φe..π / 2, sphereCurl r F G x y * cos y = (∫ y in φe..π / 2, (dlon G x y + -dlat (fun x y => F x y * cos y) x y)) / r := by
    intro x
    rw [← intervalIntegral.integral_div]
    refine intervalIntegral.integral_congr_Ioo_of_le hφ.2 fun y hy => ?_
    have hcos : cos y ≠ 0 := (Real.cos_pos_of_mem_Ioo ⟨by linarith [hφ.1, hy.1], hy.2⟩).ne'
    change sphereCurl r F G x y * cos y = _
    unfold sphereCurl
    field_simp
    ring
  simp only [hin]
  rw [intervalIntegral.integral_div, key]
  ring

/-- Wave activity in terms of the excess of the field over a value and the integral over the polar cap -/
theorem waveActivity_eq {F : ℝ → ℝ → ℝ} (hF : SphereSmooth F) {P : ℝ → ℝ} {φe : ℝ} (hφ : φe ∈ latitudes) :
    waveActivity r F P φe = r / cos φe * (sphereIntegral 1 (fun x y => max 0 (F x y - P φe)) -
      ∫ x in (0 : ℝ)..2 * π, ∫ y in φe..π / 2, (F x y - P φe) * cos y) / (2 * π) := by
  have hc : Continuous fun p : ℝ × ℝ => F p.1 p.2 := hF.smooth.continuous
  have hm : Continuous fun p : ℝ × ℝ => max 0 (F p.1 p.2 - P φe) * cos p.2 :=
    (continuous_const.max (hc.sub continuous_const)).mul (continuous_cos.comp continuous_snd)
  have hd : Continuous fun p : ℝ × ℝ => (F p.1 p.2 - P φe) * cos p.2 := (hc.sub continuous_const).mul (continuous_cos.comp continuous_snd)
  have hin : ∀ x, displaced F (P φe) x φe = (∫ y in -(π / 2)..π / 2, max 0 (F x y - P φe) * cos y) - ∫ y in φe..π / 2, (F x y - P φe) * cos y := by
    intro x
    have hmx : Continuous fun y => max 0 (F x y - P φe) * cos y := hm.comp (f := fun y => (x, y)) (by fun_prop)
    have hdx : Continuous fun y => (F x y - P φe) * cos y := hd.comp (f := fun y => (x, y)) (by fun_prop)
    rw [displaced_eq]
    have s1 : IntervalIntegrable (fun y => if φe ≤ y then (F x y - P φe) * cos y else 0) volume (-(π / 2)) φe := by
      refine (intervalIntegrable_const (c := (0 : ℝ))).congr_uIoo fun y hy => ?_
      rw [uIoo_of_le hφ.1] at hy
      exact (if_neg (not_le.2 hy.2)).symm
    have s2 : IntervalIntegrable (fun y => if φe ≤ y then (F x y - P φe) * cos y else 0) volume φe (π / 2) := by
      refine (hdx.intervalIntegrable _ _).congr_uIoo fun y hy => ?_
      rw [uIoo_of_le hφ.2] at hy
      exact (if_pos hy.1.le).symm
    have e1 : ∫ y in -(π / 2)..φe, (if φe ≤ y then (F x y - P φe) * cos y else 0) = 0 := by
      rw [intervalIntegral.integral_congr_Ioo_of_le hφ.1 (g := fun _ => (0 : ℝ)) fun y hy => if_neg (not_le.2 hy.2)]
      simp
    have e2 : ∫ y in φe..π / 2, (if φe ≤ y then (F x y - P φe) * cos y else 0) = ∫ y in φe..π / 2, (F x y - P φe) * cos y :=
      intervalIntegral.integral_congr_Ioo_of_le hφ.2 fun y hy => if_pos hy.1.le
    have e3 : ∫ y in -(π / 2)..π / 2, (if φe ≤ y then (F x y - P φe) * cos y else 0) = ∫ y in φe..π / 2, (F x y - P φe) * cos y := by
      rw [← intervalIntegral.integral_add_adjacent_intervals s1 s2, e1, e2, zero_add]
    rw [← e3, ← intervalIntegral.integral_sub (hmx.intervalIntegrable _ _) (s1.trans s2)]
    refine intervalIntegral.integral_congr fun y _ => ?_
    have em : max 0 (F x y - P φe) = if 0 ≤ F x y - P φe then F x y - P φe else 0 := by
      split_ifs with h
      · exact max_eq_right h
      · exact max_eq_left (not_le.1 h).le
    unfold crossed
    rw [em]
    by_cases hb : φe ≤ y
    · rw [if_pos hb, if_pos hb]; ring
    · rw [if_neg hb, if_neg hb]; ring
  have c1 : Continuous fun x => ∫ y in -(π / 2)..π / 2, max 0 (F x y - P φe) * cos y :=
    intervalIntegral.continuous_parametric_intervalIntegral_of_continuous' (f := fun x y => max 0 (F x y - P φe) * cos y) hm _ _
  have c2 : Continuous fun x => ∫ y in φe..π / 2, (F x y - P φe) * cos y :=
    intervalIntegral.continuous_parametric_intervalIntegral_of_continuous' (f := fun x y => (F x y - P φe) * cos y) hd _ _
  unfold waveActivity localWaveActivity sphereIntegral
  simp only [hin]
  rw [intervalIntegral.integral_const_mul, intervalIntegral.integral_sub (c1.intervalIntegrable _ _) (c2.intervalIntegrable _ _)]
  ring

/-- Sum of wave activity and zonal-mean zonal wind -/
theorem activity_plus_wind {r : ℝ} {q U V : ℝ → ℝ → ℝ} (hs : SphereSmooth q) (hU : SphereSmooth U) (hV : SphereSmooth V) {f : ℝ → ℝ} (hf : Continuous f)
    (hq : ∀ x φ, cos φ ≠ 0 → q x φ = sphereCurl r U V x φ + f φ) (hr : 0 < r) (P : ℝ → ℝ) {φe : ℝ} (h0 : -(π / 2) < φe) (h1 : φe < π / 2) :
    waveActivity r q P φe + zonalMeanFn U φe =
      r / cos φe * (sphereIntegral 1 (fun x y => max 0 (q x y - P φe)) - 2 * π * ∫ y in φe..π / 2, (f y - P φe) * cos y) / (2 * π) := by
  have hp := pi_pos
  have hφ : φe ∈ latitudes := ⟨h0.le, h1.le⟩
  have hcos : 0 < cos φe := cos_pos_of_mem_Ioo ⟨h0, h1⟩
  have hc : Continuous fun p : ℝ × ℝ => q p.1 p.2 := hs.smooth.continuous
  have hfc : Continuous fun y => (f y - P φe) * cos y := (hf.sub continuous_const).mul continuous_cos
  have hin : ∀ x, ∫ y in φe..π / 2, (q x y - P φe) * cos y =
      (∫ y in φe..π / 2, sphereCurl r U V x y * cos y) + ∫ y in φe..π / 2, (f y - P φe) * cos y := by
    intro x
    have hqx : Continuous fun y => (q x y - P φe) * cos y := ((hc.comp (f := fun y => (x, y)) (by fun_prop)).sub continuous_const).mul continuous_cos
    have hcurl : ∫ y in φe..π / 2, sphereCurl r U V x y * cos y = ∫ y in φe..π / 2, ((q x y - P φe) * cos y - (f y - P φe) * cos y) := by
      refine intervalIntegral.integral_congr_Ioo_of_le h1.le fun y hy => ?_
      have hcy : cos y ≠ 0 := (Real.cos_pos_of_mem_Ioo ⟨by linarith [hy.1], hy.2⟩).ne'
      change sphereCurl r U V x y * cos y = (q x y - P φe) * cos y - (f y - P φe) * cos y
      rw [hq x y hcy]
      ring
    rw [hcurl, intervalIntegral.integral_sub (hqx.intervalIntegrable _ _) (hfc.intervalIntegrable _ _)]
    ring
  have hcc : Continuous fun x => ∫ y in φe..π / 2, sphereCurl r U V x y * cos y := by
    have e : (fun x => ∫ y in φe..π / 2, sphereCurl r U V x y * cos y) =
        fun x => (∫ y in φe..π / 2, (q x y - P φe) * cos y) - ∫ y in φe..π / 2, (f y - P φe) * cos y := by
      funext x
      rw [hin x]
      ring
    rw [e]
    refine Continuous.sub ?_ continuous_const
    exact intervalIntegral.continuous_parametric_intervalIntegral_of_continuous' (f := fun x y => (q x y - P φe) * cos y)
      ((hc.sub continuous_const).mul (continuous_cos.comp continuous_snd)) _ _
  rw [waveActivity_eq hs hφ]
  simp only [hin]
  rw [intervalIntegral.integral_add (hcc.intervalIntegrable _ _) intervalIntegrable_const, cap_circulation hr.ne' hU hV hφ,
    intervalIntegral.integral_const, smul_eq_mul, sub_zero]
  unfold zonalMeanFn
  field_simp
  ring

/-- C118: if a field is conserved that is the absolute vorticity of the wind, then finite-amplitude wave activity and zonal-mean zonal wind change by
opposite amounts. -/
theorem C118_nonacceleration (r : ℝ) (q U V : ℝ → ℝ → ℝ → ℝ) (h : ConservativeFlow r q U V) (f : ℝ → ℝ) (hf : Continuous f)
    (hq : IsAbsoluteVorticity r f q U V) (hr : 0 < r) (P : ℝ → ℝ) (φe : ℝ) (h0 : -(π / 2) < φe) (h1 : φe < π / 2) (t t' : ℝ) :
    waveActivity r (q t) P φe + zonalMeanFn (U t) φe = waveActivity r (q t') P φe + zonalMeanFn (U t') φe := by
  rw [activity_plus_wind (h.sphereSmooth t) (h.eastward t) (h.northward t) hf (hq t) hr P h0 h1,
    activity_plus_wind (h.sphereSmooth t') (h.eastward t') (h.northward t') hf (hq t') hr P h0 h1, h.excess_const hr.ne' (P φe) t t']

/-- C118: FAWA and the zonal-mean zonal wind on the grid change by opposite amounts, up to an error that vanishes as the resolution increases (away from
the poles). -/
theorem C118_converges (r : ℝ) (q U V : ℝ → ℝ → ℝ → ℝ) (h : ConservativeFlow r q U V) (f : ℝ → ℝ) (hf : Continuous f)
    (hq : IsAbsoluteVorticity r f q U V) (hr : 0 < r) (P : ℝ → ℝ) (t t' φ0 ε : ℝ) (hP : IsRearrangement (q t) P) (h0 : 0 ≤ φ0) (h1 : φ0 < π / 2)
    (hε : 0 < ε) :
    ∃ δ > 0, ∀ g : Grid ℝ, g.Valid → g.resolution * g.nlon = 360 → g.rsphere = r → g.resolution ≤ δ → ∀ m, KnownMethod m →
      (m = "boxcount" ∨ StrictMonoOn P latitudes) →
      ∃ W W', g.fawa (fun j (i : Fin g.nlon) => q t (g.lam i) (g.phi j)) .none m = .ok W ∧
        g.fawa (fun j (i : Fin g.nlon) => q t' (g.lam i) (g.phi j)) .none m = .ok W' ∧
        ∀ j : Fin g.nlat, |g.phi j| ≤ φ0 → ∃ v v', W j = some v ∧ W' j = some v' ∧
          |(v + (∑ i : Fin g.nlon, U t (g.lam i) (g.phi j)) / g.nlon) - (v' + (∑ i : Fin g.nlon, U t' (g.lam i) (g.phi j)) / g.nlon)| ≤ ε := by
  have hp := pi_pos
  obtain ⟨Lx, Ly, hL⟩ := (h.sphereSmooth t).lipschitz
  obtain ⟨Lx', Ly', hL'⟩ := (h.sphereSmooth t').lipschitz
  obtain ⟨K, Ky, hU⟩ := (h.eastward t).lipschitz
  obtain ⟨K', Ky', hU'⟩ := (h.eastward t').lipschitz
  have hP' := C117_background r q U V h hr.ne' P t t' hP
  obtain ⟨δ, hδ, H⟩ := C116_fawa _ _ _ hL P hP r φ0 (ε / 4) hr h0 h1 (by linarith)
  obtain ⟨δ', hδ', H'⟩ := C116_fawa _ _ _ hL' P hP' r φ0 (ε / 4) hr h0 h1 (by linarith)
  have nK := hU.nonneg.1
  have nK' := hU'.nonneg.1
  obtain ⟨η, hη⟩ : ∃ η, η = ε / (2 * (K + K' + 1)) := ⟨_, rfl⟩
  have hη0 : 0 < η := by rw [hη]; positivity
  refine ⟨min (min δ δ') (η * (180 / π)), lt_min (lt_min hδ hδ') (by positivity), fun g hg hs hgr hres m hm hcase => ?_⟩
  obtain ⟨W, e, -, hW⟩ := H g hg hs hgr (hres.trans ((min_le_left _ _).trans (min_le_left _ _))) m hm hcase
  obtain ⟨W', e', -, hW'⟩ := H' g hg hs hgr (hres.trans ((min_le_left _ _).trans (min_le_right _ _))) m hm hcase
  refine ⟨W, W', e, e', fun j hj => ?_⟩
  obtain ⟨v, hv, hva⟩ := hW j hj
  obtain ⟨v', hv', hva'⟩ := hW' j hj
  refine ⟨v, v', hv, hv', ?_⟩
  have hj' := abs_le.1 hj
  have hjl : g.phi j ∈ latitudes := ⟨by linarith, by linarith⟩
  have hS : lonStep g ≤ η := by
    have hl : lonStep g = g.resolution * (π / 180) := by
      unfold lonStep
      rw [div_eq_iff hg.nlon_pos.ne']
      linear_combination -(π / 180) * hs
    rw [hl]
    have := mul_le_mul_of_nonneg_right (hres.trans (min_le_right _ _)) (by positivity : 0 ≤ π / 180)
    have e : η * (180 / π) * (π / 180) = η := by field_simp
    linarith
  have m1 := mean_error hg (f := fun x => U t x (g.phi j)) nK (fun x => (h.eastward t).periodic x _) fun x x' => hU.lon x x' _ hjl
  have m2 := mean_error hg (f := fun x => U t' x (g.phi j)) nK' (fun x => (h.eastward t').periodic x _) fun x x' => hU'.lon x x' _ hjl
  have hna := C118_nonacceleration r q U V h f hf hq hr P (g.phi j) (by linarith) (by linarith) t t'
  unfold zonalMeanFn at hna
  have hsum : K * (lonStep g / 2) + K' * (lonStep g / 2) ≤ ε / 2 := by
    have h2 : (K + K' + 1) * η = ε / 2 := by
      rw [hη]
      field_simp
    have h3 := mul_le_mul_of_nonneg_left hS (by linarith : 0 ≤ K + K')
    have h4 := lonStep_pos hg
    nlinarith
  rw [abs_le] at m1 m2 hva hva' ⊢
  constructor <;> linarith [m1.1, m1.2, m2.1, m2.2, hva.1, hva.2, hva'.1, hva'.2]

/-- a Rossby-Haurwitz wave -/
theorem tilted_rotation : ConservativeFlow 1 (fun t x φ => 2 * sin φ - 2 * cos φ * sin (x + t)) (fun t x φ => sin φ * sin (x + t)) (fun t x _ => cos (x + t)) ∧
    IsAbsoluteVorticity 1 (fun φ => 2 * sin φ) (fun t x φ => 2 * sin φ - 2 * cos φ * sin (x + t)) (fun t x φ => sin φ * sin (x + t)) fun t x _ => cos (x + t) := by
  have hx : ∀ a t x : ℝ, HasDerivAt (fun x => a * sin (x + t)) (a * cos (x + t)) x := fun a t x =>
    ((hasDerivAt_sin (x + t)).comp_add_const x t).const_mul a
  have hxc : ∀ t x : ℝ, HasDerivAt (fun x => cos (x + t)) (-sin (x + t)) x := fun t x => (hasDerivAt_cos (x + t)).comp_add_const x t
  have hqx : ∀ t x φ : ℝ, dlon (fun x φ => 2 * sin φ - 2 * cos φ * sin (x + t)) x φ = -(2 * cos φ * cos (x + t)) := fun t x φ =>
    ((hx (2 * cos φ) t x).const_sub (2 * sin φ)).deriv
  have hqy : ∀ t x φ : ℝ, dlat (fun x φ => 2 * sin φ - 2 * cos φ * sin (x + t)) x φ = 2 * cos φ + 2 * sin φ * sin (x + t) := fun t x φ => by
    refine ((((hasDerivAt_sin φ).const_mul 2).sub (((hasDerivAt_cos φ).const_mul 2).mul_const (sin (x + t)))).deriv).trans ?_
    ring
  have hqt : ∀ t x φ : ℝ, deriv (fun t => 2 * sin φ - 2 * cos φ * sin (x + t)) t = -(2 * cos φ * cos (x + t)) := fun t x φ =>
    ((((hasDerivAt_sin (x + t)).comp_const_add x t).const_mul (2 * cos φ)).const_sub (2 * sin φ)).deriv
  have hUx : ∀ t x φ : ℝ, dlon (fun x φ => sin φ * sin (x + t)) x φ = sin φ * cos (x + t) := fun t x φ => (hx (sin φ) t x).deriv
  have hUy : ∀ t x φ : ℝ, dlat (fun x φ => sin φ * sin (x + t) * cos φ) x φ = sin (x + t) * (cos φ ^ 2 - sin φ ^ 2) := fun t x φ => by
    refine ((((hasDerivAt_sin φ).mul_const (sin (x + t))).mul (hasDerivAt_cos φ)).deriv).trans ?_
    ring
  have hVx : ∀ t x φ : ℝ, dlon (fun x (_ : ℝ) => cos (x + t)) x φ = -sin (x + t) := fun t x φ => (hxc t x).deriv
  have hVy : ∀ t x φ : ℝ, dlat (fun x φ => cos (x + t) * cos φ) x φ = cos (x + t) * -sin φ := fun t x φ => ((hasDerivAt_cos φ).const_mul _).deriv
  have per : ∀ x t : ℝ, x + 2 * π + t = x + t + 2 * π := fun x t => by ring
  refine ⟨⟨by fun_prop, fun t x φ => by rw [per, sin_add_two_pi], fun t => ⟨by fun_prop, fun x φ => by rw [per, sin_add_two_pi]⟩,
    fun t => ⟨by fun_prop, fun x φ => by rw [per, cos_add_two_pi]⟩, fun t x φ _ => ?_, fun t x φ hφ => ?_⟩, fun t x φ hφ => ?_⟩
  · unfold sphereDiv
    rw [hUx, hVy]
    ring
  · unfold sphereGrad
    dsimp only
    rw [hqx, hqy, hqt]
    field_simp
    ring
  · unfold sphereCurl
    rw [hVx, hUy]
    field_simp
    have := sin_sq_add_cos_sq φ
    linear_combination -sin (x + t) * this

/-- the laws hold for the wave -/
example (P : ℝ → ℝ) (t : ℝ) (hP : IsRearrangement (fun x φ => 2 * sin φ - 2 * cos φ * sin (x + 0)) P) :
    IsRearrangement (fun x φ => 2 * sin φ - 2 * cos φ * sin (x + t)) P ∧
      waveActivity 1 (fun x φ => 2 * sin φ - 2 * cos φ * sin (x + 0)) P 1 + zonalMeanFn (fun x φ => sin φ * sin (x + 0)) 1 =
        waveActivity 1 (fun x φ => 2 * sin φ - 2 * cos φ * sin (x + t)) P 1 + zonalMeanFn (fun x φ => sin φ * sin (x + t)) 1 :=
  ⟨C117_background 1 _ _ _ tilted_rotation.1 one_ne_zero P 0 t hP,
    C118_nonacceleration 1 _ _ _ tilted_rotation.1 (fun φ => 2 * sin φ) (by fun_prop) tilted_rotation.2 one_pos P 1 (by linarith [pi_pos])
      (by linarith [pi_gt_three]) 0 t⟩

end Barotropic
