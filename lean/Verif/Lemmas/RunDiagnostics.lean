import Verif.Props.SpectralAccuracy
import Verif.Props.WindConvergence
import Verif.Props.Transport
import Verif.Lemmas.RearrangeStable
import Verif.Lemmas.Fourier

/-!
# Diagnostics of states that are close to a smooth solution
-/

namespace Barotropic
open Real (cos sin)
open Set

variable {r : ℝ} {A B : ℝ → ℝ → ℝ}

/-- Points other than the poles are dense. -/
theorem cos_dense : Dense {y : ℝ | cos y ≠ 0} := by
  intro y
  by_cases hy : cos y = 0
  · rw [Metric.mem_closure_iff]
    intro ε hε
    obtain ⟨d, hd, hd'⟩ : ∃ d, 0 < d ∧ d < ε ∧ d < Real.pi := by
      have := Real.pi_pos
      exact ⟨min ε Real.pi / 2, by positivity, by have := min_le_left ε Real.pi; linarith, by have := min_le_right ε Real.pi; linarith⟩
    refine ⟨y + d, ?_, ?_⟩
    · change cos (y + d) ≠ 0
      rw [Real.cos_add, hy, zero_mul, zero_sub, neg_ne_zero]
      refine mul_ne_zero (fun h => ?_) (Real.sin_pos_of_pos_of_lt_pi hd hd'.2).ne'
      have := Real.sin_sq_add_cos_sq y
      rw [h, hy] at this
      norm_num at this
    · rw [Real.dist_eq, show y - (y + d) = -d by ring, abs_neg, abs_of_pos hd]
      exact hd'.1
  · exact subset_closure hy

theorem bound_everywhere {f : ℝ → ℝ} (hf : Continuous f) {L : ℝ} (h : ∀ y, cos y ≠ 0 → |f y| ≤ L) (y : ℝ) : |f y| ≤ L := by
  have hc : IsClosed {y | |f y| ≤ L} := isClosed_le hf.abs continuous_const
  exact hc.closure_subset_iff.2 h (cos_dense y)

theorem partials_continuous (hA : SphereSmooth A) : (Continuous fun p : ℝ × ℝ => dlon A p.1 p.2) ∧ Continuous fun p : ℝ × ℝ => dlat A p.1 p.2 := by
  have e1 : ∀ x y, dlon A x y = fderiv ℝ (fun p : ℝ × ℝ => A p.1 p.2) (x, y) (1, 0) := by
    intro x y
    have h0 : HasDerivAt (fun x : ℝ => (x, y)) ((1 : ℝ), (0 : ℝ)) x := HasDerivAt.prodMk (hasDerivAt_id x) (hasDerivAt_const x y)
    exact (HasFDerivAt.comp_hasDerivAt (l := fun p : ℝ × ℝ => A p.1 p.2) x (hA.differentiable (x, y)).hasFDerivAt h0).deriv
  have e2 : ∀ x y, dlat A x y = fderiv ℝ (fun p : ℝ × ℝ => A p.1 p.2) (x, y) (0, 1) := by
    intro x y
    have h0 : HasDerivAt (fun y : ℝ => (x, y)) ((0 : ℝ), (1 : ℝ)) y := HasDerivAt.prodMk (hasDerivAt_const y x) (hasDerivAt_id y)
    exact (HasFDerivAt.comp_hasDerivAt (l := fun p : ℝ × ℝ => A p.1 p.2) y (hA.differentiable (x, y)).hasFDerivAt h0).deriv
  have hc := hA.smooth.continuous_fderiv (by simp)
  constructor
  · simp only [e1]
    exact (hc.comp (f := fun p : ℝ × ℝ => (p.1, p.2)) (by fun_prop)).clm_apply continuous_const
  · simp only [e2]
    exact (hc.comp (f := fun p : ℝ × ℝ => (p.1, p.2)) (by fun_prop)).clm_apply continuous_const

/-- Smooth fields with bounded gradient are Lipschitz fields. -/
theorem lipschitz_of_grad (hr : 0 < r) (hA : SphereSmooth A) {G : ℝ} (h : ∀ x y, cos y ≠ 0 → |(sphereGrad r A x y).1| ≤ G ∧ |(sphereGrad r A x y).2| ≤ G) :
    LipschitzField A (r * G) (r * G) := by
  have hG : 0 ≤ G := (abs_nonneg _).trans (h 0 0 (by simp)).1
  have c1 : ∀ x, Continuous fun y => dlon A x y := fun x => (partials_continuous hA).1.comp (f := fun y => (x, y)) (by fun_prop)
  have c2 : ∀ x, Continuous fun y => dlat A x y := fun x => (partials_continuous hA).2.comp (f := fun y => (x, y)) (by fun_prop)
  have b1 : ∀ x y, |dlon A x y| ≤ r * G := fun x => bound_everywhere (c1 x) fun y hy => by
    have := (h x y hy).1
    have e : dlon A x y = r * cos y * (sphereGrad r A x y).1 := by
      unfold sphereGrad
      field_simp
    rw [e, abs_mul, abs_mul, abs_of_pos hr]
    have h1 := Real.abs_cos_le_one y
    refine mul_le_mul ?_ this (abs_nonneg _) hr.le
    nlinarith [abs_nonneg (cos y)]
  have b2 : ∀ x y, |dlat A x y| ≤ r * G := fun x => bound_everywhere (c2 x) fun y hy => by
    have := (h x y hy).2
    have e : dlat A x y = r * (sphereGrad r A x y).2 := by
      unfold sphereGrad
      field_simp
    rw [e, abs_mul, abs_of_pos hr]
    exact mul_le_mul_of_nonneg_left this hr.le
  refine ⟨fun x y _ => hA.periodic x y, fun x x' y hy => ?_, fun x y hy y' hy' => ?_⟩
  · have := convex_univ.norm_image_sub_le_of_norm_hasDerivWithin_le (f := fun x => A x y) (f' := fun x => dlon A x y) (s := univ)
      (fun z _ => (hA.hasDerivAt_lon z y).hasDerivWithinAt) (fun z _ => b1 z y) (mem_univ x') (mem_univ x)
    simpa only [Real.norm_eq_abs] using this
  · have := (convex_univ).norm_image_sub_le_of_norm_hasDerivWithin_le (f := fun y => A x y) (f' := fun y => dlat A x y)
      (fun z _ => (hA.hasDerivAt_lat x z).hasDerivWithinAt) (fun z _ => b2 x z) (mem_univ y') (mem_univ y)
    simpa only [Real.norm_eq_abs] using this

/-- Bounds of the gradient of absolute vorticity -/
theorem vort_grad_bound (hr : 0 < r) (Ω : ℝ) {F : (Fin 4 → ℝ) → ℝ} (hF : ContDiff ℝ (⊤ : ℕ∞) F) (t0 t1 : ℝ) : ∃ G, 0 ≤ G ∧ ∀ t ∈ Icc t0 t1, ∀ x y, cos y ≠ 0 →
    |(sphereGrad r (onSphere (vort r Ω F) t) x y).1| ≤ G ∧ |(sphereGrad r (onSphere (vort r Ω F) t) x y).2| ≤ G := by
  have hV := vort_smooth r Ω hF
  obtain ⟨b, hb⟩ : ∃ b, b = max |t0| |t1| + 1 := ⟨_, rfl⟩
  have hb1 : 1 ≤ b := by
    have := (abs_nonneg t0).trans (le_max_left |t0| |t1|)
    linarith
  have hbt : ∀ t ∈ Icc t0 t1, |t| ≤ b := fun t htt => by
    have := abs_le_max_abs_abs htt.1 htt.2
    linarith
  obtain ⟨Ke, hKe⟩ := ((SmoothLimit.const (Metric.closedBall 0 b) hV).east hb1).bounded
  obtain ⟨Kn, hKn⟩ := ((SmoothLimit.const (Metric.closedBall 0 b) hV).north hb1).bounded
  refine ⟨(|Ke| + |Kn|) / r, by positivity, fun t ht x y hy => ?_⟩
  rw [sphereGrad_onSphere hV _ t x hy]
  dsimp only
  rw [abs_div, abs_div, abs_of_pos hr]
  have k1 := (hKe t (hbt t ht) x y).trans (le_abs_self Ke)
  have k2 := (hKn t (hbt t ht) x y).trans (le_abs_self Kn)
  have := abs_nonneg Ke
  have := abs_nonneg Kn
  exact ⟨div_le_div_of_nonneg_right (by linarith) hr.le, div_le_div_of_nonneg_right (by linarith) hr.le⟩

/-- Absolute vorticity is uniformly continuous in time. -/
theorem vort_time_continuous (r Ω : ℝ) {F : (Fin 4 → ℝ) → ℝ} (hF : ContDiff ℝ (⊤ : ℕ∞) F) (t0 t1 : ℝ) {ε : ℝ} (hε : 0 < ε) : ∃ d > 0, ∀ t ∈ Icc t0 t1, ∀ t' ∈ Icc t0 t1,
    |t - t'| < d → ∀ x y, |onSphere (vort r Ω F) t x y - onSphere (vort r Ω F) t' x y| ≤ ε := by
  have hV := (vort_smooth r Ω hF).continuous
  have hc : Continuous fun p : ℝ × ℝ × ℝ => vort r Ω F (spacetime p.1 p.2.1 p.2.2) := by
    refine hV.comp ?_
    unfold spacetime
    fun_prop
  have hK : IsCompact (Icc t0 t1 ×ˢ (Icc 0 (2 * Real.pi) ×ˢ Icc 0 (2 * Real.pi)) : Set (ℝ × ℝ × ℝ)) := isCompact_Icc.prod (isCompact_Icc.prod isCompact_Icc)
  have hu := hK.uniformContinuousOn_of_continuous hc.continuousOn
  rw [Metric.uniformContinuousOn_iff] at hu
  obtain ⟨d, hd, hu⟩ := hu ε hε
  refine ⟨d, hd, fun t ht t' ht' htt x y => ?_⟩
  have hper : ∀ t x y, onSphere (vort r Ω F) t x y = onSphere (vort r Ω F) t (toIcoMod Real.two_pi_pos 0 x) (toIcoMod Real.two_pi_pos 0 y) := by
    intro t x y
    have e1 : toIcoMod Real.two_pi_pos 0 x = x - toIcoDiv Real.two_pi_pos 0 x * (2 * Real.pi) := by rw [toIcoMod, zsmul_eq_mul]
    have e2 : toIcoMod Real.two_pi_pos 0 y = y - toIcoDiv Real.two_pi_pos 0 y * (2 * Real.pi) := by rw [toIcoMod, zsmul_eq_mul]
    unfold onSphere spacetime
    rw [e1, e2, Real.cos_sub_int_mul_two_pi, Real.cos_sub_int_mul_two_pi, Real.sin_sub_int_mul_two_pi, Real.sin_sub_int_mul_two_pi]
  rw [hper t, hper t']
  have mx := toIcoMod_mem_Ico Real.two_pi_pos 0 x
  have my := toIcoMod_mem_Ico Real.two_pi_pos 0 y
  rw [zero_add] at mx my
  have := hu (t, toIcoMod Real.two_pi_pos 0 x, toIcoMod Real.two_pi_pos 0 y) ⟨ht, Ico_subset_Icc_self mx, Ico_subset_Icc_self my⟩
    (t', toIcoMod Real.two_pi_pos 0 x, toIcoMod Real.two_pi_pos 0 y) ⟨ht', Ico_subset_Icc_self mx, Ico_subset_Icc_self my⟩ (by
      rw [Prod.dist_eq, Prod.dist_eq]
      simp only [dist_self, max_self]
      rw [Real.dist_eq]
      exact max_lt htt hd)
  rw [Real.dist_eq] at this
  exact this.le

/-! ## Wind -/

/-- Vorticity of the wind with a streamfunction -/
theorem curl_of_grad {U V : ℝ → ℝ → ℝ} (r : ℝ) (h : ∀ x y, cos y ≠ 0 → sphereGrad r A x y = (V x y, -U x y)) (x : ℝ) {y : ℝ} (hy : cos y ≠ 0) :
    sphereCurl r U V x y = sphereLaplacian r A x y := by
  unfold sphereCurl sphereLaplacian sphereDiv
  have e1 : dlon (fun x y => (sphereGrad r A x y).1) x y = dlon V x y := congrArg (fun f => deriv f x) (funext fun x => by dsimp only; rw [h x y hy])
  have e2 : dlat (fun x y => (sphereGrad r A x y).2 * cos y) x y = -dlat (fun x y => U x y * cos y) x y := by
    have e3 : dlat (fun x y => (sphereGrad r A x y).2 * cos y) x y = dlat (fun x y => -(U x y * cos y)) x y := by
      refine Filter.EventuallyEq.deriv_eq ?_
      filter_upwards [(isOpen_ne_fun Real.continuous_cos continuous_const).mem_nhds hy] with y' hy'
      rw [h x y' hy']
      ring
    rw [e3]
    exact deriv.fun_neg
  rw [e1, e2]
  ring

/-- The wind of a smooth streamfunction has no divergence. -/
theorem onSphere_nondivergent {F : (Fin 4 → ℝ) → ℝ} (hF : ContDiff ℝ (⊤ : ℕ∞) F) (hr : r ≠ 0) (t x : ℝ) {y : ℝ} (hy : cos y ≠ 0) :
    sphereDiv r (fun x y => -(north F t x y / r)) (fun x y => east F t x y / r) x y = 0 := by
  have h1 := sphereFlux_onSphere (A := fun _ => 1) contDiff_const hF hr t x hy
  have hpd : ∀ i, pd i (fun _ => (1 : ℝ)) = fun _ => 0 := fun i => by funext p; simp [pd]
  have e1 : ∀ x y, east (fun _ => (1 : ℝ)) t x y = 0 := fun x y => by simp [east, hpd, onSphere]
  have e2 : ∀ x y, north (fun _ => (1 : ℝ)) t x y = 0 := fun x y => by simp [north, hpd, onSphere]
  rw [e1, e2, mul_zero, mul_zero, sub_zero, zero_div] at h1
  rw [← h1]
  refine sphereDiv_congr r x hy fun x y hy => ?_
  rw [sphereGrad_onSphere hF r t x hy]
  simp [onSphere]

/-- Integrals over a polar cap -/
theorem cap_bound {f : ℝ → ℝ → ℝ} (hf : Continuous fun p : ℝ × ℝ => f p.1 p.2) {η φ : ℝ} (hφ : φ ∈ latitudes) (h : ∀ x y, cos y ≠ 0 → |f x y| ≤ η) :
    |∫ x in (0 : ℝ)..2 * Real.pi, ∫ y in φ..Real.pi / 2, f x y * cos y| ≤ 2 * Real.pi * (η * (1 - sin φ)) := by
  have hp := Real.pi_pos
  have hin : ∀ x, |∫ y in φ..Real.pi / 2, f x y * cos y| ≤ η * (1 - sin φ) := by
    intro x
    have hc : Continuous fun y => f x y * cos y := (hf.comp (f := fun y => (x, y)) (by fun_prop)).mul Real.continuous_cos
    have hcos : Continuous fun y => η * cos y := continuous_const.mul Real.continuous_cos
    refine (intervalIntegral.abs_integral_le_integral_abs hφ.2).trans ?_
    have : ∫ y in φ..Real.pi / 2, |f x y * cos y| ≤ ∫ y in φ..Real.pi / 2, η * cos y := by
      refine intervalIntegral.integral_mono_on hφ.2 (hc.abs.intervalIntegrable _ _) (hcos.intervalIntegrable _ _) fun y hy => ?_
      have hc0 : 0 ≤ cos y := cos_lat ⟨hφ.1.trans hy.1, hy.2⟩
      rw [abs_mul, abs_of_nonneg hc0]
      rcases hc0.eq_or_lt with h0 | h0
      · rw [← h0, mul_zero, mul_zero]
      · exact mul_le_mul_of_nonneg_right (h x y h0.ne') hc0
    refine this.trans (le_of_eq ?_)
    rw [intervalIntegral.integral_const_mul, integral_cos_lat]
  have := intervalIntegral.norm_integral_le_of_norm_le_const (a := 0) (b := 2 * Real.pi) (C := η * (1 - sin φ))
    (f := fun x => ∫ y in φ..Real.pi / 2, f x y * cos y) fun x _ => by rw [Real.norm_eq_abs]; exact hin x
  rw [Real.norm_eq_abs, sub_zero, abs_of_pos (by positivity : 0 < 2 * Real.pi)] at this
  linarith

/-- Winds whose vorticities are close have zonal means that are close. -/
theorem mean_wind_close (hr : 0 < r) {q q' U V U' V' : ℝ → ℝ → ℝ} {f : ℝ → ℝ} {mean η : ℝ} (hq : SphereSmooth q) (hq' : SphereSmooth q') (hU : SphereSmooth U)
    (hV : SphereSmooth V) (hU' : SphereSmooth U') (hV' : SphereSmooth V')
    (h : ∀ x y, cos y ≠ 0 → q x y = sphereCurl r U V x y + f y + mean) (h' : ∀ x y, cos y ≠ 0 → q' x y = sphereCurl r U' V' x y + f y)
    (hη : ∀ x y, cos y ≠ 0 → |q x y - q' x y| ≤ η) {φ : ℝ} (hφ : φ ∈ latitudes) (hc : 0 < cos φ) :
    |zonalMeanFn U φ - zonalMeanFn U' φ| ≤ r / cos φ * (4 * η) := by
  have hp := Real.pi_pos
  have hd : Continuous fun p : ℝ × ℝ => q p.1 p.2 - q' p.1 p.2 := hq.smooth.continuous.sub hq'.smooth.continuous
  obtain ⟨c, hcdef⟩ : ∃ c : (ℝ → ℝ → ℝ) → (ℝ → ℝ → ℝ) → ℝ → ℝ → ℝ, c = fun U V x y => (dlon V x y - dlat (fun x y => U x y * cos y) x y) / r := ⟨_, rfl⟩
  have hcont : ∀ {U V : ℝ → ℝ → ℝ}, SphereSmooth U → SphereSmooth V → Continuous fun p : ℝ × ℝ => c U V p.1 p.2 := fun {U V} hU hV => by
    rw [hcdef]
    exact ((partials_continuous hV).1.sub (partials_continuous (hU.mul (.lat Real.contDiff_cos))).2).div_const _
  have hcurl : ∀ (U V : ℝ → ℝ → ℝ) (x : ℝ) {y : ℝ}, cos y ≠ 0 → sphereCurl r U V x y * cos y = c U V x y := fun U V x y hy => by
    rw [hcdef]
    unfold sphereCurl
    have := hr.ne'
    field_simp
  have key : ∀ φ ∈ latitudes, cos φ / r * ((∫ x in (0 : ℝ)..2 * Real.pi, U x φ) - ∫ x in (0 : ℝ)..2 * Real.pi, U' x φ) =
      (∫ x in (0 : ℝ)..2 * Real.pi, ∫ y in φ..Real.pi / 2, (q x y - q' x y) * cos y) - 2 * Real.pi * (mean * (1 - sin φ)) := by
    intro φ hφ
    have hne : ∀ y ∈ Ioo φ (Real.pi / 2), cos y ≠ 0 := fun y hy => (Real.cos_pos_of_mem_Ioo ⟨by linarith [hφ.1, hy.1], hy.2⟩).ne'
    have hin : ∀ {U V : ℝ → ℝ → ℝ}, SphereSmooth U → SphereSmooth V → ∀ x, ∫ y in φ..Real.pi / 2, sphereCurl r U V x y * cos y = ∫ y in φ..Real.pi / 2, c U V x y :=
      fun {U V} _ _ x => intervalIntegral.integral_congr_Ioo_of_le hφ.2 fun y hy => hcurl U V x (hne y hy)
    have hcx : ∀ {U V : ℝ → ℝ → ℝ}, SphereSmooth U → SphereSmooth V → Continuous fun x => ∫ y in φ..Real.pi / 2, c U V x y := fun {U V} hU hV =>
      intervalIntegral.continuous_parametric_intervalIntegral_of_continuous' (f := fun x y => c U V x y) (hcont hU hV) _ _
    have hdx : Continuous fun x => ∫ y in φ..Real.pi / 2, (q x y - q' x y) * cos y :=
      intervalIntegral.continuous_parametric_intervalIntegral_of_continuous' (f := fun x y => (q x y - q' x y) * cos y)
        (hd.mul (Real.continuous_cos.comp continuous_snd)) _ _
    rw [mul_sub, ← cap_circulation hr.ne' hU hV hφ, ← cap_circulation hr.ne' hU' hV' hφ]
    simp only [hin hU hV, hin hU' hV']
    rw [← intervalIntegral.integral_sub ((hcx hU hV).intervalIntegrable _ _) ((hcx hU' hV').intervalIntegrable _ _)]
    have hx : ∀ x, (∫ y in φ..Real.pi / 2, c U V x y) - ∫ y in φ..Real.pi / 2, c U' V' x y =
        (∫ y in φ..Real.pi / 2, (q x y - q' x y) * cos y) - mean * (1 - sin φ) := by
      intro x
      have k1 : Continuous fun y => c U V x y := (hcont hU hV).comp (f := fun y => (x, y)) (by fun_prop)
      have k2 : Continuous fun y => c U' V' x y := (hcont hU' hV').comp (f := fun y => (x, y)) (by fun_prop)
      have k3 : Continuous fun y => (q x y - q' x y) * cos y := (hd.comp (f := fun y => (x, y)) (by fun_prop)).mul Real.continuous_cos
      have k4 : Continuous fun y => mean * cos y := continuous_const.mul Real.continuous_cos
      rw [← integral_cos_lat, ← intervalIntegral.integral_const_mul, ← intervalIntegral.integral_sub (k1.intervalIntegrable _ _) (k2.intervalIntegrable _ _),
        ← intervalIntegral.integral_sub (k3.intervalIntegrable _ _) (k4.intervalIntegrable _ _)]
      refine intervalIntegral.integral_congr_Ioo_of_le hφ.2 fun y hy => ?_
      have hy' := hne y hy
      change c U V x y - c U' V' x y = (q x y - q' x y) * cos y - mean * cos y
      rw [← hcurl U V x hy', ← hcurl U' V' x hy', h x y hy', h' x y hy']
      ring
    simp only [hx]
    rw [intervalIntegral.integral_sub (hdx.intervalIntegrable _ _) intervalIntegrable_const, intervalIntegral.integral_const, smul_eq_mul, sub_zero]
  have hs : -(Real.pi / 2) ∈ latitudes := ⟨le_rfl, by linarith⟩
  have k0 := key _ hs
  have b0 := cap_bound hd hs hη
  rw [Real.cos_neg, Real.cos_pi_div_two, zero_div, zero_mul, Real.sin_neg, Real.sin_pi_div_two] at k0
  rw [Real.sin_neg, Real.sin_pi_div_two] at b0
  have hmean : |mean| ≤ η := by
    have e : (∫ x in (0 : ℝ)..2 * Real.pi, ∫ y in -(Real.pi / 2)..Real.pi / 2, (q x y - q' x y) * cos y) = 4 * Real.pi * mean := by linarith
    rw [e, abs_mul, abs_of_pos (by positivity : 0 < 4 * Real.pi)] at b0
    have b1 : 4 * Real.pi * |mean| ≤ 4 * Real.pi * η := by linarith
    exact le_of_mul_le_mul_left b1 (by positivity)
  have k1 := key φ hφ
  have b1 := cap_bound hd hφ hη
  have hsin : 0 ≤ 1 - sin φ := by linarith [Real.sin_le_one φ]
  have hsin' : 1 - sin φ ≤ 2 := by linarith [Real.neg_one_le_sin φ]
  have hη0 : 0 ≤ η := (abs_nonneg _).trans hmean
  have e : zonalMeanFn U φ - zonalMeanFn U' φ = r / cos φ * ((cos φ / r * ((∫ x in (0 : ℝ)..2 * Real.pi, U x φ) - ∫ x in (0 : ℝ)..2 * Real.pi, U' x φ)) / (2 * Real.pi)) := by
    unfold zonalMeanFn
    have := hr.ne'
    have := hc.ne'
    field_simp
  rw [e, k1, abs_mul, abs_of_pos (by positivity : 0 < r / cos φ)]
  refine mul_le_mul_of_nonneg_left ?_ (by positivity)
  rw [abs_div, abs_of_pos (by positivity : 0 < 2 * Real.pi), div_le_iff₀ (by positivity)]
  refine (abs_sub _ _).trans ?_
  rw [abs_mul (2 * Real.pi), abs_of_pos (by positivity : 0 < 2 * Real.pi), abs_mul mean, abs_of_nonneg hsin]
  have c1 : η * (1 - sin φ) ≤ η * 2 := mul_le_mul_of_nonneg_left hsin' hη0
  have c2 : |mean| * (1 - sin φ) ≤ η * 2 := mul_le_mul hmean hsin' hsin hη0
  have c3 := mul_le_mul_of_nonneg_left c1 (by positivity : 0 ≤ 2 * Real.pi)
  have c4 := mul_le_mul_of_nonneg_left c2 (by positivity : 0 ≤ 2 * Real.pi)
  linarith

theorem integral_cos_lon (m : ℕ) : ∫ x in (0 : ℝ)..2 * Real.pi, cos (m * x) = if m = 0 then 2 * Real.pi else 0 := by
  split_ifs with h
  · simp [h]
  · have hm : (m : ℝ) ≠ 0 := Nat.cast_ne_zero.2 h
    rw [intervalIntegral.integral_comp_mul_left (fun x => cos x) hm, integral_cos, mul_zero, Real.sin_zero,
      show (m : ℝ) * (2 * Real.pi) = (2 * m : ℕ) * Real.pi by push_cast; ring, Real.sin_nat_mul_pi, sub_zero, smul_zero]

theorem integral_sin_lon (m : ℕ) : ∫ x in (0 : ℝ)..2 * Real.pi, sin (m * x) = 0 := by
  by_cases h : m = 0
  · simp [h]
  · have hm : (m : ℝ) ≠ 0 := Nat.cast_ne_zero.2 h
    rw [intervalIntegral.integral_comp_mul_left (fun x => sin x) hm, integral_sin, mul_zero, Real.cos_zero,
      Real.cos_nat_mul_two_pi, sub_self, smul_zero]

/-- The mean of a truncated field over the gridpoints of a circle of latitude is its mean over the circle. -/
theorem modeSum_mean {g : Grid ℝ} (hg : g.Valid) {T : ℕ} (hT : T < g.nlon) (N : ℕ → ℕ → ℝ) (P : ℕ → ℕ → ℝ → ℝ) (s : SpecField T) (y : ℝ) :
    (∑ i : Fin g.nlon, modeSum N P s (g.lam i) y) / g.nlon = zonalMeanFn (modeSum N P s) y := by
  have hn : g.nlon ≠ 0 := by have := hg.nlon_ge; omega
  have hn' : (g.nlon : ℝ) ≠ 0 := Nat.cast_ne_zero.2 hn
  have hp := Real.pi_pos
  have re : ∀ k x, (s k * Complex.exp (Complex.I * (specM k * x : ℝ))).re = (s k).re * cos (specM k * x) - (s k).im * sin (specM k * x) := by
    intro k x
    rw [mul_comm Complex.I, Complex.mul_re, Complex.exp_ofReal_mul_I_re, Complex.exp_ofReal_mul_I_im]
  have e1 : ∀ k, ∑ i : Fin g.nlon, (s k * Complex.exp (Complex.I * (specM k * g.lam i : ℝ))).re = g.nlon * if specM k = 0 then (s k).re else 0 := by
    intro k
    rw [← Complex.re_sum, ← Finset.mul_sum]
    simp only [exp_lam hg]
    rw [Fin.sum_univ_eq_sum_range (fun i => ru g.nlon (specM k * i : ℤ)), sum_ru hn]
    have hk : specM k < g.nlon := lt_of_le_of_lt ((specM_le_specN k).trans (specN_le k)) hT
    by_cases h : specM k = 0
    · rw [if_pos h, if_pos (by rw [h]; simp), ← Complex.ofReal_natCast, Complex.re_mul_ofReal, mul_comm]
    · rw [if_neg h, if_neg, mul_zero, mul_zero, Complex.zero_re]
      rw [Int.natCast_dvd_natCast]
      exact fun hd => h (Nat.eq_zero_of_dvd_of_lt hd hk)
  have e2 : ∀ k, ∫ x in (0 : ℝ)..2 * Real.pi, (s k * Complex.exp (Complex.I * (specM k * x : ℝ))).re = 2 * Real.pi * if specM k = 0 then (s k).re else 0 := by
    intro k
    simp only [re]
    have c1 : Continuous fun x => (s k).re * cos (specM k * x) := by fun_prop
    have c2 : Continuous fun x => (s k).im * sin (specM k * x) := by fun_prop
    rw [intervalIntegral.integral_sub (c1.intervalIntegrable _ _) (c2.intervalIntegrable _ _), intervalIntegral.integral_const_mul, intervalIntegral.integral_const_mul,
      integral_cos_lon, integral_sin_lon]
    split_ifs <;> ring
  unfold zonalMeanFn modeSum
  rw [Finset.sum_comm, intervalIntegral.integral_finsetSum]
  · rw [div_eq_div_iff hn' (by positivity), Finset.sum_mul, Finset.sum_mul]
    refine Finset.sum_congr rfl fun k _ => ?_
    rw [← Finset.mul_sum, e1, intervalIntegral.integral_const_mul, e2]
    ring
  · intro k _
    simp only [re]
    exact Continuous.intervalIntegrable (by fun_prop) _ _

/-- Without diffusion, the absolute vorticity of a smooth solution is transported (with a time coordinate that stays in the interval). -/
theorem vort_transport {r Ω W t0 t1 : ℝ} {order : ℕ} {Ψ : ℝ → ℝ → ℝ → ℝ} (hr : r ≠ 0) (hΨ : SmoothSolution r Ω 0 order W t0 t1 Ψ) (ht : t0 ≤ t1)
    {F : (Fin 4 → ℝ) → ℝ} (hF : ContDiff ℝ (⊤ : ℕ∞) F) (hΨF : ∀ t x y, Ψ t x y = F (spacetime t x y)) :
    ∃ θ : ℝ → ℝ, ∃ U V, (∀ t ∈ Icc t0 t1, ∃ s, θ s = t) ∧ ConservativeFlow r (fun s => onSphere (vort r Ω F) (θ s)) U V := by
  obtain ⟨θ, hθ⟩ : ∃ θ : ℝ → ℝ, θ = fun s => (t0 + t1) / 2 + (t1 - t0) / 2 * sin s := ⟨_, rfl⟩
  have hθm : ∀ s, θ s ∈ Icc t0 t1 := by
    intro s
    rw [hθ]
    have h1 := Real.sin_le_one s
    have h2 := Real.neg_one_le_sin s
    constructor <;> dsimp only <;> nlinarith
  have hθd : ∀ s, HasDerivAt θ ((t1 - t0) / 2 * cos s) s := by
    intro s
    rw [hθ]
    exact ((Real.hasDerivAt_sin s).const_mul _).const_add _
  have hθc : ContDiff ℝ (⊤ : ℕ∞) θ := by
    rw [hθ]
    exact contDiff_const.add (contDiff_const.mul Real.contDiff_sin)
  have hv := vort_smooth r Ω hF
  have hon : ∀ t, Ψ t = onSphere F t := fun t => by funext x y; exact hΨF t x y
  refine ⟨θ, fun s x y => (t1 - t0) / 2 * cos s * -(north F (θ s) x y / r), fun s x y => (t1 - t0) / 2 * cos s * (east F (θ s) x y / r), ?_, ?_, ?_, ?_, ?_, ?_, ?_⟩
  · intro t htt
    rcases ht.eq_or_lt with h | h
    · exact ⟨0, by rw [hθ]; simp only [Real.sin_zero]; linarith [htt.1, htt.2]⟩
    · refine ⟨Real.arcsin ((t - (t0 + t1) / 2) / ((t1 - t0) / 2)), ?_⟩
      have h2 : 0 < (t1 - t0) / 2 := by linarith
      rw [hθ]
      dsimp only
      rw [Real.sin_arcsin, mul_div_cancel₀ _ h2.ne']
      · ring
      · rw [le_div_iff₀ h2]; linarith [htt.1]
      · rw [div_le_iff₀ h2]; linarith [htt.2]
  · refine hv.comp (contDiff_pi.2 fun i => ?_)
    fin_cases i
    · exact hθc.comp contDiff_fst
    · exact (Real.contDiff_cos.comp (contDiff_snd.comp contDiff_snd)).mul (Real.contDiff_cos.comp (contDiff_fst.comp contDiff_snd))
    · exact (Real.contDiff_cos.comp (contDiff_snd.comp contDiff_snd)).mul (Real.contDiff_sin.comp (contDiff_fst.comp contDiff_snd))
    · exact Real.contDiff_sin.comp (contDiff_snd.comp contDiff_snd)
  · intro s x φ
    exact (onSphere_smooth hv (θ s)).periodic x φ
  · intro s
    exact (SphereSmooth.lat contDiff_const).mul ((north_smooth hF (θ s)).div_const r).neg
  · intro s
    exact (SphereSmooth.lat contDiff_const).mul ((east_smooth hF (θ s)).div_const r)
  · intro s x φ hφ
    have h1 := onSphere_nondivergent hF hr (θ s) x hφ
    unfold sphereDiv at h1 ⊢
    have e1 : dlon (fun x y => (t1 - t0) / 2 * cos s * -(north F (θ s) x y / r)) x φ = (t1 - t0) / 2 * cos s * dlon (fun x y => -(north F (θ s) x y / r)) x φ :=
      deriv_const_mul_field _
    have e2 : dlat (fun x y => (t1 - t0) / 2 * cos s * (east F (θ s) x y / r) * cos y) x φ = (t1 - t0) / 2 * cos s * dlat (fun x y => (east F (θ s) x y / r) * cos y) x φ := by
      simp only [mul_assoc ((t1 - t0) / 2 * cos s)]
      exact deriv_const_mul_field _
    rw [e1, e2, ← mul_add, mul_div_assoc, h1, mul_zero]
  · intro s x φ hφ
    have h1 := hΨ.equation (θ s) (hθm s) x φ hφ
    simp only [hon, absVort_onSphere hF r Ω _ x hφ, zero_mul, sub_zero] at h1
    rw [sphereFlux_congr (Q' := onSphere (vort r Ω F) (θ s)) (P' := onSphere F (θ s)) r x hφ (fun x y hy => absVort_onSphere hF r Ω _ x hy) (fun _ _ _ => rfl),
      sphereFlux_onSphere hv hF hr _ x hφ] at h1
    have h2 : HasDerivAt (fun s => onSphere (vort r Ω F) (θ s) x φ) _ s := HasDerivAt.comp s h1 (hθd s)
    rw [h2.deriv, sphereGrad_onSphere hv r _ x hφ]
    field_simp
    ring

end Barotropic
