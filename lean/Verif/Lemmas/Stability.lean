import Verif.Props.GlobalSolutions

/-!
# Dependence of solutions of the truncated equation on perturbations

Estimates in the mean square, with constants that do not depend on the truncation.
-/

namespace Barotropic
open Real (cos sin)
open Set

variable {T : ℕ} {N : ℕ → ℕ → ℝ} {g : Grid ℝ} {S : g.Sph} {M : BModel g}

theorem sphereIntegral_mono {F G : ℝ → ℝ → ℝ} (hF : SphereSmooth F) (hG : SphereSmooth G) (r : ℝ) (h : ∀ x y, cos y ≠ 0 → F x y ≤ G x y) :
    sphereIntegral r F ≤ sphereIntegral r G := by
  have cF : Continuous fun p : ℝ × ℝ => F p.1 p.2 * cos p.2 := hF.smooth.continuous.mul (Real.continuous_cos.comp continuous_snd)
  have cG : Continuous fun p : ℝ × ℝ => G p.1 p.2 * cos p.2 := hG.smooth.continuous.mul (Real.continuous_cos.comp continuous_snd)
  have iF : Continuous fun x => ∫ y in -(Real.pi / 2)..Real.pi / 2, F x y * cos y :=
    intervalIntegral.continuous_parametric_intervalIntegral_of_continuous' (f := fun x y => F x y * cos y) cF _ _
  have iG : Continuous fun x => ∫ y in -(Real.pi / 2)..Real.pi / 2, G x y * cos y :=
    intervalIntegral.continuous_parametric_intervalIntegral_of_continuous' (f := fun x y => G x y * cos y) cG _ _
  have hpi := Real.pi_pos
  refine mul_le_mul_of_nonneg_left ?_ (sq_nonneg r)
  refine intervalIntegral.integral_mono_on (by linarith) (iF.intervalIntegrable _ _) (iG.intervalIntegrable _ _) fun x _ => ?_
  have cFx : Continuous fun y => F x y * cos y := cF.comp (continuous_const.prodMk continuous_id)
  have cGx : Continuous fun y => G x y * cos y := cG.comp (continuous_const.prodMk continuous_id)
  refine intervalIntegral.integral_mono_on (by linarith) (cFx.intervalIntegrable _ _) (cGx.intervalIntegrable _ _) fun y hy => ?_
  by_cases h0 : cos y = 0
  · simp [h0]
  · exact mul_le_mul_of_nonneg_right (h x y h0) (Real.cos_nonneg_of_mem_Icc hy)

/-- Advection of the field with coefficients `q` by the wind with streamfunction `p` -/
noncomputable def advect (N : ℕ → ℕ → ℝ) (r : ℝ) (q p : SpecField T) (x y : ℝ) : ℝ :=
  -(phiDeriv N p x y / r) * (lamDeriv N q x y / r) + lamDeriv N p x y / r * (phiDeriv N q x y / r)

theorem advect_smooth (r : ℝ) (q p : SpecField T) : SphereSmooth (advect N r q p) :=
  ((phiDeriv_smooth p r).neg.mul (lamDeriv_smooth q r)).add ((lamDeriv_smooth p r).mul (phiDeriv_smooth q r))

theorem advect_flux (r : ℝ) (q p : SpecField T) {y : ℝ} (hy : cos y ≠ 0) (x : ℝ) :
    sphereFlux r (harmonicSum N q) (harmonicSum N p) x y = advect N r q p x y := by
  rw [sphereFlux_advective r q p hy x]
  unfold advect
  by_cases hr : r = 0
  · simp [hr]
  · field_simp

theorem advect_flow {r : ℝ} (hr : r ≠ 0) (q p : SpecField T) : Flow r (harmonicSum N q) (harmonicSum N p) (fun x y => -(phiDeriv N p x y / r))
    (fun x y => lamDeriv N p x y / r) (advect N r q p) := by
  have hw := fun x y hy => sphereGrad_harmonicSum (N := N) hr p x (y := y) hy
  refine ⟨harmonicSum_smooth _, harmonicSum_smooth _, (phiDeriv_smooth _ _).neg, lamDeriv_smooth _ _, advect_smooth _ _ _, fun x y hy => ?_,
    fun x y hy => ?_, fun x y hy => ?_⟩
  · rw [hw x y hy, neg_neg]
  · have e := (sphere_wind (N := N) r p 0 hy x).2
    have hz : degMul (fun n => (n : ℝ) * (n + 1) / r ^ 2) (0 : SpecField T) = 0 := by funext k; simp [degMul]
    rw [hz, show harmonicSum N (0 : SpecField T) x y = 0 from modeSum_eq_zero N _ (fun _ => .inl rfl) x y, neg_zero] at e
    simp only [lamDeriv_zero, phiDeriv_zero, add_zero, neg_div] at e
    exact e
  · rw [sphereGrad_harmonicSum hr q x hy]
    rfl

theorem advect_self {r : ℝ} (hr : r ≠ 0) (q p : SpecField T) : spherePair r (harmonicSum N q) (advect N r q p) = 0 := by
  have := (advect_flow (N := N) hr q p).casimir hr 1
  simp only [pow_one] at this
  exact this

theorem advect_split (r : ℝ) (a b p p' : SpecField T) (x y : ℝ) :
    advect N r a p x y - advect N r b p' x y = advect N r (a - b) p x y + advect N r b (p - p') x y := by
  have hl : ∀ u v : SpecField T, lamDeriv N (u - v) x y = lamDeriv N u x y - lamDeriv N v x y := fun u v => by
    rw [show u - v = u + (-1 : ℝ) • v by rw [neg_one_smul, sub_eq_add_neg], lamDeriv_add, lamDeriv_smul]; ring
  have hp : ∀ u v : SpecField T, phiDeriv N (u - v) x y = phiDeriv N u x y - phiDeriv N v x y := fun u v => by
    rw [show u - v = u + (-1 : ℝ) • v by rw [neg_one_smul, sub_eq_add_neg], phiDeriv_add, phiDeriv_smul]; ring
  unfold advect
  rw [hl, hl, hp, hp]
  ring

/-- The wind is bounded by the vorticity. -/
theorem wind_bound {r : ℝ} (hr : r ≠ 0) (hN : ∀ n m, N n m ≠ 0) (a : SpecField T) :
    windPair r (harmonicSum N (invLaplace r a)) (harmonicSum N (invLaplace r a)) ≤ r ^ 2 / 2 * spherePair r (harmonicSum N a) (harmonicSum N a) := by
  rw [windPair_green hr, parseval hr, parseval hr, ← Finset.sum_neg_distrib, Finset.mul_sum]
  refine Finset.sum_le_sum fun k _ => ?_
  have h0 := modeDot_self_nonneg (specM k) (a k)
  have hp := modeNorm_pos hr hN k
  by_cases hk : specN k = 0
  · rw [stream_mean r a k hk, modeDot_zero]
    have : 0 ≤ modeNorm r N k * modeDot (specM k) (a k) (a k) := mul_nonneg hp.le h0
    nlinarith [sq_nonneg r]
  · have e : dropMean a k = a k := if_neg hk
    have e2 : invLaplace r a k = ((-(r ^ 2 / (specN k * (specN k + 1))) : ℝ) : ℂ) * a k := by
      simp [invLaplace, degMul, hk]
    rw [e, modeDot_comm, e2, modeDot_smul]
    have hn : (1 : ℝ) ≤ specN k := by exact_mod_cast Nat.one_le_iff_ne_zero.mpr hk
    have hle : r ^ 2 / (specN k * (specN k + 1)) ≤ r ^ 2 / 2 := div_le_div_of_nonneg_left (sq_nonneg r) two_pos (by nlinarith)
    have := mul_le_mul_of_nonneg_right hle (mul_nonneg hp.le h0)
    linarith

theorem young {a u v c d G r : ℝ} (hG : 0 < G) (hr : 0 < r) (h : c ^ 2 + d ^ 2 ≤ G ^ 2) :
    -(2 * (a * (-v * c + u * d))) ≤ G * r * (a * a) + G / r * (u * u + v * v) := by
  have hw : (-v * c + u * d) ^ 2 ≤ (u * u + v * v) * G ^ 2 := by
    have : (-v * c + u * d) ^ 2 ≤ (u * u + v * v) * (c ^ 2 + d ^ 2) := by nlinarith [sq_nonneg (v * d + u * c)]
    exact this.trans (mul_le_mul_of_nonneg_left h (add_nonneg (mul_self_nonneg _) (mul_self_nonneg _)))
  have h1 : 0 ≤ (G * r * a + (-v * c + u * d)) ^ 2 / (G * r) := by positivity
  have h2 : (-v * c + u * d) ^ 2 / (G * r) ≤ G / r * (u * u + v * v) := by
    rw [div_le_iff₀ (by positivity)]
    refine hw.trans (le_of_eq ?_)
    field_simp
  have h3 : (G * r * a + (-v * c + u * d)) ^ 2 / (G * r) = G * r * (a * a) + 2 * (a * (-v * c + u * d)) + (-v * c + u * d) ^ 2 / (G * r) := by
    field_simp
    ring
  linarith

/-- Advection of a given field by the wind of the error -/
theorem advect_bound {r : ℝ} (hr : 0 < r) (hN : ∀ n m, N n m ≠ 0) {G : ℝ} (hG : 0 < G) (p e : SpecField T)
    (hp : ∀ x y, cos y ≠ 0 → (sphereGrad r (harmonicSum N p) x y).1 ^ 2 + (sphereGrad r (harmonicSum N p) x y).2 ^ 2 ≤ G ^ 2) :
    -(2 * spherePair r (harmonicSum N e) (advect N r p (invLaplace r e))) ≤ 2 * G * r * spherePair r (harmonicSum N e) (harmonicSum N e) := by
  have hE := harmonicSum_smooth (N := N) e
  have hx := lamDeriv_smooth (N := N) (invLaplace r e) r
  have hy := phiDeriv_smooth (N := N) (invLaplace r e) r
  have hA := advect_smooth (N := N) r p (invLaplace r e)
  have hW := (hx.mul hx).add (hy.mul hy)
  have hEE := hE.mul hE
  have hEA := hE.mul hA
  have hcR : SphereSmooth fun x y => G * r * (harmonicSum N e x y * harmonicSum N e x y) + G / r *
      (lamDeriv N (invLaplace r e) x y / r * (lamDeriv N (invLaplace r e) x y / r) + phiDeriv N (invLaplace r e) x y / r * (phiDeriv N (invLaplace r e) x y / r)) :=
    ((SphereSmooth.lat contDiff_const).mul hEE).add ((SphereSmooth.lat contDiff_const).mul hW)
  have hcL : SphereSmooth fun x y => -(2 * (harmonicSum N e x y * advect N r p (invLaplace r e) x y)) :=
    (((SphereSmooth.lat contDiff_const).mul hEA)).neg
  have key := sphereIntegral_mono hcL hcR r fun x y h0 => by
    have := hp x y h0
    rw [sphereGrad_harmonicSum hr.ne' p x h0] at this
    exact young hG hr this
  rw [sphereIntegral_lin hEE hW] at key
  have e1 : sphereIntegral r (fun x y => -(2 * (harmonicSum N e x y * advect N r p (invLaplace r e) x y))) =
      -(2 * spherePair r (harmonicSum N e) (advect N r p (invLaplace r e))) := by
    have := sphereIntegral_lin hEA hEA r (-2) 0
    simp only [zero_mul, add_zero] at this
    unfold spherePair
    rw [← neg_mul, ← this]
    congr 1
    funext x y
    ring
  have e2 := wind_bound (N := N) hr.ne' hN e
  rw [windPair_eq hr.ne'] at e2
  rw [e1] at key
  have h3 : 0 ≤ spherePair r (harmonicSum N e) (harmonicSum N e) := by
    rw [parseval hr.ne']
    exact Finset.sum_nonneg fun k _ => mul_nonneg (modeNorm_pos hr.ne' hN k).le (modeDot_self_nonneg _ _)
  have h4 := mul_le_mul_of_nonneg_left e2 (by positivity : 0 ≤ G / r)
  have h5 : G / r * (r ^ 2 / 2 * spherePair r (harmonicSum N e) (harmonicSum N e)) = G * r / 2 * spherePair r (harmonicSum N e) (harmonicSum N e) := by
    field_simp
  have h6 : 0 ≤ G * r * spherePair r (harmonicSum N e) (harmonicSum N e) := by positivity
  change _ ≤ G * r * spherePair r (harmonicSum N e) (harmonicSum N e) + _ at key
  linarith

theorem pair_bound {r : ℝ} {F X : ℝ → ℝ → ℝ} (hF : SphereSmooth F) (hX : SphereSmooth X) :
    -(2 * spherePair r F X) ≤ spherePair r F F + spherePair r X X := by
  have hFF := hF.mul hF
  have hXX := hX.mul hX
  have hFX := hF.mul hX
  have hs : SphereSmooth fun x y => F x y * F x y + X x y * X x y := hFF.add hXX
  have hl : SphereSmooth fun x y => (-2) * (F x y * X x y) + 0 * (F x y * X x y) := by
    have := ((SphereSmooth.lat (contDiff_const (c := (-2 : ℝ)))).mul hFX)
    simpa using this
  have key := sphereIntegral_mono hl hs r fun x y _ => by nlinarith [mul_self_nonneg (F x y + X x y)]
  rw [sphereIntegral_lin hFX hFX] at key
  have := sphereIntegral_lin hFF hXX r 1 1
  simp only [one_mul] at this
  rw [this] at key
  unfold spherePair
  linarith

theorem damping_monotone {r : ℝ} (hr : g.rsphere = r) (hr0 : r ≠ 0) (hN : ∀ n m, N n m ≠ 0) (hν : 0 ≤ M.diffusionCoeff) (q q' : g.Spc) :
    spherePair r (harmonicSum N (q - q')) (harmonicSum N (M.damping S q - M.damping S q')) ≤ 0 := by
  rw [parseval hr0]
  refine Finset.sum_nonpos fun k _ => ?_
  have e : (M.damping S q - M.damping S q') k =
      ((-(M.diffusionCoeff * ((specN k : ℝ) * (specN k + 1) / g.rsphere ^ 2) ^ M.diffusionOrder) : ℝ) : ℂ) * (q - q') k := by
    unfold BModel.damping
    rw [Pi.sub_apply, Pi.sub_apply]
    push_cast
    ring
  rw [e, modeDot_smul]
  refine mul_nonpos_of_nonneg_of_nonpos (modeNorm_pos hr0 hN k).le (mul_nonpos_of_nonpos_of_nonneg ?_ (modeDot_self_nonneg _ _))
  exact neg_nonpos.mpr (by positivity)

/-- A differential inequality -/
theorem gronwall_le {W W' : ℝ → ℝ} {t0 t1 K ρ : ℝ} (hW : ∀ t ∈ Icc t0 t1, HasDerivWithinAt W (W' t) (Icc t0 t1) t)
    (hb : ∀ t ∈ Icc t0 t1, W' t ≤ K * W t + ρ) (hK : 0 ≤ K) (hρ : 0 ≤ ρ) :
    ∀ t ∈ Icc t0 t1, W t ≤ (W t0 + ρ * (t - t0)) * Real.exp (K * (t - t0)) := by
  have hd : ∀ t ∈ Icc t0 t1, HasDerivWithinAt (fun t => W t * Real.exp (-(K * (t - t0))) - ρ * (t - t0))
      (W' t * Real.exp (-(K * (t - t0))) + W t * (Real.exp (-(K * (t - t0))) * -K) - ρ) (Icc t0 t1) t := by
    intro t ht
    have h1 : HasDerivWithinAt (fun t => Real.exp (-(K * (t - t0)))) (Real.exp (-(K * (t - t0))) * -K) (Icc t0 t1) t := by
      have := (((hasDerivAt_id t).sub_const t0).const_mul K).neg.exp
      simp only [mul_one] at this
      exact this.hasDerivWithinAt
    have h2 : HasDerivWithinAt (fun t => ρ * (t - t0)) ρ (Icc t0 t1) t := by
      have := ((hasDerivAt_id t).sub_const t0).const_mul ρ
      simp only [mul_one] at this
      exact this.hasDerivWithinAt
    exact ((hW t ht).mul h1).sub h2
  have hanti := antitone_of_deriv hd fun t ht => by
    have hE := Real.exp_pos (-(K * (t - t0)))
    have hle : Real.exp (-(K * (t - t0))) ≤ 1 := by
      rw [Real.exp_le_one_iff]
      have := mul_nonneg hK (sub_nonneg.mpr ht.1)
      linarith
    have h1 := mul_le_mul_of_nonneg_right (hb t ht) hE.le
    have h2 := mul_le_mul_of_nonneg_left hle hρ
    linarith
  intro t ht
  have h := hanti ⟨le_rfl, ht.1.trans ht.2⟩ ht ht.1
  simp only [sub_self, mul_zero, neg_zero, Real.exp_zero, mul_one, sub_zero] at h
  have hE := Real.exp_pos (K * (t - t0))
  have e : Real.exp (-(K * (t - t0))) * Real.exp (K * (t - t0)) = 1 := by rw [← Real.exp_add, neg_add_cancel, Real.exp_zero]
  calc W t = W t * Real.exp (-(K * (t - t0))) * Real.exp (K * (t - t0)) := by rw [mul_assoc, e, mul_one]
    _ ≤ _ := mul_le_mul_of_nonneg_right (by linarith) hE.le

end Barotropic
