import Verif.Spec.Accuracy
import Verif.Lemmas.SpectralAccuracy

/-!
# Spectral accuracy and uniform convergence: C130
-/

namespace Barotropic
open Real (cos sin)
open Set

variable {T : ℕ} {N : ℕ → ℕ → ℝ} {r : ℝ}

theorem sphereGrad_congr {A B : ℝ → ℝ → ℝ} (r x : ℝ) {y : ℝ} (hy : cos y ≠ 0) (h : ∀ x y, cos y ≠ 0 → A x y = B x y) : sphereGrad r A x y = sphereGrad r B x y := by
  have e1 : dlon A x y = dlon B x y := congrArg (fun f => deriv f x) (funext fun x => h x y hy)
  have e2 : dlat A x y = dlat B x y := by
    refine Filter.EventuallyEq.deriv_eq ?_
    filter_upwards [(isOpen_ne_fun Real.continuous_cos continuous_const).mem_nhds hy] with y' hy'
    exact h x y' hy'
  unfold sphereGrad
  rw [e1, e2]

theorem harmonicSum_sub (a b : SpecField T) (x y : ℝ) : harmonicSum N (a - b) x y = harmonicSum N a x y - harmonicSum N b x y := by
  rw [show a - b = a + (-1 : ℝ) • b by rw [neg_one_smul, sub_eq_add_neg], harmonicSum_lin]; ring

theorem lamDeriv_sub' (a b : SpecField T) (x y : ℝ) : lamDeriv N (a - b) x y = lamDeriv N a x y - lamDeriv N b x y := by
  rw [show a - b = a + (-1 : ℝ) • b by rw [neg_one_smul, sub_eq_add_neg], lamDeriv_add, lamDeriv_smul]; ring

theorem phiDeriv_sub' (a b : SpecField T) (x y : ℝ) : phiDeriv N (a - b) x y = phiDeriv N a x y - phiDeriv N b x y := by
  rw [show a - b = a + (-1 : ℝ) • b by rw [neg_one_smul, sub_eq_add_neg], phiDeriv_add, phiDeriv_smul]; ring

/-- C130: fields that are represented by spherical harmonics up to degree `T` are bounded everywhere by their mean square, and so are their gradients.
(With the sharp constant for values: the sum of the squares of the harmonics is the same everywhere on the sphere.) -/
theorem C130_inverse (hr : r ≠ 0) (hN : ∀ n m, N n m ≠ 0) (a b : SpecField T) (x : ℝ) {y : ℝ} (hy : cos y ≠ 0) :
    (harmonicSum N a x y - harmonicSum N b x y) ^ 2 ≤ ((T : ℝ) + 1) ^ 2 / (4 * Real.pi * r ^ 2) * sqDist r (harmonicSum N a) (harmonicSum N b) ∧
    ((sphereGrad r (harmonicSum N a) x y).1 - (sphereGrad r (harmonicSum N b) x y).1) ^ 2 +
      ((sphereGrad r (harmonicSum N a) x y).2 - (sphereGrad r (harmonicSum N b) x y).2) ^ 2 ≤
      ((T : ℝ) + 1) ^ 4 / (2 * Real.pi * r ^ 4) * sqDist r (harmonicSum N a) (harmonicSum N b) := by
  have e : sphereIntegral r (fun x y => harmonicSum N (a - b) x y ^ 2) = sqDist r (harmonicSum N a) (harmonicSum N b) :=
    sphereIntegral_congr r fun x y _ => by rw [harmonicSum_sub]
  have h1 := harmonicSum_inverse hr hN (a - b) x y
  obtain ⟨h2, h3⟩ := gradient_inverse hr hN (a - b) x hy
  rw [e] at h1 h2 h3
  rw [harmonicSum_sub] at h1
  rw [lamDeriv_sub'] at h2
  rw [phiDeriv_sub'] at h3
  refine ⟨h1, ?_⟩
  rw [sphereGrad_harmonicSum hr a x hy, sphereGrad_harmonicSum hr b x hy]
  dsimp only
  rw [← sub_div, ← sub_div, div_pow, div_pow, ← add_div, div_le_iff₀ (by positivity)]
  have hpi := Real.pi_pos.ne'
  have e2 : ((T : ℝ) + 1) ^ 4 / (2 * Real.pi * r ^ 4) * sqDist r (harmonicSum N a) (harmonicSum N b) * r ^ 2 =
      2 * (((T : ℝ) + 1) ^ 4 / (4 * Real.pi * r ^ 2) * sqDist r (harmonicSum N a) (harmonicSum N b)) := by
    field_simp
    ring
  rw [e2]
  linarith

theorem sq_add_le (a b : ℝ) : (a + b) ^ 2 ≤ 2 * a ^ 2 + 2 * b ^ 2 := by nlinarith [sq_nonneg (a - b)]

/-- Errors of fields close to an approximation -/
theorem accurate_of_near (hr : 0 < r) (hN : ∀ n m, N n m ≠ 0) {a p : SpecField T} {B B' : ℝ → ℝ → ℝ} (hB' : SphereSmooth B') (hBB : ∀ x y, cos y ≠ 0 → B x y = B' x y)
    {C1 C2 X τ : ℝ} (hτ0 : 0 ≤ τ) (hτ1 : τ ≤ 1) (hC1 : 0 ≤ C1) (hC2 : 0 ≤ C2) (hX : τ ≤ X) (hap : sqDist r (harmonicSum N a) (harmonicSum N p) ≤ C1 * X)
    (hp : ∀ x y, cos y ≠ 0 → |harmonicSum N p x y - B x y| ≤ C2 * τ ∧ |(sphereGrad r (harmonicSum N p) x y).1 - (sphereGrad r B x y).1| ≤ C2 * τ ∧
      |(sphereGrad r (harmonicSum N p) x y).2 - (sphereGrad r B x y).2| ≤ C2 * τ) :
    Accurate (2 * C1 + 2 * (area r * C2 ^ 2) + 2 * (C1 / (4 * Real.pi * r ^ 2)) + 4 * C2 ^ 2 + 2 * (C1 / (2 * Real.pi * r ^ 4))) r T X (harmonicSum N a) B := by
  have hpi := Real.pi_pos
  have hX0 : 0 ≤ X := hτ0.trans hX
  have har := area_nonneg r
  have q1 : 0 ≤ C1 / (4 * Real.pi * r ^ 2) := by positivity
  have q2 : 0 ≤ C1 / (2 * Real.pi * r ^ 4) := by positivity
  have q3 : 0 ≤ area r * C2 ^ 2 := by positivity
  have hT : (1 : ℝ) ≤ (T : ℝ) + 1 := by have : (0 : ℝ) ≤ T := Nat.cast_nonneg T; linarith
  have hτX : (C2 * τ) ^ 2 ≤ C2 ^ 2 * X := by
    rw [mul_pow]
    refine mul_le_mul_of_nonneg_left ?_ (sq_nonneg _)
    nlinarith
  have T2 : (1 : ℝ) ≤ ((T : ℝ) + 1) ^ 2 := one_le_pow₀ hT
  have T4 : (1 : ℝ) ≤ ((T : ℝ) + 1) ^ 4 := one_le_pow₀ hT
  have sq_of : ∀ {z : ℝ}, |z| ≤ C2 * τ → z ^ 2 ≤ C2 ^ 2 * X := fun {z} hz => by
    have := pow_le_pow_left₀ (abs_nonneg z) hz 2
    rw [sq_abs] at this
    exact this.trans hτX
  have lift : ∀ {P c : ℝ}, 1 ≤ P → 0 ≤ c → c * X ≤ c * P * X := fun {P c} hP hc => by
    have := mul_le_mul_of_nonneg_left hP (mul_nonneg hc hX0)
    linarith
  refine ⟨?_, fun x y hy => ?_, fun x y hy => ?_⟩
  · have h1 : sqDist r (harmonicSum N a) B = sqDist r (harmonicSum N a) B' := sphereIntegral_congr r fun x y hy => by rw [hBB x y hy]
    rw [h1]
    have h2 := sqDist_triangle (r := r) (harmonicSum_smooth (N := N) a) (harmonicSum_smooth (N := N) p) hB'
    have h3 : sqDist r (harmonicSum N p) B' ≤ area r * C2 ^ 2 * X := by
      refine (integral_le_area ((harmonicSum_smooth (N := N) p).sub hB') r (ε := C2 * τ) fun x y hy => ?_).trans ?_
      · rw [← hBB x y hy]; exact (hp x y hy).1
      · rw [mul_assoc]; exact mul_le_mul_of_nonneg_left hτX har
    have h4 : (2 * C1 + 2 * (area r * C2 ^ 2)) * X ≤ (2 * C1 + 2 * (area r * C2 ^ 2) + 2 * (C1 / (4 * Real.pi * r ^ 2)) + 4 * C2 ^ 2 + 2 * (C1 / (2 * Real.pi * r ^ 4))) * X := by
      refine mul_le_mul_of_nonneg_right ?_ hX0
      have := sq_nonneg C2
      linarith
    linarith
  · have h1 := (C130_inverse hr.ne' hN a p x hy).1
    have h2 := mul_le_mul_of_nonneg_left hap (by positivity : 0 ≤ ((T : ℝ) + 1) ^ 2 / (4 * Real.pi * r ^ 2))
    have h3 := sq_of (hp x y hy).1
    have h4 := sq_add_le (harmonicSum N a x y - harmonicSum N p x y) (harmonicSum N p x y - B x y)
    rw [sub_add_sub_cancel] at h4
    have h5 : ((T : ℝ) + 1) ^ 2 / (4 * Real.pi * r ^ 2) * (C1 * X) = C1 / (4 * Real.pi * r ^ 2) * ((T : ℝ) + 1) ^ 2 * X := by ring
    have h6 := lift T2 (sq_nonneg C2)
    have h7 : 0 ≤ (2 * C1 + 2 * (area r * C2 ^ 2) + 2 * C2 ^ 2 + 2 * (C1 / (2 * Real.pi * r ^ 4))) * ((T : ℝ) + 1) ^ 2 * X := by positivity
    linarith
  · have h1 := (C130_inverse hr.ne' hN a p x hy).2
    have h2 := mul_le_mul_of_nonneg_left hap (by positivity : 0 ≤ ((T : ℝ) + 1) ^ 4 / (2 * Real.pi * r ^ 4))
    have h3 := sq_of (hp x y hy).2.1
    have h3' := sq_of (hp x y hy).2.2
    have h4 := sq_add_le ((sphereGrad r (harmonicSum N a) x y).1 - (sphereGrad r (harmonicSum N p) x y).1)
      ((sphereGrad r (harmonicSum N p) x y).1 - (sphereGrad r B x y).1)
    have h4' := sq_add_le ((sphereGrad r (harmonicSum N a) x y).2 - (sphereGrad r (harmonicSum N p) x y).2)
      ((sphereGrad r (harmonicSum N p) x y).2 - (sphereGrad r B x y).2)
    rw [sub_add_sub_cancel] at h4 h4'
    have h5 : ((T : ℝ) + 1) ^ 4 / (2 * Real.pi * r ^ 4) * (C1 * X) = C1 / (2 * Real.pi * r ^ 4) * ((T : ℝ) + 1) ^ 4 * X := by ring
    have h6 := lift T4 (sq_nonneg C2)
    have h7 : 0 ≤ (2 * C1 + 2 * (area r * C2 ^ 2) + 2 * (C1 / (4 * Real.pi * r ^ 2))) * ((T : ℝ) + 1) ^ 4 * X := by positivity
    linarith

/-- Truncated approximations of a smooth solution, to which solutions of the truncated equation stay close -/
theorem exists_reference {r Ω ν W t0 t1 : ℝ} {order : ℕ} {Ψ : ℝ → ℝ → ℝ → ℝ} (hr : 0 < r) (hν : 0 ≤ ν) (hΨ : SmoothSolution r Ω ν order W t0 t1 Ψ) (ht : t0 ≤ t1)
    (j : ℕ) : ∃ C1 C2, 0 ≤ C1 ∧ 0 ≤ C2 ∧ ∀ {g : Grid ℝ} {N : ℕ → ℕ → ℝ} {S : g.Sph} {M : BModel g}, g.Valid → g.rsphere = r → g.omega = Ω → 1 ≤ g.ntrunc →
      2 * g.ntrunc + 1 ≤ g.nlat → Spharm.Dealiased N S → M.diffusionCoeff = ν → M.diffusionOrder = order → M.DiffusesAround W →
      ∃ p : ℝ → g.Spc, (∀ t ∈ Icc t0 t1, ∀ x y, cos y ≠ 0 → |harmonicSum N (p t) x y - absVort r Ω (Ψ t) x y| ≤ C2 * (1 / ((g.ntrunc : ℝ) + 1) ^ j) ∧
        |(sphereGrad r (harmonicSum N (p t)) x y).1 - (sphereGrad r (absVort r Ω (Ψ t)) x y).1| ≤ C2 * (1 / ((g.ntrunc : ℝ) + 1) ^ j) ∧
        |(sphereGrad r (harmonicSum N (p t)) x y).2 - (sphereGrad r (absVort r Ω (Ψ t)) x y).2| ≤ C2 * (1 / ((g.ntrunc : ℝ) + 1) ^ j)) ∧
        ∀ Y : ℝ → g.Spc, M.Solution S 0 t0 t1 Y → ∀ t ∈ Icc t0 t1, sqDist r (harmonicSum N (Y t)) (harmonicSum N (p t)) ≤
          C1 * (sqDist r (harmonicSum N (Y t0)) (absVort r Ω (Ψ t0)) + 1 / ((g.ntrunc : ℝ) + 1) ^ j) := by
  obtain ⟨F, hF, hΨF⟩ := hΨ.smooth
  have hΨe : ∀ t, Ψ t = onSphere F t := fun t => by funext x y; exact hΨF t x y
  have hV := vort_smooth r Ω hF
  have hQ : ∀ t x y, cos y ≠ 0 → absVort r Ω (Ψ t) x y = onSphere (vort r Ω F) t x y := fun t x y hy => by rw [hΨe, absVort_onSphere hF r Ω t x hy]
  obtain ⟨b, hb⟩ : ∃ b, b = max |t0| |t1| + 1 := ⟨_, rfl⟩
  have hb1 : 1 ≤ b := by
    have := (abs_nonneg t0).trans (le_max_left |t0| |t1|)
    linarith
  have hbt : ∀ t ∈ Icc t0 t1, |t| ≤ b := fun t htt => by
    have := abs_le_max_abs_abs htt.1 htt.2
    linarith
  obtain ⟨C, hC, key⟩ := exists_truncations hr Ω ν order W hb1 hF j
  obtain ⟨Ke, hKe⟩ := ((SmoothLimit.const (Metric.closedBall 0 b) hV).east hb1).bounded
  obtain ⟨Kn, hKn⟩ := ((SmoothLimit.const (Metric.closedBall 0 b) hV).north hb1).bounded
  obtain ⟨G, hG⟩ : ∃ G, G = (|Ke| + |Kn| + 2 * C + 1) / r := ⟨_, rfl⟩
  have hG0 : 0 < G := hG ▸ (by positivity)
  obtain ⟨E, hE⟩ : ∃ E, E = Real.exp ((2 * G * r + 1) * (t1 - t0)) := ⟨_, rfl⟩
  have hL : 0 ≤ t1 - t0 := by linarith
  have hE0 : 0 < E := hE ▸ Real.exp_pos _
  have hA := area_nonneg r
  have hAC : 0 ≤ area r * C ^ 2 := by positivity
  refine ⟨(2 + 2 * (area r * C ^ 2) + area r * C ^ 2 * (t1 - t0)) * E, C + C / r, by positivity, by positivity, fun {g N S M} hg hgr hgo h1 hT h hMν hMo hW => ?_⟩
  have hN := h.exact.norm_ne
  obtain ⟨c, c', hcd, hc⟩ := key hN h1
  subst hgr
  subst hgo
  subst hMν
  subst hMo
  obtain ⟨τ, hτ⟩ : ∃ τ : ℝ, τ = 1 / ((g.ntrunc : ℝ) + 1) ^ j := ⟨_, rfl⟩
  have hτ0 : 0 < τ := hτ ▸ (by positivity)
  have hτ1 : τ ≤ 1 := by
    rw [hτ, div_le_one (by positivity)]
    exact one_le_pow₀ (by have : (0 : ℝ) ≤ g.ntrunc := Nat.cast_nonneg _; linarith)
  simp only [div_eq_mul_one_div C, ← hτ] at hc
  rw [← hτ]
  have hgrad : ∀ t x y, cos y ≠ 0 → sphereGrad g.rsphere (absVort g.rsphere g.omega (Ψ t)) x y =
      (east (vort g.rsphere g.omega F) t x y / g.rsphere, north (vort g.rsphere g.omega F) t x y / g.rsphere) := fun t x y hy => by
    rw [sphereGrad_congr _ x hy (hQ t), sphereGrad_onSphere hV _ t x hy]
  refine ⟨fun t => vortCoeff N g.rsphere g.omega (c t), fun t htt x y hy => ?_, fun Y hY t htt => ?_⟩
  · obtain ⟨a1, a2, a3, -⟩ := hc t (hbt t htt) x y hy
    have hCr : C * τ ≤ (C + C / g.rsphere) * τ := mul_le_mul_of_nonneg_right (by have : 0 ≤ C / g.rsphere := by positivity
                                                                                 linarith) hτ0.le
    have hCr' : C * τ / g.rsphere ≤ (C + C / g.rsphere) * τ := by
      rw [show C * τ / g.rsphere = C / g.rsphere * τ by ring]
      exact mul_le_mul_of_nonneg_right (by linarith) hτ0.le
    rw [hQ t x y hy, hgrad t x y hy, sphereGrad_harmonicSum hr.ne' _ x hy]
    dsimp only
    rw [← sub_div, ← sub_div, abs_div, abs_div, abs_of_pos hr]
    exact ⟨a1.trans hCr, (div_le_div_of_nonneg_right a2 hr.le).trans hCr', (div_le_div_of_nonneg_right a3 hr.le).trans hCr'⟩
  have hCτ : (C * τ) ^ 2 ≤ C ^ 2 * τ := by
    rw [mul_pow]
    exact mul_le_mul_of_nonneg_left (by nlinarith) (sq_nonneg _)
  have hst := C121_stability (G := G) (ρ := area g.rsphere * C ^ 2 * τ) hg h h1 hT hν hY (p := fun t => vortCoeff N g.rsphere g.omega (c t))
    (p' := fun t => -degMul (fun n => n * (n + 1) / g.rsphere ^ 2) (c' t)) (fun t _ => (vortCoeff_hasDeriv _ _ (hcd t)).hasDerivWithinAt) hG0
    (fun t htt x y hy => by
      obtain ⟨-, a2, a3, -⟩ := hc t (hbt t htt) x y hy
      rw [sphereGrad_harmonicSum hr.ne' _ x hy, hG]
      have hCτ1 : C * τ ≤ C := by nlinarith
      have b1 : |lamDeriv N (vortCoeff N g.rsphere g.omega (c t)) x y| ≤ |Ke| + C := by
        have b2 := (hKe t (hbt t htt) x y).trans (le_abs_self Ke)
        have b3 := abs_sub_abs_le_abs_sub (lamDeriv N (vortCoeff N g.rsphere g.omega (c t)) x y) (east (vort g.rsphere g.omega F) t x y)
        linarith
      have b1' : |phiDeriv N (vortCoeff N g.rsphere g.omega (c t)) x y| ≤ |Kn| + C := by
        have b2 := (hKn t (hbt t htt) x y).trans (le_abs_self Kn)
        have b3 := abs_sub_abs_le_abs_sub (phiDeriv N (vortCoeff N g.rsphere g.omega (c t)) x y) (north (vort g.rsphere g.omega F) t x y)
        linarith
      have c1 := pow_le_pow_left₀ (abs_nonneg _) b1 2
      have c2 := pow_le_pow_left₀ (abs_nonneg _) b1' 2
      rw [sq_abs] at c1 c2
      dsimp only
      rw [div_pow, div_pow, div_pow, ← add_div]
      refine div_le_div_of_nonneg_right ?_ (sq_nonneg _)
      have k1 := abs_nonneg Ke
      have k2 := abs_nonneg Kn
      nlinarith [mul_nonneg k1 k2, mul_nonneg k1 hC, mul_nonneg k2 hC])
    (fun t htt => by
      have hbg := diffusesAround_background h h1 hW
      rw [sphereIntegral_congr g.rsphere (G := fun x y => coeffResidual N g.rsphere g.omega M.diffusionCoeff M.diffusionOrder W (c t) (c' t) x y ^ 2) fun x y hy => by
        rw [residual_coeff hg h h1 hbg (c t) (c' t) x hy]]
      have hs : SphereSmooth (coeffResidual N g.rsphere g.omega M.diffusionCoeff M.diffusionOrder W (c t) (c' t)) :=
        ((harmonicSum_smooth _).add (advect_smooth _ _ _)).add ((SphereSmooth.lat contDiff_const).mul (harmonicSum_smooth _))
      refine (integral_le_area hs g.rsphere (ε := C * τ) fun x y hy => ?_).trans ?_
      · obtain ⟨-, -, -, a4⟩ := hc t (hbt t htt) x y hy
        rwa [defect_zero hr.ne' hΨ hF hΨF htt x hy, sub_zero] at a4
      · rw [mul_assoc]; exact mul_le_mul_of_nonneg_left hCτ hA) t htt
  change sqDist g.rsphere (harmonicSum N (Y t)) (harmonicSum N (vortCoeff N g.rsphere g.omega (c t))) ≤
    (sqDist g.rsphere (harmonicSum N (Y t0)) (harmonicSum N (vortCoeff N g.rsphere g.omega (c t0))) + area g.rsphere * C ^ 2 * τ * (t - t0)) * _ at hst
  refine hst.trans ?_
  have hsV := fun t => onSphere_smooth hV t
  have hD0 : sqDist g.rsphere (harmonicSum N (Y t0)) (absVort g.rsphere g.omega (Ψ t0)) = sqDist g.rsphere (harmonicSum N (Y t0)) (onSphere (vort g.rsphere g.omega F) t0) :=
    sphereIntegral_congr _ fun x y hy => by rw [hQ t0 x y hy]
  have hD1 : 0 ≤ sqDist g.rsphere (harmonicSum N (Y t0)) (onSphere (vort g.rsphere g.omega F) t0) := sqDist_nonneg (harmonicSum_smooth _) (hsV t0) _
  have d1 := sqDist_triangle (r := g.rsphere) (harmonicSum_smooth (N := N) (Y t0)) (hsV t0) (harmonicSum_smooth (N := N) (vortCoeff N g.rsphere g.omega (c t0)))
  have d2 : sqDist g.rsphere (onSphere (vort g.rsphere g.omega F) t0) (harmonicSum N (vortCoeff N g.rsphere g.omega (c t0))) ≤ area g.rsphere * C ^ 2 * τ := by
    rw [sqDist_comm]
    refine (integral_le_area ((harmonicSum_smooth _).sub (hsV t0)) g.rsphere (ε := C * τ) fun x y hy => (hc t0 (hbt t0 ⟨le_rfl, ht⟩) x y hy).1).trans ?_
    rw [mul_assoc]; exact mul_le_mul_of_nonneg_left hCτ hA
  rw [hD0]
  have c5 : Real.exp ((2 * G * g.rsphere + 1) * (t - t0)) ≤ E := by
    rw [hE]
    refine Real.exp_le_exp.mpr (mul_le_mul_of_nonneg_left ?_ (by positivity))
    have := htt.2
    linarith
  have c6 : area g.rsphere * C ^ 2 * τ * (t - t0) ≤ area g.rsphere * C ^ 2 * τ * (t1 - t0) := mul_le_mul_of_nonneg_left (by have := htt.2; linarith) (by positivity)
  have c8 : 0 ≤ area g.rsphere * C ^ 2 * τ * (t - t0) := mul_nonneg (by positivity) (by have := htt.1; linarith)
  have c7 : 0 ≤ sqDist g.rsphere (harmonicSum N (Y t0)) (harmonicSum N (vortCoeff N g.rsphere g.omega (c t0))) := sqDist_nonneg (harmonicSum_smooth _) (harmonicSum_smooth _) _
  refine (mul_le_mul_of_nonneg_left c5 (by linarith)).trans ?_
  rw [mul_right_comm _ E]
  refine mul_le_mul_of_nonneg_right ?_ hE0.le
  have c9 : 0 ≤ area g.rsphere * C ^ 2 * (t1 - t0) * sqDist g.rsphere (harmonicSum N (Y t0)) (onSphere (vort g.rsphere g.omega F) t0) :=
    mul_nonneg (mul_nonneg hAC hL) hD1
  have c10 : 0 ≤ area g.rsphere * C ^ 2 * sqDist g.rsphere (harmonicSum N (Y t0)) (onSphere (vort g.rsphere g.omega F) t0) := mul_nonneg hAC hD1
  linarith

theorem rate_bounds (T j : ℕ) : 0 < 1 / ((T : ℝ) + 1) ^ j ∧ 1 / ((T : ℝ) + 1) ^ j ≤ 1 := by
  refine ⟨by positivity, ?_⟩
  rw [div_le_one (by positivity)]
  exact one_le_pow₀ (by have : (0 : ℝ) ≤ T := Nat.cast_nonneg _; linarith)

theorem accurate_nonneg {r Ω ν W t0 t1 : ℝ} {order : ℕ} {Ψ : ℝ → ℝ → ℝ → ℝ} (_hr : 0 < r) (hΨ : SmoothSolution r Ω ν order W t0 t1 Ψ) {g : Grid ℝ} {N : ℕ → ℕ → ℝ}
    (q : g.Spc) : 0 ≤ sqDist r (harmonicSum N q) (absVort r Ω (Ψ t0)) := by
  obtain ⟨F, hF, hΨF⟩ := hΨ.smooth
  have hΨe : Ψ t0 = onSphere F t0 := by funext x y; exact hΨF t0 x y
  rw [show sqDist r (harmonicSum N q) (absVort r Ω (Ψ t0)) = sqDist r (harmonicSum N q) (onSphere (vort r Ω F) t0) from
    sphereIntegral_congr _ fun x y hy => by rw [hΨe, absVort_onSphere hF r Ω t0 x hy]]
  exact sqDist_nonneg (harmonicSum_smooth _) (onSphere_smooth (vort_smooth r Ω hF) t0) r

/-- C130: solutions of the truncated equation are spectrally accurate. For every smooth solution of the barotropic vorticity equation and every exponent `j` there
is a constant such that for every truncation `T` the mean square error stays within a multiple of the initial error plus `(T + 1)^{-j}`, and that
the squared error at every single point and the squared error of the gradient at every single point are within the same bound times `(T + 1)²` and `(T + 1)⁴`.
There are initial states with an error of `(T + 1)^{-j}`. -/
theorem C130_accuracy {r Ω ν W t0 t1 : ℝ} {order : ℕ} {Ψ : ℝ → ℝ → ℝ → ℝ} (hr : 0 < r) (hν : 0 ≤ ν) (hΨ : SmoothSolution r Ω ν order W t0 t1 Ψ) (ht : t0 ≤ t1)
    (j : ℕ) : ∃ C, 0 ≤ C ∧ ∀ {g : Grid ℝ} {N : ℕ → ℕ → ℝ} {S : g.Sph} {M : BModel g}, g.Valid → g.rsphere = r → g.omega = Ω → 1 ≤ g.ntrunc →
      2 * g.ntrunc + 1 ≤ g.nlat → Spharm.Dealiased N S → M.diffusionCoeff = ν → M.diffusionOrder = order → M.DiffusesAround W →
      (∃ q : g.Spc, Accurate C r g.ntrunc (1 / ((g.ntrunc : ℝ) + 1) ^ j) (harmonicSum N q) (absVort r Ω (Ψ t0))) ∧
      ∀ Y : ℝ → g.Spc, M.Solution S 0 t0 t1 Y → ∀ t ∈ Icc t0 t1, Accurate C r g.ntrunc
        (sqDist r (harmonicSum N (Y t0)) (absVort r Ω (Ψ t0)) + 1 / ((g.ntrunc : ℝ) + 1) ^ j) (harmonicSum N (Y t)) (absVort r Ω (Ψ t)) := by
  obtain ⟨C1, C2, hC1, hC2, key⟩ := exists_reference hr hν hΨ ht j
  obtain ⟨F, hF, hΨF⟩ := hΨ.smooth
  have hΨe : ∀ t, Ψ t = onSphere F t := fun t => by funext x y; exact hΨF t x y
  have hV := vort_smooth r Ω hF
  have hQ : ∀ t x y, cos y ≠ 0 → absVort r Ω (Ψ t) x y = onSphere (vort r Ω F) t x y := fun t x y hy => by rw [hΨe, absVort_onSphere hF r Ω t x hy]
  have hpi := Real.pi_pos
  have har := area_nonneg r
  refine ⟨2 * C1 + 2 * (area r * C2 ^ 2) + 2 * (C1 / (4 * Real.pi * r ^ 2)) + 4 * C2 ^ 2 + 2 * (C1 / (2 * Real.pi * r ^ 4)), by positivity,
    fun {g N S M} hg hgr hgo h1 hT h hMν hMo hW => ?_⟩
  obtain ⟨p, hp, hstab⟩ := key hg hgr hgo h1 hT h hMν hMo hW
  obtain ⟨hτ0, hτ1⟩ := rate_bounds g.ntrunc j
  refine ⟨⟨p t0, ?_⟩, fun Y hY t htt => ?_⟩
  · refine accurate_of_near hr h.exact.norm_ne (onSphere_smooth hV t0) (hQ t0) hτ0.le hτ1 hC1 hC2 le_rfl ?_ (hp t0 ⟨le_rfl, ht⟩)
    have : sqDist r (harmonicSum N (p t0)) (harmonicSum N (p t0)) = 0 := by simp [sqDist, sphereIntegral]
    rw [this]
    exact mul_nonneg hC1 hτ0.le
  · refine accurate_of_near hr h.exact.norm_ne (onSphere_smooth hV t) (hQ t) hτ0.le hτ1 hC1 hC2 ?_ (hstab Y hY t htt) (hp t htt)
    have := sqDist_nonneg (harmonicSum_smooth (N := N) (Y t0)) (onSphere_smooth hV t0) r
    rw [show sqDist r (harmonicSum N (Y t0)) (absVort r Ω (Ψ t0)) = sqDist r (harmonicSum N (Y t0)) (onSphere (vort r Ω F) t0) from
      sphereIntegral_congr _ fun x y hy => by rw [hQ t0 x y hy]]
    linarith

/-- C130: the initial state and all states returned by `run` are spectrally accurate in the sense of `C130_accuracy`, if the time step is sufficiently small. -/
theorem C130_run {r Ω ν W t0 t1 t2 : ℝ} {order : ℕ} {Ψ : ℝ → ℝ → ℝ → ℝ} (hr : 0 < r) (hν : 0 ≤ ν) (hΨ : SmoothSolution r Ω ν order W t0 t1 Ψ) (h02 : t0 ≤ t2)
    (h21 : t2 < t1) (j : ℕ) : ∃ C, 0 ≤ C ∧ ∀ {g : Grid ℝ} {N : ℕ → ℕ → ℝ} {S : g.Sph} {M : BModel g}, g.Valid → g.rsphere = r → g.omega = Ω → 1 ≤ g.ntrunc →
      2 * g.ntrunc + 1 ≤ g.nlat → Spharm.Dealiased N S → M.diffusionCoeff = ν → M.diffusionOrder = order → M.DiffusesAround W → M.rhs = none →
      (∃ q : g.Spc, Accurate C r g.ntrunc (1 / ((g.ntrunc : ℝ) + 1) ^ j) (harmonicSum N q) (absVort r Ω (Ψ t0))) ∧
      ∀ s : St PyTime g, s.time.sec = t0 → ∃ δ > 0,
        ∀ (dt : PyDelta) (tend : PyTime) (se : ℝ), s.time.Compatible dt → s.time.SameKind tend → 0 < toSeconds dt → toSeconds dt < δ →
        t0 ≤ tend.sec → tend.sec ≤ t2 → (se ≤ 0 ∨ ∃ x, s.time = .num x) →
        ∃ sf saved, M.Returns S s dt tend se sf saved ∧ tend.sec ≤ sf.time.sec ∧ ∀ w ∈ s :: sf :: saved, w.time.sec ∈ Icc t0 t1 ∧
          Accurate C r g.ntrunc (sqDist r (s.pvFn N) (absVort r Ω (Ψ t0)) + 1 / ((g.ntrunc : ℝ) + 1) ^ j) (w.pvFn N) (absVort r Ω (Ψ w.time.sec)) := by
  obtain ⟨C1, C2, hC1, hC2, key⟩ := exists_reference hr hν hΨ (h02.trans h21.le) j
  obtain ⟨F, hF, hΨF⟩ := hΨ.smooth
  have hΨe : ∀ t, Ψ t = onSphere F t := fun t => by funext x y; exact hΨF t x y
  have hV := vort_smooth r Ω hF
  have hQ : ∀ t x y, cos y ≠ 0 → absVort r Ω (Ψ t) x y = onSphere (vort r Ω F) t x y := fun t x y hy => by rw [hΨe, absVort_onSphere hF r Ω t x hy]
  have hpi := Real.pi_pos
  have har := area_nonneg r
  obtain ⟨C3, hC3⟩ : ∃ C3, C3 = 2 * C1 + 2 := ⟨_, rfl⟩
  have hC30 : 0 ≤ C3 := by linarith
  refine ⟨2 * C3 + 2 * (area r * C2 ^ 2) + 2 * (C3 / (4 * Real.pi * r ^ 2)) + 4 * C2 ^ 2 + 2 * (C3 / (2 * Real.pi * r ^ 4)), by positivity,
    fun {g N S M} hg hgr hgo h1 hT h hMν hMo hW hrhs => ?_⟩
  obtain ⟨p, hp, hstab⟩ := key hg hgr hgo h1 hT h hMν hMo hW
  obtain ⟨hτ0, hτ1⟩ := rate_bounds g.ntrunc j
  refine ⟨⟨p t0, accurate_of_near hr h.exact.norm_ne (onSphere_smooth hV t0) (hQ t0) hτ0.le hτ1 hC30 hC2 le_rfl ?_ (hp t0 ⟨le_rfl, h02.trans h21.le⟩)⟩,
    fun s hs => ?_⟩
  · have : sqDist r (harmonicSum N (p t0)) (harmonicSum N (p t0)) = 0 := by simp [sqDist, sphereIntegral]
    rw [this]
    exact mul_nonneg hC30 hτ0.le
  have hν' : 0 ≤ M.diffusionCoeff := hMν ▸ hν
  obtain ⟨hf, hL, hG⟩ := unforced (g := g) hrhs s.time.sec t1
  obtain ⟨Y, hY, hY0, -⟩ := C120_exists (M := M) hg h h1 hT hν' (show s.time.sec ≤ t1 by rw [hs]; linarith) hL hG s.q
  have hacc := hstab Y (hs ▸ hY)
  have hc : Continuous fun e : g.Spc => spherePair r (harmonicSum N e) (harmonicSum N e) := spherePair_continuous hr.ne' continuous_id continuous_id
  have h0 : spherePair r (harmonicSum N (0 : g.Spc)) (harmonicSum N (0 : g.Spc)) = 0 := by
    have : harmonicSum N (0 : g.Spc) = fun _ _ => 0 := by funext x y; exact modeSum_eq_zero N legendre (fun _ => .inl rfl) x y
    rw [this]
    simp [spherePair, sphereIntegral]
  obtain ⟨ε2, hε2, hnear⟩ := Metric.continuousAt_iff.mp (hc.continuousAt (x := 0)) (1 / ((g.ntrunc : ℝ) + 1) ^ j) hτ0
  obtain ⟨δ, hδ, hrun⟩ := converges_of_solution h.exact.linear hν' hf s (hs ▸ h02) h21 hL hY hY0 ε2 hε2
  refine ⟨δ, hδ, fun dt tend se hc hk hd hdδ hst hend hse => ?_⟩
  obtain ⟨sf, saved, hret, hle, hall⟩ := hrun dt tend se hc hk hd hdδ (hs ▸ hst) hend hse
  have hall' : ∀ w ∈ s :: sf :: saved, w.time.sec ∈ Icc t0 t1 ∧ ‖w.q - Y w.time.sec‖ < ε2 := by
    intro w hw
    rcases List.mem_cons.1 hw with rfl | hw
    · rw [hY0, sub_self, norm_zero, hs]
      exact ⟨⟨le_rfl, h02.trans h21.le⟩, hε2⟩
    · obtain ⟨hwt, hwq, -⟩ := hall w hw
      exact ⟨hs ▸ hwt, hwq⟩
  refine ⟨sf, saved, hret, hle, fun w hw => ?_⟩
  obtain ⟨hwt, hwq⟩ := hall' w hw
  refine ⟨hwt, ?_⟩
  have e1 : sqDist r (harmonicSum N w.q) (harmonicSum N (Y w.time.sec)) < 1 / ((g.ntrunc : ℝ) + 1) ^ j := by
    have := hnear (x := w.q - Y w.time.sec) (by rw [dist_zero_right]; exact hwq)
    rw [h0, Real.dist_eq, sub_zero] at this
    refine lt_of_eq_of_lt (sphereIntegral_congr r fun x y _ => ?_) (lt_of_abs_lt this)
    rw [harmonicSum_sub]
    ring
  have e2 := hacc _ hwt
  have e0 : Y t0 = s.q := by rw [← hs]; exact hY0
  rw [e0] at e2
  have hD : 0 ≤ sqDist r (s.pvFn N) (absVort r Ω (Ψ t0)) := by
    rw [show sqDist r (s.pvFn N) (absVort r Ω (Ψ t0)) = sqDist r (harmonicSum N s.q) (onSphere (vort r Ω F) t0) from
      sphereIntegral_congr _ fun x y hy => by rw [hQ t0 x y hy]; rfl]
    exact sqDist_nonneg (harmonicSum_smooth _) (onSphere_smooth hV t0) r
  refine accurate_of_near (p := p w.time.sec) hr h.exact.norm_ne (onSphere_smooth hV _) (hQ _) hτ0.le hτ1 hC30 hC2 (by linarith) ?_ (hp _ hwt)
  have e3 := sqDist_triangle (r := r) (harmonicSum_smooth (N := N) w.q) (harmonicSum_smooth (N := N) (Y w.time.sec)) (harmonicSum_smooth (N := N) (p w.time.sec))
  refine e3.trans ?_
  change sqDist r (harmonicSum N (Y w.time.sec)) (harmonicSum N (p w.time.sec)) ≤ C1 * (sqDist r (s.pvFn N) (absVort r Ω (Ψ t0)) + _) at e2
  rw [hC3]
  linarith

/-- C130: potential vorticity and its gradient converge uniformly: for every tolerance there is a truncation from which on the errors at every point of the sphere are
within the tolerance at all times, if the initial mean square error decreases faster than the fourth power of the truncation, and the time step is sufficiently small. -/
theorem C130_uniform {r Ω ν W t0 t1 t2 : ℝ} {order : ℕ} {Ψ : ℝ → ℝ → ℝ → ℝ} (hr : 0 < r) (hν : 0 ≤ ν) (hΨ : SmoothSolution r Ω ν order W t0 t1 Ψ) (h02 : t0 ≤ t2)
    (h21 : t2 < t1) {η : ℝ} (hη : 0 < η) : ∃ T0 : ℕ, ∃ ε > 0, ∀ {g : Grid ℝ} {N : ℕ → ℕ → ℝ} {S : g.Sph} {M : BModel g}, g.Valid → g.rsphere = r → g.omega = Ω →
      T0 ≤ g.ntrunc → 2 * g.ntrunc + 1 ≤ g.nlat → Spharm.Dealiased N S → M.diffusionCoeff = ν → M.diffusionOrder = order → M.DiffusesAround W → M.rhs = none →
      (∃ q : g.Spc, ((g.ntrunc : ℝ) + 1) ^ 4 * sqDist r (harmonicSum N q) (absVort r Ω (Ψ t0)) ≤ ε) ∧
      ∀ s : St PyTime g, s.time.sec = t0 → ((g.ntrunc : ℝ) + 1) ^ 4 * sqDist r (s.pvFn N) (absVort r Ω (Ψ t0)) ≤ ε → ∃ δ > 0,
        ∀ (dt : PyDelta) (tend : PyTime) (se : ℝ), s.time.Compatible dt → s.time.SameKind tend → 0 < toSeconds dt → toSeconds dt < δ →
        t0 ≤ tend.sec → tend.sec ≤ t2 → (se ≤ 0 ∨ ∃ x, s.time = .num x) →
        ∃ sf saved, M.Returns S s dt tend se sf saved ∧ tend.sec ≤ sf.time.sec ∧ ∀ w ∈ s :: sf :: saved, w.time.sec ∈ Icc t0 t1 ∧ ∀ x y, cos y ≠ 0 →
          |w.pvFn N x y - absVort r Ω (Ψ w.time.sec) x y| < η ∧
          |(sphereGrad r (w.pvFn N) x y).1 - (sphereGrad r (absVort r Ω (Ψ w.time.sec)) x y).1| < η ∧
          |(sphereGrad r (w.pvFn N) x y).2 - (sphereGrad r (absVort r Ω (Ψ w.time.sec)) x y).2| < η := by
  obtain ⟨C, hC, key⟩ := C130_run hr hν hΨ h02 h21 5
  obtain ⟨T0, hT0⟩ := exists_nat_gt ((C + 1) ^ 2 * 4 / η ^ 2 + 1)
  have hη2 : 0 < η ^ 2 := by positivity
  have hC1 : 0 < C + 1 := by linarith
  refine ⟨T0, η ^ 2 / (4 * (C + 1)), by positivity, fun {g N S M} hg hgr hgo hTT hT h hMν hMo hW hrhs => ?_⟩
  have hT1 : (T0 : ℝ) ≤ g.ntrunc := by exact_mod_cast hTT
  have hq0 : 0 ≤ (C + 1) ^ 2 * 4 / η ^ 2 := by positivity
  have h1 : 1 ≤ g.ntrunc := by
    have : (1 : ℝ) ≤ g.ntrunc := by linarith
    exact_mod_cast this
  obtain ⟨⟨q, hq⟩, hrun⟩ := key hg hgr hgo h1 hT h hMν hMo hW hrhs
  obtain ⟨P, hP⟩ : ∃ P : ℝ, P = (g.ntrunc : ℝ) + 1 := ⟨_, rfl⟩
  rw [← hP] at hq hrun ⊢
  have hP0 : 0 < P := by rw [hP]; positivity
  have hP1 : 1 ≤ P := by rw [hP]; have : (0 : ℝ) ≤ g.ntrunc := Nat.cast_nonneg _; linarith
  have hPP : (C + 1) ^ 2 * 4 / η ^ 2 < P := by linarith
  -- the contribution of the truncation
  have hrate : P ^ 4 * (1 / P ^ 5) * (C + 1) ≤ η ^ 2 / (4 * (C + 1)) := by
    have e : P ^ 4 * (1 / P ^ 5) = 1 / P := by field_simp
    rw [e, one_div_mul_eq_div, div_le_div_iff₀ hP0 (by positivity)]
    rw [div_lt_iff₀ hη2] at hPP
    nlinarith
  refine ⟨⟨q, ?_⟩, fun s hs hs0 => ?_⟩
  · have b1 := mul_le_mul_of_nonneg_left hq.mean (by positivity : 0 ≤ P ^ 4)
    have b2 : 0 ≤ P ^ 4 * (1 / P ^ 5) := by positivity
    linarith
  obtain ⟨δ, hδ, hd⟩ := hrun s hs
  refine ⟨δ, hδ, fun dt tend se a1 a2 a3 a4 a5 a6 a7 => ?_⟩
  obtain ⟨sf, saved, b1, b2, b3⟩ := hd dt tend se a1 a2 a3 a4 a5 a6 a7
  refine ⟨sf, saved, b1, b2, fun w hw => ?_⟩
  obtain ⟨c1, c2⟩ := b3 w hw
  refine ⟨c1, fun x y hy => ?_⟩
  obtain ⟨X, hX⟩ : ∃ X, X = sqDist r (s.pvFn N) (absVort r Ω (Ψ t0)) + 1 / P ^ 5 := ⟨_, rfl⟩
  rw [← hX] at c2
  have hX0 : 0 ≤ X := by
    have d1 : 0 ≤ (w.pvFn N x y - absVort r Ω (Ψ w.time.sec) x y) ^ 2 := sq_nonneg _
    have d2 := accurate_nonneg hr hΨ (g := g) (N := N) s.q
    rw [hX]
    exact add_nonneg d2 (by positivity)
  have hbound : C * P ^ 4 * X < η ^ 2 := by
    have d1 : P ^ 4 * X * (C + 1) ≤ η ^ 2 / 4 + η ^ 2 / (4 * (C + 1)) := by
      have d2 := mul_le_mul_of_nonneg_right hs0 hC1.le
      have d3 : η ^ 2 / (4 * (C + 1)) * (C + 1) = η ^ 2 / 4 := by field_simp
      rw [hX]
      linarith
    have d4 : η ^ 2 / (4 * (C + 1)) ≤ η ^ 2 / 4 := div_le_div_of_nonneg_left hη2.le (by norm_num) (by linarith)
    have d5 : 0 ≤ P ^ 4 * X := by positivity
    linarith
  have hv := c2.value x y hy
  have hg' := c2.gradient x y hy
  rw [← hP] at hv hg'
  have hv' : C * P ^ 2 * X ≤ C * P ^ 4 * X := by
    refine mul_le_mul_of_nonneg_right (mul_le_mul_of_nonneg_left (pow_le_pow_right₀ hP1 (by norm_num)) hC) hX0
  refine ⟨abs_lt_of_sq_lt_sq (by linarith) hη.le, abs_lt_of_sq_lt_sq (lt_of_le_of_lt ?_ hbound) hη.le, abs_lt_of_sq_lt_sq (lt_of_le_of_lt ?_ hbound) hη.le⟩
  · exact (le_add_of_nonneg_right (sq_nonneg _)).trans hg'
  · exact (le_add_of_nonneg_left (sq_nonneg _)).trans hg'

/-- A run that is within 1/1000 of a damped wave everywhere -/
example : ∃ (g : Grid ℝ) (S : g.Sph) (s : St PyTime g), g.Valid ∧ ∃ δ > 0, ∀ h > 0, h < δ →
    ∃ sf saved, (⟨none, 2, 1 / 100, some g.fcor2⟩ : BModel g).Returns S s (.num h) (.num 10) 0 sf saved ∧ 10 ≤ sf.time.sec ∧ ∀ x y, cos y ≠ 0 →
      |sf.pvFn (fun _ _ => 1) x y -
        absVort 1 1 (fun x y => Real.exp (-(1 / 100 * (2 / 1 ^ 2) ^ 2 * sf.time.sec)) * cos y * cos (x + 1 * sf.time.sec)) x y| < 1 / 1000 := by
  obtain ⟨T0, ε, hε, key⟩ := C130_uniform (t2 := 10) (η := 1 / 1000) one_pos (show (0 : ℝ) ≤ 1 / 100 by norm_num) (damped_wave one_ne_zero 1 (1 / 100) 2 0 11)
    (by norm_num) (by norm_num) (by norm_num)
  obtain ⟨g, S, hg, g1, g2, g3, g4, h⟩ := C121_grids one_pos 1 T0
  obtain ⟨⟨q, hq⟩, hrun⟩ := key (M := ⟨none, 2, 1 / 100, some g.fcor2⟩) hg g1 g2 g3.ge g4 h rfl rfl (.inr ⟨rfl, g2.symm⟩) rfl
  obtain ⟨δ, hδ, hr⟩ := hrun ⟨.num 0, q⟩ rfl hq
  refine ⟨g, S, ⟨.num 0, q⟩, hg, δ, hδ, fun dt hd hdδ => ?_⟩
  obtain ⟨sf, saved, r1, r2, r3⟩ := hr (.num dt) (.num 10) 0 trivial trivial hd hdδ (by norm_num [PyTime.sec]) le_rfl (.inl le_rfl)
  exact ⟨sf, saved, r1, r2, fun x y hy => ((r3 sf (List.mem_cons_of_mem _ List.mem_cons_self)).2 x y hy).1⟩

end Barotropic
