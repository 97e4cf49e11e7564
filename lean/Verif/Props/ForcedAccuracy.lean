import Verif.Spec.ForcedAccuracy
import Verif.Props.SpectralAccuracy
import Verif.Props.ForcedConvergence

/-!
# Spectral accuracy of runs with forcing: C146
-/

namespace Barotropic
open Real (cos sin)
open Set

/-- Truncated approximations of a smooth solution with forcing, to which solutions of the truncated equation stay close -/
theorem exists_forced_reference {r Ω ν W t0 t1 K : ℝ} {order : ℕ} {Φ Ψ : ℝ → ℝ → ℝ → ℝ} (hr : 0 < r) (hν : 0 ≤ ν) (hK : 0 ≤ K) (hΨ : ForcedSolution r Ω ν order W Φ t0 t1 Ψ)
    (ht : t0 ≤ t1) (j : ℕ) : ∃ C1 C2, 0 ≤ C1 ∧ 0 ≤ C2 ∧ ∀ {g : Grid ℝ} {N : ℕ → ℕ → ℝ} {S : g.Sph} {M : BModel g}, g.Valid → g.rsphere = r → g.omega = Ω → 1 ≤ g.ntrunc →
      2 * g.ntrunc + 1 ≤ g.nlat → Spharm.Dealiased N S → M.diffusionCoeff = ν → M.diffusionOrder = order → M.DiffusesAround W →
      ∃ p : ℝ → g.Spc, (∀ t ∈ Icc t0 t1, ∀ x y, cos y ≠ 0 → |harmonicSum N (p t) x y - absVort r Ω (Ψ t) x y| ≤ C2 * (1 / ((g.ntrunc : ℝ) + 1) ^ j) ∧
        |(sphereGrad r (harmonicSum N (p t)) x y).1 - (sphereGrad r (absVort r Ω (Ψ t)) x y).1| ≤ C2 * (1 / ((g.ntrunc : ℝ) + 1) ^ j) ∧
        |(sphereGrad r (harmonicSum N (p t)) x y).2 - (sphereGrad r (absVort r Ω (Ψ t)) x y).2| ≤ C2 * (1 / ((g.ntrunc : ℝ) + 1) ^ j)) ∧
        ∀ (R : ℝ → g.Spc → g.Fld) (ε : ℝ), 0 ≤ ε → FollowsForcing N S R K ε Ω Φ t0 t1 Ψ → ∀ Y : ℝ → g.Spc, M.Solution S R t0 t1 Y → ∀ t ∈ Icc t0 t1, sqDist r (harmonicSum N (Y t)) (harmonicSum N (p t)) ≤
          C1 * (sqDist r (harmonicSum N (Y t0)) (absVort r Ω (Ψ t0)) + ε + 1 / ((g.ntrunc : ℝ) + 1) ^ j) := by
  obtain ⟨F, hF, hΨF⟩ := hΨ.smooth
  have hΨe : ∀ t, Ψ t = onSphere F t := fun t => by funext x y; exact hΨF t x y
  have hV := vort_smooth r Ω hF
  have hQ : ∀ t x y, cos y ≠ 0 → absVort r Ω (Ψ t) x y = onSphere (vort r Ω F) t x y := fun t x y hy => by rw [hΨe, absVort_onSphere hF r Ω t x hy]
  obtain ⟨b, hb⟩ : ∃ b, b = max |t0| |t1| + 1 := ⟨_, rfl⟩
  have hb1 : 1 ≤ b := by
    have := (abs_nonneg t0).trans (le_max_left |t0| |t1|)
    linarith
  have hbt : ∀ t ∈ Icc t0 t1, |t| ≤ b := fun t htt => by
    have := abs_le_max_abs_abs htt.1 htt.2
    linarith
  obtain ⟨C, hC, key⟩ := exists_truncations hr Ω ν order W hb1 hF j
  obtain ⟨Ke, hKe⟩ := ((SmoothLimit.const (Metric.closedBall 0 b) hV).east hb1).bounded
  obtain ⟨Kn, hKn⟩ := ((SmoothLimit.const (Metric.closedBall 0 b) hV).north hb1).bounded
  obtain ⟨G, hG⟩ : ∃ G, G = (|Ke| + |Kn| + 2 * C + 1) / r := ⟨_, rfl⟩
  have hG0 : 0 < G := hG ▸ (by positivity)
  obtain ⟨E, hE⟩ : ∃ E, E = Real.exp ((2 * G * r + 2 + K) * (t1 - t0)) := ⟨_, rfl⟩
  have hL : 0 ≤ t1 - t0 := by linarith
  have hE0 : 0 < E := hE ▸ Real.exp_pos _
  have hA := area_nonneg r
  have hAC : 0 ≤ area r * C ^ 2 := by positivity
  refine ⟨(2 + 2 * (area r * C ^ 2) + (2 + 2 * K) * (area r * C ^ 2 + 1) * (t1 - t0)) * E, C + C / r, by positivity, by positivity, fun {g N S M} hg hgr hgo h1 hT h hMν hMo hW => ?_⟩
  have hN := h.exact.norm_ne
  obtain ⟨c, c', hcd, hc⟩ := key hN h1
  subst hgr
  subst hgo
  subst hMν
  subst hMo
  obtain ⟨τ, hτ⟩ : ∃ τ : ℝ, τ = 1 / ((g.ntrunc : ℝ) + 1) ^ j := ⟨_, rfl⟩
  have hτ0 : 0 < τ := hτ ▸ (by positivity)
  have hτ1 : τ ≤ 1 := by
    rw [hτ, div_le_one (by positivity)]
    exact one_le_pow₀ (by have : (0 : ℝ) ≤ g.ntrunc := Nat.cast_nonneg _; linarith)
  simp only [div_eq_mul_one_div C, ← hτ] at hc
  rw [← hτ]
  have hgrad : ∀ t x y, cos y ≠ 0 → sphereGrad g.rsphere (absVort g.rsphere g.omega (Ψ t)) x y =
      (east (vort g.rsphere g.omega F) t x y / g.rsphere, north (vort g.rsphere g.omega F) t x y / g.rsphere) := fun t x y hy => by
    rw [sphereGrad_congr _ x hy (hQ t), sphereGrad_onSphere hV _ t x hy]
  refine ⟨fun t => vortCoeff N g.rsphere g.omega (c t), fun t htt x y hy => ?_, fun R ε hε hR Y hY t htt => ?_⟩
  · obtain ⟨a1, a2, a3, -⟩ := hc t (hbt t htt) x y hy
    have hCr : C * τ ≤ (C + C / g.rsphere) * τ := mul_le_mul_of_nonneg_right (by have : 0 ≤ C / g.rsphere := by positivity
                                                                                 linarith) hτ0.le
    have hCr' : C * τ / g.rsphere ≤ (C + C / g.rsphere) * τ := by
      rw [show C * τ / g.rsphere = C / g.rsphere * τ by ring]
      exact mul_le_mul_of_nonneg_right (by linarith) hτ0.le
    rw [hQ t x y hy, hgrad t x y hy, sphereGrad_harmonicSum hr.ne' _ x hy]
    dsimp only
    rw [← sub_div, ← sub_div, abs_div, abs_div, abs_of_pos hr]
    exact ⟨a1.trans hCr, (div_le_div_of_nonneg_right a2 hr.le).trans hCr', (div_le_div_of_nonneg_right a3 hr.le).trans hCr'⟩
  have hCτ : (C * τ) ^ 2 ≤ C ^ 2 * τ := by
    rw [mul_pow]
    exact mul_le_mul_of_nonneg_left (by nlinarith) (sq_nonneg _)
  have hst := C129_stability (G := G) (ρ := (2 + 2 * K) * (area g.rsphere * C ^ 2) * τ + 2 * ε) hg h h1 hT hν hY (p := fun t => vortCoeff N g.rsphere g.omega (c t))
    (p' := fun t => -degMul (fun n => n * (n + 1) / g.rsphere ^ 2) (c' t)) (fun t _ => (vortCoeff_hasDeriv _ _ (hcd t)).hasDerivWithinAt) hG0 hK
    (fun t htt x y hy => by
      obtain ⟨-, a2, a3, -⟩ := hc t (hbt t htt) x y hy
      rw [sphereGrad_harmonicSum hr.ne' _ x hy, hG]
      have hCτ1 : C * τ ≤ C := by nlinarith
      have b1 : |lamDeriv N (vortCoeff N g.rsphere g.omega (c t)) x y| ≤ |Ke| + C := by
        have b2 := (hKe t (hbt t htt) x y).trans (le_abs_self Ke)
        have b3 := abs_sub_abs_le_abs_sub (lamDeriv N (vortCoeff N g.rsphere g.omega (c t)) x y) (east (vort g.rsphere g.omega F) t x y)
        linarith
      have b1' : |phiDeriv N (vortCoeff N g.rsphere g.omega (c t)) x y| ≤ |Kn| + C := by
        have b2 := (hKn t (hbt t htt) x y).trans (le_abs_self Kn)
        have b3 := abs_sub_abs_le_abs_sub (phiDeriv N (vortCoeff N g.rsphere g.omega (c t)) x y) (north (vort g.rsphere g.omega F) t x y)
        linarith
      have c1 := pow_le_pow_left₀ (abs_nonneg _) b1 2
      have c2 := pow_le_pow_left₀ (abs_nonneg _) b1' 2
      rw [sq_abs] at c1 c2
      dsimp only
      rw [div_pow, div_pow, div_pow, ← add_div]
      refine div_le_div_of_nonneg_right ?_ (sq_nonneg _)
      have k1 := abs_nonneg Ke
      have k2 := abs_nonneg Kn
      nlinarith [mul_nonneg k1 k2, mul_nonneg k1 hC, mul_nonneg k2 hC])
    hR.bound (fun t htt => by
      have hbg := diffusesAround_background h h1 hW
      have hs : SphereSmooth (coeffResidual N g.rsphere g.omega M.diffusionCoeff M.diffusionOrder W (c t) (c' t)) :=
        ((harmonicSum_smooth _).add (advect_smooth _ _ _)).add ((SphereSmooth.lat contDiff_const).mul (harmonicSum_smooth _))
      have sD := defect_smooth g.rsphere g.omega M.diffusionCoeff M.diffusionOrder W hF t
      have sf := harmonicSum_smooth (N := N) (S.grdtospec (R t (vortCoeff N g.rsphere g.omega (c t))))
      have k1 : sqDist g.rsphere (coeffResidual N g.rsphere g.omega M.diffusionCoeff M.diffusionOrder W (c t) (c' t))
          (defect g.rsphere g.omega M.diffusionCoeff M.diffusionOrder W F t) ≤ area g.rsphere * C ^ 2 * τ := by
        refine (integral_le_area (hs.sub sD) g.rsphere (ε := C * τ) fun x y hy => (hc t (hbt t htt) x y hy).2.2.2).trans ?_
        rw [mul_assoc]; exact mul_le_mul_of_nonneg_left hCτ hA
      have k2 := hR.near t htt (vortCoeff N g.rsphere g.omega (c t))
      have k3 : sqDist g.rsphere (harmonicSum N (vortCoeff N g.rsphere g.omega (c t))) (absVort g.rsphere g.omega (Ψ t)) ≤ area g.rsphere * C ^ 2 * τ := by
        rw [show sqDist g.rsphere (harmonicSum N (vortCoeff N g.rsphere g.omega (c t))) (absVort g.rsphere g.omega (Ψ t)) =
          sqDist g.rsphere (harmonicSum N (vortCoeff N g.rsphere g.omega (c t))) (onSphere (vort g.rsphere g.omega F) t) from
          sphereIntegral_congr _ fun x y hy => by rw [hQ t x y hy]]
        refine (integral_le_area ((harmonicSum_smooth _).sub (onSphere_smooth hV t)) g.rsphere (ε := C * τ) fun x y hy => (hc t (hbt t htt) x y hy).1).trans ?_
        rw [mul_assoc]; exact mul_le_mul_of_nonneg_left hCτ hA
      have k4 := mul_le_mul_of_nonneg_left k3 hK
      rw [show sqDist g.rsphere (harmonicSum N (S.grdtospec (R t (vortCoeff N g.rsphere g.omega (c t))))) (Φ t) =
        sqDist g.rsphere (harmonicSum N (S.grdtospec (R t (vortCoeff N g.rsphere g.omega (c t))))) (defect g.rsphere g.omega M.diffusionCoeff M.diffusionOrder W F t) from
        sphereIntegral_congr _ fun x y hy => by rw [defect_forcing hr.ne' hΨ hF hΨF htt x hy], sqDist_comm] at k2
      have k5 := sqDist_triangle (r := g.rsphere) hs sD sf
      refine le_of_eq_of_le (sphereIntegral_congr g.rsphere fun x y hy => ?_) (show sqDist g.rsphere
        (coeffResidual N g.rsphere g.omega M.diffusionCoeff M.diffusionOrder W (c t) (c' t))
        (harmonicSum N (S.grdtospec (R t (vortCoeff N g.rsphere g.omega (c t))))) ≤ _ by linarith)
      rw [residual_coeff hg h h1 hbg (c t) (c' t) x hy]) t htt
  change sqDist g.rsphere (harmonicSum N (Y t)) (harmonicSum N (vortCoeff N g.rsphere g.omega (c t))) ≤
    (sqDist g.rsphere (harmonicSum N (Y t0)) (harmonicSum N (vortCoeff N g.rsphere g.omega (c t0))) + ((2 + 2 * K) * (area g.rsphere * C ^ 2) * τ + 2 * ε) * (t - t0)) * _ at hst
  refine hst.trans ?_
  have hsV := fun t => onSphere_smooth hV t
  have hD0 : sqDist g.rsphere (harmonicSum N (Y t0)) (absVort g.rsphere g.omega (Ψ t0)) = sqDist g.rsphere (harmonicSum N (Y t0)) (onSphere (vort g.rsphere g.omega F) t0) :=
    sphereIntegral_congr _ fun x y hy => by rw [hQ t0 x y hy]
  have hD1 : 0 ≤ sqDist g.rsphere (harmonicSum N (Y t0)) (onSphere (vort g.rsphere g.omega F) t0) := sqDist_nonneg (harmonicSum_smooth _) (hsV t0) _
  have d1 := sqDist_triangle (r := g.rsphere) (harmonicSum_smooth (N := N) (Y t0)) (hsV t0) (harmonicSum_smooth (N := N) (vortCoeff N g.rsphere g.omega (c t0)))
  have d2 : sqDist g.rsphere (onSphere (vort g.rsphere g.omega F) t0) (harmonicSum N (vortCoeff N g.rsphere g.omega (c t0))) ≤ area g.rsphere * C ^ 2 * τ := by
    rw [sqDist_comm]
    refine (integral_le_area ((harmonicSum_smooth _).sub (hsV t0)) g.rsphere (ε := C * τ) fun x y hy => (hc t0 (hbt t0 ⟨le_rfl, ht⟩) x y hy).1).trans ?_
    rw [mul_assoc]; exact mul_le_mul_of_nonneg_left hCτ hA
  rw [hD0]
  have c5 : Real.exp ((2 * G * g.rsphere + 2 + K) * (t - t0)) ≤ E := by
    rw [hE]
    refine Real.exp_le_exp.mpr (mul_le_mul_of_nonneg_left ?_ (by positivity))
    have := htt.2
    linarith
  have hu0 : 0 ≤ (2 + 2 * K) * (area g.rsphere * C ^ 2) * τ + 2 * ε := by positivity
  have c6 := mul_le_mul_of_nonneg_left (show t - t0 ≤ t1 - t0 by have := htt.2; linarith) hu0
  have c8 := mul_nonneg hu0 (show 0 ≤ t - t0 by have := htt.1; linarith)
  have c7 : 0 ≤ sqDist g.rsphere (harmonicSum N (Y t0)) (harmonicSum N (vortCoeff N g.rsphere g.omega (c t0))) := sqDist_nonneg (harmonicSum_smooth _) (harmonicSum_smooth _) _
  refine (mul_le_mul_of_nonneg_left c5 (by linarith)).trans ?_
  rw [mul_right_comm _ E]
  refine mul_le_mul_of_nonneg_right ?_ hE0.le
  obtain ⟨A, hA'⟩ : ∃ A, A = area g.rsphere * C ^ 2 := ⟨_, rfl⟩
  obtain ⟨D, hD'⟩ : ∃ D, D = sqDist g.rsphere (harmonicSum N (Y t0)) (onSphere (vort g.rsphere g.omega F) t0) := ⟨_, rfl⟩
  obtain ⟨L, hL'⟩ : ∃ L, L = t1 - t0 := ⟨_, rfl⟩
  rw [← hA', ← hL'] at c6
  rw [← hA'] at hAC d2 c8
  rw [← hD'] at hD1 d1
  rw [← hL'] at hL
  rw [← hA', ← hD', ← hL']
  have c9 : 0 ≤ (2 + 2 * K) * (A + 1) * L * D := by positivity
  have c10 : 0 ≤ A * D := by positivity
  have c11 : 0 ≤ A * ε := by positivity
  have c12 : 0 ≤ (2 + 2 * K) * L * τ := by positivity
  have c13 : 0 ≤ 2 * K * L * ε := by positivity
  have c14 : 0 ≤ (2 + 2 * K) * A * L * ε := by positivity
  linarith

/-- C146: solutions of the truncated equation with forcing are spectrally accurate. For every smooth solution of the forced barotropic vorticity equation and every exponent `j` there
is a constant such that for every truncation `T` the mean square error stays within a multiple of the initial error plus the error `ε` of the forcing plus `(T + 1)^{-j}`, and that
the squared error at every single point and the squared error of the gradient at every single point are within the same bound times `(T + 1)²` and `(T + 1)⁴`.
There are initial states with an error of `(T + 1)^{-j}`. -/
theorem C146_accuracy {r Ω ν W t0 t1 K : ℝ} {order : ℕ} {Φ Ψ : ℝ → ℝ → ℝ → ℝ} (hr : 0 < r) (hν : 0 ≤ ν) (hK : 0 ≤ K)
    (hΨ : ForcedSolution r Ω ν order W Φ t0 t1 Ψ) (ht : t0 ≤ t1)
    (j : ℕ) : ∃ C, 0 ≤ C ∧ ∀ {g : Grid ℝ} {N : ℕ → ℕ → ℝ} {S : g.Sph} {M : BModel g}, g.Valid → g.rsphere = r → g.omega = Ω → 1 ≤ g.ntrunc →
      2 * g.ntrunc + 1 ≤ g.nlat → Spharm.Dealiased N S → M.diffusionCoeff = ν → M.diffusionOrder = order → M.DiffusesAround W →
      (∃ q : g.Spc, Accurate C r g.ntrunc (1 / ((g.ntrunc : ℝ) + 1) ^ j) (harmonicSum N q) (absVort r Ω (Ψ t0))) ∧
      ∀ (R : ℝ → g.Spc → g.Fld) (ε : ℝ), 0 ≤ ε → FollowsForcing N S R K ε Ω Φ t0 t1 Ψ → ∀ Y : ℝ → g.Spc, M.Solution S R t0 t1 Y → ∀ t ∈ Icc t0 t1,
        Accurate C r g.ntrunc (sqDist r (harmonicSum N (Y t0)) (absVort r Ω (Ψ t0)) + ε + 1 / ((g.ntrunc : ℝ) + 1) ^ j) (harmonicSum N (Y t)) (absVort r Ω (Ψ t)) := by
  obtain ⟨C1, C2, hC1, hC2, key⟩ := exists_forced_reference hr hν hK hΨ ht j
  obtain ⟨F, hF, hΨF⟩ := hΨ.smooth
  have hΨe : ∀ t, Ψ t = onSphere F t := fun t => by funext x y; exact hΨF t x y
  have hV := vort_smooth r Ω hF
  have hQ : ∀ t x y, cos y ≠ 0 → absVort r Ω (Ψ t) x y = onSphere (vort r Ω F) t x y := fun t x y hy => by rw [hΨe, absVort_onSphere hF r Ω t x hy]
  have hpi := Real.pi_pos
  have har := area_nonneg r
  refine ⟨2 * C1 + 2 * (area r * C2 ^ 2) + 2 * (C1 / (4 * Real.pi * r ^ 2)) + 4 * C2 ^ 2 + 2 * (C1 / (2 * Real.pi * r ^ 4)), by positivity,
    fun {g N S M} hg hgr hgo h1 hT h hMν hMo hW => ?_⟩
  obtain ⟨p, hp, hstab⟩ := key hg hgr hgo h1 hT h hMν hMo hW
  obtain ⟨hτ0, hτ1⟩ := rate_bounds g.ntrunc j
  refine ⟨⟨p t0, ?_⟩, fun R ε hε hR Y hY t htt => ?_⟩
  · refine accurate_of_near hr h.exact.norm_ne (onSphere_smooth hV t0) (hQ t0) hτ0.le hτ1 hC1 hC2 le_rfl ?_ (hp t0 ⟨le_rfl, ht⟩)
    have : sqDist r (harmonicSum N (p t0)) (harmonicSum N (p t0)) = 0 := by simp [sqDist, sphereIntegral]
    rw [this]
    exact mul_nonneg hC1 hτ0.le
  · refine accurate_of_near hr h.exact.norm_ne (onSphere_smooth hV t) (hQ t) hτ0.le hτ1 hC1 hC2 ?_ (hstab R ε hε hR Y hY t htt) (hp t htt)
    have := sqDist_nonneg (harmonicSum_smooth (N := N) (Y t0)) (onSphere_smooth hV t0) r
    rw [show sqDist r (harmonicSum N (Y t0)) (absVort r Ω (Ψ t0)) = sqDist r (harmonicSum N (Y t0)) (onSphere (vort r Ω F) t0) from
      sphereIntegral_congr _ fun x y hy => by rw [hQ t0 x y hy]]
    linarith

/-- C146: the initial state and all states returned by `run` are spectrally accurate in the sense of `C146_accuracy`, if the time step is sufficiently small. -/
theorem C146_run {r Ω ν W t0 t1 t2 K : ℝ} {order : ℕ} {Φ Ψ : ℝ → ℝ → ℝ → ℝ} (hr : 0 < r) (hν : 0 ≤ ν) (hK : 0 ≤ K)
    (hΨ : ForcedSolution r Ω ν order W Φ t0 t1 Ψ) (h02 : t0 ≤ t2)
    (h21 : t2 < t1) (j : ℕ) : ∃ C, 0 ≤ C ∧ ∀ {g : Grid ℝ} {N : ℕ → ℕ → ℝ} {S : g.Sph} {M : BModel g} {R : ℝ → g.Spc → g.Fld} {ε : ℝ}, g.Valid → g.rsphere = r → g.omega = Ω → 1 ≤ g.ntrunc →
      2 * g.ntrunc + 1 ≤ g.nlat → Spharm.Dealiased N S → M.diffusionCoeff = ν → M.diffusionOrder = order → M.DiffusesAround W →
      M.ForcedBy R → LipschitzForcing R t0 t1 → LinearGrowth R t0 t1 → 0 ≤ ε → FollowsForcing N S R K ε Ω Φ t0 t1 Ψ →
      (∃ q : g.Spc, Accurate C r g.ntrunc (1 / ((g.ntrunc : ℝ) + 1) ^ j) (harmonicSum N q) (absVort r Ω (Ψ t0))) ∧
      ∀ s : St PyTime g, s.time.sec = t0 → ∃ δ > 0,
        ∀ (dt : PyDelta) (tend : PyTime) (se : ℝ), s.time.Compatible dt → s.time.SameKind tend → 0 < toSeconds dt → toSeconds dt < δ →
        t0 ≤ tend.sec → tend.sec ≤ t2 → (se ≤ 0 ∨ ∃ x, s.time = .num x) →
        ∃ sf saved, M.Returns S s dt tend se sf saved ∧ tend.sec ≤ sf.time.sec ∧ ∀ w ∈ s :: sf :: saved, w.time.sec ∈ Icc t0 t1 ∧
          Accurate C r g.ntrunc (sqDist r (s.pvFn N) (absVort r Ω (Ψ t0)) + ε + 1 / ((g.ntrunc : ℝ) + 1) ^ j) (w.pvFn N) (absVort r Ω (Ψ w.time.sec)) := by
  obtain ⟨C1, C2, hC1, hC2, key⟩ := exists_forced_reference hr hν hK hΨ (h02.trans h21.le) j
  obtain ⟨F, hF, hΨF⟩ := hΨ.smooth
  have hΨe : ∀ t, Ψ t = onSphere F t := fun t => by funext x y; exact hΨF t x y
  have hV := vort_smooth r Ω hF
  have hQ : ∀ t x y, cos y ≠ 0 → absVort r Ω (Ψ t) x y = onSphere (vort r Ω F) t x y := fun t x y hy => by rw [hΨe, absVort_onSphere hF r Ω t x hy]
  have hpi := Real.pi_pos
  have har := area_nonneg r
  obtain ⟨C3, hC3⟩ : ∃ C3, C3 = 2 * C1 + 2 := ⟨_, rfl⟩
  have hC30 : 0 ≤ C3 := by linarith
  refine ⟨2 * C3 + 2 * (area r * C2 ^ 2) + 2 * (C3 / (4 * Real.pi * r ^ 2)) + 4 * C2 ^ 2 + 2 * (C3 / (2 * Real.pi * r ^ 4)), by positivity,
    fun {g N S M R ε} hg hgr hgo h1 hT h hMν hMo hW hf hL hG hε hR => ?_⟩
  obtain ⟨p, hp, hstab⟩ := key hg hgr hgo h1 hT h hMν hMo hW
  obtain ⟨hτ0, hτ1⟩ := rate_bounds g.ntrunc j
  refine ⟨⟨p t0, accurate_of_near hr h.exact.norm_ne (onSphere_smooth hV t0) (hQ t0) hτ0.le hτ1 hC30 hC2 le_rfl ?_ (hp t0 ⟨le_rfl, h02.trans h21.le⟩)⟩,
    fun s hs => ?_⟩
  · have : sqDist r (harmonicSum N (p t0)) (harmonicSum N (p t0)) = 0 := by simp [sqDist, sphereIntegral]
    rw [this]
    exact mul_nonneg hC30 hτ0.le
  have hν' : 0 ≤ M.diffusionCoeff := hMν ▸ hν
  obtain ⟨Y, hY, hY0, -⟩ := C120_exists (M := M) hg h h1 hT hν' (h02.trans h21.le) hL hG s.q
  have hacc := hstab R ε hε hR Y hY
  have hc : Continuous fun e : g.Spc => spherePair r (harmonicSum N e) (harmonicSum N e) := spherePair_continuous hr.ne' continuous_id continuous_id
  have h0 : spherePair r (harmonicSum N (0 : g.Spc)) (harmonicSum N (0 : g.Spc)) = 0 := by
    have : harmonicSum N (0 : g.Spc) = fun _ _ => 0 := by funext x y; exact modeSum_eq_zero N legendre (fun _ => .inl rfl) x y
    rw [this]
    simp [spherePair, sphereIntegral]
  obtain ⟨ε2, hε2, hnear⟩ := Metric.continuousAt_iff.mp (hc.continuousAt (x := 0)) (1 / ((g.ntrunc : ℝ) + 1) ^ j) hτ0
  obtain ⟨δ, hδ, hrun⟩ := converges_of_solution h.exact.linear hν' hf s (hs ▸ h02) h21 (hs ▸ hL) (hs ▸ hY) (hs ▸ hY0) ε2 hε2
  refine ⟨δ, hδ, fun dt tend se hc hk hd hdδ hst hend hse => ?_⟩
  obtain ⟨sf, saved, hret, hle, hall⟩ := hrun dt tend se hc hk hd hdδ (hs ▸ hst) hend hse
  have hall' : ∀ w ∈ s :: sf :: saved, w.time.sec ∈ Icc t0 t1 ∧ ‖w.q - Y w.time.sec‖ < ε2 := by
    intro w hw
    rcases List.mem_cons.1 hw with rfl | hw
    · rw [hs, hY0, sub_self, norm_zero]
      exact ⟨⟨le_rfl, h02.trans h21.le⟩, hε2⟩
    · obtain ⟨hwt, hwq, -⟩ := hall w hw
      exact ⟨hs ▸ hwt, hwq⟩
  refine ⟨sf, saved, hret, hle, fun w hw => ?_⟩
  obtain ⟨hwt, hwq⟩ := hall' w hw
  refine ⟨hwt, ?_⟩
  have e1 : sqDist r (harmonicSum N w.q) (harmonicSum N (Y w.time.sec)) < 1 / ((g.ntrunc : ℝ) + 1) ^ j := by
    have := hnear (x := w.q - Y w.time.sec) (by rw [dist_zero_right]; exact hwq)
    rw [h0, Real.dist_eq, sub_zero] at this
    refine lt_of_eq_of_lt (sphereIntegral_congr r fun x y _ => ?_) (lt_of_abs_lt this)
    rw [harmonicSum_sub]
    ring
  have e2 := hacc _ hwt
  have e0 : Y t0 = s.q := hY0
  rw [e0] at e2
  have hD : 0 ≤ sqDist r (s.pvFn N) (absVort r Ω (Ψ t0)) := by
    rw [show sqDist r (s.pvFn N) (absVort r Ω (Ψ t0)) = sqDist r (harmonicSum N s.q) (onSphere (vort r Ω F) t0) from
      sphereIntegral_congr _ fun x y hy => by rw [hQ t0 x y hy]; rfl]
    exact sqDist_nonneg (harmonicSum_smooth _) (onSphere_smooth hV t0) r
  refine accurate_of_near (p := p w.time.sec) hr h.exact.norm_ne (onSphere_smooth hV _) (hQ _) hτ0.le hτ1 hC30 hC2 (by linarith) ?_ (hp _ hwt)
  have e3 := sqDist_triangle (r := r) (harmonicSum_smooth (N := N) w.q) (harmonicSum_smooth (N := N) (Y w.time.sec)) (harmonicSum_smooth (N := N) (p w.time.sec))
  refine e3.trans ?_
  change sqDist r (harmonicSum N (Y w.time.sec)) (harmonicSum N (p w.time.sec)) ≤ C1 * (sqDist r (s.pvFn N) (absVort r Ω (Ψ t0)) + ε + _) at e2
  rw [hC3]
  linarith

/-- C146: potential vorticity and its gradient converge uniformly: for every tolerance there is a truncation from which on the errors at every point of the sphere are
within the tolerance at all times, if the mean square errors of the initial state and the forcing decrease faster than the fourth power of the truncation, and the time step is sufficiently small. -/
theorem C146_uniform {r Ω ν W t0 t1 t2 K : ℝ} {order : ℕ} {Φ Ψ : ℝ → ℝ → ℝ → ℝ} (hr : 0 < r) (hν : 0 ≤ ν) (hK : 0 ≤ K)
    (hΨ : ForcedSolution r Ω ν order W Φ t0 t1 Ψ) (h02 : t0 ≤ t2)
    (h21 : t2 < t1) {η : ℝ} (hη : 0 < η) : ∃ T0 : ℕ, ∃ ε0 > 0, ∀ {g : Grid ℝ} {N : ℕ → ℕ → ℝ} {S : g.Sph} {M : BModel g} {R : ℝ → g.Spc → g.Fld} {ε : ℝ}, g.Valid → g.rsphere = r → g.omega = Ω →
      T0 ≤ g.ntrunc → 2 * g.ntrunc + 1 ≤ g.nlat → Spharm.Dealiased N S → M.diffusionCoeff = ν → M.diffusionOrder = order → M.DiffusesAround W →
      M.ForcedBy R → LipschitzForcing R t0 t1 → LinearGrowth R t0 t1 → 0 ≤ ε → FollowsForcing N S R K ε Ω Φ t0 t1 Ψ → ((g.ntrunc : ℝ) + 1) ^ 4 * ε ≤ ε0 →
      (∃ q : g.Spc, ((g.ntrunc : ℝ) + 1) ^ 4 * sqDist r (harmonicSum N q) (absVort r Ω (Ψ t0)) ≤ ε0) ∧
      ∀ s : St PyTime g, s.time.sec = t0 → ((g.ntrunc : ℝ) + 1) ^ 4 * sqDist r (s.pvFn N) (absVort r Ω (Ψ t0)) ≤ ε0 → ∃ δ > 0,
        ∀ (dt : PyDelta) (tend : PyTime) (se : ℝ), s.time.Compatible dt → s.time.SameKind tend → 0 < toSeconds dt → toSeconds dt < δ →
        t0 ≤ tend.sec → tend.sec ≤ t2 → (se ≤ 0 ∨ ∃ x, s.time = .num x) →
        ∃ sf saved, M.Returns S s dt tend se sf saved ∧ tend.sec ≤ sf.time.sec ∧ ∀ w ∈ s :: sf :: saved, w.time.sec ∈ Icc t0 t1 ∧ ∀ x y, cos y ≠ 0 →
          |w.pvFn N x y - absVort r Ω (Ψ w.time.sec) x y| < η ∧
          |(sphereGrad r (w.pvFn N) x y).1 - (sphereGrad r (absVort r Ω (Ψ w.time.sec)) x y).1| < η ∧
          |(sphereGrad r (w.pvFn N) x y).2 - (sphereGrad r (absVort r Ω (Ψ w.time.sec)) x y).2| < η := by
  obtain ⟨C, hC, key⟩ := C146_run hr hν hK hΨ h02 h21 5
  obtain ⟨T0, hT0⟩ := exists_nat_gt ((C + 1) ^ 2 * 8 / η ^ 2 + 1)
  have hη2 : 0 < η ^ 2 := by positivity
  have hC1 : 0 < C + 1 := by linarith
  refine ⟨T0, η ^ 2 / (8 * (C + 1)), by positivity, fun {g N S M R ε} hg hgr hgo hTT hT h hMν hMo hW hf hL hG hε hR hε4 => ?_⟩
  have hT1 : (T0 : ℝ) ≤ g.ntrunc := by exact_mod_cast hTT
  have hq0 : 0 ≤ (C + 1) ^ 2 * 8 / η ^ 2 := by positivity
  have h1 : 1 ≤ g.ntrunc := by
    have : (1 : ℝ) ≤ g.ntrunc := by linarith
    exact_mod_cast this
  obtain ⟨⟨q, hq⟩, hrun⟩ := key hg hgr hgo h1 hT h hMν hMo hW hf hL hG hε hR
  obtain ⟨P, hP⟩ : ∃ P : ℝ, P = (g.ntrunc : ℝ) + 1 := ⟨_, rfl⟩
  rw [← hP] at hq hrun hε4 ⊢
  have hP0 : 0 < P := by rw [hP]; positivity
  have hP1 : 1 ≤ P := by rw [hP]; have : (0 : ℝ) ≤ g.ntrunc := Nat.cast_nonneg _; linarith
  have hPP : (C + 1) ^ 2 * 8 / η ^ 2 < P := by linarith
  -- the contribution of the truncation
  have hrate : P ^ 4 * (1 / P ^ 5) * (C + 1) ≤ η ^ 2 / (8 * (C + 1)) := by
    have e : P ^ 4 * (1 / P ^ 5) = 1 / P := by field_simp
    rw [e, one_div_mul_eq_div, div_le_div_iff₀ hP0 (by positivity)]
    rw [div_lt_iff₀ hη2] at hPP
    nlinarith
  refine ⟨⟨q, ?_⟩, fun s hs hs0 => ?_⟩
  · have b1 := mul_le_mul_of_nonneg_left hq.mean (by positivity : 0 ≤ P ^ 4)
    have b2 : 0 ≤ P ^ 4 * (1 / P ^ 5) := by positivity
    linarith
  obtain ⟨δ, hδ, hd⟩ := hrun s hs
  refine ⟨δ, hδ, fun dt tend se a1 a2 a3 a4 a5 a6 a7 => ?_⟩
  obtain ⟨sf, saved, b1, b2, b3⟩ := hd dt tend se a1 a2 a3 a4 a5 a6 a7
  refine ⟨sf, saved, b1, b2, fun w hw => ?_⟩
  obtain ⟨c1, c2⟩ := b3 w hw
  refine ⟨c1, fun x y hy => ?_⟩
  obtain ⟨X, hX⟩ : ∃ X, X = sqDist r (s.pvFn N) (absVort r Ω (Ψ t0)) + ε + 1 / P ^ 5 := ⟨_, rfl⟩
  rw [← hX] at c2
  have hX0 : 0 ≤ X := by
    have d1 : 0 ≤ (w.pvFn N x y - absVort r Ω (Ψ w.time.sec) x y) ^ 2 := sq_nonneg _
    have d2 := sqDist_nonneg' r (s.pvFn N) (absVort r Ω (Ψ t0))
    rw [hX]
    exact add_nonneg (add_nonneg d2 hε) (by positivity)
  have hbound : C * P ^ 4 * X < η ^ 2 := by
    have d1 : P ^ 4 * X * (C + 1) ≤ η ^ 2 / 4 + η ^ 2 / (8 * (C + 1)) := by
      have d2 := mul_le_mul_of_nonneg_right hs0 hC1.le
      have d3 : η ^ 2 / (8 * (C + 1)) * (C + 1) = η ^ 2 / 8 := by field_simp
      have d6 := mul_le_mul_of_nonneg_right hε4 hC1.le
      rw [hX]
      linarith
    have d4 : η ^ 2 / (8 * (C + 1)) ≤ η ^ 2 / 4 := div_le_div_of_nonneg_left hη2.le (by norm_num) (by linarith)
    have d5 : 0 ≤ P ^ 4 * X := by positivity
    linarith
  have hv := c2.value x y hy
  have hg' := c2.gradient x y hy
  rw [← hP] at hv hg'
  have hv' : C * P ^ 2 * X ≤ C * P ^ 4 * X := by
    refine mul_le_mul_of_nonneg_right (mul_le_mul_of_nonneg_left (pow_le_pow_right₀ hP1 (by norm_num)) hC) hX0
  refine ⟨abs_lt_of_sq_lt_sq (by linarith) hη.le, abs_lt_of_sq_lt_sq (lt_of_le_of_lt ?_ hbound) hη.le, abs_lt_of_sq_lt_sq (lt_of_le_of_lt ?_ hbound) hη.le⟩
  · exact (le_add_of_nonneg_right (sq_nonneg _)).trans hg'
  · exact (le_add_of_nonneg_left (sq_nonneg _)).trans hg'

/-! ## Relaxation and prescribed forcing -/

/-- A forcing that is the sum of a prescribed field and a multiple of PV follows the forcing that is the sum of a prescribed function and a multiple of absolute vorticity,
with twice the error of the prescribed field. -/
theorem linear_follows {r Ω ν W t0 t1 rate : ℝ} {order : ℕ} {P Ψ : ℝ → ℝ → ℝ → ℝ} (hr : r ≠ 0)
    (hΨ : ForcedSolution r Ω ν order W (fun t x y => P t x y - rate * absVort r Ω (Ψ t) x y) t0 t1 Ψ)
    {g : Grid ℝ} {N : ℕ → ℕ → ℝ} {S : g.Sph} {B : ℕ} (hgr : g.rsphere = r) (h : Spharm.Exact N B S) (hB : g.ntrunc ≤ B) (f : ℝ → g.Fld) {ε : ℝ}
    (hf : ∀ t ∈ Icc t0 t1, sqDist r (harmonicSum N (S.grdtospec (f t))) (P t) ≤ ε) :
    FollowsForcing N S (fun t q j i => f t j i - rate * S.spectogrd q j i) (2 * rate ^ 2) (2 * ε) Ω (fun t x y => P t x y - rate * absVort r Ω (Ψ t) x y) t0 t1 Ψ := by
  obtain ⟨F, hF, hΨF⟩ := hΨ.smooth
  have hΨt : ∀ t, Ψ t = onSphere F t := fun t => by funext x y; exact hΨF t x y
  subst hgr
  have hQ : ∀ t x y, cos y ≠ 0 → absVort g.rsphere Ω (Ψ t) x y = onSphere (vort g.rsphere Ω F) t x y := fun t x y hy => by
    rw [← absVort_onSphere hF g.rsphere Ω _ x hy, hΨt]
  have ha : ∀ t q, harmonicSum N (S.grdtospec fun j i => f t j i - rate * S.spectogrd q j i) =
      fun x y => harmonicSum N (S.grdtospec (f t)) x y - rate * harmonicSum N q x y := fun t q => by
    funext x y; exact linear_analysis h hB rate (f t) q x y
  refine ⟨fun t ht q q' => ?_, fun t ht q => ?_⟩
  · have e := sqDist_nonneg' g.rsphere (harmonicSum N q) (harmonicSum N q')
    rw [ha, ha]
    refine le_trans (le_of_eq ?_) (show rate ^ 2 * sqDist g.rsphere (harmonicSum N q) (harmonicSum N q') ≤ _ by nlinarith [mul_nonneg (sq_nonneg rate) e])
    rw [← sqDist_mul]
    exact sphereIntegral_congr _ fun x y _ => by ring
  · rw [ha]
    have sQ := onSphere_smooth (vort_smooth g.rsphere Ω hF) t
    have sD := defect_smooth g.rsphere Ω ν order W hF t
    have hc : ∀ (c : ℝ) {H : ℝ → ℝ → ℝ}, SphereSmooth H → SphereSmooth fun x y => c * H x y := fun c _ hH => (SphereSmooth.lat contDiff_const).mul hH
    have sq := hc rate (harmonicSum_smooth (N := N) q)
    have sf := harmonicSum_smooth (N := N) (S.grdtospec (f t))
    have sB := sD.add (hc rate sQ)
    have k := sqDist_triangle (r := g.rsphere) (sf.sub sq) (sB.sub sq) (sB.sub (hc rate sQ))
    have hdf : ∀ x y, cos y ≠ 0 → defect g.rsphere Ω ν order W F t x y = P t x y - rate * onSphere (vort g.rsphere Ω F) t x y := fun x y hy => by
      rw [defect_forcing hr hΨ hF hΨF ht x hy, ← hQ t x y hy]
    have k1 : sqDist g.rsphere (fun x y => harmonicSum N (S.grdtospec (f t)) x y - rate * harmonicSum N q x y)
        (fun x y => (defect g.rsphere Ω ν order W F t x y + rate * onSphere (vort g.rsphere Ω F) t x y) - rate * harmonicSum N q x y) =
        sqDist g.rsphere (harmonicSum N (S.grdtospec (f t))) (P t) :=
      sphereIntegral_congr _ fun x y hy => by
        dsimp only
        rw [hdf x y hy]
        ring
    have k2 : sqDist g.rsphere (fun x y => (defect g.rsphere Ω ν order W F t x y + rate * onSphere (vort g.rsphere Ω F) t x y) - rate * harmonicSum N q x y)
        (fun x y => (defect g.rsphere Ω ν order W F t x y + rate * onSphere (vort g.rsphere Ω F) t x y) - rate * onSphere (vort g.rsphere Ω F) t x y) =
        rate ^ 2 * sqDist g.rsphere (harmonicSum N q) (absVort g.rsphere Ω (Ψ t)) := by
      rw [← sqDist_mul]
      exact sphereIntegral_congr _ fun x y hy => by dsimp only; rw [hQ t x y hy]; ring
    rw [k1, k2] at k
    have k3 := hf t ht
    refine le_of_eq_of_le (sphereIntegral_congr _ fun x y hy => ?_) (k.trans (by linarith))
    dsimp only
    rw [hdf x y hy, hQ t x y hy]
    ring

/-- The relaxation term follows relaxation. -/
theorem relax_follows {r Ω ν W t0 t1 rate : ℝ} {order : ℕ} {A : ℝ → ℝ → ℝ} {Ψ : ℝ → ℝ → ℝ → ℝ} (hr : r ≠ 0)
    (hΨ : ForcedSolution r Ω ν order W (relaxing r Ω rate A Ψ) t0 t1 Ψ) {g : Grid ℝ} {N : ℕ → ℕ → ℝ} {S : g.Sph} {B : ℕ} (hgr : g.rsphere = r)
    (h : Spharm.Exact N B S) (hB : g.ntrunc ≤ B) (f : g.Fld) :
    FollowsForcing N S (fun _ q j i => rate * (f j i - S.spectogrd q j i)) (2 * rate ^ 2) (2 * (rate ^ 2 * sqDist r (harmonicSum N (S.grdtospec f)) A)) Ω
      (relaxing r Ω rate A Ψ) t0 t1 Ψ := by
  have e : relaxing r Ω rate A Ψ = fun t x y => rate * A x y - rate * absVort r Ω (Ψ t) x y := by
    funext t x y; exact mul_sub _ _ _
  rw [e] at hΨ ⊢
  have := linear_follows (P := fun _ x y => rate * A x y) (ε := rate ^ 2 * sqDist r (harmonicSum N (S.grdtospec f)) A) hr hΨ hgr h hB (fun _ => rate • f) fun t _ => by
    rw [h.analysis_smul]
    have e2 : harmonicSum N (rate • S.grdtospec f) = fun x y => rate * harmonicSum N (S.grdtospec f) x y := by
      funext x y
      have := harmonicSum_lin (N := N) (0 : g.Spc) (S.grdtospec f) rate x y
      have hz : harmonicSum N (0 : g.Spc) x y = 0 := modeSum_eq_zero N legendre (fun _ => .inl rfl) x y
      rwa [zero_add, hz, zero_add] at this
    rw [e2, sqDist_mul]
  refine cast ?_ this
  congr 1
  funext t q j i
  simp only [Pi.smul_apply, smul_eq_mul]
  ring

/-- C146: runs with `LinearRelaxation` (with any rate) are spectrally accurate, up to the error of the reference PV. -/
theorem C146_relaxation {r Ω ν W t0 t1 t2 rate : ℝ} {order : ℕ} {A : ℝ → ℝ → ℝ} {Ψ : ℝ → ℝ → ℝ → ℝ} (hr : 0 < r) (hν : 0 ≤ ν)
    (hΨ : ForcedSolution r Ω ν order W (relaxing r Ω rate A Ψ) t0 t1 Ψ) (h02 : t0 ≤ t2) (h21 : t2 < t1) (j : ℕ) :
    ∃ C, 0 ≤ C ∧ ∀ {g : Grid ℝ} {N : ℕ → ℕ → ℝ} {S : g.Sph} {M : BModel g} {ref : RVal g}, g.Valid → g.rsphere = r → g.omega = Ω →
      1 ≤ g.ntrunc → 2 * g.ntrunc + 1 ≤ g.nlat → Spharm.Dealiased N S → M.diffusionCoeff = ν → M.diffusionOrder = order → M.DiffusesAround W →
      M.rhs = some (Term.linearRelaxation S rate ref).toRhs →
      (∃ q : g.Spc, Accurate C r g.ntrunc (1 / ((g.ntrunc : ℝ) + 1) ^ j) (harmonicSum N q) (absVort r Ω (Ψ t0))) ∧
      ∀ s : St PyTime g, s.time.sec = t0 → ∃ δ > 0,
        ∀ (dt : PyDelta) (tend : PyTime) (se : ℝ), s.time.Compatible dt → s.time.SameKind tend → 0 < toSeconds dt → toSeconds dt < δ →
        t0 ≤ tend.sec → tend.sec ≤ t2 → (se ≤ 0 ∨ ∃ x, s.time = .num x) →
        ∃ sf saved, M.Returns S s dt tend se sf saved ∧ tend.sec ≤ sf.time.sec ∧ ∀ w ∈ s :: sf :: saved, w.time.sec ∈ Icc t0 t1 ∧
          Accurate C r g.ntrunc (sqDist r (s.pvFn N) (absVort r Ω (Ψ t0)) + 2 * (rate ^ 2 * sqDist r (harmonicSum N (S.grdtospec fun j i => ref.at j i)) A) +
            1 / ((g.ntrunc : ℝ) + 1) ^ j) (w.pvFn N) (absVort r Ω (Ψ w.time.sec)) := by
  obtain ⟨C, hC, key⟩ := C146_run hr hν (show 0 ≤ 2 * rate ^ 2 by positivity) hΨ h02 h21 j
  refine ⟨C, hC, fun {g N S M ref} hg hgr hgo h1 hT h hMν hMo hW hrhs => ?_⟩
  have hfol := relax_follows (S := S) (N := N) hr.ne' hΨ hgr h.exact (by omega) (fun j i => ref.at j i)
  have hR : ∀ s, (Term.linearRelaxation S rate ref).toRhs s = .ok fun j i => rate * (ref.at j i - S.spectogrd s.q j i) := fun s => by cases ref <;> rfl
  obtain ⟨R, hR', hL, hG⟩ := (C114_forcing h.exact.linear t0 t1).1 rate ref
  have hRR : R = fun _ q j i => rate * (ref.at j i - S.spectogrd q j i) := by
    funext t q
    have e := (hR' ⟨.num t, q⟩).symm.trans (hR ⟨.num t, q⟩)
    exact Except.ok.inj e
  subst hRR
  have := sqDist_nonneg' r (harmonicSum N (S.grdtospec fun j i => ref.at j i)) A
  exact key (S := S) (M := M) hg hgr hgo h1 hT h hMν hMo hW (.inr ⟨_, hrhs, hR⟩) hL hG (by positivity) hfol

/-- C146: runs with a forcing that depends neither on time nor on the state, such as `Orography` with the wind of a solid-body rotation, are spectrally accurate, up to
the error of the forcing. -/
theorem C146_prescribed {r Ω ν W t0 t1 t2 : ℝ} {order : ℕ} {P : ℝ → ℝ → ℝ} {Ψ : ℝ → ℝ → ℝ → ℝ} (hr : 0 < r) (hν : 0 ≤ ν)
    (hΨ : ForcedSolution r Ω ν order W (fun _ => P) t0 t1 Ψ) (h02 : t0 ≤ t2) (h21 : t2 < t1) (j : ℕ) :
    ∃ C, 0 ≤ C ∧ ∀ {g : Grid ℝ} {N : ℕ → ℕ → ℝ} {S : g.Sph} {M : BModel g} {φ : St PyTime g → Except PyErr g.Fld} {f : g.Fld}, g.Valid → g.rsphere = r →
      g.omega = Ω → 1 ≤ g.ntrunc → 2 * g.ntrunc + 1 ≤ g.nlat → Spharm.Dealiased N S → M.diffusionCoeff = ν → M.diffusionOrder = order →
      M.DiffusesAround W → M.rhs = some φ → (∀ s, φ s = .ok f) →
      (∃ q : g.Spc, Accurate C r g.ntrunc (1 / ((g.ntrunc : ℝ) + 1) ^ j) (harmonicSum N q) (absVort r Ω (Ψ t0))) ∧
      ∀ s : St PyTime g, s.time.sec = t0 → ∃ δ > 0,
        ∀ (dt : PyDelta) (tend : PyTime) (se : ℝ), s.time.Compatible dt → s.time.SameKind tend → 0 < toSeconds dt → toSeconds dt < δ →
        t0 ≤ tend.sec → tend.sec ≤ t2 → (se ≤ 0 ∨ ∃ x, s.time = .num x) →
        ∃ sf saved, M.Returns S s dt tend se sf saved ∧ tend.sec ≤ sf.time.sec ∧ ∀ w ∈ s :: sf :: saved, w.time.sec ∈ Icc t0 t1 ∧
          Accurate C r g.ntrunc (sqDist r (s.pvFn N) (absVort r Ω (Ψ t0)) + 2 * sqDist r (harmonicSum N (S.grdtospec f)) P +
            1 / ((g.ntrunc : ℝ) + 1) ^ j) (w.pvFn N) (absVort r Ω (Ψ w.time.sec)) := by
  obtain ⟨C, hC, key⟩ := C146_run hr hν (show (0 : ℝ) ≤ 2 * 0 ^ 2 by norm_num) hΨ h02 h21 j
  refine ⟨C, hC, fun {g N S M φ f} hg hgr hgo h1 hT h hMν hMo hW hrhs hφ => ?_⟩
  have eP : (fun _ : ℝ => P) = fun t x y => P x y - 0 * absVort r Ω (Ψ t) x y := by
    funext t x y
    rw [zero_mul, sub_zero]
  have hfol := linear_follows (rate := 0) (P := fun _ => P) (S := S) (N := N) hr.ne' (eP ▸ hΨ) hgr h.exact (by omega) (fun _ => f) fun t _ => le_rfl
  rw [← eP] at hfol
  have hRR : (fun (_ : ℝ) (q : g.Spc) j i => f j i - 0 * S.spectogrd q j i) = fun _ _ => f := by
    funext t q j i
    rw [zero_mul, sub_zero]
  rw [hRR] at hfol
  have := sqDist_nonneg' r (harmonicSum N (S.grdtospec f)) P
  exact key (S := S) (M := M) hg hgr hgo h1 hT h hMν hMo hW (.inr ⟨_, hrhs, hφ⟩)
    (fun B => ⟨0, fun t _ t' _ q q' _ _ => by simp⟩) ⟨‖f‖, fun t _ q => by nlinarith [norm_nonneg f, norm_nonneg q]⟩ (by positivity) hfol

/-- A run with relaxation that is within 1/1000 of a damped wave everywhere -/
example : ∃ (g : Grid ℝ) (S : g.Sph) (s : St PyTime g), g.Valid ∧ ∃ δ > 0, ∀ h > 0, h < δ →
    ∃ sf saved, (⟨some (Term.linearRelaxation S (1 / 100) (.fld g.fcor2)).toRhs, 0, 0, none⟩ : BModel g).Returns S s (.num h) (.num 10) 0 sf saved ∧
      10 ≤ sf.time.sec ∧ ∀ x y, cos y ≠ 0 →
      |sf.pvFn (fun _ _ => 1) x y -
        absVort 1 1 (fun x y => Real.exp (-(1 / 100 * (2 / 1 ^ 2) ^ 0 * sf.time.sec)) * cos y * cos (x + 1 * sf.time.sec)) x y| < 1 / 1000 := by
  obtain ⟨T0, ε0, hε0, key⟩ := C146_uniform (K := 2 * (1 / 100) ^ 2) (t2 := 10) (η := 1 / 1000) one_pos le_rfl (by norm_num) (relaxed_wave 1 (1 / 100) 0 11)
    (by norm_num) (by norm_num) (by norm_num)
  obtain ⟨g, S, hg, g1, g2, g3, g4, h⟩ := C121_grids one_pos 1 (T0 + 1)
  have href : sqDist 1 (harmonicSum (fun _ _ => 1) (S.grdtospec g.fcor2)) (fun _ y => 2 * 1 * sin y) = 0 := by
    have e : S.grdtospec g.fcor2 = solidRotation (fun _ _ => 1) g.omega := h.exact.fcor2 (by omega) (by omega)
    rw [e]
    have hz : sqDist 1 (harmonicSum (fun _ _ => 1) (solidRotation (fun _ _ => 1) g.omega : g.Spc)) (fun _ y => 2 * 1 * sin y) =
        sphereIntegral 1 fun _ _ => 0 := by
      refine sphereIntegral_congr _ fun x y _ => ?_
      rw [harmonicSum_solid (fun _ _ => one_ne_zero) (by omega), g2, sub_self, zero_pow two_ne_zero]
    rw [hz]
    simp [sphereIntegral]
  have hfol := relax_follows (S := S) one_ne_zero (relaxed_wave 1 (1 / 100) 0 11) g1 h.exact (by omega) g.fcor2
  rw [href, mul_zero, mul_zero] at hfol
  have hR : ∀ s, (Term.linearRelaxation S (1 / 100) (.fld g.fcor2)).toRhs s = .ok fun j i => 1 / 100 * (g.fcor2 j i - S.spectogrd s.q j i) := fun s => rfl
  obtain ⟨R, hR', hL, hG⟩ := (C114_forcing h.exact.linear 0 11).1 (1 / 100) (.fld g.fcor2)
  have hRR : R = fun _ q j i => 1 / 100 * (g.fcor2 j i - S.spectogrd q j i) := by
    funext t q
    have e := (hR' ⟨.num t, q⟩).symm.trans (hR ⟨.num t, q⟩)
    exact Except.ok.inj e
  subst hRR
  obtain ⟨⟨q, hq⟩, hrun⟩ := key (M := ⟨some (Term.linearRelaxation S (1 / 100) (.fld g.fcor2)).toRhs, 0, 0, none⟩) hg g1 g2 (by omega) g4 h rfl rfl (.inl ⟨rfl, rfl⟩)
    (.inr ⟨_, rfl, hR⟩) hL hG le_rfl hfol (by rw [mul_zero]; exact hε0.le)
  obtain ⟨δ, hδ, hr⟩ := hrun ⟨.num 0, q⟩ rfl hq
  refine ⟨g, S, ⟨.num 0, q⟩, hg, δ, hδ, fun dt hd hdδ => ?_⟩
  obtain ⟨sf, saved, r1, r2, r3⟩ := hr (.num dt) (.num 10) 0 trivial trivial hd hdδ (by norm_num [PyTime.sec]) le_rfl (.inl le_rfl)
  exact ⟨sf, saved, r1, r2, fun x y hy => ((r3 sf (List.mem_cons_of_mem _ List.mem_cons_self)).2 x y hy).1⟩

end Barotropic
