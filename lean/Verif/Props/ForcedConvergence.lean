import Verif.Props.WindConvergence
import Verif.Spec.ForcedSolution

/-!
# Convergence to solutions of the barotropic vorticity equation with forcing: C129
-/

namespace Barotropic
open Real (cos sin)
open Set

variable {N : ℕ → ℕ → ℝ} {g : Grid ℝ} {S : g.Sph} {M : BModel g}

theorem defect_forcing {r Ω ν : ℝ} (hr : r ≠ 0) {k : ℕ} {W t0 t1 : ℝ} {Φ Ψ : ℝ → ℝ → ℝ → ℝ} {F : (Fin 4 → ℝ) → ℝ} (h : ForcedSolution r Ω ν k W Φ t0 t1 Ψ)
    (hF : ContDiff ℝ (⊤ : ℕ∞) F) (hΨ : ∀ t x y, Ψ t x y = F (spacetime t x y)) {t : ℝ} (ht : t ∈ Icc t0 t1) (x : ℝ) {y : ℝ} (hy : cos y ≠ 0) :
    defect r Ω ν k W F t x y = Φ t x y := by
  have e : Ψ = onSphere F := by funext t x y; exact hΨ t x y
  subst e
  have h1 := h.equation t ht x y hy
  have hV := vort_smooth r Ω hF
  have h0 := onSphere_time hV t x y
  simp only [fun t => absVort_onSphere hF r Ω t x hy] at h1
  rw [sphereFlux_congr r x hy (fun x y hy => absVort_onSphere hF r Ω t x hy) (fun _ _ _ => rfl), sphereFlux_onSphere hV hF hr t x hy,
    hyperLaplacian_onSphere r k (F := fun p => vort r Ω F p + -(2 * W) * p 3) (hV.add (contDiff_const.mul (contDiff_apply ℝ ℝ 3))) t (fun x y hy => by
      rw [absVort_onSphere hF r Ω t x hy]
      have : spacetime t x y 3 = sin y := rfl
      simp only [onSphere, this]
      ring) x hy] at h1
  unfold defect
  rw [h0.unique h1]
  ring

/-- C129: the solution of the truncated equation with forcing differs from any other curve `p` only by as much as `p` fails to have the same initial value
and to satisfy the barotropic vorticity equation with the same forcing (both in the mean square). The bound does not depend on the truncation. -/
theorem C129_stability (hg : g.Valid) (h : Spharm.Dealiased N S) (h1 : 1 ≤ g.ntrunc) (hT : 2 * g.ntrunc + 1 ≤ g.nlat) (hν : 0 ≤ M.diffusionCoeff)
    {R : ℝ → g.Spc → g.Fld} {t0 t1 : ℝ} {Y p p' : ℝ → g.Spc} (hY : M.Solution S R t0 t1 Y) (hp : ∀ t ∈ Icc t0 t1, HasDerivWithinAt p (p' t) (Icc t0 t1) t) {G ρ K : ℝ} (hG : 0 < G) (hK : 0 ≤ K)
    (hgrad : ∀ t ∈ Icc t0 t1, ∀ x y, cos y ≠ 0 → (sphereGrad g.rsphere (harmonicSum N (p t)) x y).1 ^ 2 +
      (sphereGrad g.rsphere (harmonicSum N (p t)) x y).2 ^ 2 ≤ G ^ 2)
    (hR : ∀ t ∈ Icc t0 t1, ∀ q q', sqDist g.rsphere (harmonicSum N (S.grdtospec (R t q))) (harmonicSum N (S.grdtospec (R t q'))) ≤
      K * sqDist g.rsphere (harmonicSum N q) (harmonicSum N q'))
    (hres : ∀ t ∈ Icc t0 t1, sphereIntegral g.rsphere (fun x y => (residual N S M (p t) (p' t) x y - harmonicSum N (S.grdtospec (R t (p t))) x y) ^ 2) ≤ ρ) :
    ∀ t ∈ Icc t0 t1, sphereIntegral g.rsphere (fun x y => (harmonicSum N (Y t) x y - harmonicSum N (p t) x y) ^ 2) ≤
      (sphereIntegral g.rsphere (fun x y => (harmonicSum N (Y t0) x y - harmonicSum N (p t0) x y) ^ 2) + ρ * (t - t0)) *
        Real.exp ((2 * G * g.rsphere + 2 + K) * (t - t0)) := by
  have hr := hg.rsphere_pos
  have hN := h.exact.norm_ne
  have hsub : ∀ a b : g.Spc, ∀ x y, harmonicSum N (a - b) x y = harmonicSum N a x y - harmonicSum N b x y := fun a b x y => by
    rw [show a - b = a + (-1 : ℝ) • b by rw [neg_one_smul, sub_eq_add_neg], harmonicSum_lin]; ring
  have hW : ∀ t, sphereIntegral g.rsphere (fun x y => (harmonicSum N (Y t) x y - harmonicSum N (p t) x y) ^ 2) =
      spherePair g.rsphere (harmonicSum N (Y t - p t)) (harmonicSum N (Y t - p t)) := fun t => by
    unfold spherePair
    simp only [hsub, sq]
  simp only [hW]
  by_cases ht01 : t0 ≤ t1
  swap
  · exact fun t ht => absurd (ht.1.trans ht.2) ht01
  have hρ : 0 ≤ ρ := by
    refine le_trans ?_ (hres t0 ⟨le_rfl, ht01⟩)
    refine mul_nonneg (sq_nonneg _) (intervalIntegral.integral_nonneg (by positivity) fun x _ => ?_)
    have hpi := Real.pi_pos
    exact intervalIntegral.integral_nonneg (by linarith) fun y hy => mul_nonneg (sq_nonneg _) (Real.cos_nonneg_of_mem_Icc hy)
  have hd : ∀ t ∈ Icc t0 t1, HasDerivWithinAt (fun t => Y t - p t) (S.grdtospec (R t (Y t)) + M.damping S (Y t) - (⟨t, Y t⟩ : St ℝ g).pvFluxSpectral S - p' t) (Icc t0 t1) t := by
    intro t ht
    have := hY t ht
    rw [solution_rate] at this
    unfold BModel.source at this
    exact this.sub (hp t ht)
  have hWd := fun t ht => spherePair_deriv (N := N) hr.ne' (hd t ht) (hd t ht)
  refine gronwall_le hWd (fun t ht => ?_) (by positivity) hρ
  rw [spherePair_comm, ← two_mul]
  obtain ⟨e, he⟩ : ∃ e, e = Y t - p t := ⟨_, rfl⟩
  rw [← he]
  have hE := harmonicSum_smooth (N := N) e
  have hv : ∀ q : g.Spc, (⟨t, q⟩ : St ℝ g).vorticitySpectral S = q - Grid.fcor2Spectral S := fun q => rfl
  -- the flux of `Y`
  have hfl : spherePair g.rsphere (harmonicSum N e) (harmonicSum N ((⟨t, Y t⟩ : St ℝ g).pvFluxSpectral S)) =
      spherePair g.rsphere (harmonicSum N e) (advect N g.rsphere (Y t) (invLaplace g.rsphere (Y t - Grid.fcor2Spectral S))) := by
    refine (C119_projection hg h h1 hT (⟨t, Y t⟩ : St ℝ g) e).trans (sphereIntegral_congr _ fun x y hy => ?_)
    rw [streamFn_eq, hv]
    exact congrArg _ (advect_flux _ _ _ hy x)
  obtain ⟨X, hX⟩ : ∃ X : ℝ → ℝ → ℝ, X = fun x y => (harmonicSum N (p' t) x y + advect N g.rsphere (p t) (invLaplace g.rsphere (p t - Grid.fcor2Spectral S)) x y) -
    harmonicSum N (M.damping S (p t)) x y - harmonicSum N (S.grdtospec (R t (p t))) x y := ⟨_, rfl⟩
  have hXs : SphereSmooth X := hX ▸ (((harmonicSum_smooth _).add (advect_smooth _ _ _)).sub (harmonicSum_smooth _)).sub (harmonicSum_smooth _)
  have hXρ : spherePair g.rsphere X X ≤ ρ := by
    refine le_of_eq_of_le (sphereIntegral_congr _ fun x y hy => ?_) (hres t ht)
    have : residual N S M (p t) (p' t) x y - harmonicSum N (S.grdtospec (R t (p t))) x y = X x y := by
      unfold residual
      simp only [streamFn_eq]
      rw [hX]
      have := advect_flux (N := N) g.rsphere (p t) (invLaplace g.rsphere (p t - Grid.fcor2Spectral S)) hy x
      exact congrArg (fun z => harmonicSum N (p' t) x y + z - harmonicSum N (M.damping S (p t)) x y - harmonicSum N (S.grdtospec (R t (p t))) x y) this
    rw [this, sq]
  -- decomposition of the tendency of the error
  have hinv : invLaplace g.rsphere (Y t - Grid.fcor2Spectral S) - invLaplace g.rsphere (p t - Grid.fcor2Spectral S) = invLaplace g.rsphere e := by
    rw [he]
    funext k
    simp only [invLaplace, degMul, Pi.sub_apply]
    ring
  have hdecomp : ∀ x y, harmonicSum N e x y * harmonicSum N (S.grdtospec (R t (Y t)) + M.damping S (Y t) - (⟨t, Y t⟩ : St ℝ g).pvFluxSpectral S - p' t) x y =
      harmonicSum N e x y * harmonicSum N (M.damping S (Y t) - M.damping S (p t)) x y -
      harmonicSum N e x y * X x y - harmonicSum N e x y * harmonicSum N (S.grdtospec (R t (p t)) - S.grdtospec (R t (Y t))) x y -
      harmonicSum N e x y * advect N g.rsphere e (invLaplace g.rsphere (Y t - Grid.fcor2Spectral S)) x y -
      harmonicSum N e x y * advect N g.rsphere (p t) (invLaplace g.rsphere e) x y +
      (harmonicSum N e x y * advect N g.rsphere (Y t) (invLaplace g.rsphere (Y t - Grid.fcor2Spectral S)) x y -
        harmonicSum N e x y * harmonicSum N ((⟨t, Y t⟩ : St ℝ g).pvFluxSpectral S) x y) := by
    intro x y
    have := advect_split (N := N) g.rsphere (Y t) (p t) (invLaplace g.rsphere (Y t - Grid.fcor2Spectral S)) (invLaplace g.rsphere (p t - Grid.fcor2Spectral S)) x y
    rw [hinv, ← he] at this
    have hadd : ∀ a b : g.Spc, harmonicSum N (a + b) x y = harmonicSum N a x y + harmonicSum N b x y := fun a b => by
      have := harmonicSum_lin (N := N) a b 1 x y
      rwa [one_smul, one_mul] at this
    rw [hsub, hsub, hsub, hsub, hadd, hX]
    linear_combination (-harmonicSum N e x y) * this
  have a1 := hE.mul (harmonicSum_smooth (N := N) (M.damping S (Y t) - M.damping S (p t)))
  have a2 := hE.mul hXs
  have hD := harmonicSum_smooth (N := N) (S.grdtospec (R t (p t)) - S.grdtospec (R t (Y t)))
  have a7 := hE.mul hD
  have a3 := hE.mul (advect_smooth (N := N) g.rsphere e (invLaplace g.rsphere (Y t - Grid.fcor2Spectral S)))
  have a4 := hE.mul (advect_smooth (N := N) g.rsphere (p t) (invLaplace g.rsphere e))
  have a5 := hE.mul (advect_smooth (N := N) g.rsphere (Y t) (invLaplace g.rsphere (Y t - Grid.fcor2Spectral S)))
  have a6 := hE.mul (harmonicSum_smooth (N := N) ((⟨t, Y t⟩ : St ℝ g).pvFluxSpectral S))
  have hsum : spherePair g.rsphere (harmonicSum N e) (harmonicSum N (S.grdtospec (R t (Y t)) + M.damping S (Y t) - (⟨t, Y t⟩ : St ℝ g).pvFluxSpectral S - p' t)) =
      spherePair g.rsphere (harmonicSum N e) (harmonicSum N (M.damping S (Y t) - M.damping S (p t))) - spherePair g.rsphere (harmonicSum N e) X -
      spherePair g.rsphere (harmonicSum N e) (harmonicSum N (S.grdtospec (R t (p t)) - S.grdtospec (R t (Y t)))) -
      spherePair g.rsphere (harmonicSum N e) (advect N g.rsphere (p t) (invLaplace g.rsphere e)) := by
    have i1 : ∀ {A B : ℝ → ℝ → ℝ}, SphereSmooth A → SphereSmooth B → sphereIntegral g.rsphere (fun x y => A x y - B x y) =
        sphereIntegral g.rsphere A - sphereIntegral g.rsphere B := fun {A B} hA hB => by
      have := sphereIntegral_lin hA hB g.rsphere 1 (-1)
      simp only [one_mul, neg_mul, ← sub_eq_add_neg] at this
      exact this
    have i2 : ∀ {A B : ℝ → ℝ → ℝ}, SphereSmooth A → SphereSmooth B → sphereIntegral g.rsphere (fun x y => A x y + B x y) =
        sphereIntegral g.rsphere A + sphereIntegral g.rsphere B := fun {A B} hA hB => by
      have := sphereIntegral_lin hA hB g.rsphere 1 1
      simp only [one_mul] at this
      exact this
    have z := advect_self (N := N) hr.ne' e (invLaplace g.rsphere (Y t - Grid.fcor2Spectral S))
    unfold spherePair at hfl z ⊢
    simp only [hdecomp]
    rw [i2 ((((a1.sub a2).sub a7).sub a3).sub a4) (a5.sub a6), i1 (((a1.sub a2).sub a7).sub a3) a4, i1 ((a1.sub a2).sub a7) a3, i1 (a1.sub a2) a7, i1 a1 a2,
      i1 a5 a6, hfl, z]
    ring
  rw [hsum]
  have b1 := damping_monotone (N := N) (S := S) (M := M) rfl hr.ne' hN hν (Y t) (p t)
  rw [← he] at b1
  have b2 := pair_bound (r := g.rsphere) hE hXs
  have b4 := pair_bound (r := g.rsphere) hE hD
  have b5 : spherePair g.rsphere (harmonicSum N (S.grdtospec (R t (p t)) - S.grdtospec (R t (Y t))))
      (harmonicSum N (S.grdtospec (R t (p t)) - S.grdtospec (R t (Y t)))) ≤ K * spherePair g.rsphere (harmonicSum N e) (harmonicSum N e) := by
    have := hR t ht (Y t) (p t)
    unfold sqDist at this
    rw [he]
    unfold spherePair
    simp only [hsub]
    refine le_of_eq_of_le (sphereIntegral_congr _ fun x y _ => ?_) (this.trans (le_of_eq (congrArg _ (sphereIntegral_congr _ fun x y _ => ?_)))) <;> ring
  have b3 := advect_bound hr hN hG (p t) e (hgrad t ht)
  linarith

/-- C129: solutions of the truncated equation with forcing converge to smooth solutions of the forced barotropic vorticity equation with increasing
truncation. -/
theorem C129_truncation {r Ω ν W t0 t1 K : ℝ} {order : ℕ} {Φ Ψ : ℝ → ℝ → ℝ → ℝ} (hν : 0 ≤ ν) (hK : 0 ≤ K)
    (hΨ : ForcedSolution r Ω ν order W Φ t0 t1 Ψ) (ht : t0 ≤ t1) {η : ℝ} (hη : 0 < η) :
    ∃ T0 : ℕ, ∃ ε > 0, ∀ {g : Grid ℝ} {N : ℕ → ℕ → ℝ} {S : g.Sph} {M : BModel g}, g.Valid → g.rsphere = r → g.omega = Ω → T0 ≤ g.ntrunc →
      2 * g.ntrunc + 1 ≤ g.nlat → Spharm.Dealiased N S → M.diffusionCoeff = ν → M.diffusionOrder = order → M.DiffusesAround W →
      1 ≤ g.ntrunc ∧ (∀ t ∈ Icc t0 t1, ∃ q : g.Spc, sqDist r (harmonicSum N q) (absVort r Ω (Ψ t)) ≤ ε) ∧
      ∀ R, RepresentsForcing N S R K ε Ω Φ t0 t1 Ψ → ∀ Y : ℝ → g.Spc, M.Solution S R t0 t1 Y → sqDist r (harmonicSum N (Y t0)) (absVort r Ω (Ψ t0)) ≤ ε →
        ∀ t ∈ Icc t0 t1, sqDist r (harmonicSum N (Y t)) (absVort r Ω (Ψ t)) < η := by
  by_cases hr : 0 < r
  swap
  · exact ⟨0, 1, one_pos, fun hg hgr => absurd (hgr ▸ hg.rsphere_pos) hr⟩
  obtain ⟨F, hF, hΨF⟩ := hΨ.smooth
  have hQ : ∀ (A : ℝ → ℝ → ℝ) t, sqDist r A (absVort r Ω (Ψ t)) = sqDist r A (onSphere (vort r Ω F) t) := fun A t =>
    sphereIntegral_congr r fun x y hy => by
      rw [← absVort_onSphere hF r Ω _ x hy]
      congr 3
      funext x y
      exact hΨF _ x y
  have hΦ : ∀ (A : ℝ → ℝ → ℝ), ∀ t ∈ Icc t0 t1, sqDist r A (Φ t) = sqDist r A (defect r Ω ν order W F t) := fun A t htt =>
    sphereIntegral_congr r fun x y hy => by rw [defect_forcing hr.ne' hΨ hF hΨF htt x hy]
  simp only [hQ]
  obtain ⟨b, hb⟩ : ∃ b, b = max |t0| |t1| + 1 := ⟨_, rfl⟩
  have hb1 : 1 ≤ b := by
    have := (abs_nonneg t0).trans (le_max_left |t0| |t1|)
    linarith
  have hbt : ∀ t ∈ Icc t0 t1, |t| ≤ b := fun t htt => by
    have := abs_le_max_abs_abs htt.1 htt.2
    linarith
  obtain ⟨P, hP⟩ := exists_polys (lt_of_lt_of_le one_pos hb1) hF
  have hV := hP.vort subset_rfl r Ω
  have u1 := SmoothLimit.onSphere hb1 hV
  have u2 := hV.east hb1
  have u3 := hV.north hb1
  have u4 := hP.defect hb1 r Ω ν order W
  obtain ⟨Ke, hKe⟩ := u2.bounded
  obtain ⟨Kn, hKn⟩ := u3.bounded
  obtain ⟨G, hG⟩ : ∃ G, G = (|Ke| + |Kn| + 2) / r := ⟨_, rfl⟩
  have hG0 : 0 < G := hG ▸ (by positivity)
  obtain ⟨E, hE⟩ : ∃ E, E = Real.exp ((2 * G * r + 2 + K) * (t1 - t0)) := ⟨_, rfl⟩
  have hL : 0 ≤ t1 - t0 := by linarith
  have hE1 : 1 ≤ E := hE ▸ Real.one_le_exp (by positivity)
  have hE0 : 0 < E := by linarith
  have hA := area_nonneg r
  obtain ⟨κ0, hκ0⟩ : ∃ κ0, κ0 = η / (64 * (2 + (16 * K + 6) * (t1 - t0)) * E) := ⟨_, rfl⟩
  have hKL : 0 ≤ (16 * K + 6) * (t1 - t0) := by positivity
  have hκ0p : 0 < κ0 := hκ0 ▸ (by positivity)
  obtain ⟨ε1, hε1⟩ : ∃ ε1, ε1 = min 1 (κ0 / (area r + 1)) := ⟨_, rfl⟩
  have hε1p : 0 < ε1 := hε1 ▸ lt_min one_pos (by positivity)
  have hε11 : ε1 ≤ 1 := hε1 ▸ min_le_left _ _
  have hκ : area r * ε1 ^ 2 ≤ κ0 := by
    have h2 : ε1 * (area r + 1) ≤ κ0 := (le_div_iff₀ (by linarith)).mp (hε1 ▸ min_le_right _ _)
    have h3 : ε1 ^ 2 ≤ ε1 := by nlinarith
    nlinarith
  have hκE : κ0 * (2 + (16 * K + 6) * (t1 - t0)) * E = η / 64 := by
    rw [hκ0]
    field_simp
  have hκε : κ0 ≤ η / (64 * E) := by
    rw [hκ0]
    refine div_le_div_of_nonneg_left hη.le (by positivity) ?_
    nlinarith
  obtain ⟨m, hm1, hm2, hm3, hm4⟩ := ((u1.tends ε1 hε1p).and ((u2.tends 1 one_pos).and ((u3.tends 1 one_pos).and (u4.tends ε1 hε1p)))).exists
  obtain ⟨Fm, hFm⟩ : ∃ Fm : (Fin 4 → ℝ) → ℝ, Fm = fun x => (P m).eval x := ⟨_, rfl⟩
  have hFs : ContDiff ℝ (⊤ : ℕ∞) Fm := hFm ▸ mvPoly_smooth (P m)
  rw [← hFm] at hm1 hm2 hm3 hm4
  obtain ⟨D, hD⟩ := mvPoly_harmonic (P m)
  refine ⟨max D 1, κ0, hκ0p, fun {g N S M} hg hgr hgo hT0 hT h hMν hMo hW => ?_⟩
  have h1 : 1 ≤ g.ntrunc := (le_max_right _ _).trans hT0
  have hN := h.exact.norm_ne
  obtain ⟨c, c', hcd, hc⟩ := hD N hN g.ntrunc ((le_max_left _ _).trans hT0)
  replace hc : ∀ t x y, onSphere Fm t x y = harmonicSum N (c t) x y := fun t x y => by rw [hFm]; exact hc t x y
  subst hgr
  subst hgo
  subst hMν
  subst hMo
  have hp := fun t x y (hy : cos y ≠ 0) => vortCoeff_fn hr.ne' hN h1 g.omega hFs (hc t) x hy
  have hsV := fun t => onSphere_smooth (vort_smooth g.rsphere g.omega hF) t
  have hpQ : ∀ t ∈ Icc t0 t1, sqDist g.rsphere (harmonicSum N (vortCoeff N g.rsphere g.omega (c t))) (onSphere (vort g.rsphere g.omega F) t) ≤ κ0 := by
    intro t htt
    refine (integral_le_area ((harmonicSum_smooth _).sub (hsV t)) g.rsphere (ε := ε1) fun x y hy => ?_).trans hκ
    rw [hp t x y hy]
    exact hm1 t (hbt t htt) x y
  refine ⟨h1, fun t htt => ⟨vortCoeff N g.rsphere g.omega (c t), hpQ t htt⟩, fun R hR Y hY hY0 t htt => ?_⟩
  have hst := C129_stability (G := G) (ρ := (16 * K + 6) * κ0) hg h h1 hT hν hY (p := fun t => vortCoeff N g.rsphere g.omega (c t))
    (p' := fun t => -degMul (fun n => n * (n + 1) / g.rsphere ^ 2) (c' t)) (fun t _ => (vortCoeff_hasDeriv _ _ (hcd t)).hasDerivWithinAt) hG0 hK
    (fun t htt x y hy => by
      have e : sphereGrad g.rsphere (harmonicSum N (vortCoeff N g.rsphere g.omega (c t))) x y =
          sphereGrad g.rsphere (onSphere (vort g.rsphere g.omega Fm) t) x y := by
        have e1 : dlon (harmonicSum N (vortCoeff N g.rsphere g.omega (c t))) x y = dlon (onSphere (vort g.rsphere g.omega Fm) t) x y :=
          congrArg (fun f => deriv f x) (funext fun x => hp t x y hy)
        have e2 : dlat (harmonicSum N (vortCoeff N g.rsphere g.omega (c t))) x y = dlat (onSphere (vort g.rsphere g.omega Fm) t) x y := by
          refine Filter.EventuallyEq.deriv_eq ?_
          filter_upwards [(isOpen_ne_fun Real.continuous_cos continuous_const).mem_nhds hy] with y' hy'
          exact hp t x y' hy'
        unfold sphereGrad
        rw [e1, e2]
      rw [e, sphereGrad_onSphere (vort_smooth _ _ hFs) _ t x hy, hG]
      have a1 : |east (vort g.rsphere g.omega Fm) t x y| ≤ |Ke| + 1 := by
        have b1 := hm2 t (hbt t htt) x y
        have b2 := (hKe t (hbt t htt) x y).trans (le_abs_self Ke)
        have b3 := abs_sub_abs_le_abs_sub (east (vort g.rsphere g.omega Fm) t x y) (east (vort g.rsphere g.omega F) t x y)
        linarith
      have a2 : |north (vort g.rsphere g.omega Fm) t x y| ≤ |Kn| + 1 := by
        have b1 := hm3 t (hbt t htt) x y
        have b2 := (hKn t (hbt t htt) x y).trans (le_abs_self Kn)
        have b3 := abs_sub_abs_le_abs_sub (north (vort g.rsphere g.omega Fm) t x y) (north (vort g.rsphere g.omega F) t x y)
        linarith
      have b1 := pow_le_pow_left₀ (abs_nonneg _) a1 2
      have b2 := pow_le_pow_left₀ (abs_nonneg _) a2 2
      rw [sq_abs] at b1 b2
      rw [div_pow, div_pow, div_pow, ← add_div]
      refine div_le_div_of_nonneg_right ?_ (sq_nonneg _)
      nlinarith [abs_nonneg Ke, abs_nonneg Kn, mul_nonneg (abs_nonneg Ke) (abs_nonneg Kn)])
    hR.bound (fun t htt => by
      have hbg := diffusesAround_background h h1 hW
      obtain ⟨q, hq1, hq2⟩ := hR.close t htt
      rw [hQ] at hq1
      rw [hΦ _ t htt] at hq2
      have sp := harmonicSum_smooth (N := N) (vortCoeff N g.rsphere g.omega (c t))
      have sq := harmonicSum_smooth (N := N) q
      have sfp := harmonicSum_smooth (N := N) (S.grdtospec (R t (vortCoeff N g.rsphere g.omega (c t))))
      have sfq := harmonicSum_smooth (N := N) (S.grdtospec (R t q))
      have sD := defect_smooth g.rsphere g.omega M.diffusionCoeff M.diffusionOrder W hF t
      have sDm := defect_smooth g.rsphere g.omega M.diffusionCoeff M.diffusionOrder W hFs t
      have k1 : sqDist g.rsphere (defect g.rsphere g.omega M.diffusionCoeff M.diffusionOrder W Fm t) (defect g.rsphere g.omega M.diffusionCoeff M.diffusionOrder W F t) ≤ κ0 :=
        (integral_le_area (sDm.sub sD) g.rsphere (ε := ε1) fun x y _ => hm4 t (hbt t htt) x y).trans hκ
      have k2 := sqDist_triangle (r := g.rsphere) sDm sD sfp
      have k3 := sqDist_triangle (r := g.rsphere) sfp sfq sD
      have k4 := sqDist_triangle (r := g.rsphere) sp (hsV t) sq
      have k5 := hR.bound t htt (vortCoeff N g.rsphere g.omega (c t)) q
      have k6 := hpQ t htt
      rw [sqDist_comm] at hq1
      have k7 : sqDist g.rsphere (harmonicSum N (vortCoeff N g.rsphere g.omega (c t))) (harmonicSum N q) ≤ 4 * κ0 := by linarith
      have k8 := mul_le_mul_of_nonneg_left k7 hK
      rw [sqDist_comm _ (defect g.rsphere g.omega M.diffusionCoeff M.diffusionOrder W F t)] at k2
      refine le_of_eq_of_le (sphereIntegral_congr g.rsphere fun x y hy => ?_) (show sqDist g.rsphere (defect g.rsphere g.omega M.diffusionCoeff M.diffusionOrder W Fm t)
        (harmonicSum N (S.grdtospec (R t (vortCoeff N g.rsphere g.omega (c t))))) ≤ _ by linarith)
      rw [residual_defect hg h h1 hbg hFs hc hcd t x hy]) t htt
  have s0 := harmonicSum_smooth (N := N) (Y t0)
  have st := harmonicSum_smooth (N := N) (Y t)
  have q0 := harmonicSum_smooth (N := N) (vortCoeff N g.rsphere g.omega (c t0))
  have qt := harmonicSum_smooth (N := N) (vortCoeff N g.rsphere g.omega (c t))
  have c1 := sqDist_triangle (r := g.rsphere) s0 (hsV t0) q0
  have c2 := sqDist_triangle (r := g.rsphere) st qt (hsV t)
  have c3 := hpQ t htt
  have c4 := hpQ t0 ⟨le_rfl, ht⟩
  rw [sqDist_comm] at c4
  change sqDist g.rsphere (harmonicSum N (Y t)) (harmonicSum N (vortCoeff N g.rsphere g.omega (c t))) ≤
    (sqDist g.rsphere (harmonicSum N (Y t0)) (harmonicSum N (vortCoeff N g.rsphere g.omega (c t0))) + (16 * K + 6) * κ0 * (t - t0)) * _ at hst
  have c5 : Real.exp ((2 * G * g.rsphere + 2 + K) * (t - t0)) ≤ E := by
    rw [hE]
    refine Real.exp_le_exp.mpr (mul_le_mul_of_nonneg_left ?_ (by positivity))
    have := htt.2
    linarith
  have c6 : (16 * K + 6) * κ0 * (t - t0) ≤ (16 * K + 6) * κ0 * (t1 - t0) := mul_le_mul_of_nonneg_left (by have := htt.2; linarith) (by positivity)
  have c7 : 0 ≤ sqDist g.rsphere (harmonicSum N (Y t0)) (harmonicSum N (vortCoeff N g.rsphere g.omega (c t0))) := sqDist_nonneg s0 q0 _
  have c8 : 0 ≤ (16 * K + 6) * κ0 * (t - t0) := mul_nonneg (by positivity) (by have := htt.1; linarith)
  have c9 := hst.trans (mul_le_mul_of_nonneg_left c5 (by linarith))
  have d2 : κ0 ≤ η / 64 := hκε.trans (div_le_div_of_nonneg_left hη.le (by norm_num) (by linarith))
  have d3 : (sqDist g.rsphere (harmonicSum N (Y t0)) (harmonicSum N (vortCoeff N g.rsphere g.omega (c t0))) + (16 * K + 6) * κ0 * (t - t0)) * E ≤
      (2 * κ0 + κ0 * (2 + (16 * K + 6) * (t1 - t0))) * E := mul_le_mul_of_nonneg_right (by linarith) hE0.le
  have d5 : κ0 * E ≤ η / 64 := by
    rw [← hκE]
    refine mul_le_mul_of_nonneg_right ?_ hE0.le
    nlinarith
  have d4 : (2 * κ0 + κ0 * (2 + (16 * K + 6) * (t1 - t0))) * E = 2 * (κ0 * E) + η / 64 := by
    rw [add_mul, hκE]
    ring
  linarith

/-- Closeness of PV implies closeness of wind and energy (for sufficiently large truncation). -/
theorem flow_of_vort {r Ω : ℝ} {F : (Fin 4 → ℝ) → ℝ} (hF : ContDiff ℝ (⊤ : ℕ∞) F) (t0 t1 : ℝ) {η : ℝ} (hη : 0 < η) :
    ∃ T0 : ℕ, ∃ ε > 0, ∀ {g : Grid ℝ} {N : ℕ → ℕ → ℝ} {S : g.Sph} {B : ℕ}, g.Valid → g.rsphere = r → g.omega = Ω → T0 ≤ g.ntrunc → Spharm.Exact N B S → 1 ≤ B →
      ∀ {τ : Type} (s : St τ g), ∀ t ∈ Icc t0 t1, sqDist r (s.pvFn N) (onSphere (vort r Ω F) t) ≤ ε → windDist r (s.streamFn N S) (onSphere F t) < η ∧
        |totalEnergy r (s.streamFn N S) - totalEnergy r (onSphere F t)| < η := by
  obtain ⟨E, hE, hEb⟩ := energy_bounded hF r t0 t1
  obtain ⟨d, hd⟩ : ∃ d, d = η / (2 * E) := ⟨_, rfl⟩
  have hdp : 0 < d := hd ▸ (by positivity)
  have hdE : d * E = η / 2 := by rw [hd]; field_simp
  obtain ⟨η1, hη1⟩ : ∃ η1, η1 = min η (η / (1 + 1 / d)) := ⟨_, rfl⟩
  have hη1p : 0 < η1 := hη1 ▸ lt_min hη (by positivity)
  have hη1η : η1 ≤ η := hη1 ▸ min_le_left _ _
  have hη1d : η1 * (1 + 1 / d) ≤ η := (le_div_iff₀ (by positivity)).mp (hη1 ▸ min_le_right _ _)
  obtain ⟨T1, ε1, hε1, k1⟩ := wind_of_vort (r := r) (Ω := Ω) hF t0 t1 hη1p
  refine ⟨T1, ε1, hε1, fun {g N S B} hg hgr hgo hT h hB {τ} s t ht hs => ?_⟩
  have w3 := k1 hg hgr hgo hT h hB s t ht hs
  refine ⟨w3.trans_le hη1η, ?_⟩
  have hr0 : r ≠ 0 := hgr ▸ hg.rsphere_pos.ne'
  have gψ := HasGrad.harmonic (N := N) hr0 (invLaplace g.rsphere (s.vorticitySpectral S))
  have e := energy_diff (A := s.streamFn N S) (by rw [streamFn_eq]; exact gψ) (HasGrad.onSphere hF r t) hdp
  have e2 := mul_le_mul_of_nonneg_left (hEb _ ht) hdp.le
  have e3 : (1 + 1 / d) / 2 * windDist r (s.streamFn N S) (onSphere F t) < (1 + 1 / d) / 2 * η1 :=
    mul_lt_mul_of_pos_left w3 (by positivity)
  linarith

/-- C129: the states returned by `run` with a forcing converge to smooth solutions of the forced barotropic vorticity equation: for every tolerance there is
a truncation from which on the mean square errors of PV and wind and the error of energy are within the tolerance at all times, if forcing and initial state
are sufficiently accurate and the time step is sufficiently small. -/
theorem C129_converges {r Ω ν W t0 t1 t2 K : ℝ} {order : ℕ} {Φ Ψ : ℝ → ℝ → ℝ → ℝ} (hν : 0 ≤ ν) (hK : 0 ≤ K)
    (hΨ : ForcedSolution r Ω ν order W Φ t0 t1 Ψ) (h02 : t0 ≤ t2) (h21 : t2 < t1) {η : ℝ} (hη : 0 < η) :
    ∃ T0 : ℕ, ∃ ε > 0, ∀ {g : Grid ℝ} {N : ℕ → ℕ → ℝ} {S : g.Sph} {M : BModel g} {R : ℝ → g.Spc → g.Fld}, g.Valid → g.rsphere = r → g.omega = Ω →
      T0 ≤ g.ntrunc → 2 * g.ntrunc + 1 ≤ g.nlat → Spharm.Dealiased N S → M.diffusionCoeff = ν → M.diffusionOrder = order → M.DiffusesAround W →
      M.ForcedBy R → LipschitzForcing R t0 t1 → LinearGrowth R t0 t1 → RepresentsForcing N S R K ε Ω Φ t0 t1 Ψ →
      (∃ q : g.Spc, sqDist r (harmonicSum N q) (absVort r Ω (Ψ t0)) ≤ ε) ∧
      ∀ s : St PyTime g, s.time.sec = t0 → sqDist r (s.pvFn N) (absVort r Ω (Ψ t0)) ≤ ε → ∃ δ > 0,
        ∀ (dt : PyDelta) (tend : PyTime) (se : ℝ), s.time.Compatible dt → s.time.SameKind tend → 0 < toSeconds dt → toSeconds dt < δ →
        t0 ≤ tend.sec → tend.sec ≤ t2 → (se ≤ 0 ∨ ∃ x, s.time = .num x) →
        ∃ sf saved, M.Returns S s dt tend se sf saved ∧ tend.sec ≤ sf.time.sec ∧ ∀ w ∈ sf :: saved, w.time.sec ∈ Icc t0 t1 ∧
          sqDist r (w.pvFn N) (absVort r Ω (Ψ w.time.sec)) < η ∧ windDist r (w.streamFn N S) (Ψ w.time.sec) < η ∧
          |totalEnergy r (w.streamFn N S) - totalEnergy r (Ψ w.time.sec)| < η := by
  obtain ⟨F, hF, hΨF⟩ := hΨ.smooth
  have hΨt : ∀ t, Ψ t = onSphere F t := fun t => by funext x y; exact hΨF t x y
  obtain ⟨T1, ε1, hε1, k1⟩ := flow_of_vort (r := r) (Ω := Ω) hF t0 t1 hη
  obtain ⟨η', hη'⟩ : ∃ η', η' = min η ε1 := ⟨_, rfl⟩
  have hη'p : 0 < η' := hη' ▸ lt_min hη hε1
  obtain ⟨T0, ε, hε, key⟩ := C129_truncation hν hK hΨ (h02.trans h21.le) (show 0 < η' / 4 by positivity)
  refine ⟨max T1 T0, ε, hε, fun {g N S M R} hg hgr hgo hT0 hT h hMν hMo hW hf hL hG hR => ?_⟩
  obtain ⟨h1, hq, hsol⟩ := key hg hgr hgo ((le_max_right _ _).trans hT0) hT h hMν hMo hW
  refine ⟨hq t0 ⟨le_rfl, h02.trans h21.le⟩, fun s hs hs0 => ?_⟩
  have hν' : 0 ≤ M.diffusionCoeff := hMν ▸ hν
  obtain ⟨Y, hY, hY0, -⟩ := C120_exists (M := M) hg h h1 hT hν' (h02.trans h21.le) hL hG s.q
  have hacc := hsol R hR Y hY (by rw [hY0]; exact hs0)
  have hr : r ≠ 0 := hgr ▸ hg.rsphere_pos.ne'
  have hc : Continuous fun e : g.Spc => spherePair r (harmonicSum N e) (harmonicSum N e) := spherePair_continuous hr continuous_id continuous_id
  have h0 : spherePair r (harmonicSum N (0 : g.Spc)) (harmonicSum N (0 : g.Spc)) = 0 := by
    have : harmonicSum N (0 : g.Spc) = fun _ _ => 0 := by funext x y; exact modeSum_eq_zero N legendre (fun _ => .inl rfl) x y
    rw [this]
    simp [spherePair, sphereIntegral]
  obtain ⟨ε2, hε2, hnear⟩ := Metric.continuousAt_iff.mp (hc.continuousAt (x := 0)) (η' / 4) (by positivity)
  obtain ⟨δ, hδ, hrun⟩ := converges_of_solution h.exact.linear hν' hf s (hs ▸ h02) h21 (hs ▸ hL) (hs ▸ hY) (hs ▸ hY0) ε2 hε2
  refine ⟨δ, hδ, fun dt tend se hc hk hd hdδ hst hend hse => ?_⟩
  obtain ⟨sf, saved, hret, hle, hall⟩ := hrun dt tend se hc hk hd hdδ (hs ▸ hst) hend hse
  refine ⟨sf, saved, hret, hle, fun w hw => ?_⟩
  obtain ⟨hwt, hwq, -⟩ := hall w hw
  rw [hs] at hwt
  have e1 : sqDist r (w.pvFn N) (harmonicSum N (Y w.time.sec)) < η' / 4 := by
    have := hnear (x := w.q - Y w.time.sec) (by rw [dist_zero_right]; exact hwq)
    rw [h0, Real.dist_eq, sub_zero] at this
    refine lt_of_eq_of_lt (sphereIntegral_congr r fun x y _ => ?_) (lt_of_abs_lt this)
    rw [show w.q - Y w.time.sec = w.q + (-1 : ℝ) • Y w.time.sec by rw [neg_one_smul, sub_eq_add_neg], harmonicSum_lin]
    unfold St.pvFn
    ring
  have e2 := hacc _ hwt
  have hQ : ∀ A : ℝ → ℝ → ℝ, sqDist r A (absVort r Ω (Ψ w.time.sec)) = sqDist r A (onSphere (vort r Ω F) w.time.sec) := fun A =>
    sphereIntegral_congr r fun x y hy => by
      rw [← absVort_onSphere hF r Ω _ x hy, hΨt]
  have e3 : sqDist r (w.pvFn N) (onSphere (vort r Ω F) w.time.sec) < η' := by
    rw [hQ] at e2
    have := sqDist_triangle (r := r) (harmonicSum_smooth (N := N) w.q) (harmonicSum_smooth (N := N) (Y w.time.sec))
      (onSphere_smooth (vort_smooth r Ω hF) w.time.sec)
    change sqDist r (harmonicSum N w.q) _ < η'
    change sqDist r (harmonicSum N w.q) _ < η' / 4 at e1
    linarith
  have e4 := k1 hg hgr hgo ((le_max_left _ _).trans hT0) h.exact (by omega) w _ hwt (e3.le.trans (hη' ▸ min_le_right _ _))
  refine ⟨hwt, ?_, ?_⟩
  · rw [hQ]
    exact e3.trans_le (hη' ▸ min_le_left _ _)
  · rw [hΨt]
    exact e4

/-! ## Relaxation -/

/-- Spherical harmonics are dense. -/
theorem harmonic_dense {F : (Fin 4 → ℝ) → ℝ} (hF : ContDiff ℝ (⊤ : ℕ∞) F) (r t0 t1 : ℝ) {ε : ℝ} (hε : 0 < ε) : ∃ T0 : ℕ, ∀ {N : ℕ → ℕ → ℝ},
    (∀ n m, N n m ≠ 0) → ∀ T, T0 ≤ T → ∀ t ∈ Icc t0 t1, ∃ q : SpecField T, sqDist r (harmonicSum N q) (onSphere F t) ≤ ε := by
  obtain ⟨b, hb⟩ : ∃ b, b = max |t0| |t1| + 1 := ⟨_, rfl⟩
  have hb1 : 1 ≤ b := by
    have := (abs_nonneg t0).trans (le_max_left |t0| |t1|)
    linarith
  have hbt : ∀ t ∈ Icc t0 t1, |t| ≤ b := fun t htt => by
    have := abs_le_max_abs_abs htt.1 htt.2
    linarith
  obtain ⟨P, hP⟩ := exists_polys (lt_of_lt_of_le one_pos hb1) hF
  have u1 := SmoothLimit.onSphere hb1 hP
  have hA := area_nonneg r
  obtain ⟨ε1, hε1⟩ : ∃ ε1, ε1 = min 1 (ε / (area r + 1)) := ⟨_, rfl⟩
  have hε1p : 0 < ε1 := hε1 ▸ lt_min one_pos (by positivity)
  have hε11 : ε1 ≤ 1 := hε1 ▸ min_le_left _ _
  have hκ1 : area r * ε1 ^ 2 ≤ ε := by
    have h2 : ε1 * (area r + 1) ≤ ε := (le_div_iff₀ (by linarith)).mp (hε1 ▸ min_le_right _ _)
    have h3 : ε1 ^ 2 ≤ ε1 := by nlinarith
    nlinarith
  obtain ⟨m, hm1⟩ := (u1.tends ε1 hε1p).exists
  obtain ⟨D, hD⟩ := mvPoly_harmonic (P m)
  refine ⟨D, fun {N} hN T hT t ht => ?_⟩
  obtain ⟨c, c', -, hc⟩ := hD N hN T hT
  refine ⟨c t, (integral_le_area ((harmonicSum_smooth _).sub (onSphere_smooth hF t)) r (ε := ε1) fun x y _ => ?_).trans hκ1⟩
  rw [← hc]
  exact hm1 t (hbt t ht) x y

theorem sphereIntegral_const_mul (r c : ℝ) (A : ℝ → ℝ → ℝ) : sphereIntegral r (fun x y => c * A x y) = c * sphereIntegral r A := by
  unfold sphereIntegral
  simp only [mul_assoc, intervalIntegral.integral_const_mul]
  ring

theorem sqDist_mul (r c : ℝ) (A B : ℝ → ℝ → ℝ) : sqDist r (fun x y => c * A x y) (fun x y => c * B x y) = c ^ 2 * sqDist r A B := by
  unfold sqDist
  rw [← sphereIntegral_const_mul]
  exact sphereIntegral_congr r fun x y _ => by ring

theorem sqDist_nonneg' (r : ℝ) (A B : ℝ → ℝ → ℝ) : 0 ≤ sqDist r A B := by
  refine mul_nonneg (sq_nonneg _) (intervalIntegral.integral_nonneg (by positivity) fun x _ => ?_)
  have hpi := Real.pi_pos
  exact intervalIntegral.integral_nonneg (by linarith) fun y hy => mul_nonneg (sq_nonneg _) (Real.cos_nonneg_of_mem_Icc hy)

/-- The transform of a field from which a multiple of PV is subtracted -/
theorem linear_analysis {B : ℕ} (h : Spharm.Exact N B S) (hB : g.ntrunc ≤ B) (rate : ℝ) (f : g.Fld) (q : g.Spc) (x y : ℝ) :
    harmonicSum N (S.grdtospec fun j i => f j i - rate * S.spectogrd q j i) x y = harmonicSum N (S.grdtospec f) x y - rate * harmonicSum N q x y := by
  have e : S.spectogrd q = S.spectogrd (realZonal q) := by
    simp only [h.synthesis]
    funext j i
    exact (harmonicSum_realZonal N q _ _).symm
  have e1 : (fun j i => f j i - rate * S.spectogrd q j i) = f + (-rate) • S.spectogrd (realZonal q) := by
    rw [e]
    funext j i
    simp only [Pi.add_apply, Pi.smul_apply, smul_eq_mul]
    ring
  rw [e1, h.analysis_add, h.analysis_smul, h.analysis _ (realZonal_real q) (.of_le hB _), harmonicSum_lin, harmonicSum_realZonal]
  ring

/-- A forcing that is the sum of a prescribed field and a multiple of PV represents the forcing that is the sum of a prescribed function and a multiple of
absolute vorticity if the prescribed field is accurate. -/
theorem linear_represents {r Ω ν W t0 t1 rate : ℝ} {order : ℕ} {P Ψ : ℝ → ℝ → ℝ → ℝ} (hr : r ≠ 0)
    (hΨ : ForcedSolution r Ω ν order W (fun t x y => P t x y - rate * absVort r Ω (Ψ t) x y) t0 t1 Ψ) {ε : ℝ} (hε : 0 < ε) : ∃ T0 : ℕ, ∃ ε' > 0,
    ∀ {g : Grid ℝ} {N : ℕ → ℕ → ℝ} {S : g.Sph} {B : ℕ}, g.rsphere = r → T0 ≤ g.ntrunc → Spharm.Exact N B S → g.ntrunc ≤ B →
      ∀ f : ℝ → g.Fld, (∀ t ∈ Icc t0 t1, sqDist r (harmonicSum N (S.grdtospec (f t))) (P t) ≤ ε') →
        RepresentsForcing N S (fun t q j i => f t j i - rate * S.spectogrd q j i) (rate ^ 2) ε Ω (fun t x y => P t x y - rate * absVort r Ω (Ψ t) x y) t0 t1 Ψ := by
  obtain ⟨F, hF, hΨF⟩ := hΨ.smooth
  have hΨt : ∀ t, Ψ t = onSphere F t := fun t => by funext x y; exact hΨF t x y
  obtain ⟨ε', hε'⟩ : ∃ ε', ε' = min ε (ε / (4 * (rate ^ 2 + 1))) := ⟨_, rfl⟩
  have hε'p : 0 < ε' := hε' ▸ lt_min hε (by positivity)
  have hε'r : ε' * (4 * (rate ^ 2 + 1)) ≤ ε := (le_div_iff₀ (by positivity)).mp (hε' ▸ min_le_right _ _)
  obtain ⟨T0, hT0⟩ := harmonic_dense (vort_smooth r Ω hF) r t0 t1 hε'p
  refine ⟨T0, ε', hε'p, fun {g N S B} hgr hT h hB f hf => ?_⟩
  subst hgr
  have hQ : ∀ t x y, cos y ≠ 0 → absVort g.rsphere Ω (Ψ t) x y = onSphere (vort g.rsphere Ω F) t x y := fun t x y hy => by
    rw [← absVort_onSphere hF g.rsphere Ω _ x hy, hΨt]
  have ha : ∀ t q, harmonicSum N (S.grdtospec fun j i => f t j i - rate * S.spectogrd q j i) =
      fun x y => harmonicSum N (S.grdtospec (f t)) x y - rate * harmonicSum N q x y := fun t q => by
    funext x y; exact linear_analysis h hB rate (f t) q x y
  refine ⟨fun t ht q q' => ?_, fun t ht => ?_⟩
  · rw [ha, ha, ← sqDist_mul]
    exact le_of_eq (sphereIntegral_congr _ fun x y _ => by ring)
  · obtain ⟨q, hq⟩ := hT0 h.norm_ne g.ntrunc hT t ht
    refine ⟨q, ?_, ?_⟩
    · exact le_of_eq_of_le (sphereIntegral_congr _ fun x y hy => by rw [hQ t x y hy]) (hq.trans (hε' ▸ min_le_left _ _))
    · rw [ha]
      have sQ := onSphere_smooth (vort_smooth g.rsphere Ω hF) t
      have sD := defect_smooth g.rsphere Ω ν order W hF t
      have hc : ∀ (c : ℝ) {H : ℝ → ℝ → ℝ}, SphereSmooth H → SphereSmooth fun x y => c * H x y := fun c _ hH => (SphereSmooth.lat contDiff_const).mul hH
      have sq := hc rate (harmonicSum_smooth (N := N) q)
      have sf := harmonicSum_smooth (N := N) (S.grdtospec (f t))
      have sB := sD.add (hc rate sQ)
      have k := sqDist_triangle (r := g.rsphere) (sf.sub sq) (sB.sub sq) (sB.sub (hc rate sQ))
      have hdf : ∀ x y, cos y ≠ 0 → defect g.rsphere Ω ν order W F t x y = P t x y - rate * onSphere (vort g.rsphere Ω F) t x y := fun x y hy => by
        rw [defect_forcing hr hΨ hF hΨF ht x hy, ← hQ t x y hy]
      have k1 : sqDist g.rsphere (fun x y => harmonicSum N (S.grdtospec (f t)) x y - rate * harmonicSum N q x y)
          (fun x y => (defect g.rsphere Ω ν order W F t x y + rate * onSphere (vort g.rsphere Ω F) t x y) - rate * harmonicSum N q x y) =
          sqDist g.rsphere (harmonicSum N (S.grdtospec (f t))) (P t) :=
        sphereIntegral_congr _ fun x y hy => by
          dsimp only
          rw [hdf x y hy]
          ring
      have k2 : sqDist g.rsphere (fun x y => (defect g.rsphere Ω ν order W F t x y + rate * onSphere (vort g.rsphere Ω F) t x y) - rate * harmonicSum N q x y)
          (fun x y => (defect g.rsphere Ω ν order W F t x y + rate * onSphere (vort g.rsphere Ω F) t x y) - rate * onSphere (vort g.rsphere Ω F) t x y) =
          rate ^ 2 * sqDist g.rsphere (harmonicSum N q) (onSphere (vort g.rsphere Ω F) t) := by
        rw [← sqDist_mul]
        exact sphereIntegral_congr _ fun x y _ => by ring
      rw [k1, k2] at k
      have k3 := hf t ht
      have k4 := mul_le_mul_of_nonneg_left hq (sq_nonneg rate)
      refine le_of_eq_of_le (sphereIntegral_congr _ fun x y hy => ?_) (k.trans (by nlinarith [mul_nonneg (sq_nonneg rate) hε'p.le]))
      dsimp only
      rw [hdf x y hy, hQ t x y hy]
      ring

/-- The relaxation term represents relaxation if the reference is accurate. -/
theorem relax_represents {r Ω ν W t0 t1 rate : ℝ} {order : ℕ} {A : ℝ → ℝ → ℝ} {Ψ : ℝ → ℝ → ℝ → ℝ} (hr : r ≠ 0)
    (hΨ : ForcedSolution r Ω ν order W (relaxing r Ω rate A Ψ) t0 t1 Ψ) {ε : ℝ} (hε : 0 < ε) : ∃ T0 : ℕ, ∃ ε' > 0,
    ∀ {g : Grid ℝ} {N : ℕ → ℕ → ℝ} {S : g.Sph} {B : ℕ}, g.rsphere = r → T0 ≤ g.ntrunc → Spharm.Exact N B S → g.ntrunc ≤ B →
      ∀ f : g.Fld, sqDist r (harmonicSum N (S.grdtospec f)) A ≤ ε' →
        RepresentsForcing N S (fun _ q j i => rate * (f j i - S.spectogrd q j i)) (rate ^ 2) ε Ω (relaxing r Ω rate A Ψ) t0 t1 Ψ := by
  have e : relaxing r Ω rate A Ψ = fun t x y => rate * A x y - rate * absVort r Ω (Ψ t) x y := by
    funext t x y; exact mul_sub _ _ _
  rw [e] at hΨ ⊢
  obtain ⟨T0, ε', hε', k⟩ := linear_represents (P := fun _ x y => rate * A x y) hr hΨ hε
  refine ⟨T0, ε' / (rate ^ 2 + 1), by positivity, fun {g N S B} hgr hT h hB f hf => ?_⟩
  have := k hgr hT h hB (fun _ => rate • f) fun t _ => by
    rw [h.analysis_smul]
    have e2 : harmonicSum N (rate • S.grdtospec f) = fun x y => rate * harmonicSum N (S.grdtospec f) x y := by
      funext x y
      have := harmonicSum_lin (N := N) (0 : g.Spc) (S.grdtospec f) rate x y
      have hz : harmonicSum N (0 : g.Spc) x y = 0 := modeSum_eq_zero N legendre (fun _ => .inl rfl) x y
      rwa [zero_add, hz, zero_add] at this
    rw [e2, sqDist_mul]
    have h1 := mul_le_mul_of_nonneg_left hf (show 0 ≤ rate ^ 2 + 1 by positivity)
    rw [mul_div_cancel₀ _ (by positivity)] at h1
    have := sqDist_nonneg' r (harmonicSum N (S.grdtospec f)) A
    linarith
  refine cast ?_ this
  congr 1
  funext t q j i
  simp only [Pi.smul_apply, smul_eq_mul]
  ring

/-- C129: convergence for `LinearRelaxation` (with any rate) if the reference PV is sufficiently accurate -/
theorem C129_relaxation {r Ω ν W t0 t1 t2 rate : ℝ} {order : ℕ} {A : ℝ → ℝ → ℝ} {Ψ : ℝ → ℝ → ℝ → ℝ} (hν : 0 ≤ ν)
    (hΨ : ForcedSolution r Ω ν order W (relaxing r Ω rate A Ψ) t0 t1 Ψ) (h02 : t0 ≤ t2) (h21 : t2 < t1) {η : ℝ} (hη : 0 < η) :
    ∃ T0 : ℕ, ∃ ε > 0, ∀ {g : Grid ℝ} {N : ℕ → ℕ → ℝ} {S : g.Sph} {M : BModel g} {ref : RVal g}, g.Valid → g.rsphere = r → g.omega = Ω →
      T0 ≤ g.ntrunc → 2 * g.ntrunc + 1 ≤ g.nlat → Spharm.Dealiased N S → M.diffusionCoeff = ν → M.diffusionOrder = order → M.DiffusesAround W →
      M.rhs = some (Term.linearRelaxation S rate ref).toRhs → sqDist r (harmonicSum N (S.grdtospec fun j i => ref.at j i)) A ≤ ε →
      (∃ q : g.Spc, sqDist r (harmonicSum N q) (absVort r Ω (Ψ t0)) ≤ ε) ∧
      ∀ s : St PyTime g, s.time.sec = t0 → sqDist r (s.pvFn N) (absVort r Ω (Ψ t0)) ≤ ε → ∃ δ > 0,
        ∀ (dt : PyDelta) (tend : PyTime) (se : ℝ), s.time.Compatible dt → s.time.SameKind tend → 0 < toSeconds dt → toSeconds dt < δ →
        t0 ≤ tend.sec → tend.sec ≤ t2 → (se ≤ 0 ∨ ∃ x, s.time = .num x) →
        ∃ sf saved, M.Returns S s dt tend se sf saved ∧ tend.sec ≤ sf.time.sec ∧ ∀ w ∈ sf :: saved, w.time.sec ∈ Icc t0 t1 ∧
          sqDist r (w.pvFn N) (absVort r Ω (Ψ w.time.sec)) < η ∧ windDist r (w.streamFn N S) (Ψ w.time.sec) < η ∧
          |totalEnergy r (w.streamFn N S) - totalEnergy r (Ψ w.time.sec)| < η := by
  by_cases hr : r = 0
  · exact ⟨0, 1, one_pos, fun hg hgr => absurd (hgr.trans hr) hg.rsphere_pos.ne'⟩
  obtain ⟨F, hF, hΨF⟩ := hΨ.smooth
  have hΨt : ∀ t, Ψ t = onSphere F t := fun t => by funext x y; exact hΨF t x y
  obtain ⟨T1, ε1, hε1, k1⟩ := C129_converges hν (sq_nonneg rate) hΨ h02 h21 hη
  obtain ⟨T2, ε2, hε2, k2⟩ := relax_represents hr hΨ hε1
  obtain ⟨T3, k3⟩ := harmonic_dense (vort_smooth r Ω hF) r t0 t1 (lt_min hε1 hε2)
  refine ⟨max T1 (max T2 T3), min ε1 ε2, lt_min hε1 hε2, fun {g N S M ref} hg hgr hgo hT0 hT h hMν hMo hW hrhs href => ?_⟩
  have hrep := k2 (S := S) (N := N) hgr (((le_max_left _ _).trans (le_max_right _ _)).trans hT0) h.exact (by omega) (fun j i => ref.at j i) (href.trans (min_le_right _ _))
  have hR : ∀ s, (Term.linearRelaxation S rate ref).toRhs s = .ok fun j i => rate * (ref.at j i - S.spectogrd s.q j i) := fun s => by cases ref <;> rfl
  obtain ⟨R, hR', hL, hG⟩ := (C114_forcing h.exact.linear t0 t1).1 rate ref
  have hRR : R = fun _ q j i => rate * (ref.at j i - S.spectogrd q j i) := by
    funext t q
    have e := (hR' ⟨.num t, q⟩).symm.trans (hR ⟨.num t, q⟩)
    exact Except.ok.inj e
  subst hRR
  obtain ⟨hq, hrun⟩ := k1 (S := S) (M := M) hg hgr hgo ((le_max_left _ _).trans hT0) hT h hMν hMo hW (.inr ⟨_, hrhs, hR⟩) hL hG hrep
  refine ⟨?_, fun s hs hs0 => hrun s hs (hs0.trans (min_le_left _ _))⟩
  obtain ⟨q, hq⟩ := k3 h.exact.norm_ne g.ntrunc (((le_max_right _ _).trans (le_max_right _ _)).trans hT0) t0 ⟨le_rfl, h02.trans h21.le⟩
  refine ⟨q, le_of_eq_of_le (sphereIntegral_congr _ fun x y hy => ?_) hq⟩
  rw [← absVort_onSphere hF r Ω _ x hy, hΨt]

/-! ## Prescribed forcing -/

/-- C129: convergence for forcings that depend neither on time nor on the state, such as `Orography` with the wind of a solid-body rotation -/
theorem C129_prescribed {r Ω ν W t0 t1 t2 : ℝ} {order : ℕ} {P : ℝ → ℝ → ℝ} {Ψ : ℝ → ℝ → ℝ → ℝ} (hν : 0 ≤ ν)
    (hΨ : ForcedSolution r Ω ν order W (fun _ => P) t0 t1 Ψ) (h02 : t0 ≤ t2) (h21 : t2 < t1) {η : ℝ} (hη : 0 < η) :
    ∃ T0 : ℕ, ∃ ε > 0, ∀ {g : Grid ℝ} {N : ℕ → ℕ → ℝ} {S : g.Sph} {M : BModel g} {φ : St PyTime g → Except PyErr g.Fld} {f : g.Fld}, g.Valid → g.rsphere = r →
      g.omega = Ω → T0 ≤ g.ntrunc → 2 * g.ntrunc + 1 ≤ g.nlat → Spharm.Dealiased N S → M.diffusionCoeff = ν → M.diffusionOrder = order →
      M.DiffusesAround W → M.rhs = some φ → (∀ s, φ s = .ok f) → sqDist r (harmonicSum N (S.grdtospec f)) P ≤ ε →
      (∃ q : g.Spc, sqDist r (harmonicSum N q) (absVort r Ω (Ψ t0)) ≤ ε) ∧
      ∀ s : St PyTime g, s.time.sec = t0 → sqDist r (s.pvFn N) (absVort r Ω (Ψ t0)) ≤ ε → ∃ δ > 0,
        ∀ (dt : PyDelta) (tend : PyTime) (se : ℝ), s.time.Compatible dt → s.time.SameKind tend → 0 < toSeconds dt → toSeconds dt < δ →
        t0 ≤ tend.sec → tend.sec ≤ t2 → (se ≤ 0 ∨ ∃ x, s.time = .num x) →
        ∃ sf saved, M.Returns S s dt tend se sf saved ∧ tend.sec ≤ sf.time.sec ∧ ∀ w ∈ sf :: saved, w.time.sec ∈ Icc t0 t1 ∧
          sqDist r (w.pvFn N) (absVort r Ω (Ψ w.time.sec)) < η ∧ windDist r (w.streamFn N S) (Ψ w.time.sec) < η ∧
          |totalEnergy r (w.streamFn N S) - totalEnergy r (Ψ w.time.sec)| < η := by
  by_cases hr : r = 0
  · exact ⟨0, 1, one_pos, fun hg hgr => absurd (hgr.trans hr) hg.rsphere_pos.ne'⟩
  obtain ⟨F, hF, hΨF⟩ := hΨ.smooth
  have hΨt : ∀ t, Ψ t = onSphere F t := fun t => by funext x y; exact hΨF t x y
  obtain ⟨T1, ε1, hε1, k1⟩ := C129_converges hν (sq_nonneg 0) hΨ h02 h21 hη
  have eP : (fun _ : ℝ => P) = fun t x y => P x y - 0 * absVort r Ω (Ψ t) x y := by
    funext t x y
    rw [zero_mul, sub_zero]
  obtain ⟨T2, ε2, hε2, k2⟩ := linear_represents (rate := 0) (P := fun _ => P) hr (eP ▸ hΨ) hε1
  obtain ⟨T3, k3⟩ := harmonic_dense (vort_smooth r Ω hF) r t0 t1 (lt_min hε1 hε2)
  refine ⟨max T1 (max T2 T3), min ε1 ε2, lt_min hε1 hε2, fun {g N S M φ f} hg hgr hgo hT0 hT h hMν hMo hW hrhs hφ hf => ?_⟩
  have hrep := k2 (S := S) (N := N) hgr (((le_max_left _ _).trans (le_max_right _ _)).trans hT0) h.exact (by omega) (fun _ => f)
    fun t _ => hf.trans (min_le_right _ _)
  rw [← eP] at hrep
  have hRR : (fun (_ : ℝ) (q : g.Spc) j i => f j i - 0 * S.spectogrd q j i) = fun _ _ => f := by
    funext t q j i
    rw [zero_mul, sub_zero]
  rw [hRR] at hrep
  obtain ⟨hq, hrun⟩ := k1 (S := S) (M := M) hg hgr hgo ((le_max_left _ _).trans hT0) hT h hMν hMo hW (.inr ⟨_, hrhs, hφ⟩)
    (fun B => ⟨0, fun t _ t' _ q q' _ _ => by simp⟩) ⟨‖f‖, fun t _ q => by nlinarith [norm_nonneg f, norm_nonneg q]⟩ hrep
  refine ⟨?_, fun s hs hs0 => hrun s hs (hs0.trans (min_le_left _ _))⟩
  obtain ⟨q, hq⟩ := k3 h.exact.norm_ne g.ntrunc (((le_max_right _ _).trans (le_max_right _ _)).trans hT0) t0 ⟨le_rfl, h02.trans h21.le⟩
  refine ⟨q, le_of_eq_of_le (sphereIntegral_congr _ fun x y hy => ?_) hq⟩
  rw [← absVort_onSphere hF r Ω _ x hy, hΨt]

/-- C129: the orographic forcing with the wind of a solid-body rotation depends neither on time nor on the state. -/
theorem C129_orography {o : Orog} {c : ℝ} (ho : o.wind = .sbr c) {h : g.Fld} (hh : o.kind.orography g = .ok h) :
    ∃ f, ∀ s, (o.term S).toRhs s = .ok f := by
  refine ⟨o.combine (o.getWind S ⟨.num 0, 0⟩) (Grid.gradient S h), fun s => ?_⟩
  have : o.gradient S = .ok (Grid.gradient S h) := by
    unfold Orog.gradient
    rw [hh]
  unfold Term.toRhs Orog.term Term.call Orog.force
  rw [this]
  simp only [Except.map, Orog.getWind, ho]

/-! ## Uniqueness -/

/-- C129: absolute vorticity of smooth solutions with relaxation towards a smooth reference is determined by its initial value. -/
theorem C129_unique {r Ω ν W t0 t1 rate : ℝ} {order : ℕ} {A : ℝ → ℝ → ℝ} {Ψ Φ : ℝ → ℝ → ℝ → ℝ} (hr : 0 < r) (hν : 0 ≤ ν) (hW : W = 0 ∨ W = Ω)
    (hA : ∃ H : (Fin 4 → ℝ) → ℝ, ContDiff ℝ (⊤ : ℕ∞) H ∧ ∀ x y, A x y = H (spacetime t0 x y))
    (hΨ : ForcedSolution r Ω ν order W (relaxing r Ω rate A Ψ) t0 t1 Ψ) (hΦ : ForcedSolution r Ω ν order W (relaxing r Ω rate A Φ) t0 t1 Φ)
    (h0 : ∀ x y, cos y ≠ 0 → absVort r Ω (Ψ t0) x y = absVort r Ω (Φ t0) x y) :
    ∀ t ∈ Icc t0 t1, ∀ x y, cos y ≠ 0 → absVort r Ω (Ψ t) x y = absVort r Ω (Φ t) x y := by
  intro t ht
  have ht01 : t0 ≤ t1 := ht.1.trans ht.2
  have h00 : t0 ∈ Icc t0 t1 := ⟨le_rfl, ht01⟩
  obtain ⟨F, hF, hΨF⟩ := hΨ.smooth
  obtain ⟨G, hG, hΦG⟩ := hΦ.smooth
  obtain ⟨H, hH, hAH⟩ := hA
  have eF : ∀ t x y, cos y ≠ 0 → absVort r Ω (Ψ t) x y = onSphere (vort r Ω F) t x y := fun t x y hy => by
    rw [← absVort_onSphere hF r Ω _ x hy]
    congr 1
    funext x y
    exact hΨF _ x y
  have eG : ∀ t x y, cos y ≠ 0 → absVort r Ω (Φ t) x y = onSphere (vort r Ω G) t x y := fun t x y hy => by
    rw [← absVort_onSphere hG r Ω _ x hy]
    congr 1
    funext x y
    exact hΦG _ x y
  have sF := fun t => onSphere_smooth (vort_smooth r Ω hF) t
  have sG := fun t => onSphere_smooth (vort_smooth r Ω hG) t
  have dF : ∀ A t, sqDist r A (absVort r Ω (Ψ t)) = sqDist r A (onSphere (vort r Ω F) t) := fun A t =>
    sphereIntegral_congr r fun x y hy => by rw [eF t x y hy]
  have dG : ∀ A t, sqDist r A (absVort r Ω (Φ t)) = sqDist r A (onSphere (vort r Ω G) t) := fun A t =>
    sphereIntegral_congr r fun x y hy => by rw [eG t x y hy]
  have eA : A = onSphere H t0 := by funext x y; exact hAH x y
  have key : ∀ η > 0, sqDist r (onSphere (vort r Ω F) t) (onSphere (vort r Ω G) t) ≤ η := by
    intro η hη
    obtain ⟨T1, ε1, hε1, k1⟩ := C129_truncation hν (sq_nonneg rate) hΨ ht01 (show 0 < η / 4 by positivity)
    obtain ⟨T2, ε2, hε2, k2⟩ := C129_truncation hν (sq_nonneg rate) hΦ ht01 (show 0 < η / 4 by positivity)
    obtain ⟨T3, ε3, hε3, k3⟩ := relax_represents hr.ne' hΨ hε1
    obtain ⟨T4, ε4, hε4, k4⟩ := relax_represents hr.ne' hΦ hε2
    obtain ⟨T5, k5⟩ := harmonic_dense (vort_smooth r Ω hF) r t0 t1 (lt_min hε1 hε2)
    obtain ⟨T6, k6⟩ := harmonic_dense hH r t0 t1 (lt_min hε3 hε4)
    obtain ⟨T, hT⟩ : ∃ T, T = T1 + T2 + T3 + T4 + T5 + T6 := ⟨_, rfl⟩
    obtain ⟨g, S, hg, g1, g2, g3, g4, h⟩ := C121_grids hr Ω T
    obtain ⟨M, hM2, hM3, hM4⟩ : ∃ M : BModel g, M.diffusionCoeff = ν ∧ M.diffusionOrder = order ∧ M.DiffusesAround W := by
      rcases hW with h | h
      · exact ⟨⟨none, order, ν, none⟩, rfl, rfl, .inl ⟨rfl, h⟩⟩
      · exact ⟨⟨none, order, ν, some g.fcor2⟩, rfl, rfl, .inr ⟨rfl, h.trans g2.symm⟩⟩
    obtain ⟨h1, -, s1⟩ := k1 (M := M) hg g1 g2 (by omega) g4 h hM2 hM3 hM4
    obtain ⟨-, -, s2⟩ := k2 (M := M) hg g1 g2 (by omega) g4 h hM2 hM3 hM4
    obtain ⟨q, hq⟩ := k5 h.exact.norm_ne g.ntrunc (by omega) t0 h00
    obtain ⟨a, ha⟩ := k6 h.exact.norm_ne g.ntrunc (by omega) t0 h00
    have e : harmonicSum (fun _ _ => 1) (S.grdtospec (S.spectogrd a)) = harmonicSum (fun _ _ => 1) a := by
      have e : S.spectogrd a = S.spectogrd (realZonal a) := by
        simp only [h.exact.synthesis]
        funext j i
        exact (harmonicSum_realZonal _ a _ _).symm
      rw [e, h.exact.analysis _ (realZonal_real a) (.of_le (by omega) _)]
      funext x y
      exact harmonicSum_realZonal _ a x y
    rw [← e, ← eA] at ha
    obtain ⟨R, hR', hL, hGr⟩ := (C114_forcing h.exact.linear t0 t1).1 rate (.fld (S.spectogrd a))
    have hRR : R = fun _ q j i => rate * (S.spectogrd a j i - S.spectogrd q j i) := by
      funext t q
      have e := hR' ⟨.num t, q⟩
      exact (Except.ok.inj e).symm
    have r1 := k3 g1 (by omega) h.exact (by omega) (S.spectogrd a) (ha.trans (min_le_left _ _))
    have r2 := k4 g1 (by omega) h.exact (by omega) (S.spectogrd a) (ha.trans (min_le_right _ _))
    rw [← hRR] at r1 r2
    obtain ⟨Y, hY, hY0, -⟩ := C120_exists (M := M) hg h h1 g4 (hM2 ▸ hν) ht01 hL hGr q
    have e0 : sqDist r (harmonicSum (fun _ _ => 1) q) (absVort r Ω (Φ t0)) = sqDist r (harmonicSum (fun _ _ => 1) q) (absVort r Ω (Ψ t0)) :=
      sphereIntegral_congr r fun x y hy => by rw [h0 x y hy]
    have a1 := s1 R r1 Y hY (by rw [hY0, dF]; exact hq.trans (min_le_left _ _)) t ht
    have a2 := s2 R r2 Y hY (by rw [hY0, e0, dF]; exact hq.trans (min_le_right _ _)) t ht
    rw [dF] at a1
    rw [dG] at a2
    rw [sqDist_comm] at a1
    have := sqDist_triangle (r := r) (sF t) (harmonicSum_smooth (N := fun _ _ => 1) (Y t)) (sG t)
    linarith
  have hz : sqDist r (onSphere (vort r Ω F) t) (onSphere (vort r Ω G) t) ≤ 0 := le_of_forall_pos_le_add fun η hη => by
    rw [zero_add]; exact key η hη
  intro x y hy
  rw [eF t x y hy, eG t x y hy]
  exact onSphere_eq_of_sqDist (vort_smooth r Ω hF) (vort_smooth r Ω hG) hr.ne' hz hy

/-! ## Non-vacuity: a wave that is damped by relaxation towards planetary vorticity -/

theorem relaxed_wave (Ω rate t0 t1 : ℝ) : ForcedSolution 1 Ω 0 0 0 (relaxing 1 Ω rate (fun _ y => 2 * Ω * sin y)
    (fun t x y => Real.exp (-(rate * (2 / 1 ^ 2) ^ 0 * t)) * cos y * cos (x + Ω * t))) t0 t1
    (fun t x y => Real.exp (-(rate * (2 / 1 ^ 2) ^ 0 * t)) * cos y * cos (x + Ω * t)) := by
  have h := damped_wave one_ne_zero Ω rate 0 t0 t1
  refine ⟨h.smooth, fun t ht x y hy => ?_⟩
  refine (h.equation t ht x y hy).congr_deriv ?_
  unfold relaxing hyperLaplacian
  simp only [Function.iterate_zero, id]
  ring

/-- Non-vacuity of C129: relaxation towards planetary vorticity on grids with radius 1 -/
example : ∃ (g : Grid ℝ) (S : g.Sph) (s : St PyTime g), g.Valid ∧ ∃ δ > 0, ∀ h > 0, h < δ →
    ∃ sf saved, (⟨some (Term.linearRelaxation S (1 / 100) (.fld g.fcor2)).toRhs, 0, 0, none⟩ : BModel g).Returns S s (.num h) (.num 10) 0 sf saved ∧ 10 ≤ sf.time.sec ∧
      windDist 1 (sf.streamFn (fun _ _ => 1) S) (fun x y => Real.exp (-(1 / 100 * (2 / 1 ^ 2) ^ 0 * sf.time.sec)) * cos y * cos (x + 1 * sf.time.sec)) < 1 / 1000 := by
  obtain ⟨T0, ε, hε, key⟩ := C129_relaxation (t2 := 10) (η := 1 / 1000) le_rfl (relaxed_wave 1 (1 / 100) 0 11) (by norm_num) (by norm_num) (by norm_num)
  obtain ⟨g, S, hg, g1, g2, g3, g4, h⟩ := C121_grids one_pos 1 (T0 + 1)
  have href : sqDist 1 (harmonicSum (fun _ _ => 1) (S.grdtospec fun j i => (RVal.fld g.fcor2).at j i)) (fun _ y => 2 * 1 * sin y) ≤ ε := by
    have e : S.grdtospec (fun j i => (RVal.fld g.fcor2).at j i) = solidRotation (fun _ _ => 1) g.omega := h.exact.fcor2 (by omega) (by omega)
    rw [e]
    refine le_trans (le_of_eq ?_) hε.le
    have hz : sqDist 1 (harmonicSum (fun _ _ => 1) (solidRotation (fun _ _ => 1) g.omega : g.Spc)) (fun _ y => 2 * 1 * sin y) =
        sphereIntegral 1 fun _ _ => 0 := by
      refine sphereIntegral_congr _ fun x y _ => ?_
      rw [harmonicSum_solid (fun _ _ => one_ne_zero) (by omega), g2, sub_self, zero_pow two_ne_zero]
    rw [hz]
    simp [sphereIntegral]
  obtain ⟨⟨q, hq⟩, hrun⟩ := key (M := ⟨some (Term.linearRelaxation S (1 / 100) (.fld g.fcor2)).toRhs, 0, 0, none⟩) (ref := .fld g.fcor2) hg g1 g2 (by omega) g4 h rfl rfl
    (.inl ⟨rfl, rfl⟩) rfl href
  obtain ⟨δ, hδ, hr⟩ := hrun ⟨.num 0, q⟩ rfl hq
  refine ⟨g, S, ⟨.num 0, q⟩, hg, δ, hδ, fun dt hd hdδ => ?_⟩
  obtain ⟨sf, saved, r1, r2, r3⟩ := hr (.num dt) (.num 10) 0 trivial trivial hd hdδ (by norm_num [PyTime.sec]) le_rfl (.inl le_rfl)
  exact ⟨sf, saved, r1, r2, (r3 sf List.mem_cons_self).2.2.1⟩

/-- A steady wave on a sphere without rotation, kept up against damping by a prescribed forcing -/
theorem forced_wave (t0 t1 : ℝ) : ForcedSolution 1 0 (1 / 100) 0 0 (fun _ x y => 1 / 100 * absVort 1 0 (fun x y => cos y * cos x) x y) t0 t1
    (fun _ x y => cos y * cos x) := by
  have h := damped_wave one_ne_zero 0 0 0 t0 t1
  simp only [zero_mul, neg_zero, Real.exp_zero, one_mul, add_zero] at h
  refine ⟨h.smooth, fun t ht x y hy => ?_⟩
  refine (h.equation t ht x y hy).congr_deriv ?_
  unfold hyperLaplacian
  simp only [Function.iterate_zero, id]
  ring

/-- Non-vacuity of C129 for prescribed forcings -/
example : ∃ (g : Grid ℝ) (S : g.Sph) (f : g.Fld) (s : St PyTime g), g.Valid ∧ ∃ δ > 0, ∀ h > 0, h < δ →
    ∃ sf saved, (⟨some fun _ => .ok f, 0, 1 / 100, none⟩ : BModel g).Returns S s (.num h) (.num 10) 0 sf saved ∧ 10 ≤ sf.time.sec ∧
      windDist 1 (sf.streamFn (fun _ _ => 1) S) (fun x y => cos y * cos x) < 1 / 1000 := by
  obtain ⟨T0, ε, hε, key⟩ := C129_prescribed (t2 := 10) (η := 1 / 1000) (by norm_num) (forced_wave 0 11) (by norm_num) (by norm_num) (by norm_num)
  obtain ⟨F, hF, hΨF⟩ := (forced_wave 0 11).smooth
  have hΨt : ∀ t : ℝ, (fun x y => cos y * cos x) = onSphere F t := fun t => by funext x y; exact hΨF t x y
  obtain ⟨T1, hT1⟩ := harmonic_dense (F := fun p => 1 / 100 * vort 1 0 F p) (contDiff_const.mul (vort_smooth 1 0 hF)) 1 0 0 hε
  obtain ⟨g, S, hg, g1, g2, g3, g4, h⟩ := C121_grids one_pos 0 (T0 + T1)
  obtain ⟨a, ha⟩ := hT1 h.exact.norm_ne g.ntrunc (by omega) 0 ⟨le_rfl, le_rfl⟩
  have hf : sqDist 1 (harmonicSum (fun _ _ => 1) (S.grdtospec (S.spectogrd (realZonal a)))) (fun x y => 1 / 100 * absVort 1 0 (fun x y => cos y * cos x) x y) ≤ ε := by
    rw [h.exact.analysis _ (realZonal_real a) (.of_le (by omega) _)]
    refine le_of_eq_of_le (sphereIntegral_congr _ fun x y hy => ?_) ha
    rw [harmonicSum_realZonal, hΨt 0]
    dsimp only
    rw [absVort_onSphere hF 1 0 0 x hy]
    rfl
  obtain ⟨⟨q, hq⟩, hrun⟩ := key (M := ⟨some fun _ => .ok (S.spectogrd (realZonal a)), 0, 1 / 100, none⟩) hg g1 g2 (by omega) g4 h rfl rfl
    (.inl ⟨rfl, rfl⟩) rfl (fun _ => rfl) hf
  obtain ⟨δ, hδ, hr⟩ := hrun ⟨.num 0, q⟩ rfl hq
  refine ⟨g, S, S.spectogrd (realZonal a), ⟨.num 0, q⟩, hg, δ, hδ, fun dt hd hdδ => ?_⟩
  obtain ⟨sf, saved, r1, r2, r3⟩ := hr (.num dt) (.num 10) 0 trivial trivial hd hdδ (by norm_num [PyTime.sec]) le_rfl (.inl le_rfl)
  exact ⟨sf, saved, r1, r2, (r3 sf List.mem_cons_self).2.2.1⟩

/-- Non-vacuity of C129: the relaxed wave is the only solution with its initial value. -/
example {Φ : ℝ → ℝ → ℝ → ℝ} (hΦ : ForcedSolution 1 1 0 0 0 (relaxing 1 1 (1 / 100) (fun _ y => 2 * 1 * sin y) Φ) 0 10 Φ)
    (h0 : ∀ x y, cos y ≠ 0 → absVort 1 1 (fun x y => cos y * cos x) x y = absVort 1 1 (Φ 0) x y) {x y : ℝ} (hy : cos y ≠ 0) :
    absVort 1 1 (fun x y => Real.exp (-(1 / 100 * (2 / 1 ^ 2) ^ 0 * 10)) * cos y * cos (x + 1 * 10)) x y = absVort 1 1 (Φ 10) x y :=
  C129_unique one_pos le_rfl (.inl rfl) ⟨fun p => 2 * 1 * p 3, contDiff_const.mul (contDiff_apply ℝ ℝ 3), fun _ _ => rfl⟩ (relaxed_wave 1 (1 / 100) 0 10) hΦ
    (by simpa using h0) 10 (by norm_num) x y hy

end Barotropic
