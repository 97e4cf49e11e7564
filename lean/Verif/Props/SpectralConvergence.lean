import Verif.Lemmas.SpectralApprox

/-!
# Convergence to solutions of the barotropic vorticity equation: C121
-/

namespace Barotropic
open Real (cos sin)
open Set

variable {N : ℕ → ℕ → ℝ} {g : Grid ℝ} {S : g.Sph} {M : BModel g}

theorem damping_source (h : Spharm.Dealiased N S) (t : ℝ) (q : g.Spc) : M.source S 0 t q = M.damping S q := by
  have hz : S.grdtospec 0 = 0 := by
    have := h.exact.analysis_smul 0 0
    rwa [zero_smul, zero_smul] at this
  unfold BModel.source
  rw [show (0 : ℝ → g.Spc → g.Fld) t q = 0 from rfl, hz, zero_add]

/-- C121: the solution of the truncated equation differs from any other curve `p` only by as much as `p` fails to have the same initial value and
to satisfy the barotropic vorticity equation (both in the mean square). The bound does not depend on the truncation. -/
theorem C121_stability (hg : g.Valid) (h : Spharm.Dealiased N S) (h1 : 1 ≤ g.ntrunc) (hT : 2 * g.ntrunc + 1 ≤ g.nlat) (hν : 0 ≤ M.diffusionCoeff)
    {t0 t1 : ℝ} {Y p p' : ℝ → g.Spc} (hY : M.Solution S 0 t0 t1 Y) (hp : ∀ t ∈ Icc t0 t1, HasDerivWithinAt p (p' t) (Icc t0 t1) t) {G ρ : ℝ} (hG : 0 < G)
    (hgrad : ∀ t ∈ Icc t0 t1, ∀ x y, cos y ≠ 0 → (sphereGrad g.rsphere (harmonicSum N (p t)) x y).1 ^ 2 +
      (sphereGrad g.rsphere (harmonicSum N (p t)) x y).2 ^ 2 ≤ G ^ 2)
    (hres : ∀ t ∈ Icc t0 t1, sphereIntegral g.rsphere (fun x y => residual N S M (p t) (p' t) x y ^ 2) ≤ ρ) :
    ∀ t ∈ Icc t0 t1, sphereIntegral g.rsphere (fun x y => (harmonicSum N (Y t) x y - harmonicSum N (p t) x y) ^ 2) ≤
      (sphereIntegral g.rsphere (fun x y => (harmonicSum N (Y t0) x y - harmonicSum N (p t0) x y) ^ 2) + ρ * (t - t0)) *
        Real.exp ((2 * G * g.rsphere + 1) * (t - t0)) := by
  have hr := hg.rsphere_pos
  have hN := h.exact.norm_ne
  have hsub : ∀ a b : g.Spc, ∀ x y, harmonicSum N (a - b) x y = harmonicSum N a x y - harmonicSum N b x y := fun a b x y => by
    rw [show a - b = a + (-1 : ℝ) • b by rw [neg_one_smul, sub_eq_add_neg], harmonicSum_lin]; ring
  have hW : ∀ t, sphereIntegral g.rsphere (fun x y => (harmonicSum N (Y t) x y - harmonicSum N (p t) x y) ^ 2) =
      spherePair g.rsphere (harmonicSum N (Y t - p t)) (harmonicSum N (Y t - p t)) := fun t => by
    unfold spherePair
    simp only [hsub, sq]
  simp only [hW]
  by_cases ht01 : t0 ≤ t1
  swap
  · exact fun t ht => absurd (ht.1.trans ht.2) ht01
  have hρ : 0 ≤ ρ := by
    refine le_trans ?_ (hres t0 ⟨le_rfl, ht01⟩)
    refine mul_nonneg (sq_nonneg _) (intervalIntegral.integral_nonneg (by positivity) fun x _ => ?_)
    have hpi := Real.pi_pos
    exact intervalIntegral.integral_nonneg (by linarith) fun y hy => mul_nonneg (sq_nonneg _) (Real.cos_nonneg_of_mem_Icc hy)
  have hd : ∀ t ∈ Icc t0 t1, HasDerivWithinAt (fun t => Y t - p t) (M.damping S (Y t) - (⟨t, Y t⟩ : St ℝ g).pvFluxSpectral S - p' t) (Icc t0 t1) t := by
    intro t ht
    have := hY t ht
    rw [solution_rate, damping_source h] at this
    exact this.sub (hp t ht)
  have hWd := fun t ht => spherePair_deriv (N := N) hr.ne' (hd t ht) (hd t ht)
  refine gronwall_le hWd (fun t ht => ?_) (by positivity) hρ
  rw [spherePair_comm, ← two_mul]
  obtain ⟨e, he⟩ : ∃ e, e = Y t - p t := ⟨_, rfl⟩
  rw [← he]
  have hE := harmonicSum_smooth (N := N) e
  have hv : ∀ q : g.Spc, (⟨t, q⟩ : St ℝ g).vorticitySpectral S = q - Grid.fcor2Spectral S := fun q => rfl
  -- the flux of `Y`
  have hfl : spherePair g.rsphere (harmonicSum N e) (harmonicSum N ((⟨t, Y t⟩ : St ℝ g).pvFluxSpectral S)) =
      spherePair g.rsphere (harmonicSum N e) (advect N g.rsphere (Y t) (invLaplace g.rsphere (Y t - Grid.fcor2Spectral S))) := by
    refine (C119_projection hg h h1 hT (⟨t, Y t⟩ : St ℝ g) e).trans (sphereIntegral_congr _ fun x y hy => ?_)
    rw [streamFn_eq, hv]
    exact congrArg _ (advect_flux _ _ _ hy x)
  obtain ⟨X, hX⟩ : ∃ X : ℝ → ℝ → ℝ, X = fun x y => (harmonicSum N (p' t) x y + advect N g.rsphere (p t) (invLaplace g.rsphere (p t - Grid.fcor2Spectral S)) x y) -
    harmonicSum N (M.damping S (p t)) x y := ⟨_, rfl⟩
  have hXs : SphereSmooth X := hX ▸ ((harmonicSum_smooth _).add (advect_smooth _ _ _)).sub (harmonicSum_smooth _)
  have hXρ : spherePair g.rsphere X X ≤ ρ := by
    refine le_of_eq_of_le (sphereIntegral_congr _ fun x y hy => ?_) (hres t ht)
    have : residual N S M (p t) (p' t) x y = X x y := by
      unfold residual
      simp only [streamFn_eq]
      rw [hX]
      have := advect_flux (N := N) g.rsphere (p t) (invLaplace g.rsphere (p t - Grid.fcor2Spectral S)) hy x
      exact congrArg (fun z => harmonicSum N (p' t) x y + z - harmonicSum N (M.damping S (p t)) x y) this
    rw [this, sq]
  -- decomposition of the tendency of the error
  have hinv : invLaplace g.rsphere (Y t - Grid.fcor2Spectral S) - invLaplace g.rsphere (p t - Grid.fcor2Spectral S) = invLaplace g.rsphere e := by
    rw [he]
    funext k
    simp only [invLaplace, degMul, Pi.sub_apply]
    ring
  have hdecomp : ∀ x y, harmonicSum N e x y * harmonicSum N (M.damping S (Y t) - (⟨t, Y t⟩ : St ℝ g).pvFluxSpectral S - p' t) x y =
      harmonicSum N e x y * harmonicSum N (M.damping S (Y t) - M.damping S (p t)) x y -
      harmonicSum N e x y * X x y - harmonicSum N e x y * advect N g.rsphere e (invLaplace g.rsphere (Y t - Grid.fcor2Spectral S)) x y -
      harmonicSum N e x y * advect N g.rsphere (p t) (invLaplace g.rsphere e) x y +
      (harmonicSum N e x y * advect N g.rsphere (Y t) (invLaplace g.rsphere (Y t - Grid.fcor2Spectral S)) x y -
        harmonicSum N e x y * harmonicSum N ((⟨t, Y t⟩ : St ℝ g).pvFluxSpectral S) x y) := by
    intro x y
    have := advect_split (N := N) g.rsphere (Y t) (p t) (invLaplace g.rsphere (Y t - Grid.fcor2Spectral S)) (invLaplace g.rsphere (p t - Grid.fcor2Spectral S)) x y
    rw [hinv, ← he] at this
    rw [hsub, hsub, hsub, hX]
    linear_combination (-harmonicSum N e x y) * this
  have a1 := hE.mul (harmonicSum_smooth (N := N) (M.damping S (Y t) - M.damping S (p t)))
  have a2 := hE.mul hXs
  have a3 := hE.mul (advect_smooth (N := N) g.rsphere e (invLaplace g.rsphere (Y t - Grid.fcor2Spectral S)))
  have a4 := hE.mul (advect_smooth (N := N) g.rsphere (p t) (invLaplace g.rsphere e))
  have a5 := hE.mul (advect_smooth (N := N) g.rsphere (Y t) (invLaplace g.rsphere (Y t - Grid.fcor2Spectral S)))
  have a6 := hE.mul (harmonicSum_smooth (N := N) ((⟨t, Y t⟩ : St ℝ g).pvFluxSpectral S))
  have hsum : spherePair g.rsphere (harmonicSum N e) (harmonicSum N (M.damping S (Y t) - (⟨t, Y t⟩ : St ℝ g).pvFluxSpectral S - p' t)) =
      spherePair g.rsphere (harmonicSum N e) (harmonicSum N (M.damping S (Y t) - M.damping S (p t))) - spherePair g.rsphere (harmonicSum N e) X -
      spherePair g.rsphere (harmonicSum N e) (advect N g.rsphere (p t) (invLaplace g.rsphere e)) := by
    have i1 : ∀ {A B : ℝ → ℝ → ℝ}, SphereSmooth A → SphereSmooth B → sphereIntegral g.rsphere (fun x y => A x y - B x y) =
        sphereIntegral g.rsphere A - sphereIntegral g.rsphere B := fun {A B} hA hB => by
      have := sphereIntegral_lin hA hB g.rsphere 1 (-1)
      simp only [one_mul, neg_mul, ← sub_eq_add_neg] at this
      exact this
    have i2 : ∀ {A B : ℝ → ℝ → ℝ}, SphereSmooth A → SphereSmooth B → sphereIntegral g.rsphere (fun x y => A x y + B x y) =
        sphereIntegral g.rsphere A + sphereIntegral g.rsphere B := fun {A B} hA hB => by
      have := sphereIntegral_lin hA hB g.rsphere 1 1
      simp only [one_mul] at this
      exact this
    have z := advect_self (N := N) hr.ne' e (invLaplace g.rsphere (Y t - Grid.fcor2Spectral S))
    unfold spherePair at hfl z ⊢
    simp only [hdecomp]
    rw [i2 (((a1.sub a2).sub a3).sub a4) (a5.sub a6), i1 ((a1.sub a2).sub a3) a4, i1 (a1.sub a2) a3, i1 a1 a2, i1 a5 a6, hfl, z]
    ring
  rw [hsum]
  have b1 := damping_monotone (N := N) (S := S) (M := M) rfl hr.ne' hN hν (Y t) (p t)
  rw [← he] at b1
  have b2 := pair_bound (r := g.rsphere) hE hXs
  have b3 := advect_bound hr hN hG (p t) e (hgrad t ht)
  linarith

/-! ## Convergence -/

theorem sqDist_nonneg {A B : ℝ → ℝ → ℝ} (hA : SphereSmooth A) (hB : SphereSmooth B) (r : ℝ) : 0 ≤ sqDist r A B := by
  have hz : SphereSmooth fun _ _ => (0 : ℝ) := .lat contDiff_const
  have := sphereIntegral_mono hz ((hA.sub hB).pow 2) r fun x y _ => sq_nonneg _
  refine le_trans (le_of_eq ?_) this
  simp [sphereIntegral]

theorem sqDist_triangle {A B C : ℝ → ℝ → ℝ} (hA : SphereSmooth A) (hB : SphereSmooth B) (hC : SphereSmooth C) (r : ℝ) :
    sqDist r A C ≤ 2 * sqDist r A B + 2 * sqDist r B C := by
  unfold sqDist
  rw [← sphereIntegral_lin ((hA.sub hB).pow 2) ((hB.sub hC).pow 2) r 2 2]
  have h2 : ∀ {H : ℝ → ℝ → ℝ}, SphereSmooth H → SphereSmooth fun x y => 2 * H x y := fun hH => (SphereSmooth.lat contDiff_const).mul hH
  refine sphereIntegral_mono ((hA.sub hC).pow 2) ((h2 ((hA.sub hB).pow 2)).add (h2 ((hB.sub hC).pow 2))) r fun x y _ => ?_
  nlinarith [sq_nonneg ((A x y - B x y) - (B x y - C x y))]

theorem sqDist_comm (r : ℝ) (A B : ℝ → ℝ → ℝ) : sqDist r A B = sqDist r B A :=
  sphereIntegral_congr r fun x y _ => by ring

/-- Area of the sphere -/
noncomputable def area (r : ℝ) : ℝ := sphereIntegral r fun _ _ => 1

theorem integral_le_area {A : ℝ → ℝ → ℝ} (hA : SphereSmooth A) (r : ℝ) {ε : ℝ} (h : ∀ x y, cos y ≠ 0 → |A x y| ≤ ε) :
    sphereIntegral r (fun x y => A x y ^ 2) ≤ area r * ε ^ 2 := by
  have h1 : SphereSmooth fun _ _ => (1 : ℝ) := .lat contDiff_const
  have e := sphereIntegral_lin h1 h1 r (ε ^ 2) 0
  simp only [zero_mul, add_zero] at e
  rw [mul_comm, area, ← e]
  refine sphereIntegral_mono (hA.pow 2) ((SphereSmooth.lat contDiff_const).mul h1) r fun x y hy => ?_
  rw [mul_one, ← sq_abs]
  exact pow_le_pow_left₀ (abs_nonneg _) (h x y hy) 2

theorem area_nonneg (r : ℝ) : 0 ≤ area r := by
  have hz : SphereSmooth fun _ _ => (0 : ℝ) := .lat contDiff_const
  have := integral_le_area hz r (ε := 1) (fun x y _ => by simp)
  simp only [one_pow, mul_one] at this
  refine le_trans (le_of_eq ?_) this
  simp [sphereIntegral]

theorem diffusesAround_background (h : Spharm.Dealiased N S) (h1 : 1 ≤ g.ntrunc) {W : ℝ} (hW : M.DiffusesAround W) : M.background S = solidRotation N W := by
  unfold BModel.background
  rcases hW with ⟨e, rfl⟩ | ⟨e, rfl⟩
  · rw [e]
    funext k
    simp [solidRotation]
  · rw [e]
    exact h.exact.fcor2 h1 (by omega)

/-- C121: solutions of the truncated equation converge to smooth solutions of the barotropic vorticity equation with increasing truncation. -/
theorem C121_truncation {r Ω ν W t0 t1 : ℝ} {order : ℕ} {Ψ : ℝ → ℝ → ℝ → ℝ} (hν : 0 ≤ ν)
    (hΨ : SmoothSolution r Ω ν order W t0 t1 Ψ) (ht : t0 ≤ t1) {η : ℝ} (hη : 0 < η) :
    ∃ T0 : ℕ, ∃ ε > 0, ∀ {g : Grid ℝ} {N : ℕ → ℕ → ℝ} {S : g.Sph} {M : BModel g}, g.Valid → g.rsphere = r → g.omega = Ω → T0 ≤ g.ntrunc →
      2 * g.ntrunc + 1 ≤ g.nlat → Spharm.Dealiased N S → M.diffusionCoeff = ν → M.diffusionOrder = order → M.DiffusesAround W →
      1 ≤ g.ntrunc ∧ (∃ q : g.Spc, sqDist r (harmonicSum N q) (absVort r Ω (Ψ t0)) ≤ ε) ∧
      ∀ Y : ℝ → g.Spc, M.Solution S 0 t0 t1 Y → sqDist r (harmonicSum N (Y t0)) (absVort r Ω (Ψ t0)) ≤ ε →
        ∀ t ∈ Icc t0 t1, sqDist r (harmonicSum N (Y t)) (absVort r Ω (Ψ t)) < η := by
  by_cases hr : 0 < r
  swap
  · exact ⟨0, 1, one_pos, fun hg hgr => absurd (hgr ▸ hg.rsphere_pos) hr⟩
  obtain ⟨F, hF, hΨF⟩ := hΨ.smooth
  have hQ : ∀ (A : ℝ → ℝ → ℝ) t, sqDist r A (absVort r Ω (Ψ t)) = sqDist r A (onSphere (vort r Ω F) t) := fun A t =>
    sphereIntegral_congr r fun x y hy => by
      rw [← absVort_onSphere hF r Ω _ x hy]
      congr 3
      funext x y
      exact hΨF _ x y
  simp only [hQ]
  obtain ⟨b, hb⟩ : ∃ b, b = max |t0| |t1| + 1 := ⟨_, rfl⟩
  have hb1 : 1 ≤ b := by
    have := (abs_nonneg t0).trans (le_max_left |t0| |t1|)
    linarith
  have hbt : ∀ t ∈ Icc t0 t1, |t| ≤ b := fun t htt => by
    have := abs_le_max_abs_abs htt.1 htt.2
    linarith
  obtain ⟨P, hP⟩ := exists_polys (lt_of_lt_of_le one_pos hb1) hF
  have hV := hP.vort subset_rfl r Ω
  have u1 := SmoothLimit.onSphere hb1 hV
  have u2 := hV.east hb1
  have u3 := hV.north hb1
  have u4 := hP.defect hb1 r Ω ν order W
  obtain ⟨Ke, hKe⟩ := u2.bounded
  obtain ⟨Kn, hKn⟩ := u3.bounded
  obtain ⟨G, hG⟩ : ∃ G, G = (|Ke| + |Kn| + 2) / r := ⟨_, rfl⟩
  have hG0 : 0 < G := hG ▸ (by positivity)
  obtain ⟨E, hE⟩ : ∃ E, E = Real.exp ((2 * G * r + 1) * (t1 - t0)) := ⟨_, rfl⟩
  have hL : 0 ≤ t1 - t0 := by linarith
  have hE1 : 1 ≤ E := hE ▸ Real.one_le_exp (by positivity)
  have hE0 : 0 < E := by linarith
  have hA := area_nonneg r
  obtain ⟨κ0, hκ0⟩ : ∃ κ0, κ0 = η / (64 * (2 + (t1 - t0)) * E) := ⟨_, rfl⟩
  have hκ0p : 0 < κ0 := hκ0 ▸ (by positivity)
  obtain ⟨ε1, hε1⟩ : ∃ ε1, ε1 = min 1 (κ0 / (area r + 1)) := ⟨_, rfl⟩
  have hε1p : 0 < ε1 := hε1 ▸ lt_min one_pos (by positivity)
  have hε11 : ε1 ≤ 1 := hε1 ▸ min_le_left _ _
  have hκ : area r * ε1 ^ 2 ≤ κ0 := by
    have h2 : ε1 * (area r + 1) ≤ κ0 := (le_div_iff₀ (by linarith)).mp (hε1 ▸ min_le_right _ _)
    have h3 : ε1 ^ 2 ≤ ε1 := by nlinarith
    nlinarith
  have hκE : κ0 * (2 + (t1 - t0)) * E = η / 64 := by
    rw [hκ0]
    field_simp
  have hκε : κ0 ≤ η / (64 * E) := by
    rw [hκ0]
    refine div_le_div_of_nonneg_left hη.le (by positivity) ?_
    nlinarith
  obtain ⟨m, hm1, hm2, hm3, hm4⟩ := ((u1.tends ε1 hε1p).and ((u2.tends 1 one_pos).and ((u3.tends 1 one_pos).and (u4.tends ε1 hε1p)))).exists
  obtain ⟨Fm, hFm⟩ : ∃ Fm : (Fin 4 → ℝ) → ℝ, Fm = fun x => (P m).eval x := ⟨_, rfl⟩
  have hFs : ContDiff ℝ (⊤ : ℕ∞) Fm := hFm ▸ mvPoly_smooth (P m)
  rw [← hFm] at hm1 hm2 hm3 hm4
  obtain ⟨D, hD⟩ := mvPoly_harmonic (P m)
  refine ⟨max D 1, η / (64 * E), by positivity, fun {g N S M} hg hgr hgo hT0 hT h hMν hMo hW => ?_⟩
  have h1 : 1 ≤ g.ntrunc := (le_max_right _ _).trans hT0
  have hN := h.exact.norm_ne
  obtain ⟨c, c', hcd, hc⟩ := hD N hN g.ntrunc ((le_max_left _ _).trans hT0)
  replace hc : ∀ t x y, onSphere Fm t x y = harmonicSum N (c t) x y := fun t x y => by rw [hFm]; exact hc t x y
  subst hgr
  subst hgo
  subst hMν
  subst hMo
  have hp := fun t x y (hy : cos y ≠ 0) => vortCoeff_fn hr.ne' hN h1 g.omega hFs (hc t) x hy
  have hsV := fun t => onSphere_smooth (vort_smooth g.rsphere g.omega hF) t
  have hpQ : ∀ t ∈ Icc t0 t1, sqDist g.rsphere (harmonicSum N (vortCoeff N g.rsphere g.omega (c t))) (onSphere (vort g.rsphere g.omega F) t) ≤ κ0 := by
    intro t htt
    refine (integral_le_area ((harmonicSum_smooth _).sub (hsV t)) g.rsphere (ε := ε1) fun x y hy => ?_).trans hκ
    rw [hp t x y hy]
    exact hm1 t (hbt t htt) x y
  refine ⟨h1, ⟨vortCoeff N g.rsphere g.omega (c t0), (hpQ t0 ⟨le_rfl, ht⟩).trans hκε⟩, fun Y hY hY0 t htt => ?_⟩
  have hst := C121_stability (G := G) (ρ := κ0) hg h h1 hT hν hY (p := fun t => vortCoeff N g.rsphere g.omega (c t))
    (p' := fun t => -degMul (fun n => n * (n + 1) / g.rsphere ^ 2) (c' t)) (fun t _ => (vortCoeff_hasDeriv _ _ (hcd t)).hasDerivWithinAt) hG0
    (fun t htt x y hy => by
      have e : sphereGrad g.rsphere (harmonicSum N (vortCoeff N g.rsphere g.omega (c t))) x y =
          sphereGrad g.rsphere (onSphere (vort g.rsphere g.omega Fm) t) x y := by
        have e1 : dlon (harmonicSum N (vortCoeff N g.rsphere g.omega (c t))) x y = dlon (onSphere (vort g.rsphere g.omega Fm) t) x y :=
          congrArg (fun f => deriv f x) (funext fun x => hp t x y hy)
        have e2 : dlat (harmonicSum N (vortCoeff N g.rsphere g.omega (c t))) x y = dlat (onSphere (vort g.rsphere g.omega Fm) t) x y := by
          refine Filter.EventuallyEq.deriv_eq ?_
          filter_upwards [(isOpen_ne_fun Real.continuous_cos continuous_const).mem_nhds hy] with y' hy'
          exact hp t x y' hy'
        unfold sphereGrad
        rw [e1, e2]
      rw [e, sphereGrad_onSphere (vort_smooth _ _ hFs) _ t x hy, hG]
      have a1 : |east (vort g.rsphere g.omega Fm) t x y| ≤ |Ke| + 1 := by
        have b1 := hm2 t (hbt t htt) x y
        have b2 := (hKe t (hbt t htt) x y).trans (le_abs_self Ke)
        have b3 := abs_sub_abs_le_abs_sub (east (vort g.rsphere g.omega Fm) t x y) (east (vort g.rsphere g.omega F) t x y)
        linarith
      have a2 : |north (vort g.rsphere g.omega Fm) t x y| ≤ |Kn| + 1 := by
        have b1 := hm3 t (hbt t htt) x y
        have b2 := (hKn t (hbt t htt) x y).trans (le_abs_self Kn)
        have b3 := abs_sub_abs_le_abs_sub (north (vort g.rsphere g.omega Fm) t x y) (north (vort g.rsphere g.omega F) t x y)
        linarith
      have b1 := pow_le_pow_left₀ (abs_nonneg _) a1 2
      have b2 := pow_le_pow_left₀ (abs_nonneg _) a2 2
      rw [sq_abs] at b1 b2
      rw [div_pow, div_pow, div_pow, ← add_div]
      refine div_le_div_of_nonneg_right ?_ (sq_nonneg _)
      nlinarith [abs_nonneg Ke, abs_nonneg Kn, mul_nonneg (abs_nonneg Ke) (abs_nonneg Kn)])
    (fun t htt => by
      have hbg := diffusesAround_background h h1 hW
      rw [sphereIntegral_congr g.rsphere (G := fun x y => defect g.rsphere g.omega M.diffusionCoeff M.diffusionOrder W Fm t x y ^ 2) fun x y hy => by
        rw [residual_defect hg h h1 hbg hFs hc hcd t x hy]]
      refine (integral_le_area (defect_smooth _ _ _ _ _ hFs t) g.rsphere (ε := ε1) fun x y hy => ?_).trans hκ
      have b1 := hm4 t (hbt t htt) x y
      rwa [defect_zero hr.ne' hΨ hF hΨF htt x hy, sub_zero] at b1) t htt
  have s0 := harmonicSum_smooth (N := N) (Y t0)
  have st := harmonicSum_smooth (N := N) (Y t)
  have q0 := harmonicSum_smooth (N := N) (vortCoeff N g.rsphere g.omega (c t0))
  have qt := harmonicSum_smooth (N := N) (vortCoeff N g.rsphere g.omega (c t))
  have c1 := sqDist_triangle (r := g.rsphere) s0 (hsV t0) q0
  have c2 := sqDist_triangle (r := g.rsphere) st qt (hsV t)
  have c3 := hpQ t htt
  have c4 := hpQ t0 ⟨le_rfl, ht⟩
  rw [sqDist_comm] at c4
  change sqDist g.rsphere (harmonicSum N (Y t)) (harmonicSum N (vortCoeff N g.rsphere g.omega (c t))) ≤
    (sqDist g.rsphere (harmonicSum N (Y t0)) (harmonicSum N (vortCoeff N g.rsphere g.omega (c t0))) + κ0 * (t - t0)) * _ at hst
  have c5 : Real.exp ((2 * G * g.rsphere + 1) * (t - t0)) ≤ E := by
    rw [hE]
    refine Real.exp_le_exp.mpr (mul_le_mul_of_nonneg_left ?_ (by positivity))
    have := htt.2
    linarith
  have c6 : κ0 * (t - t0) ≤ κ0 * (t1 - t0) := mul_le_mul_of_nonneg_left (by have := htt.2; linarith) hκ0p.le
  have c7 : 0 ≤ sqDist g.rsphere (harmonicSum N (Y t0)) (harmonicSum N (vortCoeff N g.rsphere g.omega (c t0))) := sqDist_nonneg s0 q0 _
  have c8 : 0 ≤ κ0 * (t - t0) := mul_nonneg hκ0p.le (by have := htt.1; linarith)
  have c9 := hst.trans (mul_le_mul_of_nonneg_left c5 (by linarith))
  have d1 : η / (64 * E) * E = η / 64 := by field_simp
  have d2 : κ0 ≤ η / 64 := hκε.trans (div_le_div_of_nonneg_left hη.le (by norm_num) (by linarith))
  have d3 : (sqDist g.rsphere (harmonicSum N (Y t0)) (harmonicSum N (vortCoeff N g.rsphere g.omega (c t0))) + κ0 * (t - t0)) * E ≤
      (2 * (η / (64 * E)) + κ0 * (2 + (t1 - t0))) * E := mul_le_mul_of_nonneg_right (by linarith) hE0.le
  have d4 : (2 * (η / (64 * E)) + κ0 * (2 + (t1 - t0))) * E = 3 * (η / 64) := by
    rw [add_mul, hκE, mul_assoc, d1]
    ring
  linarith

/-- C121: the states returned by `run` converge to smooth solutions of the barotropic vorticity equation: for every tolerance there is a truncation from
which on the mean square error is within the tolerance at all times, if the initial state is sufficiently accurate and the time step sufficiently small. -/
theorem C121_converges {r Ω ν W t0 t1 t2 : ℝ} {order : ℕ} {Ψ : ℝ → ℝ → ℝ → ℝ} (hν : 0 ≤ ν)
    (hΨ : SmoothSolution r Ω ν order W t0 t1 Ψ) (h02 : t0 ≤ t2) (h21 : t2 < t1) {η : ℝ} (hη : 0 < η) :
    ∃ T0 : ℕ, ∃ ε > 0, ∀ {g : Grid ℝ} {N : ℕ → ℕ → ℝ} {S : g.Sph} {M : BModel g}, g.Valid → g.rsphere = r → g.omega = Ω → T0 ≤ g.ntrunc →
      2 * g.ntrunc + 1 ≤ g.nlat → Spharm.Dealiased N S → M.diffusionCoeff = ν → M.diffusionOrder = order → M.DiffusesAround W → M.rhs = none →
      (∃ q : g.Spc, sqDist r (harmonicSum N q) (absVort r Ω (Ψ t0)) ≤ ε) ∧
      ∀ s : St PyTime g, s.time.sec = t0 → sqDist r (s.pvFn N) (absVort r Ω (Ψ t0)) ≤ ε → ∃ δ > 0,
        ∀ (dt : PyDelta) (tend : PyTime) (se : ℝ), s.time.Compatible dt → s.time.SameKind tend → 0 < toSeconds dt → toSeconds dt < δ →
        t0 ≤ tend.sec → tend.sec ≤ t2 → (se ≤ 0 ∨ ∃ x, s.time = .num x) →
        ∃ sf saved, M.Returns S s dt tend se sf saved ∧ tend.sec ≤ sf.time.sec ∧ ∀ w ∈ sf :: saved, w.time.sec ∈ Icc t0 t1 ∧
          sqDist r (w.pvFn N) (absVort r Ω (Ψ w.time.sec)) < η := by
  obtain ⟨T0, ε, hε, key⟩ := C121_truncation hν hΨ (h02.trans h21.le) (show 0 < η / 4 by positivity)
  refine ⟨T0, ε, hε, fun {g N S M} hg hgr hgo hT0 hT h hMν hMo hW hrhs => ?_⟩
  obtain ⟨h1, hq, hsol⟩ := key hg hgr hgo hT0 hT h hMν hMo hW
  refine ⟨hq, fun s hs hs0 => ?_⟩
  have hν' : 0 ≤ M.diffusionCoeff := hMν ▸ hν
  obtain ⟨F, hF, hΨF⟩ := hΨ.smooth
  obtain ⟨hf, hL, hG⟩ := unforced (g := g) hrhs s.time.sec t1
  obtain ⟨Y, hY, hY0, -⟩ := C120_exists (M := M) hg h h1 hT hν' (show s.time.sec ≤ t1 by rw [hs]; linarith) hL hG s.q
  have hacc := hsol Y (hs ▸ hY) (by rw [← hs, hY0, hs]; exact hs0)
  have hr : r ≠ 0 := hgr ▸ hg.rsphere_pos.ne'
  have hc : Continuous fun e : g.Spc => spherePair r (harmonicSum N e) (harmonicSum N e) := spherePair_continuous hr continuous_id continuous_id
  have h0 : spherePair r (harmonicSum N (0 : g.Spc)) (harmonicSum N (0 : g.Spc)) = 0 := by
    have : harmonicSum N (0 : g.Spc) = fun _ _ => 0 := by funext x y; exact modeSum_eq_zero N legendre (fun _ => .inl rfl) x y
    rw [this]
    simp [spherePair, sphereIntegral]
  obtain ⟨ε2, hε2, hnear⟩ := Metric.continuousAt_iff.mp (hc.continuousAt (x := 0)) (η / 4) (by positivity)
  obtain ⟨δ, hδ, hrun⟩ := converges_of_solution h.exact.linear hν' hf s (hs ▸ h02) h21 hL hY hY0 ε2 hε2
  refine ⟨δ, hδ, fun dt tend se hc hk hd hdδ hst hend hse => ?_⟩
  obtain ⟨sf, saved, hret, hle, hall⟩ := hrun dt tend se hc hk hd hdδ (hs ▸ hst) hend hse
  refine ⟨sf, saved, hret, hle, fun w hw => ?_⟩
  obtain ⟨hwt, hwq, -⟩ := hall w hw
  rw [hs] at hwt
  refine ⟨hwt, ?_⟩
  have e1 : sqDist r (w.pvFn N) (harmonicSum N (Y w.time.sec)) < η / 4 := by
    have := hnear (x := w.q - Y w.time.sec) (by rw [dist_zero_right]; exact hwq)
    rw [h0, Real.dist_eq, sub_zero] at this
    refine lt_of_eq_of_lt (sphereIntegral_congr r fun x y _ => ?_) (lt_of_abs_lt this)
    rw [show w.q - Y w.time.sec = w.q + (-1 : ℝ) • Y w.time.sec by rw [neg_one_smul, sub_eq_add_neg], harmonicSum_lin]
    unfold St.pvFn
    ring
  have e2 := hacc _ hwt
  have hQ : ∀ A : ℝ → ℝ → ℝ, sqDist r A (absVort r Ω (Ψ w.time.sec)) = sqDist r A (onSphere (vort r Ω F) w.time.sec) := fun A =>
    sphereIntegral_congr r fun x y hy => by
      rw [← absVort_onSphere hF r Ω _ x hy]
      congr 3
      funext x y
      exact hΨF _ x y
  rw [hQ] at e2 ⊢
  have := sqDist_triangle (r := r) (harmonicSum_smooth (N := N) w.q) (harmonicSum_smooth (N := N) (Y w.time.sec))
    (onSphere_smooth (vort_smooth r Ω hF) w.time.sec)
  change sqDist r (harmonicSum N w.q) _ < η
  change sqDist r (harmonicSum N w.q) _ < η / 4 at e1
  linarith

/-- There are grids with all truncations whose longitudes are spaced by the resolution, with transforms that are exact for products. -/
theorem grids_dealiased {r : ℝ} (hr : 0 < r) (Ω : ℝ) (T : ℕ) : ∃ (g : Grid ℝ) (S : g.Sph), g.Valid ∧ g.rsphere = r ∧ g.omega = Ω ∧ g.ntrunc = T ∧
    2 * g.ntrunc + 1 ≤ g.nlat ∧ g.resolution * g.nlon = 360 ∧ Spharm.Dealiased (fun _ _ => 1) S := by
  obtain ⟨g, hg⟩ : ∃ g : Grid ℝ, g = ⟨180 / (2 * T + 2 : ℕ), r, Ω, T⟩ := ⟨_, rfl⟩
  have hp : (0 : ℝ) < (2 * T + 2 : ℕ) := by exact_mod_cast (by omega : 0 < 2 * T + 2)
  have e1 : (180 : ℝ) / (180 / (2 * T + 2 : ℕ)) = (2 * T + 2 : ℕ) := by field_simp
  have e2 : (360 : ℝ) / (180 / (2 * T + 2 : ℕ)) = (2 * (2 * T + 2) : ℕ) := by push_cast; field_simp; norm_num
  have n1 : g.nlat = 2 * T + 3 := by rw [hg]; unfold Grid.nlat Grid.nlatOf; rw [e1, Nat.floor_natCast]
  have n2 : g.nlon = 2 * (2 * T + 2) := by rw [hg]; unfold Grid.nlon Grid.nlonOf; rw [e2, Nat.floor_natCast]
  have nt : g.ntrunc = T := by rw [hg]
  have hv : g.Valid := ⟨by rw [hg]; positivity, by rw [hg]; exact hr, by rw [n2]; omega, by rw [n1]; omega, by rw [n1, nt]; omega⟩
  obtain ⟨⟨S, h⟩, -⟩ := C119_exists (N := fun _ _ => 1) hv (by rw [n1, nt]; omega) (fun _ _ => one_ne_zero)
  exact ⟨g, S, hv, by rw [hg], by rw [hg], nt, by rw [n1, nt]; omega, by rw [n2, hg]; push_cast; field_simp; norm_num, h⟩

/-- C121: there are grids and transforms for every truncation. -/
theorem C121_grids {r : ℝ} (hr : 0 < r) (Ω : ℝ) (T : ℕ) : ∃ (g : Grid ℝ) (S : g.Sph), g.Valid ∧ g.rsphere = r ∧ g.omega = Ω ∧ g.ntrunc = T ∧
    2 * g.ntrunc + 1 ≤ g.nlat ∧ Spharm.Dealiased (fun _ _ => 1) S := by
  obtain ⟨g, S, a1, a2, a3, a4, a5, -, a6⟩ := grids_dealiased hr Ω T
  exact ⟨g, S, a1, a2, a3, a4, a5, a6⟩

/-! ## Non-vacuity: a damped wave -/

/-- Linear function of position -/
noncomputable def tilt (a b : ℝ → ℝ) (p : Fin 4 → ℝ) : ℝ := a (p 0) * p 1 + b (p 0) * p 2

theorem tilt_smooth {a b : ℝ → ℝ} (ha : ContDiff ℝ (⊤ : ℕ∞) a) (hb : ContDiff ℝ (⊤ : ℕ∞) b) : ContDiff ℝ (⊤ : ℕ∞) (tilt a b) :=
  ((ha.comp (contDiff_apply ℝ ℝ 0)).mul (contDiff_apply ℝ ℝ 1)).add ((hb.comp (contDiff_apply ℝ ℝ 0)).mul (contDiff_apply ℝ ℝ 2))

theorem pd_of_hasFDeriv {F : (Fin 4 → ℝ) → ℝ} {F' : (Fin 4 → ℝ) →L[ℝ] ℝ} {p : Fin 4 → ℝ} (h : HasFDerivAt F F' p) (i : Fin 4) :
    pd i F p = F' (Pi.single i 1) := by
  unfold pd
  rw [h.fderiv]

theorem coord_hasFDeriv (i : Fin 4) (p : Fin 4 → ℝ) :
    HasFDerivAt (fun p : Fin 4 → ℝ => p i) (ContinuousLinearMap.proj (R := ℝ) (φ := fun _ : Fin 4 => ℝ) i) p := hasFDerivAt_apply i p

theorem pd_time (f : ℝ → ℝ) (hf : ContDiff ℝ (⊤ : ℕ∞) f) (i : Fin 4) : pd i (fun p => f (p 0)) = fun p => if i = 0 then deriv f (p 0) else 0 := by
  funext p
  have h : HasFDerivAt (fun p : Fin 4 → ℝ => f (p 0)) _ p := (hf.differentiable (by simp) (p 0)).hasDerivAt.comp_hasFDerivAt p (coord_hasFDeriv 0 p)
  rw [pd_of_hasFDeriv h]
  simp [Pi.single_apply, eq_comm]

theorem pd_tilt {a b : ℝ → ℝ} (ha : ContDiff ℝ (⊤ : ℕ∞) a) (hb : ContDiff ℝ (⊤ : ℕ∞) b) :
    pd 0 (tilt a b) = tilt (deriv a) (deriv b) ∧ pd 1 (tilt a b) = (fun p => a (p 0)) ∧ pd 2 (tilt a b) = (fun p => b (p 0)) ∧
    pd 3 (tilt a b) = fun _ => 0 := by
  have da := fun t => (ha.differentiable (by simp) t).hasDerivAt
  have db := fun t => (hb.differentiable (by simp) t).hasDerivAt
  have key : ∀ p, HasFDerivAt (tilt a b) _ p := fun p =>
    (((da (p 0)).comp_hasFDerivAt p (coord_hasFDeriv 0 p)).mul (coord_hasFDeriv 1 p)).add
      (((db (p 0)).comp_hasFDerivAt p (coord_hasFDeriv 0 p)).mul (coord_hasFDeriv 2 p))
  refine ⟨?_, ?_, ?_, ?_⟩ <;> funext p <;> rw [pd_of_hasFDeriv (key p)] <;> simp [tilt, Pi.single_apply] <;> try ring

theorem lapl_tilt {a b : ℝ → ℝ} (ha : ContDiff ℝ (⊤ : ℕ∞) a) (hb : ContDiff ℝ (⊤ : ℕ∞) b) (p : Fin 4 → ℝ) : lapl (tilt a b) p = -2 * tilt a b p := by
  obtain ⟨-, h1, h2, h3⟩ := pd_tilt ha hb
  have hz : ∀ i, pd i (fun _ : Fin 4 → ℝ => (0 : ℝ)) = fun _ => 0 := fun i => by
    funext p
    rw [pd_of_hasFDeriv (hasFDerivAt_const (0 : ℝ) p)]
    rfl
  unfold lapl
  simp only [h1, h2, h3, hz, pd_time a ha, pd_time b hb]
  simp [tilt]
  ring

theorem hyperL_tilt (r : ℝ) (k : ℕ) {a b : ℝ → ℝ} (ha : ContDiff ℝ (⊤ : ℕ∞) a) (hb : ContDiff ℝ (⊤ : ℕ∞) b) (p : Fin 4 → ℝ) :
    hyperL r k (tilt a b) p = (2 / r ^ 2) ^ k * tilt a b p := by
  induction k generalizing a b with
  | zero => simp [hyperL]
  | succ k ih =>
    have e : (fun p => -(r ^ 2)⁻¹ * lapl (tilt a b) p) = tilt (fun t => 2 / r ^ 2 * a t) (fun t => 2 / r ^ 2 * b t) := by
      funext p
      rw [lapl_tilt ha hb]
      unfold tilt
      ring
    change hyperL r k (fun p => -(r ^ 2)⁻¹ * lapl (tilt a b) p) p = _
    rw [e, ih (contDiff_const.mul ha) (contDiff_const.mul hb)]
    unfold tilt
    ring

/-- A wave of degree and order 1 that moves westward with the angular velocity of the rotation (the flow does not rotate as seen from space) and is
damped by diffusion of relative vorticity -/
theorem damped_wave {r : ℝ} (hr : r ≠ 0) (Ω ν : ℝ) (k : ℕ) (t0 t1 : ℝ) : SmoothSolution r Ω ν k Ω t0 t1 fun t x y =>
    Real.exp (-(ν * (2 / r ^ 2) ^ k * t)) * cos y * cos (x + Ω * t) := by
  obtain ⟨μ, hμ⟩ : ∃ μ, μ = ν * (2 / r ^ 2) ^ k := ⟨_, rfl⟩
  let a : ℝ → ℝ := fun t => Real.exp (-(μ * t)) * cos (Ω * t)
  let b : ℝ → ℝ := fun t => -(Real.exp (-(μ * t)) * sin (Ω * t))
  have ce : ContDiff ℝ (⊤ : ℕ∞) fun t => Real.exp (-(μ * t)) := Real.contDiff_exp.comp (contDiff_const.mul contDiff_id).neg
  have ha : ContDiff ℝ (⊤ : ℕ∞) a := ce.mul (Real.contDiff_cos.comp (contDiff_const.mul contDiff_id))
  have hb : ContDiff ℝ (⊤ : ℕ∞) b := (ce.mul (Real.contDiff_sin.comp (contDiff_const.mul contDiff_id))).neg
  have de : ∀ t, HasDerivAt (fun t => Real.exp (-(μ * t))) (Real.exp (-(μ * t)) * -(μ * 1)) t := fun t => ((hasDerivAt_id t).const_mul μ).neg.exp
  have dc : ∀ t, HasDerivAt (fun t => cos (Ω * t)) (-sin (Ω * t) * (Ω * 1)) t := fun t => ((hasDerivAt_id t).const_mul Ω).cos
  have ds : ∀ t, HasDerivAt (fun t => sin (Ω * t)) (cos (Ω * t) * (Ω * 1)) t := fun t => ((hasDerivAt_id t).const_mul Ω).sin
  have da : ∀ t, deriv a t = Ω * b t - μ * a t := fun t => by
    rw [show deriv a t = _ from ((de t).mul (dc t)).deriv]
    simp only [a, b]
    ring
  have db : ∀ t, deriv b t = -Ω * a t - μ * b t := fun t => by
    rw [show deriv b t = _ from ((de t).mul (ds t)).neg.deriv]
    simp only [a, b]
    ring
  have hF := tilt_smooth ha hb
  have eF : (fun t x y => Real.exp (-(ν * (2 / r ^ 2) ^ k * t)) * cos y * cos (x + Ω * t)) = onSphere (tilt a b) := by
    funext t x y
    have s0 : spacetime t x y 0 = t := rfl
    have s1 : spacetime t x y 1 = cos y * cos x := rfl
    have s2 : spacetime t x y 2 = cos y * sin x := rfl
    rw [← hμ, Real.cos_add]
    simp only [onSphere, tilt, s0, s1, s2, a, b]
    ring
  rw [eF]
  refine ⟨⟨_, hF, fun _ _ _ => rfl⟩, fun t _ x y hy => (equation_iff hr hF t x hy).mpr ?_⟩
  obtain ⟨h0, h1, h2, h3⟩ := pd_tilt ha hb
  have ev : vort r Ω (tilt a b) = fun p => -2 * (r ^ 2)⁻¹ * tilt a b p + 2 * Ω * p 3 := by
    funext p
    unfold vort
    rw [lapl_tilt ha hb]
    ring
  have hv : ∀ p, HasFDerivAt (vort r Ω (tilt a b)) ((-2 * (r ^ 2)⁻¹) • fderiv ℝ (tilt a b) p + (2 * Ω) • (ContinuousLinearMap.proj (R := ℝ) (φ := fun _ : Fin 4 => ℝ) 3)) p := by
    intro p
    rw [ev]
    exact ((hF.differentiable (by simp) p).hasFDerivAt.const_mul _).add ((coord_hasFDeriv 3 p).const_mul _)
  have pv : ∀ i p, pd i (vort r Ω (tilt a b)) p = -2 * (r ^ 2)⁻¹ * pd i (tilt a b) p + 2 * Ω * (Pi.single i 1 : Fin 4 → ℝ) 3 := fun i p => by
    rw [pd_of_hasFDeriv (hv p)]
    rfl
  have ed : (fun p => vort r Ω (tilt a b) p + -(2 * Ω) * p 3) = tilt (fun t => -2 * (r ^ 2)⁻¹ * a t) (fun t => -2 * (r ^ 2)⁻¹ * b t) := by
    funext p
    rw [ev]
    unfold tilt
    ring
  have s0 : spacetime t x y 0 = t := rfl
  have s1 : spacetime t x y 1 = cos y * cos x := rfl
  have s2 : spacetime t x y 2 = cos y * sin x := rfl
  unfold defect
  rw [ed]
  simp only [onSphere, east, north, hyperL_tilt r k (contDiff_const.mul ha) (contDiff_const.mul hb), pv, h0, h1, h2, h3]
  simp only [tilt, s0, s1, s2, da, db, hμ]
  simp [Pi.single_apply]
  ring

/-- Non-vacuity of C121: the damped wave on grids with radius 1 -/
example : ∃ (g : Grid ℝ) (S : g.Sph) (s : St PyTime g), g.Valid ∧ ∃ δ > 0, ∀ h > 0, h < δ →
    ∃ sf saved, (⟨none, 2, 1 / 100, some g.fcor2⟩ : BModel g).Returns S s (.num h) (.num 10) 0 sf saved ∧ 10 ≤ sf.time.sec ∧
      sqDist 1 (sf.pvFn fun _ _ => 1) (absVort 1 1 fun x y => Real.exp (-(1 / 100 * (2 / 1 ^ 2) ^ 2 * sf.time.sec)) * cos y * cos (x + 1 * sf.time.sec)) < 1 / 1000 := by
  obtain ⟨T0, ε, hε, key⟩ := C121_converges (t2 := 10) (η := 1 / 1000) (show (0 : ℝ) ≤ 1 / 100 by norm_num) (damped_wave one_ne_zero 1 (1 / 100) 2 0 11) (by norm_num)
    (by norm_num) (by norm_num)
  obtain ⟨g, S, hg, g1, g2, g3, g4, h⟩ := C121_grids one_pos 1 T0
  obtain ⟨⟨q, hq⟩, hrun⟩ := key (M := ⟨none, 2, 1 / 100, some g.fcor2⟩) hg g1 g2 g3.ge g4 h rfl rfl (.inr ⟨rfl, g2.symm⟩) rfl
  obtain ⟨δ, hδ, hr⟩ := hrun ⟨.num 0, q⟩ rfl hq
  refine ⟨g, S, ⟨.num 0, q⟩, hg, δ, hδ, fun dt hd hdδ => ?_⟩
  obtain ⟨sf, saved, r1, r2, r3⟩ := hr (.num dt) (.num 10) 0 trivial trivial hd hdδ (by norm_num [PyTime.sec]) le_rfl (.inl le_rfl)
  exact ⟨sf, saved, r1, r2, (r3 sf List.mem_cons_self).2⟩

end Barotropic
