import Verif.Lemmas.Dealias
import Verif.Lemmas.Parseval
import Verif.Props.TimeConvergence

/-!
# The truncated equation: C119
-/

namespace Barotropic
open Real (cos sin)
open Set

variable {T : ℕ} {N : ℕ → ℕ → ℝ} {g : Grid ℝ} {S : g.Sph} {τ : Type} {M : BModel g}

theorem modeDot_comm (m : ℕ) (a b : ℂ) : modeDot m a b = modeDot m b a := by
  unfold modeDot; split_ifs <;> ring

theorem modeDot_zero (m : ℕ) (b : ℂ) : modeDot m 0 b = 0 := by
  unfold modeDot; split_ifs <;> simp

/-- Only common degrees contribute. -/
theorem spherePair_congr {r : ℝ} (hr : r ≠ 0) {p q q' : SpecField T} (h : ∀ k, p k = 0 ∨ q k = q' k) :
    spherePair r (harmonicSum N p) (harmonicSum N q) = spherePair r (harmonicSum N p) (harmonicSum N q') := by
  rw [parseval hr, parseval hr]
  refine Finset.sum_congr rfl fun k _ => ?_
  rcases h k with h | h
  · rw [h, modeDot_zero, modeDot_zero]
  · rw [h]

theorem spherePair_dropMean {r : ℝ} (hr : r ≠ 0) {p : SpecField T} (hp : ∀ k, specN k = 0 → p k = 0) (q : SpecField T) :
    spherePair r (harmonicSum N p) (harmonicSum N (dropMean q)) = spherePair r (harmonicSum N p) (harmonicSum N q) :=
  spherePair_congr hr fun k => by
    by_cases hk : specN k = 0
    · exact .inl (hp k hk)
    · exact .inr (if_neg hk)

/-- C119: on grids with more than twice as many latitudes as degrees there are transforms without aliasing; they are exact up to the
truncation. -/
theorem C119_exists (hg : g.Valid) (hT : 2 * g.ntrunc + 2 ≤ g.nlat) (hN : ∀ n m, N n m ≠ 0) :
    (∃ S : g.Sph, Spharm.Dealiased N S) ∧ ∀ S : g.Sph, Spharm.Dealiased N S → Spharm.Exact N g.ntrunc S :=
  ⟨exists_dealiased hg hT hN, fun _ h => h.exact⟩

/-- The flow of a state, with the flux before truncation -/
theorem dealiased_flow (hg : g.Valid) (h : Spharm.Dealiased N S) (h1 : 1 ≤ g.ntrunc) (hT : 2 * g.ntrunc + 1 ≤ g.nlat) (s : St τ g) :
    ∃ U V R, Flow g.rsphere (s.pvFn N) (s.streamFn N S) U V R ∧
      (∃ mean, ∀ x y, cos y ≠ 0 → s.pvFn N x y = sphereCurl g.rsphere U V x y + 2 * g.omega * sin y + mean) ∧
      (∀ x y, cos y ≠ 0 → R x y = sphereFlux g.rsphere (s.pvFn N) (s.streamFn N S) x y) ∧
      (∀ p : g.Spc, spherePair g.rsphere (harmonicSum N p) (s.fluxFn N S) = spherePair g.rsphere (harmonicSum N p) R) ∧
      RealZonal (s.pvFluxSpectral S) ∧ ∀ k, specN k = 0 → s.pvFluxSpectral S k = 0 := by
  obtain ⟨S', h', hS⟩ := h
  have hr := hg.rsphere_pos.ne'
  have hg' : (g.withTrunc (2 * g.ntrunc)).Valid := withTrunc_valid hg hT
  have hle : g.ntrunc ≤ 2 * g.ntrunc := by omega
  obtain ⟨ev, ef⟩ := flux_withTrunc h1 (by omega) hle h' hS s
  set s' := s.withTrunc (2 * g.ntrunc) with hs'
  have hb : BandLimited g.ntrunc s'.q := retrunc_band_self _
  have hfl := state_flow hg' h' s' h1 le_rfl le_rfl hb
  have hvo := state_vorticity hg' h' s' (by change 1 ≤ 2 * g.ntrunc; omega) (by omega)
  have hex := flux_exact hg' h' s' h1 le_rfl le_rfl hb
  have e1 : s'.pvFn N = s.pvFn N := by
    funext x y
    exact harmonicSum_retrunc hle s.q x y
  have e2 : s'.streamFn N S' = s.streamFn N S := by
    rw [streamFn_eq, streamFn_eq, ev]
    funext x y
    have := retrunc_invLaplace (T' := 2 * g.ntrunc) g.rsphere (s.vorticitySpectral S)
    exact (congrArg (fun p => harmonicSum N p x y) this.symm).trans (harmonicSum_retrunc hle _ x y)
  have e3 : s'.streamFn N S' = harmonicSum N (invLaplace g.rsphere (s'.vorticitySpectral S')) := streamFn_eq s'
  rw [e1, e2] at hfl
  rw [e1] at hvo
  refine ⟨_, _, _, hfl, hvo, fun x y hy => ?_, fun p => ?_, ?_, fun k hk => ?_⟩
  · have := hex.2.2.2 x y hy
    rw [← e1, ← e2, e3]
    exact this
  · have ep : harmonicSum N p = harmonicSum N (retrunc (2 * g.ntrunc) p) := by
      funext x y
      exact (harmonicSum_retrunc hle p x y).symm
    have ef' : s.fluxFn N S = harmonicSum N (retrunc (2 * g.ntrunc) (s.pvFluxSpectral S)) := by
      funext x y
      exact (harmonicSum_retrunc hle _ x y).symm
    rw [ep, ef', ef]
    refine spherePair_congr hr fun k => ?_
    by_cases hk : specN k ≤ g.ntrunc
    · right
      obtain ⟨l, hm, hn⟩ := exists_index (specM_le_specN k) hk
      rw [retrunc_apply _ hm hn]
      exact retrunc_apply _ hm.symm hn.symm
    · exact .inl (retrunc_zero_of _ (by omega))
  · rw [ef]; exact retrunc_real hex.1
  · rw [ef]
    obtain ⟨l, hm, hn⟩ := exists_index (T := 2 * g.ntrunc) (specM_le_specN k) ((specN_le k).trans hle)
    exact (retrunc_apply _ hm hn).trans (hex.2.2.1 l (hn.trans hk))

/-- C119: without aliasing `pv_flux_spectral` is the orthogonal projection of the divergence of the flux of PV on the harmonics of the
truncation, for every state. -/
theorem C119_projection (hg : g.Valid) (h : Spharm.Dealiased N S) (h1 : 1 ≤ g.ntrunc) (hT : 2 * g.ntrunc + 1 ≤ g.nlat) (s : St τ g) (p : g.Spc) :
    spherePair g.rsphere (harmonicSum N p) (s.fluxFn N S) =
      spherePair g.rsphere (harmonicSum N p) (sphereFlux g.rsphere (s.pvFn N) (s.streamFn N S)) := by
  obtain ⟨U, V, R, -, -, hR, hp, -⟩ := dealiased_flow hg h h1 hT s
  rw [hp]
  exact sphereIntegral_congr _ fun x y hy => by rw [hR x y hy]

theorem stream_mean (r : ℝ) (a : SpecField T) (k) (hk : specN k = 0) : invLaplace r a k = 0 := by
  simp [invLaplace, degMul, hk]

/-- C119: the flux changes neither mean PV nor enstrophy, energy and angular momentum, in any state. -/
theorem C119_rates (hg : g.Valid) (h : Spharm.Dealiased N S) (h1 : 1 ≤ g.ntrunc) (hT : 2 * g.ntrunc + 1 ≤ g.nlat) (s : St τ g) :
    sphereIntegral g.rsphere (s.fluxFn N S) = 0 ∧ spherePair g.rsphere (s.pvFn N) (s.fluxFn N S) = 0 ∧
    spherePair g.rsphere (s.streamFn N S) (s.fluxFn N S) = 0 ∧ spherePair g.rsphere (fun _ y => sin y) (s.fluxFn N S) = 0 := by
  have hr := hg.rsphere_pos.ne'
  obtain ⟨U, V, R, hf, ⟨mean, hm⟩, -, hp, -, hz⟩ := dealiased_flow hg h h1 hT s
  have esin : (fun _ y => sin y) = harmonicSum N (solidRotation N (1 / 2) : g.Spc) := by
    funext x y
    rw [harmonicSum_solid h.exact.norm_ne h1]
    ring
  have hone : ∀ x y, harmonicSum N (Pi.single (k0 _) ((1 / N 0 0 : ℝ) : ℂ) : g.Spc) x y = 1 := by
    intro x y
    unfold harmonicSum
    rw [modeSum_single N legendre (k0 _) (fun l hl => by simp [hl])]
    have := h.exact.norm_ne 0 0
    simp [legendre_zero, this]
  refine ⟨?_, ?_, ?_, ?_⟩
  · have e := hp (Pi.single (k0 _) ((1 / N 0 0 : ℝ) : ℂ))
    have c := hf.casimir hr 0
    simp only [spherePair, hone, one_mul] at e
    simp only [pow_zero, one_mul] at c
    rw [e, c]
  · have c := hf.casimir hr 1
    simp only [pow_one] at c
    exact (hp s.q).trans c
  · rw [streamFn_eq, hp, ← streamFn_eq]
    exact hf.energy hr
  · rw [esin, hp, ← esin]
    exact hf.momentum hr hm

/-! ## Budgets of the truncated equation -/

theorem spherePair_deriv {r : ℝ} (hr : r ≠ 0) {P Q : ℝ → SpecField T} {P' Q' : SpecField T} {I : Set ℝ} {t : ℝ} (hP : HasDerivWithinAt P P' I t)
    (hQ : HasDerivWithinAt Q Q' I t) : HasDerivWithinAt (fun t => spherePair r (harmonicSum N (P t)) (harmonicSum N (Q t)))
      (spherePair r (harmonicSum N P') (harmonicSum N (Q t)) + spherePair r (harmonicSum N (P t)) (harmonicSum N Q')) I t := by
  simp only [parseval hr]
  rw [← Finset.sum_add_distrib]
  have re : ∀ {F : ℝ → SpecField T} {F'}, HasDerivWithinAt F F' I t → ∀ k, HasDerivWithinAt (fun t => (F t k).re) (F' k).re I t := fun hF k =>
    Complex.reCLM.hasFDerivAt.comp_hasDerivWithinAt t (hasDerivWithinAt_pi.mp hF k)
  have im : ∀ {F : ℝ → SpecField T} {F'}, HasDerivWithinAt F F' I t → ∀ k, HasDerivWithinAt (fun t => (F t k).im) (F' k).im I t := fun hF k =>
    Complex.imCLM.hasFDerivAt.comp_hasDerivWithinAt t (hasDerivWithinAt_pi.mp hF k)
  refine HasDerivWithinAt.fun_sum fun k _ => ?_
  rw [← mul_add]
  refine HasDerivWithinAt.const_mul _ ?_
  unfold modeDot
  by_cases hm : specM k = 0
  · simp only [if_pos hm, add_zero]
    exact (re hP k).mul (re hQ k)
  · simp only [if_neg hm]
    have := ((re hP k).mul (re hQ k)).add ((im hP k).mul (im hQ k))
    exact this.congr_deriv (by ring)

theorem degMul_deriv (c : ℕ → ℝ) {P : ℝ → SpecField T} {P' : SpecField T} {I : Set ℝ} {t : ℝ} (hP : HasDerivWithinAt P P' I t) :
    HasDerivWithinAt (fun t => degMul c (P t)) (degMul c P') I t :=
  hasDerivWithinAt_pi.mpr fun k => (hasDerivWithinAt_pi.mp hP k).const_mul _

/-- C119: in solutions of the truncated equation mean PV, enstrophy, kinetic energy and angular momentum change through forcing and
diffusion only (`X` is the function of latitude and longitude that these contribute to the tendency). -/
theorem C119_budget (hg : g.Valid) (h : Spharm.Dealiased N S) (h1 : 1 ≤ g.ntrunc) (hT : 2 * g.ntrunc + 1 ≤ g.nlat) {R : ℝ → g.Spc → g.Fld}
    {t0 t1 : ℝ} {Y : ℝ → g.Spc} (hY : M.Solution S R t0 t1 Y) {t : ℝ} (ht : t ∈ Icc t0 t1) :
    let s : ℝ → St ℝ g := fun t => ⟨t, Y t⟩
    let X := harmonicSum N (M.source S R t (Y t))
    HasDerivWithinAt (fun t => sphereIntegral g.rsphere ((s t).pvFn N)) (sphereIntegral g.rsphere X) (Icc t0 t1) t ∧
    HasDerivWithinAt (fun t => totalEnstrophy g.rsphere ((s t).pvFn N)) (spherePair g.rsphere ((s t).pvFn N) X) (Icc t0 t1) t ∧
    HasDerivWithinAt (fun t => totalEnergy g.rsphere ((s t).streamFn N S)) (-spherePair g.rsphere ((s t).streamFn N S) X) (Icc t0 t1) t ∧
    HasDerivWithinAt (fun t => totalMomentum g.rsphere ((s t).streamFn N S)) (g.rsphere ^ 2 * spherePair g.rsphere (fun _ y => sin y) X)
      (Icc t0 t1) t := by
  intro s X
  have hr := hg.rsphere_pos.ne'
  have hN := h.exact.norm_ne
  obtain ⟨r1, r2, r3, r4⟩ := C119_rates hg h h1 hT (s t)
  have hd := hY t ht
  have eD : galerkinRate S R t (Y t) + M.damping S (Y t) = M.source S R t (Y t) + (-1 : ℝ) • (s t).pvFluxSpectral S := by
    unfold galerkinRate pvBudget BModel.source
    funext k
    simp only [Pi.add_apply, Pi.neg_apply, neg_smul, one_smul]
    change S.grdtospec (R t (Y t)) k - (s t).pvFluxSpectral S k + _ = _
    ring
  rw [eD] at hd
  have hX : SphereSmooth X := harmonicSum_smooth _
  -- the flux does not contribute
  have key : ∀ F : ℝ → ℝ → ℝ, SphereSmooth F → spherePair g.rsphere F ((s t).fluxFn N S) = 0 →
      spherePair g.rsphere F (harmonicSum N (M.source S R t (Y t) + (-1 : ℝ) • (s t).pvFluxSpectral S)) = spherePair g.rsphere F X := by
    intro F hF h0
    rw [spherePair_lin _ hF, show harmonicSum N ((s t).pvFluxSpectral S) = (s t).fluxFn N S from rfl, h0, mul_zero, add_zero]
  have eone : (fun _ _ => 1) = harmonicSum N (Pi.single (k0 _) ((1 / N 0 0 : ℝ) : ℂ) : g.Spc) := by
    funext x y
    unfold harmonicSum
    rw [modeSum_single N legendre (k0 _) (fun l hl => by simp [hl])]
    have := hN 0 0
    simp [legendre_zero, this]
  have esin : (fun _ y => sin y) = harmonicSum N (solidRotation N (1 / 2) : g.Spc) := by
    funext x y
    rw [harmonicSum_solid hN h1]
    ring
  have hzero : ∀ F, spherePair g.rsphere (harmonicSum N (0 : g.Spc)) F = 0 := by
    intro F
    unfold spherePair sphereIntegral
    have : ∀ x y, harmonicSum N (0 : g.Spc) x y = 0 := fun x y => modeSum_eq_zero N _ (fun _ => .inl rfl) x y
    simp [this]
  have hint : ∀ F, sphereIntegral g.rsphere F = spherePair g.rsphere (fun _ _ => 1) F := fun F => by simp only [spherePair, one_mul]
  have hvd : HasDerivWithinAt (fun t => (s t).vorticitySpectral S) (M.source S R t (Y t) + (-1 : ℝ) • (s t).pvFluxSpectral S) (Icc t0 t1) t :=
    hd.sub_const _
  have hψd := degMul_deriv (fun n => if n = 0 then 0 else -(g.rsphere ^ 2 / (n * (n + 1)))) hvd
  refine ⟨?_, ?_, ?_, ?_⟩
  · have e := spherePair_deriv (N := N) hr (hasDerivWithinAt_const t (Icc t0 t1) (Pi.single (k0 _) ((1 / N 0 0 : ℝ) : ℂ) : g.Spc)) hd
    rw [hzero, zero_add, ← eone] at e
    rw [hint X, ← key _ (.lat contDiff_const) (by rw [← hint, r1])]
    simp only [hint]
    exact e
  · have e := (spherePair_deriv (N := N) hr hd hd).div_const 2
    rw [spherePair_comm, ← two_mul, mul_div_cancel_left₀ _ (two_ne_zero), key _ (harmonicSum_smooth _) r2] at e
    simp only [St.pvFn, totalEnstrophy_eq]
    exact e
  · have e := (spherePair_deriv (N := N) hr hψd (degMul_deriv (fun n => n * (n + 1) / g.rsphere ^ 2) hψd)).div_const 2
    have hs : ∀ t, totalEnergy g.rsphere ((s t).streamFn N S) = spherePair g.rsphere (harmonicSum N (invLaplace g.rsphere ((s t).vorticitySpectral S)))
        (harmonicSum N (degMul (fun n => n * (n + 1) / g.rsphere ^ 2) (invLaplace g.rsphere ((s t).vorticitySpectral S)))) / 2 := fun t => by
      rw [streamFn_eq, totalEnergy_eq hr, windPair_laplace hr]
    simp only [hs]
    refine e.congr_deriv ?_
    change (spherePair g.rsphere (harmonicSum N (invLaplace g.rsphere (M.source S R t (Y t) + (-1 : ℝ) • (s t).pvFluxSpectral S)))
      (harmonicSum N (degMul (fun n => n * (n + 1) / g.rsphere ^ 2) (invLaplace g.rsphere ((s t).vorticitySpectral S)))) +
      spherePair g.rsphere (harmonicSum N (invLaplace g.rsphere ((s t).vorticitySpectral S))) (harmonicSum N (degMul (fun n => n * (n + 1) / g.rsphere ^ 2)
        (invLaplace g.rsphere (M.source S R t (Y t) + (-1 : ℝ) • (s t).pvFluxSpectral S))))) / 2 = _
    rw [← windPair_laplace hr, ← windPair_laplace hr, windPair_comm, ← two_mul, mul_div_cancel_left₀ _ (two_ne_zero), windPair_green hr,
      spherePair_dropMean hr (stream_mean _ _), ← streamFn_eq, key _ (by rw [streamFn_eq]; exact harmonicSum_smooth _) r3]
  · have e := (spherePair_deriv (N := N) hr (hasDerivWithinAt_const t (Icc t0 t1) (solidRotation N (1 / 2) : g.Spc)) hvd).const_mul (g.rsphere ^ 2)
    have hs : ∀ t, totalMomentum g.rsphere ((s t).streamFn N S) = g.rsphere ^ 2 * spherePair g.rsphere (harmonicSum N (solidRotation N (1 / 2) : g.Spc))
        (harmonicSum N ((s t).vorticitySpectral S)) := fun t => by
      rw [streamFn_eq, totalMomentum_eq hr, esin, spherePair_dropMean hr]
      intro k hk
      simp [solidRotation, hk]
    simp only [hs]
    rw [hzero, zero_add, ← esin, key _ sin_smooth r4] at e
    rw [← esin]
    exact e

theorem const_of_deriv {f : ℝ → ℝ} {t0 t1 : ℝ} (h : ∀ t ∈ Icc t0 t1, HasDerivWithinAt f 0 (Icc t0 t1) t) : ∀ t ∈ Icc t0 t1, f t = f t0 := by
  refine constant_of_has_deriv_right_zero (fun t ht => (h t ht).continuousWithinAt) fun t ht => ?_
  exact (h t (Ico_subset_Icc_self ht)).mono_of_mem_nhdsWithin (Filter.mem_of_superset (Icc_mem_nhdsGE ht.2) (Icc_subset_Icc_left ht.1))

theorem antitone_of_deriv {f f' : ℝ → ℝ} {t0 t1 : ℝ} (h : ∀ t ∈ Icc t0 t1, HasDerivWithinAt f (f' t) (Icc t0 t1) t) (h0 : ∀ t ∈ Icc t0 t1, f' t ≤ 0) :
    AntitoneOn f (Icc t0 t1) := by
  have hd : ∀ t ∈ interior (Icc t0 t1), HasDerivAt f (f' t) t := fun t ht =>
    (h t (interior_subset ht)).hasDerivAt (mem_interior_iff_mem_nhds.mp ht)
  refine antitoneOn_of_deriv_nonpos (convex_Icc _ _) (fun t ht => (h t ht).continuousWithinAt)
    (fun t ht => (hd t ht).differentiableAt.differentiableWithinAt) fun t ht => ?_
  rw [(hd t ht).deriv]
  exact h0 t (interior_subset ht)

/-- C119: without forcing and diffusion they are constant. -/
theorem C119_conserved (hg : g.Valid) (h : Spharm.Dealiased N S) (h1 : 1 ≤ g.ntrunc) (hT : 2 * g.ntrunc + 1 ≤ g.nlat) (hν : M.diffusionCoeff = 0)
    {t0 t1 : ℝ} {Y : ℝ → g.Spc} (hY : M.Solution S 0 t0 t1 Y) {t : ℝ} (ht : t ∈ Icc t0 t1) :
    let s : ℝ → St ℝ g := fun t => ⟨t, Y t⟩
    sphereIntegral g.rsphere ((s t).pvFn N) = sphereIntegral g.rsphere ((s t0).pvFn N) ∧
    totalEnstrophy g.rsphere ((s t).pvFn N) = totalEnstrophy g.rsphere ((s t0).pvFn N) ∧
    totalEnergy g.rsphere ((s t).streamFn N S) = totalEnergy g.rsphere ((s t0).streamFn N S) ∧
    totalMomentum g.rsphere ((s t).streamFn N S) = totalMomentum g.rsphere ((s t0).streamFn N S) := by
  intro s
  have e0 : ∀ t q, harmonicSum N (M.source S 0 t q) = fun _ _ => 0 := by
    intro t q
    have : M.source S 0 t q = 0 := by
      have hz : S.grdtospec 0 = 0 := by
        have := h.exact.analysis_smul 0 0
        rwa [zero_smul, zero_smul] at this
      unfold BModel.source BModel.damping
      rw [show (0 : ℝ → g.Spc → g.Fld) t q = 0 from rfl, hz, hν]
      funext k
      simp
    rw [this]
    funext x y
    exact modeSum_eq_zero N _ (fun _ => .inl rfl) x y
  have z1 : sphereIntegral g.rsphere (fun _ _ => 0) = 0 := by simp [sphereIntegral]
  have z2 : ∀ F, spherePair g.rsphere F (fun _ _ => 0) = 0 := fun F => by simp [spherePair, sphereIntegral]
  have hb := fun t ht => C119_budget (M := M) hg h h1 hT hY (t := t) ht
  simp only [e0, z1, z2, mul_zero, neg_zero] at hb
  exact ⟨const_of_deriv (fun t ht => (hb t ht).1) t ht, const_of_deriv (fun t ht => (hb t ht).2.1) t ht,
    const_of_deriv (fun t ht => (hb t ht).2.2.1) t ht, const_of_deriv (fun t ht => (hb t ht).2.2.2) t ht⟩

theorem modeDot_self_nonneg (m : ℕ) (a : ℂ) : 0 ≤ modeDot m a a := by
  unfold modeDot
  split_ifs
  · have := mul_self_nonneg a.re; linarith
  · have := mul_self_nonneg a.re; have := mul_self_nonneg a.im; linarith

theorem modeDot_smul (m : ℕ) (c : ℝ) (a b : ℂ) : modeDot m a (c * b) = c * modeDot m a b := by
  unfold modeDot
  rw [Complex.re_ofReal_mul, Complex.im_ofReal_mul]
  split_ifs <;> ring

theorem source_unforced (h : Spharm.Dealiased N S) (t : ℝ) (q : g.Spc) (k) : M.source S 0 t q k =
    ((-(M.diffusionCoeff * ((specN k : ℝ) * (specN k + 1) / g.rsphere ^ 2) ^ M.diffusionOrder) : ℝ) : ℂ) * (q k - M.background S k) := by
  have hz : S.grdtospec 0 = 0 := by
    have := h.exact.analysis_smul 0 0
    rwa [zero_smul, zero_smul] at this
  unfold BModel.source BModel.damping
  rw [show (0 : ℝ → g.Spc → g.Fld) t q = 0 from rfl, hz]
  push_cast
  simp

/-- C119: diffusion dissipates enstrophy if it acts on PV, and kinetic energy if it acts on relative vorticity (i.e. towards the planetary
vorticity). -/
theorem C119_dissipation (hg : g.Valid) (h : Spharm.Dealiased N S) (h1 : 1 ≤ g.ntrunc) (hT : 2 * g.ntrunc + 1 ≤ g.nlat) (hν : 0 ≤ M.diffusionCoeff)
    {t0 t1 : ℝ} {Y : ℝ → g.Spc} (hY : M.Solution S 0 t0 t1 Y) :
    (M.diffusionBg = none → AntitoneOn (fun t => totalEnstrophy g.rsphere ((⟨t, Y t⟩ : St ℝ g).pvFn N)) (Icc t0 t1)) ∧
    (M.diffusionBg = some g.fcor2 → AntitoneOn (fun t => totalEnergy g.rsphere ((⟨t, Y t⟩ : St ℝ g).streamFn N S)) (Icc t0 t1)) := by
  have hr := hg.rsphere_pos.ne'
  have hN := h.exact.norm_ne
  refine ⟨fun hb => antitone_of_deriv (fun t ht => (C119_budget hg h h1 hT hY ht).2.1) fun t _ => ?_,
    fun hb => antitone_of_deriv (fun t ht => (C119_budget hg h h1 hT hY ht).2.2.1) fun t _ => ?_⟩
  · have hbg : M.background S = 0 := by unfold BModel.background; rw [hb]
    unfold St.pvFn
    rw [parseval hr]
    refine Finset.sum_nonpos fun k _ => ?_
    rw [source_unforced h, hbg, Pi.zero_apply, sub_zero, modeDot_smul]
    refine mul_nonpos_of_nonneg_of_nonpos (modeNorm_pos hr hN k).le (mul_nonpos_of_nonpos_of_nonneg ?_ (modeDot_self_nonneg _ _))
    exact neg_nonpos.mpr (by positivity)
  · have hbg : M.background S = Grid.fcor2Spectral S := by unfold BModel.background; rw [hb]; rfl
    rw [streamFn_eq, parseval hr]
    refine neg_nonpos.mpr (Finset.sum_nonneg fun k _ => ?_)
    have ev : Y t k - M.background S k = (⟨t, Y t⟩ : St ℝ g).vorticitySpectral S k := by rw [hbg]; rfl
    rw [source_unforced h, ev]
    unfold invLaplace degMul
    rw [modeDot_smul, modeDot_comm, modeDot_smul]
    refine mul_nonneg (modeNorm_pos hr hN k).le ?_
    rw [← mul_assoc]
    refine mul_nonneg (mul_nonneg_of_nonpos_of_nonpos ?_ ?_) (modeDot_self_nonneg _ _)
    · exact neg_nonpos.mpr (by positivity)
    · beta_reduce
      split_ifs
      · exact le_rfl
      · exact neg_nonpos.mpr (by positivity)

/-- Non-vacuity of C119: transforms without aliasing on a grid of 7 latitudes with truncation 2, and a solution for every initial value -/
example (q : grid30.Spc) : ∃ S : grid30.Sph, Spharm.Dealiased (fun _ _ => 1) S ∧ 1 ≤ grid30.ntrunc ∧ 2 * grid30.ntrunc + 1 ≤ grid30.nlat ∧
    ∃ t1 Y, 0 < t1 ∧ (⟨none, 2, 1, some grid30.fcor2⟩ : BModel grid30).Solution S 0 0 t1 Y ∧ Y 0 = q := by
  have hn : grid30.nlat = 7 := grid30_nlat
  have ht : grid30.ntrunc = 2 := rfl
  obtain ⟨⟨S, h⟩, h'⟩ := C119_exists (N := fun _ _ => 1) grid30_valid (by rw [hn, ht]; norm_num) (fun _ _ => one_ne_zero)
  obtain ⟨t1, Y, h1, -, h2, h3⟩ := C114_exists (M := ⟨none, 2, 1, some grid30.fcor2⟩) (R := 0) h.exact.linear zero_le_one (zero_lt_one (α := ℝ))
    (fun B => ⟨0, fun t _ t' _ q q' _ _ => by simp⟩) q
  exact ⟨S, h, by rw [ht]; norm_num, by rw [hn, ht]; norm_num, t1, Y, h1, h2, h3⟩

end Barotropic
