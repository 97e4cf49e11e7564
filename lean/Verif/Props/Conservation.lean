import Verif.Spec.Conservation
import Verif.Lemmas.SphereIntegral
import Verif.Props.Waves

/-!
# Conservation: C110
-/

namespace Barotropic
open Real (cos sin)

variable {T : ℕ} {N : ℕ → ℕ → ℝ} {g : Grid ℝ} {B : ℕ} {S : g.Sph} {τ : Type}

/-! ## Components of gradients -/

theorem lamDeriv_smooth (p : SpecField T) (r : ℝ) : SphereSmooth fun x y => lamDeriv N p x y / r :=
  (modeSum_smooth N legendreOverCos_contDiff (timesI p)).div_const r

theorem phiDeriv_smooth (p : SpecField T) (r : ℝ) : SphereSmooth fun x y => phiDeriv N p x y / r :=
  (modeSum_smooth N derivLegendre_contDiff p).div_const r

theorem sphereGrad_harmonicSum {r : ℝ} (hr : r ≠ 0) (p : SpecField T) (x : ℝ) {y : ℝ} (hy : cos y ≠ 0) :
    sphereGrad r (harmonicSum N p) x y = (lamDeriv N p x y / r, phiDeriv N p x y / r) := by
  unfold sphereGrad
  rw [dlon_harmonicSum, dlat_harmonicSum]
  refine Prod.ext ?_ rfl
  simp only
  field_simp

theorem sphereDiv_gradient (r : ℝ) (p : SpecField T) (x : ℝ) {y : ℝ} (hy : cos y ≠ 0) :
    sphereDiv r (fun x y => lamDeriv N p x y / r) (fun x y => phiDeriv N p x y / r) x y =
      harmonicSum N (-degMul (fun n => n * (n + 1) / r ^ 2) p) x y := by
  have e := (sphere_wind (N := N) r 0 p hy x).2
  simp only [phiDeriv_zero, lamDeriv_zero, neg_zero, zero_add] at e
  rw [e, harmonicSum_neg]

theorem degMul_inv {r : ℝ} (hr : r ≠ 0) (a : SpecField T) : -degMul (fun n => n * (n + 1) / r ^ 2) (invLaplace r a) = dropMean a := by
  funext k
  simp only [Pi.neg_apply, degMul, invLaplace, dropMean]
  by_cases hk : specN k = 0
  · simp [hk]
  · have h1 : ((specN k : ℕ) : ℂ) ≠ 0 := by exact_mod_cast hk
    have h2 : ((specN k : ℕ) : ℂ) + 1 ≠ 0 := by exact_mod_cast (specN k).succ_ne_zero
    have h3 : (r : ℂ) ≠ 0 := by exact_mod_cast hr
    rw [if_neg hk, if_neg hk]
    push_cast
    field_simp

/-! ## Pairings of sums of harmonics -/

theorem harmonicSum_lin (a b : SpecField T) (c x y : ℝ) : harmonicSum N (a + c • b) x y = harmonicSum N a x y + c * harmonicSum N b x y := by
  rw [harmonicSum_add]
  congr 1
  exact modeSum_smul ..

theorem spherePair_comm (r : ℝ) (F G : ℝ → ℝ → ℝ) : spherePair r F G = spherePair r G F := by
  unfold spherePair; simp only [mul_comm]

theorem windPair_comm (r : ℝ) (F G : ℝ → ℝ → ℝ) : windPair r F G = windPair r G F := by
  unfold windPair; simp only [mul_comm]

theorem spherePair_lin (r : ℝ) {F : ℝ → ℝ → ℝ} (hF : SphereSmooth F) (a b : SpecField T) (c : ℝ) :
    spherePair r F (harmonicSum N (a + c • b)) = spherePair r F (harmonicSum N a) + c * spherePair r F (harmonicSum N b) := by
  have := sphereIntegral_lin (hF.mul (harmonicSum_smooth (N := N) a)) (hF.mul (harmonicSum_smooth (N := N) b)) r 1 c
  unfold spherePair
  rw [one_mul] at this
  rw [← this]
  refine sphereIntegral_congr r fun x y _ => ?_
  rw [harmonicSum_lin]
  ring

theorem windPair_eq {r : ℝ} (hr : r ≠ 0) (p q : SpecField T) : windPair r (harmonicSum N p) (harmonicSum N q) =
    sphereIntegral r fun x y => lamDeriv N p x y / r * (lamDeriv N q x y / r) + phiDeriv N p x y / r * (phiDeriv N q x y / r) :=
  sphereIntegral_congr r fun x y hy => by rw [sphereGrad_harmonicSum hr p x hy, sphereGrad_harmonicSum hr q x hy]

theorem windPair_lin {r : ℝ} (hr : r ≠ 0) (p a b : SpecField T) (c : ℝ) : windPair r (harmonicSum N p) (harmonicSum N (a + c • b)) =
    windPair r (harmonicSum N p) (harmonicSum N a) + c * windPair r (harmonicSum N p) (harmonicSum N b) := by
  have hs : ∀ q : SpecField T, SphereSmooth fun x y =>
      lamDeriv N p x y / r * (lamDeriv N q x y / r) + phiDeriv N p x y / r * (phiDeriv N q x y / r) := fun q =>
    ((lamDeriv_smooth p r).mul (lamDeriv_smooth q r)).add ((phiDeriv_smooth p r).mul (phiDeriv_smooth q r))
  have := sphereIntegral_lin (hs a) (hs b) r 1 c
  rw [windPair_eq hr, windPair_eq hr, windPair_eq hr]
  rw [one_mul] at this
  rw [← this]
  refine sphereIntegral_congr r fun x y _ => ?_
  rw [lamDeriv_add, lamDeriv_smul, phiDeriv_add, phiDeriv_smul]
  ring

/-- Green's identity -/
theorem windPair_green {r : ℝ} (hr : r ≠ 0) (p a : SpecField T) :
    windPair r (harmonicSum N p) (harmonicSum N (invLaplace r a)) = -spherePair r (harmonicSum N p) (harmonicSum N (dropMean a)) := by
  rw [windPair_eq hr]
  refine sphereIntegral_green (harmonicSum_smooth p) (lamDeriv_smooth _ r) (phiDeriv_smooth _ r) (harmonicSum_smooth _) (lamDeriv_smooth p r)
    (phiDeriv_smooth p r) hr (fun x y hy => sphereGrad_harmonicSum hr p x hy) fun x y hy => ?_
  rw [sphereDiv_gradient r _ x hy, degMul_inv hr]

theorem sin_smooth : SphereSmooth fun _ y => sin y := .lat Real.contDiff_sin

/-- Angular momentum is the first moment of vorticity. -/
theorem totalMomentum_eq {r : ℝ} (hr : r ≠ 0) (a : SpecField T) :
    totalMomentum r (harmonicSum N (invLaplace r a)) = r ^ 2 * spherePair r (fun _ y => sin y) (harmonicSum N (dropMean a)) := by
  have hz : SphereSmooth fun _ _ => (0 : ℝ) := .lat contDiff_const
  have hc : SphereSmooth fun _ y => cos y / r := .lat (Real.contDiff_cos.div_const r)
  have hP := phiDeriv_smooth (N := N) (invLaplace r a) r
  have h := sphereIntegral_green sin_smooth (lamDeriv_smooth (N := N) (invLaplace r a) r) hP (harmonicSum_smooth (N := N) (dropMean a)) hz
    hc hr (fun x y _ => sphereGrad_sin r x y) fun x y hy => by rw [sphereDiv_gradient r _ x hy, degMul_inv hr]
  have e : totalMomentum r (harmonicSum N (invLaplace r a)) = sphereIntegral r fun x y =>
      (-r ^ 2) * (0 * (lamDeriv N (invLaplace r a) x y / r) + cos y / r * (phiDeriv N (invLaplace r a) x y / r)) + 0 * (0 : ℝ) :=
    sphereIntegral_congr r fun x y hy => by
      rw [sphereGrad_harmonicSum hr _ x hy]
      field_simp
      ring
  rw [e, sphereIntegral_lin ((hz.mul (lamDeriv_smooth _ r)).add (hc.mul hP)) hz, h]
  unfold spherePair
  ring

theorem totalMomentum_lin {r : ℝ} (hr : r ≠ 0) (a b : SpecField T) (c : ℝ) : totalMomentum r (harmonicSum N (a + c • b)) =
    totalMomentum r (harmonicSum N a) + c * totalMomentum r (harmonicSum N b) := by
  have hm : ∀ q : SpecField T, totalMomentum r (harmonicSum N q) = sphereIntegral r fun x y => r * cos y * -(phiDeriv N q x y / r) := fun q =>
    sphereIntegral_congr r fun x y hy => by rw [sphereGrad_harmonicSum hr q x hy]
  have hs : ∀ q : SpecField T, SphereSmooth fun x y => r * cos y * -(phiDeriv N q x y / r) := fun q =>
    (SphereSmooth.lat (contDiff_const.mul Real.contDiff_cos)).mul (phiDeriv_smooth q r).neg
  have := sphereIntegral_lin (hs a) (hs b) r 1 c
  rw [hm, hm, hm]
  rw [one_mul] at this
  rw [← this]
  refine sphereIntegral_congr r fun x y _ => ?_
  rw [phiDeriv_add, phiDeriv_smul]
  ring

theorem totalEnstrophy_eq (r : ℝ) (q : SpecField T) : totalEnstrophy r (harmonicSum N q) = spherePair r (harmonicSum N q) (harmonicSum N q) / 2 := by
  have hs := (harmonicSum_smooth (N := N) q).mul (harmonicSum_smooth (N := N) q)
  have := sphereIntegral_lin hs hs r (1 / 2) 0
  unfold totalEnstrophy spherePair
  rw [zero_mul, add_zero] at this
  rw [div_eq_inv_mul, ← one_div, ← this]
  exact sphereIntegral_congr r fun x y _ => by ring

theorem totalEnergy_eq {r : ℝ} (hr : r ≠ 0) (p : SpecField T) : totalEnergy r (harmonicSum N p) = windPair r (harmonicSum N p) (harmonicSum N p) / 2 := by
  have hs : SphereSmooth fun x y => lamDeriv N p x y / r * (lamDeriv N p x y / r) + phiDeriv N p x y / r * (phiDeriv N p x y / r) :=
    ((lamDeriv_smooth p r).mul (lamDeriv_smooth p r)).add ((phiDeriv_smooth p r).mul (phiDeriv_smooth p r))
  have := sphereIntegral_lin hs hs r (1 / 2) 0
  rw [windPair_eq hr]
  rw [zero_mul, add_zero] at this
  rw [div_eq_inv_mul, ← one_div, ← this]
  exact sphereIntegral_congr r fun x y hy => by rw [sphereGrad_harmonicSum hr p x hy]; ring

/-! ## The flow of a state -/

theorem streamFn_eq (s : St τ g) : s.streamFn N S = harmonicSum N (invLaplace g.rsphere (s.vorticitySpectral S)) := by
  unfold St.streamFn; rw [poisson_eq_invLaplace]

theorem fluxStreamFn_eq (s : St τ g) : s.fluxStreamFn N S = harmonicSum N (invLaplace g.rsphere (s.pvFluxSpectral S)) := by
  unfold St.fluxStreamFn; rw [poisson_eq_invLaplace]

theorem state_flow (hg : g.Valid) (h : Spharm.Exact N B S) (s : St τ g) {D : ℕ} (hD : 1 ≤ D) (hT : 2 * D ≤ g.ntrunc)
    (hB : 2 * D ≤ B) (hs : BandLimited D s.q) :
    Flow g.rsphere (s.pvFn N) (s.streamFn N S) (fun x y => -(phiDeriv N (invLaplace g.rsphere (s.vorticitySpectral S)) x y / g.rsphere))
      (fun x y => lamDeriv N (invLaplace g.rsphere (s.vorticitySpectral S)) x y / g.rsphere) (s.fluxFn N S) := by
  have hr := hg.rsphere_pos.ne'
  have hw := fun x y hy => sphereGrad_harmonicSum (N := N) hr (invLaplace g.rsphere (s.vorticitySpectral S)) x (y := y) hy
  rw [streamFn_eq]
  refine ⟨harmonicSum_smooth _, harmonicSum_smooth _, (phiDeriv_smooth _ _).neg, lamDeriv_smooth _ _, harmonicSum_smooth _, fun x y hy => ?_,
    fun x y hy => ?_, fun x y hy => ?_⟩
  · rw [hw x y hy, neg_neg]
  · have e := (sphere_wind (N := N) g.rsphere (invLaplace g.rsphere (s.vorticitySpectral S)) 0 hy x).2
    have hz : degMul (fun n => (n : ℝ) * (n + 1) / g.rsphere ^ 2) (0 : g.Spc) = 0 := by funext k; simp [degMul]
    rw [hz, show harmonicSum N (0 : g.Spc) x y = 0 from modeSum_eq_zero N _ (fun _ => .inl rfl) x y, neg_zero] at e
    simp only [lamDeriv_zero, phiDeriv_zero, add_zero, neg_div] at e
    exact e
  · have e := (C107_flux hg h s hD hT hB hs).2.2 x y hy
    unfold St.fluxFn St.pvFn
    rw [e.1, e.2, poisson_eq_invLaplace, hw x y hy]

theorem state_vorticity (hg : g.Valid) (h : Spharm.Exact N B S) (s : St τ g) (hT : 1 ≤ g.ntrunc) (hB : 1 ≤ B) :
    ∃ mean : ℝ, ∀ x y, cos y ≠ 0 → s.pvFn N x y =
      sphereCurl g.rsphere (fun x y => -(phiDeriv N (invLaplace g.rsphere (s.vorticitySpectral S)) x y / g.rsphere))
        (fun x y => lamDeriv N (invLaplace g.rsphere (s.vorticitySpectral S)) x y / g.rsphere) x y + 2 * g.omega * sin y + mean := by
  have hr := hg.rsphere_pos.ne'
  have hv : s.vorticitySpectral S = s.q - solidRotation N g.omega := by
    unfold St.vorticitySpectral
    rw [h.fcor2 hT hB]
  refine ⟨N 0 0 * (s.q (k0 _)).re, fun x y hy => ?_⟩
  have e := (sphere_wind (N := N) g.rsphere (invLaplace g.rsphere (s.vorticitySpectral S)) 0 hy x).1
  simp only [lamDeriv_zero, phiDeriv_zero, add_zero, neg_div] at e
  rw [e, ← harmonicSum_neg, degMul_inv hr, ← harmonicSum_solid h.norm_ne hT g.omega x y]
  have e1 : s.q = dropMean (s.vorticitySpectral S) + (solidRotation N g.omega + fun k => if k = k0 _ then s.q (k0 _) else 0) := by
    rw [hv]
    funext k
    simp only [Pi.add_apply, Pi.sub_apply, dropMean]
    by_cases hk : specN k = 0
    · have : k = k0 _ := specIndex_inj (by have := specM_le_specN k; simp; omega) (by simp [hk])
      rw [if_pos hk, if_pos this, this]
      simp [solidRotation]
    · have : k ≠ k0 _ := by rintro rfl; simp at hk
      rw [if_neg hk, if_neg this]
      ring
  unfold St.pvFn
  conv_lhs => rw [e1]
  rw [harmonicSum_add, harmonicSum_add, ← add_assoc]
  congr 1
  unfold harmonicSum
  rw [modeSum_single N legendre (k0 _) (fun l hl => by simp [hl])]
  simp [legendre_zero]

/-- C110: `pv`, `enstrophy` and `energy` are values of functions on the sphere: `energy` is that of the wind with the streamfunction
`streamfunction`. -/
theorem C110_diagnostics (hg : g.Valid) (h : Spharm.Exact N B S) (s : St τ g) :
    s.pv S = g.sample (s.pvFn N) ∧ s.streamfunction S = g.sample (s.streamFn N S) ∧
    s.enstrophy S = g.sample (fun x y => s.pvFn N x y ^ 2 / 2) ∧
    ∃ E, SphereSmooth E ∧ s.energy S = g.sample E ∧ (∀ x y, cos y ≠ 0 → E x y =
      ((sphereGrad g.rsphere (s.streamFn N S) x y).1 ^ 2 + (sphereGrad g.rsphere (s.streamFn N S) x y).2 ^ 2) / 2) ∧
      totalEnergy g.rsphere (s.streamFn N S) = sphereIntegral g.rsphere E := by
  have hr := hg.rsphere_pos.ne'
  have hpv : s.pv S = g.sample (s.pvFn N) := h.synthesis _
  refine ⟨hpv, h.synthesis _, ?_, fun x y => ((phiDeriv N (invLaplace g.rsphere (s.vorticitySpectral S)) x y / g.rsphere) ^ 2 +
    (lamDeriv N (invLaplace g.rsphere (s.vorticitySpectral S)) x y / g.rsphere) ^ 2) / 2,
    (((phiDeriv_smooth _ _).pow 2).add ((lamDeriv_smooth _ _).pow 2)).div_const 2, ?_, fun x y hy => ?_, ?_⟩
  · unfold St.enstrophy
    rw [hpv]
    funext j i
    simp only [Grid.sample]
    ring
  · unfold St.energy St.u St.v St.invertPv Grid.wind
    simp only [h.wind]
    funext j i
    have hz : invLaplace g.rsphere (0 : g.Spc) = 0 := by funext k; simp [invLaplace, degMul]
    simp only [Grid.sample, hz, lamDeriv_zero, phiDeriv_zero, add_zero]
    ring
  · rw [streamFn_eq, sphereGrad_harmonicSum hr _ x hy]
    simp only
    ring
  · refine sphereIntegral_congr _ fun x y hy => ?_
    rw [streamFn_eq, sphereGrad_harmonicSum hr _ x hy]
    simp only
    ring

/-- C110: advection conserves the mean of all powers of PV, kinetic energy and angular momentum, if PV is limited to half of the degrees. -/
theorem C110_rates (hg : g.Valid) (h : Spharm.Exact N B S) (s : St τ g) {D : ℕ} (hD : 1 ≤ D) (hT : 2 * D ≤ g.ntrunc)
    (hB : 2 * D ≤ B) (hs : BandLimited D s.q) :
    (∀ p, spherePair g.rsphere (fun x y => s.pvFn N x y ^ p) (s.fluxFn N S) = 0) ∧
    spherePair g.rsphere (s.streamFn N S) (s.fluxFn N S) = 0 ∧
    windPair g.rsphere (s.streamFn N S) (s.fluxStreamFn N S) = 0 ∧
    totalMomentum g.rsphere (s.fluxStreamFn N S) = 0 := by
  have hr := hg.rsphere_pos.ne'
  have hf := state_flow hg h s hD hT hB hs
  have hdrop : dropMean (s.pvFluxSpectral S) = s.pvFluxSpectral S := by
    funext k
    unfold dropMean
    split_ifs with hk
    · exact ((flux_exact hg h s hD hT hB hs).2.2.1 k hk).symm
    · rfl
  have hE : spherePair g.rsphere (s.streamFn N S) (s.fluxFn N S) = 0 := hf.energy hr
  obtain ⟨mean, hm⟩ := state_vorticity hg h s (by omega) (by omega)
  refine ⟨fun p => hf.casimir hr p, hE, ?_, ?_⟩
  · rw [fluxStreamFn_eq, streamFn_eq, windPair_green hr, hdrop, ← streamFn_eq]
    rw [show harmonicSum N (s.pvFluxSpectral S) = s.fluxFn N S from rfl, hE, neg_zero]
  · rw [fluxStreamFn_eq, totalMomentum_eq hr, hdrop]
    have := hf.momentum hr hm
    change g.rsphere ^ 2 * sphereIntegral _ _ = 0
    exact mul_eq_zero_of_right _ this

/-! ## Steps -/

theorem pvFn_lin {s s' : St τ g} {f : g.Spc} {c : ℝ} (e : s'.q = s.q + c • f) : s'.pvFn N = harmonicSum N (s.q + c • f) := by
  unfold St.pvFn; rw [e]

theorem streamFn_lin {s s' : St τ g} {f : g.Spc} {c : ℝ} (e : s'.q = s.q + c • f) : s'.streamFn N S =
    harmonicSum N (invLaplace g.rsphere (s.vorticitySpectral S) + c • invLaplace g.rsphere f) := by
  rw [streamFn_eq, ← invLaplace_smul, ← invLaplace_add]
  congr 2
  unfold St.vorticitySpectral
  rw [e]
  abel

theorem step_flux (h : Spharm.Exact N B S) {M : BModel g} (hM : M.rhs = none) (hν : M.diffusionCoeff = 0) {w : St PyTime g} {F : g.Fld}
    (hF : M.Forced w F) {c : ℝ} {old new : g.Spc} (hst : M.ImplicitStep S c old (pvBudget S (w.pv S) (w.u S) (w.v S) F) new) :
    new = old + (-c) • w.pvFluxSpectral S := by
  funext k
  rw [implicit_nodiff hν hst k, budget_unforced h hM hF]
  simp only [Pi.add_apply, Pi.smul_apply, Complex.real_smul]
  push_cast
  ring

/-- A step with the advection of state `w` -/
theorem step_linear (hg : g.Valid) (h : Spharm.Exact N B S) {w old new : St τ g} {c : ℝ} (e : new.q = old.q + (-c) • w.pvFluxSpectral S)
    {D : ℕ} (hD : 1 ≤ D) (hT : 2 * D ≤ g.ntrunc) (hB : 2 * D ≤ B) (hw : BandLimited D w.q) :
    sphereIntegral g.rsphere (new.pvFn N) = sphereIntegral g.rsphere (old.pvFn N) ∧
    totalMomentum g.rsphere (new.streamFn N S) = totalMomentum g.rsphere (old.streamFn N S) ∧
    spherePair g.rsphere (w.pvFn N) (new.pvFn N) = spherePair g.rsphere (w.pvFn N) (old.pvFn N) ∧
    windPair g.rsphere (w.streamFn N S) (new.streamFn N S) = windPair g.rsphere (w.streamFn N S) (old.streamFn N S) := by
  have hr := hg.rsphere_pos.ne'
  obtain ⟨h1, -, h3, h4⟩ := C110_rates hg h w hD hT hB hw
  have hone : SphereSmooth fun _ _ => (1 : ℝ) := .lat contDiff_const
  refine ⟨?_, ?_, ?_, ?_⟩
  · have e0 := h1 0
    simp only [pow_zero] at e0
    have := spherePair_lin (N := N) g.rsphere hone old.q (w.pvFluxSpectral S) (-c)
    rw [show spherePair g.rsphere (fun _ _ => 1) (harmonicSum N (w.pvFluxSpectral S)) = 0 from e0, mul_zero, add_zero, ← pvFn_lin e] at this
    simp only [spherePair, one_mul] at this
    exact this
  · rw [streamFn_lin e, totalMomentum_lin hr, ← fluxStreamFn_eq, h4, mul_zero, add_zero, ← streamFn_eq]
  · have e1 := h1 1
    simp only [pow_one] at e1
    have hw' : SphereSmooth (w.pvFn N) := harmonicSum_smooth _
    rw [pvFn_lin e, spherePair_lin _ hw', show harmonicSum N (w.pvFluxSpectral S) = w.fluxFn N S from rfl, e1, mul_zero, add_zero]
    rfl
  · rw [streamFn_lin e, streamFn_eq w, windPair_lin hr, ← streamFn_eq w, ← fluxStreamFn_eq, h3, mul_zero, add_zero, ← streamFn_eq]

/-- C110: an Euler step without forcing and diffusion conserves mean PV and angular momentum. Enstrophy and kinetic energy grow: by the
square of the time step times enstrophy and energy of the flux. -/
theorem C110_euler (hg : g.Valid) (h : Spharm.Exact N B S) {M : BModel g} (hM : M.rhs = none) (hν : M.diffusionCoeff = 0) {s s1 : St PyTime g}
    {dt : PyDelta} (hdt : 0 ≤ toSeconds dt) (hE : M.euler S s dt = .ok s1) {D : ℕ} (hD : 1 ≤ D) (hT : 2 * D ≤ g.ntrunc)
    (hB : 2 * D ≤ B) (hs : BandLimited D s.q) :
    sphereIntegral g.rsphere (s1.pvFn N) = sphereIntegral g.rsphere (s.pvFn N) ∧
    totalMomentum g.rsphere (s1.streamFn N S) = totalMomentum g.rsphere (s.streamFn N S) ∧
    totalEnstrophy g.rsphere (s1.pvFn N) = totalEnstrophy g.rsphere (s.pvFn N) + toSeconds dt ^ 2 * totalEnstrophy g.rsphere (s.fluxFn N S) ∧
    totalEnergy g.rsphere (s1.streamFn N S) =
      totalEnergy g.rsphere (s.streamFn N S) + toSeconds dt ^ 2 * totalEnergy g.rsphere (s.fluxStreamFn N S) := by
  have hr := hg.rsphere_pos.ne'
  obtain ⟨-, F, hF, hst⟩ := (C100_euler h.linear hν.ge s s1 dt hdt).mp hE
  have e := step_flux h hM hν hF hst
  obtain ⟨l1, l2, l3, l4⟩ := step_linear hg h e hD hT hB hs
  obtain ⟨h1, -, h3, -⟩ := C110_rates hg h s hD hT hB hs
  have e1 : spherePair g.rsphere (s.pvFn N) (s.fluxFn N S) = 0 := by simpa only [pow_one] using h1 1
  refine ⟨l1, l2, ?_, ?_⟩
  · have a1 : spherePair g.rsphere (s1.pvFn N) (s1.pvFn N) = spherePair g.rsphere (s1.pvFn N) (s.pvFn N) +
        (-toSeconds dt) * spherePair g.rsphere (s1.pvFn N) (s.fluxFn N S) := by
      conv_lhs => enter [3]; rw [pvFn_lin e]
      exact spherePair_lin _ (harmonicSum_smooth _) _ _ _
    have a2 : spherePair g.rsphere (s.fluxFn N S) (s1.pvFn N) = spherePair g.rsphere (s.fluxFn N S) (s.pvFn N) +
        (-toSeconds dt) * spherePair g.rsphere (s.fluxFn N S) (s.fluxFn N S) := by
      rw [pvFn_lin e]
      exact spherePair_lin _ (harmonicSum_smooth _) _ _ _
    rw [spherePair_comm _ (s.fluxFn N S) (s1.pvFn N), spherePair_comm _ (s.fluxFn N S) (s.pvFn N), e1] at a2
    rw [spherePair_comm _ (s1.pvFn N) (s.pvFn N), l3, a2] at a1
    have t1 := totalEnstrophy_eq (N := N) g.rsphere s1.q
    have t2 := totalEnstrophy_eq (N := N) g.rsphere s.q
    have t3 := totalEnstrophy_eq (N := N) g.rsphere (s.pvFluxSpectral S)
    change totalEnstrophy _ (s1.pvFn N) = spherePair _ (s1.pvFn N) (s1.pvFn N) / 2 at t1
    change totalEnstrophy _ (s.pvFn N) = spherePair _ (s.pvFn N) (s.pvFn N) / 2 at t2
    change totalEnstrophy _ (s.fluxFn N S) = spherePair _ (s.fluxFn N S) (s.fluxFn N S) / 2 at t3
    rw [t1, t2, t3, a1]
    ring
  · have a1 : windPair g.rsphere (s1.streamFn N S) (s1.streamFn N S) = windPair g.rsphere (s1.streamFn N S) (s.streamFn N S) +
        (-toSeconds dt) * windPair g.rsphere (s1.streamFn N S) (s.fluxStreamFn N S) := by
      conv_lhs => enter [3]; rw [streamFn_lin e]
      rw [streamFn_eq s1, windPair_lin hr, ← streamFn_eq s, ← fluxStreamFn_eq]
    have a2 : windPair g.rsphere (s.fluxStreamFn N S) (s1.streamFn N S) = windPair g.rsphere (s.fluxStreamFn N S) (s.streamFn N S) +
        (-toSeconds dt) * windPair g.rsphere (s.fluxStreamFn N S) (s.fluxStreamFn N S) := by
      rw [streamFn_lin e, fluxStreamFn_eq, windPair_lin hr, ← streamFn_eq s]
    rw [windPair_comm _ (s.fluxStreamFn N S) (s1.streamFn N S), windPair_comm _ (s.fluxStreamFn N S) (s.streamFn N S), h3] at a2
    rw [windPair_comm _ (s1.streamFn N S) (s.streamFn N S), l4, a2] at a1
    have t1 := totalEnergy_eq (N := N) hr (invLaplace g.rsphere (s1.vorticitySpectral S))
    have t2 := totalEnergy_eq (N := N) hr (invLaplace g.rsphere (s.vorticitySpectral S))
    have t3 := totalEnergy_eq (N := N) hr (invLaplace g.rsphere (s.pvFluxSpectral S))
    rw [← streamFn_eq] at t1 t2
    rw [← fluxStreamFn_eq] at t3
    rw [t1, t2, t3, a1]
    ring

/-- C110: a leapfrog step without forcing and diffusion conserves mean PV and angular momentum (and so does the filter, if they are the
same for the old and the current state). The products of PV and of the winds of consecutive states do not change. -/
theorem C110_leapfrog (hg : g.Valid) (h : Spharm.Exact N B S) {M : BModel g} (hM : M.rhs = none) (hν : M.diffusionCoeff = 0)
    {old now now' new : St PyTime g} {f : ℝ} {dt : PyDelta} (hsub : now.time.sub old.time = .ok dt) (hdt : 0 ≤ toSeconds dt)
    (hL : M.leapfrog S old now f = .ok (now', new)) {D : ℕ} (hD : 1 ≤ D) (hT : 2 * D ≤ g.ntrunc) (hB : 2 * D ≤ B) (hs : BandLimited D now.q) :
    (sphereIntegral g.rsphere (new.pvFn N) = sphereIntegral g.rsphere (old.pvFn N) ∧
      totalMomentum g.rsphere (new.streamFn N S) = totalMomentum g.rsphere (old.streamFn N S)) ∧
    (sphereIntegral g.rsphere (old.pvFn N) = sphereIntegral g.rsphere (now.pvFn N) →
      sphereIntegral g.rsphere (now'.pvFn N) = sphereIntegral g.rsphere (now.pvFn N)) ∧
    (totalMomentum g.rsphere (old.streamFn N S) = totalMomentum g.rsphere (now.streamFn N S) →
      totalMomentum g.rsphere (now'.streamFn N S) = totalMomentum g.rsphere (now.streamFn N S)) ∧
    spherePair g.rsphere (now.pvFn N) (new.pvFn N) = spherePair g.rsphere (old.pvFn N) (now.pvFn N) ∧
    windPair g.rsphere (now.streamFn N S) (new.streamFn N S) = windPair g.rsphere (old.streamFn N S) (now.streamFn N S) := by
  have hr := hg.rsphere_pos.ne'
  obtain ⟨-, -, ⟨F, hF, hst⟩, hfil⟩ := (C100_leapfrog h.linear hν.ge old now now' new f dt hsub hdt).mp hL
  have e := step_flux h hM hν hF hst
  obtain ⟨l1, l2, l3, l4⟩ := step_linear hg h e hD hT hB hs
  have ef : now'.q = now.q + f • (old.q + (-2 : ℝ) • now.q + (1 : ℝ) • new.q) := by
    funext k
    rw [hfil k]
    simp only [Pi.add_apply, Pi.smul_apply, Complex.real_smul]
    push_cast
    ring
  refine ⟨⟨l1, l2⟩, fun hon => ?_, fun hon => ?_, ?_, ?_⟩
  · have hone : SphereSmooth fun _ _ => (1 : ℝ) := .lat contDiff_const
    have k1 : ∀ s : St PyTime g, spherePair g.rsphere (fun _ _ => 1) (harmonicSum N s.q) = sphereIntegral g.rsphere (s.pvFn N) := fun s => by
      simp only [spherePair, one_mul]; rfl
    have k2 := spherePair_lin (N := N) g.rsphere hone now.q (old.q + (-2 : ℝ) • now.q + (1 : ℝ) • new.q) f
    rw [← ef, spherePair_lin _ hone, spherePair_lin _ hone, k1, k1, k1, k1, l1, hon] at k2
    rw [k2]
    ring
  · have ev : now'.vorticitySpectral S = now.vorticitySpectral S + f • (old.vorticitySpectral S + (-2 : ℝ) • now.vorticitySpectral S +
        (1 : ℝ) • new.vorticitySpectral S) := by
      unfold St.vorticitySpectral
      rw [ef]
      funext k
      simp only [Pi.add_apply, Pi.sub_apply, Pi.smul_apply, Complex.real_smul]
      push_cast
      ring
    rw [streamFn_eq now', ev, invLaplace_add, invLaplace_smul, invLaplace_add, invLaplace_add, invLaplace_smul, invLaplace_smul,
      totalMomentum_lin hr, totalMomentum_lin hr, totalMomentum_lin hr, ← streamFn_eq, ← streamFn_eq, ← streamFn_eq, l2, hon]
    ring
  · rw [l3, spherePair_comm]
  · rw [l4, windPair_comm]

/-! Non-vacuity: a wave of degree 2 on the grid with the default truncation -/

example : ∃ (g : Grid ℝ) (S : g.Sph) (M : BModel g) (s s1 s1' s2 : St PyTime g), g.Valid ∧ g.ntrunc + 1 = g.nlat ∧
    Spharm.Exact (fun _ _ => 1) 5 S ∧ M.rhs = none ∧ M.diffusionCoeff = 0 ∧ BandLimited 2 s.q ∧ 2 * 2 ≤ g.ntrunc ∧ (∃ k, specM k ≠ 0 ∧ s.q k ≠ 0) ∧
    M.euler S s (.num 1) = .ok s1 ∧ BandLimited 2 s1.q ∧ s1.time.sub s.time = .ok (.num 1) ∧ M.leapfrog S s s1 (2 / 10) = .ok (s1', s2) := by
  have h7 : ({ grid30 with ntrunc := 6 } : Grid ℝ).nlat = 7 := by unfold Grid.nlat Grid.nlatOf grid30; norm_num
  obtain ⟨S, h, -⟩ := C105_exists (N := fun _ _ => 1) (B := 5) grid30_default_valid (by rw [h7]) (fun _ _ => one_ne_zero)
  obtain ⟨k, hk2, hk1⟩ := exists_mode (T := 6) (n := 2) (m := 1) (by norm_num) (by norm_num)
  have ha : SingleDegree 2 (oneMode k 1) := fun l hl => by
    unfold oneMode
    rw [if_neg]
    rintro rfl
    exact hl hk2
  have hb : BandLimited 2 (solidRotation (fun _ _ => 1) 1 + oneMode k 1) :=
    (solidRotation_band 1 (by norm_num)).add fun l hl => ha l (by omega)
  obtain ⟨s1, hE⟩ : ∃ s1, (⟨none, 1, 0, none⟩ : BModel { grid30 with ntrunc := 6 }).euler S
      ⟨.num 0, solidRotation (fun _ _ => 1) 1 + oneMode k 1⟩ (.num 1) = .ok s1 := ⟨_, rfl⟩
  obtain ⟨ht, F, hF, hst⟩ := (C100_euler (M := ⟨none, 1, 0, none⟩) h.linear le_rfl _ s1 (.num 1) (by norm_num [toSeconds])).mp hE
  have hq := step_flux (M := ⟨none, 1, 0, none⟩) h rfl rfl hF hst
  rw [C107_wave grid30_default_valid h _ (W := 1) (n := 2) (by norm_num) (by norm_num) (by norm_num) ha rfl] at hq
  have hb1 : BandLimited 2 s1.q := by
    rw [hq]
    refine hb.add fun l hl => ?_
    simp [ha l (by omega)]
  have ht1 : s1.time = .num 1 := by
    have : (Except.ok (PyTime.num (0 + 1)) : Except PyErr PyTime) = .ok s1.time := ht
    rw [← Except.ok.inj this, zero_add]
  have hsub : s1.time.sub (.num 0) = .ok (.num 1) := by
    rw [ht1]
    change Except.ok (PyDelta.num (1 - 0)) = _
    rw [sub_zero]
  obtain ⟨⟨s1', s2⟩, hL⟩ : ∃ p, (⟨none, 1, 0, none⟩ : BModel { grid30 with ntrunc := 6 }).leapfrog S
      ⟨.num 0, solidRotation (fun _ _ => 1) 1 + oneMode k 1⟩ s1 (2 / 10) = .ok p := by
    unfold BModel.leapfrog
    rw [hsub, ht1]
    exact ⟨_, rfl⟩
  refine ⟨{ grid30 with ntrunc := 6 }, S, ⟨none, 1, 0, none⟩, _, s1, s1', s2, grid30_default_valid, h7.symm, h, rfl, rfl, hb, by norm_num,
    ⟨k, by omega, ?_⟩, hE, hb1, hsub, hL⟩
  simp [solidRotation, oneMode, hk2]

end Barotropic
