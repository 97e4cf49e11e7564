import Verif.Props.GlobalSolutions
import Verif.Props.SpectralAccuracy
import Verif.Spec.RotationRate

/-!
# C153: planets that rotate at different rates
-/

namespace Barotropic
open Complex Set

variable {T : ℕ} {N : ℕ → ℕ → ℝ} {g : Grid ℝ} {S : g.Sph} {τ : Type}

theorem modeSum_shiftEast (P : ℕ → ℕ → ℝ → ℝ) (α : ℝ) (a : SpecField T) (x y : ℝ) : modeSum N P (shiftEast α a) x y = modeSum N P a (x - α) y := by
  unfold modeSum shiftEast
  refine Finset.sum_congr rfl fun k _ => ?_
  rw [mul_comm (exp _) (a k), mul_assoc (a k), ← Complex.exp_add]
  congr 4
  push_cast
  ring

theorem phiDeriv_shiftEast (α : ℝ) (a : SpecField T) (x y : ℝ) : phiDeriv N (shiftEast α a) x y = phiDeriv N a (x - α) y := modeSum_shiftEast ..

theorem lamDeriv_shiftEast (α : ℝ) (a : SpecField T) (x y : ℝ) : lamDeriv N (shiftEast α a) x y = lamDeriv N a (x - α) y := by
  unfold lamDeriv
  rw [← modeSum_shiftEast]
  congr 1
  funext k
  simp only [timesI, shiftEast]
  ring

theorem invLaplace_shiftEast (r α : ℝ) (a : SpecField T) : invLaplace r (shiftEast α a) = shiftEast α (invLaplace r a) := by
  funext k
  simp only [invLaplace, degMul, shiftEast]
  ring

theorem shiftEast_solid (α W : ℝ) : shiftEast α (solidRotation N W : SpecField T) = solidRotation N W := by
  funext k
  simp only [shiftEast, solidRotation]
  split_ifs with h
  · rw [h.1]
    simp
  · rw [mul_zero]

theorem shiftEast_sub (α : ℝ) (a b : SpecField T) : shiftEast α (a - b) = shiftEast α a - shiftEast α b := by
  funext k
  simp only [shiftEast, Pi.sub_apply]
  ring

theorem norm_shiftEast_apply (α : ℝ) (a : SpecField T) (k) : ‖shiftEast α a k‖ = ‖a k‖ := by
  unfold shiftEast
  rw [norm_mul, show -(I * ((specM k * α : ℝ) : ℂ)) = ((-(specM k * α) : ℝ) : ℂ) * I by push_cast; ring, norm_exp_ofReal_mul_I, one_mul]

theorem norm_shiftEast (α : ℝ) (a : SpecField T) : ‖shiftEast α a‖ = ‖a‖ := by
  refine le_antisymm ((pi_norm_le_iff_of_nonneg (norm_nonneg _)).mpr fun k => ?_) ((pi_norm_le_iff_of_nonneg (norm_nonneg _)).mpr fun k => ?_)
  · rw [norm_shiftEast_apply]
    exact norm_le_pi_norm a k
  · rw [← norm_shiftEast_apply α]
    exact norm_le_pi_norm (shiftEast α a) k

theorem shiftEast_real {a : SpecField T} (h : RealZonal a) (α : ℝ) : RealZonal (shiftEast α a) := fun k hk => by
  unfold shiftEast
  rw [hk]
  simpa using h k hk

theorem invLaplace_solid (r V : ℝ) : invLaplace r (solidRotation N V : SpecField T) = (-(r ^ 2 / 2)) • solidRotation N V := by
  funext k
  simp only [invLaplace, degMul, solidRotation, Pi.smul_apply, Complex.real_smul]
  by_cases hk : specM k = 0 ∧ specN k = 1
  · rw [if_pos hk, hk.2]; norm_num
  · rw [if_neg hk]; simp

/-- Derivative with respect to longitude -/
noncomputable def lonDeriv (a : SpecField T) : SpecField T := fun k => I * specM k * a k

theorem harmonicSum_lonDeriv (a : SpecField T) (x y : ℝ) : harmonicSum N (lonDeriv a) x y = lamDeriv N a x y * Real.cos y := by
  unfold harmonicSum lamDeriv modeSum lonDeriv timesI
  rw [Finset.sum_mul]
  refine Finset.sum_congr rfl fun k _ => ?_
  have e : (I * specM k * a k * exp (I * (specM k * x : ℝ))).re = specM k * (I * a k * exp (I * (specM k * x : ℝ))).re := by
    rw [show I * specM k * a k * exp (I * (specM k * x : ℝ)) = ((specM k : ℝ) : ℂ) * (I * a k * exp (I * (specM k * x : ℝ))) by push_cast; ring, re_ofReal_mul]
  rw [e]
  have := legendreOverCos_mul_cos (specN k) (specM k) y
  linear_combination (N (specN k) (specM k) * (I * a k * exp (I * (specM k * x : ℝ))).re) * (-this)

theorem lonDeriv_real (a : SpecField T) : RealZonal (lonDeriv a) := fun k hk => by simp [lonDeriv, hk]

/-- Transforms do not depend on the angular velocity. -/
theorem exact_spun {B : ℕ} (h : Spharm.Exact N B S) (Ω : ℝ) : Spharm.Exact (g := g.spun Ω) N B S where
  norm_ne := h.norm_ne
  synthesis := h.synthesis
  gradient := h.gradient
  wind := h.wind
  analysis_real := h.analysis_real
  analysis := h.analysis
  analysis_add := h.analysis_add
  analysis_smul := h.analysis_smul
  analysis_rotate := h.analysis_rotate
  vrtdiv := h.vrtdiv
  vrtdiv_add := h.vrtdiv_add
  vrtdiv_smul := h.vrtdiv_smul
  vrtdiv_rotate := h.vrtdiv_rotate
  vrtdiv_mean := h.vrtdiv_mean
  vrtdiv_zonal := h.vrtdiv_zonal

theorem spun_valid (hg : g.Valid) (Ω : ℝ) : (g.spun Ω).Valid := by
  obtain ⟨h1, h2, h3, h4, h5⟩ := hg
  exact ⟨h1, h2, h3, h4, h5⟩

/-- The flux on the other planet -/
theorem flux_spun_exact (hg : g.Valid) {B : ℕ} (h : Spharm.Exact N B S) (t : τ) (q : g.Spc) {D : ℕ} (hD : 1 ≤ D) (hT : 2 * D ≤ g.ntrunc) (hB : 2 * D ≤ B)
    (hq : BandLimited D q) (Ω α : ℝ) :
    St.pvFluxSpectral (g := g.spun Ω) S (⟨t, shiftEast α q⟩ : St τ (g.spun Ω)) =
      shiftEast α (St.pvFluxSpectral S (⟨t, q⟩ : St τ g)) - (Ω - g.omega) • lonDeriv (shiftEast α q) := by
  have hr := hg.rsphere_pos.ne'
  have hg' := spun_valid hg Ω
  have h' := exact_spun h Ω
  have hT1 : 1 ≤ g.ntrunc := by omega
  have hs : BandLimited D (shiftEast α q) := fun k hk => by simp [shiftEast, hq k hk]
  obtain ⟨a1, a2, -, a4⟩ := flux_exact hg h (⟨t, q⟩ : St τ g) hD hT hB hq
  obtain ⟨b1, b2, -, b4⟩ := flux_exact hg' h' (⟨t, shiftEast α q⟩ : St τ (g.spun Ω)) hD hT hB hs
  refine h.coeff_unique b1 ?_ (fun k hk => b2 k (by omega)) ?_ fun x y hy => ?_
  · intro k hk
    have e1 := shiftEast_real a1 α k hk
    have e2 := lonDeriv_real (shiftEast α q) k hk
    rw [Pi.sub_apply, Pi.smul_apply, sub_im, smul_im, e1, e2, smul_zero, sub_zero]
  · intro k hk
    simp [shiftEast, lonDeriv, a2 k (by omega), hq k (by omega)]
  · rw [b4 x y hy, harmonicSum_sub, harmonicSum_shiftEast, a4 _ y hy]
    have e0 : (Ω - g.omega) • lonDeriv (shiftEast α q) = lonDeriv ((Ω - g.omega) • shiftEast α q) := by
      funext k
      simp only [lonDeriv, Pi.smul_apply, real_smul]
      ring
    rw [e0, harmonicSum_lonDeriv, lamDeriv_smul, lamDeriv_shiftEast]
    have ev : St.vorticitySpectral (g := g.spun Ω) S (⟨t, shiftEast α q⟩ : St τ (g.spun Ω)) =
        shiftEast α (St.vorticitySpectral S (⟨t, q⟩ : St τ g)) - solidRotation N (Ω - g.omega) := by
      unfold St.vorticitySpectral
      rw [h.fcor2 hT1 (by omega), h'.fcor2 hT1 (by omega), shiftEast_sub, shiftEast_solid, ← solidRotation_sub]
      abel
    have ei : invLaplace g.rsphere (shiftEast α (St.vorticitySpectral S (⟨t, q⟩ : St τ g)) - solidRotation N (Ω - g.omega)) =
        shiftEast α (invLaplace g.rsphere (St.vorticitySpectral S (⟨t, q⟩ : St τ g))) + (g.rsphere ^ 2 / 2) • solidRotation N (Ω - g.omega) := by
      rw [sub_eq_add_neg, invLaplace_add, invLaplace_shiftEast, ← neg_one_smul ℝ, invLaplace_smul, invLaplace_solid, smul_smul]
      congr 2
      ring
    rw [sphereFlux_advective _ _ _ hy, sphereFlux_advective _ _ _ hy, ev, ei]
    simp only [phiDeriv_add, lamDeriv_add, phiDeriv_smul, lamDeriv_smul, lamDeriv_solid, phiDeriv_solid h.norm_ne hT1, lamDeriv_shiftEast, phiDeriv_shiftEast]
    field_simp
    ring

theorem dealiased_spun (h : Spharm.Dealiased N S) (Ω : ℝ) : Spharm.Dealiased (g := g.spun Ω) N S := by
  obtain ⟨S', h', hS⟩ := h
  exact ⟨S', exact_spun h' Ω, hS⟩

theorem retrunc_shiftEast {T' : ℕ} (α : ℝ) (a : SpecField T) : retrunc T' (shiftEast α a) = shiftEast α (retrunc T' a) :=
  funext fun k => by
    rw [retrunc_map a (shiftEast α a) (fun m _ z => exp (-(I * (m * α : ℝ))) * z) (fun _ _ => mul_zero _) (fun _ => rfl)]
    rfl

theorem retrunc_lonDeriv {T' : ℕ} (a : SpecField T) : retrunc T' (lonDeriv a) = lonDeriv (retrunc T' a) :=
  funext fun k => by
    rw [retrunc_map a (lonDeriv a) (fun m _ z => I * m * z) (fun _ _ => mul_zero _) (fun _ => rfl)]
    rfl

/-- C153: without aliasing, the tendency of PV on a planet with another angular velocity differs only by a rotation of the PV, for every state; and it does not matter where the
longitudes are counted from. -/
theorem C153_flux (hg : g.Valid) (h : Spharm.Dealiased N S) (h1 : 1 ≤ g.ntrunc) (hT : 2 * g.ntrunc + 1 ≤ g.nlat) (t : τ) (q : g.Spc) (Ω α : ℝ) (k : Fin (nspec g.ntrunc)) :
    St.pvFluxSpectral (g := g.spun Ω) S (⟨t, shiftEast α q⟩ : St τ (g.spun Ω)) k =
      shiftEast α (St.pvFluxSpectral S (⟨t, q⟩ : St τ g)) k - (Ω - g.omega : ℝ) * (I * specM k * shiftEast α q k) := by
  obtain ⟨S', h', hS⟩ := h
  have hle : g.ntrunc ≤ 2 * g.ntrunc := by omega
  obtain ⟨-, ef⟩ := flux_withTrunc h1 (by omega) hle h' hS (⟨t, q⟩ : St τ g)
  obtain ⟨-, ef'⟩ := flux_withTrunc (g := g.spun Ω) h1 (by omega) hle (exact_spun h' Ω) hS (⟨t, shiftEast α q⟩ : St τ (g.spun Ω))
  have key := flux_spun_exact (withTrunc_valid hg hT) h' t (retrunc (2 * g.ntrunc) q) h1 le_rfl le_rfl (retrunc_band_self _) Ω α
  have e : (⟨t, shiftEast α q⟩ : St τ (g.spun Ω)).withTrunc (2 * g.ntrunc) = ⟨t, shiftEast α (retrunc (2 * g.ntrunc) q)⟩ := by
    unfold St.withTrunc
    rw [← retrunc_shiftEast]
  rw [ef', e, ef]
  have e2 := congrFun (congrArg (retrunc g.ntrunc) key) k
  refine e2.trans ?_
  rw [retrunc_sub, retrunc_shiftEast, retrunc_smul, retrunc_lonDeriv, retrunc_shiftEast, retrunc_retrunc hle]
  rfl

/-- C153: streamfunction and wind on the other planet: the wind is that on the first planet (at the longitude that is at the same place in space) minus the velocity of the surface. -/
theorem C153_wind (hg : g.Valid) {B : ℕ} (h : Spharm.Exact N B S) (h1 : 1 ≤ g.ntrunc) (hB : 1 ≤ B) (t : τ) (q : g.Spc) (Ω α x y : ℝ) :
    St.streamFn N (g := g.spun Ω) S (⟨t, shiftEast α q⟩ : St τ (g.spun Ω)) x y =
      St.streamFn N S (⟨t, q⟩ : St τ g) (x - α) y + (Ω - g.omega) * g.rsphere ^ 2 * Real.sin y ∧
    -(sphereGrad g.rsphere (St.streamFn N (g := g.spun Ω) S (⟨t, shiftEast α q⟩ : St τ (g.spun Ω))) x y).2 =
      -(sphereGrad g.rsphere (St.streamFn N S (⟨t, q⟩ : St τ g)) (x - α) y).2 - (Ω - g.omega) * g.rsphere * Real.cos y ∧
    (sphereGrad g.rsphere (St.streamFn N (g := g.spun Ω) S (⟨t, shiftEast α q⟩ : St τ (g.spun Ω))) x y).1 =
      (sphereGrad g.rsphere (St.streamFn N S (⟨t, q⟩ : St τ g)) (x - α) y).1 := by
  have hr := hg.rsphere_pos.ne'
  have h' := exact_spun h Ω
  have ev : St.vorticitySpectral (g := g.spun Ω) S (⟨t, shiftEast α q⟩ : St τ (g.spun Ω)) =
      shiftEast α (St.vorticitySpectral S (⟨t, q⟩ : St τ g)) - solidRotation N (Ω - g.omega) := by
    unfold St.vorticitySpectral
    rw [h.fcor2 h1 hB, h'.fcor2 h1 hB, shiftEast_sub, shiftEast_solid, ← solidRotation_sub]
    abel
  have ei : invLaplace g.rsphere (shiftEast α (St.vorticitySpectral S (⟨t, q⟩ : St τ g)) - solidRotation N (Ω - g.omega)) =
      shiftEast α (invLaplace g.rsphere (St.vorticitySpectral S (⟨t, q⟩ : St τ g))) + (g.rsphere ^ 2 / 2) • solidRotation N (Ω - g.omega) := by
    rw [sub_eq_add_neg, invLaplace_add, invLaplace_shiftEast, ← neg_one_smul ℝ, invLaplace_smul, invLaplace_solid, smul_smul]
    congr 2
    ring
  have es : St.streamFn N (g := g.spun Ω) S (⟨t, shiftEast α q⟩ : St τ (g.spun Ω)) =
      harmonicSum N (shiftEast α (invLaplace g.rsphere (St.vorticitySpectral S (⟨t, q⟩ : St τ g))) + (g.rsphere ^ 2 / 2) • solidRotation N (Ω - g.omega)) := by
    rw [← ei, ← ev]
    exact streamFn_eq (g := g.spun Ω) (⟨t, shiftEast α q⟩ : St τ (g.spun Ω))
  rw [es, streamFn_eq]
  have hsm : ∀ (c : ℝ) (a : g.Spc) x y, harmonicSum N (c • a) x y = c * harmonicSum N a x y := fun c a x y => modeSum_smul ..
  refine ⟨?_, ?_, ?_⟩
  · rw [harmonicSum_add, harmonicSum_shiftEast, hsm, harmonicSum_solid h.norm_ne h1]
    ring
  · unfold sphereGrad
    dsimp only
    rw [dlat_harmonicSum, dlat_harmonicSum, phiDeriv_add, phiDeriv_shiftEast, phiDeriv_smul, phiDeriv_solid h.norm_ne h1]
    field_simp
    ring
  · unfold sphereGrad
    dsimp only
    rw [dlon_harmonicSum, dlon_harmonicSum, lamDeriv_add, lamDeriv_shiftEast, lamDeriv_smul, lamDeriv_solid]
    ring

variable {M : BModel g} {Ω t0 : ℝ} {M' : BModel (g.spun Ω)} {R R' : ℝ → g.Spc → g.Fld}

/-- C153: the same processes on a planet with another angular velocity: PV of the solutions is the same as seen from space. -/
theorem C153_solution (hg : g.Valid) (h : Spharm.Dealiased N S) (h1 : 1 ≤ g.ntrunc) (hT : 2 * g.ntrunc + 1 ≤ g.nlat) (hM : BModel.SameFromSpace S t0 M R M' R') {t1 : ℝ}
    {Y : ℝ → g.Spc} (hY : M.Solution S R t0 t1 Y) :
    BModel.Solution (g := g.spun Ω) S M' R' t0 t1 fun t => shiftEast (-lead g Ω t0 t) (Y t) := by
  intro t ht
  have hd := hY t ht
  rw [hasDerivWithinAt_pi] at hd ⊢
  intro k
  have hdk := hd k
  have hl : HasDerivWithinAt (fun t => exp (-(I * (specM k * -lead g Ω t0 t : ℝ)))) (exp (-(I * (specM k * -lead g Ω t0 t : ℝ))) * (I * (specM k * (Ω - g.omega) : ℝ))) (Icc t0 t1) t := by
    refine HasDerivAt.hasDerivWithinAt (HasDerivAt.cexp ?_)
    have : HasDerivAt (fun t : ℝ => ((specM k * -lead g Ω t0 t : ℝ) : ℂ)) (((-(specM k * (Ω - g.omega)) : ℝ) : ℂ)) t := by
      refine HasDerivAt.ofReal_comp ?_
      unfold lead
      have := (((hasDerivAt_id t).sub_const t0).const_mul (Ω - g.omega)).neg.const_mul (specM k : ℝ)
      refine this.congr_deriv ?_
      ring
    have := (this.const_mul I).neg
    refine this.congr_deriv ?_
    push_cast
    ring
  have hprod := hl.mul hdk
  refine hprod.congr_deriv ?_
  have hflux := C153_flux hg h h1 hT t (Y t) Ω (-lead g Ω t0 t) k
  have hf := congrFun (hM.forcing t (Y t)) k
  rw [galerkinRate_eq]
  simp only [Pi.add_apply, Pi.sub_apply]
  change _ = S.grdtospec (R' t (shiftEast (-lead g Ω t0 t) (Y t))) k - St.pvFluxSpectral (g := g.spun Ω) S (⟨t, shiftEast (-lead g Ω t0 t) (Y t)⟩ : St ℝ (g.spun Ω)) k +
    BModel.damping (g := g.spun Ω) S M' (shiftEast (-lead g Ω t0 t) (Y t)) k
  rw [hflux, hf]
  have hdamp : BModel.damping (g := g.spun Ω) S M' (shiftEast (-lead g Ω t0 t) (Y t)) k = exp (-(I * (specM k * -lead g Ω t0 t : ℝ))) * M.damping S (Y t) k := by
    unfold BModel.damping
    change -(((M'.diffusionCoeff : ℝ) : ℂ) * _ ^ M'.diffusionOrder * _) = _
    rw [hM.coeff, hM.order]
    rcases hM.background with h0 | ⟨hb, hz⟩
    · rw [h0]
      simp
    · rw [hb]
      by_cases hk : specM k = 0
      · simp only [shiftEast, hk]
        simp
      · rw [hz k hk]
        simp only [shiftEast]
        ring
  rw [hdamp]
  simp only [shiftEast]
  push_cast
  ring

/-- C153: PV of runs on both planets: the same as seen from space, as exactly as desired if the time step is sufficiently small. -/
theorem C153_runs (hg : g.Valid) (h : Spharm.Dealiased N S) (h1 : 1 ≤ g.ntrunc) (hT : 2 * g.ntrunc + 1 ≤ g.nlat) (hν : 0 ≤ M.diffusionCoeff) (s : St PyTime g)
    (hM : BModel.SameFromSpace S s.time.sec M R M' R') (hf : M.ForcedBy R) (hf' : BModel.ForcedBy (g := g.spun Ω) M' R')
    (hR : ∀ t1, LipschitzForcing R s.time.sec t1) (hG : ∀ t1, LinearGrowth R s.time.sec t1)
    (hR' : ∀ t1, LipschitzForcing (g := g.spun Ω) R' s.time.sec t1) (hG' : ∀ t1, LinearGrowth (g := g.spun Ω) R' s.time.sec t1) (t1 : ℝ) {η : ℝ} (hη : 0 < η) : ∃ δ > 0,
      ∀ (dt : PyDelta) (tend : PyTime) (se : ℝ), s.time.Compatible dt → s.time.SameKind tend → 0 < toSeconds dt → toSeconds dt < δ →
      s.time.sec ≤ tend.sec → tend.sec ≤ t1 → (se ≤ 0 ∨ ∃ x, s.time = .num x) →
      ∃ (sf : St PyTime g) (saved : List (St PyTime g)) (sf' : St PyTime (g.spun Ω)) (saved' : List (St PyTime (g.spun Ω))), M.Returns S s dt tend se sf saved ∧
        BModel.Returns (g := g.spun Ω) S M' ⟨s.time, s.q⟩ dt tend se sf' saved' ∧ sf'.time.sec = sf.time.sec ∧
        ∀ w ∈ sf :: saved, ∀ w' ∈ sf' :: saved', w'.time.sec = w.time.sec → ‖w'.q - shiftEast (-lead g Ω s.time.sec w.time.sec) w.q‖ < η := by
  have h' := dealiased_spun h Ω
  have hg' := spun_valid hg Ω
  have hν' : 0 ≤ M'.diffusionCoeff := by rw [hM.coeff]; exact hν
  obtain ⟨Y, hY0, hY, hconv⟩ := C120_converges hg h h1 hT hν hf s hR hG
  obtain ⟨Z, hZ0, hZ, hconv'⟩ := C120_converges (g := g.spun Ω) hg' h' h1 hT hν' hf' ⟨s.time, s.q⟩ hR' hG'
  have hZY : ∀ t, s.time.sec ≤ t → Z t = shiftEast (-lead g Ω s.time.sec t) (Y t) := by
    intro t ht
    have hsol := C153_solution hg h h1 hT hM (hY t)
    refine C114_unique (g := g.spun Ω) h'.exact.linear hν' (hR' t) (hZ t) hsol ?_ t ⟨ht, le_rfl⟩
    rw [hY0]
    refine hZ0.trans ?_
    funext k
    simp [shiftEast, lead]
  obtain ⟨δ, hδ, hδ'⟩ := hconv t1 (η / 2) (by positivity)
  obtain ⟨ε, hε, hε'⟩ := hconv' t1 (η / 2) (by positivity)
  refine ⟨min δ ε, lt_min hδ hε, fun dt tend se hc hk hd hlt ha hb hse => ?_⟩
  obtain ⟨sf, saved, r1, -, r2⟩ := hδ' dt tend se hc hk hd (hlt.trans_le (min_le_left _ _)) ha hb hse
  obtain ⟨sf', saved', q1, -, q2⟩ := hε' dt tend se hc hk hd (hlt.trans_le (min_le_right _ _)) ha hb hse
  refine ⟨sf, saved, sf', saved', r1, q1, ?_, fun w hw w' hw' hww => ?_⟩
  · obtain ⟨n, a1, a2, a3⟩ := C42_final_time s dt tend se hc hk sf saved r1
    obtain ⟨m, b1, b2, b3⟩ := C42_final_time (g := g.spun Ω) ⟨s.time, s.q⟩ dt tend se hc hk sf' saved' q1
    have : m = n := by
      rcases lt_trichotomy m n with hlt | he | hlt
      · exact absurd b2 (not_le.mpr (a3 m hlt))
      · exact he
      · exact absurd a2 (not_le.mpr (b3 n hlt))
    rw [a1, b1, this]
  · obtain ⟨c1, c2, -⟩ := r2 w hw
    obtain ⟨-, d2, -⟩ := q2 w' hw'
    rw [hww, hZY _ c1.1] at d2
    have e : ‖shiftEast (-lead g Ω s.time.sec w.time.sec) (Y w.time.sec) - shiftEast (-lead g Ω s.time.sec w.time.sec) w.q‖ < η / 2 := by
      rw [← shiftEast_sub, norm_shiftEast, norm_sub_rev]
      exact c2
    calc ‖w'.q - shiftEast (-lead g Ω s.time.sec w.time.sec) w.q‖
        ≤ ‖w'.q - shiftEast (-lead g Ω s.time.sec w.time.sec) (Y w.time.sec)‖ +
          ‖shiftEast (-lead g Ω s.time.sec w.time.sec) (Y w.time.sec) - shiftEast (-lead g Ω s.time.sec w.time.sec) w.q‖ := norm_sub_le_norm_sub_add_norm_sub _ _ _
      _ < η / 2 + η / 2 := add_lt_add d2 e
      _ = η := by ring

/-- Models without forcing, that diffuse PV -/
theorem sameFromSpace_unforced (h : Spharm.Dealiased N S) (hc : M'.diffusionCoeff = M.diffusionCoeff) (ho : M'.diffusionOrder = M.diffusionOrder)
    (hb : M.diffusionCoeff = 0 ∨ (M.diffusionBg = none ∧ M'.diffusionBg = none)) : BModel.SameFromSpace S t0 M 0 M' 0 where
  coeff := hc
  order := ho
  background := by
    refine hb.imp_right fun ⟨b1, b2⟩ => ?_
    unfold BModel.background
    rw [b1, b2]
    exact ⟨rfl, fun k _ => rfl⟩
  forcing t q := by
    have h0 : S.grdtospec (0 : g.Fld) = 0 := by
      have := h.exact.analysis_smul 0 (0 : g.Fld)
      rwa [zero_smul, zero_smul] at this
    change S.grdtospec (0 : g.Fld) = shiftEast _ (S.grdtospec (0 : g.Fld))
    rw [h0]
    funext k
    simp [shiftEast]

/-- C153: without forcing, and with diffusion of PV or none. -/
theorem C153_unforced (hg : g.Valid) (h : Spharm.Dealiased N S) (h1 : 1 ≤ g.ntrunc) (hT : 2 * g.ntrunc + 1 ≤ g.nlat) (hν : 0 ≤ M.diffusionCoeff) (s : St PyTime g)
    (hc : M'.diffusionCoeff = M.diffusionCoeff) (ho : M'.diffusionOrder = M.diffusionOrder)
    (hb : M.diffusionCoeff = 0 ∨ (M.diffusionBg = none ∧ M'.diffusionBg = none)) (hf : M.rhs = none) (hf' : M'.rhs = none) (t1 : ℝ) {η : ℝ} (hη : 0 < η) : ∃ δ > 0,
      ∀ (dt : PyDelta) (tend : PyTime) (se : ℝ), s.time.Compatible dt → s.time.SameKind tend → 0 < toSeconds dt → toSeconds dt < δ →
      s.time.sec ≤ tend.sec → tend.sec ≤ t1 → (se ≤ 0 ∨ ∃ x, s.time = .num x) →
      ∃ (sf : St PyTime g) (saved : List (St PyTime g)) (sf' : St PyTime (g.spun Ω)) (saved' : List (St PyTime (g.spun Ω))), M.Returns S s dt tend se sf saved ∧
        BModel.Returns (g := g.spun Ω) S M' ⟨s.time, s.q⟩ dt tend se sf' saved' ∧ sf'.time.sec = sf.time.sec ∧
        ∀ w ∈ sf :: saved, ∀ w' ∈ sf' :: saved', w'.time.sec = w.time.sec → ‖w'.q - shiftEast (-lead g Ω s.time.sec w.time.sec) w.q‖ < η :=
  C153_runs hg h h1 hT hν s (sameFromSpace_unforced h hc ho hb) (unforced hf 0 0).1 (unforced (g := g.spun Ω) hf' 0 0).1 (fun _ => (unforced hf _ _).2.1)
    (fun _ => (unforced hf _ _).2.2) (fun _ => (unforced (g := g.spun Ω) hf' _ _).2.1) (fun _ => (unforced (g := g.spun Ω) hf' _ _).2.2) t1 hη

/-- Non-vacuity: runs on a planet and on one that does not rotate. -/
example (q : grid30.Spc) : ∃ S : grid30.Sph, Spharm.Dealiased (fun _ _ => 1) S ∧ ∃ δ > 0, ∀ h > 0, h < δ →
    ∃ (sf : St PyTime grid30) (saved : List (St PyTime grid30)) (sf' : St PyTime (grid30.spun 0)) (saved' : List (St PyTime (grid30.spun 0))),
      (⟨none, 2, 1, none⟩ : BModel grid30).Returns S ⟨.num 0, q⟩ (.num h) (.num 1000) 0 sf saved ∧
      BModel.Returns (g := grid30.spun 0) S ⟨none, 2, 1, none⟩ ⟨.num 0, q⟩ (.num h) (.num 1000) 0 sf' saved' ∧ sf'.time.sec = sf.time.sec ∧
      ‖sf'.q - shiftEast (-lead grid30 0 0 sf.time.sec) sf.q‖ < 1 / 10 := by
  have hn : grid30.nlat = 7 := grid30_nlat
  have ht : grid30.ntrunc = 2 := rfl
  obtain ⟨⟨S, h⟩, -⟩ := C119_exists (N := fun _ _ => 1) grid30_valid (by rw [hn, ht]; norm_num) (fun _ _ => one_ne_zero)
  obtain ⟨δ, hδ, hrun⟩ := C153_unforced (M := ⟨none, 2, 1, none⟩) (Ω := 0) (M' := ⟨none, 2, 1, none⟩) grid30_valid h (by rw [ht]; norm_num) (by rw [hn, ht]; norm_num) zero_le_one
    ⟨.num 0, q⟩ rfl rfl (.inr ⟨rfl, rfl⟩) rfl rfl 1000 (η := 1 / 10) (by norm_num)
  refine ⟨S, h, δ, hδ, fun d hd hlt => ?_⟩
  obtain ⟨sf, saved, sf', saved', r1, r2, r3, r4⟩ := hrun (.num d) (.num 1000) 0 trivial trivial hd hlt (by norm_num [PyTime.sec]) le_rfl (.inl le_rfl)
  exact ⟨sf, saved, sf', saved', r1, r2, r3, r4 sf (by simp) sf' (by simp) r3⟩

end Barotropic
