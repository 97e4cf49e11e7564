import Verif.Props.Run
import Verif.Lemmas.Zonal

/-!
# Time integration, conservation properties: C46 – C50
-/

namespace Barotropic
open BModel

variable {g : Grid ℝ} {S : g.Sph} {M : BModel g}

/-! ## C46 global mean -/

theorem run_mean (hw : S.WindInverse) (ho : 1 ≤ M.diffusionOrder)
    (hf : ∀ f, M.rhs = some f → ∀ s r, f s = .ok r → ∀ k, specN k = 0 → Grid.toSpectral S r k = 0)
    (s : St PyTime g) (dt : PyDelta) (tend : PyTime) (se : ℝ) (sf : St PyTime g) (saved : List (St PyTime g))
    (h : M.Returns S s dt tend se sf saved) (k : Fin (nspec g.ntrunc)) (hk : specN k = 0) :
    sf.q k = s.q k ∧ ∀ x ∈ saved, x.q k = s.q k := by
  have ht : ∀ a t, M.tendency S a = .ok t → t k = 0 := by
    intro a t ha
    unfold BModel.tendency at ha
    have hflux : a.pvFluxSpectral S k = 0 := hw.div_mean _ _ k hk
    cases hr : M.rhs with
    | none =>
      rw [hr] at ha
      cases ha
      simp [hflux]
    | some f =>
      rw [hr] at ha
      dsimp only at ha
      cases hfa : f a with
      | error e => rw [hfa] at ha; cases ha
      | ok r =>
        rw [hfa] at ha; cases ha
        simp [hflux, hf f hr a r hfa k hk]
  obtain ⟨⟨b, h1⟩, h2⟩ := run_invariant (fun a b => a.q k = s.q k ∧ b.q k = s.q k)
    (by
      intro s1 he
      obtain ⟨tn, t, htn, _, rfl⟩ := euler_ok_iff.mp he
      refine ⟨rfl, ?_⟩
      dsimp only
      rw [applyDiffusion_mean ho _ _ hk]
      simp [ht _ _ htn])
    (by
      rintro a b p ⟨ha, hb⟩ hp
      obtain ⟨d, tn, t, _, htn, _, rfl⟩ := leapfrog_ok_iff.mp hp
      simp only [Pi.add_apply, Pi.smul_apply, applyDiffusion_mean ho _ _ hk, ht _ _ htn, ha, hb, smul_eq_mul, mul_zero,
        add_zero, and_true]
      push_cast; ring) h
  exact ⟨h1.1, fun x hx => (h2 x hx).choose_spec.1⟩

/-- C46: in an unforced model the constant mode of every state of a run is that of the initial state. -/
theorem C46_mean_conserved (hS : Spharm.Lawful S) (ho : 1 ≤ M.diffusionOrder) (hr : M.rhs = none)
    (s : St PyTime g) (dt : PyDelta) (tend : PyTime) (se : ℝ) (sf : St PyTime g) (saved : List (St PyTime g))
    (h : M.Returns S s dt tend se sf saved) :
    sf.q (k0 _) = s.q (k0 _) ∧ ∀ x ∈ saved, x.q (k0 _) = s.q (k0 _) :=
  run_mean hS.wind ho (fun f hf => by rw [hr] at hf; cases hf) s dt tend se sf saved h _ (specN_k0 _)

/-- C46, extended: the same with a forcing that never has a global mean. -/
theorem C46_forced (hS : Spharm.Lawful S) (ho : 1 ≤ M.diffusionOrder)
    (hf : ∀ f, M.rhs = some f → ∀ s r, f s = .ok r → Grid.toSpectral S r (k0 _) = 0)
    (s : St PyTime g) (dt : PyDelta) (tend : PyTime) (se : ℝ) (sf : St PyTime g) (saved : List (St PyTime g))
    (h : M.Returns S s dt tend se sf saved) :
    sf.q (k0 _) = s.q (k0 _) ∧ ∀ x ∈ saved, x.q (k0 _) = s.q (k0 _) :=
  run_mean hS.wind ho (fun f hf' s r hr k hk => by rw [eq_k0_of_specN hk]; exact hf f hf' s r hr) s dt tend se sf saved h _
    (specN_k0 _)

/-- C46: the hypothesis on the order is needed, order 0 ("diffusion" of the mean) does not conserve it. -/
theorem C46_order_zero (q : g.Spc) (hbg : M.diffusionBg = none) (ho : M.diffusionOrder = 0) (dt : ℝ)
    (hd : 0 < dt * M.diffusionCoeff) (hq : q (k0 _) ≠ 0) : M.applyDiffusion S dt q (k0 _) ≠ q (k0 _) := by
  unfold BModel.applyDiffusion
  rw [hbg, ho]
  simp only [Grid.solveDiffusionSpectral, pow_zero, mul_one]
  intro h
  have hne : ((1 + dt * M.diffusionCoeff : ℝ) : ℂ) ≠ 0 := by exact_mod_cast (by linarith : (1 + dt * M.diffusionCoeff : ℝ) ≠ 0)
  rw [div_eq_iff hne] at h
  have h1 : q (k0 _) * ((dt * M.diffusionCoeff : ℝ) : ℂ) = 0 := by
    push_cast at h ⊢; linear_combination -h
  rcases mul_eq_zero.mp h1 with h2 | h2
  · exact hq h2
  · exact hd.ne' (by exact_mod_cast h2)

/-- Non-vacuity of C46: a lawful transform, a model and arguments for which the run returns. -/
example : ∃ sf saved, (⟨none, 2, 1, none⟩ : BModel grid30).Returns sph30 (Init.motionless sph30 (.num 0)) (.num 1) (.num 3) 1 sf saved ∧
    Spharm.Lawful sph30 := by
  obtain ⟨sf, saved, h⟩ := C42_returns (S := sph30) (M := (⟨none, 2, 1, none⟩ : BModel grid30))
    (fun f hf => by cases hf) (Init.motionless sph30 (.num 0)) (.num 1) (.num 3) 1 trivial trivial (by norm_num [toSeconds])
    (.inr ⟨0, rfl⟩) (by norm_num [Init.motionless, St.ofPv, PyTime.sec])
  exact ⟨sf, saved, h, sph30_lawful⟩

/-! ## C47 rest -/

/-- C47, the part that holds: rest is preserved if diffusion acts on deviations from planetary vorticity, or not at all.
Missing: the default `diffusion_bg=None` with a non-zero coefficient, where the statement is false, see
`C47_default_refuted`. -/
theorem C47_rest_partial (hS : Spharm.Lawful S) (hr : M.rhs = none)
    (hd : M.diffusionBg = some g.fcor2 ∨ M.diffusionCoeff = 0) (t0 : PyTime) (dt : PyDelta) (tend : PyTime) (se : ℝ)
    (sf : St PyTime g) (saved : List (St PyTime g))
    (h : M.Returns S (Init.motionless S t0) dt tend se sf saved) :
    (sf.u S = 0 ∧ sf.v S = 0) ∧ ∀ x ∈ saved, x.u S = 0 ∧ x.v S = 0 := by
  have rest : ∀ a : St PyTime g, a.q = Grid.fcor2Spectral S → a.u S = 0 ∧ a.v S = 0 := by
    intro a ha
    have : a.vorticitySpectral S = 0 := by unfold St.vorticitySpectral; rw [ha, sub_self]
    have h2 : a.invertPv S = 0 := by
      unfold St.invertPv; rw [this]; exact hS.lin.getuv_zero
    exact ⟨congrArg Prod.fst h2, congrArg Prod.snd h2⟩
  have ht : ∀ (a : St PyTime g) t, a.q = Grid.fcor2Spectral S → M.tendency S a = .ok t → t = 0 := by
    intro a t ha htn
    unfold BModel.tendency at htn
    rw [hr] at htn
    cases htn
    have : a.pvFluxSpectral S = 0 := by
      unfold St.pvFluxSpectral
      rw [(rest a ha).1, (rest a ha).2, mul_zero]
      exact congrArg Prod.snd hS.lin.getvrtdiv_zero
    rw [this, neg_zero]
  have hdiff : ∀ dt, M.applyDiffusion S dt (Grid.fcor2Spectral S) = Grid.fcor2Spectral S := by
    intro dt
    unfold BModel.applyDiffusion
    cases hbg : M.diffusionBg with
    | none =>
      rw [hbg] at hd
      rcases hd with hd | hd
      · cases hd
      · funext k; simp [Grid.solveDiffusionSpectral, hd]
    | some b =>
      rw [hbg] at hd
      rcases hd with hd | hd
      · cases hd
        funext k; simp [Grid.solveDiffusionSpectral, Grid.fcor2Spectral]
      · funext k; simp [Grid.solveDiffusionSpectral, hd]
  obtain ⟨⟨b, h1⟩, h2⟩ := run_invariant (fun a b => a.q = Grid.fcor2Spectral S ∧ b.q = Grid.fcor2Spectral S)
    (by
      intro s1 he
      obtain ⟨tn, t, htn, _, rfl⟩ := euler_ok_iff.mp he
      refine ⟨rfl, ?_⟩
      dsimp only
      rw [ht _ _ rfl htn, smul_zero, add_zero]
      exact hdiff _)
    (by
      rintro a b p ⟨ha, hb⟩ hp
      obtain ⟨d, tn, t, _, htn, _, rfl⟩ := leapfrog_ok_iff.mp hp
      have e := ht _ _ hb htn
      subst e
      simp only [ha, hb, smul_zero, add_zero, hdiff, and_true]
      funext k
      simp only [Pi.add_apply, Pi.smul_apply, smul_eq_mul]
      push_cast; ring) h
  exact ⟨rest _ h1.1, fun x hx => rest x (h2 x hx).choose_spec.1⟩

theorem fcor2Spectral_ne (hS : Spharm.Lawful S) (hg : g.Valid) (hT : 1 ≤ g.ntrunc) (hom : g.omega ≠ 0) :
    Grid.fcor2Spectral S (k1 hT) ≠ 0 := by
  intro h
  have hz : Grid.fcor2Spectral S = 0 := by
    funext k
    by_cases hk : specM k = 0 ∧ specN k = 1
    · rw [eq_k1_of hT hk.1 hk.2, h]; rfl
    · exact hS.coriolis_modes k hk
  have hc := hS.coriolis
  change S.spectogrd (Grid.fcor2Spectral S) = g.fcor2 at hc
  rw [hz, hS.lin.spectogrd_zero] at hc
  have h0 : 0 < g.nlat := by have := hg.nlat_ge; omega
  have h1 : 0 < g.nlon := by have := hg.nlon_ge; omega
  have := congrFun (congrFun hc ⟨0, h0⟩) ⟨0, h1⟩
  have e : g.fcor2 ⟨0, h0⟩ ⟨0, h1⟩ = 2 * g.omega * Real.sin (g.phi 0) := rfl
  rw [e, Grid.phi_zero hg, Real.sin_pi_div_two] at this
  exact hom (by simpa using this.symm)

/-- C47 is false with the default `diffusion_bg=None`: on every grid of a rotating planet, for every lawful transform and
every positive diffusion coefficient and time step, a motionless atmosphere is moving after a single time step, because
planetary vorticity is diffused. -/
theorem C47_default_refuted (hS : Spharm.Lawful S) (hg : g.Valid) (hT : 1 ≤ g.ntrunc) (hom : g.omega ≠ 0)
    (hr : M.rhs = none) (hbg : M.diffusionBg = none) (hc : 0 < M.diffusionCoeff) (d : ℝ) (hd : 0 < d) :
    ∃ sf saved, M.Returns S (Init.motionless S (.num 0)) (.num d) (.num d) 0 sf saved ∧ sf.time = .num d ∧ sf.u S ≠ 0 := by
  have hM : M.Total := fun f hf => by rw [hr] at hf; cases hf
  have hcomp : (Init.motionless S (.num 0) : St PyTime g).time.Compatible (.num d) := trivial
  have hkind : (Init.motionless S (.num 0) : St PyTime g).time.SameKind (.num d) := trivial
  obtain ⟨sf, saved, hret⟩ := C42_returns (S := S) hM (Init.motionless S (.num 0)) (.num d) (.num d) 0 hcomp hkind hd
    (.inl le_rfl) hd.le
  obtain ⟨n, l, hat, _, rfl, rfl, htime, hend, _⟩ := run_atStep hcomp hkind (fun _ _ => True) (fun _ _ => trivial)
    (fun _ _ _ _ _ _ => trivial) hret
  -- exactly one step
  have hn : n = 1 := by
    rw [sec_stepTime hcomp] at hend
    have e1 : (Init.motionless S (.num 0) : St PyTime g).time.sec = 0 := rfl
    have e2 : toSeconds (.num d) = d := rfl
    have e3 : (PyTime.num d).sec = d := rfl
    rw [e1, e2, e3, zero_add] at hend
    have h1 : n ≠ 0 := by rintro rfl; simp at hend; linarith
    have h2 : ¬ 1 < n := by
      intro h
      have := hat.2 1 h
      rw [sec_stepTime hcomp, e1, e2, e3] at this
      simp at this
    omega
  subst hn
  refine ⟨_, _, hret, ?_, ?_⟩
  · rw [htime]; simp [stepTime, Init.motionless, St.ofPv]
  -- fluxes vanish
  have hphase : PhaseInv g.nlon (Init.motionless S (.num 0) : St PyTime g).q := Grid.fcor2Spectral_phaseInv hS.rot
  have htend : ∀ (a : St PyTime g) t, PhaseInv g.nlon a.q → M.tendency S a = .ok t → t = 0 := by
    intro a t ha h
    unfold BModel.tendency at h
    rw [hr] at h
    cases h
    rw [St.zonal_flux hg hS.rot ha, neg_zero]
  have hdiff : ∀ dt q, M.applyDiffusion S dt q = Grid.solveDiffusionSpectral q M.diffusionCoeff dt M.diffusionOrder := by
    intro dt q; unfold BModel.applyDiffusion; rw [hbg]
  -- the state after one step
  obtain ⟨hp, -⟩ := hat
  obtain ⟨s1, he⟩ : ∃ s1, M.euler S (Init.motionless S (.num 0)) (.num d) = .ok s1 := by
    unfold BModel.pairAt BModel.pairAt at hp
    cases he : M.euler S (Init.motionless S (.num 0)) (.num d) with
    | error e => rw [he] at hp; cases hp
    | ok s1 => exact ⟨s1, rfl⟩
  have hlf : M.leapfrog S (Init.motionless S (.num 0)) s1 (2 / 10) = .ok (l.state, l.stateNew) := by
    unfold BModel.pairAt BModel.pairAt at hp
    rw [he] at hp
    exact hp
  obtain ⟨tn, t, htn, hadd, rfl⟩ := euler_ok_iff.mp he
  have := htend _ _ hphase htn; subst this
  obtain ⟨d', tn', t', hsub, htn', hadd', hpair⟩ := leapfrog_ok_iff.mp hlf
  have hd' : d' = .num d := by
    have e : t = .num (0 + d) := by cases hadd; rfl
    subst e
    dsimp only at hsub
    have : (PyTime.num (0 + d)).sub (.num 0) = .ok d' := hsub
    simp only [PyTime.sub, Except.ok.injEq] at this
    rw [← this]; congr 1; ring
  subst hd'
  have hphase1 : PhaseInv g.nlon (M.applyDiffusion S (toSeconds (.num d)) ((Init.motionless S (.num 0) : St PyTime g).q +
      ((toSeconds (.num d) : ℝ) : ℂ) • (0 : g.Spc))) := by
    rw [smul_zero, add_zero]
    exact applyDiffusion_phaseInv hS.rot (fun b hb => by rw [hbg] at hb; cases hb) hphase _
  have := htend _ _ hphase1 htn'; subst this
  have hq : l.state.q = ((1 - 2 * (2 / 10) : ℝ) : ℂ) • Grid.solveDiffusionSpectral (Grid.fcor2Spectral S) M.diffusionCoeff d M.diffusionOrder
      + ((2 / 10 : ℝ) : ℂ) • (Grid.fcor2Spectral S +
        Grid.solveDiffusionSpectral (Grid.fcor2Spectral S) M.diffusionCoeff (2 * d) M.diffusionOrder) := by
    have := congrArg (fun p : St PyTime g × St PyTime g => p.1.q) hpair
    dsimp only at this
    rw [this, hdiff, hdiff, smul_zero, smul_zero, add_zero]
    rfl
  -- damping factor as function of degree
  set lam : ℕ → ℝ := fun n => (n : ℝ) * (n + 1) / g.rsphere ^ 2 with hlam
  set F : ℕ → ℝ := fun n => (1 - 2 * (2 / 10)) * (1 / (1 + d * M.diffusionCoeff * lam n ^ M.diffusionOrder)) +
    2 / 10 * (1 + 1 / (1 + 2 * d * M.diffusionCoeff * lam n ^ M.diffusionOrder)) - 1 with hF
  have hvo : l.state.vorticitySpectral S = degMul F (Grid.fcor2Spectral S) := by
    unfold St.vorticitySpectral
    rw [hq, Grid.diffusion_eq_degMul, Grid.diffusion_eq_degMul]
    funext k
    simp only [degMul, Pi.sub_apply, Pi.add_apply, Pi.smul_apply, smul_eq_mul, hF, hlam]
    push_cast; ring
  have hF1 : F 1 < 0 := by
    have hl1 : 0 < lam 1 := by
      rw [hlam]
      have := hg.rsphere_pos
      positivity
    have hx : 0 < d * M.diffusionCoeff * lam 1 ^ M.diffusionOrder := by positivity
    have h1 : 1 / (1 + d * M.diffusionCoeff * lam 1 ^ M.diffusionOrder) < 1 := by
      rw [div_lt_one (by linarith)]; linarith
    have h2 : 1 / (1 + 2 * d * M.diffusionCoeff * lam 1 ^ M.diffusionOrder) < 1 := by
      have e : 2 * d * M.diffusionCoeff * lam 1 ^ M.diffusionOrder = 2 * (d * M.diffusionCoeff * lam 1 ^ M.diffusionOrder) := by ring
      rw [e, div_lt_one (by linarith)]; linarith
    rw [hF]; dsimp only
    linarith
  -- if the wind were zero, vorticity would be zero
  intro hu
  have hv : l.state.v S = 0 := by
    refine hS.rot.zonal_v (l.state.vorticitySpectral S) fun k hm => ?_
    rw [hvo]; unfold degMul
    rw [show Grid.fcor2Spectral S k = 0 from hS.coriolis_modes k (fun h => hm h.1), mul_zero]
  have hres : S.Resolved (l.state.vorticitySpectral S) := by
    rw [hvo]
    refine ⟨hS.rt.adm_degMul _ _ (hS.rt.adm_analysis _), fun k hk => ?_⟩
    have hm : specM k ≠ 0 := by
      intro h0; rw [h0] at hk; have := hg.nlon_ge; omega
    unfold degMul
    rw [show Grid.fcor2Spectral S k = 0 from hS.coriolis_modes k (fun h => hm h.1), mul_zero]
  have hres0 : S.Resolved (0 : g.Spc) := by
    refine ⟨?_, fun _ _ => rfl⟩
    unfold Spharm.Adm; rw [hS.lin.spectogrd_zero, hS.lin.grdtospec_zero]
  have hinv := hS.wind.vrtdiv_uv _ _ hres hres0
  have e1 : (S.getuv (l.state.vorticitySpectral S) 0).1 = 0 := hu
  have e2 : (S.getuv (l.state.vorticitySpectral S) 0).2 = 0 := hv
  rw [e1, e2, hS.lin.getvrtdiv_zero] at hinv
  have h3 := congrFun (congrArg Prod.fst hinv) (k1 hT)
  have h4 : dropMean (l.state.vorticitySpectral S) (k1 hT) = (F 1 : ℂ) * Grid.fcor2Spectral S (k1 hT) := by
    rw [hvo]; simp [dropMean, degMul]
  dsimp only at h3
  rw [h4] at h3
  have h5 : (F 1 : ℂ) * Grid.fcor2Spectral S (k1 hT) = 0 := h3.symm
  rcases mul_eq_zero.mp h5 with h6 | h6
  · exact hF1.ne (by exact_mod_cast h6)
  · exact fcor2Spectral_ne hS hg hT hom h6

/-- Non-vacuity of C47: the hypotheses of the refutation hold for the example grid and transform. -/
example : Spharm.Lawful sph30 ∧ grid30.Valid ∧ 1 ≤ grid30.ntrunc ∧ grid30.omega ≠ 0 ∧
    (0 : ℝ) < (⟨none, 2, 1, none⟩ : BModel grid30).diffusionCoeff :=
  ⟨sph30_lawful, grid30_valid, by unfold grid30; norm_num, by unfold grid30; norm_num, by norm_num⟩

/-! ## C48 zonal symmetry -/

/-- C48: zonally symmetric initial PV stays so, for a forcing that is None or zonally symmetric in zonally symmetric states,
and a diffusion background that is None or zonally symmetric. (`hs`: the state was created from gridded PV, or from
coefficients that represent a real field.) -/
theorem C48_symmetric (hS : Spharm.Lawful S)
    (hf : ∀ f, M.rhs = some f → ∀ s r, ZonallySymmetric (s.pv S) → f s = .ok r → ZonallySymmetric r)
    (hbg : ∀ b, M.diffusionBg = some b → ZonallySymmetric b)
    (s : St PyTime g) (hs : S.Adm s.q) (hsym : ZonallySymmetric (s.pv S)) (dt : PyDelta) (tend : PyTime) (se : ℝ)
    (sf : St PyTime g) (saved : List (St PyTime g)) (h : M.Returns S s dt tend se sf saved) :
    (ZonallySymmetric (sf.pv S) ∧ ZonallySymmetric (sf.u S) ∧ ZonallySymmetric (sf.v S)) ∧
    ∀ x ∈ saved, ZonallySymmetric (x.pv S) ∧ ZonallySymmetric (x.u S) ∧ ZonallySymmetric (x.v S) := by
  have hr := hS.rot
  have hq0 : PhaseInv g.nlon s.q := by
    have := hr.analysis hsym
    rwa [show S.grdtospec (s.pv S) = s.q from hs] at this
  have ht : ∀ (a : St PyTime g) t, PhaseInv g.nlon a.q → M.tendency S a = .ok t → PhaseInv g.nlon t := by
    intro a t ha htn
    unfold BModel.tendency at htn
    have h1 := (St.symm_flux hr ha).neg
    cases hrhs : M.rhs with
    | none => rw [hrhs] at htn; cases htn; exact h1
    | some f =>
      rw [hrhs] at htn
      dsimp only at htn
      cases hfa : f a with
      | error e => rw [hfa] at htn; cases htn
      | ok r =>
        rw [hfa] at htn; cases htn
        exact h1.add (hr.analysis (hf f hrhs a r (St.symm_pv hr ha) hfa))
  obtain ⟨⟨b, h1⟩, h2⟩ := run_invariant (fun a b => PhaseInv g.nlon a.q ∧ PhaseInv g.nlon b.q)
    (by
      intro s1 he
      obtain ⟨tn, t, htn, _, rfl⟩ := euler_ok_iff.mp he
      exact ⟨hq0, applyDiffusion_phaseInv hr hbg (hq0.add ((ht _ _ hq0 htn).smul _)) _⟩)
    (by
      rintro a b p ⟨ha, hb⟩ hp
      obtain ⟨d, tn, t, _, htn, _, rfl⟩ := leapfrog_ok_iff.mp hp
      have hn := applyDiffusion_phaseInv hr hbg (ha.add ((ht _ _ hb htn).smul ((2 * toSeconds d : ℝ) : ℂ))) (2 * toSeconds d)
      exact ⟨(hb.smul _).add ((ha.add hn).smul _), hn⟩) h
  have fin : ∀ a : St PyTime g, PhaseInv g.nlon a.q → ZonallySymmetric (a.pv S) ∧ ZonallySymmetric (a.u S) ∧ ZonallySymmetric (a.v S) :=
    fun a ha => ⟨St.symm_pv hr ha, St.symm_uv hr ha⟩
  exact ⟨fin _ h1.1, fun x hx => fin _ (h2 x hx).choose_spec.1⟩

/-- C48, extended: zonally symmetric states of an unforced model do not move meridionally and have no tendency at all; the
model changes them by diffusion only. -/
theorem C48_steady (hS : Spharm.Lawful S) (hg : g.Valid) (s : St PyTime g) (hs : S.Adm s.q) (hsym : ZonallySymmetric (s.pv S))
    (hr : M.rhs = none) : s.v S = 0 ∧ M.tendency S s = .ok 0 := by
  have hq0 : PhaseInv g.nlon s.q := by
    have := hS.rot.analysis hsym
    rwa [show S.grdtospec (s.pv S) = s.q from hs] at this
  refine ⟨St.zonal_v hg hS.rot hq0, ?_⟩
  unfold BModel.tendency
  rw [hr, St.zonal_flux hg hS.rot hq0, neg_zero]

/-- Non-vacuity of C48: the motionless state is zonally symmetric and admissible. -/
example : sph30.Adm (Init.motionless sph30 (.num 0) : St PyTime grid30).q ∧
    ZonallySymmetric ((Init.motionless sph30 (.num 0) : St PyTime grid30).pv sph30) :=
  ⟨sph30_lawful.rt.adm_analysis _, St.symm_pv sph30_lawful.rot (sph30_lawful.rot.analysis Grid.fcor2_symm)⟩

/-! ## C49 diffusion background -/

/-- C49: the background itself is not changed. -/
theorem C49_fixed_point (b : g.Fld) (hb : M.diffusionBg = some b) (dt : ℝ) :
    M.applyDiffusion S dt (Grid.toSpectral S b) = Grid.toSpectral S b := by
  unfold BModel.applyDiffusion
  rw [hb]
  funext k; simp [Grid.solveDiffusionSpectral]

/-- C49: the anomaly from the background is damped in every mode by a factor between 0 and 1, which is 1 for the constant
mode and below 1 for all others (positive coefficient, order ≥ 1). -/
theorem C49_contracts (b : g.Fld) (hb : M.diffusionBg = some b) (dt : ℝ) (h0 : 0 ≤ dt * M.diffusionCoeff) (q : g.Spc)
    (k : Fin (nspec g.ntrunc)) :
    ∃ c : ℝ, (M.applyDiffusion S dt q - Grid.toSpectral S b) k = c * (q - Grid.toSpectral S b) k ∧ 0 < c ∧ c ≤ 1 ∧
      ‖(M.applyDiffusion S dt q - Grid.toSpectral S b) k‖ ≤ ‖(q - Grid.toSpectral S b) k‖ ∧
      (specN k = 0 → 1 ≤ M.diffusionOrder → c = 1) ∧
      (specN k ≠ 0 → g.rsphere ≠ 0 → 0 < dt * M.diffusionCoeff → c < 1) := by
  have he := pow_nonneg (Grid.eig_nonneg (g := g) k) M.diffusionOrder
  have hx : 0 ≤ dt * M.diffusionCoeff * g.eig k ^ M.diffusionOrder := mul_nonneg h0 he
  set x := dt * M.diffusionCoeff * g.eig k ^ M.diffusionOrder with hxdef
  have heq : (M.applyDiffusion S dt q - Grid.toSpectral S b) k = ((1 / (1 + x) : ℝ) : ℂ) * (q - Grid.toSpectral S b) k := by
    unfold BModel.applyDiffusion
    rw [hb]
    simp only [Pi.sub_apply, Pi.add_apply, Grid.solveDiffusionSpectral, add_sub_cancel_right]
    rw [← hxdef]; push_cast; ring
  have hc0 : 0 < 1 / (1 + x) := by positivity
  have hc1 : 1 / (1 + x) ≤ 1 := by rw [div_le_one (by linarith)]; linarith
  refine ⟨1 / (1 + x), heq, hc0, hc1, ?_, ?_, ?_⟩
  · rw [heq, norm_mul, Complex.norm_real, Real.norm_of_nonneg hc0.le]
    exact mul_le_of_le_one_left (norm_nonneg _) hc1
  · intro hk ho
    rw [hxdef, Grid.eig_zero hk, zero_pow (by omega)]; simp
  · intro hk hr hd
    have : 0 < x := mul_pos hd (pow_pos (Grid.eig_pos hr hk) _)
    rw [div_lt_one (by linarith)]; linarith

/-- C49: `None` is the same as a zero background. -/
theorem C49_none (hl : S.IsLinear) (dt : ℝ) (q : g.Spc) :
    ({ M with diffusionBg := none } : BModel g).applyDiffusion S dt q =
      ({ M with diffusionBg := some 0 } : BModel g).applyDiffusion S dt q := by
  unfold BModel.applyDiffusion
  simp only [Grid.toSpectral, hl.grdtospec_zero, sub_zero, add_zero]

example : (⟨none, 2, 1, some grid30.fcor2⟩ : BModel grid30).diffusionBg = some grid30.fcor2 ∧ (0 : ℝ) ≤ 600 * 1 :=
  ⟨rfl, by norm_num⟩

/-! ## C50 Robert-Asselin filter -/

/-- C50: the filtered state is a weighted mean of old, current and new state, valid at the current time. -/
theorem C50_weights (old now : St PyTime g) (f : ℝ) (p : St PyTime g × St PyTime g) (h : M.leapfrog S old now f = .ok p) :
    ∃ w1 w2 w3 : ℝ, w1 + w2 + w3 = 1 ∧ w1 = f ∧ w3 = f ∧
      p.1.q = w1 • old.q + w2 • now.q + w3 • p.2.q ∧ p.1.time = now.time := by
  obtain ⟨d, tn, t, _, _, _, rfl⟩ := leapfrog_ok_iff.mp h
  refine ⟨f, 1 - 2 * f, f, by ring, rfl, rfl, ?_, rfl⟩
  funext k
  simp only [Pi.add_apply, Pi.smul_apply, smul_eq_mul, Complex.real_smul]
  ring

/-- C50: for a non-zero filter parameter, the current state is unchanged iff the three states are collinear in time. -/
theorem C50_unchanged_iff (old now : St PyTime g) (f : ℝ) (hf : f ≠ 0) (p : St PyTime g × St PyTime g)
    (h : M.leapfrog S old now f = .ok p) : p.1.q = now.q ↔ p.2.q - now.q = now.q - old.q := by
  obtain ⟨w1, w2, w3, hw, h1, h3, hq, _⟩ := C50_weights old now f p h
  have hw2 : w2 = 1 - 2 * f := by linarith
  subst h1; subst h3; subst hw2
  have hc : ((w3 : ℝ) : ℂ) ≠ 0 := by exact_mod_cast hf
  constructor
  · intro h
    rw [h] at hq
    funext k
    have := congrFun hq k
    simp only [Pi.add_apply, Pi.smul_apply, Complex.real_smul] at this
    push_cast at this
    have h2 : (w3 : ℂ) * (p.2.q k - now.q k - (now.q k - old.q k)) = 0 := by linear_combination -this
    rcases mul_eq_zero.mp h2 with h | h
    · exact absurd h hc
    · exact sub_eq_zero.mp h
  · intro h
    rw [hq]
    funext k
    have := congrFun h k
    simp only [Pi.sub_apply] at this
    simp only [Pi.add_apply, Pi.smul_apply, Complex.real_smul]
    push_cast
    linear_combination (w3 : ℂ) * this

/-- C50: a computational mode of period 2dt (amplitude `b` around `a`) is damped by the factor `1 - 4*filter_parameter`. -/
theorem C50_computational_mode (old now : St PyTime g) (f : ℝ) (p : St PyTime g × St PyTime g)
    (h : M.leapfrog S old now f = .ok p) (a b : g.Spc) (h1 : old.q = a + b) (h2 : now.q = a - b) (h3 : p.2.q = a + b) :
    p.1.q - a = (1 - 4 * f : ℝ) • (now.q - a) := by
  obtain ⟨w1, w2, w3, hw, e1, e3, hq, _⟩ := C50_weights old now f p h
  have hw2 : w2 = 1 - 2 * f := by linarith
  subst e1; subst e3; subst hw2
  rw [hq, h1, h2, h3]
  funext k
  simp only [Pi.add_apply, Pi.sub_apply, Pi.smul_apply, Complex.real_smul]
  push_cast; ring

/-- C50: a zero parameter disables the filter, and the new state does not depend on the parameter. -/
theorem C50_disable (old now : St PyTime g) (f : ℝ) :
    (∀ p, M.leapfrog S old now 0 = .ok p → p.1 = now) ∧
    (M.leapfrog S old now f).map Prod.snd = (M.leapfrog S old now 0).map Prod.snd := by
  constructor
  · intro p h
    obtain ⟨d, tn, t, _, _, _, rfl⟩ := leapfrog_ok_iff.mp h
    simp
  · unfold BModel.leapfrog
    cases now.time.sub old.time with
    | error e => rfl
    | ok d =>
      simp only [Bind.bind, Except.bind]
      cases M.tendency S now with
      | error e => rfl
      | ok tn =>
        simp only
        cases now.time.add d with
        | error e => rfl
        | ok t => rfl

/-- Non-vacuity of C50: a leapfrog step that succeeds. -/
example : ∃ p, (⟨none, 2, 1, none⟩ : BModel grid30).leapfrog sph30 (Init.motionless sph30 (.num 0))
    (Init.motionless sph30 (.num 600)) (2 / 10) = .ok p :=
  ⟨_, leapfrog_ok_iff.mpr ⟨.num (600 - 0), _, .num (600 + (600 - 0)), rfl, rfl, rfl, rfl⟩⟩

end Barotropic
