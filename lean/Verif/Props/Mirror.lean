import Verif.Lemmas.RunMap
import Verif.Lemmas.SpharmWave
import Verif.Props.Derivative
import Verif.Props.RunPhysics

/-!
# Symmetry between the hemispheres: C96
-/

namespace Barotropic
open BModel

section parity
variable {T : ℕ}

theorem parity_add (a b : SpecField T) : parity (a + b) = parity a + parity b := by funext k; simp [parity, mul_add]
theorem parity_neg (a : SpecField T) : parity (-a) = -parity a := by funext k; simp [parity]
theorem parity_sub (a b : SpecField T) : parity (a - b) = parity a - parity b := by funext k; simp [parity, mul_sub]
theorem parity_zero : parity (0 : SpecField T) = 0 := by funext k; simp [parity]
theorem parity_parity (a : SpecField T) : parity (parity a) = a := by
  funext k; simp only [parity]; rw [← mul_assoc, ← mul_pow]; simp
theorem degMul_parity (c : ℕ → ℝ) (a : SpecField T) : degMul c (parity a) = parity (degMul c a) := by
  funext k; simp only [degMul, parity]; ring
theorem degMul_neg (c : ℕ → ℝ) (a : SpecField T) : degMul c (-a) = -degMul c a := by
  funext k; simp [degMul]

/-- mirror image of PV coefficients as linear map -/
noncomputable def negParity : SpecField T →ₗ[ℝ] SpecField T where
  toFun a := -parity a
  map_add' a b := by rw [parity_add, neg_add]
  map_smul' c a := by funext k; simp [parity]; ring

theorem mirror_mirror {h w : ℕ} (f : GridField h w) : mirror (mirror f) = f := by funext j; simp [mirror]
theorem mirror_neg {h w : ℕ} (f : GridField h w) : mirror (-f) = -mirror f := rfl

end parity

variable {g : Grid ℝ} {S : g.Sph}

theorem phi_rev (hg : g.Valid) (j : Fin g.nlat) : g.phi j.rev = -g.phi j := by
  rw [← Grid.phi_symm hg j.isLt]; congr 1; rw [Fin.val_rev]; omega

theorem fcor2_mirror (hg : g.Valid) : mirror g.fcor2 = -g.fcor2 := by
  funext j i
  change 2 * g.omega * Real.sin (g.phi j.rev) = -(2 * g.omega * Real.sin (g.phi j))
  rw [phi_rev hg, Real.sin_neg]; ring

theorem neg_grdtospec (hS : S.IsLinear) (f : g.Fld) : S.grdtospec (-f) = -S.grdtospec f := by
  have := hS.grdtospec_smul (-1) f
  rwa [neg_one_smul, neg_one_smul] at this

theorem neg_spectogrd (hS : S.IsLinear) (f : g.Spc) : S.spectogrd (-f) = -S.spectogrd f := by
  have := hS.spectogrd_smul (-1) f
  rwa [neg_one_smul, neg_one_smul] at this

theorem neg_vrtdiv (hS : S.IsLinear) (u v : g.Fld) : S.getvrtdivspec (-u) (-v) = -S.getvrtdivspec u v := by
  have := hS.getvrtdiv_smul (-1) u v
  rwa [neg_one_smul, neg_one_smul, neg_one_smul] at this

namespace St
variable {τ : Type}

theorem fcor2Spectral_parity (hg : g.Valid) (hS : S.IsLinear) (h : S.Mirrors) :
    parity (Grid.fcor2Spectral S) = -Grid.fcor2Spectral S := by
  have := h.grdtospec_mirror g.fcor2
  rw [fcor2_mirror hg, neg_grdtospec hS] at this
  exact this.symm

theorem vorticitySpectral_mirrored (hg : g.Valid) (hS : S.IsLinear) (h : S.Mirrors) (s : St τ g) :
    s.mirrored.vorticitySpectral S = -parity (s.vorticitySpectral S) := by
  unfold vorticitySpectral mirrored
  dsimp only
  rw [parity_sub, fcor2Spectral_parity hg hS h]
  abel

theorem pv_mirrored (hS : S.IsLinear) (h : S.Mirrors) (s : St τ g) : s.mirrored.pv S = -mirror (s.pv S) := by
  change S.spectogrd (-parity s.q) = _
  rw [neg_spectogrd hS, h.spectogrd_parity]; rfl

theorem invert_mirrored (hg : g.Valid) (hS : S.IsLinear) (h : S.Mirrors) (s : St τ g) :
    s.mirrored.invertPv S = (mirror (s.u S), -mirror (s.v S)) := by
  change S.getuv (s.mirrored.vorticitySpectral S) 0 = _
  rw [vorticitySpectral_mirrored hg hS h]
  have := h.getuv_parity (s.vorticitySpectral S) 0
  rw [parity_zero] at this
  exact this

theorem u_mirrored (hg : g.Valid) (hS : S.IsLinear) (h : S.Mirrors) (s : St τ g) : s.mirrored.u S = mirror (s.u S) :=
  congrArg Prod.fst (invert_mirrored hg hS h s)
theorem v_mirrored (hg : g.Valid) (hS : S.IsLinear) (h : S.Mirrors) (s : St τ g) : s.mirrored.v S = -mirror (s.v S) :=
  congrArg Prod.snd (invert_mirrored hg hS h s)

theorem flux_mirrored (hg : g.Valid) (hS : S.IsLinear) (h : S.Mirrors) (s : St τ g) :
    s.mirrored.pvFluxSpectral S = -parity (s.pvFluxSpectral S) := by
  unfold pvFluxSpectral
  rw [pv_mirrored hS h, u_mirrored hg hS h, v_mirrored hg hS h]
  have e1 : -mirror (s.pv S) * mirror (s.u S) = -mirror (s.pv S * s.u S) := by funext j i; simp [mirror]
  have e2 : -mirror (s.pv S) * -mirror (s.v S) = -(-mirror (s.pv S * s.v S)) := by funext j i; simp [mirror]
  change (S.getvrtdivspec _ _).2 = _
  rw [e1, e2, neg_vrtdiv hS, h.getvrtdiv_mirror]
  rfl

end St

/-- C96: the mirror image of a state (or the state created from mirrored PV or wind) has the mirrored wind: u is reflected, v is
reflected and changes its sign; PV, vorticity and streamfunction are reflected and change their signs; energy, enstrophy and
stationary wavenumbers are reflected. -/
theorem C96_fields {τ : Type} (hS : Spharm.Lawful S) (h : S.Mirrors) (hg : g.Valid) (s : St τ g) :
    (∀ (t : τ) (f u v : g.Fld), St.ofPv S t (-mirror f) = (St.ofPv S t f).mirrored ∧
      St.fromWind S t (mirror u) (-mirror v) = (St.fromWind S t u v).mirrored) ∧
    s.mirrored.mirrored = s ∧ s.mirrored.time = s.time ∧
    s.mirrored.pv S = -mirror (s.pv S) ∧ s.mirrored.vorticity S = -mirror (s.vorticity S) ∧
    s.mirrored.u S = mirror (s.u S) ∧ s.mirrored.v S = -mirror (s.v S) ∧
    s.mirrored.streamfunction S = -mirror (s.streamfunction S) ∧
    s.mirrored.enstrophy S = mirror (s.enstrophy S) ∧ s.mirrored.eddyEnstrophy S = mirror (s.eddyEnstrophy S) ∧
    s.mirrored.energy S = mirror (s.energy S) := by
  have hpv := St.pv_mirrored hS.lin h s
  have hu := St.u_mirrored hg hS.lin h s
  have hv := St.v_mirrored hg hS.lin h s
  have hof : ∀ (t : τ) (f : g.Fld), St.ofPv S t (-mirror f) = (St.ofPv S t f).mirrored := by
    intro t f
    refine congrArg (St.mk t) ?_
    change S.grdtospec (-mirror f) = _
    rw [neg_grdtospec hS.lin, h.grdtospec_mirror]
    rfl
  refine ⟨fun t f u v => ⟨hof t f, ?_⟩, ?_, rfl, hpv, ?_, hu, hv, ?_, ?_, ?_, ?_⟩
  · unfold St.fromWind
    rw [← hof]
    refine congrArg (St.ofPv S t) ?_
    have h1 : Grid.vorticity S (mirror u) (-mirror v) = -mirror (Grid.vorticity S u v) := by
      change S.spectogrd (S.getvrtdivspec _ _).1 = _
      rw [h.getvrtdiv_mirror]
      change S.spectogrd (-parity _) = _
      rw [neg_spectogrd hS.lin, h.spectogrd_parity]
      rfl
    rw [h1]
    have h2 := fcor2_mirror hg
    funext j i
    have h3 : g.fcor2 j.rev i = -g.fcor2 j i := congrFun (congrFun h2 j) i
    simp only [Pi.add_apply, Pi.neg_apply, mirror, h3]; ring
  · unfold St.mirrored; simp only [parity_neg, parity_parity, neg_neg]
  · unfold St.vorticity
    rw [hpv]
    have h2 := fcor2_mirror hg
    funext j i
    have h3 : g.fcor2 j.rev i = -g.fcor2 j i := congrFun (congrFun h2 j) i
    simp only [Pi.sub_apply, Pi.neg_apply, mirror, h3]; ring
  · unfold St.streamfunction
    rw [St.vorticitySpectral_mirrored hg hS.lin h, Grid.poisson_eq_degMul, Grid.poisson_eq_degMul, degMul_neg, degMul_parity]
    change S.spectogrd (-parity _) = _
    rw [neg_spectogrd hS.lin, h.spectogrd_parity]
    rfl
  · unfold St.enstrophy; rw [hpv]; funext j i; simp [mirror]
  · unfold St.eddyEnstrophy; rw [hpv]; funext j i
    simp only [mirror, Pi.neg_apply, Finset.sum_neg_distrib]
    ring
  · unfold St.energy; rw [hu, hv]; funext j i; simp [mirror]

/-- C96: stationary wavenumbers are reflected, for any wind and PV. -/
theorem C96_wavenumber (hg : g.Valid) (u pv : g.Fld) (order : Order) (minU : ℝ) :
    (∀ ks, g.stationaryWavenumber (.field u) (some (.field pv)) order minU "complex" = .ok (.complex ks) →
      g.stationaryWavenumber (.field (mirror u)) (some (.field (-mirror pv))) order minU "complex" = .ok (.complex fun j => ks j.rev)) ∧
    (∀ kind ks, g.stationaryWavenumber (.field u) (some (.field pv)) order minU kind = .ok (.real ks) →
      g.stationaryWavenumber (.field (mirror u)) (some (.field (-mirror pv))) order minU kind = .ok (.real fun j => ks j.rev)) ∧
    (∀ kind e, g.stationaryWavenumber (.field u) (some (.field pv)) order minU kind = .error e →
      g.stationaryWavenumber (.field (mirror u)) (some (.field (-mirror pv))) order minU kind = .error e) := by
  have hq : (ProfileOrField.field (-mirror pv)).zonalMean = fun j => -(ProfileOrField.field pv : ProfileOrField g).zonalMean j.rev := by
    funext j; simp [ProfileOrField.zonalMean, mirror, neg_div]
  have hu : (ProfileOrField.field (mirror u)).zonalMean = fun j => (ProfileOrField.field u : ProfileOrField g).zonalMean j.rev := by
    funext j; simp [ProfileOrField.zonalMean, mirror]
  have hcos : ∀ j : Fin g.nlat, Real.cos (g.phi j.rev) = Real.cos (g.phi j) := fun j => by rw [phi_rev hg, Real.cos_neg]
  have hd : ∀ q : Fin g.nlat → ℝ, g.derivativeProfile (fun j => -q j.rev) order =
      (g.derivativeProfile q order).map fun d j => d j.rev := by
    intro q
    by_cases ho : order.Known ∧ order.need ≤ g.nlat
    · obtain ⟨D, h1, h2, -, h4, -⟩ := C14_structure_1d g order ho.1 ho.2
      have : D (fun j => -q j.rev) = fun j => D q j.rev := by
        have h5 := h2 (-1) 0 (fun j => q j.rev) 0
        rw [h4] at h5
        simpa using h5
      unfold Grid.derivativeProfile
      rw [h1, h1, this]
      simp [Except.map]
    · have he : ∃ e, ∀ v : Fin g.nlat → ℝ, g.derivativeMeridional (.d1 g.nlat v) order = .error e := by
        by_cases hk : order.Known
        · exact ⟨_, fun v => (C14_errors g (.d1 g.nlat v) order).2.2 (by simp [Arr.ndim, Arr.shape]) hk (by
            have : ¬ order.need ≤ g.nlat := fun h => ho ⟨hk, h⟩
            omega)⟩
        · exact ⟨_, fun v => (C14_errors g (.d1 g.nlat v) order).2.1 (by simp [Arr.ndim, Arr.shape]) hk⟩
      obtain ⟨e, he⟩ := he
      unfold Grid.derivativeProfile
      rw [he, he]
      rfl
  unfold Grid.stationaryWavenumber Grid.ksPv
  dsimp only
  rw [hq, hu, hd]
  cases g.derivativeProfile (ProfileOrField.field pv : ProfileOrField g).zonalMean order with
  | error e =>
    refine ⟨fun ks hk => ?_, fun k ks hk => ?_, fun k e' hk => ?_⟩
    · cases hk
    · cases hk
    · exact hk
  | ok d =>
    simp only [Except.map]
    refine ⟨fun ks hk => ?_, fun k ks hk => ?_, fun k e' hk => ?_⟩
    · simp at hk ⊢
      rw [← hk]
      funext j
      simp only [hcos]
    · split_ifs at hk ⊢ <;> simp at hk ⊢ <;> rw [← hk] <;> funext j <;> simp only [hcos]
    · split_ifs at hk ⊢; exact hk

/-- the reflection carries the runs of a model to those of the mirrored model -/
theorem mirror_runMap (hS : S.IsLinear) (h : S.Mirrors) (hg : g.Valid) {M M' : BModel g} (hM : M.Mirrors M') :
    RunMap S S M M' 1 negParity id id (fun _ => True) (fun _ => True) where
  seconds d _ := (one_mul _).symm
  add t d _ _ := by change t.add d = _; cases t.add d <;> rfl
  sub t t' _ _ := by change t.sub t' = _; cases t.sub t' <;> rfl
  lt t t' _ _ := rfl
  add_ok _ _ _ _ _ _ := trivial
  sub_ok _ _ _ _ _ _ := trivial
  tendency s _ := by
    have h1 : (fun t : g.Spc => (1 : ℝ) • t) = id := by funext t; exact one_smul _ _
    have h2 : ∀ x : Except PyErr g.Spc, x.map id = x := fun x => by cases x <;> rfl
    rw [h1, h2]
    change M'.tendency S s.mirrored = _
    unfold BModel.tendency
    rw [St.flux_mirrored hg hS h]
    cases hr : M.rhs with
    | none =>
      rw [hM.none hr]
      refine congrArg Except.ok ?_
      change _ = -parity _
      rw [parity_neg]
    | some f =>
      obtain ⟨f', h3, h4⟩ := hM.rhs f hr
      rw [h3]
      dsimp only
      rw [h4]
      cases f s with
      | error e => rfl
      | ok r =>
        refine congrArg Except.ok ?_
        change _ + S.grdtospec (-mirror r) = -parity _
        rw [neg_grdtospec hS, h.grdtospec_mirror, parity_add, parity_neg]
        change _ = -(_ + parity (S.grdtospec r))
        abel
  diffusion dt q := by
    rw [one_mul]
    change M'.applyDiffusion S dt (-parity q) = -parity _
    unfold BModel.applyDiffusion
    rw [hM.order, hM.coeff, hM.bg]
    cases M.diffusionBg with
    | none =>
      simp only [Option.map, Grid.diffusion_eq_degMul]
      rw [degMul_neg, degMul_parity]
    | some b =>
      simp only [Option.map, Grid.diffusion_eq_degMul]
      rw [show Grid.toSpectral S (-mirror b) = -parity (Grid.toSpectral S b) by
          change S.grdtospec _ = -parity (S.grdtospec b); rw [neg_grdtospec hS, h.grdtospec_mirror],
        show -parity q - -parity (Grid.toSpectral S b) = -parity (q - Grid.toSpectral S b) by rw [parity_sub]; abel,
        degMul_neg, degMul_parity, parity_add]
      abel

/-- C96: a run of the mirrored model from the mirrored state is the mirrored run: the same times, final and saved states mirrored,
the same exceptions. -/
theorem C96_run (hS : Spharm.Lawful S) (h : S.Mirrors) (hg : g.Valid) {M M' : BModel g} (hM : M.Mirrors M') (s : St PyTime g)
    (dt : PyDelta) (tend : PyTime) (se : ℝ) (fuel : ℕ) :
    M'.run S s.mirrored dt tend se fuel = (M.run S s dt tend se fuel).map St.mirrored := by
  have := (mirror_runMap hS.lin h hg hM).run one_pos (se := se) (.inr fun t x _ => by rw [one_mul]; rfl) s dt tend fuel trivial
    trivial trivial
  rw [one_mul] at this
  exact this

/-- C96: a flow with symmetric hemispheres keeps them symmetric: no flow across the equator develops. -/
theorem C96_symmetric (hS : Spharm.Lawful S) (h : S.Mirrors) (hg : g.Valid) {M : BModel g} (hM : M.Mirrors M) (s : St PyTime g)
    (hs : S.Adm s.q) (hd : mirror (s.pv S) = -s.pv S) (dt : PyDelta) (tend : PyTime) (se : ℝ) (sf : St PyTime g)
    (saved : List (St PyTime g)) (hr : M.Returns S s dt tend se sf saved) :
    ∀ x ∈ sf :: saved, x.mirrored = x ∧ mirror (x.pv S) = -x.pv S ∧ mirror (x.u S) = x.u S ∧ mirror (x.v S) = -x.v S ∧
      ∀ j i, j.rev = j → x.v S j i = 0 := by
  have hs' : s.mirrored = s := by
    unfold St.mirrored
    have : -parity s.q = s.q := by
      have h1 := h.grdtospec_mirror (s.pv S)
      rw [hd, neg_grdtospec hS.lin, show S.grdtospec (s.pv S) = s.q from hs] at h1
      rw [← h1, neg_neg]
    rw [this]
  obtain ⟨fuel, hr⟩ := hr
  have he := C96_run hS h hg hM s dt tend se fuel
  rw [hs', hr] at he
  unfold Outcome.map at he
  injection he with h1 h2
  have key : ∀ x ∈ sf :: saved, x.mirrored = x := by
    intro x hx
    rcases List.mem_cons.mp hx with rfl | hx
    · exact h1.symm
    · have : saved.map St.mirrored = saved.map id := by rw [List.map_id]; exact h2.symm
      exact List.map_inj_left.mp this x hx
  intro x hx
  have hx := key x hx
  have hv := St.v_mirrored hg hS.lin h x
  have hp := St.pv_mirrored hS.lin h x
  have hu := St.u_mirrored hg hS.lin h x
  rw [hx] at hv hp hu
  have hv' : mirror (x.v S) = -x.v S := by rw [eq_neg_iff_add_eq_zero, add_comm]; nth_rewrite 1 [hv]; simp
  refine ⟨hx, ?_, hu.symm, hv', fun j i hj => ?_⟩
  · rw [eq_neg_iff_add_eq_zero, add_comm]; nth_rewrite 1 [hp]; simp
  · have h3 : x.v S j.rev i = -x.v S j i := congrFun (congrFun hv' j) i
    rw [hj] at h3
    linarith

/-- C96: mirror images of forcings: sums of terms of the same parity, products, the switch, relaxation with a mirrored reference,
and orographic forcing with mirrored orography (and opposite reference Coriolis parameter). -/
theorem C96_forcing (hS : Spharm.Lawful S) (h : S.Mirrors) (hg : g.Valid) :
    (∀ (e : ℝ) (a a' b b' : Term g), a.Mirrors e a' → b.Mirrors e b' → (Term.sum a b).Mirrors e (.sum a' b')) ∧
    (∀ (e e' : ℝ) (a a' b b' : Term g), a.Mirrors e a' → b.Mirrors e' b' → (Term.prod a b).Mirrors (e * e') (.prod a' b')) ∧
    (∀ tend, (Term.timedOffSwitch tend : Term g).Mirrors 1 (.timedOffSwitch tend)) ∧
    (∀ rate ref, (Term.linearRelaxation S rate ref).Mirrors (-1) (.linearRelaxation S rate (ref.mirrored (-1)))) ∧
    (∀ o o' : Orog, o'.scaleHeight = o.scaleHeight → o'.wind = o.wind → o'.fcorRef = o.fcorRef.map Neg.neg →
      o'.kind.orography g = (o.kind.orography g).map mirror → (o.term S).Mirrors (-1) (o'.term S)) ∧
    (∀ t t' : Term g, t.Mirrors (-1) t' → ∀ s, t'.toRhs s.mirrored = (t.toRhs s).map fun r => -mirror r) := by
  have key : ∀ (e e' e'' : ℝ) (a a' b b' : Term g), a.Mirrors e a' → b.Mirrors e' b' →
      ∀ op : RVal g → RVal g → RVal g, (∀ x y, op (x.mirrored e) (y.mirrored e') = (op x y).mirrored e'') → ∀ s : St PyTime g,
      (do let x ← a'.call s.mirrored; let y ← b'.call s.mirrored; return op x y) =
      (do let x ← a.call s; let y ← b.call s; return op x y).map (RVal.mirrored e'') := by
    intro e e' e'' a a' b b' ha hb op hop s
    rw [ha, hb]
    cases a.call s with
    | error e => rfl
    | ok x =>
      cases b.call s with
      | error e => rfl
      | ok y => exact congrArg Except.ok (hop x y)
  refine ⟨fun e a a' b b' ha hb s => ?_, fun e e' a a' b b' ha hb s => ?_, fun tend s => ?_, fun rate ref s => ?_,
    fun o o' h1 h2 h3 h4 s => ?_, fun t t' h s => ?_⟩
  · refine key e e e a a' b b' ha hb RVal.add (fun x y => ?_) s
    cases x <;> cases y <;> simp only [RVal.add, RVal.mirrored] <;> congr 1
    · ring
    · funext j i; simp [mirror]; ring
    · funext j i; simp [mirror]; ring
    · funext j i; simp [mirror]; ring
  · refine key e e' _ a a' b b' ha hb RVal.mul (fun x y => ?_) s
    cases x <;> cases y <;> simp only [RVal.mul, RVal.mirrored] <;> congr 1
    · ring
    · funext j i; simp [mirror]; ring
    · funext j i; simp [mirror]; ring
    · funext j i; simp [mirror]; ring
  · unfold Term.timedOffSwitch Term.call
    simp only [show s.mirrored.time = s.time from rfl]
    cases s.time.le tend with
    | error e => rfl
    | ok b => cases b <;> simp [Except.map, RVal.mirrored]
  · unfold Term.linearRelaxation Term.call
    dsimp only
    rw [St.pv_mirrored hS.lin h]
    refine congrArg Except.ok ?_
    cases ref <;> simp only [RVal.sub, RVal.mul, RVal.mirrored] <;> congr 1 <;> funext j i <;> simp [mirror] <;> ring
  · have hgr : o'.gradient S = (o.gradient S).map fun p => (mirror p.1, -mirror p.2) := by
      unfold Orog.gradient
      rw [h4]
      cases o.kind.orography g with
      | error e => rfl
      | ok f =>
        refine congrArg Except.ok ?_
        change S.getgrad (S.grdtospec (mirror f)) = _
        rw [h.grdtospec_mirror, h.getgrad_parity]
        rfl
    have hw : o'.getWind S s.mirrored = (mirror (o.getWind S s).1, -mirror (o.getWind S s).2) := by
      unfold Orog.getWind
      rw [h2, St.u_mirrored hg hS.lin h, St.v_mirrored hg hS.lin h]
      cases o.wind with
      | act f => refine Prod.ext rfl ?_; funext j i; simp [mirror]
      | zon f => refine Prod.ext rfl ?_; funext j i; simp [mirror]
      | sbr f =>
        refine Prod.ext ?_ ?_
        · funext j i; simp only [mirror]; rw [phi_rev hg, Real.cos_neg]
        · funext j i; simp [mirror]
    unfold Orog.term Term.call Orog.force
    dsimp only
    rw [hgr, hw]
    cases o.gradient S with
    | error e => rfl
    | ok gr =>
      refine congrArg Except.ok (congrArg RVal.fld ?_)
      have hf : ∀ j i, g.fcor2 (Fin.rev j) i = -g.fcor2 j i := fun j i => congrFun (congrFun (fcor2_mirror hg) j) i
      funext j i
      change Orog.combine o' _ _ j i = -1 * o.combine _ _ j.rev i
      unfold Orog.combine
      rw [h1, h3]
      cases o.fcorRef with
      | none => simp only [Option.map, Pi.neg_apply, mirror, hf]; ring
      | some x => simp only [Option.map, Pi.neg_apply, mirror]; ring
  · unfold Term.toRhs
    rw [h s]
    cases t.call s with
    | error e => rfl
    | ok x =>
      cases x with
      | num x => rfl
      | fld f =>
        refine congrArg Except.ok ?_
        funext j i; simp

/-- C96: the mirror image of a Gaussian mountain or of sine mountains is the mountain at the opposite latitude. -/
theorem C96_mountains (hg : g.Valid) (height clon clat slon slat : ℝ) (k : ℤ) :
    (OrogKind.gaussian height clon (-clat) slon slat).orography g =
      ((OrogKind.gaussian height clon clat slon slat).orography g).map mirror ∧
    (OrogKind.sine height (-clat) slat k).orography g = ((OrogKind.sine height clat slat k).orography g).map mirror := by
  have hl : ∀ j : Fin g.nlat, g.lat j.rev = -g.lat j := by
    intro j
    have h := phi_rev hg j
    unfold Grid.phi deg2rad at h
    have := Real.pi_pos
    field_simp at h
    linarith
  have e : ∀ j i, (g.lat2 (Fin.rev j) i - clat) ^ 2 = (g.lat2 j i - -clat) ^ 2 := by
    intro j i
    change (g.lat j.rev - clat) ^ 2 = (g.lat j - -clat) ^ 2
    rw [hl]; ring
  constructor
  · refine congrArg Except.ok ?_
    funext j i
    simp only [mirror, OrogKind.gaussianHeight, e]
    rfl
  · refine congrArg Except.ok ?_
    funext j i
    simp only [mirror, OrogKind.sineHeight, e]

/-! Non-vacuity: a wave that is not symmetric (and one that is) with a transform that satisfies the laws; a forced symmetric model. -/

example : Spharm.Lawful wave30 ∧ wave30.Mirrors ∧ ∃ s : St PyTime grid30, wave30.Adm s.q ∧ s.mirrored ≠ s := by
  have hT : 1 ≤ grid30.ntrunc := by unfold grid30; norm_num
  refine ⟨wave30_lawful, wave30_mirror, ⟨.num 0, mk3 hT 0 0 1⟩, waveSph_adm grid30_valid hT 0 0 1, fun h => ?_⟩
  have h := congrFun (congrArg St.q h) (k2 hT)
  change -parity (mk3 hT 0 0 1) (k2 hT) = mk3 hT 0 0 1 (k2 hT) at h
  rw [parity_k2, mk3_k2] at h
  norm_num at h

example : ∃ M : BModel grid30, M.Mirrors M ∧ M.rhs ≠ none ∧
    ∃ s : St PyTime grid30, wave30.Adm s.q ∧ mirror (s.pv wave30) = -s.pv wave30 ∧
      ∃ sf saved, M.Returns wave30 s (.num 1) (.num 3) 1 sf saved := by
  have h0 := (C96_mountains grid30_valid 1000 0 0 5 5 2).2
  rw [neg_zero] at h0
  have hf := C96_forcing wave30_lawful wave30_mirror grid30_valid
  have hmir : (⟨some (Orog.term wave30 ⟨.sine 1000 0 5 2, 10000, .act 1, none⟩).toRhs, 2, 1, none⟩ : BModel grid30).Mirrors
      ⟨some (Orog.term wave30 ⟨.sine 1000 0 5 2, 10000, .act 1, none⟩).toRhs, 2, 1, none⟩ :=
    { order := rfl, coeff := rfl, bg := rfl, none := (fun h => by cases h), rhs := (fun f hh => by
        cases hh
        exact ⟨_, rfl, hf.2.2.2.2.2 _ _ (hf.2.2.2.2.1 _ _ rfl rfl rfl h0)⟩) }
  refine ⟨_, hmir, by simp, Init.motionless wave30 (.num 0), wave30_lawful.rt.adm_analysis _, ?_, ?_⟩
  · change mirror (wave30.spectogrd (wave30.grdtospec grid30.fcor2)) = -wave30.spectogrd (wave30.grdtospec grid30.fcor2)
    rw [wave30_lawful.coriolis]
    exact fcor2_mirror grid30_valid
  · refine C42_returns ?_ (Init.motionless wave30 (.num 0)) (.num 1) (.num 3) 1 trivial trivial (by norm_num [toSeconds])
      (.inr ⟨0, rfl⟩) (by norm_num [Init.motionless, St.ofPv, PyTime.sec])
    intro f hh s
    cases hh
    exact ⟨_, rfl⟩

end Barotropic
