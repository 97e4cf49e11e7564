import Verif.Lemmas.RunMap
import Verif.Lemmas.SpharmWave
import Verif.Props.RunPhysics
import Verif.Props.Orography
import Verif.Props.Dominant

/-!
# Rotational symmetry of states and runs: C95
-/

namespace Barotropic
open BModel

variable {g : Grid ℝ} {S : g.Sph}

/-- the rotation as a permutation of the columns -/
noncomputable def rotPerm (n d : ℕ) : Equiv.Perm (Fin n) := Equiv.ofBijective _ (rotate_perm (nlon := n) d)

theorem rotate_eq {h n : ℕ} (d : ℕ) (f : GridField h n) : rotate d f = fun j i => f j (rotPerm n d i) := rfl

theorem phase_zero {T : ℕ} (n d : ℕ) : phaseShift n d (0 : SpecField T) = 0 := by funext k; simp [phaseShift]
theorem phase_sub {T : ℕ} (n d : ℕ) (a b : SpecField T) : phaseShift n d (a - b) = phaseShift n d a - phaseShift n d b := by
  funext k; simp [phaseShift, mul_sub]
theorem phase_add {T : ℕ} (n d : ℕ) (a b : SpecField T) : phaseShift n d (a + b) = phaseShift n d a + phaseShift n d b := by
  funext k; simp [phaseShift, mul_add]
theorem phase_neg {T : ℕ} (n d : ℕ) (a : SpecField T) : phaseShift n d (-a) = -phaseShift n d a := by
  funext k; simp [phaseShift]

/-- the phase shift as linear map -/
noncomputable def phaseLin {T : ℕ} (n d : ℕ) : SpecField T →ₗ[ℝ] SpecField T where
  toFun := phaseShift n d
  map_add' := phase_add n d
  map_smul' c a := by funext k; simp [phaseShift]; ring

namespace St
variable {τ : Type} {d : ℕ}

theorem vorticitySpectral_rotated (h : S.Rotations) (s : St τ g) :
    (s.rotated d).vorticitySpectral S = phaseShift g.nlon d (s.vorticitySpectral S) := by
  unfold vorticitySpectral rotated
  rw [phase_sub, Grid.fcor2Spectral_phaseInv h d]

theorem pv_rotated (h : S.Rotations) (s : St τ g) : (s.rotated d).pv S = rotate d (s.pv S) := h.spectogrd_phase d s.q

theorem invert_rotated (h : S.Rotations) (s : St τ g) :
    (s.rotated d).invertPv S = (rotate d (s.u S), rotate d (s.v S)) := by
  change S.getuv ((s.rotated d).vorticitySpectral S) 0 = _
  rw [vorticitySpectral_rotated h]
  have := h.getuv_phase d (s.vorticitySpectral S) 0
  rw [phase_zero] at this
  exact this

theorem u_rotated (h : S.Rotations) (s : St τ g) : (s.rotated d).u S = rotate d (s.u S) := congrArg Prod.fst (invert_rotated h s)
theorem v_rotated (h : S.Rotations) (s : St τ g) : (s.rotated d).v S = rotate d (s.v S) := congrArg Prod.snd (invert_rotated h s)

theorem flux_rotated (h : S.Rotations) (s : St τ g) :
    (s.rotated d).pvFluxSpectral S = phaseShift g.nlon d (s.pvFluxSpectral S) := by
  unfold pvFluxSpectral
  rw [pv_rotated h, u_rotated h, v_rotated h]
  exact congrArg Prod.snd (h.getvrtdiv_rotate d (s.pv S * s.u S) (s.pv S * s.v S))

end St

theorem zonal_sum_rotate {h n : ℕ} (d : ℕ) (f : GridField h n) (j : Fin h) : ∑ i, rotate d f j i = ∑ i, f j i :=
  (rotate_perm d).sum_comp fun i => f j i

/-- C95: rotating a state (or creating it from rotated PV or wind) rotates PV, vorticity, wind, streamfunction, enstrophy, energy and
local wave activity. -/
theorem C95_fields {τ : Type} (hS : Spharm.Lawful S) (d : ℕ) (s : St τ g) :
    (∀ (t : τ) (f u v : g.Fld), St.ofPv S t (rotate d f) = (St.ofPv S t f).rotated d ∧
      St.fromWind S t (rotate d u) (rotate d v) = (St.fromWind S t u v).rotated d) ∧
    (s.rotated d).time = s.time ∧
    (s.rotated d).pv S = rotate d (s.pv S) ∧ (s.rotated d).vorticity S = rotate d (s.vorticity S) ∧
    (s.rotated d).u S = rotate d (s.u S) ∧ (s.rotated d).v S = rotate d (s.v S) ∧
    (s.rotated d).streamfunction S = rotate d (s.streamfunction S) ∧
    (s.rotated d).enstrophy S = rotate d (s.enstrophy S) ∧ (s.rotated d).eddyEnstrophy S = rotate d (s.eddyEnstrophy S) ∧
    (s.rotated d).energy S = rotate d (s.energy S) ∧
    (s.rotated d).falwa S = (s.falwa S).map fun F j => rotated d (F j) := by
  have h := hS.rot
  have hpv := St.pv_rotated (d := d) h s
  have hu := St.u_rotated (d := d) h s
  have hv := St.v_rotated (d := d) h s
  refine ⟨fun t f u v => ⟨?_, ?_⟩, rfl, hpv, ?_, hu, hv, ?_, ?_, ?_, ?_, ?_⟩
  · exact congrArg (St.mk t) (h.grdtospec_rotate d f)
  · unfold St.fromWind
    have : g.fcor2 + Grid.vorticity S (rotate d u) (rotate d v) = rotate d (g.fcor2 + Grid.vorticity S u v) := by
      have h1 : Grid.vorticity S (rotate d u) (rotate d v) = rotate d (Grid.vorticity S u v) := by
        change S.spectogrd (S.getvrtdivspec _ _).1 = _
        rw [h.getvrtdiv_rotate, h.spectogrd_phase]
        rfl
      rw [h1]
      rfl
    rw [this]
    exact congrArg (St.mk t) (h.grdtospec_rotate d _)
  · unfold St.vorticity; rw [hpv]; rfl
  · unfold St.streamfunction
    rw [St.vorticitySpectral_rotated h, Grid.poisson_eq_degMul, Grid.poisson_eq_degMul, Grid.degMul_phase]
    exact h.spectogrd_phase d _
  · unfold St.enstrophy; rw [hpv]; rfl
  · unfold St.eddyEnstrophy; rw [hpv]; funext j i; rw [zonal_sum_rotate]; rfl
  · unfold St.energy; rw [hu, hv]; rfl
  · unfold St.falwa
    rw [hpv]
    exact (C27_rotation g (s.pv S) (rotPerm g.nlon d) .none "sptrapz").2.1

/-- C95: rotation changes neither zonalized PV, nor FAWA, nor stationary wavenumbers and waveguides. It rotates filtered wave activity,
and the Hilbert envelope for even numbers of longitudes. -/
theorem C95_diagnostics {τ : Type} (hS : Spharm.Lawful S) (hg : g.Valid) (d : ℕ) (s : St τ g) :
    (s.rotated d).pvZonalized S = s.pvZonalized S ∧
    g.stateFawa ((s.rotated d).pv S) = g.stateFawa (s.pv S) ∧
    (s.rotated d).stationaryWavenumber S = s.stationaryWavenumber S ∧
    (∀ k, (s.rotated d).extractKsWaveguides S k = s.extractKsWaveguides S k) ∧
    (s.rotated d).falwaFiltered S = (s.falwaFiltered S).map (fun F j => rotated d (F j)) ∧
    (Even g.nlon → ∀ e, s.vEnvelopeHilbert S = .ok (.d2 g.nlat g.nlon e) →
      (s.rotated d).vEnvelopeHilbert S = .ok (.d2 g.nlat g.nlon (rotate d e))) := by
  have h := hS.rot
  have hpv := St.pv_rotated (d := d) h s
  have hu := St.u_rotated (d := d) h s
  have hv := St.v_rotated (d := d) h s
  have hk : (s.rotated d).stationaryWavenumber S = s.stationaryWavenumber S := by
    have hz : ∀ f : g.Fld, (ProfileOrField.field (rotate d f)).zonalMean = (ProfileOrField.field f).zonalMean := by
      intro f; funext j; simp only [ProfileOrField.zonalMean]; rw [zonal_sum_rotate]
    unfold St.stationaryWavenumber Grid.stationaryWavenumber Grid.ksPv
    dsimp only
    rw [hu, hpv, hz, hz]
  refine ⟨?_, ?_, hk, fun k => ?_, ?_, fun he e hh => ?_⟩
  · unfold St.pvZonalized; rw [hpv]
    exact (C22_permutation g g.nlon (s.pv S) (rotPerm g.nlon d) .none "sptrapz").2
  · rw [hpv]; exact (C27_rotation g (s.pv S) (rotPerm g.nlon d) .none "sptrapz").2.2.2.2
  · unfold St.extractKsWaveguides; rw [hk]
  · unfold St.falwaFiltered; rw [hpv, hv]
    exact C93_rotation hg d (s.pv S) (s.v S)
  · unfold St.vEnvelopeHilbert at hh ⊢
    rw [hv]
    exact C64_rotation he d (s.v S) 2 10 e hh

/-- the rotation carries the runs of a model to those of the rotated model -/
theorem rotation_runMap (hS : Spharm.Lawful S) {d : ℕ} {M M' : BModel g} (hM : M.Rotates d M') :
    RunMap S S M M' 1 (phaseLin g.nlon d) id id (fun _ => True) (fun _ => True) where
  seconds d _ := (one_mul _).symm
  add t d _ _ := by change t.add d = _; cases t.add d <;> rfl
  sub t t' _ _ := by change t.sub t' = _; cases t.sub t' <;> rfl
  lt t t' _ _ := rfl
  add_ok _ _ _ _ _ _ := trivial
  sub_ok _ _ _ _ _ _ := trivial
  tendency s _ := by
    have h1 : (fun t : g.Spc => (1 : ℝ) • t) = id := by funext t; exact one_smul _ _
    have h2 : ∀ x : Except PyErr g.Spc, x.map id = x := fun x => by cases x <;> rfl
    rw [h1, h2]
    change M'.tendency S (s.rotated d) = _
    unfold BModel.tendency
    rw [St.flux_rotated hS.rot, ← phase_neg]
    cases hr : M.rhs with
    | none => rw [hM.none hr]; rfl
    | some f =>
      obtain ⟨f', h3, h4⟩ := hM.rhs f hr
      rw [h3]
      dsimp only
      rw [h4]
      cases f s with
      | error e => rfl
      | ok r =>
        refine congrArg Except.ok ?_
        change _ + S.grdtospec (rotate d r) = phaseShift g.nlon d _
        rw [hS.rot.grdtospec_rotate, phase_add]
        rfl
  diffusion dt q := by
    rw [one_mul]
    change M'.applyDiffusion S dt (phaseShift g.nlon d q) = phaseShift g.nlon d _
    unfold BModel.applyDiffusion
    rw [hM.order, hM.coeff, hM.bg]
    cases M.diffusionBg with
    | none =>
      simp only [Option.map, Grid.diffusion_eq_degMul]
      rw [Grid.degMul_phase]
    | some b =>
      simp only [Option.map, Grid.diffusion_eq_degMul]
      rw [show Grid.toSpectral S (rotate d b) = phaseShift g.nlon d (Grid.toSpectral S b) from hS.rot.grdtospec_rotate d b,
        ← phase_sub, Grid.degMul_phase, ← phase_add]

/-- C95: a run of the rotated model from the rotated state is the rotated run: the same times, final and saved states rotated, the same
exceptions. -/
theorem C95_run (hS : Spharm.Lawful S) {d : ℕ} {M M' : BModel g} (hM : M.Rotates d M') (s : St PyTime g) (dt : PyDelta) (tend : PyTime)
    (se : ℝ) (fuel : ℕ) :
    M'.run S (s.rotated d) dt tend se fuel = (M.run S s dt tend se fuel).map (St.rotated d) := by
  have := (rotation_runMap hS hM).run one_pos (se := se) (.inr fun t x _ => by rw [one_mul]; rfl) s dt tend fuel trivial trivial trivial
  rw [one_mul] at this
  exact this

/-- C95: `d`-periodic flows stay `d`-periodic: if the model and the initial state are unchanged by a rotation, then so is everything the
run returns. (For `d = 1` this is conservation of zonal symmetry.) -/
theorem C95_periodic (hS : Spharm.Lawful S) {d : ℕ} {M : BModel g} (hM : M.Rotates d M) (s : St PyTime g) (hs : S.Adm s.q)
    (hd : rotate d (s.pv S) = s.pv S) (dt : PyDelta) (tend : PyTime) (se : ℝ) (sf : St PyTime g) (saved : List (St PyTime g))
    (h : M.Returns S s dt tend se sf saved) :
    ∀ x ∈ sf :: saved, x.rotated d = x ∧ rotate d (x.pv S) = x.pv S ∧ rotate d (x.u S) = x.u S ∧ rotate d (x.v S) = x.v S := by
  have hs' : s.rotated d = s := by
    unfold St.rotated
    have : phaseShift g.nlon d s.q = s.q := by
      have h1 := hS.rot.grdtospec_rotate d (s.pv S)
      rw [hd] at h1
      rwa [show S.grdtospec (s.pv S) = s.q from hs, eq_comm] at h1
    rw [this]
  obtain ⟨fuel, h⟩ := h
  have hr := C95_run hS hM s dt tend se fuel
  rw [hs', h] at hr
  unfold Outcome.map at hr
  injection hr with h1 h2
  have key : ∀ x ∈ sf :: saved, x.rotated d = x := by
    intro x hx
    rcases List.mem_cons.mp hx with rfl | hx
    · exact h1.symm
    · have : saved.map (St.rotated d) = saved.map id := by rw [List.map_id]; exact h2.symm
      exact List.map_inj_left.mp this x hx
  intro x hx
  have hx := key x hx
  refine ⟨hx, ?_, ?_, ?_⟩
  · rw [← St.pv_rotated hS.rot, hx]
  · rw [← St.u_rotated hS.rot, hx]
  · rw [← St.v_rotated hS.rot, hx]

/-- C95: forcings rotate: sums and products of terms that rotate, the switch, functions of time, relaxation with a rotated reference and
orographic forcing with a rotated orography. -/
theorem C95_forcing (hS : Spharm.Lawful S) (d : ℕ) :
    (∀ a a' b b' : Term g, a.Rotates d a' → b.Rotates d b' → (Term.sum a b).Rotates d (.sum a' b') ∧ (Term.prod a b).Rotates d (.prod a' b')) ∧
    (∀ tend, (Term.timedOffSwitch tend : Term g).Rotates d (.timedOffSwitch tend)) ∧
    (∀ rate ref, (Term.linearRelaxation S rate ref).Rotates d (.linearRelaxation S rate (ref.rotated d))) ∧
    (∀ o o' : Orog, o'.scaleHeight = o.scaleHeight → o'.wind = o.wind → o'.fcorRef = o.fcorRef →
      o'.kind.orography g = (o.kind.orography g).map (rotate d) → (o.term S).Rotates d (o'.term S)) ∧
    (∀ t t' : Term g, t.Rotates d t' → ∀ s, t'.toRhs (s.rotated d) = (t.toRhs s).map (rotate d)) := by
  refine ⟨fun a a' b b' ha hb => ?_, fun tend s => ?_, fun rate ref s => ?_, fun o o' h1 h2 h3 h4 s => ?_, fun t t' h s => ?_⟩
  · have key : ∀ op : RVal g → RVal g → RVal g, (∀ x y, op (x.rotated d) (y.rotated d) = (op x y).rotated d) → ∀ s : St PyTime g,
        (do let x ← a'.call (s.rotated d); let y ← b'.call (s.rotated d); return op x y) =
        (do let x ← a.call s; let y ← b.call s; return op x y).map (RVal.rotated d) := by
      intro op hop s
      rw [ha, hb]
      cases a.call s with
      | error e => rfl
      | ok x =>
        cases b.call s with
        | error e => rfl
        | ok y => exact congrArg Except.ok (hop x y)
    exact ⟨fun s => key RVal.add (fun x y => by cases x <;> cases y <;> rfl) s,
      fun s => key RVal.mul (fun x y => by cases x <;> cases y <;> rfl) s⟩
  · unfold Term.timedOffSwitch Term.call
    simp only [show (s.rotated d).time = s.time from rfl]
    cases s.time.le tend with
    | error e => rfl
    | ok b => cases b <;> rfl
  · unfold Term.linearRelaxation Term.call
    dsimp only
    rw [St.pv_rotated hS.rot]
    cases ref <;> rfl
  · have hg : o'.gradient S = (o.gradient S).map fun p => (rotate d p.1, rotate d p.2) := by
      unfold Orog.gradient
      rw [h4]
      cases o.kind.orography g with
      | error e => rfl
      | ok f =>
        refine congrArg Except.ok ?_
        change S.getgrad (S.grdtospec (rotate d f)) = _
        rw [hS.rot.grdtospec_rotate, hS.rot.getgrad_phase]
        rfl
    have hw : o'.getWind S (s.rotated d) = (rotate d (o.getWind S s).1, rotate d (o.getWind S s).2) := by
      unfold Orog.getWind
      rw [h2, St.u_rotated hS.rot, St.v_rotated hS.rot]
      cases o.wind with
      | act f => rfl
      | zon f => simp only [zonal_sum_rotate]; rfl
      | sbr f => rfl
    unfold Orog.term Term.call Orog.force
    dsimp only
    rw [hg, hw]
    cases o.gradient S with
    | error e => rfl
    | ok gr =>
      refine congrArg Except.ok (congrArg RVal.fld ?_)
      funext j i
      change Orog.combine o' _ _ j i = rotate d (o.combine _ _) j i
      unfold Orog.combine rotate
      rw [h1, h3]
      rfl
  · unfold Term.toRhs
    rw [h s]
    cases t.call s with
    | error e => rfl
    | ok x => cases x <;> rfl

/-- C95: a model with sine mountains of zonal wavenumber `k` is unchanged by rotations by a `k`-th of the circle (if the grid contains
them), so that the flow keeps this symmetry (`C95_periodic`). -/
theorem C95_sine (hS : Spharm.Lawful S) (hg : g.Valid) (height clat slat H : ℝ) (k d : ℕ) (hd : k * d = g.nlon) (wind : WindKind)
    (fref : Option ℝ) (order : ℕ) (coeff : ℝ) :
    BModel.Rotates (g := g) d ⟨some (Orog.term S ⟨.sine height clat slat k, H, wind, fref⟩).toRhs, order, coeff, none⟩
      ⟨some (Orog.term S ⟨.sine height clat slat k, H, wind, fref⟩).toRhs, order, coeff, none⟩ where
  order := rfl
  coeff := rfl
  bg := rfl
  none h := by cases h
  rhs f hf := by
    cases hf
    refine ⟨_, rfl, (C95_forcing hS d).2.2.2.2 _ _ ((C95_forcing hS d).2.2.2.1 _ _ rfl rfl rfl ?_)⟩
    cases hk : (OrogKind.sine height clat slat k).orography g with
    | error e => rfl
    | ok f => exact congrArg Except.ok (C58_sine_rotation hg height clat slat k d hd f hk).symm

/-! Non-vacuity: a flow that a rotation changes, in a transform that satisfies the laws; and a model with mountains. -/

example : Spharm.Lawful wave30 ∧ ∃ s : St PyTime grid30, wave30.Adm s.q ∧ s.rotated 6 ≠ s ∧ s.rotated 12 = s := by
  have hT : 1 ≤ grid30.ntrunc := by unfold grid30; norm_num
  refine ⟨wave30_lawful, ⟨.num 0, mk3 hT 0 0 1⟩, ?_, fun h => ?_, ?_⟩
  · exact waveSph_adm grid30_valid hT 0 0 1
  · have h := congrFun (congrArg St.q h) (k2 hT)
    change phaseShift grid30.nlon 6 (mk3 hT 0 0 1) (k2 hT) = mk3 hT 0 0 1 (k2 hT) at h
    rw [phase_k2, mk3_k2, mul_one, ru_eq_one_iff (by rw [grid30_nlon]; norm_num), grid30_nlon] at h
    revert h; decide
  · refine congrArg (St.mk _) ?_
    change phaseShift grid30.nlon 12 (mk3 hT 0 0 1) = _
    rw [mk3_phase, mul_one, (ru_eq_one_iff (N := grid30.nlon) (by rw [grid30_nlon]; norm_num) _).mpr (by rw [grid30_nlon])]

example : ∃ M : BModel grid30, M.Rotates 6 M ∧ M.rhs ≠ none :=
  ⟨_, C95_sine wave30_lawful grid30_valid 1000 45 5 10000 2 6 (by rw [grid30_nlon]) (.act 1) none 2 1, by simp⟩

end Barotropic
