import Verif.Lemmas.RunMap
import Verif.Props.RunPhysics
import Verif.Props.Rhs

/-!
# Origin of the time axis, runs of different length, restarts: C97, C98
-/

namespace Barotropic
open BModel

variable {g : Grid ℝ} {S : g.Sph}

/-! ## C97 -/

theorem shift_runMap {d : PyDelta} {M M' : BModel g} (hM : M.Shifts d M') :
    RunMap S S M M' 1 LinearMap.id (PyTime.shifted d) id (fun _ => True) (fun _ => True) where
  seconds d _ := (one_mul _).symm
  add t e _ _ := by
    cases t <;> cases d <;> cases e <;> simp only [PyTime.shifted, PyTime.add, Except.map, id] <;> congr 2 <;> ring
  sub t t' _ _ := by
    cases t <;> cases d <;> cases t' <;> simp only [PyTime.shifted, PyTime.sub, Except.map, id] <;> congr 2 <;> ring
  lt t t' _ _ := by cases t <;> cases d <;> cases t' <;> simp [PyTime.shifted, PyTime.lt]
  add_ok _ _ _ _ _ _ := trivial
  sub_ok _ _ _ _ _ _ := trivial
  tendency s _ := by
    have h1 : (fun t : g.Spc => (1 : ℝ) • t) = id := by funext t; exact one_smul _ _
    have h2 : ∀ x : Except PyErr g.Spc, x.map id = x := fun x => by cases x <;> rfl
    have h3 : ∀ x : Except PyErr g.Spc, x.map (LinearMap.id : g.Spc →ₗ[ℝ] g.Spc) = x := fun x => by cases x <;> rfl
    rw [h1, h2, h3]
    change M'.tendency S (s.shifted d) = _
    unfold BModel.tendency
    rw [show (s.shifted d).pvFluxSpectral S = s.pvFluxSpectral S from rfl]
    cases hr : M.rhs with
    | none => rw [hM.none hr]
    | some f =>
      obtain ⟨f', h3, h4⟩ := hM.rhs f hr
      rw [h3]
      dsimp only
      rw [h4]
  diffusion dt q := by
    rw [one_mul]
    change M'.applyDiffusion S dt q = _
    unfold BModel.applyDiffusion
    rw [hM.order, hM.coeff, hM.bg]
    rfl

/-- C97, the part that holds: without intermediate output, a later run of a model with the forcing of that time is the same run with
later times. Missing: positive `save_every`, where the statement is false, see `C97_saved_refuted`. -/
theorem C97_run_partial {d : PyDelta} {M M' : BModel g} (hM : M.Shifts d M') (s : St PyTime g) (dt : PyDelta) (tend : PyTime)
    (se : ℝ) (hse : se ≤ 0) (fuel : ℕ) :
    M'.run S (s.shifted d) dt (tend.shifted d) se fuel = (M.run S s dt tend se fuel).map (St.shifted d) := by
  have := (shift_runMap (S := S) hM).run one_pos (se := se) (.inl hse) s dt tend fuel trivial trivial trivial
  rw [one_mul] at this
  exact this

theorem loop_save {M : BModel g} {tend : PyTime} {se : ℝ} {sf : St PyTime g} {saved : List (St PyTime g)} :
    ∀ (fuel : ℕ) (l l' : Loop g), l'.state = l.state → l'.stateNew = l.stateNew → M.loop S tend se fuel l = .done sf saved →
      M.loop S tend 0 fuel l' = .done sf l'.states := by
  intro fuel
  induction fuel with
  | zero => intro l l' _ _ h; simp [BModel.loop] at h
  | succ n ih =>
    intro l l' h1 h2 h
    unfold BModel.loop at h ⊢
    rw [h1]
    cases hlt : l.state.time.lt tend with
    | error e => simp [hlt] at h
    | ok b =>
      cases b with
      | false => simp only [hlt] at h ⊢; cases h; rfl
      | true =>
        simp only [hlt] at h ⊢
        cases hb : M.body S se l with
        | error e => simp [hb] at h
        | ok l1 =>
          simp only [hb] at h
          obtain ⟨p, hp, h3⟩ := body_ok_iff.mp hb
          have hb' : M.body S 0 l' = .ok ⟨p.1, p.2, l'.states, l'.tSave⟩ :=
            body_ok_iff.mpr ⟨p, by rw [h1, h2]; exact hp, .inl ⟨le_rfl, rfl⟩⟩
          rw [hb']
          dsimp only
          refine ih l1 _ ?_ ?_ h <;> rcases h3 with ⟨_, rfl⟩ | ⟨_, _, rfl⟩ | ⟨_, _, rfl⟩ <;> rfl

/-- The final state does not depend on `save_every`. -/
theorem returns_save {M : BModel g} {s : St PyTime g} {dt : PyDelta} {tend : PyTime} {se : ℝ} {sf : St PyTime g}
    {saved : List (St PyTime g)} (h : M.Returns S s dt tend se sf saved) : M.Returns S s dt tend 0 sf [s] := by
  obtain ⟨fuel, h⟩ := h
  obtain ⟨h1, s1, h2, h3⟩ := run_done h
  refine ⟨fuel, ?_⟩
  unfold BModel.run
  rw [h1, h2]
  exact loop_save fuel ⟨s, s1, [s], se⟩ ⟨s, s1, [s], 0⟩ rfl rfl h3

/-- C97: final states correspond for all (also different) intervals of the intermediate output. -/
theorem C97_final {d : PyDelta} {M M' : BModel g} (hM : M.Shifts d M') (s : St PyTime g) (dt : PyDelta) (tend : PyTime)
    (se se' : ℝ) (sf sf' : St PyTime g) (saved saved' : List (St PyTime g)) (h : M.Returns S s dt tend se sf saved)
    (h' : M'.Returns S (s.shifted d) dt (tend.shifted d) se' sf' saved') : sf' = sf.shifted d := by
  obtain ⟨fuel, h1⟩ := returns_save h
  have h2 := C97_run_partial (S := S) hM s dt tend 0 le_rfl fuel
  rw [h1] at h2
  exact (C42_deterministic _ _ _ _ _ _ _ _ (returns_save h') ⟨fuel, h2⟩).1

/-- C97: forcings at a later time: sums and products, the switch with a later end; relaxation and orographic forcing do not depend
on time. -/
theorem C97_forcing (d : PyDelta) :
    (∀ a a' b b' : Term g, a.Shifts d a' → b.Shifts d b' → (Term.sum a b).Shifts d (.sum a' b') ∧ (Term.prod a b).Shifts d (.prod a' b')) ∧
    (∀ tend, (Term.timedOffSwitch tend : Term g).Shifts d (.timedOffSwitch (tend.shifted d))) ∧
    (∀ rate ref, (Term.linearRelaxation S rate ref).Shifts d (.linearRelaxation S rate ref)) ∧
    (∀ o : Orog, (o.term S).Shifts d (o.term S)) ∧
    (∀ t t' : Term g, t.Shifts d t' → ∀ s, t'.toRhs (s.shifted d) = t.toRhs s) := by
  refine ⟨fun a a' b b' ha hb => ⟨fun s => ?_, fun s => ?_⟩, fun tend s => ?_, fun rate ref s => rfl, fun o s => rfl, fun t t' h s => ?_⟩
  · unfold Term.call; rw [ha, hb]
  · unfold Term.call; rw [ha, hb]
  · unfold Term.timedOffSwitch Term.call
    have : (s.shifted d).time.le (tend.shifted d) = s.time.le tend := by
      change (s.time.shifted d).le (tend.shifted d) = _
      cases s.time <;> cases d <;> cases tend <;> simp [PyTime.shifted, PyTime.le]
    simp only [this]
  · unfold Term.toRhs; rw [h s]

/-- C97 is false for intermediate output: `save_every` counts from time 0. A run from 0 to 10 in steps of 1 with save_every = 5 does
not save the state after one step; the same run 10 seconds later does. -/
theorem C97_saved_refuted {M : BModel g} (hM : M.Total) (hs : M.Shifts (.num 10) M) (s : St PyTime g) (h0 : s.time = .num 0) :
    ∃ sf saved sf' saved', M.Returns S s (.num 1) (.num 10) 5 sf saved ∧
      M.Returns S (s.shifted (.num 10)) (.num 1) (.num 20) 5 sf' saved' ∧ saved' ≠ saved.map (St.shifted (.num 10)) := by
  have hc : s.time.Compatible (.num 1) := by rw [h0]; trivial
  have hk : s.time.SameKind (.num 10) := by rw [h0]; trivial
  obtain ⟨sf, saved, h⟩ := C42_returns (S := S) hM s (.num 1) (.num 10) 5 hc hk (by norm_num [toSeconds])
    (.inr ⟨0, h0⟩) (by rw [h0]; norm_num [PyTime.sec])
  have h10 : (s.shifted (.num 10)).time = .num 10 := by
    change s.time.shifted _ = _
    rw [h0]; simp [PyTime.shifted]
  obtain ⟨sf', saved', h', ⟨x, hx, hx'⟩, -⟩ := C43_offset_refuted (S := S) hM (s.shifted (.num 10)) h10
  refine ⟨sf, saved, sf', saved', h, h', fun he => ?_⟩
  rw [he] at hx
  obtain ⟨y, hy, rfl⟩ := List.mem_map.mp hx
  obtain ⟨n, z, ks, e1, -, e3, -, e5⟩ := C43_exact_partial s 0 1 10 5 h0 one_pos (by norm_num) le_rfl (by norm_num) sf saved h
  rw [e1] at hy
  obtain ⟨k, hk', rfl⟩ := List.mem_map.mp hy
  obtain ⟨hkn, hk'⟩ := (e5 k).mp hk'
  obtain ⟨w, hw⟩ := e3 k hkn
  have ht : (z k).time = .num k := by
    rw [(C44_times s (.num 1) hc k _ hw).1, h0]; simp [stepTime]
  change (z k).time.shifted _ = _ at hx'
  rw [ht] at hx'
  simp only [PyTime.shifted, PyTime.num.injEq] at hx'
  have hk1 : (k : ℝ) = 1 := by linarith
  rcases hk' with rfl | ⟨m, hm1, hm2, -⟩
  · simp at hk1
  · rw [hk1] at hm2
    have : (1 : ℝ) ≤ m := by exact_mod_cast hm1
    linarith

/-- Non-vacuity: a model with a forcing that is switched off at time 5, and the later model. -/
example : ∃ M M' : BModel grid30, M.Shifts (.num 10) M' ∧ M.rhs ≠ none := by
  have hf := C97_forcing (S := sph30) (.num 10)
  refine ⟨⟨some (Term.prod (.timedOffSwitch (.num 5)) (.linearRelaxation sph30 1 (.num 0))).toRhs, 2, 1, none⟩,
    ⟨some (Term.prod (.timedOffSwitch (.num 15)) (.linearRelaxation sph30 1 (.num 0))).toRhs, 2, 1, none⟩, ?_, by simp⟩
  refine { order := rfl, coeff := rfl, bg := rfl, none := (fun h => by cases h), rhs := fun f hh => ?_ }
  cases hh
  refine ⟨_, rfl, hf.2.2.2.2 _ _ (hf.1 _ _ _ _ ?_ (hf.2.2.1 _ _)).2⟩
  have := hf.2.1 (.num 5)
  rw [show PyTime.shifted (.num 10) (.num 5) = .num 15 by simp [PyTime.shifted]; norm_num] at this
  exact this

example : ∃ M : BModel grid30, M.Total ∧ M.Shifts (.num 10) M ∧ ∃ s : St PyTime grid30, s.time = .num 0 :=
  ⟨⟨none, 2, 1, none⟩, (fun f hf => by cases hf),
    { order := rfl, coeff := rfl, bg := rfl, none := (fun _ => rfl), rhs := (fun f hf => by cases hf) },
    Init.motionless sph30 (.num 0), rfl⟩

/-! ## C98 -/

theorem lt_mono {a t t' : PyTime} (hk : t.SameKind t') (hle : t.sec ≤ t'.sec) (h : a.lt t = .ok true) : a.lt t' = .ok true := by
  have ha : a.SameKind t := by
    by_contra hn
    rw [lt_error hn] at h; cases h
  have ha' : a.SameKind t' := by cases a <;> cases t <;> cases t' <;> simp_all [PyTime.SameKind]
  rw [lt_sec ha] at h
  rw [lt_sec ha']
  simp only [Except.ok.injEq, decide_eq_true_eq] at h ⊢
  linarith

/-- C98: the intermediate output of a shorter run is the beginning of the intermediate output of a longer run. -/
theorem C98_prefix {M : BModel g} (s : St PyTime g) (dt : PyDelta) (tend tend' : PyTime) (se : ℝ) (hk : tend.SameKind tend')
    (hle : tend.sec ≤ tend'.sec) (sf sf' : St PyTime g) (saved saved' : List (St PyTime g))
    (h : M.Returns S s dt tend se sf saved) (h' : M.Returns S s dt tend' se sf' saved') : saved <+: saved' := by
  obtain ⟨f, h⟩ := h
  obtain ⟨f', h'⟩ := h'
  obtain ⟨_, s1, he, hl⟩ := run_done h
  obtain ⟨_, s1', he', hl'⟩ := run_done h'
  rw [he] at he'; cases he'
  have mono : ∀ (f : ℕ) (l : Loop g) (sf : St PyTime g) (saved : List (St PyTime g)), M.loop S tend' se f l = .done sf saved →
      l.states <+: saved := by
    intro f l sf saved hl
    obtain ⟨l', hP, _, rfl, _⟩ := loop_done (fun l' => l.states <+: l'.states) (by
      intro l1 l2 h1 _ hb
      obtain ⟨p, _, h3⟩ := body_ok_iff.mp hb
      rcases h3 with ⟨_, rfl⟩ | ⟨_, _, rfl⟩ | ⟨_, _, rfl⟩
      · exact h1
      · exact h1
      · exact h1.trans (List.prefix_append _ _)) f l sf saved List.prefix_rfl hl
    exact hP
  suffices key : ∀ (f f' : ℕ) (l : Loop g), M.loop S tend se f l = .done sf saved → M.loop S tend' se f' l = .done sf' saved' →
      saved <+: saved' from key f f' _ hl hl'
  intro f
  induction f with
  | zero => intro f' l h; simp [BModel.loop] at h
  | succ f ih =>
    intro f' l h h'
    have hm := mono f' l sf' saved' h'
    cases f' with
    | zero => simp [BModel.loop] at h'
    | succ f' =>
      unfold BModel.loop at h h'
      cases h1 : l.state.time.lt tend with
      | error e => simp [h1] at h
      | ok b =>
        cases b with
        | false => simp only [h1] at h; cases h; exact hm
        | true =>
          simp only [h1] at h
          simp only [lt_mono hk hle h1] at h'
          cases h2 : M.body S se l with
          | error e => simp [h2] at h
          | ok l' =>
            simp only [h2] at h h'
            exact ih f' l' h h'

/-- C98: both final states belong to the same integration, the one of the shorter run is not later. -/
theorem C98_visited {M : BModel g} (s : St PyTime g) (dt : PyDelta) (tend tend' : PyTime) (se se' : ℝ) (hc : s.time.Compatible dt)
    (hk : s.time.SameKind tend) (hk' : s.time.SameKind tend') (hd : 0 < toSeconds dt) (hle : tend.sec ≤ tend'.sec)
    (sf sf' : St PyTime g) (saved saved' : List (St PyTime g))
    (h : M.Returns S s dt tend se sf saved) (h' : M.Returns S s dt tend' se' sf' saved') :
    ∃ n n' y y', n ≤ n' ∧ M.pairAt S s dt n = .ok (sf, y) ∧ M.pairAt S s dt n' = .ok (sf', y') := by
  obtain ⟨n, l, h1, _, rfl, _, h4, h5, _⟩ := run_atStep hc hk (fun _ _ => True) (fun _ _ => trivial)
    (fun _ _ _ _ _ _ => trivial) h
  obtain ⟨n', l', h1', _, rfl, _, h4', h5', _⟩ := run_atStep hc hk' (fun _ _ => True) (fun _ _ => trivial)
    (fun _ _ _ _ _ _ => trivial) h'
  refine ⟨n, n', _, _, ?_, h1.1, h1'.1⟩
  by_contra hn
  have := h1.2 n' (by omega)
  linarith

/-- Relaxation to PV 0 without diffusion. -/
noncomputable def relaxModel (S : g.Sph) : BModel g := ⟨some (Term.linearRelaxation S 1 (.num 0)).toRhs, 1, 0, none⟩

noncomputable def unitSpec (S : g.Sph) : g.Spc := S.grdtospec fun _ _ => 1

section Restart
variable (hS : Spharm.Lawful S) (hg : g.Valid)
include hS

theorem unit_synth (a : ℝ) : S.spectogrd (a • unitSpec S) = fun _ _ => a := by
  rw [hS.lin.spectogrd_smul, show S.spectogrd (unitSpec S) = _ from (hS.const.analysis_const 1).2]
  funext j i; simp

include hg

theorem relax_tendency (t : PyTime) (a : ℝ) : (relaxModel S).tendency S ⟨t, a • unitSpec S⟩ = .ok (-(a • unitSpec S)) := by
  have h1 : PhaseInv g.nlon (a • unitSpec S) := by
    rw [← RunMap.coe_smul]
    exact PhaseInv.smul (hS.rot.analysis fun _ _ _ => rfl) _
  have h2 := St.zonal_flux hg hS.rot (s := (⟨t, a • unitSpec S⟩ : St PyTime g)) h1
  unfold BModel.tendency
  rw [h2]
  have h3 : (Term.linearRelaxation S 1 (.num 0)).toRhs ⟨t, a • unitSpec S⟩ = .ok ((-a) • fun _ _ => 1) := by
    unfold Term.toRhs Term.linearRelaxation Term.call
    simp only [RVal.sub, RVal.mul, St.pv, Grid.toGrid, unit_synth hS]
    congr 1
    funext j i; simp
  simp only [relaxModel, h3]
  rw [show Grid.toSpectral S ((-a) • (fun _ _ => 1 : g.Fld)) = (-a) • unitSpec S from hS.lin.grdtospec_smul _ _]
  simp

omit hS hg in
theorem relax_diffusion (dt : ℝ) (q : g.Spc) : (relaxModel S).applyDiffusion S dt q = q := by
  unfold BModel.applyDiffusion relaxModel
  simp only [Grid.diffusion_eq_degMul]
  funext k; simp [degMul]

theorem relax_euler (x a : ℝ) : (relaxModel S).euler S ⟨.num x, a • unitSpec S⟩ (.num 1) = .ok ⟨.num (x + 1), (0 : ℝ) • unitSpec S⟩ := by
  refine euler_ok_iff.mpr ⟨_, _, relax_tendency hS hg _ _, rfl, ?_⟩
  simp [relax_diffusion, toSeconds]

theorem relax_leapfrog (x a b : ℝ) :
    (relaxModel S).leapfrog S ⟨.num x, a • unitSpec S⟩ ⟨.num (x + 1), b • unitSpec S⟩ (2 / 10) =
      .ok (⟨.num (x + 1), (2 / 10 * b + 4 / 10 * a) • unitSpec S⟩, ⟨.num (x + 1 + 1), (a - 2 * b) • unitSpec S⟩) := by
  refine leapfrog_ok_iff.mpr ⟨.num 1, _, .num (x + 1 + 1), by simp [PyTime.sub], relax_tendency hS hg _ _, rfl, ?_⟩
  simp only [relax_diffusion, toSeconds, RunMap.coe_smul, Prod.mk.injEq, St.mk.injEq, true_and]
  constructor <;> module

theorem relax_body (x a b se : ℝ) (hse : se ≤ 0) (l : List (St PyTime g)) (ts : ℝ) :
    (relaxModel S).body S se ⟨⟨.num x, a • unitSpec S⟩, ⟨.num (x + 1), b • unitSpec S⟩, l, ts⟩ =
      .ok ⟨⟨.num (x + 1), (2 / 10 * b + 4 / 10 * a) • unitSpec S⟩, ⟨.num (x + 1 + 1), (a - 2 * b) • unitSpec S⟩, l, ts⟩ :=
  body_ok_iff.mpr ⟨_, relax_leapfrog hS hg x a b, .inl ⟨hse, rfl⟩⟩

theorem relax_run_one (x a : ℝ) :
    (relaxModel S).Returns S ⟨.num x, a • unitSpec S⟩ (.num 1) (.num (x + 1)) 0 ⟨.num (x + 1), (4 / 10 * a) • unitSpec S⟩
      [⟨.num x, a • unitSpec S⟩] := by
  refine ⟨2, ?_⟩
  unfold BModel.run
  rw [show (PyTime.num (x + 1)).lt (.num x) = .ok false by simp [PyTime.lt]]
  dsimp only
  rw [relax_euler hS hg]
  dsimp only
  unfold BModel.loop
  rw [show (PyTime.num x).lt (.num (x + 1)) = .ok true by simp [PyTime.lt]]
  dsimp only
  rw [relax_body hS hg _ _ _ _ le_rfl]
  dsimp only
  unfold BModel.loop
  rw [show (PyTime.num (x + 1)).lt (.num (x + 1)) = .ok false by simp [PyTime.lt]]
  simp

theorem relax_run_two (x a : ℝ) :
    (relaxModel S).Returns S ⟨.num x, a • unitSpec S⟩ (.num 1) (.num (x + 1 + 1)) 0
      ⟨.num (x + 1 + 1), (36 / 100 * a) • unitSpec S⟩ [⟨.num x, a • unitSpec S⟩] := by
  refine ⟨3, ?_⟩
  unfold BModel.run
  rw [show (PyTime.num (x + 1 + 1)).lt (.num x) = .ok false by simp only [PyTime.lt, Except.ok.injEq, decide_eq_false_iff_not]; linarith]
  dsimp only
  rw [relax_euler hS hg]
  dsimp only
  unfold BModel.loop
  rw [show (PyTime.num x).lt (.num (x + 1 + 1)) = .ok true by simp only [PyTime.lt, Except.ok.injEq, decide_eq_true_eq]; linarith]
  dsimp only
  rw [relax_body hS hg _ _ _ _ le_rfl]
  dsimp only
  unfold BModel.loop
  rw [show (PyTime.num (x + 1)).lt (.num (x + 1 + 1)) = .ok true by simp [PyTime.lt]]
  dsimp only
  rw [relax_body hS hg _ _ _ _ le_rfl]
  dsimp only
  unfold BModel.loop
  rw [show (PyTime.num (x + 1 + 1)).lt (.num (x + 1 + 1)) = .ok false by simp [PyTime.lt]]
  dsimp only
  congr 2
  module

/-- C98 is false for restarts: a run continued from its final state (which starts again with an Euler step and has lost the
unfiltered state of the next time) does not arrive where the uninterrupted run does. Relaxation of constant PV 1 to 0 with rate 1
in two steps of 1 s: 0.36 without and 0.16 with a restart in between. -/
theorem C98_restart_refuted : ∃ (M : BModel g) (s s1 s2 s2' : St PyTime g),
    M.Returns S s (.num 1) (.num 1) 0 s1 [s] ∧ M.Returns S s (.num 1) (.num 2) 0 s2 [s] ∧
    M.Returns S s1 (.num 1) (.num 2) 0 s2' [s1] ∧ s1.time = .num 1 ∧ s2.time = s2'.time ∧
    s2.pv S = (fun _ _ => 36 / 100) ∧ s2'.pv S = fun _ _ => 16 / 100 := by
  have h1 := relax_run_one hS hg 0 1
  have h2 := relax_run_two hS hg 0 1
  have h3 := relax_run_one hS hg 1 (4 / 10 * 1)
  rw [zero_add] at h1 h2
  rw [show (1 : ℝ) + 1 = 2 by norm_num] at h2 h3
  refine ⟨relaxModel S, _, _, _, _, h1, h2, h3, rfl, rfl, ?_, ?_⟩
  · change S.spectogrd _ = _
    rw [unit_synth hS, mul_one]
  · change S.spectogrd _ = _
    rw [unit_synth hS]
    norm_num

end Restart

example : ∃ (M : BModel grid30) (s s1 s2 s2' : St PyTime grid30),
    M.Returns sph30 s (.num 1) (.num 1) 0 s1 [s] ∧ M.Returns sph30 s (.num 1) (.num 2) 0 s2 [s] ∧
    M.Returns sph30 s1 (.num 1) (.num 2) 0 s2' [s1] ∧ s2.pv sph30 ≠ s2'.pv sph30 := by
  obtain ⟨M, s, s1, s2, s2', h1, h2, h3, _, _, h4, h5⟩ := C98_restart_refuted sph30_lawful grid30_valid
  refine ⟨M, s, s1, s2, s2', h1, h2, h3, ?_⟩
  rw [h4, h5]
  intro h
  have := congrFun (congrFun h ⟨0, by rw [grid30_nlat]; norm_num⟩) ⟨0, by rw [grid30_nlon]; norm_num⟩
  norm_num at this

end Barotropic
