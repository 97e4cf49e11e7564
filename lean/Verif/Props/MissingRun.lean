import Verif.Spec.MissingRun
import Verif.Spec.Run
import Verif.Lemmas.SpecIndex
import Verif.Props.Run

/-!
# C145: missing values in states, forcings and model runs
-/

namespace Barotropic
open Missing

variable {g : Grid ℝ} {S : g.Sph}

namespace Missing

@[simp] theorem MFld.complete_of (f : g.Fld) : (MFld.of f).complete = some f := by simp [MFld.complete, MFld.of]

@[simp] theorem MSpc.complete_of (q : g.Spc) : (MSpc.of q).complete = some q := by simp [MSpc.complete, MSpc.of]

theorem MFld.complete_none {f : MFld g} (h : f.HasMissing) : f.complete = none := by
  obtain ⟨j, i, h⟩ := h
  unfold MFld.complete
  rw [dif_neg]
  intro hc
  have := hc j i
  rw [h] at this
  simp at this

theorem MFld.complete_some {f : MFld g} (h : ¬ f.HasMissing) : ∃ x, f = .of x := by
  have h' : ∀ j i, (f j i).isSome := fun j i => by
    by_contra hn
    exact h ⟨j, i, by simpa using hn⟩
  exact ⟨fun j i => (f j i).get (h' j i), by funext j i; simp [MFld.of]⟩

theorem MSpc.complete_none {q : MSpc g} {k} (h : q k = none) : q.complete = none := by
  unfold MSpc.complete
  rw [dif_neg]
  intro hc
  have := hc k
  rw [h] at this
  simp at this

theorem MSpc.exists_of {q : MSpc g} (h : ∀ k, ∃ x, q k = some x) : ∃ x, q = .of x := by
  choose x hx using h
  exact ⟨x, funext hx⟩

@[simp] theorem MSpc.complete_blank : (MSpc.blank : MSpc g).complete = none := MSpc.complete_none (k := k0 _) rfl

theorem MSt.AllMissing.q {s : MSt g} (h : s.AllMissing) : s.q = MSpc.blank := funext h

theorem MSt.NoneMissing.q {s : MSt g} (h : s.NoneMissing) : ∃ x, s.q = .of x := MSpc.exists_of h

theorem noneMissing_of (s : St PyTime g) : (MSt.of s).NoneMissing := fun k => ⟨s.q k, rfl⟩

theorem MSt.NoneMissing.eq_of {s : MSt g} (h : s.NoneMissing) : ∃ x : St PyTime g, s = .of x := by
  obtain ⟨x, hx⟩ := h.q
  exact ⟨⟨s.time, x⟩, by cases s; simp_all [MSt.of]⟩

/-! ### arithmetic -/

@[simp] theorem MSpc.map₂_of (op : ℂ → ℂ → ℂ) (q q' : g.Spc) : (MSpc.of q).map₂ op (.of q') = .of fun k => op (q k) (q' k) := rfl
@[simp] theorem MFld.map₂_of (op : ℝ → ℝ → ℝ) (q q' : g.Fld) : (MFld.of q).map₂ op (.of q') = .of fun j i => op (q j i) (q' j i) := rfl
@[simp] theorem MSpc.scale_of (c : ℂ) (q : g.Spc) : (MSpc.of q).scale c = .of (c • q) := rfl
@[simp] theorem MSpc.map₂_blank_left (op : ℂ → ℂ → ℂ) (q : MSpc g) : (MSpc.blank).map₂ op q = .blank := rfl
@[simp] theorem MSpc.map₂_blank_right (op : ℂ → ℂ → ℂ) (q : MSpc g) : q.map₂ op .blank = .blank := by
  funext k; simp [MSpc.map₂, MSpc.blank]
@[simp] theorem MSpc.scale_blank (c : ℂ) : (MSpc.blank : MSpc g).scale c = .blank := rfl
@[simp] theorem solveDiffusion_blank (c dt : ℝ) (n : ℕ) : solveDiffusionSpectral (MSpc.blank : MSpc g) c dt n = .blank := rfl
@[simp] theorem solveDiffusion_of (q : g.Spc) (c dt : ℝ) (n : ℕ) :
    Missing.solveDiffusionSpectral (MSpc.of q) c dt n = .of (Grid.solveDiffusionSpectral q c dt n) := rfl

@[simp] theorem toSpectral_of (f : g.Fld) : Missing.toSpectral S (.of f) = .of (Grid.toSpectral S f) := by
  simp [Missing.toSpectral, Grid.toSpectral]
@[simp] theorem toGrid_of (q : g.Spc) : Missing.toGrid S (.of q) = .of (Grid.toGrid S q) := by
  simp [Missing.toGrid, Grid.toGrid]
@[simp] theorem toGrid_blank : Missing.toGrid S (.blank : MSpc g) = .blank := by simp [Missing.toGrid]
theorem toSpectral_missing {f : MFld g} (h : f.HasMissing) : Missing.toSpectral S f = .blank := by
  simp [Missing.toSpectral, MFld.complete_none h]
@[simp] theorem wind_of (vo di : g.Spc) :
    Missing.wind S (.of vo) (.of di) = (.of (Grid.wind S (.inr vo) (.inr di)).1, .of (Grid.wind S (.inr vo) (.inr di)).2) := by
  simp [Missing.wind, Grid.wind]
@[simp] theorem wind_blank (di : MSpc g) : Missing.wind S .blank di = (.blank, .blank) := by
  unfold Missing.wind
  rw [MSpc.complete_blank]
@[simp] theorem divergenceSpectral_of (u v : g.Fld) :
    Missing.divergenceSpectral S (.of u) (.of v) = .of (Grid.divergenceSpectral S u v) := by
  simp [Missing.divergenceSpectral, Grid.divergenceSpectral, Grid.vorticityDivergenceSpectral]

@[simp] theorem MSt.pv_of (s : St PyTime g) : (MSt.of s).pv S = .of (s.pv S) := by
  simp [MSt.pv, MSt.of, St.pv]
@[simp] theorem MSt.vorticitySpectral_of (s : St PyTime g) : (MSt.of s).vorticitySpectral S = .of (s.vorticitySpectral S) := rfl
@[simp] theorem MSt.wind_of (s : St PyTime g) : (MSt.of s).wind S = (.of (s.u S), .of (s.v S)) := by
  simp [MSt.wind, St.u, St.v, St.invertPv]
@[simp] theorem MSt.pvFlux_of (s : St PyTime g) : (MSt.of s).pvFluxSpectral S = .of (s.pvFluxSpectral S) := by
  simp [MSt.pvFluxSpectral, St.pvFluxSpectral]
  rfl

theorem pvFlux_blank (hg : g.Valid) {s : MSt g} (h : s.AllMissing) : s.pvFluxSpectral S = .blank := by
  have hp : ((s.pv S).map₂ (· * ·) (s.wind S).1).HasMissing := by
    refine ⟨⟨0, by have := hg.nlat_ge; omega⟩, ⟨0, by have := hg.nlon_ge; omega⟩, ?_⟩
    rw [MSt.pv, h.q, toGrid_blank]
    rfl
  unfold MSt.pvFluxSpectral Missing.divergenceSpectral
  rw [MFld.complete_none hp]

end Missing

namespace Missing.MModel
variable {M : BModel g} {M' : MModel g}

theorem tendency_of (h : M'.Extends M) (s : St PyTime g) : M'.tendency S (.of s) = (M.tendency S s).map .of := by
  unfold MModel.tendency BModel.tendency
  rcases h.rhs with ⟨h1, h2⟩ | ⟨f, f', h1, h2, h3⟩
  · rw [h1, h2]
    simp [Except.map]
  · rw [h1, h2]
    simp only [h3]
    cases f s with
    | error e => rfl
    | ok r =>
      simp [Except.map]
      rfl

theorem applyDiffusion_of (h : M'.Extends M) (dt : ℝ) (q : g.Spc) : M'.applyDiffusion S dt (.of q) = .of (M.applyDiffusion S dt q) := by
  unfold MModel.applyDiffusion BModel.applyDiffusion
  rw [h.background, h.order, h.coeff]
  cases M.diffusionBg with
  | none => rfl
  | some b =>
    simp
    rfl

theorem euler_of (h : M'.Extends M) (s : St PyTime g) (dt : PyDelta) : M'.euler S (.of s) dt = (M.euler S s dt).map .of := by
  unfold MModel.euler BModel.euler
  rw [tendency_of h]
  cases M.tendency S s with
  | error e => rfl
  | ok tn =>
    simp only [Except.map, bind, Except.bind, MSt.of, MSpc.scale_of, MSpc.map₂_of]
    cases s.time.add dt with
    | error e => rfl
    | ok t =>
      simp only [pure, Except.pure]
      exact congrArg (fun q => Except.ok (⟨t, q⟩ : MSt g)) (applyDiffusion_of h _ _)

theorem leapfrog_of (h : M'.Extends M) (old now : St PyTime g) (r : ℝ) :
    M'.leapfrog S (.of old) (.of now) r = (M.leapfrog S old now r).map fun p => (.of p.1, .of p.2) := by
  unfold MModel.leapfrog BModel.leapfrog
  rw [tendency_of h]
  simp only [MSt.of]
  cases now.time.sub old.time with
  | error e => rfl
  | ok dt =>
    simp only [bind, Except.bind]
    cases M.tendency S now with
    | error e => rfl
    | ok tn =>
      simp only [Except.map, MSpc.scale_of, MSpc.map₂_of]
      cases now.time.add dt with
      | error e => rfl
      | ok t =>
        simp only [pure, Except.pure]
        rw [show (MSpc.of fun k => old.q k + (((2 * toSeconds dt : ℝ) : ℂ) • tn) k) =
          MSpc.of (old.q + ((2 * toSeconds dt : ℝ) : ℂ) • tn) from rfl, applyDiffusion_of h]
        rfl

/-- The loop variables of the model of numbers -/
def Loop.of (l : BModel.Loop g) : Loop g := ⟨.of l.state, .of l.stateNew, l.states.map .of, l.tSave⟩

theorem body_of (h : M'.Extends M) (se : ℝ) (l : BModel.Loop g) : M'.body S se (.of l) = (M.body S se l).map .of := by
  unfold MModel.body BModel.body
  simp only [Loop.of, leapfrog_of h]
  cases M.leapfrog S l.state l.stateNew (2 / 10) with
  | error e => rfl
  | ok p =>
    simp only [Except.map, bind, Except.bind, MSt.of]
    by_cases hs : se > 0
    · simp only [if_pos hs]
      cases p.1.time.ge (.num l.tSave) with
      | error e => rfl
      | ok b => cases b <;> simp [pure, Except.pure, MSt.of, Loop.of]
    · simp only [if_neg hs]
      rfl

theorem loop_of (h : M'.Extends M) (tend : PyTime) (se : ℝ) (n : ℕ) (l : BModel.Loop g) :
    M'.loop S tend se n (.of l) = .of (M.loop S tend se n l) := by
  induction n generalizing l with
  | zero => rfl
  | succ n ih =>
    unfold MModel.loop BModel.loop
    rw [body_of h]
    show (match l.state.time.lt tend with | .error e => _ | .ok false => _ | .ok true => _) = _
    cases l.state.time.lt tend with
    | error e => rfl
    | ok b =>
      cases b with
      | false => rfl
      | true =>
        cases M.body S se l with
        | error e => rfl
        | ok l' => exact ih l'

end Missing.MModel

open MModel

/-- C145: without missing values, runs are those of the model of numbers. -/
theorem C145_complete {M : BModel g} {M' : MModel g} (h : M'.Extends M) (s : St PyTime g) (dt : PyDelta) (tend : PyTime) (se : ℝ) (n : ℕ) :
    M'.run S (.of s) dt tend se n = .of (M.run S s dt tend se n) := by
  unfold MModel.run BModel.run
  rw [euler_of h]
  show (match tend.lt s.time with | .error e => _ | .ok true => _ | .ok false => _) = _
  cases tend.lt s.time with
  | error e => rfl
  | ok b =>
    cases b with
    | true => rfl
    | false =>
      cases M.euler S s dt with
      | error e => rfl
      | ok s1 => exact loop_of h tend se n ⟨s, s1, [s], se⟩

/-- C145: without missing values, the fields of a state are those of the model of numbers. -/
theorem C145_fields_complete (t : PyTime) (f : g.Fld) (s : St PyTime g) :
    MSt.ofPv S t (.of f) = .of (St.ofPv S t f) ∧ (MSt.of s).pv S = .of (s.pv S) ∧ (MSt.of s).vorticity S = .of (s.vorticity S) ∧
    (MSt.of s).vorticitySpectral S = .of (s.vorticitySpectral S) ∧ (MSt.of s).wind S = (.of (s.u S), .of (s.v S)) ∧
    (MSt.of s).streamfunction S = .of (s.streamfunction S) ∧ (MSt.of s).pvFluxSpectral S = .of (s.pvFluxSpectral S) ∧
    (MSt.of s).enstrophy S = .of (s.enstrophy S) ∧ (MSt.of s).energy S = .of (s.energy S) := by
  refine ⟨?_, MSt.pv_of s, ?_, rfl, MSt.wind_of s, ?_, MSt.pvFlux_of s, ?_, ?_⟩
  · simp [MSt.ofPv, St.ofPv, MSt.of]
  · rw [MSt.vorticity, MSt.pv_of]
    rfl
  · have : Missing.solvePoissonSpectral ((MSt.of s).vorticitySpectral S) = .of (Grid.solvePoissonSpectral (s.vorticitySpectral S) 0) := by
      funext k
      simp only [Missing.solvePoissonSpectral, Grid.solvePoissonSpectral, MSpc.of, MSt.vorticitySpectral_of]
      split_ifs <;> rfl
    rw [MSt.streamfunction, this, toGrid_of]
    rfl
  · unfold MSt.enstrophy
    rw [MSt.pv_of]
    rfl
  · unfold MSt.energy
    rw [MSt.wind_of]
    rfl

/-- C145: without missing values, forcing terms are those of the model of numbers. -/
theorem C145_terms_complete (a b : Term g) (a' b' : MTerm g) (ha : a'.Agrees a.call) (hb : b'.Agrees b.call) (te : PyTime) (rate : ℝ) (ref : RVal g)
    (o : Orog) (ho : o.wind = .act 1) (hr : o.fcorRef = none) (h : g.Fld) (hk : o.kind.orography g = .ok h) :
    (MTerm.combine (· + ·) a' b').Agrees (Term.sum a b).call ∧ (MTerm.combine (· * ·) a' b').Agrees (Term.prod a b).call ∧
    (MTerm.timedOffSwitch te).Agrees (Term.timedOffSwitch (g := g) te).call ∧
    (MTerm.linearRelaxation S rate (.of ref)).Agrees (Term.linearRelaxation S rate ref).call ∧
    (MTerm.orography S (.of h) o.scaleHeight).Agrees (o.term S).call ∧
    ∀ s, MTerm.toRhs a' (.of s) = (a.toRhs s).map .of := by
  refine ⟨fun s => ?_, fun s => ?_, fun s => ?_, fun s => ?_, fun s => ?_, fun s => ?_⟩
  · unfold MTerm.combine
    rw [ha s, hb s]
    simp only [Term.call]
    cases a.call s with
    | error e => rfl
    | ok x =>
      cases b.call s with
      | error e => rfl
      | ok y => cases x <;> cases y <;> rfl
  · unfold MTerm.combine
    rw [ha s, hb s]
    simp only [Term.call]
    cases a.call s with
    | error e => rfl
    | ok x =>
      cases b.call s with
      | error e => rfl
      | ok y => cases x <;> cases y <;> rfl
  · simp only [MTerm.timedOffSwitch, Term.timedOffSwitch, Term.call]
    show (match s.time.le te with | .error e => _ | .ok true => _ | .ok false => _) = _
    cases s.time.le te with
    | error e => rfl
    | ok b => cases b <;> rfl
  · simp only [MTerm.linearRelaxation, Term.linearRelaxation, Term.call, MSt.pv_of]
    cases ref <;> rfl
  · have hw : o.getWind S s = (fun j i => 1 * s.u S j i, fun j i => 1 * s.v S j i) := by
      unfold Orog.getWind
      rw [ho]
    have hgr : o.gradient S = .ok (Grid.gradient S h) := by
      unfold Orog.gradient
      rw [hk]
    have hgm : Missing.gradient S (.of h) = (.of (Grid.gradient S h).1, .of (Grid.gradient S h).2) := by
      unfold Missing.gradient
      rw [toSpectral_of, MSpc.complete_of]
      rfl
    unfold MTerm.orography
    simp only [Orog.term, Term.call, Orog.force, hgr, hgm, MSt.wind_of, hw, Except.map, MVal.of]
    congr 2
    funext j i
    simp [MFld.of, Orog.combine, hr]
  · unfold MTerm.toRhs Term.toRhs
    rw [ha s]
    cases a.call s with
    | error e => rfl
    | ok x => cases x <;> rfl

/-- C145: a single missing value of the PV makes every coefficient and every value of the fields of the state missing. -/
theorem C145_state (hg : g.Valid) (hT : 1 ≤ g.ntrunc) (t : PyTime) (f : MFld g) (hf : f.HasMissing) :
    (MSt.ofPv S t f).AllMissing ∧ ((MSt.ofPv S t f).pv S).AllMissing ∧ ((MSt.ofPv S t f).vorticity S).AllMissing ∧
    ((MSt.ofPv S t f).wind S).1.AllMissing ∧ ((MSt.ofPv S t f).wind S).2.AllMissing ∧ ((MSt.ofPv S t f).streamfunction S).AllMissing ∧
    ((MSt.ofPv S t f).enstrophy S).AllMissing ∧ ((MSt.ofPv S t f).energy S).AllMissing := by
  have hq : (MSt.ofPv S t f).q = .blank := toSpectral_missing hf
  have hpv : (MSt.ofPv S t f).pv S = .blank := by rw [MSt.pv, hq, toGrid_blank]
  have hvo : (MSt.ofPv S t f).vorticitySpectral S = .blank := by rw [MSt.vorticitySpectral, hq, MSpc.map₂_blank_left]
  have hw : (MSt.ofPv S t f).wind S = (.blank, .blank) := by rw [MSt.wind, hvo, wind_blank]
  refine ⟨fun k => by rw [hq]; rfl, fun j i => by rw [hpv]; rfl, fun j i => by rw [MSt.vorticity, hpv]; rfl,
    fun j i => by rw [hw]; rfl, fun j i => by rw [hw]; rfl, ?_, fun j i => by rw [MSt.enstrophy, hpv]; rfl,
    fun j i => by rw [MSt.energy, hw]; rfl⟩
  have h1 : solvePoissonSpectral ((MSt.ofPv S t f).vorticitySpectral S) (k1 hT) = none := by
    rw [hvo]
    simp [solvePoissonSpectral, k1, MSpc.blank]
  intro j i
  rw [MSt.streamfunction, Missing.toGrid, MSpc.complete_none h1]
  rfl

/-- C145: the streamfunction with truncation 0 (one coefficient) is that of a state at rest whatever is missing. -/
theorem C145_truncation_zero_refuted (hT : g.ntrunc = 0) (s : MSt g) : s.streamfunction S = .of (Grid.toGrid S 0) := by
  have : solvePoissonSpectral (s.vorticitySpectral S) = .of 0 := by
    funext k
    have hk : k = k0 _ := eq_k0_of_specN (by have := specN_le k; omega)
    subst hk
    rfl
  rw [MSt.streamfunction, this, toGrid_of]

namespace Missing.MModel
variable {M : MModel g}

theorem applyDiffusion_blank (dt : ℝ) : M.applyDiffusion S dt .blank = .blank := by
  unfold applyDiffusion
  cases M.diffusionBg <;> simp

theorem tendency_blank (hg : g.Valid) {s : MSt g} (hs : s.AllMissing) {q : MSpc g} (h : M.tendency S s = .ok q) : q = .blank := by
  unfold tendency at h
  rw [pvFlux_blank hg hs] at h
  cases hr : M.rhs with
  | none =>
    rw [hr] at h
    cases h
    rfl
  | some f =>
    rw [hr] at h
    simp only at h
    cases hf : f s with
    | error e => rw [hf] at h; cases h
    | ok r =>
      rw [hf] at h
      cases h
      rfl

theorem euler_ok {s s1 : MSt g} {dt : PyDelta} (h : M.euler S s dt = .ok s1) :
    ∃ q, M.tendency S s = .ok q ∧ s.time.add dt = .ok s1.time ∧
      s1.q = M.applyDiffusion S (toSeconds dt) (s.q.map₂ (· + ·) (q.scale (toSeconds dt : ℂ))) := by
  unfold euler at h
  cases ht : M.tendency S s with
  | error e => rw [ht] at h; cases h
  | ok q =>
    rw [ht] at h
    simp only [bind, Except.bind] at h
    cases ha : s.time.add dt with
    | error e => rw [ha] at h; cases h
    | ok t =>
      rw [ha] at h
      cases h
      exact ⟨q, rfl, rfl, rfl⟩

theorem leapfrog_ok {old now a b : MSt g} {r : ℝ} (h : M.leapfrog S old now r = .ok (a, b)) :
    ∃ dt q, now.time.sub old.time = .ok dt ∧ M.tendency S now = .ok q ∧ now.time.add dt = .ok b.time ∧ a.time = now.time ∧
      b.q = M.applyDiffusion S (2 * toSeconds dt) (old.q.map₂ (· + ·) (q.scale ((2 * toSeconds dt : ℝ) : ℂ))) ∧
      a.q = (now.q.scale ((1 - 2 * r : ℝ) : ℂ)).map₂ (· + ·) ((old.q.map₂ (· + ·) b.q).scale (r : ℂ)) := by
  unfold leapfrog at h
  cases hs : now.time.sub old.time with
  | error e => rw [hs] at h; cases h
  | ok dt =>
    rw [hs] at h
    simp only [bind, Except.bind] at h
    cases ht : M.tendency S now with
    | error e => rw [ht] at h; cases h
    | ok q =>
      rw [ht] at h
      simp only at h
      cases ha : now.time.add dt with
      | error e => rw [ha] at h; cases h
      | ok t =>
        rw [ha] at h
        cases h
        exact ⟨dt, q, rfl, rfl, ha, rfl, rfl, rfl⟩

/-- The loop body, in terms of the leapfrog step -/
theorem body_ok {se : ℝ} {l l' : Loop g} (h : M.body S se l = .ok l') :
    M.leapfrog S l.state l.stateNew (2 / 10) = .ok (l'.state, l'.stateNew) ∧ (l'.states = l.states ∨ l'.states = l.states ++ [l'.state]) := by
  unfold body at h
  cases hl : M.leapfrog S l.state l.stateNew (2 / 10) with
  | error e => rw [hl] at h; cases h
  | ok p =>
    rw [hl] at h
    obtain ⟨a, b⟩ := p
    simp only [bind, Except.bind, pure, Except.pure] at h
    split_ifs at h with hs
    · cases hg : a.time.ge (.num l.tSave) with
      | error e => rw [hg] at h; cases h
      | ok c =>
        rw [hg] at h
        cases c <;> simp at h <;> subst h <;> simp
    · cases h
      simp

/-- Induction over the steps of a loop that is completed -/
theorem loop_induction {tend : PyTime} {se : ℝ} (P : Loop g → Prop) (hP : ∀ l l', P l → M.body S se l = .ok l' → P l') {n : ℕ} {l : Loop g}
    (hl : P l) {sf : MSt g} {saved : List (MSt g)} (h : M.loop S tend se n l = .done sf saved) :
    ∃ l', P l' ∧ l'.state = sf ∧ l'.states = saved := by
  induction n generalizing l with
  | zero => cases h
  | succ n ih =>
    unfold loop at h
    cases ht : l.state.time.lt tend with
    | error e => rw [ht] at h; cases h
    | ok b =>
      rw [ht] at h
      cases b with
      | false => cases h; exact ⟨l, hl, rfl, rfl⟩
      | true =>
        simp only at h
        cases hb : M.body S se l with
        | error e => rw [hb] at h; cases h
        | ok l' =>
          rw [hb] at h
          exact ih (hP l l' hl hb) h

end Missing.MModel

/-- C145: a run from a state with missing values returns missing values only. -/
theorem C145_run (hg : g.Valid) {M : MModel g} (s : MSt g) (hs : s.AllMissing) (dt : PyDelta) (tend : PyTime) (se : ℝ) (n : ℕ) (sf : MSt g)
    (saved : List (MSt g)) (h : M.run S s dt tend se n = .done sf saved) : sf.AllMissing ∧ ∀ r ∈ saved, r.AllMissing := by
  unfold MModel.run at h
  cases ht : tend.lt s.time with
  | error e => rw [ht] at h; cases h
  | ok b =>
    rw [ht] at h
    cases b with
    | true => cases h
    | false =>
      simp only at h
      cases he : M.euler S s dt with
      | error e => rw [he] at h; cases h
      | ok s1 =>
        rw [he] at h
        simp only at h
        have h1 : s1.AllMissing := by
          obtain ⟨q, hq, _, h3⟩ := euler_ok he
          intro k
          rw [h3, tendency_blank hg hs hq, hs.q, MSpc.map₂_blank_left, applyDiffusion_blank]
          rfl
        obtain ⟨l, ⟨hl1, _, hl3⟩, rfl, rfl⟩ := loop_induction (fun l => l.state.AllMissing ∧ l.stateNew.AllMissing ∧ ∀ r ∈ l.states, r.AllMissing)
          (fun l l' ⟨p1, p2, p3⟩ hb => by
            obtain ⟨hb, hst⟩ := body_ok hb
            obtain ⟨dt, q, _, hq, _, _, e1, e2⟩ := leapfrog_ok hb
            have a1 : l'.state.AllMissing := fun k => by
              rw [e2, p2.q, MSpc.scale_blank, MSpc.map₂_blank_left]; rfl
            refine ⟨a1, fun k => by rw [e1, p1.q, MSpc.map₂_blank_left, applyDiffusion_blank]; rfl, ?_⟩
            intro r hr
            rcases hst with hst | hst <;> rw [hst] at hr
            · exact p3 r hr
            · rcases List.mem_append.mp hr with hr | hr
              · exact p3 r hr
              · rw [List.mem_singleton.mp hr]; exact a1) ⟨hs, h1, by simpa using hs⟩ h
        exact ⟨hl1, hl3⟩

namespace Missing.MModel

theorem tendency_total {M : MModel g} (hM : M.Total) (s : MSt g) : ∃ q, M.tendency S s = .ok q := by
  unfold tendency
  cases hr : M.rhs with
  | none => exact ⟨_, rfl⟩
  | some f =>
    obtain ⟨r, h⟩ := hM f hr s
    simp only [h]
    exact ⟨_, rfl⟩

theorem euler_times {M : MModel g} (hM : M.Total) (s : MSt g) (dt : PyDelta) : (M.euler S s dt).map (·.time) = s.time.add dt := by
  unfold euler
  obtain ⟨q, h⟩ := tendency_total (S := S) hM s
  rw [h]
  simp only [bind, Except.bind]
  cases s.time.add dt <;> rfl

theorem leapfrog_times {M : MModel g} (hM : M.Total) (old now : MSt g) (r : ℝ) : (M.leapfrog S old now r).map (fun p => (p.1.time, p.2.time)) =
    (do let dt ← now.time.sub old.time; let t ← now.time.add dt; return (now.time, t)) := by
  unfold leapfrog
  obtain ⟨q, h⟩ := tendency_total (S := S) hM now
  rw [h]
  cases now.time.sub old.time with
  | error e => rfl
  | ok dt =>
    simp only [bind, Except.bind]
    cases now.time.add dt <;> rfl

/-- Times of the loop variables -/
def Loop.times (l : Loop g) : PyTime × PyTime × List PyTime × ℝ := (l.state.time, l.stateNew.time, l.states.map (·.time), l.tSave)

theorem body_times {M M' : MModel g} (hM : M.Total) (hM' : M'.Total) (se : ℝ) {l l' : Loop g} (h : l.times = l'.times) :
    (M.body S se l).map Loop.times = (M'.body S se l').map Loop.times := by
  simp only [Loop.times, Prod.mk.injEq] at h
  obtain ⟨h1, h2, h3, h4⟩ := h
  have e : (M.leapfrog S l.state l.stateNew (2 / 10)).map (fun p => (p.1.time, p.2.time)) =
      (M'.leapfrog S l'.state l'.stateNew (2 / 10)).map fun p => (p.1.time, p.2.time) := by
    rw [leapfrog_times hM, leapfrog_times hM', h1, h2]
  unfold body
  cases ha : M.leapfrog S l.state l.stateNew (2 / 10) with
  | error e1 =>
    cases hb : M'.leapfrog S l'.state l'.stateNew (2 / 10) with
    | error e2 => rw [ha, hb] at e; cases e; rfl
    | ok p => rw [ha, hb] at e; cases e
  | ok p =>
    cases hb : M'.leapfrog S l'.state l'.stateNew (2 / 10) with
    | error e2 => rw [ha, hb] at e; cases e
    | ok p' =>
      rw [ha, hb] at e
      simp only [Except.map, Except.ok.injEq, Prod.mk.injEq] at e
      obtain ⟨e1, e2⟩ := e
      simp only [bind, Except.bind, pure, Except.pure]
      split_ifs
      · rw [e1, h4]
        cases p'.1.time.ge (.num l'.tSave) with
        | error e => rfl
        | ok b => cases b <;> simp [Except.map, Loop.times, e1, e2, h3, h4]
      · simp [Except.map, Loop.times, e1, e2, h3, h4]

theorem loop_report {M M' : MModel g} (hM : M.Total) (hM' : M'.Total) (tend : PyTime) (se : ℝ) (n : ℕ) {l l' : Loop g} (h : l.times = l'.times) :
    (M.loop S tend se n l).report = (M'.loop S tend se n l').report := by
  induction n generalizing l l' with
  | zero => rfl
  | succ n ih =>
    unfold loop
    have h1 : l.state.time = l'.state.time := congrArg Prod.fst h
    have h3 : l.states.map (·.time) = l'.states.map (·.time) := congrArg (fun x => x.2.2.1) h
    rw [h1]
    cases l'.state.time.lt tend with
    | error e => rfl
    | ok b =>
      cases b with
      | false => simp [Outcome.report, h1, h3]
      | true =>
        have e := body_times (S := S) hM hM' se h
        simp only
        cases ha : M.body S se l with
        | error e1 =>
          cases hb : M'.body S se l' with
          | error e2 => rw [ha, hb] at e; cases e; rfl
          | ok p => rw [ha, hb] at e; cases e
        | ok p =>
          cases hb : M'.body S se l' with
          | error e2 => rw [ha, hb] at e; cases e
          | ok p' =>
            rw [ha, hb] at e
            exact ih (Except.ok.inj e)

end Missing.MModel

/-- C145: the times of the returned states, the number of steps and the errors do not depend on the fields: missing values are not reported. -/
theorem C145_report {M M' : MModel g} (hM : M.Total) (hM' : M'.Total) (s s' : MSt g) (hs : s.time = s'.time) (dt : PyDelta) (tend : PyTime) (se : ℝ)
    (n : ℕ) : (M.run S s dt tend se n).report = (M'.run S s' dt tend se n).report := by
  unfold MModel.run
  rw [hs]
  cases tend.lt s'.time with
  | error e => rfl
  | ok b =>
    cases b with
    | true => simp [Outcome.report, hs]
    | false =>
      have e : (M.euler S s dt).map (·.time) = (M'.euler S s' dt).map (·.time) := by rw [euler_times hM, euler_times hM', hs]
      simp only
      cases ha : M.euler S s dt with
      | error e1 =>
        cases hb : M'.euler S s' dt with
        | error e2 => rw [ha, hb] at e; cases e; rfl
        | ok p => rw [ha, hb] at e; cases e
      | ok p =>
        cases hb : M'.euler S s' dt with
        | error e2 => rw [ha, hb] at e; cases e
        | ok p' =>
          rw [ha, hb] at e
          exact loop_report hM hM' tend se n (by simp [Loop.times, hs, Except.ok.inj e])

/-- C145 refuted: a run from a state without any value ends normally, whatever the model, if only the times are suitable. -/
theorem C145_unnoticed_refuted (hg : g.Valid) {M : MModel g} (hM : M.Total) (s : MSt g) (hs : s.AllMissing) (dt : PyDelta) (tend : PyTime) (se : ℝ)
    (hc : s.time.Compatible dt) (hk : s.time.SameKind tend) (hd : 0 < toSeconds dt) (hse : se ≤ 0 ∨ ∃ x, s.time = .num x)
    (hle : s.time.sec ≤ tend.sec) : ∃ n sf saved, M.run S s dt tend se n = .done sf saved ∧ sf.AllMissing ∧ ∀ r ∈ saved, r.AllMissing := by
  obtain ⟨sf, saved, n, h⟩ := C42_returns (S := S) (M := ⟨none, 0, 0, none⟩) (fun f hf => by cases hf) (⟨s.time, 0⟩ : St PyTime g) dt tend se hc hk
    hd hse hle
  have hx : (⟨none, 0, 0, none⟩ : MModel g).Extends ⟨none, 0, 0, none⟩ := ⟨rfl, rfl, rfl, .inl ⟨rfl, rfl⟩⟩
  have e := C145_report (S := S) hM (M' := ⟨none, 0, 0, none⟩) (fun f hf => by cases hf) s (.of ⟨s.time, 0⟩) rfl dt tend se n
  rw [C145_complete hx, h] at e
  cases hr : M.run S s dt tend se n with
  | outOfFuel => rw [hr] at e; cases e
  | raised e' => rw [hr] at e; cases e
  | early a b => rw [hr] at e; cases e
  | done a b => exact ⟨n, a, b, hr, C145_run hg s hs dt tend se n a b hr⟩

/-- C145: when the forcing has missing values from time `t0` on, the states at the times before `t0` are complete and all states at the later times are
missing, except for the initial state. The state at the first time at or after `t0` is lost although it was computed with complete forcings. -/
theorem C145_onset (hg : g.Valid) {M : MModel g} {f : MSt g → Except PyErr (MFld g)} (hf : M.rhs = some f) {t0 : ℝ}
    (h1 : ∀ s t, s.time = .num t → t < t0 → s.NoneMissing → ∀ r, f s = .ok r → ¬ r.HasMissing)
    (h2 : ∀ s t, s.time = .num t → t0 ≤ t → ∀ r, f s = .ok r → r.HasMissing)
    (hb : ∀ b, M.diffusionBg = some b → ¬ b.HasMissing)
    (s : MSt g) (ti : ℝ) (hs : s.time = .num ti) (hc : s.NoneMissing) (d : ℝ) (hd : 0 < d) (tend : PyTime) (se : ℝ) (n : ℕ) (sf : MSt g)
    (saved : List (MSt g)) (h : M.run S s (.num d) tend se n = .done sf saved) :
    ∃ rest, saved = s :: rest ∧ (sf = s ∨ ∃ t, sf.time = .num t ∧ (t < t0 → sf.NoneMissing) ∧ (t0 ≤ t → sf.AllMissing)) ∧
      ∀ r ∈ rest, ∃ t, r.time = .num t ∧ (t < t0 → r.NoneMissing) ∧ (t0 ≤ t → r.AllMissing) := by
  have diff_of : ∀ dt (q : g.Spc), ∃ q', M.applyDiffusion S dt (.of q) = .of q' := by
    intro dt q
    unfold MModel.applyDiffusion
    cases hbb : M.diffusionBg with
    | none => exact ⟨_, rfl⟩
    | some b =>
      obtain ⟨x, rfl⟩ := MFld.complete_some (hb b hbb)
      simp only [toSpectral_of, MSpc.map₂_of, solveDiffusion_of]
      exact ⟨_, rfl⟩
  have tend1 : ∀ (s : MSt g) t q, s.time = .num t → t < t0 → s.NoneMissing → M.tendency S s = .ok q → ∃ x, q = .of x := by
    intro s t q ht hlt hn hq
    obtain ⟨x, rfl⟩ := hn.eq_of
    unfold MModel.tendency at hq
    rw [hf] at hq
    simp only at hq
    cases hr : f (.of x) with
    | error e => rw [hr] at hq; cases hq
    | ok r =>
      obtain ⟨y, rfl⟩ := MFld.complete_some (h1 _ t ht hlt hn r hr)
      rw [hr] at hq
      simp only [MSt.pvFlux_of, MSpc.scale_of, toSpectral_of, MSpc.map₂_of] at hq
      cases hq
      exact ⟨_, rfl⟩
  have tend2 : ∀ (s : MSt g) t q, s.time = .num t → t0 ≤ t → M.tendency S s = .ok q → q = .blank := by
    intro s t q ht hle hq
    unfold MModel.tendency at hq
    rw [hf] at hq
    simp only at hq
    cases hr : f s with
    | error e => rw [hr] at hq; cases hq
    | ok r =>
      rw [hr] at hq
      simp only [toSpectral_missing (h2 s t ht hle r hr), MSpc.map₂_blank_right] at hq
      cases hq
      rfl
  unfold MModel.run at h
  cases ht : tend.lt s.time with
  | error e => rw [ht] at h; cases h
  | ok b =>
    rw [ht] at h
    cases b with
    | true => cases h
    | false =>
      simp only at h
      cases he : M.euler S s (.num d) with
      | error e => rw [he] at h; cases h
      | ok s1 =>
        rw [he] at h
        simp only at h
        obtain ⟨q, hq, hq2, hq3⟩ := euler_ok he
        obtain ⟨l, ⟨_, _, _, _, _, hl5, rest, hl6, hl7⟩, rfl, rfl⟩ := loop_induction (fun l => ∃ t, l.state.time = .num t ∧
            l.stateNew.time = .num (t + d) ∧ (t < t0 → l.state.NoneMissing ∧ l.stateNew.NoneMissing) ∧ (t0 ≤ t → l.stateNew.AllMissing) ∧
            (l.state = s ∨ ∃ t, l.state.time = .num t ∧ (t < t0 → l.state.NoneMissing) ∧ (t0 ≤ t → l.state.AllMissing)) ∧
            ∃ rest, l.states = s :: rest ∧ ∀ r ∈ rest, ∃ t, r.time = .num t ∧ (t < t0 → r.NoneMissing) ∧ (t0 ≤ t → r.AllMissing))
          (fun l l' ⟨t, p1, p2, p3, p4, p5, rest, p6, p7⟩ hb => by
            obtain ⟨hb, hst⟩ := body_ok hb
            obtain ⟨dt, q, g1, g2, g3, g4, e1, e2⟩ := leapfrog_ok hb
            rw [p1, p2] at g1
            cases g1
            rw [p2] at g3 g4
            have g3' : l'.stateNew.time = .num (t + d + (t + d - t)) := (Except.ok.inj g3).symm
            have hlate : t0 ≤ t + d → l'.state.AllMissing ∧ l'.stateNew.AllMissing := by
              intro hle
              have hqb := tend2 _ _ _ p2 hle g2
              have hnew : l'.stateNew.q = .blank := by
                rw [e1, hqb, MSpc.scale_blank, MSpc.map₂_blank_right, applyDiffusion_blank]
              refine ⟨fun k => ?_, fun k => by rw [hnew]; rfl⟩
              rw [e2, hnew, MSpc.map₂_blank_right, MSpc.scale_blank, MSpc.map₂_blank_right]
              rfl
            have hearly : t + d < t0 → l'.state.NoneMissing ∧ l'.stateNew.NoneMissing := by
              intro hlt
              obtain ⟨n1, n2⟩ := p3 (by linarith)
              obtain ⟨x, hx⟩ := tend1 _ _ _ p2 hlt n2 g2
              obtain ⟨a, ha⟩ := n1.q
              obtain ⟨b, hb'⟩ := n2.q
              rw [hx, ha, MSpc.scale_of, MSpc.map₂_of] at e1
              obtain ⟨c, hc⟩ := diff_of (2 * toSeconds (.num (t + d - t))) (fun k => a k + (((2 * toSeconds (.num (t + d - t)) : ℝ) : ℂ) • x) k)
              rw [hc] at e1
              rw [e1, ha, hb', MSpc.map₂_of, MSpc.scale_of, MSpc.scale_of, MSpc.map₂_of] at e2
              exact ⟨fun k => ⟨_, by rw [e2]; rfl⟩, fun k => ⟨_, by rw [e1]; rfl⟩⟩
            have hgood : ∃ t, l'.state.time = .num t ∧ (t < t0 → l'.state.NoneMissing) ∧ (t0 ≤ t → l'.state.AllMissing) :=
              ⟨t + d, g4, fun h => (hearly h).1, fun h => (hlate h).1⟩
            refine ⟨t + d, g4, by rw [g3']; ring_nf, hearly, fun h => (hlate h).2, .inr hgood, ?_⟩
            rcases hst with hst | hst
            · exact ⟨rest, by rw [hst, p6], p7⟩
            · refine ⟨rest ++ [l'.state], by rw [hst, p6]; rfl, ?_⟩
              intro r hr
              rcases List.mem_append.mp hr with hr | hr
              · exact p7 r hr
              · rw [List.mem_singleton.mp hr]; exact hgood)
          ⟨ti, hs, by rw [hs] at hq2; exact (Except.ok.inj hq2).symm, fun hlt => ⟨hc, by
              obtain ⟨x, hx⟩ := tend1 _ _ _ hs hlt hc hq
              obtain ⟨a, ha⟩ := hc.q
              rw [hx, ha, MSpc.scale_of, MSpc.map₂_of] at hq3
              obtain ⟨c, hc'⟩ := diff_of (toSeconds (.num d)) (fun k => a k + ((toSeconds (.num d) : ℂ) • x) k)
              rw [hc'] at hq3
              exact fun k => ⟨_, by rw [hq3]; rfl⟩⟩, fun hle k => by
              show s1.q k = none
              rw [hq3, tend2 _ _ _ hs hle hq, MSpc.scale_blank, MSpc.map₂_blank_right, applyDiffusion_blank]
              rfl, .inl rfl, [], rfl, by simp⟩ h
        exact ⟨rest, hl6, hl5, hl7⟩

/-- C145: a background of the diffusion with a missing value makes all states after the first step missing. -/
theorem C145_background {M : MModel g} {b : MFld g} (hb : M.diffusionBg = some b) (hm : b.HasMissing) (s s1 old now a c : MSt g) (dt : PyDelta)
    (r : ℝ) : (M.euler S s dt = .ok s1 → s1.AllMissing) ∧ (M.leapfrog S old now r = .ok (a, c) → a.AllMissing ∧ c.AllMissing) := by
  have key : ∀ dt q, M.applyDiffusion S dt q = .blank := by
    intro dt q
    unfold MModel.applyDiffusion
    rw [hb]
    simp [toSpectral_missing hm]
  constructor
  · intro h k
    obtain ⟨q, _, _, h3⟩ := euler_ok h
    rw [h3, key]
    rfl
  · intro h
    obtain ⟨_, q, _, _, _, _, e1, e2⟩ := leapfrog_ok h
    rw [key] at e1
    refine ⟨fun k => ?_, fun k => by rw [e1]; rfl⟩
    rw [e2, e1, MSpc.map₂_blank_right, MSpc.scale_blank, MSpc.map₂_blank_right]
    rfl

/-- C145: sums and products of forcing terms are missing exactly where a term is. -/
theorem C145_terms (op : ℝ → ℝ → ℝ) (a b : MTerm g) (s : MSt g) (x y : MFld g) (ha : a s = .ok (.fld x)) (hb : b s = .ok (.fld y)) (c : ℝ) :
    (∃ z, MTerm.combine op a b s = .ok (.fld z) ∧ ∀ j i, z j i = none ↔ x j i = none ∨ y j i = none) ∧
    ∃ z, MTerm.combine op (fun _ => .ok (.num c)) b s = .ok (.fld z) ∧ ∀ j i, z j i = none ↔ y j i = none := by
  refine ⟨⟨_, by simp only [MTerm.combine, ha, hb, bind, Except.bind, pure, Except.pure, MVal.map₂]; rfl, fun j i => ?_⟩,
    ⟨_, by simp only [MTerm.combine, hb, bind, Except.bind, pure, Except.pure, MVal.map₂]; rfl, fun j i => ?_⟩⟩
  · simp [MFld.map₂, Option.map₂_eq_none_iff]
  · simp

/-- C145 refuted: a forcing with missing values destroys the run even after it has been switched off: the tendency is missing. The same holds for a
rate of zero (`C145_terms`). -/
theorem C145_switch_refuted {M : MModel g} (b : MTerm g) (t te : ℝ) (hte : te < t) (s : MSt g) (hs : s.time = .num t) (y : MFld g)
    (hb : b s = .ok (.fld y)) (hy : y.HasMissing) (hM : M.rhs = some (MTerm.combine (· * ·) (MTerm.timedOffSwitch (.num te)) b).toRhs) :
    M.tendency S s = .ok .blank := by
  have h : (MTerm.combine (· * ·) (MTerm.timedOffSwitch (.num te)) b) s = .ok (.fld fun j i => (y j i).map (0 * ·)) := by
    have : s.time.le (.num te) = .ok false := by rw [hs]; simp [PyTime.le, hte]
    simp only [MTerm.combine, MTerm.timedOffSwitch, this, hb, bind, Except.bind, pure, Except.pure, MVal.map₂]
  have hz : MFld.HasMissing (g := g) fun j i => (y j i).map (0 * ·) := by
    obtain ⟨j, i, h⟩ := hy
    exact ⟨j, i, by simp [h]⟩
  unfold MModel.tendency
  rw [hM]
  simp only [MTerm.toRhs, h, toSpectral_missing hz, MSpc.map₂_blank_right]

/-- C145: without missing values, a forcing that has been switched off is zero everywhere. -/
theorem C145_switch_complete (b : MTerm g) (t te : ℝ) (hte : te < t) (s : MSt g) (hs : s.time = .num t) (y : g.Fld)
    (hb : b s = .ok (.fld (.of y))) :
    (MTerm.combine (· * ·) (MTerm.timedOffSwitch (.num te)) b) s = .ok (.fld (.of fun _ _ => 0)) := by
  have : s.time.le (.num te) = .ok false := by rw [hs]; simp [PyTime.le, hte]
  simp only [MTerm.combine, MTerm.timedOffSwitch, this, hb, bind, Except.bind, pure, Except.pure, MVal.map₂]
  congr 2
  funext j i
  simp [MFld.of]

/-- C145: relaxation towards a reference is missing exactly where the reference is, whatever the rate. -/
theorem C145_relaxation (rate : ℝ) (ref : MFld g) (s : St PyTime g) :
    ∃ z, MTerm.linearRelaxation S rate (.fld ref) (.of s) = .ok (.fld z) ∧
      ∀ j i, z j i = (ref j i).map fun x => rate * (x - s.pv S j i) := by
  refine ⟨_, by simp only [MTerm.linearRelaxation, MVal.map₂]; rfl, fun j i => ?_⟩
  rw [MSt.pv_of]
  simp only [MFld.map₂, MFld.of]
  cases ref j i <;> rfl

/-- C145: an orography with a missing height exerts missing forces everywhere. -/
theorem C145_orography (height : MFld g) (hh : height.HasMissing) (H : ℝ) (s : MSt g) :
    MTerm.orography S height H s = .ok (.fld .blank) := by
  have : gradient S height = (.blank, .blank) := by
    unfold Missing.gradient
    rw [toSpectral_missing hh, MSpc.complete_blank]
  unfold MTerm.orography
  rw [this]
  congr 2
  funext j i
  simp [MFld.blank]

/-- Non-vacuity: the model without forcing extends the model of numbers, there are fields with a missing value, states without values and forcings as
in `C145_onset`. -/
example (hg : g.Valid) : (∃ f : MFld g, f.HasMissing) ∧ (∃ s : MSt g, s.AllMissing) ∧ (⟨none, 2, 1, none⟩ : MModel g).Extends ⟨none, 2, 1, none⟩ ∧
    ∃ f : MSt g → Except PyErr (MFld g), (∀ s t, s.time = .num t → t < 5 → s.NoneMissing → ∀ r, f s = .ok r → ¬ r.HasMissing) ∧
      ∀ s t, s.time = .num t → 5 ≤ t → ∀ r, f s = .ok r → r.HasMissing := by
  have hb : MFld.HasMissing (g := g) .blank := ⟨⟨0, by have := hg.nlat_ge; omega⟩, ⟨0, by have := hg.nlon_ge; omega⟩, rfl⟩
  refine ⟨⟨.blank, hb⟩, ⟨⟨.num 0, .blank⟩, fun _ => rfl⟩, ⟨rfl, rfl, rfl, .inl ⟨rfl, rfl⟩⟩, ?_⟩
  refine ⟨fun s => .ok (if 5 ≤ s.time.sec then .blank else .of 0), ?_, ?_⟩
  · rintro s t ht hlt _ r hr
    cases hr
    simp only [ht, PyTime.sec]
    rw [if_neg (by linarith)]
    rintro ⟨j, i, h⟩
    cases h
  · rintro s t ht hle r hr
    cases hr
    simp only [ht, PyTime.sec]
    rw [if_pos hle]
    exact hb

end Barotropic
