import Verif.Lemmas.Run
import Verif.Spec.Symmetry
import Mathlib.Algebra.Module.LinearMap.Basic

/-! # Runs that are images of each other

A linear map between spectral fields and a map between times that are compatible with two models carry the runs of one model
to runs of the other. -/

namespace Barotropic
open BModel

/-- `B` on spectral fields, `tm` on times, `dm` on time steps: time steps become `a` times as long. `P` and `Pd` are the kinds of
times and time steps for which this holds. -/
structure RunMap {g g' : Grid ℝ} (S : g.Sph) (S' : g'.Sph) (M : BModel g) (M' : BModel g') (a : ℝ) (B : g.Spc →ₗ[ℝ] g'.Spc)
    (tm : PyTime → PyTime) (dm : PyDelta → PyDelta) (P : PyTime → Prop) (Pd : PyDelta → Prop) : Prop where
  seconds : ∀ d, Pd d → toSeconds (dm d) = a * toSeconds d
  add : ∀ t d, P t → Pd d → (tm t).add (dm d) = (t.add d).map tm
  sub : ∀ t t', P t → P t' → (tm t).sub (tm t') = (t.sub t').map dm
  lt : ∀ t t', P t → P t' → (tm t).lt (tm t') = t.lt t'
  add_ok : ∀ t d t', P t → Pd d → t.add d = .ok t' → P t'
  sub_ok : ∀ t t' d, P t → P t' → t.sub t' = .ok d → Pd d
  tendency : ∀ s : St PyTime g, P s.time → ((M'.tendency S' ⟨tm s.time, B s.q⟩).map fun t => a • t) = (M.tendency S s).map B
  diffusion : ∀ dt q, M'.applyDiffusion S' (a * dt) (B q) = B (M.applyDiffusion S dt q)

namespace RunMap
variable {g g' : Grid ℝ} {S : g.Sph} {S' : g'.Sph} {M : BModel g} {M' : BModel g'} {a : ℝ} {B : g.Spc →ₗ[ℝ] g'.Spc}
  {tm : PyTime → PyTime} {dm : PyDelta → PyDelta} {P : PyTime → Prop} {Pd : PyDelta → Prop}

/-- The image of a state -/
noncomputable def on (B : g.Spc →ₗ[ℝ] g'.Spc) (tm : PyTime → PyTime) (s : St PyTime g) : St PyTime g' := ⟨tm s.time, B s.q⟩

theorem coe_smul {T : ℕ} (c : ℝ) (q : SpecField T) : (c : ℂ) • q = c • q := by
  funext k; simp

theorem euler (h : RunMap S S' M M' a B tm dm P Pd) (s : St PyTime g) (dt : PyDelta) (hp : P s.time) (hpd : Pd dt) :
    M'.euler S' (on B tm s) (dm dt) = (M.euler S s dt).map (on B tm) := by
  have ht := h.tendency s hp
  have ha := h.add s.time dt hp hpd
  unfold BModel.euler
  change (M'.tendency S' (on B tm s)).map _ = _ at ht
  cases h1 : M.tendency S s with
  | error e =>
    rw [h1] at ht
    cases h2 : M'.tendency S' (on B tm s) with
    | error e' => rw [h2] at ht; cases ht; rfl
    | ok t' => rw [h2] at ht; cases ht
  | ok t =>
    rw [h1] at ht
    cases h2 : M'.tendency S' (on B tm s) with
    | error e' => rw [h2] at ht; cases ht
    | ok t' =>
      rw [h2] at ht
      have ht : a • t' = B t := by injection ht
      simp only [Bind.bind, Except.bind]
      change Except.bind ((tm s.time).add (dm dt)) _ = _
      rw [ha]
      cases s.time.add dt with
      | error e => rfl
      | ok t0 =>
        refine congrArg Except.ok ?_
        unfold on
        dsimp only
        refine congrArg (St.mk (tm t0)) ?_
        rw [← h.diffusion, h.seconds _ hpd, coe_smul, coe_smul, map_add, map_smul, ← ht, smul_smul, mul_comm a]

theorem leapfrog (h : RunMap S S' M M' a B tm dm P Pd) (old now : St PyTime g) (f : ℝ) (hp : P old.time)
    (hp' : P now.time) :
    M'.leapfrog S' (on B tm old) (on B tm now) f = (M.leapfrog S old now f).map fun p => (on B tm p.1, on B tm p.2) := by
  have ht := h.tendency now hp'
  have hs := h.sub now.time old.time hp' hp
  change (M'.tendency S' (on B tm now)).map _ = _ at ht
  unfold BModel.leapfrog
  change Except.bind ((tm now.time).sub (tm old.time)) _ = _
  rw [hs]
  cases hsub : now.time.sub old.time with
  | error e => rfl
  | ok dt =>
    have hpd := h.sub_ok _ _ _ hp' hp hsub
    have ha := h.add now.time dt hp' hpd
    simp only [Bind.bind, Except.bind, Except.map]
    cases h1 : M.tendency S now with
    | error e =>
      rw [h1] at ht
      cases h2 : M'.tendency S' (on B tm now) with
      | error e' => rw [h2] at ht; cases ht; rfl
      | ok t' => rw [h2] at ht; cases ht
    | ok t =>
      rw [h1] at ht
      cases h2 : M'.tendency S' (on B tm now) with
      | error e' => rw [h2] at ht; cases ht
      | ok t' =>
        rw [h2] at ht
        have ht : a • t' = B t := by injection ht
        dsimp only
        change Except.bind ((tm now.time).add (dm dt)) _ = _
        rw [ha]
        cases now.time.add dt with
        | error e => rfl
        | ok t0 =>
          have hd : M'.applyDiffusion S' (2 * toSeconds (dm dt)) ((on B tm old).q + ((2 * toSeconds (dm dt) : ℝ) : ℂ) • t') =
              B (M.applyDiffusion S (2 * toSeconds dt) (old.q + ((2 * toSeconds dt : ℝ) : ℂ) • t)) := by
            rw [← h.diffusion, h.seconds _ hpd, coe_smul, coe_smul, map_add, map_smul, ← ht, smul_smul,
              show 2 * (a * toSeconds dt) = a * (2 * toSeconds dt) by ring,
              show 2 * toSeconds dt * a = a * (2 * toSeconds dt) by ring]
            rfl
          refine congrArg Except.ok ?_
          simp only [hd]
          refine Prod.ext ?_ rfl
          unfold on
          dsimp only
          refine congrArg (St.mk (tm now.time)) ?_
          simp only [coe_smul, map_add, map_smul]

theorem leapfrog_kind (h : RunMap S S' M M' a B tm dm P Pd) {old now : St PyTime g} {f : ℝ} {p : St PyTime g × St PyTime g}
    (hp : P old.time) (hp' : P now.time) (hl : M.leapfrog S old now f = .ok p) : p.1.time = now.time ∧ P p.2.time := by
  obtain ⟨d, tn, t, h1, _, h3, rfl⟩ := leapfrog_ok_iff.mp hl
  exact ⟨rfl, h.add_ok _ _ _ hp' (h.sub_ok _ _ _ hp' hp h1) h3⟩

theorem body_kind (h : RunMap S S' M M' a B tm dm P Pd) {se : ℝ} {l l' : Loop g}
    (hp : P l.state.time) (hp' : P l.stateNew.time) (hb : M.body S se l = .ok l') : P l'.state.time ∧ P l'.stateNew.time := by
  unfold BModel.body at hb
  cases hl : M.leapfrog S l.state l.stateNew (2 / 10) with
  | error e => rw [hl] at hb; cases hb
  | ok p =>
    obtain ⟨h1, h2⟩ := h.leapfrog_kind hp hp' hl
    rw [← h1] at hp'
    rw [hl] at hb
    simp only [Bind.bind, Except.bind] at hb
    split_ifs at hb
    · cases hg : p.1.time.ge (.num l.tSave) with
      | error e => rw [hg] at hb; cases hb
      | ok b => cases b <;> (rw [hg] at hb; cases hb; exact ⟨hp', h2⟩)
    · cases hb; exact ⟨hp', h2⟩

variable {se : ℝ}

/-- saved times correspond -/
def SaveOk (a : ℝ) (tm : PyTime → PyTime) (P : PyTime → Prop) (se : ℝ) : Prop := se ≤ 0 ∨ ∀ t x, P t → (tm t).ge (.num (a * x)) = t.ge (.num x)

theorem body (h : RunMap S S' M M' a B tm dm P Pd) (ha : 0 < a) (hse : SaveOk a tm P se) (l : Loop g)
    (hp : P l.state.time) (hp' : P l.stateNew.time) :
    M'.body S' (a * se) ⟨on B tm l.state, on B tm l.stateNew, l.states.map (on B tm), a * l.tSave⟩ =
      (M.body S se l).map fun l => ⟨on B tm l.state, on B tm l.stateNew, l.states.map (on B tm), a * l.tSave⟩ := by
  unfold BModel.body
  dsimp only
  rw [h.leapfrog _ _ _ hp hp']
  cases hl : M.leapfrog S l.state l.stateNew (2 / 10) with
  | error e => rfl
  | ok p =>
    obtain ⟨h1, -⟩ := h.leapfrog_kind hp hp' hl
    have hpos : a * se > 0 ↔ se > 0 := mul_pos_iff_of_pos_left ha
    simp only [Bind.bind, Except.bind, Except.map]
    by_cases h0 : se > 0
    · rw [if_pos h0, if_pos (hpos.mpr h0)]
      rcases hse with hse | hse
      · exact absurd h0 (not_lt.mpr hse)
      · rw [show (on B tm p.1).time = tm p.1.time from rfl, hse _ _ (by rw [h1]; exact hp')]
        cases p.1.time.ge (.num l.tSave) with
        | error e => rfl
        | ok b =>
          cases b
          · rfl
          · refine congrArg Except.ok ?_
            dsimp only
            rw [mul_add, List.map_append]
            rfl
    · rw [if_neg h0, if_neg (fun h => h0 (hpos.mp h))]
      rfl

theorem loop (h : RunMap S S' M M' a B tm dm P Pd) (ha : 0 < a) (hse : SaveOk a tm P se) (tend : PyTime)
    (hte : P tend) :
    ∀ (fuel : ℕ) (l : Loop g), P l.state.time → P l.stateNew.time →
      M'.loop S' (tm tend) (a * se) fuel ⟨on B tm l.state, on B tm l.stateNew, l.states.map (on B tm), a * l.tSave⟩ =
        (M.loop S tend se fuel l).map (on B tm) := by
  intro fuel
  induction fuel with
  | zero => intro l _ _; rfl
  | succ n ih =>
    intro l hp hp'
    unfold BModel.loop
    rw [show (Loop.state ⟨on B tm l.state, on B tm l.stateNew, l.states.map (on B tm), a * l.tSave⟩).time = tm l.state.time from rfl, h.lt _ _ hp hte, h.body ha hse l hp hp']
    cases l.state.time.lt tend with
    | error e => rfl
    | ok b =>
      cases b with
      | false => rfl
      | true =>
        dsimp only
        cases hb : M.body S se l with
        | error e => rfl
        | ok l' => exact ih l' (h.body_kind hp hp' hb).1 (h.body_kind hp hp' hb).2

/-- Runs correspond: results, saved states, exceptions and non-termination. -/
theorem run (h : RunMap S S' M M' a B tm dm P Pd) (ha : 0 < a) (hse : SaveOk a tm P se) (s : St PyTime g) (dt : PyDelta) (tend : PyTime)
    (fuel : ℕ) (hp : P s.time) (hpd : Pd dt) (hte : P tend) :
    M'.run S' (on B tm s) (dm dt) (tm tend) (a * se) fuel = (M.run S s dt tend se fuel).map (on B tm) := by
  unfold BModel.run
  rw [show (on B tm s).time = tm s.time from rfl, h.lt _ _ hte hp, h.euler _ _ hp hpd]
  cases tend.lt s.time with
  | error e => rfl
  | ok b =>
    cases b with
    | true => rfl
    | false =>
      dsimp only
      cases he : M.euler S s dt with
      | error e => rfl
      | ok s1 =>
        obtain ⟨_, t, _, h1, rfl⟩ := euler_ok_iff.mp he
        exact h.loop ha hse tend hte fuel ⟨s, ⟨t, _⟩, [s], se⟩ hp (h.add_ok _ _ _ hp hpd h1)

end RunMap
end Barotropic
