import Verif.Spec.Run
import Mathlib.Tactic.Linarith
import Mathlib.Tactic.Ring
import Mathlib.Tactic.FieldSimp
import Mathlib.Algebra.Order.Archimedean.Basic

/-! # Lemmas on the integration loop -/

namespace Barotropic
open BModel

section Time

theorem stepTime_zero (t0 : PyTime) (dt : PyDelta) : stepTime t0 dt 0 = t0 := by
  cases t0 <;> cases dt <;> simp [stepTime]

theorem sec_stepTime {t0 : PyTime} {dt : PyDelta} (h : t0.Compatible dt) (k : ℕ) :
    (stepTime t0 dt k).sec = t0.sec + k * toSeconds dt := by
  cases t0 <;> cases dt <;> simp_all [PyTime.Compatible, stepTime, PyTime.sec, toSeconds]
  push_cast; ring

theorem stepTime_add {t0 : PyTime} {dt : PyDelta} (h : t0.Compatible dt) (k : ℕ) :
    (stepTime t0 dt k).add dt = .ok (stepTime t0 dt (k + 1)) := by
  cases t0 <;> cases dt <;> simp_all [PyTime.Compatible, stepTime, PyTime.add] <;> ring

theorem stepTime_sub {t0 : PyTime} {dt : PyDelta} (h : t0.Compatible dt) (k : ℕ) :
    (stepTime t0 dt (k + 1)).sub (stepTime t0 dt k) = .ok dt := by
  cases t0 <;> cases dt <;> simp_all [PyTime.Compatible, stepTime, PyTime.sub] <;> ring

theorem stepTime_sameKind {t0 tend : PyTime} (h : t0.SameKind tend) (dt : PyDelta) (k : ℕ) :
    (stepTime t0 dt k).SameKind tend := by
  cases t0 <;> cases dt <;> cases tend <;> simp_all [PyTime.SameKind, stepTime]

theorem lt_sec {a b : PyTime} (h : a.SameKind b) : a.lt b = .ok (decide (a.sec < b.sec)) := by
  cases a with
  | num x => cases b with
    | num y => rfl
    | datetime y => exact absurd h id
  | datetime x => cases b with
    | num y => exact absurd h id
    | datetime y =>
      have : (x : ℝ) / 10 ^ 6 < y / 10 ^ 6 ↔ x < y := by
        rw [div_lt_div_iff_of_pos_right (by norm_num)]; exact Int.cast_lt
      exact congrArg Except.ok (decide_eq_decide.mpr this.symm)

theorem ge_sec {a b : PyTime} (h : a.SameKind b) : a.ge b = .ok (decide (b.sec ≤ a.sec)) := by
  cases a with
  | num x => cases b with
    | num y => rfl
    | datetime y => exact absurd h id
  | datetime x => cases b with
    | num y => exact absurd h id
    | datetime y =>
      have : (y : ℝ) / 10 ^ 6 ≤ x / 10 ^ 6 ↔ y ≤ x := by
        rw [div_le_div_iff_of_pos_right (by norm_num)]; exact Int.cast_le
      exact congrArg Except.ok (decide_eq_decide.mpr this.symm)

theorem SameKind.symm {a b : PyTime} (h : a.SameKind b) : b.SameKind a := by
  cases a <;> cases b <;> simp_all [PyTime.SameKind]

theorem lt_error {a b : PyTime} (h : ¬ a.SameKind b) : a.lt b = .error .typeError := by
  cases a <;> cases b <;> simp_all [PyTime.SameKind, PyTime.lt]

end Time

variable {g : Grid ℝ} {S : g.Sph} {M : BModel g}

theorem euler_ok_iff {s s1 : St PyTime g} {dt : PyDelta} : M.euler S s dt = .ok s1 ↔
    ∃ tend t, M.tendency S s = .ok tend ∧ s.time.add dt = .ok t ∧
      s1 = ⟨t, M.applyDiffusion S (toSeconds dt) (s.q + ((toSeconds dt : ℝ) : ℂ) • tend)⟩ := by
  unfold BModel.euler
  cases h1 : M.tendency S s with
  | error e => simp [Bind.bind, Except.bind]
  | ok tn =>
    cases h2 : s.time.add dt with
    | error e => simp [Bind.bind, Except.bind]
    | ok t => simp [Bind.bind, Except.bind, pure, Except.pure, eq_comm]

theorem leapfrog_ok_iff {old now : St PyTime g} {f : ℝ} {p : St PyTime g × St PyTime g} :
    M.leapfrog S old now f = .ok p ↔
    ∃ dt tend t, now.time.sub old.time = .ok dt ∧ M.tendency S now = .ok tend ∧ now.time.add dt = .ok t ∧
      p = (⟨now.time, ((1 - 2 * f : ℝ) : ℂ) • now.q + (f : ℂ) • (old.q +
          M.applyDiffusion S (2 * toSeconds dt) (old.q + ((2 * toSeconds dt : ℝ) : ℂ) • tend))⟩,
        ⟨t, M.applyDiffusion S (2 * toSeconds dt) (old.q + ((2 * toSeconds dt : ℝ) : ℂ) • tend)⟩) := by
  unfold BModel.leapfrog
  cases h0 : now.time.sub old.time with
  | error e => simp [Bind.bind, Except.bind]
  | ok dt =>
    cases h1 : M.tendency S now with
    | error e => simp [Bind.bind, Except.bind]
    | ok tn =>
      cases h2 : now.time.add dt with
      | error e =>
        simp only [Bind.bind, Except.bind, h2, Except.ok.injEq, reduceCtorEq, false_iff]
        rintro ⟨_, _, _, rfl, _, h, _⟩
        rw [h2] at h; cases h
      | ok t =>
        simp only [Bind.bind, Except.bind, h2, pure, Except.pure, Except.ok.injEq]
        constructor
        · rintro rfl; exact ⟨dt, tn, t, rfl, rfl, h2, rfl⟩
        · rintro ⟨_, _, _, rfl, rfl, h, rfl⟩
          rw [h2] at h; cases h; rfl

/-- One pass through the loop body. -/
theorem body_ok_iff {se : ℝ} {l l' : Loop g} : M.body S se l = .ok l' ↔
    ∃ p, M.leapfrog S l.state l.stateNew (2 / 10) = .ok p ∧
      ((se ≤ 0 ∧ l' = ⟨p.1, p.2, l.states, l.tSave⟩) ∨
       (0 < se ∧ p.1.time.ge (.num l.tSave) = .ok false ∧ l' = ⟨p.1, p.2, l.states, l.tSave⟩) ∨
       (0 < se ∧ p.1.time.ge (.num l.tSave) = .ok true ∧ l' = ⟨p.1, p.2, l.states ++ [p.1], l.tSave + se⟩)) := by
  unfold BModel.body
  cases h : M.leapfrog S l.state l.stateNew (2 / 10) with
  | error e => simp [Bind.bind, Except.bind]
  | ok p =>
    simp only [Bind.bind, Except.bind, Except.ok.injEq, exists_eq_left']
    by_cases hs : se > 0
    · have hs' : 0 < se := hs
      have hs2 : ¬ se ≤ 0 := not_le.mpr hs
      rw [if_pos hs]
      simp only [hs2, hs', false_and, true_and, false_or]
      cases h2 : p.1.time.ge (.num l.tSave) with
      | error e => simp
      | ok b => cases b <;> simp [pure, Except.pure, eq_comm]
    · have hs2 : se ≤ 0 := not_lt.mp hs
      have hs' : ¬ 0 < se := hs
      rw [if_neg hs]
      simp only [hs2, hs', false_and, true_and, or_false]
      simp [pure, Except.pure, eq_comm]

/-- Invariant principle for the loop. -/
theorem loop_done {tend : PyTime} {se : ℝ} (P : Loop g → Prop)
    (pres : ∀ l l', P l → l.state.time.lt tend = .ok true → M.body S se l = .ok l' → P l') :
    ∀ (fuel : ℕ) (l : Loop g) (sf : St PyTime g) (saved : List (St PyTime g)), P l →
      M.loop S tend se fuel l = .done sf saved →
      ∃ l', P l' ∧ l'.state = sf ∧ l'.states = saved ∧ sf.time.lt tend = .ok false := by
  intro fuel
  induction fuel with
  | zero => intro l sf saved _ h; simp [BModel.loop] at h
  | succ n ih =>
    intro l sf saved hP h
    unfold BModel.loop at h
    cases h1 : l.state.time.lt tend with
    | error e => simp [h1] at h
    | ok b =>
      cases b with
      | false =>
        simp only [h1] at h
        cases h
        exact ⟨l, hP, rfl, rfl, h1⟩
      | true =>
        simp only [h1] at h
        cases h2 : M.body S se l with
        | error e => simp [h2] at h
        | ok l' =>
          simp only [h2] at h
          exact ih l' sf saved (pres l l' hP h1 h2) h

/-- Unfolding of a run that returns. -/
theorem run_done {s : St PyTime g} {dt : PyDelta} {tend : PyTime} {se : ℝ} {fuel : ℕ} {sf : St PyTime g}
    {saved : List (St PyTime g)} (h : M.run S s dt tend se fuel = .done sf saved) :
    tend.lt s.time = .ok false ∧ ∃ s1, M.euler S s dt = .ok s1 ∧
      M.loop S tend se fuel ⟨s, s1, [s], se⟩ = .done sf saved := by
  unfold BModel.run at h
  cases h1 : tend.lt s.time with
  | error e => simp [h1] at h
  | ok b =>
    cases b with
    | true => simp [h1] at h
    | false =>
      simp only [h1] at h
      cases h2 : M.euler S s dt with
      | error e => simp [h2] at h
      | ok s1 =>
        simp only [h2] at h
        exact ⟨rfl, s1, rfl, h⟩

/-- Invariant of pairs of consecutive states gives an invariant of everything a run returns. -/
theorem run_invariant {s : St PyTime g} {dt : PyDelta} {tend : PyTime} {se : ℝ} {sf : St PyTime g}
    {saved : List (St PyTime g)} (P : St PyTime g → St PyTime g → Prop)
    (h0 : ∀ s1, M.euler S s dt = .ok s1 → P s s1)
    (pres : ∀ a b p, P a b → M.leapfrog S a b (2 / 10) = .ok p → P p.1 p.2)
    (h : M.Returns S s dt tend se sf saved) :
    (∃ b, P sf b) ∧ ∀ x ∈ saved, ∃ b, P x b := by
  obtain ⟨fuel, h⟩ := h
  obtain ⟨_, s1, he, hl⟩ := run_done h
  have hs := h0 s1 he
  obtain ⟨l', ⟨hP, hm⟩, rfl, rfl, _⟩ := loop_done
    (fun l => P l.state l.stateNew ∧ ∀ x ∈ l.states, ∃ b, P x b) (by
      rintro l l' ⟨hp, hm⟩ _ hb
      obtain ⟨p, hp', h⟩ := body_ok_iff.mp hb
      have hpp := pres _ _ _ hp hp'
      rcases h with ⟨_, rfl⟩ | ⟨_, _, rfl⟩ | ⟨_, _, rfl⟩
      · exact ⟨hpp, hm⟩
      · exact ⟨hpp, hm⟩
      · refine ⟨hpp, fun x hx => ?_⟩
        rcases List.mem_append.mp hx with hx | hx
        · exact hm x hx
        · rw [List.mem_singleton.mp hx]; exact ⟨_, hpp⟩) fuel _ sf saved
      ⟨hs, fun x hx => by rw [List.mem_singleton.mp hx]; exact ⟨s1, hs⟩⟩ hl
  exact ⟨⟨_, hP⟩, hm⟩

/-- Times along the integration. -/
theorem pairAt_time {s : St PyTime g} {dt : PyDelta} (hc : s.time.Compatible dt) :
    ∀ k p, M.pairAt S s dt k = .ok p → p.1.time = stepTime s.time dt k ∧ p.2.time = stepTime s.time dt (k + 1) := by
  intro k
  induction k with
  | zero =>
    intro p hp
    unfold BModel.pairAt at hp
    cases he : M.euler S s dt with
    | error e => rw [he] at hp; cases hp
    | ok s1 =>
      rw [he] at hp; cases hp
      obtain ⟨_, t, _, ht, rfl⟩ := euler_ok_iff.mp he
      have := stepTime_add hc 0
      rw [stepTime_zero, ht] at this
      cases this
      exact ⟨(stepTime_zero _ _).symm, rfl⟩
  | succ k ih =>
    intro p hp
    unfold BModel.pairAt at hp
    cases hk : M.pairAt S s dt k with
    | error e => rw [hk] at hp; cases hp
    | ok p0 =>
      simp only [hk] at hp
      obtain ⟨h1, h2⟩ := ih p0 hk
      obtain ⟨d, _, t, hd, _, ht, rfl⟩ := leapfrog_ok_iff.mp hp
      rw [h1, h2, stepTime_sub hc] at hd
      cases hd
      rw [h2, stepTime_add hc] at ht
      cases ht
      exact ⟨h2, rfl⟩

end Barotropic
