import Verif.Lemmas.Run
import Verif.Props.State

/-!
# Time integration, control flow and time axis: C42 – C45
-/

namespace Barotropic
open BModel

variable {g : Grid ℝ} {S : g.Sph} {M : BModel g}

/-- The loop variables are those of the k-th step of the integration, reached with all earlier times before `tend`. -/
def AtStep (S : g.Sph) (M : BModel g) (s : St PyTime g) (dt : PyDelta) (tend : PyTime) (k : ℕ) (l : Loop g) : Prop :=
  M.pairAt S s dt k = .ok (l.state, l.stateNew) ∧ ∀ m < k, (stepTime s.time dt m).sec < tend.sec

theorem AtStep.zero {s s1 : St PyTime g} {dt : PyDelta} {tend : PyTime} {st : List (St PyTime g)} {ts : ℝ}
    (h : M.euler S s dt = .ok s1) : AtStep S M s dt tend 0 ⟨s, s1, st, ts⟩ := by
  refine ⟨?_, fun m hm => absurd hm (by omega)⟩
  unfold BModel.pairAt; rw [h]; rfl

theorem AtStep.succ {s : St PyTime g} {dt : PyDelta} {tend : PyTime} {k : ℕ} {l l' : Loop g} {se : ℝ}
    (hc : s.time.Compatible dt) (hk : s.time.SameKind tend) (h : AtStep S M s dt tend k l)
    (hlt : l.state.time.lt tend = .ok true) (hb : M.body S se l = .ok l') : AtStep S M s dt tend (k + 1) l' := by
  obtain ⟨p, hp, h3⟩ := body_ok_iff.mp hb
  have ht := (pairAt_time hc k _ h.1).1
  refine ⟨?_, ?_⟩
  · unfold BModel.pairAt
    rw [h.1]
    dsimp only
    rw [hp]
    rcases h3 with ⟨_, rfl⟩ | ⟨_, _, rfl⟩ | ⟨_, _, rfl⟩ <;> rfl
  · intro m hm
    rcases Nat.lt_succ_iff_lt_or_eq.mp hm with h1 | rfl
    · exact h.2 m h1
    · have ht' : l.state.time = stepTime s.time dt m := ht
      rw [ht', lt_sec (stepTime_sameKind hk dt m)] at hlt
      simpa using hlt

/-- The loop needs at most `n + 1` checks of its condition if `tend` is reached within `n` more steps. -/
theorem loop_terminates {s : St PyTime g} {dt : PyDelta} {tend : PyTime} {se : ℝ} (hc : s.time.Compatible dt)
    (hk : s.time.SameKind tend) :
    ∀ (n k : ℕ) (l : Loop g), AtStep S M s dt tend k l → tend.sec ≤ (stepTime s.time dt (k + n)).sec →
      ∀ fuel, n < fuel → M.loop S tend se fuel l = M.loop S tend se (n + 1) l ∧ M.loop S tend se (n + 1) l ≠ .outOfFuel := by
  intro n
  induction n with
  | zero =>
    intro k l hl hn fuel hf
    obtain ⟨f, rfl⟩ := Nat.exists_eq_add_of_lt hf
    have ht : l.state.time = stepTime s.time dt k := (pairAt_time hc k _ hl.1).1
    have hlt : l.state.time.lt tend = .ok false := by
      rw [ht, lt_sec (stepTime_sameKind hk dt k)]
      simp at hn ⊢; exact hn
    unfold BModel.loop
    simp only [hlt]
    exact ⟨trivial, by simp⟩
  | succ n ih =>
    intro k l hl hn fuel hf
    obtain ⟨f, rfl⟩ : ∃ f, fuel = f + 1 := ⟨fuel - 1, by omega⟩
    unfold BModel.loop
    cases h1 : l.state.time.lt tend with
    | error e => simp
    | ok b =>
      cases b with
      | false => simp
      | true =>
        simp only
        cases h2 : M.body S se l with
        | error e => simp
        | ok l' =>
          simp only
          have hn' : tend.sec ≤ (stepTime s.time dt (k + 1 + n)).sec := by
            rwa [show k + 1 + n = k + (n + 1) by ring]
          exact ih (k + 1) l' (hl.succ hc hk h1 h2) hn' f (by omega)

/-- C42: for a positive time step, `run` terminates (with a result or an exception), and what it returns does not depend on
how many iterations it was given beyond those it needs. -/
theorem C42_terminates (s : St PyTime g) (dt : PyDelta) (tend : PyTime) (se : ℝ) (hc : s.time.Compatible dt)
    (hk : s.time.SameKind tend) (hd : 0 < toSeconds dt) :
    ∃ N, ∀ fuel ≥ N, M.run S s dt tend se fuel = M.run S s dt tend se N ∧ M.run S s dt tend se N ≠ .outOfFuel := by
  obtain ⟨n, hn⟩ := exists_nat_ge ((tend.sec - s.time.sec) / toSeconds dt)
  have hn' : tend.sec ≤ (stepTime s.time dt (0 + n)).sec := by
    rw [zero_add, sec_stepTime hc]
    have := (div_le_iff₀ hd).mp hn
    linarith
  refine ⟨n + 1, fun fuel hf => ?_⟩
  unfold BModel.run
  cases h1 : tend.lt s.time with
  | error e => simp
  | ok b =>
    cases b with
    | true => simp
    | false =>
      simp only
      cases h2 : M.euler S s dt with
      | error e => simp
      | ok s1 => exact loop_terminates hc hk n 0 _ (AtStep.zero h2) hn' fuel (by omega)

/-- A run that returns, unrolled: final state and loop variables. -/
theorem run_atStep {s : St PyTime g} {dt : PyDelta} {tend : PyTime} {se : ℝ} {sf : St PyTime g}
    {saved : List (St PyTime g)} (hc : s.time.Compatible dt) (hk : s.time.SameKind tend)
    (Q : ℕ → Loop g → Prop) (h0 : ∀ s1, M.euler S s dt = .ok s1 → Q 0 ⟨s, s1, [s], se⟩)
    (pres : ∀ k l l', AtStep S M s dt tend k l → Q k l → M.body S se l = .ok l' → Q (k + 1) l')
    (h : M.Returns S s dt tend se sf saved) :
    ∃ k l, AtStep S M s dt tend k l ∧ Q k l ∧ l.state = sf ∧ l.states = saved ∧
      sf.time = stepTime s.time dt k ∧ tend.sec ≤ (stepTime s.time dt k).sec ∧ s.time.sec ≤ tend.sec := by
  obtain ⟨fuel, h⟩ := h
  obtain ⟨hlt0, s1, he, hl⟩ := run_done h
  obtain ⟨l, ⟨k, hk1, hq⟩, rfl, rfl, hlt⟩ := loop_done (fun l => ∃ k, AtStep S M s dt tend k l ∧ Q k l)
    (by
      rintro l l' ⟨k, h1, h2⟩ hlt hb
      exact ⟨k + 1, h1.succ hc hk hlt hb, pres k l l' h1 h2 hb⟩) fuel _ sf saved
    ⟨0, AtStep.zero he, h0 s1 he⟩ hl
  have ht : l.state.time = stepTime s.time dt k := (pairAt_time hc k _ hk1.1).1
  refine ⟨k, l, hk1, hq, rfl, rfl, ht, ?_, ?_⟩
  · rw [ht, lt_sec (stepTime_sameKind hk dt k)] at hlt
    simpa using hlt
  · rw [lt_sec (SameKind.symm hk)] at hlt0
    simpa using hlt0

/-- C42: the final state is the one at time `t0 + n·dt` for the least `n ≥ 0` with `t0 + n·dt ≥ tend`. -/
theorem C42_final_time (s : St PyTime g) (dt : PyDelta) (tend : PyTime) (se : ℝ) (hc : s.time.Compatible dt)
    (hk : s.time.SameKind tend) (sf : St PyTime g) (saved : List (St PyTime g))
    (h : M.Returns S s dt tend se sf saved) :
    ∃ n : ℕ, sf.time.sec = s.time.sec + n * toSeconds dt ∧ tend.sec ≤ s.time.sec + n * toSeconds dt ∧
      ∀ m < n, s.time.sec + m * toSeconds dt < tend.sec := by
  obtain ⟨k, l, h1, _, _, _, h4, h5, _⟩ := run_atStep hc hk (fun _ _ => True) (fun _ _ => trivial)
    (fun _ _ _ _ _ _ => trivial) h
  refine ⟨k, ?_, ?_, ?_⟩
  · rw [h4, sec_stepTime hc]
  · rwa [sec_stepTime hc] at h5
  · intro m hm
    have := h1.2 m hm
    rwa [sec_stepTime hc] at this

theorem tendency_total (hM : M.Total) (s : St PyTime g) : ∃ t, M.tendency S s = .ok t := by
  unfold BModel.tendency
  cases h : M.rhs with
  | none => exact ⟨_, rfl⟩
  | some f =>
    obtain ⟨r, hr⟩ := hM f h s
    simp only [hr]; exact ⟨_, rfl⟩

theorem body_total (hM : M.Total) {s : St PyTime g} {dt : PyDelta} {tend : PyTime} {se : ℝ} {k : ℕ} {l : Loop g}
    (hc : s.time.Compatible dt) (hse : se ≤ 0 ∨ ∃ x, s.time = .num x) (h : AtStep S M s dt tend k l) :
    ∃ l', M.body S se l = .ok l' := by
  obtain ⟨h1, h2⟩ := pairAt_time hc k _ h.1
  dsimp only at h1 h2
  obtain ⟨tn, htn⟩ := tendency_total (S := S) hM l.stateNew
  have hsub : l.stateNew.time.sub l.state.time = .ok dt := by rw [h1, h2, stepTime_sub hc]
  have hadd : l.stateNew.time.add dt = .ok (stepTime s.time dt (k + 2)) := by rw [h2, stepTime_add hc]
  have hlf := leapfrog_ok_iff (S := S) (M := M) (old := l.state) (now := l.stateNew) (f := 2 / 10).mpr
    ⟨dt, tn, _, hsub, htn, hadd, rfl⟩
  by_cases hs : se ≤ 0
  · exact ⟨_, body_ok_iff.mpr ⟨_, hlf, .inl ⟨hs, rfl⟩⟩⟩
  · obtain ⟨x, hx⟩ := hse.resolve_left hs
    have hkind : (PyTime.SameKind l.stateNew.time (.num l.tSave)) := by
      rw [h2, hx]
      cases dt with
      | num d => trivial
      | timedelta d => rw [hx] at hc; exact absurd hc id
    have hge := ge_sec hkind
    cases hd : decide ((PyTime.num l.tSave).sec ≤ l.stateNew.time.sec) with
    | false => rw [hd] at hge; exact ⟨_, body_ok_iff.mpr ⟨_, hlf, .inr (.inl ⟨not_le.mp hs, hge, rfl⟩)⟩⟩
    | true => rw [hd] at hge; exact ⟨_, body_ok_iff.mpr ⟨_, hlf, .inr (.inr ⟨not_le.mp hs, hge, rfl⟩)⟩⟩

theorem loop_not_raised (hM : M.Total) {s : St PyTime g} {dt : PyDelta} {tend : PyTime} {se : ℝ}
    (hc : s.time.Compatible dt) (hk : s.time.SameKind tend) (hse : se ≤ 0 ∨ ∃ x, s.time = .num x) :
    ∀ (fuel k : ℕ) (l : Loop g), AtStep S M s dt tend k l →
      M.loop S tend se fuel l = .outOfFuel ∨ ∃ sf saved, M.loop S tend se fuel l = .done sf saved := by
  intro fuel
  induction fuel with
  | zero => intro k l _; exact .inl rfl
  | succ n ih =>
    intro k l hl
    have ht : l.state.time = stepTime s.time dt k := (pairAt_time hc k _ hl.1).1
    have hlt := lt_sec (stepTime_sameKind hk dt k)
    rw [← ht] at hlt
    unfold BModel.loop
    cases hd : decide (l.state.time.sec < tend.sec) with
    | false => rw [hd] at hlt; simp only [hlt]; exact .inr ⟨_, _, rfl⟩
    | true =>
      rw [hd] at hlt
      obtain ⟨l', hb⟩ := body_total hM hc hse hl
      simp only [hlt, hb]
      exact ih (k + 1) l' (hl.succ hc hk hlt hb)

/-- C42: if the forcing never raises, `run` returns for every end time not before the initial time, unless a positive
`save_every` is combined with datetimes (that combination is documented not to work and raises TypeError, see
`C45_save_every_datetime`). If `tend` lies before the initial time the initial state is returned unchanged. -/
theorem C42_returns (hM : M.Total) (s : St PyTime g) (dt : PyDelta) (tend : PyTime) (se : ℝ)
    (hc : s.time.Compatible dt) (hk : s.time.SameKind tend) (hd : 0 < toSeconds dt)
    (hse : se ≤ 0 ∨ ∃ x, s.time = .num x) (hle : s.time.sec ≤ tend.sec) :
    ∃ sf saved, M.Returns S s dt tend se sf saved := by
  obtain ⟨N, hN⟩ := C42_terminates (S := S) (M := M) s dt tend se hc hk hd
  have hne := (hN N le_rfl).2
  have hlt : tend.lt s.time = .ok false := by
    rw [lt_sec (SameKind.symm hk)]; simp [hle]
  obtain ⟨tn, htn⟩ := tendency_total (S := S) hM s
  have hadd := stepTime_add hc 0
  rw [stepTime_zero] at hadd
  obtain ⟨s1, he⟩ : ∃ s1, M.euler S s dt = .ok s1 := ⟨_, euler_ok_iff (S := S) (M := M).mpr ⟨tn, _, htn, hadd, rfl⟩⟩
  have hrun : M.run S s dt tend se N = M.loop S tend se N ⟨s, s1, [s], se⟩ := by
    unfold BModel.run; simp only [hlt, he]
  rcases loop_not_raised hM hc hk hse N 0 ⟨s, s1, [s], se⟩ (AtStep.zero he) with h | ⟨sf, saved, h⟩
  · exact absurd (hrun.trans h) hne
  · exact ⟨sf, saved, N, hrun.trans h⟩

/-- C42: end time before the initial time. -/
theorem C42_early (s : St PyTime g) (dt : PyDelta) (tend : PyTime) (se : ℝ) (hk : s.time.SameKind tend)
    (hlt : tend.sec < s.time.sec) (fuel : ℕ) : M.run S s dt tend se fuel = .early s [s] := by
  unfold BModel.run
  rw [lt_sec (SameKind.symm hk)]
  simp [hlt]

/-- Results are unique: two calls with the same arguments return the same. -/
theorem C42_deterministic (s : St PyTime g) (dt : PyDelta) (tend : PyTime) (se : ℝ) (sf sf' : St PyTime g)
    (saved saved' : List (St PyTime g)) (h : M.Returns S s dt tend se sf saved)
    (h' : M.Returns S s dt tend se sf' saved') : sf = sf' ∧ saved = saved' := by
  have mono : ∀ (f k : ℕ) (l : Loop g), M.loop S tend se f l ≠ .outOfFuel →
      M.loop S tend se (f + k) l = M.loop S tend se f l := by
    intro f
    induction f with
    | zero => intro k l h; exact absurd rfl h
    | succ f ih =>
      intro k l h
      rw [show f + 1 + k = (f + k) + 1 by ring]
      unfold BModel.loop at h ⊢
      cases h1 : l.state.time.lt tend with
      | error e => rfl
      | ok b =>
        cases b with
        | false => rfl
        | true =>
          simp only [h1] at h ⊢
          cases h2 : M.body S se l with
          | error e => rfl
          | ok l' =>
            simp only [h2] at h ⊢
            exact ih k l' h
  obtain ⟨f, hf⟩ := h
  obtain ⟨f', hf'⟩ := h'
  obtain ⟨_, s1, he, hl⟩ := run_done hf
  obtain ⟨_, s1', he', hl'⟩ := run_done hf'
  rw [he] at he'; cases he'
  have e1 := mono f f' _ (by rw [hl]; simp)
  have e2 := mono f' f _ (by rw [hl']; simp)
  rw [hl] at e1
  rw [hl', Nat.add_comm, e1] at e2
  cases e2
  exact ⟨rfl, rfl⟩

/-- Beyond C42: with a time step of zero or a negative one and an end time after the initial time, `run` never returns. -/
theorem C42_nonpositive_dt_diverges (hM : M.Total) (s : St PyTime g) (dt : PyDelta) (tend : PyTime) (se : ℝ)
    (hc : s.time.Compatible dt) (hk : s.time.SameKind tend) (hd : toSeconds dt ≤ 0)
    (hse : se ≤ 0 ∨ ∃ x, s.time = .num x) (hlt : s.time.sec < tend.sec) (fuel : ℕ) :
    M.run S s dt tend se fuel = .outOfFuel := by
  have hl : tend.lt s.time = .ok false := by
    rw [lt_sec (SameKind.symm hk)]; simp [hlt.le]
  obtain ⟨tn, htn⟩ := tendency_total (S := S) hM s
  have hadd := stepTime_add hc 0
  rw [stepTime_zero] at hadd
  obtain ⟨s1, he⟩ : ∃ s1, M.euler S s dt = .ok s1 := ⟨_, euler_ok_iff (S := S) (M := M).mpr ⟨tn, _, htn, hadd, rfl⟩⟩
  have hrun : M.run S s dt tend se fuel = M.loop S tend se fuel ⟨s, s1, [s], se⟩ := by
    unfold BModel.run; simp only [hl, he]
  rcases loop_not_raised hM hc hk hse fuel 0 ⟨s, s1, [s], se⟩ (AtStep.zero he) with h | ⟨sf, saved, h⟩
  · exact hrun.trans h
  · obtain ⟨n, h1, h2, _⟩ := C42_final_time s dt tend se hc hk sf saved ⟨fuel, hrun.trans h⟩
    have : (n : ℝ) * toSeconds dt ≤ 0 := mul_nonpos_of_nonneg_of_nonpos (Nat.cast_nonneg n) hd
    linarith

/-- Non-vacuity of C42: numeric and datetime arguments that satisfy the hypotheses, and a model that never raises. -/
example : PyTime.Compatible (.num 0) (.num 600) ∧ PyTime.SameKind (.num 0) (.num 3600) ∧ 0 < toSeconds (.num 600) ∧
    PyTime.Compatible (.datetime 0) (.timedelta 600) ∧ PyTime.SameKind (.datetime 0) (.datetime 3600) ∧
    (⟨none, 2, 1e15, none⟩ : BModel grid30).Total :=
  ⟨trivial, trivial, by norm_num [toSeconds], trivial, trivial, fun _ h => by cases h⟩

/-! ## C43 saved states -/

/-- C43: the saved states are states of the integration, beginning with the initial one, in strictly increasing time order,
none after the final one; nothing but the initial state is saved if `save_every ≤ 0`. -/
theorem C43_saved (s : St PyTime g) (dt : PyDelta) (tend : PyTime) (se : ℝ) (hc : s.time.Compatible dt)
    (hk : s.time.SameKind tend) (hd : 0 < toSeconds dt) (sf : St PyTime g) (saved : List (St PyTime g))
    (h : M.Returns S s dt tend se sf saved) :
    ∃ (n : ℕ) (x : ℕ → St PyTime g) (ks : List ℕ), saved = ks.map x ∧ sf = x n ∧ x 0 = s ∧
      (∀ k ≤ n, ∃ y, M.pairAt S s dt k = .ok (x k, y)) ∧
      (∃ tl, ks = 0 :: tl) ∧ ks.Pairwise (· < ·) ∧ (∀ k ∈ ks, k ≤ n) ∧
      (saved.map fun z => z.time.sec).Pairwise (· < ·) ∧ (se ≤ 0 → saved = [s]) := by
  classical
  -- states of the integration as a function of the step
  set x : ℕ → St PyTime g := fun k => match M.pairAt S s dt k with
    | .ok p => p.1
    | .error _ => s with hx
  have hxk : ∀ k p, M.pairAt S s dt k = .ok p → x k = p.1 := by
    intro k p hp; simp only [hx, hp]
  have hprev : ∀ k p, M.pairAt S s dt k = .ok p → ∀ j ≤ k, ∃ p, M.pairAt S s dt j = .ok p := by
    intro k
    induction k with
    | zero => intro p hp j hj; obtain rfl : j = 0 := by omega
              exact ⟨p, hp⟩
    | succ k ih =>
      intro p hp j hj
      rcases Nat.lt_or_eq_of_le hj with h | rfl
      · unfold BModel.pairAt at hp
        cases hq : M.pairAt S s dt k with
        | error e => simp [hq] at hp
        | ok q => exact ih q hq j (by omega)
      · exact ⟨p, hp⟩
  have hx0 : ∀ s1, M.euler S s dt = .ok s1 → x 0 = s := by
    intro s1 he
    exact hxk 0 (s, s1) (by unfold BModel.pairAt; rw [he]; rfl)
  obtain ⟨n, l, h1, ⟨⟨ks, hks1, hks2, hks3, hks4⟩, hzero, hse⟩, rfl, rfl, h4, _, _⟩ := run_atStep hc hk
    (fun k l => (∃ ks : List ℕ, l.states = ks.map x ∧ (∃ tl, ks = 0 :: tl) ∧ ks.Pairwise (· < ·) ∧ ∀ j ∈ ks, j ≤ k) ∧
      x 0 = s ∧ (se ≤ 0 → l.states = [s]))
    (by
      intro s1 he
      exact ⟨⟨[0], by simp [hx0 s1 he], ⟨[], rfl⟩, by simp, by simp⟩, hx0 s1 he, fun _ => rfl⟩)
    (by
      rintro k l l' hat ⟨⟨ks, hks1, ⟨tl, hks2⟩, hks3, hks4⟩, hz, hse⟩ hb
      have hat' : M.pairAt S s dt (k + 1) = .ok (l'.state, l'.stateNew) := by
        obtain ⟨p, hp, h3⟩ := body_ok_iff.mp hb
        unfold BModel.pairAt
        rw [hat.1]; dsimp only; rw [hp]
        rcases h3 with ⟨_, rfl⟩ | ⟨_, _, rfl⟩ | ⟨_, _, rfl⟩ <;> rfl
      obtain ⟨p, hp, h3⟩ := body_ok_iff.mp hb
      have keep : (∃ ks : List ℕ, l.states = ks.map x ∧ (∃ tl, ks = 0 :: tl) ∧ ks.Pairwise (· < ·) ∧ ∀ j ∈ ks, j ≤ k + 1) :=
        ⟨ks, hks1, ⟨tl, hks2⟩, hks3, fun j hj => (hks4 j hj).trans (by omega)⟩
      rcases h3 with ⟨hs, rfl⟩ | ⟨hs, _, rfl⟩ | ⟨hs, _, rfl⟩
      · exact ⟨keep, hz, hse⟩
      · exact ⟨keep, hz, fun h => absurd h (not_le.mpr hs)⟩
      · refine ⟨⟨ks ++ [k + 1], ?_, ⟨tl ++ [k + 1], by simp [hks2]⟩, ?_, ?_⟩, hz, fun h => absurd h (not_le.mpr hs)⟩
        · rw [List.map_append, ← hks1]
          congr 1
          simp [hxk _ _ hat']
        · rw [List.pairwise_append]
          refine ⟨hks3, by simp, ?_⟩
          intro a ha b hb
          rw [List.mem_singleton.mp hb]
          have := hks4 a ha; omega
        · intro j hj
          rcases List.mem_append.mp hj with hj | hj
          · exact (hks4 j hj).trans (by omega)
          · rw [List.mem_singleton.mp hj]) h
  have hxs : ∀ k ≤ n, ∃ y, M.pairAt S s dt k = .ok (x k, y) := by
    intro k hk'
    obtain ⟨p, hp⟩ := hprev n _ h1.1 k hk'
    exact ⟨p.2, by rw [hp, hxk k p hp]⟩
  refine ⟨n, x, ks, hks1, (hxk n _ h1.1).symm, hzero, hxs, hks2, hks3, hks4, ?_, hse⟩
  rw [hks1, List.map_map]
  refine List.Pairwise.map _ (R := fun a b => a < b ∧ a ≤ n ∧ b ≤ n) ?_ ?_
  · rintro a b ⟨hab, ha, hb⟩
    obtain ⟨_, hya⟩ := hxs a ha
    obtain ⟨_, hyb⟩ := hxs b hb
    have ta := (pairAt_time hc a _ hya).1
    have tb := (pairAt_time hc b _ hyb).1
    simp only [Function.comp] at ta tb ⊢
    rw [ta, tb, sec_stepTime hc, sec_stepTime hc]
    have : (a : ℝ) < b := by exact_mod_cast hab
    nlinarith
  · rw [List.pairwise_iff_getElem] at hks3 ⊢
    intro i j hi hj hij
    exact ⟨hks3 i j hi hj hij, hks4 _ (List.getElem_mem hi), hks4 _ (List.getElem_mem hj)⟩

/-- C43, the part that holds: for an initial time in `[0, save_every)` and `dt ≤ save_every`, exactly the initial state and,
for each positive multiple `m·save_every` that is reached, the first state at or after it are saved.
Missing: initial times outside of `[0, save_every)`, for which the statement is false (`C43_offset_refuted`). -/
theorem C43_exact_partial (s : St PyTime g) (t0 d te se : ℝ) (ht0 : s.time = .num t0) (hd : 0 < d) (hdse : d ≤ se)
    (h0 : 0 ≤ t0) (h1 : t0 < se) (sf : St PyTime g) (saved : List (St PyTime g))
    (h : M.Returns S s (.num d) (.num te) se sf saved) :
    ∃ (n : ℕ) (x : ℕ → St PyTime g) (ks : List ℕ), saved = ks.map x ∧ sf = x n ∧
      (∀ k ≤ n, ∃ y, M.pairAt S s (.num d) k = .ok (x k, y)) ∧ ks.Pairwise (· < ·) ∧
      ∀ k, k ∈ ks ↔ k ≤ n ∧ (k = 0 ∨ ∃ m : ℕ, 1 ≤ m ∧ (m : ℝ) * se ≤ t0 + k * d ∧ ∀ j < k, t0 + (j : ℝ) * d < m * se) := by
  classical
  have hc : s.time.Compatible (.num d) := by rw [ht0]; trivial
  have hk : s.time.SameKind (.num te) := by rw [ht0]; trivial
  have hse : 0 < se := hd.trans_le hdse
  set x : ℕ → St PyTime g := fun k => match M.pairAt S s (.num d) k with
    | .ok p => p.1
    | .error _ => s with hx
  have hxk : ∀ k p, M.pairAt S s (.num d) k = .ok p → x k = p.1 := by
    intro k p hp; simp only [hx, hp]
  have hprev : ∀ k p, M.pairAt S s (.num d) k = .ok p → ∀ j ≤ k, ∃ p, M.pairAt S s (.num d) j = .ok p := by
    intro k
    induction k with
    | zero => intro p hp j hj; obtain rfl : j = 0 := by omega
              exact ⟨p, hp⟩
    | succ k ih =>
      intro p hp j hj
      rcases Nat.lt_or_eq_of_le hj with h | rfl
      · unfold BModel.pairAt at hp
        cases hq : M.pairAt S s (.num d) k with
        | error e => simp [hq] at hp
        | ok q => exact ih q hq j (by omega)
      · exact ⟨p, hp⟩
  obtain ⟨n, l, h1, ⟨⟨ks, hks1, hks3, hks4⟩, _⟩, rfl, rfl, h4, _, _⟩ := run_atStep hc hk
    (fun k l => (∃ ks : List ℕ, l.states = ks.map x ∧ ks.Pairwise (· < ·) ∧
        ∀ j, j ∈ ks ↔ j ≤ k ∧ (j = 0 ∨ ∃ m : ℕ, 1 ≤ m ∧ (m : ℝ) * se ≤ t0 + j * d ∧ ∀ i < j, t0 + (i : ℝ) * d < m * se)) ∧
      ∃ m : ℕ, l.tSave = (m + 1 : ℕ) * se ∧ (m : ℝ) * se ≤ t0 + k * d ∧ t0 + k * d < (m + 1 : ℕ) * se)
    (by
      intro s1 he
      have hx0 : x 0 = s := hxk 0 (s, s1) (by unfold BModel.pairAt; rw [he]; rfl)
      refine ⟨⟨[0], by simp [hx0], by simp, ?_⟩, 0, by simp, by simp [h0], by simpa using h1⟩
      intro j
      simp only [List.mem_singleton]
      constructor
      · rintro rfl; exact ⟨le_rfl, .inl rfl⟩
      · rintro ⟨hj, _⟩; omega)
    (by
      rintro k l l' hat ⟨⟨ks, hks1, hks3, hks4⟩, m, hm1, hm2, hm3⟩ hb
      have hat' : M.pairAt S s (.num d) (k + 1) = .ok (l'.state, l'.stateNew) := by
        obtain ⟨p, hp, h3⟩ := body_ok_iff.mp hb
        unfold BModel.pairAt
        rw [hat.1]; dsimp only; rw [hp]
        rcases h3 with ⟨_, rfl⟩ | ⟨_, _, rfl⟩ | ⟨_, _, rfl⟩ <;> rfl
      have htime : l'.state.time = .num (t0 + (k + 1 : ℕ) * d) := by
        have := (pairAt_time hc (k + 1) _ hat').1
        dsimp only at this
        rw [this, ht0]; rfl
      obtain ⟨p, hp, h3⟩ := body_ok_iff.mp hb
      -- is step k+1 due?
      have hdue : (∃ m' : ℕ, 1 ≤ m' ∧ (m' : ℝ) * se ≤ t0 + (k + 1 : ℕ) * d ∧ ∀ i < k + 1, t0 + (i : ℝ) * d < m' * se) ↔
          l.tSave ≤ t0 + (k + 1 : ℕ) * d := by
        rw [hm1]
        constructor
        · rintro ⟨m', _, h2, h3⟩
          have hk' := h3 k (by omega)
          have : (m : ℝ) * se < m' * se := lt_of_le_of_lt hm2 hk'
          have hlt : (m : ℝ) < m' := lt_of_mul_lt_mul_right this hse.le
          have hle : ((m + 1 : ℕ) : ℝ) ≤ m' := by exact_mod_cast (by exact_mod_cast hlt : m < m')
          have := mul_le_mul_of_nonneg_right hle hse.le
          linarith
        · intro h
          refine ⟨m + 1, by omega, h, fun i hi => ?_⟩
          have : (i : ℝ) ≤ k := by exact_mod_cast (by omega : i ≤ k)
          have := mul_le_mul_of_nonneg_right this hd.le
          linarith
      have hstep : ((k + 1 : ℕ) : ℝ) * d = k * d + d := by push_cast; ring
      rcases h3 with ⟨hs, _⟩ | ⟨_, hge, hl'⟩ | ⟨_, hge, hl'⟩
      · exact absurd hs (not_le.mpr hse)
      · -- not saved
        have hp1 : p.1.time = .num (t0 + (k + 1 : ℕ) * d) := by rw [← htime, hl']
        have hnot : ¬ l.tSave ≤ t0 + (k + 1 : ℕ) * d := by
          rw [hp1] at hge
          simpa [PyTime.ge] using hge
        subst hl'
        refine ⟨⟨ks, hks1, hks3, ?_⟩, m, hm1, ?_, ?_⟩
        · intro j
          rw [hks4]
          constructor
          · rintro ⟨hj, h⟩; exact ⟨by omega, h⟩
          · rintro ⟨hj, h⟩
            rcases Nat.lt_or_eq_of_le hj with hj' | rfl
            · exact ⟨by omega, h⟩
            · rcases h with h | h
              · omega
              · exact absurd (hdue.mp h) hnot
        · rw [hstep]; linarith
        · rw [hm1] at hnot; exact not_le.mp hnot
      · -- saved
        have hp1 : p.1.time = .num (t0 + (k + 1 : ℕ) * d) := by rw [← htime, hl']
        have hyes : l.tSave ≤ t0 + (k + 1 : ℕ) * d := by
          rw [hp1] at hge
          simpa [PyTime.ge] using hge
        subst hl'
        refine ⟨⟨ks ++ [k + 1], ?_, ?_, ?_⟩, m + 1, ?_, ?_, ?_⟩
        · rw [List.map_append, ← hks1]
          congr 1
          simp [hxk _ _ hat']
        · rw [List.pairwise_append]
          refine ⟨hks3, by simp, ?_⟩
          intro a ha b hb
          rw [List.mem_singleton.mp hb]
          have := ((hks4 a).mp ha).1; omega
        · intro j
          rw [List.mem_append, hks4, List.mem_singleton]
          constructor
          · rintro (⟨hj, h⟩ | rfl)
            · exact ⟨by omega, h⟩
            · exact ⟨le_rfl, .inr (hdue.mpr hyes)⟩
          · rintro ⟨hj, h⟩
            rcases Nat.lt_or_eq_of_le hj with hj' | rfl
            · exact .inl ⟨by omega, h⟩
            · exact .inr rfl
        · dsimp only; rw [hm1]; push_cast; ring
        · rw [hm1] at hyes; exact hyes
        · rw [hstep]; push_cast at hm3 ⊢; linarith) h
  refine ⟨n, x, ks, hks1, (hxk n _ h1.1).symm, ?_, hks3, hks4⟩
  intro k hk'
  obtain ⟨p, hp⟩ := hprev n _ h1.1 k hk'
  exact ⟨p.2, by rw [hp, hxk k p hp]⟩

/-- Which steps are saved follows from an invariant `I k m` between the number of steps and the number of saved steps. -/
theorem saved_of_invariant (s : St PyTime g) (t0 d te se : ℝ) (ht0 : s.time = .num t0) (hse : 0 < se)
    (due : ℕ → Prop) (I : ℕ → ℕ → Prop) (hI0 : I 0 0)
    (hdue : ∀ k m, I k m → (due (k + 1) ↔ ((m + 1 : ℕ) : ℝ) * se ≤ t0 + (k + 1 : ℕ) * d))
    (hyes : ∀ k m, I k m → due (k + 1) → I (k + 1) (m + 1)) (hno : ∀ k m, I k m → ¬ due (k + 1) → I (k + 1) m)
    (sf : St PyTime g) (saved : List (St PyTime g)) (h : M.Returns S s (.num d) (.num te) se sf saved) :
    ∃ (n : ℕ) (x : ℕ → St PyTime g) (ks : List ℕ), saved = ks.map x ∧ sf = x n ∧
      (∀ k ≤ n, ∃ y, M.pairAt S s (.num d) k = .ok (x k, y)) ∧ ks.Pairwise (· < ·) ∧
      ∀ k, k ∈ ks ↔ k ≤ n ∧ (k = 0 ∨ due k) := by
  classical
  have hc : s.time.Compatible (.num d) := by rw [ht0]; trivial
  have hk : s.time.SameKind (.num te) := by rw [ht0]; trivial
  set x : ℕ → St PyTime g := fun k => match M.pairAt S s (.num d) k with
    | .ok p => p.1
    | .error _ => s with hx
  have hxk : ∀ k p, M.pairAt S s (.num d) k = .ok p → x k = p.1 := by
    intro k p hp; simp only [hx, hp]
  have hprev : ∀ k p, M.pairAt S s (.num d) k = .ok p → ∀ j ≤ k, ∃ p, M.pairAt S s (.num d) j = .ok p := by
    intro k
    induction k with
    | zero => intro p hp j hj; obtain rfl : j = 0 := by omega
              exact ⟨p, hp⟩
    | succ k ih =>
      intro p hp j hj
      rcases Nat.lt_or_eq_of_le hj with h | rfl
      · unfold BModel.pairAt at hp
        cases hq : M.pairAt S s (.num d) k with
        | error e => simp [hq] at hp
        | ok q => exact ih q hq j (by omega)
      · exact ⟨p, hp⟩
  obtain ⟨n, l, h1, ⟨⟨ks, hks1, hks3, hks4⟩, _⟩, rfl, rfl, h4, _, _⟩ := run_atStep hc hk
    (fun k l => (∃ ks : List ℕ, l.states = ks.map x ∧ ks.Pairwise (· < ·) ∧ ∀ j, j ∈ ks ↔ j ≤ k ∧ (j = 0 ∨ due j)) ∧
      ∃ m : ℕ, l.tSave = (m + 1 : ℕ) * se ∧ I k m)
    (by
      intro s1 he
      have hx0 : x 0 = s := hxk 0 (s, s1) (by unfold BModel.pairAt; rw [he]; rfl)
      refine ⟨⟨[0], by simp [hx0], by simp, ?_⟩, 0, by simp, hI0⟩
      intro j
      simp only [List.mem_singleton]
      constructor
      · rintro rfl; exact ⟨le_rfl, .inl rfl⟩
      · rintro ⟨hj, _⟩; omega)
    (by
      rintro k l l' hat ⟨⟨ks, hks1, hks3, hks4⟩, m, hm1, hm2⟩ hb
      have hat' : M.pairAt S s (.num d) (k + 1) = .ok (l'.state, l'.stateNew) := by
        obtain ⟨p, hp, h3⟩ := body_ok_iff.mp hb
        unfold BModel.pairAt
        rw [hat.1]; dsimp only; rw [hp]
        rcases h3 with ⟨_, rfl⟩ | ⟨_, _, rfl⟩ | ⟨_, _, rfl⟩ <;> rfl
      have htime : l'.state.time = .num (t0 + (k + 1 : ℕ) * d) := by
        have := (pairAt_time hc (k + 1) _ hat').1
        dsimp only at this
        rw [this, ht0]; rfl
      obtain ⟨p, hp, h3⟩ := body_ok_iff.mp hb
      have hdk := hdue k m hm2
      rw [← hm1] at hdk
      rcases h3 with ⟨hs, _⟩ | ⟨_, hge, hl'⟩ | ⟨_, hge, hl'⟩
      · exact absurd hs (not_le.mpr hse)
      · -- not saved
        have hp1 : p.1.time = .num (t0 + (k + 1 : ℕ) * d) := by rw [← htime, hl']
        have hnot : ¬ l.tSave ≤ t0 + (k + 1 : ℕ) * d := by
          rw [hp1] at hge
          simpa [PyTime.ge] using hge
        rw [← hdk] at hnot
        subst hl'
        refine ⟨⟨ks, hks1, hks3, ?_⟩, m, hm1, hno k m hm2 hnot⟩
        intro j
        rw [hks4]
        constructor
        · rintro ⟨hj, h⟩; exact ⟨by omega, h⟩
        · rintro ⟨hj, h⟩
          rcases Nat.lt_or_eq_of_le hj with hj' | rfl
          · exact ⟨by omega, h⟩
          · rcases h with h | h
            · omega
            · exact absurd h hnot
      · -- saved
        have hp1 : p.1.time = .num (t0 + (k + 1 : ℕ) * d) := by rw [← htime, hl']
        have hd' : l.tSave ≤ t0 + (k + 1 : ℕ) * d := by
          rw [hp1] at hge
          simpa [PyTime.ge] using hge
        rw [← hdk] at hd'
        subst hl'
        refine ⟨⟨ks ++ [k + 1], ?_, ?_, ?_⟩, m + 1, ?_, hyes k m hm2 hd'⟩
        · rw [List.map_append, ← hks1]
          congr 1
          simp [hxk _ _ hat']
        · rw [List.pairwise_append]
          refine ⟨hks3, by simp, ?_⟩
          intro a ha b hb
          rw [List.mem_singleton.mp hb]
          have := ((hks4 a).mp ha).1; omega
        · intro j
          rw [List.mem_append, hks4, List.mem_singleton]
          constructor
          · rintro (⟨hj, h⟩ | rfl)
            · exact ⟨by omega, h⟩
            · exact ⟨le_rfl, .inr hd'⟩
          · rintro ⟨hj, h⟩
            rcases Nat.lt_or_eq_of_le hj with hj' | rfl
            · exact .inl ⟨by omega, h⟩
            · exact .inr rfl
        · dsimp only; rw [hm1]; push_cast; ring) h
  refine ⟨n, x, ks, hks1, (hxk n _ h1.1).symm, ?_, hks3, hks4⟩
  intro k hk'
  obtain ⟨p, hp⟩ := hprev n _ h1.1 k hk'
  exact ⟨p.2, by rw [hp, hxk k p hp]⟩

/-- C43, all that is saved for time steps up to `save_every` and any initial time: the initial state, the first state at or after
each positive multiple of `save_every`, and every state as long as the multiples of `save_every` lag behind, i.e. step `k` if
`k·save_every` does not exceed its time. The latter should not be there (`C43_offset_refuted`). -/
theorem C43_small_steps (s : St PyTime g) (t0 d te se : ℝ) (ht0 : s.time = .num t0) (hd : 0 < d) (hdse : d ≤ se)
    (sf : St PyTime g) (saved : List (St PyTime g)) (h : M.Returns S s (.num d) (.num te) se sf saved) :
    ∃ (n : ℕ) (x : ℕ → St PyTime g) (ks : List ℕ), saved = ks.map x ∧ sf = x n ∧
      (∀ k ≤ n, ∃ y, M.pairAt S s (.num d) k = .ok (x k, y)) ∧ ks.Pairwise (· < ·) ∧
      ∀ k, k ∈ ks ↔ k ≤ n ∧ (k = 0 ∨ k * se ≤ t0 + k * d ∨
        ∃ m : ℕ, 1 ≤ m ∧ (m : ℝ) * se ≤ t0 + k * d ∧ t0 + ((k : ℝ) - 1) * d < m * se) := by
  have hse : 0 < se := hd.trans_le hdse
  refine saved_of_invariant s t0 d te se ht0 hse _
    (fun k m => m ≤ k ∧ (m = 0 ∨ (m : ℝ) * se ≤ t0 + k * d) ∧ (m = k ∨ t0 + k * d < (m + 1) * se)) (by simp) ?_ ?_ ?_ sf saved h
  · rintro k m ⟨h1, h2, h3⟩
    push_cast
    constructor
    · rintro (h | ⟨m', hm', h, h'⟩)
      · have : (m : ℝ) ≤ k := by exact_mod_cast h1
        have := mul_le_mul_of_nonneg_right this hse.le
        linarith
      · have : m + 1 ≤ m' := by
          rcases h2 with rfl | h2
          · omega
          · have : (m : ℝ) * se < m' * se := by linarith
            exact_mod_cast lt_of_mul_lt_mul_right this hse.le
        have : (m : ℝ) + 1 ≤ m' := by exact_mod_cast this
        have := mul_le_mul_of_nonneg_right this hse.le
        linarith
    · intro h
      rcases h3 with rfl | h3
      · exact .inl h
      · exact .inr ⟨m + 1, by omega, by push_cast; linarith, by push_cast; linarith⟩
  · rintro k m ⟨h1, h2, h3⟩ hdue
    have hdue' : ((m : ℝ) + 1) * se ≤ t0 + (k + 1) * d := by
      rcases hdue with h | ⟨m', hm', h, h'⟩
      · have : (m : ℝ) ≤ k := by exact_mod_cast h1
        have := mul_le_mul_of_nonneg_right this hse.le
        push_cast at h
        linarith
      · have : m + 1 ≤ m' := by
          rcases h2 with rfl | h2
          · omega
          · push_cast at h'
            have : (m : ℝ) * se < m' * se := by linarith
            exact_mod_cast lt_of_mul_lt_mul_right this hse.le
        have : (m : ℝ) + 1 ≤ m' := by exact_mod_cast this
        have := mul_le_mul_of_nonneg_right this hse.le
        push_cast at h
        linarith
    refine ⟨by omega, .inr (by push_cast; exact hdue'), ?_⟩
    rcases h3 with rfl | h3
    · exact .inl rfl
    · right; push_cast; linarith
  · rintro k m ⟨h1, h2, h3⟩ hdue
    refine ⟨by omega, h2.imp_right fun h2 => by push_cast; linarith, .inr ?_⟩
    by_contra hcon
    push_cast at hcon
    rw [not_lt] at hcon
    refine hdue ?_
    push_cast
    rcases h3 with rfl | h3
    · exact .inl hcon
    · exact .inr ⟨m + 1, by omega, by push_cast; linarith, by push_cast; linarith⟩

/-- C43, all that is saved for time steps of at least `save_every`: the initial state and every state at or after `save_every`. -/
theorem C43_large_steps (s : St PyTime g) (t0 d te se : ℝ) (ht0 : s.time = .num t0) (hse : 0 < se) (hdse : se ≤ d)
    (sf : St PyTime g) (saved : List (St PyTime g)) (h : M.Returns S s (.num d) (.num te) se sf saved) :
    ∃ (n : ℕ) (x : ℕ → St PyTime g) (ks : List ℕ), saved = ks.map x ∧ sf = x n ∧
      (∀ k ≤ n, ∃ y, M.pairAt S s (.num d) k = .ok (x k, y)) ∧ ks.Pairwise (· < ·) ∧
      ∀ k, k ∈ ks ↔ k ≤ n ∧ (k = 0 ∨ se ≤ t0 + k * d) := by
  have hy : ∀ k m : ℕ, (m = 0 ∨ (m : ℝ) * se ≤ t0 + k * d) → se ≤ t0 + (k + 1 : ℕ) * d → ((m + 1 : ℕ) : ℝ) * se ≤ t0 + (k + 1 : ℕ) * d := by
    rintro k m (rfl | h2) h
    · simpa using h
    · push_cast; linarith
  refine saved_of_invariant s t0 d te se ht0 hse _ (fun k m => m = 0 ∨ (m : ℝ) * se ≤ t0 + k * d) (.inl rfl) ?_ ?_ ?_ sf saved h
  · intro k m h2
    refine ⟨hy k m h2, fun h => ?_⟩
    push_cast at h ⊢
    nlinarith [show (0 : ℝ) ≤ m by positivity]
  · intro k m h2 h
    exact .inr (hy k m h2 h)
  · intro k m h2 h
    exact h2.imp_right fun h2 => by push_cast; linarith

/-- C43 is false for initial times beyond `save_every`: a run from t = 10 with dt = 1 and save_every = 5 saves the state at
t = 11, which is not the first one at or after a multiple of 5 (neither 5·m nor 10 + 5·m, m ≥ 1). -/
theorem C43_offset_refuted (hM : M.Total) (s : St PyTime g) (hs : s.time = .num 10) :
    ∃ sf saved, M.Returns S s (.num 1) (.num 20) 5 sf saved ∧ (∃ x ∈ saved, x.time = .num 11) ∧
      ¬ ∃ m : ℕ, (10 : ℝ) < m * 5 ∧ (m : ℝ) * 5 ≤ 11 := by
  have hc : s.time.Compatible (.num 1) := by rw [hs]; trivial
  have hk : s.time.SameKind (.num 20) := by rw [hs]; trivial
  obtain ⟨sf, saved, h⟩ := C42_returns (S := S) hM s (.num 1) (.num 20) 5 hc hk (by norm_num [toSeconds])
    (.inr ⟨10, hs⟩) (by rw [hs]; norm_num [PyTime.sec])
  refine ⟨sf, saved, h, ?_, ?_⟩
  · obtain ⟨n, l, h1, hq, rfl, rfl, h4, h5, _⟩ := run_atStep hc hk
      (fun k l => (k = 0 ∧ l.tSave = 5) ∨ (1 ≤ k ∧ ∃ x ∈ l.states, x.time = .num 11))
      (fun s1 _ => .inl ⟨rfl, rfl⟩)
      (by
        rintro k l l' hat hq hb
        right
        refine ⟨by omega, ?_⟩
        obtain ⟨p, hp, h3⟩ := body_ok_iff.mp hb
        rcases hq with ⟨rfl, hts⟩ | ⟨_, x, hx, hx'⟩
        · have hat' : M.pairAt S s (.num 1) 1 = .ok p := by
            unfold BModel.pairAt
            rw [hat.1]; exact hp
          have ht := (pairAt_time hc 1 _ hat').1
          have ht : p.1.time = .num 11 := by rw [ht, hs]; simp [stepTime]; norm_num
          have hge : p.1.time.ge (.num l.tSave) = .ok true := by
            rw [ht, hts]; simp [PyTime.ge]; norm_num
          rcases h3 with ⟨hs, _⟩ | ⟨_, hge', _⟩ | ⟨_, _, rfl⟩
          · norm_num at hs
          · rw [hge] at hge'; cases hge'
          · exact ⟨p.1, by simp, ht⟩
        · rcases h3 with ⟨_, rfl⟩ | ⟨_, _, rfl⟩ | ⟨_, _, rfl⟩
          · exact ⟨x, hx, hx'⟩
          · exact ⟨x, hx, hx'⟩
          · exact ⟨x, List.mem_append_left _ hx, hx'⟩) h
    rcases hq with ⟨rfl, _⟩ | ⟨_, hx⟩
    · rw [stepTime_zero, hs] at h5
      norm_num [PyTime.sec] at h5
    · exact hx
  · rintro ⟨m, h1, h2⟩
    have : (m : ℝ) < 3 := by linarith
    have h3 : m < 3 := by exact_mod_cast this
    have : (2 : ℝ) < m := by linarith
    have h4 : 2 < m := by exact_mod_cast this
    omega

/-- Non-vacuity of C43: parameters that satisfy the hypotheses of `C43_exact_partial`. -/
example : (0 : ℝ) < 600 ∧ (600 : ℝ) ≤ 3600 ∧ (0 : ℝ) ≤ 1800 ∧ (1800 : ℝ) < 3600 := by norm_num

/-- Non-vacuity of `C43_small_steps` and `C43_large_steps`: such runs return. -/
example (hM : M.Total) (s : St PyTime g) (t0 d : ℝ) (hs : s.time = .num t0) (hd : 0 < d) (se : ℝ) :
    ∃ sf saved, M.Returns S s (.num d) (.num (t0 + 10)) se sf saved :=
  C42_returns (S := S) hM s (.num d) (.num (t0 + 10)) se (by rw [hs]; trivial) (by rw [hs]; trivial) hd (.inr ⟨t0, hs⟩)
    (by rw [hs]; norm_num [PyTime.sec])

/-! ## C44 time steps -/

/-- C44: the states visited by a run are exactly `dt` apart. -/
theorem C44_times (s : St PyTime g) (dt : PyDelta) (hc : s.time.Compatible dt) (k : ℕ) (p : St PyTime g × St PyTime g)
    (hp : M.pairAt S s dt k = .ok p) :
    p.1.time = stepTime s.time dt k ∧ p.2.time = stepTime s.time dt (k + 1) ∧
    p.1.time.sec = s.time.sec + k * toSeconds dt ∧ p.1.time.add dt = .ok p.2.time ∧
    p.2.time.sub p.1.time = .ok dt := by
  obtain ⟨h1, h2⟩ := pairAt_time hc k p hp
  refine ⟨h1, h2, ?_, ?_, ?_⟩
  · rw [h1, sec_stepTime hc]
  · rw [h1, h2, stepTime_add hc]
  · rw [h1, h2, stepTime_sub hc]

/-- C44: the single-step methods: `euler` advances by `dt`; `leapfrog` advances by the difference of its inputs and keeps
the time of the current state. -/
theorem C44_steps (s old now : St PyTime g) (dt : PyDelta) (f : ℝ) :
    (∀ s1, M.euler S s dt = .ok s1 → s.time.add dt = .ok s1.time) ∧
    (∀ p, M.leapfrog S old now f = .ok p → p.1.time = now.time ∧
      ∃ d, now.time.sub old.time = .ok d ∧ now.time.add d = .ok p.2.time) := by
  constructor
  · intro s1 h
    obtain ⟨_, t, _, ht, rfl⟩ := euler_ok_iff.mp h
    exact ht
  · intro p h
    obtain ⟨d, _, t, hd, _, ht, rfl⟩ := leapfrog_ok_iff.mp h
    exact ⟨rfl, d, hd, ht⟩

/-! ## C45 numeric and datetime axes -/

/-- The numeric time (seconds) of a time. -/
noncomputable def PyTime.toNum (t : PyTime) : PyTime := .num t.sec

/-- A state with its time converted to seconds. -/
noncomputable def St.toNum (s : St PyTime g) : St PyTime g := ⟨s.time.toNum, s.q⟩

/-- Outcome with all times converted to seconds. -/
noncomputable def BModel.Outcome.toNum : Outcome g → Outcome g
  | .outOfFuel => .outOfFuel
  | .raised e => .raised e
  | .early s l => .early s.toNum (l.map St.toNum)
  | .done s l => .done s.toNum (l.map St.toNum)

theorem add_toNum {t : PyTime} {dt : PyDelta} (h : t.Compatible dt) :
    ∃ t', t.add dt = .ok t' ∧ t.toNum.add (.num (toSeconds dt)) = .ok t'.toNum ∧ t'.SameKind t := by
  cases t with
  | num a => cases dt with
    | num d => exact ⟨_, rfl, rfl, trivial⟩
    | timedelta d => exact absurd h id
  | datetime a => cases dt with
    | num d => exact absurd h id
    | timedelta d =>
      refine ⟨_, rfl, ?_, trivial⟩
      simp only [PyTime.toNum, PyTime.add, PyTime.sec, toSeconds]
      congr 2
      push_cast; ring

theorem sub_toNum {a b : PyTime} (h : a.SameKind b) :
    ∃ d, a.sub b = .ok d ∧ a.toNum.sub b.toNum = .ok (.num (toSeconds d)) ∧ a.Compatible d := by
  cases a with
  | num x => cases b with
    | num y => exact ⟨_, rfl, rfl, trivial⟩
    | datetime y => exact absurd h id
  | datetime x => cases b with
    | num y => exact absurd h id
    | datetime y =>
      refine ⟨_, rfl, ?_, trivial⟩
      simp only [PyTime.toNum, PyTime.sub, PyTime.sec, toSeconds]
      congr 2
      push_cast; ring

/-- Two models that differ only in that the forcing of the second one expects numeric times. -/
structure NumModel (M M' : BModel g) : Prop where
  order : M'.diffusionOrder = M.diffusionOrder
  coeff : M'.diffusionCoeff = M.diffusionCoeff
  bg : M'.diffusionBg = M.diffusionBg
  rhs_none : M.rhs = none → M'.rhs = none
  rhs_some : ∀ f, M.rhs = some f → ∃ f', M'.rhs = some f' ∧ ∀ s : St PyTime g, f' s.toNum = f s

variable {M' : BModel g}

theorem NumModel.tendency (h : NumModel M M') (s : St PyTime g) : M'.tendency S s.toNum = M.tendency S s := by
  unfold BModel.tendency
  cases hr : M.rhs with
  | none => rw [h.rhs_none hr]; rfl
  | some f =>
    obtain ⟨f', hf', he⟩ := h.rhs_some f hr
    rw [hf']; simp only [he]; rfl

theorem NumModel.diffusion (h : NumModel M M') (dt : ℝ) (q : g.Spc) :
    M'.applyDiffusion S dt q = M.applyDiffusion S dt q := by
  unfold BModel.applyDiffusion; rw [h.order, h.coeff, h.bg]

theorem euler_toNum (h : NumModel M M') {s : St PyTime g} {dt : PyDelta} (hc : s.time.Compatible dt) :
    M'.euler S s.toNum (.num (toSeconds dt)) = (M.euler S s dt).map St.toNum := by
  obtain ⟨t', h1, h2, _⟩ := add_toNum hc
  unfold BModel.euler
  rw [h.tendency]
  cases M.tendency S s with
  | error e => rfl
  | ok tn =>
    simp only [Bind.bind, Except.bind, h1]
    rw [show (St.toNum s).time.add _ = _ from h2]
    simp only [pure, Except.pure, Except.map, St.toNum, h.diffusion, toSeconds]

theorem leapfrog_toNum (h : NumModel M M') {a b : St PyTime g} (hk : b.time.SameKind a.time) (f : ℝ) :
    M'.leapfrog S a.toNum b.toNum f = (M.leapfrog S a b f).map fun p => (p.1.toNum, p.2.toNum) := by
  obtain ⟨d, h1, h2, h3⟩ := sub_toNum hk
  obtain ⟨t', h4, h5, _⟩ := add_toNum h3
  unfold BModel.leapfrog
  rw [h.tendency, h1, show (St.toNum b).time.sub (St.toNum a).time = _ from h2]
  simp only [Bind.bind, Except.bind]
  cases M.tendency S b with
  | error e => rfl
  | ok tn =>
    simp only [h4]
    rw [show (St.toNum b).time.add _ = _ from h5]
    simp only [pure, Except.pure, Except.map, St.toNum, h.diffusion, toSeconds]

theorem loop_toNum (h : NumModel M M') {tend : PyTime} {se : ℝ} (hse : se ≤ 0) :
    ∀ (fuel : ℕ) (l : Loop g), l.state.time.SameKind tend → l.stateNew.time.SameKind l.state.time →
      M'.loop S tend.toNum se fuel ⟨l.state.toNum, l.stateNew.toNum, l.states.map St.toNum, l.tSave⟩ =
        (M.loop S tend se fuel l).toNum := by
  intro fuel
  induction fuel with
  | zero => intro l _ _; rfl
  | succ n ih =>
    intro l h1 h2
    unfold BModel.loop
    rw [lt_sec h1]
    have e1 : l.state.toNum.time.lt tend.toNum = .ok (decide (l.state.time.sec < tend.sec)) := rfl
    dsimp only
    rw [e1]
    cases decide (l.state.time.sec < tend.sec) with
    | false => rfl
    | true =>
      dsimp only
      have hlf := leapfrog_toNum (S := S) h h2 (2 / 10)
      cases hb : M.leapfrog S l.state l.stateNew (2 / 10) with
      | error e =>
        rw [hb] at hlf
        have b1 : M.body S se l = .error e := by unfold BModel.body; rw [hb]; rfl
        have b2 : M'.body S se ⟨l.state.toNum, l.stateNew.toNum, l.states.map St.toNum, l.tSave⟩ = .error e := by
          unfold BModel.body; dsimp only; rw [hlf]; rfl
        rw [b1, b2]; rfl
      | ok p =>
        rw [hb] at hlf
        have b1 : M.body S se l = .ok ⟨p.1, p.2, l.states, l.tSave⟩ :=
          body_ok_iff.mpr ⟨p, hb, .inl ⟨hse, rfl⟩⟩
        have b2 : M'.body S se ⟨l.state.toNum, l.stateNew.toNum, l.states.map St.toNum, l.tSave⟩ =
            .ok ⟨p.1.toNum, p.2.toNum, l.states.map St.toNum, l.tSave⟩ :=
          body_ok_iff.mpr ⟨_, hlf, .inl ⟨hse, rfl⟩⟩
        rw [b1, b2]
        dsimp only
        obtain ⟨d, _, t, hd, _, ht, rfl⟩ := leapfrog_ok_iff.mp hb
        refine ih ⟨_, _, l.states, l.tSave⟩ ?_ ?_
        · dsimp only
          generalize l.state.time = x at *
          generalize l.stateNew.time = y at *
          cases x <;> cases y <;> cases tend <;> simp_all [PyTime.SameKind]
        · dsimp only
          generalize l.stateNew.time = y at *
          cases y <;> cases d <;> simp_all [PyTime.add, PyTime.SameKind] <;> subst ht <;> trivial

/-- C45: running with datetimes and a timedelta gives the same fields, in the same order, as running with times in seconds
and a numeric step; also exceptions (of the forcing) are the same. `save_every` must be off, as documented. -/
theorem C45_interchangeable (h : NumModel M M') (s : St PyTime g) (dt : PyDelta) (tend : PyTime) (se : ℝ) (hse : se ≤ 0)
    (hc : s.time.Compatible dt) (hk : s.time.SameKind tend) (fuel : ℕ) :
    M'.run S s.toNum (.num (toSeconds dt)) tend.toNum se fuel = (M.run S s dt tend se fuel).toNum := by
  unfold BModel.run
  rw [lt_sec (SameKind.symm hk)]
  have e1 : tend.toNum.lt s.toNum.time = .ok (decide (tend.sec < s.time.sec)) := rfl
  rw [e1]
  cases decide (tend.sec < s.time.sec) with
  | true => rfl
  | false =>
    dsimp only
    rw [euler_toNum h hc]
    cases he : M.euler S s dt with
    | error e => rfl
    | ok s1 =>
      obtain ⟨_, t, _, ht, rfl⟩ := euler_ok_iff.mp he
      refine loop_toNum h hse fuel ⟨s, _, [s], se⟩ hk ?_
      obtain ⟨t', h1, _, h3⟩ := add_toNum hc
      rw [ht] at h1; cases h1
      exact h3

/-- C45: an unforced model is its own numeric counterpart (so the theorem applies to it with M' = M). -/
theorem C45_unforced (h : M.rhs = none) : NumModel M M :=
  ⟨rfl, rfl, rfl, fun h => h, fun f hf => by rw [h] at hf; cases hf⟩

/-- C45: mixing the axes raises TypeError: an end time of the other kind always, a step of the other kind as soon as a step
is made (a forcing that raises does so before). -/
theorem C45_mixed (s : St PyTime g) (dt : PyDelta) (tend : PyTime) (se : ℝ) (fuel : ℕ) :
    (¬ s.time.SameKind tend → M.run S s dt tend se fuel = .raised .typeError) ∧
    (M.Total → s.time.SameKind tend → ¬ s.time.Compatible dt → s.time.sec ≤ tend.sec →
      M.run S s dt tend se fuel = .raised .typeError) := by
  constructor
  · intro hk
    have : ¬ tend.SameKind s.time := fun h => hk (SameKind.symm h)
    unfold BModel.run
    rw [lt_error this]
  · intro hM hk hc hle
    have hadd : s.time.add dt = .error .typeError := by
      generalize s.time = t at *
      cases t <;> cases dt <;> simp_all [PyTime.Compatible, PyTime.add]
    have he : M.euler S s dt = .error .typeError := by
      obtain ⟨tn, htn⟩ := tendency_total (S := S) hM s
      unfold BModel.euler
      rw [htn]
      simp only [Bind.bind, Except.bind, hadd]
    unfold BModel.run
    rw [lt_sec (SameKind.symm hk), decide_eq_false (not_lt.mpr hle), he]

/-- C45: a positive `save_every` with datetimes raises TypeError when the first comparison is made. -/
theorem C45_save_every_datetime (hM : M.Total) (s : St PyTime g) (t0 d te : ℤ) (hs : s.time = .datetime t0) (se : ℝ)
    (hse : 0 < se) (hlt : t0 < te) (fuel : ℕ) :
    M.run S s (.timedelta d) (.datetime te) se (fuel + 1) = .raised .typeError := by
  have hc : s.time.Compatible (.timedelta d) := by rw [hs]; trivial
  have hk : s.time.SameKind (.datetime te) := by rw [hs]; trivial
  obtain ⟨tn, htn⟩ := tendency_total (S := S) hM s
  have hadd := stepTime_add hc 0
  rw [stepTime_zero] at hadd
  have he := euler_ok_iff (S := S) (M := M).mpr ⟨tn, _, htn, hadd, rfl⟩
  have h1 : (PyTime.datetime te).lt s.time = .ok false := by
    rw [hs]; simp [PyTime.lt, hlt.le]
  have h2 : s.time.lt (PyTime.datetime te) = .ok true := by
    rw [hs]; simp [PyTime.lt, hlt]
  unfold BModel.run BModel.loop
  simp only [h1, he, h2]
  generalize hs1 : (⟨stepTime s.time (.timedelta d) (0 + 1), _⟩ : St PyTime g) = s1
  have hs1t : s1.time = stepTime s.time (.timedelta d) 1 := by rw [← hs1]
  obtain ⟨tn', htn'⟩ := tendency_total (S := S) hM s1
  have hsub : s1.time.sub s.time = .ok (.timedelta d) := by
    have := stepTime_sub hc 0
    rwa [stepTime_zero, zero_add, ← hs1t] at this
  have hadd' : s1.time.add (.timedelta d) = .ok (stepTime s.time (.timedelta d) 2) := by
    rw [hs1t]; exact stepTime_add hc 1
  have hlf := leapfrog_ok_iff (S := S) (M := M) (old := s) (now := s1) (f := 2 / 10).mpr ⟨_, tn', _, hsub, htn', hadd', rfl⟩
  have hge : s1.time.ge (.num se) = .error .typeError := by
    rw [hs1t, hs]; rfl
  have hb : M.body S se ⟨s, s1, [s], se⟩ = .error .typeError := by
    unfold BModel.body
    rw [hlf]
    simp only [Bind.bind, Except.bind]
    rw [if_pos hse, hge]
  rw [hb]

end Barotropic
