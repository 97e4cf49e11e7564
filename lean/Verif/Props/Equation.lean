import Verif.Spec.Equation
import Verif.Props.Run
import Verif.Lemmas.Spectral
import Verif.Lemmas.SpharmWave
import Verif.Model.Init

/-!
# The equation that is solved: C100
-/

namespace Barotropic
open BModel

variable {g : Grid ℝ} {S : g.Sph} {M : BModel g}

theorem tendency_iff (hS : S.IsLinear) (s : St PyTime g) (t : g.Spc) :
    M.tendency S s = .ok t ↔ ∃ F, M.Forced s F ∧ t = pvBudget S (s.pv S) (s.u S) (s.v S) F := by
  have h0 : S.grdtospec 0 = 0 := by
    have := hS.grdtospec_smul 0 0
    rwa [zero_smul, zero_smul] at this
  have hflux : ∀ k, (S.getvrtdivspec (fun j i => s.pv S j i * s.u S j i) (fun j i => s.pv S j i * s.v S j i)).2 k =
      s.pvFluxSpectral S k := fun _ => rfl
  unfold BModel.tendency BModel.Forced
  cases M.rhs with
  | none =>
    constructor
    · intro h
      refine ⟨0, .inl ⟨rfl, rfl⟩, ?_⟩
      injection h with h
      rw [← h]
      funext k
      unfold pvBudget
      rw [h0, hflux]
      simp
    · rintro ⟨F, ⟨-, rfl⟩ | ⟨f, hf, -⟩, rfl⟩
      · refine congrArg Except.ok ?_
        funext k
        unfold pvBudget
        rw [h0, hflux]
        simp
      · cases hf
  | some f =>
    have e : ∀ r, -s.pvFluxSpectral S + Grid.toSpectral S r = pvBudget S (s.pv S) (s.u S) (s.v S) r := by
      intro r
      funext k
      unfold pvBudget
      rw [hflux]
      change -_ + S.grdtospec r k = _
      ring
    dsimp only
    constructor
    · intro h
      cases hf : f s with
      | error e => rw [hf] at h; cases h
      | ok r =>
        rw [hf] at h
        injection h with h
        exact ⟨r, .inr ⟨f, rfl, hf⟩, by rw [← h, e]⟩
    · rintro ⟨F, ⟨hf, -⟩ | ⟨f', hf, hF⟩, rfl⟩
      · cases hf
      · cases hf
        rw [hF]
        exact congrArg Except.ok (e F)

theorem implicit_iff (hν : 0 ≤ M.diffusionCoeff) {τ : ℝ} (hτ : 0 ≤ τ) (old rate new : g.Spc) :
    new = M.applyDiffusion S τ (old + (τ : ℂ) • rate) ↔ M.ImplicitStep S τ old rate new := by
  have key : ∀ k, M.applyDiffusion S τ (old + (τ : ℂ) • rate) k =
      (old k + τ * rate k - M.background S k) / (1 + τ * M.diffusionCoeff * ((specN k : ℂ) * (specN k + 1) / (g.rsphere : ℂ) ^ 2) ^ M.diffusionOrder) +
        M.background S k := by
    intro k
    unfold BModel.applyDiffusion BModel.background
    cases M.diffusionBg with
    | none =>
      simp only [Grid.diffusion_eq_degMul, degMul, Pi.add_apply, Pi.smul_apply, smul_eq_mul, Pi.zero_apply, sub_zero, add_zero]
      push_cast
      ring
    | some b =>
      simp only [Grid.diffusion_eq_degMul, degMul, Pi.add_apply, Pi.sub_apply, Pi.smul_apply, smul_eq_mul, Grid.toSpectral]
      push_cast
      ring
  have hne : ∀ n : ℕ, (1 + (τ : ℂ) * M.diffusionCoeff * ((n : ℂ) * (n + 1) / (g.rsphere : ℂ) ^ 2) ^ M.diffusionOrder) ≠ 0 := by
    intro n
    have : (0 : ℝ) < 1 + τ * M.diffusionCoeff * ((n : ℝ) * (n + 1) / g.rsphere ^ 2) ^ M.diffusionOrder := by positivity
    exact_mod_cast this.ne'
  unfold BModel.ImplicitStep
  rw [funext_iff]
  refine forall_congr' fun k => ?_
  rw [key, ← sub_eq_iff_eq_add, eq_div_iff (hne _)]
  constructor
  · intro h
    linear_combination h
  · intro h
    linear_combination h

/-- C100: an Euler step solves the barotropic PV equation, discretised with a forward step for advection and forcing and a backward
step for diffusion, and nothing else is a result of it. -/
theorem C100_euler (hS : S.IsLinear) (hν : 0 ≤ M.diffusionCoeff) (s s1 : St PyTime g) (dt : PyDelta) (hdt : 0 ≤ toSeconds dt) :
    M.euler S s dt = .ok s1 ↔ s.time.add dt = .ok s1.time ∧
      ∃ F, M.Forced s F ∧ M.ImplicitStep S (toSeconds dt) s.q (pvBudget S (s.pv S) (s.u S) (s.v S) F) s1.q := by
  rw [euler_ok_iff]
  constructor
  · rintro ⟨t, t', h1, h2, rfl⟩
    obtain ⟨F, hF, rfl⟩ := (tendency_iff hS s t).mp h1
    exact ⟨h2, F, hF, (implicit_iff hν hdt _ _ _).mp rfl⟩
  · rintro ⟨h, F, hF, h2⟩
    refine ⟨_, s1.time, (tendency_iff hS s _).mpr ⟨F, hF, rfl⟩, h, ?_⟩
    rw [← (implicit_iff hν hdt _ _ _).mpr h2]

/-- C100: a leapfrog step does so with a centered step of twice the length around the current state, which is filtered afterwards. -/
theorem C100_leapfrog (hS : S.IsLinear) (hν : 0 ≤ M.diffusionCoeff) (old now now' new : St PyTime g) (f : ℝ) (dt : PyDelta)
    (hsub : now.time.sub old.time = .ok dt) (hdt : 0 ≤ toSeconds dt) :
    M.leapfrog S old now f = .ok (now', new) ↔ now.time.add dt = .ok new.time ∧ now'.time = now.time ∧
      (∃ F, M.Forced now F ∧ M.ImplicitStep S (2 * toSeconds dt) old.q (pvBudget S (now.pv S) (now.u S) (now.v S) F) new.q) ∧
      ∀ k, now'.q k = now.q k + f * (old.q k - 2 * now.q k + new.q k) := by
  have h2 : 0 ≤ 2 * toSeconds dt := by linarith
  have hf : ∀ q : g.Spc, (((1 - 2 * f : ℝ) : ℂ) • now.q + (f : ℂ) • (old.q + q) = now'.q ↔
      ∀ k, now'.q k = now.q k + f * (old.q k - 2 * now.q k + q k)) := by
    intro q
    rw [funext_iff]
    refine forall_congr' fun k => ?_
    simp only [Pi.add_apply, Pi.smul_apply, smul_eq_mul]
    push_cast
    constructor
    · intro h; rw [← h]; ring
    · intro h; rw [h]; ring
  rw [leapfrog_ok_iff]
  constructor
  · rintro ⟨d, t, t', h0, h1, h3, h4⟩
    rw [hsub] at h0
    cases h0
    obtain ⟨F, hF, rfl⟩ := (tendency_iff hS now t).mp h1
    injection h4 with h5 h6
    subst h6
    refine ⟨h3, by rw [h5], ⟨F, hF, (implicit_iff hν h2 _ _ _).mp rfl⟩, (hf _).mp ?_⟩
    rw [h5]
  · rintro ⟨h3, h4, ⟨F, hF, h5⟩, h6⟩
    refine ⟨dt, _, new.time, hsub, (tendency_iff hS now _).mpr ⟨F, hF, rfl⟩, h3, ?_⟩
    have h7 := (implicit_iff hν h2 _ _ _).mpr h5
    rw [← h7, (hf _).mpr h6, ← h4]

/-- C100: what `run` returns: the final state is the filtered state of the first step that is not before `tend`, the saved states
are filtered states, of a sequence that starts with an Euler step and continues with leapfrog steps. -/
theorem C100_run (hS : S.IsLinear) (hν : 0 ≤ M.diffusionCoeff) (s : St PyTime g) (dt : PyDelta) (tend : PyTime) (se : ℝ)
    (hc : s.time.Compatible dt) (hk : s.time.SameKind tend) (hd : 0 < toSeconds dt) (sf : St PyTime g) (saved : List (St PyTime g))
    (h : M.Returns S s dt tend se sf saved) :
    ∃ (n : ℕ) (x y : ℕ → St PyTime g) (ks : List ℕ), M.Scheme S s dt n x y ∧ sf = x n ∧ saved = ks.map x ∧ (∀ k ∈ ks, k ≤ n) ∧
      tend.sec ≤ s.time.sec + n * toSeconds dt ∧ ∀ m < n, s.time.sec + m * toSeconds dt < tend.sec := by
  obtain ⟨n, x, ks, h1, h2, h3, h4, -, -, h7, -⟩ := C43_saved s dt tend se hc hk hd sf saved h
  obtain ⟨n', e1, e2, e3⟩ := C42_final_time s dt tend se hc hk sf saved h
  have hnn : n' = n := by
    obtain ⟨y, hy⟩ := h4 n le_rfl
    have := (C44_times s dt hc n _ hy).2.2.1
    rw [h2] at e1
    dsimp only at this
    rw [this] at e1
    have e4 : (n : ℝ) * toSeconds dt = n' * toSeconds dt := by linarith
    exact_mod_cast (mul_right_cancel₀ hd.ne' e4).symm
  subst hnn
  haveI : Nonempty (St PyTime g) := ⟨s⟩
  choose! y hy using h4
  refine ⟨n', x, y, ks, ?_, h2, h1, h7, e2, e3⟩
  have hlf : ∀ k < n', M.leapfrog S (x k) (y k) (2 / 10) = .ok (x (k + 1), y (k + 1)) := by
    intro k hkn
    have h5 := hy (k + 1) hkn
    unfold BModel.pairAt at h5
    rw [hy k hkn.le] at h5
    exact h5
  have hst : ∀ k < n', _ := fun k hkn => (C100_leapfrog hS hν (x k) (y k) (x (k + 1)) (y (k + 1)) (2 / 10) dt
    (C44_times s dt hc k _ (hy k hkn.le)).2.2.2.2 hd.le).mp (hlf k hkn)
  refine ⟨h3, fun k hkn => ⟨(C44_times s dt hc k _ (hy k hkn)).1, (C44_times s dt hc k _ (hy k hkn)).2.1⟩, ?_, ?_, ?_⟩
  · have h5 := hy 0 (Nat.zero_le _)
    unfold BModel.pairAt at h5
    cases he : M.euler S s dt with
    | error e => rw [he] at h5; cases h5
    | ok s1 =>
      rw [he] at h5
      injection h5 with h5
      injection h5 with _ h5
      subst h5
      exact ((C100_euler hS hν s (y 0) dt hd.le).mp he).2
  · intro k hkn
    exact (hst k hkn).2.2.1
  · intro k hkn m
    have := (hst k hkn).2.2.2 m
    push_cast at this
    exact this

/-! Non-vacuity: a run with forcing, diffusion and a background that needs six steps. -/

example : ∃ (M : BModel grid30) (sf : St PyTime grid30) (saved : List (St PyTime grid30)), Spharm.IsLinear wave30 ∧ 0 < M.diffusionCoeff ∧
    M.rhs ≠ none ∧ M.diffusionBg ≠ none ∧
    M.Returns wave30 (Init.motionless wave30 (.num 0)) (.num 600) (.num 3600) 1200 sf saved ∧
    ∃ (x y : ℕ → St PyTime grid30) (ks : List ℕ), M.Scheme wave30 (Init.motionless wave30 (.num 0)) (.num 600) 6 x y ∧ sf = x 6 ∧ saved = ks.map x := by
  let M : BModel grid30 := ⟨some fun _ => .ok fun _ _ => 1, 2, 1, some fun _ _ => 1⟩
  have hd : (0 : ℝ) < toSeconds (.num 600) := by norm_num [toSeconds]
  have ht : (Init.motionless wave30 (PyTime.num 0)).time = .num 0 := rfl
  obtain ⟨sf, saved, h⟩ := C42_returns (M := M) (fun f hh s => by cases hh; exact ⟨_, rfl⟩)
    (Init.motionless wave30 (.num 0)) (.num 600) (.num 3600) 1200 trivial trivial hd
    (.inr ⟨0, rfl⟩) (by norm_num [Init.motionless, St.ofPv, PyTime.sec])
  refine ⟨M, sf, saved, wave30_lawful.lin, by norm_num [M], by simp [M], by simp [M], h, ?_⟩
  obtain ⟨n, x, y, ks, h1, h2, h3, -, h5, h6⟩ := C100_run (M := M) wave30_lawful.lin (by norm_num [M]) _ _ _ _
    (by trivial) (by trivial) hd sf saved h
  have hn : n = 6 := by
    rw [ht] at h5 h6
    norm_num [toSeconds, PyTime.sec] at h5 h6
    have a : 6 ≤ n := by
      by_contra hh
      have : (n : ℝ) ≤ 5 := by exact_mod_cast (by omega : n ≤ 5)
      linarith
    have b : n ≤ 6 := by
      by_contra hh
      have := h6 6 (by omega)
      norm_num at this
    omega
  subst hn
  exact ⟨x, y, ks, h1, h2, h3⟩

end Barotropic
