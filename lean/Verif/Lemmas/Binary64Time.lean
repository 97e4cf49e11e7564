import Verif.Lemmas.Binary64

/-!
# Times of a run in double precision

Within a binade the time step does not change; it is rounded when the time reaches a power of two.
-/

set_option linter.unusedSectionVars false

namespace Barotropic
open Binary64

variable {K : Type*} [Field K] [LinearOrder K] [IsStrictOrderedRing K] [FloorRing K]

theorem lastBit_mono {x y : K} (hx : 0 < x) (h : x ≤ y) : lastBit x ≤ lastBit y := by
  unfold lastBit
  rw [abs_of_pos hx, abs_of_pos (hx.trans_le h)]
  have := Int.log_mono_right (b := 2) hx h
  omega

theorem lastBit_le_rnd {x : K} (hx : 0 < x) : lastBit x ≤ lastBit (rnd x) := by
  have h1 := (rnd_pos_mem hx).1
  have h2 : (2 : K) ^ (52 + lastBit x) ≤ rnd x := by
    rw [zpow_add₀ (by norm_num)]
    exact_mod_cast h1
  have h3 := Int.log_mono_right (b := 2) (two_zpow_pos (52 + lastBit x)) h2
  have h4 : Int.log 2 ((2 : K) ^ (52 + lastBit x)) = 52 + lastBit x := by
    have := Int.log_zpow (R := K) (b := 2) (by norm_num) (52 + lastBit x)
    exact_mod_cast this
  rw [h4] at h3
  conv_rhs => unfold lastBit
  rw [abs_of_pos (rnd_pos hx)]
  omega

theorem double_lattice {x : K} (hx : 0 < x) (hd : IsDouble x) : ∃ n : ℤ, x = n * 2 ^ lastBit x := by
  refine double_mult hx hd ?_
  have := (scaled_mem hx).1
  rwa [le_div_iff₀ (two_zpow_pos _)] at this

theorem rnd_lattice {z : K} {n e : ℤ} (h : z = n * 2 ^ e) (h0 : 0 ≤ z) (h1 : z ≤ 2 ^ 53 * 2 ^ e) : rnd z = z := by
  refine rnd_double ⟨n, e, ?_, h⟩
  have hp : (0 : K) < 2 ^ e := two_zpow_pos e
  rw [h] at h0 h1
  have hn0 : (0 : K) ≤ n := nonneg_of_mul_nonneg_left h0 hp
  have hn1 : (n : K) ≤ 2 ^ 53 := le_of_mul_le_mul_right h1 hp
  have hn0' : 0 ≤ n := by exact_mod_cast hn0
  rw [abs_of_nonneg hn0']
  exact_mod_cast hn1

/-- One step: `a`, `b` are the two times, `e` the last bit of `b`. -/
theorem step_drift {a b dt : K} (ha : 0 ≤ a) (hab : a ≤ b) (hb : 0 < b) (hbd : IsDouble b)
    (h : ((∃ m : ℤ, a = m * 2 ^ lastBit b) ∧ |b - a - dt| ≤ 3 * 2 ^ lastBit b) ∨ |b - a - dt| ≤ 2 * 2 ^ lastBit b) :
    let c := rnd (b + rnd (b - a))
    b ≤ c ∧ IsDouble c ∧
      (((∃ m : ℤ, b = m * 2 ^ lastBit c) ∧ |c - b - dt| ≤ 3 * 2 ^ lastBit c) ∨ |c - b - dt| ≤ 2 * 2 ^ lastBit c) := by
  intro c
  have hd0 : 0 ≤ b - a := by linarith
  have hrd0 := rnd_nonneg hd0
  have hx : 0 < b + rnd (b - a) := by linarith
  have hbc : b ≤ c := by
    have := rnd_mono (show b ≤ b + rnd (b - a) by linarith)
    rwa [rnd_double hbd] at this
  have hc : 0 < c := hb.trans_le hbc
  obtain ⟨n, hn⟩ := double_lattice hb hbd
  have hpe : (0 : K) < 2 ^ lastBit b := two_zpow_pos _
  have hpc : (0 : K) < 2 ^ lastBit c := two_zpow_pos _
  have hee : lastBit b ≤ lastBit c := lastBit_mono hb hbc
  have hxc : lastBit (b + rnd (b - a)) ≤ lastBit c := lastBit_le_rnd hx
  have err2 : |b + rnd (b - a) - c| ≤ 2 ^ lastBit c / 2 := by
    refine (rnd_err _).trans ?_
    have := zpow_le_zpow_right₀ (a := (2 : K)) (by norm_num) hxc
    linarith
  have hbtop : b ≤ 2 ^ 53 * 2 ^ lastBit b := by
    have := (scaled_mem hb).2
    rw [div_lt_iff₀ hpe] at this
    exact this.le
  have err1 : |rnd (b - a) - (b - a)| ≤ 2 ^ lastBit b / 2 := by
    rcases hd0.eq_or_lt with h0 | h0
    · rw [← h0, rnd_zero]; simp; positivity
    · rw [abs_sub_comm]
      refine (rnd_err _).trans ?_
      have := zpow_le_zpow_right₀ (a := (2 : K)) (by norm_num) (lastBit_mono h0 (show b - a ≤ b by linarith))
      linarith
  have split : c - b - dt = (b - a - dt) + (rnd (b - a) - (b - a)) - (b + rnd (b - a) - c) := by ring
  have tri : |c - b - dt| ≤ |b - a - dt| + |rnd (b - a) - (b - a)| + |b + rnd (b - a) - c| := by
    rw [split]
    exact (abs_sub _ _).trans (add_le_add (abs_add_le _ _) le_rfl)
  have exact1 : (∃ m : ℤ, a = m * 2 ^ lastBit b) → rnd (b - a) = b - a := by
    rintro ⟨m, hm⟩
    refine rnd_lattice (n := n - m) (e := lastBit b) ?_ hd0 (by linarith)
    push_cast
    rw [sub_mul, ← hn, ← hm]
  refine ⟨hbc, rnd_isDouble _, ?_⟩
  rcases hee.eq_or_lt with he | he
  · left
    refine ⟨⟨n, by rw [← he]; exact hn⟩, ?_⟩
    rcases h with ⟨⟨m, hm⟩, h⟩ | h
    · have h1 := exact1 ⟨m, hm⟩
      have h2 : c = b + rnd (b - a) := by
        refine rnd_lattice (n := n + (n - m)) (e := lastBit b) ?_ hx.le ?_
        · rw [h1]; push_cast; rw [add_mul, sub_mul, ← hn, ← hm]
        · have := (scaled_mem hx).2
          rw [div_lt_iff₀ (two_zpow_pos _)] at this
          refine this.le.trans ?_
          have := zpow_le_zpow_right₀ (a := (2 : K)) (by norm_num) (hxc.trans he.symm.le)
          linarith
      rw [h2, h1, ← show lastBit b = lastBit (b + (b - a)) by rw [he, h2, h1], show b + (b - a) - b - dt = b - a - dt by ring]
      exact h
    · rw [← he] at err2 ⊢
      linarith
  · right
    have h2 : (2 : K) * 2 ^ lastBit b ≤ 2 ^ lastBit c := by
      rw [← zpow_one_add₀ (by norm_num)]
      exact zpow_le_zpow_right₀ (by norm_num) (by omega)
    rcases h with ⟨hm, h⟩ | h
    · have h1 := exact1 hm
      rw [h1] at tri err2
      rw [sub_self, abs_zero] at tri
      linarith
    · linarith

/-- Times increase; the difference of successive times is close to `dt`. -/
theorem pair_drift {t0 dt : K} (h0 : 0 ≤ t0) (hd0 : IsDouble t0) (hdt : 0 < dt) (k : ℕ) :
    0 ≤ (pair t0 dt k).1 ∧ (pair t0 dt k).1 ≤ (pair t0 dt k).2 ∧ 0 < (pair t0 dt k).2 ∧ IsDouble (pair t0 dt k).2 ∧
    (((∃ m : ℤ, (pair t0 dt k).1 = m * 2 ^ lastBit (pair t0 dt k).2) ∧
        |(pair t0 dt k).2 - (pair t0 dt k).1 - dt| ≤ 3 * 2 ^ lastBit (pair t0 dt k).2) ∨
      |(pair t0 dt k).2 - (pair t0 dt k).1 - dt| ≤ 2 * 2 ^ lastBit (pair t0 dt k).2) := by
  induction k with
  | zero =>
    have hx : 0 < t0 + dt := by linarith
    have hm := rnd_mono (show t0 ≤ t0 + dt by linarith)
    rw [rnd_double hd0] at hm
    refine ⟨h0, hm, rnd_pos hx, rnd_isDouble _, .inr ?_⟩
    show |rnd (t0 + dt) - t0 - dt| ≤ 2 * 2 ^ lastBit (rnd (t0 + dt))
    rw [show rnd (t0 + dt) - t0 - dt = -(t0 + dt - rnd (t0 + dt)) by ring, abs_neg]
    refine (rnd_err _).trans ?_
    have := zpow_le_zpow_right₀ (a := (2 : K)) (by norm_num) (lastBit_le_rnd hx)
    have hp := two_zpow_pos (K := K) (lastBit (rnd (t0 + dt)))
    have hp' := two_zpow_pos (K := K) (lastBit (t0 + dt))
    linarith
  | succ k ih =>
    obtain ⟨h1, h2, h3, h4, h5⟩ := ih
    obtain ⟨i1, i2, i3⟩ := step_drift h1 h2 h3 h4 h5
    exact ⟨h3.le, i1, h3.trans_le i1, i2, i3⟩

end Barotropic
