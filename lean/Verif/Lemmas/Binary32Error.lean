import Verif.Lemmas.Binary32
import Mathlib.Algebra.Order.Ring.Pow
import Mathlib.Tactic.Positivity

/-!
# Powers, quotients and relative errors in single precision
-/

set_option linter.unusedSectionVars false

namespace Barotropic
namespace Binary32

open Binary64 (pyRound_mono pyRound_int pyRound_neg two_zpow_pos)

variable {K : Type*} [Field K] [LinearOrder K] [IsStrictOrderedRing K] [FloorRing K]

theorem fin_some {x y : K} (h : fin x = some y) : y = rnd x := by
  unfold fin at h
  split_ifs at h
  exact (Option.some.inj h).symm

theorem fin_of_lt {x : K} (h : |rnd x| < 2 ^ 128) : fin x = some (rnd x) := if_pos h

theorem rnd_le_single {x z : K} (hz : IsSingle z) (h : x ≤ z) : rnd x ≤ z := (rnd_mono h).trans_eq (rnd_single hz)

theorem single_le_rnd {x z : K} (hz : IsSingle z) (h : z ≤ x) : z ≤ rnd x := (rnd_single hz).symm.trans_le (rnd_mono h)

theorem rnd_one : rnd (1 : K) = 1 := rnd_single isSingle_one

/-- Half of the smallest positive number is rounded down. -/
theorem rnd_half_min : rnd ((2 : K) ^ (-150 : ℤ)) = 0 := by
  have hl : lastBit ((2 : K) ^ (-150 : ℤ)) = -149 := by
    unfold lastBit
    rw [abs_of_pos (two_zpow_pos _)]
    have : Int.log 2 ((2 : K) ^ (-150 : ℤ)) = -150 := by
      have := Int.log_zpow (R := K) (b := 2) (by norm_num) (-150)
      push_cast at this
      exact this
    rw [this]
    norm_num
  have e : (2 : K) ^ (-150 : ℤ) / 2 ^ (-149 : ℤ) = 1 / 2 := by
    rw [← zpow_sub₀ (by norm_num)]; norm_num
  unfold rnd
  rw [hl, e]
  have : pyRound (1 / 2 : K) = 0 := by
    have hf : ⌊(1 / 2 : K)⌋ = 0 := by rw [Int.floor_eq_iff]; norm_num
    unfold pyRound
    rw [hf]
    norm_num
  rw [this]
  simp

theorem rnd_tiny {x : K} (h0 : 0 ≤ x) (h : x ≤ 2 ^ (-150 : ℤ)) : rnd x = 0 :=
  le_antisymm ((rnd_mono h).trans_eq rnd_half_min) (rnd_nonneg h0)

namespace PowTree

theorem eval_mono {x x' : K} (h0 : 0 ≤ x) (h : x ≤ x') (t : PowTree) :
    ∀ y y', t.eval x = some y → t.eval x' = some y' → 0 ≤ y ∧ y ≤ y' := by
  induction t with
  | zero =>
    intro y y' hy hy'
    simp only [eval, Option.some.injEq] at hy hy'
    subst hy; subst hy'
    exact ⟨zero_le_one, le_rfl⟩
  | one =>
    intro y y' hy hy'
    simp only [eval, Option.some.injEq] at hy hy'
    subst hy; subst hy'
    exact ⟨h0, h⟩
  | mul a b iha ihb =>
    intro y y' hy hy'
    simp only [eval, Option.bind_eq_some_iff] at hy hy'
    obtain ⟨p, hp, q, hq, hf⟩ := hy
    obtain ⟨p', hp', q', hq', hf'⟩ := hy'
    obtain ⟨a1, a2⟩ := iha p p' hp hp'
    obtain ⟨b1, b2⟩ := ihb q q' hq hq'
    rw [fin_some hf, fin_some hf']
    exact ⟨rnd_nonneg (mul_nonneg a1 b1), rnd_mono (mul_le_mul a2 b2 b1 (a1.trans a2))⟩

/-- Powers of small numbers, to the point where nothing is left of them -/
theorem eval_small {s : ℕ} {x : K} (h0 : 0 ≤ x) (h : x ≤ 2 ^ (-(s : ℤ))) (hs : s ≤ 149) (t : PowTree) :
    ∃ y, t.eval x = some y ∧ 0 ≤ y ∧ y ≤ 2 ^ (-((s * t.order : ℕ) : ℤ)) ∧ (150 ≤ s * t.order → y = 0) := by
  induction t with
  | zero => exact ⟨1, rfl, zero_le_one, by simp [order], by simp [order]⟩
  | one => exact ⟨x, rfl, h0, by simpa [order] using h, fun hh => by simp only [order] at hh; omega⟩
  | mul a b iha ihb =>
    obtain ⟨p, hp, p0, p1, p2⟩ := iha
    obtain ⟨q, hq, q0, q1, q2⟩ := ihb
    have hpq : p * q ≤ 2 ^ (-((s * (mul a b).order : ℕ) : ℤ)) := by
      refine (mul_le_mul p1 q1 q0 (two_zpow_pos _).le).trans_eq ?_
      rw [← zpow_add₀ (by norm_num)]
      congr 1
      simp only [order]
      push_cast
      ring
    have hpq0 := mul_nonneg p0 q0
    have key : rnd (p * q) ≤ 2 ^ (-((s * (mul a b).order : ℕ) : ℤ)) ∧ (150 ≤ s * (mul a b).order → rnd (p * q) = 0) := by
      by_cases h150 : 150 ≤ s * (mul a b).order
      · have : rnd (p * q) = 0 := rnd_tiny hpq0 (hpq.trans (zpow_le_zpow_right₀ (by norm_num) (by omega)))
        exact ⟨by rw [this]; exact (two_zpow_pos _).le, fun _ => this⟩
      · exact ⟨rnd_le_single (isSingle_two_zpow (by omega)) hpq, fun hh => absurd hh h150⟩
    have h1 : rnd (p * q) ≤ 1 := key.1.trans (zpow_le_one_of_nonpos₀ (by norm_num) (by omega))
    refine ⟨rnd (p * q), ?_, rnd_nonneg hpq0, key⟩
    simp only [eval, hp, hq, Option.bind_some]
    apply fin_of_lt
    rw [abs_of_nonneg (rnd_nonneg hpq0)]
    exact h1.trans_lt (by norm_num)

theorem eval_zero {t : PowTree} (h : 1 ≤ t.order) : t.eval (0 : K) = some 0 := by
  induction t with
  | zero => simp [order] at h
  | one => rfl
  | mul a b iha ihb =>
    obtain ⟨p, hp, -⟩ := eval_small (K := K) (s := 149) le_rfl (two_zpow_pos _).le le_rfl a
    obtain ⟨q, hq, -⟩ := eval_small (K := K) (s := 149) le_rfl (two_zpow_pos _).le le_rfl b
    have e : p * q = 0 := by
      simp only [order] at h
      rcases Nat.eq_zero_or_pos a.order with ha | ha
      · have := ihb (by omega)
        rw [hq] at this
        rw [Option.some.inj this, mul_zero]
      · have := iha ha
        rw [hp] at this
        rw [Option.some.inj this, zero_mul]
    simp only [eval, hp, hq, Option.bind_some, e]
    rw [fin_of_lt (by rw [rnd_zero]; norm_num), rnd_zero]

end PowTree

theorem powLoop_order (acc p : PowTree) (k : ℕ) : (powLoop acc p k).order = acc.order + k * p.order := by
  induction k using Nat.strong_induction_on generalizing acc p with
  | _ k ih =>
    rw [powLoop]
    split_ifs with h1 h2 h3
    · subst h2; simp [PowTree.order]
    · have : k = 0 := by omega
      subst this; simp
    · rw [ih (k / 2) (by omega)]
      simp only [PowTree.order]
      have := Nat.div_add_mod k 2
      rw [h3] at this
      conv_rhs => rw [← this]
      ring
    · rw [ih (k / 2) (by omega)]
      simp only [PowTree.order]
      have := Nat.div_add_mod k 2
      rw [show k % 2 = 0 by omega] at this
      conv_rhs => rw [← this]
      ring

theorem powTree_order (k : ℕ) : (powTree k).order = k := by
  unfold powTree
  split_ifs with h0 h1 h2 h3
  · exact h0.symm
  · exact h1.symm
  · exact h2.symm
  · exact h3.symm
  · rw [powLoop_order]; simp [PowTree.order]

theorem powLoop_mults (acc p : PowTree) (k : ℕ) (h : p.mults + 1 ≤ p.order) : (powLoop acc p k).mults ≤ acc.mults + k * p.order := by
  induction k using Nat.strong_induction_on generalizing acc p with
  | _ k ih =>
    rw [powLoop]
    split_ifs with h1 h2 h3
    · subst h2; simp only [PowTree.mults]; omega
    · omega
    · refine (ih (k / 2) (by omega) _ _ (by simp only [PowTree.mults, PowTree.order]; omega)).trans ?_
      simp only [PowTree.order, PowTree.mults]
      have := Nat.div_add_mod k 2
      rw [h3] at this
      have e : k * p.order = p.order + k / 2 * (p.order + p.order) := by
        conv_lhs => rw [← this]
        ring
      rw [e]
      omega
    · refine (ih (k / 2) (by omega) _ _ (by simp only [PowTree.mults, PowTree.order]; omega)).trans ?_
      simp only [PowTree.order]
      have := Nat.div_add_mod k 2
      rw [show k % 2 = 0 by omega] at this
      have e : k * p.order = k / 2 * (p.order + p.order) := by
        conv_lhs => rw [← this]
        ring
      rw [e]

theorem powTree_mults (k : ℕ) : (powTree k).mults ≤ k := by
  unfold powTree
  split_ifs with h0 h1 h2 h3
  · simp [PowTree.mults]
  · simp [PowTree.mults]
  · subst h2; simp [PowTree.mults]
  · subst h3; simp [PowTree.mults]
  · have := powLoop_mults .zero .one k (by simp [PowTree.mults, PowTree.order])
    simpa [PowTree.mults, PowTree.order] using this

/-! ### Degrees -/

theorem eig_mono {r : K} (hr : 0 < r) {n n' : ℕ} (h : n ≤ n') {l l' : K} (hl : eig r n = some l) (hl' : eig r n' = some l') :
    0 ≤ l ∧ l ≤ l' := by
  have hK : (n : K) ≤ n' := by exact_mod_cast h
  rw [fin_some hl, fin_some hl']
  have h1 : (0 : K) ≤ Binary64.rnd (1 + (n : K)) := Binary64.rnd_nonneg (by positivity)
  refine ⟨rnd_nonneg (Binary64.rnd_nonneg (div_nonneg (Binary64.rnd_nonneg (div_nonneg (Binary64.rnd_nonneg
    (mul_nonneg (by positivity) h1)) hr.le)) hr.le)), ?_⟩
  refine rnd_mono (Binary64.rnd_mono (div_le_div_of_nonneg_right (Binary64.rnd_mono (div_le_div_of_nonneg_right
    (Binary64.rnd_mono ?_) hr.le)) hr.le))
  exact mul_le_mul hK (Binary64.rnd_mono (by linarith)) h1 (by positivity)

/-! ### Division -/

theorem divide_neg (x p : K) : divide (-x) p = -divide x p := by
  unfold divide
  split_ifs
  · rw [neg_mul, rnd_neg]
  · simp

theorem one_le_den {p : K} (hp : 0 ≤ p) : 1 ≤ rnd (1 + rnd p) := single_le_rnd isSingle_one (by linarith [rnd_nonneg hp])

theorem recip_mem {p : K} (hp : 0 ≤ p) : 0 ≤ rnd (1 / rnd (1 + rnd p)) ∧ rnd (1 / rnd (1 + rnd p)) ≤ 1 := by
  have h := one_le_den hp
  refine ⟨rnd_nonneg (by positivity), rnd_le_single isSingle_one ?_⟩
  rw [div_le_one (by linarith)]
  exact h

theorem divide_nonneg {x p : K} (hx : 0 ≤ x) (hp : 0 ≤ p) : 0 ≤ divide x p := by
  unfold divide
  split_ifs
  · exact rnd_nonneg (mul_nonneg hx (recip_mem hp).1)
  · exact le_rfl

theorem divide_le {x p : K} (h : IsSingle x) (hx : 0 ≤ x) (hp : 0 ≤ p) : divide x p ≤ x := by
  unfold divide
  split_ifs
  · exact rnd_le_single h (mul_le_of_le_one_right hx (recip_mem hp).2)
  · exact hx

theorem divide_anti {x p p' : K} (hx : 0 ≤ x) (hp : 0 ≤ p) (h : p ≤ p') : divide x p' ≤ divide x p := by
  have hr := rnd_mono h
  have hp' := hp.trans h
  have h0 := divide_nonneg hx hp
  unfold divide at h0 ⊢
  rw [abs_of_nonneg (rnd_nonneg hp)] at h0 ⊢
  rw [abs_of_nonneg (rnd_nonneg hp')]
  by_cases h2 : rnd p' < 2 ^ 128
  · rw [if_pos h2, if_pos (hr.trans_lt h2)]
    refine rnd_mono (mul_le_mul_of_nonneg_left (rnd_mono ?_) hx)
    have := one_le_den hp
    exact one_div_le_one_div_of_le (by linarith) (rnd_mono (by linarith))
  · rw [if_neg h2]
    exact h0

/-! ### Relative errors -/

/-- `a` and `b` differ at most by the factor `p ≤ 1`. -/
def Near (p a b : K) : Prop := a * p ≤ b ∧ b * p ≤ a

theorem Near.mul {p q a a' b b' : K} (hp : 0 ≤ p) (hq : 0 ≤ q) (ha : 0 ≤ a) (ha' : 0 ≤ a') (hb : 0 ≤ b) (hb' : 0 ≤ b')
    (h : Near p a a') (h' : Near q b b') : Near (p * q) (a * b) (a' * b') := by
  constructor
  · calc a * b * (p * q) = (a * p) * (b * q) := by ring
      _ ≤ a' * b' := mul_le_mul h.1 h'.1 (mul_nonneg hb hq) ha'
  · calc a' * b' * (p * q) = (a' * p) * (b' * q) := by ring
      _ ≤ a * b := mul_le_mul h.2 h'.2 (mul_nonneg hb' hq) ha

theorem Near.trans {p q a b c : K} (hp : 0 ≤ p) (hq : 0 ≤ q) (h : Near p a b) (h' : Near q b c) : Near (p * q) a c := by
  constructor
  · calc a * (p * q) = a * p * q := by ring
      _ ≤ b * q := mul_le_mul_of_nonneg_right h.1 hq
      _ ≤ c := h'.1
  · calc c * (p * q) = c * q * p := by ring
      _ ≤ b * p := mul_le_mul_of_nonneg_right h'.2 hp
      _ ≤ a := h.2

theorem Near.left {p a b : K} (c : K) (hc : 0 ≤ c) (h : Near p a b) : Near p (c * a) (c * b) :=
  ⟨by rw [mul_assoc]; exact mul_le_mul_of_nonneg_left h.1 hc, by rw [mul_assoc]; exact mul_le_mul_of_nonneg_left h.2 hc⟩

theorem Near.div {p a b : K} {c : K} (hc : 0 < c) (h : Near p a b) : Near p (a / c) (b / c) := by
  have := h.left (1 / c) (by positivity)
  rwa [one_div_mul_eq_div, one_div_mul_eq_div] at this

theorem Near.one_add {p a b : K} (hp : p ≤ 1) (h : Near p a b) : Near p (1 + a) (1 + b) :=
  ⟨by rw [add_mul, one_mul]; exact add_le_add hp h.1, by rw [add_mul, one_mul]; exact add_le_add hp h.2⟩

theorem Near.inv {p a b : K} (ha : 0 < a) (hb : 0 < b) (h : Near p a b) : Near p (1 / a) (1 / b) := by
  constructor
  · rw [one_div_mul_eq_div, div_le_div_iff₀ ha hb, one_mul, mul_comm]; exact h.2
  · rw [one_div_mul_eq_div, div_le_div_iff₀ hb ha, one_mul, mul_comm]; exact h.1

theorem Near.mono {p q a b : K} (ha : 0 ≤ a) (hb : 0 ≤ b) (hq : q ≤ p) (h : Near p a b) : Near q a b :=
  ⟨(mul_le_mul_of_nonneg_left hq ha).trans h.1, (mul_le_mul_of_nonneg_left hq hb).trans h.2⟩

/-- Relative error of one operation in single precision … -/
theorem near_rnd {a : K} (h : 2 ^ (-126 : ℤ) ≤ a) : Near (1 - 1 / 2 ^ 24) a (rnd a) := by
  have h0 : 0 < a := (two_zpow_pos _).trans_le h
  have h1 : |a - rnd a| ≤ a / 2 ^ 24 := by
    rcases rnd_rel h0 with h1 | h1
    · exact h1
    · exact absurd h1.1 (not_lt.mpr h)
  rw [abs_le] at h1
  obtain ⟨l, u⟩ := h1
  constructor <;> nlinarith

/-- … in double precision … -/
theorem near_rnd64 {a : K} (h : 0 ≤ a) : Near (1 - 1 / 2 ^ 53) a (Binary64.rnd a) := by
  have h1 := Binary64.rnd_rel a
  rw [abs_of_nonneg h, abs_le] at h1
  obtain ⟨l, u⟩ := h1
  constructor <;> nlinarith

/-- … and of the product that is added to 1. -/
theorem near_one_add_rnd {a : K} (h : 0 ≤ a) : Near (1 - 1 / 2 ^ 24) (1 + a) (1 + rnd a) := by
  have h1 : |a - rnd a| ≤ a / 2 ^ 24 ∨ |a - rnd a| ≤ 1 / 2 ^ 24 := by
    rcases h.eq_or_lt with rfl | h0
    · left; rw [rnd_zero]; simp
    rcases rnd_rel h0 with h1 | h1
    · exact .inl h1
    · right
      refine h1.2.trans ?_
      rw [show (1 : K) / 2 ^ 24 = 2 ^ (-24 : ℤ) by norm_num]
      exact zpow_le_zpow_right₀ (by norm_num) (by norm_num)
  rcases h1 with h1 | h1
  · rw [abs_le] at h1
    obtain ⟨l, u⟩ := h1
    constructor <;> nlinarith
  · rw [abs_le] at h1
    obtain ⟨l, u⟩ := h1
    constructor <;> nlinarith

end Binary32
end Barotropic
