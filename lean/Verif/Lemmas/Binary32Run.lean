import Verif.Lemmas.Binary32Error
import Verif.Model.Binary32Run

/-!
# Fixed points of the Robert-Asselin filter in single precision
-/

set_option linter.unusedSectionVars false

namespace Barotropic
namespace Binary32

open Binary64 (pyRound_mono pyRound_int pyRound_neg two_zpow_pos)

variable {K : Type*} [Field K] [LinearOrder K] [IsStrictOrderedRing K] [FloorRing K]

theorem pyRound_eq {z : K} {A : ℤ} (h : |z - A| < 1 / 2) : pyRound z = A := by
  have h1 := (pyRound_spec z).1
  have h2 : |(pyRound z - A : K)| < 1 := by
    calc |(pyRound z - A : K)| ≤ |pyRound z - z| + |z - A| := abs_sub_le _ _ _
      _ < 1 := by rw [abs_sub_comm]; linarith
  have h3 : |pyRound z - A| < 1 := by exact_mod_cast h2
  have := Int.abs_lt_one_iff.mp h3
  omega

theorem log_eq {z : K} {e : ℤ} (h1 : 2 ^ e ≤ z) (h2 : z < 2 ^ (e + 1)) : Int.log 2 z = e := by
  have hz : 0 < z := (two_zpow_pos e).trans_le h1
  have a : e ≤ Int.log 2 z := by
    rw [← Int.zpow_le_iff_le_log (by norm_num) hz]
    exact_mod_cast h1
  have b : Int.log 2 z < e + 1 := by
    rw [← Int.lt_zpow_iff_log_lt (by norm_num) hz]
    exact_mod_cast h2
  omega

/-- How to round -/
theorem rnd_eq {z : K} {e : ℤ} (A : ℤ) (he : -149 ≤ e) (h1 : 2 ^ 23 ≤ z) (h2 : z < 2 ^ 24) (h : |z - A| < 1 / 2) :
    rnd (z * 2 ^ e) = A * 2 ^ e := by
  have hp : (0 : K) < 2 ^ e := two_zpow_pos e
  have hz : 0 < z := lt_of_lt_of_le (by norm_num) h1
  have hl : lastBit (z * 2 ^ e) = e := by
    unfold lastBit
    rw [abs_of_pos (mul_pos hz hp), log_eq (e := 23 + e)]
    · rw [max_eq_left (by omega)]; ring
    · rw [zpow_add₀ (by norm_num)]
      exact mul_le_mul_of_nonneg_right (by norm_num at h1 ⊢; exact h1) hp.le
    · rw [show (23 : ℤ) + e + 1 = 24 + e by ring, zpow_add₀ (by norm_num)]
      exact mul_lt_mul_of_pos_right (by norm_num at h2 ⊢; exact h2) hp
  unfold rnd
  rw [hl, mul_div_cancel_right₀ _ hp.ne', pyRound_eq h]

theorem rnd64_eq {z : K} {e : ℤ} (A : ℤ) (h1 : 2 ^ 52 ≤ z) (h2 : z < 2 ^ 53) (h : |z - A| < 1 / 2) :
    Binary64.rnd (z * 2 ^ e) = A * 2 ^ e := by
  have hp : (0 : K) < 2 ^ e := two_zpow_pos e
  have hz : 0 < z := lt_of_lt_of_le (by norm_num) h1
  have hl : Binary64.lastBit (z * 2 ^ e) = e := by
    unfold Binary64.lastBit
    rw [abs_of_pos (mul_pos hz hp), log_eq (e := 52 + e)]
    · ring
    · rw [zpow_add₀ (by norm_num)]
      exact mul_le_mul_of_nonneg_right (by norm_num at h1 ⊢; exact h1) hp.le
    · rw [show (52 : ℤ) + e + 1 = 53 + e by ring, zpow_add₀ (by norm_num)]
      exact mul_lt_mul_of_pos_right (by norm_num at h2 ⊢; exact h2) hp
  unfold Binary64.rnd
  rw [hl, mul_div_cancel_right₀ _ hp.ne', pyRound_eq h]

theorem defaultFilter_eq : (defaultFilter : K) = 3602879701896397 / 2 ^ 54 := by
  unfold defaultFilter
  have h := rnd64_eq (K := K) (z := 2 ^ 55 / 5) (e := -55) 7205759403792794 (by norm_num) (by norm_num)
    (by rw [abs_lt]; constructor <;> norm_num)
  have e : (2 ^ 55 / 5 * 2 ^ (-55 : ℤ) : K) = 1 / 5 := by norm_num
  rw [e] at h
  rw [h]
  norm_num

theorem weight_outer : rnd (defaultFilter : K) = 13421773 / 2 ^ 26 := by
  rw [defaultFilter_eq]
  have h := rnd_eq (K := K) (z := 3602879701896397 / 2 ^ 28) (e := -26) 13421773 (by norm_num) (by norm_num) (by norm_num)
    (by rw [abs_lt]; constructor <;> norm_num)
  have e : (3602879701896397 / 2 ^ 28 * 2 ^ (-26 : ℤ) : K) = 3602879701896397 / 2 ^ 54 := by norm_num
  rw [e] at h
  rw [h]
  norm_num

theorem weight_inner : rnd (Binary64.rnd (1 - Binary64.rnd (2 * defaultFilter)) : K) = 10066330 / 2 ^ 24 := by
  rw [defaultFilter_eq]
  have e1 : Binary64.rnd (2 * (3602879701896397 / 2 ^ 54) : K) = 3602879701896397 / 2 ^ 53 := by
    rw [Binary64.rnd_double ⟨3602879701896397, -53, by norm_num, by norm_num⟩]
    norm_num
  have e2 : Binary64.rnd (1 - 3602879701896397 / 2 ^ 53 : K) = 5404319552844595 / 2 ^ 53 := by
    rw [Binary64.rnd_double ⟨5404319552844595, -53, by norm_num, by norm_num⟩]
    norm_num
  rw [e1, e2]
  have h := rnd_eq (K := K) (z := 5404319552844595 / 2 ^ 29) (e := -24) 10066330 (by norm_num) (by norm_num) (by norm_num)
    (by rw [abs_lt]; constructor <;> norm_num)
  have e : (5404319552844595 / 2 ^ 29 * 2 ^ (-24 : ℤ) : K) = 5404319552844595 / 2 ^ 53 := by norm_num
  rw [e] at h
  rw [h]
  norm_num

/-- The filter with the default parameter -/
theorem raFilter_eq (old now new : K) : raFilter defaultFilter old now new =
    rnd (rnd (10066330 / 2 ^ 24 * now) + rnd (13421773 / 2 ^ 26 * rnd (old + new))) := by
  unfold raFilter
  rw [weight_inner, weight_outer]

theorem raFilter_mono {old now new old' now' new' : K} (h1 : old ≤ old') (h2 : now ≤ now') (h3 : new ≤ new') :
    raFilter defaultFilter old now new ≤ raFilter defaultFilter old' now' new' := by
  rw [raFilter_eq, raFilter_eq]
  refine rnd_mono (add_le_add (rnd_mono (mul_le_mul_of_nonneg_left h2 (by norm_num))) (rnd_mono (mul_le_mul_of_nonneg_left ?_ (by norm_num))))
  exact rnd_mono (add_le_add h1 h3)

theorem raFilter_neg (old now new : K) : raFilter defaultFilter (-old) (-now) (-new) = -raFilter defaultFilter old now new := by
  rw [raFilter_eq, raFilter_eq, mul_neg, rnd_neg, ← neg_add, rnd_neg, mul_neg, rnd_neg, ← neg_add, rnd_neg]

/-- Significands of numbers that the filter does not change -/
def FixedSig (m : ℕ) : Prop :=
  2 ^ 23 < m ∧ m < 10485760 ∧ m % 5 = 0 ∨ 10485760 < m ∧ m ≤ 13981013 ∧ m % 5 = 4 ∨ 13981013 < m ∧ m < 2 ^ 24 ∧ m % 5 = 0

theorem rnd_double_self {m : ℕ} {e : ℤ} (hm : m ≤ 2 ^ 24) (he : -149 ≤ e) : rnd ((m : K) * 2 ^ e + m * 2 ^ e) = 2 * m * 2 ^ e := by
  rw [rnd_single ⟨m, e + 1, by rw [abs_of_nonneg (by omega)]; exact_mod_cast hm, by omega,
    by rw [zpow_add₀ (by norm_num), zpow_one]; push_cast; ring⟩]
  ring

theorem fixed_of_sig {m : ℕ} (hm : FixedSig m) {e : ℤ} (he : -140 ≤ e) :
    raFilter defaultFilter ((m : K) * 2 ^ e) (m * 2 ^ e) (m * 2 ^ e) = m * 2 ^ e := by
  have h24 : m ≤ 2 ^ 24 := by unfold FixedSig at hm; omega
  have z1 : (2 : K) ^ e = 2 * 2 ^ (e - 1) := by
    rw [show e = 1 + (e - 1) by ring, zpow_add₀ (by norm_num), zpow_one]; congr 2; ring
  have z2 : (2 : K) ^ e = 4 * 2 ^ (e - 2) := by
    rw [show e = 2 + (e - 2) by ring, zpow_add₀ (by norm_num)]
    rw [show (2 : ℤ) + (e - 2) - 2 = e - 2 by ring]
    norm_num
  have single : rnd ((m : K) * 2 ^ e) = m * 2 ^ e :=
    rnd_single ⟨m, e, by rw [abs_of_nonneg (by omega)]; exact_mod_cast h24, by omega, by push_cast; rfl⟩
  rw [raFilter_eq, rnd_double_self h24 (by omega)]
  unfold FixedSig at hm
  rcases hm with ⟨a, b, c⟩ | ⟨a, b, c⟩ | ⟨a, b, c⟩
  · obtain ⟨j, rfl⟩ : ∃ j, m = 5 * j := ⟨m / 5, by omega⟩
    have j1 : (2 ^ 23 : K) < 5 * j := by exact_mod_cast a
    have j2 : (5 * j : K) ≤ 10485755 := by
      have : 5 * j ≤ 10485755 := by omega
      exact_mod_cast this
    push_cast
    have r1 : rnd (10066330 / 2 ^ 24 * (5 * j * 2 ^ e) : K) = 6 * j * 2 ^ (e - 1) := by
      have h := rnd_eq (K := K) (z := 10066330 / 2 ^ 24 * (5 * j) * 2) (e := e - 1) (6 * j) (by omega) (by linarith) (by linarith)
        (by push_cast; rw [abs_lt]; constructor <;> linarith)
      rw [z1]
      rw [show (10066330 / 2 ^ 24 * (5 * j * (2 * 2 ^ (e - 1))) : K) = 10066330 / 2 ^ 24 * (5 * j) * 2 * 2 ^ (e - 1) by ring, h]
      push_cast
      ring
    have r2 : rnd (13421773 / 2 ^ 26 * (2 * (5 * j) * 2 ^ e) : K) = 8 * j * 2 ^ (e - 2) := by
      have h := rnd_eq (K := K) (z := 13421773 / 2 ^ 26 * (2 * (5 * j)) * 4) (e := e - 2) (8 * j) (by omega) (by linarith) (by linarith)
        (by push_cast; rw [abs_lt]; constructor <;> linarith)
      rw [z2]
      rw [show (13421773 / 2 ^ 26 * (2 * (5 * j) * (4 * 2 ^ (e - 2))) : K) = 13421773 / 2 ^ 26 * (2 * (5 * j)) * 4 * 2 ^ (e - 2) by ring, h]
      push_cast
      ring
    rw [r1, r2]
    have s : (6 * j * 2 ^ (e - 1) + 8 * j * 2 ^ (e - 2) : K) = ((5 * j : ℕ) : K) * 2 ^ e := by
      have t1 : (2 : K) ^ (e - 1) = 2 ^ e / 2 := by rw [z1]; ring
      have t2 : (2 : K) ^ (e - 2) = 2 ^ e / 4 := by rw [z2]; ring
      rw [t1, t2]; push_cast; ring
    rw [s, single]
    push_cast
    ring
  · obtain ⟨j, rfl⟩ : ∃ j, m = 5 * j + 4 := ⟨m / 5, by omega⟩
    have j1 : (10485760 : K) < 5 * j + 4 := by exact_mod_cast a
    have j2 : (5 * j + 4 : K) ≤ 13981009 := by
      have : 5 * j + 4 ≤ 13981009 := by omega
      exact_mod_cast this
    push_cast
    have r1 : rnd (10066330 / 2 ^ 24 * ((5 * j + 4) * 2 ^ e) : K) = (6 * j + 5) * 2 ^ (e - 1) := by
      have h := rnd_eq (K := K) (z := 10066330 / 2 ^ 24 * (5 * j + 4) * 2) (e := e - 1) (6 * j + 5) (by omega) (by linarith) (by linarith)
        (by push_cast; rw [abs_lt]; constructor <;> linarith)
      rw [z1]
      rw [show (10066330 / 2 ^ 24 * ((5 * j + 4) * (2 * 2 ^ (e - 1))) : K) = 10066330 / 2 ^ 24 * (5 * j + 4) * 2 * 2 ^ (e - 1) by ring, h]
      push_cast
      ring
    have r2 : rnd (13421773 / 2 ^ 26 * (2 * (5 * j + 4) * 2 ^ e) : K) = (4 * j + 3) * 2 ^ (e - 1) := by
      have h := rnd_eq (K := K) (z := 13421773 / 2 ^ 26 * (2 * (5 * j + 4)) * 2) (e := e - 1) (4 * j + 3) (by omega) (by linarith) (by linarith)
        (by push_cast; rw [abs_lt]; constructor <;> linarith)
      rw [z1]
      rw [show (13421773 / 2 ^ 26 * (2 * (5 * j + 4) * (2 * 2 ^ (e - 1))) : K) = 13421773 / 2 ^ 26 * (2 * (5 * j + 4)) * 2 * 2 ^ (e - 1) by ring,
        h]
      push_cast
      ring
    rw [r1, r2]
    have s : ((6 * j + 5) * 2 ^ (e - 1) + (4 * j + 3) * 2 ^ (e - 1) : K) = ((5 * j + 4 : ℕ) : K) * 2 ^ e := by
      have t1 : (2 : K) ^ (e - 1) = 2 ^ e / 2 := by rw [z1]; ring
      rw [t1]; push_cast; ring
    rw [s, single]
    push_cast
    ring
  · obtain ⟨j, rfl⟩ : ∃ j, m = 5 * j := ⟨m / 5, by omega⟩
    have j1 : (13981014 : K) ≤ 5 * j := by exact_mod_cast a
    have j2 : (5 * j : K) < 2 ^ 24 := by exact_mod_cast b
    push_cast
    have r1 : rnd (10066330 / 2 ^ 24 * (5 * j * 2 ^ e) : K) = 3 * j * 2 ^ e := by
      have h := rnd_eq (K := K) (z := 10066330 / 2 ^ 24 * (5 * j)) (e := e) (3 * j) (by omega) (by linarith) (by linarith)
        (by push_cast; rw [abs_lt]; constructor <;> linarith)
      rw [show (10066330 / 2 ^ 24 * (5 * j * 2 ^ e) : K) = 10066330 / 2 ^ 24 * (5 * j) * 2 ^ e by ring, h]
      push_cast
      ring
    have r2 : rnd (13421773 / 2 ^ 26 * (2 * (5 * j) * 2 ^ e) : K) = 4 * j * 2 ^ (e - 1) := by
      have h := rnd_eq (K := K) (z := 13421773 / 2 ^ 26 * (2 * (5 * j)) * 2) (e := e - 1) (4 * j) (by omega) (by linarith) (by linarith)
        (by push_cast; rw [abs_lt]; constructor <;> linarith)
      rw [z1]
      rw [show (13421773 / 2 ^ 26 * (2 * (5 * j) * (2 * 2 ^ (e - 1))) : K) = 13421773 / 2 ^ 26 * (2 * (5 * j)) * 2 * 2 ^ (e - 1) by ring, h]
      push_cast
      ring
    rw [r1, r2]
    have s : (3 * j * 2 ^ e + 4 * j * 2 ^ (e - 1) : K) = ((5 * j : ℕ) : K) * 2 ^ e := by
      have t1 : (2 : K) ^ (e - 1) = 2 ^ e / 2 := by rw [z1]; ring
      rw [t1]; push_cast; ring
    rw [s, single]
    push_cast
    ring

/-- Normal positive numbers in single precision -/
theorem normal_form {x : K} (hs : IsSingle x) (hx : 2 ^ (-126 : ℤ) ≤ x) :
    ∃ (m : ℕ) (e : ℤ), x = m * 2 ^ e ∧ 2 ^ 23 ≤ m ∧ m < 2 ^ 24 ∧ -149 ≤ e := by
  have h0 : 0 < x := (two_zpow_pos _).trans_le hx
  have hp : (0 : K) < 2 ^ lastBit x := two_zpow_pos _
  have hge : 2 ^ 23 ≤ x / 2 ^ lastBit x := by
    rcases (lastBit_ge x).eq_or_lt with h | h
    · rw [← h, le_div_iff₀ (two_zpow_pos _)]
      refine le_trans (le_of_eq ?_) hx
      rw [show (2 : K) ^ 23 = 2 ^ (23 : ℤ) by norm_num, ← zpow_add₀ (by norm_num)]
      norm_num
    · exact scaled_ge h0 h
  have hlt := scaled_lt h0
  have e : x = pyRound (x / 2 ^ lastBit x) * 2 ^ lastBit x := (rnd_single hs).symm
  have e' : x / 2 ^ lastBit x = pyRound (x / 2 ^ lastBit x) := by
    rw [div_eq_iff hp.ne']; exact e
  have p0 := (scaled_round h0).1
  obtain ⟨m, hm⟩ := Int.eq_ofNat_of_zero_le p0
  rw [hm] at e e'
  rw [e'] at hge hlt
  refine ⟨m, lastBit x, by exact_mod_cast e, ?_, ?_, lastBit_ge x⟩
  · exact_mod_cast hge
  · exact_mod_cast hlt

/-- Small changes are lost. -/
theorem rnd_add_tiny {x δ : K} (hs : IsSingle x) (hx : 2 ^ (-120 : ℤ) ≤ x) (hδ : |δ| ≤ x / 2 ^ 26) : rnd (x + δ) = x := by
  obtain ⟨m, e, hme, h1, h2, he⟩ := normal_form hs (le_trans (zpow_le_zpow_right₀ (by norm_num) (by norm_num)) hx)
  have hp : (0 : K) < 2 ^ e := two_zpow_pos _
  have m1 : (2 ^ 23 : K) ≤ m := by exact_mod_cast h1
  have m2 : (m + 1 : K) ≤ 2 ^ 24 := by exact_mod_cast h2
  obtain ⟨d, hd⟩ : ∃ d, d = δ / 2 ^ e := ⟨_, rfl⟩
  have hδd : δ = d * 2 ^ e := by rw [hd, div_mul_cancel₀ _ hp.ne']
  have hd' : |d| ≤ m / 2 ^ 26 := by
    rw [hδd, hme, abs_mul, abs_of_pos hp, mul_div_right_comm] at hδ
    exact le_of_mul_le_mul_right hδ hp
  rw [abs_le] at hd'
  obtain ⟨l, u⟩ := hd'
  rw [hδd, hme, ← add_mul]
  have he120 : -146 ≤ e := by
    by_contra hlt
    push Not at hlt
    have : x < 2 ^ (-120 : ℤ) := by
      rw [hme]
      calc (m : K) * 2 ^ e < 2 ^ 24 * 2 ^ e := mul_lt_mul_of_pos_right (by linarith) hp
        _ = 2 ^ (24 + e) := by rw [zpow_add₀ (by norm_num)]; norm_num
        _ ≤ _ := zpow_le_zpow_right₀ (by norm_num) (by omega)
    exact absurd hx (not_le.mpr this)
  by_cases hc : m = 2 ^ 23 ∧ d < 0
  · obtain ⟨hm, hd0⟩ := hc
    have z1 : (2 : K) ^ e = 2 * 2 ^ (e - 1) := by
      rw [show e = 1 + (e - 1) by ring, zpow_add₀ (by norm_num), zpow_one]; congr 2; ring
    subst hm
    have h := rnd_eq (K := K) (z := 2 * (2 ^ 23 + d)) (e := e - 1) (2 ^ 24) (by omega) (by push_cast at l; linarith) (by linarith)
      (by push_cast at l u ⊢; rw [abs_lt]; constructor <;> linarith)
    rw [z1]
    rw [show (((2 ^ 23 : ℕ) + d) * (2 * 2 ^ (e - 1)) : K) = 2 * (2 ^ 23 + d) * 2 ^ (e - 1) by push_cast; ring, h]
    push_cast
    ring
  · have hlow : (2 ^ 23 : K) ≤ m + d := by
      by_cases hm : m = 2 ^ 23
      · have : 0 ≤ d := by
          by_contra h
          exact hc ⟨hm, not_le.mp h⟩
        linarith
      · have : (2 ^ 23 + 1 : K) ≤ m := by
          have : 2 ^ 23 + 1 ≤ m := by omega
          exact_mod_cast this
        linarith
    have h := rnd_eq (K := K) (z := m + d) (e := e) m (by omega) hlow (by linarith) (by push_cast; rw [abs_lt]; constructor <;> linarith)
    exact_mod_cast h

/-- Every number is close to numbers that the filter does not change. -/
theorem fixed_near {x : K} (hs : IsSingle x) (hx : 2 ^ (-110 : ℤ) ≤ x) :
    (∃ y, raFilter defaultFilter y y y = y ∧ y ≤ x ∧ x - y ≤ 10 / 2 ^ 23 * x) ∧
      ∃ y, raFilter defaultFilter y y y = y ∧ x ≤ y ∧ y - x ≤ 10 / 2 ^ 23 * x := by
  obtain ⟨m, e, hme, h1, h2, he⟩ := normal_form hs (le_trans (zpow_le_zpow_right₀ (by norm_num) (by norm_num)) hx)
  have hp : (0 : K) < 2 ^ e := two_zpow_pos _
  have m1 : (2 ^ 23 : K) ≤ m := by exact_mod_cast h1
  have m2 : (m + 1 : K) ≤ 2 ^ 24 := by exact_mod_cast h2
  have he120 : -136 ≤ e := by
    by_contra hlt
    push Not at hlt
    have : x < 2 ^ (-110 : ℤ) := by
      rw [hme]
      calc (m : K) * 2 ^ e < 2 ^ 24 * 2 ^ e := mul_lt_mul_of_pos_right (by linarith) hp
        _ = 2 ^ (24 + e) := by rw [zpow_add₀ (by norm_num)]; norm_num
        _ ≤ _ := zpow_le_zpow_right₀ (by norm_num) (by omega)
    exact absurd hx (not_le.mpr this)
  have close : ∀ i : K, i ≤ 10 → i * 2 ^ e ≤ 10 / 2 ^ 23 * x := by
    intro i hi
    rw [hme, ← mul_assoc]
    refine mul_le_mul_of_nonneg_right (hi.trans ?_) hp.le
    linarith
  constructor
  · by_cases hlo : m < 2 ^ 23 + 2
    · refine ⟨((2 ^ 24 - 1 : ℕ) : K) * 2 ^ (e - 1), fixed_of_sig (by unfold FixedSig; omega) (by omega), ?_, ?_⟩
      · have z1 : (2 : K) ^ e = 2 * 2 ^ (e - 1) := by
          rw [show e = 1 + (e - 1) by ring, zpow_add₀ (by norm_num), zpow_one]; congr 2; ring
        rw [hme, z1, ← mul_assoc]
        refine mul_le_mul_of_nonneg_right ?_ (two_zpow_pos _).le
        have : ((2 ^ 24 - 1 : ℕ) : K) = 2 ^ 24 - 1 := by norm_num
        rw [this]
        linarith
      · have m3 : (m : K) ≤ 2 ^ 23 + 1 := by
          have : m ≤ 2 ^ 23 + 1 := by omega
          exact_mod_cast this
        have z1 : (2 : K) ^ (e - 1) = 2 ^ e / 2 := by
          rw [zpow_sub₀ (by norm_num), zpow_one]
        rw [z1]
        refine le_trans (le_of_eq ?_) (close (m - ((2 ^ 24 - 1 : ℕ) : K) / 2) ?_)
        · rw [hme]; ring
        · have : ((2 ^ 24 - 1 : ℕ) : K) = 2 ^ 24 - 1 := by norm_num
          rw [this]
          linarith
    · obtain ⟨m', hf, hle, hd⟩ : ∃ m', FixedSig m' ∧ m' ≤ m ∧ m ≤ m' + 10 := by
        rcases lt_or_ge m 10485764 with h | h
        · refine ⟨min (5 * (m / 5)) 10485755, ?_, by omega, by omega⟩
          unfold FixedSig; omega
        · rcases lt_or_ge m 13981015 with h' | h'
          · refine ⟨min (5 * ((m + 1) / 5) - 1) 13981009, ?_, by omega, by omega⟩
            unfold FixedSig; omega
          · refine ⟨5 * (m / 5), ?_, by omega, by omega⟩
            unfold FixedSig; omega
      have hleK : (m' : K) ≤ m := by exact_mod_cast hle
      have hdK : (m : K) ≤ m' + 10 := by exact_mod_cast hd
      refine ⟨m' * 2 ^ e, fixed_of_sig hf (by omega), ?_, ?_⟩
      · rw [hme]; exact mul_le_mul_of_nonneg_right hleK hp.le
      · refine le_trans (le_of_eq ?_) (close (m - m') (by linarith))
        rw [hme]; ring
  · obtain ⟨m', hf, hle, hd⟩ : ∃ m', FixedSig m' ∧ m ≤ m' ∧ m' ≤ m + 10 := by
      rcases le_or_gt m 10485755 with h | h
      · refine ⟨max (5 * ((m + 4) / 5)) (2 ^ 23 + 2), ?_, by omega, by omega⟩
        unfold FixedSig; omega
      · rcases le_or_gt m 13981009 with h' | h'
        · refine ⟨max (5 * (m / 5) + 4) 10485764, ?_, by omega, by omega⟩
          unfold FixedSig; omega
        · refine ⟨max (5 * ((m + 4) / 5)) 13981015, ?_, by omega, by omega⟩
          unfold FixedSig; omega
    have hleK : (m : K) ≤ m' := by exact_mod_cast hle
    have hdK : (m' : K) ≤ m + 10 := by exact_mod_cast hd
    refine ⟨m' * 2 ^ e, fixed_of_sig hf (by omega), ?_, ?_⟩
    · rw [hme]; exact mul_le_mul_of_nonneg_right hleK hp.le
    · refine le_trans (le_of_eq ?_) (close (m' - m) (by linarith))
      rw [hme]; ring

end Binary32
end Barotropic
