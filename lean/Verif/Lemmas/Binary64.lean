import Verif.Model.Binary64
import Verif.Spec.Binary64
import Verif.Props.Filter

/-!
# Rounding to double precision
-/

set_option linter.unusedSectionVars false

namespace Barotropic
namespace Binary64

variable {K : Type*} [Field K] [LinearOrder K] [IsStrictOrderedRing K] [FloorRing K]

theorem pyRound_mono {x y : K} (h : x ≤ y) : pyRound x ≤ pyRound y := by
  by_contra hlt
  push Not at hlt
  have h1 := pyRound_spec x
  have h2 := pyRound_spec y
  have h3 : ((pyRound y : ℤ) : K) + 1 ≤ pyRound x := by exact_mod_cast hlt
  have a1 := abs_le.mp h1.1
  have a2 := abs_le.mp h2.1
  have e1 : x - pyRound x = -(1 / 2) := by linarith
  have e2 : y - pyRound y = 1 / 2 := by linarith
  have e3 : ((pyRound y : ℤ) : K) + 1 = pyRound x := by linarith
  have e4 : pyRound y + 1 = pyRound x := by exact_mod_cast e3
  have i1 := h1.2 (by rw [e1, abs_neg, abs_of_pos (by norm_num)])
  have i2 := h2.2 (by rw [e2, abs_of_pos (by norm_num)])
  rw [← e4] at i1
  exact absurd i2 (by have := Int.even_add_one.mp i1; exact this)

theorem pyRound_int (n : ℤ) : pyRound (n : K) = n := by
  rw [C67_round]
  unfold IsRounded
  simp

theorem pyRound_neg (x : K) : pyRound (-x) = -pyRound x := by
  rw [C67_round]
  have h := pyRound_spec x
  unfold IsRounded
  push_cast
  rw [show -x - -(pyRound x : K) = -(x - pyRound x) by ring, abs_neg]
  exact ⟨h.1, fun e => (h.2 e).neg⟩

theorem two_zpow_pos (e : ℤ) : (0 : K) < 2 ^ e := zpow_pos (by norm_num) e

theorem lastBit_neg (x : K) : lastBit (-x) = lastBit x := by unfold lastBit; rw [abs_neg]

theorem rnd_neg (x : K) : rnd (-x) = -rnd x := by
  unfold rnd
  rw [lastBit_neg, neg_div, pyRound_neg]
  push_cast
  ring

theorem rnd_zero : rnd (0 : K) = 0 := by
  unfold rnd
  rw [zero_div, show (0 : K) = ((0 : ℤ) : K) by norm_num, pyRound_int]
  simp

/-- A positive number in units of its last bit -/
theorem scaled_mem {x : K} (hx : 0 < x) : 2 ^ 52 ≤ x / 2 ^ lastBit x ∧ x / 2 ^ lastBit x < 2 ^ 53 := by
  have h1 := Int.zpow_log_le_self (b := 2) (by norm_num) hx
  have h2 := Int.lt_zpow_succ_log_self (b := 2) (by norm_num) x
  unfold lastBit
  rw [abs_of_pos hx, le_div_iff₀ (two_zpow_pos _), div_lt_iff₀ (two_zpow_pos _)]
  push_cast at h1 h2
  constructor
  · rw [show (2 : K) ^ 52 = 2 ^ (52 : ℤ) by norm_num, ← zpow_add₀ (by norm_num)]
    rwa [show (52 : ℤ) + (Int.log 2 x - 52) = Int.log 2 x by ring]
  · rw [show (2 : K) ^ 53 = 2 ^ (53 : ℤ) by norm_num, ← zpow_add₀ (by norm_num)]
    rwa [show (53 : ℤ) + (Int.log 2 x - 52) = Int.log 2 x + 1 by ring]

theorem scaled_round {x : K} (hx : 0 < x) :
    2 ^ 52 ≤ pyRound (x / 2 ^ lastBit x) ∧ pyRound (x / 2 ^ lastBit x) ≤ 2 ^ 53 := by
  obtain ⟨h1, h2⟩ := scaled_mem hx
  constructor
  · have := pyRound_mono h1
    rwa [show (2 : K) ^ 52 = ((2 ^ 52 : ℤ) : K) by norm_num, pyRound_int] at this
  · have := pyRound_mono h2.le
    rwa [show (2 : K) ^ 53 = ((2 ^ 53 : ℤ) : K) by norm_num, pyRound_int] at this

/-- A double that is not below the binade of `x` is a multiple of the last bit of `x`. -/
theorem double_mult {x z : K} (hx : 0 < x) (hz : IsDouble z) (h : 2 ^ 52 * 2 ^ lastBit x ≤ z) : ∃ n : ℤ, z = n * 2 ^ lastBit x := by
  obtain ⟨m, e, hm, rfl⟩ := hz
  have hmK : (m : K) ≤ 2 ^ 53 := by
    have : m ≤ 2 ^ 53 := (le_abs_self m).trans hm
    exact_mod_cast this
  set b := lastBit x with hb
  by_cases he : b ≤ e
  · refine ⟨m * 2 ^ (e - b).toNat, ?_⟩
    push_cast
    rw [mul_assoc, ← zpow_natCast, Int.toNat_of_nonneg (by omega), ← zpow_add₀ (by norm_num)]
    congr 2
    omega
  · push Not at he
    have h2 : (2 : K) ^ e ≤ 2 ^ (b - 1) := zpow_le_zpow_right₀ (by norm_num) (by omega)
    have h3 : (2 : K) ^ b = 2 * 2 ^ (b - 1) := by
      rw [show b = 1 + (b - 1) by ring, zpow_add₀ (by norm_num)]; norm_num
    have hp : (0 : K) < 2 ^ (b - 1) := two_zpow_pos _
    have hpe : (0 : K) < 2 ^ e := two_zpow_pos _
    have h4 : (m : K) * 2 ^ e ≤ 2 ^ 53 * 2 ^ (b - 1) :=
      (mul_le_mul_of_nonneg_right hmK hpe.le).trans (mul_le_mul_of_nonneg_left h2 (by norm_num))
    refine ⟨2 ^ 52, ?_⟩
    rw [Int.cast_pow, Int.cast_ofNat]
    refine le_antisymm (h4.trans (le_of_eq ?_)) h
    rw [h3]; ring

theorem rnd_pos_mem {x : K} (hx : 0 < x) : 2 ^ 52 * 2 ^ lastBit x ≤ rnd x ∧ rnd x ≤ 2 ^ 53 * 2 ^ lastBit x := by
  obtain ⟨h1, h2⟩ := scaled_round hx
  unfold rnd
  constructor
  · refine mul_le_mul_of_nonneg_right ?_ (two_zpow_pos _).le
    exact_mod_cast h1
  · refine mul_le_mul_of_nonneg_right ?_ (two_zpow_pos _).le
    exact_mod_cast h2

theorem rnd_pos {x : K} (hx : 0 < x) : 0 < rnd x :=
  lt_of_lt_of_le (mul_pos (by norm_num) (two_zpow_pos _)) (rnd_pos_mem hx).1

theorem rnd_nonneg {x : K} (hx : 0 ≤ x) : 0 ≤ rnd x := by
  rcases hx.eq_or_lt with rfl | h
  · rw [rnd_zero]
  · exact (rnd_pos h).le

/-- Half a unit in the last place -/
theorem rnd_err (x : K) : |x - rnd x| ≤ 2 ^ lastBit x / 2 := by
  have h := (pyRound_spec (x / 2 ^ lastBit x)).1
  have hp : (0 : K) < 2 ^ lastBit x := two_zpow_pos _
  unfold rnd
  have e : x - pyRound (x / 2 ^ lastBit x) * 2 ^ lastBit x = (x / 2 ^ lastBit x - pyRound (x / 2 ^ lastBit x)) * 2 ^ lastBit x := by
    field_simp
  rw [e, abs_mul, abs_of_pos hp]
  calc _ ≤ 1 / 2 * 2 ^ lastBit x := mul_le_mul_of_nonneg_right h hp.le
    _ = _ := by ring

theorem rnd_rel (x : K) : |x - rnd x| ≤ |x| / 2 ^ 53 := by
  have key : ∀ x : K, 0 < x → |x - rnd x| ≤ |x| / 2 ^ 53 := by
    intro x hx
    have h1 := (scaled_mem hx).1
    rw [le_div_iff₀ (two_zpow_pos _)] at h1
    refine (rnd_err x).trans ?_
    rw [abs_of_pos hx, div_le_div_iff₀ (by norm_num) (by norm_num)]
    linarith
  rcases lt_trichotomy x 0 with h | h | h
  · have := key (-x) (by linarith)
    rw [rnd_neg, abs_neg, show -x - -rnd x = -(x - rnd x) by ring, abs_neg] at this
    exact this
  · subst h; rw [rnd_zero]; simp
  · exact key x h

theorem rnd_mono {x y : K} (h : x ≤ y) : rnd x ≤ rnd y := by
  have key : ∀ x y : K, 0 < x → x ≤ y → rnd x ≤ rnd y := by
    intro x y hx h
    have hy := hx.trans_le h
    have hl : lastBit x ≤ lastBit y := by
      unfold lastBit
      rw [abs_of_pos hx, abs_of_pos hy]
      have := Int.log_mono_right (b := 2) hx h
      omega
    rcases hl.eq_or_lt with e | e
    · unfold rnd
      rw [e]
      refine mul_le_mul_of_nonneg_right ?_ (two_zpow_pos _).le
      exact_mod_cast pyRound_mono (div_le_div_of_nonneg_right h (two_zpow_pos _).le)
    · refine (rnd_pos_mem hx).2.trans (le_trans ?_ (rnd_pos_mem hy).1)
      have h1 : (2 : K) ^ lastBit x ≤ 2 ^ (lastBit y - 1) := zpow_le_zpow_right₀ (by norm_num) (by omega)
      have h2 : (2 : K) ^ lastBit y = 2 * 2 ^ (lastBit y - 1) := by
        rw [show lastBit y = 1 + (lastBit y - 1) by ring, zpow_add₀ (by norm_num)]; norm_num
      rw [h2]
      calc _ ≤ (2 : K) ^ 53 * 2 ^ (lastBit y - 1) := mul_le_mul_of_nonneg_left h1 (by norm_num)
        _ = _ := by ring
  rcases lt_or_ge 0 x with hx | hx
  · exact key x y hx h
  rcases lt_or_ge y 0 with hy | hy
  · have := key (-y) (-x) (by linarith) (by linarith)
    rw [rnd_neg, rnd_neg] at this
    linarith
  · have h1 : rnd x ≤ 0 := by
      have := rnd_nonneg (x := -x) (by linarith)
      rw [rnd_neg] at this
      linarith
    exact h1.trans (rnd_nonneg hy)

theorem isDouble_neg {x : K} (h : IsDouble x) : IsDouble (-x) := by
  obtain ⟨m, e, hm, rfl⟩ := h
  exact ⟨-m, e, by rwa [abs_neg], by push_cast; ring⟩

theorem rnd_isDouble (x : K) : IsDouble (rnd x) := by
  rcases lt_trichotomy x 0 with h | h | h
  · have := scaled_round (x := -x) (by linarith)
    rw [← neg_neg x, rnd_neg]
    refine isDouble_neg ⟨_, _, ?_, rfl⟩
    rw [abs_of_nonneg (by omega)]
    exact this.2
  · subst h
    exact ⟨0, 0, by norm_num, by rw [rnd_zero]; simp⟩
  · have := scaled_round h
    exact ⟨_, _, by rw [abs_of_nonneg (by omega)]; exact this.2, rfl⟩

/-- Doubles are not changed. -/
theorem rnd_double {x : K} (h : IsDouble x) : rnd x = x := by
  have key : ∀ x : K, 0 < x → IsDouble x → rnd x = x := by
    intro x hx h
    have h1 := (scaled_mem hx).1
    rw [le_div_iff₀ (two_zpow_pos _)] at h1
    obtain ⟨n, hn⟩ := double_mult hx h h1
    have hp : (2 : K) ^ lastBit x ≠ 0 := (two_zpow_pos _).ne'
    have e : x / 2 ^ lastBit x = n := by
      rw [div_eq_iff hp]; exact hn
    unfold rnd
    rw [e, pyRound_int]
    exact hn.symm
  rcases lt_trichotomy x 0 with hx | hx | hx
  · have := key (-x) (by linarith) (isDouble_neg h)
    rw [rnd_neg] at this
    exact neg_injective this
  · subst hx; exact rnd_zero
  · exact key x hx h

theorem rnd_nearest_pos {x : K} (hx : 0 < x) : IsNearest x (rnd x) := by
  have hp : (0 : K) < 2 ^ lastBit x := two_zpow_pos _
  obtain ⟨s1, s2⟩ := scaled_mem hx
  obtain ⟨r1, r2⟩ := scaled_round hx
  obtain ⟨p1, p2⟩ := pyRound_spec (x / 2 ^ lastBit x)
  set b := lastBit x with hb
  set X := x / 2 ^ b with hX
  have hxX : x = X * 2 ^ b := by rw [hX]; field_simp
  have hr : rnd x = pyRound X * 2 ^ b := by unfold rnd; rw [← hb, ← hX]
  have near : ∀ n : ℤ, |X - pyRound X| ≤ |X - n| := by
    intro n
    rcases eq_or_ne n (pyRound X) with rfl | hne
    · exact le_rfl
    · have h1 : (1 : K) ≤ |(n : K) - pyRound X| := by
        have : 1 ≤ |n - pyRound X| := Int.one_le_abs (sub_ne_zero.mpr hne)
        exact_mod_cast this
      have h2 : |(n : K) - pyRound X| ≤ |X - n| + |X - pyRound X| := by
        rw [abs_sub_comm X n]; exact abs_sub_le _ _ _
      linarith
  have dist : ∀ n : ℤ, |x - n * 2 ^ b| = |X - n| * 2 ^ b := by
    intro n
    rw [hxX, ← sub_mul, abs_mul, abs_of_pos hp]
  have low : ∀ z, z < 2 ^ 52 * 2 ^ b → |x - rnd x| < |x - z| := by
    intro z hz
    have h1 : 2 ^ 52 * 2 ^ b ≤ x := by rw [hxX]; exact mul_le_mul_of_nonneg_right s1 hp.le
    have h2 : |x - rnd x| ≤ |x - ((2 ^ 52 : ℤ) : K) * 2 ^ b| := by
      rw [hr, dist, dist]
      exact mul_le_mul_of_nonneg_right (near _) hp.le
    refine h2.trans_lt ?_
    push_cast
    rw [abs_of_nonneg (by linarith), abs_of_nonneg (by linarith)]
    linarith
  refine ⟨rnd_isDouble x, fun z hz => ?_, fun z hz hne he => ?_⟩
  · rcases lt_or_ge z (2 ^ 52 * 2 ^ b) with h | h
    · exact (low z h).le
    · obtain ⟨n, rfl⟩ := double_mult hx hz h
      rw [hr, ← hb, dist, dist]
      exact mul_le_mul_of_nonneg_right (near _) hp.le
  · rcases lt_or_ge z (2 ^ 52 * 2 ^ b) with h | h
    · exact absurd he (low z h).ne
    · obtain ⟨n, rfl⟩ := double_mult hx hz h
      refine ⟨pyRound X, b, by rwa [abs_of_nonneg (by omega)], by rwa [abs_of_nonneg (by omega)], p2 ?_, hr⟩
      rw [hr, ← hb, dist, dist] at he
      have he' := mul_right_cancel₀ hp.ne' he
      have hn : n ≠ pyRound X := by
        rintro rfl
        exact hne hr.symm
      have h1 : (1 : K) ≤ |(n : K) - pyRound X| := by
        have : 1 ≤ |n - pyRound X| := Int.one_le_abs (sub_ne_zero.mpr hn)
        exact_mod_cast this
      have h2 : |(n : K) - pyRound X| ≤ |X - n| + |X - pyRound X| := by
        rw [abs_sub_comm X n]; exact abs_sub_le _ _ _
      linarith

theorem rnd_nearest (x : K) : IsNearest x (rnd x) := by
  rcases lt_trichotomy x 0 with h | h | h
  · obtain ⟨h1, h2, h3⟩ := rnd_nearest_pos (x := -x) (by linarith)
    rw [rnd_neg] at h1 h2 h3
    have e : ∀ z : K, |-x - -z| = |x - z| := fun z => by rw [show -x - -z = -(x - z) by ring, abs_neg]
    refine ⟨rnd_isDouble x, fun z hz => ?_, fun z hz hne he => ?_⟩
    · have := h2 (-z) (isDouble_neg hz)
      rwa [e, e] at this
    · obtain ⟨m, k, a, b, c, d⟩ := h3 (-z) (isDouble_neg hz) (fun hh => hne (neg_injective hh)) (by rw [e, e]; exact he)
      exact ⟨-m, k, by rwa [abs_neg], by rwa [abs_neg], c.neg, by push_cast; linarith⟩
  · subst h
    rw [rnd_zero]
    refine ⟨⟨0, 0, by norm_num, by simp⟩, fun z _ => by simp, fun z _ hne he => ?_⟩
    simp only [sub_zero, abs_zero, zero_sub, abs_neg] at he
    exact absurd (abs_eq_zero.mp he.symm) hne
  · exact rnd_nearest_pos h

theorem isDouble_int {n : ℤ} (h : |n| ≤ 2 ^ 53) : IsDouble (n : K) := ⟨n, 0, h, by simp⟩

theorem isDouble_dyadic {s : ℕ} {x : K} (h : Dyadic s x) (hx : |x| * 2 ^ s ≤ 2 ^ 53) : IsDouble x := by
  obtain ⟨m, rfl⟩ := h
  refine ⟨m, -s, ?_, by rw [zpow_neg, zpow_natCast, div_eq_mul_inv]⟩
  have hp : (0 : K) < 2 ^ s := by positivity
  rw [abs_div, abs_of_pos hp, div_mul_cancel₀ _ hp.ne'] at hx
  exact_mod_cast hx

end Binary64
end Barotropic
