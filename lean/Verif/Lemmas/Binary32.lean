import Verif.Model.Binary32
import Verif.Spec.Binary32
import Verif.Lemmas.Binary64

/-!
# Rounding to single precision
-/

set_option linter.unusedSectionVars false

namespace Barotropic
namespace Binary32

open Binary64 (pyRound_mono pyRound_int pyRound_neg two_zpow_pos)

variable {K : Type*} [Field K] [LinearOrder K] [IsStrictOrderedRing K] [FloorRing K]

theorem lastBit_neg (x : K) : lastBit (-x) = lastBit x := by unfold lastBit; rw [abs_neg]

theorem rnd_neg (x : K) : rnd (-x) = -rnd x := by
  unfold rnd
  rw [lastBit_neg, neg_div, pyRound_neg]
  push_cast
  ring

theorem rnd_zero : rnd (0 : K) = 0 := by
  unfold rnd
  rw [zero_div, show (0 : K) = ((0 : ℤ) : K) by norm_num, pyRound_int]
  simp

theorem lastBit_ge (x : K) : -149 ≤ lastBit x := le_max_right _ _

/-- A positive number in units of its last bit -/
theorem scaled_lt {x : K} (hx : 0 < x) : x / 2 ^ lastBit x < 2 ^ 24 := by
  have h2 := Int.lt_zpow_succ_log_self (b := 2) (by norm_num) x
  rw [div_lt_iff₀ (two_zpow_pos _)]
  push_cast at h2
  refine h2.trans_le ?_
  rw [show (2 : K) ^ 24 = 2 ^ (24 : ℤ) by norm_num, ← zpow_add₀ (by norm_num)]
  refine zpow_le_zpow_right₀ (by norm_num) ?_
  have : Int.log 2 |x| - 23 ≤ lastBit x := le_max_left _ _
  rw [abs_of_pos hx] at this
  omega

theorem scaled_ge {x : K} (hx : 0 < x) (h : -149 < lastBit x) : 2 ^ 23 ≤ x / 2 ^ lastBit x := by
  have h1 := Int.zpow_log_le_self (b := 2) (by norm_num) hx
  push_cast at h1
  have e : lastBit x = Int.log 2 x - 23 := by
    have e : lastBit x = max (Int.log 2 |x| - 23) (-149) := rfl
    rw [abs_of_pos hx] at e
    omega
  rw [le_div_iff₀ (two_zpow_pos _), e, show (2 : K) ^ 23 = 2 ^ (23 : ℤ) by norm_num, ← zpow_add₀ (by norm_num)]
  rwa [show (23 : ℤ) + (Int.log 2 x - 23) = Int.log 2 x by ring]

theorem scaled_round {x : K} (hx : 0 < x) :
    0 ≤ pyRound (x / 2 ^ lastBit x) ∧ (-149 < lastBit x → 2 ^ 23 ≤ pyRound (x / 2 ^ lastBit x)) ∧ pyRound (x / 2 ^ lastBit x) ≤ 2 ^ 24 := by
  refine ⟨?_, fun h => ?_, ?_⟩
  · have := pyRound_mono (div_nonneg hx.le (two_zpow_pos (lastBit x)).le)
    rwa [show (0 : K) = ((0 : ℤ) : K) by norm_num, pyRound_int] at this
  · have := pyRound_mono (scaled_ge hx h)
    rwa [show (2 : K) ^ 23 = ((2 ^ 23 : ℤ) : K) by norm_num, pyRound_int] at this
  · have := pyRound_mono (scaled_lt hx).le
    rwa [show (2 : K) ^ 24 = ((2 ^ 24 : ℤ) : K) by norm_num, pyRound_int] at this

theorem rnd_nonneg {x : K} (hx : 0 ≤ x) : 0 ≤ rnd x := by
  rcases hx.eq_or_lt with rfl | h
  · rw [rnd_zero]
  · unfold rnd
    exact mul_nonneg (by exact_mod_cast (scaled_round h).1) (two_zpow_pos _).le

/-- Half a unit in the last place -/
theorem rnd_err (x : K) : |x - rnd x| ≤ 2 ^ lastBit x / 2 := by
  have h := (pyRound_spec (x / 2 ^ lastBit x)).1
  have hp : (0 : K) < 2 ^ lastBit x := two_zpow_pos _
  unfold rnd
  have e : x - pyRound (x / 2 ^ lastBit x) * 2 ^ lastBit x = (x / 2 ^ lastBit x - pyRound (x / 2 ^ lastBit x)) * 2 ^ lastBit x := by
    field_simp
  rw [e, abs_mul, abs_of_pos hp]
  calc _ ≤ 1 / 2 * 2 ^ lastBit x := mul_le_mul_of_nonneg_right h hp.le
    _ = _ := by ring

/-- Relative error of numbers above the smallest normal number, absolute error below -/
theorem rnd_rel {x : K} (hx : 0 < x) : |x - rnd x| ≤ x / 2 ^ 24 ∨ (x < 2 ^ (-126 : ℤ) ∧ |x - rnd x| ≤ 2 ^ (-150 : ℤ)) := by
  rcases (lastBit_ge x).eq_or_lt with h | h
  · have h1 := rnd_err x
    rw [← h] at h1
    have e : (2 : K) ^ (-149 : ℤ) / 2 = 2 ^ (-150 : ℤ) := by
      rw [show (-149 : ℤ) = 1 + -150 by norm_num, zpow_add₀ (by norm_num), zpow_one]; ring
    rw [e] at h1
    rcases lt_or_ge x (2 ^ (-126 : ℤ)) with hs | hs
    · exact .inr ⟨hs, h1⟩
    · refine .inl (h1.trans ?_)
      rw [le_div_iff₀ (by norm_num)]
      refine le_trans (le_of_eq ?_) hs
      rw [show (2 : K) ^ 24 = 2 ^ (24 : ℤ) by norm_num, ← zpow_add₀ (by norm_num)]
      norm_num
  · left
    have h1 := scaled_ge hx h
    rw [le_div_iff₀ (two_zpow_pos _)] at h1
    refine (rnd_err x).trans ?_
    rw [div_le_div_iff₀ (by norm_num) (by norm_num)]
    linarith

theorem rnd_mono {x y : K} (h : x ≤ y) : rnd x ≤ rnd y := by
  have key : ∀ x y : K, 0 < x → x ≤ y → rnd x ≤ rnd y := by
    intro x y hx h
    have hy := hx.trans_le h
    have hl : lastBit x ≤ lastBit y := by
      unfold lastBit
      rw [abs_of_pos hx, abs_of_pos hy]
      have := Int.log_mono_right (b := 2) hx h
      exact max_le_max (by omega) le_rfl
    rcases hl.eq_or_lt with e | e
    · unfold rnd
      rw [e]
      refine mul_le_mul_of_nonneg_right ?_ (two_zpow_pos _).le
      exact_mod_cast pyRound_mono (div_le_div_of_nonneg_right h (two_zpow_pos _).le)
    · have a1 : rnd x ≤ 2 ^ 24 * 2 ^ lastBit x := by
        unfold rnd
        exact mul_le_mul_of_nonneg_right (by exact_mod_cast (scaled_round hx).2.2) (two_zpow_pos _).le
      have a2 : 2 ^ 23 * 2 ^ lastBit y ≤ rnd y := by
        unfold rnd
        exact mul_le_mul_of_nonneg_right (by exact_mod_cast (scaled_round hy).2.1 (lt_of_le_of_lt (lastBit_ge x) e)) (two_zpow_pos _).le
      refine a1.trans (le_trans ?_ a2)
      have h1 : (2 : K) ^ lastBit x ≤ 2 ^ (lastBit y - 1) := zpow_le_zpow_right₀ (by norm_num) (by omega)
      have h2 : (2 : K) ^ lastBit y = 2 * 2 ^ (lastBit y - 1) := by
        rw [show lastBit y = 1 + (lastBit y - 1) by ring, zpow_add₀ (by norm_num)]; norm_num
      rw [h2]
      calc _ ≤ (2 : K) ^ 24 * 2 ^ (lastBit y - 1) := mul_le_mul_of_nonneg_left h1 (by norm_num)
        _ = _ := by ring
  rcases lt_or_ge 0 x with hx | hx
  · exact key x y hx h
  rcases lt_or_ge y 0 with hy | hy
  · have := key (-y) (-x) (by linarith) (by linarith)
    rw [rnd_neg, rnd_neg] at this
    linarith
  · have h1 : rnd x ≤ 0 := by
      have := rnd_nonneg (x := -x) (by linarith)
      rw [rnd_neg] at this
      linarith
    exact h1.trans (rnd_nonneg hy)

theorem isSingle_neg {x : K} (h : IsSingle x) : IsSingle (-x) := by
  obtain ⟨m, e, hm, he, rfl⟩ := h
  exact ⟨-m, e, by rwa [abs_neg], he, by push_cast; ring⟩

theorem rnd_isSingle (x : K) : IsSingle (rnd x) := by
  rcases lt_trichotomy x 0 with h | h | h
  · have := scaled_round (x := -x) (by linarith)
    rw [← neg_neg x, rnd_neg]
    refine isSingle_neg ⟨_, _, ?_, lastBit_ge _, rfl⟩
    rw [abs_of_nonneg this.1]
    exact this.2.2
  · subst h
    exact ⟨0, 0, by norm_num, by norm_num, by rw [rnd_zero]; simp⟩
  · have := scaled_round h
    exact ⟨_, _, by rw [abs_of_nonneg this.1]; exact this.2.2, lastBit_ge _, rfl⟩

/-- A single that is not below the binade of `x` is a multiple of the last bit of `x`. -/
theorem single_mult {x z : K} (hz : IsSingle z) (h : lastBit x = -149 ∨ 2 ^ 23 * 2 ^ lastBit x ≤ z) : ∃ n : ℤ, z = n * 2 ^ lastBit x := by
  obtain ⟨m, e, hm, he149, rfl⟩ := hz
  have hmK : (m : K) ≤ 2 ^ 24 := by
    have : m ≤ 2 ^ 24 := (le_abs_self m).trans hm
    exact_mod_cast this
  obtain ⟨b, hb⟩ : ∃ b, b = lastBit x := ⟨_, rfl⟩
  rw [← hb] at h ⊢
  by_cases he : b ≤ e
  · refine ⟨m * 2 ^ (e - b).toNat, ?_⟩
    push_cast
    rw [mul_assoc, ← zpow_natCast, Int.toNat_of_nonneg (by omega), ← zpow_add₀ (by norm_num)]
    congr 2
    omega
  · push Not at he
    rcases h with h | h
    · omega
    have h2 : (2 : K) ^ e ≤ 2 ^ (b - 1) := zpow_le_zpow_right₀ (by norm_num) (by omega)
    have h3 : (2 : K) ^ b = 2 * 2 ^ (b - 1) := by
      rw [show b = 1 + (b - 1) by ring, zpow_add₀ (by norm_num)]; norm_num
    have hp : (0 : K) < 2 ^ (b - 1) := two_zpow_pos _
    have hpe : (0 : K) < 2 ^ e := two_zpow_pos _
    have h4 : (m : K) * 2 ^ e ≤ 2 ^ 24 * 2 ^ (b - 1) :=
      (mul_le_mul_of_nonneg_right hmK hpe.le).trans (mul_le_mul_of_nonneg_left h2 (by norm_num))
    refine ⟨2 ^ 23, ?_⟩
    rw [Int.cast_pow, Int.cast_ofNat]
    refine le_antisymm (h4.trans (le_of_eq ?_)) h
    rw [h3]; ring

/-- Single precision numbers are not changed. -/
theorem rnd_single {x : K} (h : IsSingle x) : rnd x = x := by
  have key : ∀ x : K, 0 < x → IsSingle x → rnd x = x := by
    intro x hx h
    have h1 : lastBit x = -149 ∨ 2 ^ 23 * 2 ^ lastBit x ≤ x := by
      rcases (lastBit_ge x).eq_or_lt with e | e
      · exact .inl e.symm
      · have h1 := scaled_ge hx e
        rw [le_div_iff₀ (two_zpow_pos _)] at h1
        exact .inr h1
    obtain ⟨n, hn⟩ := single_mult h h1
    have hp : (2 : K) ^ lastBit x ≠ 0 := (two_zpow_pos _).ne'
    have e : x / 2 ^ lastBit x = n := by
      rw [div_eq_iff hp]; exact hn
    unfold rnd
    rw [e, pyRound_int]
    exact hn.symm
  rcases lt_trichotomy x 0 with hx | hx | hx
  · have := key (-x) (by linarith) (isSingle_neg h)
    rw [rnd_neg] at this
    exact neg_injective this
  · subst hx; exact rnd_zero
  · exact key x hx h

theorem rnd_nearest_pos {x : K} (hx : 0 < x) : IsNearestSingle x (rnd x) := by
  have hp : (0 : K) < 2 ^ lastBit x := two_zpow_pos _
  have hge : -149 < lastBit x → 2 ^ 23 ≤ x / 2 ^ lastBit x := scaled_ge hx
  obtain ⟨r0, r1, r2⟩ := scaled_round hx
  obtain ⟨p1, p2⟩ := pyRound_spec (x / 2 ^ lastBit x)
  have b149 := lastBit_ge x
  have mult : ∀ z : K, IsSingle z → lastBit x = -149 ∨ 2 ^ 23 * 2 ^ lastBit x ≤ z → ∃ n : ℤ, z = n * 2 ^ lastBit x := fun z => single_mult
  have hr0 : rnd x = pyRound (x / 2 ^ lastBit x) * 2 ^ lastBit x := rfl
  obtain ⟨b, hb⟩ : ∃ b, b = lastBit x := ⟨_, rfl⟩
  rw [← hb] at hp hge r0 r1 r2 p1 p2 b149 mult hr0
  obtain ⟨X, hX⟩ : ∃ X, X = x / 2 ^ b := ⟨_, rfl⟩
  rw [← hX] at hge r0 r1 r2 p1 p2 hr0
  have hxX : x = X * 2 ^ b := by rw [hX]; field_simp
  have near : ∀ n : ℤ, |X - pyRound X| ≤ |X - n| := by
    intro n
    rcases eq_or_ne n (pyRound X) with rfl | hne
    · exact le_rfl
    · have h1 : (1 : K) ≤ |(n : K) - pyRound X| := by
        have : 1 ≤ |n - pyRound X| := Int.one_le_abs (sub_ne_zero.mpr hne)
        exact_mod_cast this
      have h2 : |(n : K) - pyRound X| ≤ |X - n| + |X - pyRound X| := by
        rw [abs_sub_comm X n]; exact abs_sub_le _ _ _
      linarith
  have dist : ∀ n : ℤ, |x - n * 2 ^ b| = |X - n| * 2 ^ b := by
    intro n
    rw [hxX, ← sub_mul, abs_mul, abs_of_pos hp]
  have low : -149 < b → ∀ z : K, z < 2 ^ 23 * 2 ^ b → |x - rnd x| < |x - z| := by
    intro hb149 z hz
    have h1 : 2 ^ 23 * 2 ^ b ≤ x := by rw [hxX]; exact mul_le_mul_of_nonneg_right (hge hb149) hp.le
    have h2 : |x - rnd x| ≤ |x - ((2 ^ 23 : ℤ) : K) * 2 ^ b| := by
      rw [hr0, dist, dist]
      exact mul_le_mul_of_nonneg_right (near _) hp.le
    refine h2.trans_lt ?_
    push_cast
    rw [abs_of_nonneg (by linarith), abs_of_nonneg (by linarith)]
    linarith
  have cases' : ∀ z : K, IsSingle z → (∃ n : ℤ, z = n * 2 ^ b) ∨ |x - rnd x| < |x - z| := by
    intro z hz
    rcases b149.eq_or_lt with h | h
    · exact .inl (mult z hz (.inl h.symm))
    rcases lt_or_ge z (2 ^ 23 * 2 ^ b) with h' | h'
    · exact .inr (low h z h')
    · exact .inl (mult z hz (.inr h'))
  refine ⟨rnd_isSingle x, fun z hz => ?_, fun z hz hne he => ?_⟩
  · rcases cases' z hz with ⟨n, rfl⟩ | h
    · rw [hr0, dist, dist]
      exact mul_le_mul_of_nonneg_right (near _) hp.le
    · exact h.le
  · rcases cases' z hz with ⟨n, rfl⟩ | h
    · refine ⟨pyRound X, b, ?_, by rwa [abs_of_nonneg r0], b149, p2 ?_, hr0⟩
      · rcases b149.eq_or_lt with h | h
        · exact .inr h.symm
        · left; rw [abs_of_nonneg r0]; exact r1 h
      rw [hr0, dist, dist] at he
      have he' := mul_right_cancel₀ hp.ne' he
      have hn : n ≠ pyRound X := by
        rintro rfl
        exact hne hr0.symm
      have h1 : (1 : K) ≤ |(n : K) - pyRound X| := by
        have : 1 ≤ |n - pyRound X| := Int.one_le_abs (sub_ne_zero.mpr hn)
        exact_mod_cast this
      have h2 : |(n : K) - pyRound X| ≤ |X - n| + |X - pyRound X| := by
        rw [abs_sub_comm X n]; exact abs_sub_le _ _ _
      linarith
    · exact absurd he h.ne

theorem rnd_nearest (x : K) : IsNearestSingle x (rnd x) := by
  rcases lt_trichotomy x 0 with h | h | h
  · obtain ⟨h1, h2, h3⟩ := rnd_nearest_pos (x := -x) (by linarith)
    rw [rnd_neg] at h1 h2 h3
    have e : ∀ z : K, |-x - -z| = |x - z| := fun z => by rw [show -x - -z = -(x - z) by ring, abs_neg]
    refine ⟨rnd_isSingle x, fun z hz => ?_, fun z hz hne he => ?_⟩
    · have := h2 (-z) (isSingle_neg hz)
      rwa [e, e] at this
    · obtain ⟨m, k, a, b, b', c, d⟩ := h3 (-z) (isSingle_neg hz) (fun hh => hne (neg_injective hh)) (by rw [e, e]; exact he)
      exact ⟨-m, k, by rwa [abs_neg], by rwa [abs_neg], b', c.neg, by push_cast; linarith⟩
  · subst h
    rw [rnd_zero]
    refine ⟨⟨0, 0, by norm_num, by norm_num, by simp⟩, fun z _ => by simp, fun z _ hne he => ?_⟩
    simp only [sub_zero, abs_zero, zero_sub, abs_neg] at he
    exact absurd (abs_eq_zero.mp he.symm) hne
  · exact rnd_nearest_pos h

theorem isSingle_two_zpow {e : ℤ} (h : -149 ≤ e) : IsSingle ((2 : K) ^ e) := ⟨1, e, by norm_num, h, by simp⟩

theorem isSingle_one : IsSingle (1 : K) := ⟨1, 0, by norm_num, by norm_num, by simp⟩

end Binary32
end Barotropic
