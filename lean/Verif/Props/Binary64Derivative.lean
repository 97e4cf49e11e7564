import Verif.Model.Binary64Derivative
import Verif.Lemmas.Binary64Sum

set_option linter.unusedSectionVars false

/-!
# C137: meridional derivative in double precision
-/

namespace Barotropic
open Binary64

variable {K : Type*} [Field K] [LinearOrder K] [IsStrictOrderedRing K] [FloorRing K]

/-- Sum of the sizes of the coefficients -/
def weightSum (l : List (ℤ × ℕ)) : ℤ := (l.map fun p => |p.1|).sum

theorem foldl_close {f : ℕ → K} {M : K} (hM0 : 0 ≤ M) (l : List (ℤ × ℕ)) (hM : ∀ p ∈ l, |f p.2| ≤ M) :
    ∀ (k : ℕ) (b x acc : K), 1 ≤ k → |x| ≤ b → Close k b x acc →
      Close (k + l.length) (b + weightSum l * M) (x + (l.map fun p => p.1 * f p.2).sum)
        (l.foldl (fun acc p => rnd (acc + rnd (p.1 * f p.2))) acc) ∧
      |x + (l.map fun p => p.1 * f p.2).sum| ≤ b + weightSum l * M := by
  induction l with
  | nil => intro k b x acc _ hx h; simpa [weightSum] using ⟨h, hx⟩
  | cons p l ih =>
    intro k b x acc hk hx h
    have ht : |(p.1 : K) * f p.2| ≤ (|p.1| : ℤ) * M := by
      rw [abs_mul, Int.cast_abs]; exact mul_le_mul_of_nonneg_left (hM p (by simp)) (abs_nonneg _)
    have hw : (0 : K) ≤ (|p.1| : ℤ) * M := (abs_nonneg _).trans ht
    have h1 : Close k ((|p.1| : ℤ) * M) ((p.1 : K) * f p.2) (rnd (p.1 * f p.2)) := ((Close.refl _ _).rnd ht).mono hw (by omega)
    have hxb : |x + (p.1 : K) * f p.2| ≤ b + (|p.1| : ℤ) * M := (abs_add_le _ _).trans (add_le_add hx ht)
    have := ih (fun q hq => hM q (List.mem_cons_of_mem _ hq)) (k + 1) _ _ _ (by omega) hxb ((h.add h1).rnd hxb)
    have e1 : x + (p.1 : K) * f p.2 + (l.map fun p => p.1 * f p.2).sum = x + ((p :: l).map fun p => p.1 * f p.2).sum := by simp [add_assoc]
    have e2 : b + (|p.1| : ℤ) * M + weightSum l * M = b + weightSum (p :: l) * M := by simp [weightSum, Int.cast_add]; ring
    rw [e1, e2] at this
    rw [List.length_cons, List.foldl_cons, show k + (l.length + 1) = k + 1 + l.length by ring]
    exact this

theorem combine_close {f : ℕ → K} {M : K} (hM0 : 0 ≤ M) (l : List (ℤ × ℕ)) (hM : ∀ p ∈ l, |f p.2| ≤ M) :
    Close l.length (weightSum l * M) ((l.map fun p => p.1 * f p.2).sum) (combine f l) ∧
      |(l.map fun p => p.1 * f p.2).sum| ≤ weightSum l * M := by
  cases l with
  | nil => simp [combine, weightSum, Close]
  | cons p l =>
    have ht : |(p.1 : K) * f p.2| ≤ (|p.1| : ℤ) * M := by
      rw [abs_mul, Int.cast_abs]; exact mul_le_mul_of_nonneg_left (hM p (by simp)) (abs_nonneg _)
    have := foldl_close hM0 l (fun q hq => hM q (List.mem_cons_of_mem _ hq)) 1 _ _ _ le_rfl ht ((Close.refl _ _).rnd ht)
    have e1 : (p.1 : K) * f p.2 + (l.map fun p => p.1 * f p.2).sum = ((p :: l).map fun p => p.1 * f p.2).sum := by simp
    have e2 : ((|p.1| : ℤ) : K) * M + weightSum l * M = weightSum (p :: l) * M := by simp [weightSum, Int.cast_add]; ring
    rw [e1, e2] at this
    rw [List.length_cons, Nat.add_comm]
    exact this

theorem stencil_close {f : ℕ → K} {M : K} (hM0 : 0 ≤ M) (l : List (ℤ × ℕ)) (hM : ∀ p ∈ l, |f p.2| ≤ M) {c dphi : K} (hc : 0 < c) (hd : dphi ≠ 0) :
    |rnd (rnd (combine f l / c) / dphi) - (l.map fun p => p.1 * f p.2).sum / c / dphi| ≤
      weightSum l * M / c / |dphi| * ((1 + 1 / 2 ^ 53) ^ (l.length + 2) - 1) := by
  obtain ⟨h1, h2⟩ := combine_close hM0 l hM
  have d1 : ∀ {x b c : K}, 0 < c → |x| ≤ b → |x / c| ≤ b / c := fun hc hx => by
    rw [abs_div, abs_of_pos hc]; exact div_le_div_of_nonneg_right hx hc.le
  have hd' := abs_pos.2 hd
  have key := (((h1.div hc).rnd (d1 hc h2)).div hd').rnd (d1 hd' (d1 hc h2))
  rcases lt_or_gt_of_ne hd with h | h
  · rw [abs_of_neg h] at key ⊢
    unfold Close at key
    rw [div_neg, div_neg, rnd_neg, ← neg_sub', abs_neg] at key
    exact key
  · rw [abs_of_pos h] at key ⊢
    exact key

theorem Close.weaken {k m : ℕ} {b b' x y : K} (hb : 0 ≤ b) (hbb : b ≤ b') (hkm : k ≤ m)
    (h : |y - x| ≤ b * ((1 + 1 / 2 ^ 53) ^ k - 1)) : |y - x| ≤ b' * ((1 + 1 / 2 ^ 53) ^ m - 1) := by
  have : Close m b x y := Close.mono hb h hkm
  exact this.trans (mul_le_mul_of_nonneg_right hbb (sub_nonneg.2 (one_le_fac m)))

/-- Fourth order: the rounding error is at most that of 7 roundings of `128·M/(12·|dphi|)`; in the interior of `18·M/(12·|dphi|)`. -/
theorem C137_order4 (poles : Bool) {h : ℕ} (hh : 5 ≤ h) {f : ℕ → ℝ} {M dphi : ℝ} (hM : ∀ i < h, |f i| ≤ M) (hd : dphi ≠ 0) {j : ℕ} (hj : j < h) :
    |Binary64.derivative4 dphi poles h f j - Grid.stencil4 poles h f j / 12 / dphi| ≤ 128 * M / 12 / |dphi| * ((1 + 1 / 2 ^ 53) ^ 7 - 1) ∧
      (2 ≤ j → j + 2 < h →
        |Binary64.derivative4 dphi poles h f j - Grid.stencil4 poles h f j / 12 / dphi| ≤ 18 * M / 12 / |dphi| * ((1 + 1 / 2 ^ 53) ^ 6 - 1)) := by
  have hM0 : 0 ≤ M := (abs_nonneg _).trans (hM 0 (by omega))
  have hd' := abs_pos.2 hd
  have hl : ∀ p ∈ coeffs4 poles h j, |f p.2| ≤ M := by
    unfold coeffs4
    split_ifs <;> simp <;> and_intros <;> exact hM _ (by omega)
  have key := stencil_close hM0 (coeffs4 poles h j) hl (c := 12) (by norm_num) hd
  have e : ((coeffs4 poles h j).map fun p => (p.1 : ℝ) * f p.2).sum = Grid.stencil4 poles h f j := by
    unfold coeffs4 Grid.stencil4
    split_ifs <;> simp <;> ring
  rw [e] at key
  have div_mono : ∀ {a b : ℝ}, a ≤ b → a * M / 12 / |dphi| ≤ b * M / 12 / |dphi| := fun hab =>
    div_le_div_of_nonneg_right (div_le_div_of_nonneg_right (mul_le_mul_of_nonneg_right hab hM0) (by norm_num)) hd'.le
  have pos : ∀ {a : ℝ}, 0 ≤ a → 0 ≤ a * M / 12 / |dphi| := fun ha => div_nonneg (div_nonneg (mul_nonneg ha hM0) (by norm_num)) hd'.le
  have hw : 0 ≤ weightSum (coeffs4 poles h j) ∧ weightSum (coeffs4 poles h j) ≤ 128 ∧ (coeffs4 poles h j).length ≤ 5 := by
    unfold coeffs4
    split_ifs <;> simp [weightSum]
  refine ⟨Close.weaken (pos (by exact_mod_cast hw.1)) (div_mono (by exact_mod_cast hw.2.1)) (by omega) key, fun h2 h3 => ?_⟩
  have hi : coeffs4 poles h j = [(1, j - 2), (-8, j - 1), (8, j + 1), (-1, j + 2)] := by
    unfold coeffs4
    rw [if_neg (by omega), if_neg (by omega), if_neg (by omega), if_neg (by omega)]
  have hwi : (weightSum (coeffs4 poles h j) : ℝ) = 18 := by rw [hi]; norm_num [weightSum]
  rw [hwi] at key
  simp only [hi, List.length_cons, List.length_nil] at key
  rw [← hi] at key
  exact key

/-- Second order: 5 roundings of `8·M/(2·dphi)`; in the interior 4 of `2·M/(2·dphi)`. -/
theorem C137_order2 (poles : Bool) {h : ℕ} (hh : 3 ≤ h) {f : ℕ → ℝ} {M dphi : ℝ} (hM : ∀ i < h, |f i| ≤ M) (hd : dphi ≠ 0) {j : ℕ} (hj : j < h) :
    |Binary64.derivative2 dphi poles h f j - Grid.stencil2 poles h f j / 2 / dphi| ≤ 8 * M / 2 / |dphi| * ((1 + 1 / 2 ^ 53) ^ 5 - 1) ∧
      (1 ≤ j → j + 1 < h →
        |Binary64.derivative2 dphi poles h f j - Grid.stencil2 poles h f j / 2 / dphi| ≤ 2 * M / 2 / |dphi| * ((1 + 1 / 2 ^ 53) ^ 4 - 1)) := by
  have hM0 : 0 ≤ M := (abs_nonneg _).trans (hM 0 (by omega))
  have hd' := abs_pos.2 hd
  have hl : ∀ p ∈ coeffs2 poles h j, |f p.2| ≤ M := by
    unfold coeffs2
    split_ifs <;> simp <;> and_intros <;> exact hM _ (by omega)
  have key := stencil_close hM0 (coeffs2 poles h j) hl (c := 2) (by norm_num) hd
  have e : ((coeffs2 poles h j).map fun p => (p.1 : ℝ) * f p.2).sum = Grid.stencil2 poles h f j := by
    unfold coeffs2 Grid.stencil2
    split_ifs <;> simp <;> ring
  rw [e] at key
  have div_mono : ∀ {a b : ℝ}, a ≤ b → a * M / 2 / |dphi| ≤ b * M / 2 / |dphi| := fun hab =>
    div_le_div_of_nonneg_right (div_le_div_of_nonneg_right (mul_le_mul_of_nonneg_right hab hM0) (by norm_num)) hd'.le
  have pos : ∀ {a : ℝ}, 0 ≤ a → 0 ≤ a * M / 2 / |dphi| := fun ha => div_nonneg (div_nonneg (mul_nonneg ha hM0) (by norm_num)) hd'.le
  have hw : 0 ≤ weightSum (coeffs2 poles h j) ∧ weightSum (coeffs2 poles h j) ≤ 8 ∧ (coeffs2 poles h j).length ≤ 3 := by
    unfold coeffs2
    split_ifs <;> simp [weightSum]
  refine ⟨Close.weaken (pos (by exact_mod_cast hw.1)) (div_mono (by exact_mod_cast hw.2.1)) (by omega) key, fun h2 h3 => ?_⟩
  have hi : coeffs2 poles h j = [(1, j + 1), (-1, j - 1)] := by
    unfold coeffs2
    rw [if_neg (by omega), if_neg (by omega)]
  have hwi : (weightSum (coeffs2 poles h j) : ℝ) = 2 := by rw [hi]; norm_num [weightSum]
  rw [hwi] at key
  simp only [hi, List.length_cons, List.length_nil] at key
  rw [← hi] at key
  exact key

theorem combine_neg (f : ℕ → K) (l : List (ℤ × ℕ)) : combine (fun i => -f i) l = -combine f l := by
  cases l with
  | nil => simp [combine]
  | cons p l =>
    unfold combine
    have : ∀ (l : List (ℤ × ℕ)) (acc : K), l.foldl (fun acc p => rnd (acc + rnd (p.1 * -f p.2))) (-acc) =
        -l.foldl (fun acc p => rnd (acc + rnd (p.1 * f p.2))) acc := by
      intro l
      induction l with
      | nil => intro acc; rfl
      | cons p l ih =>
        intro acc
        rw [List.foldl_cons, List.foldl_cons, ← ih]
        congr 1
        rw [mul_neg, rnd_neg, ← neg_add, rnd_neg]
    have h0 := this l (rnd (p.1 * f p.2))
    rw [← rnd_neg, ← mul_neg] at h0
    exact h0

theorem lastBit_scale {x : K} (hx : x ≠ 0) (k : ℤ) : lastBit (2 ^ k * x) = k + lastBit x := by
  unfold lastBit
  rw [abs_mul, abs_of_pos (two_zpow_pos k)]
  have hx' : 0 < |x| := abs_pos.2 hx
  have h2 : (1 : ℕ) < 2 := by norm_num
  have : Int.log 2 (2 ^ k * |x|) = k + Int.log 2 |x| := by
    apply le_antisymm
    · rw [← sub_le_iff_le_add', ← Int.zpow_le_iff_le_log h2 hx']
      have := (Int.zpow_le_iff_le_log h2 (mul_pos (two_zpow_pos k) hx')).2 (le_refl (Int.log 2 (2 ^ k * |x|)))
      rw [zpow_sub₀ (by norm_num), div_le_iff₀ (by positivity)]
      push_cast at this ⊢
      rw [mul_comm |x|]; exact this
    · rw [← Int.zpow_le_iff_le_log h2 (mul_pos (two_zpow_pos k) hx'), zpow_add₀ (by norm_num)]
      have := (Int.zpow_le_iff_le_log h2 hx').2 (le_refl (Int.log 2 |x|))
      push_cast at this ⊢
      exact mul_le_mul_of_nonneg_left this (two_zpow_pos k).le
  rw [this]; ring

/-- Rounding commutes with multiplication by powers of two. -/
theorem rnd_scale (x : K) (k : ℤ) : rnd (2 ^ k * x) = 2 ^ k * rnd x := by
  by_cases hx : x = 0
  · rw [hx, mul_zero, rnd_zero, mul_zero]
  · unfold rnd
    rw [lastBit_scale hx, zpow_add₀ (by norm_num), mul_div_mul_left _ _ (two_zpow_pos k).ne']
    ring

theorem combine_scale (f : ℕ → K) (k : ℤ) (l : List (ℤ × ℕ)) : combine (fun i => 2 ^ k * f i) l = 2 ^ k * combine f l := by
  have hm : ∀ p : ℤ × ℕ, rnd ((p.1 : K) * (2 ^ k * f p.2)) = 2 ^ k * rnd (p.1 * f p.2) := fun p => by
    rw [← rnd_scale]; congr 1; ring
  cases l with
  | nil => simp [combine]
  | cons p l =>
    unfold combine
    have : ∀ (l : List (ℤ × ℕ)) (acc : K), l.foldl (fun acc p => rnd (acc + rnd (p.1 * (2 ^ k * f p.2)))) (2 ^ k * acc) =
        2 ^ k * l.foldl (fun acc p => rnd (acc + rnd (p.1 * f p.2))) acc := by
      intro l
      induction l with
      | nil => intro acc; rfl
      | cons p l ih =>
        intro acc
        rw [List.foldl_cons, List.foldl_cons, ← ih]
        congr 1
        rw [hm, ← mul_add, rnd_scale]
    have h0 := this l (rnd (p.1 * f p.2))
    rw [← hm] at h0
    exact h0

/-- The sign of a field and units that differ by powers of two pass through exactly. -/
theorem C137_symmetry (dphi : K) (poles : Bool) (h : ℕ) (f : ℕ → K) (j : ℕ) (k : ℤ) :
    Binary64.derivative4 dphi poles h (fun i => -f i) j = -Binary64.derivative4 dphi poles h f j ∧
      Binary64.derivative2 dphi poles h (fun i => -f i) j = -Binary64.derivative2 dphi poles h f j ∧
      Binary64.derivative4 dphi poles h (fun i => 2 ^ k * f i) j = 2 ^ k * Binary64.derivative4 dphi poles h f j ∧
      Binary64.derivative2 dphi poles h (fun i => 2 ^ k * f i) j = 2 ^ k * Binary64.derivative2 dphi poles h f j := by
  unfold Binary64.derivative4 Binary64.derivative2
  simp only [combine_neg, combine_scale, neg_div, rnd_neg, mul_div_assoc, rnd_scale, and_self]

/-- Constant fields have zero derivatives of second order between the poles, exactly. -/
theorem C137_constant {dphi c : K} (hc : IsDouble c) (poles : Bool) {h j : ℕ} (h1 : 1 ≤ j) (h2 : j + 1 < h) :
    Binary64.derivative2 dphi poles h (fun _ => c) j = 0 := by
  have hi : coeffs2 poles h j = [(1, j + 1), (-1, j - 1)] := by
    unfold coeffs2
    rw [if_neg (by omega), if_neg (by omega)]
  unfold Binary64.derivative2
  rw [hi]
  simp [combine, rnd_neg, rnd_double hc, rnd_zero]

/-- Not so for the fourth order, which is the default: a constant field of 0.1 has a positive derivative everywhere between the poles (`dphi` is negative). -/
theorem C137_constant_refuted : ∃ c : ℚ, IsDouble c ∧ ∀ (dphi : ℚ) (h j : ℕ), dphi < 0 → 2 ≤ j → j + 2 < h →
    0 < Binary64.derivative4 dphi true h (fun _ => c) j := by
  refine ⟨rnd (1 / 10), rnd_isDouble _, fun dphi h j hd h2 h3 => ?_⟩
  have hi : coeffs4 true h j = [(1, j - 2), (-8, j - 1), (8, j + 1), (-1, j + 2)] := by
    unfold coeffs4
    rw [if_neg (by omega), if_neg (by omega), if_neg (by omega), if_neg (by omega)]
  have hv : rnd (combine (fun _ => (rnd (1 / 10) : ℚ)) [(1, j - 2), (-8, j - 1), (8, j + 1), (-1, j + 2)] / 12) < 0 := by
    change rnd (combine (fun _ => (rnd (1 / 10) : ℚ)) [(1, 0), (-8, 0), (8, 0), (-1, 0)] / 12) < 0
    decide +kernel
  unfold Binary64.derivative4
  rw [hi]
  exact rnd_pos (div_pos_of_neg_of_neg hv hd)

/-! ### Non-vacuity -/

/-- The derivative of a parabola on a grid of 5 latitudes -/
example : (List.range 5).map (Binary64.derivative4 (1 : ℚ) true 5 fun j => (j : ℚ) ^ 2) = [0, 2, 4, 6, 8] ∧
    (List.range 5).map (Binary64.derivative2 (1 : ℚ) true 5 fun j => (j : ℚ) ^ 2) = [0, 2, 4, 6, 8] ∧
    (List.range 5).map (Binary64.derivative4 (1 : ℚ) false 5 fun j => (j : ℚ) ^ 2) = [0, 2, 4, 6, 0] := by
  decide +kernel

end Barotropic
