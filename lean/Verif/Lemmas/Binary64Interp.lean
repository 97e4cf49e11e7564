import Verif.Spec.Binary64Zonalize
import Verif.Lemmas.Binary64
import Mathlib.Data.Rat.Floor
import Mathlib.Tactic.Linarith
import Mathlib.Tactic.Ring
import Mathlib.Tactic.FieldSimp
import Mathlib.Tactic.Positivity
import Mathlib.Tactic.NormNum

set_option linter.unusedSectionVars false

/-!
# Rounded sums, quotients and lines
-/

namespace Barotropic
namespace Binary64

variable {K : Type*} [Field K] [LinearOrder K] [IsStrictOrderedRing K] [FloorRing K]

theorem rnd_factor (x : K) : ∃ e : K, |e| ≤ 1 / 2 ^ 53 ∧ rnd x = x * (1 + e) := by
  by_cases hx : x = 0
  · exact ⟨0, by simp, by rw [hx, rnd_zero]; ring⟩
  · refine ⟨(rnd x - x) / x, ?_, by field_simp; ring⟩
    rw [abs_div, div_le_iff₀ (abs_pos.2 hx), abs_sub_comm]
    exact (rnd_rel x).trans (by rw [div_mul_eq_mul_div, one_mul])

theorem rnd_nonneg_iff {x : K} : 0 ≤ rnd x ↔ 0 ≤ x := by
  constructor
  · intro h
    by_contra hx
    have : 0 < rnd (-x) := rnd_pos (by linarith)
    rw [rnd_neg] at this
    linarith
  · exact rnd_nonneg

/-- `y` is `x` up to `k` roundings -/
def Near (k : ℕ) (x y : K) : Prop := x * (1 - 1 / 2 ^ 53) ^ k ≤ y ∧ y ≤ x * (1 + 1 / 2 ^ 53) ^ k

theorem u_lt : (1 : K) / 2 ^ 53 < 1 := by norm_num

theorem u_pos : (0 : K) < 1 / 2 ^ 53 := by positivity

theorem Near.refl (x : K) : Near 0 x x := by simp [Near]

theorem Near.mono {k m : ℕ} {x y : K} (hx : 0 ≤ x) (h : Near k x y) (hkm : k ≤ m) : Near m x y := by
  have := u_lt (K := K); have := u_pos (K := K)
  refine ⟨le_trans ?_ h.1, h.2.trans ?_⟩
  · exact mul_le_mul_of_nonneg_left (pow_le_pow_of_le_one (by linarith) (by linarith) hkm) hx
  · exact mul_le_mul_of_nonneg_left (pow_le_pow_right₀ (by linarith) hkm) hx

theorem Near.nonneg {k : ℕ} {x y : K} (hx : 0 ≤ x) (h : Near k x y) : 0 ≤ y := by
  have := u_lt (K := K)
  exact le_trans (mul_nonneg hx (pow_nonneg (by linarith) k)) h.1

theorem Near.rnd {k : ℕ} {x y : K} (hx : 0 ≤ x) (h : Near k x y) : Near (k + 1) x (rnd y) := by
  have h1 := u_lt (K := K); have h0 := u_pos (K := K)
  obtain ⟨e, he, hr⟩ := rnd_factor y
  obtain ⟨e1, e2⟩ := abs_le.1 he
  have hy := h.nonneg hx
  rw [hr]
  unfold Near at *
  constructor
  · calc x * (1 - 1 / 2 ^ 53) ^ (k + 1) = x * (1 - 1 / 2 ^ 53) ^ k * (1 - 1 / 2 ^ 53) := by ring
      _ ≤ y * (1 + e) := mul_le_mul h.1 (by linarith) (by linarith) hy
  · calc y * (1 + e) ≤ x * (1 + 1 / 2 ^ 53) ^ k * (1 + 1 / 2 ^ 53) :=
          mul_le_mul h.2 (by linarith) (by linarith) (mul_nonneg hx (pow_nonneg (by linarith) k))
      _ = x * (1 + 1 / 2 ^ 53) ^ (k + 1) := by ring

theorem Near.add {k : ℕ} {x y x' y' : K} (h : Near k x y) (h' : Near k x' y') : Near k (x + x') (y + y') := by
  unfold Near at *
  constructor
  · linarith [h.1, h'.1, add_mul x x' ((1 - 1 / 2 ^ 53 : K) ^ k)]
  · linarith [h.2, h'.2, add_mul x x' ((1 + 1 / 2 ^ 53 : K) ^ k)]

theorem Near.mul {k m : ℕ} {x y x' y' : K} (hx : 0 ≤ x) (hx' : 0 ≤ x') (h : Near k x y) (h' : Near m x' y') :
    Near (k + m) (x * x') (y * y') := by
  have h1 := u_lt (K := K); have h0 := u_pos (K := K)
  have hy := h.nonneg hx
  have hy' := h'.nonneg hx'
  unfold Near at *
  constructor
  · calc x * x' * (1 - 1 / 2 ^ 53) ^ (k + m) = (x * (1 - 1 / 2 ^ 53) ^ k) * (x' * (1 - 1 / 2 ^ 53) ^ m) := by ring
      _ ≤ y * y' := mul_le_mul h.1 h'.1 (mul_nonneg hx' (pow_nonneg (by linarith) m)) hy
  · calc y * y' ≤ (x * (1 + 1 / 2 ^ 53) ^ k) * (x' * (1 + 1 / 2 ^ 53) ^ m) :=
          mul_le_mul h.2 h'.2 hy' (mul_nonneg hx (pow_nonneg (by linarith) k))
      _ = x * x' * (1 + 1 / 2 ^ 53) ^ (k + m) := by ring

theorem Near.div {k : ℕ} {x y c : K} (hc : 0 < c) (h : Near k x y) : Near k (x / c) (y / c) := by
  unfold Near at *
  constructor
  · rw [div_mul_eq_mul_div]; exact div_le_div_of_nonneg_right h.1 hc.le
  · rw [div_mul_eq_mul_div]; exact div_le_div_of_nonneg_right h.2 hc.le

namespace SumTree

/-- The sum without rounding -/
def total (f : ℕ → K) (t : SumTree) : K := (t.leaves.map f).sum

theorem total_node (f : ℕ → K) (l r : SumTree) : (node l r).total f = l.total f + r.total f := by
  simp [total, leaves]

theorem total_nonneg {f : ℕ → K} (hf : ∀ i, 0 ≤ f i) (t : SumTree) : 0 ≤ t.total f :=
  List.sum_nonneg (by intro x hx; obtain ⟨i, -, rfl⟩ := List.mem_map.1 hx; exact hf i)

theorem total_sums {f : ℕ → K} {t : SumTree} {n : ℕ} (h : t.Sums n) : t.total f = ∑ i ∈ Finset.range n, f i := by
  unfold total
  rw [(h.map f).sum_eq]
  rw [Finset.sum_range]
  rw [← List.sum_ofFn]
  congr 1
  apply List.ext_getElem <;> simp

theorem eval_near {f g : ℕ → K} {k : ℕ} (hf : ∀ i, 0 ≤ f i) (h : ∀ i, Near k (f i) (g i)) (t : SumTree) :
    Near (k + t.depth) (t.total f) (t.eval g) := by
  induction t with
  | leaf i => simpa [total, leaves, eval, depth] using h i
  | node l r ihl ihr =>
    rw [total_node]
    have hl := total_nonneg hf l
    have hr := total_nonneg hf r
    exact ((ihl.mono hl (Nat.add_le_add_left (le_max_left _ _) k)).add (ihr.mono hr (Nat.add_le_add_left (le_max_right _ _) k))).rnd
      (add_nonneg hl hr)

theorem eval_mono {f g : ℕ → K} (h : ∀ i, f i ≤ g i) (t : SumTree) : t.eval f ≤ t.eval g := by
  induction t with
  | leaf i => exact h i
  | node l r ihl ihr => exact rnd_mono (add_le_add ihl ihr)

theorem eval_nonneg {f : ℕ → K} (h : ∀ i, 0 ≤ f i) (t : SumTree) : 0 ≤ t.eval f := by
  induction t with
  | leaf i => exact h i
  | node l r ihl ihr => exact rnd_nonneg (add_nonneg ihl ihr)

end SumTree

theorem factor_close {u e1 e2 e3 e4 e5 : K} (hu0 : 0 < u) (hu1 : u ≤ 1 / 1000) (b1 : |e1| ≤ u) (b2 : |e2| ≤ u) (b3 : |e3| ≤ u)
    (b4 : |e4| ≤ u) (b5 : |e5| ≤ u) :
    1 - 6 * u ≤ (1 + e1) * (1 + e3) * (1 + e4) * (1 + e5) / (1 + e2) ∧
      (1 + e1) * (1 + e3) * (1 + e4) * (1 + e5) / (1 + e2) ≤ 1 + 6 * u := by
  obtain ⟨b1, c1⟩ := abs_le.1 b1
  obtain ⟨b2, c2⟩ := abs_le.1 b2
  obtain ⟨b3, c3⟩ := abs_le.1 b3
  obtain ⟨b4, c4⟩ := abs_le.1 b4
  obtain ⟨b5, c5⟩ := abs_le.1 b5
  have q : ∀ {a b : K}, -u ≤ a → a ≤ u → -u ≤ b → b ≤ u → (1 + a) * (1 + b) ≤ (1 + u) ^ 2 := fun {a b} _ h2 h3 h4 => by
    rw [pow_two]; exact mul_le_mul (by linarith) (by linarith) (by linarith) (by linarith)
  have p : ∀ {a b : K}, -u ≤ a → a ≤ u → -u ≤ b → b ≤ u → (1 - u) ^ 2 ≤ (1 + a) * (1 + b) := fun {a b} h1 h2 h3 h4 => by
    rw [pow_two]; exact mul_le_mul (by linarith) (by linarith) (by linarith) (by linarith)
  have q1 := q b1 c1 b3 c3
  have q2 := q b4 c4 b5 c5
  have p1 := p b1 c1 b3 c3
  have p2 := p b4 c4 b5 c5
  have s1 : (0 : K) ≤ (1 - u) ^ 2 := by positivity
  have hlo : (1 - u) ^ 2 * (1 - u) ^ 2 ≤ (1 + e1) * (1 + e3) * ((1 + e4) * (1 + e5)) := mul_le_mul p1 p2 s1 (s1.trans p1)
  have hhi : (1 + e1) * (1 + e3) * ((1 + e4) * (1 + e5)) ≤ (1 + u) ^ 2 * (1 + u) ^ 2 :=
    mul_le_mul q1 q2 (s1.trans p2) (by positivity)
  have l2 : (1 - 6 * u) * (1 + e2) ≤ (1 - 6 * u) * (1 + u) := mul_le_mul_of_nonneg_left (by linarith) (by linarith)
  have l3 : (1 + 6 * u) * (1 - u) ≤ (1 + 6 * u) * (1 + e2) := mul_le_mul_of_nonneg_left (by linarith) (by linarith)
  have u2 : u ^ 2 ≤ u / 1000 := by rw [pow_two]; calc u * u ≤ u * (1 / 1000) := mul_le_mul_of_nonneg_left hu1 hu0.le
    _ = u / 1000 := by ring
  have u3 : u ^ 3 ≤ u / 1000 := by calc u ^ 3 = u ^ 2 * u := by ring
    _ ≤ u ^ 2 * 1 := mul_le_mul_of_nonneg_left (by linarith) (by positivity)
    _ ≤ _ := by linarith
  have u4 : u ^ 4 ≤ u / 1000 := by calc u ^ 4 = u ^ 3 * u := by ring
    _ ≤ u ^ 3 * 1 := mul_le_mul_of_nonneg_left (by linarith) (by positivity)
    _ ≤ _ := by linarith
  have v2 : 0 ≤ u ^ 2 := by positivity
  have v4 : 0 ≤ u ^ 4 := by positivity
  constructor
  · rw [le_div_iff₀ (by linarith)]
    have e : (1 - u) ^ 2 * (1 - u) ^ 2 = 1 - 4 * u + 6 * u ^ 2 - 4 * u ^ 3 + u ^ 4 := by ring
    have e' : (1 - 6 * u) * (1 + u) = 1 - 5 * u - 6 * u ^ 2 := by ring
    rw [e] at hlo
    rw [e'] at l2
    linarith
  · rw [div_le_iff₀ (by linarith)]
    have e : (1 + u) ^ 2 * (1 + u) ^ 2 = 1 + 4 * u + 6 * u ^ 2 + 4 * u ^ 3 + u ^ 4 := by ring
    have e' : (1 + 6 * u) * (1 - u) = 1 + 5 * u - 6 * u ^ 2 := by ring
    rw [e] at hhi
    rw [e'] at l3
    linarith

/-- Seven roundings of a line -/
theorem lerp_close {x0 x1 x y0 y1 : K} (h0 : x0 ≤ x) (h1 : x ≤ x1) (h : x0 < x1) :
    |lerp x0 x1 x y0 y1 - line x0 x1 x y0 y1| ≤ (|y0| + |y1 - y0|) / 2 ^ 50 := by
  obtain ⟨e1, b1, r1⟩ := rnd_factor (y1 - y0)
  obtain ⟨e2, b2, r2⟩ := rnd_factor (x1 - x0)
  obtain ⟨e3, b3, r3⟩ := rnd_factor ((y1 - y0) * (1 + e1) / ((x1 - x0) * (1 + e2)))
  obtain ⟨e4, b4, r4⟩ := rnd_factor (x - x0)
  obtain ⟨e5, b5, r5⟩ := rnd_factor ((y1 - y0) * (1 + e1) / ((x1 - x0) * (1 + e2)) * (1 + e3) * ((x - x0) * (1 + e4)))
  unfold lerp line
  rw [r1, r2, r3, r4, r5]
  set P := (y1 - y0) * (1 + e1) / ((x1 - x0) * (1 + e2)) * (1 + e3) * ((x - x0) * (1 + e4)) * (1 + e5) with hP
  obtain ⟨e6, b6, r6⟩ := rnd_factor (P + y0)
  rw [r6]
  obtain ⟨u, hu⟩ : ∃ u : K, u = 1 / 2 ^ 53 := ⟨_, rfl⟩
  rw [← hu] at b1 b2 b3 b4 b5 b6
  have hu0 : 0 < u := by rw [hu]; positivity
  have hu1 : u ≤ 1 / 1000 := by rw [hu]; norm_num
  have hb2 : (1 + e2) ≠ 0 := by have := (abs_le.1 b2).1; intro hc; linarith
  have hx : 0 < x1 - x0 := by linarith
  have hw0 : 0 ≤ (x - x0) / (x1 - x0) := div_nonneg (by linarith) hx.le
  have hw1 : (x - x0) / (x1 - x0) ≤ 1 := (div_le_one hx).2 (by linarith)
  set w := (x - x0) / (x1 - x0) with hw
  set F := (1 + e1) * (1 + e3) * (1 + e4) * (1 + e5) / (1 + e2) with hF
  have hP' : P = w * (y1 - y0) * F := by
    rw [hP, hw, hF]; field_simp
  clear_value P w F
  obtain ⟨hFl, hFu⟩ := factor_close hu0 hu1 b1 b2 b3 b4 b5
  rw [← hF] at hFl hFu
  have hd : |P - w * (y1 - y0)| ≤ 6 * u * |y1 - y0| := by
    rw [hP', show w * (y1 - y0) * F - w * (y1 - y0) = w * (F - 1) * (y1 - y0) by ring, abs_mul, abs_mul, abs_of_nonneg hw0]
    refine mul_le_mul_of_nonneg_right ?_ (abs_nonneg _)
    have : |F - 1| ≤ 6 * u := abs_le.2 ⟨by linarith, by linarith⟩
    calc w * |F - 1| ≤ 1 * (6 * u) := mul_le_mul hw1 this (abs_nonneg _) (by norm_num)
      _ = 6 * u := by ring
  have hPa : |P| ≤ (1 + 6 * u) * |y1 - y0| := by
    have h1 : |P| ≤ |P - w * (y1 - y0)| + |w * (y1 - y0)| := by
      calc |P| = |(P - w * (y1 - y0)) + w * (y1 - y0)| := by ring_nf
        _ ≤ _ := abs_add_le _ _
    have h2 : |w * (y1 - y0)| ≤ |y1 - y0| := by
      rw [abs_mul, abs_of_nonneg hw0]; exact mul_le_of_le_one_left (abs_nonneg _) hw1
    linarith
  have hlast : |(P + y0) * e6| ≤ ((1 + 6 * u) * |y1 - y0| + |y0|) * u := by
    rw [abs_mul]
    exact mul_le_mul ((abs_add_le _ _).trans (by linarith)) b6 (abs_nonneg _) (by positivity)
  calc |(P + y0) * (1 + e6) - (y0 + w * (y1 - y0))| = |(P - w * (y1 - y0)) + (P + y0) * e6| := by congr 1; ring
    _ ≤ |P - w * (y1 - y0)| + |(P + y0) * e6| := abs_add_le _ _
    _ ≤ 6 * u * |y1 - y0| + ((1 + 6 * u) * |y1 - y0| + |y0|) * u := add_le_add hd hlast
    _ ≤ 8 * u * (|y0| + |y1 - y0|) := by
        have hu2 : u ^ 2 ≤ u / 1000 := by
          rw [pow_two]
          calc u * u ≤ u * (1 / 1000) := mul_le_mul_of_nonneg_left hu1 hu0.le
            _ = u / 1000 := by ring
        have h3 : u ^ 2 * |y1 - y0| ≤ u / 1000 * |y1 - y0| := mul_le_mul_of_nonneg_right hu2 (abs_nonneg _)
        have h4 := mul_nonneg hu0.le (abs_nonneg (y1 - y0))
        have h5 := mul_nonneg hu0.le (abs_nonneg y0)
        have e1 : 6 * u * |y1 - y0| + ((1 + 6 * u) * |y1 - y0| + |y0|) * u = 7 * (u * |y1 - y0|) + 6 * (u ^ 2 * |y1 - y0|) + u * |y0| := by ring
        have e2 : 8 * u * (|y0| + |y1 - y0|) = 8 * (u * |y0|) + 8 * (u * |y1 - y0|) := by ring
        have e3 : u / 1000 * |y1 - y0| = (u * |y1 - y0|) / 1000 := by ring
        rw [e1, e2]
        linarith
    _ = (|y0| + |y1 - y0|) / 2 ^ 50 := by rw [hu]; ring

theorem lerp_mono {x0 x1 x x' y0 y1 : K} (h : x0 < x1) (hy : y0 ≤ y1) (hx : x ≤ x') :
    lerp x0 x1 x y0 y1 ≤ lerp x0 x1 x' y0 y1 := by
  unfold lerp
  refine rnd_mono (add_le_add_left (rnd_mono (mul_le_mul_of_nonneg_left (rnd_mono (by linarith)) ?_)) _)
  exact rnd_nonneg (div_nonneg (rnd_nonneg (by linarith)) (rnd_nonneg (by linarith)))

theorem lerp_lower {x0 x1 x y0 y1 : K} (h : x0 < x1) (hy : y0 ≤ y1) (hx : x0 ≤ x) (hd : IsDouble y0) :
    y0 ≤ lerp x0 x1 x y0 y1 := by
  unfold lerp
  conv_lhs => rw [← rnd_double hd]
  refine rnd_mono (le_add_of_nonneg_left (rnd_nonneg (mul_nonneg ?_ (rnd_nonneg (by linarith)))))
  exact rnd_nonneg (div_nonneg (rnd_nonneg (by linarith)) (rnd_nonneg (by linarith)))

theorem log_cast (x : ℚ) : Int.log 2 (x : K) = Int.log 2 x := by
  unfold Int.log
  have h1 : (1 : K) ≤ (x : K) ↔ 1 ≤ x := by exact_mod_cast Iff.rfl
  have h2 : ⌊(x : K)⌋₊ = ⌊x⌋₊ := by rw [← Int.floor_toNat, ← Int.floor_toNat, Rat.floor_cast]
  have h3 : ⌈((x : K))⁻¹⌉₊ = ⌈x⁻¹⌉₊ := by
    rw [← Rat.cast_inv, ← Int.ceil_toNat, ← Int.ceil_toNat, Rat.ceil_cast]
  simp only [h1, h2, h3]
theorem pyRound_cast (x : ℚ) : pyRound (x : K) = pyRound x := by
  unfold pyRound
  rw [Rat.floor_cast]
  have h1 : (x : K) - (⌊x⌋ : K) < 1 / 2 ↔ x - (⌊x⌋ : ℚ) < 1 / 2 := by
    rw [← Rat.cast_lt (K := K)]; push_cast; rfl
  have h2 : (1 : K) / 2 < (x : K) - (⌊x⌋ : K) ↔ 1 / 2 < x - (⌊x⌋ : ℚ) := by
    rw [← Rat.cast_lt (K := K)]; push_cast; rfl
  simp only [h1, h2]
theorem rnd_cast (x : ℚ) : rnd (x : K) = ((rnd x : ℚ) : K) := by
  have h : lastBit (x : K) = lastBit x := by unfold lastBit; rw [← Rat.cast_abs, log_cast]
  unfold rnd
  rw [h, Rat.cast_mul, Rat.cast_intCast, Rat.cast_zpow, ← pyRound_cast (K := K)]
  push_cast
  rfl
/-- Interior knots that are already sorted stay in order between the pole values. -/
theorem knots_sorted (ks : List (K × K)) (n s : K) (h : ks.Pairwise fun p q => p.1 ≤ q.1)
    (hin : ∀ p ∈ ks, -90 < p.1 ∧ p.1 < 90) : meridionalKnots ks n s = (-90, s) :: (ks ++ [(90, n)]) := by
  classical
  have hperm : (meridionalKnots ks n s).Perm ((-90, s) :: (ks ++ [(90, n)])) := by
    unfold meridionalKnots
    refine (List.mergeSort_perm _ _).trans ?_
    have : ((90, n) :: ks ++ [(-90, s)]).Perm ((-90, s) :: ((90, n) :: ks)) := List.perm_append_singleton _ _
    refine this.trans ?_
    exact List.Perm.cons _ (List.perm_append_singleton _ _).symm
  have hsorted := (List.pairwise_mergeSort (le := fun a b : K × K => decide (a.1 ≤ b.1))
    (by intro a b c h1 h2; simp only [decide_eq_true_eq] at *; exact h1.trans h2)
    (by intro a b; simp only [Bool.or_eq_true, decide_eq_true_eq]; exact le_total _ _) ((90, n) :: ks ++ [(-90, s)])).imp
      (S := fun p q => p.1 ≤ q.1) fun h => by simpa using h
  have hsub : ks.Sublist (meridionalKnots ks n s) := by
    unfold meridionalKnots
    apply List.sublist_mergeSort
    · intro a b c h1 h2; simp only [decide_eq_true_eq] at *; exact h1.trans h2
    · intro a b; simp only [Bool.or_eq_true, decide_eq_true_eq]; exact le_total _ _
    · exact h.imp fun h => by simpa using h
    · exact (List.sublist_cons_self _ _).trans (List.sublist_append_left _ _)
  change (meridionalKnots ks n s).Pairwise _ at hsorted
  generalize meridionalKnots ks n s = r at hperm hsorted hsub
  -- first element
  have hlen : r.length = ks.length + 2 := by rw [hperm.length_eq]; simp
  obtain ⟨a, r', rfl⟩ : ∃ a r', r = a :: r' := by
    cases r with
    | nil => simp at hlen
    | cons a r' => exact ⟨a, r', rfl⟩
  have hmem : ∀ p : K × K, p ∈ a :: r' ↔ p = (-90, s) ∨ p ∈ ks ∨ p = (90, n) := by
    intro p; rw [hperm.mem_iff]; simp
  have ha : a = (-90, s) := by
    have h1 : (-90, s) ∈ a :: r' := (hmem _).2 (.inl rfl)
    rcases List.mem_cons.1 h1 with h1 | h1
    · exact h1.symm
    · have h2 := (List.pairwise_cons.1 hsorted).1 _ h1
      rcases (hmem a).1 (by simp) with h | h | h
      · exact h
      · have := (hin a h).1; simp only at h2; linarith
      · rw [h] at h2; simp only at h2; norm_num at h2
  subst ha
  have hperm' := hperm.cons_inv
  have hsub' : ks.Sublist r' := by
    cases ks with
    | nil => exact List.nil_sublist _
    | cons k ks =>
      rcases List.sublist_cons_iff.1 hsub with h | ⟨t, ht, -⟩
      · exact h
      · have := (hin k (by simp)).1
        have e : k = (-90, s) := (List.cons.inj ht).1
        rw [e] at this
        simp at this
  congr 1
  -- last element
  have hlen' : r'.length = ks.length + 1 := by simpa using hlen
  obtain ⟨r'', b, rfl⟩ : ∃ r'' b, r' = r'' ++ [b] := by
    rcases List.eq_nil_or_concat r' with h | ⟨r'', b, h⟩
    · rw [h] at hlen'; simp at hlen'
    · exact ⟨r'', b, by simpa using h⟩
  have hs2 := (List.pairwise_cons.1 hsorted).2
  have hmem' : ∀ p : K × K, p ∈ r'' ++ [b] ↔ p ∈ ks ∨ p = (90, n) := by
    intro p; rw [hperm'.mem_iff]; simp
  have hb : b = (90, n) := by
    have h1 : (90, n) ∈ r'' ++ [b] := (hmem' _).2 (.inr rfl)
    rcases List.mem_append.1 h1 with h1 | h1
    · have h2 := (List.pairwise_append.1 hs2).2.2 _ h1 b (by simp)
      rcases (hmem' b).1 (by simp) with h | h
      · have := (hin b h).2; simp only at h2; linarith
      · exact h
    · exact (List.mem_singleton.1 h1).symm
  subst hb
  congr 1
  have hsub'' : ks.Sublist r'' := by
    have := hsub'
    rw [← List.reverse_sublist] at this
    rw [← List.reverse_sublist]
    simp only [List.reverse_append, List.reverse_cons, List.reverse_nil, List.nil_append, List.singleton_append] at this
    cases hk : ks.reverse with
    | nil => exact List.nil_sublist _
    | cons k ks' =>
      rw [hk] at this
      rcases List.sublist_cons_iff.1 this with h | ⟨t, ht, -⟩
      · exact h
      · have hkm : k ∈ ks := by rw [← List.mem_reverse, hk]; simp
        have := (hin k hkm).2
        rw [(List.cons.inj ht).1] at this
        simp at this
  exact (hsub''.eq_of_length (by simp at hlen'; omega)).symm

end Binary64
end Barotropic
