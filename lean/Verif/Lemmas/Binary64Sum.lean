import Verif.Lemmas.Binary64Interp

set_option linter.unusedSectionVars false

/-!
# Rounded sums of terms of both signs
-/

namespace Barotropic
namespace Binary64

variable {K : Type*} [Field K] [LinearOrder K] [IsStrictOrderedRing K] [FloorRing K]

/-- `y` is `x` up to a relative error of `k` roundings of numbers of the size of `b` -/
def Close (k : ℕ) (b x y : K) : Prop := |y - x| ≤ b * ((1 + 1 / 2 ^ 53) ^ k - 1)

theorem one_le_fac (k : ℕ) : (1 : K) ≤ (1 + 1 / 2 ^ 53) ^ k := one_le_pow₀ (by have := u_pos (K := K); linarith)

theorem Close.refl (b x : K) : Close 0 b x x := by simp [Close]

theorem Close.mono {k m : ℕ} {b x y : K} (hb : 0 ≤ b) (h : Close k b x y) (hkm : k ≤ m) : Close m b x y := by
  have := u_pos (K := K)
  refine h.trans (mul_le_mul_of_nonneg_left (sub_le_sub_right ?_ 1) hb)
  exact pow_le_pow_right₀ (by linarith) hkm

theorem Close.add {k : ℕ} {b x y b' x' y' : K} (h : Close k b x y) (h' : Close k b' x' y') : Close k (b + b') (x + x') (y + y') := by
  unfold Close at *
  calc |y + y' - (x + x')| = |(y - x) + (y' - x')| := by congr 1; ring
    _ ≤ |y - x| + |y' - x'| := abs_add_le _ _
    _ ≤ _ := by rw [add_mul]; exact add_le_add h h'

theorem Close.sub {k : ℕ} {b x y b' x' y' : K} (h : Close k b x y) (h' : Close k b' x' y') : Close k (b + b') (x - x') (y - y') := by
  unfold Close at *
  calc |y - y' - (x - x')| = |(y - x) - (y' - x')| := by congr 1; ring
    _ ≤ |y - x| + |y' - x'| := abs_sub _ _
    _ ≤ _ := by rw [add_mul]; exact add_le_add h h'

theorem Close.bound {k : ℕ} {b x y : K} (hx : |x| ≤ b) (h : Close k b x y) : |y| ≤ b * (1 + 1 / 2 ^ 53) ^ k := by
  unfold Close at h
  calc |y| = |(y - x) + x| := by congr 1; ring
    _ ≤ |y - x| + |x| := abs_add_le _ _
    _ ≤ b * ((1 + 1 / 2 ^ 53) ^ k - 1) + b := add_le_add h hx
    _ = _ := by ring

theorem Close.rnd {k : ℕ} {b x y : K} (hx : |x| ≤ b) (h : Close k b x y) : Close (k + 1) b x (rnd y) := by
  have h1 := h.bound hx
  have h2 := rnd_rel y
  unfold Close at *
  calc |Binary64.rnd y - x| = |(y - x) - (y - Binary64.rnd y)| := by congr 1; ring
    _ ≤ |y - x| + |y - Binary64.rnd y| := abs_sub _ _
    _ ≤ b * ((1 + 1 / 2 ^ 53) ^ k - 1) + b * (1 + 1 / 2 ^ 53) ^ k / 2 ^ 53 :=
        add_le_add h (h2.trans (div_le_div_of_nonneg_right h1 (by positivity)))
    _ = b * ((1 + 1 / 2 ^ 53) ^ (k + 1) - 1) := by rw [pow_succ]; ring

theorem Close.mul {k m : ℕ} {b x y b' x' y' : K} (hx : |x| ≤ b) (hx' : |x'| ≤ b') (h : Close k b x y) (h' : Close m b' x' y') :
    Close (k + m) (b * b') (x * x') (y * y') := by
  have hb : 0 ≤ b := (abs_nonneg _).trans hx
  have hy := h.bound hx
  unfold Close at *
  calc |y * y' - x * x'| = |y * (y' - x') + (y - x) * x'| := by congr 1; ring
    _ ≤ |y| * |y' - x'| + |y - x| * |x'| := by rw [← abs_mul, ← abs_mul]; exact abs_add_le _ _
    _ ≤ b * (1 + 1 / 2 ^ 53) ^ k * (b' * ((1 + 1 / 2 ^ 53) ^ m - 1)) + b * ((1 + 1 / 2 ^ 53) ^ k - 1) * b' := by
        refine add_le_add (mul_le_mul hy h' (abs_nonneg _) (mul_nonneg hb (zero_le_one.trans (one_le_fac k)))) ?_
        exact mul_le_mul h hx' (abs_nonneg _) (mul_nonneg hb (sub_nonneg.2 (one_le_fac k)))
    _ = b * b' * ((1 + 1 / 2 ^ 53) ^ (k + m) - 1) := by rw [pow_add]; ring

theorem Close.div {k : ℕ} {b x y c : K} (hc : 0 < c) (h : Close k b x y) : Close k (b / c) (x / c) (y / c) := by
  unfold Close at *
  rw [← sub_div, abs_div, abs_of_pos hc, div_mul_eq_mul_div]
  exact div_le_div_of_nonneg_right h hc.le

theorem SumTree.total_mono {f g : ℕ → K} (h : ∀ i, f i ≤ g i) (t : SumTree) : t.total f ≤ t.total g := by
  induction t with
  | leaf i => simpa [total, leaves] using h i
  | node l r ihl ihr => rw [total_node, total_node]; exact add_le_add ihl ihr

theorem SumTree.abs_total {f b : ℕ → K} (h : ∀ i, |f i| ≤ b i) (t : SumTree) : |t.total f| ≤ t.total b := by
  induction t with
  | leaf i => simpa [total, leaves] using h i
  | node l r ihl ihr => rw [total_node, total_node]; exact (abs_add_le _ _).trans (add_le_add ihl ihr)

/-- A sum in any order: the error is at most that of as many roundings as the longest chain of additions, relative to the sum of
the sizes of the terms. -/
theorem SumTree.eval_close {f g b : ℕ → K} {k : ℕ} (hb : ∀ i, |f i| ≤ b i) (h : ∀ i, Close k (b i) (f i) (g i)) (t : SumTree) :
    Close (k + t.depth) (t.total b) (t.total f) (t.eval g) := by
  have hb0 : ∀ i, 0 ≤ b i := fun i => (abs_nonneg _).trans (hb i)
  induction t with
  | leaf i => simpa [total, leaves, eval, depth] using h i
  | node l r ihl ihr =>
    rw [total_node, total_node]
    have hl := total_nonneg hb0 l
    have hr := total_nonneg hb0 r
    exact ((ihl.mono hl (Nat.add_le_add_left (le_max_left _ _) k)).add (ihr.mono hr (Nat.add_le_add_left (le_max_right _ _) k))).rnd
      ((abs_add_le _ _).trans (add_le_add (abs_total hb l) (abs_total hb r)))

end Binary64
end Barotropic
