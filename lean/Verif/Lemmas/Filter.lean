import Verif.Model.Filter
import Mathlib.Algebra.BigOperators.Ring.Finset
import Mathlib.Algebra.BigOperators.Fin
import Mathlib.Algebra.Order.BigOperators.Group.Finset
import Mathlib.Algebra.Order.BigOperators.Ring.Finset
import Mathlib.Algebra.Ring.Periodic
import Mathlib.Tactic.Ring
import Mathlib.Tactic.Linarith

set_option linter.unusedSectionVars false

namespace Barotropic
open Finset

variable {K : Type*} [Field K] [LinearOrder K] [IsStrictOrderedRing K] [FloorRing K]

/-! ### Extensions -/

theorem wrapExt_node {n : ℕ} (f : Fin n → K) (i : Fin n) : wrapExt f i.val = f i := by
  have h : ((i.val : ℤ) % n).toNat = i.val := by
    rw [Int.emod_eq_of_lt (by omega) (by have := i.isLt; omega)]; rfl
  unfold wrapExt
  rw [dif_pos (by rw [h]; exact i.isLt)]
  exact congrArg f (Fin.ext h)

theorem wrapExt_periodic {n : ℕ} (f : Fin n → K) : Function.Periodic (wrapExt f) (n : ℤ) := by
  intro t
  unfold wrapExt
  simp only [Int.add_emod_right]

theorem reflectExt_node {n : ℕ} (f : Fin n → K) (i : Fin n) : reflectExt f i.val = f i := by
  have hi := i.isLt
  have h : ((i.val : ℤ) % (2 * n : ℕ)).toNat = i.val := by
    rw [Int.emod_eq_of_lt (by omega) (by omega)]; rfl
  unfold reflectExt
  rw [dif_pos (by rw [h]; exact i.isLt)]
  exact congrArg f (Fin.ext h)

theorem reflectExt_periodic {n : ℕ} (f : Fin n → K) : Function.Periodic (reflectExt f) ((2 * n : ℕ) : ℤ) := by
  intro t
  unfold reflectExt
  simp only [Int.add_emod_right]

theorem periodic_eq_emod {e : ℤ → K} {N : ℕ} (he : Function.Periodic e (N : ℤ)) (t : ℤ) : e t = e (t % N) := by
  have h := he.int_mul (t / N) (t % N)
  rw [← h]
  congr 1
  rw [mul_comm, Int.cast_id, Int.emod_add_mul_ediv]

theorem reflectExt_upper {n : ℕ} (f : Fin n → K) (t : ℤ) (h0 : 0 ≤ t) (h1 : t < n) :
    reflectExt f (-1 - t) = reflectExt f t := by
  have hn : 0 < n := by omega
  have e1 : (-1 - t) % ((2 * n : ℕ) : ℤ) = 2 * n - 1 - t := by
    rw [show (-1 - t : ℤ) = (2 * n - 1 - t) - (2 * n : ℕ) by push_cast; ring, Int.sub_emod_right,
      Int.emod_eq_of_lt (by omega) (by push_cast; omega)]
  have e2 : t % ((2 * n : ℕ) : ℤ) = t := Int.emod_eq_of_lt (by omega) (by push_cast; omega)
  unfold reflectExt
  simp only [e1, e2]
  rw [dif_neg (by omega), dif_pos (show 2 * n - 1 - (2 * (n : ℤ) - 1 - t).toNat < n by omega), dif_pos (show t.toNat < n by omega)]
  congr 2
  omega

theorem reflectExt_symm {n : ℕ} (f : Fin n → K) (t : ℤ) : reflectExt f (-1 - t) = reflectExt f t := by
  rcases Nat.eq_zero_or_pos n with rfl | hn
  · have : ∀ s, reflectExt f s = 0 := by
      intro s; unfold reflectExt; rw [dif_neg (by omega), dif_neg (by omega)]
    rw [this, this]
  have hp := reflectExt_periodic f
  have hq0 : 0 ≤ t % ((2 * n : ℕ) : ℤ) := Int.emod_nonneg _ (by omega)
  have hq1 : t % ((2 * n : ℕ) : ℤ) < (2 * n : ℕ) := Int.emod_lt_of_pos _ (by omega)
  have ht := periodic_eq_emod hp t
  have ht' : reflectExt f (-1 - t) = reflectExt f (-1 - t % ((2 * n : ℕ) : ℤ)) := by
    rw [periodic_eq_emod hp (-1 - t), periodic_eq_emod hp (-1 - t % _), Int.sub_emod, Int.sub_emod (-1) (t % _), Int.emod_emod]
  rw [ht, ht']
  generalize t % ((2 * n : ℕ) : ℤ) = r at hq0 hq1
  by_cases h : r < n
  · exact reflectExt_upper f r hq0 h
  · have h2 := reflectExt_upper f (2 * n - 1 - r) (by push_cast at hq1; omega) (by omega)
    have e1 : (-1 - (2 * n - 1 - r) : ℤ) = r - (2 * n : ℕ) := by push_cast; ring
    have e2 : (2 * n - 1 - r : ℤ) = -1 - r + (2 * n : ℕ) := by push_cast; ring
    rw [e1, e2, hp (-1 - r), hp.sub_eq] at h2
    exact h2.symm

/-- A function that is periodic and symmetric like the reflect extension is determined by its values on the data. -/
theorem reflect_unique {n : ℕ} (hn : 0 < n) {e e' : ℤ → K} (hp : Function.Periodic e ((2 * n : ℕ) : ℤ))
    (hp' : Function.Periodic e' ((2 * n : ℕ) : ℤ)) (hs : ∀ t, e (-1 - t) = e t) (hs' : ∀ t, e' (-1 - t) = e' t)
    (h : ∀ i : Fin n, e i.val = e' i.val) (t : ℤ) : e t = e' t := by
  rw [periodic_eq_emod hp t, periodic_eq_emod hp' t]
  have hq0 : 0 ≤ t % ((2 * n : ℕ) : ℤ) := Int.emod_nonneg _ (by omega)
  have hq1 : t % ((2 * n : ℕ) : ℤ) < (2 * n : ℕ) := Int.emod_lt_of_pos _ (by omega)
  generalize t % ((2 * n : ℕ) : ℤ) = r at hq0 hq1
  push_cast at hq1
  by_cases hr : r < n
  · have := h ⟨r.toNat, by omega⟩
    simpa [Int.toNat_of_nonneg hq0] using this
  · have := h ⟨(2 * n - 1 - r).toNat, by omega⟩
    simp only [Int.toNat_of_nonneg (show 0 ≤ 2 * (n : ℤ) - 1 - r by omega)] at this
    rw [show (2 * n - 1 - r : ℤ) = -1 - r + (2 * n : ℕ) by push_cast; ring, hp, hp', hs, hs'] at this
    exact this

theorem wrap_unique {n : ℕ} (hn : 0 < n) {e e' : ℤ → K} (hp : Function.Periodic e (n : ℤ)) (hp' : Function.Periodic e' (n : ℤ))
    (h : ∀ i : Fin n, e i.val = e' i.val) (t : ℤ) : e t = e' t := by
  rw [periodic_eq_emod hp t, periodic_eq_emod hp' t]
  have hq0 : 0 ≤ t % (n : ℤ) := Int.emod_nonneg _ (by omega)
  have hq1 : t % (n : ℤ) < n := Int.emod_lt_of_pos _ (by omega)
  generalize t % (n : ℤ) = r at hq0 hq1
  have := h ⟨r.toNat, by omega⟩
  simpa [Int.toNat_of_nonneg hq0] using this

/-- Every value of the extension is a value of the data. -/
theorem reflectExt_mem {n : ℕ} (hn : 0 < n) (f : Fin n → K) (t : ℤ) : ∃ i, reflectExt f t = f i := by
  have hp := reflectExt_periodic f
  rw [periodic_eq_emod hp t]
  have hq0 : 0 ≤ t % ((2 * n : ℕ) : ℤ) := Int.emod_nonneg _ (by omega)
  have hq1 : t % ((2 * n : ℕ) : ℤ) < (2 * n : ℕ) := Int.emod_lt_of_pos _ (by omega)
  generalize t % ((2 * n : ℕ) : ℤ) = r at hq0 hq1
  push_cast at hq1
  by_cases hr : r < n
  · refine ⟨⟨r.toNat, by omega⟩, ?_⟩
    rw [← reflectExt_node f]
    congr 1
    exact (Int.toNat_of_nonneg hq0).symm
  · refine ⟨⟨(2 * n - 1 - r).toNat, by omega⟩, ?_⟩
    rw [← reflectExt_node f, ← reflectExt_symm, ← hp]
    congr 1
    rw [Int.toNat_of_nonneg (by omega)]
    push_cast; ring

theorem wrapExt_mem {n : ℕ} (hn : 0 < n) (f : Fin n → K) (t : ℤ) : ∃ i, wrapExt f t = f i := by
  rw [periodic_eq_emod (wrapExt_periodic f) t]
  have hq0 : 0 ≤ t % (n : ℤ) := Int.emod_nonneg _ (by omega)
  have hq1 : t % (n : ℤ) < n := Int.emod_lt_of_pos _ (by omega)
  generalize t % (n : ℤ) = r at hq0 hq1
  refine ⟨⟨r.toNat, by omega⟩, ?_⟩
  rw [← wrapExt_node f]
  congr 1
  exact (Int.toNat_of_nonneg hq0).symm

theorem wrapExt_linear {n : ℕ} (c : K) (f f' : Fin n → K) (t : ℤ) :
    wrapExt (c • f + f') t = c * wrapExt f t + wrapExt f' t := by
  unfold wrapExt
  split_ifs <;> simp

theorem reflectExt_linear {n : ℕ} (c : K) (f f' : Fin n → K) (t : ℤ) :
    reflectExt (c • f + f') t = c * reflectExt f t + reflectExt f' t := by
  unfold reflectExt
  split_ifs <;> simp

/-- A sum over one period does not depend on where it starts. -/
theorem sum_period {e : ℤ → K} {N : ℕ} (he : Function.Periodic e (N : ℤ)) (s : ℤ) :
    ∑ i ∈ range N, e (i + s) = ∑ i ∈ range N, e i := by
  have step : ∀ s : ℤ, ∑ i ∈ range N, e (i + (s + 1)) = ∑ i ∈ range N, e (i + s) := by
    intro s
    have h1 := sum_range_succ (fun i : ℕ => e (i + s)) N
    have h2 := sum_range_succ' (fun i : ℕ => e (i + s)) N
    have h3 : e (N + s) = e s := by rw [add_comm]; exact he s
    have h4 : ∀ i : ℕ, e (((i + 1 : ℕ) : ℤ) + s) = e (i + (s + 1)) := fun i => by congr 1; push_cast; ring
    simp only [h4] at h2
    rw [h1, h3] at h2
    simp only [Nat.cast_zero, zero_add] at h2
    exact (add_right_cancel h2).symm
  induction s using Int.induction_on with
  | zero => simp
  | succ n ih => rw [step, ih]
  | pred n ih =>
    have := step (-(n : ℤ) - 1)
    rw [sub_add_cancel] at this
    rw [← this, ih]

/-! ### Convolution -/

theorem convolve_linear {m : ℕ} (c : K) (e e' e'' : ℤ → K) (h : ∀ t, e'' t = c * e t + e' t) (w : Fin m → K) (i : ℕ) :
    convolve e'' w i = c * convolve e w i + convolve e' w i := by
  unfold convolve
  rw [mul_sum, ← sum_add_distrib]
  exact sum_congr rfl fun k _ => by rw [h]; ring

theorem convolve_bounds {m : ℕ} {e : ℤ → K} {w : Fin m → K} (hw : ∀ k, 0 ≤ w k) (hs : ∑ k, w k = 1) {lo hi : K}
    (h : ∀ t, lo ≤ e t ∧ e t ≤ hi) (i : ℕ) : lo ≤ convolve e w i ∧ convolve e w i ≤ hi := by
  unfold convolve
  constructor
  · calc lo = ∑ k, w k * lo := by rw [← sum_mul, hs, one_mul]
      _ ≤ _ := sum_le_sum fun k _ => mul_le_mul_of_nonneg_left (h _).1 (hw k)
  · calc _ ≤ ∑ k, w k * hi := sum_le_sum fun k _ => mul_le_mul_of_nonneg_left (h _).2 (hw k)
      _ = hi := by rw [← sum_mul, hs, one_mul]

theorem convolve_const {m : ℕ} {e : ℤ → K} {w : Fin m → K} (hs : ∑ k, w k = 1) {c : K} (h : ∀ t, e t = c) (i : ℕ) :
    convolve e w i = c := by
  unfold convolve
  simp only [h]
  rw [← sum_mul, hs, one_mul]

/-! ### Rounding -/

theorem pyRound_spec (x : K) : |x - pyRound x| ≤ 1 / 2 ∧ (|x - pyRound x| = 1 / 2 → Even (pyRound x)) := by
  have h1 := Int.floor_le x
  have h2 := Int.lt_floor_add_one x
  unfold pyRound
  split_ifs with h3 h4 h5
  · rw [abs_of_nonneg (by linarith)]
    exact ⟨h3.le, fun h => absurd h h3.ne⟩
  · push_cast
    rw [abs_of_neg (by linarith)]
    refine ⟨by linarith, fun h => by linarith⟩
  · rw [abs_of_nonneg (by linarith)]
    exact ⟨by linarith, fun _ => Int.even_iff.mpr h5⟩
  · push_cast
    rw [abs_of_neg (by linarith)]
    refine ⟨by linarith, fun _ => Int.even_iff.mpr (by omega)⟩

end Barotropic
