import Verif.Model.Rhs
import Verif.Lemmas.Interp
import Mathlib.Algebra.BigOperators.Pi
import Mathlib.Order.Fin.Basic

/-! # `np.interp` on finite sequences of points -/

namespace Barotropic

variable {n : ℕ}

theorem finRange_cons (xp fp : Fin (n + 1) → ℝ) (x : ℝ) : interp xp fp x =
    if x < xp 0 then fp 0
    else npInterp lerp (xp 0, fp 0) (((List.finRange n).map Fin.succ).map fun k => (xp k, fp k)) x := by
  unfold interp
  rw [List.finRange_succ]

/-- linear in the values -/
theorem npInterp_linear {ι : Type*} (xp f f' : ι → ℝ) (c x : ℝ) (a : ι) (l : List ι) :
    npInterp lerp (xp a, c * f a + f' a) (l.map fun k => (xp k, c * f k + f' k)) x =
    c * npInterp lerp (xp a, f a) (l.map fun k => (xp k, f k)) x + npInterp lerp (xp a, f' a) (l.map fun k => (xp k, f' k)) x := by
  induction l generalizing a with
  | nil => rfl
  | cons b l ih =>
    simp only [List.map_cons]
    unfold npInterp
    dsimp only
    split_ifs
    · exact ih b
    · rfl
    · unfold lerp; ring

theorem interp_linear (xp f f' : Fin n → ℝ) (c x : ℝ) :
    interp xp (fun k => c * f k + f' k) x = c * interp xp f x + interp xp f' x := by
  cases n with
  | zero => simp [interp, List.finRange]
  | succ n =>
    simp only [finRange_cons]
    split_ifs
    · rfl
    · exact npInterp_linear xp f f' c x 0 _

theorem interp_zero (xp : Fin n → ℝ) (x : ℝ) : interp xp (fun _ => 0) x = 0 := by
  have := interp_linear xp (fun _ => 0) (fun _ => 0) 1 x
  simp at this
  linarith

theorem interp_sum {m : ℕ} (xp : Fin n → ℝ) (w : Fin m → ℝ) (F : Fin m → Fin n → ℝ) (x : ℝ) :
    interp xp (fun k => ∑ p, w p * F p k) x = ∑ p, w p * interp xp (F p) x := by
  classical
  have : ∀ s : Finset (Fin m), interp xp (fun k => ∑ p ∈ s, w p * F p k) x = ∑ p ∈ s, w p * interp xp (F p) x := by
    intro s
    induction s using Finset.induction_on with
    | empty => simpa using interp_zero xp x
    | insert p s hp ih =>
      simp only [Finset.sum_insert hp]
      rw [interp_linear, ih]
  exact this Finset.univ

/-- the weights of the points -/
theorem interp_weights (xp fp : Fin n → ℝ) (x : ℝ) :
    interp xp fp x = ∑ p, interp xp (Pi.single p 1) x * fp p := by
  have h := interp_sum xp fp (fun p => Pi.single p 1) x
  have e : (fun k => ∑ p, fp p * (Pi.single p 1 : Fin n → ℝ) k) = fp := by
    funext k
    simp [Pi.single_apply]
  rw [e] at h
  rw [h]
  exact Finset.sum_congr rfl fun p _ => mul_comm _ _

theorem interp_comm {m : ℕ} (xp : Fin n → ℝ) (yp : Fin m → ℝ) (F : Fin m → Fin n → ℝ) (x y : ℝ) :
    interp xp (fun k => interp yp (fun p => F p k) y) x = interp yp (fun p => interp xp (F p) x) y := by
  have h1 : (fun k => interp yp (fun p => F p k) y) = fun k => ∑ p, interp yp (Pi.single p 1) y * F p k := by
    funext k; exact interp_weights yp _ y
  rw [h1, interp_sum, interp_weights yp _ y]

theorem interp_ge {m : ℝ} (hn : 0 < n) (xp fp : Fin n → ℝ) (x : ℝ) (h : ∀ k, m ≤ fp k) : m ≤ interp xp fp x := by
  obtain ⟨n, rfl⟩ : ∃ k, n = k + 1 := ⟨n - 1, by omega⟩
  rw [finRange_cons]
  split_ifs with h1
  · exact h 0
  · refine npInterp_ge _ _ (not_lt.mp h1) ?_
    intro p hp
    rcases List.mem_cons.mp hp with rfl | hp
    · exact h 0
    · obtain ⟨k, _, rfl⟩ := List.mem_map.mp hp
      exact h k

theorem interp_le {m : ℝ} (hn : 0 < n) (xp fp : Fin n → ℝ) (x : ℝ) (h : ∀ k, fp k ≤ m) : interp xp fp x ≤ m := by
  obtain ⟨n, rfl⟩ : ∃ k, n = k + 1 := ⟨n - 1, by omega⟩
  rw [finRange_cons]
  split_ifs with h1
  · exact h 0
  · refine npInterp_le _ _ (not_lt.mp h1) ?_
    intro p hp
    rcases List.mem_cons.mp hp with rfl | hp
    · exact h 0
    · obtain ⟨k, _, rfl⟩ := List.mem_map.mp hp
      exact h k

/-- value at a point, in a sorted list -/
theorem npInterp_node {ι : Type*} (xp fp : ι → ℝ) (x : ℝ) :
    ∀ (pre : List ι) (a p : ι) (l post : List ι), (a :: l).Pairwise (fun k k' => xp k < xp k') → a :: l = pre ++ p :: post →
      xp p = x → npInterp lerp (xp a, fp a) (l.map fun k => (xp k, fp k)) x = fp p := by
  intro pre
  induction pre with
  | nil =>
    intro a p l post hs he hx
    simp only [List.nil_append, List.cons.injEq] at he
    obtain ⟨rfl, rfl⟩ := he
    cases l with
    | nil => rfl
    | cons b l =>
      have := (List.pairwise_cons.mp hs).1 b (by simp)
      simp only [List.map_cons]
      unfold npInterp
      rw [if_neg (by dsimp only; linarith), if_pos hx]
  | cons c pre ih =>
    intro a p l post hs he hx
    simp only [List.cons_append, List.cons.injEq] at he
    obtain ⟨rfl, rfl⟩ := he
    have hs' := (List.pairwise_cons.mp hs).2
    cases hl : pre ++ p :: post with
    | nil => simp at hl
    | cons b l =>
      have hb : xp b ≤ x := by
        cases pre with
        | nil =>
          simp only [List.nil_append, List.cons.injEq] at hl
          rw [← hl.1, hx]
        | cons d pre =>
          simp only [List.cons_append, List.cons.injEq] at hl
          obtain ⟨rfl, rfl⟩ := hl
          rw [← hx]
          exact ((List.pairwise_cons.mp hs').1 p (by simp)).le
      simp only [List.map_cons]
      unfold npInterp
      rw [if_pos hb]
      rw [hl] at hs'
      exact ih b p l post hs' hl.symm hx

/-- value between two neighbouring points of a sorted list -/
theorem npInterp_between {ι : Type*} (xp fp : ι → ℝ) (x : ℝ) :
    ∀ (pre : List ι) (a p q : ι) (l post : List ι), (a :: l).Pairwise (fun k k' => xp k < xp k') →
      a :: l = pre ++ p :: q :: post → xp p ≤ x → x ≤ xp q →
      npInterp lerp (xp a, fp a) (l.map fun k => (xp k, fp k)) x = lerp (xp p) (xp q) x (fp p) (fp q) := by
  intro pre
  induction pre with
  | nil =>
    intro a p q l post hs he h1 h2
    simp only [List.nil_append, List.cons.injEq] at he
    obtain ⟨rfl, rfl⟩ := he
    have hpq : xp a < xp q := (List.pairwise_cons.mp hs).1 q (by simp)
    by_cases h3 : xp q ≤ x
    · have hx : xp q = x := le_antisymm h3 h2
      rw [npInterp_node xp fp x [a] a q _ post hs rfl hx, ← hx, lerp_right hpq]
    · simp only [List.map_cons]
      unfold npInterp
      rw [if_neg h3]
      split_ifs with h4
      · dsimp only at h4 ⊢
        rw [← h4, lerp_left]
      · rfl
  | cons c pre ih =>
    intro a p q l post hs he h1 h2
    simp only [List.cons_append, List.cons.injEq] at he
    obtain ⟨rfl, rfl⟩ := he
    have hs' := (List.pairwise_cons.mp hs).2
    cases hl : pre ++ p :: q :: post with
    | nil => simp at hl
    | cons b l =>
      have hb : xp b ≤ x := by
        refine le_trans ?_ h1
        cases pre with
        | nil =>
          simp only [List.nil_append, List.cons.injEq] at hl
          rw [← hl.1]
        | cons d pre =>
          simp only [List.cons_append, List.cons.injEq] at hl
          obtain ⟨rfl, rfl⟩ := hl
          exact ((List.pairwise_cons.mp hs').1 p (by simp)).le
      simp only [List.map_cons]
      unfold npInterp
      rw [if_pos hb]
      rw [hl] at hs'
      exact ih b p q l post hs' hl.symm h1 h2

theorem finRange_pairwise {xp : Fin n → ℝ} (h : StrictMono xp) :
    (List.finRange n).Pairwise (fun k k' => xp k < xp k') :=
  (List.pairwise_lt_finRange n).imp fun hk => h hk

theorem finRange_split (k : Fin n) : List.finRange n = (List.finRange n).take k ++ k :: (List.finRange n).drop (k + 1) := by
  conv_lhs => rw [← List.take_append_drop k (List.finRange n)]
  rw [List.drop_eq_getElem_cons (by simp)]
  simp

/-- exact at the points -/
theorem interp_hit {xp : Fin n → ℝ} (h : StrictMono xp) (fp : Fin n → ℝ) (k : Fin n) : interp xp fp (xp k) = fp k := by
  obtain ⟨n, rfl⟩ : ∃ m, n = m + 1 := ⟨n - 1, by have := k.isLt; omega⟩
  rw [finRange_cons, if_neg (not_lt.mpr (h.monotone (Fin.zero_le k)))]
  have hs := finRange_split k
  have hp := finRange_pairwise h
  have e := List.finRange_succ (n := n)
  rw [e] at hp
  exact npInterp_node xp fp _ _ 0 k _ _ hp (e ▸ hs) rfl

/-- linear between the points -/
theorem interp_between {xp : Fin n → ℝ} (h : StrictMono xp) (fp : Fin n → ℝ) (k k' : Fin n) (hk : k.val + 1 = k'.val) (x : ℝ)
    (h1 : xp k ≤ x) (h2 : x ≤ xp k') : interp xp fp x = lerp (xp k) (xp k') x (fp k) (fp k') := by
  obtain ⟨n, rfl⟩ : ∃ m, n = m + 1 := ⟨n - 1, by have := k.isLt; omega⟩
  rw [finRange_cons, if_neg (not_lt.mpr ((h.monotone (Fin.zero_le k)).trans h1))]
  have hs := finRange_split k
  have hd : (List.finRange (n + 1)).drop (k + 1) = k' :: (List.finRange (n + 1)).drop (k' + 1) := by
    rw [List.drop_eq_getElem_cons (by simpa [hk] using k'.isLt)]
    simp [hk]
  rw [hd] at hs
  have hp := finRange_pairwise h
  have e := List.finRange_succ (n := n)
  rw [e] at hp
  exact npInterp_between xp fp _ _ 0 k k' _ _ hp (e ▸ hs) h1 h2

/-- constant continuation -/
theorem interp_left (xp fp : Fin (n + 1) → ℝ) (h : StrictMono xp) (x : ℝ) (hx : x ≤ xp 0) : interp xp fp x = fp 0 := by
  rcases hx.lt_or_eq with hx | rfl
  · rw [finRange_cons, if_pos hx]
  · exact interp_hit h fp 0

theorem interp_right (xp fp : Fin (n + 1) → ℝ) (h : StrictMono xp) (x : ℝ) (hx : xp (Fin.last n) ≤ x) :
    interp xp fp x = fp (Fin.last n) := by
  have h0 : xp 0 ≤ x := (h.monotone (Fin.zero_le _)).trans hx
  rw [finRange_cons, if_neg (not_lt.mpr h0), npInterp_last]
  · have e : ((xp 0, fp 0) :: ((List.finRange n).map Fin.succ).map fun k => (xp k, fp k)) =
        (List.finRange (n + 1)).map fun k => (xp k, fp k) := by
      rw [List.finRange_succ]; rfl
    simp only [e]
    rw [List.getLast_map (by simp [List.finRange_succ])]
    simp [List.getLast_eq_getElem]
    congr 1
  · intro p hp
    obtain ⟨k, _, rfl⟩ := List.mem_map.mp hp
    exact (h.monotone (Fin.le_last _)).trans hx

end Barotropic
