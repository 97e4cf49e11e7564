import Verif.Spec.Io
import Verif.Lemmas.Grid

/-!
# Checks of coordinates in `from_dataset`
-/

set_option linter.unusedSectionVars false

namespace Barotropic
open Io
variable {K : Type*} [Field K] [LinearOrder K] [IsStrictOrderedRing K] [FloorRing K]

theorem mem_diff (l : List K) (d : K) : d ∈ diff l ↔ ∃ i, i + 1 < l.length ∧ d = l.getD (i + 1) 0 - l.getD i 0 := by
  unfold diff
  rw [List.mem_iff_getElem]
  constructor
  · rintro ⟨i, hi, rfl⟩
    have : i + 1 < l.length := by simp at hi; omega
    refine ⟨i, this, ?_⟩
    simp [List.getD_eq_getElem?_getD, List.getElem?_eq_getElem this, List.getElem?_eq_getElem (show i < l.length by omega)]
  · rintro ⟨i, hi, rfl⟩
    refine ⟨i, by simp; omega, ?_⟩
    simp [List.getD_eq_getElem?_getD, List.getElem?_eq_getElem hi, List.getElem?_eq_getElem (show i < l.length by omega)]

theorem getLast_getD (a b : K) (l : List K) : (b :: l).getLast (by simp) = (a :: b :: l).getD ((a :: b :: l).length - 1) 0 := by
  rw [List.getLast_eq_getElem, List.getD_eq_getElem?_getD, List.getElem?_eq_getElem (by simp)]
  simp

theorem checkLon_ok (lon : List K) (d : K) : checkLon lon = .ok d ↔ LonOk lon d := by
  unfold checkLon
  rcases lon with _ | ⟨a, _ | ⟨b, l⟩⟩
  · exact ⟨fun h => (by cases h), fun h => absurd h.two (by simp)⟩
  · exact ⟨fun h => (by cases h), fun h => absurd h.two (by simp)⟩
  · have key : ((∀ d' ∈ diff (a :: b :: l), isclose (b - a) d') ∧ 0 < b - a ∧
        isclose ((b :: l).getLast (by simp) - a) (360 - (b - a))) ↔ LonOk (a :: b :: l) (b - a) := by
      constructor
      · rintro ⟨h1, h2, h3⟩
        refine ⟨⟨by simp, by simp, fun i hi => h1 _ ((mem_diff _ _).mpr ⟨i, hi, rfl⟩)⟩, h2, ?_⟩
        rw [getLast_getD a] at h3
        exact h3
      · intro h
        refine ⟨fun d' hd => ?_, h.pos, ?_⟩
        · obtain ⟨i, hi, rfl⟩ := (mem_diff _ _).mp hd
          exact h.spacing i hi
        · rw [getLast_getD a]
          exact h.global
    dsimp only
    constructor
    · intro h
      split_ifs at h with hc
      cases h
      exact key.mp hc
    · intro h
      have hd : d = b - a := by simpa using h.first
      subst hd
      rw [if_pos (key.mpr h)]

theorem checkLat_ok (lat : List K) (n : ℕ) (hn : 2 ≤ n) (d : K) : checkLat n d lat = .ok () ↔ LatOk lat n d := by
  unfold checkLat
  rcases lat with _ | ⟨a, _ | ⟨b, l⟩⟩
  · exact ⟨fun h => (by cases h), fun h => absurd h.regular.two (by simp)⟩
  · refine ⟨fun h => ?_, fun h => absurd h.regular.two (by simp)⟩
    dsimp only at h
    split_ifs at h
  · have e : (a :: b :: l).getD 1 0 - (a :: b :: l).getD 0 0 = b - a := by simp
    dsimp only
    constructor
    · intro h
      split_ifs at h with hc
      obtain ⟨h1, h2, h3, h4⟩ := hc
      refine ⟨⟨by simp, rfl, fun i hi => ?_⟩, ?_, by rw [e]; exact h3, by rw [e]; exact h4⟩
      · rw [e]
        exact h2 _ ((mem_diff _ _).mpr ⟨i, hi, rfl⟩)
      · simp only [List.length_cons] at h1 ⊢
        omega
    · intro h
      rw [if_pos]
      refine ⟨by rw [h.number]; omega, fun d' hd => ?_, by have := h.neg; rwa [e] at this, by have := h.same; rwa [e] at this⟩
      obtain ⟨i, hi, rfl⟩ := (mem_diff _ _).mp hd
      have := h.regular.spacing i hi
      rwa [e] at this

theorem checkLon_error (lon : List K) (e : PyErr) (h : checkLon lon = .error e) : e = .assertionError ∨ e = .indexError := by
  unfold checkLon at h
  split at h
  · cases h; exact Or.inl rfl
  · cases h; exact Or.inr rfl
  · dsimp only at h
    split_ifs at h
    cases h; exact Or.inl rfl

theorem checkLat_error (lat : List K) (n : ℕ) (d : K) (e : PyErr) (h : checkLat n d lat = .error e) :
    e = .assertionError ∨ e = .indexError := by
  unfold checkLat at h
  split at h
  · cases h; exact Or.inl rfl
  · split_ifs at h <;> cases h
    · exact Or.inr rfl
    · exact Or.inl rfl
  · dsimp only at h
    split_ifs at h
    cases h; exact Or.inl rfl

/-! ### Deviation from equal spacing -/

theorem spacing_close {d x : K} (h : |d - x| ≤ 1 / 10 ^ 8 + 1 / 10 ^ 5 * |x|) :
    |x - d| ≤ 2 / 10 ^ 8 + 101 / 10 ^ 7 * |d| := by
  rw [abs_sub_comm] at h
  have h1 : |x| ≤ |x - d| + |d| := by
    have := abs_add_le (x - d) d
    rwa [sub_add_cancel] at this
  have h2 : 0 ≤ |x - d| := abs_nonneg _
  have h3 : 0 ≤ |d| := abs_nonneg _
  have h4 : |x - d| ≤ 1 / 10 ^ 8 + 1 / 10 ^ 5 * (|x - d| + |d|) := h.trans (by nlinarith)
  norm_num at h4 ⊢
  nlinarith

/-- Deviation of a regular coordinate from an equally spaced one -/
theorem regular_dev {x : List K} {d : K} (h : Regular x d) (i : ℕ) (hi : i < x.length) :
    |x.getD i 0 - x.getD 0 0 - i * d| ≤ i * (2 / 10 ^ 8 + 101 / 10 ^ 7 * |d|) := by
  induction i with
  | zero => simp
  | succ i ih =>
    have h1 := ih (by omega)
    have h2 := spacing_close (h.spacing i hi)
    have e : x.getD (i + 1) 0 - x.getD 0 0 - ((i + 1 : ℕ) : K) * d =
        (x.getD i 0 - x.getD 0 0 - i * d) + (x.getD (i + 1) 0 - x.getD i 0 - d) := by push_cast; ring
    rw [e]
    refine (abs_add_le _ _).trans ?_
    push_cast
    linarith

theorem lon_total {lon : List K} {d : K} (h : LonOk lon d) (hd : d ≤ 360) :
    |lon.length * d - 360| ≤ 76 / 10 ^ 4 + 3 / 10 ^ 8 * lon.length := by
  have hn := h.two
  have h1 := regular_dev h.toRegular (lon.length - 1) (by omega)
  have h2 := h.global
  have hp := h.pos
  rw [Nat.cast_sub (by omega), Nat.cast_one, abs_of_pos hp] at h1
  rw [abs_of_nonneg (by linarith : 0 ≤ 360 - d)] at h2
  have hn' : (2 : K) ≤ lon.length := by exact_mod_cast hn
  generalize (lon.length : K) = n at *
  generalize lon.getD (lon.length - 1) 0 - lon.getD 0 0 = T at *
  rw [abs_le] at h1 h2 ⊢
  obtain ⟨h1a, h1b⟩ := h1
  obtain ⟨h2a, h2b⟩ := h2
  norm_num at *
  constructor <;> nlinarith

theorem near_count {n d : K} (hn : 2 ≤ n) (hn' : n ≤ 40000) (hd : 0 < d) (h : |n * d - 360| ≤ 76 / 10 ^ 4 + 3 / 10 ^ 8 * n) :
    360 < (n + 1) * d ∧ (n - 1) * d ≤ 360 := by
  rw [abs_le] at h
  have he : (76 : K) / 10 ^ 4 + 3 / 10 ^ 8 * n ≤ 88 / 10 ^ 4 := by linarith
  have hdd : 88 / 10 ^ 4 < d := by
    by_contra hc
    push Not at hc
    have : n * d ≤ 40000 * (88 / 10 ^ 4) := mul_le_mul hn' hc hd.le (by norm_num)
    norm_num at *
    linarith
  constructor <;> linarith

end Barotropic
