import Verif.Lemmas.Binary64
import Mathlib.Data.Rat.Floor

/-!
# Double precision: C101 – C103
-/

set_option linter.unusedSectionVars false

namespace Barotropic
open Binary64

variable {K : Type*} [Field K] [LinearOrder K] [IsStrictOrderedRing K] [FloorRing K]

/-! ## C101: number of gridpoints -/

/-- C101: results of operations are the nearest doubles. -/
theorem C101_rounding (x : K) : IsNearest x (rnd x) := rnd_nearest x

theorem floor_rnd {x : K} (h0 : 0 ≤ x) (h : x ≤ 2 ^ 53) : ⌊x⌋₊ ≤ ⌊rnd x⌋₊ ∧ ⌊rnd x⌋₊ ≤ ⌈x⌉₊ := by
  have hd : ∀ n : ℕ, n ≤ 2 ^ 53 → rnd (n : K) = n := fun n hn => by
    have := rnd_double (isDouble_int (K := K) (n := (n : ℤ)) (by rw [abs_of_nonneg (by positivity)]; exact_mod_cast hn))
    simpa using this
  constructor
  · refine Nat.le_floor ?_
    rw [← hd _ (Nat.floor_le_of_le (by exact_mod_cast h))]
    exact rnd_mono (Nat.floor_le h0)
  · refine Nat.floor_le_of_le ?_
    rw [← hd _ (Nat.ceil_le.mpr (by exact_mod_cast h))]
    exact rnd_mono (Nat.le_ceil x)

/-- C101: rounding never removes gridpoints, compared to the exact quotient, and adds at most one. -/
theorem C101_bracket {res : K} (hr : 0 < res) (h : 360 / res ≤ 2 ^ 53) :
    (Grid.nlonOf res ≤ Binary64.nlonOf res ∧ Binary64.nlonOf res ≤ Grid.nlonOf res + 1) ∧
    (Grid.nlatOf res ≤ Binary64.nlatOf res ∧ Binary64.nlatOf res ≤ Grid.nlatOf res + 1) := by
  have h1 := floor_rnd (x := 360 / res) (by positivity) h
  have h2 := floor_rnd (x := 180 / res) (by positivity) (le_trans (div_le_div_of_nonneg_right (by norm_num) hr.le) h)
  have h3 := Nat.ceil_le_floor_add_one (360 / res)
  have h4 := Nat.ceil_le_floor_add_one (180 / res)
  unfold Grid.nlonOf Grid.nlatOf Binary64.nlonOf Binary64.nlatOf
  omega

/-- C101: if the circle is a multiple of the resolution, the number of longitudes is right. -/
theorem C101_exact_lon {res : K} {n : ℕ} (hn : n ≤ 2 ^ 53) (hr : 0 < res) (h : n * res = 360) :
    Binary64.nlonOf res = n ∧ Grid.nlonOf res = n := by
  have e : 360 / res = n := by rw [div_eq_iff hr.ne']; exact h.symm
  have hc : (n : K) ≤ 2 ^ 53 := by exact_mod_cast hn
  unfold Binary64.nlonOf Grid.nlonOf
  have := floor_rnd (x := (n : K)) (by positivity) hc
  rw [e]
  rw [Nat.floor_natCast, Nat.ceil_natCast] at this
  exact ⟨le_antisymm this.2 this.1, Nat.floor_natCast n⟩

/-- C101: if the distance between the poles is a multiple of the resolution, the number of latitudes is right. -/
theorem C101_exact_lat {res : K} {n : ℕ} (hn : n ≤ 2 ^ 53) (hr : 0 < res) (h : n * res = 180) :
    Binary64.nlatOf res = n + 1 ∧ Grid.nlatOf res = n + 1 := by
  have e : 180 / res = n := by rw [div_eq_iff hr.ne']; exact h.symm
  have hc : (n : K) ≤ 2 ^ 53 := by exact_mod_cast hn
  unfold Binary64.nlatOf Grid.nlatOf
  have := floor_rnd (x := (n : K)) (by positivity) hc
  rw [e]
  rw [Nat.floor_natCast, Nat.ceil_natCast] at this
  exact ⟨congrArg (· + 1) (le_antisymm this.2 this.1), congrArg (· + 1) (Nat.floor_natCast n)⟩

theorem floor_near {c : K} (hc : 0 < c) {n : ℕ} (h1 : 1 ≤ n) (hn : n ≤ 2 ^ 51) :
    ⌊rnd (c / rnd (c / n))⌋₊ = n ∨ ⌊rnd (c / rnd (c / n))⌋₊ + 1 = n := by
  have hnp : (0 : K) < n := by exact_mod_cast h1
  have hnK : (n : K) ≤ 2 ^ 51 := by exact_mod_cast hn
  have hq : 0 < c / n := by positivity
  have hr := rnd_rel (c / n)
  rw [abs_of_pos hq, abs_le] at hr
  set r := rnd (c / (n : K)) with hrdef
  have hrp : 0 < r := rnd_pos hq
  have hqn : c / n * n = c := by field_simp
  have lo : (n : K) - 1 ≤ c / r := by
    rw [le_div_iff₀ hrp]
    have : r ≤ c / n * (1 + 1 / 2 ^ 53) := by linarith [hr.1]
    rcases le_or_gt ((n : K) - 1) 0 with h0 | h0
    · exact (mul_nonpos_of_nonpos_of_nonneg h0 hrp.le).trans hc.le
    · calc ((n : K) - 1) * r ≤ (n - 1) * (c / n * (1 + 1 / 2 ^ 53)) := mul_le_mul_of_nonneg_left this h0.le
        _ = c / n * ((n - 1) * (1 + 1 / 2 ^ 53)) := by ring
        _ ≤ c / n * n := mul_le_mul_of_nonneg_left (by linarith) hq.le
        _ = c := hqn
  have hi : c / r ≤ (n : K) + 1 / 2 := by
    rw [div_le_iff₀ hrp]
    have : c / n * (1 - 1 / 2 ^ 53) ≤ r := by linarith [hr.2]
    calc c = c / n * n := hqn.symm
      _ ≤ c / n * ((n + 1 / 2) * (1 - 1 / 2 ^ 53)) := mul_le_mul_of_nonneg_left (by linarith) hq.le
      _ = (n + 1 / 2) * (c / n * (1 - 1 / 2 ^ 53)) := by ring
      _ ≤ (n + 1 / 2) * r := mul_le_mul_of_nonneg_left this (by positivity)
  have d1 : rnd ((n : K) - 1) = n - 1 := by
    refine rnd_double ⟨(n : ℤ) - 1, 0, ?_, by push_cast; simp⟩
    rw [abs_of_nonneg (by omega)]; omega
  have d2 : rnd ((n : K) + 1 / 2) = n + 1 / 2 := by
    refine rnd_double ⟨2 * (n : ℤ) + 1, -1, ?_, by push_cast; rw [zpow_neg_one]; ring⟩
    rw [abs_of_nonneg (by omega)]; omega
  have e1 := rnd_mono lo
  have e2 := rnd_mono hi
  rw [d1] at e1
  rw [d2] at e2
  have f1 : n - 1 ≤ ⌊rnd (c / r)⌋₊ := by
    refine Nat.le_floor ?_
    push_cast [h1]
    exact e1
  have f2 : ⌊rnd (c / r)⌋₊ < n + 1 := by
    rw [Nat.floor_lt (rnd_nonneg (by positivity))]
    push_cast
    linarith
  omega

/-- C101: a grid of which one wants `n` longitudes, so that the resolution is the quotient `360 / n` computed in double precision,
has `n` or `n - 1` of them; likewise latitudes. -/
theorem C101_near {n : ℕ} (h1 : 1 ≤ n) (hn : n ≤ 2 ^ 51) :
    (Binary64.nlonOf (rnd (360 / n : K)) = n ∨ Binary64.nlonOf (rnd (360 / n : K)) + 1 = n) ∧
    (Binary64.nlatOf (rnd (180 / n : K)) = n + 1 ∨ Binary64.nlatOf (rnd (180 / n : K)) = n) := by
  have a := floor_near (K := K) (c := 360) (by norm_num) h1 hn
  have b := floor_near (K := K) (c := 180) (by norm_num) h1 hn
  unfold Binary64.nlonOf Binary64.nlatOf
  omega

/-- C101 is false: `Grid(resolution=180/255)` has 255 latitudes and 509 longitudes instead of 256 and 510. A grid with 256 and 510
exists, but the spacing of its longitudes is a resolution for which the grid has fewer points. (`from_dataset` constructs the grid from
the spacing.) -/
theorem C101_refuted :
    (Binary64.nlatOf (rnd (180 / 255 : ℚ)) = 255 ∧ Binary64.nlonOf (rnd (180 / 255 : ℚ)) = 509) ∧
    ∃ res : ℚ, IsDouble res ∧ Binary64.nlatOf res = 256 ∧ Binary64.nlonOf res = 510 ∧
      Binary64.nlonOf (rnd (Binary64.lon 510 1 - Binary64.lon 510 0 : ℚ)) = 509 ∧
      Binary64.nlatOf (rnd (Binary64.lon 510 1 - Binary64.lon 510 0 : ℚ)) = 255 := by
  refine ⟨by decide +kernel, rnd (180 / 255 - 1 / 2 ^ 40 : ℚ), rnd_isDouble _, ?_⟩
  decide +kernel

example : (144 : ℕ) ≤ 2 ^ 53 ∧ (0 : ℚ) < 5 / 2 ∧ ((144 : ℕ) : ℚ) * (5 / 2) = 360 := by norm_num
example : Binary64.nlonOf (1 / 3 : ℚ) = 1080 ∧ Binary64.nlonOf (rnd (360 / 255 : ℚ)) = 254 := by decide +kernel

/-! ## C102: coordinates -/

theorem dyadic_int_mul {s : ℕ} {x : K} (h : Dyadic s x) (n : ℤ) : Dyadic s (n * x) := by
  obtain ⟨m, rfl⟩ := h
  exact ⟨n * m, by push_cast; ring⟩

theorem dyadic_add {s : ℕ} {x y : K} (hx : Dyadic s x) (hy : Dyadic s y) : Dyadic s (x + y) := by
  obtain ⟨m, rfl⟩ := hx
  obtain ⟨n, rfl⟩ := hy
  exact ⟨m + n, by push_cast; ring⟩

theorem dyadic_int (s : ℕ) (n : ℤ) : Dyadic s (n : K) := ⟨n * 2 ^ s, by push_cast; field_simp⟩

theorem rnd_dyadic {s : ℕ} {x : K} (h : Dyadic s x) {c : K} (hx : |x| ≤ c) (hc : c * 2 ^ s ≤ 2 ^ 53) : rnd x = x :=
  rnd_double (isDouble_dyadic h ((mul_le_mul_of_nonneg_right hx (by positivity)).trans hc))

/-- C102: coordinates are exact if the spacing has few binary digits after the point. -/
theorem C102_exact_lon {n s : ℕ} (hn : 0 < n) (hd : Dyadic s (360 / n : K)) (hs : (360 : K) * 2 ^ s ≤ 2 ^ 53) (i : ℕ) (hi : i < n) :
    Binary64.lon n i = (i * (360 / n) : K) := by
  have hnp : (0 : K) < n := by exact_mod_cast hn
  have hin : (i : K) ≤ n := by exact_mod_cast hi.le
  have hb : (i : K) * (360 / n) ≤ 360 := by
    rw [← mul_div_assoc, div_le_iff₀ hnp]; nlinarith
  have h1 : (1 : K) ≤ n := by exact_mod_cast hn
  unfold Binary64.lon Binary64.linspaceOpen
  have e0 : rnd (360 - 0 : K) = 360 := by
    rw [sub_zero]
    exact rnd_dyadic (by have := dyadic_int (K := K) s 360; simpa using this) (le_of_eq (abs_of_pos (by norm_num))) hs
  have e1 : rnd (360 / n : K) = 360 / n := rnd_dyadic hd (by
    rw [abs_of_pos (by positivity)]; exact div_le_self (by norm_num) h1) hs
  have e2 : rnd ((i : K) * (360 / n)) = i * (360 / n) := rnd_dyadic (by simpa using dyadic_int_mul hd (i : ℤ)) (by
    rw [abs_of_nonneg (by positivity)]; exact hb) hs
  rw [e0, e1, e2, add_zero, e2]

theorem C102_exact_lat {n s : ℕ} (hn : 0 < n) (hd : Dyadic s (180 / n : K)) (hs : (180 : K) * 2 ^ s ≤ 2 ^ 53) (j : ℕ) (hj : j ≤ n) :
    Binary64.lat (n + 1) j = (90 - j * (180 / n) : K) := by
  have hnp : (0 : K) < n := by exact_mod_cast hn
  have hjn : (j : K) ≤ n := by exact_mod_cast hj
  have hb : (j : K) * (180 / n) ≤ 180 := by
    rw [← mul_div_assoc, div_le_iff₀ hnp]; nlinarith
  have hb0 : 0 ≤ (j : K) * (180 / n) := by positivity
  have h1 : (1 : K) ≤ n := by exact_mod_cast hn
  have hdn : Dyadic s (-(180 / n) : K) := by simpa using dyadic_int_mul hd (-1)
  unfold Binary64.lat Binary64.linspace
  rw [Nat.add_sub_cancel]
  split_ifs with h
  · subst h
    field_simp
    norm_num
  · have e0 : rnd (-90 - 90 : K) = -180 := by
      rw [show (-90 - 90 : K) = -180 by norm_num]
      exact rnd_dyadic (by have := dyadic_int (K := K) s (-180); simpa using this) (le_of_eq (by norm_num [abs_of_pos])) hs
    have e1 : rnd (-180 / n : K) = -(180 / n) := by
      rw [neg_div]
      exact rnd_dyadic hdn (by
        rw [abs_neg, abs_of_pos (by positivity)]; exact div_le_self (by norm_num) h1) hs
    have e2 : rnd ((j : K) * -(180 / n)) = j * -(180 / n) := rnd_dyadic (by simpa using dyadic_int_mul hdn (j : ℤ)) (by
      rw [mul_neg, abs_neg, abs_of_nonneg (by positivity)]; exact hb) hs
    have e3 : rnd ((j : K) * -(180 / n) + 90) = j * -(180 / n) + 90 := rnd_dyadic
      (dyadic_add (by simpa using dyadic_int_mul hdn (j : ℤ)) (by have := dyadic_int (K := K) s 90; simpa using this)) (by
        rw [abs_le]; constructor <;> linarith) hs
    rw [e0, e1, e2, e3]
    ring

/-- An accumulated product and sum: `a` is `rnd (i * rnd (c / n))`. -/
theorem scaled_close {c : K} (hc : 0 ≤ c) {n i : ℕ} (hn : 0 < n) (hi : i ≤ n) :
    |rnd (i * rnd (c / n)) - i * (c / n)| ≤ c * (33 / 2 ^ 57) := by
  have hnp : (0 : K) < n := by exact_mod_cast hn
  have hin : (i : K) ≤ n := by exact_mod_cast hi
  have hq : (0 : K) ≤ c / n := by positivity
  have hb : (i : K) * (c / n) ≤ c := by
    rw [← mul_div_assoc, div_le_iff₀ hnp]; nlinarith
  have hi0 : (0 : K) ≤ i := by positivity
  have h1 := rnd_rel (c / n)
  rw [abs_of_nonneg hq] at h1
  have hr0 : 0 ≤ rnd (c / n) := rnd_nonneg hq
  have h2 : |(i : K) * (c / n) - i * rnd (c / n)| ≤ i * (c / n) / 2 ^ 53 := by
    rw [← mul_sub, abs_mul, abs_of_nonneg hi0, mul_div_assoc]
    exact mul_le_mul_of_nonneg_left h1 hi0
  have h3 := rnd_rel (i * rnd (c / n))
  rw [abs_of_nonneg (mul_nonneg hi0 hr0)] at h3
  rw [abs_le] at h2 h3 ⊢
  constructor <;> linarith

theorem C102_close_lon {n : ℕ} (hn : 0 < n) (i : ℕ) (hi : i < n) :
    |Binary64.lon n i - i * (360 / n : K)| ≤ 1 / 2 ^ 43 := by
  have h := scaled_close (K := K) (c := 360) (by norm_num) hn hi.le
  unfold Binary64.lon Binary64.linspaceOpen
  have e0 : rnd (360 - 0 : K) = 360 := by
    rw [sub_zero]
    have := rnd_double (isDouble_int (K := K) (n := 360) (by norm_num))
    simpa using this
  rw [e0, add_zero, rnd_double (rnd_isDouble _)]
  exact h.trans (by norm_num)

theorem C102_close_lat {n : ℕ} (hn : 0 < n) (j : ℕ) (hj : j ≤ n) :
    |Binary64.lat (n + 1) j - (90 - j * (180 / n) : K)| ≤ 1 / 2 ^ 44 := by
  have hnp : (0 : K) < n := by exact_mod_cast hn
  have hjn : (j : K) ≤ n := by exact_mod_cast hj
  have hb : (j : K) * (180 / n) ≤ 180 := by
    rw [← mul_div_assoc, div_le_iff₀ hnp]; nlinarith
  have hb0 : 0 ≤ (j : K) * (180 / n) := by positivity
  unfold Binary64.lat Binary64.linspace
  rw [Nat.add_sub_cancel]
  split_ifs with h
  · subst h
    rw [mul_div_cancel₀ _ hnp.ne']
    norm_num
  · have h := scaled_close (K := K) (c := 180) (by norm_num) hn hj
    have e0 : rnd (-90 - 90 : K) = -180 := by
      have := rnd_double (isDouble_int (K := K) (n := -180) (by norm_num))
      rw [show (-90 - 90 : K) = ((-180 : ℤ) : K) by norm_num]
      simpa using this
    rw [e0, neg_div, rnd_neg, mul_neg, rnd_neg]
    set a := rnd ((j : K) * rnd (180 / (n : K))) with ha
    have h2 := rnd_rel (-a + 90)
    have h3 : |-a + 90| ≤ 91 := by
      rw [abs_le] at h ⊢
      constructor <;> linarith
    rw [abs_le] at h h2 ⊢
    constructor <;> linarith

/-- C102: coordinates are sorted, start and end where they should and stay in their range. -/
theorem C102_sorted_lon {n : ℕ} (h4 : n ≤ 2 ^ 49) :
    (0 < n → Binary64.lon n 0 = (0 : K)) ∧ (∀ i i', i < i' → i' < n → (Binary64.lon n i : K) < Binary64.lon n i') ∧
    ∀ i < n, (0 : K) ≤ Binary64.lon n i ∧ Binary64.lon n i < (360 : K) := by
  have hnK : (n : K) ≤ 2 ^ 49 := by exact_mod_cast h4
  have z : (Binary64.lon n 0 : K) = 0 := by
    unfold Binary64.lon Binary64.linspaceOpen
    simp [rnd_zero]
  have sp : 0 < n → (1 : K) / 2 ^ 42 < 360 / n := by
    intro hn
    have hnp : (0 : K) < n := by exact_mod_cast hn
    rw [div_lt_div_iff₀ (by norm_num) hnp]
    linarith
  have mono : ∀ i i', i < i' → i' < n → (Binary64.lon n i : K) < Binary64.lon n i' := by
    intro i i' hi hi'
    have hn : 0 < n := by omega
    have h1 := abs_le.mp (C102_close_lon (K := K) hn i (hi.trans hi'))
    have h2 := abs_le.mp (C102_close_lon (K := K) hn i' hi')
    have h3 : (i : K) + 1 ≤ i' := by exact_mod_cast hi
    have h5 := mul_le_mul_of_nonneg_right h3 (show (0 : K) ≤ 360 / n by positivity)
    have := sp hn
    linarith [h1.2, h2.1]
  refine ⟨fun _ => z, mono, fun i hi => ⟨?_, ?_⟩⟩
  · rcases Nat.eq_zero_or_pos i with rfl | h
    · rw [z]
    · rw [← z]
      exact (mono 0 i h hi).le
  · have hn : 0 < n := by omega
    have hnp : (0 : K) < n := by exact_mod_cast hn
    have h1 := abs_le.mp (C102_close_lon (K := K) hn i hi)
    have h3 : (i : K) + 1 ≤ n := by exact_mod_cast hi
    have h5 := mul_le_mul_of_nonneg_right h3 (show (0 : K) ≤ 360 / n by positivity)
    rw [mul_div_cancel₀ _ hnp.ne'] at h5
    have := sp hn
    linarith [h1.2]

theorem C102_sorted_lat {n : ℕ} (hn : 0 < n) (h4 : n ≤ 2 ^ 49) :
    Binary64.lat (n + 1) 0 = (90 : K) ∧ Binary64.lat (n + 1) n = (-90 : K) ∧
    (∀ j j', j < j' → j' ≤ n → (Binary64.lat (n + 1) j' : K) < Binary64.lat (n + 1) j) ∧
    ∀ j ≤ n, (-90 : K) ≤ Binary64.lat (n + 1) j ∧ Binary64.lat (n + 1) j ≤ (90 : K) := by
  have hnK : (n : K) ≤ 2 ^ 49 := by exact_mod_cast h4
  have hnp : (0 : K) < n := by exact_mod_cast hn
  have z : Binary64.lat (n + 1) 0 = (90 : K) := by
    unfold Binary64.lat Binary64.linspace
    rw [if_neg (by omega)]
    have := rnd_double (isDouble_int (K := K) (n := 90) (by norm_num))
    simp only [Nat.cast_zero, zero_mul, rnd_zero, zero_add]
    simpa using this
  have l : Binary64.lat (n + 1) n = (-90 : K) := by
    unfold Binary64.lat Binary64.linspace
    rw [if_pos (by omega)]
  have sp : (1 : K) / 2 ^ 43 < 180 / n := by
    rw [div_lt_div_iff₀ (by norm_num) hnp]
    linarith
  have mono : ∀ j j', j < j' → j' ≤ n → (Binary64.lat (n + 1) j' : K) < Binary64.lat (n + 1) j := by
    intro j j' hj hj'
    have h1 := abs_le.mp (C102_close_lat (K := K) hn j (hj.le.trans hj'))
    have h2 := abs_le.mp (C102_close_lat (K := K) hn j' hj')
    have h3 : (j : K) + 1 ≤ j' := by exact_mod_cast hj
    have h5 := mul_le_mul_of_nonneg_right h3 (show (0 : K) ≤ 180 / n by positivity)
    linarith [h1.1, h2.2]
  refine ⟨z, l, mono, fun j hj => ⟨?_, ?_⟩⟩
  · rcases hj.eq_or_lt with rfl | h
    · exact l.ge
    · rw [← l]; exact (mono j n h le_rfl).le
  · rcases Nat.eq_zero_or_pos j with rfl | h
    · exact z.le
    · rw [← z]; exact (mono 0 j h hj).le

/-- C102 is false for the equator and for symmetry: a grid with 79 latitudes has no latitude 0, the southern hemisphere `-90 ≤ lat ≤ 0`
has 39 latitudes and the northern hemisphere 40. Latitudes of a grid with 8 of them are not symmetric. -/
theorem C102_symmetry_refuted :
    Binary64.nlatOf (rnd (180 / 78 : ℚ)) = 79 ∧ Binary64.lat 79 39 = (1 / 2 ^ 46 : ℚ) ∧
    ((List.range 79).filter fun j => (Binary64.lat 79 j : ℚ) ≤ 0).length = 39 ∧
    ((List.range 79).filter fun j => (0 : ℚ) ≤ Binary64.lat 79 j).length = 40 ∧
    (Binary64.lat 8 5 : ℚ) ≠ -Binary64.lat 8 2 := by
  decide +kernel

example : Dyadic 1 (180 / (72 : ℕ) : ℚ) ∧ (180 : ℚ) * 2 ^ 1 ≤ 2 ^ 53 := ⟨⟨5, by norm_num⟩, by norm_num⟩

/-! ## C103: times -/

/-- C103: times of steps are exact if initial time and time step are multiples of `2 ^ (-s)`, e.g. integers, and not too large. -/
theorem C103_exact {s : ℕ} {t0 dt : K} (h0 : Dyadic s t0) (hd : Dyadic s dt) (k : ℕ) (h : (|t0| + (k + 1) * |dt|) * 2 ^ s ≤ 2 ^ 53) :
    Binary64.pair t0 dt k = (t0 + k * dt, t0 + (k + 1) * dt) := by
  have ex : ∀ (c : K) (n : ℕ), c = n → c ≤ k + 1 → rnd (t0 + c * dt) = t0 + c * dt := by
    intro c n hc hle
    subst hc
    refine rnd_dyadic (dyadic_add h0 (by simpa using dyadic_int_mul hd (n : ℤ))) (c := |t0| + (k + 1) * |dt|) ?_ h
    refine (abs_add_le _ _).trans ?_
    rw [abs_mul, abs_of_nonneg (show (0 : K) ≤ n by positivity)]
    gcongr
  induction k with
  | zero =>
    unfold Binary64.pair
    have := ex 1 1 (by norm_num) (by norm_num)
    rw [one_mul] at this
    rw [this]
    simp
  | succ k ih =>
    have hk : (|t0| + (k + 1) * |dt|) * 2 ^ s ≤ 2 ^ 53 := by
      refine le_trans ?_ h
      push_cast
      gcongr
      linarith
    have ih' := ih hk (fun c n hc hle => ex c n hc (by push_cast; linarith))
    unfold Binary64.pair
    rw [ih']
    dsimp only
    have e1 : rnd (t0 + (k + 1) * dt - (t0 + k * dt)) = dt := by
      rw [show t0 + (k + 1) * dt - (t0 + k * dt) = dt by ring]
      refine rnd_dyadic hd (c := |t0| + ((k + 1 : ℕ) + 1) * |dt|) ?_ h
      have : 0 ≤ ((k + 1 : ℕ) : K) * |dt| := by positivity
      linarith [abs_nonneg t0]
    have e2 := ex (k + 1 + 1) (k + 2) (by push_cast; ring) (by push_cast; linarith)
    rw [e1, show t0 + (k + 1) * dt + dt = t0 + (k + 1 + 1) * dt by ring, e2]
    push_cast
    rfl

/-- C103 is false in general: three steps of 0.3 s do not reach 0.9 s, `run` makes a fourth step and ends at 1.2 s; the length
of the steps changes during the integration. -/
theorem C103_refuted :
    (∀ k ≤ 3, (Binary64.pair 0 (rnd (3 / 10)) k).1 < rnd (9 / 10 : ℚ)) ∧
    rnd (9 / 10 : ℚ) ≤ (Binary64.pair 0 (rnd (3 / 10)) 4).1 ∧ (119 / 100 : ℚ) < (Binary64.pair 0 (rnd (3 / 10)) 4).1 ∧
    (Binary64.pair 0 (rnd (3 / 10)) 2).2 - (Binary64.pair 0 (rnd (3 / 10)) 2).1 ≠ rnd (3 / 10 : ℚ) := by
  decide +kernel

example : Dyadic 0 (0 : ℚ) ∧ Dyadic 0 (600 : ℚ) ∧ (|(0 : ℚ)| + (((10 : ℕ) : ℚ) ^ 12 + 1) * |600|) * 2 ^ 0 ≤ 2 ^ 53 :=
  ⟨⟨0, by norm_num⟩, ⟨600, by norm_num⟩, by norm_num [abs_of_pos]⟩

/-! ## C104: width of the phase filter -/

theorem smooth_close {w : ℕ} (h1 : 1 ≤ w) (hw : w ≤ 2 ^ 10) {k : K} (hk : 0 ≤ k) : |smoothConst w k - k| ≤ k / 2 ^ 41 := by
  have hwp : (0 : K) < w := by exact_mod_cast h1
  have hwK : (w : K) ≤ 2 ^ 10 := by exact_mod_cast hw
  have hwK1 : (1 : K) ≤ w := by exact_mod_cast h1
  set p := rnd (k * rnd (1 / (w : K))) with hp
  have a1 := rnd_rel (1 / (w : K))
  rw [abs_of_pos (show (0 : K) < 1 / w by positivity)] at a1
  have hkw : 0 ≤ k * (1 / w) := by positivity
  have a2 : |k * (1 / w) - k * rnd (1 / (w : K))| ≤ k * (1 / w) / 2 ^ 53 := by
    rw [← mul_sub, abs_mul, abs_of_nonneg hk, mul_div_assoc]
    exact mul_le_mul_of_nonneg_left a1 hk
  have a3 := rnd_rel (k * rnd (1 / (w : K)))
  rw [abs_of_nonneg (mul_nonneg hk (rnd_nonneg (by positivity))), ← hp] at a3
  have a4 : |p - k * (1 / w)| ≤ k * (1 / w) * (3 / 2 ^ 53) := by
    rw [abs_le] at a2 a3 ⊢
    constructor <;> linarith
  have hkk : k * (1 / w) * w = k := by field_simp
  have hkle : k * (1 / w) ≤ k := by
    have : (1 : K) / w ≤ 1 := by rw [div_le_one hwp]; exact hwK1
    exact mul_le_of_le_one_right hk this
  have ind : ∀ i ≤ w, |(fun acc => rnd (acc + p))^[i] 0 - i * (k * (1 / w))| ≤
      i * (k * (1 / w)) * (3 / 2 ^ 53) + i * (2 * k / 2 ^ 53) := by
    intro i
    induction i with
    | zero => simp
    | succ i ih =>
      intro hi
      have ih := ih (by omega)
      have hiK : (i : K) + 1 ≤ w := by exact_mod_cast hi
      have hi0 : (0 : K) ≤ i := by positivity
      rw [Function.iterate_succ_apply']
      set acc := (fun acc => rnd (acc + p))^[i] (0 : K) with hacc
      have b1 := rnd_rel (acc + p)
      have b2 : i * (k * (1 / w)) + k * (1 / w) ≤ k := by
        calc _ = k * (1 / w) * ((i : K) + 1) := by ring
          _ ≤ k * (1 / w) * w := mul_le_mul_of_nonneg_left hiK hkw
          _ = k := hkk
      have b3 : (i : K) * (2 * k / 2 ^ 53) ≤ 2 ^ 10 * (2 * k / 2 ^ 53) :=
        mul_le_mul_of_nonneg_right (by linarith) (by positivity)
      have b4 : 0 ≤ (i : K) * (k * (1 / w)) := mul_nonneg hi0 hkw
      have b5 : |acc + p| ≤ 2 * k := by
        rw [abs_le] at ih a4 ⊢
        constructor <;> linarith
      rw [abs_le] at ih a4 b1 ⊢
      push_cast
      constructor <;> linarith
  have h := ind w le_rfl
  have e : (w : K) * (k * (1 / w)) = k := by field_simp
  rw [e] at h
  have h2 : (w : K) * (2 * k / 2 ^ 53) ≤ 2 ^ 10 * (2 * k / 2 ^ 53) := mul_le_mul_of_nonneg_right hwK (by positivity)
  unfold smoothConst
  rw [← hp]
  refine h.trans ?_
  linarith

/-- C104: smoothing of a uniform wavenumber `k` changes the width of the filter only if the wavelength of `2 k` is a whole
number of gridpoints, and then reduces it by one gridpoint at each side or not at all. -/
theorem C104_width {w k nlon : ℕ} (h1 : 1 ≤ w) (hw : w ≤ 2 ^ 10) (hk : 1 ≤ k) (hkn : 4 * k ≤ nlon) (hn : nlon ≤ 2 ^ 20) :
    Binary64.hannWidth nlon (rnd (2 * smoothConst w (k : K))) = nlon / (2 * k) * 2 + 1 ∨
    2 * k ∣ nlon ∧ Binary64.hannWidth nlon (rnd (2 * smoothConst w (k : K))) + 2 = nlon / (2 * k) * 2 + 1 := by
  have hkK : (1 : K) ≤ k := by exact_mod_cast hk
  have hknK : 4 * (k : K) ≤ nlon := by exact_mod_cast hkn
  have hnK : (nlon : K) ≤ 2 ^ 20 := by exact_mod_cast hn
  have hc := abs_le.mp (smooth_close h1 hw (show (0 : K) ≤ k by positivity))
  -- the argument of the filter
  set q := nlon / (2 * k) with hq
  obtain ⟨r, hr⟩ : ∃ r, nlon = 2 * k * q + r ∧ r < 2 * k := ⟨nlon % (2 * k), (Nat.div_add_mod _ _).symm, Nat.mod_lt _ (by omega)⟩
  have hrK : (nlon : K) = 2 * k * q + r := by exact_mod_cast hr.1
  have hr2 : (r : K) + 1 ≤ 2 * k := by exact_mod_cast hr.2
  have hr0 : (0 : K) ≤ r := by positivity
  have hq2 : 2 ≤ q := (Nat.le_div_iff_mul_le (by omega)).mpr (by omega)
  have hqK : (2 : K) ≤ q := by exact_mod_cast hq2
  have hrel := abs_le.mp (rnd_rel (2 * smoothConst w (k : K)))
  have hs0 : 0 ≤ smoothConst w (k : K) := by linarith
  have habs : |2 * smoothConst w (k : K)| = 2 * smoothConst w (k : K) := abs_of_nonneg (by linarith)
  rw [habs] at hrel
  set c := rnd (2 * smoothConst w (k : K)) with hcdef
  have c1 : 2 * (k : K) * (1 - 1 / 2 ^ 40) ≤ c := by linarith [hrel.2, hc.1]
  have c2 : c ≤ 2 * (k : K) * (1 + 1 / 2 ^ 40) := by linarith [hrel.1, hc.2]
  set d := min (max c 1) ((nlon : K) / 2) with hd
  have hc1 : 1 ≤ c := by linarith
  have d1 : 2 * (k : K) * (1 - 1 / 2 ^ 40) ≤ d := by
    rw [hd, max_eq_left hc1]
    exact le_min c1 (by linarith)
  have d2 : d ≤ 2 * (k : K) * (1 + 1 / 2 ^ 40) := by
    rw [hd, max_eq_left hc1]
    exact (min_le_left _ _).trans c2
  have dpos : 0 < d := by linarith
  -- bounds of the quotient
  have up : (nlon : K) / d < q + 1 := by
    rw [div_lt_iff₀ dpos, hrK]
    have e1 : ((q : K) + 1) * (2 * k * (1 - 1 / 2 ^ 40)) ≤ (q + 1) * d := mul_le_mul_of_nonneg_left d1 (by positivity)
    have e2 : 2 * (k : K) * q ≤ 2 ^ 20 := by linarith
    linarith
  have lo1 : 0 < r → (q : K) ≤ nlon / d := by
    intro h
    have h' : (1 : K) ≤ r := by exact_mod_cast h
    rw [le_div_iff₀ dpos, hrK]
    have e1 : (q : K) * d ≤ q * (2 * k * (1 + 1 / 2 ^ 40)) := mul_le_mul_of_nonneg_left d2 (by positivity)
    have e2 : 2 * (k : K) * q ≤ 2 ^ 20 := by linarith
    linarith
  have lo2 : (q : K) - 1 ≤ nlon / d := by
    rw [le_div_iff₀ dpos, hrK]
    have e1 : ((q : K) - 1) * d ≤ (q - 1) * (2 * k * (1 + 1 / 2 ^ 40)) := mul_le_mul_of_nonneg_left d2 (by linarith)
    have e2 : 2 * (k : K) * q ≤ 2 ^ 20 := by linarith
    linarith
  have f1 : ⌊(nlon : K) / d⌋₊ < q + 1 := by
    rw [Nat.floor_lt (by positivity)]
    exact_mod_cast up
  have f2 : 0 < r → q ≤ ⌊(nlon : K) / d⌋₊ := fun h => Nat.le_floor (lo1 h)
  have f3 : q - 1 ≤ ⌊(nlon : K) / d⌋₊ := by
    refine Nat.le_floor ?_
    push_cast [show 1 ≤ q by omega]
    exact lo2
  have hdvd : r = 0 → 2 * k ∣ nlon := fun h => ⟨q, by omega⟩
  unfold Binary64.hannWidth
  rw [← hd]
  rcases Nat.eq_zero_or_pos r with h | h
  · by_cases h' : ⌊(nlon : K) / d⌋₊ = q
    · left; omega
    · right; exact ⟨hdvd h, by omega⟩
  · left
    have := f2 h
    omega

/-- C104 is false: on the default grid (144 longitudes, windows of 10 degrees have 5 gridpoints) the uniform wavenumber 6 becomes larger
than 6 by smoothing and the filter has 23 gridpoints instead of the 25 that contain two wavelengths of wavenumber 12. -/
theorem C104_refuted :
    (6 : ℚ) < smoothConst 5 6 ∧ Binary64.hannWidth 144 (rnd (2 * smoothConst 5 6) : ℚ) = 23 ∧
    Binary64.hannWidth 144 (2 * 6 : ℚ) = 25 := by
  decide +kernel

example : (1 : ℕ) ≤ 5 ∧ (5 : ℕ) ≤ 2 ^ 10 ∧ (1 : ℕ) ≤ 6 ∧ 4 * 6 ≤ 144 ∧ (144 : ℕ) ≤ 2 ^ 20 := by norm_num
example : Binary64.hannWidth 144 (rnd (2 * smoothConst 5 7) : ℚ) = 144 / 14 * 2 + 1 := by decide +kernel

end Barotropic
