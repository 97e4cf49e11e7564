import Verif.Spec.Binary64Geometry
import Verif.Props.Binary64
import Verif.Props.Binary64Zonalize
import Verif.Lemmas.Binary64Sum
import Mathlib.Analysis.Real.Pi.Bounds
import Mathlib.Analysis.SpecialFunctions.Trigonometric.Bounds
import Mathlib.Tactic.Linarith

/-!
# C141: grid geometry in double precision
-/

namespace Barotropic

open Binary64

/-- Rounding a number that is known up to `e` -/
theorem rnd_known {x y e : ℝ} (h : |y - x| ≤ e) : |rnd y - x| ≤ e + (|x| + e) / 2 ^ 53 := by
  have h1 := rnd_rel y
  have h2 : |y| ≤ |x| + e := by
    have := abs_sub_abs_le_abs_sub y x
    linarith
  have h3 : |y| / 2 ^ 53 ≤ (|x| + e) / 2 ^ 53 := div_le_div_of_nonneg_right h2 (by positivity)
  rw [abs_sub_comm] at h1
  calc |rnd y - x| = |(rnd y - y) + (y - x)| := by congr 1; ring
    _ ≤ |rnd y - y| + |y - x| := abs_add_le _ _
    _ ≤ _ := by linarith

theorem pi64_close : |(pi64 : ℝ) - Real.pi| ≤ 1 / 2 ^ 52 := by
  have h1 := Real.pi_gt_d20
  have h2 := Real.pi_lt_d20
  unfold pi64
  rw [abs_le]
  constructor <;> norm_num at h1 h2 ⊢ <;> linarith

theorem degree_close : |rnd (pi64 / 180 : ℝ) - Real.pi / 180| ≤ 2 / 2 ^ 59 := by
  have h : |(pi64 : ℝ) / 180 - Real.pi / 180| ≤ 1 / 2 ^ 52 / 180 := by
    rw [← sub_div, abs_div, abs_of_pos (by norm_num : (0 : ℝ) < 180)]
    exact div_le_div_of_nonneg_right pi64_close (by norm_num)
  have h2 := Real.pi_lt_d2
  have h3 := Real.pi_pos
  refine (rnd_known h).trans ?_
  rw [abs_of_pos (by positivity)]
  norm_num at h2 ⊢
  linarith

/-- C141: angles of up to 90 degrees are converted with an error of at most 5 · 2⁻⁵³ … -/
theorem C141_deg2rad {x : ℝ} (hx : |x| ≤ 90) : |Binary64.deg2rad x - x * (Real.pi / 180)| ≤ 5 / 2 ^ 53 := by
  have h2 := Real.pi_lt_d2
  have h3 := Real.pi_pos
  have h : |x * rnd (pi64 / 180 : ℝ) - x * (Real.pi / 180)| ≤ 90 * (2 / 2 ^ 59) := by
    rw [← mul_sub, abs_mul]
    exact mul_le_mul hx degree_close (abs_nonneg _) (by norm_num)
  refine (rnd_known h).trans ?_
  have h4 : |x * (Real.pi / 180)| ≤ 90 * (Real.pi / 180) := by
    rw [abs_mul, abs_of_pos (by positivity : 0 < Real.pi / 180)]
    exact mul_le_mul_of_nonneg_right hx (by positivity)
  norm_num at h2 h4 ⊢
  linarith

/-- … and the poles are at `np.pi / 2`. -/
theorem C141_poles : Binary64.deg2rad (90 : ℝ) = rnd (pi64 / 2) ∧ Binary64.deg2rad (-90 : ℝ) = -rnd (pi64 / 2) := by
  have h : Binary64.deg2rad (90 : ℝ) = rnd (pi64 / 2) := by
    have e1 : ((pi64 : ℚ) : ℝ) = pi64 := by simp [pi64]
    have key : rnd (90 * rnd (pi64 / 180) : ℚ) = rnd (pi64 / 2) := by decide +kernel
    have := congrArg (fun q : ℚ => (q : ℝ)) key
    rw [← rnd_cast, ← rnd_cast] at this
    push_cast at this
    rw [← rnd_cast] at this
    push_cast at this
    rw [e1] at this
    exact this
  refine ⟨h, ?_⟩
  rw [← h]
  show rnd (-90 * rnd (pi64 / 180) : ℝ) = -rnd (90 * rnd (pi64 / 180))
  rw [neg_mul, rnd_neg]

/-- C141: latitudes in radians have an error of at most 2⁻⁴⁹. -/
theorem C141_phi {n : ℕ} (hn : 0 < n) (h4 : n ≤ 2 ^ 49) (j : ℕ) (hj : j ≤ n) : |Binary64.phi (n + 1) j - trueLatitude n j| ≤ 1 / 2 ^ 49 := by
  have hl := C102_close_lat (K := ℝ) hn j hj
  obtain ⟨_, _, _, hb⟩ := C102_sorted_lat (K := ℝ) hn h4
  have hd := C141_deg2rad (abs_le.2 (hb j hj))
  have h2 := Real.pi_lt_d2
  have h3 := Real.pi_pos
  have hnp : (0 : ℝ) < n := by exact_mod_cast hn
  have e : trueLatitude n j = (90 - j * (180 / n)) * (Real.pi / 180) := by
    unfold trueLatitude; field_simp; ring
  have hs : |Binary64.lat (n + 1) j * (Real.pi / 180) - trueLatitude n j| ≤ 1 / 2 ^ 44 * (Real.pi / 180) := by
    rw [e, ← sub_mul, abs_mul, abs_of_pos (by positivity : 0 < Real.pi / 180)]
    exact mul_le_mul_of_nonneg_right hl (by positivity)
  have : |Binary64.phi (n + 1) j - trueLatitude n j| ≤ |Binary64.phi (n + 1) j - Binary64.lat (n + 1) j * (Real.pi / 180)| +
      |Binary64.lat (n + 1) j * (Real.pi / 180) - trueLatitude n j| := abs_sub_le _ _ _
  have hd' : |Binary64.phi (n + 1) j - Binary64.lat (n + 1) j * (Real.pi / 180)| ≤ 5 / 2 ^ 53 := hd
  norm_num at *
  linarith

theorem trueLatitude_abs {n j : ℕ} (hn : 0 < n) (hj : j ≤ n) : |trueLatitude n j| ≤ Real.pi / 2 := by
  have hnp : (0 : ℝ) < n := by exact_mod_cast hn
  have hjn : (j : ℝ) ≤ n := by exact_mod_cast hj
  have h3 := Real.pi_pos
  have h1 : 0 ≤ j * (Real.pi / n) := by positivity
  have h2 : j * (Real.pi / n) ≤ Real.pi := by
    rw [← mul_div_assoc, div_le_iff₀ hnp]
    nlinarith
  unfold trueLatitude
  rw [abs_le]
  constructor <;> linarith

theorem sin_close {sn cs : ℝ → ℝ} (hg : GoodTrig sn cs) {x y e : ℝ} (h : |y - x| ≤ e) : |sn y - Real.sin x| ≤ e + 1 / 2 ^ 53 := by
  have h1 := hg.sin y
  have h2 : |Real.sin y - Real.sin x| ≤ |y - x| := by
    have := Real.abs_sin_sub_sin_le y x
    exact this
  calc |sn y - Real.sin x| ≤ |sn y - Real.sin y| + |Real.sin y - Real.sin x| := abs_sub_le _ _ _
    _ ≤ _ := by linarith

/-- C141: the Coriolis parameter of the grid has an error of less than 2⁻⁴⁸ of its value at the pole. -/
theorem C141_coriolis {sn cs : ℝ → ℝ} (hg : GoodTrig sn cs) {n : ℕ} (hn : 0 < n) (h4 : n ≤ 2 ^ 49) (omega : ℝ) (j : ℕ) (hj : j ≤ n) :
    |Binary64.coriolis sn omega (Binary64.lat (n + 1) j) - 2 * omega * Real.sin (trueLatitude n j)| ≤ |2 * omega| / 2 ^ 48 := by
  have h := sin_close hg (C141_phi hn h4 j hj)
  obtain ⟨e1, he1, hr1⟩ := rnd_factor (2 * omega)
  obtain ⟨e2, he2, hr2⟩ := rnd_factor (rnd (2 * omega) * sn (Binary64.deg2rad (Binary64.lat (n + 1) j)))
  rw [Binary64.coriolis, hr2, hr1]
  obtain ⟨s, hs⟩ : ∃ s, s = sn (Binary64.deg2rad (Binary64.lat (n + 1) j)) := ⟨_, rfl⟩
  have hs' : |s - Real.sin (trueLatitude n j)| ≤ 1 / 2 ^ 49 + 1 / 2 ^ 53 := by rw [hs]; exact h
  have hsin := Real.abs_sin_le_one (trueLatitude n j)
  rw [← hs]
  have hsb : |s| ≤ 2 := by
    have := abs_sub_abs_le_abs_sub s (Real.sin (trueLatitude n j))
    norm_num at *
    linarith
  have he : |(1 + e1) * (1 + e2) - 1| ≤ 3 / 2 ^ 53 := by
    have : (1 + e1) * (1 + e2) - 1 = e1 + e2 + e1 * e2 := by ring
    rw [this]
    have h12 : |e1 * e2| ≤ 1 / 2 ^ 53 * (1 / 2 ^ 53) := by
      rw [abs_mul]; exact mul_le_mul he1 he2 (abs_nonneg _) (by positivity)
    have := abs_add_le (e1 + e2) (e1 * e2)
    have := abs_add_le e1 e2
    norm_num at *
    linarith
  have e : 2 * omega * (1 + e1) * s * (1 + e2) - 2 * omega * Real.sin (trueLatitude n j) =
      2 * omega * (s * ((1 + e1) * (1 + e2) - 1) + (s - Real.sin (trueLatitude n j))) := by ring
  rw [e, abs_mul, div_eq_mul_inv]
  refine mul_le_mul_of_nonneg_left ?_ (abs_nonneg _)
  refine (abs_add_le _ _).trans ?_
  rw [abs_mul]
  have := mul_le_mul hsb he (abs_nonneg _) (by norm_num)
  norm_num at *
  linarith

/-- C141: it is positive in the northern and negative in the southern hemisphere (grids of up to 2⁴⁰ latitudes). -/
theorem C141_coriolis_sign {sn cs : ℝ → ℝ} (hg : GoodTrig sn cs) {n : ℕ} (hn : 0 < n) (h4 : n ≤ 2 ^ 40) {omega : ℝ} (ho : 0 < omega) (j : ℕ) (hj : j ≤ n) :
    (2 * j < n → 0 < Binary64.coriolis sn omega (Binary64.lat (n + 1) j)) ∧
      (n < 2 * j → Binary64.coriolis sn omega (Binary64.lat (n + 1) j) < 0) := by
  have h := C141_coriolis hg hn (h4.trans (by norm_num)) omega j hj
  have hnp : (0 : ℝ) < n := by exact_mod_cast hn
  have hnK : (n : ℝ) ≤ 2 ^ 40 := by exact_mod_cast h4
  have hpi := Real.pi_pos
  rw [abs_of_pos (by linarith : 0 < 2 * omega), abs_le] at h
  have hinv : (1 : ℝ) / 2 ^ 40 ≤ 1 / n := one_div_le_one_div_of_le hnp hnK
  have hsmall : (2 * omega) / 2 ^ 48 < 2 * omega * (1 / n) := by
    rw [div_eq_mul_inv]
    refine mul_lt_mul_of_pos_left (lt_of_lt_of_le ?_ hinv) (by linarith)
    norm_num
  have htl : trueLatitude n j = Real.pi / 2 * ((n - 2 * j : ℝ) * (1 / n)) := by unfold trueLatitude; field_simp
  have hab := abs_le.1 (trueLatitude_abs hn hj)
  constructor
  · intro hj2
    have hm : (1 : ℝ) ≤ n - 2 * j := by
      have : 2 * j + 1 ≤ n := hj2
      have : (2 * j + 1 : ℝ) ≤ n := by exact_mod_cast this
      linarith
    have hpos : 1 / n ≤ (n - 2 * j : ℝ) * (1 / n) := le_mul_of_one_le_left (by positivity) hm
    have hs := Real.mul_le_sin (x := trueLatitude n j) (by rw [htl]; positivity) hab.2
    have e : 2 / Real.pi * trueLatitude n j = (n - 2 * j : ℝ) * (1 / n) := by rw [htl]; field_simp
    rw [e] at hs
    have := mul_le_mul_of_nonneg_left (hpos.trans hs) (by linarith : (0 : ℝ) ≤ 2 * omega)
    linarith
  · intro hj2
    have hm : (1 : ℝ) ≤ 2 * j - n := by
      have : n + 1 ≤ 2 * j := hj2
      have : (n + 1 : ℝ) ≤ 2 * j := by exact_mod_cast this
      linarith
    have hpos : 1 / n ≤ (2 * j - n : ℝ) * (1 / n) := le_mul_of_one_le_left (by positivity) hm
    have htl' : -trueLatitude n j = Real.pi / 2 * ((2 * j - n : ℝ) * (1 / n)) := by rw [htl]; ring
    have hs := Real.mul_le_sin (x := -trueLatitude n j) (by rw [htl']; positivity) (by linarith)
    have e : 2 / Real.pi * -trueLatitude n j = (2 * j - n : ℝ) * (1 / n) := by rw [htl']; field_simp
    rw [e, Real.sin_neg] at hs
    have := mul_le_mul_of_nonneg_left (hpos.trans hs) (by linarith : (0 : ℝ) ≤ 2 * omega)
    linarith

/-- C141: circumferences of circles of latitude have an error of less than 2⁻⁴⁸ of that of the equator. -/
theorem C141_circumference {sn cs : ℝ → ℝ} (hg : GoodTrig sn cs) {n : ℕ} (hn : 0 < n) (h4 : n ≤ 2 ^ 49) {r : ℝ} (hr : 0 < r) (j : ℕ) (hj : j ≤ n) :
    |Binary64.circumference cs r (Binary64.lat (n + 1) j) - 2 * Real.pi * r * Real.cos (trueLatitude n j)| ≤ 2 * Real.pi * r / 2 ^ 48 := by
  have hphi := C141_phi hn h4 j hj
  have hpi := Real.pi_pos
  have hpi3 := Real.pi_gt_three
  obtain ⟨y, hy⟩ : ∃ y, y = Binary64.deg2rad (Binary64.lat (n + 1) j : ℝ) := ⟨_, rfl⟩
  obtain ⟨x, hx⟩ : ∃ x, x = trueLatitude n j := ⟨_, rfl⟩
  have hyx : |y - x| ≤ 1 / 2 ^ 49 := by rw [hy, hx]; exact hphi
  have h : |cs y - Real.cos x| ≤ 17 / 2 ^ 53 := by
    have h1 := hg.cos y
    have h2 : |Real.cos y - Real.cos x| ≤ |y - x| := Real.abs_cos_sub_cos_le y x
    have h3 := abs_sub_le (cs y) (Real.cos y) (Real.cos x)
    norm_num at *
    linarith
  obtain ⟨d, hd⟩ : ∃ d, d = ((pi64 : ℝ) - Real.pi) / Real.pi := ⟨_, rfl⟩
  have hdb : |d| ≤ 1 / 2 ^ 53 := by
    rw [hd, abs_div, abs_of_pos hpi, div_le_iff₀ hpi]
    have h1 := pi64_close
    norm_num at *
    linarith
  have hp : (pi64 : ℝ) = Real.pi * (1 + d) := by rw [hd]; field_simp; ring
  obtain ⟨e1, he1, hr1⟩ := rnd_factor (2 * pi64 : ℝ)
  obtain ⟨e2, he2, hr2⟩ := rnd_factor (rnd (2 * pi64) * r : ℝ)
  obtain ⟨e3, he3, hr3⟩ := rnd_factor (rnd (rnd (2 * pi64) * r) * cs y)
  rw [Binary64.circumference, ← hy, ← hx, hr3, hr2, hr1, hp]
  obtain ⟨c, hc⟩ : ∃ c, c = cs y := ⟨_, rfl⟩
  obtain ⟨k, hk⟩ : ∃ k, k = Real.cos x := ⟨_, rfl⟩
  have hk1 : |k| ≤ 1 := by rw [hk]; exact Real.abs_cos_le_one x
  rw [← hc, ← hk] at h ⊢
  have hcb : |c| ≤ 2 := by
    have := abs_sub_abs_le_abs_sub c k
    norm_num at *
    linarith
  have he : |(1 + d) * (1 + e1) * (1 + e2) * (1 + e3) - 1| ≤ 5 / 2 ^ 53 := by
    have m : ∀ {a b A B : ℝ}, |a - 1| ≤ A → |b| ≤ B → |a * (1 + b) - 1| ≤ A + (1 + A) * B := by
      intro a b A B ha hb
      have e : a * (1 + b) - 1 = (a - 1) + a * b := by ring
      have h1 := abs_add_le (a - 1) (a * b)
      have h2 : |a| ≤ 1 + A := by
        have := abs_sub_abs_le_abs_sub a 1
        rw [abs_one] at this
        linarith
      have h3 := mul_le_mul h2 hb (abs_nonneg _) (by linarith [abs_nonneg a])
      rw [e]
      rw [abs_mul] at h1
      linarith
    have h0 : |1 + d - 1| ≤ 1 / 2 ^ 53 := by rwa [add_sub_cancel_left]
    refine (m (m (m h0 he1) he2) he3).trans ?_
    norm_num
  have e : 2 * (Real.pi * (1 + d)) * (1 + e1) * r * (1 + e2) * c * (1 + e3) - 2 * Real.pi * r * k =
      2 * Real.pi * r * (c * ((1 + d) * (1 + e1) * (1 + e2) * (1 + e3) - 1) + (c - k)) := by ring
  rw [e, abs_mul, abs_of_pos (by positivity : 0 < 2 * Real.pi * r), div_eq_mul_inv]
  refine mul_le_mul_of_nonneg_left ?_ (by positivity)
  refine (abs_add_le _ _).trans ?_
  rw [abs_mul]
  have := mul_le_mul hcb he (abs_nonneg _) (by norm_num)
  norm_num at *
  linarith

theorem midPhi_close {n : ℕ} (hn : 0 < n) (h4 : n ≤ 2 ^ 49) (j : ℕ) (hj : j < n) :
    |Binary64.midPhi (n + 1) j - (trueLatitude n j + trueLatitude n (j + 1)) / 2| ≤ 1 / 2 ^ 48 := by
  have h1 := C141_phi hn h4 j hj.le
  have h2 := C141_phi hn h4 (j + 1) hj
  have b1 := trueLatitude_abs hn hj.le
  have b2 := trueLatitude_abs hn (Nat.succ_le_of_lt hj)
  have hp := Real.pi_lt_d2
  obtain ⟨a, ha⟩ : ∃ a, a = trueLatitude n j := ⟨_, rfl⟩
  obtain ⟨b, hb⟩ : ∃ b, b = trueLatitude n (j + 1) := ⟨_, rfl⟩
  rw [Binary64.midPhi, ← ha, ← hb]
  rw [← ha] at h1 b1
  rw [← hb] at h2
  have b2' : |b| ≤ Real.pi / 2 := by rw [hb]; exact b2
  have hs : |(Binary64.phi (n + 1) (j + 1) + Binary64.phi (n + 1) j) - (a + b)| ≤ 1 / 2 ^ 48 - 0 := by
    have : (Binary64.phi (n + 1) (j + 1) + Binary64.phi (n + 1) j) - (a + b) = (Binary64.phi (n + 1) j - a) + (Binary64.phi (n + 1) (j + 1) - b) := by ring
    rw [this]
    refine (abs_add_le _ _).trans ?_
    norm_num at *
    linarith
  have hab : |a + b| ≤ Real.pi := (abs_add_le _ _).trans (by linarith)
  have hr := rnd_known hs
  obtain ⟨c, hc⟩ : ∃ c, c = rnd (Binary64.phi (n + 1) (j + 1) + Binary64.phi (n + 1) j : ℝ) := ⟨_, rfl⟩
  rw [← hc] at hr ⊢
  have hh : |1 / 2 * c - (a + b) / 2| ≤ (1 / 2 ^ 48 - 0 + (|a + b| + (1 / 2 ^ 48 - 0)) / 2 ^ 53) / 2 := by
    have : 1 / 2 * c - (a + b) / 2 = (c - (a + b)) / 2 := by ring
    rw [this, abs_div, abs_of_pos (by norm_num : (0 : ℝ) < 2)]
    linarith
  refine (rnd_known hh).trans ?_
  have : |(a + b) / 2| = |a + b| / 2 := by rw [abs_div, abs_of_pos (by norm_num : (0 : ℝ) < 2)]
  rw [this]
  norm_num at *
  linarith

/-- The latitude terms of the areas -/
theorem latitudeTerm_close {sn cs : ℝ → ℝ} (hg : GoodTrig sn cs) {n : ℕ} (hn : 0 < n) (h4 : n ≤ 2 ^ 49) (j : ℕ) (hj : j ≤ n) :
    |latitudeTerm sn (n + 1) j - (Real.sin (northEdge n j) - Real.sin (southEdge n j))| ≤ 72 / 2 ^ 53 := by
  have hm : ∀ k < n, |sn (Binary64.midPhi (n + 1) k) - Real.sin ((trueLatitude n k + trueLatitude n (k + 1)) / 2)| ≤ 33 / 2 ^ 53 := by
    intro k hk
    refine (sin_close hg (midPhi_close hn h4 k hk)).trans ?_
    norm_num
  have hone : ∀ x, |Real.sin x| ≤ 1 := Real.abs_sin_le_one
  have fin : ∀ {y x : ℝ}, |y - x| ≤ 66 / 2 ^ 53 → |x| ≤ 2 → |rnd y - x| ≤ 72 / 2 ^ 53 := by
    intro y x h hx
    refine (rnd_known h).trans ?_
    norm_num at *
    linarith
  have h2 : ∀ x y, |Real.sin x - Real.sin y| ≤ 2 := by
    intro x y
    have := abs_sub (Real.sin x) (Real.sin y)
    have := hone x
    have := hone y
    linarith
  unfold latitudeTerm
  split_ifs with h0 hl
  · subst h0
    have hne : (0 : ℕ) ≠ n := by omega
    apply fin _ (h2 _ _)
    rw [northEdge, southEdge, if_pos rfl, if_neg hne, Real.sin_pi_div_two]
    have := hm 0 hn
    have e : 1 - sn (Binary64.midPhi (n + 1) 0) - (1 - Real.sin ((trueLatitude n 0 + trueLatitude n (0 + 1)) / 2)) =
        -(sn (Binary64.midPhi (n + 1) 0) - Real.sin ((trueLatitude n 0 + trueLatitude n (0 + 1)) / 2)) := by ring
    rw [e, abs_neg]
    norm_num at *
    linarith
  · have hjn : j = n := by omega
    subst hjn
    apply fin _ (h2 _ _)
    have ej : j + 1 - 2 = j - 1 := by omega
    have ej' : j - 1 + 1 = j := by omega
    have := hm (j - 1) (by omega)
    rw [ej'] at this
    rw [northEdge, southEdge, if_neg h0, if_pos rfl, Real.sin_neg, Real.sin_pi_div_two, ej]
    have e : 1 + sn (Binary64.midPhi (j + 1) (j - 1)) - (Real.sin ((trueLatitude j (j - 1) + trueLatitude j j) / 2) - -1) =
        sn (Binary64.midPhi (j + 1) (j - 1)) - Real.sin ((trueLatitude j (j - 1) + trueLatitude j j) / 2) := by ring
    rw [e]
    norm_num at *
    linarith
  · have hjn : j < n := by omega
    apply fin _ (h2 _ _)
    have ej' : j - 1 + 1 = j := by omega
    have t1 := hm (j - 1) (by omega)
    have t2 := hm j hjn
    rw [ej'] at t1
    rw [northEdge, southEdge, if_neg h0, if_neg hjn.ne]
    obtain ⟨A, hA⟩ : ∃ A, A = sn (Binary64.midPhi (n + 1) (j - 1)) - Real.sin ((trueLatitude n (j - 1) + trueLatitude n j) / 2) := ⟨_, rfl⟩
    obtain ⟨B, hB⟩ : ∃ B, B = sn (Binary64.midPhi (n + 1) j) - Real.sin ((trueLatitude n j + trueLatitude n (j + 1)) / 2) := ⟨_, rfl⟩
    rw [← hA] at t1
    rw [← hB] at t2
    have e : sn (Binary64.midPhi (n + 1) (j - 1)) - sn (Binary64.midPhi (n + 1) j) -
        (Real.sin ((trueLatitude n (j - 1) + trueLatitude n j) / 2) - Real.sin ((trueLatitude n j + trueLatitude n (j + 1)) / 2)) = A - B := by
      rw [hA, hB]; ring
    rw [e]
    have := abs_sub A B
    norm_num at *
    linarith

/-- C141: gridpoint areas have an error of at most 2⁻⁴⁶ of `r² dλ`. -/
theorem C141_area {sn cs : ℝ → ℝ} (hg : GoodTrig sn cs) {n : ℕ} (hn : 0 < n) (h4 : n ≤ 2 ^ 49) {r dlam : ℝ} (hd : 0 < dlam) (j : ℕ) (hj : j ≤ n) :
    |Binary64.gridpointArea sn (n + 1) r dlam j - bandArea n r dlam j| ≤ r ^ 2 * dlam / 2 ^ 46 := by
  have h := latitudeTerm_close hg hn h4 j hj
  have hx : |Real.sin (northEdge n j) - Real.sin (southEdge n j)| ≤ 2 := by
    have := abs_sub (Real.sin (northEdge n j)) (Real.sin (southEdge n j))
    have := Real.abs_sin_le_one (northEdge n j)
    have := Real.abs_sin_le_one (southEdge n j)
    linarith
  obtain ⟨e1, he1, hr1⟩ := rnd_factor (r * r)
  obtain ⟨e2, he2, hr2⟩ := rnd_factor (rnd (r * r) * dlam)
  obtain ⟨e3, he3, hr3⟩ := rnd_factor (rnd (rnd (r * r) * dlam) * latitudeTerm sn (n + 1) j)
  rw [Binary64.gridpointArea, hr3, hr2, hr1, bandArea]
  obtain ⟨x, hxe⟩ : ∃ x, x = Real.sin (northEdge n j) - Real.sin (southEdge n j) := ⟨_, rfl⟩
  obtain ⟨y, hye⟩ : ∃ y, y = latitudeTerm sn (n + 1) j := ⟨_, rfl⟩
  rw [← hxe, ← hye] at h ⊢
  rw [← hxe] at hx
  have hy : |y| ≤ 3 := by
    have := abs_sub_abs_le_abs_sub y x
    norm_num at *
    linarith
  have he : |(1 + e1) * (1 + e2) * (1 + e3) - 1| ≤ 4 / 2 ^ 53 := by
    have : (1 + e1) * (1 + e2) * (1 + e3) - 1 = e1 + e2 + e3 + e1 * e2 + e1 * e3 + e2 * e3 + e1 * e2 * e3 := by ring
    rw [this]
    have m : ∀ {a b : ℝ}, |a| ≤ 1 / 2 ^ 53 → |b| ≤ 1 / 2 ^ 53 → |a * b| ≤ 1 / 2 ^ 53 * (1 / 2 ^ 53) := by
      intro a b ha hb; rw [abs_mul]; exact mul_le_mul ha hb (abs_nonneg _) (by positivity)
    have h12 := m he1 he2
    have h13 := m he1 he3
    have h23 := m he2 he3
    have h123 := m (h12.trans (by norm_num)) he3
    rw [abs_le] at *
    norm_num at *
    constructor <;> linarith
  have e : r * r * (1 + e1) * dlam * (1 + e2) * y * (1 + e3) - r ^ 2 * dlam * x =
      r ^ 2 * dlam * (y * ((1 + e1) * (1 + e2) * (1 + e3) - 1) + (y - x)) := by ring
  rw [e, abs_mul, abs_of_nonneg (by positivity : 0 ≤ r ^ 2 * dlam), div_eq_mul_inv]
  refine mul_le_mul_of_nonneg_left ?_ (by positivity)
  refine (abs_add_le _ _).trans ?_
  rw [abs_mul]
  have := mul_le_mul hy he (abs_nonneg _) (by norm_num)
  norm_num at *
  linarith

/-- True gridboxes are not smaller than `r² dλ / (2 n²)`. -/
theorem bandArea_ge {n : ℕ} (hn : 0 < n) {r dlam : ℝ} (hd : 0 < dlam) (j : ℕ) (hj : j ≤ n) : r ^ 2 * dlam * (1 / (2 * n ^ 2)) ≤ bandArea n r dlam j := by
  have hnp : (0 : ℝ) < n := by exact_mod_cast hn
  have h1n : (1 : ℝ) ≤ n := by exact_mod_cast hn
  have hpi := Real.pi_pos
  refine mul_le_mul_of_nonneg_left ?_ (by positivity)
  have pole : ∀ D : ℝ, D = Real.pi / n → 1 / (2 * (n : ℝ) ^ 2) ≤ 1 - Real.sin (Real.pi / 2 - D / 2) := by
    intro D hD
    have hDp : 0 < D := by rw [hD]; positivity
    have hDl : D ≤ Real.pi := by rw [hD]; exact div_le_self hpi.le h1n
    rw [Real.sin_pi_div_two_sub, show D / 2 = 2 * (D / 4) by ring, Real.cos_two_mul']
    have hs := Real.mul_le_sin (x := D / 4) (by positivity) (by linarith)
    have e : 2 / Real.pi * (D / 4) = 1 / (2 * n) := by rw [hD]; field_simp; norm_num
    rw [e] at hs
    have hsq : (1 / (2 * (n : ℝ))) ^ 2 ≤ Real.sin (D / 4) ^ 2 := pow_le_pow_left₀ (by positivity) hs 2
    have hcs := Real.sin_sq_add_cos_sq (D / 4)
    have e2 : (1 / (2 * (n : ℝ))) ^ 2 = 1 / (2 * n ^ 2) / 2 := by field_simp
    rw [e2] at hsq
    linarith
  by_cases h0 : j = 0
  · subst h0
    rw [northEdge, southEdge, if_pos rfl, if_neg (by omega), Real.sin_pi_div_two]
    have := pole (Real.pi / n) rfl
    have e : (trueLatitude n 0 + trueLatitude n (0 + 1)) / 2 = Real.pi / 2 - Real.pi / n / 2 := by unfold trueLatitude; push_cast; ring
    rwa [e]
  by_cases hl : j = n
  · subst hl
    rw [northEdge, southEdge, if_neg h0, if_pos rfl, Real.sin_neg, Real.sin_pi_div_two]
    have := pole (Real.pi / j) rfl
    have e : (trueLatitude j (j - 1) + trueLatitude j j) / 2 = -(Real.pi / 2 - Real.pi / j / 2) := by
      unfold trueLatitude
      rw [Nat.cast_sub (by omega : 1 ≤ j)]
      push_cast
      field_simp
      ring
    rw [e, Real.sin_neg]
    linarith
  rw [northEdge, southEdge, if_neg h0, if_neg hl, Real.sin_sub_sin]
  have hj1 : (1 : ℝ) ≤ j := by exact_mod_cast (by omega : 1 ≤ j)
  have hjn : (j : ℝ) + 1 ≤ n := by exact_mod_cast (by omega : j + 1 ≤ n)
  have ea : ((trueLatitude n (j - 1) + trueLatitude n j) / 2 - (trueLatitude n j + trueLatitude n (j + 1)) / 2) / 2 = Real.pi / (2 * n) := by
    unfold trueLatitude
    rw [Nat.cast_sub (by omega : 1 ≤ j)]
    push_cast
    field_simp
    ring
  have eb : ((trueLatitude n (j - 1) + trueLatitude n j) / 2 + (trueLatitude n j + trueLatitude n (j + 1)) / 2) / 2 = trueLatitude n j := by
    unfold trueLatitude
    rw [Nat.cast_sub (by omega : 1 ≤ j)]
    push_cast
    field_simp
    ring
  rw [ea, eb]
  have hs := Real.mul_le_sin (x := Real.pi / (2 * n)) (by positivity) (by
    rw [div_le_div_iff₀ (by positivity) (by norm_num)]
    nlinarith)
  have e1 : 2 / Real.pi * (Real.pi / (2 * n)) = 1 / n := by field_simp
  rw [e1] at hs
  have hc : 1 / (n : ℝ) ≤ Real.cos (trueLatitude n j) := by
    rw [← Real.sin_pi_div_two_sub]
    have ex : Real.pi / 2 - trueLatitude n j = j * (Real.pi / n) := by unfold trueLatitude; ring
    rw [ex]
    have hmin : ∀ x : ℝ, Real.pi / n ≤ x → x ≤ Real.pi / 2 → 1 / (n : ℝ) ≤ Real.sin x := by
      intro x hx hx2
      have := Real.mul_le_sin (x := x) (le_trans (by positivity) hx) hx2
      have h2 : 2 / Real.pi * (Real.pi / n) ≤ 2 / Real.pi * x := mul_le_mul_of_nonneg_left hx (by positivity)
      have e : 2 / Real.pi * (Real.pi / n) = 2 / n := by field_simp
      rw [e] at h2
      have : (1 : ℝ) / n ≤ 2 / n := by gcongr; norm_num
      linarith
    rcases le_total (j * (Real.pi / n)) (Real.pi / 2) with h | h
    · exact hmin _ (le_mul_of_one_le_left (by positivity) hj1) h
    · rw [← Real.sin_pi_sub]
      refine hmin _ ?_ (by linarith)
      have : (j + 1) * (Real.pi / n) ≤ n * (Real.pi / n) := mul_le_mul_of_nonneg_right hjn (by positivity)
      rw [mul_div_cancel₀ _ hnp.ne'] at this
      linarith
  have hm := mul_le_mul hs hc (by positivity) (le_trans (by positivity) hs)
  have e2 : 1 / (n : ℝ) * (1 / n) = 1 / n ^ 2 := by field_simp
  rw [e2] at hm
  have : 1 / (2 * (n : ℝ) ^ 2) ≤ 1 / n ^ 2 := by
    apply one_div_le_one_div_of_le (by positivity)
    nlinarith [sq_nonneg (n : ℝ)]
  have hpos : 0 < 1 / (n : ℝ) ^ 2 := by positivity
  linarith

/-- C141: their relative error is at most `n² / 2⁴⁵`, … -/
theorem C141_area_relative {sn cs : ℝ → ℝ} (hg : GoodTrig sn cs) {n : ℕ} (hn : 0 < n) (h4 : n ≤ 2 ^ 49) {r dlam : ℝ} (hd : 0 < dlam) (j : ℕ) (hj : j ≤ n) :
    |Binary64.gridpointArea sn (n + 1) r dlam j - bandArea n r dlam j| ≤ n ^ 2 / 2 ^ 45 * bandArea n r dlam j := by
  have hnp : (0 : ℝ) < n := by exact_mod_cast hn
  refine (C141_area hg hn h4 hd j hj).trans ?_
  have := mul_le_mul_of_nonneg_left (bandArea_ge hn hd j hj (r := r)) (by positivity : (0 : ℝ) ≤ n ^ 2 / 2 ^ 45)
  refine le_trans (le_of_eq ?_) this
  field_simp
  try norm_num

/-- … and they are positive on grids of up to 2²² latitudes. -/
theorem C141_area_pos {sn cs : ℝ → ℝ} (hg : GoodTrig sn cs) {n : ℕ} (hn : 0 < n) (h4 : n ≤ 2 ^ 22) {r dlam : ℝ} (hr : r ≠ 0) (hd : 0 < dlam) (j : ℕ) (hj : j ≤ n) :
    0 < Binary64.gridpointArea sn (n + 1) r dlam j := by
  have hnp : (0 : ℝ) < n := by exact_mod_cast hn
  have hnK : (n : ℝ) ≤ 2 ^ 22 := by exact_mod_cast h4
  have h := abs_le.1 (C141_area_relative hg hn (h4.trans (by norm_num)) hd j hj (r := r))
  have hb : 0 < bandArea n r dlam j := lt_of_lt_of_le (by positivity) (bandArea_ge hn hd j hj)
  have hc : (n : ℝ) ^ 2 / 2 ^ 45 ≤ 1 / 2 := by
    rw [div_le_iff₀ (by positivity)]
    calc (n : ℝ) ^ 2 ≤ (2 ^ 22) ^ 2 := pow_le_pow_left₀ hnp.le hnK 2
      _ ≤ _ := by norm_num
  have := mul_le_mul_of_nonneg_right hc hb.le
  linarith

/-- The true areas of a circle of `dlam` sum up to the area of the sector. -/
theorem bandArea_sum {n : ℕ} (hn : 0 < n) (r dlam : ℝ) : ∑ j ∈ Finset.range (n + 1), bandArea n r dlam j = 2 * r ^ 2 * dlam := by
  have key : ∀ m < n, ∑ j ∈ Finset.range (m + 1), (Real.sin (northEdge n j) - Real.sin (southEdge n j)) = 1 - Real.sin (southEdge n m) := by
    intro m
    induction m with
    | zero => intro _; rw [Finset.sum_range_one, northEdge, if_pos rfl, Real.sin_pi_div_two]
    | succ m ih =>
      intro h
      rw [Finset.sum_range_succ, ih (by omega)]
      have : northEdge n (m + 1) = southEdge n m := by
        rw [northEdge, southEdge, if_neg (by omega), if_neg (by omega), Nat.add_sub_cancel]
      rw [this]; ring
  have e : ∑ j ∈ Finset.range (n + 1), (Real.sin (northEdge n j) - Real.sin (southEdge n j)) = 2 := by
    obtain ⟨m, rfl⟩ : ∃ m, n = m + 1 := ⟨n - 1, by omega⟩
    rw [Finset.sum_range_succ, key m (by omega)]
    have h1 : northEdge (m + 1) (m + 1) = southEdge (m + 1) m := by
      rw [northEdge, southEdge, if_neg (by omega), if_neg (by omega), Nat.add_sub_cancel]
    have h2 : southEdge (m + 1) (m + 1) = -(Real.pi / 2) := by rw [southEdge, if_pos rfl]
    rw [h1, h2, Real.sin_neg, Real.sin_pi_div_two]
    ring
  simp only [bandArea]
  rw [← Finset.mul_sum, e]
  ring

/-- C141: the areas sum up to that of the sector, up to the errors of all of them. -/
theorem C141_area_total {sn cs : ℝ → ℝ} (hg : GoodTrig sn cs) {n : ℕ} (hn : 0 < n) (h4 : n ≤ 2 ^ 49) {r dlam : ℝ} (hd : 0 < dlam) :
    |∑ j ∈ Finset.range (n + 1), Binary64.gridpointArea sn (n + 1) r dlam j - 2 * r ^ 2 * dlam| ≤ (n + 1) * (r ^ 2 * dlam / 2 ^ 46) := by
  rw [← bandArea_sum hn r dlam, ← Finset.sum_sub_distrib]
  refine (Finset.abs_sum_le_sum_abs _ _).trans ?_
  refine (Finset.sum_le_sum fun j hj => C141_area hg hn h4 hd j (Nat.lt_succ_iff.1 (Finset.mem_range.1 hj))).trans ?_
  rw [Finset.sum_const, Finset.card_range, nsmul_eq_mul]
  push_cast
  exact le_rfl

/-- C141: the computed boxcounted area above a contour is the true area of the gridboxes up to a relative error of `n² / 2⁴⁵` and the roundings
of the sums (without the assumption of given gridpoint areas in C134). -/
theorem C141_boxcount {sn cs : ℝ → ℝ} (hg : GoodTrig sn cs) {n w : ℕ} (hn : 0 < n) (h4 : n ≤ 2 ^ 22) {t s : SumTree} (ht : t.Sums (n + 1)) (hs : s.Sums w)
    {r dlam : ℝ} (hr : 0 < r) (hd : 0 < dlam) (f : ℕ → ℕ → ℝ) (q : ℝ) :
    areaAbove (n + 1) w (bandArea n r dlam) f q * (1 - n ^ 2 / 2 ^ 45) * (1 - 1 / 2 ^ 53) ^ (t.depth + s.depth + 4) ≤
        boxArea t s r dlam (Binary64.gridpointArea sn (n + 1) r dlam) f q ∧
      boxArea t s r dlam (Binary64.gridpointArea sn (n + 1) r dlam) f q ≤
        areaAbove (n + 1) w (bandArea n r dlam) f q * (1 + n ^ 2 / 2 ^ 45) * (1 + 1 / 2 ^ 53) ^ (t.depth + s.depth + 4) := by
  obtain ⟨a, ha⟩ : ∃ a : ℕ → ℝ, a = fun j => if j ≤ n then Binary64.gridpointArea sn (n + 1) r dlam j else 0 := ⟨_, rfl⟩
  have hpos : ∀ j, 0 ≤ a j := by
    intro j; rw [ha]; dsimp only; split_ifs with h
    · exact (C141_area_pos hg hn h4 hr.ne' hd j h).le
    · exact le_rfl
  have hdbl : ∀ j, IsDouble (a j) := by
    intro j; rw [ha]; dsimp only; split_ifs
    · exact rnd_isDouble _
    · simpa using isDouble_int (K := ℝ) (n := 0) (by norm_num)
  have hrel : ∀ j, j ≤ n → (1 - n ^ 2 / 2 ^ 45) * bandArea n r dlam j ≤ a j ∧ a j ≤ (1 + n ^ 2 / 2 ^ 45) * bandArea n r dlam j := by
    intro j hj
    have := abs_le.1 (C141_area_relative hg hn (h4.trans (by norm_num)) hd j hj (r := r))
    rw [ha]; dsimp only; rw [if_pos hj]
    constructor <;> linarith
  have hbox : boxArea t s r dlam (Binary64.gridpointArea sn (n + 1) r dlam) f q = boxArea t s r dlam a f q := by
    have hl : ∀ (g : ℕ → ℝ), boxLine t r dlam (Binary64.gridpointArea sn (n + 1) r dlam) g q = boxLine t r dlam a g q := by
      intro g
      have hev : ∀ (t : SumTree) (x y : ℕ → ℝ), (∀ j ∈ t.leaves, x j = y j) → t.eval x = t.eval y := by
        intro t x y
        induction t with
        | leaf i => intro h; exact h i (by simp [SumTree.leaves])
        | node l r hl hr =>
          intro h
          simp only [SumTree.eval]
          rw [hl fun j hj => h j (by simp [SumTree.leaves, hj]), hr fun j hj => h j (by simp [SumTree.leaves, hj])]
      unfold boxLine
      rw [hev t _ _ ?_]
      intro j hj
      have hj' : j ≤ n := Nat.lt_succ_iff.1 (List.mem_range.1 (ht.mem_iff.1 hj))
      rw [ha]; dsimp only; rw [if_pos hj']
    simp only [boxArea, hl]
  have harea : areaAbove (n + 1) w (bandArea n r dlam) f q * (1 - n ^ 2 / 2 ^ 45) ≤ areaAbove (n + 1) w a f q ∧
      areaAbove (n + 1) w a f q ≤ areaAbove (n + 1) w (bandArea n r dlam) f q * (1 + n ^ 2 / 2 ^ 45) := by
    unfold areaAbove
    rw [Finset.sum_mul, Finset.sum_mul]
    constructor <;>
    · refine Finset.sum_le_sum fun i _ => ?_
      rw [Finset.sum_mul]
      refine Finset.sum_le_sum fun j hj => ?_
      have := hrel j (Nat.lt_succ_iff.1 (Finset.mem_range.1 hj))
      split_ifs <;> linarith
  have hC := C134_area ht hs hr hd hpos hdbl f q
  rw [hbox]
  constructor
  · refine le_trans (mul_le_mul_of_nonneg_right harea.1 (pow_nonneg (by norm_num) _)) hC.1
  · exact hC.2.trans (mul_le_mul_of_nonneg_right harea.2 (by positivity))

/-! ## The assumptions can be met: exact functions, a grid of 3 latitudes -/

example : GoodTrig Real.sin Real.cos := ⟨fun x => by simp, fun x => by simp⟩
example : bandArea 2 1 1 1 = Real.sqrt 2 := by
  have h1 : northEdge 2 1 = Real.pi / 4 := by norm_num [northEdge, trueLatitude]; ring
  have h2 : southEdge 2 1 = -(Real.pi / 4) := by norm_num [southEdge, trueLatitude]; ring
  rw [bandArea, h1, h2, Real.sin_neg, Real.sin_pi_div_four]; ring
example : 0 < Binary64.gridpointArea Real.sin (2 + 1) 1 1 0 :=
  C141_area_pos (cs := Real.cos) ⟨fun x => by simp, fun x => by simp⟩ (by norm_num) (by norm_num) one_ne_zero one_pos 0 (by norm_num)
example : Binary64.phi 3 0 = (884279719003555 / 2 ^ 49 : ℚ) := by decide +kernel
example : Binary64.midPhi 3 0 = (884279719003555 / 2 ^ 50 : ℚ) := by decide +kernel
example : Binary64.coriolis (fun _ => 1) (3 / 4) 90 = (3 / 2 : ℚ) := by decide +kernel
example : Binary64.gridpointArea (fun x => if x = 0 then 0 else if 0 < x then 1 / 2 else -1 / 2) 3 2 (1 / 4) 1 = (1 : ℚ) := by decide +kernel

end Barotropic
