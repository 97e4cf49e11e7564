import Verif.Lemmas.Binary32Run
import Verif.Props.Binary32
import Mathlib.Algebra.Order.Archimedean.Basic

/-!
# C123: time steps in single precision
-/

set_option linter.unusedSectionVars false

namespace Barotropic

open Binary32
open Binary64 (two_zpow_pos)

variable {K : Type*} [Field K] [LinearOrder K] [IsStrictOrderedRing K] [FloorRing K]

/-- Error of one rounding -/
theorem rnd_abs (x : K) : |rnd x - x| ≤ |x| / 2 ^ 24 + 2 ^ (-150 : ℤ) := by
  have key : ∀ x : K, 0 ≤ x → |rnd x - x| ≤ |x| / 2 ^ 24 + 2 ^ (-150 : ℤ) := by
    intro x hx
    have hh := two_zpow_pos (K := K) (-150)
    rw [abs_sub_comm, abs_of_nonneg hx]
    rcases hx.eq_or_lt with rfl | h0
    · rw [rnd_zero, sub_zero, abs_zero, zero_div, zero_add]
      exact hh.le
    · rcases rnd_rel h0 with h | h
      · exact h.trans (le_add_of_nonneg_right hh.le)
      · exact h.2.trans (le_add_of_nonneg_left (by positivity))
  rcases le_total 0 x with h | h
  · exact key x h
  · have := key (-x) (by linarith)
    rwa [rnd_neg, show -rnd x - -x = -(rnd x - x) by ring, abs_neg, abs_neg] at this

/-- The error of a forward step is a few units in the last place. -/
theorem C123_advance {x dts tend : K} (hd : 0 ≤ dts) (ht : |tend| ≤ 1) :
    |advance x dts tend - (x + dts * tend)| ≤ (|x| + 4 * |dts * tend|) / 2 ^ 24 + 2 ^ (-148 : ℤ) := by
  obtain ⟨h, hh⟩ : ∃ h : K, h = 2 ^ (-150 : ℤ) := ⟨_, rfl⟩
  have h0 : 0 < h := by rw [hh]; exact two_zpow_pos _
  have h4 : (2 : K) ^ (-148 : ℤ) = 4 * h := by
    rw [hh, show (-148 : ℤ) = 2 + -150 by norm_num, zpow_add₀ (by norm_num)]; norm_num
  have e1 := rnd_abs dts
  have e2 := rnd_abs (rnd dts * tend)
  have e3 := rnd_abs (x + rnd (rnd dts * tend))
  rw [← hh] at e1 e2 e3
  rw [h4]
  unfold advance
  obtain ⟨q, hq⟩ : ∃ q, q = rnd (rnd dts * tend) := ⟨_, rfl⟩
  rw [← hq] at e2 e3 ⊢
  obtain ⟨T, hT⟩ : ∃ T, T = |dts * tend| := ⟨_, rfl⟩
  have hT0 : 0 ≤ T := by rw [hT]; positivity
  have f1 : |rnd dts * tend - dts * tend| ≤ T / 2 ^ 24 + h := by
    rw [← sub_mul, abs_mul]
    calc |rnd dts - dts| * |tend| ≤ (|dts| / 2 ^ 24 + h) * |tend| := mul_le_mul_of_nonneg_right e1 (abs_nonneg _)
      _ = |dts| * |tend| / 2 ^ 24 + h * |tend| := by ring
      _ ≤ T / 2 ^ 24 + h := by
        rw [hT, abs_mul]
        exact add_le_add le_rfl (mul_le_of_le_one_right h0.le ht)
  have f2 : |rnd dts * tend| ≤ T + T / 2 ^ 24 + h := by
    have := abs_sub_abs_le_abs_sub (rnd dts * tend) (dts * tend)
    rw [← hT] at this
    linarith
  have f3 : |q - dts * tend| ≤ |q - rnd dts * tend| + |rnd dts * tend - dts * tend| := abs_sub_le _ _ _
  have f4 : |q| ≤ T + |q - dts * tend| := by
    have := abs_sub_abs_le_abs_sub q (dts * tend)
    rw [← hT] at this
    linarith
  have f5 : |x + q| ≤ |x| + |q| := abs_add_le _ _
  have f6 : |rnd (x + q) - (x + dts * tend)| ≤ |rnd (x + q) - (x + q)| + |q - dts * tend| := by
    have := abs_sub_le (rnd (x + q)) (x + q) (x + dts * tend)
    rwa [show x + q - (x + dts * tend) = q - dts * tend by ring] at this
  rw [← hT]
  have hx0 := abs_nonneg x
  linarith

/-- So is that of the filter. -/
theorem C123_filter (old now new : K) :
    |raFilter defaultFilter old now new - (3 / 5 * now + 1 / 5 * (old + new))| ≤ (|now| + |old| + |new|) / 2 ^ 23 + 2 ^ (-148 : ℤ) := by
  obtain ⟨h, hh⟩ : ∃ h : K, h = 2 ^ (-150 : ℤ) := ⟨_, rfl⟩
  have h0 : 0 < h := by rw [hh]; exact two_zpow_pos _
  have h4 : (2 : K) ^ (-148 : ℤ) = 4 * h := by
    rw [hh, show (-148 : ℤ) = 2 + -150 by norm_num, zpow_add₀ (by norm_num)]; norm_num
  rw [raFilter_eq, h4]
  have e1 := rnd_abs (10066330 / 2 ^ 24 * now)
  have e2 := rnd_abs (old + new)
  have e3 := rnd_abs (13421773 / 2 ^ 26 * rnd (old + new))
  have e4 := rnd_abs (rnd (10066330 / 2 ^ 24 * now) + rnd (13421773 / 2 ^ 26 * rnd (old + new)))
  rw [← hh] at e1 e2 e3 e4
  obtain ⟨p, hp⟩ : ∃ p, p = rnd (10066330 / 2 ^ 24 * now) := ⟨_, rfl⟩
  obtain ⟨s, hs⟩ : ∃ s, s = rnd (old + new) := ⟨_, rfl⟩
  rw [← hs] at e2 e3 e4 ⊢
  obtain ⟨q, hq⟩ : ∃ q, q = rnd (13421773 / 2 ^ 26 * s) := ⟨_, rfl⟩
  rw [← hp, ← hq] at e4 ⊢
  rw [← hp] at e1
  rw [← hq] at e3
  rw [abs_mul, abs_of_nonneg (show (0 : K) ≤ 10066330 / 2 ^ 24 by norm_num)] at e1
  rw [abs_mul, abs_of_nonneg (show (0 : K) ≤ 13421773 / 2 ^ 26 by norm_num)] at e3
  obtain ⟨N, hN⟩ : ∃ N, N = |now| := ⟨_, rfl⟩
  have hN0 : 0 ≤ N := by rw [hN]; positivity
  obtain ⟨S, hS⟩ : ∃ S, S = |old| + |new| := ⟨_, rfl⟩
  have hS0 : 0 ≤ S := by rw [hS]; positivity
  have hon : |old + new| ≤ S := by rw [hS]; exact abs_add_le _ _
  have f1 : |p - 3 / 5 * now| ≤ |p - 10066330 / 2 ^ 24 * now| + 1 / 2 ^ 25 * N := by
    have := abs_sub_le p (10066330 / 2 ^ 24 * now) (3 / 5 * now)
    rw [← sub_mul, abs_mul (10066330 / 2 ^ 24 - 3 / 5), abs_of_nonneg (show (0 : K) ≤ 10066330 / 2 ^ 24 - 3 / 5 by norm_num), ← hN] at this
    linarith
  have f2 : |s| ≤ S + |s - (old + new)| := by
    have := abs_sub_abs_le_abs_sub s (old + new)
    linarith
  have f3 : |q - 1 / 5 * (old + new)| ≤ |q - 13421773 / 2 ^ 26 * s| + 13421773 / 2 ^ 26 * |s - (old + new)| + 1 / 2 ^ 28 * S := by
    have a1 := abs_sub_le q (13421773 / 2 ^ 26 * s) (1 / 5 * (old + new))
    have a2 := abs_sub_le (13421773 / 2 ^ 26 * s) (13421773 / 2 ^ 26 * (old + new)) (1 / 5 * (old + new))
    rw [← mul_sub, abs_mul (13421773 / 2 ^ 26 : K) (s - (old + new)), abs_of_nonneg (show (0 : K) ≤ 13421773 / 2 ^ 26 by norm_num), ← sub_mul,
      abs_mul (13421773 / 2 ^ 26 - 1 / 5), abs_of_nonneg (show (0 : K) ≤ 13421773 / 2 ^ 26 - 1 / 5 by norm_num)] at a2
    have a3 : (13421773 / 2 ^ 26 - 1 / 5 : K) * |old + new| ≤ 1 / 2 ^ 28 * S := mul_le_mul (by norm_num) hon (abs_nonneg _) (by norm_num)
    linarith
  have f4 : |rnd (p + q) - (3 / 5 * now + 1 / 5 * (old + new))| ≤
      |rnd (p + q) - (p + q)| + (|p - 3 / 5 * now| + |q - 1 / 5 * (old + new)|) := by
    have a1 := abs_sub_le (rnd (p + q)) (p + q) (3 / 5 * now + 1 / 5 * (old + new))
    have a2 := abs_add_le (p - 3 / 5 * now) (q - 1 / 5 * (old + new))
    rw [show p - 3 / 5 * now + (q - 1 / 5 * (old + new)) = p + q - (3 / 5 * now + 1 / 5 * (old + new)) by ring] at a2
    linarith
  have f5 : |p + q| ≤ |p| + |q| := abs_add_le _ _
  have f6 : |p| ≤ 3 / 5 * N + |p - 3 / 5 * now| := by
    have := abs_sub_abs_le_abs_sub p (3 / 5 * now)
    rw [abs_mul, abs_of_nonneg (show (0 : K) ≤ 3 / 5 by norm_num), ← hN] at this
    linarith
  have f7 : |q| ≤ 1 / 5 * S + |q - 1 / 5 * (old + new)| := by
    have := abs_sub_abs_le_abs_sub q (1 / 5 * (old + new))
    rw [abs_mul, abs_of_nonneg (show (0 : K) ≤ 1 / 5 by norm_num)] at this
    linarith
  rw [show |now| + |old| + |new| = N + S by rw [hN, hS]; ring]
  rw [← hN] at e1
  linarith

theorem solveDiffusion_neg (r dt coeff : K) (t : PowTree) (n : ℕ) (x : K) :
    solveDiffusion r dt coeff t n (-x) = (solveDiffusion r dt coeff t n x).map Neg.neg := by
  unfold solveDiffusion
  cases eig r n with
  | none => rfl
  | some l =>
    simp only [Option.bind_some]
    cases t.eval l with
    | none => rfl
    | some e =>
      simp only [Option.bind_some, Option.map_map]
      congr 1
      funext c
      exact divide_neg x (c * e)

theorem advance_neg (x dts tend : K) : advance (-x) dts (-tend) = -advance x dts tend := by
  unfold advance
  rw [mul_neg, rnd_neg, ← neg_add, rnd_neg]

theorem pair_neg (r coeff : K) (t : PowTree) (n : ℕ) (dts : K) (tend : ℕ → K) (x : K) (k : ℕ) :
    pair r coeff t n dts (fun k => -tend k) (-x) k = (pair r coeff t n dts tend x k).map fun p => (-p.1, -p.2) := by
  induction k with
  | zero =>
    simp only [pair, advance_neg, solveDiffusion_neg, Option.map_map]
    rfl
  | succ k ih =>
    simp only [pair, ih]
    cases pair r coeff t n dts tend x k with
    | none => rfl
    | some p =>
      simp only [Option.map_some, Option.bind_some, leapfrog, advance_neg, solveDiffusion_neg, Option.map_map]
      congr 1
      funext new
      simp only [Function.comp, raFilter_neg]

/-- Coefficients without diffusion and with small tendencies stay where they are. -/
theorem pair_stays {r coeff : K} {t : PowTree} {n : ℕ} {dts : K} {tend : ℕ → K} {x : K}
    (hD : ∀ y, IsSingle y → solveDiffusion r dts coeff t n y = some y ∧ solveDiffusion r (2 * dts) coeff t n y = some y)
    (hs : IsSingle x) (hx : 2 ^ (-100 : ℤ) ≤ x)
    (ht : ∀ k, |rnd (rnd dts * tend k)| ≤ x / 2 ^ 27 ∧ |rnd (rnd (2 * dts) * tend k)| ≤ x / 2 ^ 27) (k : ℕ) :
    ∃ a b, pair r coeff t n dts tend x k = some (a, b) ∧ |a - x| ≤ 10 / 2 ^ 23 * x ∧ |b - x| ≤ 10 / 2 ^ 23 * x := by
  have hx0 : 0 < x := (two_zpow_pos _).trans_le hx
  obtain ⟨⟨y, y1, y2, y3⟩, z, z1, z2, z3⟩ := fixed_near hs (le_trans (zpow_le_zpow_right₀ (by norm_num) (by norm_num)) hx)
  have step : ∀ a δ, IsSingle a → y ≤ a → |δ| ≤ x / 2 ^ 27 → rnd (a + δ) = a := by
    intro a δ ha hya hδ
    have h2 : x / 2 ≤ a := by linarith
    refine rnd_add_tiny ha ?_ (by linarith)
    calc (2 : K) ^ (-120 : ℤ) ≤ 2 ^ (-100 : ℤ) / 2 := by norm_num
      _ ≤ x / 2 := by gcongr
      _ ≤ a := h2
  have inv : ∃ a b, pair r coeff t n dts tend x k = some (a, b) ∧ IsSingle a ∧ IsSingle b ∧ (y ≤ a ∧ a ≤ z) ∧ y ≤ b ∧ b ≤ z := by
    induction k with
    | zero =>
      refine ⟨x, x, ?_, hs, hs, ⟨y2, z2⟩, y2, z2⟩
      unfold pair advance
      rw [step x _ hs y2 (ht 0).1, (hD x hs).1]
      rfl
    | succ k ih =>
      obtain ⟨a, b, hab, ha, hb, ⟨ya, az⟩, yb, bz⟩ := ih
      refine ⟨raFilter defaultFilter a b a, a, ?_, rnd_isSingle _, ha, ⟨?_, ?_⟩, ya, az⟩
      · unfold pair
        rw [hab, Option.bind_some]
        unfold leapfrog advance
        rw [step a _ ha ya (ht (k + 1)).2, (hD a ha).2]
        rfl
      · exact y1.symm.trans_le (raFilter_mono ya yb ya)
      · exact (raFilter_mono az bz az).trans_eq z1
  obtain ⟨a, b, hab, -, -, ⟨ya, az⟩, yb, bz⟩ := inv
  exact ⟨a, b, hab, by rw [abs_le]; constructor <;> linarith, by rw [abs_le]; constructor <;> linarith⟩

theorem pair_stays' {r coeff : K} {t : PowTree} {n : ℕ} {dts : K} {tend : ℕ → K} {x : K}
    (hD : ∀ y, IsSingle y → solveDiffusion r dts coeff t n y = some y ∧ solveDiffusion r (2 * dts) coeff t n y = some y)
    (hs : IsSingle x) (hx : 2 ^ (-100 : ℤ) ≤ |x|)
    (ht : ∀ k, |rnd (rnd dts * tend k)| ≤ |x| / 2 ^ 27 ∧ |rnd (rnd (2 * dts) * tend k)| ≤ |x| / 2 ^ 27) (k : ℕ) :
    ∃ a b, pair r coeff t n dts tend x k = some (a, b) ∧ |a - x| ≤ 10 / 2 ^ 23 * |x| ∧ |b - x| ≤ 10 / 2 ^ 23 * |x| := by
  rcases le_total 0 x with h | h
  · rw [abs_of_nonneg h] at hx ht ⊢
    exact pair_stays hD hs hx ht k
  · rw [abs_of_nonpos h] at hx ht ⊢
    obtain ⟨a, b, hab, h1, h2⟩ := pair_stays (x := -x) (tend := fun k => -tend k) hD (isSingle_neg hs) hx
      (fun k => by simpa only [mul_neg, rnd_neg, abs_neg] using ht k) k
    rw [pair_neg, Option.map_eq_some_iff] at hab
    obtain ⟨⟨a', b'⟩, hab, he⟩ := hab
    simp only [Prod.mk.injEq] at he
    obtain ⟨rfl, rfl⟩ := he
    refine ⟨a', b', hab, ?_, ?_⟩
    · rwa [show -a' - -x = -(a' - x) by ring, abs_neg] at h1
    · rwa [show -b' - -x = -(b' - x) by ring, abs_neg] at h2

/-- The global mean (degree 0, no tendency) changes at most by 10 units in the last place in runs of any length, although the rounded weights
of the filter do not add up to 1. -/
theorem C123_mean {r coeff dts x : K} {t : PowTree} (ht : 1 ≤ t.order) (hc : 0 ≤ dts * coeff) (hc' : dts * coeff ≤ 2 ^ 126) (hs : IsSingle x)
    (hx : 2 ^ (-100 : ℤ) ≤ |x|) (k : ℕ) :
    ∃ a b, pair r coeff t 0 dts (fun _ => 0) x k = some (a, b) ∧ |a - x| ≤ 10 / 2 ^ 23 * |x| ∧ |b - x| ≤ 10 / 2 ^ 23 * |x| := by
  refine pair_stays' (fun y hy => ⟨C122_mean hc (by linarith) hy ht, C122_mean (by linarith) (by linarith) hy ht⟩) hs hx (fun k => ?_) k
  simp only [mul_zero, rnd_zero, abs_zero]
  exact ⟨by positivity, by positivity⟩

theorem weights_sum : rnd (Binary64.rnd (1 - Binary64.rnd (2 * defaultFilter)) : K) + 2 * rnd defaultFilter = 1 + 1 / 2 ^ 25 := by
  rw [weight_inner, weight_outer]
  norm_num

/-- The mean is not conserved exactly. -/
theorem C123_refuted :
    ∃ x : ℚ, IsSingle x ∧ pair 6371200 (10 ^ 15) (powTree 2) 0 600 (fun _ => 0) x 4 = some (x + 3 / 2 ^ 23, x + 2 / 2 ^ 23) := by
  refine ⟨13981031 / 2 ^ 23, ⟨13981031, -23, by norm_num, by norm_num, by norm_num⟩, ?_⟩
  decide +kernel

theorem rnd_two (x : K) : |rnd x| ≤ 2 * |x| + 2 ^ (-150 : ℤ) := by
  have h1 := rnd_abs x
  have h2 := abs_sub_abs_le_abs_sub (rnd x) x
  have h3 := abs_nonneg x
  obtain ⟨h, hh⟩ : ∃ h : K, h = 2 ^ (-150 : ℤ) := ⟨_, rfl⟩
  rw [← hh] at h1 ⊢
  linarith

/-- Runs in single precision do not converge as the time step goes to zero: changes are lost when they are small compared to the
coefficient. With the constant tendency `q` (e.g. from a forcing), the coefficient `x` hardly changes over any number of steps, while the
exact coefficient increases by as much as one wants. -/
theorem C123_stagnation_refuted {r coeff x q : K} {t : PowTree} [Archimedean K] (ht : 1 ≤ t.order) (hc : 0 ≤ coeff) (hc' : coeff ≤ 2 ^ 126)
    (hs : IsSingle x) (hx : 2 ^ (-100 : ℤ) ≤ |x|) (hq : 0 < q) (hq' : q ≤ 1) :
    ∃ dt0, 0 < dt0 ∧ ∀ dts, 0 < dts → dts ≤ dt0 →
      (∀ k, ∃ a b, pair r coeff t 0 dts (fun _ => q) x k = some (a, b) ∧ |a - x| ≤ 10 / 2 ^ 23 * |x|) ∧
        ∀ c, ∃ k : ℕ, c < k * dts * q := by
  have hx0 : 0 < |x| := (two_zpow_pos _).trans_le hx
  refine ⟨min (|x| / 2 ^ 31) 1, lt_min (by positivity) one_pos, fun dts hd hd0 => ⟨fun k => ?_, fun c => ?_⟩⟩
  · have hd1 : dts ≤ |x| / 2 ^ 31 := hd0.trans (min_le_left _ _)
    have hd2 : dts ≤ 1 := hd0.trans (min_le_right _ _)
    have hcc : 0 ≤ dts * coeff := mul_nonneg hd.le hc
    have hcc' : dts * coeff ≤ 2 ^ 126 := (mul_le_of_le_one_left hc hd2).trans hc'
    have tiny : ∀ d, 0 ≤ d → d ≤ |x| / 2 ^ 30 → |rnd (rnd d * q)| ≤ |x| / 2 ^ 27 := by
      intro d h0 h1
      have a1 := rnd_two d
      have a2 := rnd_two (rnd d * q)
      rw [abs_mul, abs_of_pos hq] at a2
      rw [abs_of_nonneg h0] at a1
      have a3 : |rnd d| * q ≤ |rnd d| := mul_le_of_le_one_right (abs_nonneg _) hq'
      have a4 : (3 * 2 ^ (-150 : ℤ) : K) ≤ |x| / 2 ^ 28 := by
        calc (3 * 2 ^ (-150 : ℤ) : K) ≤ 2 ^ (-100 : ℤ) / 2 ^ 28 := by norm_num
          _ ≤ _ := by gcongr
      obtain ⟨h, hh⟩ : ∃ h : K, h = 2 ^ (-150 : ℤ) := ⟨_, rfl⟩
      rw [← hh] at a1 a2 a4
      linarith
    obtain ⟨a, b, hab, h1, -⟩ := pair_stays' (r := r) (t := t) (n := 0) (coeff := coeff) (dts := dts) (tend := fun _ => q)
      (fun y hy => ⟨C122_mean hcc (by linarith) hy ht, C122_mean (by linarith) (by linarith) hy ht⟩) hs hx
      (fun k => ⟨tiny dts hd.le (by linarith), tiny (2 * dts) (by linarith) (by linarith)⟩) k
    exact ⟨a, b, hab, h1⟩
  · obtain ⟨k, hk⟩ := exists_nat_gt (c / (dts * q))
    refine ⟨k, ?_⟩
    rw [div_lt_iff₀ (mul_pos hd hq)] at hk
    linarith

/-! ### Examples -/

example : advance (1 : ℚ) 600 (1 / 2 ^ 32) = 1 + 1 / 2 ^ 23 := by decide +kernel
example : raFilter defaultFilter 1 2 (3 : ℚ) = 2 := by decide +kernel
example : ∃ a b : ℚ, pair 6371200 (10 ^ 15) (powTree 2) 0 600 (fun _ => 0) (-1) 1000000 = some (a, b) ∧ |a + 1| ≤ 10 / 2 ^ 23 := by
  obtain ⟨a, b, h, h1, -⟩ := C123_mean (K := ℚ) (r := 6371200) (coeff := 10 ^ 15) (dts := 600) (x := -1) (t := powTree 2)
    (by rw [powTree_order]; norm_num) (by norm_num) (by norm_num) ⟨-1, 0, by norm_num, by norm_num, by norm_num⟩ (by norm_num) 1000000
  exact ⟨a, b, h, by simpa using h1⟩

end Barotropic
