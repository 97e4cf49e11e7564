import Verif.Spec.ZonalizeTotal
import Verif.Lemmas.ZonalizeTotal

/-!
# C157: total error of zonalization in double precision
-/

namespace Barotropic
open Real Set Grid
open Binary64 (rnd pi64 SumTree rnd_factor)

theorem pow_roundings {m : ℕ} (hm : m ≤ 2 ^ 52) : ((1 : ℝ) + 1 / 2 ^ 53) ^ m - 1 ≤ 2 * m / 2 ^ 53 := by
  have h1 : ((1 : ℝ) + 1 / 2 ^ 53) ^ m ≤ exp (m * (1 / 2 ^ 53)) := by
    rw [exp_nat_mul]
    refine pow_le_pow_left₀ (by positivity) ?_ m
    have := add_one_le_exp (1 / 2 ^ 53 : ℝ)
    linarith
  have hmK : (m : ℝ) ≤ 2 ^ 52 := by exact_mod_cast hm
  have h0 : (0 : ℝ) ≤ m * (1 / 2 ^ 53) := by positivity
  have h2 : (m : ℝ) * (1 / 2 ^ 53) ≤ 1 := by
    calc (m : ℝ) * (1 / 2 ^ 53) ≤ 2 ^ 52 * (1 / 2 ^ 53) := mul_le_mul_of_nonneg_right hmK (by positivity)
      _ ≤ 1 := by norm_num
  have h3 := abs_exp_sub_one_le (x := m * (1 / 2 ^ 53)) (by rwa [abs_of_nonneg h0])
  rw [abs_of_nonneg h0] at h3
  have := (abs_le.1 h3).2
  have e : 2 * (m : ℝ) / 2 ^ 53 = 2 * (m * (1 / 2 ^ 53)) := by ring
  linarith

/-- How far the sine of the equivalent latitude of a contour can be off because of rounding: `m` roundings, a grid of `n + 1` latitudes and
a spacing with the relative error `δ` -/
noncomputable def sineError (n m : ℕ) (δ : ℝ) : ℝ := (n + 1) / 2 ^ 45 + 2 * δ + m / 2 ^ 49

section
variable {g : Grid ℝ} {Q : ℝ → ℝ → ℝ} {P : ℝ → ℝ} {Lx Ly : ℝ} {n m : ℕ} {sn cs : ℝ → ℝ} {dlam δ : ℝ} {t s : SumTree}

/-- The sine of the computed equivalent latitude of a contour is that of the polar cap with the area of the boxes above the contour. -/
theorem C157_sine (hg : g.Valid) (hs : g.resolution * g.nlon = 360) (hn : g.nlat = n + 1) (hn22 : n ≤ 2 ^ 22) (ht : GoodTrig sn cs)
    (hd0 : 0 < dlam) (hd : |dlam - g.dlam| ≤ δ * g.dlam) (hδ : δ ≤ 1 / 8)
    (hts : t.Sums (n + 1)) (hss : s.Sums g.nlon) (hm : m = t.depth + s.depth + 11) (hm52 : m ≤ 2 ^ 52) (f : ℕ → ℕ → ℝ) (q : ℝ) :
    |Binary64.sineOf pi64 g.rsphere (rnd (Binary64.boxArea t s g.rsphere dlam (gridBoxes sn n g.rsphere dlam) f q * rnd ((g.nlon : ℝ) / (g.nlon : ℝ))))
      - (1 - Binary64.areaAbove (n + 1) g.nlon (bandArea n g.rsphere g.dlam) f q / (2 * π * g.rsphere ^ 2))| ≤ sineError n m δ := by
  have hr := hg.rsphere_pos
  have hpi := pi_pos
  have hpi3 := pi_gt_three
  have hpc := abs_le.1 pi64_close
  have hp64 : (3 : ℝ) ≤ pi64 := by unfold pi64; norm_num
  have hr2 : 0 < 2 * π * g.rsphere ^ 2 := by positivity
  have h3 := hg.nlat_ge
  have ha : ∀ j, 0 ≤ gridBoxes sn n g.rsphere dlam j := gridBoxes_nonneg ht (by omega) hn22 hr.ne' hd0
  have had : ∀ j, IsDouble (gridBoxes sn n g.rsphere dlam j) := gridBoxes_double
  have key := C134_sine (p := (pi64 : ℝ)) hts hss (nlon := g.nlon) (by linarith) hr hd0 ha had f q rfl hm
  have hA := boxes_rounded hg hs hn (hn22.trans (by norm_num)) ht hd0 hd f q
  obtain ⟨hT0, hT1⟩ := boxes_range hg hs hn f q
  have hA0 : 0 ≤ Binary64.areaAbove (n + 1) g.nlon (gridBoxes sn n g.rsphere dlam) f q :=
    Finset.sum_nonneg fun i _ => Finset.sum_nonneg fun j _ => by split_ifs; exacts [ha j, le_rfl]
  rw [div_self hg.nlon_pos.ne'] at key ⊢
  rw [mul_one (Binary64.areaAbove _ _ _ _ _)] at key
  generalize (Binary64.sineOf (pi64 : ℝ) g.rsphere _) = s64 at key ⊢
  generalize Binary64.areaAbove (n + 1) g.nlon (gridBoxes sn n g.rsphere dlam) f q = A at hA hA0 key
  generalize Binary64.areaAbove (n + 1) g.nlon (bandArea n g.rsphere g.dlam) f q = T at hA hT0 hT1 ⊢
  have hnK : (n : ℝ) ≤ 2 ^ 22 := by exact_mod_cast hn22
  have hdl := dlam_pos hg
  have hδ0 : 0 ≤ δ := by
    have := (abs_nonneg _).trans hd
    by_contra hc
    exact absurd this (not_le.2 (mul_neg_of_neg_of_pos (not_le.1 hc) hdl))
  obtain ⟨N, hN⟩ : ∃ N : ℝ, N = (n + 1) / 2 ^ 46 := ⟨_, rfl⟩
  have hN0 : 0 ≤ N := by rw [hN]; positivity
  have hN1 : N ≤ 1 / 4 := by
    rw [hN, div_le_iff₀ (by positivity)]
    refine le_trans (b := (2 : ℝ) ^ 22 + 1) (by linarith) (by norm_num)
  rw [← hN] at hA
  -- areas relative to a hemisphere
  obtain ⟨b, hb⟩ : ∃ b, b = A / (2 * π * g.rsphere ^ 2) := ⟨_, rfl⟩
  obtain ⟨c, hc⟩ : ∃ c, c = T / (2 * π * g.rsphere ^ 2) := ⟨_, rfl⟩
  have hc0 : 0 ≤ c := by rw [hc]; positivity
  have hc2 : c ≤ 2 := by rw [hc, div_le_iff₀ hr2]; linarith
  have hb0 : 0 ≤ b := by rw [hb]; positivity
  have hδN : (1 + δ) * N ≤ 2 * N := mul_le_mul_of_nonneg_right (by linarith) hN0
  have hbc : |b - c| ≤ (1 + δ) * N + 2 * δ := by
    rw [hb, hc, ← sub_div, abs_div, abs_of_pos hr2, div_le_iff₀ hr2]
    linarith
  have hbc' := abs_le.1 hbc
  have hb3 : b ≤ 3 := by linarith
  -- the value of π
  obtain ⟨B, hB⟩ : ∃ B, B = A / (2 * pi64 * g.rsphere ^ 2) := ⟨_, rfl⟩
  rw [← hB] at key
  have hBb : |B - b| ≤ 1 / 2 ^ 52 := by
    have e : B - b = b * ((π - pi64) / pi64) := by rw [hB, hb]; field_simp
    rw [e, abs_mul, abs_of_nonneg hb0, abs_div, abs_of_pos (by linarith : (0 : ℝ) < pi64), abs_sub_comm]
    calc b * (|pi64 - π| / pi64) ≤ 3 * (1 / 2 ^ 52 / 3) :=
          mul_le_mul hb3 (div_le_div₀ (by positivity) pi64_close (by norm_num) hp64) (by positivity) (by norm_num)
      _ = _ := by ring
  have hBb' := abs_le.1 hBb
  have hB0 : 0 ≤ B := by rw [hB]; positivity
  have hB4 : B ≤ 4 := by norm_num at hBb'; linarith
  -- rounding of the areas and the sine
  have hfac := pow_roundings hm52
  have hfac0 : (0 : ℝ) ≤ (1 + 1 / 2 ^ 53) ^ m - 1 := sub_nonneg.2 (Binary64.one_le_fac m)
  generalize ((1 : ℝ) + 1 / 2 ^ 53) ^ m = F at hfac hfac0 key
  have hm11 : (11 : ℝ) ≤ m := by rw [hm]; push_cast; have : (0:ℝ) ≤ t.depth := by positivity
                                 have : (0:ℝ) ≤ s.depth := by positivity
                                 linarith
  have hmK : (m : ℝ) ≤ 2 ^ 52 := by exact_mod_cast hm52
  have hF3 : F ≤ 3 := by
    have : 2 * (m : ℝ) / 2 ^ 53 ≤ 1 := by rw [div_le_one (by positivity)]; exact le_trans (b := (2 : ℝ) * 2 ^ 52) (by linarith) (by norm_num)
    linarith
  have r1 : B * (F - 1) ≤ 4 * (2 * m / 2 ^ 53) := mul_le_mul hB4 hfac hfac0 (by norm_num)
  have r2 : B * F ≤ 4 * 3 := mul_le_mul hB4 hF3 (by linarith) (by norm_num)
  have r3 : (1 + B * F) / 2 ^ 53 ≤ 13 / 2 ^ 53 := div_le_div_of_nonneg_right (by linarith) (by positivity)
  have hlip : |max (-1) (min 1 (1 - B)) - (1 - c)| ≤ |B - c| := by
    have e : 1 - c = max (-1) (min 1 (1 - c)) := by
      rw [min_eq_right (by linarith), max_eq_right (by linarith)]
    conv_lhs => rw [e]
    refine (abs_max_sub_max_le_max _ _ _ _).trans (max_le (by simp) ?_)
    refine (abs_min_sub_min_le_max _ _ _ _).trans (max_le (by simp) ?_)
    rw [show 1 - B - (1 - c) = c - B by ring, abs_sub_comm]
  have h1 := abs_sub_le s64 (max (-1) (min 1 (1 - B))) (1 - c)
  have h2 := abs_sub_le B b c
  rw [← hc]
  have eN : ((n : ℝ) + 1) / 2 ^ 45 = 2 * N := by rw [hN]; ring
  unfold sineError
  rw [eN]
  have em : (m : ℝ) / 2 ^ 49 = 16 * (m / 2 ^ 53) := by ring
  have em2 : 4 * (2 * (m : ℝ) / 2 ^ 53) = 8 * (m / 2 ^ 53) := by ring
  have em3 : 11 / 2 ^ 53 ≤ (m : ℝ) / 2 ^ 53 := div_le_div_of_nonneg_right hm11 (by positivity)
  rw [em]
  rw [em2] at r1
  generalize (m : ℝ) / 2 ^ 53 = μ at em3 r1 ⊢
  norm_num at r3 em3 hBb ⊢
  linarith

/-- A contour of the computed field encloses the right polar cap, up to the error of the samples `ε` and of the sine of latitude `κ`. -/
theorem brackets_of_sine (hP : IsRearrangement Q P) {r A ε κ s q : ℝ} (hr : 0 < r) (h0 : r ^ 2 * areaAbove Q (q + ε) ≤ A)
    (h1 : A ≤ r ^ 2 * areaAbove Q (q - ε)) (hsin : |s - (1 - A / (2 * π * r ^ 2))| ≤ κ) : SineBrackets P ε κ s q := by
  have hpi := pi_pos
  have hr2 : 0 < r ^ 2 := by positivity
  obtain ⟨k0, k1⟩ := abs_le.1 hsin
  obtain ⟨c, hc⟩ : ∃ c, A = 2 * π * r ^ 2 * c := ⟨A / (2 * π * r ^ 2), by field_simp⟩
  have e : A / (2 * π * r ^ 2) = c := by rw [hc]; field_simp
  rw [e] at k0 k1
  have h0' : areaAbove Q (q + ε) ≤ 2 * π * c := le_of_mul_le_mul_left (h0.trans (le_of_eq (by rw [hc]; ring))) hr2
  have h1' : 2 * π * c ≤ areaAbove Q (q - ε) := le_of_mul_le_mul_left ((le_of_eq (by rw [hc]; ring)).trans h1) hr2
  rw [hP.area] at h0' h1'
  intro φ hφ
  constructor
  · intro h
    by_contra hcon
    have := (h1'.trans (area_profile_le hP.continuous hP.increasing hφ (not_le.1 hcon)))
    have := le_of_mul_le_mul_left this (by positivity)
    linarith
  · intro h
    by_contra hcon
    have := ((area_profile_ge hP.continuous hP.increasing hφ (not_le.1 hcon).le).trans h0')
    have := le_of_mul_le_mul_left this (by positivity)
    linarith

theorem C157_contour (hg : g.Valid) (hs : g.resolution * g.nlon = 360) (hQ : LipschitzField Q Lx Ly) (hP : IsRearrangement Q P)
    (hn : g.nlat = n + 1) (hn22 : n ≤ 2 ^ 22) (ht : GoodTrig sn cs)
    (hd0 : 0 < dlam) (hd : |dlam - g.dlam| ≤ δ * g.dlam) (hδ : δ ≤ 1 / 8)
    (hts : t.Sums (n + 1)) (hss : s.Sums g.nlon) (hm : m = t.depth + s.depth + 11) (hm52 : m ≤ 2 ^ 52) {f : ℕ → ℕ → ℝ} {e : ℝ}
    (hf : ∀ j ≤ n, ∀ i < g.nlon, |f j i - Q (g.lam i) (g.phi j)| ≤ e) (q : ℝ) :
    SineBrackets P (sampleError g Lx Ly + e) (sineError n m δ)
      (Binary64.sineOf pi64 g.rsphere (rnd (Binary64.boxArea t s g.rsphere dlam (gridBoxes sn n g.rsphere dlam) f q * rnd ((g.nlon : ℝ) / (g.nlon : ℝ))))) q :=
  have h := boxes_sandwich hg hs hn hQ hf q
  brackets_of_sine hP hg.rsphere_pos h.1 h.2 (C157_sine hg hs hn hn22 ht hd0 hd hδ hts hss hm hm52 f q)

/-- Computed equivalent latitudes have the right sine. -/
theorem asin_latitude {asin : ℝ → ℝ} (hA : GoodAsin asin) {s : ℝ} (h0 : -1 ≤ s) (h1 : s ≤ 1) :
    |sin (deg2rad (Binary64.rad2deg pi64 (asin s))) - s| ≤ 1 / 2 ^ 49 := by
  have hpi := pi_pos
  have hpi3 := pi_gt_three
  have hpi4 := pi_lt_d2
  have hp64 : (3 : ℝ) ≤ pi64 := by unfold pi64; norm_num
  have ha := hA.close s h0 h1
  have hα : |arcsin s| ≤ 8 / 5 := by
    rw [abs_le]
    have := neg_pi_div_two_le_arcsin s
    have := arcsin_le_pi_div_two s
    norm_num at hpi4
    constructor <;> linarith
  obtain ⟨α, hαe⟩ : ∃ α, α = arcsin s := ⟨_, rfl⟩
  have hsin : sin α = s := by rw [hαe]; exact sin_arcsin h0 h1
  rw [← hαe] at ha hα
  generalize asin s = a at ha ⊢
  have ha2 : |a| ≤ 17 / 10 := by
    have := abs_add_le (a - α) α
    rw [sub_add_cancel] at this
    norm_num at ha
    linarith
  have hΔ : (180 : ℝ) / π ≤ 60 := by rw [div_le_iff₀ hpi]; linarith
  have hΔ0 : (0 : ℝ) < 180 / π := by positivity
  have hD0 : |(180 : ℝ) / pi64 - 180 / π| ≤ 20 / 2 ^ 52 := by
    have e : (180 : ℝ) / pi64 - 180 / π = 180 / (pi64 * π) * (π - pi64) := by field_simp
    rw [e, abs_mul, abs_sub_comm, abs_of_pos (by positivity)]
    have h9 : (180 : ℝ) / (pi64 * π) ≤ 20 := by
      rw [div_le_iff₀ (by positivity)]
      have := mul_le_mul hp64 hpi3.le (by norm_num) (by linarith)
      linarith
    calc _ ≤ 20 * (1 / 2 ^ 52) := mul_le_mul h9 pi64_close (abs_nonneg _) (by norm_num)
      _ = _ := by ring
  have hD : |rnd (180 / pi64 : ℝ) - 180 / π| ≤ 60 / 2 ^ 52 := by
    have h := Binary64.rnd_rel (180 / pi64 : ℝ)
    have h' : |(180 : ℝ) / pi64| ≤ 61 := by
      have := abs_add_le ((180 : ℝ) / pi64 - 180 / π) (180 / π)
      rw [sub_add_cancel, abs_of_pos hΔ0] at this
      norm_num at hD0
      linarith
    have h'' : |(180 : ℝ) / pi64| / 2 ^ 53 ≤ 61 / 2 ^ 53 := div_le_div_of_nonneg_right h' (by positivity)
    rw [abs_sub_comm] at h
    have := abs_sub_le (rnd (180 / pi64 : ℝ)) (180 / pi64) (180 / π)
    norm_num at h h'' hD0 ⊢
    linarith
  unfold Binary64.rad2deg
  generalize rnd (180 / pi64 : ℝ) = D at hD ⊢
  have hDb : |D| ≤ 61 := by
    have := abs_add_le (D - 180 / π) (180 / π)
    rw [sub_add_cancel, abs_of_pos hΔ0] at this
    norm_num at hD
    linarith
  have hp : |a * D - α * (180 / π)| ≤ 162 / 2 ^ 52 := by
    have e : a * D - α * (180 / π) = a * (D - 180 / π) + (a - α) * (180 / π) := by ring
    have k1 : |a * (D - 180 / π)| ≤ 17 / 10 * (60 / 2 ^ 52) := by
      rw [abs_mul]; exact mul_le_mul ha2 hD (abs_nonneg _) (by norm_num)
    have k2 : |(a - α) * (180 / π)| ≤ 1 / 2 ^ 52 * 60 := by
      rw [abs_mul, abs_of_pos hΔ0]; exact mul_le_mul ha hΔ hΔ0.le (by norm_num)
    rw [e]
    have := abs_add_le (a * (D - 180 / π)) ((a - α) * (180 / π))
    linarith
  have hy : |rnd (a * D) - α * (180 / π)| ≤ 1 / 2 ^ 44 := by
    have h := Binary64.rnd_rel (a * D)
    have h' : |a * D| ≤ 17 / 10 * 61 := by rw [abs_mul]; exact mul_le_mul ha2 hDb (abs_nonneg _) (by norm_num)
    have h'' : |a * D| / 2 ^ 53 ≤ 104 / 2 ^ 53 := div_le_div_of_nonneg_right (by linarith) (by positivity)
    rw [abs_sub_comm] at h
    have := abs_sub_le (rnd (a * D)) (a * D) (α * (180 / π))
    norm_num at h h'' hp ⊢
    linarith
  generalize rnd (a * D) = y at hy ⊢
  rw [← hsin]
  refine (abs_sin_sub_sin_le _ _).trans ?_
  unfold deg2rad
  have h57 : π / 180 ≤ 1 / 2 ^ 5 := by norm_num at hpi4 ⊢; linarith
  rw [show y * (π / 180) - α = (y - α * (180 / π)) * (π / 180) by field_simp]
  rw [abs_mul, abs_of_pos (by positivity : 0 < π / 180)]
  calc _ ≤ 1 / 2 ^ 44 * (1 / 2 ^ 5) := mul_le_mul hy h57 (by positivity) (by positivity)
    _ = _ := by norm_num

/-- The profile of a field is within the range of its samples, up to the error of the samples. -/
theorem profile_range (hg : g.Valid) (hs : g.resolution * g.nlon = 360) (hQ : LipschitzField Q Lx Ly) (hP : IsRearrangement Q P) (hn : g.nlat = n + 1)
    {f : ℕ → ℕ → ℝ} {e lo hi : ℝ} (hf : ∀ j ≤ n, ∀ i < g.nlon, |f j i - Q (g.lam i) (g.phi j)| ≤ e)
    (hr : ∀ j ≤ n, ∀ i < g.nlon, lo ≤ f j i ∧ f j i ≤ hi) {φ : ℝ} (hφ : φ ∈ latitudes) :
    (-1 < sin φ → lo - (sampleError g Lx Ly + e) ≤ P φ) ∧ (sin φ < 1 → P φ ≤ hi + (sampleError g Lx Ly + e)) := by
  have hpi := pi_pos
  have hrs := hg.rsphere_pos
  have hr2 : 0 < g.rsphere ^ 2 := by positivity
  constructor
  · intro h
    by_contra hcon
    have h1 := (boxes_sandwich hg hs hn hQ hf lo).2
    have e1 : Binary64.areaAbove (n + 1) g.nlon (bandArea n g.rsphere g.dlam) f lo = 4 * π * g.rsphere ^ 2 := by
      rw [← boxes_total hg hs hn]
      refine Finset.sum_congr rfl fun i hi => Finset.sum_congr rfl fun j hj => ?_
      rw [if_pos (hr j (Nat.lt_succ_iff.1 (Finset.mem_range.1 hj)) i (Finset.mem_range.1 hi)).1]
    have h2 := area_profile_le hP.continuous hP.increasing hφ (not_le.1 hcon)
    rw [← hP.area] at h2
    rw [e1] at h1
    have h3 : 4 * π ≤ areaAbove Q (lo - (sampleError g Lx Ly + e)) := le_of_mul_le_mul_left ((le_of_eq (by ring)).trans h1) hr2
    have h4 : 2 * π * (2 : ℝ) ≤ 2 * π * (1 - sin φ) := by linarith
    have := le_of_mul_le_mul_left h4 (by positivity)
    linarith
  · intro h
    by_contra hcon
    rw [not_le] at hcon
    obtain ⟨q, q1, q2⟩ := exists_between (show hi < P φ - (sampleError g Lx Ly + e) by linarith)
    have h1 := (boxes_sandwich hg hs hn hQ hf q).1
    have e1 : Binary64.areaAbove (n + 1) g.nlon (bandArea n g.rsphere g.dlam) f q = 0 := by
      refine Finset.sum_eq_zero fun i hi => Finset.sum_eq_zero fun j hj => ?_
      rw [if_neg (not_le.2 ((hr j (Nat.lt_succ_iff.1 (Finset.mem_range.1 hj)) i (Finset.mem_range.1 hi)).2.trans_lt q1))]
    have h2 := area_profile_ge hP.continuous hP.increasing hφ (c := q + (sampleError g Lx Ly + e)) (by linarith)
    rw [← hP.area] at h2
    rw [e1] at h1
    have h3 : areaAbove Q (q + (sampleError g Lx Ly + e)) ≤ 0 := le_of_mul_le_mul_left (h1.trans (le_of_eq (by ring))) hr2
    have h4 : 2 * π * (1 - sin φ) ≤ 2 * π * 0 := by linarith
    have := le_of_mul_le_mul_left h4 (by positivity)
    linarith

/-- The sine of the computed latitudes -/
theorem lat_sine (hg : g.Valid) (hn : g.nlat = n + 1) {j : ℕ} (hj : j ≤ n) : |sin (deg2rad (Binary64.lat (n + 1) j)) - sin (g.phi j)| ≤ 1 / 2 ^ 49 := by
  have hpi := pi_pos
  have hpi4 := pi_lt_d2
  have h3 := hg.nlat_ge
  have hnp : (0 : ℝ) < n := by have : 0 < n := by omega
                               exact_mod_cast this
  have hy := C102_close_lat (K := ℝ) (n := n) (by omega) j hj
  refine (abs_sin_sub_sin_le _ _).trans ?_
  have e : deg2rad (Binary64.lat (n + 1) j) - g.phi j = (Binary64.lat (n + 1) j - (90 - j * (180 / n))) * (π / 180) := by
    rw [← trueLatitude_phi hg hn, trueLatitude, deg2rad]
    field_simp
    ring
  have h57 : π / 180 ≤ 1 / 2 ^ 5 := by norm_num at hpi4 ⊢; linarith
  rw [e, abs_mul, abs_of_pos (by positivity : 0 < π / 180)]
  calc _ ≤ 1 / 2 ^ 44 * (1 / 2 ^ 5) := mul_le_mul hy h57 (by positivity) (by positivity)
    _ = _ := by norm_num

theorem sine_mono {x y : ℝ} (h0 : -90 ≤ x) (h : x ≤ y) (h1 : y ≤ 90) : sin (deg2rad x) ≤ sin (deg2rad y) := by
  have hpi := pi_pos
  have hm : ∀ {a b : ℝ}, a ≤ b → deg2rad a ≤ deg2rad b := fun hab => by unfold deg2rad; gcongr
  have e0 : deg2rad (-90) = -(π / 2) := by unfold deg2rad; ring
  have e1 : deg2rad 90 = π / 2 := by unfold deg2rad; ring
  exact sin_le_sin_of_le_of_le_pi_div_two (e0 ▸ hm h0) (e1 ▸ hm h1) (hm h)

theorem isChain_and {R S : ℝ → ℝ → Prop} {l : List ℝ} (hR : l.IsChain R) (hS : l.IsChain S) : l.IsChain fun a b => R a b ∧ S a b := by
  induction l with
  | nil => exact .nil
  | cons a l ih =>
    cases l with
    | nil => exact .singleton _
    | cons b l =>
      rw [List.isChain_cons_cons] at *
      exact ⟨⟨hR.1, hS.1⟩, ih hR.2 hS.2⟩

/-- The values of a profile between two knots -/
theorem polygon_between {x δl ε : ℝ} {L : List (ℝ × ℝ)} {v : ℝ} (hv : Binary64.OnPolygon x L v)
    (hc : L.IsChain fun p q => p.2 ≤ q.2 ∧ q.2 - p.2 ≤ δl) (hδ : 0 ≤ δl) {y : ℝ} :
    ((∀ p ∈ L, p.1 ≤ x → p.2 - ε ≤ y) → v ≤ y + ε + δl) ∧ ((∀ p ∈ L, x ≤ p.1 → y ≤ p.2 + ε) → y - ε - δl ≤ v) := by
  cases hv with
  | knot ha hx => exact ⟨fun h => by have := h _ ha hx.le; linarith, fun h => by have := h _ ha hx.ge; linarith⟩
  | @cell pre post a b h0 h1 =>
    have hab := (List.isChain_append_cons_cons.1 hc).2.1
    have k0 := line_le h0.le h1.le hab.1
    have k1 : a.2 ≤ Binary64.line a.1 b.1 x a.2 b.2 := by
      unfold Binary64.line
      have := mul_nonneg (div_nonneg (sub_nonneg.2 h0.le) (sub_nonneg.2 (h0.trans h1).le)) (sub_nonneg.2 hab.1)
      linarith
    exact ⟨fun h => by have := h a (by simp) h0.le; linarith, fun h => by have := h b (by simp) h1.le; linarith⟩

/-- C157: zonalization in double precision and the rearrangement of the field. -/
theorem C157_zonalize (hg : g.Valid) (hs : g.resolution * g.nlon = 360) (hQ : LipschitzField Q Lx Ly) (hP : IsRearrangement Q P)
    (hn : g.nlat = n + 1) (hn22 : n ≤ 2 ^ 22) (ht : GoodTrig sn cs)
    (hd0 : 0 < dlam) (hd : |dlam - g.dlam| ≤ δ * g.dlam) (hδ : δ ≤ 1 / 8)
    (hts : t.Sums (n + 1)) (hss : s.Sums g.nlon) (hm : m = t.depth + s.depth + 11) (hm52 : m ≤ 2 ^ 52) {f : ℕ → ℕ → ℝ} {e : ℝ}
    (hf : ∀ j ≤ n, ∀ i < g.nlon, |f j i - Q (g.lam i) (g.phi j)| ≤ e) {asin : ℝ → ℝ} (hA : GoodAsin asin) {lo hi B δl : ℝ}
    (hr : ∀ j ≤ n, ∀ i < g.nlon, lo ≤ f j i ∧ f j i ≤ hi) (hB : |lo| ≤ B ∧ |hi| ≤ B) {levels : List ℝ} (hl : (lo :: (levels ++ [hi])).Pairwise (· ≤ ·))
    (hstep : (lo :: (levels ++ [hi])).IsChain fun q q' => q' - q ≤ δl)
    (hpole : ∀ q ∈ levels, |Binary64.contourLatitude t s pi64 g.rsphere dlam asin (gridBoxes sn n g.rsphere dlam) g.nlon g.nlon f q| ≠ 90) {j : ℕ} (hj : j ≤ n) :
    NearProfile P (sampleError g Lx Ly + e + δl + 3 * B / 2 ^ 50) (sineError n m δ + 1 / 2 ^ 48) (g.phi j)
      (Binary64.zonalize t s pi64 g.rsphere dlam asin (gridBoxes sn n g.rsphere dlam) g.nlon g.nlon f lo hi levels (Binary64.lat (n + 1) j)) := by
  have h3 := hg.nlat_ge
  have hrs := hg.rsphere_pos
  have hdl := dlam_pos hg
  have hδ0 : 0 ≤ δ := by
    have := (abs_nonneg _).trans hd
    by_contra hc
    exact absurd this (not_le.2 (mul_neg_of_neg_of_pos (not_le.1 hc) hdl))
  have hκ : 0 ≤ sineError n m δ := by unfold sineError; positivity
  have ha : ∀ j, 0 ≤ gridBoxes sn n g.rsphere dlam j := gridBoxes_nonneg ht (by omega) hn22 hrs.ne' hd0
  obtain ⟨ε, hε⟩ : ∃ ε, ε = sampleError g Lx Ly + e := ⟨_, rfl⟩
  obtain ⟨x, hx⟩ : ∃ x : ℝ, x = Binary64.lat (n + 1) j := ⟨_, rfl⟩
  have hxs := abs_le.1 (lat_sine hg hn hj)
  have hx90 := (C102_sorted_lat (K := ℝ) (n := n) (by omega) (hn22.trans (by norm_num))).2.2.2 j hj
  rw [← hx] at hxs hx90 ⊢
  have hcon := C157_contour hg hs hQ hP hn hn22 ht hd0 hd hδ hts hss hm hm52 hf
  have hran := fun φ (hφ : φ ∈ latitudes) => profile_range hg hs hQ hP hn hf hr hφ
  rw [← hε] at hcon hran ⊢
  have hmono : ∀ {q q'}, q ≤ q' → _ := fun {q q'} h => C134_contours t s hrs hd0 hA.mono hA.one hA.neg_one ha g.nlon g.nlon f (q := q) (q' := q') h
  obtain ⟨c, hc⟩ : ∃ c : ℝ → ℝ, c = Binary64.contourLatitude t s pi64 g.rsphere dlam asin (gridBoxes sn n g.rsphere dlam) g.nlon g.nlon f := ⟨_, rfl⟩
  rw [← hc] at hmono hpole
  have hpi64 : (0 : ℝ) < pi64 := by unfold pi64; norm_num
  have hsin : ∀ q, ∃ σ, SineBrackets P ε (sineError n m δ) σ q ∧ |sin (deg2rad (c q)) - σ| ≤ 1 / 2 ^ 49 := fun q => by
    have hb := C134_sine_monotone hpi64 hrs (le_refl (rnd (Binary64.boxArea t s g.rsphere dlam (gridBoxes sn n g.rsphere dlam) f q * rnd ((g.nlon : ℝ) / (g.nlon : ℝ)))))
    rw [hc]
    exact ⟨_, hcon q, asin_latitude hA hb.1 hb.2.2⟩
  have hlp := List.pairwise_cons.1 hl
  have hlq := List.pairwise_append.1 hlp.2
  obtain ⟨ks, hks⟩ : ∃ ks, ks = levels.map fun q => (c q, q) := ⟨_, rfl⟩
  have hks1 : ks.Pairwise fun p q => p.1 ≤ q.1 := by
    rw [hks]; exact List.pairwise_map.2 (hlq.1.imp fun h => (hmono h).2.1)
  have hkin : ∀ p ∈ ks, -90 < p.1 ∧ p.1 < 90 := by
    intro p hp
    rw [hks] at hp
    obtain ⟨q, hq, rfl⟩ := List.mem_map.1 hp
    have hn' := hpole q hq
    have hb := hmono (le_refl q)
    constructor
    · exact lt_of_le_of_ne hb.1 fun h => hn' (by change -90 = c q at h; rw [← h]; norm_num)
    · exact lt_of_le_of_ne hb.2.2 fun h => hn' (by change c q = 90 at h; rw [h]; norm_num)
  have hR : Binary64.zonalize t s pi64 g.rsphere dlam asin (gridBoxes sn n g.rsphere dlam) g.nlon g.nlon f lo hi levels x
      = Binary64.npInterp (-90, lo) (ks ++ [(90, hi)]) x := by
    unfold Binary64.zonalize Binary64.interpolateMeridional
    rw [← hc, ← hks, Binary64.knots_sorted ks hi lo hks1 hkin]
  rw [hR]
  have hmap : ((-90, lo) :: (ks ++ [(90, hi)])).map Prod.snd = lo :: (levels ++ [hi]) := by
    rw [hks]; simp [Function.comp_def]
  have hsorted : ((-90, lo) :: (ks ++ [(90, hi)])).Pairwise fun p q : ℝ × ℝ => p.1 ≤ q.1 := by
    rw [List.pairwise_cons, List.pairwise_append]
    refine ⟨?_, hks1, List.pairwise_singleton _ _, ?_⟩
    · intro p hp
      rcases List.mem_append.1 hp with hp | hp
      · exact (hkin p hp).1.le
      · rw [List.mem_singleton.1 hp]; norm_num
    · intro p hp p' hp'
      rw [List.mem_singleton.1 hp']
      exact (hkin p hp).2.le
  have hvals : ∀ p ∈ (-90, lo) :: (ks ++ [(90, hi)]), |p.2| ≤ B := by
    intro p hp
    have hp2 : p.2 ∈ lo :: (levels ++ [hi]) := by rw [← hmap]; exact List.mem_map_of_mem hp
    rcases List.mem_cons.1 hp2 with h | h
    · rw [h]; exact hB.1
    · rcases List.mem_append.1 h with h' | h'
      · have k1 := hlp.1 _ h
        have k2 := hlq.2.2 _ h' hi (by simp)
        have b1 := abs_le.1 hB.1
        have b2 := abs_le.1 hB.2
        exact abs_le.2 ⟨by linarith, by linarith⟩
      · rw [List.mem_singleton.1 h']; exact hB.2
  obtain ⟨v, hv, hve⟩ := C134_polygon hsorted hx90.1 ⟨(90, hi), by simp, hx90.2⟩ hvals
  have hve' := abs_le.1 hve
  have hchain : ((-90, lo) :: (ks ++ [(90, hi)])).IsChain fun p q : ℝ × ℝ => p.2 ≤ q.2 ∧ q.2 - p.2 ≤ δl := by
    have h1 : (lo :: (levels ++ [hi])).IsChain fun q q' => q ≤ q' ∧ q' - q ≤ δl := by
      have := hl.isChain
      exact isChain_and this hstep
    rw [← hmap] at h1
    exact (List.isChain_map _).1 h1
  have hδl : 0 ≤ δl := by
    cases hlv : levels with
    | nil =>
      rw [hlv] at hstep hlp
      have a := (List.isChain_cons_cons.1 hstep).1
      have b := hlp.1 hi (by simp)
      linarith
    | cons q l =>
      rw [hlv] at hstep hlp
      have a := (List.isChain_cons_cons.1 hstep).1
      have b := hlp.1 q (by simp)
      linarith
  have s90 : sin (deg2rad 90) = 1 := by rw [show deg2rad 90 = π / 2 by unfold deg2rad; ring, sin_pi_div_two]
  have s270 : sin (deg2rad (-90)) = -1 := by rw [show deg2rad (-90) = -(π / 2) by unfold deg2rad; ring, sin_neg, sin_pi_div_two]
  have e48 : (1 : ℝ) / 2 ^ 48 = 1 / 2 ^ 49 + 1 / 2 ^ 49 := by norm_num
  have e49 : (0 : ℝ) < 1 / 2 ^ 49 := by positivity
  rw [e48]
  generalize (1 : ℝ) / 2 ^ 49 = η at *
  intro φ hφ
  obtain ⟨p1, p2⟩ := polygon_between (ε := ε) (y := P φ) hv hchain hδl
  have hφ1 := neg_one_le_sin φ
  have hφ2 := sin_le_one φ
  constructor
  · intro h
    have := p1 ?_
    · linarith
    · intro p hp hpx
      rcases List.mem_cons.1 hp with rfl | hp
      · refine (hran φ hφ).1 ?_
        have := neg_one_le_sin (g.phi j)
        linarith
      · rcases List.mem_append.1 hp with hp | hp
        · rw [hks] at hp
          obtain ⟨q, hq, rfl⟩ := List.mem_map.1 hp
          have k := sine_mono (hmono (le_refl q)).1 hpx hx90.2
          obtain ⟨σ, hσ, k2⟩ := hsin q
          have k2 := abs_le.1 k2
          exact (hσ φ hφ).1 (by linarith)
        · rw [List.mem_singleton.1 hp] at hpx
          have : x = 90 := le_antisymm hx90.2 hpx
          rw [this, s90] at hxs
          linarith
  · intro h
    have := p2 ?_
    · linarith
    · intro p hp hpx
      rcases List.mem_cons.1 hp with rfl | hp
      · have : x = -90 := le_antisymm hpx hx90.1
        rw [this, s270] at hxs
        linarith
      · rcases List.mem_append.1 hp with hp | hp
        · rw [hks] at hp
          obtain ⟨q, hq, rfl⟩ := List.mem_map.1 hp
          have k := sine_mono hx90.1 hpx (hmono (le_refl q)).2.2
          obtain ⟨σ, hσ, k2⟩ := hsin q
          have k2 := abs_le.1 k2
          exact (hσ φ hφ).2 (by linarith)
        · rw [List.mem_singleton.1 hp]
          refine (hran φ hφ).2 ?_
          have := sin_le_one (g.phi j)
          linarith

/-- Contours of values that are exceeded at some gridpoint and not reached at another are not at the poles, if the smallest box is larger
than the rounding errors. -/
theorem C157_poles (hg : g.Valid) (hs : g.resolution * g.nlon = 360) (hn : g.nlat = n + 1) (hn22 : n ≤ 2 ^ 22) (ht : GoodTrig sn cs)
    (hd0 : 0 < dlam) (hd : |dlam - g.dlam| ≤ δ * g.dlam) (hδ : δ ≤ 1 / 8)
    (hts : t.Sums (n + 1)) (hss : s.Sums g.nlon) (hm : m = t.depth + s.depth + 11) (hm52 : m ≤ 2 ^ 52)
    (hsmall : sineError n m δ + 1 / 2 ^ 49 < 1 / (2 * g.nlon * n ^ 2)) {f : ℕ → ℕ → ℝ} {asin : ℝ → ℝ} (hA : GoodAsin asin) {q : ℝ}
    (h0 : ∃ j ≤ n, ∃ i < g.nlon, f j i < q) (h1 : ∃ j ≤ n, ∃ i < g.nlon, q ≤ f j i) :
    |Binary64.contourLatitude t s pi64 g.rsphere dlam asin (gridBoxes sn n g.rsphere dlam) g.nlon g.nlon f q| ≠ 90 := by
  have hpi := pi_pos
  have hrs := hg.rsphere_pos
  have h3 := hg.nlat_ge
  have hwd := dlam_nlon_eq hg hs
  have hw := hg.nlon_pos
  have hdl := dlam_pos hg
  have hnp : (0 : ℝ) < n := by have : 0 < n := by omega
                               exact_mod_cast this
  have hr2 : 0 < 2 * π * g.rsphere ^ 2 := by positivity
  have hpi64 : (0 : ℝ) < pi64 := by unfold pi64; norm_num
  have key := abs_le.1 (C157_sine hg hs hn hn22 ht hd0 hd hδ hts hss hm hm52 f q)
  have hb := C134_sine_monotone hpi64 hrs (le_refl (rnd (Binary64.boxArea t s g.rsphere dlam (gridBoxes sn n g.rsphere dlam) f q * rnd ((g.nlon : ℝ) / (g.nlon : ℝ)))))
  have ka := abs_le.1 (asin_latitude hA hb.1 hb.2.2)
  unfold Binary64.contourLatitude Binary64.equivalentLatitude
  generalize (Binary64.sineOf (pi64 : ℝ) g.rsphere _) = s64 at key ka ⊢
  have hpos : ∀ j ≤ n, 0 < bandArea n g.rsphere g.dlam j := fun j hj => by
    rw [bandArea_gridpointArea hg hn hj]; exact gridpointArea_pos hg (by omega)
  have hmin : ∀ j ≤ n, 2 * π * g.rsphere ^ 2 * (1 / (2 * g.nlon * n ^ 2)) ≤ bandArea n g.rsphere g.dlam j := by
    intro j hj
    refine le_trans (le_of_eq ?_) (bandArea_ge (by omega) hdl j hj)
    rw [← hwd]
    field_simp
  have hterm : ∀ j ≤ n, ∀ i, 0 ≤ (if q ≤ f j i then bandArea n g.rsphere g.dlam j else 0) := fun j hj i => by
    split_ifs
    · exact (hpos j hj).le
    · exact le_rfl
  have hlow : 2 * π * g.rsphere ^ 2 * (1 / (2 * g.nlon * n ^ 2)) ≤ Binary64.areaAbove (n + 1) g.nlon (bandArea n g.rsphere g.dlam) f q := by
    obtain ⟨j, hj, i, hi, hq⟩ := h1
    refine (hmin j hj).trans ?_
    refine le_trans ?_ (Finset.single_le_sum (f := fun i => ∑ j ∈ Finset.range (n + 1), if q ≤ f j i then bandArea n g.rsphere g.dlam j else 0)
      (fun i _ => Finset.sum_nonneg fun j hj => hterm j (Nat.lt_succ_iff.1 (Finset.mem_range.1 hj)) i) (Finset.mem_range.2 hi))
    refine le_trans ?_ (Finset.single_le_sum (f := fun j => if q ≤ f j i then bandArea n g.rsphere g.dlam j else 0)
      (fun j hj => hterm j (Nat.lt_succ_iff.1 (Finset.mem_range.1 hj)) i) (Finset.mem_range.2 (Nat.lt_succ_iff.2 hj)))
    rw [if_pos hq]
  have hup : Binary64.areaAbove (n + 1) g.nlon (bandArea n g.rsphere g.dlam) f q + 2 * π * g.rsphere ^ 2 * (1 / (2 * g.nlon * n ^ 2)) ≤ 4 * π * g.rsphere ^ 2 := by
    obtain ⟨j, hj, i, hi, hq⟩ := h0
    rw [← boxes_total hg hs hn]
    unfold Binary64.areaAbove
    rw [← le_sub_iff_add_le', ← Finset.sum_sub_distrib]
    refine (hmin j hj).trans ?_
    have hdiff : ∀ i, 0 ≤ ∑ j ∈ Finset.range (n + 1), (bandArea n g.rsphere g.dlam j - if q ≤ f j i then bandArea n g.rsphere g.dlam j else 0) := by
      intro i
      refine Finset.sum_nonneg fun j hj => ?_
      have := (hpos j (Nat.lt_succ_iff.1 (Finset.mem_range.1 hj))).le
      split_ifs
      · rw [sub_self]
      · rwa [sub_zero]
    simp only [← Finset.sum_sub_distrib]
    refine le_trans ?_ (Finset.single_le_sum (f := fun i => ∑ j ∈ Finset.range (n + 1), (bandArea n g.rsphere g.dlam j - if q ≤ f j i then bandArea n g.rsphere g.dlam j else 0))
      (fun i _ => hdiff i) (Finset.mem_range.2 hi))
    refine le_trans ?_ (Finset.single_le_sum (f := fun j => bandArea n g.rsphere g.dlam j - if q ≤ f j i then bandArea n g.rsphere g.dlam j else 0)
      (fun j hj => ?_) (Finset.mem_range.2 (Nat.lt_succ_iff.2 hj)))
    · rw [if_neg (not_le.2 hq), sub_zero]
    · have := (hpos j (Nat.lt_succ_iff.1 (Finset.mem_range.1 hj))).le
      split_ifs
      · rw [sub_self]
      · rwa [sub_zero]
  generalize Binary64.areaAbove (n + 1) g.nlon (bandArea n g.rsphere g.dlam) f q = T at key hlow hup
  obtain ⟨c, hc⟩ : ∃ c, T = 2 * π * g.rsphere ^ 2 * c := ⟨T / (2 * π * g.rsphere ^ 2), by field_simp⟩
  have ec : T / (2 * π * g.rsphere ^ 2) = c := by rw [hc]; field_simp
  rw [ec] at key
  rw [hc] at hlow hup
  have c0 := le_of_mul_le_mul_left hlow hr2
  have c1 : c + 1 / (2 * g.nlon * n ^ 2) ≤ 2 := le_of_mul_le_mul_left (by linarith) hr2
  have s90 : sin (deg2rad 90) = 1 := by rw [show deg2rad 90 = π / 2 by unfold deg2rad; ring, sin_pi_div_two]
  have s270 : sin (deg2rad (-90)) = -1 := by rw [show deg2rad (-90) = -(π / 2) by unfold deg2rad; ring, sin_neg, sin_pi_div_two]
  generalize (1 : ℝ) / (2 * g.nlon * n ^ 2) = μ at *
  intro h
  rcases eq_or_eq_neg_of_abs_eq h with h | h
  · rw [h, s90] at ka; linarith
  · rw [h, s270] at ka; linarith

/-- C157: a Lipschitz field is sampled on a grid and rounded, its gridboxes, the areas in its contours, their equivalent latitudes and the
profile are computed in double precision. The result is the profile of the monotone rearrangement of the field, up to half a gridbox, the
distance of levels and rounding. -/
theorem C157_rounded (hg : g.Valid) (hw : g.nlon = 2 * n) (hs : g.resolution * g.nlon = 360) (hn : g.nlat = n + 1) (hn22 : n ≤ 2 ^ 22)
    (ht : GoodTrig sn cs) {asin : ℝ → ℝ} (hA : GoodAsin asin) (hts : t.Sums (n + 1)) (hss : s.Sums g.nlon) (hm : m = t.depth + s.depth + 11)
    (hsmall : sineError n m (1 / 2 ^ 50) + 1 / 2 ^ 49 < 1 / (4 * n ^ 3)) (hm52 : m ≤ 2 ^ 52)
    (hQ : LipschitzField Q Lx Ly) (hP : IsRearrangement Q P) {M : ℝ} (hM : ∀ x, ∀ φ ∈ latitudes, |Q x φ| ≤ M)
    {f : ℕ → ℕ → ℝ} (hf : ∀ j i, f j i = rnd (Q (g.lam i) (g.phi j))) {lo hi δl : ℝ}
    (hlo : (∀ j ≤ n, ∀ i < g.nlon, lo ≤ f j i) ∧ ∃ j ≤ n, ∃ i < g.nlon, f j i = lo)
    (hhi : (∀ j ≤ n, ∀ i < g.nlon, f j i ≤ hi) ∧ ∃ j ≤ n, ∃ i < g.nlon, f j i = hi)
    {levels : List ℝ} (hl : levels.Pairwise (· ≤ ·)) (hin : ∀ q ∈ levels, lo < q ∧ q ≤ hi)
    (hstep : (lo :: (levels ++ [hi])).IsChain fun q q' => q' - q ≤ δl) {j : ℕ} (hj : j ≤ n) :
    NearProfile P ((Lx * (2 * π / g.nlon) + Ly * (π / n)) / 2 + δl + M / 2 ^ 48) (sineError n m (1 / 2 ^ 50) + 1 / 2 ^ 48) (g.phi j)
      (Binary64.zonalize t s pi64 g.rsphere (Binary64.deg2rad (rnd (180 / n))) asin (gridBoxes sn n g.rsphere (Binary64.deg2rad (rnd (180 / n))))
        g.nlon g.nlon f lo hi levels (Binary64.lat (n + 1) j)) := by
  have hpi := pi_pos
  have h3 := hg.nlat_ge
  have hn0 : 0 < n := by omega
  have hnp : (0 : ℝ) < n := by exact_mod_cast hn0
  have hwd := dlam_nlon_eq hg hs
  have hdl : g.dlam = π / n := by
    rw [hw] at hwd
    push_cast at hwd
    field_simp
    linarith
  have hsp := C142_spacing hn0
  have hneg : Binary64.deg2rad (-rnd (180 / n : ℝ)) = -Binary64.deg2rad (rnd (180 / n : ℝ)) := by
    unfold Binary64.deg2rad; rw [neg_mul, Binary64.rnd_neg]
  have hd : |Binary64.deg2rad (rnd (180 / n : ℝ)) - g.dlam| ≤ 1 / 2 ^ 50 * g.dlam := by
    rw [hneg] at hsp
    rw [hdl, abs_sub_comm, show π / n - Binary64.deg2rad (rnd (180 / n : ℝ)) = -Binary64.deg2rad (rnd (180 / n : ℝ)) + π / n by ring]
    exact hsp
  have hd0 : 0 < Binary64.deg2rad (rnd (180 / n : ℝ)) := by
    have h1 := (abs_le.1 hd).1
    have h2 : 0 < g.dlam := dlam_pos hg
    norm_num at h1
    linarith
  have hmem : ∀ j ≤ n, g.phi j ∈ latitudes := fun j hj => phi_mem hg (by omega)
  have hMf : ∀ j ≤ n, ∀ i, |f j i| ≤ M + M / 2 ^ 53 ∧ |f j i - Q (g.lam i) (g.phi j)| ≤ M / 2 ^ 53 := by
    intro j hj i
    have h1 := hM (g.lam i) (g.phi j) (hmem j hj)
    have h2 := Binary64.rnd_rel (Q (g.lam i) (g.phi j))
    have h2' : |Q (g.lam i) (g.phi j)| / 2 ^ 53 ≤ M / 2 ^ 53 := div_le_div_of_nonneg_right h1 (by positivity)
    rw [abs_sub_comm, ← hf] at h2
    have := abs_add_le (f j i - Q (g.lam i) (g.phi j)) (Q (g.lam i) (g.phi j))
    rw [sub_add_cancel] at this
    exact ⟨by linarith, by linarith⟩
  obtain ⟨jl, hjl, il, hil, hel⟩ := hlo.2
  obtain ⟨jh, hjh, ih, hih, heh⟩ := hhi.2
  have hlh : lo ≤ hi := by rw [← heh]; exact hlo.1 jh hjh ih hih
  have hpair : (lo :: (levels ++ [hi])).Pairwise (· ≤ ·) := by
    rw [List.pairwise_cons, List.pairwise_append]
    refine ⟨fun q hq => ?_, hl, List.pairwise_singleton _ _, fun q hq q' hq' => ?_⟩
    · rcases List.mem_append.1 hq with hq | hq
      · exact (hin q hq).1.le
      · rw [List.mem_singleton.1 hq]; exact hlh
    · rw [List.mem_singleton.1 hq']; exact (hin q hq).2
  have hsmall' : sineError n m (1 / 2 ^ 50) + 1 / 2 ^ 49 < 1 / (2 * g.nlon * n ^ 2) := by
    rw [hw]
    refine lt_of_lt_of_eq hsmall ?_
    push_cast
    congr 1
    ring
  have key := C157_zonalize hg hs hQ hP hn hn22 ht hd0 hd (by norm_num) hts hss hm hm52 (e := M / 2 ^ 53)
    (fun j hj i hi => (hMf j hj i).2) hA (B := M + M / 2 ^ 53) (fun j hj i hi => ⟨hlo.1 j hj i hi, hhi.1 j hj i hi⟩)
    ⟨by rw [← hel]; exact (hMf jl hjl il).1, by rw [← heh]; exact (hMf jh hjh ih).1⟩ hpair hstep
    (fun q hq => C157_poles hg hs hn hn22 ht hd0 hd (by norm_num) hts hss hm hm52 hsmall' hA ⟨jl, hjl, il, hil, by rw [hel]; exact (hin q hq).1⟩
      ⟨jh, hjh, ih, hih, by rw [heh]; exact (hin q hq).2⟩) hj
  have hM0 : 0 ≤ M := (abs_nonneg _).trans (hM 0 (g.phi 0) (hmem 0 (by omega)))
  have hse : sampleError g Lx Ly = (Lx * (2 * π / g.nlon) + Ly * (π / n)) / 2 := by
    unfold sampleError lonStep latStep
    rw [hn]
    push_cast
    rw [add_sub_cancel_right]
  intro φ hφ
  obtain ⟨k0, k1⟩ := key φ hφ
  rw [hse] at k0 k1
  have hb : M / 2 ^ 53 + 3 * (M + M / 2 ^ 53) / 2 ^ 50 ≤ M / 2 ^ 48 := by
    have e1 : M / 2 ^ 53 + 3 * (M + M / 2 ^ 53) / 2 ^ 50 = M * (1 / 2 ^ 53 + 3 * (1 + 1 / 2 ^ 53) / 2 ^ 50) := by ring
    rw [e1, div_eq_mul_inv]
    exact mul_le_mul_of_nonneg_left (by norm_num) hM0
  exact ⟨fun h => by have := k0 h; linarith, fun h => by have := k1 h; linarith⟩

end

/-! ### Non-vacuity -/

/-- An arc sine -/
theorem goodAsin_exists : GoodAsin fun s => max (-rnd (pi64 / 2)) (min (rnd (pi64 / 2)) (arcsin s)) := by
  have hh : rnd (pi64 / 2 : ℝ) = pi64 / 2 := by
    exact Binary64.rnd_double ⟨884279719003555, -49, by norm_num, by unfold pi64; norm_num⟩
  have hp := abs_le.1 pi64_close
  have h2 : pi64 ≤ π := by
    have := pi_gt_d20
    unfold pi64
    norm_num at this ⊢
    linarith
  have hpos : (0 : ℝ) ≤ pi64 := by unfold pi64; norm_num
  rw [hh]
  refine ⟨fun s s' _ h _ => max_le_max le_rfl (min_le_min le_rfl (monotone_arcsin h)), ?_, ?_, fun s h0 h1 => ?_⟩
  · rw [hh, arcsin_one, min_eq_left (by linarith), max_eq_right (by linarith)]
  · rw [hh, arcsin_neg_one, min_eq_right (by linarith), max_eq_left (by linarith)]
  · have a0 := neg_pi_div_two_le_arcsin s
    have a1 := arcsin_le_pi_div_two s
    rw [abs_le]
    rcases le_total (pi64 / 2) (arcsin s) with h | h
    · rw [min_eq_left h, max_eq_right (by linarith)]
      constructor <;> linarith
    · rw [min_eq_right h]
      rcases le_total (arcsin s) (-(pi64 / 2)) with h' | h'
      · rw [max_eq_left h']; constructor <;> linarith
      · rw [max_eq_right h']; constructor <;> linarith

/-- On a grid of a quarter of a degree, all roundings together move the sine of equivalent latitudes by less than `10⁻¹⁰` and contours around
a single gridbox are not mistaken for a pole. -/
example : sineError 720 50 (1 / 2 ^ 50) + 1 / 2 ^ 48 ≤ 1 / 10 ^ 10 ∧ sineError 720 50 (1 / 2 ^ 50) + 1 / 2 ^ 49 < 1 / (4 * (720 : ℕ) ^ 3) := by
  unfold sineError
  norm_num

/-- Summation in the order of the terms -/
private def inOrder : ℕ → SumTree
  | 0 => .leaf 0
  | k + 1 => .node (inOrder k) (.leaf (k + 1))

/-- A field that is arranged already and one contour, on a grid of 30 degrees -/
example {j : ℕ} (hj : j ≤ 6) :
    NearProfile sin (π / 12 + 1 + 1 / 2 ^ 48) (sineError 6 28 (1 / 2 ^ 50) + 1 / 2 ^ 48) (grid30.phi j)
      (Binary64.zonalize (inOrder 6) (inOrder 11) pi64 grid30.rsphere (Binary64.deg2rad (rnd (180 / 6)))
        (fun s => max (-rnd (pi64 / 2)) (min (rnd (pi64 / 2)) (arcsin s)))
        (gridBoxes sin 6 grid30.rsphere (Binary64.deg2rad (rnd (180 / 6)))) 12 12 (fun j _ => rnd (sin (grid30.phi j))) (-1) 1 [0] (Binary64.lat 7 j)) := by
  have hone : rnd (1 : ℝ) = 1 := Binary64.rnd_double ⟨1, 0, by norm_num, by norm_num⟩
  have hmone : rnd (-1 : ℝ) = -1 := by rw [Binary64.rnd_neg, hone]
  have h := C157_rounded (g := grid30) (n := 6) (m := 28) (t := inOrder 6) (s := inOrder 11) (sn := sin) (cs := cos) (Lx := 0) (Ly := 1) (M := 1)
    (Q := fun _ φ => sin φ) (P := sin) (f := fun j _ => rnd (sin (grid30.phi j))) (lo := -1) (hi := 1) (δl := 1) (levels := [0])
    grid30_valid (by rw [grid30_nlon]) grid30_spacing grid30_nlat (by norm_num) ⟨fun x => by simp, fun x => by simp⟩ goodAsin_exists
    (List.Perm.refl _) (by rw [grid30_nlon]; exact List.Perm.refl _) rfl (by unfold sineError; norm_num) (by norm_num)
    { periodic := fun x φ _ => rfl, lon := fun x x' φ _ => by simp, lat := fun x φ _ φ' _ => by simpa using abs_sin_sub_sin_le φ φ' }
    ⟨continuous_sin.continuousOn, strictMonoOn_sin.monotoneOn, fun _ => rfl⟩ (fun x φ _ => abs_sin_le_one φ) (fun _ _ => rfl)
    ⟨fun j _ i _ => by rw [← hmone]; exact Binary64.rnd_mono (neg_one_le_sin _),
      6, le_rfl, 0, by rw [grid30_nlon]; norm_num, by
        rw [show grid30.phi 6 = -(π / 2) by have := phi_last grid30_valid; rwa [grid30_nlat] at this, sin_neg, sin_pi_div_two, hmone]⟩
    ⟨fun j _ i _ => (Binary64.rnd_mono (sin_le_one _)).trans hone.le,
      0, by norm_num, 0, by rw [grid30_nlon]; norm_num, by rw [phi_zero grid30_valid, sin_pi_div_two, hone]⟩
    (List.pairwise_singleton _ _) (by simp) (by simp) hj
  rw [grid30_nlon] at h
  refine fun φ hφ => ⟨fun hx => ?_, fun hx => ?_⟩
  · have := (h φ hφ).1 hx
    push_cast at this
    linarith
  · have := (h φ hφ).2 hx
    push_cast at this
    linarith

end Barotropic
