import Verif.Lemmas.SmallAmplitude
import Verif.Lemmas.RearrangeStable
import Mathlib.Algebra.Order.ToIntervalMod

/-!
# Rearrangement and wave activity of waves of small amplitude
-/

namespace Barotropic
open Real Set MeasureTheory Filter Topology
open scoped Classical

variable {B B' : ℝ → ℝ} {L : ℝ} {η : ℝ → ℝ → ℝ} {Lx Ly : ℝ} {Q : ℝ → ℝ → ℝ}

theorem meridAbove_north {y : ℝ} (hy : y ∈ latitudes) : meridAbove (fun _ φ => φ) y 0 = 1 - sin y := by
  rw [split_profile (P := fun φ => φ) continuousOn_id y hy]
  have h1 : ∫ ψ in -(π / 2)..y, above (fun _ φ => φ) y 0 ψ = ∫ ψ in -(π / 2)..y, (0 : ℝ) := by
    refine intervalIntegral.integral_congr_uIoo fun ψ hψ => ?_
    rw [uIoo_of_le hy.1] at hψ
    unfold above
    rw [if_neg (not_le.2 hψ.2), zero_mul]
  have h2 : ∫ ψ in y..π / 2, above (fun _ φ => φ) y 0 ψ = ∫ ψ in y..π / 2, cos ψ := by
    refine intervalIntegral.integral_congr_uIoo fun ψ hψ => ?_
    rw [uIoo_of_le hy.2] at hψ
    unfold above
    rw [if_pos hψ.1.le, one_mul]
  rw [h1, h2, intervalIntegral.integral_zero, integral_cos_lat, zero_add]

/-- The area above a contour is the derivative of the displaced deviations. -/
theorem displaced_slope (hQ : ContField Q) {q q' x y : ℝ} (h : q ≤ q') (hy : y ∈ latitudes) :
    (q' - q) * (meridAbove Q q' x - (1 - sin y)) ≤ displaced Q q x y - displaced Q q' x y ∧
      displaced Q q x y - displaced Q q' x y ≤ (q' - q) * (meridAbove Q q x - (1 - sin y)) := by
  have hN := above_integrable (contField_of_profile (P := fun φ => φ) continuousOn_id) y 0 le_rfl poles_le le_rfl
  have hA := fun c => above_integrable hQ c x le_rfl poles_le le_rfl
  have e1 : ∀ c, (q' - q) * (meridAbove Q c x - (1 - sin y)) =
      ∫ φ in -(π / 2)..π / 2, (q' - q) * (above Q c x φ - above (fun _ φ => φ) y 0 φ) := fun c => by
    rw [intervalIntegral.integral_const_mul, intervalIntegral.integral_sub (hA c) hN, ← meridAbove_north hy]
    rfl
  have e2 : displaced Q q x y - displaced Q q' x y =
      ∫ φ in -(π / 2)..π / 2, (crossed (Q x φ - q) (y ≤ φ) * cos φ - crossed (Q x φ - q') (y ≤ φ) * cos φ) := by
    rw [intervalIntegral.integral_sub (crossed_integrable hQ _ _ _) (crossed_integrable hQ _ _ _), displaced_eq, displaced_eq]
  rw [e1, e1, e2]
  have i1 := (crossed_integrable hQ q x y).sub (crossed_integrable hQ q' x y)
  have i2 := fun c => ((hA c).sub hN).const_mul (q' - q)
  constructor
  · refine intervalIntegral.integral_mono_on poles_le (i2 q') i1 fun φ hφ => ?_
    have hc := cos_lat hφ
    unfold above crossed
    rw [← sub_mul, ← sub_mul, ← mul_assoc]
    refine mul_le_mul_of_nonneg_right ?_ hc
    by_cases hb : y ≤ φ <;> by_cases h1 : q ≤ Q x φ <;> by_cases h2 : q' ≤ Q x φ <;> simp [hb, h1, h2] <;> linarith
  · refine intervalIntegral.integral_mono_on poles_le i1 (i2 q) fun φ hφ => ?_
    have hc := cos_lat hφ
    unfold above crossed
    rw [← sub_mul, ← sub_mul, ← mul_assoc]
    refine mul_le_mul_of_nonneg_right ?_ hc
    by_cases hb : y ≤ φ <;> by_cases h1 : q ≤ Q x φ <;> by_cases h2 : q' ≤ Q x φ <;> simp [hb, h1, h2] <;> linarith

theorem LipschitzField.bounded (hη : LipschitzField η Lx Ly) : ∃ M, 0 ≤ M ∧ ∀ x, ∀ φ ∈ latitudes, |η x φ| ≤ M := by
  have hK : IsCompact (Icc (0 : ℝ) (2 * π) ×ˢ latitudes) := isCompact_Icc.prod isCompact_Icc
  obtain ⟨M, hM⟩ := hK.exists_bound_of_continuousOn (hη.cont.mono fun p hp => ⟨mem_univ _, hp.2⟩)
  have hp := two_pi_pos
  refine ⟨|M|, abs_nonneg _, fun x φ hφ => ?_⟩
  have hper : Function.Periodic (fun x => η x φ) (2 * π) := fun x => hη.periodic x φ hφ
  obtain ⟨x', hx', e⟩ := hper.exists_mem_Ico₀ hp x
  have := hM (x', φ) ⟨⟨hx'.1, hx'.2.le⟩, hφ⟩
  dsimp only at e this
  rw [e]
  exact this.trans (le_abs_self M)

theorem LipschitzField.withWave (hB : BasicState B B' L) (hη : LipschitzField η Lx Ly) {ε : ℝ} (hε : 0 ≤ ε) :
    LipschitzField (withWave B η ε) (ε * Lx) (L + ε * Ly) where
  periodic x φ hφ := by unfold Barotropic.withWave; rw [hη.periodic x φ hφ]
  lon x x' φ hφ := by
    unfold Barotropic.withWave
    rw [show B φ + ε * η x φ - (B φ + ε * η x' φ) = ε * (η x φ - η x' φ) by ring, abs_mul, abs_of_nonneg hε, mul_assoc]
    exact mul_le_mul_of_nonneg_left (hη.lon x x' φ hφ) hε
  lat x φ hφ φ' hφ' := by
    unfold Barotropic.withWave
    rw [show B φ + ε * η x φ - (B φ' + ε * η x φ') = (B φ - B φ') + ε * (η x φ - η x φ') by ring]
    refine (abs_add_le _ _).trans ?_
    rw [abs_mul, abs_of_nonneg hε, add_mul, mul_assoc]
    exact add_le_add (hB.lip φ hφ φ' hφ') (mul_le_mul_of_nonneg_left (hη.lat x φ hφ φ' hφ') hε)

theorem LipschitzField.continuous_lon (hη : LipschitzField η Lx Ly) {φ : ℝ} (hφ : φ ∈ latitudes) : Continuous fun x => η x φ :=
  LipschitzWith.continuous (K := ⟨Lx, hη.nonneg.1⟩) (LipschitzWith.of_dist_le_mul fun x x' => by
    rw [Real.dist_eq, Real.dist_eq]; exact hη.lon x x' φ hφ)

theorem circleMean_le (hη : LipschitzField η Lx Ly) {M φ : ℝ} (hφ : φ ∈ latitudes) (hM : ∀ x, ∀ φ ∈ latitudes, |η x φ| ≤ M) : |circleMean η φ| ≤ M := by
  have hp := two_pi_pos
  unfold circleMean
  rw [abs_div, abs_of_pos hp, div_le_iff₀ hp]
  have := intervalIntegral.norm_integral_le_of_norm_le_const (a := 0) (b := 2 * π) (C := M) (f := fun x => η x φ) fun x _ => hM x φ hφ
  rwa [Real.norm_eq_abs, sub_zero, abs_of_pos hp] at this

theorem integral_square_diff (hη : LipschitzField η Lx Ly) {φ : ℝ} (hφ : φ ∈ latitudes) (w c d : ℝ) :
    ∫ x in (0 : ℝ)..2 * π, (w * (η x φ - c) ^ 2 - w * (η x φ - (c + d)) ^ 2) = w * d * (2 * π) * (2 * circleMean η φ - 2 * c - d) := by
  have hp := two_pi_pos
  have hi : IntervalIntegrable (fun x => η x φ) volume 0 (2 * π) := (hη.continuous_lon hφ).intervalIntegrable _ _
  have e : (fun x => w * (η x φ - c) ^ 2 - w * (η x φ - (c + d)) ^ 2) = fun x => w * d * 2 * η x φ + w * d * (-2 * c - d) := by
    funext x; ring
  rw [e, intervalIntegral.integral_add (hi.const_mul _) intervalIntegrable_const, intervalIntegral.integral_const_mul, intervalIntegral.integral_const,
    smul_eq_mul]
  unfold circleMean
  field_simp
  ring

/-- difference of the areas above a contour in a wave and in the basic state -/
theorem area_slope (hB : BasicState B B' L) (hη : LipschitzField η Lx Ly) {ε y c d τ w : ℝ} (hε : 0 < ε) (hd : 0 < d) (hy : y ∈ latitudes)
    (h : ∀ x ∈ Icc 0 (2 * π), |displaced (withWave B η ε) (B y + ε * c) x y / ε ^ 2 - w * (η x y - c) ^ 2| ≤ τ)
    (h' : ∀ x ∈ Icc 0 (2 * π), |displaced (withWave B η ε) (B y + ε * (c + d)) x y / ε ^ 2 - w * (η x y - (c + d)) ^ 2| ≤ τ) :
    d * (areaAbove (withWave B η ε) (B y + ε * (c + d)) - 2 * π * (1 - sin y)) ≤ ε * (w * d * (2 * π) * (2 * circleMean η y - 2 * c - d) + 4 * π * τ) ∧
      ε * (w * d * (2 * π) * (2 * circleMean η y - 2 * c - d) - 4 * π * τ) ≤ d * (areaAbove (withWave B η ε) (B y + ε * c) - 2 * π * (1 - sin y)) := by
  have hp := two_pi_pos
  have hQ := hη.withWave hB hε.le
  have hlt : B y + ε * c ≤ B y + ε * (c + d) := by nlinarith
  have hsl := fun x => displaced_slope hQ.cont (x := x) hlt hy
  have hdd : B y + ε * (c + d) - (B y + ε * c) = ε * d := by ring
  rw [hdd] at hsl
  have earea : ∀ q, areaAbove (withWave B η ε) q - 2 * π * (1 - sin y) = ∫ x in (0 : ℝ)..2 * π, (meridAbove (withWave B η ε) q x - (1 - sin y)) := by
    intro q
    rw [intervalIntegral.integral_sub (meridAbove_integrable hQ.cont _ _ _) intervalIntegrable_const, areaAbove_eq, intervalIntegral.integral_const]
    simp
  have iM : ∀ q, IntervalIntegrable (fun x => ε * d * (meridAbove (withWave B η ε) q x - (1 - sin y))) volume 0 (2 * π) := fun q =>
    ((meridAbove_integrable hQ.cont _ _ _).sub intervalIntegrable_const).const_mul _
  have hw : Continuous fun x => w * (η x y - c) ^ 2 - w * (η x y - (c + d)) ^ 2 := by
    have := hη.continuous_lon hy
    fun_prop
  have iS : ∀ t : ℝ, IntervalIntegrable (fun x => ε ^ 2 * (w * (η x y - c) ^ 2 - w * (η x y - (c + d)) ^ 2 + t)) volume 0 (2 * π) := fun t =>
    (continuous_const.mul (hw.add continuous_const)).intervalIntegrable _ _
  have eS : ∀ t : ℝ, ∫ x in (0 : ℝ)..2 * π, ε ^ 2 * (w * (η x y - c) ^ 2 - w * (η x y - (c + d)) ^ 2 + t) =
      ε ^ 2 * (w * d * (2 * π) * (2 * circleMean η y - 2 * c - d) + 2 * π * t) := by
    intro t
    rw [intervalIntegral.integral_const_mul, intervalIntegral.integral_add (hw.intervalIntegrable _ _) intervalIntegrable_const,
      integral_square_diff hη hy, intervalIntegral.integral_const]
    simp
  have hmul : ∀ q x, x ∈ Icc 0 (2 * π) → ∀ z, |displaced (withWave B η ε) q x y / ε ^ 2 - z| ≤ τ →
      ε ^ 2 * (z - τ) ≤ displaced (withWave B η ε) q x y ∧ displaced (withWave B η ε) q x y ≤ ε ^ 2 * (z + τ) := by
    intro q x _ z hz
    have he2 : 0 < ε ^ 2 := by positivity
    obtain ⟨z1, z2⟩ := abs_le.1 hz
    have e : displaced (withWave B η ε) q x y = ε ^ 2 * (displaced (withWave B η ε) q x y / ε ^ 2) := by field_simp
    rw [e]
    exact ⟨mul_le_mul_of_nonneg_left (by linarith) he2.le, mul_le_mul_of_nonneg_left (by linarith) he2.le⟩
  constructor
  · have h1 := intervalIntegral.integral_mono_on hp.le (iM (B y + ε * (c + d))) (iS (2 * τ)) fun x hx => by
      have a1 := (hmul _ x hx _ (h x hx)).2
      have a2 := (hmul _ x hx _ (h' x hx)).1
      have a3 := (hsl x).1
      refine a3.trans ?_
      linarith
    rw [eS, intervalIntegral.integral_const_mul, ← earea] at h1
    refine le_of_mul_le_mul_left ?_ hε
    linarith
  · have h1 := intervalIntegral.integral_mono_on hp.le (iS (-(2 * τ))) (iM (B y + ε * c)) fun x hx => by
      have a1 := (hmul _ x hx _ (h x hx)).1
      have a2 := (hmul _ x hx _ (h' x hx)).2
      have a3 := (hsl x).2
      refine le_trans ?_ a3
      linarith
    rw [eS, intervalIntegral.integral_const_mul, ← earea] at h1
    refine le_of_mul_le_mul_left ?_ hε
    linarith

/-- To first order, the rearranged profile is the zonal mean. -/
theorem rearrangement_small (hB : BasicState B B' L) (hη : LipschitzField η Lx Ly) {φ0 τ : ℝ} (h0 : 0 ≤ φ0) (h1 : φ0 < π / 2) (hτ : 0 < τ) :
    ∃ ε0 > 0, ∀ ε, 0 < ε → ε < ε0 → ∀ P, IsRearrangement (withWave B η ε) P → ∀ y ∈ Icc (-φ0) φ0, |P y - (B y + ε * circleMean η y)| ≤ ε * τ := by
  have hp := pi_pos
  obtain ⟨M, hM0, hM⟩ := hη.bounded
  have hsub : Icc (-φ0) φ0 ⊆ interior := fun y hy => ⟨by linarith [hy.1], by linarith [hy.2]⟩
  have hcont : ContinuousOn (fun y => cos y / (2 * B' y)) (Icc (-φ0) φ0) :=
    continuous_cos.continuousOn.div (continuousOn_const.mul (hB.gradient.mono hsub)) fun y hy => by have := hB.pos y (hsub hy); positivity
  obtain ⟨m, hm, hmin⟩ := (isCompact_Icc (a := -φ0) (b := φ0)).exists_isMinOn ⟨0, by constructor <;> linarith⟩ hcont
  obtain ⟨w0, hw0⟩ : ∃ w0, w0 = cos m / (2 * B' m) := ⟨_, rfl⟩
  have hw0p : 0 < w0 := by
    rw [hw0]
    have := hB.pos m (hsub hm)
    have := cos_pos_of_mem_Ioo (hsub hm)
    positivity
  obtain ⟨ε0, hε0, H⟩ := displaced_uniform hB hη.cont hM h1 (M + τ) (τ := w0 * τ ^ 2 / 4) (by positivity)
  refine ⟨ε0, hε0, fun ε hε hlt P hP y hy => ?_⟩
  have hyl : y ∈ latitudes := ⟨(hsub hy).1.le, (hsub hy).2.le⟩
  obtain ⟨w, hw⟩ : ∃ w, w = cos y / (2 * B' y) := ⟨_, rfl⟩
  have hw1 : w0 ≤ w := by rw [hw0, hw]; exact hmin hy
  obtain ⟨a, ha⟩ : ∃ a, a = circleMean η y := ⟨_, rfl⟩
  have hmean := abs_le.1 (circleMean_le hη hyl hM)
  rw [← ha] at hmean ⊢
  have H' : ∀ c, |c - a| ≤ τ → ∀ x ∈ Icc 0 (2 * π), |displaced (withWave B η ε) (B y + ε * c) x y / ε ^ 2 - w * (η x y - c) ^ 2| ≤ w0 * τ ^ 2 / 4 := by
    intro c hc x hx
    rw [abs_le] at hc
    have := H ε hε hlt x hx y hy c ⟨by linarith [hc.1, hmean.1], by linarith [hc.2, hmean.2]⟩
    rw [hw]
    convert this using 3
    ring
  have hwτ : w0 * τ ^ 2 ≤ w * τ ^ 2 := mul_le_mul_of_nonneg_right hw1 (by positivity)
  have hwp : 0 < w0 * τ ^ 2 := by positivity
  have hpos : 0 < 2 * π * (w * τ ^ 2 * (3 / 4)) - 4 * π * (w0 * τ ^ 2 / 4) := by nlinarith
  rw [abs_le]
  constructor
  · -- the contour `a - τ`
    by_contra hn
    rw [not_le] at hn
    have hs := (area_slope hB hη (ε := ε) (y := y) (c := a - τ) (d := τ / 2) (w := w) hε (by positivity) hyl
      (H' _ (by rw [show a - τ - a = -τ by ring, abs_neg, abs_of_pos hτ]))
      (H' _ (by rw [show a - τ + τ / 2 - a = -(τ / 2) by ring, abs_neg, abs_of_pos (by positivity)]; linarith))).2
    have hA := area_profile_le hP.continuous hP.increasing hyl (c := B y + ε * (a - τ)) (by linarith)
    rw [← hP.area] at hA
    rw [← ha] at hs
    have e : w * (τ / 2) * (2 * π) * (2 * a - 2 * (a - τ) - τ / 2) - 4 * π * (w0 * τ ^ 2 / 4) =
        2 * π * (w * τ ^ 2 * (3 / 4)) - 4 * π * (w0 * τ ^ 2 / 4) := by ring
    rw [e] at hs
    have := mul_pos hε hpos
    have h3 : τ / 2 * (areaAbove (withWave B η ε) (B y + ε * (a - τ)) - 2 * π * (1 - sin y)) ≤ 0 :=
      mul_nonpos_of_nonneg_of_nonpos (by positivity) (by linarith)
    linarith
  · by_contra hn
    rw [not_le] at hn
    have hs := (area_slope hB hη (ε := ε) (y := y) (c := a + τ / 2) (d := τ / 2) (w := w) hε (by positivity) hyl
      (H' _ (by rw [show a + τ / 2 - a = τ / 2 by ring, abs_of_pos (by positivity)]; linarith))
      (H' _ (by rw [show a + τ / 2 + τ / 2 - a = τ by ring, abs_of_pos hτ]))).1
    have hA := area_profile_ge hP.continuous hP.increasing hyl (c := B y + ε * (a + τ / 2 + τ / 2)) (by linarith)
    rw [← hP.area] at hA
    rw [← ha] at hs
    have e : w * (τ / 2) * (2 * π) * (2 * a - 2 * (a + τ / 2) - τ / 2) + 4 * π * (w0 * τ ^ 2 / 4) =
        -(2 * π * (w * τ ^ 2 * (3 / 4)) - 4 * π * (w0 * τ ^ 2 / 4)) := by ring
    rw [e] at hs
    have := mul_pos hε hpos
    have h3 : 0 ≤ τ / 2 * (areaAbove (withWave B η ε) (B y + ε * (a + τ / 2 + τ / 2)) - 2 * π * (1 - sin y)) :=
      mul_nonneg (by positivity) (by linarith)
    linarith

/-- To second order, local wave activity is the pseudomomentum. -/
theorem localWaveActivity_small (hB : BasicState B B' L) (hη : LipschitzField η Lx Ly) {r φ0 τ : ℝ} (hr : 0 < r) (h0 : 0 ≤ φ0) (h1 : φ0 < π / 2)
    (hτ : 0 < τ) :
    ∃ ε0 > 0, ∀ ε, 0 < ε → ε < ε0 → ∀ P, IsRearrangement (withWave B η ε) P → ∀ y ∈ Icc (-φ0) φ0, ∀ x,
      |localWaveActivity r (withWave B η ε) P x y - ε ^ 2 * pseudomomentum r B' η x y| ≤ ε ^ 2 * τ := by
  have hp := pi_pos
  obtain ⟨M, hM0, hM⟩ := hη.bounded
  obtain ⟨κ, hκ, hsep⟩ := hB.separates h0 h1
  have hc0 : 0 < cos φ0 := cos_pos_of_mem_Ioo ⟨by linarith, h1⟩
  obtain ⟨t, ht⟩ : ∃ t, t = min 1 (τ * κ / (r * (4 * M + 2))) := ⟨_, rfl⟩
  have ht0 : 0 < t := by rw [ht]; exact lt_min one_pos (by positivity)
  have ht1 : t ≤ 1 := by rw [ht]; exact min_le_left _ _
  have ht2 : t ≤ τ * κ / (r * (4 * M + 2)) := by rw [ht]; exact min_le_right _ _
  obtain ⟨ε1, hε1, H1⟩ := displaced_uniform hB hη.cont hM h1 (M + 1) (τ := τ * cos φ0 / (2 * r)) (by positivity)
  obtain ⟨ε2, hε2, H2⟩ := rearrangement_small hB hη h0 h1 ht0
  refine ⟨min ε1 ε2, lt_min hε1 hε2, fun ε hε hlt P hP y hy x0 => ?_⟩
  have hyi : y ∈ interior := ⟨by linarith [hy.1], by linarith [hy.2]⟩
  have hyl : y ∈ latitudes := ⟨hyi.1.le, hyi.2.le⟩
  -- a longitude of the first revolution
  obtain ⟨x, hx, ex⟩ : ∃ x ∈ Icc 0 (2 * π), ∀ φ ∈ latitudes, η x0 φ = η x φ := by
    refine ⟨toIcoMod two_pi_pos 0 x0, ?_, fun φ hφ => ?_⟩
    · have := toIcoMod_mem_Ico two_pi_pos 0 x0
      exact ⟨this.1, by linarith [this.2]⟩
    · have hper : Function.Periodic (fun x => η x φ) (2 * π) := fun x => hη.periodic x φ hφ
      exact (hper.sub_zsmul_eq (toIcoDiv two_pi_pos 0 x0)).symm
  have eL : localWaveActivity r (withWave B η ε) P x0 y = localWaveActivity r (withWave B η ε) P x y := by
    unfold localWaveActivity displaced
    congr 1
    refine intervalIntegral.integral_congr fun φ hφ => ?_
    rw [uIcc_of_le poles_le] at hφ
    have : withWave B η ε x0 φ = withWave B η ε x φ := by unfold withWave; rw [ex φ hφ]
    simp only [this]
  have eP : pseudomomentum r B' η x0 y = pseudomomentum r B' η x y := by unfold pseudomomentum; rw [ex y hyl]
  rw [eL, eP]
  obtain ⟨c, hc⟩ : ∃ c, c = (P y - B y) / ε := ⟨_, rfl⟩
  have hPc : P y = B y + ε * c := by rw [hc]; field_simp; ring
  have hcm : |c - circleMean η y| ≤ t := by
    have := H2 ε hε (hlt.trans_le (min_le_right _ _)) P hP y hy
    rw [hPc, show B y + ε * c - (B y + ε * circleMean η y) = ε * (c - circleMean η y) by ring, abs_mul, abs_of_pos hε] at this
    exact le_of_mul_le_mul_left this hε
  have hmean := circleMean_le hη hyl hM
  have hcM : |c| ≤ M + 1 := by
    have := abs_add_le (c - circleMean η y) (circleMean η y)
    rw [sub_add_cancel] at this
    linarith
  have hd := H1 ε hε (hlt.trans_le (min_le_left _ _)) x hx y hy c (abs_le.1 hcM)
  rw [← hPc] at hd
  have hcy : cos φ0 ≤ cos y := by
    rw [← cos_abs y]
    exact cos_le_cos_of_nonneg_of_le_pi (abs_nonneg _) (by linarith) (abs_le.2 hy)
  have hcy0 : 0 < cos y := hc0.trans_le hcy
  have hγ := (hsep y hy).1
  have hγ0 : 0 < B' y := hκ.trans_le hγ
  unfold localWaveActivity pseudomomentum
  have e1 : r / cos y * displaced (withWave B η ε) (P y) x y - ε ^ 2 * (r * (η x y - circleMean η y) ^ 2 / (2 * B' y)) =
      ε ^ 2 * (r / cos y * (displaced (withWave B η ε) (P y) x y / ε ^ 2 - cos y * ((η x y - c) ^ 2 / (2 * B' y))) +
        r / (2 * B' y) * ((η x y - c) ^ 2 - (η x y - circleMean η y) ^ 2)) := by
    field_simp
    ring
  rw [e1, abs_mul, abs_of_pos (by positivity : 0 < ε ^ 2)]
  refine mul_le_mul_of_nonneg_left ?_ (by positivity)
  refine (abs_add_le _ _).trans ?_
  have b1 : |r / cos y * (displaced (withWave B η ε) (P y) x y / ε ^ 2 - cos y * ((η x y - c) ^ 2 / (2 * B' y)))| ≤ τ / 2 := by
    rw [abs_mul, abs_of_pos (by positivity : 0 < r / cos y)]
    have h3 : r / cos y ≤ r / cos φ0 := div_le_div_of_nonneg_left hr.le hc0 hcy
    refine (mul_le_mul h3 hd (abs_nonneg _) (by positivity)).trans (le_of_eq ?_)
    field_simp
  have b2 : |r / (2 * B' y) * ((η x y - c) ^ 2 - (η x y - circleMean η y) ^ 2)| ≤ τ / 2 := by
    rw [show (η x y - c) ^ 2 - (η x y - circleMean η y) ^ 2 = -((c - circleMean η y) * (2 * η x y - c - circleMean η y)) by ring, abs_mul,
      abs_of_pos (by positivity : 0 < r / (2 * B' y)), abs_neg, abs_mul]
    have h4 : |2 * η x y - c - circleMean η y| ≤ 4 * M + 1 := by
      have hηb := abs_le.1 (hM x y hyl)
      have hmb := abs_le.1 hmean
      have hcb := abs_le.1 hcM
      rw [abs_le]
      constructor <;> linarith [hηb.1, hηb.2, hmb.1, hmb.2, hcb.1, hcb.2]
    have h5 : r / (2 * B' y) ≤ r / (2 * κ) := div_le_div_of_nonneg_left hr.le (by positivity) (by linarith)
    have h6 : |c - circleMean η y| * |2 * η x y - c - circleMean η y| ≤ τ * κ / (r * (4 * M + 2)) * (4 * M + 2) :=
      mul_le_mul (hcm.trans ht2) (by linarith) (abs_nonneg _) (by positivity)
    refine (mul_le_mul h5 h6 (by positivity) (by positivity)).trans (le_of_eq ?_)
    field_simp
  linarith

theorem waveActivity_small (hB : BasicState B B' L) (hη : LipschitzField η Lx Ly) {r φ0 τ : ℝ} (hr : 0 < r) (h0 : 0 ≤ φ0) (h1 : φ0 < π / 2)
    (hτ : 0 < τ) :
    ∃ ε0 > 0, ∀ ε, 0 < ε → ε < ε0 → ∀ P, IsRearrangement (withWave B η ε) P → ∀ y ∈ Icc (-φ0) φ0,
      |waveActivity r (withWave B η ε) P y - ε ^ 2 * circleMean (pseudomomentum r B' η) y| ≤ ε ^ 2 * τ := by
  have hp := two_pi_pos
  obtain ⟨ε0, hε0, H⟩ := localWaveActivity_small hB hη hr h0 h1 hτ
  refine ⟨ε0, hε0, fun ε hε hlt P hP y hy => ?_⟩
  have hyl : y ∈ latitudes := ⟨by linarith [hy.1], by linarith [hy.2]⟩
  have i1 : IntervalIntegrable (fun x => localWaveActivity r (withWave B η ε) P x y) volume 0 (2 * π) :=
    (continuous_const.mul (displaced_continuous (hη.withWave hB hε.le) (P y) y)).intervalIntegrable _ _
  have i2 : IntervalIntegrable (fun x => ε ^ 2 * pseudomomentum r B' η x y) volume 0 (2 * π) := by
    have := hη.continuous_lon hyl
    unfold pseudomomentum
    exact Continuous.intervalIntegrable (by fun_prop) _ _
  unfold waveActivity circleMean
  rw [mul_div_assoc', ← intervalIntegral.integral_const_mul, ← sub_div, ← intervalIntegral.integral_sub i1 i2, abs_div, abs_of_pos hp, div_le_iff₀ hp]
  have := intervalIntegral.norm_integral_le_of_norm_le_const (a := 0) (b := 2 * π) (C := ε ^ 2 * τ)
    (f := fun x => localWaveActivity r (withWave B η ε) P x y - ε ^ 2 * pseudomomentum r B' η x y) fun x _ => H ε hε hlt P hP y hy x
  rwa [Real.norm_eq_abs, sub_zero, abs_of_pos hp] at this

end Barotropic
