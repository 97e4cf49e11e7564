import Verif.Props.Waves
import Verif.Spec.DampedWaves
import Mathlib.Analysis.Complex.Polynomial.Basic

/-!
# Stability of integrations with relaxation and diffusion: C148
-/

namespace Barotropic
open Complex

/-! ## Linear recurrences of second order -/

/-- Criterion of Schur and Cohn for the roots of a quadratic polynomial -/
theorem schur_cohn (l1 l2 : ℂ) :
    (1 - normSq (l1 * l2)) ^ 2 - normSq (-(l1 + l2) - (starRingEnd ℂ) (-(l1 + l2)) * (l1 * l2)) =
      (1 - normSq l1) * (1 - normSq l2) * normSq (1 - l1 * (starRingEnd ℂ) l2) := by
  obtain ⟨a, b⟩ := l1
  obtain ⟨c, d⟩ := l2
  simp only [normSq_apply, mul_re, mul_im, add_re, add_im, sub_re, sub_im, neg_re, neg_im, one_re, one_im, conj_re, conj_im]
  ring

theorem exists_roots (b c : ℂ) : ∃ l1 l2 : ℂ, l1 + l2 = -b ∧ l1 * l2 = c := by
  obtain ⟨σ, hσ⟩ := IsAlgClosed.exists_pow_nat_eq (b ^ 2 / 4 - c) (n := 2) (by norm_num)
  refine ⟨-b / 2 + σ, -b / 2 - σ, by ring, ?_⟩
  linear_combination -hσ

theorem recurrence_first {z : ℕ → ℂ} {l1 l2 : ℂ} (h : ∀ j, z (j + 2) = (l1 + l2) * z (j + 1) - l1 * l2 * z j) (j : ℕ) :
    z (j + 1) - l2 * z j = l1 ^ j * (z 1 - l2 * z 0) := by
  induction j with
  | zero => simp
  | succ j ih =>
    rw [h j, pow_succ']
    linear_combination l1 * ih

theorem recurrence_stable {z : ℕ → ℂ} {l1 l2 : ℂ} (h : ∀ j, z (j + 2) = (l1 + l2) * z (j + 1) - l1 * l2 * z j) (h1 : ‖l1‖ < 1) (h2 : ‖l2‖ < 1) :
    ∃ C r : ℝ, 0 ≤ C ∧ 0 < r ∧ r < 1 ∧ ∀ j, ‖z j‖ ≤ C * r ^ j := by
  obtain ⟨r, hr1, hr2⟩ := exists_between (max_lt h1 h2)
  have hl1 : ‖l1‖ ≤ r := (le_max_left _ _).trans hr1.le
  have hl2 : ‖l2‖ < r := (le_max_right _ _).trans_lt hr1
  have hr0 : 0 < r := (norm_nonneg _).trans_lt hl2
  obtain ⟨K, hK⟩ : ∃ K, K = ‖z 1 - l2 * z 0‖ := ⟨_, rfl⟩
  have hK0 : 0 ≤ K := hK ▸ norm_nonneg _
  obtain ⟨C, hC⟩ : ∃ C, C = max ‖z 0‖ (K / (r - ‖l2‖)) := ⟨_, rfl⟩
  have hC1 : ‖z 0‖ ≤ C := hC ▸ le_max_left _ _
  have hC2 : K ≤ C * (r - ‖l2‖) := by
    rw [← div_le_iff₀ (by linarith)]
    exact hC ▸ le_max_right _ _
  have hC0 : 0 ≤ C := (norm_nonneg _).trans hC1
  refine ⟨C, r, hC0, hr0, hr2, fun j => ?_⟩
  induction j with
  | zero => simpa using hC1
  | succ j ih =>
    have e : z (j + 1) = l2 * z j + l1 ^ j * (z 1 - l2 * z 0) := by
      rw [← recurrence_first h j]
      ring
    rw [e]
    refine (norm_add_le _ _).trans ?_
    rw [norm_mul, norm_mul, norm_pow, ← hK]
    have b1 := mul_le_mul_of_nonneg_left ih (norm_nonneg l2)
    have b2 := mul_le_mul_of_nonneg_right (pow_le_pow_left₀ (norm_nonneg _) hl1 j) hK0
    have b3 := mul_le_mul_of_nonneg_left hC2 (pow_nonneg hr0.le j)
    rw [pow_succ]
    linarith

theorem recurrence_bounded {z : ℕ → ℂ} {l1 l2 : ℂ} (h : ∀ j, z (j + 2) = (l1 + l2) * z (j + 1) - l1 * l2 * z j) (h1 : ‖l1‖ ≤ 1) (h2 : ‖l2‖ < 1) :
    ∃ C, ∀ j, ‖z j‖ ≤ C := by
  obtain ⟨K, hK⟩ : ∃ K, K = ‖z 1 - l2 * z 0‖ := ⟨_, rfl⟩
  have hK0 : 0 ≤ K := hK ▸ norm_nonneg _
  obtain ⟨C, hC⟩ : ∃ C, C = max ‖z 0‖ (K / (1 - ‖l2‖)) := ⟨_, rfl⟩
  have hC2 : K ≤ C * (1 - ‖l2‖) := by
    rw [← div_le_iff₀ (by linarith)]
    exact hC ▸ le_max_right _ _
  refine ⟨C, fun j => ?_⟩
  induction j with
  | zero => exact hC ▸ le_max_left _ _
  | succ j ih =>
    have e : z (j + 1) = l2 * z j + l1 ^ j * (z 1 - l2 * z 0) := by
      rw [← recurrence_first h j]
      ring
    rw [e]
    refine (norm_add_le _ _).trans ?_
    rw [norm_mul, norm_mul, norm_pow, ← hK]
    have b1 := mul_le_mul_of_nonneg_left ih (norm_nonneg l2)
    have b2 := mul_le_mul_of_nonneg_right (pow_le_one₀ (n := j) (norm_nonneg _) h1) hK0
    linarith

theorem recurrence_unstable {z : ℕ → ℂ} {l1 l2 : ℂ} (h : ∀ j, z (j + 2) = (l1 + l2) * z (j + 1) - l1 * l2 * z j) (h1 : 1 < ‖l1‖)
    (h2 : z 1 - l2 * z 0 ≠ 0) (C : ℝ) : ∃ j, C < ‖z j‖ := by
  by_contra hcon
  push Not at hcon
  have hK := norm_pos_iff.mpr h2
  obtain ⟨j, hj⟩ := pow_unbounded_of_one_lt ((C + ‖l2‖ * C) / ‖z 1 - l2 * z 0‖) h1
  rw [div_lt_iff₀ hK, ← norm_pow, ← norm_mul, ← recurrence_first h] at hj
  have b1 := norm_sub_le (z (j + 1)) (l2 * z j)
  rw [norm_mul] at b1
  have b2 := mul_le_mul_of_nonneg_left (hcon j) (norm_nonneg l2)
  have b3 := hcon (j + 1)
  linarith

/-! ## The discretised equation -/

section scalar
variable {μ : ℂ} {δ : ℝ}

/-- Coefficients of the characteristic polynomial `λ² + b λ + c` -/
noncomputable def charB (d : ℝ) (μ : ℂ) : ℂ := 2 * d * μ - (1 + d) / 5
noncomputable def charC (d : ℝ) (μ : ℂ) : ℂ := -(d * (3 + 2 * μ) / 5)

theorem damped_rec (hδ : 0 ≤ δ) (j : ℕ) : (dampedOscillation μ δ (j + 2)).1 =
    -charB (1 / (1 + 2 * δ)) μ * (dampedOscillation μ δ (j + 1)).1 - charC (1 / (1 + 2 * δ)) μ * (dampedOscillation μ δ j).1 := by
  have h0 : ((1 + 2 * δ : ℝ) : ℂ) ≠ 0 := by
    rw [Complex.ofReal_ne_zero]
    positivity
  push_cast at h0
  simp only [dampedOscillation, charB, charC]
  push_cast
  field_simp
  ring

theorem margin_eq (d : ℝ) (μ : ℂ) : 625 * ((1 - normSq (charC d μ)) ^ 2 - normSq (charB d μ - (starRingEnd ℂ) (charB d μ) * charC d μ)) = 8 * stabilityMargin d μ := by
  obtain ⟨x, y⟩ := μ
  have eB : charB d ⟨x, y⟩ = ⟨2 * d * x - (1 + d) / 5, 2 * d * y⟩ := by
    unfold charB
    apply Complex.ext <;> norm_num [mul_re, mul_im, div_re, div_im] <;> ring
  have eC : charC d ⟨x, y⟩ = ⟨-(d * (3 + 2 * x) / 5), -(d * (2 * y) / 5)⟩ := by
    unfold charC
    apply Complex.ext <;> norm_num [mul_re, mul_im, div_re, div_im] <;> ring
  rw [eB, eC]
  simp only [normSq_apply, mul_re, mul_im, sub_re, sub_im, conj_re, conj_im, stabilityMargin]
  ring

theorem margin_small {d : ℝ} (hd : 0 < d) (hd1 : d ≤ 1) (hx : 0 ≤ μ.re) (hm : 0 < stabilityMargin d μ) : normSq (charC d μ) < 1 := by
  have eC : normSq (charC d μ) = d ^ 2 * ((3 + 2 * μ.re) ^ 2 + 4 * μ.im ^ 2) / 25 := by
    obtain ⟨x, y⟩ := μ
    have eC : charC d ⟨x, y⟩ = ⟨-(d * (3 + 2 * x) / 5), -(d * (2 * y) / 5)⟩ := by
      unfold charC
      apply Complex.ext <;> norm_num [mul_re, mul_im, div_re, div_im] <;> ring
    rw [eC, normSq_mk]
    ring
  rw [eC]
  obtain ⟨R, hR⟩ : ∃ R, R = μ.re ^ 2 + μ.im ^ 2 := ⟨_, rfl⟩
  have hR0 : 0 ≤ R := by rw [hR]; positivity
  unfold stabilityMargin at hm
  rw [← hR] at hm
  have h2 : 0 ≤ (1 - d) * (5 + 3 * d) + 4 * d * (3 + d) * μ.re + 4 * d ^ 2 * R := by
    have : 0 ≤ 1 - d := by linarith
    positivity
  have h3 : 0 ≤ 32 * d ^ 2 * (3 - 2 * d) ^ 2 * μ.im ^ 2 := by positivity
  have h1 : 0 < (3 - d) * (5 + 3 * d) - 4 * d * (6 + 5 * d) * μ.re - 12 * d ^ 2 * R := by
    by_contra hc
    push Not at hc
    have := mul_nonpos_of_nonpos_of_nonneg hc h2
    linarith
  have e : (3 + 2 * μ.re) ^ 2 + 4 * μ.im ^ 2 = 9 + 12 * μ.re + 4 * R := by rw [hR]; ring
  rw [e, div_lt_one (by norm_num)]
  have h4 : d ^ 2 * μ.re ≤ d * μ.re := mul_le_mul_of_nonneg_right (by nlinarith) hx
  have h5 : 0 ≤ d ^ 2 * μ.re := by positivity
  have h6 : d ^ 2 ≤ 1 := by nlinarith
  nlinarith

theorem factor_range (hδ : 0 ≤ δ) : 0 < 1 / (1 + 2 * δ) ∧ 1 / (1 + 2 * δ) ≤ 1 :=
  ⟨by positivity, by rw [div_le_one (by positivity)]; linarith⟩

theorem damped_stable (hδ : 0 ≤ δ) (hx : 0 ≤ μ.re) (hm : 0 < stabilityMargin (1 / (1 + 2 * δ)) μ) :
    ∃ C r : ℝ, 0 ≤ C ∧ 0 < r ∧ r < 1 ∧ ∀ j, ‖(dampedOscillation μ δ j).1‖ ≤ C * r ^ j := by
  obtain ⟨hd0, hd1⟩ := factor_range hδ
  obtain ⟨d, hd⟩ : ∃ d, d = 1 / (1 + 2 * δ) := ⟨_, rfl⟩
  have hrec := damped_rec (μ := μ) hδ
  rw [← hd] at hd0 hd1 hm
  simp only [← hd] at hrec
  obtain ⟨l1, l2, e1, e2⟩ := exists_roots (charB d μ) (charC d μ)
  have hs := schur_cohn l1 l2
  rw [e1, neg_neg, e2] at hs
  have h1 := margin_eq d μ
  have h2 := margin_small hd0 hd1 hx hm
  have hpos : 0 < (1 - normSq l1) * (1 - normSq l2) := by
    have h3 := normSq_nonneg (1 - l1 * (starRingEnd ℂ) l2)
    by_contra hc
    push Not at hc
    have := mul_nonpos_of_nonpos_of_nonneg hc h3
    linarith
  have hc : normSq l1 * normSq l2 < 1 := by rw [← Complex.normSq_mul, e2]; exact h2
  have n1 := normSq_nonneg l1
  have n2 := normSq_nonneg l2
  have key : normSq l1 < 1 ∧ normSq l2 < 1 := by
    rcases pos_and_pos_or_neg_and_neg_of_mul_pos hpos with ⟨a, b⟩ | ⟨a, b⟩
    · exact ⟨by linarith, by linarith⟩
    · nlinarith
  have tonorm : ∀ l : ℂ, normSq l < 1 → ‖l‖ < 1 := fun l hl => by
    rw [Complex.normSq_eq_norm_sq] at hl
    exact (sq_lt_one_iff₀ (norm_nonneg _)).mp hl
  exact recurrence_stable (z := fun j => (dampedOscillation μ δ j).1) (l1 := l1) (l2 := l2) (fun j => by rw [e1, e2]; exact hrec j) (tonorm _ key.1) (tonorm _ key.2)

theorem damped_unstable (hδ : 0 ≤ δ) (hm : stabilityMargin (1 / (1 + 2 * δ)) μ < 0)
    (hz : (dampedOscillation μ δ 1).1 ^ 2 + charB (1 / (1 + 2 * δ)) μ * (dampedOscillation μ δ 1).1 + charC (1 / (1 + 2 * δ)) μ ≠ 0) (C : ℝ) :
    ∃ j, C < ‖(dampedOscillation μ δ j).1‖ := by
  have hrec := damped_rec (μ := μ) hδ
  obtain ⟨d, hd⟩ : ∃ d, d = 1 / (1 + 2 * δ) := ⟨_, rfl⟩
  rw [← hd] at hm hz
  simp only [← hd] at hrec
  obtain ⟨l1, l2, e1, e2⟩ := exists_roots (charB d μ) (charC d μ)
  have hs := schur_cohn l1 l2
  rw [e1, neg_neg, e2] at hs
  have h1 := margin_eq d μ
  have hneg : (1 - normSq l1) * (1 - normSq l2) < 0 := by
    have h3 := normSq_nonneg (1 - l1 * (starRingEnd ℂ) l2)
    by_contra hc
    push Not at hc
    have := mul_nonneg hc h3
    linarith
  have hfac : ((dampedOscillation μ δ 1).1 - l1) * ((dampedOscillation μ δ 1).1 - l2) ≠ 0 := by
    convert hz using 1
    linear_combination -(dampedOscillation μ δ 1).1 * e1 + e2
  have tonorm : ∀ l : ℂ, 1 < normSq l → 1 < ‖l‖ := fun l hl => by
    rw [Complex.normSq_eq_norm_sq] at hl
    by_contra hc
    push Not at hc
    have := pow_le_one₀ (n := 2) (norm_nonneg l) hc
    linarith
  have h0 : (dampedOscillation μ δ 0).1 = 1 := rfl
  rcases mul_neg_iff.mp hneg with ⟨-, b⟩ | ⟨a, -⟩
  · refine recurrence_unstable (z := fun j => (dampedOscillation μ δ j).1) (l1 := l2) (l2 := l1)
      (fun j => by rw [add_comm l2, mul_comm l2, e1, e2]; exact hrec j) (tonorm _ (by linarith)) ?_ C
    rw [h0, mul_one]
    exact (mul_ne_zero_iff.mp hfac).1
  · refine recurrence_unstable (z := fun j => (dampedOscillation μ δ j).1) (l1 := l1) (l2 := l2)
      (fun j => by rw [e1, e2]; exact hrec j) (tonorm _ (by linarith)) ?_ C
    rw [h0, mul_one]
    exact (mul_ne_zero_iff.mp hfac).2

theorem damped_marginal (hδ : 0 ≤ δ) (hm : stabilityMargin (1 / (1 + 2 * δ)) μ = 0) (hc : normSq (charC (1 / (1 + 2 * δ)) μ) < 1) :
    ∃ C, ∀ j, ‖(dampedOscillation μ δ j).1‖ ≤ C := by
  have hrec := damped_rec (μ := μ) hδ
  obtain ⟨d, hd⟩ : ∃ d, d = 1 / (1 + 2 * δ) := ⟨_, rfl⟩
  rw [← hd] at hm hc
  simp only [← hd] at hrec
  obtain ⟨l1, l2, e1, e2⟩ := exists_roots (charB d μ) (charC d μ)
  have hs := schur_cohn l1 l2
  have h1 := margin_eq d μ
  rw [e1, neg_neg, e2] at hs
  rw [hm] at h1
  have hn : ‖l1‖ * ‖l2‖ < 1 := by
    rw [← e2, Complex.normSq_eq_norm_sq] at hc
    rw [← norm_mul]
    exact (sq_lt_one_iff₀ (norm_nonneg _)).mp hc
  have hne : normSq (1 - l1 * (starRingEnd ℂ) l2) ≠ 0 := by
    intro h0
    have := congrArg norm (sub_eq_zero.mp (Complex.normSq_eq_zero.mp h0))
    rw [norm_one, norm_mul, Complex.norm_conj] at this
    linarith
  have hprod : (1 - normSq l1) * (1 - normSq l2) = 0 := by
    have : (1 - normSq l1) * (1 - normSq l2) * normSq (1 - l1 * (starRingEnd ℂ) l2) = 0 := by linarith
    exact (mul_eq_zero.mp this).resolve_right hne
  have tonorm : ∀ l : ℂ, 1 - normSq l = 0 → ‖l‖ = 1 := fun l hl => by
    rw [Complex.normSq_eq_norm_sq] at hl
    have h2 : ‖l‖ ^ 2 = 1 := by linarith
    exact (pow_eq_one_iff_of_nonneg (norm_nonneg _) (by norm_num)).mp h2
  rcases mul_eq_zero.mp hprod with h | h
  · have h2 := tonorm _ h
    exact recurrence_bounded (z := fun j => (dampedOscillation μ δ j).1) (l1 := l1) (l2 := l2) (fun j => by rw [e1, e2]; exact hrec j) h2.le
      (by rwa [h2, one_mul] at hn)
  · have h2 := tonorm _ h
    exact recurrence_bounded (z := fun j => (dampedOscillation μ δ j).1) (l1 := l2) (l2 := l1)
      (fun j => by rw [add_comm l2, mul_comm l2, e1, e2]; exact hrec j) h2.le (by rwa [h2, mul_one] at hn)

/-- Real coefficients stay real. -/
theorem damped_real (hμ : μ.im = 0) (j : ℕ) : (dampedOscillation μ δ j).1.im = 0 ∧ (dampedOscillation μ δ j).2.im = 0 := by
  obtain ⟨x, rfl⟩ : ∃ x : ℝ, μ = x := ⟨μ.re, Complex.ext rfl (by simpa using hμ)⟩
  suffices h : ∃ a b : ℝ, dampedOscillation x δ j = ((a : ℂ), (b : ℂ)) by
    obtain ⟨a, b, e⟩ := h
    rw [e]
    exact ⟨Complex.ofReal_im a, Complex.ofReal_im b⟩
  induction j with
  | zero => exact ⟨1, (1 - x) / (1 + δ), by simp [dampedOscillation]⟩
  | succ j ih =>
    obtain ⟨a, b, e⟩ := ih
    refine ⟨b + 2 / 10 * (a - 2 * b + (a - 2 * (x * b)) / (1 + 2 * δ)), (a - 2 * (x * b)) / (1 + 2 * δ), ?_⟩
    simp only [dampedOscillation, e]
    push_cast
    rfl

/-! Conditions for the margin -/

/-- A sufficient condition that is easy to check -/
theorem margin_sufficient {d : ℝ} (hd : 0 < d) (hd1 : d ≤ 1) (hx : 0 ≤ μ.re) (h : 11 * μ.re + 3 * (μ.re ^ 2 + μ.im ^ 2) ≤ 2)
    (hs : 0 < μ.re ∨ d < 1 ∨ (μ.im ≠ 0 ∧ 3 * μ.im ^ 2 < 2)) : 0 < stabilityMargin d μ := by
  obtain ⟨x, y⟩ := μ
  simp only at hx h hs
  unfold stabilityMargin
  simp only
  obtain ⟨Y, hY⟩ : ∃ Y, Y = y ^ 2 := ⟨_, rfl⟩
  have hY0 : 0 ≤ Y := hY ▸ sq_nonneg y
  have hs' : 0 < x ∨ d < 1 ∨ (0 < Y ∧ 3 * Y < 2) := by
    rcases hs with hs | hs | ⟨hs, hs2⟩
    · exact .inl hs
    · exact .inr (.inl hs)
    · exact .inr (.inr ⟨by rw [hY]; positivity, hY ▸ hs2⟩)
  rw [← hY] at h ⊢
  have hdd : 0 ≤ 1 - d := by linarith
  have hYs : 3 * Y ≤ 2 := by nlinarith
  have a1 : d * d ≤ d := by nlinarith
  have ax : d * d * x ≤ d * x := mul_le_mul_of_nonneg_right a1 hx
  have aR : d * d * (x ^ 2 + Y) ≤ d * (x ^ 2 + Y) := mul_le_mul_of_nonneg_right a1 (by positivity)
  have ah : d * (11 * x + 3 * (x ^ 2 + Y)) ≤ d * 2 := mul_le_mul_of_nonneg_left h hd.le
  have f1 : 15 - 4 * d - 3 * d ^ 2 ≤ (3 - d) * (5 + 3 * d) - 4 * d * (6 + 5 * d) * x - 12 * d ^ 2 * (x ^ 2 + Y) := by nlinarith
  have f0 : 8 ≤ 15 - 4 * d - 3 * d ^ 2 := by nlinarith
  have s1 : (1 - d) * (5 + 3 * d) + 4 * d ^ 2 * Y + 12 * d * x ≤ (1 - d) * (5 + 3 * d) + 4 * d * (3 + d) * x + 4 * d ^ 2 * (x ^ 2 + Y) := by
    have : 0 ≤ d ^ 2 * x := by positivity
    have : 0 ≤ d ^ 2 * x ^ 2 := by positivity
    nlinarith
  have s0 : 0 ≤ (1 - d) * (5 + 3 * d) + 4 * d ^ 2 * Y + 12 * d * x := by positivity
  have prod : (15 - 4 * d - 3 * d ^ 2) * ((1 - d) * (5 + 3 * d) + 4 * d ^ 2 * Y + 12 * d * x) ≤
      ((3 - d) * (5 + 3 * d) - 4 * d * (6 + 5 * d) * x - 12 * d ^ 2 * (x ^ 2 + Y)) * ((1 - d) * (5 + 3 * d) + 4 * d * (3 + d) * x + 4 * d ^ 2 * (x ^ 2 + Y)) :=
    mul_le_mul f1 s1 s0 (by linarith)
  by_cases hcase : 0 < x ∨ d < 1
  · -- linear in `Y`
    have q1 : 5 ≤ 75 + 25 * d - 179 * d ^ 2 + 253 / 3 * d ^ 3 := by nlinarith [mul_nonneg hd.le hdd, mul_nonneg (mul_nonneg hd.le hd.le) hdd]
    have end1 : (15 - 4 * d - 3 * d ^ 2) * ((1 - d) * (5 + 3 * d) + 8 / 3 * d ^ 2) - 64 / 3 * d ^ 2 * (3 - 2 * d) ^ 2 =
        (1 - d) * (75 + 25 * d - 179 * d ^ 2 + 253 / 3 * d ^ 3) := by ring
    have b1 : (1 - d) * 5 ≤ (1 - d) * (75 + 25 * d - 179 * d ^ 2 + 253 / 3 * d ^ 3) := mul_le_mul_of_nonneg_left q1 hdd
    have b0 : (1 - d) * 5 ≤ (15 - 4 * d - 3 * d ^ 2) * ((1 - d) * (5 + 3 * d)) := by
      have := mul_le_mul f0 (show (1 - d) * 5 ≤ (1 - d) * (5 + 3 * d) from mul_le_mul_of_nonneg_left (by linarith) hdd) (by positivity) (by linarith)
      linarith
    have comb : (15 - 4 * d - 3 * d ^ 2) * ((1 - d) * (5 + 3 * d) + 4 * d ^ 2 * Y) - 32 * d ^ 2 * (3 - 2 * d) ^ 2 * Y =
        (1 - 3 / 2 * Y) * ((15 - 4 * d - 3 * d ^ 2) * ((1 - d) * (5 + 3 * d))) +
        3 / 2 * Y * ((15 - 4 * d - 3 * d ^ 2) * ((1 - d) * (5 + 3 * d) + 8 / 3 * d ^ 2) - 64 / 3 * d ^ 2 * (3 - 2 * d) ^ 2) := by ring
    have c0 := mul_le_mul_of_nonneg_left b0 (show 0 ≤ 1 - 3 / 2 * Y by linarith)
    have c1 := mul_le_mul_of_nonneg_left (b1.trans_eq end1.symm) (show 0 ≤ 3 / 2 * Y by positivity)
    have hdx : 0 ≤ d * x := by positivity
    have c2 : 8 * (12 * d * x) ≤ (15 - 4 * d - 3 * d ^ 2) * (12 * d * x) := mul_le_mul_of_nonneg_right f0 (by positivity)
    have tot : (1 - d) * 5 + 96 * (d * x) ≤ (15 - 4 * d - 3 * d ^ 2) * ((1 - d) * (5 + 3 * d) + 4 * d ^ 2 * Y + 12 * d * x) - 32 * d ^ 2 * (3 - 2 * d) ^ 2 * Y := by
      linarith
    have pos : 0 < (1 - d) * 5 + 96 * (d * x) := by
      rcases hcase with hc | hc
      · have : 0 < d * x := by positivity
        linarith
      · linarith
    linarith
  · push Not at hcase
    obtain rfl : x = 0 := le_antisymm hcase.1 hx
    obtain rfl : d = 1 := le_antisymm hd1 hcase.2
    rcases hs' with hc | hc | ⟨hc, hc2⟩
    · exact absurd hc (lt_irrefl _)
    · exact absurd hc (lt_irrefl _)
    · nlinarith [mul_pos hc (show 0 < 2 - 3 * Y by linarith)]

/-- Without waves -/
theorem margin_real (hδ : 0 ≤ δ) (x : ℝ) : stabilityMargin (1 / (1 + 2 * δ)) x = 16 * (1 + 3 * δ - 3 * x) * (4 + 5 * δ + x) ^ 2 * (x + δ) / (1 + 2 * δ) ^ 4 := by
  unfold stabilityMargin
  simp only [ofReal_re, ofReal_im]
  have h0 : 0 < 1 + 2 * δ := by positivity
  field_simp
  ring

theorem margin_real_pos (hδ : 0 ≤ δ) {x : ℝ} (hx : 0 ≤ x) (hpos : 0 < x ∨ 0 < δ) (h : x < 1 / 3 + δ) : 0 < stabilityMargin (1 / (1 + 2 * δ)) x := by
  rw [margin_real hδ]
  have : 0 < 1 + 3 * δ - 3 * x := by linarith
  have : 0 < x + δ := by rcases hpos with h | h <;> linarith
  positivity

theorem margin_real_neg (hδ : 0 ≤ δ) {x : ℝ} (h : 1 / 3 + δ < x) : stabilityMargin (1 / (1 + 2 * δ)) x < 0 := by
  rw [margin_real hδ]
  have h1 : 0 < 3 * x - 1 - 3 * δ := by linarith
  have h2 : 0 < x := by linarith
  have h3 : 0 < 16 * (3 * x - 1 - 3 * δ) * (4 + 5 * δ + x) ^ 2 * (x + δ) / (1 + 2 * δ) ^ 4 := by positivity
  have e : 16 * (1 + 3 * δ - 3 * x) * (4 + 5 * δ + x) ^ 2 * (x + δ) / (1 + 2 * δ) ^ 4 = -(16 * (3 * x - 1 - 3 * δ) * (4 + 5 * δ + x) ^ 2 * (x + δ) / (1 + 2 * δ) ^ 4) := by ring
  linarith

/-- Without damping -/
theorem margin_imag (y : ℝ) : stabilityMargin 1 (I * y) = 16 * y ^ 2 * (2 - 3 * y ^ 2) := by
  unfold stabilityMargin
  have h1 : (I * (y : ℂ)).re = 0 := by simp
  have h2 : (I * (y : ℂ)).im = y := by simp
  rw [h1, h2]
  ring

/-- Both modes of the scheme are excited without diffusion, except for special values. -/
theorem damped_excited (h0 : μ ≠ 0) (h1 : μ ≠ 3 / 2) (h2 : μ ≠ -(3 / 2)) :
    (dampedOscillation μ 0 1).1 ^ 2 + charB (1 / (1 + 2 * 0)) μ * (dampedOscillation μ 0 1).1 + charC (1 / (1 + 2 * 0)) μ ≠ 0 := by
  have e : (dampedOscillation μ 0 1).1 ^ 2 + charB (1 / (1 + 2 * 0)) μ * (dampedOscillation μ 0 1).1 + charC (1 / (1 + 2 * 0)) μ =
      4 / 25 * μ ^ 2 * ((μ - 3 / 2) * (μ + 3 / 2)) := by
    simp only [dampedOscillation, charB, charC]
    norm_num
    ring
  rw [e]
  refine mul_ne_zero (mul_ne_zero (by norm_num) (pow_ne_zero 2 h0)) (mul_ne_zero (sub_ne_zero.mpr h1) ?_)
  intro h
  exact h2 (eq_neg_of_add_eq_zero_left h)

theorem damped_exceptional (j : ℕ) : (dampedOscillation (3 / 2) 0 j).1 = (2 / 5) ^ j := by
  induction j with
  | zero => simp [dampedOscillation]
  | succ j ih =>
    rw [pow_succ, ← ih]
    simp only [dampedOscillation]
    norm_num
    ring

/-- Without damping the equation is the oscillation equation. -/
theorem damped_oscillation (θ : ℝ) (j : ℕ) : dampedOscillation (I * θ) 0 j = oscillation θ j := by
  induction j with
  | zero => simp [dampedOscillation, oscillation]
  | succ j ih => simp only [dampedOscillation, oscillation, ih]; simp

end scalar

/-! ## Integrations -/

variable {N : ℕ → ℕ → ℝ} {g : Grid ℝ} {B : ℕ} {S : g.Sph}

theorem rotation_analysis (h : Spharm.Exact N B S) (hT : 1 ≤ g.ntrunc) (hB : 1 ≤ B) (W : ℝ) : S.grdtospec (rotationField g W) = solidRotation N W := by
  have e : rotationField g W = S.spectogrd (solidRotation N W) := by
    rw [h.synthesis]
    funext j i
    exact (harmonicSum_solid h.norm_ne hT W _ _).symm
  rw [e]
  exact h.analysis _ (solidRotation_real W) (solidRotation_band W hB)

/-- Coefficient `μ` of a mode -/
noncomputable def modeRate (g : Grid ℝ) (rate W : ℝ) (n : ℕ) (Δ : ℝ) (k : Fin (nspec g.ntrunc)) : ℂ :=
  ((rate * Δ : ℝ) : ℂ) + I * (specM k * waveSpeed g.omega W n * Δ : ℝ)

theorem modeRate_re (rate W : ℝ) (n : ℕ) (Δ : ℝ) (k : Fin (nspec g.ntrunc)) : (modeRate g rate W n Δ k).re = rate * Δ := by
  unfold modeRate
  rw [add_re, ofReal_re]
  simp

theorem modeRate_im (rate W : ℝ) (n : ℕ) (Δ : ℝ) (k : Fin (nspec g.ntrunc)) : (modeRate g rate W n Δ k).im = specM k * waveSpeed g.omega W n * Δ := by
  unfold modeRate
  rw [add_im, ofReal_im, I_mul_im, ofReal_re, zero_add]

/-- C148: in integrations with relaxation and diffusion towards a solid-body rotation, waves of a single degree keep their shape. Every mode
follows the discretised equation of a damped oscillation. -/
theorem C148_run (hg : g.Valid) (h : Spharm.Exact N B S) {M : BModel g} {rate W : ℝ} (hM : M.RelaxesTo S rate W) {s : St PyTime g}
    {dt : PyDelta} (hd : 0 ≤ toSeconds dt) {m : ℕ} {x y : ℕ → St PyTime g} (hx : M.Scheme S s dt m x y) {n : ℕ} (hn : 1 ≤ n) (hT : 2 * n ≤ g.ntrunc)
    (hB : 2 * n ≤ B) {a : g.Spc} (ha : SingleDegree n a) (har : RealZonal a) (hs : s.q = solidRotation N W + a) :
    ∀ j ≤ m, (x j).q = solidRotation N W +
        (fun k => (dampedOscillation (modeRate g rate W n (toSeconds dt) k) (M.diffusionRate n * toSeconds dt) j).1 * a k) ∧
      (y j).q = solidRotation N W +
        (fun k => (dampedOscillation (modeRate g rate W n (toSeconds dt) k) (M.diffusionRate n * toSeconds dt) j).2 * a k) := by
  obtain ⟨hrhs, hν, hbg⟩ := hM
  have hdeg : ∀ f : Fin (nspec g.ntrunc) → ℂ, SingleDegree n (fun k => f k * a k) := fun f k hk => by simp [ha k hk]
  have hν0 : 0 ≤ M.diffusionRate n := by
    unfold BModel.diffusionRate
    have := hg.rsphere_pos
    positivity
  -- background of the diffusion
  have hback : ∀ k (z : ℂ), (M.diffusionCoeff : ℂ) * (z - M.background S k) = M.diffusionCoeff * (z - (solidRotation N W : g.Spc) k) := by
    intro k z
    rcases hbg with h0 | hb | ⟨hb, rfl⟩
    · rw [h0]; simp
    · unfold BModel.background
      rw [hb]
      dsimp only
      rw [rotation_analysis h (by omega) (by omega)]
    · unfold BModel.background
      rw [hb]
      simp [solidRotation]
  -- rate of change
  have budget : ∀ {w : St PyTime g} {f : Fin (nspec g.ntrunc) → ℂ} {F : g.Fld}, (∀ k, specM k = 0 → (f k).im = 0) →
      w.q = solidRotation N W + (fun k => f k * a k) → M.Forced w F → ∀ k,
      pvBudget S (w.pv S) (w.u S) (w.v S) F k = -((rate + I * (specM k * waveSpeed g.omega W n : ℝ)) * (f k * a k)) := by
    intro w f F hf hw hF k
    have hflux := congrFun (C107_wave hg h w hn hT hB (hdeg f) hw) k
    have hF' : S.grdtospec F k = -(rate * (f k * a k)) := by
      rcases hrhs with ⟨hnone, rfl⟩ | ⟨ref, href, hsome⟩
      · rcases hF with ⟨-, rfl⟩ | ⟨f', hf', -⟩
        · have := h.analysis_smul 0 0
          rw [zero_smul, zero_smul] at this
          rw [this]; simp
        · rw [hnone] at hf'; cases hf'
      · rcases hF with ⟨hnone, -⟩ | ⟨f', hf', hF⟩
        · rw [hsome] at hnone; cases hnone
        · rw [hsome] at hf'
          obtain rfl := Option.some.inj hf'
          have e1 : (Term.linearRelaxation S rate ref).toRhs w = .ok (rate • (rotationField g W + (-1 : ℝ) • S.spectogrd w.q)) := by
            have : (Term.linearRelaxation S rate ref).toRhs w = .ok fun j i => rate * (ref.at j i - S.spectogrd w.q j i) := by cases ref <;> rfl
            rw [this]
            congr 1
            funext j i
            simp only [Pi.smul_apply, Pi.add_apply, smul_eq_mul]
            rw [href]
            ring
          rw [e1] at hF
          obtain rfl := Except.ok.inj hF
          rw [h.analysis_smul, h.analysis_add, h.analysis_smul, rotation_analysis h (by omega) (by omega), h.analysis, hw]
          · simp only [Pi.smul_apply, Pi.add_apply, Complex.real_smul]
            push_cast
            ring
          · rw [hw]
            intro l hl
            rw [Pi.add_apply, add_im, solidRotation_real W l hl, Complex.mul_im, hf l hl, har l hl]
            simp
          · rw [hw]
            exact (solidRotation_band W (by omega)).add fun l hl => by
              have := ha l (by omega)
              simp [this]
    change S.grdtospec F k - w.pvFluxSpectral S k = _
    rw [hF', hflux]
    ring
  -- one step
  have step : ∀ {w : St PyTime g} {f e : Fin (nspec g.ntrunc) → ℂ} {τ : ℝ} {old new : g.Spc} {F : g.Fld}, 0 ≤ τ → (∀ k, specM k = 0 → (f k).im = 0) →
      w.q = solidRotation N W + (fun k => f k * a k) → old = solidRotation N W + (fun k => e k * a k) → M.Forced w F →
      M.ImplicitStep S τ old (pvBudget S (w.pv S) (w.u S) (w.v S) F) new →
      ∀ k, new k = (solidRotation N W : g.Spc) k + (e k - τ * ((rate + I * (specM k * waveSpeed g.omega W n : ℝ)) * f k)) / (1 + (M.diffusionRate n * τ : ℝ)) * a k := by
    intro w f e τ old new F hτ hf hw hold hF hst k
    have h1 := hst k
    rw [budget hf hw hF k] at h1
    have h2 := hback k (new k)
    obtain ⟨L, hL⟩ : ∃ L : ℝ, L = ((specN k : ℝ) * (specN k + 1) / g.rsphere ^ 2) ^ M.diffusionOrder := ⟨_, rfl⟩
    have hL0 : 0 ≤ L := by rw [hL]; have := hg.rsphere_pos; positivity
    have hLc : ((specN k : ℂ) * (specN k + 1) / (g.rsphere : ℂ) ^ 2) ^ M.diffusionOrder = (L : ℂ) := by rw [hL]; push_cast; rfl
    rw [hLc] at h1
    have hold' : old k = (solidRotation N W : g.Spc) k + e k * a k := by rw [hold]; rfl
    have h3 : (new k - (solidRotation N W : g.Spc) k) * (1 + τ * (M.diffusionCoeff * L) : ℝ) =
        (e k - τ * ((rate + I * (specM k * waveSpeed g.omega W n : ℝ)) * f k)) * a k := by
      push_cast at h1 ⊢
      linear_combination h1 + hold' - τ * L * h2
    by_cases hk : specN k = n
    · have hrate : M.diffusionRate n = M.diffusionCoeff * L := by rw [hL, hk]; rfl
      rw [hrate]
      have hne : ((1 + (M.diffusionCoeff * L * τ : ℝ) : ℂ)) ≠ 0 := by
        rw [← Complex.ofReal_one, ← Complex.ofReal_add, Complex.ofReal_ne_zero]
        positivity
      rw [div_mul_eq_mul_div, ← sub_eq_iff_eq_add', eq_div_iff hne, ← h3]
      push_cast
      ring
    · have hne : ((1 + τ * (M.diffusionCoeff * L) : ℝ) : ℂ) ≠ 0 := by
        rw [Complex.ofReal_ne_zero]
        positivity
      rw [ha k hk, mul_zero] at h3
      rw [ha k hk, mul_zero, add_zero]
      exact sub_eq_zero.mp ((mul_eq_zero.mp h3).resolve_right hne)
  have hreal : ∀ j k, specM k = 0 → (dampedOscillation (modeRate g rate W n (toSeconds dt) k) (M.diffusionRate n * toSeconds dt) j).1.im = 0 ∧
      (dampedOscillation (modeRate g rate W n (toSeconds dt) k) (M.diffusionRate n * toSeconds dt) j).2.im = 0 := fun j k hk =>
    damped_real (by rw [modeRate_im, hk]; simp) j
  intro j
  induction j with
  | zero =>
    intro _
    obtain ⟨F, hF, hst⟩ := hx.euler
    constructor
    · rw [hx.start, hs]; simp [dampedOscillation]
    · funext k
      have := step (f := fun _ => 1) (e := fun _ => 1) hd (fun _ _ => by simp) (by rw [hs]; simp) (by rw [hs]; simp) hF hst k
      rw [this]
      simp only [dampedOscillation, Pi.add_apply, modeRate]
      push_cast
      ring
  | succ j ih =>
    intro hj
    obtain ⟨ix, iy⟩ := ih (by omega)
    obtain ⟨F, hF, hst⟩ := hx.leapfrog j (by omega)
    have hy : (y (j + 1)).q = solidRotation N W +
        (fun k => (dampedOscillation (modeRate g rate W n (toSeconds dt) k) (M.diffusionRate n * toSeconds dt) (j + 1)).2 * a k) := by
      funext k
      have := step (by linarith) (fun k hk => (hreal j k hk).2) iy ix hF hst k
      rw [this]
      simp only [dampedOscillation, Pi.add_apply, modeRate]
      push_cast
      ring
    refine ⟨?_, hy⟩
    funext k
    rw [hx.filter j (by omega) k, ix, iy, hy]
    simp only [dampedOscillation, Pi.add_apply]
    ring

/-- Returned states in terms of the integration -/
theorem returned_steps (h : Spharm.Exact N B S) {M : BModel g} (hν : 0 ≤ M.diffusionCoeff) {s : St PyTime g} {dt : PyDelta} {tend : PyTime} {se : ℝ}
    (hc : s.time.Compatible dt) (hk : s.time.SameKind tend) (hd : 0 < toSeconds dt) {sf : St PyTime g} {saved : List (St PyTime g)}
    (hret : M.Returns S s dt tend se sf saved) : ∃ (m : ℕ) (x y : ℕ → St PyTime g), M.Scheme S s dt m x y ∧
      ∀ s' ∈ sf :: saved, ∃ j ≤ m, s' = x j ∧ s'.time.sec - s.time.sec = j * toSeconds dt := by
  obtain ⟨m, x, y, ks, hx, e1, e2, e3, -, -⟩ := C100_run h.linear hν s dt tend se hc hk hd sf saved hret
  have ht : ∀ j ≤ m, (x j).time.sec - s.time.sec = j * toSeconds dt := fun j hj => by rw [(hx.times j hj).1, sec_stepTime hc]; ring
  refine ⟨m, x, y, hx, fun s' hs' => ?_⟩
  rcases List.mem_cons.mp hs' with rfl | hs'
  · exact ⟨m, le_rfl, e1, e1 ▸ ht m le_rfl⟩
  · rw [e2] at hs'
    obtain ⟨j, hj, rfl⟩ := List.mem_map.mp hs'
    exact ⟨j, e3 j hj, rfl, ht j (e3 j hj)⟩

/-- C148: modes for which the stability margin is positive decay exponentially, in all states that any run returns. -/
theorem C148_decay (hg : g.Valid) (h : Spharm.Exact N B S) {M : BModel g} {rate W : ℝ} (hM : M.RelaxesTo S rate W) (hrate : 0 ≤ rate) (s : St PyTime g)
    (dt : PyDelta) (hc : s.time.Compatible dt) (hd : 0 < toSeconds dt) {n : ℕ} (hn : 1 ≤ n) (hT : 2 * n ≤ g.ntrunc) (hB : 2 * n ≤ B) {a : g.Spc}
    (ha : SingleDegree n a) (har : RealZonal a) (hs : s.q = solidRotation N W + a) (k : Fin (nspec g.ntrunc))
    (hm : 0 < stabilityMargin (1 / (1 + 2 * (M.diffusionRate n * toSeconds dt))) (modeRate g rate W n (toSeconds dt) k)) :
    ∃ C γ : ℝ, 0 ≤ C ∧ 0 < γ ∧ ∀ (tend : PyTime) (se : ℝ) (sf : St PyTime g) (saved : List (St PyTime g)), s.time.SameKind tend →
      M.Returns S s dt tend se sf saved → ∀ s' ∈ sf :: saved,
        ‖s'.q k - (solidRotation N W : g.Spc) k‖ ≤ C * Real.exp (-(γ * (s'.time.sec - s.time.sec))) * ‖a k‖ := by
  have hδ : 0 ≤ M.diffusionRate n * toSeconds dt := by
    unfold BModel.diffusionRate
    have := hg.rsphere_pos
    have := hM.2.1
    positivity
  obtain ⟨C, r, hC, hr0, hr1, hz⟩ := damped_stable hδ (by rw [modeRate_re]; positivity) hm
  refine ⟨C, -Real.log r / toSeconds dt, hC, div_pos (neg_pos.mpr (Real.log_neg hr0 hr1)) hd, fun tend se sf saved hk hret s' hs' => ?_⟩
  obtain ⟨m, x, y, hx, hsteps⟩ := returned_steps h hM.2.1 hc hk hd hret
  obtain ⟨j, hj, rfl, ht⟩ := hsteps s' hs'
  rw [(C148_run hg h hM hd.le hx hn hT hB ha har hs j hj).1, ht]
  simp only [Pi.add_apply, add_sub_cancel_left]
  rw [norm_mul]
  refine mul_le_mul_of_nonneg_right ((hz j).trans_eq ?_) (norm_nonneg _)
  congr 1
  rw [show -(-Real.log r / toSeconds dt * (j * toSeconds dt)) = j * Real.log r by field_simp, Real.exp_nat_mul, Real.exp_log hr0]

/-- C148: if the margin is positive for all modes of the wave, PV converges to that of the solid-body rotation at all gridpoints. -/
theorem C148_converges (hg : g.Valid) (h : Spharm.Exact N B S) {M : BModel g} {rate W : ℝ} (hM : M.RelaxesTo S rate W) (hrate : 0 ≤ rate) (s : St PyTime g)
    (dt : PyDelta) (hc : s.time.Compatible dt) (hd : 0 < toSeconds dt) {n : ℕ} (hn : 1 ≤ n) (hT : 2 * n ≤ g.ntrunc) (hB : 2 * n ≤ B) {a : g.Spc}
    (ha : SingleDegree n a) (har : RealZonal a) (hs : s.q = solidRotation N W + a)
    (hm : ∀ k, a k ≠ 0 → 0 < stabilityMargin (1 / (1 + 2 * (M.diffusionRate n * toSeconds dt))) (modeRate g rate W n (toSeconds dt) k)) {ε : ℝ} (hε : 0 < ε) :
    ∃ τ : ℝ, ∀ (tend : PyTime) (se : ℝ) (sf : St PyTime g) (saved : List (St PyTime g)), s.time.SameKind tend →
      M.Returns S s dt tend se sf saved → ∀ s' ∈ sf :: saved, τ ≤ s'.time.sec - s.time.sec → ∀ j i, |s'.pv S j i - 2 * W * Real.sin (g.phi j)| < ε := by
  let L : Fin g.nlat → ℝ := fun j => ∑ k : Fin (nspec g.ntrunc), |N (specN k) (specM k) * legendre (specN k) (specM k) (g.phi j)|
  have hL : ∀ j, 0 ≤ L j := fun j => Finset.sum_nonneg fun k _ => abs_nonneg _
  obtain ⟨D, hD⟩ : ∃ D, D = ∑ j, L j := ⟨_, rfl⟩
  have hLD : ∀ j, L j ≤ D := fun j => hD ▸ Finset.single_le_sum (f := L) (fun j _ => hL j) (Finset.mem_univ j)
  have hD0 : 0 ≤ D := hD ▸ Finset.sum_nonneg fun j _ => hL j
  obtain ⟨η, hη⟩ : ∃ η, η = ε / (D + 1) := ⟨_, rfl⟩
  have hη0 : 0 < η := by rw [hη]; positivity
  -- every mode
  have mode : ∀ k, ∃ τ : ℝ, ∀ (tend : PyTime) (se : ℝ) (sf : St PyTime g) (saved : List (St PyTime g)), s.time.SameKind tend →
      M.Returns S s dt tend se sf saved → ∀ s' ∈ sf :: saved, τ ≤ s'.time.sec - s.time.sec → ‖s'.q k - (solidRotation N W : g.Spc) k‖ ≤ η := by
    intro k
    by_cases hk : a k = 0
    · refine ⟨0, fun tend se sf saved hkind hret s' hs' _ => ?_⟩
      obtain ⟨m, x, y, hx, hsteps⟩ := returned_steps h hM.2.1 hc hkind hd hret
      obtain ⟨j, hj, rfl, ht⟩ := hsteps s' hs'
      rw [(C148_run hg h hM hd.le hx hn hT hB ha har hs j hj).1]
      simp [hk, hη0.le]
    · obtain ⟨C, γ, hC, hγ, hrun⟩ := C148_decay hg h hM hrate s dt hc hd hn hT hB ha har hs k (hm k hk)
      refine ⟨max 0 (C * ‖a k‖ / (η * γ)), fun tend se sf saved hkind hret s' hs' hτ => (hrun tend se sf saved hkind hret s' hs').trans ?_⟩
      obtain ⟨t, ht⟩ : ∃ t, t = s'.time.sec - s.time.sec := ⟨_, rfl⟩
      rw [← ht] at hτ ⊢
      have t0 : 0 ≤ t := (le_max_left _ _).trans hτ
      have t1 : C * ‖a k‖ ≤ t * (η * γ) := by
        rw [← div_le_iff₀ (by positivity)]
        exact (le_max_right _ _).trans hτ
      have t2 : Real.exp (-(γ * t)) ≤ (1 + γ * t)⁻¹ := by
        rw [Real.exp_neg]
        refine inv_anti₀ (by positivity) ?_
        have := Real.add_one_le_exp (γ * t)
        linarith
      calc C * Real.exp (-(γ * t)) * ‖a k‖ ≤ C * (1 + γ * t)⁻¹ * ‖a k‖ := by gcongr
        _ = (C * ‖a k‖) / (1 + γ * t) := by rw [div_eq_mul_inv]; ring
        _ ≤ η := by
          rw [div_le_iff₀ (by positivity)]
          linarith
  choose τ hτ using mode
  refine ⟨∑ k, |τ k|, fun tend se sf saved hkind hret s' hs' ht j i => ?_⟩
  have hb : ∀ k, ‖s'.q k - (solidRotation N W : g.Spc) k‖ ≤ η := fun k => by
    refine hτ k tend se sf saved hkind hret s' hs' (le_trans ?_ ht)
    exact (le_abs_self _).trans (Finset.single_le_sum (f := fun k => |τ k|) (fun k _ => abs_nonneg _) (Finset.mem_univ k))
  have ediff : s'.pv S j i - 2 * W * Real.sin (g.phi j) = harmonicSum N (s'.q - solidRotation N W : g.Spc) (g.lam i) (g.phi j) := by
    unfold St.pv Grid.toGrid
    rw [h.synthesis]
    unfold Grid.sample
    have := harmonicSum_add (N := N) (s'.q - solidRotation N W : g.Spc) (solidRotation N W) (g.lam i) (g.phi j)
    rw [sub_add_cancel, harmonicSum_solid h.norm_ne (by omega)] at this
    rw [this]; ring
  rw [ediff]
  have hbound : |harmonicSum N (s'.q - solidRotation N W : g.Spc) (g.lam i) (g.phi j)| ≤ L j * η := by
    unfold harmonicSum modeSum
    refine (Finset.abs_sum_le_sum_abs _ _).trans ?_
    simp only [L]
    rw [Finset.sum_mul]
    refine Finset.sum_le_sum fun k _ => ?_
    rw [abs_mul]
    have h1 := Complex.abs_re_le_norm ((s'.q - solidRotation N W : g.Spc) k * exp (I * ((specM k * g.lam i : ℝ) : ℂ)))
    rw [norm_mul, Complex.norm_exp_I_mul_ofReal, mul_one] at h1
    exact mul_le_mul_of_nonneg_left (h1.trans (hb k)) (abs_nonneg _)
  have h2 := mul_le_mul_of_nonneg_right (hLD j) hη0.le
  have h3 : (D + 1) * η = ε := by rw [hη]; field_simp
  linarith

/-- C148: modes with negative margin grow beyond all bounds (unless they start exactly in the stable mode of the scheme). -/
theorem C148_unstable (hg : g.Valid) (h : Spharm.Exact N B S) {M : BModel g} {rate W : ℝ} (hM : M.RelaxesTo S rate W) (s : St PyTime g)
    (dt : PyDelta) (hc : s.time.Compatible dt) (hd : 0 < toSeconds dt) {n : ℕ} (hn : 1 ≤ n) (hT : 2 * n ≤ g.ntrunc) (hB : 2 * n ≤ B) {a : g.Spc}
    (ha : SingleDegree n a) (har : RealZonal a) (hs : s.q = solidRotation N W + a) (k : Fin (nspec g.ntrunc)) (hk : a k ≠ 0)
    (hm : stabilityMargin (1 / (1 + 2 * (M.diffusionRate n * toSeconds dt))) (modeRate g rate W n (toSeconds dt) k) < 0)
    (hz : let μ := modeRate g rate W n (toSeconds dt) k
      let δ := M.diffusionRate n * toSeconds dt
      (dampedOscillation μ δ 1).1 ^ 2 + charB (1 / (1 + 2 * δ)) μ * (dampedOscillation μ δ 1).1 + charC (1 / (1 + 2 * δ)) μ ≠ 0) (C : ℝ) :
    ∃ (tend : PyTime) (sf : St PyTime g) (saved : List (St PyTime g)), M.Returns S s dt tend 0 sf saved ∧ C < ‖sf.q k‖ := by
  have hδ : 0 ≤ M.diffusionRate n * toSeconds dt := by
    unfold BModel.diffusionRate
    have := hg.rsphere_pos
    have := hM.2.1
    positivity
  have ha0 : 0 < ‖a k‖ := norm_pos_iff.mpr hk
  obtain ⟨j, hj⟩ := damped_unstable hδ hm hz ((C + ‖(solidRotation N W : g.Spc) k‖) / ‖a k‖)
  have htot : M.Total := by
    intro f hf w
    rcases hM.1 with ⟨hnone, -⟩ | ⟨ref, -, hsome⟩
    · rw [hnone] at hf; cases hf
    · rw [hsome] at hf
      obtain rfl := Option.some.inj hf
      exact ⟨fun j i => rate * (ref.at j i - S.spectogrd w.q j i), by cases ref <;> rfl⟩
  have hkind : s.time.SameKind (stepTime s.time dt j) := by
    revert hc
    cases s.time <;> cases dt <;> simp [PyTime.Compatible, PyTime.SameKind, stepTime]
  have hsec := sec_stepTime hc j
  have hle : s.time.sec ≤ (stepTime s.time dt j).sec := by
    rw [hsec]
    have : 0 ≤ j * toSeconds dt := by positivity
    linarith
  obtain ⟨sf, saved, hret⟩ := C42_returns (S := S) htot s dt (stepTime s.time dt j) 0 hc hkind hd (.inl le_rfl) hle
  refine ⟨_, sf, saved, hret, ?_⟩
  obtain ⟨m, x, y, ks, hx, e1, -, -, e4, e5⟩ := C100_run h.linear hM.2.1 s dt _ 0 hc hkind hd sf saved hret
  have hmj : m = j := by
    rw [hsec] at e4 e5
    refine le_antisymm ?_ ?_
    · by_contra hlt
      push Not at hlt
      exact lt_irrefl _ (e5 j hlt)
    · have : (j : ℝ) * toSeconds dt ≤ m * toSeconds dt := by linarith
      exact_mod_cast le_of_mul_le_mul_right this hd
  subst hmj
  rw [e1, (C148_run hg h hM hd.le hx hn hT hB ha har hs m le_rfl).1]
  rw [div_lt_iff₀ ha0, ← norm_mul] at hj
  have h1 := norm_sub_le ((solidRotation N W : g.Spc) k + (dampedOscillation (modeRate g rate W n (toSeconds dt) k) (M.diffusionRate n * toSeconds dt) m).1 * a k)
    ((solidRotation N W : g.Spc) k)
  rw [add_sub_cancel_left] at h1
  change C < ‖(solidRotation N W : g.Spc) k + (dampedOscillation (modeRate g rate W n (toSeconds dt) k) (M.diffusionRate n * toSeconds dt) m).1 * a k‖
  linarith

/-- C148: a sufficient condition for stability: `11 κΔt + 3 ((κΔt)² + (ωΔt)²) ≤ 2`, where `κ` is the rate of the relaxation and `ω` the frequency of
the mode, if there is relaxation or diffusion. -/
theorem C148_sufficient (hg : g.Valid) {M : BModel g} {rate W : ℝ} (hM : M.RelaxesTo S rate W) (hrate : 0 ≤ rate) {Δ : ℝ} (hd : 0 < Δ) {n : ℕ}
    (k : Fin (nspec g.ntrunc)) (hpos : 0 < rate ∨ 0 < M.diffusionRate n)
    (hs : 11 * (rate * Δ) + 3 * ((rate * Δ) ^ 2 + (specM k * waveSpeed g.omega W n * Δ) ^ 2) ≤ 2) :
    0 < stabilityMargin (1 / (1 + 2 * (M.diffusionRate n * Δ))) (modeRate g rate W n Δ k) := by
  have hδ : 0 ≤ M.diffusionRate n * Δ := by
    unfold BModel.diffusionRate
    have := hg.rsphere_pos
    have := hM.2.1
    positivity
  obtain ⟨h0, h1⟩ := factor_range hδ
  refine margin_sufficient h0 h1 (by rw [modeRate_re]; positivity) (by rw [modeRate_re, modeRate_im]; exact hs) ?_
  rcases hpos with h | h
  · left
    rw [modeRate_re]
    positivity
  · right; left
    rw [div_lt_one (by positivity)]
    have : 0 < M.diffusionRate n * Δ := by positivity
    linarith

/-- C148: modes that do not depend on longitude. They are stable if `κΔt < 1/3 + νΔt`, where `ν` is the rate of the diffusion ... -/
theorem C148_zonal_stable (hg : g.Valid) {M : BModel g} {rate W : ℝ} (hM : M.RelaxesTo S rate W) (hrate : 0 ≤ rate) {Δ : ℝ} (hd : 0 < Δ) {n : ℕ}
    (k : Fin (nspec g.ntrunc)) (hk : specM k = 0) (hpos : 0 < rate ∨ 0 < M.diffusionRate n) (hs : rate * Δ < 1 / 3 + M.diffusionRate n * Δ) :
    0 < stabilityMargin (1 / (1 + 2 * (M.diffusionRate n * Δ))) (modeRate g rate W n Δ k) := by
  have hδ : 0 ≤ M.diffusionRate n * Δ := by
    unfold BModel.diffusionRate
    have := hg.rsphere_pos
    have := hM.2.1
    positivity
  have e : modeRate g rate W n Δ k = (rate * Δ : ℝ) := by unfold modeRate; rw [hk]; simp
  rw [e]
  refine margin_real_pos hδ (by positivity) ?_ hs
  rcases hpos with h | h
  · left; positivity
  · right; positivity

/-- ... and unstable if it is larger. -/
theorem C148_zonal_unstable (hg : g.Valid) {M : BModel g} {rate W : ℝ} (hM : M.RelaxesTo S rate W) {Δ : ℝ} (hd : 0 < Δ) {n : ℕ}
    (k : Fin (nspec g.ntrunc)) (hk : specM k = 0) (hs : 1 / 3 + M.diffusionRate n * Δ < rate * Δ) :
    stabilityMargin (1 / (1 + 2 * (M.diffusionRate n * Δ))) (modeRate g rate W n Δ k) < 0 := by
  have hδ : 0 ≤ M.diffusionRate n * Δ := by
    unfold BModel.diffusionRate
    have := hg.rsphere_pos
    have := hM.2.1
    positivity
  have e : modeRate g rate W n Δ k = (rate * Δ : ℝ) := by unfold modeRate; rw [hk]; simp
  rw [e]
  exact margin_real_neg hδ hs

/-- C148: without diffusion, relaxation of a zonally symmetric state converges to the reference if `κΔt < 1/3`, and runs grow beyond all bounds if
`κΔt > 1/3`, unless `κΔt = 3/2`. (The relaxation itself, an Euler step of which is stable for `κΔt ≤ 2`, is not what sets the limit.) -/
theorem C148_relaxation (hg : g.Valid) (h : Spharm.Exact N B S) {M : BModel g} {rate W : ℝ} (hM : M.RelaxesTo S rate W) (hν : M.diffusionCoeff = 0)
    (hrate : 0 < rate) (s : St PyTime g) (dt : PyDelta) (hc : s.time.Compatible dt) (hd : 0 < toSeconds dt) {n : ℕ} (hn : 1 ≤ n) (hT : 2 * n ≤ g.ntrunc)
    (hB : 2 * n ≤ B) {a : g.Spc} (ha : SingleDegree n a) (har : RealZonal a) (hs : s.q = solidRotation N W + a) (haz : ∀ k, specM k ≠ 0 → a k = 0) :
    (rate * toSeconds dt < 1 / 3 → ∀ ε > 0, ∃ τ : ℝ, ∀ (tend : PyTime) (se : ℝ) (sf : St PyTime g) (saved : List (St PyTime g)), s.time.SameKind tend →
      M.Returns S s dt tend se sf saved → ∀ s' ∈ sf :: saved, τ ≤ s'.time.sec - s.time.sec → ∀ j i, |s'.pv S j i - 2 * W * Real.sin (g.phi j)| < ε) ∧
    (1 / 3 < rate * toSeconds dt → rate * toSeconds dt ≠ 3 / 2 → ∀ k, a k ≠ 0 → ∀ C : ℝ,
      ∃ (tend : PyTime) (sf : St PyTime g) (saved : List (St PyTime g)), M.Returns S s dt tend 0 sf saved ∧ C < ‖sf.q k‖) := by
  have h0 : M.diffusionRate n = 0 := by unfold BModel.diffusionRate; rw [hν, zero_mul]
  have hz : ∀ k, a k ≠ 0 → specM k = 0 := fun k hk => by
    by_contra hc
    exact hk (haz k hc)
  refine ⟨fun hlt ε hε => C148_converges hg h hM hrate.le s dt hc hd hn hT hB ha har hs (fun k hk => ?_) hε, fun hlt hne k hk C => ?_⟩
  · exact C148_zonal_stable hg hM hrate.le hd k (hz k hk) (.inl hrate) (by rw [h0]; linarith)
  · refine C148_unstable hg h hM s dt hc hd hn hT hB ha har hs k hk (C148_zonal_unstable hg hM hd k (hz k hk) (by rw [h0]; linarith)) ?_ C
    have e : modeRate g rate W n (toSeconds dt) k = (rate * toSeconds dt : ℝ) := by unfold modeRate; rw [hz k hk]; simp
    rw [e, h0, zero_mul]
    have hpos : 0 < rate * toSeconds dt := by positivity
    have := damped_excited (μ := ((rate * toSeconds dt : ℝ) : ℂ)) (by rw [Complex.ofReal_ne_zero]; exact hpos.ne')
      (fun hc => hne (by have := congrArg Complex.re hc; rw [ofReal_re] at this; rw [this]; norm_num))
      (fun hc => by have := congrArg Complex.re hc; rw [ofReal_re] at this; norm_num at this; linarith)
    exact this

/-- C148: the exception: all states that `run` returns are damped by 2/5 in every step, although the scheme is unstable. -/
theorem C148_exceptional (hg : g.Valid) (h : Spharm.Exact N B S) {M : BModel g} {rate W : ℝ} (hM : M.RelaxesTo S rate W) (hν : M.diffusionCoeff = 0)
    {s : St PyTime g} {dt : PyDelta} (hd : 0 < toSeconds dt) (hr : rate * toSeconds dt = 3 / 2) {n : ℕ} (hn : 1 ≤ n) (hT : 2 * n ≤ g.ntrunc)
    (hB : 2 * n ≤ B) {a : g.Spc} (ha : SingleDegree n a) (har : RealZonal a) (hs : s.q = solidRotation N W + a) (k : Fin (nspec g.ntrunc)) (hk : specM k = 0)
    {m : ℕ} {x y : ℕ → St PyTime g} (hx : M.Scheme S s dt m x y) :
    ∀ j ≤ m, (x j).q k = (solidRotation N W : g.Spc) k + (2 / 5) ^ j * a k := by
  intro j hj
  have h0 : M.diffusionRate n = 0 := by unfold BModel.diffusionRate; rw [hν, zero_mul]
  have e : modeRate g rate W n (toSeconds dt) k = 3 / 2 := by unfold modeRate; rw [hk, hr]; simp
  rw [(C148_run hg h hM hd.le hx hn hT hB ha har hs j hj).1, Pi.add_apply, e, h0, zero_mul, damped_exceptional]

/-! ## The limit of C109 -/

/-- C109: below the limit waves do not only stay bounded, they are damped to zero, exponentially. -/
theorem C109_decay (hg : g.Valid) (h : Spharm.Exact N B S) {M : BModel g} (hM : M.rhs = none) (hν : M.diffusionCoeff = 0) {s : St PyTime g}
    {dt : PyDelta} {W : ℝ} {n : ℕ} (hn : 1 ≤ n) (hT : 2 * n ≤ g.ntrunc) (hB : 2 * n ≤ B) {a : g.Spc} (ha : SingleDegree n a)
    (hs : s.q = solidRotation N W + a) (k : Fin (nspec g.ntrunc)) (h0 : specM k * waveSpeed g.omega W n * toSeconds dt ≠ 0)
    (hθ : (specM k * waveSpeed g.omega W n * toSeconds dt) ^ 2 < 2 / 3) :
    ∃ C r : ℝ, 0 ≤ C ∧ 0 < r ∧ r < 1 ∧ ∀ {m : ℕ} {x y : ℕ → St PyTime g}, M.Scheme S s dt m x y → ∀ j ≤ m,
      ‖(x j).q k - (solidRotation N W : g.Spc) k‖ ≤ C * r ^ j * ‖a k‖ := by
  obtain ⟨C, r, hC, hr0, hr1, hz⟩ := damped_stable (μ := I * (specM k * waveSpeed g.omega W n * toSeconds dt : ℝ)) le_rfl (by simp)
    (by rw [mul_zero, add_zero, div_one, margin_imag]
        have h1 := sq_pos_of_ne_zero h0
        exact mul_pos (by linarith) (by linarith))
  refine ⟨C, r, hC, hr0, hr1, fun {m x y} hx j hj => ?_⟩
  rw [(C107_run hg h hM hν hx hn hT hB ha hs j hj).1]
  simp only [Pi.add_apply, add_sub_cancel_left]
  rw [norm_mul]
  have := hz j
  rw [damped_oscillation] at this
  exact mul_le_mul_of_nonneg_right this (norm_nonneg _)

/-- C109: at the limit waves stay bounded. -/
theorem C109_marginal (hg : g.Valid) (h : Spharm.Exact N B S) {M : BModel g} (hM : M.rhs = none) (hν : M.diffusionCoeff = 0) {s : St PyTime g}
    {dt : PyDelta} {W : ℝ} {n : ℕ} (hn : 1 ≤ n) (hT : 2 * n ≤ g.ntrunc) (hB : 2 * n ≤ B) {a : g.Spc} (ha : SingleDegree n a)
    (hs : s.q = solidRotation N W + a) (k : Fin (nspec g.ntrunc)) (hθ : (specM k * waveSpeed g.omega W n * toSeconds dt) ^ 2 = 2 / 3) :
    ∃ C : ℝ, ∀ {m : ℕ} {x y : ℕ → St PyTime g}, M.Scheme S s dt m x y → ∀ j ≤ m, ‖(x j).q k - (solidRotation N W : g.Spc) k‖ ≤ C * ‖a k‖ := by
  obtain ⟨C, hz⟩ := damped_marginal (μ := I * (specM k * waveSpeed g.omega W n * toSeconds dt : ℝ)) (δ := 0) le_rfl
    (by rw [mul_zero, add_zero, div_one, margin_imag, hθ]; norm_num)
    (by
      have e : charC (1 / (1 + 2 * 0)) (I * (specM k * waveSpeed g.omega W n * toSeconds dt : ℝ)) =
          ⟨-(3 / 5), -(2 / 5 * (specM k * waveSpeed g.omega W n * toSeconds dt))⟩ := by
        unfold charC
        apply Complex.ext <;> norm_num [mul_re, mul_im, div_re, div_im] <;> ring
      rw [e, normSq_mk]
      nlinarith)
  refine ⟨C, fun {m x y} hx j hj => ?_⟩
  rw [(C107_run hg h hM hν hx hn hT hB ha hs j hj).1]
  simp only [Pi.add_apply, add_sub_cancel_left]
  rw [norm_mul]
  have := hz j
  rw [damped_oscillation] at this
  exact mul_le_mul_of_nonneg_right this (norm_nonneg _)

/-! Non-vacuity: the wave of C109 with relaxation and with diffusion, for a time step that is stable, and a zonal flow of degree 2 with a time step that is not. -/

example : ∃ (g : Grid ℝ) (S : g.Sph) (M : BModel g) (s : St PyTime g) (a : g.Spc) (k : Fin (nspec g.ntrunc)), g.Valid ∧
    Spharm.Exact (fun _ _ => 1) 5 S ∧ M.RelaxesTo S (1 / 20) 1 ∧ 0 < M.diffusionRate 2 ∧ SingleDegree 2 a ∧ RealZonal a ∧ 2 * 2 ≤ g.ntrunc ∧ a k ≠ 0 ∧
    s.q = solidRotation (fun _ _ => 1) 1 + a ∧
    0 < stabilityMargin (1 / (1 + 2 * (M.diffusionRate 2 * 1))) (modeRate g (1 / 20) 1 2 1 k) ∧
    ∃ sf saved, M.Returns S s (.num 1) (.num 30) 0 sf saved := by
  have h7 : ({ grid30 with ntrunc := 6 } : Grid ℝ).nlat = 7 := by unfold Grid.nlat Grid.nlatOf grid30; norm_num
  obtain ⟨S, h, -⟩ := C105_exists (N := fun _ _ => 1) (B := 5) grid30_default_valid (by rw [h7]) (fun _ _ => one_ne_zero)
  obtain ⟨k, hk2, hk1⟩ := exists_mode (T := 6) (n := 2) (m := 1) (by norm_num) (by norm_num)
  have hsp : waveSpeed ({ grid30 with ntrunc := 6 } : Grid ℝ).omega 1 2 = -(1 / 3) := by unfold waveSpeed grid30; norm_num
  have ha : SingleDegree 2 (oneMode k 1) := fun l hl => by
    unfold oneMode
    rw [if_neg]
    rintro rfl
    exact hl hk2
  have har : RealZonal (oneMode k 1) := fun l _ => by
    unfold oneMode
    split_ifs <;> simp
  have hM : (⟨some (Term.linearRelaxation S (1 / 20) (.fld (rotationField _ 1))).toRhs, 1, 1, some (rotationField _ 1)⟩ :
      BModel ({ grid30 with ntrunc := 6 } : Grid ℝ)).RelaxesTo S (1 / 20) 1 :=
    ⟨.inr ⟨_, fun _ _ => rfl, rfl⟩, zero_le_one, .inr (.inl rfl)⟩
  refine ⟨{ grid30 with ntrunc := 6 }, S, _, ⟨.num 0, solidRotation (fun _ _ => 1) 1 + oneMode k 1⟩, oneMode k 1, k,
    grid30_default_valid, h, hM, ?_, ha, har, by norm_num, by simp [oneMode], rfl, ?_, ?_⟩
  · unfold BModel.diffusionRate
    have := (grid30_default_valid).rsphere_pos
    positivity
  · refine C148_sufficient grid30_default_valid hM (by norm_num) one_pos k (.inl (by norm_num)) ?_
    rw [hsp, hk1]
    norm_num
  · exact C42_returns (fun f hf => by cases hf; exact fun s => ⟨_, rfl⟩) _ _ _ _ trivial trivial (by norm_num [toSeconds]) (.inl le_rfl) (by norm_num [PyTime.sec])

example : ∃ (g : Grid ℝ) (S : g.Sph) (M : BModel g) (s : St PyTime g) (a : g.Spc) (k : Fin (nspec g.ntrunc)), g.Valid ∧
    Spharm.Exact (fun _ _ => 1) 5 S ∧ M.RelaxesTo S 1 1 ∧ M.diffusionCoeff = 0 ∧ SingleDegree 2 a ∧ RealZonal a ∧ 2 * 2 ≤ g.ntrunc ∧ a k ≠ 0 ∧
    (∀ k, specM k ≠ 0 → a k = 0) ∧ s.q = solidRotation (fun _ _ => 1) 1 + a ∧ (1 : ℝ) * toSeconds (.num (1 / 4)) < 1 / 3 ∧
    1 / 3 < (1 : ℝ) * toSeconds (.num 1) ∧ (1 : ℝ) * toSeconds (.num 1) ≠ 3 / 2 ∧ (1 : ℝ) * toSeconds (.num (3 / 2)) = 3 / 2 := by
  have h7 : ({ grid30 with ntrunc := 6 } : Grid ℝ).nlat = 7 := by unfold Grid.nlat Grid.nlatOf grid30; norm_num
  obtain ⟨S, h, -⟩ := C105_exists (N := fun _ _ => 1) (B := 5) grid30_default_valid (by rw [h7]) (fun _ _ => one_ne_zero)
  obtain ⟨k, hk2, hk1⟩ := exists_mode (T := 6) (n := 2) (m := 0) (by norm_num) (by norm_num)
  have ha : SingleDegree 2 (oneMode k 1) := fun l hl => by
    unfold oneMode
    rw [if_neg]
    rintro rfl
    exact hl hk2
  have har : RealZonal (oneMode k 1) := fun l _ => by
    unfold oneMode
    split_ifs <;> simp
  refine ⟨{ grid30 with ntrunc := 6 }, S, ⟨some (Term.linearRelaxation S 1 (.fld (rotationField _ 1))).toRhs, 1, 0, none⟩,
    ⟨.num 0, solidRotation (fun _ _ => 1) 1 + oneMode k 1⟩, oneMode k 1, k, grid30_default_valid, h, ⟨.inr ⟨_, fun _ _ => rfl, rfl⟩, le_rfl, .inl rfl⟩, rfl, ha, har,
    by norm_num, by simp [oneMode], fun l hl => ?_, rfl, ?_, ?_, ?_, ?_⟩
  · unfold oneMode
    rw [if_neg]
    rintro rfl
    exact hl hk1
  all_goals norm_num [toSeconds]

end Barotropic
