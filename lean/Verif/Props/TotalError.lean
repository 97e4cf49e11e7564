import Verif.Props.Accuracy
import Verif.Props.QuadError
import Verif.Props.Binary64Derivative
import Verif.Props.Binary64Geometry
import Verif.Props.Binary64Trapz

/-!
# C142: total error of derivatives and integrals of smooth fields

Truncation (C111, C112) and rounding (C137, C138, C141) together: what the code returns for a field with values close to those of a smooth function is
compared with the derivative and the integral of that function.
-/

namespace Barotropic
open Binary64 Grid

theorem trueLatitude_mem {n j : ℕ} (hn : 0 < n) (hj : j ≤ n) : trueLatitude n j ∈ Set.Icc (-(Real.pi / 2)) (Real.pi / 2) := by
  have hnp : (0 : ℝ) < n := by exact_mod_cast hn
  have hjn : (j : ℝ) / n ≤ 1 := (div_le_one hnp).2 (by exact_mod_cast hj)
  have h0 : (0 : ℝ) ≤ (j : ℝ) / n := by positivity
  have hpi := Real.pi_pos
  have e : trueLatitude n j = Real.pi / 2 - (j : ℝ) / n * Real.pi := by unfold trueLatitude; ring
  rw [e]
  constructor <;> nlinarith

/-- `rows` of weights that add up to `W` in absolute value -/
theorem stencil_diff {f a : ℕ → ℝ} {ε : ℝ} (hε : 0 ≤ ε) (l : List (ℤ × ℕ)) (h : ∀ p ∈ l, |f p.2 - a p.2| ≤ ε) :
    |(l.map fun p => (p.1 : ℝ) * f p.2).sum - (l.map fun p => (p.1 : ℝ) * a p.2).sum| ≤ weightSum l * ε := by
  induction l with
  | nil => simp [weightSum]
  | cons p l ih =>
    have h1 := ih fun q hq => h q (List.mem_cons_of_mem _ hq)
    have h2 : |(p.1 : ℝ) * (f p.2 - a p.2)| ≤ |(p.1 : ℝ)| * ε := by
      rw [abs_mul]; exact mul_le_mul_of_nonneg_left (h p (by simp)) (abs_nonneg _)
    simp only [List.map_cons, List.sum_cons, weightSum, Int.cast_add, Int.cast_abs] at h1 ⊢
    calc _ = |(p.1 : ℝ) * (f p.2 - a p.2) + ((l.map fun p => (p.1 : ℝ) * f p.2).sum - (l.map fun p => (p.1 : ℝ) * a p.2).sum)| := by congr 1; ring
      _ ≤ _ := (abs_add_le _ _).trans (by linarith)

/-- The error of a computed quotient: `S` approximates `c·d·D`, `T` approximates `S` and `R` is the rounded `T / c / dphi`, where `dphi` approximates `d`. -/
theorem quotient_error {S T R c d dphi δ D M τ e ρ : ℝ} (hc : 0 < c) (hd : d ≠ 0) (hδ : |dphi - d| ≤ δ * |d|) (hδ2 : δ ≤ 1 / 2)
    (hS : |S - c * d * D| ≤ c * (τ * |d|)) (hD : |D| ≤ M) (hT : |T - S| ≤ e) (hR : |R - T / c / dphi| ≤ ρ) :
    |R - D| ≤ ρ + 2 * e / (c * |d|) + 2 * τ + 2 * δ * M := by
  have hd' := abs_pos.2 hd
  have h1 : |d| / 2 ≤ |dphi| := by
    have := abs_sub_abs_le_abs_sub d dphi
    rw [abs_sub_comm] at this
    have := mul_le_mul_of_nonneg_right hδ2 hd'.le
    linarith
  have hp : 0 < |dphi| := by linarith
  have hp0 : dphi ≠ 0 := abs_pos.1 hp
  have hinv : 1 / |dphi| ≤ 2 / |d| := by
    rw [div_le_div_iff₀ hp hd']; linarith
  have a1 : |T / c / dphi - S / c / dphi| ≤ 2 * e / (c * |d|) := by
    rw [← sub_div, ← sub_div, abs_div, abs_div, abs_of_pos hc]
    have he : 0 ≤ e := (abs_nonneg _).trans hT
    calc |T - S| / c / |dphi| ≤ e / c / |dphi| := by gcongr
      _ = e / c * (1 / |dphi|) := by ring
      _ ≤ e / c * (2 / |d|) := by gcongr
      _ = _ := by field_simp
  have a2 : |S / c / dphi - d * D / dphi| ≤ 2 * τ := by
    have : S / c / dphi - d * D / dphi = (S - c * d * D) / c / dphi := by field_simp
    rw [this, abs_div, abs_div, abs_of_pos hc]
    have hτ : 0 ≤ τ * |d| := by
      have := (abs_nonneg _).trans hS
      exact (mul_nonneg_iff_of_pos_left hc).1 this
    calc |S - c * d * D| / c / |dphi| ≤ c * (τ * |d|) / c / |dphi| := by gcongr
      _ = τ * |d| * (1 / |dphi|) := by field_simp
      _ ≤ τ * |d| * (2 / |d|) := by gcongr
      _ = _ := by field_simp
  have a3 : |d * D / dphi - D| ≤ 2 * δ * M := by
    have : d * D / dphi - D = (d - dphi) * D / dphi := by field_simp
    rw [this, abs_div, abs_mul, abs_sub_comm]
    have hδ0 : 0 ≤ δ * |d| := (abs_nonneg _).trans hδ
    calc |dphi - d| * |D| / |dphi| ≤ δ * |d| * M / |dphi| := by gcongr
      _ = δ * |d| * M * (1 / |dphi|) := by ring
      _ ≤ δ * |d| * M * (2 / |d|) := mul_le_mul_of_nonneg_left hinv (mul_nonneg hδ0 ((abs_nonneg _).trans hD))
      _ = _ := by field_simp
  calc |R - D| = |(R - T / c / dphi) + (T / c / dphi - S / c / dphi) + (S / c / dphi - d * D / dphi) + (d * D / dphi - D)| := by congr 1; ring
    _ ≤ |R - T / c / dphi| + |T / c / dphi - S / c / dphi| + |S / c / dphi - d * D / dphi| + |d * D / dphi - D| :=
      (abs_add_le _ _).trans (add_le_add_left ((abs_add_le _ _).trans (add_le_add_left (abs_add_le _ _) _)) _)
    _ ≤ _ := by linarith

/-- C142, default order: `f` is a column with values that are known up to `ε`, `dphi` is the spacing up to a relative error `δ`. The computed derivative is
off by the truncation error of fourth order, the error of the spacing, and the errors of the values and seven roundings magnified by the inverse spacing. -/
theorem C142_order4 {F : ℝ → ℝ} (hF : ContDiff ℝ 5 F) {M0 M1 M5 : ℝ} (hM0 : ∀ φ ∈ Set.Icc (-(Real.pi / 2)) (Real.pi / 2), |F φ| ≤ M0)
    (hM1 : ∀ φ ∈ Set.Icc (-(Real.pi / 2)) (Real.pi / 2), |deriv F φ| ≤ M1)
    (hM5 : ∀ φ ∈ Set.Icc (-(Real.pi / 2)) (Real.pi / 2), |iteratedDeriv 5 F φ| ≤ M5) {n : ℕ} (hn : 4 ≤ n) {f : ℕ → ℝ} {ε : ℝ}
    (hf : ∀ j ≤ n, |f j - F (trueLatitude n j)| ≤ ε) {dphi δ : ℝ} (hd : |dphi + Real.pi / n| ≤ δ * (Real.pi / n)) (hδ : δ ≤ 1 / 2)
    {poles : Bool} {j : ℕ} (hj : j ≤ n) (hp : poles = true ∨ (0 < j ∧ j < n)) :
    |Binary64.derivative4 dphi poles (n + 1) f j - deriv F (trueLatitude n j)| ≤
        2 * error4 (n + 1) j * M5 * (Real.pi / n) ^ 4 + 2 * δ * M1 + 8 * n * (ε + (M0 + ε) * ((1 + 1 / 2 ^ 53) ^ 7 - 1)) := by
  have hnp : (0 : ℝ) < n := by exact_mod_cast (by omega : 0 < n)
  have hpi := Real.pi_pos
  have hpi3 := Real.pi_gt_three
  have hmem := fun i (hi : i ≤ n) => trueLatitude_mem (n := n) (j := i) (by omega) hi
  have hh : (0 : ℝ) < Real.pi / n := by positivity
  have hε : 0 ≤ ε := (abs_nonneg _).trans (hf 0 (by omega))
  have hb : ∀ i < n + 1, |f i| ≤ M0 + ε := fun i hi => by
    have h1 := hf i (by omega)
    have h2 := hM0 _ (hmem i (by omega))
    have := abs_sub_abs_le_abs_sub (f i) (F (trueLatitude n i))
    linarith
  have hdp : Real.pi / n / 2 ≤ |dphi| := by
    have h1 := abs_le.1 hd
    have h2 := mul_le_mul_of_nonneg_right hδ hh.le
    rw [abs_of_neg (by linarith)]
    linarith
  have hd0 : dphi ≠ 0 := abs_pos.1 (by linarith)
  have hinv : 1 / |dphi| ≤ 2 * n / 3 := by
    have : Real.pi / n / 2 = Real.pi / (2 * n) := by field_simp
    rw [this] at hdp
    rw [div_le_div_iff₀ (by linarith [hh, this]) (by norm_num)]
    have := mul_le_mul_of_nonneg_left hdp (by positivity : (0 : ℝ) ≤ 2 * n)
    rw [mul_div_cancel₀ _ (by positivity)] at this
    linarith
  have hround := (C137_order4 poles (by omega) hb hd0 (by omega : j < n + 1)).1
  have htrunc := stencil4_error hF hM5 poles (by omega : 5 ≤ n + 1) (Real.pi / 2) (-(Real.pi / n)) (fun j => F (trueLatitude n j))
    (fun i hi => ⟨by have := hmem i (by omega); unfold trueLatitude at this; rwa [mul_neg, ← sub_eq_add_neg], by
      unfold trueLatitude; rw [mul_neg, ← sub_eq_add_neg]⟩) (by omega : j < n + 1) (by simpa using hp)
  have e : Real.pi / 2 + (j : ℝ) * (-(Real.pi / n)) = trueLatitude n j := by unfold trueLatitude; ring
  rw [e, abs_neg, abs_of_pos hh] at htrunc
  have est : ∀ a : ℕ → ℝ, Grid.stencil4 poles (n + 1) a j = ((coeffs4 poles (n + 1) j).map fun p => (p.1 : ℝ) * a p.2).sum := fun a => by
    unfold coeffs4 Grid.stencil4
    split_ifs <;> simp <;> ring
  have hrow : ∀ p ∈ coeffs4 poles (n + 1) j, p.2 ≤ n := by
    unfold coeffs4
    split_ifs <;> simp <;> omega
  have hw : weightSum (coeffs4 poles (n + 1) j) ≤ 128 := by
    unfold coeffs4
    split_ifs <;> simp [weightSum]
  have hT : |Grid.stencil4 poles (n + 1) f j - Grid.stencil4 poles (n + 1) (fun j => F (trueLatitude n j)) j| ≤ 128 * ε := by
    rw [est, est]
    refine (stencil_diff (a := fun j => F (trueLatitude n j)) hε _ fun p hp => hf p.2 (hrow p hp)).trans ?_
    exact mul_le_mul_of_nonneg_right (by exact_mod_cast hw) hε
  have := quotient_error (c := 12) (d := -(Real.pi / n)) (δ := δ) (D := deriv F (trueLatitude n j)) (M := M1) (τ := error4 (n + 1) j * M5 * (Real.pi / n) ^ 4)
    (by norm_num) (by simpa using hh.ne') (by rw [abs_neg, abs_of_pos hh, sub_neg_eq_add]; exact hd) hδ
    (by rw [abs_neg, abs_of_pos hh]; refine htrunc.trans (le_of_eq ?_); ring) (hM1 _ (hmem j hj)) hT hround
  refine this.trans ?_
  rw [abs_neg, abs_of_pos hh]
  have hγ : (0 : ℝ) ≤ (1 + 1 / 2 ^ 53) ^ 7 - 1 := by norm_num
  have hMε : 0 ≤ M0 + ε := (abs_nonneg _).trans (hb 0 (by omega))
  have b1 : 128 * (M0 + ε) / 12 / |dphi| * ((1 + 1 / 2 ^ 53) ^ 7 - 1) ≤ 8 * n * ((M0 + ε) * ((1 + 1 / 2 ^ 53) ^ 7 - 1)) := by
    have : 128 / 12 * (1 / |dphi|) ≤ 8 * n := by linarith
    calc _ = 128 / 12 * (1 / |dphi|) * ((M0 + ε) * ((1 + 1 / 2 ^ 53) ^ 7 - 1)) := by ring
      _ ≤ _ := mul_le_mul_of_nonneg_right this (mul_nonneg hMε hγ)
  have b2 : 2 * (128 * ε) / (12 * (Real.pi / n)) ≤ 8 * n * ε := by
    rw [div_le_iff₀ (by positivity)]
    have : 8 * n * ε * (12 * (Real.pi / n)) = 96 * ε * Real.pi := by field_simp; ring
    rw [this]
    nlinarith
  linarith

/-- C142, order 2 -/
theorem C142_order2 {F : ℝ → ℝ} (hF : ContDiff ℝ 3 F) {M0 M1 M3 : ℝ} (hM0 : ∀ φ ∈ Set.Icc (-(Real.pi / 2)) (Real.pi / 2), |F φ| ≤ M0)
    (hM1 : ∀ φ ∈ Set.Icc (-(Real.pi / 2)) (Real.pi / 2), |deriv F φ| ≤ M1)
    (hM3 : ∀ φ ∈ Set.Icc (-(Real.pi / 2)) (Real.pi / 2), |iteratedDeriv 3 F φ| ≤ M3) {n : ℕ} (hn : 2 ≤ n) {f : ℕ → ℝ} {ε : ℝ}
    (hf : ∀ j ≤ n, |f j - F (trueLatitude n j)| ≤ ε) {dphi δ : ℝ} (hd : |dphi + Real.pi / n| ≤ δ * (Real.pi / n)) (hδ : δ ≤ 1 / 2)
    {poles : Bool} {j : ℕ} (hj : j ≤ n) (hp : poles = true ∨ (0 < j ∧ j < n)) :
    |Binary64.derivative2 dphi poles (n + 1) f j - deriv F (trueLatitude n j)| ≤
        2 * error2 (n + 1) j * M3 * (Real.pi / n) ^ 2 + 2 * δ * M1 + 3 * n * (ε + (M0 + ε) * ((1 + 1 / 2 ^ 53) ^ 5 - 1)) := by
  have hnp : (0 : ℝ) < n := by exact_mod_cast (by omega : 0 < n)
  have hpi := Real.pi_pos
  have hpi3 := Real.pi_gt_three
  have hmem := fun i (hi : i ≤ n) => trueLatitude_mem (n := n) (j := i) (by omega) hi
  have hh : (0 : ℝ) < Real.pi / n := by positivity
  have hε : 0 ≤ ε := (abs_nonneg _).trans (hf 0 (by omega))
  have hb : ∀ i < n + 1, |f i| ≤ M0 + ε := fun i hi => by
    have h1 := hf i (by omega)
    have h2 := hM0 _ (hmem i (by omega))
    have := abs_sub_abs_le_abs_sub (f i) (F (trueLatitude n i))
    linarith
  have hdp : Real.pi / n / 2 ≤ |dphi| := by
    have h1 := abs_le.1 hd
    have h2 := mul_le_mul_of_nonneg_right hδ hh.le
    rw [abs_of_neg (by linarith)]
    linarith
  have hd0 : dphi ≠ 0 := abs_pos.1 (by linarith)
  have hinv : 1 / |dphi| ≤ 2 * n / 3 := by
    have : Real.pi / n / 2 = Real.pi / (2 * n) := by field_simp
    rw [this] at hdp
    rw [div_le_div_iff₀ (by linarith [hh, this]) (by norm_num)]
    have := mul_le_mul_of_nonneg_left hdp (by positivity : (0 : ℝ) ≤ 2 * n)
    rw [mul_div_cancel₀ _ (by positivity)] at this
    linarith
  have hround := (C137_order2 poles (by omega) hb hd0 (by omega : j < n + 1)).1
  have htrunc := stencil2_error hF hM3 poles (by omega : 3 ≤ n + 1) (Real.pi / 2) (-(Real.pi / n)) (fun j => F (trueLatitude n j))
    (fun i hi => ⟨by have := hmem i (by omega); unfold trueLatitude at this; rwa [mul_neg, ← sub_eq_add_neg], by
      unfold trueLatitude; rw [mul_neg, ← sub_eq_add_neg]⟩) (by omega : j < n + 1) (by simpa using hp)
  have e : Real.pi / 2 + (j : ℝ) * (-(Real.pi / n)) = trueLatitude n j := by unfold trueLatitude; ring
  rw [e, abs_neg, abs_of_pos hh] at htrunc
  have est : ∀ a : ℕ → ℝ, Grid.stencil2 poles (n + 1) a j = ((coeffs2 poles (n + 1) j).map fun p => (p.1 : ℝ) * a p.2).sum := fun a => by
    unfold coeffs2 Grid.stencil2
    split_ifs <;> simp <;> ring
  have hrow : ∀ p ∈ coeffs2 poles (n + 1) j, p.2 ≤ n := by
    unfold coeffs2
    split_ifs <;> simp <;> omega
  have hw : weightSum (coeffs2 poles (n + 1) j) ≤ 8 := by
    unfold coeffs2
    split_ifs <;> simp [weightSum]
  have hT : |Grid.stencil2 poles (n + 1) f j - Grid.stencil2 poles (n + 1) (fun j => F (trueLatitude n j)) j| ≤ 8 * ε := by
    rw [est, est]
    refine (stencil_diff (a := fun j => F (trueLatitude n j)) hε _ fun p hp => hf p.2 (hrow p hp)).trans ?_
    exact mul_le_mul_of_nonneg_right (by exact_mod_cast hw) hε
  have := quotient_error (c := 2) (d := -(Real.pi / n)) (δ := δ) (D := deriv F (trueLatitude n j)) (M := M1) (τ := error2 (n + 1) j * M3 * (Real.pi / n) ^ 2)
    (by norm_num) (by simpa using hh.ne') (by rw [abs_neg, abs_of_pos hh, sub_neg_eq_add]; exact hd) hδ
    (by rw [abs_neg, abs_of_pos hh]; refine htrunc.trans (le_of_eq ?_); ring) (hM1 _ (hmem j hj)) hT hround
  refine this.trans ?_
  rw [abs_neg, abs_of_pos hh]
  have hγ : (0 : ℝ) ≤ (1 + 1 / 2 ^ 53) ^ 5 - 1 := by norm_num
  have hMε : 0 ≤ M0 + ε := (abs_nonneg _).trans (hb 0 (by omega))
  have b1 : 8 * (M0 + ε) / 2 / |dphi| * ((1 + 1 / 2 ^ 53) ^ 5 - 1) ≤ 3 * n * ((M0 + ε) * ((1 + 1 / 2 ^ 53) ^ 5 - 1)) := by
    have : 8 / 2 * (1 / |dphi|) ≤ 3 * n := by linarith
    calc _ = 8 / 2 * (1 / |dphi|) * ((M0 + ε) * ((1 + 1 / 2 ^ 53) ^ 5 - 1)) := by ring
      _ ≤ _ := mul_le_mul_of_nonneg_right this (mul_nonneg hMε hγ)
  have b2 : 2 * (8 * ε) / (2 * (Real.pi / n)) ≤ 3 * n * ε := by
    rw [div_le_iff₀ (by positivity)]
    have : 3 * n * ε * (2 * (Real.pi / n)) = 6 * ε * Real.pi := by field_simp; ring
    rw [this]
    nlinarith
  linarith

/-- The spacing of a grid whose resolution is the double next to `180 / n` -/
theorem C142_spacing {n : ℕ} (hn : 0 < n) : |Binary64.deg2rad (-rnd (180 / n : ℝ)) + Real.pi / n| ≤ 1 / 2 ^ 50 * (Real.pi / n) := by
  have hnp : (0 : ℝ) < n := by exact_mod_cast hn
  have hpi := Real.pi_pos
  have hpi3 := Real.pi_gt_three
  obtain ⟨e1, h1, r1⟩ := rnd_factor (180 / n : ℝ)
  obtain ⟨e3, h3, r3⟩ := rnd_factor (-rnd (180 / n : ℝ) * rnd (pi64 / 180))
  obtain ⟨e2, r2⟩ : ∃ e2, rnd (pi64 / 180 : ℝ) = Real.pi / 180 * (1 + e2) := ⟨rnd (pi64 / 180) / (Real.pi / 180) - 1, by field_simp; ring⟩
  have h2 : |e2| ≤ 1 / 2 ^ 51 := by
    have := degree_close
    rw [r2, mul_add, mul_one, add_sub_cancel_left, abs_mul, abs_of_pos (by positivity)] at this
    have h4 : Real.pi / 180 * |e2| ≥ 3 / 180 * |e2| := mul_le_mul_of_nonneg_right (by linarith) (abs_nonneg _)
    norm_num at this h4 ⊢
    linarith
  rw [Binary64.deg2rad, r3, r2, r1]
  have : -(180 / (n : ℝ) * (1 + e1)) * (Real.pi / 180 * (1 + e2)) * (1 + e3) + Real.pi / n =
      -(e1 + e2 + e3 + e1 * e2 + e1 * e3 + e2 * e3 + e1 * e2 * e3) * (Real.pi / n) := by field_simp; ring
  rw [this, abs_mul, abs_neg, abs_of_pos (by positivity : 0 < Real.pi / n)]
  refine mul_le_mul_of_nonneg_right ?_ (by positivity)
  have p : ∀ {a b : ℝ}, |a| ≤ 1 / 2 ^ 51 → |b| ≤ 1 / 2 ^ 51 → |a * b| ≤ 1 / 2 ^ 100 := fun ha hb => by
    rw [abs_mul]
    exact (mul_le_mul ha hb (abs_nonneg _) (by norm_num)).trans (by norm_num)
  have w : ∀ {a : ℝ}, |a| ≤ 1 / 2 ^ 53 → |a| ≤ 1 / 2 ^ 51 := fun ha => ha.trans (by norm_num)
  have q12 := abs_le.1 (p (w h1) h2)
  have q13 := abs_le.1 (p (w h1) (w h3))
  have q23 := abs_le.1 (p h2 (w h3))
  have q123 := abs_le.1 (p ((p (w h1) h2).trans (by norm_num)) (w h3))
  have := abs_le.1 h1
  have := abs_le.1 h2
  have := abs_le.1 h3
  rw [abs_le]
  constructor <;> norm_num at * <;> linarith

/-- C142: the total error of the default derivative of a field that is stored in double precision: fourth order in the spacing plus rounding errors that
grow with the number of latitudes. -/
theorem C142_field {F : ℝ → ℝ} (hF : ContDiff ℝ 5 F) : ∃ C : ℝ, ∀ (n : ℕ), 4 ≤ n → ∀ j ≤ n,
    |Binary64.derivative4 (Binary64.deg2rad (-rnd (180 / n : ℝ))) true (n + 1) (fun j => rnd (F (trueLatitude n j))) j - deriv F (trueLatitude n j)| ≤
      C * (1 / n ^ 4 + n / 2 ^ 53) := by
  have bound : ∀ g : ℝ → ℝ, Continuous g → ∃ M : ℝ, 0 ≤ M ∧ ∀ φ ∈ Set.Icc (-(Real.pi / 2)) (Real.pi / 2), |g φ| ≤ M := fun g hg => by
    obtain ⟨M, hM⟩ := (isCompact_Icc (a := -(Real.pi / 2)) (b := Real.pi / 2)).exists_bound_of_continuousOn hg.continuousOn
    exact ⟨|M|, abs_nonneg _, fun φ hφ => (hM φ hφ).trans (le_abs_self _)⟩
  obtain ⟨M0, p0, hM0⟩ := bound F hF.continuous
  obtain ⟨M1, p1, hM1⟩ := bound (deriv F) (hF.continuous_deriv (by norm_num))
  obtain ⟨M5, p5, hM5⟩ := bound (iteratedDeriv 5 F) (hF.continuous_iteratedDeriv 5 le_rfl)
  refine ⟨12 * M5 * Real.pi ^ 4 + 16 * M1 + 136 * M0, fun n hn j hj => ?_⟩
  have hnp : (0 : ℝ) < n := by exact_mod_cast (by omega : 0 < n)
  have hn1 : (1 : ℝ) ≤ n := by exact_mod_cast (by omega : 1 ≤ n)
  have key := C142_order4 hF hM0 hM1 hM5 hn (f := fun j => rnd (F (trueLatitude n j))) (ε := M0 / 2 ^ 53)
    (fun i hi => by
      rw [abs_sub_comm]
      exact (rnd_rel _).trans (div_le_div_of_nonneg_right (hM0 _ (trueLatitude_mem (by omega) hi)) (by positivity)))
    (C142_spacing (by omega)) (by norm_num) (poles := true) hj (.inl rfl)
  refine key.trans ?_
  have he : error4 (n + 1) j ≤ 6 := by unfold error4; split_ifs <;> norm_num
  have b1 : 2 * error4 (n + 1) j * M5 * (Real.pi / n) ^ 4 ≤ 12 * M5 * Real.pi ^ 4 * (1 / n ^ 4) := by
    calc _ ≤ 2 * 6 * M5 * (Real.pi / n) ^ 4 := by gcongr
      _ = _ := by rw [div_pow]; ring
  have b2 : 2 * (1 / 2 ^ 50) * M1 ≤ 16 * M1 * (n / 2 ^ 53) := by
    have := mul_le_mul_of_nonneg_left hn1 p1
    norm_num at this ⊢
    linarith
  have b3 : 8 * n * (M0 / 2 ^ 53 + (M0 + M0 / 2 ^ 53) * ((1 + 1 / 2 ^ 53) ^ 7 - 1)) ≤ 136 * M0 * (n / 2 ^ 53) := by
    have h1 : (M0 + M0 / 2 ^ 53) * ((1 + 1 / 2 ^ 53) ^ 7 - 1) ≤ 16 * (M0 / 2 ^ 53) := by
      have : (1 + 1 / 2 ^ 53 : ℝ) * ((1 + 1 / 2 ^ 53) ^ 7 - 1) ≤ 16 / 2 ^ 53 := by norm_num
      have := mul_le_mul_of_nonneg_left this p0
      calc _ = M0 * ((1 + 1 / 2 ^ 53 : ℝ) * ((1 + 1 / 2 ^ 53) ^ 7 - 1)) := by ring
        _ ≤ _ := this
        _ = _ := by ring
    have := mul_le_mul_of_nonneg_left h1 (by positivity : (0 : ℝ) ≤ 8 * n)
    rw [mul_add]
    refine (add_le_add_right this _).trans (le_of_eq ?_)
    ring
  have c1 : 0 ≤ 12 * M5 * Real.pi ^ 4 * (n / 2 ^ 53) := by positivity
  have c2 : 0 ≤ (16 * M1 + 136 * M0) * (1 / (n : ℝ) ^ 4) := by positivity
  have : (12 * M5 * Real.pi ^ 4 + 16 * M1 + 136 * M0) * (1 / (n : ℝ) ^ 4 + n / 2 ^ 53) = 12 * M5 * Real.pi ^ 4 * (1 / n ^ 4) + 16 * M1 * (n / 2 ^ 53) +
      136 * M0 * (n / 2 ^ 53) + 12 * M5 * Real.pi ^ 4 * (n / 2 ^ 53) + (16 * M1 + 136 * M0) * (1 / (n : ℝ) ^ 4) := by ring
  linarith

theorem combine_cast (f : ℕ → ℚ) (l : List (ℤ × ℕ)) : combine (fun i => (f i : ℝ)) l = ((combine f l : ℚ) : ℝ) := by
  have h : ∀ p : ℤ × ℕ, rnd ((p.1 : ℝ) * (f p.2 : ℝ)) = ((rnd ((p.1 : ℚ) * f p.2) : ℚ) : ℝ) := fun p => by
    rw [← rnd_cast]; push_cast; rfl
  have key : ∀ (l : List (ℤ × ℕ)) (acc : ℚ), l.foldl (fun acc p => rnd (acc + rnd ((p.1 : ℝ) * (f p.2 : ℝ)))) (acc : ℝ) =
      ((l.foldl (fun acc p => rnd (acc + rnd ((p.1 : ℚ) * f p.2))) acc : ℚ) : ℝ) := by
    intro l
    induction l with
    | nil => intro acc; rfl
    | cons p l ih =>
      intro acc
      rw [List.foldl_cons, List.foldl_cons, ← ih, h, ← Rat.cast_add, rnd_cast]
  cases l with
  | nil => simp [combine]
  | cons p l => rw [combine, combine, h, key]

/-- C142, refuted: finer grids are not always better. The computed derivative of the constant field 0.1 exceeds every bound on sufficiently fine grids. -/
theorem C142_refine_refuted : ∃ c : ℝ, IsDouble c ∧ ∀ B : ℝ, ∃ N : ℕ, ∀ n ≥ N, ∀ j, 2 ≤ j → j + 2 < n + 1 →
    B < Binary64.derivative4 (Binary64.deg2rad (-rnd (180 / n : ℝ))) true (n + 1) (fun _ => c) j := by
  obtain ⟨v, hv, hneg⟩ : ∃ v : ℚ, (∀ j, v = rnd (combine (fun _ => (rnd (1 / 10) : ℚ)) [(1, j - 2), (-8, j - 1), (8, j + 1), (-1, j + 2)] / 12)) ∧ v < 0 :=
    ⟨rnd (combine (fun _ => (rnd (1 / 10) : ℚ)) [(1, 0), (-8, 0), (8, 0), (-1, 0)] / 12), fun j => rfl, by decide +kernel⟩
  have hneg' : (v : ℝ) < 0 := by exact_mod_cast hneg
  refine ⟨((rnd (1 / 10) : ℚ) : ℝ), by rw [← rnd_cast]; exact rnd_isDouble _, fun B => ?_⟩
  obtain ⟨N, hN⟩ := exists_nat_gt (|B| * 20 / -(v : ℝ))
  refine ⟨N + 1, fun n hn j h2 h3 => ?_⟩
  have hi : coeffs4 true (n + 1) j = [(1, j - 2), (-8, j - 1), (8, j + 1), (-1, j + 2)] := by
    unfold coeffs4
    rw [if_neg (by omega), if_neg (by omega), if_neg (by omega), if_neg (by omega)]
  have hnp : (0 : ℝ) < n := by exact_mod_cast (by omega : 0 < n)
  have hpi := Real.pi_pos
  have hpi4 := Real.pi_le_four
  have hh : 0 < Real.pi / n := by positivity
  obtain ⟨d, hd⟩ : ∃ d, d = Binary64.deg2rad (-rnd (180 / n : ℝ)) := ⟨_, rfl⟩
  have hs := abs_le.1 (C142_spacing (n := n) (by omega))
  rw [← hd] at hs ⊢
  have hd1 : d < 0 := by norm_num at hs; linarith
  have hd2 : -d ≤ 5 / n := by
    have : Real.pi / n ≤ 4 / n := div_le_div_of_nonneg_right hpi4 hnp.le
    have h5 : (5 : ℝ) / n = 4 / n + 1 / n := by rw [← add_div]; norm_num
    have h6 : (4 : ℝ) / n = 4 * (1 / n) := by ring
    have h7 : 0 < (1 : ℝ) / n := by positivity
    norm_num at hs
    rw [h5]
    norm_num at *
    linarith
  have e : Binary64.derivative4 d true (n + 1) (fun _ => ((rnd (1 / 10) : ℚ) : ℝ)) j = rnd ((v : ℝ) / d) := by
    rw [Binary64.derivative4, hi, combine_cast, hv j]
    congr 2
    rw [← rnd_cast]
    push_cast
    rfl
  rw [e]
  have hx : 0 < (v : ℝ) / d := div_pos_of_neg_of_neg hneg' hd1
  obtain ⟨e1, he1, hr1⟩ := rnd_factor ((v : ℝ) / d)
  rw [hr1]
  have he := (abs_le.1 he1).1
  have h4 : (v : ℝ) / d * (1 / 2) ≤ (v : ℝ) / d * (1 + e1) := mul_le_mul_of_nonneg_left (by norm_num at he ⊢; linarith) hx.le
  have h5 : |B| * 20 < n * -(v : ℝ) := by
    rw [div_lt_iff₀ (by linarith)] at hN
    refine hN.trans_le (mul_le_mul_of_nonneg_right ?_ (by linarith))
    exact_mod_cast (by omega : N ≤ n)
  have h6 : n * -(v : ℝ) / 5 ≤ (v : ℝ) / d := by
    have h7 := (le_div_iff₀ hnp).1 hd2
    rw [← neg_div_neg_eq (v : ℝ) d, div_le_div_iff₀ (by norm_num) (by linarith)]
    have := mul_le_mul_of_nonneg_left h7 (by linarith : 0 ≤ -(v : ℝ))
    linarith
  have := le_abs_self B
  have := abs_nonneg B
  linarith

/-! ### Integrals -/

/-- The latitudes of a grid in double precision -/
theorem phi64_meridian {n : ℕ} (hn : 2 ≤ n) (h4 : n ≤ 2 ^ 40) : Meridian n (3 / n) (Binary64.phi (n + 1) : ℕ → ℝ) := by
  have hnp : (0 : ℝ) < n := by exact_mod_cast (by omega : 0 < n)
  have hn2 : (2 : ℝ) ≤ n := by exact_mod_cast hn
  have hnK : (n : ℝ) ≤ 2 ^ 40 := by exact_mod_cast h4
  have hpi := Real.pi_gt_d2
  have hpi2 := Real.pi_lt_d2
  have hc := fun j hj => abs_le.1 (C141_phi (n := n) (by omega) (h4.trans (by norm_num)) j hj)
  have hinv : (1 : ℝ) / 2 ^ 40 ≤ 1 / n := one_div_le_one_div_of_le hnp hnK
  have hinv2 : (1 : ℝ) / n ≤ 1 / 2 := one_div_le_one_div_of_le (by norm_num) hn2
  have hstep : ∀ j, trueLatitude n j - trueLatitude n (j + 1) = Real.pi * (1 / n) := fun j => by unfold trueLatitude; push_cast; ring
  have hm1 : (3.14 : ℝ) * (1 / n) ≤ Real.pi * (1 / n) := mul_le_mul_of_nonneg_right hpi.le (by positivity)
  have hm2 : Real.pi * (1 / n) ≤ 3.15 * (1 / n) := mul_le_mul_of_nonneg_right hpi2.le (by positivity)
  constructor
  · positivity
  · intro j hj
    have h1 := hc j hj
    obtain ⟨h2, h3⟩ := trueLatitude_mem (n := n) (by omega) hj
    rw [abs_le]
    norm_num at *
    constructor <;> linarith
  · intro j hj
    have h1 := hc j hj.le
    have h2 := hc (j + 1) hj
    have h3 := hstep j
    have : (3 : ℝ) / n = 3 * (1 / n) := by ring
    rw [this]
    norm_num at *
    linarith
  · intro j hj
    have h1 := hc j hj.le
    have h2 := hc (j + 1) hj
    have h3 := hstep j
    norm_num at *
    linarith

/-- Integration of the linear interpolation of a smooth function over arbitrary latitudes -/
theorem column_trunc {n : ℕ} {D H : ℝ} {x : ℕ → ℝ} (hx : Meridian n D x) (hH : ∀ j < n, x j - x (j + 1) ≤ H) {F : ℝ → ℝ} (hF : ContDiff ℝ 2 F) {M2 : ℝ}
    (hM2 : ∀ φ ∈ Set.Icc (-2 : ℝ) 2, |iteratedDeriv 2 F φ| ≤ M2) {r : ℝ} (hr : 0 ≤ r) :
    |sptrapzCol r n x (fun j => F (x j)) (fun _ => 1) - r * ∫ φ in x n..x 0, F φ * Real.cos φ| ≤ r * (M2 * H ^ 2 / 8 * (x 0 - x n)) := by
  have hlt : ∀ j < n, x (j + 1) < x j := fun j hj => by linarith [hx.step j hj, hx.pos]
  have hM0 : 0 ≤ M2 := (abs_nonneg _).trans (hM2 0 (by norm_num))
  have hcont : Continuous fun φ => F φ * Real.cos φ := hF.continuous.mul Real.continuous_cos
  have e2 : ∫ φ in x n..x 0, F φ * Real.cos φ = ∑ j ∈ Finset.range n, ∫ φ in x (j + 1)..x j, F φ * Real.cos φ := by
    have := intervalIntegral.sum_integral_adjacent_intervals (μ := MeasureTheory.volume) (f := fun φ => F φ * Real.cos φ) (a := x) (n := n)
      fun k _ => hcont.intervalIntegrable _ _
    rw [intervalIntegral.integral_symm, ← this, ← Finset.sum_neg_distrib]
    exact Finset.sum_congr rfl fun j _ => (intervalIntegral.integral_symm _ _).symm
  have e3 : M2 * H ^ 2 / 8 * (x 0 - x n) = ∑ j ∈ Finset.range n, M2 * H ^ 2 / 8 * (x j - x (j + 1)) := by
    rw [← Finset.mul_sum, Finset.sum_range_sub']
  unfold sptrapzCol
  rw [e2, e3, Finset.mul_sum, Finset.mul_sum, ← Finset.sum_sub_distrib]
  refine (Finset.abs_sum_le_sum_abs _ _).trans (Finset.sum_le_sum fun j hj => ?_)
  have hj := Finset.mem_range.1 hj
  have h10 : (0 : ℝ) ≤ 1 := by norm_num
  obtain ⟨i1, v1⟩ := seg_integral (hlt j hj) (F (x j)) (F (x (j + 1))) 1 1
  rw [if_pos (.inl h10)] at v1 ⊢
  rw [v1, ← mul_sub, abs_mul, abs_of_nonneg hr]
  refine mul_le_mul_of_nonneg_left ?_ hr
  rw [← intervalIntegral.integral_sub i1 (hcont.intervalIntegrable _ _)]
  have hb : ∀ φ ∈ Set.uIoc (x (j + 1)) (x j), ‖segFun (x j) (x (j + 1)) (F (x j)) (F (x (j + 1))) 1 1 φ - F φ * Real.cos φ‖ ≤ M2 * H ^ 2 / 8 := by
    intro φ hφ
    rw [Set.uIoc_of_le (hlt j hj).le] at hφ
    have hφ' : φ ∈ Set.Icc (x (j + 1)) (x j) := ⟨hφ.1.le, hφ.2⟩
    have hb0 := abs_le.1 (hx.bound j hj.le)
    have hb1 := abs_le.1 (hx.bound (j + 1) hj)
    have hl := linear_error hF (fun y hy => hM2 y ⟨by linarith [hy.1], by linarith [hy.2]⟩) (hlt j hj) hφ'
    have h1 : 0 ≤ aff (x j) (x (j + 1)) 1 1 φ := by simp [aff]
    rw [segFun, if_pos h1, ← sub_mul, norm_mul, Real.norm_eq_abs, Real.norm_eq_abs]
    have hs := hH j hj
    have hd0 : 0 ≤ x j - x (j + 1) := by linarith [hlt j hj]
    calc _ ≤ M2 * (x j - x (j + 1)) ^ 2 / 8 * 1 := mul_le_mul hl (Real.abs_cos_le_one φ) (abs_nonneg _) (by positivity)
      _ ≤ M2 * H ^ 2 / 8 := by rw [mul_one]; gcongr
  have := intervalIntegral.norm_integral_le_of_norm_le_const hb
  rw [Real.norm_eq_abs, abs_of_pos (by linarith [hlt j hj] : 0 < x j - x (j + 1))] at this
  exact this

/-- Truncation error of a column, and the errors of the values (`ε`) and of the latitudes -/
noncomputable def columnTrunc (n : ℕ) (M0 M1 M2 ε : ℝ) : ℝ := 6 * M2 / n ^ 2 + 4 * (ε + M1 / 2 ^ 49) + M0 / 2 ^ 48

theorem column_exact {n : ℕ} (hn : 2 ≤ n) (h4 : n ≤ 2 ^ 40) {F : ℝ → ℝ}
    (hF : ContDiff ℝ 2 F) {M0 M1 M2 : ℝ} (hM0 : ∀ φ ∈ Set.Icc (-2 : ℝ) 2, |F φ| ≤ M0) (hM1 : ∀ φ ∈ Set.Icc (-2 : ℝ) 2, |deriv F φ| ≤ M1)
    (hM2 : ∀ φ ∈ Set.Icc (-2 : ℝ) 2, |iteratedDeriv 2 F φ| ≤ M2) {r : ℝ} (hr : 0 ≤ r) {y : ℕ → ℝ} {ε : ℝ}
    (hy : ∀ j ≤ n, |y j - F (trueLatitude n j)| ≤ ε) :
    |sptrapzCol r n (Binary64.phi (n + 1)) y (fun _ => 1) - r * ∫ φ in -(Real.pi / 2)..Real.pi / 2, F φ * Real.cos φ| ≤ r * columnTrunc n M0 M1 M2 ε ∧
      ∀ j ≤ n, |y j| ≤ M0 + ε := by
  have hnp : (0 : ℝ) < n := by exact_mod_cast (by omega : 0 < n)
  have hnK : (n : ℝ) ≤ 2 ^ 40 := by exact_mod_cast h4
  have hpi := Real.pi_gt_d2
  have hpi2 := Real.pi_lt_d2
  have hx := phi64_meridian hn h4
  have hc := fun j hj => C141_phi (n := n) (by omega) (h4.trans (by norm_num)) j hj
  obtain ⟨x, hxe⟩ : ∃ x : ℕ → ℝ, x = Binary64.phi (n + 1) := ⟨_, rfl⟩
  rw [← hxe] at hx hc ⊢
  have mem2 : ∀ {φ : ℝ}, φ ∈ Set.Icc (-(Real.pi / 2)) (Real.pi / 2) → φ ∈ Set.Icc (-2 : ℝ) 2 := fun h => by
    constructor <;> norm_num at * <;> linarith [h.1, h.2]
  have hxm : ∀ j ≤ n, x j ∈ Set.Icc (-2 : ℝ) 2 := fun j hj => abs_le.1 (hx.bound j hj)
  have htm : ∀ j ≤ n, trueLatitude n j ∈ Set.Icc (-2 : ℝ) 2 := fun j hj => mem2 (trueLatitude_mem (by omega) hj)
  have hM1p : 0 ≤ M1 := (abs_nonneg _).trans (hM1 0 (by norm_num))
  have hM0p : 0 ≤ M0 := (abs_nonneg _).trans (hM0 0 (by norm_num))
  have hM2p : 0 ≤ M2 := (abs_nonneg _).trans (hM2 0 (by norm_num))
  -- values of the function at the computed latitudes
  have hlip : ∀ j ≤ n, |F (trueLatitude n j) - F (x j)| ≤ M1 / 2 ^ 49 := fun j hj => by
    have := (convex_Icc (-2 : ℝ) 2).norm_image_sub_le_of_norm_deriv_le (f := F) (C := M1)
      (fun z _ => (hF.differentiable (by norm_num)).differentiableAt) (fun z hz => hM1 z hz) (hxm j hj) (htm j hj)
    rw [Real.norm_eq_abs, Real.norm_eq_abs, abs_sub_comm (trueLatitude n j)] at this
    refine this.trans ((mul_le_mul_of_nonneg_left (hc j hj) hM1p).trans (le_of_eq (by ring)))
  have hyx : ∀ j ≤ n, |y j - F (x j)| ≤ ε + M1 / 2 ^ 49 := fun j hj => by
    calc _ = |(y j - F (trueLatitude n j)) + (F (trueLatitude n j) - F (x j))| := by congr 1; ring
      _ ≤ _ := (abs_add_le _ _).trans (add_le_add (hy j hj) (hlip j hj))
  have hyM : ∀ j ≤ n, |y j| ≤ M0 + ε := fun j hj => by
    have h1 := hy j hj
    have h2 := hM0 _ (htm j hj)
    have := abs_sub_abs_le_abs_sub (y j) (F (trueLatitude n j))
    linarith
  have a2 : |sptrapzCol r n x y (fun _ => 1) - sptrapzCol r n x (fun j => F (x j)) (fun _ => 1)| ≤ 4 * r * (ε + M1 / 2 ^ 49) := by
    have := sptrapzCol_linear r n x 1 (-1) y (fun j => F (x j)) (fun _ => 1)
    have e : sptrapzCol r n x y (fun _ => 1) - sptrapzCol r n x (fun j => F (x j)) (fun _ => 1) =
        sptrapzCol r n x (fun j => 1 * y j + -1 * F (x j)) (fun _ => 1) := by rw [this]; ring
    rw [e]
    refine (sptrapzCol_abs_le hx hr (fun _ => 1) fun j hj => ?_).2.1
    rw [show 1 * y j + -1 * F (x j) = y j - F (x j) by ring]
    exact hyx j hj
  have hH : ∀ j < n, x j - x (j + 1) ≤ 3.2 / n := fun j hj => by
    have h1 := abs_le.1 (hc j hj.le)
    have h2 := abs_le.1 (hc (j + 1) hj)
    have h3 : trueLatitude n j - trueLatitude n (j + 1) = Real.pi * (1 / n) := by unfold trueLatitude; push_cast; ring
    have hinv : (1 : ℝ) / 2 ^ 40 ≤ 1 / n := one_div_le_one_div_of_le hnp hnK
    have hm2 : Real.pi * (1 / n) ≤ 3.15 * (1 / n) := mul_le_mul_of_nonneg_right hpi2.le (by positivity)
    have : (3.2 : ℝ) / n = 3.2 * (1 / n) := by ring
    rw [this]
    norm_num at *
    linarith
  have a3 := column_trunc hx hH hF hM2 hr
  have hspan : x 0 - x n ≤ 4 := by linarith [(hxm 0 (by omega)).2, (hxm n le_rfl).1]
  have a3' : M2 * (3.2 / (n : ℝ)) ^ 2 / 8 * (x 0 - x n) ≤ 6 * M2 / n ^ 2 := by
    calc _ ≤ M2 * (3.2 / (n : ℝ)) ^ 2 / 8 * 4 := mul_le_mul_of_nonneg_left hspan (by positivity)
      _ = M2 / n ^ 2 * 5.12 := by rw [div_pow]; ring
      _ ≤ M2 / n ^ 2 * 6 := mul_le_mul_of_nonneg_left (by norm_num) (by positivity)
      _ = _ := by ring
  -- the gaps at the poles
  have hcont : Continuous fun φ => F φ * Real.cos φ := hF.continuous.mul Real.continuous_cos
  have gap : ∀ {a b : ℝ}, a ∈ Set.Icc (-2 : ℝ) 2 → b ∈ Set.Icc (-2 : ℝ) 2 → |b - a| ≤ 1 / 2 ^ 49 → |∫ φ in a..b, F φ * Real.cos φ| ≤ M0 / 2 ^ 49 := by
    intro a b ha hb hab
    have := intervalIntegral.norm_integral_le_of_norm_le_const (a := a) (b := b) (C := M0) (f := fun φ => F φ * Real.cos φ) fun φ hφ => by
      have hm : φ ∈ Set.Icc (-2 : ℝ) 2 := (Set.uIcc_subset_Icc ha hb) (Set.uIoc_subset_uIcc hφ)
      rw [norm_mul]
      exact (mul_le_mul (hM0 φ hm) (Real.abs_cos_le_one φ) (abs_nonneg _) hM0p).trans (by rw [mul_one])
    rw [Real.norm_eq_abs] at this
    refine this.trans ((mul_le_mul_of_nonneg_left hab hM0p).trans (le_of_eq (by ring)))
  have t0 : trueLatitude n 0 = Real.pi / 2 := by simp [trueLatitude]
  have tn : trueLatitude n n = -(Real.pi / 2) := by unfold trueLatitude; field_simp; ring
  have g1 := gap (htm 0 (by omega)) (hxm 0 (by omega)) (hc 0 (by omega))
  have g2 := gap (hxm n le_rfl) (htm n le_rfl) (by rw [abs_sub_comm]; exact hc n le_rfl)
  rw [t0] at g1
  rw [tn] at g2
  have a4 : |(∫ φ in x n..x 0, F φ * Real.cos φ) - ∫ φ in -(Real.pi / 2)..Real.pi / 2, F φ * Real.cos φ| ≤ M0 / 2 ^ 48 := by
    have ii : ∀ a b : ℝ, IntervalIntegrable (fun φ => F φ * Real.cos φ) MeasureTheory.volume a b := fun a b => hcont.intervalIntegrable _ _
    have e1 := intervalIntegral.integral_add_adjacent_intervals (ii (x n) (-(Real.pi / 2))) (ii (-(Real.pi / 2)) (Real.pi / 2))
    have e2 := intervalIntegral.integral_add_adjacent_intervals (ii (x n) (Real.pi / 2)) (ii (Real.pi / 2) (x 0))
    have h1 := abs_le.1 g1
    have h2 := abs_le.1 g2
    rw [← e2, ← e1, abs_le]
    constructor <;> linarith
  have a4' := mul_le_mul_of_nonneg_left a4 hr
  rw [← abs_of_nonneg hr, ← abs_mul, mul_sub, abs_of_nonneg hr] at a4'
  have a3'' := a3.trans (mul_le_mul_of_nonneg_left a3' hr)
  have b2 := abs_le.1 a2
  have b3 := abs_le.1 a3''
  have b4 := abs_le.1 a4'
  refine ⟨?_, hyM⟩
  unfold columnTrunc
  rw [abs_le]
  constructor <;> linarith

/-- C142: a column of `quad_meridional` (default method) of values that are known up to `ε` on the latitudes of the grid, against the integral of the
smooth function over the whole meridian. -/
theorem C142_column {sn cs : ℝ → ℝ} (hsc : GoodTrig sn cs) {n : ℕ} (hn : 2 ≤ n) (h4 : n ≤ 2 ^ 40) {t : SumTree} (ht : t.Sums n) {F : ℝ → ℝ}
    (hF : ContDiff ℝ 2 F) {M0 M1 M2 : ℝ} (hM0 : ∀ φ ∈ Set.Icc (-2 : ℝ) 2, |F φ| ≤ M0) (hM1 : ∀ φ ∈ Set.Icc (-2 : ℝ) 2, |deriv F φ| ≤ M1)
    (hM2 : ∀ φ ∈ Set.Icc (-2 : ℝ) 2, |iteratedDeriv 2 F φ| ≤ M2) {r : ℝ} (hr : 0 ≤ r) {y : ℕ → ℝ} {ε : ℝ}
    (hy : ∀ j ≤ n, |y j - F (trueLatitude n j)| ≤ ε) :
    |trapzColumn t sn cs r (Binary64.phi (n + 1)) (fun j => rnd (y j)) (fun _ => 1) - r * ∫ φ in -(Real.pi / 2)..Real.pi / 2, F φ * Real.cos φ| ≤
      r * columnTrunc n M0 M1 M2 ε + trapzError t n r (M0 + ε) (3 / n) := by
  obtain ⟨a2, hyM⟩ := column_exact hn h4 hF hM0 hM1 hM2 hr hy
  have r1 : rnd (1 : ℝ) = 1 := rnd_double ⟨1, 0, by norm_num, by norm_num⟩
  have a1 := C138_column hsc ht (phi64_meridian hn h4) hr (fun _ => 1) hyM
  rw [r1] at a1
  have b1 := abs_le.1 a1
  have b2 := abs_le.1 a2
  rw [abs_le]
  constructor <;> linarith

/-- Distance of neighbouring longitudes -/
noncomputable def lonStepOf (w : ℕ) : ℝ := 2 * Real.pi / w

/-- C142: `quad` (default method) of values that are known up to `ε`, with a spacing of longitudes that is known up to a relative error `δ`, against the
integral of the smooth function over the sphere. -/
theorem C142_quad {sn cs : ℝ → ℝ} (hsc : GoodTrig sn cs) {n w : ℕ} (hn : 2 ≤ n) (h4 : n ≤ 2 ^ 40) (hw : 0 < w) {t s : SumTree} (ht : t.Sums n) (hs : s.Sums w)
    {F : ℝ → ℝ → ℝ} (hF : ContDiff ℝ 2 fun p : ℝ × ℝ => F p.1 p.2) (hper : ∀ φ, F (2 * Real.pi) φ = F 0 φ) {L M0 M1 M2 : ℝ}
    (hL : ∀ x ∈ Set.Icc 0 (2 * Real.pi), ∀ φ ∈ Set.Icc (-(Real.pi / 2)) (Real.pi / 2), |iteratedDeriv 2 (fun x => F x φ) x| ≤ L)
    (hM0 : ∀ x ∈ Set.Icc 0 (2 * Real.pi), ∀ φ ∈ Set.Icc (-2 : ℝ) 2, |F x φ| ≤ M0)
    (hM1 : ∀ x ∈ Set.Icc 0 (2 * Real.pi), ∀ φ ∈ Set.Icc (-2 : ℝ) 2, |deriv (F x) φ| ≤ M1)
    (hM2 : ∀ x ∈ Set.Icc 0 (2 * Real.pi), ∀ φ ∈ Set.Icc (-2 : ℝ) 2, |iteratedDeriv 2 (F x) φ| ≤ M2) {r : ℝ} (hr : 0 ≤ r) {y : ℕ → ℕ → ℝ} {ε : ℝ}
    (hy : ∀ j ≤ n, ∀ i < w, |y j i - F (i * lonStepOf w) (trueLatitude n j)| ≤ ε) {dlam δ : ℝ} (hd0 : 0 ≤ dlam)
    (hd : |dlam - lonStepOf w| ≤ δ * lonStepOf w) :
    |trapzQuad t s sn cs r dlam (Binary64.phi (n + 1)) (fun j i => rnd (y j i)) (fun _ _ => 1) - sphereIntegral r F| ≤
      r ^ 2 * (2 * Real.pi * (1 + δ) * columnTrunc n M0 M1 M2 ε + 4 * Real.pi * δ * M0 + Real.pi * L * lonStepOf w ^ 2 / 3) +
        quadError s w r dlam (4 * r * (M0 + ε)) (trapzError t n r (M0 + ε) (3 / n)) := by
  have hwp : (0 : ℝ) < w := by exact_mod_cast hw
  have hpi := Real.pi_pos
  have hpi2 := Real.pi_lt_d2
  have hstep : 0 < lonStepOf w := by unfold lonStepOf; positivity
  have hlw : lonStepOf w * w = 2 * Real.pi := by unfold lonStepOf; field_simp
  have hlon : ∀ i < w, (i : ℝ) * lonStepOf w ∈ Set.Icc 0 (2 * Real.pi) := fun i hi => by
    refine ⟨by positivity, ?_⟩
    rw [← hlw, mul_comm]
    exact mul_le_mul_of_nonneg_left (by exact_mod_cast hi.le) hstep.le
  have hFx : ∀ x, ContDiff ℝ 2 (F x) := fun x => hF.comp (contDiff_prodMk_right x)
  have hcol := fun i (hi : i < w) => column_exact hn h4 (hFx (i * lonStepOf w)) (hM0 _ (hlon i hi)) (hM1 _ (hlon i hi)) (hM2 _ (hlon i hi)) hr
    fun j hj => hy j hj i hi
  have r1 : rnd (1 : ℝ) = 1 := rnd_double ⟨1, 0, by norm_num, by norm_num⟩
  have a1 := C138_quad hsc ht hs (phi64_meridian hn h4) hr hd0 (fun _ _ => 1) fun j hj i hi => (hcol i hi).2 j hj
  rw [r1] at a1
  obtain ⟨I, hI⟩ : ∃ I : ℕ → ℝ, I = fun i : ℕ => ∫ φ in -(Real.pi / 2)..Real.pi / 2, F ((i : ℝ) * lonStepOf w) φ * Real.cos φ := ⟨_, rfl⟩
  obtain ⟨c, hc⟩ : ∃ c : ℕ → ℝ, c = fun i => sptrapzCol r n (Binary64.phi (n + 1)) (fun j => y j i) (fun _ => 1) := ⟨_, rfl⟩
  obtain ⟨E, hE⟩ : ∃ E, E = columnTrunc n M0 M1 M2 ε := ⟨_, rfl⟩
  have hcI : ∀ i < w, |c i - r * I i| ≤ r * E := fun i hi => by rw [hc, hI, hE]; exact (hcol i hi).1
  have a1' : |trapzQuad t s sn cs r dlam (Binary64.phi (n + 1)) (fun j i => rnd (y j i)) (fun _ _ => 1) - r * dlam * ∑ i ∈ Finset.range w, c i| ≤
      quadError s w r dlam (4 * r * (M0 + ε)) (trapzError t n r (M0 + ε) (3 / n)) := by rw [hc]; exact a1
  have a2 : |∑ i ∈ Finset.range w, c i - r * ∑ i ∈ Finset.range w, I i| ≤ w * (r * E) := by
    rw [Finset.mul_sum, ← Finset.sum_sub_distrib]
    refine (Finset.abs_sum_le_sum_abs _ _).trans ((Finset.sum_le_sum fun i hi => hcI i (Finset.mem_range.1 hi)).trans (le_of_eq ?_))
    rw [Finset.sum_const, Finset.card_range, nsmul_eq_mul]
  have hIb : |∑ i ∈ Finset.range w, I i| ≤ w * (2 * M0) := by
    refine (Finset.abs_sum_le_sum_abs _ _).trans ((Finset.sum_le_sum (g := fun _ => 2 * M0) fun i hi => ?_).trans (le_of_eq ?_))
    · rw [hI]
      exact cos_weight fun φ hφ => hM0 _ (hlon i (Finset.mem_range.1 hi)) φ ⟨by norm_num at hpi2; linarith [hφ.1], by norm_num at hpi2; linarith [hφ.2]⟩
    · rw [Finset.sum_const, Finset.card_range, nsmul_eq_mul]
  have a4 := zonal_error hF hper hL hw
  have a4' : |r ^ 2 * (lonStepOf w * ∑ i ∈ Finset.range w, I i) - sphereIntegral r F| ≤ r ^ 2 * (Real.pi * L * lonStepOf w ^ 2 / 3) := by
    unfold sphereIntegral
    rw [← mul_sub, abs_mul, abs_of_nonneg (by positivity)]
    refine mul_le_mul_of_nonneg_left ?_ (by positivity)
    rw [hI]
    refine a4.trans (le_of_eq ?_)
    unfold lonStepOf
    ring
  have hdl : dlam ≤ (1 + δ) * lonStepOf w := by have := (abs_le.1 hd).2; linarith
  have hE0 : 0 ≤ r * E := (abs_nonneg _).trans (hcI 0 hw)
  have a2' : |r * dlam * ∑ i ∈ Finset.range w, c i - r * dlam * (r * ∑ i ∈ Finset.range w, I i)| ≤ r ^ 2 * (2 * Real.pi * (1 + δ) * E) := by
    rw [← mul_sub, abs_mul, abs_of_nonneg (by positivity : 0 ≤ r * dlam)]
    calc _ ≤ r * dlam * (w * (r * E)) := mul_le_mul_of_nonneg_left a2 (by positivity)
      _ = dlam * (r * (w * (r * E))) := by ring
      _ ≤ (1 + δ) * lonStepOf w * (r * (w * (r * E))) := mul_le_mul_of_nonneg_right hdl (by positivity)
      _ = r ^ 2 * ((lonStepOf w * w) * (1 + δ) * E) := by ring
      _ = _ := by rw [hlw]
  have hδ0 : 0 ≤ δ * lonStepOf w := (abs_nonneg _).trans hd
  have a3 : |r * dlam * (r * ∑ i ∈ Finset.range w, I i) - r ^ 2 * (lonStepOf w * ∑ i ∈ Finset.range w, I i)| ≤ r ^ 2 * (4 * Real.pi * δ * M0) := by
    have : r * dlam * (r * ∑ i ∈ Finset.range w, I i) - r ^ 2 * (lonStepOf w * ∑ i ∈ Finset.range w, I i) =
        r ^ 2 * ((dlam - lonStepOf w) * ∑ i ∈ Finset.range w, I i) := by ring
    rw [this, abs_mul, abs_of_nonneg (by positivity : (0 : ℝ) ≤ r ^ 2), abs_mul]
    refine mul_le_mul_of_nonneg_left ?_ (by positivity)
    calc _ ≤ δ * lonStepOf w * (w * (2 * M0)) := mul_le_mul hd hIb (abs_nonneg _) hδ0
      _ = δ * (lonStepOf w * w) * (2 * M0) := by ring
      _ = _ := by rw [hlw]; ring
  rw [← hE]
  have b1 := abs_le.1 a1'
  have b2 := abs_le.1 a2'
  have b3 := abs_le.1 a3
  have b4 := abs_le.1 a4'
  rw [abs_le]
  constructor <;> linarith

/-! ### Non-vacuity -/

/-- The derivative of the sine of latitude (planetary vorticity) -/
example : ∃ C : ℝ, ∀ n : ℕ, 4 ≤ n → ∀ j ≤ n,
    |Binary64.derivative4 (Binary64.deg2rad (-rnd (180 / n : ℝ))) true (n + 1) (fun j => rnd (Real.sin (trueLatitude n j))) j - Real.cos (trueLatitude n j)| ≤
      C * (1 / n ^ 4 + n / 2 ^ 53) := by
  obtain ⟨C, hC⟩ := C142_field (F := Real.sin) (Real.contDiff_sin)
  exact ⟨C, fun n hn j hj => by have := hC n hn j hj; rwa [Real.deriv_sin] at this⟩

/-- The area of the sphere -/
example {t s : SumTree} (ht : t.Sums 72) (hs : s.Sums 144) : |trapzQuad t s Real.sin Real.cos 1 (lonStepOf 144) (Binary64.phi 73) (fun _ _ => 1) (fun _ _ => 1) -
      sphereIntegral 1 fun _ _ => 1| ≤ 2 * Real.pi * (1 / 2 ^ 48) + quadError s 144 1 (lonStepOf 144) 4 (trapzError t 72 1 1 (3 / (72 : ℕ))) := by
  have hst : 0 ≤ lonStepOf 144 := by unfold lonStepOf; positivity
  have r1 : rnd (1 : ℝ) = 1 := rnd_double ⟨1, 0, by norm_num, by norm_num⟩
  have := C142_quad (sn := Real.sin) (cs := Real.cos) ⟨fun _ => by simp, fun _ => by simp⟩ (n := 72) (w := 144) (by norm_num) (by norm_num) (by norm_num) ht hs
    (F := fun _ _ => 1) contDiff_const (fun _ => rfl) (L := 0) (M0 := 1) (M1 := 0) (M2 := 0) (fun _ _ _ _ => by simp [iteratedDeriv_const]) (fun _ _ _ _ => by simp)
    (fun _ _ _ _ => by simp) (fun _ _ _ _ => by simp [iteratedDeriv_const]) (r := 1) (by norm_num) (y := fun _ _ => 1) (ε := 0) (fun _ _ _ _ => by simp) (δ := 0)
    hst (by simp)
  refine this.trans' ?_ |>.trans (le_of_eq ?_)
  · simp only [r1]; exact le_rfl
  · simp [columnTrunc]

end Barotropic
