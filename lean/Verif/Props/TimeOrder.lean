import Verif.Props.Waves

/-!
# Order of the time integration, numerical damping: C147
-/

namespace Barotropic
open Complex

variable {T : ℕ} {N : ℕ → ℕ → ℝ} {g : Grid ℝ} {B : ℕ} {S : g.Sph}

/-! ## Exponential function in the left half-plane -/

theorem norm_exp_le_one {w : ℂ} (hw : w.re ≤ 0) {t : ℝ} (ht : 0 ≤ t) : ‖exp (t * w)‖ ≤ 1 := by
  rw [Complex.norm_exp, Complex.re_ofReal_mul]
  exact Real.exp_le_one_iff.mpr (mul_nonpos_of_nonneg_of_nonpos ht hw)

theorem exp_line_deriv (w : ℂ) (t : ℝ) : HasDerivAt (fun t : ℝ => exp (t * w)) (w * exp (t * w)) t := by
  have h1 : HasDerivAt (fun t : ℝ => (t : ℂ) * w) (1 * w) t := (Complex.ofRealCLM.hasDerivAt (x := t)).mul_const w
  refine h1.cexp.congr_deriv ?_
  ring

theorem norm_exp_taylor1 {w : ℂ} (hw : w.re ≤ 0) {b : ℝ} (hb : 0 ≤ b) : ‖exp (b * w) - 1‖ ≤ b * ‖w‖ := by
  refine image_norm_le_of_norm_deriv_right_le_deriv_boundary (a := 0) (b := b) (f := fun t : ℝ => exp (t * w) - 1)
    (f' := fun t : ℝ => w * exp (t * w)) (B := fun t => t * ‖w‖) (B' := fun _ => ‖w‖)
    (fun t _ => ((exp_line_deriv w t).sub_const 1).continuousAt.continuousWithinAt) (fun t _ => ((exp_line_deriv w t).sub_const 1).hasDerivWithinAt) (by simp)
    (fun t => ?_) (fun t ht => ?_) ⟨hb, le_rfl⟩
  · simpa using (hasDerivAt_id t).mul_const ‖w‖
  · rw [norm_mul]
    exact mul_le_of_le_one_right (norm_nonneg _) (norm_exp_le_one hw ht.1)

theorem norm_exp_taylor2 {w : ℂ} (hw : w.re ≤ 0) {b : ℝ} (hb : 0 ≤ b) : ‖exp (b * w) - 1 - b * w‖ ≤ b ^ 2 / 2 * ‖w‖ ^ 2 := by
  have hd : ∀ t : ℝ, HasDerivAt (fun t : ℝ => exp (t * w) - 1 - t * w) (w * (exp (t * w) - 1)) t := fun t => by
    have h1 : HasDerivAt (fun t : ℝ => (t : ℂ) * w) (1 * w) t := (Complex.ofRealCLM.hasDerivAt (x := t)).mul_const w
    refine (((exp_line_deriv w t).sub_const 1).sub h1).congr_deriv ?_
    ring
  refine image_norm_le_of_norm_deriv_right_le_deriv_boundary (a := 0) (b := b) (f := fun t : ℝ => exp (t * w) - 1 - t * w)
    (f' := fun t : ℝ => w * (exp (t * w) - 1)) (B := fun t => t ^ 2 / 2 * ‖w‖ ^ 2) (B' := fun t => t * ‖w‖ ^ 2)
    (fun t _ => (hd t).continuousAt.continuousWithinAt) (fun t _ => (hd t).hasDerivWithinAt) (by simp)
    (fun t => ?_) (fun t ht => ?_) ⟨hb, le_rfl⟩
  · refine ((((hasDerivAt_id t).pow 2).div_const 2).mul_const (‖w‖ ^ 2)).congr_deriv ?_
    simp
  · rw [norm_mul]
    have := mul_le_mul_of_nonneg_left (norm_exp_taylor1 hw ht.1) (norm_nonneg w)
    linarith

theorem norm_exp_taylor3 {w : ℂ} (hw : w.re ≤ 0) {b : ℝ} (hb : 0 ≤ b) : ‖exp (b * w) - 1 - b * w - (b * w) ^ 2 / 2‖ ≤ b ^ 3 / 6 * ‖w‖ ^ 3 := by
  have hd : ∀ t : ℝ, HasDerivAt (fun t : ℝ => exp (t * w) - 1 - t * w - (t * w) ^ 2 / 2) (w * (exp (t * w) - 1 - t * w)) t := fun t => by
    have h1 : HasDerivAt (fun t : ℝ => (t : ℂ) * w) (1 * w) t := (Complex.ofRealCLM.hasDerivAt (x := t)).mul_const w
    refine ((((exp_line_deriv w t).sub_const 1).sub h1).sub ((h1.pow 2).div_const 2)).congr_deriv ?_
    norm_num
    ring
  refine image_norm_le_of_norm_deriv_right_le_deriv_boundary (a := 0) (b := b) (f := fun t : ℝ => exp (t * w) - 1 - t * w - (t * w) ^ 2 / 2)
    (f' := fun t : ℝ => w * (exp (t * w) - 1 - t * w)) (B := fun t => t ^ 3 / 6 * ‖w‖ ^ 3) (B' := fun t => t ^ 2 / 2 * ‖w‖ ^ 3)
    (fun t _ => (hd t).continuousAt.continuousWithinAt) (fun t _ => (hd t).hasDerivWithinAt) (by simp)
    (fun t => ?_) (fun t ht => ?_) ⟨hb, le_rfl⟩
  · refine ((((hasDerivAt_id t).pow 3).div_const 6).mul_const (‖w‖ ^ 3)).congr_deriv ?_
    simp only [id, mul_one]
    norm_num
    left
    ring
  · rw [norm_mul]
    have := mul_le_mul_of_nonneg_left (norm_exp_taylor2 hw ht.1) (norm_nonneg w)
    linarith

/-! ## The damped oscillation -/

/-- Factor by which the exact oscillation with additional damping changes in one step -/
noncomputable def dampedFactor (θ : ℝ) : ℂ := exp (-(I * θ) - (θ ^ 2 / 8 : ℝ))

theorem damped_re (θ : ℝ) : (-(I * θ) - (θ ^ 2 / 8 : ℝ) : ℂ).re ≤ 0 := by
  have : (-(I * θ) - (θ ^ 2 / 8 : ℝ) : ℂ).re = -(θ ^ 2 / 8) := by
    rw [sub_re, neg_re, ofReal_re]
    simp
  rw [this]
  have := sq_nonneg θ
  linarith

theorem damped_norm (θ : ℝ) : ‖dampedFactor θ‖ ≤ 1 := by
  have := norm_exp_le_one (damped_re θ) zero_le_one
  rwa [ofReal_one, one_mul] at this

theorem damped_exponent {θ : ℝ} (hθ : |θ| ≤ 1) : ‖(-(I * θ) - (θ ^ 2 / 8 : ℝ) : ℂ)‖ ≤ 9 / 8 * |θ| := by
  refine (norm_sub_le _ _).trans ?_
  rw [norm_neg, norm_mul, Complex.norm_I, one_mul, Complex.norm_real, Complex.norm_real, Real.norm_eq_abs, Real.norm_eq_abs, abs_div, abs_pow]
  have := abs_nonneg θ
  rw [show |(8 : ℝ)| = 8 by norm_num]
  nlinarith

theorem cubes {x : ℝ} (h0 : 0 ≤ x) (h1 : x ≤ 1) : x ^ 3 ≤ x ^ 2 ∧ x ^ 4 ≤ x ^ 3 ∧ x ^ 5 ≤ x ^ 3 ∧ x ^ 4 ≤ x ^ 2 :=
  ⟨pow_le_pow_of_le_one h0 h1 (by norm_num), pow_le_pow_of_le_one h0 h1 (by norm_num), pow_le_pow_of_le_one h0 h1 (by norm_num),
    pow_le_pow_of_le_one h0 h1 (by norm_num)⟩

/-- The damped oscillation satisfies the recurrence of the filtered leapfrog scheme up to an error of third order. -/
theorem damped_residual (θ : ℝ) : ‖dampedFactor θ ^ 2 - (2 / 5 - 2 * (I * θ)) * dampedFactor θ - (3 / 5 + 2 / 5 * (I * θ))‖ ≤ 5 * |θ| ^ 3 := by
  have hθ : ‖I * (θ : ℂ)‖ = |θ| := by simp
  have n1 : ‖(2 / 5 - 2 * (I * θ) : ℂ)‖ ≤ 2 / 5 + 2 * |θ| := by
    refine (norm_sub_le _ _).trans ?_
    rw [norm_mul, hθ]
    norm_num
  have n2 : ‖(3 / 5 + 2 / 5 * (I * θ) : ℂ)‖ ≤ 3 / 5 + 2 / 5 * |θ| := by
    refine (norm_add_le _ _).trans ?_
    rw [norm_mul, hθ]
    norm_num
  have hρ := damped_norm θ
  have h0 := abs_nonneg θ
  rcases le_total |θ| 1 with h1 | h1
  · obtain ⟨w, hw⟩ : ∃ w : ℂ, w = -(I * θ) - (θ ^ 2 / 8 : ℝ) := ⟨_, rfl⟩
    have hre : w.re ≤ 0 := hw ▸ damped_re θ
    have hwn : ‖w‖ ≤ 9 / 8 * |θ| := hw ▸ damped_exponent h1
    have t1 := norm_exp_taylor3 hre zero_le_one
    have t2 := norm_exp_taylor3 hre zero_le_two
    rw [ofReal_one, one_mul] at t1
    have e2 : exp ((2 : ℝ) * w) = dampedFactor θ ^ 2 := by
      rw [dampedFactor, ← hw, ← Complex.exp_nat_mul]
      norm_num
    have e1 : exp w = dampedFactor θ := by rw [dampedFactor, ← hw]
    rw [e1] at t1
    rw [e2] at t2
    have w3 : ‖w‖ ^ 3 ≤ 729 / 512 * |θ| ^ 3 := by
      refine (pow_le_pow_left₀ (norm_nonneg _) hwn 3).trans (le_of_eq ?_)
      ring
    have e : dampedFactor θ ^ 2 - (2 / 5 - 2 * (I * θ)) * dampedFactor θ - (3 / 5 + 2 / 5 * (I * θ)) =
        (dampedFactor θ ^ 2 - 1 - (2 : ℝ) * w - ((2 : ℝ) * w) ^ 2 / 2) - (2 / 5 - 2 * (I * θ)) * (dampedFactor θ - 1 - w - w ^ 2 / 2) +
        (-(4 / 5) * I * (θ : ℂ) ^ 3 + (-(71 / 320)) * (θ : ℂ) ^ 4 + 1 / 64 * I * (θ : ℂ) ^ 5) := by
      rw [hw]
      push_cast
      linear_combination ((θ : ℂ) ^ 2 * (-1 / 5) + I * (θ : ℂ) ^ 3 + (θ : ℂ) ^ 4 / 4) * Complex.I_sq
    obtain ⟨c1, c2, c3, -⟩ := cubes h0 h1
    rw [e]
    have b1 := norm_add_le ((dampedFactor θ ^ 2 - 1 - (2 : ℝ) * w - ((2 : ℝ) * w) ^ 2 / 2) - (2 / 5 - 2 * (I * θ)) * (dampedFactor θ - 1 - w - w ^ 2 / 2))
      (-(4 / 5) * I * (θ : ℂ) ^ 3 + (-(71 / 320)) * (θ : ℂ) ^ 4 + 1 / 64 * I * (θ : ℂ) ^ 5)
    have b2 := norm_sub_le (dampedFactor θ ^ 2 - 1 - (2 : ℝ) * w - ((2 : ℝ) * w) ^ 2 / 2) ((2 / 5 - 2 * (I * θ)) * (dampedFactor θ - 1 - w - w ^ 2 / 2))
    have b3 : ‖(-(4 / 5) * I * (θ : ℂ) ^ 3 + (-(71 / 320)) * (θ : ℂ) ^ 4 + 1 / 64 * I * (θ : ℂ) ^ 5)‖ ≤ (4 / 5 + 71 / 320 + 1 / 64) * |θ| ^ 3 := by
      refine (norm_add₃_le).trans ?_
      simp only [norm_mul, norm_pow, norm_neg, Complex.norm_I, Complex.norm_real, Real.norm_eq_abs]
      norm_num
      linarith
    have b4 : ‖(2 / 5 - 2 * (I * θ)) * (dampedFactor θ - 1 - w - w ^ 2 / 2)‖ ≤ (2 / 5 + 2) * (1 / 6 * (729 / 512 * |θ| ^ 3)) := by
      rw [norm_mul]
      refine mul_le_mul (n1.trans (by linarith)) (t1.trans ?_) (norm_nonneg _) (by norm_num)
      linarith
    have b5 : ‖dampedFactor θ ^ 2 - 1 - (2 : ℝ) * w - ((2 : ℝ) * w) ^ 2 / 2‖ ≤ 8 / 6 * (729 / 512 * |θ| ^ 3) := by
      refine t2.trans ?_
      norm_num
      linarith
    have h3 : 0 ≤ |θ| ^ 3 := by positivity
    linarith
  · have h3 : |θ| ≤ |θ| ^ 3 := le_self_pow₀ h1 (by norm_num)
    have b1 := norm_sub_le (dampedFactor θ ^ 2 - (2 / 5 - 2 * (I * θ)) * dampedFactor θ) (3 / 5 + 2 / 5 * (I * θ))
    have b2 := norm_sub_le (dampedFactor θ ^ 2) ((2 / 5 - 2 * (I * θ)) * dampedFactor θ)
    rw [norm_pow, norm_mul] at b2
    have b3 : ‖dampedFactor θ‖ ^ 2 ≤ 1 := pow_le_one₀ (norm_nonneg _) hρ
    have b4 := mul_le_of_le_one_right (norm_nonneg (2 / 5 - 2 * (I * θ) : ℂ)) hρ
    linarith

theorem damped_start (θ : ℝ) : ‖(oscillation θ 1).1 - dampedFactor θ‖ ≤ 4 * θ ^ 2 := by
  have e0 : (oscillation θ 1).1 = 1 - I * θ - 2 / 5 * (θ : ℂ) ^ 2 := by
    simp only [oscillation]
    linear_combination (2 / 5 * (θ : ℂ) ^ 2) * Complex.I_sq
  rw [e0]
  have h0 := abs_nonneg θ
  have hθ : ‖I * (θ : ℂ)‖ = |θ| := by simp
  have hsq : θ ^ 2 = |θ| ^ 2 := (sq_abs θ).symm
  rcases le_total |θ| 1 with h1 | h1
  · obtain ⟨w, hw⟩ : ∃ w : ℂ, w = -(I * θ) - (θ ^ 2 / 8 : ℝ) := ⟨_, rfl⟩
    have hre : w.re ≤ 0 := hw ▸ damped_re θ
    have hwn : ‖w‖ ≤ 9 / 8 * |θ| := hw ▸ damped_exponent h1
    have t1 := norm_exp_taylor2 hre zero_le_one
    rw [ofReal_one, one_mul, show exp w = dampedFactor θ by rw [dampedFactor, ← hw]] at t1
    have w2 : ‖w‖ ^ 2 ≤ 81 / 64 * |θ| ^ 2 := by
      refine (pow_le_pow_left₀ (norm_nonneg _) hwn 2).trans (le_of_eq ?_)
      ring
    have e : (1 - I * θ - 2 / 5 * (θ : ℂ) ^ 2) - dampedFactor θ = -(dampedFactor θ - 1 - w) + (-(11 / 40)) * (θ : ℂ) ^ 2 := by
      rw [hw]
      push_cast
      ring
    rw [e, hsq]
    refine (norm_add_le _ _).trans ?_
    rw [norm_neg]
    have : ‖(-(11 / 40)) * (θ : ℂ) ^ 2‖ = 11 / 40 * |θ| ^ 2 := by
      simp only [norm_mul, norm_pow, norm_neg, Complex.norm_real, Real.norm_eq_abs]
      norm_num
    have h2 : 0 ≤ |θ| ^ 2 := by positivity
    norm_num at t1
    linarith
  · have h2 : |θ| ≤ |θ| ^ 2 := le_self_pow₀ h1 (by norm_num)
    have b1 := norm_sub_le (1 - I * θ - 2 / 5 * (θ : ℂ) ^ 2) (dampedFactor θ)
    have b2 := norm_sub_le (1 - I * θ) (2 / 5 * (θ : ℂ) ^ 2)
    have b3 := norm_sub_le 1 (I * (θ : ℂ))
    rw [hθ, norm_one] at b3
    have b4 : ‖2 / 5 * (θ : ℂ) ^ 2‖ = 2 / 5 * |θ| ^ 2 := by
      simp only [norm_mul, norm_pow, Complex.norm_real, Real.norm_eq_abs]
      norm_num
    have := damped_norm θ
    rw [hsq]
    linarith

/-- The discretised oscillation equation converges with second order to an oscillation that is damped by `θ² / 8` in every step. -/
theorem oscillation_damped (θ : ℝ) (j : ℕ) : ‖(oscillation θ j).1 - dampedFactor θ ^ j‖ ≤ (4 * θ ^ 2 + 5 * |θ| ^ 3 * j) * (1 + 12 / 5 * |θ|) ^ j := by
  have h0 := abs_nonneg θ
  have hθ : ‖I * (θ : ℂ)‖ = |θ| := by simp
  have n1 : ‖(2 / 5 - 2 * (I * θ) : ℂ)‖ ≤ 2 / 5 + 2 * |θ| := by
    refine (norm_sub_le _ _).trans ?_
    rw [norm_mul, hθ]
    norm_num
  have n2 : ‖(3 / 5 + 2 / 5 * (I * θ) : ℂ)‖ ≤ 3 / 5 + 2 / 5 * |θ| := by
    refine (norm_add_le _ _).trans ?_
    rw [norm_mul, hθ]
    norm_num
  have h3 : 0 ≤ |θ| ^ 3 := by positivity
  suffices key : ‖(oscillation θ j).1 - dampedFactor θ ^ j‖ ≤ (4 * θ ^ 2 + 5 * |θ| ^ 3 * j) * (1 + 12 / 5 * |θ|) ^ j ∧
      ‖(oscillation θ (j + 1)).1 - dampedFactor θ ^ (j + 1)‖ ≤ (4 * θ ^ 2 + 5 * |θ| ^ 3 * j) * (1 + 12 / 5 * |θ|) ^ j from key.1
  induction j with
  | zero =>
    constructor
    · simp only [oscillation, pow_zero, sub_self, norm_zero]
      positivity
    · simpa using damped_start θ
  | succ j ih =>
    obtain ⟨i1, i2⟩ := ih
    obtain ⟨G, hG⟩ : ∃ G, G = (1 + 12 / 5 * |θ|) ^ j := ⟨_, rfl⟩
    have hG1 : 1 ≤ G := hG ▸ one_le_pow₀ (by linarith)
    rw [← hG] at i1 i2
    have hX : 0 ≤ (4 * θ ^ 2 + 5 * |θ| ^ 3 * j) * G := by positivity
    rw [pow_succ (1 + 12 / 5 * |θ|) j, ← hG]
    push_cast
    have c1 : 0 ≤ |θ| ^ 3 * G := by positivity
    have c2 : 0 ≤ |θ| ^ 3 * G * |θ| := by positivity
    have c3 : 0 ≤ (4 * θ ^ 2 + 5 * |θ| ^ 3 * j) * G * |θ| := by positivity
    have c4 : |θ| ^ 3 ≤ |θ| ^ 3 * G := le_mul_of_one_le_right h3 hG1
    refine ⟨i2.trans (by nlinarith), ?_⟩
    have e : (oscillation θ (j + 1 + 1)).1 - dampedFactor θ ^ (j + 1 + 1) =
        (2 / 5 - 2 * (I * θ)) * ((oscillation θ (j + 1)).1 - dampedFactor θ ^ (j + 1)) + (3 / 5 + 2 / 5 * (I * θ)) * ((oscillation θ j).1 - dampedFactor θ ^ j) +
        -(dampedFactor θ ^ 2 - (2 / 5 - 2 * (I * θ)) * dampedFactor θ - (3 / 5 + 2 / 5 * (I * θ))) * dampedFactor θ ^ j := by
      rw [oscillation_rec]
      ring
    rw [e]
    refine norm_add₃_le.trans ?_
    rw [norm_mul, norm_mul, norm_mul, norm_neg, norm_pow]
    have d1 := mul_le_mul n1 i2 (norm_nonneg _) (by positivity)
    have d2 := mul_le_mul n2 i1 (norm_nonneg _) (by positivity)
    have d3 := mul_le_mul (damped_residual θ) (pow_le_one₀ (n := j) (norm_nonneg _) (damped_norm θ)) (by positivity) (by positivity)
    nlinarith

/-! ## Integrations -/

/-- Bound for the error of second order of a mode with frequency `ω` after the time `t` (relative to the amplitude) -/
noncomputable def secondOrder (ω Δ t : ℝ) : ℝ := (ω * Δ) ^ 2 * (4 + 5 * |ω| * t) * Real.exp (12 / 5 * |ω| * t)

theorem damped_error (ω : ℝ) {Δ : ℝ} (hΔ : 0 ≤ Δ) (j : ℕ) :
    ‖(oscillation (ω * Δ) j).1 * exp (I * (ω * (j * Δ) : ℝ)) - (Real.exp (-(ω ^ 2 * (j * Δ) * Δ / 8)) : ℝ)‖ ≤ secondOrder ω Δ (j * Δ) := by
  have h1 := oscillation_damped (ω * Δ) j
  have e : dampedFactor (ω * Δ) ^ j * exp (I * (ω * (j * Δ) : ℝ)) = (Real.exp (-(ω ^ 2 * (j * Δ) * Δ / 8)) : ℝ) := by
    rw [dampedFactor, ← Complex.exp_nat_mul, ← Complex.exp_add, Complex.ofReal_exp]
    congr 1
    push_cast
    ring
  rw [← e, ← sub_mul, norm_mul, Complex.norm_exp_I_mul_ofReal, mul_one]
  refine h1.trans ?_
  have h2 : (1 + 12 / 5 * |ω * Δ|) ^ j ≤ Real.exp (12 / 5 * |ω| * (j * Δ)) := by
    rw [show 12 / 5 * |ω| * (j * Δ) = j * (12 / 5 * (|ω| * Δ)) by ring, Real.exp_nat_mul, abs_mul, abs_of_nonneg hΔ]
    refine pow_le_pow_left₀ (by positivity) ?_ j
    have := Real.add_one_le_exp (12 / 5 * (|ω| * Δ))
    linarith
  have h3 : 4 * (ω * Δ) ^ 2 + 5 * |ω * Δ| ^ 3 * j = (ω * Δ) ^ 2 * (4 + 5 * |ω| * (j * Δ)) := by
    rw [pow_succ |ω * Δ| 2, sq_abs, abs_mul, abs_of_nonneg hΔ]
    ring
  rw [h3]
  exact mul_le_mul_of_nonneg_left h2 (by positivity)

/-- C147: time integrations of the waves of C107 without forcing and diffusion. Every mode of every state that `run` returns is the mode of
the exact solution at the time of the state, multiplied with a number whose difference from `exp (-ω² t Δt / 8)` (a damping of first order
in the time step) is of second order in the time step. -/
theorem C147_mode (hg : g.Valid) (h : Spharm.Exact N B S) {M : BModel g} (hM : M.rhs = none) (hν : M.diffusionCoeff = 0) (s : St PyTime g)
    (dt : PyDelta) (tend : PyTime) (se : ℝ) (hc : s.time.Compatible dt) (hk : s.time.SameKind tend) (hd : 0 < toSeconds dt) (sf : St PyTime g)
    (saved : List (St PyTime g)) (hret : M.Returns S s dt tend se sf saved) {W : ℝ} {n : ℕ} (hn : 1 ≤ n) (hT : 2 * n ≤ g.ntrunc)
    (hB : 2 * n ≤ B) {a : g.Spc} (ha : SingleDegree n a) (hs : s.q = solidRotation N W + a) :
    ∀ s' ∈ sf :: saved, ∀ k,
      let t := s'.time.sec - s.time.sec
      let ω := specM k * waveSpeed g.omega W n
      ∃ r : ℂ, s'.q k = (solidRotation N W : g.Spc) k + r * (shiftEast (waveSpeed g.omega W n * t) a : g.Spc) k ∧
        ‖r - (Real.exp (-(ω ^ 2 * t * toSeconds dt / 8)) : ℝ)‖ ≤ secondOrder ω (toSeconds dt) t := by
  obtain ⟨m, x, y, ks, hx, e1, e2, e3, e4, e5⟩ := C100_run h.linear hν.ge s dt tend se hc hk hd sf saved hret
  have key : ∀ j ≤ m, ∀ k,
      let t := (x j).time.sec - s.time.sec
      let ω := specM k * waveSpeed g.omega W n
      ∃ r : ℂ, (x j).q k = (solidRotation N W : g.Spc) k + r * (shiftEast (waveSpeed g.omega W n * t) a : g.Spc) k ∧
        ‖r - (Real.exp (-(ω ^ 2 * t * toSeconds dt / 8)) : ℝ)‖ ≤ secondOrder ω (toSeconds dt) t := by
    intro j hj k t ω
    have htt : t = j * toSeconds dt := by
      change (x j).time.sec - s.time.sec = _
      rw [(hx.times j hj).1, sec_stepTime hc]
      ring
    rw [htt]
    refine ⟨_, ?_, damped_error ω hd.le j⟩
    rw [(C107_run hg h hM hν hx hn hT hB ha hs j hj).1]
    simp only [Pi.add_apply, shiftEast]
    rw [show (specM k : ℝ) * (waveSpeed g.omega W n * (j * toSeconds dt)) = ω * (j * toSeconds dt) by simp only [ω]; ring]
    have e : exp (I * (ω * (j * toSeconds dt) : ℝ)) * exp (-(I * (ω * (j * toSeconds dt) : ℝ))) = 1 := by
      rw [← Complex.exp_add, add_neg_cancel, Complex.exp_zero]
    linear_combination -((oscillation (ω * toSeconds dt) j).1 * a k) * e
  intro s' hs'
  rcases List.mem_cons.mp hs' with rfl | hs'
  · rw [e1]; exact key m le_rfl
  · rw [e2] at hs'
    obtain ⟨j, hj, rfl⟩ := List.mem_map.mp hs'
    exact key j (e3 j hj)

theorem shiftEast_norm {T : ℕ} (α : ℝ) (a : SpecField T) (k : Fin (nspec T)) : ‖shiftEast α a k‖ = ‖a k‖ := by
  unfold shiftEast
  rw [norm_mul, ← mul_neg, ← Complex.ofReal_neg, Complex.norm_exp_I_mul_ofReal, one_mul]

/-- C147: difference between the computed and the exact, artificially damped wave. -/
theorem C147_wave (hg : g.Valid) (h : Spharm.Exact N B S) {M : BModel g} (hM : M.rhs = none) (hν : M.diffusionCoeff = 0) (s : St PyTime g)
    (dt : PyDelta) (tend : PyTime) (se : ℝ) (hc : s.time.Compatible dt) (hk : s.time.SameKind tend) (hd : 0 < toSeconds dt) (sf : St PyTime g)
    (saved : List (St PyTime g)) (hret : M.Returns S s dt tend se sf saved) {W : ℝ} {n : ℕ} (hn : 1 ≤ n) (hT : 2 * n ≤ g.ntrunc)
    (hB : 2 * n ≤ B) {a : g.Spc} (ha : SingleDegree n a) (hs : s.q = solidRotation N W + a) :
    ∀ s' ∈ sf :: saved, ∀ k,
      let t := s'.time.sec - s.time.sec
      let ω := specM k * waveSpeed g.omega W n
      ‖s'.q k - ((solidRotation N W : g.Spc) k + (Real.exp (-(ω ^ 2 * t * toSeconds dt / 8)) : ℝ) * (shiftEast (waveSpeed g.omega W n * t) a : g.Spc) k)‖ ≤
        secondOrder ω (toSeconds dt) t * ‖a k‖ := by
  intro s' hs' k t ω
  obtain ⟨r, h1, h2⟩ := C147_mode hg h hM hν s dt tend se hc hk hd sf saved hret hn hT hB ha hs s' hs' k
  rw [h1, add_sub_add_left_eq_sub, ← sub_mul, norm_mul, shiftEast_norm]
  exact mul_le_mul_of_nonneg_right h2 (norm_nonneg _)

/-- C147: amplitudes. -/
theorem C147_amplitude (hg : g.Valid) (h : Spharm.Exact N B S) {M : BModel g} (hM : M.rhs = none) (hν : M.diffusionCoeff = 0) (s : St PyTime g)
    (dt : PyDelta) (tend : PyTime) (se : ℝ) (hc : s.time.Compatible dt) (hk : s.time.SameKind tend) (hd : 0 < toSeconds dt) (sf : St PyTime g)
    (saved : List (St PyTime g)) (hret : M.Returns S s dt tend se sf saved) {W : ℝ} {n : ℕ} (hn : 1 ≤ n) (hT : 2 * n ≤ g.ntrunc)
    (hB : 2 * n ≤ B) {a : g.Spc} (ha : SingleDegree n a) (hs : s.q = solidRotation N W + a) :
    ∀ s' ∈ sf :: saved, ∀ k,
      let t := s'.time.sec - s.time.sec
      let ω := specM k * waveSpeed g.omega W n
      |‖s'.q k - (solidRotation N W : g.Spc) k‖ - Real.exp (-(ω ^ 2 * t * toSeconds dt / 8)) * ‖a k‖| ≤ secondOrder ω (toSeconds dt) t * ‖a k‖ := by
  intro s' hs' k t ω
  obtain ⟨r, h1, h2⟩ := C147_mode hg h hM hν s dt tend se hc hk hd sf saved hret hn hT hB ha hs s' hs' k
  rw [h1, add_sub_cancel_left, norm_mul, shiftEast_norm, ← sub_mul, abs_mul, abs_norm]
  refine mul_le_mul_of_nonneg_right ?_ (norm_nonneg _)
  have h3 := (abs_norm_sub_norm_le r (Real.exp (-(ω ^ 2 * t * toSeconds dt / 8)) : ℝ)).trans h2
  rwa [Complex.norm_real, Real.norm_eq_abs, Real.abs_exp] at h3

/-- C147: phases. The component of the computed mode that is a quarter of a wavelength away from the exact mode is of second order: the phase
speed of the computed wave has no error of first order. -/
theorem C147_phase (hg : g.Valid) (h : Spharm.Exact N B S) {M : BModel g} (hM : M.rhs = none) (hν : M.diffusionCoeff = 0) (s : St PyTime g)
    (dt : PyDelta) (tend : PyTime) (se : ℝ) (hc : s.time.Compatible dt) (hk : s.time.SameKind tend) (hd : 0 < toSeconds dt) (sf : St PyTime g)
    (saved : List (St PyTime g)) (hret : M.Returns S s dt tend se sf saved) {W : ℝ} {n : ℕ} (hn : 1 ≤ n) (hT : 2 * n ≤ g.ntrunc)
    (hB : 2 * n ≤ B) {a : g.Spc} (ha : SingleDegree n a) (hs : s.q = solidRotation N W + a) :
    ∀ s' ∈ sf :: saved, ∀ k,
      let t := s'.time.sec - s.time.sec
      let ω := specM k * waveSpeed g.omega W n
      |((s'.q k - (solidRotation N W : g.Spc) k) * (starRingEnd ℂ) ((shiftEast (waveSpeed g.omega W n * t) a : g.Spc) k)).im| ≤
        secondOrder ω (toSeconds dt) t * ‖a k‖ ^ 2 := by
  intro s' hs' k t ω
  obtain ⟨r, h1, h2⟩ := C147_mode hg h hM hν s dt tend se hc hk hd sf saved hret hn hT hB ha hs s' hs' k
  rw [h1, add_sub_cancel_left, mul_assoc, Complex.mul_conj, Complex.im_mul_ofReal, Complex.normSq_eq_norm_sq, shiftEast_norm, abs_mul,
    abs_of_nonneg (sq_nonneg ‖a k‖)]
  refine mul_le_mul_of_nonneg_right ?_ (sq_nonneg _)
  have h3 := (Complex.abs_im_le_norm (r - (Real.exp (-(ω ^ 2 * t * toSeconds dt / 8)) : ℝ))).trans h2
  rwa [Complex.sub_im, Complex.ofReal_im, sub_zero] at h3

/-- C147: the error that the damping causes, for small time steps. -/
theorem C147_damping (hg : g.Valid) (h : Spharm.Exact N B S) {M : BModel g} (hM : M.rhs = none) (hν : M.diffusionCoeff = 0) (s : St PyTime g)
    (dt : PyDelta) (tend : PyTime) (se : ℝ) (hc : s.time.Compatible dt) (hk : s.time.SameKind tend) (hd : 0 < toSeconds dt) (sf : St PyTime g)
    (saved : List (St PyTime g)) (hret : M.Returns S s dt tend se sf saved) {W : ℝ} {n : ℕ} (hn : 1 ≤ n) (hT : 2 * n ≤ g.ntrunc)
    (hB : 2 * n ≤ B) {a : g.Spc} (ha : SingleDegree n a) (hs : s.q = solidRotation N W + a) :
    ∀ s' ∈ sf :: saved, ∀ k,
      let t := s'.time.sec - s.time.sec
      let ω := specM k * waveSpeed g.omega W n
      ω ^ 2 * t * toSeconds dt ≤ 8 →
      (ω ^ 2 * t * toSeconds dt / 16 - secondOrder ω (toSeconds dt) t) * ‖a k‖ ≤
        ‖s'.q k - (solidRotation N W + shiftEast (waveSpeed g.omega W n * t) a : g.Spc) k‖ := by
  intro s' hs' k t ω hsmall
  obtain ⟨r, h1, h2⟩ := C147_mode hg h hM hν s dt tend se hc hk hd sf saved hret hn hT hB ha hs s' hs' k
  have ht : 0 ≤ t := (C108_error hg h hM hν s dt tend se hc hk hd sf saved hret hn hT hB ha hs s' hs' k).1
  have e : s'.q k - (solidRotation N W + shiftEast (waveSpeed g.omega W n * t) a : g.Spc) k =
      (r - 1) * (shiftEast (waveSpeed g.omega W n * t) a : g.Spc) k := by
    rw [h1, Pi.add_apply]
    ring
  rw [e, norm_mul, shiftEast_norm]
  refine mul_le_mul_of_nonneg_right ?_ (norm_nonneg _)
  obtain ⟨X, hX⟩ : ∃ X, X = ω ^ 2 * t * toSeconds dt / 8 := ⟨_, rfl⟩
  have hX0 : 0 ≤ X := by rw [hX]; positivity
  have hX1 : X ≤ 1 := by rw [hX]; linarith
  have h3 : ‖((Real.exp (-X) : ℝ) : ℂ) - 1‖ = 1 - Real.exp (-X) := by
    rw [← Complex.ofReal_one, ← Complex.ofReal_sub, Complex.norm_real, Real.norm_eq_abs, abs_sub_comm, abs_of_nonneg]
    have := Real.exp_le_one_iff.mpr (neg_nonpos.mpr hX0)
    linarith
  have h4 : X / 2 ≤ 1 - Real.exp (-X) := by
    have h5 : Real.exp (-X) ≤ (1 + X)⁻¹ := by
      rw [Real.exp_neg]
      refine inv_anti₀ (by positivity) ?_
      have := Real.add_one_le_exp X
      linarith
    have h6 : (1 + X)⁻¹ ≤ 1 - X / 2 := by
      rw [inv_le_iff_one_le_mul₀ (by positivity)]
      nlinarith
    linarith
  have h5 := norm_sub_le_norm_sub_add_norm_sub ((Real.exp (-X) : ℝ) : ℂ) r 1
  rw [h3, norm_sub_rev _ r] at h5
  rw [← hX] at h2
  have h6 : ω ^ 2 * t * toSeconds dt / 16 = X / 2 := by rw [hX]; ring
  rw [h6]
  linarith

theorem secondOrder_mono (ω : ℝ) (Δ : ℝ) {t t' : ℝ} (h0 : 0 ≤ t) (h : t ≤ t') : secondOrder ω Δ t ≤ secondOrder ω Δ t' := by
  unfold secondOrder
  have : 0 ≤ t' := h0.trans h
  gcongr

/-- C147: integrations are not second-order accurate in time, although the leapfrog scheme without filter is. This holds for every wave that
moves, every end of the integration after its start and arbitrarily small time steps. -/
theorem C147_second_order_refuted (hg : g.Valid) (h : Spharm.Exact N B S) {M : BModel g} (hM : M.rhs = none) (hν : M.diffusionCoeff = 0)
    (s : St PyTime g) {t0 t1 : ℝ} (ht0 : s.time = .num t0) (ht1 : t0 < t1) {W : ℝ} {n : ℕ} (hn : 1 ≤ n) (hT : 2 * n ≤ g.ntrunc)
    (hB : 2 * n ≤ B) {a : g.Spc} (ha : SingleDegree n a) (hs : s.q = solidRotation N W + a) (k : Fin (nspec g.ntrunc)) (hk : a k ≠ 0)
    (hω : specM k * waveSpeed g.omega W n ≠ 0) (C : ℝ) {δ : ℝ} (hδ : 0 < δ) :
    ∃ Δ sf saved, 0 < Δ ∧ Δ < δ ∧ M.Returns S s (.num Δ) (.num t1) 0 sf saved ∧ sf.time.sec < t1 + Δ ∧
      C * Δ ^ 2 < ‖sf.q k - (solidRotation N W + shiftEast (waveSpeed g.omega W n * (sf.time.sec - t0)) a : g.Spc) k‖ := by
  have ha0 : 0 < ‖a k‖ := norm_pos_iff.mpr hk
  obtain ⟨ω, hω'⟩ : ∃ ω, ω = specM k * waveSpeed g.omega W n := ⟨_, rfl⟩
  rw [← hω'] at hω
  have hω2 : 0 < ω ^ 2 := by positivity
  obtain ⟨τ, hτ⟩ : ∃ τ, τ = t1 - t0 := ⟨_, rfl⟩
  have hτ0 : 0 < τ := by linarith
  obtain ⟨E, hE⟩ : ∃ E, E = (4 + 5 * |ω| * (τ + 1)) * Real.exp (12 / 5 * |ω| * (τ + 1)) := ⟨_, rfl⟩
  have hE0 : 0 < E := by rw [hE]; positivity
  obtain ⟨Δ, hΔ0, hΔ1⟩ : ∃ Δ, 0 < Δ ∧ Δ < min (min δ 1) (min (8 / (ω ^ 2 * (τ + 1))) (min (τ / (32 * E)) (ω ^ 2 * τ * ‖a k‖ / (32 * (|C| + 1))))) :=
    exists_between (by positivity)
  simp only [lt_min_iff] at hΔ1
  obtain ⟨⟨d1, d2⟩, d3, d4, d5⟩ := hΔ1
  rw [lt_div_iff₀ (by positivity)] at d3 d4 d5
  have hc : s.time.Compatible (.num Δ) := by rw [ht0]; trivial
  have hkd : s.time.SameKind (.num t1) := by rw [ht0]; trivial
  have hsec : s.time.sec = t0 := by rw [ht0]; rfl
  obtain ⟨sf, saved, hret⟩ := C42_returns (S := S) (M := M) (fun f hf => by rw [hM] at hf; cases hf) s (.num Δ) (.num t1) 0 hc hkd hΔ0 (.inl le_rfl)
    (by rw [hsec]; exact ht1.le)
  obtain ⟨m, m1, m2, m3⟩ := C42_final_time s (.num Δ) (.num t1) 0 hc hkd sf saved hret
  have hΔs : toSeconds (.num Δ) = Δ := rfl
  have hlt : sf.time.sec < t1 + Δ := by
    have := (C108_error hg h hM hν s (.num Δ) (.num t1) 0 hc hkd hΔ0 sf saved hret hn hT hB ha hs sf List.mem_cons_self k).2.1
    rw [hΔs, hsec, show PyTime.sec (.num t1) = t1 from rfl, max_eq_right (by linarith)] at this
    linarith
  have hge : t1 ≤ sf.time.sec := by
    rw [m1]
    exact m2
  refine ⟨Δ, sf, saved, hΔ0, d1, hret, hlt, ?_⟩
  have key := C147_damping hg h hM hν s (.num Δ) (.num t1) 0 hc hkd hΔ0 sf saved hret hn hT hB ha hs sf List.mem_cons_self k
  rw [hΔs, hsec, ← hω'] at key
  obtain ⟨t, ht⟩ : ∃ t, t = sf.time.sec - t0 := ⟨_, rfl⟩
  simp only [← ht] at key ⊢
  have l1 : τ ≤ t := by linarith
  have l2 : t ≤ τ + 1 := by linarith
  have hsm : ω ^ 2 * t * Δ ≤ 8 := by
    have := mul_le_mul_of_nonneg_left l2 (mul_pos hω2 hΔ0).le
    linarith
  refine lt_of_lt_of_le ?_ (key hsm)
  have hmono := secondOrder_mono ω Δ (hτ0.le.trans l1) l2
  have hval : secondOrder ω Δ (τ + 1) = ω ^ 2 * Δ * (Δ * E) := by rw [hE]; unfold secondOrder; ring
  rw [hval] at hmono
  have h1 : ω ^ 2 * Δ * (Δ * E) ≤ ω ^ 2 * Δ * (τ / 32) := mul_le_mul_of_nonneg_left (by linarith) (by positivity)
  have h2 : ω ^ 2 * Δ * τ ≤ ω ^ 2 * t * Δ := by
    have := mul_le_mul_of_nonneg_left l1 (mul_pos hω2 hΔ0).le
    linarith
  have h3 : ω ^ 2 * Δ * τ / 32 * ‖a k‖ ≤ (ω ^ 2 * t * Δ / 16 - secondOrder ω Δ t) * ‖a k‖ := mul_le_mul_of_nonneg_right (by linarith) ha0.le
  refine lt_of_lt_of_le ?_ h3
  have h4 : C * Δ ^ 2 ≤ |C| * Δ ^ 2 := mul_le_mul_of_nonneg_right (le_abs_self C) (sq_nonneg _)
  have h5 := mul_lt_mul_of_pos_left d5 hΔ0
  have h6 : 0 < Δ ^ 2 := by positivity
  nlinarith

/-! Non-vacuity: the wave of degree 2 and order 1 of C109. -/

example : ∃ (g : Grid ℝ) (S : g.Sph) (M : BModel g) (s : St PyTime g) (a : g.Spc) (k : Fin (nspec g.ntrunc)), g.Valid ∧
    Spharm.Exact (fun _ _ => 1) 5 S ∧ M.rhs = none ∧ M.diffusionCoeff = 0 ∧ SingleDegree 2 a ∧ 2 * 2 ≤ g.ntrunc ∧ a k ≠ 0 ∧
    s.q = solidRotation (fun _ _ => 1) 1 + a ∧ specM k * waveSpeed g.omega 1 2 ≠ 0 ∧ s.time = .num 0 ∧
    ∃ sf saved, M.Returns S s (.num 1) (.num 30) 0 sf saved := by
  have h7 : ({ grid30 with ntrunc := 6 } : Grid ℝ).nlat = 7 := by unfold Grid.nlat Grid.nlatOf grid30; norm_num
  obtain ⟨S, h, -⟩ := C105_exists (N := fun _ _ => 1) (B := 5) grid30_default_valid (by rw [h7]) (fun _ _ => one_ne_zero)
  obtain ⟨k, hk2, hk1⟩ := exists_mode (T := 6) (n := 2) (m := 1) (by norm_num) (by norm_num)
  have hsp : waveSpeed ({ grid30 with ntrunc := 6 } : Grid ℝ).omega 1 2 = -(1 / 3) := by unfold waveSpeed grid30; norm_num
  have ha : SingleDegree 2 (oneMode k 1) := fun l hl => by
    unfold oneMode
    rw [if_neg]
    rintro rfl
    exact hl hk2
  refine ⟨{ grid30 with ntrunc := 6 }, S, ⟨none, 1, 0, none⟩, ⟨.num 0, solidRotation (fun _ _ => 1) 1 + oneMode k 1⟩, oneMode k 1, k,
    grid30_default_valid, h, rfl, rfl, ha, by norm_num, by simp [oneMode], rfl, by rw [hsp, hk1]; norm_num, rfl, ?_⟩
  exact C42_returns (fun f hf => by cases hf) _ _ _ _ trivial trivial (by norm_num [toSeconds]) (.inl le_rfl) (by norm_num [PyTime.sec])

end Barotropic
