import Verif.Spec.HannResponse
import Verif.Props.Dominant
import Mathlib.Algebra.BigOperators.Group.Finset.Interval
import Mathlib.Analysis.SpecialFunctions.Trigonometric.Chebyshev.RootsExtrema

/-!
# C164: frequency response of the wavenumber-dependent Hann filter
-/

namespace Barotropic
open Finset

variable {h w : ℕ}

theorem cos_sum (n : ℕ) (α : ℝ) : (∑ s ∈ Icc (-(n : ℤ)) n, Real.cos (s * α)) * Real.sin (α / 2) = Real.sin (n * α + α / 2) := by
  induction n with
  | zero => simp
  | succ n ih =>
    push_cast
    rw [Finset.sum_Icc_succ_eq_add_endpoints, add_mul, ih]
    push_cast
    have e1 : Real.cos ((-1 + -(n : ℝ)) * α) = Real.cos (n * α + α / 2 + α / 2) := by
      rw [← Real.cos_neg]; congr 1; ring
    have e1' : Real.cos (-((n : ℝ) + 1) * α) = Real.cos (n * α + α / 2 + α / 2) := by
      rw [← Real.cos_neg]; congr 1; ring
    have e2 : Real.cos (((n : ℝ) + 1) * α) = Real.cos (n * α + α / 2 + α / 2) := by congr 1; ring
    have e3 : Real.sin (((n : ℝ) + 1) * α + α / 2) = Real.sin (n * α + α / 2 + α / 2 + α / 2) := by congr 1; ring
    first
      | rw [e2, e1', e3]
      | rw [e2, e1, e3]
    have hx : ∀ x y : ℝ, (Real.cos (x + y) + Real.cos (x + y)) * Real.sin y + Real.sin x = Real.sin (x + y + y) := by
      intro x y
      have h1 : Real.sin x = Real.sin (x + y - y) := by congr 1; ring
      rw [h1, Real.sin_sub, Real.sin_add (x + y) y]
      ring
    exact hx _ _

theorem sin_sum (n : ℕ) (α : ℝ) (f : ℤ → ℝ) (hf : ∀ s, f (-s) = f s) : ∑ s ∈ Icc (-(n : ℤ)) n, f s * Real.sin (s * α) = 0 := by
  induction n with
  | zero => simp
  | succ n ih =>
    push_cast
    rw [Finset.sum_Icc_succ_eq_add_endpoints, ih, hf]
    push_cast
    rw [show -((n : ℝ) + 1) * α = -(((n : ℝ) + 1) * α) by ring, Real.sin_neg]
    ring

/-- The response in terms of Dirichlet kernels. -/
theorem response_kernels {n : ℕ} (θ : ℝ) : 2 * n * hannResponse n θ = (if n = 0 then 0 else 1) *
    ((∑ s ∈ Icc (-(n : ℤ)) n, Real.cos (s * θ)) + 1 / 2 * (∑ s ∈ Icc (-(n : ℤ)) n, Real.cos (s * (θ + Real.pi / n))) +
      1 / 2 * (∑ s ∈ Icc (-(n : ℤ)) n, Real.cos (s * (θ - Real.pi / n)))) := by
  split_ifs with h0
  · subst h0; simp
  have hn : (n : ℝ) ≠ 0 := by exact_mod_cast h0
  unfold hannResponse
  rw [one_mul, mul_sum, mul_sum, mul_sum, ← sum_add_distrib, ← sum_add_distrib]
  refine sum_congr rfl fun s _ => ?_
  rw [show (s : ℝ) * (θ + Real.pi / n) = s * θ + Real.pi * s / n by ring, show (s : ℝ) * (θ - Real.pi / n) = s * θ - Real.pi * s / n by ring,
    Real.cos_add, Real.cos_sub]
  field_simp
  ring

/-- C164: the response in closed form. -/
theorem C164_closed {n : ℕ} (hn : 2 ≤ n) (θ : ℝ) :
    2 * n * hannResponse n θ * (Real.sin (θ / 2) * (Real.sin (Real.pi / (2 * n)) ^ 2 - Real.sin (θ / 2) ^ 2)) =
      Real.sin (n * θ) * Real.cos (θ / 2) * Real.sin (Real.pi / (2 * n)) ^ 2 := by
  have hn' : (n : ℝ) ≠ 0 := by exact_mod_cast (by omega : n ≠ 0)
  rw [response_kernels, if_neg (by omega), one_mul]
  have k0 := cos_sum n θ
  have k1 := cos_sum n (θ + Real.pi / n)
  have k2 := cos_sum n (θ - Real.pi / n)
  generalize (∑ s ∈ Icc (-(n : ℤ)) n, Real.cos (s * θ)) = T0 at *
  generalize (∑ s ∈ Icc (-(n : ℤ)) n, Real.cos (s * (θ + Real.pi / n))) = T1 at *
  generalize (∑ s ∈ Icc (-(n : ℤ)) n, Real.cos (s * (θ - Real.pi / n))) = T2 at *
  obtain ⟨a, ha⟩ : ∃ a, a = θ / 2 := ⟨_, rfl⟩
  obtain ⟨b, hb⟩ : ∃ b, b = Real.pi / (2 * n) := ⟨_, rfl⟩
  rw [show (θ + Real.pi / n) / 2 = a + b by rw [ha, hb]; field_simp,
    show n * (θ + Real.pi / n) + (a + b) = (n * θ + (a + b)) + Real.pi by field_simp; ring, Real.sin_add_pi] at k1
  rw [show (θ - Real.pi / n) / 2 = a - b by rw [ha, hb]; field_simp,
    show n * (θ - Real.pi / n) + (a - b) = (n * θ + (a - b)) - Real.pi by field_simp; ring, Real.sin_sub_pi] at k2
  rw [← ha] at k0 ⊢
  rw [← hb]
  rw [Real.sin_add (n * θ)] at k0 k1 k2
  have hp : Real.sin b ^ 2 - Real.sin a ^ 2 = -(Real.sin (a + b) * Real.sin (a - b)) := by
    rw [Real.sin_add, Real.sin_sub]
    have h1 := Real.sin_sq_add_cos_sq a
    have h2 := Real.sin_sq_add_cos_sq b
    linear_combination (Real.sin a ^ 2) * h2 - (Real.sin b ^ 2) * h1
  have hq : Real.sin (a + b) * Real.cos (a - b) + Real.sin (a - b) * Real.cos (a + b) = 2 * Real.sin a * Real.cos a := by
    rw [mul_comm (Real.sin (a - b)), ← Real.sin_add, show a + b + (a - b) = 2 * a by ring, Real.sin_two_mul]
  have hq' : Real.sin (a + b) * Real.sin (a - b) * 1 = Real.sin a ^ 2 - Real.sin b ^ 2 := by linarith
  rw [hp]
  generalize Real.sin (n * θ) = S at *
  generalize Real.cos (n * θ) = C at *
  generalize Real.sin (a + b) = sp at *
  generalize Real.sin (a - b) = sm at *
  generalize Real.cos (a + b) = cp at *
  generalize Real.cos (a - b) = cm at *
  linear_combination (-(sp * sm)) * k0 - 1 / 2 * Real.sin a * sm * k1 - 1 / 2 * Real.sin a * sp * k2 + 1 / 2 * Real.sin a * S * hq
    - S * Real.cos a * hq'

/-- C164: zonal means pass unchanged, and nothing is amplified. -/
theorem C164_mean {n : ℕ} (hn : 2 ≤ n) : hannResponse n 0 = 1 ∧ ∀ θ, |hannResponse n θ| ≤ 1 := by
  have hn' : (0 : ℝ) < n := by exact_mod_cast (by omega : 0 < n)
  have h0 : hannResponse n 0 = 1 := by
    have hk := response_kernels (n := n) 0
    rw [if_neg (by omega), one_mul, zero_add, zero_sub] at hk
    have e0 : ∑ s ∈ Icc (-(n : ℤ)) n, Real.cos (s * 0) = 2 * n + 1 := by
      simp only [mul_zero, Real.cos_zero, sum_const, Int.card_Icc, nsmul_eq_mul, mul_one]
      rw [show ((n : ℤ) + 1 - -n).toNat = 2 * n + 1 by omega]; push_cast; ring
    have e1 := cos_sum n (Real.pi / n)
    have hs : 0 < Real.sin (Real.pi / n / 2) := by
      refine Real.sin_pos_of_pos_of_lt_pi (by positivity) ?_
      have : Real.pi / n / 2 < Real.pi / 1 := by
        rw [div_div]
        exact div_lt_div_of_pos_left Real.pi_pos one_pos (by have : (2 : ℝ) ≤ n := by exact_mod_cast hn
                                                             linarith)
      linarith
    rw [show (n : ℝ) * (Real.pi / n) + Real.pi / n / 2 = Real.pi / n / 2 + Real.pi by field_simp; ring, Real.sin_add_pi] at e1
    have e1' : ∑ s ∈ Icc (-(n : ℤ)) n, Real.cos (s * (Real.pi / n)) = -1 := by
      have : ((∑ s ∈ Icc (-(n : ℤ)) n, Real.cos (s * (Real.pi / n))) + 1) * Real.sin (Real.pi / n / 2) = 0 := by linarith
      rcases mul_eq_zero.mp this with h | h
      · linarith
      · exact absurd h hs.ne'
    have e2 : ∑ s ∈ Icc (-(n : ℤ)) n, Real.cos (s * (-(Real.pi / n))) = -1 := by
      rw [← e1']
      exact sum_congr rfl fun s _ => by rw [mul_neg, Real.cos_neg]
    rw [e0, e1', e2] at hk
    have : 2 * (n : ℝ) * (hannResponse n 0 - 1) = 0 := by linarith
    rcases mul_eq_zero.mp this with h | h
    · linarith
    · linarith
  refine ⟨h0, fun θ => ?_⟩
  rw [← h0]
  unfold hannResponse
  refine (abs_sum_le_sum_abs _ _).trans (sum_le_sum fun s _ => ?_)
  have hw : 0 ≤ (1 + Real.cos (Real.pi * s / n)) / (2 * n) :=
    div_nonneg (by linarith [Real.neg_one_le_cos (Real.pi * s / n)]) (by linarith)
  rw [abs_mul, abs_of_nonneg hw, mul_zero, Real.cos_zero]
  exact mul_le_mul_of_nonneg_left (Real.abs_cos_le_one _) hw

theorem response_strictAnti {n : ℕ} (hn : 2 ≤ n) : StrictAntiOn (hannResponse n) (Set.Icc 0 (Real.pi / n)) := by
  have hn' : (0 : ℝ) < n := by exact_mod_cast (by omega : 0 < n)
  intro x hx y hy hxy
  have hab : ∀ (s : ℤ) (θ : ℝ), Real.cos (s * θ) = Real.cos (|(s : ℝ)| * θ) := by
    intro s θ
    rcases abs_choice (s : ℝ) with h | h <;> rw [h]
    rw [neg_mul, Real.cos_neg]
  have hle : ∀ s ∈ Icc (-(n : ℤ)) n, |(s : ℝ)| * y ≤ Real.pi := by
    intro s hs
    have h1 : |(s : ℝ)| ≤ n := by
      rw [mem_Icc] at hs
      rw [abs_le]; constructor
      · exact_mod_cast hs.1
      · exact_mod_cast hs.2
    have h2 := hy.2
    rw [le_div_iff₀ hn'] at h2
    have h0 : 0 ≤ y := hy.1
    nlinarith
  have hc : ∀ s ∈ Icc (-(n : ℤ)) n, Real.cos (s * y) ≤ Real.cos (s * x) := by
    intro s hs
    rw [hab, hab s x]
    exact Real.cos_le_cos_of_nonneg_of_le_pi (mul_nonneg (abs_nonneg _) hx.1) (hle s hs) (mul_le_mul_of_nonneg_left hxy.le (abs_nonneg _))
  unfold hannResponse
  refine sum_lt_sum (fun s hs => ?_) ⟨1, ?_, ?_⟩
  · exact mul_le_mul_of_nonneg_left (hc s hs)
      (div_nonneg (by linarith [Real.neg_one_le_cos (Real.pi * s / n)]) (by linarith))
  · rw [mem_Icc]; omega
  · have hs := hle 1 (by rw [mem_Icc]; omega)
    push_cast at hs ⊢
    rw [abs_one, one_mul] at hs
    rw [one_mul, one_mul, mul_one]
    refine mul_lt_mul_of_pos_left (Real.strictAntiOn_cos ⟨hx.1, by linarith⟩ ⟨hy.1, hs⟩ hxy) (div_pos ?_ (by linarith))
    have h2 : (2 : ℝ) ≤ n := by exact_mod_cast hn
    have : 0 ≤ Real.cos (Real.pi / n) := by
      refine Real.cos_nonneg_of_neg_pi_div_two_le_of_le ?_ ?_
      · have : 0 < Real.pi / n := by positivity
        linarith [Real.pi_pos]
      · exact div_le_div_of_nonneg_left Real.pi_pos.le (by norm_num) h2
    linarith

/-- C164: a wave of the length of the whole window (twice the wavelength of the given wavenumber) is halved. -/
theorem C164_half {n : ℕ} (hn : 2 ≤ n) : hannResponse n (Real.pi / n) = 1 / 2 := by
  have hn' : (0 : ℝ) < n := by exact_mod_cast (by omega : 0 < n)
  have h2 : (2 : ℝ) ≤ n := by exact_mod_cast hn
  have hk := response_kernels (n := n) (Real.pi / n)
  rw [if_neg (by omega), one_mul, sub_self] at hk
  have e0 : ∑ s ∈ Icc (-(n : ℤ)) n, Real.cos (s * 0) = 2 * n + 1 := by
    simp only [mul_zero, Real.cos_zero, sum_const, Int.card_Icc, nsmul_eq_mul, mul_one]
    rw [show ((n : ℤ) + 1 - -n).toNat = 2 * n + 1 by omega]; push_cast; ring
  have hpn : Real.pi / n ≤ Real.pi / 2 := div_le_div_of_nonneg_left Real.pi_pos.le (by norm_num) h2
  have hp0 : 0 < Real.pi / n := by positivity
  have e1 := cos_sum n (Real.pi / n)
  have hs : 0 < Real.sin (Real.pi / n / 2) := Real.sin_pos_of_pos_of_lt_pi (by positivity) (by linarith)
  rw [show (n : ℝ) * (Real.pi / n) + Real.pi / n / 2 = Real.pi / n / 2 + Real.pi by field_simp; ring, Real.sin_add_pi] at e1
  have e2 := cos_sum n (Real.pi / n + Real.pi / n)
  have hs2 : 0 < Real.sin ((Real.pi / n + Real.pi / n) / 2) := Real.sin_pos_of_pos_of_lt_pi (by linarith) (by linarith [Real.pi_pos])
  rw [show (n : ℝ) * (Real.pi / n + Real.pi / n) + (Real.pi / n + Real.pi / n) / 2 = (Real.pi / n + Real.pi / n) / 2 + 2 * Real.pi by field_simp; ring,
    Real.sin_add_two_pi] at e2
  have e1' : ∑ s ∈ Icc (-(n : ℤ)) n, Real.cos (s * (Real.pi / n)) = -1 := by
    refine mul_right_cancel₀ hs.ne' ?_
    rw [e1]; ring
  have e2' : ∑ s ∈ Icc (-(n : ℤ)) n, Real.cos (s * (Real.pi / n + Real.pi / n)) = 1 := by
    refine mul_right_cancel₀ hs2.ne' ?_
    rw [e2]; ring
  rw [e0, e1', e2'] at hk
  have : 2 * (n : ℝ) * (hannResponse n (Real.pi / n) - 1 / 2) = 0 := by linarith
  rcases mul_eq_zero.mp this with h | h <;> linarith

theorem response_wave {n w : ℕ} (hw : 0 < w) (p : ℕ) (A φ : ℝ) (x : ℝ) :
    ∑ s ∈ Icc (-(n : ℤ)) n, (1 + Real.cos (Real.pi * s / n)) / (2 * n) * (A * Real.cos (2 * Real.pi * p * (x - s) / w - φ)) =
      hannResponse n (2 * Real.pi * p / w) * (A * Real.cos (2 * Real.pi * p * x / w - φ)) := by
  have hodd := sin_sum n (2 * Real.pi * p / w) (fun s => (1 + Real.cos (Real.pi * s / n)) / (2 * n)) (fun s => by
    push_cast
    rw [show Real.pi * -(s : ℝ) / n = -(Real.pi * s / n) by ring, Real.cos_neg])
  unfold hannResponse
  have : ∀ s : ℤ, (1 + Real.cos (Real.pi * s / n)) / (2 * n) * (A * Real.cos (2 * Real.pi * p * (x - s) / w - φ)) =
      (1 + Real.cos (Real.pi * s / n)) / (2 * n) * Real.cos (s * (2 * Real.pi * p / w)) * (A * Real.cos (2 * Real.pi * p * x / w - φ)) +
      (1 + Real.cos (Real.pi * s / n)) / (2 * n) * Real.sin (s * (2 * Real.pi * p / w)) * (A * Real.sin (2 * Real.pi * p * x / w - φ)) := by
    intro s
    rw [show 2 * Real.pi * p * (x - s) / w - φ = (2 * Real.pi * p * x / w - φ) - s * (2 * Real.pi * p / w) by ring, Real.cos_sub]
    ring
  rw [sum_congr rfl fun s _ => this s, sum_add_distrib, ← sum_mul, ← sum_mul, hodd, zero_mul, add_zero]

/-- C164: every wave is multiplied by the response of the local window: the amplitude changes, the phase does not. -/
theorem C164_wave (hh : 0 < h) (hw : 2 ≤ w) (p : ℕ) (M A φ : Fin h → ℝ) (a : WavenumberArg h w) (k : Fin h → Fin w → ℝ)
    (ha : a = .field k ∨ ∃ q : Fin h → ℝ, a = .profile h q ∧ k = fun j _ => q j) :
    ∃ out : Fin h → Fin w → ℝ, filterByWavenumber (fun j i => M j + zonalWave w p A φ j i) a = .ok (.d2 h w out) ∧
      ∀ j i, out j i = M j + hannResponse ⌊w / min (max (k j i) 1) (w / 2 : ℝ)⌋₊ (2 * Real.pi * p / w) * zonalWave w p A φ j i := by
  have hk : a.expand = .ok k := by
    rcases ha with rfl | ⟨q, rfl, rfl⟩
    · rfl
    · simp [WavenumberArg.expand]
  refine ⟨_, filterByWavenumber_ok hh hw _ a k hk, fun j i => ?_⟩
  obtain ⟨n, e, hn, -, h3, h4⟩ := C63_windows hw (k j i)
  have hf : ⌊w / min (max (k j i) 1) (w / 2 : ℝ)⌋₊ = n := by
    have : hannWidth w (k j i) = 2 * ⌊w / min (max (k j i) 1) (w / 2 : ℝ)⌋₊ + 1 := by unfold hannWidth clipWavenumber; ring
    omega
  have hn0 : (n : ℝ) ≠ 0 := by exact_mod_cast (by omega : n ≠ 0)
  rw [hf, e]
  unfold convolve
  simp only [wrapExt_wave (by omega : 0 < w), mul_add, sum_add_distrib, ← sum_mul]
  rw [hannWeights_sum (by omega), one_mul]
  congr 1
  have hd : (2 * n + 1) / 2 = n := by omega
  rw [hd]
  have hz : zonalWave w p A φ j i = A j * Real.cos (2 * Real.pi * p * (i.val : ℝ) / w - φ j) := by unfold zonalWave; rfl
  rw [hz, ← response_wave (by omega)]
  refine Finset.sum_bij (fun (m : Fin (2 * n + 1)) _ => (m.val : ℤ) - n) ?_ ?_ ?_ ?_
  · intro m _
    have := m.isLt
    rw [mem_Icc]; omega
  · intro m _ m' _ hmm
    apply Fin.ext; omega
  · intro s hs
    rw [mem_Icc] at hs
    exact ⟨⟨(s + n).toNat, by omega⟩, mem_univ _, by simp only; omega⟩
  · intro m _
    congr 1
    · unfold hannWeights
      rw [hann_sum (by omega)]
      unfold hann
      rw [Nat.add_sub_cancel]
      have : (2 : ℝ) * Real.pi * m.val / (2 * n : ℕ) = Real.pi * (((m.val : ℤ) - n : ℤ) : ℝ) / n + Real.pi := by
        push_cast; field_simp; ring
      rw [this, Real.cos_add_pi]
      field_simp
      ring
    · congr 3
      push_cast
      ring

/-- The window's angle `π / (2 n)` and its multiples. -/
theorem window_angle {n : ℕ} (hn : 2 ≤ n) : 0 < Real.pi / (2 * n) ∧ 2 * (Real.pi / (2 * n)) ≤ Real.pi / 2 ∧
    0 < Real.sin (Real.pi / (2 * n)) := by
  have hn' : (0 : ℝ) < n := by exact_mod_cast (by omega : 0 < n)
  have h2 : (2 : ℝ) ≤ n := by exact_mod_cast hn
  have h0 : 0 < Real.pi / (2 * n) := div_pos Real.pi_pos (by linarith)
  have h1 : 2 * (Real.pi / (2 * n)) ≤ Real.pi / 2 := by
    rw [show 2 * (Real.pi / (2 * n)) = Real.pi / n by field_simp]
    exact div_le_div_of_nonneg_left Real.pi_pos.le (by norm_num) h2
  exact ⟨h0, h1, Real.sin_pos_of_pos_of_lt_pi h0 (by linarith [Real.pi_pos])⟩

theorem denominator_neg {n : ℕ} (hn : 2 ≤ n) {θ : ℝ} (h1 : Real.pi < n * θ) (h2 : θ ≤ Real.pi) :
    0 < Real.sin (θ / 2) ∧ Real.sin (Real.pi / (2 * n)) < Real.sin (θ / 2) := by
  have hn' : (0 : ℝ) < n := by exact_mod_cast (by omega : 0 < n)
  obtain ⟨b0, b1, b2⟩ := window_angle hn
  have hb : Real.pi / (2 * n) < θ / 2 := by
    rw [div_lt_div_iff₀ (by linarith) (by norm_num)]; nlinarith
  have : Real.sin (Real.pi / (2 * n)) < Real.sin (θ / 2) := by
    refine Real.strictMonoOn_sin ⟨?_, ?_⟩ ⟨?_, ?_⟩ hb <;> linarith [Real.pi_pos]
  exact ⟨by linarith, this⟩

/-- C164: waves not longer than half of the window are reduced to a twelfth or less. -/
theorem C164_sidelobes {n : ℕ} (hn : 2 ≤ n) {θ : ℝ} (h1 : 2 * Real.pi ≤ n * θ) (h2 : θ ≤ Real.pi) : |hannResponse n θ| ≤ 1 / 12 := by
  have hn' : (0 : ℝ) < n := by exact_mod_cast (by omega : 0 < n)
  have hn2 : (2 : ℝ) ≤ n := by exact_mod_cast hn
  obtain ⟨b0, b1, b2⟩ := window_angle hn
  obtain ⟨s0, s1⟩ := denominator_neg hn (by linarith [Real.pi_pos]) h2
  have hc := C164_closed hn θ
  have hab : 2 * (Real.pi / (2 * n)) ≤ θ / 2 := by
    rw [show 2 * (Real.pi / (2 * n)) = Real.pi / n by field_simp, div_le_div_iff₀ hn' (by norm_num)]; linarith
  have hsin : Real.sin (2 * (Real.pi / (2 * n))) ≤ Real.sin (θ / 2) :=
    Real.sin_le_sin_of_le_of_le_pi_div_two (by linarith [Real.pi_pos]) (by linarith) hab
  have hcos : Real.cos (θ / 2) ≤ Real.cos (2 * (Real.pi / (2 * n))) :=
    Real.cos_le_cos_of_nonneg_of_le_pi (by linarith) (by linarith [Real.pi_pos]) hab
  have hcos0 : 0 ≤ Real.cos (θ / 2) := Real.cos_nonneg_of_neg_pi_div_two_le_of_le (by linarith [Real.pi_pos]) (by linarith)
  have hjordan : 2 ≤ n * Real.sin (2 * (Real.pi / (2 * n))) := by
    have := Real.mul_le_sin (x := 2 * (Real.pi / (2 * n))) (by linarith) b1
    rw [show 2 / Real.pi * (2 * (Real.pi / (2 * n))) = 2 / n by field_simp [Real.pi_ne_zero], div_le_iff₀ hn'] at this
    linarith
  have hdouble := Real.sin_two_mul (Real.pi / (2 * n))
  have hdouble' := Real.cos_two_mul (Real.pi / (2 * n))
  have hC1 := Real.cos_le_one (2 * (Real.pi / (2 * n)))
  have hsq := Real.sin_sq_add_cos_sq (Real.pi / (2 * n))
  have hS := Real.abs_sin_le_one (n * θ)
  generalize Real.sin (n * θ) = S at *
  generalize Real.sin (2 * (Real.pi / (2 * n))) = S2 at *
  generalize Real.cos (2 * (Real.pi / (2 * n))) = C2 at *
  generalize Real.sin (Real.pi / (2 * n)) = σ at *
  generalize Real.cos (Real.pi / (2 * n)) = κ at *
  generalize Real.sin (θ / 2) = s at *
  generalize Real.cos (θ / 2) = c at *
  generalize hannResponse n θ = R at *
  have hd : 0 < s * (s ^ 2 - σ ^ 2) := mul_pos s0 (by nlinarith)
  have habs : 2 * n * |R| * (s * (s ^ 2 - σ ^ 2)) ≤ c * σ ^ 2 := by
    have e : |2 * n * R * (s * (σ ^ 2 - s ^ 2))| = |S * c * σ ^ 2| := by rw [hc]
    rw [show 2 * n * R * (s * (σ ^ 2 - s ^ 2)) = -((2 * n * (s * (s ^ 2 - σ ^ 2))) * R) by ring, abs_neg, abs_mul,
      abs_of_pos (by positivity : 0 < 2 * n * (s * (s ^ 2 - σ ^ 2))), mul_assoc S c, abs_mul S, abs_of_nonneg (by positivity : 0 ≤ c * σ ^ 2)] at e
    have : |S| * (c * σ ^ 2) ≤ 1 * (c * σ ^ 2) := mul_le_mul_of_nonneg_right hS (by positivity)
    linarith
  have hS2 : 0 < S2 := by
    by_contra hneg
    have : n * S2 ≤ 0 := mul_nonpos_of_nonneg_of_nonpos hn'.le (by linarith)
    linarith
  have hmono : S2 * (σ ^ 2 * (1 + 2 * C2)) ≤ s * (s ^ 2 - σ ^ 2) := by
    have e : σ ^ 2 * (1 + 2 * C2) = S2 ^ 2 - σ ^ 2 := by
      rw [hdouble, hdouble']
      nlinarith
    rw [e]
    have h3 : S2 ^ 2 ≤ s ^ 2 := by nlinarith
    have h4 : 0 ≤ S2 ^ 2 - σ ^ 2 := by rw [← e]; have : 0 ≤ C2 := hcos0.trans hcos
                                       positivity
    exact mul_le_mul hsin (by linarith) h4 s0.le
  have hC0 : 0 ≤ C2 := hcos0.trans hcos
  have hfin : 12 * (c * σ ^ 2) ≤ 2 * n * (s * (s ^ 2 - σ ^ 2)) := by
    have h5 : 2 * n * (S2 * (σ ^ 2 * (1 + 2 * C2))) ≤ 2 * n * (s * (s ^ 2 - σ ^ 2)) := mul_le_mul_of_nonneg_left hmono (by linarith)
    have h6 : 4 * (σ ^ 2 * (1 + 2 * C2)) ≤ 2 * n * (S2 * (σ ^ 2 * (1 + 2 * C2))) := by
      have : 0 ≤ σ ^ 2 * (1 + 2 * C2) := by positivity
      nlinarith
    have h7 : c * σ ^ 2 ≤ C2 * σ ^ 2 := mul_le_mul_of_nonneg_right hcos (by positivity)
    have h8 : C2 * σ ^ 2 ≤ 1 * σ ^ 2 := mul_le_mul_of_nonneg_right hC1 (by positivity)
    nlinarith
  have hX : 0 < 2 * n * (s * (s ^ 2 - σ ^ 2)) := by positivity
  have : (12 * |R|) * (2 * n * (s * (s ^ 2 - σ ^ 2))) ≤ 1 * (2 * n * (s * (s ^ 2 - σ ^ 2))) := by linarith
  have := le_of_mul_le_mul_right this hX
  linarith

/-- C164: the waves which are removed completely. -/
theorem C164_zeros {n : ℕ} (hn : 2 ≤ n) {θ : ℝ} (h0 : 0 ≤ θ) (h2 : θ ≤ Real.pi) :
    hannResponse n θ = 0 ↔ ∃ m : ℕ, 2 ≤ m ∧ n * θ = m * Real.pi := by
  have hn' : (0 : ℝ) < n := by exact_mod_cast (by omega : 0 < n)
  obtain ⟨b0, b1, b2⟩ := window_angle hn
  have hc := C164_closed hn θ
  constructor
  · intro hR
    rw [hR, mul_zero, zero_mul] at hc
    rcases mul_eq_zero.mp hc.symm with hc | hc
    · rcases mul_eq_zero.mp hc with hc | hc
      · obtain ⟨m, hm⟩ := Real.sin_eq_zero_iff.mp hc
        have hm0 : 0 ≤ m := by
          have : (0 : ℝ) ≤ m * Real.pi := by rw [hm]; positivity
          have := nonneg_of_mul_nonneg_left this Real.pi_pos
          exact_mod_cast this
        obtain ⟨m, rfl⟩ := Int.eq_ofNat_of_zero_le hm0
        push_cast at hm
        refine ⟨m, ?_, hm.symm⟩
        by_contra hlt
        rcases (by omega : m = 0 ∨ m = 1) with rfl | rfl
        · have : θ = 0 := by
            have : (n : ℝ) * θ = 0 := by rw [← hm]; simp
            exact (mul_eq_zero.mp this).resolve_left hn'.ne'
          rw [this, (C164_mean hn).1] at hR
          norm_num at hR
        · have : θ = Real.pi / n := by
            rw [eq_div_iff hn'.ne', mul_comm, ← hm]; push_cast; ring
          rw [this, C164_half hn] at hR
          norm_num at hR
      · refine ⟨n, hn, ?_⟩
        congr 1
        by_contra hne
        have : 0 < Real.cos (θ / 2) := Real.cos_pos_of_mem_Ioo ⟨by linarith [Real.pi_pos], by
          rcases lt_or_eq_of_le h2 with h | h
          · linarith
          · exact absurd h hne⟩
        linarith
    · have := pow_pos b2 2
      linarith
  · rintro ⟨m, hm, e⟩
    have hm' : (2 : ℝ) ≤ m := by exact_mod_cast hm
    obtain ⟨s0, s1⟩ := denominator_neg hn (θ := θ) (by rw [e]; nlinarith [Real.pi_pos]) h2
    rw [e, Real.sin_nat_mul_pi, zero_mul, zero_mul] at hc
    have hd : Real.sin (θ / 2) * (Real.sin (Real.pi / (2 * n)) ^ 2 - Real.sin (θ / 2) ^ 2) < 0 := mul_neg_of_pos_of_neg s0 (by nlinarith)
    rcases mul_eq_zero.mp hc with h | h
    · rcases mul_eq_zero.mp h with h | h
      · linarith
      · exact h
    · exact absurd h hd.ne

theorem sine_product (N : ℕ) (a : ℝ) :
    Real.sin ((N + 1) * a) = 2 ^ N * (∏ k ∈ range N, (Real.cos a - Real.cos ((k + 1) * Real.pi / (N + 1)))) * Real.sin a := by
  have h1 := Polynomial.Chebyshev.U_real_cos a (N : ℤ)
  push_cast at h1
  rw [← h1]
  congr 1
  have hr := Polynomial.Chebyshev.roots_U_real N
  have hinj : Set.InjOn (fun k : ℕ => Real.cos (((k : ℝ) + 1) * Real.pi / ((N : ℝ) + 1))) (range N) :=
    (Finset.range N).nodup_map_iff_injOn.mp (Polynomial.Chebyshev.roots_U_real_nodup N)
  have hcard : (Polynomial.Chebyshev.U ℝ (N : ℤ)).roots.card = (Polynomial.Chebyshev.U ℝ (N : ℤ)).natDegree := by
    rw [hr, Finset.card_val, Finset.card_image_of_injOn hinj, card_range]
    exact (Polynomial.natDegree_eq_of_degree_eq_some (Polynomial.Chebyshev.degree_U_natCast ℝ N)).symm
  have hp := Polynomial.C_leadingCoeff_mul_prod_multiset_X_sub_C hcard
  rw [← hp, Polynomial.eval_mul, Polynomial.eval_C, hr, Polynomial.Chebyshev.leadingCoeff_U_natCast]
  congr 1
  change Polynomial.eval (Real.cos a) (∏ r ∈ (range N).image (fun k : ℕ => Real.cos (((k : ℝ) + 1) * Real.pi / ((N : ℝ) + 1))),
    (Polynomial.X - Polynomial.C r)) = _
  rw [Polynomial.eval_prod, prod_image hinj]
  simp

/-- The response as a product. -/
theorem response_product {n : ℕ} (hn : 2 ≤ n) {θ : ℝ} (h1 : Real.pi < n * θ) (h2 : θ ≤ Real.pi) :
    2 * n * hannResponse n θ = 2 ^ (2 * n - 1) * Real.sin (Real.pi / (2 * n)) ^ 2 *
      (Real.cos (θ / 2) * ∏ k ∈ range (2 * n - 3), (Real.cos (θ / 2) - Real.cos ((k + 2) * Real.pi / (2 * n)))) := by
  obtain ⟨m, rfl⟩ : ∃ m, n = m + 2 := ⟨n - 2, by omega⟩
  obtain ⟨s0, s1⟩ := denominator_neg hn h1 h2
  obtain ⟨b0, b1, b2⟩ := window_angle hn
  have hc := C164_closed hn θ
  have hp := sine_product (2 * m + 3) (θ / 2)
  have e1 : (((2 * m + 3 : ℕ) : ℝ) + 1) * (θ / 2) = ((m + 2 : ℕ) : ℝ) * θ := by push_cast; ring
  have e2 : ((2 * m + 3 : ℕ) : ℝ) + 1 = 2 * ((m + 2 : ℕ) : ℝ) := by push_cast; ring
  rw [e1, e2] at hp
  rw [show 2 * m + 3 = (2 * m + 1) + 1 + 1 by ring, prod_range_succ, prod_range_succ'] at hp
  have e3 : Real.cos ((((2 * m + 1 + 1 : ℕ) : ℝ) + 1) * Real.pi / (2 * ((m + 2 : ℕ) : ℝ))) = -Real.cos (Real.pi / (2 * ((m + 2 : ℕ) : ℝ))) := by
    rw [← Real.cos_pi_sub]
    congr 1
    have : (2 * ((m + 2 : ℕ) : ℝ)) ≠ 0 := by positivity
    field_simp
    push_cast
    ring
  have e4 : Real.cos ((((0 : ℕ) : ℝ) + 1) * Real.pi / (2 * ((m + 2 : ℕ) : ℝ))) = Real.cos (Real.pi / (2 * ((m + 2 : ℕ) : ℝ))) := by
    congr 1; push_cast; ring
  rw [e3, e4] at hp
  have e5 : ∀ k : ℕ, (((k + 1 : ℕ) : ℝ) + 1) = (k : ℝ) + 2 := fun k => by push_cast; ring
  simp only [e5] at hp
  rw [show 2 * (m + 2) - 3 = 2 * m + 1 by omega, show 2 * (m + 2) - 1 = 2 * m + 1 + 1 + 1 by omega]
  rw [hp] at hc
  generalize (∏ k ∈ range (2 * m + 1), (Real.cos (θ / 2) - Real.cos ((k + 2) * Real.pi / (2 * ((m + 2 : ℕ) : ℝ))))) = P at *
  have q1 := Real.sin_sq_add_cos_sq (θ / 2)
  have q2 := Real.sin_sq_add_cos_sq (Real.pi / (2 * ((m + 2 : ℕ) : ℝ)))
  generalize Real.cos (Real.pi / (2 * ((m + 2 : ℕ) : ℝ))) = κ at *
  generalize Real.sin (Real.pi / (2 * ((m + 2 : ℕ) : ℝ))) = σ at *
  generalize Real.sin (θ / 2) = s at *
  generalize Real.cos (θ / 2) = c at *
  have hd : s * (σ ^ 2 - s ^ 2) ≠ 0 := (mul_neg_of_pos_of_neg s0 (by nlinarith)).ne
  refine mul_right_cancel₀ hd ?_
  rw [hc]
  linear_combination (2 ^ (2 * m + 1 + 1 + 1) * σ ^ 2 * c * P * s) * (q1 - q2)

theorem response_continuous (n : ℕ) : Continuous (hannResponse n) := by
  unfold hannResponse
  fun_prop

theorem response_strictAnti' {n : ℕ} (hn : 2 ≤ n) : StrictAntiOn (hannResponse n) (Set.Ioc (Real.pi / n) (2 * Real.pi / n)) := by
  have hn' : (0 : ℝ) < n := by exact_mod_cast (by omega : 0 < n)
  have hn2 : (2 : ℝ) ≤ n := by exact_mod_cast hn
  obtain ⟨b0, b1, b2⟩ := window_angle hn
  intro x hx y hy hxy
  have hle : 2 * Real.pi / n ≤ Real.pi := by rw [div_le_iff₀ hn']; nlinarith [Real.pi_pos]
  have hgt : ∀ z ∈ Set.Ioc (Real.pi / n) (2 * Real.pi / n), Real.pi < n * z := fun z hz => by
    have := hz.1
    rw [div_lt_iff₀ hn'] at this; linarith
  have px := response_product hn (hgt x hx) (hx.2.trans hle)
  have py := response_product hn (hgt y hy) (hy.2.trans hle)
  have hp0 : 0 < Real.pi / n := by positivity
  have hx0 : 0 < x := hp0.trans hx.1
  have hxy' : Real.cos (y / 2) < Real.cos (x / 2) :=
    Real.strictAntiOn_cos ⟨by linarith, by linarith [hx.2, Real.pi_pos]⟩ ⟨by linarith, by linarith [hy.2, Real.pi_pos]⟩ (by linarith)
  have hroot : ∀ k ∈ range (2 * n - 3), Real.cos ((k + 2) * Real.pi / (2 * n)) ≤ Real.cos (y / 2) := by
    intro k hk
    rw [mem_range] at hk
    refine Real.cos_le_cos_of_nonneg_of_le_pi (by linarith [hy.1]) ?_ ?_
    · rw [div_le_iff₀ (by linarith)]
      have : (k : ℝ) + 2 ≤ 2 * n := by exact_mod_cast (by omega : k + 2 ≤ 2 * n)
      nlinarith [Real.pi_pos]
    · have h3 := hy.2
      have : 2 * Real.pi / n ≤ 2 * ((k + 2) * Real.pi / (2 * n)) := by
        rw [show 2 * (((k : ℝ) + 2) * Real.pi / (2 * n)) = (k + 2) * Real.pi / n by field_simp]
        refine div_le_div_of_nonneg_right ?_ hn'.le
        have : (0 : ℝ) ≤ k := Nat.cast_nonneg k
        nlinarith [Real.pi_pos]
      linarith
  have hcy : 0 ≤ Real.cos (y / 2) := Real.cos_nonneg_of_neg_pi_div_two_le_of_le (by linarith [hy.1, Real.pi_pos]) (by linarith [hy.2])
  have hPx : 0 < ∏ k ∈ range (2 * n - 3), (Real.cos (x / 2) - Real.cos ((k + 2) * Real.pi / (2 * n))) :=
    prod_pos fun k hk => by linarith [hroot k hk]
  have hPle : ∏ k ∈ range (2 * n - 3), (Real.cos (y / 2) - Real.cos ((k + 2) * Real.pi / (2 * n))) ≤
      ∏ k ∈ range (2 * n - 3), (Real.cos (x / 2) - Real.cos ((k + 2) * Real.pi / (2 * n))) :=
    prod_le_prod (fun k hk => by linarith [hroot k hk]) fun k hk => by linarith
  have hmain : Real.cos (y / 2) * ∏ k ∈ range (2 * n - 3), (Real.cos (y / 2) - Real.cos ((k + 2) * Real.pi / (2 * n))) <
      Real.cos (x / 2) * ∏ k ∈ range (2 * n - 3), (Real.cos (x / 2) - Real.cos ((k + 2) * Real.pi / (2 * n))) :=
    (mul_le_mul_of_nonneg_left hPle hcy).trans_lt (mul_lt_mul_of_pos_right hxy' hPx)
  have := mul_lt_mul_of_pos_left hmain (by positivity : 0 < 2 ^ (2 * n - 1) * Real.sin (Real.pi / (2 * n)) ^ 2)
  rw [← px, ← py] at this
  exact lt_of_mul_lt_mul_left this (by linarith)

/-- C164: from long waves to waves of half the length of the window, the response decreases strictly from 1 to 0, so no wave longer than
half of the window is reversed. -/
theorem C164_mainlobe {n : ℕ} (hn : 2 ≤ n) : StrictAntiOn (hannResponse n) (Set.Icc 0 (2 * Real.pi / n)) ∧
    hannResponse n (2 * Real.pi / n) = 0 ∧ ∀ θ, 0 ≤ θ → n * θ ≤ 2 * Real.pi → 0 ≤ hannResponse n θ := by
  have hn' : (0 : ℝ) < n := by exact_mod_cast (by omega : 0 < n)
  have hn2 : (2 : ℝ) ≤ n := by exact_mod_cast hn
  have hp0 : 0 < Real.pi / n := by positivity
  have hpp : Real.pi / n < 2 * Real.pi / n := div_lt_div_of_pos_right (by linarith [Real.pi_pos]) hn'
  have hzero : hannResponse n (2 * Real.pi / n) = 0 :=
    (C164_zeros hn (by linarith) (by rw [div_le_iff₀ hn']; nlinarith [Real.pi_pos])).mpr ⟨2, le_rfl, by push_cast; field_simp⟩
  have hclosed : StrictAntiOn (hannResponse n) (Set.Icc (Real.pi / n) (2 * Real.pi / n)) := by
    intro x hx y hy hxy
    rcases lt_or_eq_of_le hx.1 with hlt | rfl
    · exact response_strictAnti' hn ⟨hlt, hx.2⟩ ⟨hlt.trans hxy, hy.2⟩ hxy
    · obtain ⟨z, hz1, hz2⟩ := exists_between hxy
      refine (response_strictAnti' hn ⟨hz1, hz2.le.trans hy.2⟩ ⟨hxy, hy.2⟩ hz2).trans_le ?_
      have ht : Filter.Tendsto (hannResponse n) (nhdsWithin (Real.pi / n) (Set.Ioi (Real.pi / n))) (nhds (hannResponse n (Real.pi / n))) :=
        ((response_continuous n).tendsto _).mono_left nhdsWithin_le_nhds
      refine ge_of_tendsto ht ?_
      filter_upwards [Ioo_mem_nhdsGT hz1] with u hu
      exact (response_strictAnti' hn ⟨hu.1, hu.2.le.trans (hz2.le.trans hy.2)⟩ ⟨hz1, hz2.le.trans hy.2⟩ hu.2).le
  have hall : StrictAntiOn (hannResponse n) (Set.Icc 0 (2 * Real.pi / n)) := by
    rw [← Set.Icc_union_Icc_eq_Icc hp0.le hpp.le]
    exact (response_strictAnti hn).union hclosed (isGreatest_Icc hp0.le) (isLeast_Icc hpp.le)
  refine ⟨hall, hzero, fun θ h0 h1 => ?_⟩
  rw [← hzero]
  have h2 : θ ≤ 2 * Real.pi / n := by rw [le_div_iff₀ hn']; linarith
  exact hall.antitoneOn ⟨h0, h2⟩ ⟨by linarith, le_rfl⟩ h2

/-- C164 in terms of the wavenumber `k` of the filter and the wavenumber `p` of a wave which the grid resolves: at least half of the
amplitude remains for `p ≤ k / 2`, nothing is reversed for `p ≤ k`, at most a twelfth remains for `2 k ≤ p`. The wave disappears iff the
window has a whole number of half-waves to each side of its centre, at least 2. -/
theorem C164_bands (hw : 2 ≤ w) (k : ℝ) (p : ℕ) (hp : 2 * p ≤ w) (hk : 1 ≤ k) (hk' : k ≤ w / 2) :
    let R := hannResponse ⌊(w : ℝ) / min (max k 1) (w / 2 : ℝ)⌋₊ (2 * Real.pi * p / w)
    (p ≤ k / 2 → 1 / 2 ≤ R) ∧ (p ≤ k → 0 ≤ R) ∧ (2 * k ≤ p → |R| ≤ 1 / 12) ∧ |R| ≤ 1 ∧
    (R = 0 ↔ ∃ m : ℕ, 2 ≤ m ∧ 2 * p * ⌊(w : ℝ) / min (max k 1) (w / 2 : ℝ)⌋₊ = m * w) := by
  intro R
  obtain ⟨n, e, hn, -, h3, h4⟩ := C63_windows hw k
  have hf : ⌊(w : ℝ) / min (max k 1) (w / 2 : ℝ)⌋₊ = n := by
    have : hannWidth w k = 2 * ⌊(w : ℝ) / min (max k 1) (w / 2 : ℝ)⌋₊ + 1 := by unfold hannWidth clipWavenumber; ring
    omega
  have hR : R = hannResponse n (2 * Real.pi * p / w) := by
    change hannResponse ⌊(w : ℝ) / min (max k 1) (w / 2 : ℝ)⌋₊ (2 * Real.pi * p / w) = _
    rw [hf]
  rw [hR, hf]
  have hcl : clipWavenumber w k = k := by
    unfold clipWavenumber; rw [max_eq_left hk, min_eq_left hk']
  rw [hcl] at h3 h4
  have hk0 : 0 < k := by linarith
  have hw0 : (0 : ℝ) < w := by exact_mod_cast (by omega : 0 < w)
  have hn' : (0 : ℝ) < n := by exact_mod_cast (by omega : 0 < n)
  have hn2 : (2 : ℝ) ≤ n := by exact_mod_cast hn
  have hp' : 2 * (p : ℝ) ≤ w := by exact_mod_cast hp
  have hp0 : (0 : ℝ) ≤ p := Nat.cast_nonneg p
  rw [le_div_iff₀ hk0] at h3
  rw [div_lt_iff₀ hk0] at h4
  have t0 : 0 ≤ 2 * Real.pi * p / w := by have := Real.pi_pos; positivity
  have t1 : 2 * Real.pi * p / w ≤ Real.pi := by rw [div_le_iff₀ hw0]; nlinarith [Real.pi_pos]
  refine ⟨fun hpk => ?_, fun hpk => ?_, fun hpk => ?_, (C164_mean hn).2 _, ?_⟩
  · rw [← C164_half hn]
    have t2 : 2 * Real.pi * p / w ≤ Real.pi / n := by
      rw [div_le_div_iff₀ hw0 hn']
      have : 2 * p * n ≤ (w : ℝ) := by nlinarith
      nlinarith [Real.pi_pos]
    exact (response_strictAnti hn).antitoneOn ⟨t0, t2⟩ ⟨by have := Real.pi_pos; positivity, le_rfl⟩ t2
  · refine (C164_mainlobe hn).2.2 _ t0 ?_
    rw [← mul_div_assoc, div_le_iff₀ hw0]
    have : p * n ≤ (w : ℝ) := by nlinarith
    nlinarith [Real.pi_pos]
  · refine C164_sidelobes hn ?_ t1
    rw [← mul_div_assoc, le_div_iff₀ hw0]
    have : (w : ℝ) ≤ p * n := by nlinarith
    nlinarith [Real.pi_pos]
  · rw [C164_zeros hn t0 t1]
    refine exists_congr fun m => and_congr_right fun _ => ?_
    rw [← mul_div_assoc, div_eq_iff hw0.ne']
    constructor
    · intro hm
      have : (2 * p * n : ℝ) = m * w := mul_right_cancel₀ Real.pi_ne_zero (by linarith)
      exact_mod_cast this
    · intro hm
      have : (2 * p * n : ℝ) = m * w := by exact_mod_cast hm
      linear_combination Real.pi * this

/-- C164 is false beyond the main lobe: some short waves are reversed, e.g. wavenumber 3 on 12 longitudes with a filter for wavenumber
2.4 has its crests where the troughs were. -/
theorem C164_sign_refuted : ∃ c < 0, ∀ A φ : Fin 1 → ℝ,
    filterByWavenumber (zonalWave 12 3 A φ) (.profile 1 fun _ => 12 / 5) = .ok (.d2 1 12 fun j i => c * zonalWave 12 3 A φ j i) := by
  refine ⟨hannResponse 5 (2 * Real.pi * (3 : ℕ) / (12 : ℕ)), ?_, fun A φ => ?_⟩
  · have hth : 2 * Real.pi * ((3 : ℕ) : ℝ) / ((12 : ℕ) : ℝ) = Real.pi / 2 := by push_cast; ring
    rw [hth]
    have hc := C164_closed (n := 5) (by norm_num) (Real.pi / 2)
    obtain ⟨s0, s1⟩ := denominator_neg (n := 5) (θ := Real.pi / 2) (by norm_num) (by push_cast; linarith [Real.pi_pos]) (by linarith [Real.pi_pos])
    obtain ⟨-, -, b2⟩ := window_angle (n := 5) (by norm_num)
    have hS : Real.sin (((5 : ℕ) : ℝ) * (Real.pi / 2)) = 1 := by
      rw [show ((5 : ℕ) : ℝ) * (Real.pi / 2) = Real.pi / 2 + 2 * Real.pi by push_cast; ring, Real.sin_add_two_pi, Real.sin_pi_div_two]
    have hC : 0 < Real.cos (Real.pi / 2 / 2) := Real.cos_pos_of_mem_Ioo ⟨by linarith [Real.pi_pos], by linarith [Real.pi_pos]⟩
    rw [hS, one_mul] at hc
    by_contra hR
    rw [not_lt] at hR
    have hr : 0 < Real.cos (Real.pi / 2 / 2) * Real.sin (Real.pi / (2 * ((5 : ℕ) : ℝ))) ^ 2 := by positivity
    have hd : Real.sin (Real.pi / 2 / 2) * (Real.sin (Real.pi / (2 * ((5 : ℕ) : ℝ))) ^ 2 - Real.sin (Real.pi / 2 / 2) ^ 2) ≤ 0 :=
      mul_nonpos_of_nonneg_of_nonpos s0.le (by nlinarith)
    have := mul_nonpos_of_nonneg_of_nonpos (by positivity : 0 ≤ 2 * ((5 : ℕ) : ℝ) * hannResponse 5 (Real.pi / 2)) hd
    linarith
  · obtain ⟨out, ho, hv⟩ := C164_wave (h := 1) (w := 12) one_pos (by norm_num) 3 (fun _ => 0) A φ (.profile 1 fun _ => 12 / 5)
      (fun _ _ => 12 / 5) (Or.inr ⟨_, rfl, rfl⟩)
    simp only [zero_add] at ho hv
    rw [ho]
    congr 2
    funext j i
    rw [hv]
    congr 2
    rw [Nat.floor_eq_iff (by positivity)]
    norm_num

/-- C93: size of the error of the phase filter. For meridional wind with wavenumber `k` at all latitudes the code filters for `2 (k - 1)`
instead of `2 k` (C92). Of the signal with wavenumber `2 k`, which should be removed, at most a twelfth remains (with the right or the
wrong sign) if `2 k (k - 1)` is at most the number of longitudes, e.g. up to wavenumber 9 on the default grid of 2.5 degrees. -/
theorem C93_residual {g : Grid ℝ} (hg : g.Valid) {k : ℕ} (hk0 : 0 < k) (hk20 : k ≤ 20) (hk4 : 4 * k ≤ g.nlon) (hk2 : 2 * k * (k - 1) ≤ g.nlon)
    (A φ : Fin g.nlat → ℝ) (hA : ∀ j, A j ≠ 0) :
    g.dominantProfile (zonalWave g.nlon k A φ) = .ok ⟨g.nlat, fun _ => (k : ℝ) - 1⟩ ∧
    ∃ r : ℝ, |r| ≤ 1 / 12 ∧ ∀ M B ψ : Fin g.nlat → ℝ,
      g.phaseFilter (fun j i => some (M j + zonalWave g.nlon (2 * k) B ψ j i)) ⟨g.nlat, fun _ => (k : ℝ) - 1⟩ =
        .ok fun j i => some (M j + r * zonalWave g.nlon (2 * k) B ψ j i) := by
  have hlat := hg.nlat_ge
  obtain ⟨m, ho, -, hwin⟩ := C92_default (g := g) hg.res_pos
  have hm : (m : ℝ) ≠ 0 := by exact_mod_cast ho.pos.ne'
  have hlon : 2 ≤ g.nlon := by omega
  have hw0 : (0 : ℝ) < g.nlon := by exact_mod_cast (by omega : 0 < g.nlon)
  refine ⟨?_, hannResponse ⌊(g.nlon : ℝ) / min (max (2 * ((k : ℝ) - 1)) 1) (g.nlon / 2 : ℝ)⌋₊ (2 * Real.pi * (2 * k : ℕ) / g.nlon), ?_,
    fun M B ψ => ?_⟩
  · unfold Grid.dominantProfile
    rw [C92_wave_partial hk0 (by omega) A φ hA 1 20 hk0 hk20 _ hwin (by simp [hm])]
    norm_num
  · obtain ⟨n, e, hn, -, h3, h4⟩ := C63_windows hlon (2 * ((k : ℝ) - 1))
    have hf : ⌊(g.nlon : ℝ) / min (max (2 * ((k : ℝ) - 1)) 1) (g.nlon / 2 : ℝ)⌋₊ = n := by
      have : hannWidth g.nlon (2 * ((k : ℝ) - 1)) = 2 * ⌊(g.nlon : ℝ) / min (max (2 * ((k : ℝ) - 1)) 1) (g.nlon / 2 : ℝ)⌋₊ + 1 := by
        unfold hannWidth clipWavenumber; ring
      omega
    rw [hf]
    have hk4' : 4 * (k : ℝ) ≤ g.nlon := by exact_mod_cast hk4
    refine C164_sidelobes hn ?_ ?_
    · rw [← mul_div_assoc, le_div_iff₀ hw0]
      have hkn : (g.nlon : ℝ) ≤ 2 * k * n := by
        rcases (by omega : k = 1 ∨ 2 ≤ k) with rfl | hk
        · have hcl : clipWavenumber g.nlon (2 * (((1 : ℕ) : ℝ) - 1)) = 1 := by
            unfold clipWavenumber
            have h2 : (2 : ℝ) ≤ g.nlon := by exact_mod_cast hlon
            rw [max_eq_right (by norm_num), min_eq_left (by linarith)]
          rw [hcl, div_one] at h3 h4
          have : g.nlon < n + 1 := by exact_mod_cast h4
          have : g.nlon ≤ n := by omega
          have : (g.nlon : ℝ) ≤ n := by exact_mod_cast this
          push_cast
          linarith
        · have hk' : (2 : ℝ) ≤ k := by exact_mod_cast hk
          have hcl : clipWavenumber g.nlon (2 * ((k : ℝ) - 1)) = 2 * ((k : ℝ) - 1) := by
            unfold clipWavenumber
            rw [max_eq_left (by linarith), min_eq_left (by linarith)]
          rw [hcl, div_lt_iff₀ (by linarith)] at h4
          have h5 : 2 * (k : ℝ) * (k - 1) ≤ g.nlon := by
            have : ((2 * k * (k - 1) : ℕ) : ℝ) ≤ g.nlon := by exact_mod_cast hk2
            rw [Nat.cast_mul, Nat.cast_sub (by omega)] at this
            push_cast at this
            exact this
          have h6 : 0 ≤ (2 * k * n - (g.nlon : ℝ)) * ((k : ℝ) - 1) := by nlinarith
          have := nonneg_of_mul_nonneg_left h6 (by linarith)
          linarith
      push_cast
      nlinarith [Real.pi_pos]
    · rw [div_le_iff₀ hw0]
      push_cast
      nlinarith [Real.pi_pos]
  · unfold Grid.phaseFilter
    dsimp only
    obtain ⟨Z, hZ, hrow, -⟩ := C93_rows (h := g.nlat) (w := g.nlon) (by omega) hlon
      (fun j i => some (M j + zonalWave g.nlon (2 * k) B ψ j i)) (fun _ => 2 * ((k : ℝ) - 1))
    rw [hZ]
    congr 1
    funext j i
    obtain ⟨out, hout, e⟩ := hrow j _ (fun _ => rfl) (fun j i => M j + zonalWave g.nlon (2 * k) B ψ j i) rfl
    obtain ⟨out', hout', e'⟩ := C164_wave (by omega : 0 < g.nlat) hlon (2 * k) M B ψ (.profile g.nlat fun _ => 2 * ((k : ℝ) - 1))
      (fun _ _ => 2 * ((k : ℝ) - 1)) (Or.inr ⟨_, rfl, rfl⟩)
    rw [hout] at hout'
    cases hout'
    rw [e, e']

/-- The premises hold for wavenumber 2 on the grid of 30 degrees. -/
example : 4 * 2 ≤ grid30.nlon ∧ 2 * 2 * (2 - 1) ≤ grid30.nlon ∧ grid30.Valid := by
  rw [grid30_nlon]; exact ⟨by norm_num, by norm_num, grid30_valid⟩

/-- Non-vacuity of C164: a filter for wavenumber 4 on 12 longitudes halves wavenumber 2 and removes wavenumber 4. -/
example : hannResponse 3 (2 * Real.pi * (2 : ℕ) / (12 : ℕ)) = 1 / 2 ∧ hannResponse 3 (2 * Real.pi * (4 : ℕ) / (12 : ℕ)) = 0 := by
  constructor
  · rw [← C164_half (n := 3) (by norm_num)]; congr 1; push_cast; ring
  · rw [← (C164_mainlobe (n := 3) (by norm_num)).2.1]; congr 1; push_cast; ring

end Barotropic
