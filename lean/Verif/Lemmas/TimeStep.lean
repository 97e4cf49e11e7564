import Mathlib.Analysis.Calculus.MeanValue
import Mathlib.Analysis.SpecialFunctions.Exp

/-!
# Convergence of the semi-implicit, filtered leapfrog scheme for ordinary differential equations
-/

namespace Barotropic
open Set

variable {E : Type*} [NormedAddCommGroup E] [NormedSpace ℝ E]

/-- `Y' = N(t, Y) + G(Y)` on `[t0, t1]`. `N` is Lipschitz continuous in a neighbourhood of the solution, `G` is Lipschitz continuous and dissipative. -/
structure SplitOde (N : ℝ → E → E) (G : E → E) (Y : ℝ → E) (t0 t1 L K W : ℝ) : Prop where
  solves : ∀ t ∈ Icc t0 t1, HasDerivWithinAt Y (N t (Y t) + G (Y t)) (Icc t0 t1) t
  lip : ∀ t ∈ Icc t0 t1, ∀ t' ∈ Icc t0 t1, ∀ q q', ‖q - Y t‖ ≤ 1 → ‖q' - Y t'‖ ≤ 1 → ‖N t q - N t' q'‖ ≤ L * (|t - t'| + ‖q - q'‖)
  implicit : ∀ q q', ‖G q - G q'‖ ≤ K * ‖q - q'‖
  dissipative : ∀ τ : ℝ, 0 ≤ τ → ∀ q q', ‖q - q'‖ ≤ ‖(q - q') - τ • (G q - G q')‖
  rate : ∀ t ∈ Icc t0 t1, ‖N t (Y t) + G (Y t)‖ ≤ W
  nonneg : 0 ≤ L ∧ 0 ≤ K ∧ 0 ≤ W

namespace SplitOde
variable {N : ℝ → E → E} {G : E → E} {Y : ℝ → E} {t0 t1 L K W : ℝ} (h : SplitOde N G Y t0 t1 L K W)
include h

theorem lipschitz {s t : ℝ} (hs : s ∈ Icc t0 t1) (ht : t ∈ Icc t0 t1) : ‖Y t - Y s‖ ≤ W * |t - s| :=
  Convex.norm_image_sub_le_of_norm_hasDerivWithin_le h.solves h.rate (convex_Icc t0 t1) hs ht

theorem rate_lipschitz {s t : ℝ} (hs : s ∈ Icc t0 t1) (ht : t ∈ Icc t0 t1) :
    ‖(N t (Y t) + G (Y t)) - (N s (Y s) + G (Y s))‖ ≤ (L * (1 + W) + K * W) * |t - s| := by
  obtain ⟨hL, hK, hW⟩ := h.nonneg
  have h1 := h.lip t ht s hs (Y t) (Y s) (by simp) (by simp)
  have h2 := h.implicit (Y t) (Y s)
  have h3 := h.lipschitz hs ht
  have h4 : ‖(N t (Y t) + G (Y t)) - (N s (Y s) + G (Y s))‖ ≤ ‖N t (Y t) - N s (Y s)‖ + ‖G (Y t) - G (Y s)‖ := by
    rw [show (N t (Y t) + G (Y t)) - (N s (Y s) + G (Y s)) = (N t (Y t) - N s (Y s)) + (G (Y t) - G (Y s)) by abel]
    exact norm_add_le _ _
  have h5 := mul_le_mul_of_nonneg_left h3 hL
  have h6 := mul_le_mul_of_nonneg_left h3 hK
  linarith

/-- Taylor expansion with the rate at a time `s` no farther than `d` from the interval -/
theorem taylor {a b s d : ℝ} (ha : a ∈ Icc t0 t1) (hb : b ∈ Icc t0 t1) (hs : s ∈ Icc t0 t1) (hab : a ≤ b) (hd : ∀ x ∈ Icc a b, |x - s| ≤ d) :
    ‖Y b - Y a - (b - a) • (N s (Y s) + G (Y s))‖ ≤ (L * (1 + W) + K * W) * d * (b - a) := by
  obtain ⟨hL, hK, hW⟩ := h.nonneg
  have hsub : Icc a b ⊆ Icc t0 t1 := Icc_subset_Icc ha.1 hb.2
  have key := Convex.norm_image_sub_le_of_norm_hasDerivWithin_le
    (f := fun x => Y x - x • (N s (Y s) + G (Y s))) (f' := fun x => (N x (Y x) + G (Y x)) - (N s (Y s) + G (Y s)))
    (C := (L * (1 + W) + K * W) * d) (s := Icc a b) (fun x hx => by
      have h1 := (h.solves x (hsub hx)).mono hsub
      have h2 : HasDerivWithinAt (fun x : ℝ => x • (N s (Y s) + G (Y s))) ((1 : ℝ) • (N s (Y s) + G (Y s))) (Icc a b) x :=
        (hasDerivWithinAt_id x _).smul_const _
      rw [one_smul] at h2
      exact h1.sub h2) (fun x hx =>
      (h.rate_lipschitz hs (hsub hx)).trans (mul_le_mul_of_nonneg_left (hd x hx) (by positivity))) (convex_Icc a b)
    (left_mem_Icc.2 hab) (right_mem_Icc.2 hab)
  rw [Real.norm_of_nonneg (by linarith : 0 ≤ b - a)] at key
  refine le_trans (le_of_eq ?_) key
  congr 1
  rw [sub_smul]
  abel

/-- A step with implicit `G`: error of the result in terms of the error of the old value and the rate -/
theorem step {τ ρ : ℝ} (hτ : 0 ≤ τ) {old new rate z : E} {a b s : ℝ} (hb : b ∈ Icc t0 t1) (hs : s ∈ Icc t0 t1) (hn : new = old + τ • (rate + G new))
    (hr : ‖Y b - Y a - τ • (N s (Y s) + G (Y s))‖ ≤ ρ) (hz : ‖rate - N s (Y s)‖ ≤ ‖z‖) :
    ‖new - Y b‖ ≤ ‖old - Y a‖ + τ * ‖z‖ + ρ + τ * K * W * |b - s| := by
  obtain ⟨hL, hK, hW⟩ := h.nonneg
  refine (h.dissipative τ hτ new (Y b)).trans ?_
  have e : (new - Y b) - τ • (G new - G (Y b)) =
      (old - Y a) + τ • (rate - N s (Y s)) - (Y b - Y a - τ • (N s (Y s) + G (Y s))) + τ • (G (Y b) - G (Y s)) := by
    nth_rw 1 [hn]
    module
  rw [e]
  have h1 : ‖τ • (rate - N s (Y s))‖ ≤ τ * ‖z‖ := by
    rw [norm_smul, Real.norm_of_nonneg hτ]
    exact mul_le_mul_of_nonneg_left hz hτ
  have h2 : ‖τ • (G (Y b) - G (Y s))‖ ≤ τ * K * W * |b - s| := by
    rw [norm_smul, Real.norm_of_nonneg hτ, mul_assoc, mul_assoc]
    exact mul_le_mul_of_nonneg_left ((h.implicit _ _).trans (mul_le_mul_of_nonneg_left (h.lipschitz hs hb) hK)) hτ
  have h3 := norm_add_le ((old - Y a) + τ • (rate - N s (Y s)) - (Y b - Y a - τ • (N s (Y s) + G (Y s)))) (τ • (G (Y b) - G (Y s)))
  have h4 := norm_sub_le ((old - Y a) + τ • (rate - N s (Y s))) (Y b - Y a - τ • (N s (Y s) + G (Y s)))
  have h5 := norm_add_le (old - Y a) (τ • (rate - N s (Y s)))
  linarith

/-- An Euler step followed by filtered leapfrog steps of length `δ` is accurate to first order. -/
theorem leapfrog_error {x y : ℕ → E} {n : ℕ} {δ ε : ℝ} (hδ : 0 < δ) (hε : 0 ≤ ε) (hε' : ε ≤ 1 / 2) (hn : t0 + (n + 1) * δ ≤ t1)
    (hx0 : x 0 = Y t0) (hy0 : y 0 = x 0 + δ • (N t0 (x 0) + G (y 0)))
    (hy : ∀ k < n, y (k + 1) = x k + (2 * δ) • (N (t0 + (k + 1) * δ) (y k) + G (y (k + 1))))
    (hx : ∀ k < n, x (k + 1) = y k + ε • (x k - (2 : ℝ) • y k + y (k + 1)))
    (hC : 6 * (L * (1 + W) + K * W) * (t1 - t0) * Real.exp (2 * L * (t1 - t0)) * δ ≤ 1) :
    ∀ k ≤ n, ‖x k - Y (t0 + k * δ)‖ ≤ 6 * (L * (1 + W) + K * W) * (t1 - t0) * Real.exp (2 * L * (t1 - t0)) * δ ∧
      ‖y k - Y (t0 + (k + 1) * δ)‖ ≤ 6 * (L * (1 + W) + K * W) * (t1 - t0) * Real.exp (2 * L * (t1 - t0)) * δ := by
  obtain ⟨hL, hK, hW⟩ := h.nonneg
  set P := L * (1 + W) + K * W with hP
  have hKW : 0 ≤ K * W := by positivity
  have hPK : K * W ≤ P := by
    have : 0 ≤ L * (1 + W) := by positivity
    linarith
  have hP0 : 0 ≤ P := by linarith
  have hmem : ∀ k : ℕ, k ≤ n + 1 → t0 + k * δ ∈ Icc t0 t1 := by
    intro k hk
    have : (k : ℝ) ≤ n + 1 := by exact_mod_cast hk
    have := mul_le_mul_of_nonneg_right this hδ.le
    have : 0 ≤ (k : ℝ) * δ := by positivity
    exact ⟨by linarith, by linarith⟩
  -- the growing bound stays below the final one
  have hbound : ∀ k ≤ n, 6 * P * δ ^ 2 * (k + 1) * (1 + 2 * L * δ) ^ k ≤ 6 * P * (t1 - t0) * Real.exp (2 * L * (t1 - t0)) * δ := by
    intro k hk
    have hk' : (k : ℝ) ≤ n := by exact_mod_cast hk
    have h1 : (k + 1) * δ ≤ t1 - t0 := by
      have := mul_le_mul_of_nonneg_right hk' hδ.le
      linarith
    have h2 : (1 + 2 * L * δ) ^ k ≤ Real.exp (2 * L * (t1 - t0)) := by
      have : 1 + 2 * L * δ ≤ Real.exp (2 * L * δ) := by linarith [Real.add_one_le_exp (2 * L * δ)]
      refine (pow_le_pow_left₀ (by positivity) this k).trans ?_
      rw [← Real.exp_nat_mul, Real.exp_le_exp]
      have h3 : (k : ℝ) * δ ≤ t1 - t0 := by linarith
      have := mul_le_mul_of_nonneg_left h3 (by positivity : 0 ≤ 2 * L)
      linarith
    have h4 : (0 : ℝ) ≤ (k + 1) * δ := by positivity
    calc 6 * P * δ ^ 2 * (k + 1) * (1 + 2 * L * δ) ^ k = 6 * P * δ * (((k + 1) * δ) * (1 + 2 * L * δ) ^ k) := by ring
      _ ≤ 6 * P * δ * ((t1 - t0) * Real.exp (2 * L * (t1 - t0))) :=
          mul_le_mul_of_nonneg_left (mul_le_mul h1 h2 (by positivity) (by linarith)) (by positivity)
      _ = _ := by ring
  have main : ∀ k ≤ n, ‖x k - Y (t0 + k * δ)‖ ≤ 6 * P * δ ^ 2 * (k + 1) * (1 + 2 * L * δ) ^ k ∧
      ‖y k - Y (t0 + (k + 1) * δ)‖ ≤ 6 * P * δ ^ 2 * (k + 1) * (1 + 2 * L * δ) ^ k := by
    intro k
    induction k with
    | zero =>
      intro _
      have m0 := hmem 0 (by omega)
      have m1 := hmem 1 (by omega)
      simp only [Nat.cast_zero, zero_mul, add_zero, Nat.cast_one, one_mul, zero_add, mul_one, pow_zero] at m0 m1 ⊢
      refine ⟨by rw [hx0, sub_self, norm_zero]; positivity, ?_⟩
      have t := h.taylor m0 m1 m0 (by linarith) (d := δ) (fun z hz => by rw [abs_of_nonneg (by linarith [hz.1])]; linarith [hz.2])
      rw [show t0 + δ - t0 = δ by ring] at t
      have s := h.step (z := (0 : E)) hδ.le m1 m0 hy0 t (by rw [hx0, sub_self])
      rw [show t0 + δ - t0 = δ by ring, abs_of_pos hδ, hx0, sub_self, norm_zero] at s
      have h1 := mul_le_mul_of_nonneg_right hPK (sq_nonneg δ)
      have h2 := mul_nonneg hP0 (sq_nonneg δ)
      have h3 : δ * K * W * δ = K * W * δ ^ 2 := by ring
      have h4 : P * δ * δ = P * δ ^ 2 := by ring
      linarith
    | succ k ih =>
      intro hk
      obtain ⟨ihx, ihy⟩ := ih (by omega)
      set e := 6 * P * δ ^ 2 * (k + 1) * (1 + 2 * L * δ) ^ k with he
      have hle := (hbound k (by omega)).trans hC
      have m0 := hmem k (by omega)
      have m1 := hmem (k + 1) (by omega)
      have m2 := hmem (k + 1 + 1) (by omega)
      push_cast at m1 m2 ⊢
      set ta := t0 + k * δ with hta
      set tb := t0 + (k + 1) * δ with htb
      set tc := t0 + (k + 1 + 1) * δ with htc
      have hab : tb - ta = δ := by rw [hta, htb]; ring
      have hbc : tc - tb = δ := by rw [htc, htb]; ring
      have tay := h.taylor m0 m2 m1 (by linarith) (d := δ) (fun z hz => by rw [abs_le]; exact ⟨by linarith [hz.1], by linarith [hz.2]⟩)
      rw [show tc - ta = 2 * δ by linarith] at tay
      have hN : ‖N tb (y k) - N tb (Y tb)‖ ≤ ‖(L * e : ℝ)‖ := by
        rw [Real.norm_of_nonneg (by positivity)]
        refine (h.lip tb m1 tb m1 (y k) (Y tb) (ihy.trans hle) (by simp)).trans ?_
        rw [sub_self, abs_zero, zero_add]
        exact mul_le_mul_of_nonneg_left ihy hL
      have hN' : ‖N tb (y k) - N tb (Y tb)‖ ≤ L * e := by rwa [Real.norm_of_nonneg (by positivity)] at hN
      have s := h.step (z := N tb (y k) - N tb (Y tb)) (by positivity : 0 ≤ 2 * δ) m2 m1 (hy k (by omega)) tay le_rfl
      rw [hbc, abs_of_pos hδ] at s
      have hsq := mul_nonneg hP0 (sq_nonneg δ)
      have hnew : ‖y (k + 1) - Y tc‖ ≤ e + 2 * L * δ * e + 4 * P * δ ^ 2 := by
        have h1 := mul_le_mul_of_nonneg_right hPK (sq_nonneg δ)
        have h2 := mul_le_mul_of_nonneg_left hN' (by positivity : 0 ≤ 2 * δ)
        have h3 : 2 * δ * K * W * δ = 2 * (K * W * δ ^ 2) := by ring
        have h4 : P * δ * (2 * δ) = 2 * (P * δ ^ 2) := by ring
        linarith
      have h0e : 0 ≤ e := (norm_nonneg _).trans ihx
      have hgrow : e + 2 * L * δ * e + 6 * P * δ ^ 2 ≤ 6 * P * δ ^ 2 * (k + 1 + 1) * (1 + 2 * L * δ) ^ (k + 1) := by
        have h0 : 0 ≤ 2 * L * δ := by positivity
        have h1 : (1 : ℝ) ≤ (1 + 2 * L * δ) ^ (k + 1) := one_le_pow₀ (by linarith)
        have h2 := mul_le_mul_of_nonneg_left h1 (by positivity : 0 ≤ 6 * P * δ ^ 2)
        have h3 : e + 2 * L * δ * e = 6 * P * δ ^ 2 * (k + 1) * (1 + 2 * L * δ) ^ (k + 1) := by rw [he, pow_succ]; ring
        have h4 : 6 * P * δ ^ 2 * (k + 1 + 1) * (1 + 2 * L * δ) ^ (k + 1) =
          6 * P * δ ^ 2 * (k + 1) * (1 + 2 * L * δ) ^ (k + 1) + 6 * P * δ ^ 2 * (1 + 2 * L * δ) ^ (k + 1) := by ring
        linarith
      refine ⟨?_, by linarith⟩
      -- curvature of the solution
      have tay1 := h.taylor m0 m1 m1 (by linarith) (d := δ) (fun z hz => by rw [abs_le]; exact ⟨by linarith [hz.1], by linarith [hz.2]⟩)
      have tay2 := h.taylor m1 m2 m1 (by linarith) (d := δ) (fun z hz => by rw [abs_le]; exact ⟨by linarith [hz.1], by linarith [hz.2]⟩)
      rw [hab] at tay1
      rw [hbc] at tay2
      have hcurv : ‖Y ta - (2 : ℝ) • Y tb + Y tc‖ ≤ 2 * P * δ ^ 2 := by
        have e1 : Y ta - (2 : ℝ) • Y tb + Y tc = (Y tc - Y tb - δ • (N tb (Y tb) + G (Y tb))) - (Y tb - Y ta - δ • (N tb (Y tb) + G (Y tb))) := by
          module
        rw [e1]
        refine (norm_sub_le _ _).trans ?_
        have : P * δ * δ = P * δ ^ 2 := by ring
        linarith
      have e2 : x (k + 1) - Y tb = (1 - 2 * ε) • (y k - Y tb) + ε • (x k - Y ta) + ε • (y (k + 1) - Y tc) + ε • (Y ta - (2 : ℝ) • Y tb + Y tc) := by
        rw [hx k (by omega)]
        module
      rw [e2]
      have n1 := norm_add_le ((1 - 2 * ε) • (y k - Y tb) + ε • (x k - Y ta) + ε • (y (k + 1) - Y tc)) (ε • (Y ta - (2 : ℝ) • Y tb + Y tc))
      have n2 := norm_add_le ((1 - 2 * ε) • (y k - Y tb) + ε • (x k - Y ta)) (ε • (y (k + 1) - Y tc))
      have n3 := norm_add_le ((1 - 2 * ε) • (y k - Y tb)) (ε • (x k - Y ta))
      rw [norm_smul, norm_smul, Real.norm_of_nonneg hε, Real.norm_of_nonneg (by linarith : 0 ≤ 1 - 2 * ε)] at n3
      rw [norm_smul ε, Real.norm_of_nonneg hε] at n2
      rw [norm_smul ε, Real.norm_of_nonneg hε] at n1
      have q1 := mul_le_mul_of_nonneg_left ihy (by linarith : 0 ≤ 1 - 2 * ε)
      have q2 := mul_le_mul_of_nonneg_left ihx hε
      have q3 := mul_le_mul_of_nonneg_left hnew hε
      have q4 := mul_le_mul_of_nonneg_left hcurv hε
      have q5 : ε * (2 * L * δ * e) ≤ 2 * L * δ * e := mul_le_of_le_one_left (by positivity) (by linarith)
      have q6 : ε * (6 * P * δ ^ 2) ≤ 6 * P * δ ^ 2 := mul_le_of_le_one_left (by positivity) (by linarith)
      linarith
  exact fun k hk => ⟨(main k hk).1.trans (hbound k hk), (main k hk).2.trans (hbound k hk)⟩

end SplitOde
end Barotropic
