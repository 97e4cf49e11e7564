import Verif.Spec.Transport
import Verif.Spec.Rearrange
import Verif.Lemmas.SphereIntegral
import Mathlib.Analysis.Calculus.ParametricIntervalIntegral
import Mathlib.Analysis.SpecialFunctions.SmoothTransition
import Mathlib.Analysis.Calculus.MeanValue

/-!
# Integrals over the sphere of conserved fields
-/

namespace Barotropic
open Real Set MeasureTheory Filter
open scoped Topology

/-- differentiation under the integral sign -/
theorem hasDerivAt_param {f f' : ℝ → ℝ → ℝ} (hf : Continuous fun p : ℝ × ℝ => f p.1 p.2) (hf' : Continuous fun p : ℝ × ℝ => f' p.1 p.2)
    (hd : ∀ t y, HasDerivAt (fun s => f s y) (f' t y) t) (a b t : ℝ) :
    HasDerivAt (fun t => ∫ y in a..b, f t y) (∫ y in a..b, f' t y) t := by
  have hK : IsCompact (Icc (t - 1) (t + 1) ×ˢ uIcc a b) := isCompact_Icc.prod isCompact_uIcc
  obtain ⟨C, hC⟩ := hK.exists_bound_of_continuousOn hf'.continuousOn
  have hs : Ioo (t - 1) (t + 1) ∈ 𝓝 t := Ioo_mem_nhds (by linarith) (by linarith)
  have hcur : ∀ s, Continuous (f s) := fun s => hf.comp (f := fun y => (s, y)) (by fun_prop)
  have hcur' : ∀ s, Continuous (f' s) := fun s => hf'.comp (f := fun y => (s, y)) (by fun_prop)
  refine (intervalIntegral.hasDerivAt_integral_of_dominated_loc_of_deriv_le (bound := fun _ => C) hs
    (Eventually.of_forall fun s => (hcur s).aestronglyMeasurable) ((hcur t).intervalIntegrable _ _) (hcur' t).aestronglyMeasurable ?_
    intervalIntegrable_const ?_).2
  · refine Eventually.of_forall fun y hy s hs => hC (s, y) ⟨Ioo_subset_Icc_self hs, uIoc_subset_uIcc hy⟩
  · exact Eventually.of_forall fun y _ s _ => hd s y

/-- the same for integrals over the sphere -/
theorem hasDerivAt_sphereIntegral {F F' : ℝ → ℝ → ℝ → ℝ} (hF : Continuous fun p : ℝ × ℝ × ℝ => F p.1 p.2.1 p.2.2)
    (hF' : Continuous fun p : ℝ × ℝ × ℝ => F' p.1 p.2.1 p.2.2) (hd : ∀ t x y, HasDerivAt (fun s => F s x y) (F' t x y) t) (r t : ℝ) :
    HasDerivAt (fun t => sphereIntegral r (F t)) (sphereIntegral r (F' t)) t := by
  have inner : ∀ t x, HasDerivAt (fun s => ∫ y in -(π / 2)..π / 2, F s x y * cos y) (∫ y in -(π / 2)..π / 2, F' t x y * cos y) t := by
    intro t x
    refine hasDerivAt_param (f := fun s y => F s x y * cos y) (f' := fun s y => F' s x y * cos y) ?_ ?_ (fun s y => (hd s x y).mul_const _) _ _ t
    · exact (hF.comp (f := fun p : ℝ × ℝ => (p.1, x, p.2)) (by fun_prop)).mul (continuous_cos.comp continuous_snd)
    · exact (hF'.comp (f := fun p : ℝ × ℝ => (p.1, x, p.2)) (by fun_prop)).mul (continuous_cos.comp continuous_snd)
  have cont : ∀ H : ℝ → ℝ → ℝ → ℝ, (Continuous fun p : ℝ × ℝ × ℝ => H p.1 p.2.1 p.2.2) →
      Continuous fun p : ℝ × ℝ => ∫ y in -(π / 2)..π / 2, H p.1 p.2 y * cos y := by
    intro H hH
    refine intervalIntegral.continuous_parametric_intervalIntegral_of_continuous' (f := fun (p : ℝ × ℝ) y => H p.1 p.2 y * cos y) ?_ _ _
    exact (hH.comp (f := fun p : (ℝ × ℝ) × ℝ => (p.1.1, p.1.2, p.2)) (by fun_prop)).mul (continuous_cos.comp continuous_snd)
  unfold sphereIntegral
  exact (hasDerivAt_param (f := fun t x => ∫ y in -(π / 2)..π / 2, F t x y * cos y) (f' := fun t x => ∫ y in -(π / 2)..π / 2, F' t x y * cos y)
    (cont F hF) (cont F' hF') inner 0 (2 * π) t).const_mul _

variable {r : ℝ} {q U V : ℝ → ℝ → ℝ → ℝ}

namespace ConservativeFlow

theorem sphereSmooth (h : ConservativeFlow r q U V) (t : ℝ) : SphereSmooth (q t) :=
  ⟨h.smooth.comp (f := fun p : ℝ × ℝ => (t, p.1, p.2)) (by fun_prop), h.periodic t⟩

/-- the tendency -/
noncomputable def tendency (q : ℝ → ℝ → ℝ → ℝ) (t x y : ℝ) : ℝ := fderiv ℝ (fun p : ℝ × ℝ × ℝ => q p.1 p.2.1 p.2.2) (t, x, y) (1, 0, 0)

theorem hasDerivAt (h : ConservativeFlow r q U V) (t x y : ℝ) : HasDerivAt (fun s => q s x y) (tendency q t x y) t := by
  have h0 : HasDerivAt (fun s : ℝ => (s, x, y)) ((1 : ℝ), (0 : ℝ), (0 : ℝ)) t :=
    HasDerivAt.prodMk (hasDerivAt_id t) (HasDerivAt.prodMk (hasDerivAt_const t x) (hasDerivAt_const t y))
  exact HasFDerivAt.comp_hasDerivAt (l := fun p : ℝ × ℝ × ℝ => q p.1 p.2.1 p.2.2) t
    ((h.smooth.differentiable (by simp)) (t, x, y)).hasFDerivAt h0

theorem continuous_tendency (h : ConservativeFlow r q U V) : Continuous fun p : ℝ × ℝ × ℝ => tendency q p.1 p.2.1 p.2.2 :=
  (h.smooth.continuous_fderiv (by simp)).clm_apply continuous_const

/-- Integrals of smooth functions of a conserved field do not change. -/
theorem integral_const (h : ConservativeFlow r q U V) (hr : r ≠ 0) {G : ℝ → ℝ} (hG : ContDiff ℝ (⊤ : ℕ∞) G) (t t' : ℝ) :
    sphereIntegral 1 (fun x y => G (q t x y)) = sphereIntegral 1 fun x y => G (q t' x y) := by
  have hG' : Continuous (deriv G) := hG.continuous_deriv (by simp)
  have hGd : ∀ s, HasDerivAt G (deriv G s) s := fun s => (hG.differentiable (by simp) s).hasDerivAt
  have hq : Continuous fun p : ℝ × ℝ × ℝ => q p.1 p.2.1 p.2.2 := h.smooth.continuous
  have key : ∀ t, HasDerivAt (fun t => sphereIntegral 1 fun x y => G (q t x y)) 0 t := by
    intro t
    have hd := hasDerivAt_sphereIntegral (F := fun t x y => G (q t x y)) (F' := fun t x y => deriv G (q t x y) * tendency q t x y)
      (hG.continuous.comp hq) ((hG'.comp hq).mul h.continuous_tendency) (fun t x y => (hGd (q t x y)).comp t (h.hasDerivAt t x y)) 1 t
    have hz : sphereIntegral r (fun x y => -(deriv G (q t x y) * tendency q t x y)) = 0 := by
      have hs := h.sphereSmooth t
      have hA : SphereSmooth fun x y => G (q t x y) := ⟨hG.comp hs.smooth, fun x y => by rw [hs.periodic]⟩
      refine sphereIntegral_div (hA.mul (h.eastward t)) (hA.mul (h.northward t)) hr fun x y hy => ?_
      rw [sphereDiv_mul hA (h.eastward t) (h.northward t) hr x hy, h.nondivergent t x y hy]
      have e1 : dlon (fun x y => G (q t x y)) x y = deriv G (q t x y) * dlon (q t) x y := ((hGd _).comp x (hs.hasDerivAt_lon x y)).deriv
      have e2 : dlat (fun x y => G (q t x y)) x y = deriv G (q t x y) * dlat (q t) x y := ((hGd _).comp y (hs.hasDerivAt_lat x y)).deriv
      have e3 : tendency q t x y = -(U t x y * (sphereGrad r (q t) x y).1 + V t x y * (sphereGrad r (q t) x y).2) :=
        (h.hasDerivAt t x y).deriv.symm.trans (h.conserved t x y hy)
      rw [e3]
      unfold sphereGrad
      rw [e1, e2]
      ring
    have hz' : sphereIntegral 1 (fun x y => deriv G (q t x y) * tendency q t x y) = 0 := by
      unfold sphereIntegral at hz ⊢
      simp only [neg_mul, intervalIntegral.integral_neg, mul_neg, neg_eq_zero] at hz
      rw [one_pow, one_mul]
      exact (mul_eq_zero.1 hz).resolve_left (pow_ne_zero 2 hr)
    rw [hz'] at hd
    exact hd
  exact is_const_of_deriv_eq_zero (fun t => (key t).differentiableAt) (fun t => (key t).deriv) t t'

/-- The same for pointwise limits of smooth functions. -/
theorem integral_const_limit (h : ConservativeFlow r q U V) (hr : r ≠ 0) {G : ℕ → ℝ → ℝ} {G0 : ℝ → ℝ} (hG : ∀ n, ContDiff ℝ (⊤ : ℕ∞) (G n))
    (hb : ∀ B, ∃ M, ∀ n s, |s| ≤ B → |G n s| ≤ M) (hlim : ∀ s, Tendsto (fun n => G n s) atTop (𝓝 (G0 s))) (t t' : ℝ) :
    sphereIntegral 1 (fun x y => G0 (q t x y)) = sphereIntegral 1 fun x y => G0 (q t' x y) := by
  have key : ∀ t, Tendsto (fun n => sphereIntegral 1 fun x y => G n (q t x y)) atTop (𝓝 (sphereIntegral 1 fun x y => G0 (q t x y))) := by
    intro t
    have hs := h.sphereSmooth t
    have hp := pi_pos
    have hc : Continuous fun p : ℝ × ℝ => q t p.1 p.2 := hs.smooth.continuous
    have hK : IsCompact (uIcc 0 (2 * π) ×ˢ uIcc (-(π / 2)) (π / 2)) := isCompact_uIcc.prod isCompact_uIcc
    obtain ⟨B, hB⟩ := hK.exists_bound_of_continuousOn hc.continuousOn
    obtain ⟨M, hM⟩ := hb B
    have hM' : ∀ n, ∀ x ∈ uIcc 0 (2 * π), ∀ y ∈ uIcc (-(π / 2)) (π / 2), |G n (q t x y) * cos y| ≤ M := by
      intro n x hx y hy
      rw [abs_mul]
      have h1 := hM n _ (hB (x, y) ⟨hx, hy⟩)
      have h2 := abs_cos_le_one y
      calc |G n (q t x y)| * |cos y| ≤ M * 1 := mul_le_mul h1 h2 (abs_nonneg _) ((abs_nonneg _).trans h1)
        _ = M := mul_one M
    have hcn : ∀ n, Continuous fun p : ℝ × ℝ => G n (q t p.1 p.2) * cos p.2 := fun n =>
      ((hG n).continuous.comp hc).mul (continuous_cos.comp continuous_snd)
    unfold sphereIntegral
    refine Tendsto.const_mul _ ?_
    refine intervalIntegral.tendsto_integral_filter_of_dominated_convergence (fun _ => |M| * |π / 2 - -(π / 2)|) ?_ ?_ intervalIntegrable_const ?_
    · refine Eventually.of_forall fun n => Continuous.aestronglyMeasurable ?_
      exact intervalIntegral.continuous_parametric_intervalIntegral_of_continuous' (f := fun x y => G n (q t x y) * cos y) (hcn n) _ _
    · refine Eventually.of_forall fun n => Eventually.of_forall fun x hx => ?_
      refine intervalIntegral.norm_integral_le_of_norm_le_const fun y hy => ?_
      exact (hM' n x (uIoc_subset_uIcc hx) y (uIoc_subset_uIcc hy)).trans (le_abs_self M)
    · refine Eventually.of_forall fun x hx => ?_
      refine intervalIntegral.tendsto_integral_filter_of_dominated_convergence (fun _ => M) ?_ ?_ intervalIntegrable_const ?_
      · refine Eventually.of_forall fun n => Continuous.aestronglyMeasurable ?_
        exact (hcn n).comp (f := fun y => (x, y)) (by fun_prop)
      · exact Eventually.of_forall fun n => Eventually.of_forall fun y hy => hM' n x (uIoc_subset_uIcc hx) y (uIoc_subset_uIcc hy)
      · exact Eventually.of_forall fun y _ => (hlim _).mul_const _
  refine tendsto_nhds_unique (key t) ?_
  have e : (fun n => sphereIntegral 1 fun x y => G n (q t x y)) = fun n => sphereIntegral 1 fun x y => G n (q t' x y) := by
    funext n
    exact h.integral_const hr (hG n) t t'
  rw [e]
  exact key t'

/-- The area where a conserved field exceeds a value does not change. -/
theorem area_const (h : ConservativeFlow r q U V) (hr : r ≠ 0) (c t t' : ℝ) : areaAbove (q t) c = areaAbove (q t') c := by
  classical
  unfold areaAbove
  have := h.integral_const_limit hr (G := fun n s => smoothTransition (n * (s - c) + 1)) (G0 := fun s => if c ≤ s then 1 else 0) ?_ ?_ ?_ t t'
  · convert this
  · intro n
    exact smoothTransition.contDiff.comp (by fun_prop)
  · refine fun B => ⟨1, fun n s _ => ?_⟩
    rw [abs_of_nonneg (smoothTransition.nonneg _)]
    exact smoothTransition.le_one _
  · intro s
    by_cases hs : c ≤ s
    · rw [if_pos hs]
      refine tendsto_const_nhds.congr fun n => (smoothTransition.one_of_one_le ?_).symm
      have : (0 : ℝ) ≤ n * (s - c) := mul_nonneg (Nat.cast_nonneg _) (by linarith)
      linarith
    · rw [if_neg hs]
      have hs := not_le.1 hs
      obtain ⟨N, hN⟩ := exists_nat_gt (1 / (c - s))
      refine tendsto_const_nhds.congr' ?_
      filter_upwards [eventually_ge_atTop N] with n hn
      symm
      refine smoothTransition.zero_of_nonpos ?_
      have h1 : (N : ℝ) ≤ n := by exact_mod_cast hn
      have h2 : 1 < (n : ℝ) * (c - s) := by
        rw [div_lt_iff₀ (by linarith)] at hN
        have := mul_le_mul_of_nonneg_right h1 (by linarith : 0 ≤ c - s)
        linarith
      linarith

/-- The integral of the excess of a conserved field over a value does not change. -/
theorem excess_const (h : ConservativeFlow r q U V) (hr : r ≠ 0) (c t t' : ℝ) :
    sphereIntegral 1 (fun x y => max 0 (q t x y - c)) = sphereIntegral 1 fun x y => max 0 (q t' x y - c) := by
  refine h.integral_const_limit hr (G := fun n s => (s - c) * smoothTransition (n * (s - c))) (G0 := fun s => max 0 (s - c)) ?_ ?_ ?_ t t'
  · intro n
    exact (by fun_prop : ContDiff ℝ (⊤ : ℕ∞) fun s => s - c).mul (smoothTransition.contDiff.comp (by fun_prop))
  · refine fun B => ⟨B + |c|, fun n s hs => ?_⟩
    rw [abs_mul, abs_of_nonneg (smoothTransition.nonneg _)]
    have h1 : |s - c| ≤ B + |c| := (abs_sub _ _).trans (by linarith)
    calc |s - c| * smoothTransition (n * (s - c)) ≤ (B + |c|) * 1 :=
          mul_le_mul h1 (smoothTransition.le_one _) (smoothTransition.nonneg _) ((abs_nonneg _).trans h1)
      _ = B + |c| := mul_one _
  · intro s
    rcases le_or_gt s c with hs | hs
    · rw [max_eq_left (by linarith)]
      refine tendsto_const_nhds.congr fun n => ?_
      rw [smoothTransition.zero_of_nonpos (mul_nonpos_of_nonneg_of_nonpos (Nat.cast_nonneg n) (by linarith)), mul_zero]
    · rw [max_eq_right (by linarith)]
      obtain ⟨N, hN⟩ := exists_nat_gt (1 / (s - c))
      refine tendsto_const_nhds.congr' ?_
      filter_upwards [eventually_ge_atTop N] with n hn
      have h1 : (N : ℝ) ≤ n := by exact_mod_cast hn
      rw [smoothTransition.one_of_one_le, mul_one]
      rw [div_lt_iff₀ (by linarith)] at hN
      have := mul_le_mul_of_nonneg_right h1 (by linarith : 0 ≤ s - c)
      linarith

end ConservativeFlow

end Barotropic
