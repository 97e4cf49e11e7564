import Mathlib.Analysis.Calculus.ContDiff.Convolution
import Mathlib.Analysis.Calculus.BumpFunction.FiniteDimension
import Mathlib.MeasureTheory.Integral.PeakFunction
import Mathlib.MeasureTheory.Measure.Lebesgue.EqHaar
import Mathlib.MeasureTheory.SpecificCodomains.ContinuousMap
import Mathlib.Topology.ContinuousMap.Compact
import Mathlib.Topology.CompactOpen
import Mathlib.Algebra.MvPolynomial.Eval
import Mathlib.Analysis.Calculus.ContDiff.Operations

/-!
# Approximation of smooth functions and their derivatives by polynomials

Convolution with powers of a quadratic polynomial (Landau's kernel).
-/

namespace Barotropic
open Set Filter Topology MeasureTheory ContinuousLinearMap
open scoped Convolution

variable {d : ℕ}

/-- Quadratic polynomial with maximum `1` at the origin, nonnegative in the box of half-width `2 b` -/
noncomputable def peak (d : ℕ) (b : ℝ) (z : Fin d → ℝ) : ℝ := 1 - (∑ i, z i ^ 2) / (4 * d * b ^ 2 + 1)

theorem peak_den_pos (d : ℕ) (b : ℝ) : 0 < 4 * (d : ℝ) * b ^ 2 + 1 := by positivity

theorem peak_continuous (d : ℕ) (b : ℝ) : Continuous (peak d b) := by
  unfold peak
  fun_prop

theorem peak_zero (d : ℕ) (b : ℝ) : peak d b 0 = 1 := by simp [peak]

theorem peak_lt {b : ℝ} {z : Fin d → ℝ} (hz : z ≠ 0) : peak d b z < peak d b 0 := by
  rw [peak_zero]
  have : 0 < ∑ i, z i ^ 2 := by
    obtain ⟨i, hi⟩ := Function.ne_iff.mp hz
    exact Finset.sum_pos' (fun _ _ => sq_nonneg _) ⟨i, Finset.mem_univ i, by have : z i ≠ 0 := hi; positivity⟩
  have := div_pos this (peak_den_pos d b)
  unfold peak
  linarith

theorem peak_nonneg {b : ℝ} {z : Fin d → ℝ} (hz : z ∈ Metric.closedBall (0 : Fin d → ℝ) (2 * b)) : 0 ≤ peak d b z := by
  have hn : ‖z‖ ≤ 2 * b := by simpa using hz
  have h1 : ∑ i, z i ^ 2 ≤ ∑ _i : Fin d, (2 * b) ^ 2 := Finset.sum_le_sum fun i _ => by
    have := (norm_le_pi_norm z i).trans hn
    rw [Real.norm_eq_abs] at this
    exact sq_le_sq' (by linarith [neg_abs_le (z i)]) ((le_abs_self _).trans this)
  have h2 : ∑ _i : Fin d, (2 * b) ^ 2 ≤ 4 * d * b ^ 2 + 1 := by
    rw [Finset.sum_const, Finset.card_univ, Fintype.card_fin, nsmul_eq_mul]
    nlinarith
  have := (div_le_one (peak_den_pos d b)).mpr (h1.trans h2)
  unfold peak
  linarith

/-- Total weight of the kernel -/
noncomputable def peakMass (d : ℕ) (b : ℝ) (m : ℕ) : ℝ := ∫ z in Metric.closedBall (0 : Fin d → ℝ) (2 * b), peak d b z ^ m

/-- Convolution with the kernel -/
noncomputable def landau (b : ℝ) (F : (Fin d → ℝ) → ℝ) (m : ℕ) (x : Fin d → ℝ) : ℝ :=
  (peakMass d b m)⁻¹ * ((fun z => peak d b z ^ m) ⋆[mul ℝ ℝ, volume] F) x

theorem landau_eq (b : ℝ) (F : (Fin d → ℝ) → ℝ) (m : ℕ) (x : Fin d → ℝ) :
    landau b F m x = (peakMass d b m)⁻¹ * ∫ z, peak d b z ^ m * F (x - z) := rfl

theorem landau_eq' (b : ℝ) (F : (Fin d → ℝ) → ℝ) (m : ℕ) (x : Fin d → ℝ) :
    landau b F m x = (peakMass d b m)⁻¹ * ∫ z, peak d b (x - z) ^ m * F z := by
  unfold landau
  rw [convolution_mul_swap]

theorem landau_tendsto {b : ℝ} (hb : 0 < b) {F : (Fin d → ℝ) → ℝ} (hF : Continuous F) (h0 : ∀ x, b < ‖x‖ → F x = 0) :
    TendstoUniformlyOn (fun m => landau b F m) F atTop (Metric.closedBall 0 b) := by
  let B : Set (Fin d → ℝ) := Metric.closedBall 0 b
  have hB : IsCompact B := isCompact_closedBall _ _
  haveI : CompactSpace B := isCompact_iff_compactSpace.mp hB
  let f : C((Fin d → ℝ) × B, ℝ) := ⟨fun p => F (p.2 - p.1), by fun_prop⟩
  let G : (Fin d → ℝ) → C(B, ℝ) := fun z => f.curry z
  have hG : Continuous G := f.curry.continuous
  have hD : IsCompact (Metric.closedBall (0 : Fin d → ℝ) (2 * b)) := isCompact_closedBall _ _
  have key := tendsto_setIntegral_pow_smul_of_unique_maximum_of_isCompact_of_continuousOn (μ := (volume : Measure (Fin d → ℝ))) hD
    (peak_continuous d b).continuousOn (x₀ := 0) (fun y _ hy => peak_lt hy) (fun x hx => peak_nonneg hx) (by rw [peak_zero]; exact one_pos)
    (by
      refine subset_closure ?_
      rw [interior_closedBall _ (by positivity)]
      exact Metric.mem_ball_self (by positivity)) hG.continuousOn
  rw [ContinuousMap.tendsto_iff_tendstoUniformly] at key
  rw [tendstoUniformlyOn_iff_tendstoUniformly_comp_coe]
  convert key using 1
  · funext m x
    have hint : IntegrableOn (fun z => peak d b z ^ m • G z) (Metric.closedBall (0 : Fin d → ℝ) (2 * b)) volume :=
      (((peak_continuous d b).pow m).smul hG).continuousOn.integrableOn_compact hD
    rw [ContinuousMap.smul_apply, ContinuousMap.integral_apply hint, smul_eq_mul]
    change landau b F m x = _
    rw [landau_eq]
    congr 1
    rw [← setIntegral_eq_integral_of_forall_compl_eq_zero (s := Metric.closedBall (0 : Fin d → ℝ) (2 * b))]
    · rfl
    · intro z hz
      have h1 : 2 * b < ‖z‖ := by simpa using hz
      have h2 : ‖(x : Fin d → ℝ)‖ ≤ b := mem_closedBall_zero_iff.mp x.2
      have h3 := norm_sub_norm_le z (x : Fin d → ℝ)
      rw [h0 _ (by rw [norm_sub_rev]; linarith), mul_zero]
  · funext x
    change F x = F (x - 0)
    rw [sub_zero]

theorem landau_deriv {b : ℝ} {F : (Fin d → ℝ) → ℝ} (hF : ContDiff ℝ 1 F) (hc : HasCompactSupport F) (m : ℕ) (x v : Fin d → ℝ) :
    DifferentiableAt ℝ (landau b F m) x ∧ fderiv ℝ (landau b F m) x v = landau b (fun y => fderiv ℝ F y v) m x := by
  have hl : LocallyIntegrable (fun z => peak d b z ^ m) (volume : Measure (Fin d → ℝ)) := ((peak_continuous d b).pow m).locallyIntegrable
  have h := (hc.hasFDerivAt_convolution_right (mul ℝ ℝ) hl hF x).const_mul (peakMass d b m)⁻¹
  refine ⟨h.differentiableAt, ?_⟩
  have e : fderiv ℝ (landau b F m) x = _ := h.fderiv
  rw [e, _root_.smul_apply, convolution_precompR_apply (mul ℝ ℝ) hl (hc.fderiv ℝ) (hF.continuous_fderiv one_ne_zero)]
  rfl

/-! ## Polynomials -/

theorem mvPoly_smooth (P : MvPolynomial (Fin d) ℝ) : ContDiff ℝ (⊤ : ℕ∞) fun x : Fin d → ℝ => P.eval x := by
  induction P using MvPolynomial.induction_on with
  | C a => simp only [MvPolynomial.eval_C]; exact contDiff_const
  | add p q hp hq => simp only [map_add]; exact hp.add hq
  | mul_X p i hp => simp only [map_mul, MvPolynomial.eval_X]; exact hp.mul (contDiff_apply ℝ ℝ i)

/-- Kernels that are polynomials in the first argument -/
def PolyKernel (F : (Fin d → ℝ) → ℝ) (k : (Fin d → ℝ) → (Fin d → ℝ) → ℝ) : Prop :=
  ∀ u : (Fin d → ℝ) → ℝ, Continuous u → (∀ x, Continuous (k x)) ∧ ∃ P : MvPolynomial (Fin d) ℝ, ∀ x, ∫ z, k x z * u z * F z = P.eval x

theorem polyKernel_one (F : (Fin d → ℝ) → ℝ) : PolyKernel F fun _ _ => 1 := by
  intro u hu
  exact ⟨fun _ => continuous_const, MvPolynomial.C (∫ z, u z * F z), fun x => by simp⟩

theorem polyKernel_add {F : (Fin d → ℝ) → ℝ} (hF : Continuous F) (hc : HasCompactSupport F) {k k' : (Fin d → ℝ) → (Fin d → ℝ) → ℝ}
    (h : PolyKernel F k) (h' : PolyKernel F k') : PolyKernel F fun x z => k x z + k' x z := by
  intro u hu
  obtain ⟨a, P, hP⟩ := h u hu
  obtain ⟨a', P', hP'⟩ := h' u hu
  refine ⟨fun x => (a x).add (a' x), P + P', fun x => ?_⟩
  have i : Integrable (fun z => k x z * u z * F z) := (((a x).mul hu).mul hF).integrable_of_hasCompactSupport hc.mul_left
  have i' : Integrable (fun z => k' x z * u z * F z) := (((a' x).mul hu).mul hF).integrable_of_hasCompactSupport hc.mul_left
  rw [map_add, ← hP, ← hP', ← integral_add i i']
  congr 1; funext z; ring

theorem polyKernel_mul {F : (Fin d → ℝ) → ℝ} {k : (Fin d → ℝ) → (Fin d → ℝ) → ℝ} (h : PolyKernel F k) (A : MvPolynomial (Fin d) ℝ)
    {b : (Fin d → ℝ) → ℝ} (hb : Continuous b) : PolyKernel F fun x z => A.eval x * b z * k x z := by
  intro u hu
  obtain ⟨a, P, hP⟩ := h (fun z => b z * u z) (hb.mul hu)
  refine ⟨fun x => (continuous_const.mul hb).mul (a x), A * P, fun x => ?_⟩
  rw [map_mul, ← hP, ← integral_const_mul]
  congr 1; funext z; ring

theorem polyKernel_sum {F : (Fin d → ℝ) → ℝ} (hF : Continuous F) (hc : HasCompactSupport F) {ι : Type*} (s : Finset ι)
    {k : ι → (Fin d → ℝ) → (Fin d → ℝ) → ℝ} (h : ∀ i, PolyKernel F (k i)) : PolyKernel F fun x z => ∑ i ∈ s, k i x z := by
  classical
  induction s using Finset.induction_on with
  | empty =>
    simp only [Finset.sum_empty]
    have := polyKernel_mul (polyKernel_one F) 0 (b := fun _ => 1) continuous_const
    simpa using this
  | insert i s hi ih =>
    simp only [Finset.sum_insert hi]
    exact polyKernel_add hF hc (h i) ih

theorem polyKernel_peak {F : (Fin d → ℝ) → ℝ} (hF : Continuous F) (hc : HasCompactSupport F) (b : ℝ) (m : ℕ) :
    PolyKernel F fun x z => peak d b (x - z) ^ m := by
  induction m with
  | zero => simpa using polyKernel_one F
  | succ m ih =>
    obtain ⟨R, hR⟩ : ∃ R, R = (4 * (d : ℝ) * b ^ 2 + 1)⁻¹ := ⟨_, rfl⟩
    have e : (fun x z => peak d b (x - z) ^ (m + 1)) = fun x z => peak d b (x - z) ^ m + ∑ i,
        (((MvPolynomial.C (-R) * MvPolynomial.X i ^ 2).eval x * 1 * peak d b (x - z) ^ m + (MvPolynomial.C (2 * R) * MvPolynomial.X i).eval x * z i * peak d b (x - z) ^ m) +
          (MvPolynomial.C (-R)).eval x * z i ^ 2 * peak d b (x - z) ^ m) := by
      funext x z
      rw [pow_succ', ← Finset.sum_congr rfl fun i _ => show -R * (x i - z i) ^ 2 * peak d b (x - z) ^ m = _ by
        simp only [map_mul, map_pow, MvPolynomial.eval_C, MvPolynomial.eval_X]
        ring]
      rw [← Finset.sum_mul, ← Finset.mul_sum]
      have : peak d b (x - z) = 1 + -R * ∑ i, (x i - z i) ^ 2 := by
        unfold peak
        rw [hR]
        simp only [Pi.sub_apply]
        ring
      nth_rewrite 1 [this]
      ring
    rw [e]
    exact polyKernel_add hF hc ih (polyKernel_sum hF hc _ fun i => polyKernel_add hF hc
      (polyKernel_add hF hc (polyKernel_mul ih _ continuous_const) (polyKernel_mul ih _ (continuous_apply i)))
      (polyKernel_mul ih _ ((continuous_apply i).pow 2)))

theorem landau_poly {F : (Fin d → ℝ) → ℝ} (hF : Continuous F) (hc : HasCompactSupport F) (b : ℝ) (m : ℕ) :
    ∃ P : MvPolynomial (Fin d) ℝ, ∀ x, landau b F m x = P.eval x := by
  obtain ⟨-, P, hP⟩ := polyKernel_peak hF hc b m (fun _ => 1) continuous_const
  refine ⟨MvPolynomial.C (peakMass d b m)⁻¹ * P, fun x => ?_⟩
  rw [landau_eq', map_mul, MvPolynomial.eval_C, ← hP]
  simp

/-! ## Derivatives of every order -/

/-- Derivatives in the directions of the list -/
noncomputable def dirs : List (Fin d → ℝ) → ((Fin d → ℝ) → ℝ) → (Fin d → ℝ) → ℝ
  | [], F => F
  | v :: vs, F => dirs vs fun x => fderiv ℝ F x v

theorem dir_smooth {F : (Fin d → ℝ) → ℝ} (hF : ContDiff ℝ (⊤ : ℕ∞) F) (v : Fin d → ℝ) : ContDiff ℝ (⊤ : ℕ∞) fun x => fderiv ℝ F x v :=
  (hF.fderiv_right (m := (⊤ : ℕ∞)) (by norm_cast)).clm_apply contDiff_const

theorem dirs_smooth (vs : List (Fin d → ℝ)) {F : (Fin d → ℝ) → ℝ} (hF : ContDiff ℝ (⊤ : ℕ∞) F) : ContDiff ℝ (⊤ : ℕ∞) (dirs vs F) := by
  induction vs generalizing F with
  | nil => exact hF
  | cons v vs ih => exact ih (dir_smooth hF v)

theorem dirs_add (vs : List (Fin d → ℝ)) {F G : (Fin d → ℝ) → ℝ} (hF : ContDiff ℝ (⊤ : ℕ∞) F) (hG : ContDiff ℝ (⊤ : ℕ∞) G) :
    dirs vs (fun x => F x + G x) = fun x => dirs vs F x + dirs vs G x := by
  induction vs generalizing F G with
  | nil => rfl
  | cons v vs ih =>
    have : (fun x => fderiv ℝ (fun x => F x + G x) x v) = fun x => fderiv ℝ F x v + fderiv ℝ G x v := by
      funext x
      rw [fderiv_fun_add (hF.differentiable (by simp) x) (hG.differentiable (by simp) x)]
      rfl
    change dirs vs _ = _
    rw [this, ih (dir_smooth hF v) (dir_smooth hG v)]
    rfl

theorem dirs_smul (vs : List (Fin d → ℝ)) (a : ℝ) {F : (Fin d → ℝ) → ℝ} (hF : ContDiff ℝ (⊤ : ℕ∞) F) :
    dirs vs (fun x => a * F x) = fun x => a * dirs vs F x := by
  induction vs generalizing F with
  | nil => rfl
  | cons v vs ih =>
    have : (fun x => fderiv ℝ (fun x => a * F x) x v) = fun x => a * fderiv ℝ F x v := by
      funext x
      rw [fderiv_const_mul (hF.differentiable (by simp) x)]
      rfl
    change dirs vs _ = _
    rw [this, ih (dir_smooth hF v)]
    rfl

theorem dirs_congr (vs : List (Fin d → ℝ)) {U : Set (Fin d → ℝ)} (hU : IsOpen U) {F G : (Fin d → ℝ) → ℝ} (h : EqOn F G U) : EqOn (dirs vs F) (dirs vs G) U := by
  induction vs generalizing F G with
  | nil => exact h
  | cons v vs ih =>
    refine ih fun x hx => ?_
    change fderiv ℝ F x v = fderiv ℝ G x v
    rw [Filter.EventuallyEq.fderiv_eq (Filter.eventuallyEq_of_mem (hU.mem_nhds hx) h)]

/-- Convergence of all derivatives -/
structure SmoothLimit (C : Set (Fin d → ℝ)) (Fm : ℕ → (Fin d → ℝ) → ℝ) (F : (Fin d → ℝ) → ℝ) : Prop where
  seq : ∀ m, ContDiff ℝ (⊤ : ℕ∞) (Fm m)
  lim : ContDiff ℝ (⊤ : ℕ∞) F
  tends : ∀ vs, TendstoUniformlyOn (fun m => dirs vs (Fm m)) (dirs vs F) atTop C

namespace SmoothLimit
variable {C : Set (Fin d → ℝ)} {Fm Gm : ℕ → (Fin d → ℝ) → ℝ} {F G : (Fin d → ℝ) → ℝ}

theorem uniform (h : SmoothLimit C Fm F) : TendstoUniformlyOn Fm F atTop C := h.tends []

theorem dir (h : SmoothLimit C Fm F) (v : Fin d → ℝ) : SmoothLimit C (fun m x => fderiv ℝ (Fm m) x v) (fun x => fderiv ℝ F x v) :=
  ⟨fun m => dir_smooth (h.seq m) v, dir_smooth h.lim v, fun vs => h.tends (v :: vs)⟩

theorem add (h : SmoothLimit C Fm F) (h' : SmoothLimit C Gm G) : SmoothLimit C (fun m x => Fm m x + Gm m x) (fun x => F x + G x) := by
  refine ⟨fun m => (h.seq m).add (h'.seq m), h.lim.add h'.lim, fun vs => ?_⟩
  rw [dirs_add vs h.lim h'.lim]
  simp only [fun m => dirs_add vs (h.seq m) (h'.seq m)]
  exact (h.tends vs).add (h'.tends vs)

theorem const (C : Set (Fin d → ℝ)) {F : (Fin d → ℝ) → ℝ} (hF : ContDiff ℝ (⊤ : ℕ∞) F) : SmoothLimit C (fun _ => F) F :=
  ⟨fun _ => hF, hF, fun vs => by
    rw [Metric.tendstoUniformlyOn_iff]
    exact fun ε hε => Filter.Eventually.of_forall fun m x _ => by rwa [dist_self]⟩

/-- Multiplication with a bounded function -/
theorem _root_.Barotropic.tendsto_mul_bounded {c : (Fin d → ℝ) → ℝ} {K : ℝ} (hc : ∀ x ∈ C, |c x| ≤ K) (h : TendstoUniformlyOn Fm F atTop C) :
    TendstoUniformlyOn (fun m x => c x * Fm m x) (fun x => c x * F x) atTop C := by
  rw [Metric.tendstoUniformlyOn_iff] at h ⊢
  intro ε hε
  have hK : 0 < |K| + 1 := by positivity
  filter_upwards [h (ε / (|K| + 1)) (by positivity)] with m hm x hx
  have h1 := hm x hx
  rw [Real.dist_eq] at h1 ⊢
  rw [← mul_sub, abs_mul]
  have h2 : |c x| ≤ |K| + 1 := ((hc x hx).trans (le_abs_self K)).trans (by linarith)
  calc |c x| * |F x - Fm m x| ≤ (|K| + 1) * |F x - Fm m x| := mul_le_mul_of_nonneg_right h2 (abs_nonneg _)
    _ < (|K| + 1) * (ε / (|K| + 1)) := mul_lt_mul_of_pos_left h1 hK
    _ = ε := by field_simp

theorem smul (a : ℝ) (h : SmoothLimit C Fm F) : SmoothLimit C (fun m x => a * Fm m x) (fun x => a * F x) := by
  refine ⟨fun m => contDiff_const.mul (h.seq m), contDiff_const.mul h.lim, fun vs => ?_⟩
  rw [dirs_smul vs a h.lim]
  simp only [fun m => dirs_smul vs a (h.seq m)]
  exact tendsto_mul_bounded (c := fun _ => a) (K := |a|) (fun _ _ => le_rfl) (h.tends vs)

theorem _root_.Barotropic.coord_deriv {F : (Fin d → ℝ) → ℝ} (hF : ContDiff ℝ (⊤ : ℕ∞) F) (i : Fin d) (v : Fin d → ℝ) :
    (fun x => fderiv ℝ (fun x : Fin d → ℝ => x i * F x) x v) = fun x => v i * F x + x i * fderiv ℝ F x v := by
  funext x
  have h1 : HasFDerivAt (fun x : Fin d → ℝ => x i) (ContinuousLinearMap.proj (R := ℝ) (φ := fun _ : Fin d => ℝ) i) x := hasFDerivAt_apply i x
  have h2 := (hF.differentiable (by simp) x).hasFDerivAt
  have e : fderiv ℝ (fun x : Fin d → ℝ => x i * F x) x = _ := (h1.mul h2).fderiv
  rw [e]
  simp
  ring

theorem coord {b : ℝ} (hC : C ⊆ Metric.closedBall 0 b) (i : Fin d) (h : SmoothLimit C Fm F) : SmoothLimit C (fun m x => x i * Fm m x) (fun x => x i * F x) := by
  refine ⟨fun m => (contDiff_apply ℝ ℝ i).mul (h.seq m), (contDiff_apply ℝ ℝ i).mul h.lim, fun vs => ?_⟩
  induction vs generalizing Fm F with
  | nil =>
    refine tendsto_mul_bounded (c := fun x => x i) (K := b) (fun x hx => ?_) h.uniform
    exact (norm_le_pi_norm x i).trans (mem_closedBall_zero_iff.mp (hC hx))
  | cons v vs ih =>
    have e : dirs (v :: vs) (fun x => x i * F x) = fun x => v i * dirs vs F x + dirs vs (fun x => x i * fderiv ℝ F x v) x := by
      change dirs vs _ = _
      rw [coord_deriv h.lim, dirs_add vs (contDiff_const.mul h.lim) ((contDiff_apply ℝ ℝ i).mul (dir_smooth h.lim v)), dirs_smul vs _ h.lim]
    have em : ∀ m, dirs (v :: vs) (fun x => x i * Fm m x) = fun x => v i * dirs vs (Fm m) x + dirs vs (fun x => x i * fderiv ℝ (Fm m) x v) x := fun m => by
      change dirs vs _ = _
      rw [coord_deriv (h.seq m), dirs_add vs (contDiff_const.mul (h.seq m)) ((contDiff_apply ℝ ℝ i).mul (dir_smooth (h.seq m) v)),
        dirs_smul vs _ (h.seq m)]
    rw [e]
    simp only [em]
    exact (tendsto_mul_bounded (c := fun _ => v i) (K := |v i|) (fun _ _ => le_rfl) (h.tends vs)).add (ih (h.dir v))

end SmoothLimit

theorem dirs_landau {b : ℝ} (vs : List (Fin d → ℝ)) {F : (Fin d → ℝ) → ℝ} (hF : ContDiff ℝ (⊤ : ℕ∞) F) (hc : HasCompactSupport F) (m : ℕ) :
    dirs vs (landau b F m) = landau b (dirs vs F) m := by
  induction vs generalizing F with
  | nil => rfl
  | cons v vs ih =>
    have : (fun x => fderiv ℝ (landau b F m) x v) = landau b (fun y => fderiv ℝ F y v) m := by
      funext x
      exact (landau_deriv (hF.of_le (by norm_cast)) hc m x v).2
    change dirs vs _ = _
    rw [this, ih (dir_smooth hF v) (hc.fderiv_apply ℝ v)]
    rfl

theorem dirs_zero {b : ℝ} (vs : List (Fin d → ℝ)) {F : (Fin d → ℝ) → ℝ} (h : ∀ x, b < ‖x‖ → F x = 0) : ∀ x, b < ‖x‖ → dirs vs F x = 0 := by
  have hU : IsOpen {x : Fin d → ℝ | b < ‖x‖} := isOpen_lt continuous_const continuous_norm
  have hz : ∀ vs : List (Fin d → ℝ), dirs vs (fun _ : Fin d → ℝ => (0 : ℝ)) = fun _ => 0 := by
    intro vs
    induction vs with
    | nil => rfl
    | cons v vs ih =>
      change dirs vs (fun x => fderiv ℝ (fun _ : Fin d → ℝ => (0 : ℝ)) x v) = _
      simp only [fderiv_fun_const, Pi.zero_apply, _root_.zero_apply]
      exact ih
  intro x hx
  have := dirs_congr vs hU (F := F) (G := fun _ => 0) (fun y hy => h y hy) hx
  rw [this, hz]

/-- A smooth function is a limit of polynomials, together with all derivatives. -/
theorem exists_polys {b : ℝ} (hb : 0 < b) {F : (Fin d → ℝ) → ℝ} (hF : ContDiff ℝ (⊤ : ℕ∞) F) :
    ∃ P : ℕ → MvPolynomial (Fin d) ℝ, SmoothLimit (Metric.closedBall 0 b) (fun m x => (P m).eval x) F := by
  let χ : ContDiffBump (0 : Fin d → ℝ) := ⟨b + 1, b + 2, by linarith, by linarith⟩
  let F' : (Fin d → ℝ) → ℝ := fun x => χ x * F x
  have hF' : ContDiff ℝ (⊤ : ℕ∞) F' := χ.contDiff.mul hF
  have hc : HasCompactSupport F' := χ.hasCompactSupport.mul_right
  have h0 : ∀ x, b + 2 < ‖x‖ → F' x = 0 := fun x hx => by
    have : χ x = 0 := χ.zero_of_le_dist (by rw [dist_zero_right]; exact hx.le)
    change χ x * F x = 0
    rw [this, zero_mul]
  have h1 : EqOn F F' (Metric.ball 0 (b + 1)) := fun x hx => by
    have : χ x = 1 := χ.one_of_mem_closedBall (Metric.ball_subset_closedBall hx)
    change F x = χ x * F x
    rw [this, one_mul]
  choose P hP using landau_poly hF'.continuous hc (b + 2)
  refine ⟨P, fun m => mvPoly_smooth (P m), hF, fun vs => ?_⟩
  have hP' : ∀ m, (fun x => (P m).eval x) = landau (b + 2) F' m := fun m => by
    funext x
    exact (hP m x).symm
  simp only [hP']
  have key : TendstoUniformlyOn (fun m => landau (b + 2) (dirs vs F') m) (dirs vs F') atTop (Metric.closedBall 0 (b + 2)) :=
    landau_tendsto (by linarith) (dirs_smooth vs hF').continuous (dirs_zero vs h0)
  have e : ∀ m, dirs vs (landau (b + 2) F' m) = landau (b + 2) (dirs vs F') m := fun m => dirs_landau vs hF' hc m
  simp only [e]
  refine (key.mono (Metric.closedBall_subset_closedBall (by linarith))).congr_right fun x hx => ?_
  exact (dirs_congr vs Metric.isOpen_ball h1 (Metric.closedBall_subset_ball (by linarith) hx)).symm

end Barotropic
