import Mathlib.Analysis.Convex.Deriv
import Mathlib.Analysis.Calculus.MeanValue
import Mathlib.Analysis.Calculus.Deriv.Pow
import Mathlib.Analysis.Calculus.ContDiff.Deriv
import Mathlib.Topology.MetricSpace.Basic
import Mathlib.Topology.UniformSpace.HeineCantor
import Verif.Spec.WaveguideLimit

/-!
# Profiles near simple crossings
-/

namespace Barotropic
open Set Filter Topology

/-! ### Linear interpolation -/

theorem convexOn_add_sq {f : ℝ → ℝ} {a ρ B : ℝ} (h1 : DifferentiableOn ℝ f (Metric.ball a ρ)) (h2 : DifferentiableOn ℝ (deriv f) (Metric.ball a ρ))
    (hB : ∀ x ∈ Metric.ball a ρ, -B ≤ deriv (deriv f) x) : ConvexOn ℝ (Metric.ball a ρ) fun y => f y + B / 2 * y ^ 2 := by
  have ho : IsOpen (Metric.ball a ρ) := Metric.isOpen_ball
  have hd : ∀ x ∈ Metric.ball a ρ, HasDerivAt (fun y => f y + B / 2 * y ^ 2) (deriv f x + B * x) x := by
    intro x hx
    have e := ((h1 x hx).differentiableAt (ho.mem_nhds hx)).hasDerivAt.add (((hasDerivAt_id x).pow 2).const_mul (B / 2))
    refine e.congr_deriv ?_
    simp only [id, pow_one, Nat.cast_ofNat, mul_one, Nat.add_one_sub_one]
    ring
  have he : ∀ x ∈ Metric.ball a ρ, deriv (fun y => f y + B / 2 * y ^ 2) =ᶠ[𝓝 x] fun y => deriv f y + B * y := by
    intro x hx
    filter_upwards [ho.mem_nhds hx] with y hy
    exact (hd y hy).deriv
  have hd2 : ∀ x ∈ Metric.ball a ρ, HasDerivAt (deriv fun y => f y + B / 2 * y ^ 2) (deriv (deriv f) x + B) x := by
    intro x hx
    have e := ((h2 x hx).differentiableAt (ho.mem_nhds hx)).hasDerivAt.add ((hasDerivAt_id x).const_mul B)
    rw [mul_one] at e
    exact e.congr_of_eventuallyEq (he x hx)
  refine convexOn_of_deriv2_nonneg' (convex_ball a ρ) (fun x hx => (hd x hx).differentiableAt.differentiableWithinAt)
    (fun x hx => (hd2 x hx).differentiableAt.differentiableWithinAt) fun x hx => ?_
  show 0 ≤ deriv (deriv fun y => f y + B / 2 * y ^ 2) x
  rw [(hd2 x hx).deriv]
  linarith [hB x hx]

theorem interp_chord_below {f : ℝ → ℝ} {a ρ B : ℝ} (hB0 : 0 ≤ B) (h1 : DifferentiableOn ℝ f (Metric.ball a ρ)) (h2 : DifferentiableOn ℝ (deriv f) (Metric.ball a ρ))
    (hB : ∀ x ∈ Metric.ball a ρ, -B ≤ deriv (deriv f) x) {u v t : ℝ} (hu : |u - a| < ρ) (hv : |v - a| < ρ) (t0 : 0 ≤ t) (t1 : t ≤ 1) :
    f ((1 - t) * u + t * v) - ((1 - t) * f u + t * f v) ≤ B / 8 * (u - v) ^ 2 := by
  have := (convexOn_add_sq h1 h2 hB).2 (x := u) (y := v) (by rwa [Metric.mem_ball, Real.dist_eq]) (by rwa [Metric.mem_ball, Real.dist_eq]) (sub_nonneg.mpr t1) t0
    (by ring)
  simp only [smul_eq_mul] at this
  have e : (1 - t) * u ^ 2 + t * v ^ 2 - ((1 - t) * u + t * v) ^ 2 = t * (1 - t) * (u - v) ^ 2 := by ring
  have e' : t * (1 - t) ≤ 1 / 4 := by nlinarith [sq_nonneg (t - 1 / 2)]
  have : B / 2 * (t * (1 - t) * (u - v) ^ 2) ≤ B / 2 * (1 / 4 * (u - v) ^ 2) :=
    mul_le_mul_of_nonneg_left (mul_le_mul_of_nonneg_right e' (sq_nonneg _)) (by linarith)
  nlinarith

/-- The error of linear interpolation -/
theorem interp_chord {f : ℝ → ℝ} {a ρ B : ℝ} (hB0 : 0 ≤ B) (h1 : DifferentiableOn ℝ f (Metric.ball a ρ)) (h2 : DifferentiableOn ℝ (deriv f) (Metric.ball a ρ))
    (hB : ∀ x ∈ Metric.ball a ρ, |deriv (deriv f) x| ≤ B) {u v t : ℝ} (hu : |u - a| < ρ) (hv : |v - a| < ρ) (t0 : 0 ≤ t) (t1 : t ≤ 1) :
    |(1 - t) * f u + t * f v - f ((1 - t) * u + t * v)| ≤ B / 8 * (u - v) ^ 2 := by
  have e1 := interp_chord_below hB0 h1 h2 (fun x hx => (abs_le.mp (hB x hx)).1) hu hv t0 t1
  have hn : deriv (fun y => -f y) = fun y => -deriv f y := by
    funext y
    exact deriv.fun_neg
  have e2 := interp_chord_below (f := fun y => -f y) hB0 h1.neg (by rw [hn]; exact h2.neg) (fun x hx => by
    rw [hn, deriv.fun_neg]
    linarith [(abs_le.mp (hB x hx)).2]) hu hv t0 t1
  rw [abs_le]
  constructor <;> linarith

/-! ### Crossings -/

/-- `f` falls through `c` at `a` (towards larger arguments), at a rate of at least `η`, and is well interpolated there. -/
structure Falls (f : ℝ → ℝ) (c a η : ℝ) : Prop where
  before : ∀ y, a - η < y → y ≤ a → c + η * (a - y) ≤ f y
  after : ∀ y, a ≤ y → y < a + η → f y ≤ c - η * (y - a)
  interp : ∀ u v t, |u - a| < η → |v - a| < η → 0 ≤ t → t ≤ 1 → |(1 - t) * f u + t * f v - f ((1 - t) * u + t * v)| ≤ (u - v) ^ 2 / η

theorem Falls.mono {f : ℝ → ℝ} {c a η η' : ℝ} (h : Falls f c a η) (h0 : 0 < η') (hle : η' ≤ η) : Falls f c a η' where
  before y h1 h2 := (h.before y (by linarith) h2).trans' (by nlinarith)
  after y h1 h2 := (h.after y h1 (by linarith)).trans (by nlinarith)
  interp u v t hu hv t0 t1 := (h.interp u v t (hu.trans_le hle) (hv.trans_le hle) t0 t1).trans
    (div_le_div_of_nonneg_left (sq_nonneg _) h0 hle)

theorem exists_falls {f : ℝ → ℝ} {c a : ℝ} (hc : f a = c) (hf : ContDiffAt ℝ 2 f a) (hd : deriv f a < 0) : ∃ η > 0, Falls f c a η := by
  obtain ⟨u, hu, hfu⟩ := hf.contDiffOn (m := 2) le_rfl (by simp)
  obtain ⟨ρ, hρ, hball⟩ := Metric.mem_nhds_iff.mp hu
  have hf1 := hfu.mono hball
  have ho : IsOpen (Metric.ball a ρ) := Metric.isOpen_ball
  have hf2 : ContDiffOn ℝ 1 (deriv f) (Metric.ball a ρ) := hf1.deriv_of_isOpen ho (by norm_num)
  have hf3 : ContDiffOn ℝ 0 (deriv (deriv f)) (Metric.ball a ρ) := hf2.deriv_of_isOpen ho (by norm_num)
  have ha : a ∈ Metric.ball a ρ := Metric.mem_ball_self hρ
  have c1 := hf2.continuousOn.continuousAt (ho.mem_nhds ha)
  have c2 := hf3.continuousOn.continuousAt (ho.mem_nhds ha)
  obtain ⟨ρ1, hρ1, h1⟩ := Metric.mem_nhds_iff.mp (c1.eventually (gt_mem_nhds (show deriv f a < deriv f a / 2 by linarith)))
  obtain ⟨ρ2, hρ2, h2⟩ := Metric.mem_nhds_iff.mp (c2.abs.eventually (gt_mem_nhds (show |deriv (deriv f) a| < |deriv (deriv f) a| + 1 by linarith)))
  obtain ⟨B, hB⟩ : ∃ B, B = |deriv (deriv f) a| + 1 := ⟨_, rfl⟩
  have hB0 : 0 < B := by rw [hB]; positivity
  obtain ⟨σ, hσ⟩ : ∃ σ, σ = min ρ (min ρ1 ρ2) := ⟨_, rfl⟩
  have hσ0 : 0 < σ := by rw [hσ]; positivity
  have s0 : Metric.ball a σ ⊆ Metric.ball a ρ := Metric.ball_subset_ball (by rw [hσ]; exact min_le_left _ _)
  have s1 : Metric.ball a σ ⊆ Metric.ball a ρ1 := Metric.ball_subset_ball (by rw [hσ]; exact (min_le_right _ _).trans (min_le_left _ _))
  have s2 : Metric.ball a σ ⊆ Metric.ball a ρ2 := Metric.ball_subset_ball (by rw [hσ]; exact (min_le_right _ _).trans (min_le_right _ _))
  have d1 : DifferentiableOn ℝ f (Metric.ball a σ) := (hf1.differentiableOn (by norm_num)).mono s0
  have d2 : DifferentiableOn ℝ (deriv f) (Metric.ball a σ) := (hf2.differentiableOn (by norm_num)).mono s0
  obtain ⟨m, hm⟩ : ∃ m, m = -(deriv f a / 2) := ⟨_, rfl⟩
  have hm0 : 0 < m := by rw [hm]; linarith
  have slope : ∀ x ∈ Metric.ball a σ, ∀ y ∈ Metric.ball a σ, x ≤ y → f y - f x ≤ -m * (y - x) := by
    refine (convex_ball a σ).image_sub_le_mul_sub_of_deriv_le d1.continuousOn (d1.mono interior_subset) fun x hx => ?_
    have : deriv f x < deriv f a / 2 := h1 (s1 (interior_subset hx))
    rw [hm]
    linarith
  have hmem : ∀ y, |y - a| < σ → y ∈ Metric.ball a σ := fun y hy => by rwa [Metric.mem_ball, Real.dist_eq]
  have haσ : a ∈ Metric.ball a σ := Metric.mem_ball_self hσ0
  obtain ⟨η, hη⟩ : ∃ η, η = min σ (min m (1 / B)) := ⟨_, rfl⟩
  have e1 : η ≤ σ := by rw [hη]; exact min_le_left _ _
  have e2 : η ≤ m := by rw [hη]; exact (min_le_right _ _).trans (min_le_left _ _)
  have e3 : η ≤ 1 / B := by rw [hη]; exact (min_le_right _ _).trans (min_le_right _ _)
  have hη0 : 0 < η := by rw [hη]; positivity
  refine ⟨η, hη0, fun y h1 h2 => ?_, fun y h1 h2 => ?_, fun u v t hu hv t0 t1 => ?_⟩
  · have := slope y (hmem y (by rw [abs_lt]; constructor <;> linarith)) a haσ h2
    rw [hc] at this
    nlinarith
  · have := slope a haσ y (hmem y (by rw [abs_lt]; constructor <;> linarith)) h1
    rw [hc] at this
    nlinarith
  · refine (interp_chord hB0.le d1 d2 (fun x hx => ?_) (hu.trans_le e1) (hv.trans_le e1) t0 t1).trans ?_
    · have : |deriv (deriv f) x| < |deriv (deriv f) a| + 1 := h2 (s2 hx)
      rw [hB]
      exact this.le
    · have : B / 8 ≤ 1 / η := by
        have : B ≤ 1 / η := by
          rw [le_div_iff₀ hη0]
          rw [le_div_iff₀ hB0] at e3
          linarith
        linarith
      rw [div_eq_mul_one_div ((u - v) ^ 2), mul_comm]
      exact mul_le_mul_of_nonneg_left this (sq_nonneg _)

/-! ### Uniform constants -/

theorem uniform_pos {β : Type} {P : β → ℝ → Prop} (hm : ∀ b r r', 0 < r' → r' ≤ r → P b r → P b r') (l : List β) (h : ∀ b ∈ l, ∃ r > 0, P b r) :
    ∃ r > 0, ∀ b ∈ l, P b r := by
  induction l with
  | nil => exact ⟨1, one_pos, by simp⟩
  | cons a l ih =>
    obtain ⟨r, hr, h1⟩ := ih fun b hb => h b (List.mem_cons_of_mem _ hb)
    obtain ⟨s, hs, h2⟩ := h a List.mem_cons_self
    refine ⟨min r s, lt_min hr hs, fun b hb => ?_⟩
    rcases List.mem_cons.mp hb with rfl | hb
    · exact hm _ _ _ (lt_min hr hs) (min_le_right _ _) h2
    · exact hm _ _ _ (lt_min hr hs) (min_le_left _ _) (h1 b hb)

theorem uniform_gap {W : List (ℝ × ℝ)} (h : W.Pairwise fun q q' => q'.1 < q.2) : ∃ r > 0, W.Pairwise fun q q' => q'.1 + r < q.2 := by
  obtain ⟨r, hr, h1⟩ := uniform_pos (P := fun (b : (ℝ × ℝ) × (ℝ × ℝ)) r => b.2.1 < b.1.2 → b.2.1 + r < b.1.2)
    (fun b r r' _ hle hP hb => by linarith [hP hb]) (W.product W) fun b _ => by
      by_cases hb : b.2.1 < b.1.2
      · exact ⟨(b.1.2 - b.2.1) / 2, by linarith, fun _ => by linarith⟩
      · exact ⟨1, one_pos, fun h' => absurd h' hb⟩
  refine ⟨r, hr, List.Pairwise.imp_of_mem (fun {a b} ha hb hab => ?_) h⟩
  exact h1 (a, b) (List.pair_mem_product.mpr ⟨ha, hb⟩) hab

theorem compact_gap {f : ℝ → ℝ} {c : ℝ} {S : Set ℝ} (hS : IsCompact S) (hf : ContinuousOn f S) (h : ∀ y ∈ S, c < f y) : ∃ ε > 0, ∀ y ∈ S, c + ε < f y := by
  rcases S.eq_empty_or_nonempty with rfl | hne
  · exact ⟨1, one_pos, by simp⟩
  · obtain ⟨m, hm, hmin⟩ := hS.exists_isMinOn hne hf
    refine ⟨(f m - c) / 2, by linarith [h m hm], fun y hy => ?_⟩
    have := hmin hy
    have : f m ≤ f y := this
    linarith [h m hm]

end Barotropic
