import Verif.Lemmas.Rearrange
import Mathlib.MeasureTheory.Integral.DominatedConvergence
import Mathlib.Topology.Order.MonotoneContinuity
import Mathlib.Analysis.SpecialFunctions.Trigonometric.Inverse
import Mathlib.Analysis.Convex.Topology

/-!
# Existence of the rearranged field
-/

namespace Barotropic
open Real Set MeasureTheory Filter Topology

variable {Q : ℝ → ℝ → ℝ}

/-- Areas depend on the value continuously from below. -/
theorem tendsto_areaAbove (hQ : ContField Q) (c : ℝ) : Tendsto (areaAbove Q) (𝓝[<] c) (𝓝 (areaAbove Q c)) := by
  classical
  have h1 : ∀ x, Tendsto (fun d => meridAbove Q d x) (𝓝[<] c) (𝓝 (meridAbove Q c x)) := by
    intro x
    refine intervalIntegral.tendsto_integral_filter_of_dominated_convergence (fun _ => 1) (Eventually.of_forall fun d => ?_)
      (Eventually.of_forall fun d => Eventually.of_forall fun φ _ => above_bound Q d x φ) intervalIntegrable_const (Eventually.of_forall fun φ _ => ?_)
    · have := (above_integrable hQ d x le_rfl poles_le le_rfl).aestronglyMeasurable
      rwa [uIoc_of_le poles_le]
    · refine tendsto_const_nhds.congr' ?_
      unfold above
      by_cases h : c ≤ Q x φ
      · filter_upwards [self_mem_nhdsWithin] with d hd
        rw [if_pos h, if_pos ((le_of_lt hd).trans h)]
      · have hlt : Q x φ < c := not_le.1 h
        filter_upwards [Ioo_mem_nhdsLT hlt] with d hd
        rw [if_neg h, if_neg (not_le.2 hd.1)]
  have h2 : Tendsto (fun d => ∫ x in (0 : ℝ)..2 * π, meridAbove Q d x) (𝓝[<] c) (𝓝 (∫ x in (0 : ℝ)..2 * π, meridAbove Q c x)) := by
    refine intervalIntegral.tendsto_integral_filter_of_dominated_convergence (fun _ => 2)
      (Eventually.of_forall fun d => (meridAbove_measurable hQ d).aestronglyMeasurable)
      (Eventually.of_forall fun d => Eventually.of_forall fun x _ => ?_) intervalIntegrable_const (Eventually.of_forall fun x _ => h1 x)
    obtain ⟨a, b⟩ := meridAbove_mem hQ d x
    rw [Real.norm_eq_abs, abs_of_nonneg a]
    exact b
  rw [areaAbove_eq]
  refine h2.congr fun d => (areaAbove_eq Q d).symm

/-- Values that the field takes somewhere strictly between two values make the areas different. -/
theorem areaAbove_lt (hQ : ContField Q) {c c' : ℝ} {x φ : ℝ} (hx : x ∈ Icc 0 (2 * π)) (hφ : φ ∈ latitudes) (h0 : c < Q x φ) (h1 : Q x φ < c') :
    areaAbove Q c' < areaAbove Q c := by
  classical
  have hp := pi_pos
  have hmem : ((fun p : ℝ × ℝ => Q p.1 p.2) ⁻¹' Ioo c c') ∈ 𝓝[univ ×ˢ latitudes] (x, φ) := hQ (x, φ) ⟨mem_univ _, hφ⟩ (Ioo_mem_nhds h0 h1)
  obtain ⟨ε, hε, hball⟩ := Metric.mem_nhdsWithin_iff.1 hmem
  have hval : ∀ y ψ, |y - x| < ε → |ψ - φ| < ε → ψ ∈ latitudes → c < Q y ψ ∧ Q y ψ < c' := by
    intro y ψ a b d
    have : (y, ψ) ∈ Metric.ball (x, φ) ε ∩ univ ×ˢ latitudes := by
      refine ⟨?_, mem_univ _, d⟩
      rw [Metric.mem_ball, Prod.dist_eq, max_lt_iff, Real.dist_eq, Real.dist_eq]
      exact ⟨a, b⟩
    exact hball this
  set x1 := max 0 (x - ε / 2)
  set x2 := min (2 * π) (x + ε / 2)
  set f1 := max (-(π / 2)) (φ - ε / 2)
  set f2 := min (π / 2) (φ + ε / 2)
  have hx12 : x1 < x2 := by
    rw [max_lt_iff, lt_min_iff, lt_min_iff]
    refine ⟨⟨by linarith, by linarith [hx.1]⟩, by linarith [hx.2], by linarith⟩
  have hf12 : f1 < f2 := by
    rw [max_lt_iff, lt_min_iff, lt_min_iff]
    refine ⟨⟨by linarith, by linarith [hφ.1]⟩, by linarith [hφ.2], by linarith⟩
  have x10 : 0 ≤ x1 := le_max_left _ _
  have x22 : x2 ≤ 2 * π := min_le_left _ _
  have f10 : -(π / 2) ≤ f1 := le_max_left _ _
  have f22 : f2 ≤ π / 2 := min_le_left _ _
  have hφin : ∀ ψ ∈ Icc f1 f2, |ψ - φ| < ε := by
    intro ψ h
    have a := (le_max_right (-(π / 2)) (φ - ε / 2)).trans h.1
    have b := h.2.trans (min_le_right (π / 2) (φ + ε / 2))
    rw [abs_lt]; constructor <;> linarith
  have hxin : ∀ y ∈ Icc x1 x2, |y - x| < ε := by
    intro y h
    have a := (le_max_right 0 (x - ε / 2)).trans h.1
    have b := h.2.trans (min_le_right (2 * π) (x + ε / 2))
    rw [abs_lt]; constructor <;> linarith
  have hδ : 0 < sin f2 - sin f1 := by
    have := strictMonoOn_sin (show f1 ∈ Icc (-(π / 2)) (π / 2) from ⟨f10, hf12.le.trans f22⟩) ⟨f10.trans hf12.le, f22⟩ hf12
    linarith
  have hle : ∀ ψ ∈ latitudes, ∀ y, above Q c' y ψ ≤ above Q c y ψ := by
    intro ψ hψ y
    unfold above
    have b := cos_lat hψ
    split_ifs with u v
    · exact le_rfl
    · exact absurd ((h0.trans h1).le.trans u) v
    · simpa using b
    · exact le_rfl
  have hI := fun (c y : ℝ) {a b : ℝ} => above_integrable hQ c y (a := a) (b := b)
  -- on the meridians near the point
  have hmer : ∀ y ∈ Icc x1 x2, meridAbove Q c' y + (sin f2 - sin f1) ≤ meridAbove Q c y := by
    intro y hy
    have split : ∀ c, meridAbove Q c y = (∫ ψ in -(π / 2)..f1, above Q c y ψ) + (∫ ψ in f1..f2, above Q c y ψ) + ∫ ψ in f2..π / 2, above Q c y ψ := by
      intro c
      rw [intervalIntegral.integral_add_adjacent_intervals (hI c y le_rfl f10 (hf12.le.trans f22)) (hI c y f10 hf12.le f22),
        intervalIntegral.integral_add_adjacent_intervals (hI c y le_rfl (f10.trans hf12.le) f22) (hI c y (f10.trans hf12.le) f22 le_rfl)]
      rfl
    rw [split c, split c']
    have a1 : (∫ ψ in -(π / 2)..f1, above Q c' y ψ) ≤ ∫ ψ in -(π / 2)..f1, above Q c y ψ :=
      intervalIntegral.integral_mono_on f10 (hI _ _ le_rfl f10 (hf12.le.trans f22)) (hI _ _ le_rfl f10 (hf12.le.trans f22))
        fun ψ hψ => hle ψ ⟨hψ.1, hψ.2.trans (hf12.le.trans f22)⟩ y
    have a3 : (∫ ψ in f2..π / 2, above Q c' y ψ) ≤ ∫ ψ in f2..π / 2, above Q c y ψ :=
      intervalIntegral.integral_mono_on f22 (hI _ _ (f10.trans hf12.le) f22 le_rfl) (hI _ _ (f10.trans hf12.le) f22 le_rfl)
        fun ψ hψ => hle ψ ⟨(f10.trans hf12.le).trans hψ.1, hψ.2⟩ y
    have a2 : (∫ ψ in f1..f2, above Q c' y ψ) = ∫ ψ in f1..f2, 0 := by
      refine intervalIntegral.integral_congr fun ψ hψ => ?_
      rw [uIcc_of_le hf12.le] at hψ
      unfold above
      rw [if_neg (not_le.2 (hval y ψ (hxin y hy) (hφin ψ hψ) ⟨f10.trans hψ.1, hψ.2.trans f22⟩).2), zero_mul]
    have a4 : (∫ ψ in f1..f2, above Q c y ψ) = ∫ ψ in f1..f2, cos ψ := by
      refine intervalIntegral.integral_congr fun ψ hψ => ?_
      rw [uIcc_of_le hf12.le] at hψ
      unfold above
      rw [if_pos (hval y ψ (hxin y hy) (hφin ψ hψ) ⟨f10.trans hψ.1, hψ.2.trans f22⟩).1.le, one_mul]
    rw [a2, a4, integral_cos, intervalIntegral.integral_zero]
    linarith
  have hJ := fun (c : ℝ) {a b : ℝ} => meridAbove_integrable hQ c a b
  have split : ∀ c, areaAbove Q c = (∫ y in (0 : ℝ)..x1, meridAbove Q c y) + (∫ y in x1..x2, meridAbove Q c y) + ∫ y in x2..2 * π, meridAbove Q c y := by
    intro c
    rw [intervalIntegral.integral_add_adjacent_intervals (hJ c) (hJ c), intervalIntegral.integral_add_adjacent_intervals (hJ c) (hJ c), areaAbove_eq]
  rw [split c, split c']
  have hcc := (h0.trans h1).le
  have a1 : (∫ y in (0 : ℝ)..x1, meridAbove Q c' y) ≤ ∫ y in (0 : ℝ)..x1, meridAbove Q c y :=
    intervalIntegral.integral_mono_on x10 (hJ _) (hJ _) fun y _ => meridAbove_anti hQ hcc y
  have a3 : (∫ y in x2..2 * π, meridAbove Q c' y) ≤ ∫ y in x2..2 * π, meridAbove Q c y :=
    intervalIntegral.integral_mono_on x22 (hJ _) (hJ _) fun y _ => meridAbove_anti hQ hcc y
  have a2 : (∫ y in x1..x2, (meridAbove Q c' y + (sin f2 - sin f1))) ≤ ∫ y in x1..x2, meridAbove Q c y :=
    intervalIntegral.integral_mono_on hx12.le ((hJ _).add intervalIntegrable_const) (hJ _) hmer
  rw [intervalIntegral.integral_add (hJ _) intervalIntegrable_const, intervalIntegral.integral_const, smul_eq_mul] at a2
  have := mul_pos (sub_pos.2 hx12) hδ
  linarith

theorem areaAbove_full {c : ℝ} (h : ∀ x ∈ Icc 0 (2 * π), ∀ φ ∈ latitudes, c ≤ Q x φ) : areaAbove Q c = 4 * π := by
  rw [areaAbove_eq]
  have : ∫ x in (0 : ℝ)..2 * π, meridAbove Q c x = ∫ x in (0 : ℝ)..2 * π, (2 : ℝ) := by
    refine intervalIntegral.integral_congr fun x hx => ?_
    rw [uIcc_of_le (by positivity)] at hx
    unfold meridAbove
    have e : ∫ φ in -(π / 2)..π / 2, above Q c x φ = ∫ φ in -(π / 2)..π / 2, cos φ := by
      refine intervalIntegral.integral_congr fun φ hφ => ?_
      rw [uIcc_of_le poles_le] at hφ
      unfold above
      rw [if_pos (h x hx φ hφ), one_mul]
    rw [e, integral_cos_lat, sin_neg, sin_pi_div_two]
    norm_num
  rw [this, intervalIntegral.integral_const, smul_eq_mul]
  ring

theorem areaAbove_empty {c : ℝ} (h : ∀ x ∈ Icc 0 (2 * π), ∀ φ ∈ latitudes, Q x φ < c) : areaAbove Q c = 0 := by
  rw [areaAbove_eq]
  have : ∫ x in (0 : ℝ)..2 * π, meridAbove Q c x = ∫ x in (0 : ℝ)..2 * π, (0 : ℝ) := by
    refine intervalIntegral.integral_congr fun x hx => ?_
    rw [uIcc_of_le (by positivity)] at hx
    unfold meridAbove
    have e : ∫ φ in -(π / 2)..π / 2, above Q c x φ = ∫ φ in -(π / 2)..π / 2, (0 : ℝ) := by
      refine intervalIntegral.integral_congr fun φ hφ => ?_
      rw [uIcc_of_le poles_le] at hφ
      unfold above
      rw [if_neg (not_le.2 (h x hx φ hφ)), zero_mul]
    rw [e, intervalIntegral.integral_zero]
  rw [this, intervalIntegral.integral_zero]

theorem areaAbove_mem (hQ : ContField Q) (c : ℝ) : 0 ≤ areaAbove Q c ∧ areaAbove Q c ≤ 4 * π := by
  have hp := pi_pos
  rw [areaAbove_eq]
  constructor
  · exact intervalIntegral.integral_nonneg (by positivity) fun x _ => (meridAbove_mem hQ c x).1
  · have : ∫ x in (0 : ℝ)..2 * π, meridAbove Q c x ≤ ∫ x in (0 : ℝ)..2 * π, (2 : ℝ) :=
      intervalIntegral.integral_mono_on (by positivity) (meridAbove_integrable hQ _ _ _) intervalIntegrable_const fun x _ => (meridAbove_mem hQ c x).2
    rw [intervalIntegral.integral_const, smul_eq_mul] at this
    linarith

/-- Every continuous field can be rearranged. -/
theorem exists_rearrangement (hQ : ContField Q) : ∃ P, IsRearrangement Q P := by
  classical
  have hp := pi_pos
  have hK : IsCompact (Icc (0 : ℝ) (2 * π) ×ˢ latitudes) := isCompact_Icc.prod isCompact_Icc
  have hne : (Icc (0 : ℝ) (2 * π) ×ˢ latitudes).Nonempty := ⟨(0, 0), ⟨le_rfl, by positivity⟩, ⟨by linarith, by linarith⟩⟩
  have hQK : ContinuousOn (fun p : ℝ × ℝ => Q p.1 p.2) (Icc (0 : ℝ) (2 * π) ×ˢ latitudes) := hQ.mono fun p hp => ⟨mem_univ _, hp.2⟩
  obtain ⟨p0, m0, hmin⟩ := hK.exists_isMinOn hne hQK
  obtain ⟨p1, m1, hmax⟩ := hK.exists_isMaxOn hne hQK
  obtain ⟨lo, hlo⟩ : ∃ lo, lo = Q p0.1 p0.2 := ⟨_, rfl⟩
  obtain ⟨hi, hhi⟩ : ∃ hi, hi = Q p1.1 p1.2 := ⟨_, rfl⟩
  have hlo' : ∀ x ∈ Icc (0 : ℝ) (2 * π), ∀ φ ∈ latitudes, lo ≤ Q x φ := fun x hx φ hφ => hlo ▸ hmin (show (x, φ) ∈ _ from ⟨hx, hφ⟩)
  have hhi' : ∀ x ∈ Icc (0 : ℝ) (2 * π), ∀ φ ∈ latitudes, Q x φ ≤ hi := fun x hx φ hφ => hhi ▸ hmax (show (x, φ) ∈ _ from ⟨hx, hφ⟩)
  have hlohi : lo ≤ hi := hlo ▸ hhi' _ m0.1 _ m0.2
  -- areas decrease strictly between the extremes
  have hstrict : ∀ c c', lo ≤ c → c < c' → c' ≤ hi → areaAbove Q c' < areaAbove Q c := by
    intro c c' h0 h1 h2
    have hcon : IsPreconnected (Icc (0 : ℝ) (2 * π) ×ˢ latitudes) := isPreconnected_Icc.prod isPreconnected_Icc
    have := hcon.intermediate_value m0 m1 hQK
    have hmem : (c + c') / 2 ∈ Icc (Q p0.1 p0.2) (Q p1.1 p1.2) := by
      rw [← hlo, ← hhi]; constructor <;> linarith
    obtain ⟨p, hpK, hpv⟩ := this hmem
    dsimp only at hpv
    exact areaAbove_lt hQ hpK.1 hpK.2 (by linarith) (by linarith)
  -- the profile
  set S : ℝ → Set ℝ := fun φ => {c | c ∈ Icc lo hi ∧ 2 * π * (1 - sin φ) ≤ areaAbove Q c} with hS
  have hlomem : ∀ φ, lo ∈ S φ := by
    intro φ
    refine ⟨⟨le_rfl, hlohi⟩, ?_⟩
    rw [areaAbove_full hlo']
    nlinarith [neg_one_le_sin φ]
  have hbdd : ∀ φ, BddAbove (S φ) := fun φ => ⟨hi, fun c hc => hc.1.2⟩
  set P : ℝ → ℝ := fun φ => sSup (S φ) with hPdef
  have hPmem : ∀ φ, P φ ∈ Icc lo hi := fun φ => ⟨le_csSup (hbdd φ) (hlomem φ), csSup_le ⟨lo, hlomem φ⟩ fun c hc => hc.1.2⟩
  have hkey : ∀ φ, ∀ c ∈ Icc lo hi, (c ≤ P φ ↔ 2 * π * (1 - sin φ) ≤ areaAbove Q c) := by
    intro φ c hc
    constructor
    · intro h
      refine ge_of_tendsto (tendsto_areaAbove hQ c) ?_
      filter_upwards [self_mem_nhdsWithin] with d hd
      obtain ⟨e, he, hde⟩ := exists_lt_of_lt_csSup ⟨lo, hlomem φ⟩ (lt_of_lt_of_le hd h)
      exact he.2.trans (areaAbove_anti hQ hde.le)
    · intro h
      exact le_csSup (hbdd φ) ⟨hc, h⟩
  have hmono : MonotoneOn P latitudes := by
    intro φ hφ ψ hψ h
    refine csSup_le_csSup (hbdd ψ) ⟨lo, hlomem φ⟩ fun c hc => ⟨hc.1, le_trans ?_ hc.2⟩
    have := strictMonoOn_sin.monotoneOn hφ hψ h
    nlinarith
  -- latitudes of given areas
  have hlat : ∀ c, ∃ y ∈ latitudes, 2 * π * (1 - sin y) = areaAbove Q c := by
    intro c
    obtain ⟨a0, a1⟩ := areaAbove_mem hQ c
    refine ⟨arcsin (1 - areaAbove Q c / (2 * π)), arcsin_mem_Icc _, ?_⟩
    rw [sin_arcsin]
    · field_simp
      ring
    · have : areaAbove Q c / (2 * π) ≤ 2 := by rw [div_le_iff₀ (by positivity)]; linarith
      linarith
    · have : 0 ≤ areaAbove Q c / (2 * π) := by positivity
      linarith
  have hsurj : ∀ c ∈ Icc lo hi, ∃ y ∈ latitudes, P y = c := by
    intro c hc
    obtain ⟨y, hy, e⟩ := hlat c
    refine ⟨y, hy, le_antisymm ?_ ((hkey y c hc).2 e.le)⟩
    by_contra hcon
    rw [not_le] at hcon
    have := (hkey y (P y) (hPmem y)).1 le_rfl
    rw [e] at this
    exact absurd (hstrict c (P y) hc.1 hcon (hPmem y).2) (not_lt.2 this)
  have hcont : ContinuousOn P latitudes := by
    rw [continuousOn_iff_continuous_domRestrict]
    let f : latitudes → Icc lo hi := fun φ => ⟨P φ, hPmem φ⟩
    have hf : Continuous f := by
      refine Monotone.continuous_of_surjective (fun a b h => ?_) fun c => ?_
      · exact hmono a.2 b.2 h
      · obtain ⟨y, hy, e⟩ := hsurj c c.2
        exact ⟨⟨y, hy⟩, Subtype.ext e⟩
    exact continuous_subtype_val.comp hf
  refine ⟨P, hcont, hmono, fun c => ?_⟩
  have hCP := contField_of_profile hcont
  rcases lt_or_ge c lo with h | h
  · rw [areaAbove_full fun x hx φ hφ => h.le.trans (hlo' x hx φ hφ), areaAbove_full fun x hx φ hφ => h.le.trans (hPmem φ).1]
  rcases lt_or_ge hi c with h' | h'
  · rw [areaAbove_empty fun x hx φ hφ => (hhi' x hx φ hφ).trans_lt h', areaAbove_empty fun x hx φ hφ => (hPmem φ).2.trans_lt h']
  obtain ⟨y, hy, e⟩ := hlat c
  rw [← e, area_profile, split_profile hcont c hy]
  have e1 : ∫ ψ in -(π / 2)..y, above (fun _ φ => P φ) c 0 ψ = 0 := by
    rw [← intervalIntegral.integral_zero (a := -(π / 2)) (b := y) (μ := volume)]
    refine intervalIntegral.integral_congr_Ioo_of_le hy.1 fun ψ hψ => ?_
    unfold above
    rw [if_neg, zero_mul]
    rw [hkey ψ c ⟨h, h'⟩, ← e, not_le]
    have := strictMonoOn_sin (show ψ ∈ latitudes from ⟨hψ.1.le, hψ.2.le.trans hy.2⟩) hy hψ.2
    nlinarith
  have e2 : ∫ ψ in y..π / 2, above (fun _ φ => P φ) c 0 ψ = 1 - sin y := by
    rw [← integral_cos_lat]
    refine intervalIntegral.integral_congr_Ioo_of_le hy.2 fun ψ hψ => ?_
    unfold above
    rw [if_pos, one_mul]
    rw [hkey ψ c ⟨h, h'⟩, ← e]
    have := strictMonoOn_sin hy (show ψ ∈ latitudes from ⟨hy.1.trans hψ.1.le, hψ.2.le⟩) hψ.1
    nlinarith
  rw [e1, e2, zero_add]

end Barotropic
