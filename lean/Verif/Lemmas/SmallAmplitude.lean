import Verif.Spec.SmallAmplitude
import Verif.Lemmas.WaveActivity
import Mathlib.Analysis.Calculus.ContDiff.Defs
import Mathlib.Analysis.Calculus.Deriv.MeanValue
import Mathlib.MeasureTheory.Integral.DominatedConvergence

/-!
# Wave activity of waves of small amplitude
-/

namespace Barotropic
open Real Set MeasureTheory Filter Topology
open scoped Classical

variable {B B' : ℝ → ℝ} {L : ℝ} {η : ℝ → ℝ → ℝ} {Lx Ly : ℝ}

theorem crossed_smul {e : ℝ} (he : 0 < e) (u : ℝ) (b : Prop) : crossed (e * u) b = e * crossed u b := by
  unfold crossed
  have : (0 ≤ e * u) ↔ 0 ≤ u := by rw [mul_nonneg_iff_of_pos_left he]
  by_cases h : 0 ≤ u <;> by_cases hb : b <;> simp [this, h, hb] <;> ring

theorem crossed_tendsto {ι : Type*} {l : Filter ι} {u : ι → ℝ} {u0 : ℝ} (h : Tendsto u l (𝓝 u0)) (b : Prop) :
    Tendsto (fun i => crossed (u i) b) l (𝓝 (crossed u0 b)) := by
  rw [tendsto_iff_norm_sub_tendsto_zero] at h ⊢
  exact squeeze_zero (fun _ => norm_nonneg _) (fun i => crossed_lip _ _ _) h

/-- the area between the basic state and the displaced contour -/
theorem integral_crossed {γ a S : ℝ} (hγ : 0 < γ) (hS : |a| ≤ γ * S) : ∫ s in -S..S, crossed (γ * s + a) (0 ≤ s) = a ^ 2 / (2 * γ) := by
  obtain ⟨h1, h2⟩ := abs_le.1 hS
  have hS0 : 0 ≤ S := by
    by_contra h
    have := mul_neg_of_pos_of_neg hγ (not_le.1 h)
    linarith [abs_nonneg a]
  obtain ⟨z, hz⟩ : ∃ z, z = -a / γ := ⟨_, rfl⟩
  have hza : a = -(γ * z) := by rw [hz]; field_simp
  have hz1 : -S ≤ z := by
    by_contra h
    have := mul_lt_mul_of_pos_left (not_le.1 h) hγ
    linarith
  have hz2 : z ≤ S := by
    by_contra h
    have := mul_lt_mul_of_pos_left (not_le.1 h) hγ
    linarith
  have hlin : ∀ p q : ℝ, IntervalIntegrable (fun s => γ * s + a) volume p q := fun p q => by
    apply Continuous.intervalIntegrable; fun_prop
  have hval : ∀ p q : ℝ, ∫ s in p..q, (γ * s + a) = γ * (q ^ 2 - p ^ 2) / 2 + a * (q - p) := by
    intro p q
    rw [intervalIntegral.integral_add (by apply Continuous.intervalIntegrable; fun_prop) (by simp), intervalIntegral.integral_const_mul, integral_id,
      intervalIntegral.integral_const, smul_eq_mul]
    ring
  have pieces : ∀ (f : ℝ → ℝ) (m : ℝ), -S ≤ m → m ≤ S → (∀ s, f s = if m ≤ s then γ * s + a else 0) →
      IntervalIntegrable f volume (-S) S ∧ ∫ s in -S..S, f s = γ * (S ^ 2 - m ^ 2) / 2 + a * (S - m) := by
    intro f m hm1 hm2 hf
    have e1 : ∀ s ∈ uIoo (-S) m, f s = 0 := fun s hs => by
      rw [uIoo_of_le hm1] at hs
      rw [hf, if_neg (not_le.2 hs.2)]
    have e2 : ∀ s ∈ uIoo m S, f s = γ * s + a := fun s hs => by
      rw [uIoo_of_le hm2] at hs
      rw [hf, if_pos hs.1.le]
    have i1 : IntervalIntegrable f volume (-S) m := (intervalIntegrable_const (c := (0 : ℝ))).congr_uIoo fun s hs => (e1 s hs).symm
    have i2 : IntervalIntegrable f volume m S := (hlin m S).congr_uIoo fun s hs => (e2 s hs).symm
    refine ⟨i1.trans i2, ?_⟩
    rw [← intervalIntegral.integral_add_adjacent_intervals i1 i2, intervalIntegral.integral_congr_uIoo e1, intervalIntegral.integral_congr_uIoo e2, hval]
    simp
  obtain ⟨i1, v1⟩ := pieces (fun s => if 0 ≤ γ * s + a then γ * s + a else 0) z hz1 hz2 fun s => by
    have : (0 ≤ γ * s + a) ↔ z ≤ s := by
      rw [hza, show γ * s + -(γ * z) = γ * (s - z) by ring, mul_nonneg_iff_of_pos_left hγ, sub_nonneg]
    simp only [this]
  obtain ⟨i2, v2⟩ := pieces (fun s => if 0 ≤ s then γ * s + a else 0) 0 (by linarith) hS0 fun s => rfl
  unfold crossed
  rw [intervalIntegral.integral_sub i1 i2, v1, v2, hza]
  field_simp
  ring

/-- Interior latitudes -/
abbrev interior : Set ℝ := Ioo (-(π / 2)) (π / 2)

theorem BasicState.continuousOn (hB : BasicState B B' L) : ContinuousOn B latitudes := by
  have h0 : 0 ≤ L := by
    have hp := one_le_pi_div_two
    have := (abs_nonneg _).trans (hB.lip 0 ⟨by linarith, by linarith⟩ 1 ⟨by linarith, by linarith⟩)
    norm_num at this
    exact this
  exact LipschitzOnWith.continuousOn (K := ⟨L, h0⟩) (LipschitzOnWith.of_dist_le_mul fun p hp p' hp' => by
    rw [Real.dist_eq, Real.dist_eq]; exact hB.lip p hp p' hp')

theorem BasicState.mono (hB : BasicState B B' L) : StrictMonoOn B latitudes := by
  refine strictMonoOn_of_deriv_pos (convex_Icc _ _) hB.continuousOn fun φ hφ => ?_
  rw [interior_Icc] at hφ
  rw [(hB.deriv φ hφ).deriv]
  exact hB.pos φ hφ

theorem BasicState.strict (hB : BasicState B B' L) {φ : ℝ} (hφ : φ ∈ interior) : HasStrictDerivAt B (B' φ) φ := by
  refine hasStrictDerivAt_of_hasDerivAt_of_continuousAt ?_ (hB.gradient.continuousAt (Ioo_mem_nhds hφ.1 hφ.2))
  filter_upwards [Ioo_mem_nhds hφ.1 hφ.2] with ψ hψ using hB.deriv ψ hψ

/-- The basic state separates latitudes. -/
theorem BasicState.separates (hB : BasicState B B' L) {φ0 : ℝ} (h0 : 0 ≤ φ0) (h1 : φ0 < π / 2) :
    ∃ κ > 0, ∀ y ∈ Icc (-φ0) φ0, κ ≤ B' y ∧ ∀ φ ∈ latitudes, (y ≤ φ → κ * (φ - y) ≤ B φ - B y) ∧ (φ ≤ y → κ * (y - φ) ≤ B y - B φ) := by
  have hp := pi_pos
  obtain ⟨φ1, hφ1⟩ : ∃ φ1, φ1 = (φ0 + π / 2) / 2 := ⟨_, rfl⟩
  have a1 : φ0 < φ1 := by linarith
  have a2 : φ1 < π / 2 := by linarith
  have hsub : Icc (-φ1) φ1 ⊆ interior := fun y hy => ⟨by linarith [hy.1], by linarith [hy.2]⟩
  obtain ⟨m, hm, hmin⟩ := (isCompact_Icc (a := -φ1) (b := φ1)).exists_isMinOn ⟨0, by constructor <;> linarith⟩ (hB.gradient.mono hsub)
  have hk := hB.pos m (hsub hm)
  obtain ⟨k, hkd⟩ : ∃ k, k = B' m := ⟨_, rfl⟩
  rw [← hkd] at hk
  have hge : ∀ y ∈ Icc (-φ1) φ1, k ≤ B' y := fun y hy => by rw [hkd]; exact hmin hy
  have hstep : ∀ p q, -φ1 ≤ p → p ≤ q → q ≤ φ1 → k * (q - p) ≤ B q - B p := by
    intro p q hp1 hpq hq1
    refine (convex_Icc (-φ1) φ1).mul_sub_le_image_sub_of_le_deriv (f := B) (fun y hy => (hB.deriv y (hsub hy)).continuousAt.continuousWithinAt)
      (fun y hy => (hB.deriv y (hsub (interior_subset hy))).differentiableAt.differentiableWithinAt) (fun y hy => ?_) p ⟨hp1, hpq.trans hq1⟩ q
      ⟨hp1.trans hpq, hq1⟩ hpq
    rw [(hB.deriv y (hsub (interior_subset hy))).deriv]
    exact hge y (interior_subset hy)
  have hm' := hB.mono.monotoneOn
  obtain ⟨ρ, hρ⟩ : ∃ ρ, ρ = (φ1 - φ0) / π := ⟨_, rfl⟩
  have hρ0 : 0 < ρ := by rw [hρ]; exact div_pos (by linarith) hp
  have hρ1 : ρ ≤ 1 := by rw [hρ, div_le_one hp]; linarith
  have hρ2 : ρ * π = φ1 - φ0 := by rw [hρ]; field_simp
  refine ⟨k * ρ, by positivity, fun y hy => ⟨?_, fun φ hφ => ⟨fun h => ?_, fun h => ?_⟩⟩⟩
  · exact (mul_le_of_le_one_right hk.le hρ1).trans (hge y ⟨by linarith [hy.1], by linarith [hy.2]⟩)
  · by_cases hc : φ ≤ φ1
    · have := hstep y φ (by linarith [hy.1]) h hc
      have h3 : ρ * (φ - y) ≤ φ - y := mul_le_of_le_one_left (by linarith) hρ1
      have := mul_le_mul_of_nonneg_left h3 hk.le
      linarith
    · rw [not_le] at hc
      have h2 := hstep y φ1 (by linarith [hy.1]) (by linarith [hy.2]) le_rfl
      have h3 := hm' ⟨by linarith, by linarith⟩ hφ hc.le
      have h4 : ρ * (φ - y) ≤ ρ * π := mul_le_mul_of_nonneg_left (by linarith [hφ.2, hy.1]) hρ0.le
      have h5 : ρ * (φ - y) ≤ φ1 - y := by linarith [hy.2]
      have := mul_le_mul_of_nonneg_left h5 hk.le
      linarith
  · by_cases hc : -φ1 ≤ φ
    · have := hstep φ y hc h (by linarith [hy.2])
      have h3 : ρ * (y - φ) ≤ y - φ := mul_le_of_le_one_left (by linarith) hρ1
      have := mul_le_mul_of_nonneg_left h3 hk.le
      linarith
    · rw [not_le] at hc
      have h2 := hstep (-φ1) y le_rfl (by linarith [hy.1]) (by linarith [hy.2])
      have h3 := hm' hφ ⟨by linarith, by linarith⟩ hc.le
      have h4 : ρ * (y - φ) ≤ ρ * π := mul_le_mul_of_nonneg_left (by linarith [hφ.1, hy.2]) hρ0.le
      have h5 : ρ * (y - φ) ≤ y - -φ1 := by linarith [hy.1]
      have := mul_le_mul_of_nonneg_left h5 hk.le
      linarith

/-- deviation from the value `B y + e c` at the latitude `y + e s`, divided by the amplitude -/
noncomputable def scaled (B : ℝ → ℝ) (η : ℝ → ℝ → ℝ) (e x y c s : ℝ) : ℝ := (B (y + e * s) - B y) / e + η x (y + e * s) - c

section limit
variable {ι : Type*} {l : Filter ι} {e x y c : ι → ℝ} {x0 y0 c0 : ℝ}

theorem scaled_tendsto (hB : BasicState B B' L) (hη : ContField η) (he : Tendsto e l (𝓝 0)) (hep : ∀ᶠ i in l, 0 < e i) (hx : Tendsto x l (𝓝 x0))
    (hy : Tendsto y l (𝓝 y0)) (hy0 : y0 ∈ interior) (hc : Tendsto c l (𝓝 c0)) (s : ℝ) :
    Tendsto (fun i => scaled B η (e i) (x i) (y i) (c i) s) l (𝓝 (B' y0 * s + (η x0 y0 - c0))) := by
  have hys : Tendsto (fun i => y i + e i * s) l (𝓝 y0) := by simpa using hy.add (he.mul_const s)
  have h1 : Tendsto (fun i => (B (y i + e i * s) - B (y i)) / e i) l (𝓝 (B' y0 * s)) := by
    have ho := ((hB.strict hy0).hasStrictFDerivAt.isLittleO).comp_tendsto (hys.prodMk_nhds hy)
    have ho2 : (fun i => B (y i + e i * s) - B (y i) - e i * s * B' y0) =o[l] e := by
      refine (ho.congr' (Eventually.of_forall fun i => ?_) (Eventually.of_forall fun i => ?_)).trans_isBigO
        (g := fun i => e i * s) ?_
      · simp [Function.comp]
      · simp [Function.comp]
      · refine Asymptotics.IsBigO.of_bound |s| (Eventually.of_forall fun i => ?_)
        rw [norm_mul, mul_comm, Real.norm_eq_abs s]
    have h3 := ho2.tendsto_div_nhds_zero.add_const (s * B' y0)
    rw [zero_add, mul_comm] at h3
    refine h3.congr' ?_
    filter_upwards [hep] with i hi
    field_simp
    ring
  have h2 : Tendsto (fun i => η (x i) (y i + e i * s)) l (𝓝 (η x0 y0)) := by
    have hc : ContinuousAt (fun p : ℝ × ℝ => η p.1 p.2) (x0, y0) := by
      refine hη.continuousAt ?_
      rw [nhds_prod_eq]
      exact prod_mem_prod univ_mem (Icc_mem_nhds hy0.1 hy0.2)
    exact hc.tendsto.comp (hx.prodMk_nhds hys)
  have := (h1.add h2).sub hc
  rw [add_sub_assoc] at this
  exact this

end limit

theorem withWave_sub {e : ℝ} (he : 0 < e) (x y c s : ℝ) : withWave B η e x (y + e * s) - (B y + e * c) = e * scaled B η e x y c s := by
  unfold withWave scaled
  field_simp
  ring

theorem ContField.withWave (hB : BasicState B B' L) (hη : ContField η) (e : ℝ) : ContField (withWave B η e) :=
  (hB.continuousOn.comp continuousOn_snd fun _ hp => hp.2).add (continuousOn_const.mul hη)

/-- Values are only displaced close to the latitude. -/
theorem crossed_near {e x y c κ M C φ : ℝ} (he : 0 < e) (hκ : 0 < κ)
    (hs : (y ≤ φ → κ * (φ - y) ≤ B φ - B y) ∧ (φ ≤ y → κ * (y - φ) ≤ B y - B φ)) (hM : |η x φ| ≤ M) (hC : |c| ≤ C) :
    |crossed (withWave B η e x φ - (B y + e * c)) (y ≤ φ)| ≤ e * (M + C) ∧
      (e * ((M + C) / κ) < |φ - y| → crossed (withWave B η e x φ - (B y + e * c)) (y ≤ φ) = 0) := by
  obtain ⟨m1, m2⟩ := abs_le.1 hM
  obtain ⟨c1, c2⟩ := abs_le.1 hC
  have k1 := mul_le_mul_of_nonneg_left m1 he.le
  have k2 := mul_le_mul_of_nonneg_left m2 he.le
  have k3 := mul_le_mul_of_nonneg_left c1 he.le
  have k4 := mul_le_mul_of_nonneg_left c2 he.le
  have hMC : 0 ≤ e * (M + C) := by nlinarith [abs_nonneg (η x φ), abs_nonneg c]
  rw [crossed_eq]
  unfold withWave
  by_cases h : y ≤ φ
  · have h1 := hs.1 h
    have hk : 0 ≤ κ * (φ - y) := mul_nonneg hκ.le (by linarith)
    simp only [h, iff_true]
    by_cases hu : 0 ≤ B φ + e * η x φ - (B y + e * c)
    · simp [hu, hMC]
    · simp only [hu, if_false, abs_abs]
      rw [abs_of_neg (not_le.1 hu)]
      refine ⟨by linarith, fun hf => ?_⟩
      rw [abs_of_nonneg (by linarith), ← mul_div_assoc, div_lt_iff₀ hκ] at hf
      rw [not_le] at hu
      linarith
  · have h1 := hs.2 (not_le.1 h).le
    rw [not_le] at h
    have hk : 0 ≤ κ * (y - φ) := mul_nonneg hκ.le (by linarith)
    simp only [not_le.2 h, iff_false]
    by_cases hu : 0 ≤ B φ + e * η x φ - (B y + e * c)
    · simp only [hu, not_true_eq_false, if_false, abs_abs]
      rw [abs_of_nonneg hu]
      refine ⟨by linarith, fun hf => ?_⟩
      rw [abs_of_neg (by linarith), ← mul_div_assoc, div_lt_iff₀ hκ] at hf
      linarith
    · simp [hu, hMC]

/-- The displaced deviations in coordinates that are scaled with the amplitude -/
theorem displaced_scaled (hB : BasicState B B' L) {e x y c κ M C S : ℝ} (he : 0 < e) (hκ : 0 < κ)
    (hs : ∀ φ ∈ latitudes, (y ≤ φ → κ * (φ - y) ≤ B φ - B y) ∧ (φ ≤ y → κ * (y - φ) ≤ B y - B φ)) (hM : ∀ φ ∈ latitudes, |η x φ| ≤ M) (hC : |c| ≤ C)
    (hS : (M + C) / κ < S) (hS0 : 0 ≤ S) (h1 : -(π / 2) ≤ y - e * S) (h2 : y + e * S ≤ π / 2) :
    displaced (withWave B η e) (B y + e * c) x y / e ^ 2 = ∫ s in -S..S, crossed (scaled B η e x y c s) (0 ≤ s) * cos (y + e * s) := by
  have hle : y - e * S ≤ y + e * S := by nlinarith
  have e1 : displaced (withWave B η e) (B y + e * c) x y =
      ∫ φ in (y + e * -S)..(y + e * S), crossed (withWave B η e x φ - (B y + e * c)) (y ≤ φ) * cos φ := by
    rw [displaced_eq, show y + e * -S = y - e * S by ring, intervalIntegral.integral_of_le poles_le, intervalIntegral.integral_of_le hle]
    refine setIntegral_eq_of_subset_of_forall_sdiff_eq_zero measurableSet_Ioc (Ioc_subset_Ioc h1 h2) fun φ hφ => ?_
    have hin : φ ∈ latitudes := ⟨hφ.1.1.le, hφ.1.2⟩
    rw [(crossed_near he hκ (hs φ hin) (hM φ hin) hC).2, zero_mul]
    refine (mul_lt_mul_of_pos_left hS he).trans_le ?_
    by_contra hn
    rw [not_le, abs_lt] at hn
    exact hφ.2 ⟨by linarith [hn.1], by linarith [hn.2]⟩
  rw [e1, ← intervalIntegral.smul_integral_comp_add_mul, smul_eq_mul]
  have e2 : ∀ s, crossed (withWave B η e x (y + e * s) - (B y + e * c)) (y ≤ y + e * s) * cos (y + e * s) =
      e * (crossed (scaled B η e x y c s) (0 ≤ s) * cos (y + e * s)) := by
    intro s
    have : (y ≤ y + e * s) ↔ 0 ≤ s := by rw [le_add_iff_nonneg_right, mul_nonneg_iff_of_pos_left he]
    rw [withWave_sub he, crossed_smul he, mul_assoc]
    simp only [this]
  simp only [e2]
  rw [intervalIntegral.integral_const_mul]
  field_simp

section limit
variable {ι : Type*} {l : Filter ι} {e x y c : ι → ℝ} {x0 y0 c0 : ℝ}

theorem displaced_tendsto [l.IsCountablyGenerated] (hB : BasicState B B' L) (hη : ContField η) {M : ℝ} (hM : ∀ x, ∀ φ ∈ latitudes, |η x φ| ≤ M)
    (he : Tendsto e l (𝓝 0)) (hep : ∀ᶠ i in l, 0 < e i) (hx : Tendsto x l (𝓝 x0)) (hy : Tendsto y l (𝓝 y0)) (hy0 : y0 ∈ interior)
    (hc : Tendsto c l (𝓝 c0)) :
    Tendsto (fun i => displaced (withWave B η (e i)) (B (y i) + e i * c i) (x i) (y i) / e i ^ 2) l (𝓝 (cos y0 * ((η x0 y0 - c0) ^ 2 / (2 * B' y0)))) := by
  obtain ⟨φ0, hφ0, hφ1, hφ2⟩ : ∃ φ0, 0 ≤ φ0 ∧ φ0 < π / 2 ∧ |y0| < φ0 := by
    refine ⟨(|y0| + π / 2) / 2, by positivity, ?_, ?_⟩ <;> linarith [abs_lt.2 hy0]
  obtain ⟨κ, hκ, hsep⟩ := hB.separates hφ0 hφ1
  obtain ⟨C, hC⟩ : ∃ C, C = |c0| + 1 := ⟨_, rfl⟩
  have hM0 : 0 ≤ M := (abs_nonneg _).trans (hM x0 y0 ⟨hy0.1.le, hy0.2.le⟩)
  have hC0 : 0 ≤ C := by rw [hC]; positivity
  obtain ⟨S, hS⟩ : ∃ S, S = (M + C) / κ + 1 := ⟨_, rfl⟩
  have hS0 : 0 ≤ S := by rw [hS]; positivity
  have hSlt : (M + C) / κ < S := by linarith
  have hyE : ∀ᶠ i in l, y i ∈ Icc (-φ0) φ0 := by
    have : Icc (-φ0) φ0 ∈ 𝓝 y0 := Icc_mem_nhds (abs_lt.1 hφ2).1 (abs_lt.1 hφ2).2
    exact hy this
  have hcE : ∀ᶠ i in l, |c i| ≤ C := by
    have := hc.abs.eventually (gt_mem_nhds (show |c0| < C by linarith))
    exact this.mono fun i h => h.le
  have heE : ∀ᶠ i in l, e i * S ≤ π / 2 - φ0 := by
    have h : Tendsto (fun i => e i * S) l (𝓝 0) := by simpa using he.mul_const S
    exact (h.eventually (gt_mem_nhds (show 0 < π / 2 - φ0 by linarith))).mono fun i h => h.le
  have hin : ∀ᶠ i in l, 0 < e i ∧ y i ∈ Icc (-φ0) φ0 ∧ |c i| ≤ C ∧ e i * S ≤ π / 2 - φ0 :=
    hep.and (hyE.and (hcE.and heE))
  have hy0' : y0 ∈ Icc (-φ0) φ0 := ⟨(abs_lt.1 hφ2).1.le, (abs_lt.1 hφ2).2.le⟩
  have ha : |η x0 y0 - c0| ≤ B' y0 * S := by
    have h1 : |η x0 y0 - c0| ≤ M + C := by
      have := abs_sub (η x0 y0) c0
      have := hM x0 y0 ⟨hy0.1.le, hy0.2.le⟩
      linarith
    have h2 : M + C ≤ κ * S := by rw [hS, mul_add, mul_div_cancel₀ _ hκ.ne']; linarith
    exact h1.trans (h2.trans (mul_le_mul_of_nonneg_right (hsep y0 hy0').1 hS0))
  rw [← integral_crossed (hB.pos y0 hy0) ha, mul_comm, ← intervalIntegral.integral_mul_const]
  have hlim : Tendsto (fun i => ∫ s in -S..S, crossed (scaled B η (e i) (x i) (y i) (c i) s) (0 ≤ s) * cos (y i + e i * s)) l
      (𝓝 (∫ s in -S..S, crossed (B' y0 * s + (η x0 y0 - c0)) (0 ≤ s) * cos y0)) := by
    refine intervalIntegral.tendsto_integral_filter_of_dominated_convergence (fun _ => M + C) ?_ ?_ intervalIntegrable_const ?_
    · filter_upwards [hin] with i ⟨hi, hyi, hci, hei⟩
      have hi1 := (crossed_integrable (hη.withWave hB (e i)) (B (y i) + e i * c i) (x i) (y i))
      have hsub : IntervalIntegrable (fun φ => crossed (withWave B η (e i) (x i) φ - (B (y i) + e i * c i)) (y i ≤ φ) * cos φ) volume
          (y i - e i * S) (y i + e i * S) := by
        refine hi1.mono_set ?_
        have : 0 ≤ e i * S := by positivity
        rw [uIcc_of_le poles_le, uIcc_of_le (by linarith)]
        exact Icc_subset_Icc (by linarith [hyi.1]) (by linarith [hyi.2])
      have h3 := (hsub.comp_add_left (y i)).comp_mul_left (c := e i)
      rw [show (y i - e i * S - y i) / e i = -S by field_simp; ring, show (y i + e i * S - y i) / e i = S by field_simp; ring] at h3
      have h4 := h3.const_mul (e i)⁻¹
      refine (intervalIntegrable_iff.1 h4).aestronglyMeasurable.congr (Eventually.of_forall fun s => ?_)
      have : (y i ≤ y i + e i * s) ↔ 0 ≤ s := by rw [le_add_iff_nonneg_right, mul_nonneg_iff_of_pos_left hi]
      dsimp only
      rw [withWave_sub hi, crossed_smul hi]
      simp only [this]
      field_simp
    · filter_upwards [hin] with i ⟨hi, hyi, hci, hei⟩
      refine Eventually.of_forall fun s hs => ?_
      rw [uIoc_of_le (by linarith)] at hs
      have hb1 : e i * s ≤ e i * S := mul_le_mul_of_nonneg_left hs.2 hi.le
      have hb2 : e i * -S ≤ e i * s := mul_le_mul_of_nonneg_left hs.1.le hi.le
      have hφ : y i + e i * s ∈ latitudes := ⟨by linarith [hyi.1], by linarith [hyi.2]⟩
      have h5 := (crossed_near hi hκ ((hsep _ hyi).2 _ hφ) (hM (x i) _ hφ) hci).1
      have : (y i ≤ y i + e i * s) ↔ 0 ≤ s := by rw [le_add_iff_nonneg_right, mul_nonneg_iff_of_pos_left hi]
      rw [withWave_sub hi, crossed_smul hi, abs_mul, abs_of_pos hi] at h5
      simp only [this] at h5
      have h6 := le_of_mul_le_mul_left h5 hi
      rw [norm_mul, Real.norm_eq_abs, Real.norm_eq_abs]
      exact (mul_le_of_le_one_right (abs_nonneg _) (abs_cos_le_one _)).trans h6
    · refine Eventually.of_forall fun s _ => ?_
      refine (crossed_tendsto (scaled_tendsto hB hη he hep hx hy hy0 hc s) _).mul ?_
      have hys : Tendsto (fun i => y i + e i * s) l (𝓝 y0) := by simpa using hy.add (he.mul_const s)
      exact (continuous_cos.tendsto y0).comp hys
  refine hlim.congr' ?_
  filter_upwards [hin] with i ⟨hi, hyi, hci, hei⟩
  exact (displaced_scaled hB hi hκ (hsep _ hyi).2 (hM (x i)) hci hSlt hS0 (by linarith [hyi.1]) (by linarith [hyi.2])).symm

end limit

/-- The displaced deviations of waves of small amplitude -/
theorem displaced_uniform (hB : BasicState B B' L) (hη : ContField η) {M : ℝ} (hM : ∀ x, ∀ φ ∈ latitudes, |η x φ| ≤ M) {φ0 : ℝ} (h1 : φ0 < π / 2)
    (C : ℝ) {τ : ℝ} (hτ : 0 < τ) :
    ∃ ε0 > 0, ∀ ε, 0 < ε → ε < ε0 → ∀ x ∈ Icc 0 (2 * π), ∀ y ∈ Icc (-φ0) φ0, ∀ c ∈ Icc (-C) C,
      |displaced (withWave B η ε) (B y + ε * c) x y / ε ^ 2 - cos y * ((η x y - c) ^ 2 / (2 * B' y))| ≤ τ := by
  have hK : IsCompact (Icc (0 : ℝ) (2 * π) ×ˢ Icc (-φ0) φ0 ×ˢ Icc (-C) C) := isCompact_Icc.prod (isCompact_Icc.prod isCompact_Icc)
  have key := hK.eventually_forall_of_forall_eventually (x₀ := (0 : ℝ)) (P := fun ε p => 0 < ε →
      |displaced (withWave B η ε) (B p.2.1 + ε * p.2.2) p.1 p.2.1 / ε ^ 2 - cos p.2.1 * ((η p.1 p.2.1 - p.2.2) ^ 2 / (2 * B' p.2.1))| ≤ τ) ?_
  · obtain ⟨ε0, hε0, h⟩ := Metric.eventually_nhds_iff.1 key
    refine ⟨ε0, hε0, fun ε hε hlt x hx y hy c hc => h (y := ε) ?_ (x, y, c) ⟨hx, hy, hc⟩ hε⟩
    rwa [Real.dist_eq, sub_zero, abs_of_pos hε]
  · rintro ⟨x0, y0, c0⟩ ⟨-, hy0, -⟩
    have hy0 : y0 ∈ interior := ⟨by linarith [hy0.1], by linarith [hy0.2]⟩
    have he : Tendsto (fun z : ℝ × ℝ × ℝ × ℝ => z.1) (𝓝[{z | 0 < z.1}] (0, x0, y0, c0)) (𝓝 0) :=
      (continuous_fst.tendsto' (0, x0, y0, c0) 0 rfl).mono_left nhdsWithin_le_nhds
    have hx : Tendsto (fun z : ℝ × ℝ × ℝ × ℝ => z.2.1) (𝓝[{z | 0 < z.1}] (0, x0, y0, c0)) (𝓝 x0) :=
      ((by fun_prop : Continuous fun z : ℝ × ℝ × ℝ × ℝ => z.2.1).tendsto' (0, x0, y0, c0) x0 rfl).mono_left nhdsWithin_le_nhds
    have hy : Tendsto (fun z : ℝ × ℝ × ℝ × ℝ => z.2.2.1) (𝓝[{z | 0 < z.1}] (0, x0, y0, c0)) (𝓝 y0) :=
      ((by fun_prop : Continuous fun z : ℝ × ℝ × ℝ × ℝ => z.2.2.1).tendsto' (0, x0, y0, c0) y0 rfl).mono_left nhdsWithin_le_nhds
    have hc : Tendsto (fun z : ℝ × ℝ × ℝ × ℝ => z.2.2.2) (𝓝[{z | 0 < z.1}] (0, x0, y0, c0)) (𝓝 c0) :=
      ((by fun_prop : Continuous fun z : ℝ × ℝ × ℝ × ℝ => z.2.2.2).tendsto' (0, x0, y0, c0) c0 rfl).mono_left nhdsWithin_le_nhds
    have hep : ∀ᶠ z : ℝ × ℝ × ℝ × ℝ in 𝓝[{z | 0 < z.1}] (0, x0, y0, c0), 0 < z.1 := eventually_mem_nhdsWithin
    have t1 := displaced_tendsto hB hη hM he hep hx hy hy0 hc
    have hηc : Tendsto (fun z : ℝ × ℝ × ℝ × ℝ => η z.2.1 z.2.2.1) (𝓝[{z | 0 < z.1}] (0, x0, y0, c0)) (𝓝 (η x0 y0)) := by
      have hc : ContinuousAt (fun p : ℝ × ℝ => η p.1 p.2) (x0, y0) := by
        refine hη.continuousAt ?_
        rw [nhds_prod_eq]
        exact prod_mem_prod univ_mem (Icc_mem_nhds hy0.1 hy0.2)
      exact hc.tendsto.comp (hx.prodMk_nhds hy)
    have hBc := (hB.gradient.continuousAt (Ioo_mem_nhds hy0.1 hy0.2)).tendsto.comp hy
    have t2 := ((continuous_cos.tendsto y0).comp hy).mul (((hηc.sub hc).pow 2).div (hBc.const_mul 2) (by have := hB.pos y0 hy0; positivity))
    have t3 := (t1.sub t2).abs
    rw [sub_self, abs_zero] at t3
    have t4 := t3.eventually (gt_mem_nhds hτ)
    rw [eventually_nhdsWithin_iff] at t4
    exact t4.mono fun z hz h0 => (hz h0).le

end Barotropic
