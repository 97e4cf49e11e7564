import Verif.Lemmas.SmallAmplitudeZonal
import Verif.Props.FalwaError

/-!
# C156: diagnostics of waves of small amplitude
-/

namespace Barotropic
open Real Set MeasureTheory Filter Topology Grid

variable {Q : ℝ → ℝ → ℝ}

/-- Areas of fields that increase northward everywhere depend on the value continuously from above. -/
theorem tendsto_areaAbove_right (hQ : ContField Q) (hm : ∀ x, StrictMonoOn (Q x) latitudes) (c : ℝ) :
    Tendsto (areaAbove Q) (𝓝[>] c) (𝓝 (areaAbove Q c)) := by
  classical
  have h1 : ∀ x, Tendsto (fun d => meridAbove Q d x) (𝓝[>] c) (𝓝 (meridAbove Q c x)) := by
    intro x
    have hnull : volume {φ | φ ∈ latitudes ∧ Q x φ = c} = 0 := by
      refine Set.Subsingleton.measure_zero (fun a ha b hb => ?_) _
      exact (hm x).injOn ha.1 hb.1 (ha.2.trans hb.2.symm)
    refine intervalIntegral.tendsto_integral_filter_of_dominated_convergence (fun _ => 1) (Eventually.of_forall fun d => ?_)
      (Eventually.of_forall fun d => Eventually.of_forall fun φ _ => above_bound Q d x φ) intervalIntegrable_const ?_
    · have := (above_integrable hQ d x le_rfl poles_le le_rfl).aestronglyMeasurable
      rwa [uIoc_of_le poles_le]
    · filter_upwards [compl_mem_ae_iff.2 hnull] with φ hne hφ
      rw [uIoc_of_le poles_le] at hφ
      refine tendsto_const_nhds.congr' ?_
      unfold above
      by_cases h : c ≤ Q x φ
      · have hlt : c < Q x φ := lt_of_le_of_ne h fun e => hne ⟨⟨hφ.1.le, hφ.2⟩, e.symm⟩
        filter_upwards [Ioo_mem_nhdsGT hlt] with d hd
        rw [if_pos h, if_pos hd.2.le]
      · have hlt : Q x φ < c := not_le.1 h
        filter_upwards [self_mem_nhdsWithin] with d hd
        rw [if_neg h, if_neg (not_le.2 (hlt.trans hd))]
  have h2 : Tendsto (fun d => ∫ x in (0 : ℝ)..2 * π, meridAbove Q d x) (𝓝[>] c) (𝓝 (∫ x in (0 : ℝ)..2 * π, meridAbove Q c x)) := by
    refine intervalIntegral.tendsto_integral_filter_of_dominated_convergence (fun _ => 2)
      (Eventually.of_forall fun d => (meridAbove_measurable hQ d).aestronglyMeasurable)
      (Eventually.of_forall fun d => Eventually.of_forall fun x _ => ?_) intervalIntegrable_const (Eventually.of_forall fun x _ => h1 x)
    obtain ⟨a, b⟩ := meridAbove_mem hQ d x
    rw [Real.norm_eq_abs, abs_of_nonneg a]
    exact b
  rw [areaAbove_eq]
  refine h2.congr fun d => (areaAbove_eq Q d).symm

/-- C156: the rearranged profile increases strictly if no contour is overturned. -/
theorem C156_strict (Q : ℝ → ℝ → ℝ) (Lx Ly : ℝ) (hQ : LipschitzField Q Lx Ly) (hm : ∀ x, StrictMonoOn (Q x) latitudes) (P : ℝ → ℝ)
    (hP : IsRearrangement Q P) : StrictMonoOn P latitudes := by
  intro φ hφ φ' hφ' hlt
  refine lt_of_le_of_ne (hP.increasing hφ hφ' hlt.le) fun e => ?_
  have h1 := area_profile_ge hP.continuous hP.increasing hφ (le_refl (P φ))
  have h2 : ∀ d, P φ < d → areaAbove Q d ≤ 2 * π * (1 - sin φ') := fun d hd => by
    rw [hP.area]
    exact area_profile_le hP.continuous hP.increasing hφ' (e ▸ hd)
  rw [← hP.area] at h1
  have h3 : areaAbove Q (P φ) ≤ 2 * π * (1 - sin φ') := by
    refine le_of_tendsto (tendsto_areaAbove_right hQ.cont hm (P φ)) ?_
    filter_upwards [self_mem_nhdsWithin] with d hd using h2 d hd
  have h4 := strictMonoOn_sin hφ hφ' hlt
  have := mul_lt_mul_of_pos_left h4 two_pi_pos
  linarith

/-- C156: a wave that changes at most `N` times as much as the basic state between two latitudes overturns no contour if its amplitude is small. -/
theorem C156_not_overturned (B B' : ℝ → ℝ) (L : ℝ) (hB : BasicState B B' L) (η : ℝ → ℝ → ℝ) (N : ℝ)
    (hN : ∀ x, ∀ φ ∈ latitudes, ∀ φ' ∈ latitudes, |η x φ - η x φ'| ≤ N * |B φ - B φ'|) (ε : ℝ) (hε : 0 ≤ ε) (hs : ε * N < 1) (x : ℝ) :
    StrictMonoOn (withWave B η ε x) latitudes := by
  intro φ hφ φ' hφ' hlt
  have h1 := hB.mono hφ hφ' hlt
  have h2 := hN x φ hφ φ' hφ'
  rw [abs_of_neg (sub_neg.2 h1)] at h2
  have h3 := mul_le_mul_of_nonneg_left ((le_abs_self _).trans h2) hε
  have h4 := mul_lt_mul_of_pos_right hs (sub_pos.2 h1)
  unfold withWave
  linarith

/-- C156: to first order in the amplitude of the wave, the zonalized profile is the zonal mean. -/
theorem C156_zonalize (B B' : ℝ → ℝ) (L : ℝ) (hB : BasicState B B' L) (η : ℝ → ℝ → ℝ) (Lx Ly : ℝ) (hη : LipschitzField η Lx Ly) (φ0 τ : ℝ)
    (h0 : 0 ≤ φ0) (h1 : φ0 < π / 2) (hτ : 0 < τ) :
    ∃ ε0 > 0, ∀ ε, 0 < ε → ε < ε0 → ∃ δ > 0, ∀ g : Grid ℝ, g.Valid → g.resolution * g.nlon = 360 → g.resolution ≤ δ → ∀ m, KnownMethod m →
      ∃ R, g.zonalize (fun j (i : Fin g.nlon) => B (g.phi j) + ε * η (g.lam i) (g.phi j)) .none m = .ok R ∧
        ∀ j : Fin g.nlat, |g.phi j| ≤ φ0 → |R j - (B (g.phi j) + ε * circleMean η (g.phi j))| ≤ ε * τ := by
  obtain ⟨ε0, hε0, H⟩ := rearrangement_small hB hη h0 h1 (half_pos hτ)
  refine ⟨ε0, hε0, fun ε hε hlt => ?_⟩
  have hQ := hη.withWave hB hε.le
  obtain ⟨P, hP⟩ := exists_rearrangement hQ.cont
  obtain ⟨C, hC, HC⟩ := C115_uniform (ε * Lx) (L + ε * Ly)
  refine ⟨ε * τ / (2 * (C + 1)), by positivity, fun g hg hs hres m hm => ?_⟩
  obtain ⟨R, hR, hE⟩ := HC _ hQ P hP g hg hs m hm
  refine ⟨R, hR, fun j hj => ?_⟩
  have a1 := hE j
  have a2 := H ε hε hlt P hP (g.phi j) (abs_le.1 hj)
  have a3 : C * g.resolution ≤ ε * τ / 2 := by
    have h3 := mul_le_mul_of_nonneg_left hres hC
    have h4 : C * (ε * τ / (2 * (C + 1))) = ε * τ / 2 * (C / (C + 1)) := by field_simp
    have h5 : C / (C + 1) ≤ 1 := by rw [div_le_one (by positivity)]; linarith
    have h6 : ε * τ / 2 * (C / (C + 1)) ≤ ε * τ / 2 := mul_le_of_le_one_right (by positivity) h5
    linarith
  have a4 := abs_sub_le (R j) (P (g.phi j)) (B (g.phi j) + ε * circleMean η (g.phi j))
  linarith

/-- C156: to second order in the amplitude of the wave, FALWA is the pseudomomentum of linear wave theory. -/
theorem C156_falwa (B B' : ℝ → ℝ) (L : ℝ) (hB : BasicState B B' L) (η : ℝ → ℝ → ℝ) (Lx Ly : ℝ) (hη : LipschitzField η Lx Ly) (r φ0 τ : ℝ) (hr : 0 < r)
    (h0 : 0 ≤ φ0) (h1 : φ0 < π / 2) (hτ : 0 < τ) :
    ∃ ε0 > 0, ∀ ε, 0 < ε → ε < ε0 → ∀ P, IsRearrangement (withWave B η ε) P → ∃ δ > 0, ∀ g : Grid ℝ, g.Valid → g.resolution * g.nlon = 360 →
      g.rsphere = r → g.resolution ≤ δ → ∀ m, KnownMethod m → (m = "boxcount" ∨ StrictMonoOn P latitudes) →
      ∃ F, g.falwa (fun j (i : Fin g.nlon) => B (g.phi j) + ε * η (g.lam i) (g.phi j)) .none m = .ok F ∧
        ∀ j : Fin g.nlat, |g.phi j| ≤ φ0 → ∀ i, ∃ v, F j i = some v ∧ |v - ε ^ 2 * pseudomomentum r B' η (g.lam i) (g.phi j)| ≤ ε ^ 2 * τ := by
  obtain ⟨ε0, hε0, H⟩ := localWaveActivity_small hB hη hr h0 h1 (half_pos hτ)
  refine ⟨ε0, hε0, fun ε hε hlt P hP => ?_⟩
  obtain ⟨δ, hδ, HC⟩ := C116_converges _ _ _ (hη.withWave hB hε.le) P hP r φ0 (ε ^ 2 * τ / 2) hr h0 h1 (by positivity)
  refine ⟨δ, hδ, fun g hg hs hgr hres m hm hcase => ?_⟩
  obtain ⟨-, F, hF, hE⟩ := HC g hg hs hgr hres m hm hcase
  refine ⟨F, hF, fun j hj i => ?_⟩
  obtain ⟨v, hv, a1⟩ := hE j hj i
  refine ⟨v, hv, ?_⟩
  have a2 := H ε hε hlt P hP (g.phi j) (abs_le.1 hj) (g.lam i)
  have a4 := abs_sub_le v (localWaveActivity r (withWave B η ε) P (g.lam i) (g.phi j)) (ε ^ 2 * pseudomomentum r B' η (g.lam i) (g.phi j))
  linarith

/-- C156: to second order in the amplitude of the wave, FAWA is the zonal mean of the pseudomomentum. -/
theorem C156_fawa (B B' : ℝ → ℝ) (L : ℝ) (hB : BasicState B B' L) (η : ℝ → ℝ → ℝ) (Lx Ly : ℝ) (hη : LipschitzField η Lx Ly) (r φ0 τ : ℝ) (hr : 0 < r)
    (h0 : 0 ≤ φ0) (h1 : φ0 < π / 2) (hτ : 0 < τ) :
    ∃ ε0 > 0, ∀ ε, 0 < ε → ε < ε0 → ∀ P, IsRearrangement (withWave B η ε) P → ∃ δ > 0, ∀ g : Grid ℝ, g.Valid → g.resolution * g.nlon = 360 →
      g.rsphere = r → g.resolution ≤ δ → ∀ m, KnownMethod m → (m = "boxcount" ∨ StrictMonoOn P latitudes) →
      ∃ W, g.fawa (fun j (i : Fin g.nlon) => B (g.phi j) + ε * η (g.lam i) (g.phi j)) .none m = .ok W ∧
        (m = "sptrapz" → g.stateFawa (fun j (i : Fin g.nlon) => B (g.phi j) + ε * η (g.lam i) (g.phi j)) = .ok W) ∧
        ∀ j : Fin g.nlat, |g.phi j| ≤ φ0 → ∃ v, W j = some v ∧ |v - ε ^ 2 * circleMean (pseudomomentum r B' η) (g.phi j)| ≤ ε ^ 2 * τ := by
  obtain ⟨ε0, hε0, H⟩ := waveActivity_small hB hη hr h0 h1 (half_pos hτ)
  refine ⟨ε0, hε0, fun ε hε hlt P hP => ?_⟩
  obtain ⟨δ, hδ, HC⟩ := C116_fawa _ _ _ (hη.withWave hB hε.le) P hP r φ0 (ε ^ 2 * τ / 2) hr h0 h1 (by positivity)
  refine ⟨δ, hδ, fun g hg hs hgr hres m hm hcase => ?_⟩
  obtain ⟨W, hW, hS, hE⟩ := HC g hg hs hgr hres m hm hcase
  refine ⟨W, hW, hS, fun j hj => ?_⟩
  obtain ⟨v, hv, a1⟩ := hE j hj
  refine ⟨v, hv, ?_⟩
  have a2 := H ε hε hlt P hP (g.phi j) (abs_le.1 hj)
  have a4 := abs_sub_le v (waveActivity r (withWave B η ε) P (g.phi j)) (ε ^ 2 * circleMean (pseudomomentum r B' η) (g.phi j))
  linarith

/-- a wave on solid-body rotation, default method of the code -/
example : ∃ ε0 > 0, ∀ ε, 0 < ε → ε < ε0 → ∃ δ > 0, ∀ g : Grid ℝ, g.Valid → g.resolution * g.nlon = 360 → g.rsphere = 1 → g.resolution ≤ δ →
    ∃ F, g.falwa (fun j (i : Fin g.nlon) => sin (g.phi j) + ε * (cos (g.phi j) ^ 2 * sin (g.lam i))) .none "sptrapz" = .ok F ∧
      ∀ j : Fin g.nlat, |g.phi j| ≤ 1 → ∀ i, ∃ v, F j i = some v ∧
        |v - ε ^ 2 * (cos (g.phi j) ^ 3 * sin (g.lam i) ^ 2 / 2)| ≤ ε ^ 2 * (1 / 1000) := by
  have hB : BasicState sin cos 1 :=
    ⟨fun φ _ φ' _ => by rw [one_mul]; exact abs_sin_sub_sin_le φ φ', fun φ _ => hasDerivAt_sin φ, continuous_cos.continuousOn,
      fun φ hφ => cos_pos_of_mem_Ioo hφ⟩
  have hN : ∀ x, ∀ φ ∈ latitudes, ∀ φ' ∈ latitudes, |cos φ ^ 2 * sin x - cos φ' ^ 2 * sin x| ≤ 2 * |sin φ - sin φ'| := by
    intro x φ _ φ' _
    rw [cos_sq', cos_sq', show (1 - sin φ ^ 2) * sin x - (1 - sin φ' ^ 2) * sin x = -((sin φ + sin φ') * sin x * (sin φ - sin φ')) by ring, abs_neg,
      abs_mul, abs_mul]
    refine mul_le_mul_of_nonneg_right ?_ (abs_nonneg _)
    have h1 := abs_add_le (sin φ) (sin φ')
    have h2 := mul_le_mul h1 (abs_sin_le_one x) (abs_nonneg _) (by positivity)
    linarith [abs_sin_le_one φ, abs_sin_le_one φ']
  have hη : LipschitzField (fun x φ => cos φ ^ 2 * sin x) 1 2 := by
    refine ⟨fun x φ _ => by rw [sin_add_two_pi], fun x x' φ _ => ?_, fun x φ hφ φ' hφ' => ?_⟩
    · rw [← mul_sub, abs_mul]
      refine mul_le_mul ?_ (abs_sin_sub_sin_le x x') (abs_nonneg _) zero_le_one
      rw [abs_pow]
      exact pow_le_one₀ (abs_nonneg _) (abs_cos_le_one φ)
    · exact (hN x φ hφ φ' hφ').trans (mul_le_mul_of_nonneg_left (abs_sin_sub_sin_le φ φ') (by norm_num))
  have h1 : (1 : ℝ) < π / 2 := by linarith [pi_gt_three]
  obtain ⟨ε0, hε0, H⟩ := C156_falwa sin cos 1 hB _ 1 2 hη 1 1 (1 / 1000) one_pos zero_le_one h1 (by norm_num)
  refine ⟨min ε0 (1 / 4), lt_min hε0 (by norm_num), fun ε hε hlt => ?_⟩
  obtain ⟨P, hP⟩ := C115_exists _ _ _ (hη.withWave hB hε.le)
  have h4 : ε < 1 / 4 := hlt.trans_le (min_le_right _ _)
  have hmono := C156_strict _ _ _ (hη.withWave hB hε.le) (C156_not_overturned sin cos 1 hB _ 2 hN ε hε.le (by linarith)) P hP
  obtain ⟨δ, hδ, HF⟩ := H ε hε (hlt.trans_le (min_le_left _ _)) P hP
  refine ⟨δ, hδ, fun g hg hs hgr hres => ?_⟩
  obtain ⟨F, hF, hE⟩ := HF g hg hs hgr hres "sptrapz" (.inr rfl) (.inr hmono)
  refine ⟨F, hF, fun j hj i => ?_⟩
  obtain ⟨v, hv, hb⟩ := hE j hj i
  refine ⟨v, hv, ?_⟩
  have hc : 0 < cos (g.phi j) := cos_pos_of_mem_Ioo ⟨by linarith [(abs_le.1 hj).1], by linarith [(abs_le.1 hj).2]⟩
  have e : pseudomomentum 1 cos (fun x φ => cos φ ^ 2 * sin x) (g.lam i) (g.phi j) = cos (g.phi j) ^ 3 * sin (g.lam i) ^ 2 / 2 := by
    unfold pseudomomentum circleMean
    rw [intervalIntegral.integral_const_mul, integral_sin, cos_two_pi, cos_zero]
    field_simp
    ring
  rwa [e] at hb

end Barotropic
