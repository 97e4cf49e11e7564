import Verif.Props.SpectralConvergence

/-!
# Smooth solutions are determined by their initial value: C126
-/

namespace Barotropic
open Real (cos sin)
open Set

/-- A smooth function whose square has no positive integral is zero (away from the poles). -/
theorem eq_zero_of_sq {A : ℝ → ℝ → ℝ} (hA : SphereSmooth A) {r : ℝ} (hr : r ≠ 0) (h : sphereIntegral r (fun x y => A x y ^ 2) ≤ 0)
    {x y : ℝ} (hx : x ∈ Icc 0 (2 * Real.pi)) (hy : y ∈ Icc (-(Real.pi / 2)) (Real.pi / 2)) (hc : cos y ≠ 0) : A x y = 0 := by
  have hp := Real.pi_pos
  have hcont : Continuous fun p : ℝ × ℝ => A p.1 p.2 ^ 2 * cos p.2 := (hA.smooth.continuous.pow 2).mul (Real.continuous_cos.comp continuous_snd)
  have hin : ∀ x, ∀ y ∈ Ioc (-(Real.pi / 2)) (Real.pi / 2), 0 ≤ A x y ^ 2 * cos y := fun x y hy =>
    mul_nonneg (sq_nonneg _) (Real.cos_nonneg_of_mem_Icc ⟨hy.1.le, hy.2⟩)
  have hI : ∀ x, 0 ≤ ∫ y in -(Real.pi / 2)..Real.pi / 2, A x y ^ 2 * cos y := fun x =>
    intervalIntegral.integral_nonneg (by linarith) fun y hy => mul_nonneg (sq_nonneg _) (Real.cos_nonneg_of_mem_Icc hy)
  by_contra hne
  have h1 : 0 < ∫ y in -(Real.pi / 2)..Real.pi / 2, A x y ^ 2 * cos y := by
    refine intervalIntegral.integral_pos (by linarith) (hcont.comp (continuous_const.prodMk continuous_id)).continuousOn (hin x) ⟨y, hy, ?_⟩
    exact mul_pos (by positivity) (lt_of_le_of_ne (Real.cos_nonneg_of_mem_Icc hy) hc.symm)
  have hIc : Continuous fun x => ∫ y in -(Real.pi / 2)..Real.pi / 2, A x y ^ 2 * cos y :=
    intervalIntegral.continuous_parametric_intervalIntegral_of_continuous' (f := fun x y => A x y ^ 2 * cos y) hcont _ _
  have h2 : 0 < ∫ x in (0 : ℝ)..2 * Real.pi, ∫ y in -(Real.pi / 2)..Real.pi / 2, A x y ^ 2 * cos y :=
    intervalIntegral.integral_pos (by linarith) hIc.continuousOn (fun x _ => hI x) ⟨x, hx, h1⟩
  have : 0 < sphereIntegral r fun x y => A x y ^ 2 := mul_pos (by positivity) h2
  linarith

/-- Every point of the sphere has a longitude between 0 and 2π and a latitude between -π/2 and π/2. -/
theorem spacetime_reduce (t x y : ℝ) : ∃ x' ∈ Icc 0 (2 * Real.pi), ∃ y' ∈ Icc (-(Real.pi / 2)) (Real.pi / 2), spacetime t x' y' = spacetime t x y ∧
    (cos y ≠ 0 → cos y' ≠ 0) := by
  have hp := Real.pi_pos
  have red : ∀ x : ℝ, ∃ x' ∈ Icc 0 (2 * Real.pi), cos x' = cos x ∧ sin x' = sin x := fun x => by
    refine ⟨toIcoMod Real.two_pi_pos 0 x, ?_, ?_, ?_⟩
    · have := toIcoMod_mem_Ico Real.two_pi_pos 0 x
      rw [zero_add] at this
      exact ⟨this.1, this.2.le⟩
    · rw [toIcoMod, zsmul_eq_mul, Real.cos_sub_int_mul_two_pi]
    · rw [toIcoMod, zsmul_eq_mul, Real.sin_sub_int_mul_two_pi]
  have hs := Real.neg_one_le_sin y
  have hs' := Real.sin_le_one y
  have hsin := Real.sin_arcsin hs hs'
  have hcos : cos (Real.arcsin (sin y)) = |cos y| := by
    rw [Real.cos_arcsin, ← Real.abs_cos_eq_sqrt_one_sub_sin_sq]
  rcases le_total 0 (cos y) with h | h
  · obtain ⟨x', hx', c, s⟩ := red x
    refine ⟨x', hx', Real.arcsin (sin y), Real.arcsin_mem_Icc _, ?_, ?_⟩
    · unfold spacetime
      rw [hsin, hcos, abs_of_nonneg h, c, s]
    · rw [hcos]; exact fun h => abs_ne_zero.2 h
  · obtain ⟨x', hx', c, s⟩ := red (x + Real.pi)
    rw [Real.cos_add_pi] at c
    rw [Real.sin_add_pi] at s
    refine ⟨x', hx', Real.arcsin (sin y), Real.arcsin_mem_Icc _, ?_, ?_⟩
    · unfold spacetime
      rw [hsin, hcos, abs_of_nonpos h, c, s, neg_mul_neg, neg_mul_neg]
    · rw [hcos]; exact fun h => abs_ne_zero.2 h

theorem onSphere_eq_of_sqDist {F G : (Fin 4 → ℝ) → ℝ} (hF : ContDiff ℝ (⊤ : ℕ∞) F) (hG : ContDiff ℝ (⊤ : ℕ∞) G) {r : ℝ} (hr : r ≠ 0) {t : ℝ}
    (h : sqDist r (onSphere F t) (onSphere G t) ≤ 0) {x y : ℝ} (hy : cos y ≠ 0) : onSphere F t x y = onSphere G t x y := by
  obtain ⟨x', hx', y', hy', e, hc⟩ := spacetime_reduce t x y
  have := eq_zero_of_sq ((onSphere_smooth hF t).sub (onSphere_smooth hG t)) hr h hx' hy' (hc hy)
  unfold onSphere at this ⊢
  rw [e] at this
  linarith

/-- C126: absolute vorticity of smooth solutions is determined by its initial value. -/
theorem C126_vorticity {r Ω ν W t0 t1 : ℝ} {order : ℕ} {Ψ Φ : ℝ → ℝ → ℝ → ℝ} (hr : 0 < r) (hν : 0 ≤ ν) (hW : W = 0 ∨ W = Ω)
    (hΨ : SmoothSolution r Ω ν order W t0 t1 Ψ) (hΦ : SmoothSolution r Ω ν order W t0 t1 Φ)
    (h0 : ∀ x y, cos y ≠ 0 → absVort r Ω (Ψ t0) x y = absVort r Ω (Φ t0) x y) :
    ∀ t ∈ Icc t0 t1, ∀ x y, cos y ≠ 0 → absVort r Ω (Ψ t) x y = absVort r Ω (Φ t) x y := by
  intro t ht
  have ht01 : t0 ≤ t1 := ht.1.trans ht.2
  obtain ⟨F, hF, hΨF⟩ := hΨ.smooth
  obtain ⟨G, hG, hΦG⟩ := hΦ.smooth
  have eF : ∀ t x y, cos y ≠ 0 → absVort r Ω (Ψ t) x y = onSphere (vort r Ω F) t x y := fun t x y hy => by
    rw [← absVort_onSphere hF r Ω _ x hy]
    congr 1
    funext x y
    exact hΨF _ x y
  have eG : ∀ t x y, cos y ≠ 0 → absVort r Ω (Φ t) x y = onSphere (vort r Ω G) t x y := fun t x y hy => by
    rw [← absVort_onSphere hG r Ω _ x hy]
    congr 1
    funext x y
    exact hΦG _ x y
  have sF := fun t => onSphere_smooth (vort_smooth r Ω hF) t
  have sG := fun t => onSphere_smooth (vort_smooth r Ω hG) t
  have dF : ∀ A t, sqDist r A (absVort r Ω (Ψ t)) = sqDist r A (onSphere (vort r Ω F) t) := fun A t =>
    sphereIntegral_congr r fun x y hy => by rw [eF t x y hy]
  have dG : ∀ A t, sqDist r A (absVort r Ω (Φ t)) = sqDist r A (onSphere (vort r Ω G) t) := fun A t =>
    sphereIntegral_congr r fun x y hy => by rw [eG t x y hy]
  have key : ∀ η > 0, sqDist r (onSphere (vort r Ω F) t) (onSphere (vort r Ω G) t) ≤ η := by
    intro η hη
    obtain ⟨T1, ε1, hε1, k1⟩ := C121_truncation hν hΨ ht01 (show 0 < η / 4 by positivity)
    obtain ⟨T2, ε2, hε2, k2⟩ := C121_truncation hν hΦ ht01 (show 0 < η / 4 by positivity)
    obtain ⟨T3, ε3, hε3, k3⟩ := C121_truncation hν hΨ ht01 (lt_min hε1 hε2)
    obtain ⟨g, S, hg, g1, g2, g3, g4, h⟩ := C121_grids hr Ω (max T1 (max T2 T3))
    obtain ⟨M, hM1, hM2, hM3, hM4⟩ : ∃ M : BModel g, M.rhs = none ∧ M.diffusionCoeff = ν ∧ M.diffusionOrder = order ∧ M.DiffusesAround W := by
      rcases hW with h | h
      · exact ⟨⟨none, order, ν, none⟩, rfl, rfl, rfl, .inl ⟨rfl, h⟩⟩
      · exact ⟨⟨none, order, ν, some g.fcor2⟩, rfl, rfl, rfl, .inr ⟨rfl, h.trans g2.symm⟩⟩
    obtain ⟨h1, -, s1⟩ := k1 (M := M) hg g1 g2 (by rw [g3]; exact le_max_left _ _) g4 h hM2 hM3 hM4
    obtain ⟨-, -, s2⟩ := k2 (M := M) hg g1 g2 (by rw [g3]; exact (le_max_left _ _).trans (le_max_right _ _)) g4 h hM2 hM3 hM4
    obtain ⟨-, ⟨q, hq⟩, s3⟩ := k3 (M := M) hg g1 g2 (by rw [g3]; exact (le_max_right _ _).trans (le_max_right _ _)) g4 h hM2 hM3 hM4
    obtain ⟨-, hL, hGr⟩ := unforced (g := g) hM1 t0 t1
    obtain ⟨Y, hY, hY0, -⟩ := C120_exists (M := M) hg h h1 g4 (hM2 ▸ hν) ht01 hL hGr q
    have a0 := s3 Y hY (by rw [hY0]; exact hq) t0 ⟨le_rfl, ht01⟩
    have a1 := s1 Y hY (a0.le.trans (min_le_left _ _)) t ht
    have e0 : sqDist r (harmonicSum (fun _ _ => 1) (Y t0)) (absVort r Ω (Φ t0)) = sqDist r (harmonicSum (fun _ _ => 1) (Y t0)) (absVort r Ω (Ψ t0)) :=
      sphereIntegral_congr r fun x y hy => by rw [h0 x y hy]
    have a2 := s2 Y hY (by rw [e0]; exact a0.le.trans (min_le_right _ _)) t ht
    rw [dF] at a1
    rw [dG] at a2
    rw [sqDist_comm] at a1
    have := sqDist_triangle (r := r) (sF t) (harmonicSum_smooth (N := fun _ _ => 1) (Y t)) (sG t)
    linarith
  have hz : sqDist r (onSphere (vort r Ω F) t) (onSphere (vort r Ω G) t) ≤ 0 := le_of_forall_pos_le_add fun η hη => by
    rw [zero_add]; exact key η hη
  intro x y hy
  rw [eF t x y hy, eG t x y hy]
  exact onSphere_eq_of_sqDist (vort_smooth r Ω hF) (vort_smooth r Ω hG) hr.ne' hz hy

/-- Smooth functions with Laplacian zero are constant. -/
theorem onSphere_const {F : (Fin 4 → ℝ) → ℝ} (hF : ContDiff ℝ (⊤ : ℕ∞) F) {r : ℝ} (hr : r ≠ 0) {t : ℝ}
    (h : ∀ x y, cos y ≠ 0 → sphereLaplacian r (onSphere F t) x y = 0) : ∃ c, ∀ x y, onSphere F t x y = c := by
  have hp := Real.pi_pos
  have sE : SphereSmooth fun x y => east F t x y / r := by
    simp only [div_eq_inv_mul]
    exact (SphereSmooth.lat contDiff_const).mul (east_smooth hF t)
  have sN : SphereSmooth fun x y => north F t x y / r := by
    simp only [div_eq_inv_mul]
    exact (SphereSmooth.lat contDiff_const).mul (north_smooth hF t)
  have hz : SphereSmooth fun _ _ => (0 : ℝ) := .lat contDiff_const
  have hgreen := sphereIntegral_green (onSphere_smooth hF t) sE sN hz sE sN hr (fun x y hy => sphereGrad_onSphere hF r t x hy) (fun x y hy => by
    refine Eq.trans ?_ (h x y hy)
    exact sphereDiv_congr r x hy fun x y hy => by rw [sphereGrad_onSphere hF r t x hy]; exact ⟨rfl, rfl⟩)
  have h0 : sphereIntegral r (fun x y => (north F t x y / r) ^ 2) ≤ 0 := by
    refine (sphereIntegral_mono (sN.pow 2) ((sE.mul sE).add (sN.mul sN)) r fun x y _ => ?_).trans (hgreen.le.trans (le_of_eq ?_))
    · nlinarith [mul_self_nonneg (east F t x y / r)]
    · simp [sphereIntegral]
  refine ⟨F ![t, 0, 0, 1], fun x y => ?_⟩
  obtain ⟨x', hx', y', hy', e, -⟩ := spacetime_reduce t x y
  have e1 : onSphere F t x y = onSphere F t x' y' := by unfold onSphere; rw [e]
  have e2 : F ![t, 0, 0, 1] = onSphere F t x' (Real.pi / 2) := by
    unfold onSphere spacetime
    rw [Real.cos_pi_div_two, Real.sin_pi_div_two, zero_mul, zero_mul]
  rw [e1, e2]
  rcases hy'.2.eq_or_lt with hl | hl
  · rw [hl]
  · obtain ⟨c, hc, hslope⟩ := exists_hasDerivAt_eq_slope (fun y => onSphere F t x' y) (fun y => north F t x' y) hl
      (fun y _ => (onSphere_lat hF t x' y).continuousAt.continuousWithinAt) (fun y _ => onSphere_lat hF t x' y)
    have hn := eq_zero_of_sq sN hr h0 hx' ⟨by linarith [hy'.1, hc.1], hc.2.le⟩
      (Real.cos_pos_of_mem_Ioo ⟨by linarith [hy'.1, hc.1], hc.2⟩).ne'
    have hn' : north F t x' c = 0 := (div_eq_zero_iff.mp hn).resolve_right hr
    rw [hn', eq_comm, div_eq_zero_iff] at hslope
    rcases hslope with h1 | h1 <;> linarith

theorem pd_sub {F G : (Fin 4 → ℝ) → ℝ} (hF : ContDiff ℝ (⊤ : ℕ∞) F) (hG : ContDiff ℝ (⊤ : ℕ∞) G) (i : Fin 4) :
    pd i (fun p => F p - G p) = fun p => pd i F p - pd i G p := by
  funext p
  unfold pd
  rw [fderiv_fun_sub (hF.differentiable (by simp) p) (hG.differentiable (by simp) p)]
  rfl

theorem lapl_sub {F G : (Fin 4 → ℝ) → ℝ} (hF : ContDiff ℝ (⊤ : ℕ∞) F) (hG : ContDiff ℝ (⊤ : ℕ∞) G) :
    lapl (fun p => F p - G p) = fun p => lapl F p - lapl G p := by
  funext p
  unfold lapl
  simp only [pd_sub hF hG, pd_sub (pd_smooth hF _) (pd_smooth hG _)]
  ring

/-- C126: the streamfunction of smooth solutions is determined up to a constant at each time, the wind is determined. -/
theorem C126_unique {r Ω ν W t0 t1 : ℝ} {order : ℕ} {Ψ Φ : ℝ → ℝ → ℝ → ℝ} (hr : 0 < r) (hν : 0 ≤ ν) (hW : W = 0 ∨ W = Ω)
    (hΨ : SmoothSolution r Ω ν order W t0 t1 Ψ) (hΦ : SmoothSolution r Ω ν order W t0 t1 Φ)
    (h0 : ∀ x y, cos y ≠ 0 → absVort r Ω (Ψ t0) x y = absVort r Ω (Φ t0) x y) :
    ∀ t ∈ Icc t0 t1, (∃ c, ∀ x y, Ψ t x y = Φ t x y + c) ∧ sphereGrad r (Ψ t) = sphereGrad r (Φ t) := by
  intro t ht
  obtain ⟨F, hF, hΨF⟩ := hΨ.smooth
  obtain ⟨G, hG, hΦG⟩ := hΦ.smooth
  have hv := C126_vorticity hr hν hW hΨ hΦ h0 t ht
  have hΨt : Ψ t = onSphere F t := by funext x y; exact hΨF t x y
  have hΦt : Φ t = onSphere G t := by funext x y; exact hΦG t x y
  obtain ⟨c, hc⟩ := onSphere_const (hF.sub hG) hr.ne' (t := t) fun x y hy => by
    have := hv x y hy
    unfold absVort at this
    rw [hΨt, hΦt, sphereLaplacian_onSphere hF r t x hy, sphereLaplacian_onSphere hG r t x hy] at this
    rw [sphereLaplacian_onSphere (hF.sub hG) r t x hy, lapl_sub hF hG]
    show (onSphere (lapl F) t x y - onSphere (lapl G) t x y) / r ^ 2 = 0
    rw [sub_div]
    linarith
  have key : ∀ x y, Ψ t x y = Φ t x y + c := fun x y => by
    have := hc x y
    rw [hΨt, hΦt]
    change onSphere F t x y - onSphere G t x y = c at this
    linarith
  refine ⟨⟨c, key⟩, ?_⟩
  funext x y
  unfold sphereGrad dlon dlat
  simp only [key, deriv_add_const]

/-- Non-vacuity: the damped wave is the only solution with its initial value. -/
example {Φ : ℝ → ℝ → ℝ → ℝ} (hΦ : SmoothSolution 1 1 (1 / 100) 2 1 0 10 Φ)
    (h0 : ∀ x y, cos y ≠ 0 → absVort 1 1 (fun x y => cos y * cos x) x y = absVort 1 1 (Φ 0) x y) :
    ∃ c, ∀ x y, Real.exp (-(1 / 100 * (2 / 1 ^ 2) ^ 2 * 10)) * cos y * cos (x + 1 * 10) = Φ 10 x y + c :=
  (C126_unique one_pos (by norm_num) (.inr rfl) (damped_wave one_ne_zero 1 (1 / 100) 2 0 10) hΦ (by simpa using h0) 10 (by norm_num)).1

end Barotropic
