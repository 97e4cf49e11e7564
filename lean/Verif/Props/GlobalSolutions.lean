import Verif.Lemmas.GlobalOde
import Verif.Props.Galerkin
import Mathlib.Topology.UniformSpace.HeineCantor

/-!
# Solutions for all times: C120
-/

namespace Barotropic
open Real (cos sin)
open Set

variable {T : ℕ} {N : ℕ → ℕ → ℝ} {g : Grid ℝ} {S : g.Sph} {M : BModel g}

/-! ## Bound of the solutions -/

theorem solution_rate (R : ℝ → g.Spc → g.Fld) (t : ℝ) (q : g.Spc) :
    galerkinRate S R t q + M.damping S q = M.source S R t q - (⟨t, q⟩ : St ℝ g).pvFluxSpectral S := by
  rw [galerkinRate_eq]
  unfold BModel.source
  abel

/-- Sum of the squares of the coefficients, weighted with the norms of the harmonics -/
noncomputable def modeSq (r : ℝ) (N : ℕ → ℕ → ℝ) (q : SpecField T) : ℝ := ∑ k, modeNorm r N k * ((q k).re * (q k).re + (q k).im * (q k).im)

theorem modeSq_deriv (r : ℝ) {P : ℝ → SpecField T} {P' : SpecField T} {I : Set ℝ} {t : ℝ} (hP : HasDerivWithinAt P P' I t) :
    HasDerivWithinAt (fun t => modeSq r N (P t)) (∑ k, modeNorm r N k * (2 * ((P t k).re * (P' k).re + (P t k).im * (P' k).im))) I t := by
  have re : ∀ k, HasDerivWithinAt (fun t => (P t k).re) (P' k).re I t := fun k =>
    Complex.reCLM.hasFDerivAt.comp_hasDerivWithinAt t (hasDerivWithinAt_pi.mp hP k)
  have im : ∀ k, HasDerivWithinAt (fun t => (P t k).im) (P' k).im I t := fun k =>
    Complex.imCLM.hasFDerivAt.comp_hasDerivWithinAt t (hasDerivWithinAt_pi.mp hP k)
  unfold modeSq
  refine HasDerivWithinAt.fun_sum fun k _ => HasDerivWithinAt.const_mul _ ?_
  exact (((re k).mul (re k)).add ((im k).mul (im k))).congr_deriv (by ring)

theorem modeSq_nonneg {r : ℝ} (hr : r ≠ 0) (hN : ∀ n m, N n m ≠ 0) (q : SpecField T) : 0 ≤ modeSq r N q :=
  Finset.sum_nonneg fun k _ => mul_nonneg (modeNorm_pos hr hN k).le (add_nonneg (mul_self_nonneg _) (mul_self_nonneg _))

theorem norm_sq_le_modeSq {r : ℝ} (hr : r ≠ 0) (hN : ∀ n m, N n m ≠ 0) (q : SpecField T) :
    ‖q‖ ^ 2 ≤ (∑ k : Fin (nspec T), 1 / modeNorm r N k) * modeSq r N q := by
  have hp := fun k : Fin (nspec T) => modeNorm_pos hr hN k
  have hA : 0 ≤ ∑ k : Fin (nspec T), 1 / modeNorm r N k := Finset.sum_nonneg fun k _ => (one_div_pos.mpr (hp k)).le
  have key : ∀ k, ‖q k‖ ^ 2 ≤ (∑ k : Fin (nspec T), 1 / modeNorm r N k) * modeSq r N q := by
    intro k
    have e : ‖q k‖ ^ 2 = (q k).re * (q k).re + (q k).im * (q k).im := by
      rw [← Complex.normSq_eq_norm_sq, Complex.normSq_apply]
    have h1 : modeNorm r N k * ‖q k‖ ^ 2 ≤ modeSq r N q := by
      rw [e]
      exact Finset.single_le_sum (f := fun k => modeNorm r N k * ((q k).re * (q k).re + (q k).im * (q k).im))
        (fun k _ => mul_nonneg (hp k).le (add_nonneg (mul_self_nonneg _) (mul_self_nonneg _))) (Finset.mem_univ k)
    have h2 : 1 / modeNorm r N k ≤ ∑ k : Fin (nspec T), 1 / modeNorm r N k :=
      Finset.single_le_sum (f := fun k : Fin (nspec T) => 1 / modeNorm r N k) (fun k _ => (one_div_pos.mpr (hp k)).le) (Finset.mem_univ k)
    calc ‖q k‖ ^ 2 = 1 / modeNorm r N k * (modeNorm r N k * ‖q k‖ ^ 2) := by
          rw [← mul_assoc, one_div_mul_cancel (hp k).ne', one_mul]
      _ ≤ _ := mul_le_mul h2 h1 (mul_nonneg (hp k).le (sq_nonneg _)) hA
  have hB := mul_nonneg hA (modeSq_nonneg hr hN q)
  have : ‖q‖ ≤ Real.sqrt ((∑ k : Fin (nspec T), 1 / modeNorm r N k) * modeSq r N q) := by
    rw [pi_norm_le_iff_of_nonneg (Real.sqrt_nonneg _)]
    exact fun k => Real.le_sqrt_of_sq_le (key k)
  calc ‖q‖ ^ 2 ≤ Real.sqrt ((∑ k : Fin (nspec T), 1 / modeNorm r N k) * modeSq r N q) ^ 2 := pow_le_pow_left₀ (norm_nonneg _) this 2
    _ = _ := Real.sq_sqrt hB

/-- The flux does not change the sum of squares. -/
theorem flux_orthogonal (hg : g.Valid) (h : Spharm.Dealiased N S) (h1 : 1 ≤ g.ntrunc) (hT : 2 * g.ntrunc + 1 ≤ g.nlat) {τ : Type} (s : St τ g) :
    ∑ k, modeNorm g.rsphere N k * ((s.q k).re * (s.pvFluxSpectral S k).re + (s.q k).im * (s.pvFluxSpectral S k).im) = 0 := by
  obtain ⟨-, r2, -⟩ := C119_rates hg h h1 hT s
  obtain ⟨-, -, -, -, -, -, -, hreal, -⟩ := dealiased_flow hg h h1 hT s
  unfold St.pvFn St.fluxFn at r2
  rw [parseval hg.rsphere_pos.ne'] at r2
  rw [← r2]
  refine Finset.sum_congr rfl fun k _ => ?_
  unfold modeDot
  split_ifs with hm
  · rw [hreal k hm, mul_zero]
  · rfl

theorem source_growth (hS : S.IsLinear) (hν : 0 ≤ M.diffusionCoeff) {R : ℝ → g.Spc → g.Fld} {t0 t1 : ℝ} (hG : LinearGrowth R t0 t1) :
    ∃ A, 0 ≤ A ∧ ∀ t ∈ Icc t0 t1, ∀ q, ‖M.source S R t q‖ ≤ A * (1 + ‖q‖) := by
  obtain ⟨A, hA⟩ := hG
  obtain ⟨c, hc, hc'⟩ := linear_bound S.grdtospec hS.grdtospec_add hS.grdtospec_smul
  obtain ⟨K, hK, hd⟩ := damping_lipschitz (S := S) hν
  refine ⟨c * |A| + K + ‖M.damping S 0‖, by positivity, fun t ht q => ?_⟩
  have n1 : ‖S.grdtospec (R t q)‖ ≤ c * (|A| * (1 + ‖q‖)) :=
    (hc' _).trans (mul_le_mul_of_nonneg_left ((hA t ht q).trans (mul_le_mul_of_nonneg_right (le_abs_self A) (by positivity))) hc)
  have n2 : ‖M.damping S q‖ ≤ K * ‖q‖ + ‖M.damping S 0‖ := by
    have h1 := norm_add_le (M.damping S q - M.damping S 0) (M.damping S 0)
    rw [sub_add_cancel] at h1
    have h2 := hd q 0
    rw [sub_zero] at h2
    linarith
  have n3 : 0 ≤ ‖M.damping S 0‖ * ‖q‖ := by positivity
  refine (norm_add_le _ _).trans ?_
  linarith

/-- All solutions with the same initial value have a common bound. -/
theorem solution_bound (hg : g.Valid) (h : Spharm.Dealiased N S) (h1 : 1 ≤ g.ntrunc) (hT : 2 * g.ntrunc + 1 ≤ g.nlat) (hν : 0 ≤ M.diffusionCoeff)
    {R : ℝ → g.Spc → g.Fld} {t0 t1 : ℝ} (hG : LinearGrowth R t0 t1) (q : g.Spc) :
    ∃ B, ∀ t2 ∈ Icc t0 t1, ∀ Y : ℝ → g.Spc, Y t0 = q → M.Solution S R t0 t2 Y → ∀ t ∈ Icc t0 t2, ‖Y t‖ ≤ B := by
  have hr := hg.rsphere_pos.ne'
  have hN := h.exact.norm_ne
  obtain ⟨A, hA, hX⟩ := source_growth (S := S) h.exact.linear hν hG
  have hp := fun k : Fin (nspec g.ntrunc) => modeNorm_pos hr hN k
  obtain ⟨C, hC⟩ : ∃ C, C = ∑ k : Fin (nspec g.ntrunc), modeNorm g.rsphere N k := ⟨_, rfl⟩
  obtain ⟨I, hI⟩ : ∃ I, I = ∑ k : Fin (nspec g.ntrunc), 1 / modeNorm g.rsphere N k := ⟨_, rfl⟩
  have hC0 : 0 ≤ C := hC ▸ Finset.sum_nonneg fun k _ => (hp k).le
  have hI0 : 0 ≤ I := hI ▸ Finset.sum_nonneg fun k _ => (one_div_pos.mpr (hp k)).le
  have hgc : Continuous fun x => gronwallBound (modeSq g.rsphere N q) (8 * C * A * I) (4 * C * A) (x - t0) :=
    continuous_iff_continuousAt.mpr fun x => (hasDerivAt_gronwallBound_shift _ _ _ x t0).continuousAt
  obtain ⟨G, hG⟩ := (isCompact_Icc (a := t0) (b := t1)).exists_bound_of_continuousOn hgc.continuousOn
  refine ⟨Real.sqrt (I * G), fun t2 ht2 Y hY0 hY t ht => Real.le_sqrt_of_sq_le ?_⟩
  have hd : ∀ t ∈ Icc t0 t2, HasDerivWithinAt (fun t => modeSq g.rsphere N (Y t))
      (∑ k, modeNorm g.rsphere N k * (2 * ((Y t k).re * (M.source S R t (Y t) k).re + (Y t k).im * (M.source S R t (Y t) k).im))) (Icc t0 t2) t := by
    intro t ht
    have hYt := hY t ht
    rw [solution_rate] at hYt
    refine (modeSq_deriv (N := N) g.rsphere hYt).congr_deriv ?_
    have e := flux_orthogonal hg h h1 hT (⟨t, Y t⟩ : St ℝ g)
    have : ∀ k, modeNorm g.rsphere N k * (2 * ((Y t k).re * ((M.source S R t (Y t) - (⟨t, Y t⟩ : St ℝ g).pvFluxSpectral S) k).re +
        (Y t k).im * ((M.source S R t (Y t) - (⟨t, Y t⟩ : St ℝ g).pvFluxSpectral S) k).im)) =
        modeNorm g.rsphere N k * (2 * ((Y t k).re * (M.source S R t (Y t) k).re + (Y t k).im * (M.source S R t (Y t) k).im)) -
        2 * (modeNorm g.rsphere N k * ((Y t k).re * ((⟨t, Y t⟩ : St ℝ g).pvFluxSpectral S k).re +
          (Y t k).im * ((⟨t, Y t⟩ : St ℝ g).pvFluxSpectral S k).im)) := fun k => by
      rw [Pi.sub_apply, Complex.sub_re, Complex.sub_im]
      ring
    rw [Finset.sum_congr rfl fun k _ => this k, Finset.sum_sub_distrib, ← Finset.mul_sum, e, mul_zero, sub_zero]
  have hbd : ∀ t ∈ Ico t0 t2,
      ‖∑ k, modeNorm g.rsphere N k * (2 * ((Y t k).re * (M.source S R t (Y t) k).re + (Y t k).im * (M.source S R t (Y t) k).im))‖ ≤
        8 * C * A * I * ‖modeSq g.rsphere N (Y t)‖ + 4 * C * A := by
    intro t ht
    have hx := hX t ⟨ht.1, ht.2.le.trans ht2.2⟩ (Y t)
    have hterm : ∀ k, ‖modeNorm g.rsphere N k * (2 * ((Y t k).re * (M.source S R t (Y t) k).re + (Y t k).im * (M.source S R t (Y t) k).im))‖ ≤
        modeNorm g.rsphere N k * (4 * (‖Y t‖ * (A * (1 + ‖Y t‖)))) := by
      intro k
      rw [norm_mul, Real.norm_of_nonneg (hp k).le]
      refine mul_le_mul_of_nonneg_left ?_ (hp k).le
      have a1 : |(Y t k).re * (M.source S R t (Y t) k).re| ≤ ‖Y t‖ * (A * (1 + ‖Y t‖)) := by
        rw [abs_mul]
        exact mul_le_mul ((Complex.abs_re_le_norm _).trans (norm_le_pi_norm _ k)) ((Complex.abs_re_le_norm _).trans ((norm_le_pi_norm _ k).trans hx))
          (abs_nonneg _) (norm_nonneg _)
      have a2 : |(Y t k).im * (M.source S R t (Y t) k).im| ≤ ‖Y t‖ * (A * (1 + ‖Y t‖)) := by
        rw [abs_mul]
        exact mul_le_mul ((Complex.abs_im_le_norm _).trans (norm_le_pi_norm _ k)) ((Complex.abs_im_le_norm _).trans ((norm_le_pi_norm _ k).trans hx))
          (abs_nonneg _) (norm_nonneg _)
      rw [Real.norm_eq_abs, abs_mul, abs_two]
      have := abs_add_le ((Y t k).re * (M.source S R t (Y t) k).re) ((Y t k).im * (M.source S R t (Y t) k).im)
      linarith
    refine (norm_sum_le _ _).trans ((Finset.sum_le_sum fun k _ => hterm k).trans ?_)
    rw [← Finset.sum_mul, ← hC, Real.norm_of_nonneg (modeSq_nonneg hr hN _)]
    have hsq := norm_sq_le_modeSq hr hN (Y t)
    rw [← hI] at hsq
    have e1 : ‖Y t‖ * (1 + ‖Y t‖) ≤ 1 + 2 * ‖Y t‖ ^ 2 := by nlinarith [sq_nonneg (‖Y t‖ - 1)]
    have e2 : ‖Y t‖ * (1 + ‖Y t‖) ≤ 1 + 2 * (I * modeSq g.rsphere N (Y t)) := by linarith
    calc C * (4 * (‖Y t‖ * (A * (1 + ‖Y t‖)))) = 4 * C * A * (‖Y t‖ * (1 + ‖Y t‖)) := by ring
      _ ≤ 4 * C * A * (1 + 2 * (I * modeSq g.rsphere N (Y t))) := mul_le_mul_of_nonneg_left e2 (by positivity)
      _ = _ := by ring
  have main := norm_le_gronwallBound_of_norm_deriv_right_le (fun t ht => (hd t ht).continuousWithinAt)
    (fun t ht => (hd t (Ico_subset_Icc_self ht)).mono_of_mem_nhdsWithin (Filter.mem_of_superset (Icc_mem_nhdsGE ht.2) (Icc_subset_Icc_left ht.1)))
    (δ := modeSq g.rsphere N q) (by rw [hY0, Real.norm_of_nonneg (modeSq_nonneg hr hN _)]) hbd t ht
  rw [Real.norm_of_nonneg (modeSq_nonneg hr hN _)] at main
  have hsq := norm_sq_le_modeSq hr hN (Y t)
  rw [← hI] at hsq
  refine hsq.trans (mul_le_mul_of_nonneg_left (main.trans ((le_abs_self _).trans ?_)) hI0)
  exact hG t ⟨ht.1, ht.2.trans ht2.2⟩

/-- C120: without aliasing, and with forcing that grows at most linearly, there is exactly one solution for every initial state and every
interval of time. -/
theorem C120_exists (hg : g.Valid) (h : Spharm.Dealiased N S) (h1 : 1 ≤ g.ntrunc) (hT : 2 * g.ntrunc + 1 ≤ g.nlat) (hν : 0 ≤ M.diffusionCoeff)
    {R : ℝ → g.Spc → g.Fld} {t0 t1 : ℝ} (ht : t0 ≤ t1) (hR : LipschitzForcing R t0 t1) (hG : LinearGrowth R t0 t1) (q : g.Spc) :
    ∃ Y, M.Solution S R t0 t1 Y ∧ Y t0 = q ∧ ∀ Z, M.Solution S R t0 t1 Z → Z t0 = q → ∀ t ∈ Icc t0 t1, Z t = Y t := by
  obtain ⟨B, hB⟩ := solution_bound (M := M) hg h h1 hT hν hG q
  obtain ⟨Y, h0, hY⟩ := exists_global (v := fun t q => galerkinRate S R t q + M.damping S q) ht (fun B => by
    obtain ⟨L, hL, hlip⟩ := rate_lipschitz h.exact.linear hR B
    obtain ⟨K, hK, hdamp⟩ := damping_lipschitz (M := M) (S := S) hν
    refine ⟨L + K, by positivity, fun t ht t' ht' q q' hq hq' => ?_⟩
    have h1 := hlip t ht t' ht' q q' hq hq'
    have h2 := hdamp q q'
    have h3 := norm_add_le (galerkinRate S R t q - galerkinRate S R t' q') (M.damping S q - M.damping S q')
    rw [show galerkinRate S R t q + M.damping S q - (galerkinRate S R t' q' + M.damping S q') =
      (galerkinRate S R t q - galerkinRate S R t' q') + (M.damping S q - M.damping S q') by abel]
    have h4 : 0 ≤ K * |t - t'| := by positivity
    linarith) hB
  exact ⟨Y, hY, h0, fun Z hZ h0' t ht => C114_unique h.exact.linear hν hR hZ hY (h0'.trans h0.symm) t ht⟩

/-- C120: one solution for all times, to which the states returned by `run` converge when the time step decreases, on every interval. -/
theorem C120_converges (hg : g.Valid) (h : Spharm.Dealiased N S) (h1 : 1 ≤ g.ntrunc) (hT : 2 * g.ntrunc + 1 ≤ g.nlat) (hν : 0 ≤ M.diffusionCoeff)
    {R : ℝ → g.Spc → g.Fld} (hM : M.ForcedBy R) (s : St PyTime g) (hR : ∀ t1, LipschitzForcing R s.time.sec t1) (hG : ∀ t1, LinearGrowth R s.time.sec t1) :
    ∃ Y, Y s.time.sec = s.q ∧ (∀ t1, M.Solution S R s.time.sec t1 Y) ∧ ∀ t1, ∀ η > 0, ∃ δ > 0,
      ∀ (dt : PyDelta) (tend : PyTime) (se : ℝ), s.time.Compatible dt → s.time.SameKind tend → 0 < toSeconds dt → toSeconds dt < δ →
      s.time.sec ≤ tend.sec → tend.sec ≤ t1 → (se ≤ 0 ∨ ∃ x, s.time = .num x) →
      ∃ sf saved, M.Returns S s dt tend se sf saved ∧ tend.sec ≤ sf.time.sec ∧ ∀ w ∈ sf :: saved, w.time.sec ∈ Icc s.time.sec (t1 + 1) ∧
        ‖w.q - Y w.time.sec‖ < η ∧ ‖w.pv S - S.spectogrd (Y w.time.sec)‖ < η := by
  choose Z hZ hZ0 hZu using fun t1 : {t1 // s.time.sec ≤ t1} => C120_exists (M := M) hg h h1 hT hν t1.2 (hR t1) (hG t1) s.q
  obtain ⟨Y, hYdef⟩ : ∃ Y : ℝ → g.Spc, ∀ t, Y t = Z ⟨max s.time.sec t, le_max_left _ _⟩ t := ⟨_, fun _ => rfl⟩
  have hYZ : ∀ t1 : {t1 // s.time.sec ≤ t1}, ∀ t ∈ Icc s.time.sec t1, Y t = Z t1 t := by
    intro t1 t ht
    rw [hYdef]
    refine (hZu ⟨max s.time.sec t, le_max_left _ _⟩ (Z t1) (fun t' ht' => ?_) (hZ0 t1) t ⟨ht.1, le_max_right _ _⟩).symm
    have hs : Icc s.time.sec (max s.time.sec t) ⊆ Icc s.time.sec t1 := Icc_subset_Icc_right (max_le (ht.1.trans ht.2) ht.2)
    exact (hZ t1 t' (hs ht')).mono hs
  have hsol : ∀ t1, M.Solution S R s.time.sec t1 Y := by
    intro t1 t ht
    have e := hYZ ⟨t1, ht.1.trans ht.2⟩
    rw [e t ht]
    exact (hZ ⟨t1, ht.1.trans ht.2⟩ t ht).congr e (e t ht)
  have hY0 : Y s.time.sec = s.q := by
    rw [hYdef]
    exact hZ0 _
  refine ⟨Y, hY0, hsol, fun t1 η hη => ?_⟩
  by_cases hle : s.time.sec ≤ t1
  · exact converges_of_solution h.exact.linear hν hM s hle (lt_add_one t1) (hR _) (hsol _) hY0 η hη
  · exact ⟨1, one_pos, fun dt tend se _ _ _ _ h1 h2 => absurd (h1.trans h2) hle⟩

/-! ## Invariants of the flow in the output of `run` -/

theorem spherePair_continuous {r : ℝ} (hr : r ≠ 0) {X : Type*} [TopologicalSpace X] {P Q : X → SpecField T} (hP : Continuous P) (hQ : Continuous Q) :
    Continuous fun x => spherePair r (harmonicSum N (P x)) (harmonicSum N (Q x)) := by
  simp only [parseval hr]
  refine continuous_finsetSum _ fun k _ => continuous_const.mul ?_
  have hP' := (continuous_apply k).comp hP
  have hQ' := (continuous_apply k).comp hQ
  unfold modeDot
  split_ifs
  · simp only [add_zero]
    exact (Complex.continuous_re.comp hP').mul (Complex.continuous_re.comp hQ')
  · exact ((Complex.continuous_re.comp hP').mul (Complex.continuous_re.comp hQ')).add ((Complex.continuous_im.comp hP').mul (Complex.continuous_im.comp hQ'))

theorem degMul_continuous (c : ℕ → ℝ) : Continuous fun p : SpecField T => degMul c p :=
  continuous_pi fun k => continuous_const.mul (continuous_apply k)

theorem functionals_continuous (hg : g.Valid) (hN : ∀ n m, N n m ≠ 0) (h1 : 1 ≤ g.ntrunc) :
    (Continuous fun q : g.Spc => sphereIntegral g.rsphere ((⟨0, q⟩ : St ℝ g).pvFn N)) ∧
    (Continuous fun q : g.Spc => totalEnstrophy g.rsphere ((⟨0, q⟩ : St ℝ g).pvFn N)) ∧
    (Continuous fun q : g.Spc => totalEnergy g.rsphere ((⟨0, q⟩ : St ℝ g).streamFn N S)) ∧
    (Continuous fun q : g.Spc => totalMomentum g.rsphere ((⟨0, q⟩ : St ℝ g).streamFn N S)) := by
  have hr := hg.rsphere_pos.ne'
  have eone : (fun _ _ => 1) = harmonicSum N (Pi.single (k0 _) ((1 / N 0 0 : ℝ) : ℂ) : g.Spc) := by
    funext x y
    unfold harmonicSum
    rw [modeSum_single N legendre (k0 _) (fun l hl => by simp [hl])]
    have := hN 0 0
    simp [legendre_zero, this]
  have esin : (fun _ y => sin y) = harmonicSum N (solidRotation N (1 / 2) : g.Spc) := by
    funext x y
    rw [harmonicSum_solid hN h1]
    ring
  have hv : Continuous fun q : g.Spc => (⟨0, q⟩ : St ℝ g).vorticitySpectral S := continuous_id.sub continuous_const
  refine ⟨?_, ?_, ?_, ?_⟩
  · have e : ∀ q : g.Spc, sphereIntegral g.rsphere ((⟨0, q⟩ : St ℝ g).pvFn N) =
        spherePair g.rsphere (harmonicSum N (Pi.single (k0 _) ((1 / N 0 0 : ℝ) : ℂ) : g.Spc)) (harmonicSum N q) := fun q => by
      rw [← eone]
      simp only [spherePair, one_mul, St.pvFn]
    simp only [e]
    exact spherePair_continuous hr continuous_const continuous_id
  · simp only [St.pvFn, totalEnstrophy_eq]
    exact (spherePair_continuous hr continuous_id continuous_id).div_const 2
  · simp only [streamFn_eq, totalEnergy_eq hr, windPair_laplace hr]
    have hψ : Continuous fun q : g.Spc => invLaplace g.rsphere ((⟨0, q⟩ : St ℝ g).vorticitySpectral S) := (degMul_continuous _).comp hv
    have hψ2 : Continuous fun q : g.Spc => degMul (fun n => n * (n + 1) / g.rsphere ^ 2) (invLaplace g.rsphere ((⟨0, q⟩ : St ℝ g).vorticitySpectral S)) :=
      (degMul_continuous (fun n => n * (n + 1) / g.rsphere ^ 2)).comp hψ
    have := spherePair_continuous (N := N) hr hψ hψ2
    exact this.div_const 2
  · simp only [streamFn_eq, totalMomentum_eq hr, esin]
    have hd : Continuous fun q : g.Spc => dropMean ((⟨0, q⟩ : St ℝ g).vorticitySpectral S) := by
      refine continuous_pi fun k => ?_
      unfold dropMean
      split_ifs
      · exact continuous_const
      · exact (continuous_apply k).comp hv
    exact continuous_const.mul (spherePair_continuous hr continuous_const hd)

theorem near_curve {F : g.Spc → ℝ} (hF : Continuous F) {Y : ℝ → g.Spc} {t0 t1 : ℝ} (hY : ContinuousOn Y (Icc t0 t1)) {η : ℝ} (hη : 0 < η) :
    ∃ ε > 0, ∀ t ∈ Icc t0 t1, ∀ q, ‖q - Y t‖ < ε → |F q - F (Y t)| < η := by
  have hc := isCompact_Icc.image_of_continuousOn hY
  have := hc.uniformContinuousAt_of_continuousAt F (fun _ _ => hF.continuousAt) (Metric.dist_mem_uniformity hη)
  obtain ⟨ε, hε, h⟩ := Metric.mem_uniformity_dist.mp this
  refine ⟨ε, hε, fun t ht q hq => ?_⟩
  have := h (a := Y t) (b := q) (by rw [dist_comm, dist_eq_norm]; exact hq) (mem_image_of_mem _ ht)
  rw [← Real.dist_eq, dist_comm]
  exact this

theorem unforced (hM : M.rhs = none) (t0 t1 : ℝ) : M.ForcedBy 0 ∧ LipschitzForcing (0 : ℝ → g.Spc → g.Fld) t0 t1 ∧ LinearGrowth (0 : ℝ → g.Spc → g.Fld) t0 t1 := by
  refine ⟨.inl ⟨hM, rfl⟩, fun B => ⟨0, fun t _ t' _ q q' _ _ => ?_⟩, 0, fun t _ q => ?_⟩ <;> simp

/-- C120: without forcing and diffusion, mean PV, enstrophy, kinetic energy and angular momentum of the states returned by `run` differ from
their initial values as little as desired, if the time step is sufficiently small. -/
theorem C120_conserved (hg : g.Valid) (h : Spharm.Dealiased N S) (h1 : 1 ≤ g.ntrunc) (hT : 2 * g.ntrunc + 1 ≤ g.nlat) (hν : M.diffusionCoeff = 0)
    (hM : M.rhs = none) (s : St PyTime g) (t1 : ℝ) {η : ℝ} (hη : 0 < η) : ∃ δ > 0,
      ∀ (dt : PyDelta) (tend : PyTime) (se : ℝ), s.time.Compatible dt → s.time.SameKind tend → 0 < toSeconds dt → toSeconds dt < δ →
      s.time.sec ≤ tend.sec → tend.sec ≤ t1 → (se ≤ 0 ∨ ∃ x, s.time = .num x) →
      ∃ sf saved, M.Returns S s dt tend se sf saved ∧ tend.sec ≤ sf.time.sec ∧ ∀ w ∈ sf :: saved,
        |sphereIntegral g.rsphere (w.pvFn N) - sphereIntegral g.rsphere (s.pvFn N)| < η ∧
        |totalEnstrophy g.rsphere (w.pvFn N) - totalEnstrophy g.rsphere (s.pvFn N)| < η ∧
        |totalEnergy g.rsphere (w.streamFn N S) - totalEnergy g.rsphere (s.streamFn N S)| < η ∧
        |totalMomentum g.rsphere (w.streamFn N S) - totalMomentum g.rsphere (s.streamFn N S)| < η := by
  obtain ⟨Y, hY0, hY, hconv⟩ := C120_converges hg h h1 hT hν.ge (unforced hM 0 0).1 s (fun t1 => (unforced hM _ _).2.1) (fun t1 => (unforced hM _ _).2.2)
  have hYc : ContinuousOn Y (Icc s.time.sec (t1 + 1)) := fun t ht => (hY _ t ht).continuousWithinAt
  obtain ⟨c1, c2, c3, c4⟩ := functionals_continuous (S := S) hg h.exact.norm_ne h1
  obtain ⟨ε1, p1, n1⟩ := near_curve c1 hYc hη
  obtain ⟨ε2, p2, n2⟩ := near_curve c2 hYc hη
  obtain ⟨ε3, p3, n3⟩ := near_curve c3 hYc hη
  obtain ⟨ε4, p4, n4⟩ := near_curve c4 hYc hη
  obtain ⟨δ, hδ, hrun⟩ := hconv t1 (min (min ε1 ε2) (min ε3 ε4)) (lt_min (lt_min p1 p2) (lt_min p3 p4))
  refine ⟨δ, hδ, fun dt tend se hc hk hd hdδ hst hend hse => ?_⟩
  obtain ⟨sf, saved, hret, hle, hall⟩ := hrun dt tend se hc hk hd hdδ hst hend hse
  refine ⟨sf, saved, hret, hle, fun w hw => ?_⟩
  obtain ⟨hwt, hwq, -⟩ := hall w hw
  obtain ⟨e1, e2, e3, e4⟩ := C119_conserved hg h h1 hT hν (hY (t1 + 1)) hwt
  have m1 := n1 _ hwt w.q (hwq.trans_le ((min_le_left _ _).trans (min_le_left _ _)))
  have m2 := n2 _ hwt w.q (hwq.trans_le ((min_le_left _ _).trans (min_le_right _ _)))
  have m3 := n3 _ hwt w.q (hwq.trans_le ((min_le_right _ _).trans (min_le_left _ _)))
  have m4 := n4 _ hwt w.q (hwq.trans_le ((min_le_right _ _).trans (min_le_right _ _)))
  simp only [hY0] at e1 e2 e3 e4
  have f1 : sphereIntegral g.rsphere (s.pvFn N) = sphereIntegral g.rsphere ((⟨0, Y w.time.sec⟩ : St ℝ g).pvFn N) := e1.symm
  have f2 : totalEnstrophy g.rsphere (s.pvFn N) = totalEnstrophy g.rsphere ((⟨0, Y w.time.sec⟩ : St ℝ g).pvFn N) := e2.symm
  have f3 : totalEnergy g.rsphere (s.streamFn N S) = totalEnergy g.rsphere ((⟨0, Y w.time.sec⟩ : St ℝ g).streamFn N S) := e3.symm
  have f4 : totalMomentum g.rsphere (s.streamFn N S) = totalMomentum g.rsphere ((⟨0, Y w.time.sec⟩ : St ℝ g).streamFn N S) := e4.symm
  rw [f1, f2, f3, f4]
  exact ⟨m1, m2, m3, m4⟩

/-- C120: with diffusion, enstrophy (diffusion of PV) or kinetic energy (diffusion of relative vorticity) exceeds the initial value as little as
desired. -/
theorem C120_dissipation (hg : g.Valid) (h : Spharm.Dealiased N S) (h1 : 1 ≤ g.ntrunc) (hT : 2 * g.ntrunc + 1 ≤ g.nlat) (hν : 0 ≤ M.diffusionCoeff)
    (hM : M.rhs = none) (s : St PyTime g) (t1 : ℝ) {η : ℝ} (hη : 0 < η) : ∃ δ > 0,
      ∀ (dt : PyDelta) (tend : PyTime) (se : ℝ), s.time.Compatible dt → s.time.SameKind tend → 0 < toSeconds dt → toSeconds dt < δ →
      s.time.sec ≤ tend.sec → tend.sec ≤ t1 → (se ≤ 0 ∨ ∃ x, s.time = .num x) →
      ∃ sf saved, M.Returns S s dt tend se sf saved ∧ tend.sec ≤ sf.time.sec ∧ ∀ w ∈ sf :: saved,
        (M.diffusionBg = none → totalEnstrophy g.rsphere (w.pvFn N) < totalEnstrophy g.rsphere (s.pvFn N) + η) ∧
        (M.diffusionBg = some g.fcor2 → totalEnergy g.rsphere (w.streamFn N S) < totalEnergy g.rsphere (s.streamFn N S) + η) := by
  obtain ⟨Y, hY0, hY, hconv⟩ := C120_converges hg h h1 hT hν (unforced hM 0 0).1 s (fun t1 => (unforced hM _ _).2.1) (fun t1 => (unforced hM _ _).2.2)
  have hYc : ContinuousOn Y (Icc s.time.sec (t1 + 1)) := fun t ht => (hY _ t ht).continuousWithinAt
  obtain ⟨-, c2, c3, -⟩ := functionals_continuous (S := S) hg h.exact.norm_ne h1
  obtain ⟨ε2, p2, n2⟩ := near_curve c2 hYc hη
  obtain ⟨ε3, p3, n3⟩ := near_curve c3 hYc hη
  obtain ⟨δ, hδ, hrun⟩ := hconv t1 (min ε2 ε3) (lt_min p2 p3)
  refine ⟨δ, hδ, fun dt tend se hc hk hd hdδ hst hend hse => ?_⟩
  obtain ⟨sf, saved, hret, hle, hall⟩ := hrun dt tend se hc hk hd hdδ hst hend hse
  refine ⟨sf, saved, hret, hle, fun w hw => ?_⟩
  obtain ⟨hwt, hwq, -⟩ := hall w hw
  obtain ⟨d1, d2⟩ := C119_dissipation hg h h1 hT hν (hY (t1 + 1))
  have h0 : s.time.sec ∈ Icc s.time.sec (t1 + 1) := ⟨le_rfl, hwt.1.trans hwt.2⟩
  refine ⟨fun hb => ?_, fun hb => ?_⟩
  · have m2 := (abs_lt.mp (n2 _ hwt w.q (hwq.trans_le (min_le_left _ _)))).2
    have := d1 hb h0 hwt hwt.1
    simp only [hY0] at this
    change totalEnstrophy g.rsphere (w.pvFn N) - totalEnstrophy g.rsphere (harmonicSum N (Y w.time.sec)) < η at m2
    change totalEnstrophy g.rsphere (harmonicSum N (Y w.time.sec)) ≤ totalEnstrophy g.rsphere (s.pvFn N) at this
    linarith
  · have m3 := (abs_lt.mp (n3 _ hwt w.q (hwq.trans_le (min_le_right _ _)))).2
    have := d2 hb h0 hwt hwt.1
    simp only [hY0] at this
    change totalEnergy g.rsphere (w.streamFn N S) - totalEnergy g.rsphere ((⟨0, Y w.time.sec⟩ : St ℝ g).streamFn N S) < η at m3
    change totalEnergy g.rsphere ((⟨0, Y w.time.sec⟩ : St ℝ g).streamFn N S) ≤ totalEnergy g.rsphere (s.streamFn N S) at this
    linarith

/-- Non-vacuity of C120: a model with relaxation and diffusion, and a model without forcing and diffusion, on a grid of 7 latitudes with
truncation 2 -/
example (q : grid30.Spc) : ∃ S : grid30.Sph, Spharm.Dealiased (fun _ _ => 1) S ∧
    (∃ (M : BModel grid30) (R : ℝ → grid30.Spc → grid30.Fld), M.rhs ≠ none ∧ 0 < M.diffusionCoeff ∧ M.ForcedBy R ∧
      ∃ Y, Y 0 = q ∧ ∀ t1, M.Solution S R 0 t1 Y) ∧
    ∃ δ > 0, ∀ h > 0, h < δ → ∃ sf saved, (⟨none, 2, 0, none⟩ : BModel grid30).Returns S ⟨.num 0, q⟩ (.num h) (.num 1000) 0 sf saved ∧
      |totalEnergy 1 (sf.streamFn (fun _ _ => 1) S) - totalEnergy 1 ((⟨.num 0, q⟩ : St PyTime grid30).streamFn (fun _ _ => 1) S)| < 1 / 10 := by
  have hn : grid30.nlat = 7 := grid30_nlat
  have ht : grid30.ntrunc = 2 := rfl
  obtain ⟨⟨S, h⟩, h'⟩ := C119_exists (N := fun _ _ => 1) grid30_valid (by rw [hn, ht]; norm_num) (fun _ _ => one_ne_zero)
  refine ⟨S, h, ?_, ?_⟩
  · obtain ⟨f1, -⟩ := C114_forcing h.exact.linear 0 0
    obtain ⟨R, hR, -⟩ := f1 1 (.num 0)
    have hL : ∀ t1, LipschitzForcing R 0 t1 ∧ LinearGrowth R 0 t1 := fun t1 => by
      obtain ⟨f1, -⟩ := C114_forcing h.exact.linear 0 t1
      obtain ⟨R', hR', hL⟩ := f1 1 (.num 0)
      suffices R = R' by rw [this]; exact hL
      funext t q
      have := (hR ⟨.num t, q⟩).symm.trans (hR' ⟨.num t, q⟩)
      injection this
    have hM : (⟨some (Term.linearRelaxation S 1 (.num 0)).toRhs, 2, 1, none⟩ : BModel grid30).ForcedBy R := .inr ⟨_, rfl, hR⟩
    obtain ⟨Y, h0, hY, -⟩ := C120_converges grid30_valid h (by rw [ht]; norm_num) (by rw [hn, ht]; norm_num) zero_le_one hM ⟨.num 0, q⟩
      (fun t1 => (hL t1).1) (fun t1 => (hL t1).2)
    exact ⟨_, R, by simp, zero_lt_one, hM, Y, h0, hY⟩
  · obtain ⟨δ, hδ, hrun⟩ := C120_conserved (M := ⟨none, 2, 0, none⟩) grid30_valid h (by rw [ht]; norm_num) (by rw [hn, ht]; norm_num) rfl rfl ⟨.num 0, q⟩ 1000
      (η := 1 / 10) (by norm_num)
    refine ⟨δ, hδ, fun dt hd hdδ => ?_⟩
    obtain ⟨sf, saved, r1, -, r2⟩ := hrun (.num dt) (.num 1000) 0 trivial trivial hd hdδ (by norm_num [PyTime.sec]) le_rfl (.inl le_rfl)
    exact ⟨sf, saved, r1, (r2 sf List.mem_cons_self).2.2.1⟩

end Barotropic
