import Verif.Props.SpectralConvergence
import Verif.Lemmas.Sobolev

/-!
# Truncated approximations of smooth functions, with errors that decrease faster than any power of the truncation
-/

namespace Barotropic
open Real (cos sin)
open Set

variable {T D : ℕ} {N : ℕ → ℕ → ℝ} {r : ℝ} {F : (Fin 4 → ℝ) → ℝ}

/-! ## Truncation -/

/-- Coefficients up to degree `T` of a field with truncation `D` -/
noncomputable def restrict (h : T ≤ D) (c : SpecField D) : SpecField T := fun k =>
  c (Classical.choose (exists_mode (specM_le_specN k) ((specN_le k).trans h)))

/-- Coefficients of degree greater than `T` -/
noncomputable def tail (T : ℕ) (c : SpecField D) : SpecField D := fun k => if specN k ≤ T then 0 else c k

theorem restrict_index (h : T ≤ D) (k : Fin (nspec T)) : ∃ l : Fin (nspec D), specN l = specN k ∧ specM l = specM k ∧ ∀ c : SpecField D, restrict h c k = c l :=
  ⟨_, (Classical.choose_spec (exists_mode (specM_le_specN k) ((specN_le k).trans h))).1,
    (Classical.choose_spec (exists_mode (specM_le_specN k) ((specN_le k).trans h))).2, fun _ => rfl⟩

theorem modeSum_restrict (h : T ≤ D) (P : ℕ → ℕ → ℝ → ℝ) (c : SpecField D) (x y : ℝ) :
    modeSum N P (restrict h c) x y = modeSum N P c x y - modeSum N P (tail T c) x y := by
  obtain ⟨e, he⟩ := Classical.axiom_of_choice (restrict_index (T := T) h)
  unfold modeSum
  rw [← Finset.sum_sub_distrib]
  refine Fintype.sum_of_injective e (fun k l hkl => ?_) _ _ (fun l hl => ?_) fun k => ?_
  · refine specIndex_inj ?_ ?_
    · rw [← (he k).2.1, ← (he l).2.1]; exact congrArg _ hkl
    · rw [← (he k).1, ← (he l).1]; exact congrArg _ hkl
  · have : ¬specN l ≤ T := fun hn => hl (by
      obtain ⟨k, h1, h2⟩ := exists_mode (specM_le_specN l) hn
      exact ⟨k, specIndex_inj ((he k).2.1.trans h2) ((he k).1.trans h1)⟩)
    simp [tail, this]
  · have : specN (e k) ≤ T := (he k).1 ▸ specN_le k
    rw [(he k).1, (he k).2.1, (he k).2.2 c]
    have h0 : tail T c (e k) = 0 := if_pos this
    rw [h0]
    simp

theorem restrict_degMul (h : T ≤ D) (a : ℕ → ℝ) (c : SpecField D) : degMul a (restrict h c) = restrict h (degMul a c) := by
  funext k
  obtain ⟨l, h1, -, h3⟩ := restrict_index h k
  rw [h3, degMul, degMul, h3, h1]

theorem restrict_solid (h : T ≤ D) (W : ℝ) : restrict h (solidRotation N W : SpecField D) = solidRotation N W := by
  funext k
  obtain ⟨l, h1, h2, h3⟩ := restrict_index h k
  rw [h3, solidRotation, solidRotation, h1, h2]

theorem restrict_add (h : T ≤ D) (a b : SpecField D) : restrict h (a + b) = restrict h a + restrict h b := rfl
theorem restrict_sub (h : T ≤ D) (a b : SpecField D) : restrict h (a - b) = restrict h a - restrict h b := rfl
theorem restrict_neg (h : T ≤ D) (a : SpecField D) : restrict h (-a) = -restrict h a := rfl
theorem restrict_timesI (h : T ≤ D) (a : SpecField D) : timesI (restrict h a) = restrict h (timesI a) := rfl

theorem restrict_vortCoeff (h : T ≤ D) (r Ω : ℝ) (c : SpecField D) : vortCoeff N r Ω (restrict h c) = restrict h (vortCoeff N r Ω c) := by
  unfold vortCoeff
  rw [restrict_add, restrict_neg, restrict_degMul, restrict_solid]

theorem tail_degMul (a : ℕ → ℝ) (c : SpecField D) : tail T (degMul a c) = degMul a (tail T c) := by
  funext k
  simp only [tail, degMul]
  split_ifs <;> simp

theorem tail_timesI (c : SpecField D) : tail T (timesI c) = timesI (tail T c) := by
  funext k
  simp only [tail, timesI]
  split_ifs <;> simp

theorem tail_solid (hT : 1 ≤ T) (W : ℝ) : tail T (solidRotation N W : SpecField D) = 0 := by
  funext k
  simp only [tail, solidRotation, Pi.zero_apply]
  split_ifs with h1 h2
  · rfl
  · omega
  · rfl

theorem tail_add (a b : SpecField D) : tail T (a + b) = tail T a + tail T b := by
  funext k
  simp only [tail, Pi.add_apply]
  split_ifs <;> simp

theorem tail_sub (a b : SpecField D) : tail T (a - b) = tail T a - tail T b := by
  funext k
  simp only [tail, Pi.sub_apply]
  split_ifs <;> simp

theorem tail_neg (a : SpecField D) : tail T (-a) = -tail T a := by
  funext k
  simp only [tail, Pi.neg_apply]
  split_ifs <;> simp

theorem tail_vortCoeff (hT : 1 ≤ T) (r Ω : ℝ) (c : SpecField D) : tail T (vortCoeff N r Ω c) = -degMul (fun n => n * (n + 1) / r ^ 2) (tail T c) := by
  unfold vortCoeff
  rw [tail_add, tail_neg, tail_degMul, tail_solid hT, add_zero]

theorem harmonicSum_restrict (h : T ≤ D) (c : SpecField D) (x y : ℝ) : harmonicSum N (restrict h c) x y = harmonicSum N c x y - harmonicSum N (tail T c) x y :=
  modeSum_restrict h legendre c x y

theorem phiDeriv_restrict (h : T ≤ D) (c : SpecField D) (x y : ℝ) : phiDeriv N (restrict h c) x y = phiDeriv N c x y - phiDeriv N (tail T c) x y :=
  modeSum_restrict h _ c x y

theorem lamDeriv_restrict (h : T ≤ D) (c : SpecField D) (x y : ℝ) : lamDeriv N (restrict h c) x y = lamDeriv N c x y - lamDeriv N (tail T c) x y := by
  unfold lamDeriv
  rw [restrict_timesI, modeSum_restrict, tail_timesI]

theorem restrict_hasDeriv (h : T ≤ D) {c : ℝ → SpecField D} {c' : SpecField D} {t : ℝ} (hc : HasDerivAt c c' t) :
    HasDerivAt (fun t => restrict h (c t)) (restrict h c') t := by
  refine hasDerivAt_pi.mpr fun k => ?_
  obtain ⟨l, -, -, h3⟩ := restrict_index h k
  simp only [h3]
  exact hasDerivAt_pi.mp hc l

theorem sobolev_tail_le (hr : r ≠ 0) (hN : ∀ n m, N n m ≠ 0) (s : ℕ) (c : SpecField D) : sobolev r N s (tail T c) ≤ sobolev r N s c := by
  refine Finset.sum_le_sum fun k _ => mul_le_mul_of_nonneg_left (mul_le_mul_of_nonneg_left ?_ (modeNorm_pos hr hN k).le) (by positivity)
  unfold tail
  split_ifs
  · rw [modeDot_zero]; exact modeDot_self_nonneg _ _
  · exact le_rfl

/-- The part of degree greater than `T` decreases faster than any power of `T`, as far as there are derivatives. -/
theorem sobolev_tail_decay (hr : r ≠ 0) (hN : ∀ n m, N n m ≠ 0) (s j : ℕ) (c : SpecField D) {K : ℝ} (hK : sobolev r N (s + j) c ≤ K) :
    sobolev r N s (tail T c) ≤ K * (1 / ((T : ℝ) + 1) ^ j) ^ 2 := by
  have h1 := sobolev_tail (T := D) hr hN s j T (tail T c) (fun k hk => if_pos hk)
  have h2 := (h1.trans (sobolev_tail_le hr hN (s + j) c)).trans hK
  rw [one_div, inv_pow, ← pow_mul, mul_comm j 2, ← div_eq_mul_inv, le_div_iff₀ (by positivity)]
  linarith

/-! ## Functions given in Cartesian coordinates -/

theorem grad_of_eq (hF : ContDiff ℝ (⊤ : ℕ∞) F) {a : SpecField T} {t : ℝ} (ha : ∀ x y, cos y ≠ 0 → harmonicSum N a x y = onSphere F t x y) (x : ℝ) {y : ℝ}
    (hy : cos y ≠ 0) : lamDeriv N a x y = east F t x y ∧ phiDeriv N a x y = north F t x y := by
  have e1 : dlon (harmonicSum N a) x y = dlon (onSphere F t) x y := congrArg (fun f => deriv f x) (funext fun x => ha x y hy)
  have e2 : dlat (harmonicSum N a) x y = dlat (onSphere F t) x y := by
    refine Filter.EventuallyEq.deriv_eq ?_
    filter_upwards [(isOpen_ne_fun Real.continuous_cos continuous_const).mem_nhds hy] with y' hy'
    exact ha x y' hy'
  have h1 := sphereGrad_harmonicSum (N := N) one_ne_zero a x hy
  have h2 := sphereGrad_onSphere hF 1 t x hy
  unfold sphereGrad at h1 h2
  rw [e1, e2] at h1
  rw [h1] at h2
  simp only [div_one, Prod.mk.injEq] at h2
  exact h2

theorem sobolev_le_sup (hr : r ≠ 0) (k : ℕ) (hN : ∀ n m, N n m ≠ 0) (hF : ContDiff ℝ (⊤ : ℕ∞) F) {c : SpecField T} {t : ℝ}
    (hc : ∀ x y, cos y ≠ 0 → harmonicSum N c x y = onSphere F t x y) {K K' : ℝ} (hK : ∀ x y, |onSphere F t x y| ≤ K)
    (hK' : ∀ x y, |onSphere (hyperL r k F) t x y| ≤ K') :
    sobolev r N (2 * k) c ≤ area r * K ^ 2 + (2 * r ^ 2) ^ (2 * k) * (area r * K' ^ 2) := by
  refine (sobolev_laplace hr hN k c).trans (add_le_add ?_ (mul_le_mul_of_nonneg_left ?_ (by positivity)))
  · rw [sobolev_zero hr]
    have := integral_le_area (harmonicSum_smooth (N := N) c) r (ε := K) fun x y hy => by rw [hc x y hy]; exact hK x y
    refine le_trans (le_of_eq (sphereIntegral_congr r fun x y _ => ?_)) this
    ring
  · rw [sobolev_zero hr]
    have := integral_le_area (harmonicSum_smooth (N := N) (degMul (fun n => (n * (n + 1) / r ^ 2) ^ k) c)) r (ε := K') fun x y hy => by
      rw [hyper_coeff hr k hF hc x hy]; exact hK' x y
    refine le_trans (le_of_eq (sphereIntegral_congr r fun x y _ => ?_)) this
    ring

theorem UnifTo.eventually_bounded {b : ℝ} {fm : ℕ → ℝ → ℝ → ℝ → ℝ} {f : ℝ → ℝ → ℝ → ℝ} (h : UnifTo b fm f) :
    ∃ K, 0 ≤ K ∧ ∀ᶠ m in Filter.atTop, ∀ t, |t| ≤ b → ∀ x y, |fm m t x y| ≤ K := by
  obtain ⟨K, hK⟩ := h.bounded
  refine ⟨|K| + 1, by positivity, (h.tends 1 one_pos).mono fun m hm t ht x y => ?_⟩
  have h1 := hm t ht x y
  have h2 := (hK t ht x y).trans (le_abs_self K)
  have h3 := abs_sub_abs_le_abs_sub (fm m t x y) (f t x y)
  linarith

/-- Approximations of a smooth function have bounded derivatives. -/
theorem sobolev_eventually (hr : r ≠ 0) {b : ℝ} (hb : 1 ≤ b) {Fm : ℕ → (Fin 4 → ℝ) → ℝ} (h : SmoothLimit (Metric.closedBall 0 b) Fm F) (k : ℕ) :
    ∃ K, 0 ≤ K ∧ ∀ᶠ m in Filter.atTop, ∀ t, |t| ≤ b → ∀ {T : ℕ} {N : ℕ → ℕ → ℝ}, (∀ n m, N n m ≠ 0) → ∀ c : SpecField T,
      (∀ x y, cos y ≠ 0 → harmonicSum N c x y = onSphere (Fm m) t x y) → sobolev r N (2 * k) c ≤ K := by
  obtain ⟨K, -, hK⟩ := (SmoothLimit.onSphere hb h).eventually_bounded
  obtain ⟨K', -, hK'⟩ := (SmoothLimit.onSphere hb (h.hyperL subset_rfl r k)).eventually_bounded
  refine ⟨area r * K ^ 2 + (2 * r ^ 2) ^ (2 * k) * (area r * K' ^ 2), by have := area_nonneg r; positivity,
    (hK.and hK').mono fun m hm t ht T N hN c hc => ?_⟩
  exact sobolev_le_sup hr k hN (h.seq m) hc (hm.1 t ht) (hm.2 t ht)

/-! ## Residual -/

/-- What is left of the equation for the coefficients `c` of the streamfunction with derivative `c'` -/
noncomputable def coeffResidual (N : ℕ → ℕ → ℝ) (r Ω ν : ℝ) (k : ℕ) (W : ℝ) (c c' : SpecField T) (x y : ℝ) : ℝ :=
  harmonicSum N (-degMul (fun n => n * (n + 1) / r ^ 2) c') x y + advect N r (vortCoeff N r Ω c) c x y +
    ν * harmonicSum N (degMul (fun n => (n * (n + 1) / r ^ 2) ^ k) (vortCoeff N r Ω c - solidRotation N W)) x y

theorem vort_solid_fn (hr : r ≠ 0) (hN : ∀ n m, N n m ≠ 0) (hT : 1 ≤ T) (Ω W : ℝ) (hF : ContDiff ℝ (⊤ : ℕ∞) F) {c : SpecField T} {t : ℝ}
    (hc : ∀ x y, onSphere F t x y = harmonicSum N c x y) (x y : ℝ) (hy : cos y ≠ 0) :
    harmonicSum N (vortCoeff N r Ω c - solidRotation N W) x y = onSphere (fun p => vort r Ω F p + -(2 * W) * p 3) t x y := by
  rw [show vortCoeff N r Ω c - solidRotation N W = vortCoeff N r Ω c + (-1 : ℝ) • solidRotation N W by
    rw [neg_one_smul, sub_eq_add_neg], harmonicSum_lin, vortCoeff_fn hr hN hT Ω hF hc x hy, harmonicSum_solid hN hT]
  have : spacetime t x y 3 = sin y := rfl
  simp only [onSphere, this]
  ring

theorem coeffResidual_defect (hr : r ≠ 0) (hN : ∀ n m, N n m ≠ 0) (hT : 1 ≤ T) (Ω ν : ℝ) (k : ℕ) (W : ℝ) (hF : ContDiff ℝ (⊤ : ℕ∞) F)
    {c c' : ℝ → SpecField T} (hc : ∀ t x y, onSphere F t x y = harmonicSum N (c t) x y) (hd : ∀ t, HasDerivAt c (c' t) t) (t x : ℝ) {y : ℝ} (hy : cos y ≠ 0) :
    coeffResidual N r Ω ν k W (c t) (c' t) x y = defect r Ω ν k W F t x y := by
  have hV := vort_smooth r Ω hF
  have hp := fun t x y (hy : cos y ≠ 0) => vortCoeff_fn hr hN hT Ω hF (hc t) x hy
  have e1 : harmonicSum N (-degMul (fun n => n * (n + 1) / r ^ 2) (c' t)) x y = onSphere (pd 0 (vort r Ω F)) t x y := by
    have d1 := harmonicSum_hasDeriv (N := N) (vortCoeff_hasDeriv (N := N) r Ω (hd t)) x y
    have d2 := onSphere_time hV t x y
    simp only [fun t => hp t x y hy] at d1
    exact d1.unique d2
  have g1 := grad_of_eq hF (fun x y _ => (hc t x y).symm) x hy
  have g2 := grad_of_eq hV (hp t) x hy
  have hA : ContDiff ℝ (⊤ : ℕ∞) fun p => vort r Ω F p + -(2 * W) * p 3 := hV.add (contDiff_const.mul (contDiff_apply ℝ ℝ 3))
  have e3 := hyper_coeff hr k hA (vort_solid_fn hr hN hT Ω W hF (hc t)) x hy
  unfold coeffResidual advect defect
  rw [e1, e3, g1.1, g1.2, g2.1, g2.2]
  field_simp
  ring

theorem residual_coeff {g : Grid ℝ} {S : g.Sph} {M : BModel g} (hg : g.Valid) (h : Spharm.Dealiased N S) (h1 : 1 ≤ g.ntrunc) {W : ℝ}
    (hbg : M.background S = solidRotation N W) (c c' : g.Spc) (x : ℝ) {y : ℝ} (hy : cos y ≠ 0) :
    residual N S M (vortCoeff N g.rsphere g.omega c) (-degMul (fun n => n * (n + 1) / g.rsphere ^ 2) c') x y =
      coeffResidual N g.rsphere g.omega M.diffusionCoeff M.diffusionOrder W c c' x y := by
  have hr := hg.rsphere_pos.ne'
  have hfc : Grid.fcor2Spectral S = solidRotation N g.omega := h.exact.fcor2 h1 (by omega)
  have e0 : vortCoeff N g.rsphere g.omega c - Grid.fcor2Spectral S = -degMul (fun n => n * (n + 1) / g.rsphere ^ 2) c := by
    rw [hfc]
    unfold vortCoeff
    exact add_sub_cancel_right _ _
  have e2 : invLaplace g.rsphere (-degMul (fun n => n * (n + 1) / g.rsphere ^ 2) c) = dropMean c := by
    funext k
    simp only [invLaplace, degMul, dropMean, Pi.neg_apply]
    by_cases hk : specN k = 0
    · simp [hk]
    · have h1 : ((specN k : ℕ) : ℂ) ≠ 0 := by exact_mod_cast hk
      have h2 : ((specN k : ℕ) : ℂ) + 1 ≠ 0 := by exact_mod_cast Nat.succ_ne_zero (specN k)
      have h3 : (g.rsphere : ℂ) ≠ 0 := by exact_mod_cast hr
      simp only [if_neg hk]
      push_cast
      field_simp
  have e3 : M.damping S (vortCoeff N g.rsphere g.omega c) = (-M.diffusionCoeff) • degMul (fun n => (n * (n + 1) / g.rsphere ^ 2) ^ M.diffusionOrder)
      (vortCoeff N g.rsphere g.omega c - solidRotation N W) := by
    funext k
    unfold BModel.damping
    rw [hbg]
    simp only [degMul, Pi.smul_apply, Pi.sub_apply, Complex.real_smul]
    push_cast
    ring
  have e4 := modeSum_smul N legendre (-M.diffusionCoeff) (degMul (fun n => (n * (n + 1) / g.rsphere ^ 2) ^ M.diffusionOrder)
      (vortCoeff N g.rsphere g.omega c - solidRotation N W)) x y
  change harmonicSum N _ x y = _ * harmonicSum N _ x y at e4
  unfold residual coeffResidual
  simp only [streamFn_eq]
  have hv : ∀ q : g.Spc, (⟨0, q⟩ : St ℝ g).vorticitySpectral S = q - Grid.fcor2Spectral S := fun q => rfl
  rw [hv, e0, e2, e3]
  change harmonicSum N _ x y + sphereFlux g.rsphere (harmonicSum N _) (harmonicSum N _) x y - _ = _
  rw [advect_flux _ _ _ hy, e4]
  unfold advect
  rw [lamDeriv_dropMean, phiDeriv_dropMean]
  ring

/-! ## Truncated approximations -/

theorem laplace_power_le (hr : 0 < r) (k n : ℕ) : |((n : ℝ) * (n + 1) / r ^ 2) ^ k| ≤ ((r ^ 2)⁻¹) ^ k * ((n : ℝ) + 1) ^ (2 * k) := by
  have hn : (0 : ℝ) ≤ n := Nat.cast_nonneg n
  rw [abs_of_nonneg (by positivity), pow_mul, ← mul_pow]
  refine pow_le_pow_left₀ (by positivity) ?_ k
  rw [div_eq_inv_mul]
  exact mul_le_mul_of_nonneg_left (by nlinarith) (by positivity)

theorem sobolev_laplace_power (hr : 0 < r) (hN : ∀ n m, N n m ≠ 0) (s k : ℕ) (c : SpecField T) :
    sobolev r N s (degMul (fun n => (n * (n + 1) / r ^ 2) ^ k) c) ≤ (((r ^ 2)⁻¹) ^ k) ^ 2 * sobolev r N (s + 2 * k) c :=
  sobolev_degMul hr.ne' hN s (2 * k) _ (laplace_power_le hr k) c

theorem abs_le_mul_of_sq {X A τ : ℝ} (hA : 0 ≤ A) (hτ : 0 ≤ τ) (h : X ^ 2 ≤ A * τ ^ 2) : |X| ≤ Real.sqrt A * τ := by
  refine abs_le_of_sq_le_sq ?_ (mul_nonneg (Real.sqrt_nonneg _) hτ)
  rwa [mul_pow, Real.sq_sqrt hA]

/-- Bounds of the part of high degree, and of its derivatives -/
theorem tail_bounds (hr : 0 < r) (hN : ∀ n m, N n m ≠ 0) (L k : ℕ) (hk : 3 + 2 * k ≤ L) {K τ : ℝ} (hK : 0 ≤ K) (hτ : 0 ≤ τ) {e : SpecField T}
    (he : sobolev r N L e ≤ K * τ ^ 2) (x : ℝ) {y : ℝ} (hy : cos y ≠ 0) :
    |harmonicSum N (degMul (fun n => (n * (n + 1) / r ^ 2) ^ k) e) x y| ≤ Real.sqrt ((((r ^ 2)⁻¹) ^ k) ^ 2 * K / (Real.pi * r ^ 2)) * τ ∧
    |lamDeriv N (degMul (fun n => (n * (n + 1) / r ^ 2) ^ k) e) x y| ≤ Real.sqrt ((((r ^ 2)⁻¹) ^ k) ^ 2 * K / (Real.pi * r ^ 2)) * τ ∧
    |phiDeriv N (degMul (fun n => (n * (n + 1) / r ^ 2) ^ k) e) x y| ≤ Real.sqrt ((((r ^ 2)⁻¹) ^ k) ^ 2 * K / (Real.pi * r ^ 2)) * τ := by
  have hpi := Real.pi_pos
  have key : sobolev r N 3 (degMul (fun n => (n * (n + 1) / r ^ 2) ^ k) e) / (Real.pi * r ^ 2) ≤ (((r ^ 2)⁻¹) ^ k) ^ 2 * K / (Real.pi * r ^ 2) * τ ^ 2 := by
    rw [div_mul_eq_mul_div]
    refine div_le_div_of_nonneg_right ?_ (by positivity)
    refine (sobolev_laplace_power hr hN 3 k e).trans ?_
    rw [mul_assoc]
    exact mul_le_mul_of_nonneg_left ((sobolev_mono hr.ne' hN hk e).trans he) (by positivity)
  have key2 := (div_le_div_of_nonneg_right (sobolev_mono hr.ne' hN (show 2 ≤ 3 by norm_num) (degMul (fun n => (n * (n + 1) / r ^ 2) ^ k) e))
    (by positivity : 0 ≤ Real.pi * r ^ 2)).trans key
  exact ⟨abs_le_mul_of_sq (by positivity) hτ ((harmonicSum_sobolev hr.ne' hN _ x y).trans key2),
    abs_le_mul_of_sq (by positivity) hτ ((lamDeriv_sobolev hr.ne' hN _ x hy).trans key),
    abs_le_mul_of_sq (by positivity) hτ ((phiDeriv_sobolev hr.ne' hN _ x hy).trans key)⟩

theorem degMul_laplace_zero (r : ℝ) (c : SpecField T) : degMul (fun n => (n * (n + 1) / r ^ 2) ^ 0) c = c := by funext k; simp [degMul]

theorem degMul_laplace_one (r : ℝ) (c : SpecField T) : degMul (fun n => (n * (n + 1) / r ^ 2) ^ 1) c = degMul (fun n => n * (n + 1) / r ^ 2) c := by
  funext k; simp [degMul]

theorem degMul_laplace_succ (r : ℝ) (k : ℕ) (c : SpecField T) : degMul (fun n => (n * (n + 1) / r ^ 2) ^ (k + 1)) c =
    degMul (fun n => (n * (n + 1) / r ^ 2) ^ k) (degMul (fun n => n * (n + 1) / r ^ 2) c) := by
  funext l
  simp only [degMul]
  push_cast
  ring

theorem lamDeriv_neg' (a : SpecField T) (x y : ℝ) : lamDeriv N (-a) x y = -lamDeriv N a x y := by
  rw [show -a = (-1 : ℝ) • a by rw [neg_one_smul], lamDeriv_smul]; ring

theorem phiDeriv_neg' (a : SpecField T) (x y : ℝ) : phiDeriv N (-a) x y = -phiDeriv N a x y := by
  rw [show -a = (-1 : ℝ) • a by rw [neg_one_smul], phiDeriv_smul]; ring

theorem product_diff {a b δ ε A B τ E : ℝ} (ha : |a| ≤ A) (hb : |b| ≤ B) (hδ : |δ| ≤ E * τ) (hε : |ε| ≤ E * τ) (hE : 0 ≤ E) (hτ : 0 ≤ τ) (hτ1 : τ ≤ 1) :
    |(a + δ) * (b + ε) - a * b| ≤ (A + B + E) * E * τ := by
  have h1 : (a + δ) * (b + ε) - a * b = a * ε + δ * b + δ * ε := by ring
  have hA := (abs_nonneg a).trans ha
  have hB := (abs_nonneg b).trans hb
  have h2 : |a * ε| ≤ A * (E * τ) := by rw [abs_mul]; exact mul_le_mul ha hε (abs_nonneg _) hA
  have h3 : |δ * b| ≤ E * τ * B := by rw [abs_mul]; exact mul_le_mul hδ hb (abs_nonneg _) (by positivity)
  have h4 : |δ * ε| ≤ E * τ * (E * τ) := by rw [abs_mul]; exact mul_le_mul hδ hε (abs_nonneg _) (by positivity)
  have h5 : E * τ * (E * τ) ≤ E * E * τ := by
    have := mul_le_mul_of_nonneg_left hτ1 (by positivity : 0 ≤ E * E * τ)
    linarith
  rw [h1]
  have := abs_add_three (a * ε) (δ * b) (δ * ε)
  linarith

/-- A smooth function of time and position on the sphere has approximations with truncation `T` that satisfy the barotropic vorticity equation as
well as the function, up to errors that decrease faster than any power of `T`. -/
theorem exists_truncations (hr : 0 < r) (Ω ν : ℝ) (order : ℕ) (W : ℝ) {b : ℝ} (hb : 1 ≤ b) (hF : ContDiff ℝ (⊤ : ℕ∞) F) (j : ℕ) :
    ∃ C, 0 ≤ C ∧ ∀ {N : ℕ → ℕ → ℝ}, (∀ n m, N n m ≠ 0) → ∀ {T : ℕ}, 1 ≤ T → ∃ c c' : ℝ → SpecField T, (∀ t, HasDerivAt c (c' t) t) ∧
      ∀ t, |t| ≤ b → ∀ x y, cos y ≠ 0 →
        |harmonicSum N (vortCoeff N r Ω (c t)) x y - onSphere (vort r Ω F) t x y| ≤ C / ((T : ℝ) + 1) ^ j ∧
        |lamDeriv N (vortCoeff N r Ω (c t)) x y - east (vort r Ω F) t x y| ≤ C / ((T : ℝ) + 1) ^ j ∧
        |phiDeriv N (vortCoeff N r Ω (c t)) x y - north (vort r Ω F) t x y| ≤ C / ((T : ℝ) + 1) ^ j ∧
        |coeffResidual N r Ω ν order W (c t) (c' t) x y - defect r Ω ν order W F t x y| ≤ C / ((T : ℝ) + 1) ^ j := by
  obtain ⟨P, hP⟩ := exists_polys (lt_of_lt_of_le one_pos hb) hF
  have hV := hP.vort subset_rfl r Ω
  have u1 := SmoothLimit.onSphere hb hV
  have u2 := hV.east hb
  have u3 := hV.north hb
  have u4 := hP.defect hb r Ω ν order W
  obtain ⟨B1, hB1, w1⟩ := (hP.east hb).eventually_bounded
  obtain ⟨B2, hB2, w2⟩ := (hP.north hb).eventually_bounded
  obtain ⟨B3, hB3, w3⟩ := u2.eventually_bounded
  obtain ⟨B4, hB4, w4⟩ := u3.eventually_bounded
  obtain ⟨K1, hK1, s1⟩ := sobolev_eventually hr.ne' hb hP (order + 3 + j)
  obtain ⟨K2, hK2, s2⟩ := sobolev_eventually hr.ne' hb (hP.dir (Pi.single 0 1)) (order + 3 + j)
  obtain ⟨K, hKd⟩ : ∃ K, K = K1 + K2 := ⟨_, rfl⟩
  have hK : 0 ≤ K := by linarith
  obtain ⟨A, hA⟩ : ∃ A : ℕ → ℝ, A = fun k => Real.sqrt ((((r ^ 2)⁻¹) ^ k) ^ 2 * K / (Real.pi * r ^ 2)) := ⟨_, rfl⟩
  have hA0 : ∀ k, 0 ≤ A k := fun k => hA ▸ Real.sqrt_nonneg _
  obtain ⟨E, hE⟩ : ∃ E, E = A 0 + A 1 := ⟨_, rfl⟩
  have hE0 : 0 ≤ E := by have := hA0 0; have := hA0 1; linarith
  have hAE : A 0 ≤ E ∧ A 1 ≤ E := by have := hA0 0; have := hA0 1; constructor <;> linarith
  have hpi := Real.pi_pos
  have hν := abs_nonneg ν
  have hAo := hA0 (order + 1)
  refine ⟨1 + E + (E + (r ^ 2)⁻¹ * ((B2 + B3 + E) * E + (B1 + B4 + E) * E) + |ν| * A (order + 1)), by positivity, fun {N} hN {T} hT => ?_⟩
  obtain ⟨τ, hτ⟩ : ∃ τ : ℝ, τ = 1 / ((T : ℝ) + 1) ^ j := ⟨_, rfl⟩
  have hτ0 : 0 < τ := hτ ▸ (by positivity)
  have hτ1 : τ ≤ 1 := by
    rw [hτ, div_le_one (by positivity)]
    exact one_le_pow₀ (by have : (0 : ℝ) ≤ T := Nat.cast_nonneg T; linarith)
  obtain ⟨m, m1, m2, m3, m4, m5, m6, m7, m8, m9, m10⟩ := ((u1.tends τ hτ0).and ((u2.tends τ hτ0).and ((u3.tends τ hτ0).and ((u4.tends τ hτ0).and
    (w1.and (w2.and (w3.and (w4.and (s1.and s2))))))))).exists
  obtain ⟨Fm, hFm⟩ : ∃ Fm : (Fin 4 → ℝ) → ℝ, Fm = fun x => (P m).eval x := ⟨_, rfl⟩
  have hFs : ContDiff ℝ (⊤ : ℕ∞) Fm := hFm ▸ mvPoly_smooth (P m)
  rw [← hFm] at m1 m2 m3 m4 m5 m6 m7 m8 m9 m10
  obtain ⟨D, hD⟩ := mvPoly_harmonic (P m)
  obtain ⟨c, c', hcd, hc⟩ := hD N hN (max D T) (le_max_left _ _)
  replace hc : ∀ t x y, onSphere Fm t x y = harmonicSum N (c t) x y := fun t x y => by rw [hFm]; exact hc t x y
  have hTD : T ≤ max D T := le_max_right _ _
  have hD1 : 1 ≤ max D T := hT.trans hTD
  refine ⟨fun t => restrict hTD (c t), fun t => restrict hTD (c' t), fun t => restrict_hasDeriv hTD (hcd t), fun t ht x y hy => ?_⟩
  have hc' : ∀ x y, cos y ≠ 0 → harmonicSum N (c' t) x y = onSphere (pd 0 Fm) t x y := fun x y _ => by
    have d1 := harmonicSum_hasDeriv (N := N) (hcd t) x y
    simp only [← hc] at d1
    exact d1.unique (onSphere_time hFs t x y)
  have hL : ∀ {c0 : SpecField (max D T)}, sobolev r N (2 * (order + 3 + j)) c0 ≤ K → sobolev r N (6 + 2 * order) (tail T c0) ≤ K * τ ^ 2 := fun {c0} h0 => by
    rw [hτ]
    exact sobolev_tail_decay hr.ne' hN (6 + 2 * order) j c0 ((sobolev_mono hr.ne' hN (by omega) c0).trans h0)
  have t1 := hL ((m9 t ht hN (c t) (fun x y _ => (hc t x y).symm)).trans (by linarith))
  have t2 := hL ((m10 t ht hN (c' t) hc').trans (by linarith))
  obtain ⟨-, b1, b2⟩ := tail_bounds hr hN _ 0 (by omega) hK hτ0.le t1 x hy
  obtain ⟨b3, b4, b5⟩ := tail_bounds hr hN _ 1 (by omega) hK hτ0.le t1 x hy
  obtain ⟨b6, -, -⟩ := tail_bounds hr hN _ (order + 1) (by omega) hK hτ0.le t1 x hy
  obtain ⟨b7, -, -⟩ := tail_bounds hr hN _ 1 (by omega) hK hτ0.le t2 x hy
  have eA : ∀ k, Real.sqrt ((((r ^ 2)⁻¹) ^ k) ^ 2 * K / (Real.pi * r ^ 2)) = A k := fun k => by rw [hA]
  rw [eA] at b1 b2 b3 b4 b5 b6 b7
  rw [degMul_laplace_zero] at b1 b2
  rw [degMul_laplace_one] at b3 b4 b5 b7
  replace b1 := b1.trans (mul_le_mul_of_nonneg_right hAE.1 hτ0.le)
  replace b2 := b2.trans (mul_le_mul_of_nonneg_right hAE.1 hτ0.le)
  replace b3 := b3.trans (mul_le_mul_of_nonneg_right hAE.2 hτ0.le)
  replace b4 := b4.trans (mul_le_mul_of_nonneg_right hAE.2 hτ0.le)
  replace b5 := b5.trans (mul_le_mul_of_nonneg_right hAE.2 hτ0.le)
  replace b7 := b7.trans (mul_le_mul_of_nonneg_right hAE.2 hτ0.le)
  have hp := fun x y (hy : cos y ≠ 0) => vortCoeff_fn hr.ne' hN hD1 Ω hFs (hc t) x hy
  have g1 := grad_of_eq hFs (fun x y _ => (hc t x y).symm) x hy
  have g2 := grad_of_eq (vort_smooth r Ω hFs) hp x hy
  have v1 : harmonicSum N (vortCoeff N r Ω (restrict hTD (c t))) x y = onSphere (vort r Ω Fm) t x y +
      harmonicSum N (degMul (fun n => n * (n + 1) / r ^ 2) (tail T (c t))) x y := by
    rw [restrict_vortCoeff, harmonicSum_restrict, hp x y hy, tail_vortCoeff hT, harmonicSum_neg]; ring
  have v2 : lamDeriv N (vortCoeff N r Ω (restrict hTD (c t))) x y = east (vort r Ω Fm) t x y +
      lamDeriv N (degMul (fun n => n * (n + 1) / r ^ 2) (tail T (c t))) x y := by
    rw [restrict_vortCoeff, lamDeriv_restrict, g2.1, tail_vortCoeff hT, lamDeriv_neg']; ring
  have v3 : phiDeriv N (vortCoeff N r Ω (restrict hTD (c t))) x y = north (vort r Ω Fm) t x y +
      phiDeriv N (degMul (fun n => n * (n + 1) / r ^ 2) (tail T (c t))) x y := by
    rw [restrict_vortCoeff, phiDeriv_restrict, g2.2, tail_vortCoeff hT, phiDeriv_neg']; ring
  have v4 : lamDeriv N (restrict hTD (c t)) x y = east Fm t x y + -lamDeriv N (tail T (c t)) x y := by
    rw [lamDeriv_restrict, g1.1]; ring
  have v5 : phiDeriv N (restrict hTD (c t)) x y = north Fm t x y + -phiDeriv N (tail T (c t)) x y := by
    rw [phiDeriv_restrict, g1.2]; ring
  have q1 := m1 t ht x y
  have q2 := m2 t ht x y
  have q3 := m3 t ht x y
  have q4 := m4 t ht x y
  have hC1 : (1 + E) * τ ≤ (1 + E + (E + (r ^ 2)⁻¹ * ((B2 + B3 + E) * E + (B1 + B4 + E) * E) + |ν| * A (order + 1))) / ((T : ℝ) + 1) ^ j := by
    rw [div_eq_mul_one_div, ← hτ]
    refine mul_le_mul_of_nonneg_right ?_ hτ0.le
    have : 0 ≤ E + (r ^ 2)⁻¹ * ((B2 + B3 + E) * E + (B1 + B4 + E) * E) + |ν| * A (order + 1) := by positivity
    linarith
  refine ⟨?_, ?_, ?_, ?_⟩
  · refine le_trans ?_ hC1
    rw [v1, add_sub_right_comm]
    refine (abs_add_le _ _).trans ?_
    linarith
  · refine le_trans ?_ hC1
    rw [v2, add_sub_right_comm]
    refine (abs_add_le _ _).trans ?_
    linarith
  · refine le_trans ?_ hC1
    rw [v3, add_sub_right_comm]
    refine (abs_add_le _ _).trans ?_
    linarith
  · have hres := coeffResidual_defect hr.ne' hN hD1 Ω ν order W hFs hc hcd t x hy
    have r1 : harmonicSum N (-degMul (fun n => n * (n + 1) / r ^ 2) (restrict hTD (c' t))) x y =
        harmonicSum N (-degMul (fun n => n * (n + 1) / r ^ 2) (c' t)) x y + harmonicSum N (degMul (fun n => n * (n + 1) / r ^ 2) (tail T (c' t))) x y := by
      rw [restrict_degMul, ← restrict_neg, harmonicSum_restrict, tail_neg, tail_degMul, harmonicSum_neg, harmonicSum_neg]; ring
    have r2 : harmonicSum N (degMul (fun n => (n * (n + 1) / r ^ 2) ^ order) (vortCoeff N r Ω (restrict hTD (c t)) - solidRotation N W)) x y =
        harmonicSum N (degMul (fun n => (n * (n + 1) / r ^ 2) ^ order) (vortCoeff N r Ω (c t) - solidRotation N W)) x y +
          harmonicSum N (degMul (fun n => (n * (n + 1) / r ^ 2) ^ (order + 1)) (tail T (c t))) x y := by
      rw [restrict_vortCoeff, ← restrict_solid hTD, ← restrict_sub, restrict_degMul, harmonicSum_restrict, tail_degMul, tail_sub, tail_vortCoeff hT, tail_solid hT,
        sub_zero, degMul_laplace_succ]
      have : degMul (fun n => (n * (n + 1) / r ^ 2) ^ order) (-degMul (fun n => n * (n + 1) / r ^ 2) (tail T (c t))) =
          -degMul (fun n => (n * (n + 1) / r ^ 2) ^ order) (degMul (fun n => n * (n + 1) / r ^ 2) (tail T (c t))) := by
        funext k; simp [degMul]
      rw [this, harmonicSum_neg]; ring
    have hadv : |advect N r (vortCoeff N r Ω (restrict hTD (c t))) (restrict hTD (c t)) x y - advect N r (vortCoeff N r Ω (c t)) (c t) x y| ≤
        (r ^ 2)⁻¹ * ((B2 + B3 + E) * E + (B1 + B4 + E) * E) * τ := by
      have p1 := product_diff (m6 t ht x y) (m7 t ht x y) (show |-phiDeriv N (tail T (c t)) x y| ≤ E * τ by rw [abs_neg]; exact b2) b4 hE0 hτ0.le hτ1
      have p2 := product_diff (m5 t ht x y) (m8 t ht x y) (show |-lamDeriv N (tail T (c t)) x y| ≤ E * τ by rw [abs_neg]; exact b1) b5 hE0 hτ0.le hτ1
      rw [← v4, ← v3] at p2
      rw [← v5, ← v2] at p1
      unfold advect
      rw [g1.1, g1.2, g2.1, g2.2]
      rw [show -(phiDeriv N (restrict hTD (c t)) x y / r) * (lamDeriv N (vortCoeff N r Ω (restrict hTD (c t))) x y / r) +
          lamDeriv N (restrict hTD (c t)) x y / r * (phiDeriv N (vortCoeff N r Ω (restrict hTD (c t))) x y / r) -
          (-(north Fm t x y / r) * (east (vort r Ω Fm) t x y / r) + east Fm t x y / r * (north (vort r Ω Fm) t x y / r)) =
          (r ^ 2)⁻¹ * ((lamDeriv N (restrict hTD (c t)) x y * phiDeriv N (vortCoeff N r Ω (restrict hTD (c t))) x y - east Fm t x y * north (vort r Ω Fm) t x y) -
          (phiDeriv N (restrict hTD (c t)) x y * lamDeriv N (vortCoeff N r Ω (restrict hTD (c t))) x y - north Fm t x y * east (vort r Ω Fm) t x y)) by field_simp; ring]
      rw [abs_mul, abs_of_nonneg (by positivity : 0 ≤ (r ^ 2)⁻¹), mul_assoc]
      refine mul_le_mul_of_nonneg_left ((abs_sub _ _).trans ?_) (by positivity)
      linarith
    have hν' : |ν * harmonicSum N (degMul (fun n => (n * (n + 1) / r ^ 2) ^ (order + 1)) (tail T (c t))) x y| ≤ |ν| * A (order + 1) * τ := by
      rw [abs_mul, mul_assoc]
      exact mul_le_mul_of_nonneg_left b6 hν
    rw [div_eq_mul_one_div, ← hτ]
    have hsplit : coeffResidual N r Ω ν order W (restrict hTD (c t)) (restrict hTD (c' t)) x y - defect r Ω ν order W F t x y =
        (defect r Ω ν order W Fm t x y - defect r Ω ν order W F t x y) + harmonicSum N (degMul (fun n => n * (n + 1) / r ^ 2) (tail T (c' t))) x y +
        (advect N r (vortCoeff N r Ω (restrict hTD (c t))) (restrict hTD (c t)) x y - advect N r (vortCoeff N r Ω (c t)) (c t) x y) +
        ν * harmonicSum N (degMul (fun n => (n * (n + 1) / r ^ 2) ^ (order + 1)) (tail T (c t))) x y := by
      rw [← hres]
      unfold coeffResidual
      rw [r1, r2]
      ring
    rw [hsplit]
    refine (abs_add_le _ _).trans ?_
    have a1 := abs_add_three (defect r Ω ν order W Fm t x y - defect r Ω ν order W F t x y) (harmonicSum N (degMul (fun n => n * (n + 1) / r ^ 2) (tail T (c' t))) x y)
      (advect N r (vortCoeff N r Ω (restrict hTD (c t))) (restrict hTD (c t)) x y - advect N r (vortCoeff N r Ω (c t)) (c t) x y)
    have a2 : 0 ≤ E * τ := by positivity
    linarith

end Barotropic
