import Verif.Spec.Waves
import Verif.Lemmas.VectorHarmonics
import Verif.Props.Harmonics
import Mathlib.Topology.Algebra.Module.Cardinality

/-!
# Advection of sums of harmonics
-/

namespace Barotropic
open Complex

variable {T : ℕ} {N : ℕ → ℕ → ℝ}

theorem differentiable_lon {P : ℕ → ℕ → ℝ → ℝ} (s : SpecField T) (y : ℝ) : Differentiable ℝ fun x => modeSum N P s x y :=
  fun x => (hasDerivAt_modeSum_lon N P s x y).differentiableAt

theorem differentiable_lat {P : ℕ → ℕ → ℝ → ℝ} (hP : ∀ n m, ContDiff ℝ (⊤ : ℕ∞) (P n m)) (s : SpecField T) (x : ℝ) :
    Differentiable ℝ fun y => modeSum N P s x y :=
  fun y => (hasDerivAt_modeSum_lat N (P' := fun n m => deriv (P n m)) (fun n m => ((hP n m).differentiable (by simp) y).hasDerivAt) s x).differentiableAt

theorem lamDeriv_zero (x y : ℝ) : lamDeriv N (0 : SpecField T) x y = 0 := modeSum_eq_zero N _ (fun _ => .inl (by simp [timesI])) x y
theorem phiDeriv_zero (x y : ℝ) : phiDeriv N (0 : SpecField T) x y = 0 := modeSum_eq_zero N _ (fun _ => .inl rfl) x y

/-- The flux in terms of the components of the wind -/
theorem sphereFlux_eq (r : ℝ) (q p : SpecField T) {y : ℝ} (hy : Real.cos y ≠ 0) (x : ℝ) :
    sphereFlux r (harmonicSum N q) (harmonicSum N p) x y =
      sphereDiv r (fun x y => harmonicSum N q x y * (-phiDeriv N p x y + lamDeriv N (0 : SpecField T) x y) / r)
        (fun x y => harmonicSum N q x y * (lamDeriv N p x y + phiDeriv N (0 : SpecField T) x y) / r) x y := by
  unfold sphereFlux sphereDiv
  simp only [lamDeriv_zero, phiDeriv_zero, add_zero]
  congr 2
  · unfold dlon
    congr 1
    funext x
    simp only [sphereGrad, dlat_harmonicSum]
    ring
  · unfold dlat
    congr 1
    funext y
    simp only [sphereGrad, dlon_harmonicSum]
    by_cases h0 : Real.cos y = 0
    · simp [h0]
    · by_cases hr : r = 0
      · simp [hr]
      · field_simp

/-- Advective form -/
theorem sphereFlux_advective (r : ℝ) (q p : SpecField T) {y : ℝ} (hy : Real.cos y ≠ 0) (x : ℝ) :
    sphereFlux r (harmonicSum N q) (harmonicSum N p) x y =
      (-phiDeriv N p x y * lamDeriv N q x y + lamDeriv N p x y * phiDeriv N q x y) / r ^ 2 := by
  by_cases hr : r = 0
  · simp [hr, sphereFlux, sphereDiv]
  rw [sphereFlux_eq r q p hy]
  have h0 := (sphere_wind (N := N) r p 0 hy x).2
  have hz : degMul (fun n => (n : ℝ) * (n + 1) / r ^ 2) (0 : SpecField T) = 0 := by funext k; simp [degMul]
  rw [hz, show harmonicSum N (0 : SpecField T) x y = 0 from modeSum_eq_zero N _ (fun _ => .inl rfl) x y, neg_zero] at h0
  simp only [lamDeriv_zero, phiDeriv_zero, add_zero] at h0 ⊢
  have dq1 : HasDerivAt (fun x => harmonicSum N q x y) (lamDeriv N q x y * Real.cos y) x := by
    rw [← dlon_harmonicSum]; exact (differentiable_lon q y x).hasDerivAt
  have dq2 : HasDerivAt (fun y => harmonicSum N q x y) (phiDeriv N q x y) y := by
    rw [← dlat_harmonicSum]; exact (differentiable_lat legendre_contDiff q x y).hasDerivAt
  have du : DifferentiableAt ℝ (fun x => phiDeriv N p x y) x := differentiable_lon p y x
  have dv : DifferentiableAt ℝ (fun y => lamDeriv N p x y) y := differentiable_lat legendreOverCos_contDiff (timesI p) x y
  have du' : HasDerivAt (fun x => -phiDeriv N p x y / r) _ x := (du.neg.div_const r).hasDerivAt
  have dv' : HasDerivAt (fun y => lamDeriv N p x y / r * Real.cos y) _ y :=
    ((dv.div_const r).mul Real.differentiable_cos.differentiableAt).hasDerivAt
  unfold sphereDiv dlon dlat at h0 ⊢
  have e1 := (dq1.mul du').deriv
  have e2 := (dq2.mul dv').deriv
  have r1 : (fun x => harmonicSum N q x y * -phiDeriv N p x y / r) = (fun x => harmonicSum N q x y) * fun x => -phiDeriv N p x y / r := by
    funext x; simp only [Pi.mul_apply]; ring
  have r2 : (fun y => harmonicSum N q x y * lamDeriv N p x y / r * Real.cos y) =
      (fun y => harmonicSum N q x y) * fun y => lamDeriv N p x y / r * Real.cos y := by
    funext y; simp only [Pi.mul_apply]; ring
  rw [r1, r2, e1, e2]
  rw [div_eq_zero_iff, or_iff_left (mul_ne_zero hr hy)] at h0
  generalize deriv (fun x => -phiDeriv N p x y / r) x = A at h0 ⊢
  generalize deriv (fun y => lamDeriv N p x y / r * Real.cos y) y = B at h0 ⊢
  field_simp
  linear_combination (r * harmonicSum N q x y) * h0

/-! ## Coefficients -/

theorem phiDeriv_dropMean (s : SpecField T) (x y : ℝ) : phiDeriv N (dropMean s) x y = phiDeriv N s x y := by
  unfold phiDeriv modeSum dropMean
  refine Finset.sum_congr rfl fun k _ => ?_
  split_ifs with hk
  · have hm : specM k = 0 := by have := specM_le_specN k; omega
    have e : deriv (legendre 0 0) y = 0 := by rw [legendre_zero]; simp
    rw [hk, hm]; simp [e]
  · rfl

theorem lamDeriv_dropMean (s : SpecField T) (x y : ℝ) : lamDeriv N (dropMean s) x y = lamDeriv N s x y := by
  unfold lamDeriv modeSum timesI dropMean
  refine Finset.sum_congr rfl fun k _ => ?_
  split_ifs with hk
  · have hm : specM k = 0 := by have := specM_le_specN k; omega
    rw [hm, legendreOverCos_zonal]; simp
  · rfl

theorem invLaplace_degMul {r : ℝ} (hr : r ≠ 0) (s : SpecField T) :
    invLaplace r (-degMul (fun n => n * (n + 1) / r ^ 2) s) = dropMean s := by
  funext k
  unfold invLaplace degMul dropMean
  simp only [Pi.neg_apply]
  split_ifs with hk
  · simp
  · have h1 : ((specN k : ℕ) : ℂ) ≠ 0 := by exact_mod_cast hk
    have h2 : ((specN k : ℕ) : ℂ) + 1 ≠ 0 := by exact_mod_cast (specN k).succ_ne_zero
    have h3 : (r : ℂ) ≠ 0 := by exact_mod_cast hr
    push_cast
    field_simp

variable {g : Grid ℝ} {B : ℕ} {S : g.Sph}

theorem Spharm.Exact.linear (h : Spharm.Exact N B S) : S.IsLinear := by
  refine ⟨h.analysis_add, h.analysis_smul, ?_, ?_, ?_, ?_, h.vrtdiv_add, h.vrtdiv_smul, ?_, ?_⟩
  · intro s s'
    simp only [h.synthesis]
    funext j i
    exact modeSum_add ..
  · intro c s
    simp only [h.synthesis]
    funext j i
    exact modeSum_smul ..
  · intro a a' b b'
    simp only [h.wind]
    refine Prod.ext ?_ ?_ <;> funext j i <;>
      simp only [Prod.fst_add, Prod.snd_add, Pi.add_apply, Grid.sample, invLaplace_add, phiDeriv_add, lamDeriv_add] <;> ring
  · intro c a b
    simp only [h.wind]
    refine Prod.ext ?_ ?_ <;> funext j i <;>
      simp only [Prod.smul_fst, Prod.smul_snd, Pi.smul_apply, smul_eq_mul, Grid.sample, invLaplace_smul, phiDeriv_smul, lamDeriv_smul] <;> ring
  · intro s s'
    simp only [h.gradient]
    refine Prod.ext ?_ ?_ <;> funext j i <;>
      simp only [Prod.fst_add, Prod.snd_add, Pi.add_apply, Grid.sample, phiDeriv_add, lamDeriv_add] <;> ring
  · intro c s
    simp only [h.gradient]
    refine Prod.ext ?_ ?_ <;> funext j i <;>
      simp only [Prod.smul_fst, Prod.smul_snd, Pi.smul_apply, smul_eq_mul, Grid.sample, phiDeriv_smul, lamDeriv_smul] <;> ring

theorem Spharm.Exact.fcor2 (h : Spharm.Exact N B S) (hT : 1 ≤ g.ntrunc) (hB : 1 ≤ B) : Grid.fcor2Spectral S = solidRotation N g.omega := by
  have e : zonalMode (k1 hT) (g.omega / N 1 0) = solidRotation N g.omega := by
    funext k
    unfold zonalMode solidRotation
    by_cases hk : k = k1 hT
    · subst hk; simp
    · rw [if_neg hk, if_neg]
      rintro ⟨h1, h2⟩
      exact hk (specIndex_inj (by rw [h1]; simp) (by rw [h2]; simp))
  rw [← e]
  unfold Grid.fcor2Spectral Grid.toSpectral
  rw [← h.coriolis_field hT]
  refine h.analysis _ (zonalMode_real _ _) fun k hk => ?_
  have : k ≠ k1 hT := by rintro rfl; simp at hk; omega
  simp [zonalMode, this]

theorem solidRotation_band (W : ℝ) {D : ℕ} (hD : 1 ≤ D) : BandLimited D (solidRotation N W : SpecField T) := by
  intro k hk
  unfold solidRotation
  rw [if_neg]; omega

theorem solidRotation_real (W : ℝ) : RealZonal (solidRotation N W : SpecField T) := by
  intro k _; unfold solidRotation; split_ifs <;> simp

theorem solidRotation_sub (W W' : ℝ) : (solidRotation N W - solidRotation N W' : SpecField T) = solidRotation N (W - W') := by
  funext k
  unfold solidRotation
  simp only [Pi.sub_apply]
  split_ifs
  · push_cast; ring
  · simp

theorem harmonicSum_solid (hN : ∀ n m, N n m ≠ 0) (hT : 1 ≤ T) (W x y : ℝ) : harmonicSum N (solidRotation N W : SpecField T) x y = 2 * W * Real.sin y := by
  unfold harmonicSum
  have h1 := hN 1 0
  rw [modeSum_single N legendre (k1 hT)]
  · simp [solidRotation, legendre_one]
    field_simp
  · intro l hl
    unfold solidRotation
    rw [if_neg]
    rintro ⟨h1, h2⟩
    exact hl (specIndex_inj (by rw [h1]; simp) (by rw [h2]; simp))

theorem BandLimited.add {D : ℕ} {a b : SpecField T} (ha : BandLimited D a) (hb : BandLimited D b) : BandLimited D (a + b) :=
  fun k hk => by rw [Pi.add_apply, ha k hk, hb k hk, add_zero]

theorem BandLimited.sub {D : ℕ} {a b : SpecField T} (ha : BandLimited D a) (hb : BandLimited D b) : BandLimited D (a - b) :=
  fun k hk => by rw [Pi.sub_apply, ha k hk, hb k hk, sub_zero]

/-- The divergence of the flux is computed without error if PV is resolved with twice the degree. -/
theorem flux_exact (hg : g.Valid) (h : Spharm.Exact N B S) {τ : Type} (s : St τ g) {D : ℕ} (hD : 1 ≤ D) (hT : 2 * D ≤ g.ntrunc)
    (hB : 2 * D ≤ B) (hs : BandLimited D s.q) :
    RealZonal (s.pvFluxSpectral S) ∧ BandLimited (2 * D) (s.pvFluxSpectral S) ∧ (∀ k, specN k = 0 → s.pvFluxSpectral S k = 0) ∧
    ∀ x y, Real.cos y ≠ 0 → harmonicSum N (s.pvFluxSpectral S) x y =
      sphereFlux g.rsphere (harmonicSum N s.q) (harmonicSum N (invLaplace g.rsphere (s.vorticitySpectral S))) x y := by
  have hr := hg.rsphere_pos.ne'
  have hv : BandLimited D (s.vorticitySpectral S) := by
    unfold St.vorticitySpectral
    rw [h.fcor2 (by omega) (by omega)]
    exact hs.sub (solidRotation_band _ hD)
  obtain ⟨a, b, ha, hb, ha', hb', e1, e2⟩ := exists_wind_product h.norm_ne (show D + D ≤ g.ntrunc by omega) s.q
    (invLaplace g.rsphere (s.vorticitySpectral S)) 0 hs (hv.invLaplace _) (fun k _ => rfl)
  rw [← two_mul] at ha' hb'
  set A : g.Spc := -degMul (fun n => n * (n + 1) / g.rsphere ^ 2) a with hA
  set C : g.Spc := -degMul (fun n => n * (n + 1) / g.rsphere ^ 2) b with hC
  have hAr : RealZonal A := fun k hk => by
    rw [hA]
    unfold degMul
    rw [Pi.neg_apply, Complex.neg_im, Complex.im_ofReal_mul, ha k hk, mul_zero, neg_zero]
  have hCr : RealZonal C := fun k hk => by
    rw [hC]
    unfold degMul
    rw [Pi.neg_apply, Complex.neg_im, Complex.im_ofReal_mul, hb k hk, mul_zero, neg_zero]
  have hAb : BandLimited (2 * D) A := fun k hk => by simp [hA, degMul, ha' k hk]
  have hCb : BandLimited (2 * D) C := fun k hk => by simp [hC, degMul, hb' k hk]
  have hiA : invLaplace g.rsphere A = dropMean a := invLaplace_degMul hr a
  have hiC : invLaplace g.rsphere C = dropMean b := invLaplace_degMul hr b
  have hdC : dropMean C = C := by
    funext k
    unfold dropMean
    split_ifs with hk
    · simp [hC, degMul, hk]
    · rfl
  have hflux : s.pvFluxSpectral S = C := by
    have hu : s.pv S * s.u S = (S.getuv A C).1 := by
      unfold St.pv St.u St.invertPv Grid.wind Grid.toGrid
      simp only [h.wind, h.synthesis]
      funext j i
      simp only [Pi.mul_apply, Grid.sample, hiA, hiC, phiDeriv_dropMean, lamDeriv_dropMean]
      rw [← e1, mul_div_assoc]
      congr 3
      · congr 1
        congr 1
        funext k; simp [invLaplace, degMul]
    have hv : s.pv S * s.v S = (S.getuv A C).2 := by
      unfold St.pv St.v St.invertPv Grid.wind Grid.toGrid
      simp only [h.wind, h.synthesis]
      funext j i
      simp only [Pi.mul_apply, Grid.sample, hiA, hiC, phiDeriv_dropMean, lamDeriv_dropMean]
      rw [← e2, mul_div_assoc]
      congr 3
      · congr 1
        congr 1
        funext k; simp [invLaplace, degMul]
    unfold St.pvFluxSpectral Grid.divergenceSpectral Grid.vorticityDivergenceSpectral
    rw [hu, hv, h.vrtdiv A C hAr hCr (fun k hk => hAb k (by omega)) (fun k hk => hCb k (by omega)), hdC]
  rw [hflux]
  refine ⟨hCr, hCb, fun k hk => by simp [hC, degMul, hk], fun x y hy => ?_⟩
  rw [sphereFlux_eq _ _ _ hy]
  simp only [e1, e2]
  rw [(sphere_wind g.rsphere a b hy x).2, ← harmonicSum_neg]

/-- Coefficients are determined by the values away from the poles. -/
theorem Spharm.Exact.coeff_unique (h : Spharm.Exact N B S) {a b : g.Spc} (ha : RealZonal a) (hb : RealZonal b) (ha' : BandLimited B a)
    (hb' : BandLimited B b) (hab : ∀ x y, Real.cos y ≠ 0 → harmonicSum N a x y = harmonicSum N b x y) : a = b := by
  have e : ∀ x y, harmonicSum N a x y = harmonicSum N b x y := by
    intro x y
    have hd : Dense {y : ℝ | Real.cos y ≠ 0} := by
      have : {y : ℝ | Real.cos y = 0}.Countable := by
        have : {y : ℝ | Real.cos y = 0} ⊆ Set.range fun k : ℤ => (2 * k + 1) * Real.pi / 2 := by
          intro y hy
          obtain ⟨k, hk⟩ := Real.cos_eq_zero_iff.mp hy
          exact ⟨k, hk.symm⟩
        exact (Set.countable_range _).mono this
      exact this.dense_compl ℝ
    have c1 : Continuous fun y => harmonicSum N a x y := (differentiable_lat legendre_contDiff a x).continuous
    have c2 : Continuous fun y => harmonicSum N b x y := (differentiable_lat legendre_contDiff b x).continuous
    exact congrFun (c1.ext_on hd c2 fun y hy => hab x y hy) y
  rw [← h.analysis a ha ha', ← h.analysis b hb hb', h.synthesis, h.synthesis]
  congr 1
  funext j i
  exact e _ _

end Barotropic
