import Verif.Spec.Spectrum
import Verif.Lemmas.Spectral
import Verif.Props.Galerkin

/-!
# C158: the energy spectrum of the truncated equation
-/

namespace Barotropic
open Real (cos sin)
open Set

variable {T : ℕ} {N : ℕ → ℕ → ℝ} {g : Grid ℝ} {S : g.Sph} {τ : Type} {M : BModel g}

theorem degreePart_eq (l : ℕ) (a : SpecField T) : degreePart l a = degMul (fun n => if n = l then 1 else 0) a := by
  funext k
  unfold degreePart degMul
  by_cases h : specN k = l <;> simp [h]

theorem modeDot_scaled (m : ℕ) (c d : ℝ) (a b : ℂ) : modeDot m (c * a) (d * b) = c * d * modeDot m a b := by
  rw [modeDot_smul, modeDot_comm, modeDot_smul, modeDot_comm]
  ring

/-- Energy by degree in terms of coefficients of vorticity -/
theorem degreeEnergy_eq (hr : g.rsphere ≠ 0) (s : St τ g) (l : ℕ) : s.degreeEnergy N S l =
    (∑ k, if specN k = l then (if specN k = 0 then 0 else g.rsphere ^ 2 / (specN k * (specN k + 1))) *
      (modeNorm g.rsphere N k * modeDot (specM k) (s.vorticitySpectral S k) (s.vorticitySpectral S k)) else 0) / 2 := by
  unfold St.degreeEnergy
  rw [poisson_eq_invLaplace, totalEnergy_eq hr, windPair_laplace hr, parseval hr]
  congr 1
  refine Finset.sum_congr rfl fun k _ => ?_
  rw [degreePart_eq]
  unfold invLaplace degMul
  dsimp only
  by_cases hl : specN k = l
  · rw [if_pos hl, if_pos hl, Complex.ofReal_one, one_mul]
    by_cases h0 : specN k = 0
    · simp [h0, modeDot_zero]
    · rw [if_neg h0, if_neg h0, ← mul_assoc, ← Complex.ofReal_mul, modeDot_scaled]
      have : (specN k : ℝ) ≠ 0 := by exact_mod_cast h0
      have : (specN k : ℝ) + 1 ≠ 0 := by positivity
      field_simp
  · rw [if_neg hl, if_neg hl]
    simp [modeDot_zero]

/-- Sums over degrees are sums over modes. -/
theorem degreeEnergy_sum (hr : g.rsphere ≠ 0) (s : St τ g) (c : ℕ → ℝ) : ∑ l ∈ Finset.range (g.ntrunc + 1), c l * s.degreeEnergy N S l =
    (∑ k, c (specN k) * ((if specN k = 0 then 0 else g.rsphere ^ 2 / (specN k * (specN k + 1))) *
      (modeNorm g.rsphere N k * modeDot (specM k) (s.vorticitySpectral S k) (s.vorticitySpectral S k)))) / 2 := by
  simp only [degreeEnergy_eq hr, ← mul_div_assoc, ← Finset.sum_div, Finset.mul_sum]
  rw [Finset.sum_comm]
  congr 1
  refine Finset.sum_congr rfl fun k _ => ?_
  rw [Finset.sum_eq_single (specN k) (fun l _ hl => by rw [if_neg hl.symm, mul_zero])
    (fun h => absurd (Finset.mem_range.2 (Nat.lt_succ_of_le (specN_le k))) h), if_pos rfl]

/-- C158: energies of degrees are not negative, there is none in degree 0, their sum is the kinetic energy and weighted with the squares of
their wavenumbers it is the enstrophy of the relative vorticity. -/
theorem C158_spectrum (hr : g.rsphere ≠ 0) (hN : ∀ n m, N n m ≠ 0) (s : St τ g) :
    (∀ l, 0 ≤ s.degreeEnergy N S l) ∧ s.degreeEnergy N S 0 = 0 ∧
    ∑ l ∈ Finset.range (g.ntrunc + 1), s.degreeEnergy N S l = totalEnergy g.rsphere (s.streamFn N S) ∧
    ∑ l ∈ Finset.range (g.ntrunc + 1), l * (l + 1) / g.rsphere ^ 2 * s.degreeEnergy N S l =
      totalEnstrophy g.rsphere (harmonicSum N (dropMean (s.vorticitySpectral S))) := by
  refine ⟨fun l => ?_, ?_, ?_, ?_⟩
  · rw [degreeEnergy_eq hr]
    refine div_nonneg (Finset.sum_nonneg fun k _ => ?_) zero_le_two
    have h1 := (modeNorm_pos hr hN k).le
    have h2 := modeDot_self_nonneg (specM k) (s.vorticitySpectral S k)
    split_ifs <;> positivity
  · rw [degreeEnergy_eq hr, Finset.sum_eq_zero, zero_div]
    intro k _
    split_ifs with h
    · rw [zero_mul]
    · rfl
  · have := degreeEnergy_sum (N := N) (S := S) hr s fun _ => 1
    simp only [one_mul] at this
    rw [this, streamFn_eq, totalEnergy_eq hr, windPair_laplace hr, parseval hr]
    congr 1
    refine Finset.sum_congr rfl fun k _ => ?_
    unfold invLaplace degMul
    dsimp only
    by_cases h0 : specN k = 0
    · simp [h0, modeDot_zero]
    · rw [if_neg h0, if_neg h0, ← mul_assoc (Complex.ofReal _), ← Complex.ofReal_mul, modeDot_scaled]
      have : (specN k : ℝ) ≠ 0 := by exact_mod_cast h0
      have : (specN k : ℝ) + 1 ≠ 0 := by positivity
      field_simp
  · rw [degreeEnergy_sum hr s fun l => l * (l + 1) / g.rsphere ^ 2, totalEnstrophy_eq, parseval hr]
    congr 1
    refine Finset.sum_congr rfl fun k _ => ?_
    unfold dropMean
    by_cases h0 : specN k = 0
    · simp [h0, modeDot_zero]
    · rw [if_neg h0, if_neg h0]
      have : (specN k : ℝ) ≠ 0 := by exact_mod_cast h0
      have : (specN k : ℝ) + 1 ≠ 0 := by positivity
      field_simp

/-- The flux does not change the distance to a solid-body rotation. -/
theorem shifted_deriv (hg : g.Valid) (h : Spharm.Dealiased N S) (h1 : 1 ≤ g.ntrunc) (hT : 2 * g.ntrunc + 1 ≤ g.nlat) {R : ℝ → g.Spc → g.Fld}
    {t0 t1 : ℝ} {Y : ℝ → g.Spc} (hY : M.Solution S R t0 t1 Y) {t : ℝ} (ht : t ∈ Icc t0 t1) {d : ℕ → ℝ} (hd1 : ∀ n ≠ 0, d n = 1) (W : ℝ) :
    HasDerivWithinAt (fun t => spherePair g.rsphere (harmonicSum N (degMul d (Y t - solidRotation N W))) (harmonicSum N (degMul d (Y t - solidRotation N W))) / 2)
      (spherePair g.rsphere (harmonicSum N (degMul d (Y t - solidRotation N W))) (harmonicSum N (degMul d (M.source S R t (Y t))))) (Icc t0 t1) t := by
  have hr := hg.rsphere_pos.ne'
  obtain ⟨s, hs⟩ : ∃ s : St ℝ g, s = ⟨t, Y t⟩ := ⟨_, rfl⟩
  obtain ⟨r1, r2, r3, r4⟩ := C119_rates hg h h1 hT s
  obtain ⟨-, -, -, -, -, -, -, -, hz⟩ := dealiased_flow hg h h1 hT s
  have hd := hY t ht
  have eD : galerkinRate S R t (Y t) + M.damping S (Y t) = M.source S R t (Y t) + (-1 : ℝ) • s.pvFluxSpectral S := by
    unfold galerkinRate pvBudget BModel.source
    rw [hs]
    funext k
    simp only [Pi.add_apply, Pi.neg_apply, neg_smul, one_smul]
    change S.grdtospec (R t (Y t)) k - (⟨t, Y t⟩ : St ℝ g).pvFluxSpectral S k + _ = _
    ring
  rw [eD] at hd
  have hv := degMul_deriv d (hd.sub_const (solidRotation N W : g.Spc))
  have e := (spherePair_deriv (N := N) hr hv hv).div_const 2
  rw [spherePair_comm, ← two_mul, mul_div_cancel_left₀ _ (two_ne_zero)] at e
  refine e.congr_deriv ?_
  have hsplit : degMul d (M.source S R t (Y t) + (-1 : ℝ) • s.pvFluxSpectral S) = degMul d (M.source S R t (Y t)) + (-1 : ℝ) • s.pvFluxSpectral S := by
    funext k
    simp only [degMul, Pi.add_apply, Pi.smul_apply, mul_add]
    congr 1
    by_cases hk : specN k = 0
    · rw [hz k hk]; simp
    · rw [hd1 _ hk]; simp
  rw [hsplit, spherePair_lin _ (harmonicSum_smooth _)]
  have hflux : spherePair g.rsphere (harmonicSum N (degMul d (Y t - solidRotation N W))) (harmonicSum N (s.pvFluxSpectral S)) = 0 := by
    rw [spherePair_comm]
    have e1 := spherePair_congr (N := N) hr (p := s.pvFluxSpectral S) (q := degMul d (Y t - solidRotation N W)) (q' := Y t + (-W) • (solidRotation N 1 : g.Spc)) fun k => by
      by_cases hk : specN k = 0
      · exact .inl (hz k hk)
      · refine .inr ?_
        simp only [degMul, hd1 _ hk, Pi.sub_apply, Pi.add_apply, Pi.smul_apply, solidRotation]
        split_ifs <;> simp <;> ring
    rw [e1, spherePair_lin _ (harmonicSum_smooth _), spherePair_comm, show harmonicSum N (Y t) = s.pvFn N by rw [hs]; rfl,
      show harmonicSum N (s.pvFluxSpectral S) = s.fluxFn N S from rfl, r2, zero_add, spherePair_comm]
    have e2 : harmonicSum N (solidRotation N 1 : g.Spc) = fun x y => 2 * sin y + 0 * (0 : ℝ) := by
      funext x y
      rw [harmonicSum_solid h.exact.norm_ne h1]
      ring
    have e3 : spherePair g.rsphere (harmonicSum N (solidRotation N 1 : g.Spc)) (s.fluxFn N S) = 2 * spherePair g.rsphere (fun _ y => sin y) (s.fluxFn N S) := by
      have hsm : SphereSmooth fun x y => sin y * s.fluxFn N S x y := sin_smooth.mul (harmonicSum_smooth _)
      have := sphereIntegral_lin hsm hsm g.rsphere 2 0
      unfold spherePair
      rw [zero_mul, add_zero] at this
      rw [← this, e2]
      exact sphereIntegral_congr _ fun x y _ => by ring
    rw [e3, r4]
    ring
  rw [hflux, mul_zero, add_zero]

theorem vorticity_shift (h : Spharm.Dealiased N S) (h1 : 1 ≤ g.ntrunc) (s : St τ g) :
    s.vorticitySpectral S = s.q - solidRotation N g.omega := by
  unfold St.vorticitySpectral
  rw [h.exact.fcor2 h1 h1]

/-- C158: without forcing, relative enstrophy is constant without diffusion and does not grow with diffusion that acts on relative vorticity. -/
theorem C158_enstrophy (hg : g.Valid) (h : Spharm.Dealiased N S) (h1 : 1 ≤ g.ntrunc) (hT : 2 * g.ntrunc + 1 ≤ g.nlat)
    {t0 t1 : ℝ} {Y : ℝ → g.Spc} (hY : M.Solution S 0 t0 t1 Y) :
    (M.diffusionCoeff = 0 → ∀ t ∈ Icc t0 t1, totalEnstrophy g.rsphere (harmonicSum N (dropMean ((⟨t, Y t⟩ : St ℝ g).vorticitySpectral S))) =
      totalEnstrophy g.rsphere (harmonicSum N (dropMean ((⟨t0, Y t0⟩ : St ℝ g).vorticitySpectral S)))) ∧
    (0 ≤ M.diffusionCoeff → M.diffusionBg = some g.fcor2 →
      AntitoneOn (fun t => totalEnstrophy g.rsphere (harmonicSum N (dropMean ((⟨t, Y t⟩ : St ℝ g).vorticitySpectral S)))) (Icc t0 t1)) := by
  have hr := hg.rsphere_pos.ne'
  have hN := h.exact.norm_ne
  have hd := fun t ht => shifted_deriv (M := M) hg h h1 hT hY (t := t) ht (d := fun n => if n = 0 then 0 else 1) (fun n hn => if_neg hn) g.omega
  simp only [vorticity_shift h h1, Grid.dropMean_eq_degMul, totalEnstrophy_eq]
  refine ⟨fun hν t ht => ?_, fun hν hb => antitone_of_deriv hd fun t _ => ?_⟩
  · refine const_of_deriv (f := fun t => spherePair g.rsphere (harmonicSum N (degMul (fun n => if n = 0 then 0 else 1) (Y t - solidRotation N g.omega)))
      (harmonicSum N (degMul (fun n => if n = 0 then 0 else 1) (Y t - solidRotation N g.omega))) / 2) (fun t ht => ?_) t ht
    refine (hd t ht).congr_deriv ?_
    rw [parseval hr]
    refine Finset.sum_eq_zero fun k _ => ?_
    unfold degMul
    rw [source_unforced h, hν]
    simp [modeDot_comm, modeDot_zero]
  · have hbg : M.background S = solidRotation N g.omega := by
      rw [← h.exact.fcor2 h1 h1]
      unfold BModel.background; rw [hb]; rfl
    rw [parseval hr]
    refine Finset.sum_nonpos fun k _ => ?_
    unfold degMul
    rw [source_unforced h, hbg, Pi.sub_apply, ← mul_assoc, ← Complex.ofReal_mul, modeDot_scaled]
    refine mul_nonpos_of_nonneg_of_nonpos (modeNorm_pos hr hN k).le (mul_nonpos_of_nonpos_of_nonneg ?_ (modeDot_self_nonneg _ _))
    have hp : 0 ≤ M.diffusionCoeff * ((specN k : ℝ) * (specN k + 1) / g.rsphere ^ 2) ^ M.diffusionOrder := by positivity
    dsimp only
    split_ifs
    · simp
    · linarith

/-- C158: every sum of energies with weights that are linear in the square of wavenumber is constant. -/
theorem C158_conserved (hg : g.Valid) (h : Spharm.Dealiased N S) (h1 : 1 ≤ g.ntrunc) (hT : 2 * g.ntrunc + 1 ≤ g.nlat) (hν : M.diffusionCoeff = 0)
    {t0 t1 : ℝ} {Y : ℝ → g.Spc} (hY : M.Solution S 0 t0 t1 Y) {t : ℝ} (ht : t ∈ Icc t0 t1) (a b : ℝ) :
    ∑ l ∈ Finset.range (g.ntrunc + 1), (a * (l * (l + 1)) + b) * (⟨t, Y t⟩ : St ℝ g).degreeEnergy N S l =
      ∑ l ∈ Finset.range (g.ntrunc + 1), (a * (l * (l + 1)) + b) * (⟨t0, Y t0⟩ : St ℝ g).degreeEnergy N S l := by
  have hr := hg.rsphere_pos.ne'
  have hN := h.exact.norm_ne
  have key : ∀ s : St ℝ g, ∑ l ∈ Finset.range (g.ntrunc + 1), (a * (l * (l + 1)) + b) * s.degreeEnergy N S l =
      a * g.rsphere ^ 2 * totalEnstrophy g.rsphere (harmonicSum N (dropMean (s.vorticitySpectral S))) + b * totalEnergy g.rsphere (s.streamFn N S) := by
    intro s
    obtain ⟨-, -, e1, e2⟩ := C158_spectrum (N := N) (S := S) hr hN s
    rw [← e1, ← e2, Finset.mul_sum, Finset.mul_sum, ← Finset.sum_add_distrib]
    refine Finset.sum_congr rfl fun l _ => ?_
    field_simp
  rw [key, key, (C158_enstrophy hg h h1 hT hY).1 hν t ht, (C119_conserved hg h h1 hT hν hY ht).2.2.1]

/-- C158, Fjørtoft's theorem: energy that leaves degree `L` cannot go to smaller scales only. -/
theorem C158_fjortoft (hg : g.Valid) (h : Spharm.Dealiased N S) (h1 : 1 ≤ g.ntrunc) (hT : 2 * g.ntrunc + 1 ≤ g.nlat) (hν : M.diffusionCoeff = 0)
    {t0 t1 : ℝ} {Y : ℝ → g.Spc} (hY : M.Solution S 0 t0 t1 Y) {t : ℝ} (ht : t ∈ Icc t0 t1) {L : ℕ} (hL : L ≤ g.ntrunc)
    (h0 : ∀ l, l ≠ L → (⟨t0, Y t0⟩ : St ℝ g).degreeEnergy N S l = 0) :
    ∑ l ∈ Finset.Ioc L g.ntrunc, ((l : ℝ) * (l + 1) - L * (L + 1)) * (⟨t, Y t⟩ : St ℝ g).degreeEnergy N S l =
      ∑ l ∈ Finset.range L, ((L : ℝ) * (L + 1) - l * (l + 1)) * (⟨t, Y t⟩ : St ℝ g).degreeEnergy N S l ∧
    2 * (L + 1) * ∑ l ∈ Finset.Ioc L g.ntrunc, (⟨t, Y t⟩ : St ℝ g).degreeEnergy N S l ≤
      (L * (L + 1) - 2) * ∑ l ∈ Finset.range L, (⟨t, Y t⟩ : St ℝ g).degreeEnergy N S l := by
  have hr := hg.rsphere_pos.ne'
  obtain ⟨p1, p2, -, -⟩ := C158_spectrum (N := N) (S := S) hr h.exact.norm_ne (⟨t, Y t⟩ : St ℝ g)
  have hc := C158_conserved hg h h1 hT hν hY ht 1 (-(L * (L + 1)))
  rw [Finset.sum_eq_zero (s := Finset.range (g.ntrunc + 1)) (f := fun l => (1 * ((l : ℝ) * (l + 1)) + -(L * (L + 1))) * (⟨t0, Y t0⟩ : St ℝ g).degreeEnergy N S l)
    (fun l _ => by
      by_cases hl : l = L
      · rw [hl]; ring
      · rw [h0 l hl, mul_zero])] at hc
  generalize (⟨t, Y t⟩ : St ℝ g).degreeEnergy N S = E at hc p1 p2 ⊢
  have hsplit : Finset.range (g.ntrunc + 1) = Finset.range L ∪ ({L} ∪ Finset.Ioc L g.ntrunc) := by
    ext l
    simp only [Finset.mem_range, Finset.mem_union, Finset.mem_singleton, Finset.mem_Ioc]
    omega
  have hdis1 : Disjoint (Finset.range L) ({L} ∪ Finset.Ioc L g.ntrunc) := by
    rw [Finset.disjoint_left]
    intro l
    simp only [Finset.mem_range, Finset.mem_union, Finset.mem_singleton, Finset.mem_Ioc]
    omega
  have hdis2 : Disjoint ({L} : Finset ℕ) (Finset.Ioc L g.ntrunc) := by
    rw [Finset.disjoint_left]
    intro l
    simp only [Finset.mem_singleton, Finset.mem_Ioc]
    omega
  rw [hsplit, Finset.sum_union hdis1, Finset.sum_union hdis2, Finset.sum_singleton] at hc
  have e1 : ∑ l ∈ Finset.Ioc L g.ntrunc, ((l : ℝ) * (l + 1) - L * (L + 1)) * E l = ∑ l ∈ Finset.range L, ((L : ℝ) * (L + 1) - l * (l + 1)) * E l := by
    have a : ∑ l ∈ Finset.range L, (1 * ((l : ℝ) * (l + 1)) + -(L * (L + 1))) * E l = -∑ l ∈ Finset.range L, ((L : ℝ) * (L + 1) - l * (l + 1)) * E l := by
      rw [← Finset.sum_neg_distrib]
      exact Finset.sum_congr rfl fun l _ => by ring
    have b : ∑ l ∈ Finset.Ioc L g.ntrunc, (1 * ((l : ℝ) * (l + 1)) + -(L * (L + 1))) * E l = ∑ l ∈ Finset.Ioc L g.ntrunc, ((l : ℝ) * (l + 1) - L * (L + 1)) * E l :=
      Finset.sum_congr rfl fun l _ => by ring
    rw [a, b] at hc
    linarith
  refine ⟨e1, ?_⟩
  rw [Finset.mul_sum, Finset.mul_sum]
  calc _ ≤ ∑ l ∈ Finset.Ioc L g.ntrunc, ((l : ℝ) * (l + 1) - L * (L + 1)) * E l := Finset.sum_le_sum fun l hl => by
        refine mul_le_mul_of_nonneg_right ?_ (p1 l)
        have : (L : ℝ) + 1 ≤ l := by exact_mod_cast (Finset.mem_Ioc.1 hl).1
        have h0 : (0 : ℝ) ≤ L := by positivity
        nlinarith
    _ = _ := e1
    _ ≤ _ := Finset.sum_le_sum fun l hl => by
        by_cases hl0 : l = 0
        · rw [hl0, p2, mul_zero, mul_zero]
        · refine mul_le_mul_of_nonneg_right ?_ (p1 l)
          have : (1 : ℝ) ≤ l := by exact_mod_cast Nat.one_le_iff_ne_zero.2 hl0
          nlinarith

/-- C158: energy never accumulates in small scales: that of degrees from `k` on is limited by the initial enstrophy, at all times, with or
without diffusion of relative vorticity. -/
theorem C158_tail (hg : g.Valid) (h : Spharm.Dealiased N S) (h1 : 1 ≤ g.ntrunc) (hT : 2 * g.ntrunc + 1 ≤ g.nlat)
    (hν : M.diffusionCoeff = 0 ∨ 0 ≤ M.diffusionCoeff ∧ M.diffusionBg = some g.fcor2)
    {t0 t1 : ℝ} {Y : ℝ → g.Spc} (hY : M.Solution S 0 t0 t1 Y) {t : ℝ} (ht : t ∈ Icc t0 t1) (k : ℕ) :
    k * (k + 1) * ∑ l ∈ Finset.Icc k g.ntrunc, (⟨t, Y t⟩ : St ℝ g).degreeEnergy N S l ≤
      ∑ l ∈ Finset.range (g.ntrunc + 1), l * (l + 1) * (⟨t0, Y t0⟩ : St ℝ g).degreeEnergy N S l := by
  have hr := hg.rsphere_pos.ne'
  have hr2 : 0 ≤ g.rsphere ^ 2 := by positivity
  have key : ∀ s : St ℝ g, ∑ l ∈ Finset.range (g.ntrunc + 1), l * (l + 1) * s.degreeEnergy N S l =
      g.rsphere ^ 2 * totalEnstrophy g.rsphere (harmonicSum N (dropMean (s.vorticitySpectral S))) := by
    intro s
    rw [← (C158_spectrum (N := N) (S := S) hr h.exact.norm_ne s).2.2.2, Finset.mul_sum]
    refine Finset.sum_congr rfl fun l _ => ?_
    field_simp
  obtain ⟨p1, -⟩ := C158_spectrum (N := N) (S := S) hr h.exact.norm_ne (⟨t, Y t⟩ : St ℝ g)
  obtain ⟨q1, q2⟩ := C158_enstrophy hg h h1 hT hY
  have hle : totalEnstrophy g.rsphere (harmonicSum N (dropMean ((⟨t, Y t⟩ : St ℝ g).vorticitySpectral S))) ≤
      totalEnstrophy g.rsphere (harmonicSum N (dropMean ((⟨t0, Y t0⟩ : St ℝ g).vorticitySpectral S))) := by
    rcases hν with hν | ⟨hν, hb⟩
    · exact (q1 hν t ht).le
    · exact q2 hν hb (left_mem_Icc.2 (ht.1.trans ht.2)) ht ht.1
  rw [key]
  refine le_trans ?_ (mul_le_mul_of_nonneg_left hle hr2)
  rw [← key, Finset.mul_sum]
  have hsub : Finset.Icc k g.ntrunc ⊆ Finset.range (g.ntrunc + 1) := fun l hl => by
    simp only [Finset.mem_Icc, Finset.mem_range] at *
    omega
  calc _ ≤ ∑ l ∈ Finset.Icc k g.ntrunc, l * (l + 1) * (⟨t, Y t⟩ : St ℝ g).degreeEnergy N S l := Finset.sum_le_sum fun l hl => by
        refine mul_le_mul_of_nonneg_right ?_ (p1 l)
        have : (k : ℝ) ≤ l := by exact_mod_cast (Finset.mem_Icc.1 hl).1
        have h0 : (0 : ℝ) ≤ k := by positivity
        nlinarith
    _ ≤ _ := Finset.sum_le_sum_of_subset_of_nonneg hsub fun l _ _ => mul_nonneg (by positivity) (p1 l)

/-- C158: the distance to every solid-body rotation is constant, so these are stable to perturbations of every size. -/
theorem C158_solid (hg : g.Valid) (h : Spharm.Dealiased N S) (h1 : 1 ≤ g.ntrunc) (hT : 2 * g.ntrunc + 1 ≤ g.nlat) (hν : M.diffusionCoeff = 0)
    {t0 t1 : ℝ} {Y : ℝ → g.Spc} (hY : M.Solution S 0 t0 t1 Y) {t : ℝ} (ht : t ∈ Icc t0 t1) (c : ℝ) :
    totalEnstrophy g.rsphere (fun x y => (⟨t, Y t⟩ : St ℝ g).pvFn N x y - c * sin y) =
      totalEnstrophy g.rsphere fun x y => (⟨t0, Y t0⟩ : St ℝ g).pvFn N x y - c * sin y := by
  have hr := hg.rsphere_pos.ne'
  have hd := fun t ht => shifted_deriv (M := M) hg h h1 hT hY (t := t) ht (d := fun _ => 1) (fun n hn => rfl) (c / 2)
  have e : ∀ t, (fun x y => (⟨t, Y t⟩ : St ℝ g).pvFn N x y - c * sin y) = harmonicSum N (degMul (fun _ => 1) (Y t - solidRotation N (c / 2))) := by
    intro t
    funext x y
    have e1 : degMul (fun _ => 1) (Y t - solidRotation N (c / 2)) = Y t + (-1 : ℝ) • (solidRotation N (c / 2) : g.Spc) := by
      funext k
      simp [degMul, sub_eq_add_neg]
    rw [e1, harmonicSum_lin, harmonicSum_solid h.exact.norm_ne h1]
    unfold St.pvFn
    ring
  rw [e, e, totalEnstrophy_eq, totalEnstrophy_eq]
  refine const_of_deriv (f := fun t => spherePair g.rsphere (harmonicSum N (degMul (fun _ => 1) (Y t - solidRotation N (c / 2))))
    (harmonicSum N (degMul (fun _ => 1) (Y t - solidRotation N (c / 2)))) / 2) (fun t ht => ?_) t ht
  refine (hd t ht).congr_deriv ?_
  rw [parseval hr]
  refine Finset.sum_eq_zero fun k _ => ?_
  unfold degMul
  rw [source_unforced h, hν]
  simp [modeDot_comm, modeDot_zero]

/-- Non-vacuity of C158: on a grid of 7 latitudes with truncation 2 there is a solution that begins with energy in degree 2 only. -/
example : ∃ S : grid30.Sph, Spharm.Dealiased (fun _ _ => 1) S ∧ 1 ≤ grid30.ntrunc ∧ 2 * grid30.ntrunc + 1 ≤ grid30.nlat ∧
    ∃ t1 Y, 0 < t1 ∧ (⟨none, 2, 0, none⟩ : BModel grid30).Solution S 0 0 t1 Y ∧ 2 ≤ grid30.ntrunc ∧
      (∀ l, l ≠ 2 → (⟨0, Y 0⟩ : St ℝ grid30).degreeEnergy (fun _ _ => 1) S l = 0) ∧ 0 < (⟨0, Y 0⟩ : St ℝ grid30).degreeEnergy (fun _ _ => 1) S 2 := by
  have hn : grid30.nlat = 7 := grid30_nlat
  have ht : grid30.ntrunc = 2 := rfl
  have hr := grid30_valid.rsphere_pos.ne'
  have h1 : 1 ≤ grid30.ntrunc := by rw [ht]; norm_num
  have hN : ∀ n m : ℕ, (fun _ _ => (1 : ℝ)) n m ≠ 0 := fun _ _ => one_ne_zero
  obtain ⟨⟨S, h⟩, -⟩ := C119_exists (N := fun _ _ => 1) grid30_valid (by rw [hn, ht]; norm_num) hN
  obtain ⟨k, hk⟩ : ∃ k : Fin (nspec grid30.ntrunc), specN k = 2 := by
    rw [ht]
    exact ⟨⟨2, by decide⟩, by decide⟩
  obtain ⟨t1, Y, h2, -, h3, h4⟩ := C114_exists (M := ⟨none, 2, 0, none⟩) (R := 0) h.exact.linear le_rfl (zero_lt_one (α := ℝ))
    (fun B => ⟨0, fun t _ t' _ q q' _ _ => by simp⟩) (Pi.single k 1 + solidRotation (fun _ _ => 1) grid30.omega)
  have hv : (⟨0, Y 0⟩ : St ℝ grid30).vorticitySpectral S = Pi.single k 1 := by
    rw [vorticity_shift h h1, h4, add_sub_cancel_right]
  refine ⟨S, h, h1, by rw [hn, ht]; norm_num, t1, Y, h2, h3, le_rfl, fun l hl => ?_, ?_⟩
  · rw [degreeEnergy_eq hr, hv, Finset.sum_eq_zero, zero_div]
    intro j _
    by_cases hj : j = k
    · rw [if_neg (by rw [hj, hk]; exact hl.symm)]
    · simp [Pi.single_eq_of_ne hj, modeDot_zero]
  · rw [degreeEnergy_eq hr, hv, Finset.sum_eq_single k (fun j _ hj => by simp [Pi.single_eq_of_ne hj, modeDot_zero]) (by simp), Pi.single_eq_same, hk]
    have := modeNorm_pos hr hN k
    have : modeDot (specM k) 1 1 = 1 := by simp [modeDot]
    rw [this]
    have : 0 < grid30.rsphere ^ 2 := by positivity
    norm_num
    positivity

end Barotropic
