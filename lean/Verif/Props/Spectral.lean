import Verif.Lemmas.Spectral

/-!
# Spectral operators: C28 – C31
-/

namespace Barotropic
open Grid Spharm

variable {g : Grid ℝ}

/-- C28: the solution has zero global mean, solves `(Δ - a) f = rhs` in every non-constant mode of degree `n`
(eigenvalue of Δ: `-n(n+1)/r²`), and is the only such field. -/
theorem C28_poisson (hr : g.rsphere ≠ 0) (rhs : g.Spc) (a : ℝ) (ha : 0 ≤ a) :
    (∀ k, specN k = 0 → solvePoissonSpectral rhs a k = 0) ∧
    (∀ k, specN k ≠ 0 →
      laplaceSpectral (solvePoissonSpectral rhs a) k - a * solvePoissonSpectral rhs a k = rhs k) ∧
    (∀ f : g.Spc, (∀ k, specN k = 0 → f k = 0) → (∀ k, specN k ≠ 0 → laplaceSpectral f k - a * f k = rhs k) →
      f = solvePoissonSpectral rhs a) ∧
    (∀ (f : g.Spc) k, laplaceSpectral f k = -(((specN k : ℝ) * (specN k + 1) / g.rsphere ^ 2 : ℝ) : ℂ) * f k) := by
  have hz : ∀ k, specN k = 0 → solvePoissonSpectral rhs a k = 0 := by
    intro k hk; unfold solvePoissonSpectral; rw [if_pos (specN_eq_zero.mp hk)]
  have hne : ∀ k : Fin (nspec g.ntrunc), specN k ≠ 0 → ((g.eig k : ℂ) + a) ≠ 0 := by
    intro k hk
    have := eig_pos hr hk
    have h2 : g.eig k + a ≠ 0 := by linarith
    exact_mod_cast h2
  refine ⟨hz, ?_, ?_, ?_⟩
  · intro k hk
    have := hne k hk
    unfold laplaceSpectral solvePoissonSpectral
    rw [if_neg (fun e => hk (specN_eq_zero.mpr e))]
    push_cast
    field_simp
    ring
  · intro f h0 h1
    funext k
    by_cases hk : specN k = 0
    · rw [h0 k hk, hz k hk]
    · have := hne k hk
      have h2 := h1 k hk
      unfold solvePoissonSpectral
      rw [if_neg (fun e => hk (specN_eq_zero.mpr e))]
      unfold laplaceSpectral at h2
      push_cast
      rw [eq_div_iff this, ← h2]; ring
  · intro f k
    rw [laplace_eq_degMul]; unfold degMul; push_cast; ring

/-- C28: Laplacian and Poisson solver are inverse to each other up to the constant mode. -/
theorem C28_inverse (hr : g.rsphere ≠ 0) (f : g.Spc) :
    laplaceSpectral (solvePoissonSpectral f 0) = dropMean f ∧
    ((∀ k, specN k = 0 → f k = 0) → laplaceSpectral (solvePoissonSpectral f 0) = f) ∧
    solvePoissonSpectral (laplaceSpectral f) 0 = dropMean f := by
  have hne : ∀ k : Fin (nspec g.ntrunc), specN k ≠ 0 → (g.eig k : ℂ) ≠ 0 := by
    intro k hk; exact_mod_cast (eig_pos hr hk).ne'
  have h1 : laplaceSpectral (solvePoissonSpectral f 0) = dropMean f := by
    funext k
    unfold laplaceSpectral solvePoissonSpectral dropMean
    by_cases hk : specN k = 0
    · rw [if_pos (specN_eq_zero.mp hk), if_pos hk]; simp
    · have := hne k hk
      rw [if_neg (fun e => hk (specN_eq_zero.mpr e)), if_neg hk]
      push_cast; rw [add_zero]; field_simp
  refine ⟨h1, ?_, ?_⟩
  · intro h0
    rw [h1]; funext k; unfold dropMean
    split_ifs with hk
    · exact (h0 k hk).symm
    · rfl
  · funext k
    unfold laplaceSpectral solvePoissonSpectral dropMean
    by_cases hk : specN k = 0
    · rw [if_pos (specN_eq_zero.mp hk), if_pos hk]
    · have := hne k hk
      rw [if_neg (fun e => hk (specN_eq_zero.mpr e)), if_neg hk]
      push_cast; rw [add_zero]; field_simp

/-- Non-vacuity of C28: there is a mode that is not constant, and the constant mode exists. -/
example : grid30.rsphere ≠ 0 ∧ (∃ k : Fin (nspec grid30.ntrunc), specN k ≠ 0) ∧
    ∃ k : Fin (nspec grid30.ntrunc), specN k = 0 :=
  ⟨grid30_valid.rsphere_pos.ne', ⟨k1 (by unfold grid30; norm_num), by simp⟩, ⟨k0 _, by simp⟩⟩

/-- The storage order used by the solver ("entry 0 is the mean") is right: index 0 and only index 0 has degree 0, and
the coefficients enumerate each pair `0 ≤ m ≤ n ≤ T` exactly once. -/
theorem C28_storage (T : ℕ) :
    (∀ k : Fin (nspec T), specN k = 0 ↔ k.val = 0) ∧
    (∀ m n, m ≤ n → n ≤ T → ∃! k : Fin (nspec T), specM k = m ∧ specN k = n) ∧
    2 * nspec T = (T + 1) * (T + 2) := by
  refine ⟨fun k => specN_eq_zero, ?_, nspec_eq T⟩
  intro m n hmn hn
  have hm : (m, n) ∈ specIndex T := mem_specIndex.mpr ⟨hmn, hn⟩
  obtain ⟨k, hk⟩ := List.mem_iff_get.mp hm
  refine ⟨k, ⟨congrArg Prod.fst hk, congrArg Prod.snd hk⟩, ?_⟩
  rintro l ⟨h1, h2⟩
  exact specIndex_inj (h1.trans (congrArg Prod.fst hk).symm) (h2.trans (congrArg Prod.snd hk).symm)

/-- C29: the diffusion step solves the implicit Euler equation
`f' = f + dt·coeff·(-1)^(order+1)·Δ^order f'` in every mode. -/
theorem C29_implicit (f : g.Spc) {coeff dt : ℝ} (hc : 0 ≤ dt * coeff) (order : ℕ) (k : Fin (nspec g.ntrunc)) :
    solveDiffusionSpectral f coeff dt order k =
      f k + dt * coeff * (-1) ^ (order + 1) * (laplaceSpectral^[order] (solveDiffusionSpectral f coeff dt order)) k := by
  rw [laplace_iterate]
  have hpos : (1 + dt * coeff * g.eig k ^ order : ℝ) ≠ 0 := by
    have := pow_nonneg (eig_nonneg k) order
    have := mul_nonneg hc this
    linarith
  have hC : (1 + dt * coeff * (g.eig k : ℂ) ^ order) ≠ 0 := by exact_mod_cast hpos
  have hs : ((-1 : ℂ)) ^ (order + 1) * (-1) ^ order = -1 := by
    rw [← pow_add, show order + 1 + order = 2 * order + 1 by ring, pow_succ, pow_mul]; simp
  unfold solveDiffusionSpectral
  push_cast
  have : (dt : ℂ) * coeff * (-1) ^ (order + 1) *
      ((-1) ^ order * (g.eig k : ℂ) ^ order * (f k / (1 + dt * coeff * (g.eig k : ℂ) ^ order))) =
      -(dt * coeff * (g.eig k : ℂ) ^ order * (f k / (1 + dt * coeff * (g.eig k : ℂ) ^ order))) := by
    have e : (dt : ℂ) * coeff * (-1) ^ (order + 1) *
      ((-1) ^ order * (g.eig k : ℂ) ^ order * (f k / (1 + dt * coeff * (g.eig k : ℂ) ^ order))) =
      ((-1 : ℂ) ^ (order + 1) * (-1) ^ order) *
        (dt * coeff * (g.eig k : ℂ) ^ order * (f k / (1 + dt * coeff * (g.eig k : ℂ) ^ order))) := by ring
    rw [e, hs]; ring
  rw [this]
  field_simp
  ring

/-- C29: for any non-negative `dt·coeff` the step multiplies each mode by a factor in (0, 1] that depends on the degree
only and decreases with it; the constant mode is unchanged for order ≥ 1. -/
theorem C29_stable {coeff dt : ℝ} (hc : 0 ≤ dt * coeff) (order : ℕ) :
    ∃ d : ℕ → ℝ, (∀ n, 0 < d n ∧ d n ≤ 1) ∧ Antitone d ∧ (1 ≤ order → d 0 = 1) ∧
      (0 < dt * coeff → 1 ≤ order → g.rsphere ≠ 0 → StrictAnti d) ∧
      ∀ (f : g.Spc) k, solveDiffusionSpectral f coeff dt order k = d (specN k) * f k := by
  set e : ℕ → ℝ := fun n => ((n : ℝ) * (n + 1) / g.rsphere ^ 2) ^ order with he
  have e0 : ∀ n, 0 ≤ e n := fun n => by rw [he]; positivity
  have emono : Monotone e := by
    intro a b hab
    have : (a : ℝ) ≤ b := by exact_mod_cast hab
    simp only [he]; gcongr
  have hd : ∀ n, 1 ≤ 1 + dt * coeff * e n := fun n => by have := mul_nonneg hc (e0 n); linarith
  refine ⟨fun n => 1 / (1 + dt * coeff * e n), ?_, ?_, ?_, ?_, ?_⟩
  · intro n
    have := hd n
    exact ⟨by positivity, by rw [div_le_one (by linarith)]; exact this⟩
  · intro a b hab
    have := hd a
    have := emono hab
    exact one_div_le_one_div_of_le (by linarith) (by gcongr)
  · intro ho
    simp only [he]
    have : ((0 : ℕ) : ℝ) * ((0 : ℕ) + 1) / g.rsphere ^ 2 = 0 := by simp
    rw [this, zero_pow (by omega)]; simp
  · intro hp ho hr a b hab
    have hlt : e a < e b := by
      have h1 : (a : ℝ) < b := by exact_mod_cast hab
      have hr2 : 0 < g.rsphere ^ 2 := by positivity
      have h2 : (a : ℝ) * (a + 1) / g.rsphere ^ 2 < (b : ℝ) * (b + 1) / g.rsphere ^ 2 := by
        apply div_lt_div_of_pos_right _ hr2
        have : (0 : ℝ) ≤ a := Nat.cast_nonneg a
        nlinarith
      exact pow_lt_pow_left₀ h2 (by positivity) (by omega)
    have := hd a
    exact one_div_lt_one_div_of_lt (by linarith) (by have := mul_lt_mul_of_pos_left hlt hp; linarith)
  · intro f k
    rw [diffusion_eq_degMul]; rfl

/-- C29: no mode is amplified, and the global mean is unchanged for order ≥ 1. -/
theorem C29_modes (f : g.Spc) {coeff dt : ℝ} (hc : 0 ≤ coeff) (hdt : 0 ≤ dt) (order : ℕ) :
    (∀ k, ‖solveDiffusionSpectral f coeff dt order k‖ ≤ ‖f k‖) ∧
    (∀ k l, specN k ≤ specN l →
      ‖solveDiffusionSpectral f coeff dt order l‖ * ‖f k‖ ≤ ‖solveDiffusionSpectral f coeff dt order k‖ * ‖f l‖) ∧
    (1 ≤ order → ∀ k, specN k = 0 → solveDiffusionSpectral f coeff dt order k = f k) := by
  obtain ⟨d, h1, h2, h3, _, h4⟩ := C29_stable (g := g) (mul_nonneg hdt hc) order
  have hn : ∀ k, ‖solveDiffusionSpectral f coeff dt order k‖ = d (specN k) * ‖f k‖ := by
    intro k
    rw [h4, norm_mul, Complex.norm_real, Real.norm_eq_abs, abs_of_pos (h1 _).1]
  refine ⟨?_, ?_, ?_⟩
  · intro k
    rw [hn]
    exact mul_le_of_le_one_left (norm_nonneg _) (h1 _).2
  · intro k l hkl
    rw [hn, hn]
    have := mul_le_mul_of_nonneg_right (h2 hkl) (mul_nonneg (norm_nonneg (f k)) (norm_nonneg (f l)))
    linarith
  · intro ho k hk
    rw [h4, hk, h3 ho]; simp

/-- Non-vacuity of C29 -/
example : (0 : ℝ) ≤ 600 * 1e5 := by norm_num

/-- C30: the gridded operators are linear. -/
theorem C30_linear (S : g.Sph) (h : S.IsLinear) (a b : ℝ) (f f' u u' v v' : g.Fld) (c coeff dt : ℝ) (order : ℕ) :
    laplace S (a • f + b • f') = a • laplace S f + b • laplace S f' ∧
    solvePoisson S (a • f + b • f') c = a • solvePoisson S f c + b • solvePoisson S f' c ∧
    solveDiffusion S (a • f + b • f') coeff dt order =
      a • solveDiffusion S f coeff dt order + b • solveDiffusion S f' coeff dt order ∧
    vorticity S (a • u + b • u') (a • v + b • v') = a • vorticity S u v + b • vorticity S u' v' ∧
    divergence S (a • u + b • u') (a • v + b • v') = a • divergence S u v + b • divergence S u' v' ∧
    gradient S (a • f + b • f') = a • gradient S f + b • gradient S f' ∧
    wind S (.inl (a • u + b • u')) (.inl (a • v + b • v')) =
      a • wind S (.inl u) (.inl v) + b • wind S (.inl u') (.inl v') := by
  have hs : ∀ f f' : g.Fld, S.grdtospec (a • f + b • f') = a • S.grdtospec f + b • S.grdtospec f' := by
    intro f f'; rw [h.grdtospec_add, h.grdtospec_smul, h.grdtospec_smul]
  have hgd : ∀ s s' : g.Spc, S.spectogrd (a • s + b • s') = a • S.spectogrd s + b • S.spectogrd s' := by
    intro f f'; rw [h.spectogrd_add, h.spectogrd_smul, h.spectogrd_smul]
  have hd : ∀ (c : ℕ → ℝ) (s s' : g.Spc), degMul c (a • s + b • s') = a • degMul c s + b • degMul c s' := by
    intro c s s'; rw [degMul_add, degMul_smul, degMul_smul]
  have hvd : S.getvrtdivspec (a • u + b • u') (a • v + b • v') =
      a • S.getvrtdivspec u v + b • S.getvrtdivspec u' v' := by
    rw [h.getvrtdiv_add, h.getvrtdiv_smul, h.getvrtdiv_smul]
  refine ⟨?_, ?_, ?_, ?_, ?_, ?_, ?_⟩
  · simp only [laplace, toGrid, toSpectral, laplace_eq_degMul]; rw [hs, hd, hgd]
  · simp only [solvePoisson, toGrid, toSpectral, poisson_eq_degMul]; rw [hs, hd, hgd]
  · simp only [solveDiffusion, toGrid, toSpectral, diffusion_eq_degMul]; rw [hs, hd, hgd]
  · simp only [vorticity, toGrid, vorticitySpectral, vorticityDivergenceSpectral]
    rw [hvd, Prod.fst_add, Prod.smul_fst, Prod.smul_fst, hgd]
  · simp only [divergence, toGrid, divergenceSpectral, vorticityDivergenceSpectral]
    rw [hvd, Prod.snd_add, Prod.smul_snd, Prod.smul_snd, hgd]
  · simp only [gradient, toSpectral]
    rw [hs, h.getgrad_add, h.getgrad_smul, h.getgrad_smul]
  · simp only [wind, toSpectral]
    rw [hs, hs, h.getuv_add, h.getuv_smul, h.getuv_smul]

/-- C30: with a transform pair that round-trips, the spectrum of the gridded result is the spectral result, so successive
gridded operations compose without loss. -/
theorem C30_compose (S : g.Sph) (h : S.RoundTrips) (f : g.Fld) (a coeff dt : ℝ) (order : ℕ) :
    toSpectral S (laplace S f) = laplaceSpectral (toSpectral S f) ∧
    toSpectral S (solvePoisson S f a) = solvePoissonSpectral (toSpectral S f) a ∧
    toSpectral S (solveDiffusion S f coeff dt order) = solveDiffusionSpectral (toSpectral S f) coeff dt order ∧
    laplace S (laplace S f) = toGrid S (laplaceSpectral (laplaceSpectral (toSpectral S f))) := by
  have key : ∀ c, toSpectral S (toGrid S (degMul c (toSpectral S f))) = degMul c (toSpectral S f) :=
    fun c => h.adm_degMul c _ (h.adm_analysis f)
  have hl : toSpectral S (laplace S f) = laplaceSpectral (toSpectral S f) := by
    unfold laplace; rw [laplace_eq_degMul]; exact key _
  refine ⟨hl, ?_, ?_, ?_⟩
  · unfold solvePoisson; rw [poisson_eq_degMul]; exact key _
  · unfold solveDiffusion; rw [diffusion_eq_degMul]; exact key _
  · rw [laplace, hl]

/-- C30: `solve_poisson(laplace(f))` is `f` minus its constant mode for every band-limited `f`, and
`laplace(solve_poisson(f))` likewise; `solve_poisson` solves the gridded equation for mean-free `f`. -/
theorem C30_poisson_laplace (S : g.Sph) (hr : g.rsphere ≠ 0) (hl : S.IsLinear) (h : S.RoundTrips) (hc : S.ConstMode)
    (f : g.Fld) (hf : S.spectogrd (S.grdtospec f) = f) :
    ∃ c : ℝ, (S.spectogrd (fun k => if specN k = 0 then S.grdtospec f k else 0) = fun _ _ => c) ∧
      solvePoisson S (laplace S f) 0 = f - (fun _ _ => c) ∧ laplace S (solvePoisson S f 0) = f - fun _ _ => c := by
  set m : g.Spc := fun k => if specN k = 0 then S.grdtospec f k else 0 with hm
  have hmm : IsMeanMode m := fun k hk => by simp [hm, hk]
  obtain ⟨c, hc⟩ := hc.synth_const m hmm
  have hdm : dropMean (S.grdtospec f) = S.grdtospec f - m := by
    funext k; simp only [dropMean, hm, Pi.sub_apply]; split_ifs <;> simp
  obtain ⟨h1, h2, h3, h4⟩ := C30_compose S h f 0 0 0 0
  have hfin : S.spectogrd (dropMean (S.grdtospec f)) = f - fun _ _ => c := by
    rw [hdm, hl.spectogrd_sub, hf, hc]
  refine ⟨c, hc, ?_, ?_⟩
  · unfold solvePoisson; rw [h1, (C28_inverse hr _).2.2]; exact hfin
  · unfold laplace; rw [h2, (C28_inverse hr _).1]; exact hfin

/-- C30: vorticity and divergence of the wind computed from resolved vorticity and divergence fields give these fields
back, up to the constant mode. -/
theorem C30_wind (S : g.Sph) (hw : S.WindInverse) (a b : g.Spc) (ha : S.Resolved a) (hb : S.Resolved b) :
    let uv := wind S (.inr a) (.inr b)
    vorticity S uv.1 uv.2 = toGrid S (dropMean a) ∧ divergence S uv.1 uv.2 = toGrid S (dropMean b) := by
  intro uv
  have := hw.vrtdiv_uv a b ha hb
  constructor
  · unfold vorticity vorticitySpectral vorticityDivergenceSpectral
    rw [show S.getvrtdivspec uv.1 uv.2 = _ from this]
  · unfold divergence divergenceSpectral vorticityDivergenceSpectral
    rw [show S.getvrtdivspec uv.1 uv.2 = _ from this]

/-- Non-vacuity of C30: the laws hold together for a concrete transform, for which a non-constant field is
band-limited. -/
example : sph30.IsLinear ∧ sph30.RoundTrips ∧ sph30.ConstMode ∧ sph30.WindInverse ∧
    sph30.spectogrd (sph30.grdtospec grid30.fcor2) = grid30.fcor2 :=
  ⟨sph30_lawful.lin, sph30_lawful.rt, sph30_lawful.const, sph30_lawful.wind, sph30_lawful.coriolis⟩

/-- C31 is false of the code: `vorticity_divergence` raises NameError for all arguments. -/
theorem C31_refuted (S : g.Sph) (u v : g.Fld) : vorticityDivergence S u v = .error .nameError := by
  have : "vorticity_divergence_spectral" ∉ moduleGlobals := by decide
  unfold vorticityDivergence lookupGlobal
  rw [if_neg this]; rfl

/-- C31, the part that holds: the two single-field methods return the two components of one joint evaluation. -/
theorem C31_components_partial (S : g.Sph) (u v : g.Fld) :
    vorticity S u v = S.spectogrd (S.getvrtdivspec u v).1 ∧ divergence S u v = S.spectogrd (S.getvrtdivspec u v).2 :=
  ⟨rfl, rfl⟩

end Barotropic
