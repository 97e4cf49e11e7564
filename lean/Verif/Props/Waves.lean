import Verif.Lemmas.Waves
import Verif.Props.Equation
import Mathlib.Analysis.SpecialFunctions.Trigonometric.Bounds
import Mathlib.Analysis.Calculus.MeanValue

/-!
# Rossby-Haurwitz waves: C107, C108
-/

namespace Barotropic
open Complex

variable {T : ℕ} {N : ℕ → ℕ → ℝ} {g : Grid ℝ} {B : ℕ} {S : g.Sph}

/-- C107: the divergence of the flux of PV in the equation is computed without error if PV is limited to half of the degrees: it is
that of the function on the sphere whose values are `pv`, advected by the non-divergent wind whose absolute vorticity is this function
(C106). There is no aliasing. -/
theorem C107_flux (hg : g.Valid) (h : Spharm.Exact N B S) {τ : Type} (s : St τ g) {D : ℕ} (hD : 1 ≤ D) (hT : 2 * D ≤ g.ntrunc)
    (hB : 2 * D ≤ B) (hs : BandLimited D s.q) :
    let Q := harmonicSum N s.q
    let Ψ := harmonicSum N (Grid.solvePoissonSpectral (s.vorticitySpectral S) 0)
    s.pv S = g.sample Q ∧ s.streamfunction S = g.sample Ψ ∧
    ∀ x y, Real.cos y ≠ 0 → harmonicSum N (s.pvFluxSpectral S) x y = sphereFlux g.rsphere Q Ψ x y ∧
      sphereFlux g.rsphere Q Ψ x y = -(sphereGrad g.rsphere Ψ x y).2 * (sphereGrad g.rsphere Q x y).1 +
        (sphereGrad g.rsphere Ψ x y).1 * (sphereGrad g.rsphere Q x y).2 := by
  intro Q Ψ
  refine ⟨h.synthesis _, h.synthesis _, fun x y hy => ⟨?_, ?_⟩⟩
  · rw [(flux_exact hg h s hD hT hB hs).2.2.2 x y hy]
    simp only [Ψ, Q, poisson_eq_invLaplace]
  · have hr := hg.rsphere_pos.ne'
    simp only [Ψ, Q]
    rw [sphereFlux_advective _ _ _ hy]
    simp only [sphereGrad, dlon_harmonicSum, dlat_harmonicSum]
    field_simp

/-! ## Waves -/

theorem harmonicSum_add (a b : SpecField T) (x y : ℝ) : harmonicSum N (a + b) x y = harmonicSum N a x y + harmonicSum N b x y := modeSum_add ..

theorem lamDeriv_solid (W x y : ℝ) : lamDeriv N (solidRotation N W : SpecField T) x y = 0 := by
  refine modeSum_eq_zero N _ (fun k => ?_) x y
  by_cases hk : specM k = 0
  · exact .inr fun y => by rw [hk]; exact legendreOverCos_zonal _ y
  · exact .inl (by simp [timesI, solidRotation, hk])

theorem phiDeriv_solid (hN : ∀ n m, N n m ≠ 0) (hT : 1 ≤ T) (W x y : ℝ) : phiDeriv N (solidRotation N W : SpecField T) x y = 2 * W * Real.cos y := by
  rw [← dlat_harmonicSum]
  unfold dlat
  simp only [harmonicSum_solid hN hT]
  exact ((Real.hasDerivAt_sin y).const_mul _).deriv

theorem invLaplace_wave (r V : ℝ) {n : ℕ} (hn : 1 ≤ n) {a : SpecField T} (ha : SingleDegree n a) :
    invLaplace r (solidRotation N V + a) = (-(r ^ 2 / 2)) • solidRotation N V + (-(r ^ 2 / (n * (n + 1)))) • a := by
  have h1 : invLaplace r (solidRotation N V : SpecField T) = (-(r ^ 2 / 2)) • solidRotation N V := by
    funext k
    simp only [invLaplace, degMul, solidRotation, Pi.smul_apply, Complex.real_smul]
    by_cases hk : specM k = 0 ∧ specN k = 1
    · rw [if_pos hk, hk.2]; norm_num
    · rw [if_neg hk]; simp
  have h2 : invLaplace r a = (-(r ^ 2 / (n * (n + 1)))) • a := by
    funext k
    simp only [invLaplace, degMul, Pi.smul_apply, Complex.real_smul]
    by_cases hk : specN k = n
    · rw [if_neg (by omega), hk]
    · rw [ha k hk]; simp
  rw [invLaplace_add, h1, h2]

/-- Advection of a wave -/
theorem wave_flux (hN : ∀ n m, N n m ≠ 0) (hT : 1 ≤ T) {r : ℝ} (hr : r ≠ 0) (Ω W : ℝ) {n : ℕ} (hn : 1 ≤ n) {a : SpecField T} (ha : SingleDegree n a)
    {y : ℝ} (hy : Real.cos y ≠ 0) (x : ℝ) :
    sphereFlux r (harmonicSum N (solidRotation N W + a)) (harmonicSum N (invLaplace r (solidRotation N W + a - solidRotation N Ω))) x y =
      waveSpeed Ω W n * dlon (harmonicSum N a) x y := by
  rw [sphereFlux_advective _ _ _ hy, add_sub_right_comm, solidRotation_sub, invLaplace_wave r _ hn ha, dlon_harmonicSum]
  simp only [phiDeriv_add, lamDeriv_add, phiDeriv_smul, lamDeriv_smul, lamDeriv_solid, phiDeriv_solid hN hT]
  have h1 : (n : ℝ) ≠ 0 := by exact_mod_cast (by omega : n ≠ 0)
  have h2 : (n : ℝ) + 1 ≠ 0 := by exact_mod_cast n.succ_ne_zero
  unfold waveSpeed
  field_simp
  ring

theorem harmonicSum_shiftEast (α : ℝ) (a : SpecField T) (x y : ℝ) : harmonicSum N (shiftEast α a) x y = harmonicSum N a (x - α) y := by
  unfold harmonicSum modeSum shiftEast
  refine Finset.sum_congr rfl fun k _ => ?_
  rw [mul_comm (exp _) (a k), mul_assoc (a k), ← Complex.exp_add]
  congr 4
  push_cast
  ring

theorem SingleDegree.shiftEast {n : ℕ} {a : SpecField T} (ha : SingleDegree n a) (α : ℝ) : SingleDegree n (shiftEast α a) :=
  fun k hk => by simp [Barotropic.shiftEast, ha k hk]

theorem sphereLaplacian_harmonicSum {r : ℝ} (hr : r ≠ 0) (s : SpecField T) {y : ℝ} (hy : Real.cos y ≠ 0) (x : ℝ) :
    sphereLaplacian r (harmonicSum N s) x y = harmonicSum N (-degMul (fun n => n * (n + 1) / r ^ 2) s) x y := by
  have e := (sphere_wind (N := N) r 0 s hy x).2
  simp only [phiDeriv_zero, lamDeriv_zero, neg_zero, zero_add] at e
  rw [harmonicSum_neg, ← e]
  unfold sphereLaplacian sphereDiv
  congr 2
  · unfold dlon
    congr 1
    funext x
    change dlon (harmonicSum N s) x y / (r * Real.cos y) = _
    rw [dlon_harmonicSum]
    field_simp
  · unfold dlat
    congr 1
    funext y
    change dlat (harmonicSum N s) x y / r * Real.cos y = _
    rw [dlat_harmonicSum]

/-- C107: solid-body rotation with a wave of a single degree solves the barotropic vorticity equation; the wave propagates with constant
angular speed and without change of shape. -/
theorem C107_solution (hN : ∀ n m, N n m ≠ 0) {r : ℝ} (hr : r ≠ 0) (Ω W : ℝ) {n : ℕ} (hn : 1 ≤ n) (hT : n ≤ T) {a : SpecField T}
    (ha : SingleDegree n a) :
    let q := fun t : ℝ => solidRotation N W + shiftEast (waveSpeed Ω W n * t) a
    BarotropicSolution r Ω (fun t => harmonicSum N (q t)) (fun t => harmonicSum N (invLaplace r (q t - solidRotation N Ω))) ∧
    ∀ t x y, harmonicSum N (q t) x y = 2 * W * Real.sin y + harmonicSum N a (x - waveSpeed Ω W n * t) y := by
  intro q
  have hq : ∀ t x y, harmonicSum N (q t) x y = 2 * W * Real.sin y + harmonicSum N a (x - waveSpeed Ω W n * t) y := by
    intro t x y
    simp only [q]
    rw [harmonicSum_add, harmonicSum_solid hN (by omega), harmonicSum_shiftEast]
  refine ⟨⟨fun t => ⟨harmonicSum_smooth _, harmonicSum_smooth _⟩, fun t x y hy => ?_, fun t x y hy => ?_⟩, hq⟩
  · rw [sphereLaplacian_harmonicSum hr _ hy]
    have e : -degMul (fun n => n * (n + 1) / r ^ 2) (invLaplace r (q t - solidRotation N Ω)) = (q t - solidRotation N Ω : SpecField T) := by
      funext k
      simp only [degMul, invLaplace, Pi.neg_apply]
      by_cases hk : specN k = 0
      · have h1 : (q t - solidRotation N Ω : SpecField T) k = 0 := by
          simp only [q, Pi.sub_apply, Pi.add_apply, solidRotation, shiftEast]
          rw [if_neg (by omega), if_neg (by omega), ha k (by omega)]
          simp
        rw [h1]; simp
      · have h1 : ((specN k : ℕ) : ℂ) ≠ 0 := by exact_mod_cast hk
        have h2 : ((specN k : ℕ) : ℂ) + 1 ≠ 0 := by exact_mod_cast (specN k).succ_ne_zero
        have h3 : (r : ℂ) ≠ 0 := by exact_mod_cast hr
        rw [if_neg hk]
        push_cast
        field_simp
    rw [e]
    have := harmonicSum_add (N := N) (q t - solidRotation N Ω) (solidRotation N Ω) x y
    rw [sub_add_cancel, harmonicSum_solid hN (by omega)] at this
    exact this
  · have hf := wave_flux hN (by omega) hr Ω W hn (ha.shiftEast (waveSpeed Ω W n * t)) hy x
    change HasDerivAt _ (-sphereFlux r (harmonicSum N (q t)) (harmonicSum N (invLaplace r (q t - solidRotation N Ω))) x y) t
    rw [hf]
    simp only [hq]
    have h1 : HasDerivAt (fun x => harmonicSum N a x y) (dlon (harmonicSum N a) (x - waveSpeed Ω W n * t) y) (x - waveSpeed Ω W n * t) :=
      (differentiable_lon a y _).hasDerivAt
    have h2 : HasDerivAt (fun t => x - waveSpeed Ω W n * t) (-(waveSpeed Ω W n * 1)) t := ((hasDerivAt_id t).const_mul _).const_sub x
    have h3 := (h1.comp t h2).const_add (2 * W * Real.sin y)
    have e : dlon (harmonicSum N (shiftEast (waveSpeed Ω W n * t) a)) x y = dlon (harmonicSum N a) (x - waveSpeed Ω W n * t) y := by
      unfold dlon
      simp only [harmonicSum_shiftEast]
      exact deriv_comp_sub_const (f := fun x => harmonicSum N a x y) ..
    rw [e]
    refine h3.congr_deriv ?_
    ring

/-- C107: the tendency of PV that the code computes for these waves -/
theorem C107_wave (hg : g.Valid) (h : Spharm.Exact N B S) {τ : Type} (s : St τ g) {W : ℝ} {n : ℕ} (hn : 1 ≤ n) (hT : 2 * n ≤ g.ntrunc)
    (hB : 2 * n ≤ B) {a : g.Spc} (ha : SingleDegree n a) (hs : s.q = solidRotation N W + a) :
    s.pvFluxSpectral S = fun k => I * (specM k * waveSpeed g.omega W n : ℝ) * a k := by
  have hb : BandLimited n a := fun k hk => ha k (by omega)
  obtain ⟨h1, h2, -, h4⟩ := flux_exact hg h s hn hT hB (hs ▸ (solidRotation_band W hn).add hb)
  refine h.coeff_unique h1 (fun k hk => by simp [hk]) (fun k hk => h2 k (by omega)) (fun k hk => by simp [ha k (by omega)]) fun x y hy => ?_
  rw [h4 x y hy]
  unfold St.vorticitySpectral
  rw [h.fcor2 (by omega) (by omega), hs, wave_flux h.norm_ne (by omega) hg.rsphere_pos.ne' _ _ hn ha hy]
  unfold harmonicSum
  rw [dlon_modeSum]
  unfold modeSum timesI
  rw [Finset.mul_sum]
  refine Finset.sum_congr rfl fun k _ => ?_
  rw [show I * ((specM k * waveSpeed g.omega W n : ℝ) : ℂ) * a k * exp (I * ((specM k * x : ℝ) : ℂ)) =
    ((specM k * waveSpeed g.omega W n : ℝ) : ℂ) * (I * a k * exp (I * ((specM k * x : ℝ) : ℂ))) by ring, Complex.re_ofReal_mul]
  ring

/-! ## Integrations -/

theorem implicit_nodiff {M : BModel g} (hν : M.diffusionCoeff = 0) {τ : ℝ} {old rate new : g.Spc} (h : M.ImplicitStep S τ old rate new) (k) :
    new k = old k + τ * rate k := by
  have := h k
  rw [hν] at this
  simpa using this

theorem budget_unforced (h : Spharm.Exact N B S) {M : BModel g} (hM : M.rhs = none) {s : St PyTime g} {F : g.Fld} (hF : M.Forced s F) (k) :
    pvBudget S (s.pv S) (s.u S) (s.v S) F k = -s.pvFluxSpectral S k := by
  have h0 : S.grdtospec 0 = 0 := by
    have := h.analysis_smul 0 0
    rwa [zero_smul, zero_smul] at this
  rcases hF with ⟨-, rfl⟩ | ⟨f, hf, -⟩
  · change S.grdtospec 0 k - s.pvFluxSpectral S k = _
    rw [h0]; simp
  · rw [hM] at hf; cases hf

/-- C107: in integrations without forcing and diffusion these waves keep their shape. The amplitude of every mode follows the discretised
oscillation equation with the exact frequency; the mean flow does not change. -/
theorem C107_run (hg : g.Valid) (h : Spharm.Exact N B S) {M : BModel g} (hM : M.rhs = none) (hν : M.diffusionCoeff = 0) {s : St PyTime g}
    {dt : PyDelta} {m : ℕ} {x y : ℕ → St PyTime g} (hx : M.Scheme S s dt m x y) {W : ℝ} {n : ℕ} (hn : 1 ≤ n) (hT : 2 * n ≤ g.ntrunc)
    (hB : 2 * n ≤ B) {a : g.Spc} (ha : SingleDegree n a) (hs : s.q = solidRotation N W + a) :
    ∀ j ≤ m, (x j).q = solidRotation N W + (fun k => (oscillation (specM k * waveSpeed g.omega W n * toSeconds dt) j).1 * a k) ∧
      (y j).q = solidRotation N W + (fun k => (oscillation (specM k * waveSpeed g.omega W n * toSeconds dt) j).2 * a k) := by
  have hd : ∀ f : Fin (nspec g.ntrunc) → ℂ, SingleDegree n (fun k => f k * a k) := fun f k hk => by simp [ha k hk]
  have step : ∀ {w : St PyTime g} {f : Fin (nspec g.ntrunc) → ℂ} {τ : ℝ} {old new : g.Spc} {F : g.Fld},
      w.q = solidRotation N W + (fun k => f k * a k) → M.Forced w F →
      M.ImplicitStep S τ old (pvBudget S (w.pv S) (w.u S) (w.v S) F) new → ∀ k, new k = old k - τ * (I * (specM k * waveSpeed g.omega W n : ℝ) * (f k * a k)) := by
    intro w f τ old new F hw hF hst k
    rw [implicit_nodiff hν hst k, budget_unforced h hM hF, C107_wave hg h w hn hT hB (hd f) hw]
    ring
  intro j
  induction j with
  | zero =>
    intro _
    obtain ⟨F, hF, hst⟩ := hx.euler
    constructor
    · rw [hx.start, hs]; simp [oscillation]
    · funext k
      have := step (f := fun _ => 1) (by rw [hs]; simp) hF hst k
      rw [this, hs]
      simp only [oscillation, Pi.add_apply]
      push_cast
      ring
  | succ j ih =>
    intro hj
    obtain ⟨ix, iy⟩ := ih (by omega)
    obtain ⟨F, hF, hst⟩ := hx.leapfrog j (by omega)
    have hy : (y (j + 1)).q = solidRotation N W + (fun k => (oscillation (specM k * waveSpeed g.omega W n * toSeconds dt) (j + 1)).2 * a k) := by
      funext k
      have := step iy hF hst k
      rw [this, ix]
      simp only [oscillation, Pi.add_apply]
      push_cast
      ring
    refine ⟨?_, hy⟩
    funext k
    rw [hx.filter j (by omega) k, ix, iy, hy]
    simp only [oscillation, Pi.add_apply]
    ring

theorem norm_exp_sub_one_sub (θ : ℝ) : ‖exp (I * θ) - 1 - I * θ‖ ≤ θ ^ 2 / 2 := by
  have pos : ∀ b : ℝ, 0 ≤ b → ‖exp (I * b) - 1 - I * b‖ ≤ b ^ 2 / 2 := by
    intro b hb
    have hd : ∀ t : ℝ, HasDerivAt (fun t : ℝ => exp (I * t) - 1 - I * t) (I * (exp (I * t) - 1)) t := by
      intro t
      have h1 : HasDerivAt (fun t : ℝ => I * (t : ℂ)) (I * 1) t := (Complex.ofRealCLM.hasDerivAt (x := t)).const_mul I
      have := (h1.cexp.sub_const 1).sub h1
      refine this.congr_deriv ?_
      ring
    refine image_norm_le_of_norm_deriv_right_le_deriv_boundary (a := 0) (b := b) (f := fun t : ℝ => exp (I * t) - 1 - I * t)
      (f' := fun t : ℝ => I * (exp (I * t) - 1)) (B := fun t => t ^ 2 / 2) (B' := fun t => t)
      (fun t _ => (hd t).continuousAt.continuousWithinAt) (fun t _ => (hd t).hasDerivWithinAt) (by simp) (fun t => ?_) (fun t ht => ?_)
      ⟨hb, le_rfl⟩
    · have := ((hasDerivAt_id t).pow 2).div_const 2
      refine this.congr_deriv ?_
      simp
    · rw [norm_mul, Complex.norm_I, one_mul]
      refine Real.norm_exp_I_mul_ofReal_sub_one_le.trans ?_
      rw [Real.norm_of_nonneg ht.1]
  rcases le_total 0 θ with h | h
  · exact pos θ h
  · have := pos (-θ) (by linarith)
    rw [← Complex.norm_conj] at this
    simp only [map_sub, map_mul, map_one, ← Complex.exp_conj, Complex.conj_I, Complex.conj_ofReal] at this
    push_cast at this
    simpa using this

/-- The discretised oscillation equation converges with first order. -/
theorem oscillation_error (θ : ℝ) (j : ℕ) :
    ‖(oscillation θ j).1 - exp (-(I * (j * θ : ℝ)))‖ ≤ j * θ ^ 2 * (1 + 2 * |θ|) ^ j ∧
    ‖(oscillation θ j).2 - exp (-(I * ((j + 1) * θ : ℝ)))‖ ≤ (j + 1 / 2) * θ ^ 2 * (1 + 2 * |θ|) ^ j := by
  have hp := norm_exp_sub_one_sub θ
  have hm := norm_exp_sub_one_sub (-θ)
  rw [neg_sq] at hm
  have hθ : ‖I * (θ : ℂ)‖ = |θ| := by simp
  induction j with
  | zero =>
    constructor
    · simp [oscillation]
    · have e : (oscillation θ 0).2 - exp (-(I * (((0 : ℕ) + 1) * θ : ℝ))) = -(exp (I * ((-θ : ℝ) : ℂ)) - 1 - I * ((-θ : ℝ) : ℂ)) := by
        simp only [oscillation]; push_cast; ring_nf
      rw [e, norm_neg]
      refine hm.trans (le_of_eq ?_)
      simp
      ring
  | succ j ih =>
    obtain ⟨i1, i2⟩ := ih
    set x := (oscillation θ j).1 with hx
    set y := (oscillation θ j).2 with hy
    set G := (1 + 2 * |θ|) ^ j with hG
    have hG1 : 1 ≤ G := one_le_pow₀ (by have := abs_nonneg θ; linarith)
    have ha := abs_nonneg θ
    set E1 := exp (-(I * ((j + 1) * θ : ℝ))) with hE1
    have nE1 : ‖E1‖ = 1 := by
      rw [hE1, show -(I * (((j + 1) * θ : ℝ) : ℂ)) = I * ((-((j + 1) * θ) : ℝ) : ℂ) by push_cast; ring, Complex.norm_exp_I_mul_ofReal]
    have e0 : exp (-(I * (j * θ : ℝ))) = E1 * exp (I * θ) := by
      rw [hE1, ← Complex.exp_add]; congr 1; push_cast; ring
    have e2 : exp (-(I * ((((j + 1 : ℕ) : ℝ) + 1) * θ : ℝ))) = E1 * exp (I * ((-θ : ℝ) : ℂ)) := by
      rw [hE1, ← Complex.exp_add]; congr 1; push_cast; ring
    rw [e0] at i1
    have hθ2 : (0 : ℝ) ≤ θ ^ 2 := sq_nonneg θ
    constructor
    · have e1 : exp (-(I * (((j + 1 : ℕ) : ℝ) * θ : ℝ))) = E1 := by rw [hE1]; congr 1; push_cast; ring
      rw [e1]
      have ex : (oscillation θ (j + 1)).1 = 2 / 5 * x + 3 / 5 * y - 2 / 5 * (I * θ * y) := by
        simp only [oscillation]; ring
      rw [ex, show 2 / 5 * x + 3 / 5 * y - 2 / 5 * (I * θ * y) - E1 = 2 / 5 * (x - E1 * exp (I * θ)) + 3 / 5 * (y - E1) -
        2 / 5 * (I * θ * (y - E1)) + 2 / 5 * (E1 * (exp (I * θ) - 1 - I * θ)) by ring]
      refine (norm_add_le _ _).trans ((add_le_add_left ((norm_sub_le _ _).trans (add_le_add_left (norm_add_le _ _) _)) _).trans ?_)
      simp only [norm_mul, nE1, hθ, one_mul] at *
      norm_num
      have h3 := mul_le_mul_of_nonneg_left i2 ha
      have h4 : (0 : ℝ) ≤ j * θ ^ 2 * G := by positivity
      have h5 : (0 : ℝ) ≤ θ ^ 2 * G := by positivity
      have h6 : (0 : ℝ) ≤ j * θ ^ 2 * G * |θ| := by positivity
      have h7 : (0 : ℝ) ≤ θ ^ 2 * G * |θ| := by positivity
      have h8 : θ ^ 2 ≤ θ ^ 2 * G := le_mul_of_one_le_right hθ2 hG1
      rw [pow_succ (1 + 2 * |θ|) j, ← hG]
      push_cast
      nlinarith
    · rw [e2]
      have ey : (oscillation θ (j + 1)).2 = x - 2 * (I * θ * y) := rfl
      rw [ey, show x - 2 * (I * θ * y) - E1 * exp (I * ((-θ : ℝ) : ℂ)) = (x - E1 * exp (I * θ)) - 2 * (I * θ * (y - E1)) +
        E1 * ((exp (I * θ) - 1 - I * θ) - (exp (I * ((-θ : ℝ) : ℂ)) - 1 - I * ((-θ : ℝ) : ℂ))) by push_cast; ring]
      refine (norm_add_le _ _).trans (add_le_add (norm_sub_le _ _) (le_refl _) |>.trans ?_)
      have h9 := norm_sub_le (exp (I * θ) - 1 - I * θ) (exp (I * ((-θ : ℝ) : ℂ)) - 1 - I * ((-θ : ℝ) : ℂ))
      rw [norm_mul E1, nE1, one_mul, norm_mul 2, norm_mul (I * _), hθ, show ‖(2 : ℂ)‖ = 2 by norm_num]
      have h3 := mul_le_mul_of_nonneg_left i2 ha
      have h4 : (0 : ℝ) ≤ j * θ ^ 2 * G := by positivity
      have h5 : (0 : ℝ) ≤ θ ^ 2 * G := by positivity
      have h6 : (0 : ℝ) ≤ j * θ ^ 2 * G * |θ| := by positivity
      have h7 : (0 : ℝ) ≤ θ ^ 2 * G * |θ| := by positivity
      have h8 : θ ^ 2 ≤ θ ^ 2 * G := le_mul_of_one_le_right hθ2 hG1
      rw [pow_succ (1 + 2 * |θ|) j, ← hG, Nat.cast_succ]
      nlinarith

theorem solution_error {N : ℕ → ℕ → ℝ} (W c : ℝ) (a : SpecField T) (Δ : ℝ) (hΔ : 0 ≤ Δ) (j : ℕ) (k : Fin (nspec T)) :
    ‖(solidRotation N W + (fun k => (oscillation (specM k * c * Δ) j).1 * a k) : SpecField T) k - (solidRotation N W + shiftEast (c * (j * Δ)) a : SpecField T) k‖ ≤
      (specM k * c) ^ 2 * (j * Δ) * Δ * Real.exp (2 * |specM k * c| * (j * Δ)) * ‖a k‖ := by
  have h1 := (oscillation_error (specM k * c * Δ) j).1
  have e : (solidRotation N W + (fun k => (oscillation (specM k * c * Δ) j).1 * a k) : SpecField T) k - (solidRotation N W + shiftEast (c * (j * Δ)) a : SpecField T) k =
      ((oscillation (specM k * c * Δ) j).1 - exp (-(I * (j * (specM k * c * Δ) : ℝ)))) * a k := by
    simp only [Pi.add_apply, shiftEast]
    rw [show (specM k : ℝ) * (c * (j * Δ)) = j * (specM k * c * Δ) by ring]
    ring
  rw [e, norm_mul]
  refine mul_le_mul_of_nonneg_right (h1.trans ?_) (norm_nonneg _)
  have h2 : (1 + 2 * |specM k * c * Δ|) ^ j ≤ Real.exp (2 * |specM k * c| * (j * Δ)) := by
    rw [show 2 * |specM k * c| * (j * Δ) = j * (2 * (|specM k * c| * Δ)) by ring, Real.exp_nat_mul, abs_mul, abs_of_nonneg hΔ]
    refine pow_le_pow_left₀ (by positivity) ?_ j
    have := Real.add_one_le_exp (2 * (|specM k * c| * Δ))
    linarith
  calc (j : ℝ) * (specM k * c * Δ) ^ 2 * (1 + 2 * |specM k * c * Δ|) ^ j
      ≤ (j : ℝ) * (specM k * c * Δ) ^ 2 * Real.exp (2 * |specM k * c| * (j * Δ)) := mul_le_mul_of_nonneg_left h2 (by positivity)
    _ = _ := by ring

/-- C108: the error of integrations of these waves (without forcing and diffusion) is proportional to the time step. All states that
`run` returns are compared to the exact solution at their times. -/
theorem C108_error (hg : g.Valid) (h : Spharm.Exact N B S) {M : BModel g} (hM : M.rhs = none) (hν : M.diffusionCoeff = 0) (s : St PyTime g)
    (dt : PyDelta) (tend : PyTime) (se : ℝ) (hc : s.time.Compatible dt) (hk : s.time.SameKind tend) (hd : 0 < toSeconds dt) (sf : St PyTime g)
    (saved : List (St PyTime g)) (hret : M.Returns S s dt tend se sf saved) {W : ℝ} {n : ℕ} (hn : 1 ≤ n) (hT : 2 * n ≤ g.ntrunc)
    (hB : 2 * n ≤ B) {a : g.Spc} (ha : SingleDegree n a) (hs : s.q = solidRotation N W + a) :
    ∀ s' ∈ sf :: saved, ∀ k,
      let t := s'.time.sec - s.time.sec
      let ω := specM k * waveSpeed g.omega W n
      0 ≤ t ∧ t < max 0 (tend.sec - s.time.sec) + toSeconds dt ∧
      ‖s'.q k - (solidRotation N W + shiftEast (waveSpeed g.omega W n * t) a : g.Spc) k‖ ≤ ω ^ 2 * t * toSeconds dt * Real.exp (2 * |ω| * t) * ‖a k‖ := by
  obtain ⟨m, x, y, ks, hx, e1, e2, e3, e4, e5⟩ := C100_run h.linear hν.ge s dt tend se hc hk hd sf saved hret
  have key : ∀ j ≤ m, ∀ k,
      let t := (x j).time.sec - s.time.sec
      let ω := specM k * waveSpeed g.omega W n
      0 ≤ t ∧ t < max 0 (tend.sec - s.time.sec) + toSeconds dt ∧
      ‖(x j).q k - (solidRotation N W + shiftEast (waveSpeed g.omega W n * t) a : g.Spc) k‖ ≤ ω ^ 2 * t * toSeconds dt * Real.exp (2 * |ω| * t) * ‖a k‖ := by
    intro j hj k
    have ht : (x j).time.sec - s.time.sec = j * toSeconds dt := by rw [(hx.times j hj).1, sec_stepTime hc]; ring
    intro t ω
    have htt : t = j * toSeconds dt := ht
    rw [htt]
    refine ⟨by positivity, ?_, ?_⟩
    · rcases Nat.eq_zero_or_pos j with rfl | hj0
      · have := le_max_left 0 (tend.sec - s.time.sec)
        simp; linarith
      · have h1 := e5 (j - 1) (by omega)
        have h2 := le_max_right 0 (tend.sec - s.time.sec)
        rw [Nat.cast_sub hj0] at h1
        push_cast at h1
        linarith
    · rw [(C107_run hg h hM hν hx hn hT hB ha hs j hj).1]
      exact solution_error W _ a _ hd.le j k
  intro s' hs'
  rcases List.mem_cons.mp hs' with rfl | hs'
  · rw [e1]; exact key m le_rfl
  · rw [e2] at hs'
    obtain ⟨j, hj, rfl⟩ := List.mem_map.mp hs'
    exact key j (e3 j hj)

/-- C108: integrations converge to a solution of the barotropic vorticity equation when the time step is reduced. -/
theorem C108_converges (hg : g.Valid) (h : Spharm.Exact N B S) {M : BModel g} (hM : M.rhs = none) (hν : M.diffusionCoeff = 0) (s : St PyTime g)
    {W : ℝ} {n : ℕ} (hn : 1 ≤ n) (hT : 2 * n ≤ g.ntrunc) (hB : 2 * n ≤ B) {a : g.Spc} (ha : SingleDegree n a) (hs : s.q = solidRotation N W + a) :
    ∃ Q Ψ : ℝ → ℝ → ℝ → ℝ, BarotropicSolution g.rsphere g.omega Q Ψ ∧ s.pv S = g.sample (Q 0) ∧
      ∀ tmax : ℝ, ∀ ε > 0, ∃ δ > 0, ∀ (dt : PyDelta) (tend : PyTime) (se : ℝ) (sf : St PyTime g) (saved : List (St PyTime g)),
        s.time.Compatible dt → s.time.SameKind tend → 0 < toSeconds dt → toSeconds dt < δ → tend.sec - s.time.sec ≤ tmax →
        M.Returns S s dt tend se sf saved → ∀ s' ∈ sf :: saved, ∀ j i,
          |s'.pv S j i - g.sample (Q (s'.time.sec - s.time.sec)) j i| < ε := by
  obtain ⟨hsol, hq⟩ := C107_solution h.norm_ne hg.rsphere_pos.ne' g.omega W hn (show n ≤ g.ntrunc by omega) ha
  refine ⟨_, _, hsol, ?_, fun tmax ε hε => ?_⟩
  · unfold St.pv Grid.toGrid
    rw [h.synthesis, hs]
    congr 2
    funext k
    simp [shiftEast]
  · -- constants
    let t1 : ℝ := max 0 tmax + 1
    let A : Fin (nspec g.ntrunc) → ℝ := fun k => (specM k * waveSpeed g.omega W n) ^ 2 * t1 *
      Real.exp (2 * |specM k * waveSpeed g.omega W n| * t1) * ‖a k‖
    have ht1 : 0 < t1 := by have := le_max_left 0 tmax; simp only [t1]; linarith
    have hA : ∀ k, 0 ≤ A k := fun k => by positivity
    let L : Fin g.nlat → ℝ := fun j => ∑ k : Fin (nspec g.ntrunc), |N (specN k) (specM k) * legendre (specN k) (specM k) (g.phi j)| * A k
    have hL : ∀ j, 0 ≤ L j := fun j => Finset.sum_nonneg fun k _ => mul_nonneg (abs_nonneg _) (hA k)
    let C : ℝ := ∑ j, L j
    have hC : ∀ j, L j ≤ C := fun j => Finset.single_le_sum (f := L) (fun j _ => hL j) (Finset.mem_univ j)
    have hC0 : 0 ≤ C := Finset.sum_nonneg fun j _ => hL j
    refine ⟨min 1 (ε / (C + 1)), by positivity, fun dt tend se sf saved hc hk hd hδ htm hret s' hs' j i => ?_⟩
    have herr := C108_error hg h hM hν s dt tend se hc hk hd sf saved hret hn hT hB ha hs s' hs'
    have hδ1 : toSeconds dt < 1 := hδ.trans_le (min_le_left _ _)
    have hδ2 : toSeconds dt < ε / (C + 1) := hδ.trans_le (min_le_right _ _)
    set t := s'.time.sec - s.time.sec with ht
    have hbk : ∀ k, ‖s'.q k - (solidRotation N W + shiftEast (waveSpeed g.omega W n * t) a : g.Spc) k‖ ≤ toSeconds dt * A k := by
      intro k
      obtain ⟨b0, b1, b2⟩ := herr k
      have htt : t ≤ t1 := by
        have : max 0 (tend.sec - s.time.sec) ≤ max 0 tmax := max_le_max le_rfl htm
        simp only [t1]
        linarith
      refine b2.trans ?_
      have e : Real.exp (2 * |specM k * waveSpeed g.omega W n| * t) ≤ Real.exp (2 * |specM k * waveSpeed g.omega W n| * t1) :=
        Real.exp_le_exp.mpr (mul_le_mul_of_nonneg_left htt (by positivity))
      calc (specM k * waveSpeed g.omega W n) ^ 2 * t * toSeconds dt * Real.exp (2 * |specM k * waveSpeed g.omega W n| * t) * ‖a k‖
          ≤ (specM k * waveSpeed g.omega W n) ^ 2 * t1 * toSeconds dt * Real.exp (2 * |specM k * waveSpeed g.omega W n| * t1) * ‖a k‖ := by
            gcongr
        _ = _ := by simp only [A]; ring
    have ediff : s'.pv S j i - g.sample (harmonicSum N (solidRotation N W + shiftEast (waveSpeed g.omega W n * t) a)) j i =
        harmonicSum N (s'.q - (solidRotation N W + shiftEast (waveSpeed g.omega W n * t) a) : g.Spc) (g.lam i) (g.phi j) := by
      unfold St.pv Grid.toGrid
      rw [h.synthesis]
      unfold Grid.sample
      have := harmonicSum_add (N := N) (s'.q - (solidRotation N W + shiftEast (waveSpeed g.omega W n * t) a) : g.Spc)
        (solidRotation N W + shiftEast (waveSpeed g.omega W n * t) a) (g.lam i) (g.phi j)
      rw [sub_add_cancel] at this
      rw [this]; ring
    change |s'.pv S j i - g.sample (harmonicSum N (solidRotation N W + shiftEast (waveSpeed g.omega W n * t) a)) j i| < ε
    rw [ediff]
    have hb : |harmonicSum N (s'.q - (solidRotation N W + shiftEast (waveSpeed g.omega W n * t) a) : g.Spc) (g.lam i) (g.phi j)| ≤
        toSeconds dt * L j := by
      unfold harmonicSum modeSum
      refine (Finset.abs_sum_le_sum_abs _ _).trans ?_
      simp only [L]
      rw [Finset.mul_sum]
      refine Finset.sum_le_sum fun k _ => ?_
      rw [abs_mul]
      have h1 := Complex.abs_re_le_norm ((s'.q - (solidRotation N W + shiftEast (waveSpeed g.omega W n * t) a) : g.Spc) k *
        exp (I * ((specM k * g.lam i : ℝ) : ℂ)))
      rw [norm_mul, Complex.norm_exp_I_mul_ofReal, mul_one] at h1
      have h2 := h1.trans (hbk k)
      calc _ ≤ |N (specN k) (specM k) * legendre (specN k) (specM k) (g.phi j)| * (toSeconds dt * A k) :=
            mul_le_mul_of_nonneg_left h2 (abs_nonneg _)
        _ = _ := by ring
    have h3 : toSeconds dt * (C + 1) < ε := by rwa [lt_div_iff₀ (by positivity)] at hδ2
    have h4 := mul_le_mul_of_nonneg_left (hC j) hd.le
    nlinarith

/-! ## Stability -/

/-- All steps of the oscillation follow a linear recurrence of second order. -/
theorem oscillation_rec (θ : ℝ) (j : ℕ) : (oscillation θ (j + 2)).1 =
    (2 / 5 - 2 * (I * θ)) * (oscillation θ (j + 1)).1 + (3 / 5 + 2 / 5 * (I * θ)) * (oscillation θ j).1 := by
  simp only [oscillation]
  ring

/-- A quadratic form that does not grow -/
theorem oscillation_form (z0 z1 z2 : ℂ) (θ : ℝ) (h : z2 = (2 / 5 - 2 * (I * θ)) * z1 + (3 / 5 + 2 / 5 * (I * θ)) * z0) :
    let V := fun z w : ℂ => (16 / 25 - 4 / 25 * θ ^ 2) * (normSq z + normSq w) +
      2 * ((starRingEnd ℂ) z * w * ⟨-(16 / 25) + 4 / 5 * θ ^ 2, -(16 / 25 * θ)⟩).re
    V z1 z2 ≤ V z0 z1 := by
  intro V
  obtain ⟨x0, y0⟩ := z0
  obtain ⟨x1, y1⟩ := z1
  obtain ⟨x2, y2⟩ := z2
  have hr := congrArg Complex.re h
  have hi := congrArg Complex.im h
  norm_num [Complex.mul_re, Complex.mul_im] at hr hi
  simp only [V, normSq_mk, Complex.mul_re, Complex.mul_im, Complex.conj_re, Complex.conj_im]
  have h1 := sq_nonneg (x0 - 2 / 5 * x1 + 2 * θ * y1 - 3 / 5 * x2 - 2 / 5 * θ * y2)
  have h2 := sq_nonneg (y0 - 2 / 5 * y1 - 2 * θ * x1 - 3 / 5 * y2 + 2 / 5 * θ * x2)
  subst hr hi
  nlinarith

theorem oscillation_stable {θ : ℝ} (hθ : θ ^ 2 < 2 / 3) (j : ℕ) :
    ‖(oscillation θ j).1‖ ^ 2 + ‖(oscillation θ (j + 1)).1‖ ^ 2 ≤ 2 / (1 - 3 / 2 * θ ^ 2) := by
  have hpos : 0 < 1 - 3 / 2 * θ ^ 2 := by linarith
  rcases eq_or_ne θ 0 with rfl | h0
  · have h1 : ∀ j, oscillation 0 j = (1, 1) := by
      intro j
      induction j with
      | zero => simp [oscillation]
      | succ j ih => simp only [oscillation, ih]; norm_num
    rw [h1, h1]; norm_num
  have hθ0 : 0 < θ ^ 2 := by positivity
  set V := fun z w : ℂ => (16 / 25 - 4 / 25 * θ ^ 2) * (normSq z + normSq w) +
      2 * ((starRingEnd ℂ) z * w * ⟨-(16 / 25) + 4 / 5 * θ ^ 2, -(16 / 25 * θ)⟩).re with hV
  have hdec : ∀ j, V (oscillation θ j).1 (oscillation θ (j + 1)).1 ≤ 16 / 25 * θ ^ 2 := by
    intro j
    induction j with
    | zero =>
      have e0 : (oscillation θ 0).1 = ⟨1, 0⟩ := rfl
      have e1 : (oscillation θ 1).1 = ⟨1 - 2 / 5 * θ ^ 2, -θ⟩ := by
        simp only [oscillation]
        apply Complex.ext <;> norm_num [Complex.mul_re, Complex.mul_im] <;> ring
      rw [zero_add, e0, e1]
      simp only [V, normSq_mk, Complex.mul_re, Complex.mul_im, Complex.conj_re, Complex.conj_im]
      nlinarith [mul_nonneg hθ0.le hθ0.le, mul_nonneg (mul_nonneg hθ0.le hθ0.le) hθ0.le]
    | succ j ih => exact (oscillation_form _ _ _ θ (oscillation_rec θ j)).trans ih
  -- the form is positive definite
  have hpd : ∀ z w : ℂ, 8 / 25 * θ ^ 2 * (1 - 3 / 2 * θ ^ 2) * (‖z‖ ^ 2 + ‖w‖ ^ 2) ≤ V z w := by
    intro z w
    have hk : ‖(⟨-(16 / 25) + 4 / 5 * θ ^ 2, -(16 / 25 * θ)⟩ : ℂ)‖ ≤ 16 / 25 - 4 / 25 * θ ^ 2 - 8 / 25 * θ ^ 2 * (1 - 3 / 2 * θ ^ 2) := by
      refine abs_le_of_sq_le_sq' ?_ (by nlinarith) |>.2
      rw [← Complex.normSq_eq_norm_sq, normSq_mk]
      nlinarith [mul_nonneg hθ0.le hθ0.le, mul_nonneg (mul_nonneg hθ0.le hθ0.le) hθ0.le, mul_nonneg (mul_nonneg hθ0.le hθ0.le) hpos.le]
    have h1 := Complex.abs_re_le_norm ((starRingEnd ℂ) z * w * ⟨-(16 / 25) + 4 / 5 * θ ^ 2, -(16 / 25 * θ)⟩)
    rw [norm_mul, norm_mul, Complex.norm_conj] at h1
    have h2 := neg_le_of_abs_le h1
    have h3 := mul_le_mul_of_nonneg_left hk (mul_nonneg (norm_nonneg z) (norm_nonneg w))
    have h4 := sq_nonneg (‖z‖ - ‖w‖)
    have h5 : 0 ≤ 16 / 25 - 4 / 25 * θ ^ 2 - 8 / 25 * θ ^ 2 * (1 - 3 / 2 * θ ^ 2) := (norm_nonneg _).trans hk
    have h6 := mul_nonneg h5 h4
    simp only [V, Complex.normSq_eq_norm_sq]
    nlinarith
  have := (hpd _ _).trans (hdec j)
  rw [le_div_iff₀ hpos]
  have h9 : θ ^ 2 * ((‖(oscillation θ j).1‖ ^ 2 + ‖(oscillation θ (j + 1)).1‖ ^ 2) * (1 - 3 / 2 * θ ^ 2)) ≤ θ ^ 2 * 2 := by nlinarith
  exact le_of_mul_le_mul_left h9 hθ0

theorem oscillation_unstable {θ : ℝ} (hθ : 2 / 3 < θ ^ 2) (C : ℝ) : ∃ j, C < ‖(oscillation θ j).1‖ := by
  by_contra hcon
  push Not at hcon
  -- for positive and negative frequencies
  obtain ⟨t, ht0, ht, hts⟩ : ∃ t : ℝ, t ≠ 0 ∧ t ^ 2 = θ ^ 2 - 16 / 25 ∧ 0 < t * θ := by
    have h1 : 0 < θ ^ 2 - 16 / 25 := by linarith
    have h2 := Real.sq_sqrt h1.le
    have h3 := Real.sqrt_pos.mpr h1
    rcases lt_or_gt_of_ne (show θ ≠ 0 by rintro rfl; norm_num at hθ) with h | h
    · exact ⟨-√(θ ^ 2 - 16 / 25), by linarith [h3], by rw [neg_sq, h2], by nlinarith⟩
    · exact ⟨√(θ ^ 2 - 16 / 25), h3.ne', h2, by positivity⟩
  set l1 : ℂ := ⟨1 / 5, -(θ + t)⟩ with hl1
  set l2 : ℂ := ⟨1 / 5, -(θ - t)⟩ with hl2
  have hw : ∀ j, (oscillation θ (j + 1)).1 - l2 * (oscillation θ j).1 = l1 ^ j * ⟨4 / 5 - 2 / 5 * θ ^ 2, -t⟩ := by
    intro j
    induction j with
    | zero =>
      have e1 : (oscillation θ 1).1 = ⟨1 - 2 / 5 * θ ^ 2, -θ⟩ := by
        simp only [oscillation]
        apply Complex.ext <;> norm_num [Complex.mul_re, Complex.mul_im] <;> ring
      rw [zero_add, e1]
      simp only [oscillation, pow_zero, one_mul, mul_one, hl2]
      apply Complex.ext <;> simp <;> ring
    | succ j ih =>
      have h1 : l1 + l2 = 2 / 5 - 2 * (I * θ) := by
        apply Complex.ext <;> norm_num [hl1, hl2, Complex.mul_re, Complex.mul_im] <;> ring
      have h2 : -(l1 * l2) = 3 / 5 + 2 / 5 * (I * θ) := by
        apply Complex.ext <;> norm_num [hl1, hl2, Complex.mul_re, Complex.mul_im] <;> nlinarith
      rw [oscillation_rec, ← h1, ← h2, pow_succ, mul_comm (l1 ^ j) l1, mul_assoc, ← ih]
      ring
  have hn1 : 1 < ‖l1‖ := by
    have : 1 < ‖l1‖ ^ 2 := by
      rw [← Complex.normSq_eq_norm_sq, hl1, normSq_mk]
      -- (θ + t)² > 24/25
      have h3 : 0 < t * θ := hts
      have h4 : (t * θ) ^ 2 = (θ ^ 2 - 16 / 25) * θ ^ 2 := by rw [mul_pow, ht]
      have h5 : 2 / 15 < t * θ := by
        by_contra hc
        push Not at hc
        have : (t * θ) ^ 2 ≤ (2 / 15) ^ 2 := pow_le_pow_left₀ h3.le hc 2
        rw [h4] at this
        nlinarith
      nlinarith
    by_contra hc
    push Not at hc
    have := pow_le_one₀ (n := 2) (norm_nonneg l1) hc
    linarith
  set w0 : ℂ := ⟨4 / 5 - 2 / 5 * θ ^ 2, -t⟩ with hw0
  have hw0n : 0 < ‖w0‖ := by
    rw [norm_pos_iff]
    intro e
    have := congrArg Complex.im e
    simp [hw0] at this
    exact ht0 this
  have hC : 0 ≤ C := (norm_nonneg _).trans (hcon 0)
  obtain ⟨j, hj⟩ := pow_unbounded_of_one_lt ((C + ‖l2‖ * C) / ‖w0‖) hn1
  rw [div_lt_iff₀ hw0n, ← norm_pow, ← norm_mul, ← hw] at hj
  have h1 := norm_sub_le (oscillation θ (j + 1)).1 (l2 * (oscillation θ j).1)
  rw [norm_mul] at h1
  have h2 := mul_le_mul_of_nonneg_left (hcon j) (norm_nonneg l2)
  have h3 := hcon (j + 1)
  linarith

/-- C109: integrations of these waves are stable if `(ω Δt)² < 2/3` for the frequencies of all modes: amplitudes have a bound that does
not depend on the number of steps. -/
theorem C109_stable (hg : g.Valid) (h : Spharm.Exact N B S) {M : BModel g} (hM : M.rhs = none) (hν : M.diffusionCoeff = 0) {s : St PyTime g}
    {dt : PyDelta} {m : ℕ} {x y : ℕ → St PyTime g} (hx : M.Scheme S s dt m x y) {W : ℝ} {n : ℕ} (hn : 1 ≤ n) (hT : 2 * n ≤ g.ntrunc)
    (hB : 2 * n ≤ B) {a : g.Spc} (ha : SingleDegree n a) (hs : s.q = solidRotation N W + a) (k : Fin (nspec g.ntrunc))
    (hθ : (specM k * waveSpeed g.omega W n * toSeconds dt) ^ 2 < 2 / 3) :
    ∀ j ≤ m, ‖(x j).q k - (solidRotation N W : g.Spc) k‖ ^ 2 ≤ 2 / (1 - 3 / 2 * (specM k * waveSpeed g.omega W n * toSeconds dt) ^ 2) * ‖a k‖ ^ 2 := by
  intro j hj
  rw [(C107_run hg h hM hν hx hn hT hB ha hs j hj).1]
  simp only [Pi.add_apply, add_sub_cancel_left]
  rw [norm_mul, mul_pow]
  refine mul_le_mul_of_nonneg_right ?_ (by positivity)
  have := oscillation_stable hθ j
  have h2 := sq_nonneg ‖(oscillation (specM k * waveSpeed g.omega W n * toSeconds dt) (j + 1)).1‖
  linarith

/-- C109: they are unstable if `(ω Δt)² > 2/3` for one mode. -/
theorem C109_unstable (hg : g.Valid) (h : Spharm.Exact N B S) {M : BModel g} (hM : M.rhs = none) (hν : M.diffusionCoeff = 0) {s : St PyTime g}
    {dt : PyDelta} {W : ℝ} {n : ℕ} (hn : 1 ≤ n) (hT : 2 * n ≤ g.ntrunc)
    (hB : 2 * n ≤ B) {a : g.Spc} (ha : SingleDegree n a) (hs : s.q = solidRotation N W + a) (k : Fin (nspec g.ntrunc)) (hk : a k ≠ 0)
    (hθ : 2 / 3 < (specM k * waveSpeed g.omega W n * toSeconds dt) ^ 2) (C : ℝ) :
    ∃ j, ∀ (m : ℕ) (x y : ℕ → St PyTime g), j ≤ m → M.Scheme S s dt m x y → C < ‖(x j).q k‖ := by
  have ha0 : 0 < ‖a k‖ := norm_pos_iff.mpr hk
  obtain ⟨j, hj⟩ := oscillation_unstable hθ ((C + ‖(solidRotation N W : g.Spc) k‖) / ‖a k‖)
  refine ⟨j, fun m x y hjm hx => ?_⟩
  rw [(C107_run hg h hM hν hx hn hT hB ha hs j hjm).1]
  rw [div_lt_iff₀ ha0, ← norm_mul] at hj
  have h1 := norm_sub_le ((solidRotation N W : g.Spc) k + (oscillation (specM k * waveSpeed g.omega W n * toSeconds dt) j).1 * a k)
    ((solidRotation N W : g.Spc) k)
  rw [add_sub_cancel_left] at h1
  change C < ‖(solidRotation N W : g.Spc) k + (oscillation (specM k * waveSpeed g.omega W n * toSeconds dt) j).1 * a k‖
  linarith

/-! Non-vacuity: a wave of degree 2 and order 1 on the grid with the default truncation, which moves westward. Integrations with a time
step of 1 are stable, with a time step of 3 they are not. Both finish. -/

example : ∃ (g : Grid ℝ) (S : g.Sph) (M : BModel g) (s : St PyTime g) (a : g.Spc) (k : Fin (nspec g.ntrunc)), g.Valid ∧ g.ntrunc + 1 = g.nlat ∧
    Spharm.Exact (fun _ _ => 1) 5 S ∧ M.rhs = none ∧ M.diffusionCoeff = 0 ∧ SingleDegree 2 a ∧ 2 * 2 ≤ g.ntrunc ∧ a k ≠ 0 ∧
    s.q = solidRotation (fun _ _ => 1) 1 + a ∧ waveSpeed g.omega 1 2 < 0 ∧
    (specM k * waveSpeed g.omega 1 2 * toSeconds (.num 1)) ^ 2 < 2 / 3 ∧ 2 / 3 < (specM k * waveSpeed g.omega 1 2 * toSeconds (.num 3)) ^ 2 ∧
    (∃ sf saved, M.Returns S s (.num 1) (.num 30) 0 sf saved) ∧ ∃ sf saved, M.Returns S s (.num 3) (.num 30) 0 sf saved := by
  have h7 : ({ grid30 with ntrunc := 6 } : Grid ℝ).nlat = 7 := by unfold Grid.nlat Grid.nlatOf grid30; norm_num
  obtain ⟨S, h, -⟩ := C105_exists (N := fun _ _ => 1) (B := 5) grid30_default_valid (by rw [h7]) (fun _ _ => one_ne_zero)
  obtain ⟨k, hk2, hk1⟩ := exists_mode (T := 6) (n := 2) (m := 1) (by norm_num) (by norm_num)
  have hsp : waveSpeed ({ grid30 with ntrunc := 6 } : Grid ℝ).omega 1 2 = -(1 / 3) := by unfold waveSpeed grid30; norm_num
  have ha : SingleDegree 2 (oneMode k 1) := fun l hl => by
    unfold oneMode
    rw [if_neg]
    rintro rfl
    exact hl hk2
  refine ⟨{ grid30 with ntrunc := 6 }, S, ⟨none, 1, 0, none⟩, ⟨.num 0, solidRotation (fun _ _ => 1) 1 + oneMode k 1⟩, oneMode k 1, k,
    grid30_default_valid, h7.symm, h, rfl, rfl, ha, by norm_num, by simp [oneMode], rfl, by rw [hsp]; norm_num, ?_, ?_, ?_, ?_⟩
  · rw [hsp, hk1]; norm_num [toSeconds]
  · rw [hsp, hk1]; norm_num [toSeconds]
  · exact C42_returns (fun f hf => by cases hf) _ _ _ _ trivial trivial (by norm_num [toSeconds]) (.inl le_rfl) (by norm_num [PyTime.sec])
  · exact C42_returns (fun f hf => by cases hf) _ _ _ _ trivial trivial (by norm_num [toSeconds]) (.inl le_rfl) (by norm_num [PyTime.sec])

end Barotropic
