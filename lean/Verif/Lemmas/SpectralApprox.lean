import Verif.Lemmas.Ambient
import Verif.Lemmas.Stability

/-!
# Spectral coefficients of a smooth streamfunction
-/

namespace Barotropic
open Real (cos sin)
open Set

variable {T : ℕ} {N : ℕ → ℕ → ℝ} {g : Grid ℝ} {S : g.Sph} {M : BModel g} {F : (Fin 4 → ℝ) → ℝ}

/-- What is left of the barotropic vorticity equation for the curve `p` with derivative `p'` -/
noncomputable def residual (N : ℕ → ℕ → ℝ) (S : g.Sph) (M : BModel g) (p p' : g.Spc) (x y : ℝ) : ℝ :=
  let s : St ℝ g := ⟨0, p⟩
  harmonicSum N p' x y + sphereFlux g.rsphere (s.pvFn N) (s.streamFn N S) x y - harmonicSum N (M.damping S p) x y

theorem harmonicSum_hasDeriv {c : ℝ → SpecField T} {c' : SpecField T} {t : ℝ} (hc : HasDerivAt c c' t) (x y : ℝ) :
    HasDerivAt (fun t => harmonicSum N (c t) x y) (harmonicSum N c' x y) t := by
  unfold harmonicSum modeSum
  refine HasDerivAt.fun_sum fun k _ => HasDerivAt.const_mul _ ?_
  exact Complex.reCLM.hasFDerivAt.comp_hasDerivAt t ((hasDerivAt_pi.mp hc k).mul_const _)

theorem degMul_hasDeriv (a : ℕ → ℝ) {c : ℝ → SpecField T} {c' : SpecField T} {t : ℝ} (hc : HasDerivAt c c' t) :
    HasDerivAt (fun t => degMul a (c t)) (degMul a c') t :=
  hasDerivAt_pi.mpr fun k => (hasDerivAt_pi.mp hc k).const_mul _

/-- Coefficients of absolute vorticity for coefficients of the streamfunction -/
noncomputable def vortCoeff (N : ℕ → ℕ → ℝ) (r Ω : ℝ) (c : SpecField T) : SpecField T := -degMul (fun n => n * (n + 1) / r ^ 2) c + solidRotation N Ω

theorem vortCoeff_hasDeriv (r Ω : ℝ) {c : ℝ → SpecField T} {c' : SpecField T} {t : ℝ} (hc : HasDerivAt c c' t) :
    HasDerivAt (fun t => vortCoeff N r Ω (c t)) (-degMul (fun n => n * (n + 1) / r ^ 2) c') t :=
  (degMul_hasDeriv _ hc).neg.add_const _

theorem vortCoeff_fn {r : ℝ} (hr : r ≠ 0) (hN : ∀ n m, N n m ≠ 0) (hT : 1 ≤ T) (Ω : ℝ) (hF : ContDiff ℝ (⊤ : ℕ∞) F) {c : SpecField T} {t : ℝ}
    (hc : ∀ x y, onSphere F t x y = harmonicSum N c x y) (x : ℝ) {y : ℝ} (hy : cos y ≠ 0) :
    harmonicSum N (vortCoeff N r Ω c) x y = onSphere (vort r Ω F) t x y := by
  have e : onSphere F t = harmonicSum N c := by funext x y; exact hc x y
  rw [← absVort_onSphere hF r Ω t x hy, e]
  unfold vortCoeff absVort
  rw [harmonicSum_add, harmonicSum_solid hN hT, sphereLaplacian_harmonicSum hr c hy]

theorem hyper_coeff {r : ℝ} (hr : r ≠ 0) (k : ℕ) {A : (Fin 4 → ℝ) → ℝ} (hA : ContDiff ℝ (⊤ : ℕ∞) A) {a : SpecField T} {t : ℝ}
    (ha : ∀ x y, cos y ≠ 0 → harmonicSum N a x y = onSphere A t x y) (x : ℝ) {y : ℝ} (hy : cos y ≠ 0) :
    harmonicSum N (degMul (fun n => (n * (n + 1) / r ^ 2) ^ k) a) x y = onSphere (hyperL r k A) t x y := by
  induction k generalizing A a with
  | zero =>
    rw [show degMul (fun n => (n * (n + 1) / r ^ 2) ^ 0) a = a by funext k; simp [degMul]]
    exact ha x y hy
  | succ k ih =>
    have e : degMul (fun n => (n * (n + 1) / r ^ 2) ^ (k + 1)) a = degMul (fun n => (n * (n + 1) / r ^ 2) ^ k) (degMul (fun n => n * (n + 1) / r ^ 2) a) := by
      funext l
      simp only [degMul]
      push_cast
      ring
    rw [e]
    refine ih (A := fun p => -(r ^ 2)⁻¹ * lapl A p) (contDiff_const.mul (lapl_smooth hA)) fun x y hy => ?_
    have h1 := sphereLaplacian_harmonicSum (N := N) hr a hy x
    rw [sphereLaplacian_congr r x hy ha, sphereLaplacian_onSphere hA r t x hy, harmonicSum_neg] at h1
    rw [← neg_eq_iff_eq_neg] at h1
    rw [← h1, div_eq_inv_mul, ← neg_mul]
    rfl

theorem stream_grad {r : ℝ} (hr : r ≠ 0) {c : SpecField T} {t : ℝ} (hc : ∀ x y, onSphere F t x y = harmonicSum N c x y) (x : ℝ) {y : ℝ} (hy : cos y ≠ 0) :
    sphereGrad r (harmonicSum N (invLaplace r (-degMul (fun n => n * (n + 1) / r ^ 2) c))) x y = sphereGrad r (onSphere F t) x y := by
  have e : onSphere F t = harmonicSum N c := by funext x y; exact hc x y
  have e2 : invLaplace r (-degMul (fun n => n * (n + 1) / r ^ 2) c) = dropMean c := by
    funext k
    simp only [invLaplace, degMul, dropMean, Pi.neg_apply]
    by_cases hk : specN k = 0
    · simp [hk]
    · have h1 : ((specN k : ℕ) : ℂ) ≠ 0 := by exact_mod_cast hk
      have h2 : ((specN k : ℕ) : ℂ) + 1 ≠ 0 := by exact_mod_cast Nat.succ_ne_zero (specN k)
      have h3 : (r : ℂ) ≠ 0 := by exact_mod_cast hr
      simp only [if_neg hk]
      push_cast
      field_simp
  rw [e2, e, sphereGrad_harmonicSum hr _ x hy, sphereGrad_harmonicSum hr _ x hy, lamDeriv_dropMean, phiDeriv_dropMean]

/-- For the coefficients of a smooth streamfunction, the residual of the truncated equation is the residual of the equation. -/
theorem residual_defect (hg : g.Valid) (h : Spharm.Dealiased N S) (h1 : 1 ≤ g.ntrunc) {W : ℝ} (hbg : M.background S = solidRotation N W)
    (hF : ContDiff ℝ (⊤ : ℕ∞) F) {c c' : ℝ → g.Spc} (hc : ∀ t x y, onSphere F t x y = harmonicSum N (c t) x y) (hd : ∀ t, HasDerivAt c (c' t) t)
    (t x : ℝ) {y : ℝ} (hy : cos y ≠ 0) :
    residual N S M (vortCoeff N g.rsphere g.omega (c t)) (-degMul (fun n => n * (n + 1) / g.rsphere ^ 2) (c' t)) x y =
      defect g.rsphere g.omega M.diffusionCoeff M.diffusionOrder W F t x y := by
  have hr := hg.rsphere_pos.ne'
  have hN := h.exact.norm_ne
  have hV := vort_smooth g.rsphere g.omega hF
  have hfc : Grid.fcor2Spectral S = solidRotation N g.omega := h.exact.fcor2 h1 (by omega)
  have hp := fun t x y (hy : cos y ≠ 0) => vortCoeff_fn hr hN h1 g.omega hF (hc t) x hy
  have e1 : harmonicSum N (-degMul (fun n => n * (n + 1) / g.rsphere ^ 2) (c' t)) x y = onSphere (pd 0 (vort g.rsphere g.omega F)) t x y := by
    have d1 := harmonicSum_hasDeriv (N := N) (vortCoeff_hasDeriv (N := N) g.rsphere g.omega (hd t)) x y
    have d2 := onSphere_time hV t x y
    simp only [fun t => hp t x y hy] at d1
    exact d1.unique d2
  have e2 : sphereFlux g.rsphere (harmonicSum N (vortCoeff N g.rsphere g.omega (c t)))
      (harmonicSum N (invLaplace g.rsphere (vortCoeff N g.rsphere g.omega (c t) - Grid.fcor2Spectral S))) x y =
      (g.rsphere ^ 2)⁻¹ * (east F t x y * north (vort g.rsphere g.omega F) t x y - north F t x y * east (vort g.rsphere g.omega F) t x y) := by
    have : vortCoeff N g.rsphere g.omega (c t) - Grid.fcor2Spectral S = -degMul (fun n => n * (n + 1) / g.rsphere ^ 2) (c t) := by
      rw [hfc]
      unfold vortCoeff
      exact add_sub_cancel_right _ _
    rw [this, sphereFlux_congr g.rsphere x hy (hp t) (fun x y hy => stream_grad hr (hc t) x hy), sphereFlux_onSphere hV hF hr t x hy, div_eq_inv_mul]
  have e3 : harmonicSum N (M.damping S (vortCoeff N g.rsphere g.omega (c t))) x y =
      -(M.diffusionCoeff * onSphere (hyperL g.rsphere M.diffusionOrder fun p => vort g.rsphere g.omega F p + -(2 * W) * p 3) t x y) := by
    have hA : ContDiff ℝ (⊤ : ℕ∞) fun p => vort g.rsphere g.omega F p + -(2 * W) * p 3 := hV.add (contDiff_const.mul (contDiff_apply ℝ ℝ 3))
    have key := hyper_coeff (N := N) hr M.diffusionOrder hA (a := vortCoeff N g.rsphere g.omega (c t) - solidRotation N W) (t := t) (fun x y hy => by
      rw [show vortCoeff N g.rsphere g.omega (c t) - solidRotation N W = vortCoeff N g.rsphere g.omega (c t) + (-1 : ℝ) • solidRotation N W by
        rw [neg_one_smul, sub_eq_add_neg], harmonicSum_lin, hp t x y hy, harmonicSum_solid hN h1]
      have : spacetime t x y 3 = sin y := rfl
      simp only [onSphere, this]
      ring) x hy
    rw [← key]
    have : M.damping S (vortCoeff N g.rsphere g.omega (c t)) = (-M.diffusionCoeff) • degMul (fun n => (n * (n + 1) / g.rsphere ^ 2) ^ M.diffusionOrder)
        (vortCoeff N g.rsphere g.omega (c t) - solidRotation N W) := by
      funext k
      unfold BModel.damping
      rw [hbg]
      simp only [degMul, Pi.smul_apply, Pi.sub_apply, Complex.real_smul]
      push_cast
      ring
    rw [this, ← neg_mul]
    exact modeSum_smul N legendre _ _ x y
  unfold residual defect
  simp only [streamFn_eq]
  have hv : ∀ q : g.Spc, (⟨0, q⟩ : St ℝ g).vorticitySpectral S = q - Grid.fcor2Spectral S := fun q => rfl
  rw [hv]
  change harmonicSum N _ x y + sphereFlux g.rsphere (harmonicSum N _) _ x y - _ = _
  rw [e1, e2, e3]
  ring

end Barotropic
