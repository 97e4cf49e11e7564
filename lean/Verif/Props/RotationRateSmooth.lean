import Verif.Lemmas.Ambient
import Verif.Lemmas.SphereIntegral

/-!
# C153: smooth solutions on planets that rotate at different rates
-/

namespace Barotropic
open Real (cos sin)
open Set

theorem dlon_shift (A : ℝ → ℝ → ℝ) (b x y : ℝ) : dlon (fun x y => A (x + b) y) x y = dlon A (x + b) y :=
  deriv_comp_add_const (fun x => A x y) b x

theorem dlat_shift (A : ℝ → ℝ → ℝ) (b x y : ℝ) : dlat (fun x y => A (x + b) y) x y = dlat A (x + b) y := rfl

theorem sphereDiv_shift (r : ℝ) (U V : ℝ → ℝ → ℝ) (b x y : ℝ) : sphereDiv r (fun x y => U (x + b) y) (fun x y => V (x + b) y) x y = sphereDiv r U V (x + b) y := by
  unfold sphereDiv
  rw [dlon_shift]
  rfl

theorem sphereGrad_shift (r : ℝ) (A : ℝ → ℝ → ℝ) (b x y : ℝ) : sphereGrad r (fun x y => A (x + b) y) x y = sphereGrad r A (x + b) y := by
  unfold sphereGrad
  rw [dlon_shift, dlat_shift]

theorem sphereLaplacian_shift (r : ℝ) (A : ℝ → ℝ → ℝ) (b x y : ℝ) : sphereLaplacian r (fun x y => A (x + b) y) x y = sphereLaplacian r A (x + b) y := by
  unfold sphereLaplacian
  simp only [sphereGrad_shift]
  exact sphereDiv_shift r (fun x y => (sphereGrad r A x y).1) (fun x y => (sphereGrad r A x y).2) b x y

theorem hyperLaplacian_shift (r : ℝ) (k : ℕ) (A : ℝ → ℝ → ℝ) (b : ℝ) : hyperLaplacian r k (fun x y => A (x + b) y) = fun x y => hyperLaplacian r k A (x + b) y := by
  unfold hyperLaplacian
  induction k generalizing A with
  | zero => rfl
  | succ k ih =>
    rw [Function.iterate_succ_apply, Function.iterate_succ_apply]
    simp only [sphereLaplacian_shift]
    exact ih fun x y => -sphereLaplacian r A x y

theorem hyperLaplacian_congr {A B : ℝ → ℝ → ℝ} (r : ℝ) (k : ℕ) (h : ∀ x y, cos y ≠ 0 → A x y = B x y) :
    ∀ x y, cos y ≠ 0 → hyperLaplacian r k A x y = hyperLaplacian r k B x y := by
  unfold hyperLaplacian
  induction k generalizing A B with
  | zero => exact h
  | succ k ih =>
    rw [Function.iterate_succ_apply, Function.iterate_succ_apply]
    exact ih fun x y hy => by rw [sphereLaplacian_congr r x hy h]

theorem lat_contDiff {A : ℝ → ℝ → ℝ} (hA : SphereSmooth A) (x : ℝ) : ContDiff ℝ (⊤ : ℕ∞) fun y => A x y :=
  hA.smooth.comp (contDiff_const.prodMk contDiff_id)

theorem dlat_differentiable {A : ℝ → ℝ → ℝ} (hA : SphereSmooth A) (x : ℝ) : Differentiable ℝ fun y => dlat A x y :=
  (contDiff_infty_iff_deriv.mp (lat_contDiff hA x)).2.differentiable (by simp)

theorem dlat_add_sin {A : ℝ → ℝ → ℝ} (hA : SphereSmooth A) (c x y : ℝ) : dlat (fun x y => A x y + c * sin y) x y = dlat A x y + c * cos y :=
  ((hA.hasDerivAt_lat x y).add ((Real.hasDerivAt_sin y).const_mul c)).deriv

theorem dlon_add_sin (A : ℝ → ℝ → ℝ) (c x y : ℝ) : dlon (fun x y => A x y + c * sin y) x y = dlon A x y := by
  unfold dlon
  rw [deriv_add_const]

theorem sphereLaplacian_add_sin {A : ℝ → ℝ → ℝ} (hA : SphereSmooth A) {r : ℝ} (hr : r ≠ 0) (c x : ℝ) {y : ℝ} (hy : cos y ≠ 0) :
    sphereLaplacian r (fun x y => A x y + c * sin y) x y = sphereLaplacian r A x y - 2 * c / r ^ 2 * sin y := by
  unfold sphereLaplacian sphereDiv
  simp only [sphereGrad, dlat_add_sin hA, dlon_add_sin]
  have e : dlat (fun x y => (dlat A x y + c * cos y) / r * cos y) x y = dlat (fun x y => dlat A x y / r * cos y) x y - 2 * c / r * cos y * sin y := by
    unfold dlat
    have d1 : HasDerivAt (fun y => dlat A x y / r * cos y) (deriv (fun y => dlat A x y / r * cos y) y) y :=
      (((dlat_differentiable hA x).div_const r).mul Real.differentiable_cos y).hasDerivAt
    have d2 := ((Real.hasDerivAt_cos y).mul (Real.hasDerivAt_cos y)).const_mul (c / r)
    have := d1.add d2
    refine (HasDerivAt.deriv (this.congr_of_eventuallyEq (Filter.Eventually.of_forall fun y => ?_))).trans ?_
    · simp only [Pi.add_apply, Pi.mul_apply, dlat]
      ring
    · unfold dlat
      ring
  rw [e]
  field_simp
  ring

theorem sphereFlux_add_sin {Q A : ℝ → ℝ → ℝ} (hQ : SphereSmooth Q) (hA : SphereSmooth A) {r : ℝ} (hr : r ≠ 0) (c x : ℝ) {y : ℝ} (hy : cos y ≠ 0) :
    sphereFlux r Q (fun x y => A x y + c * sin y) x y = sphereFlux r Q A x y - c / r ^ 2 * dlon Q x y := by
  unfold sphereFlux sphereDiv
  simp only [sphereGrad, dlat_add_sin hA, dlon_add_sin]
  have e : dlon (fun x y => Q x y * -((dlat A x y + c * cos y) / r)) x y = dlon (fun x y => Q x y * -(dlat A x y / r)) x y - c / r * cos y * dlon Q x y := by
    have hd : Differentiable ℝ fun x => dlat A x y := by
      have : ContDiff ℝ (⊤ : ℕ∞) fun p : ℝ × ℝ => fderiv ℝ (fun p : ℝ × ℝ => A p.1 p.2) p (0, 1) :=
        (hA.smooth.fderiv_right (m := (⊤ : ℕ∞)) (by simp)).clm_apply contDiff_const
      have e : (fun x => dlat A x y) = fun x => fderiv ℝ (fun p : ℝ × ℝ => A p.1 p.2) (x, y) (0, 1) := by
        funext x
        have h1 := (hA.differentiable (x, y)).hasFDerivAt.comp_hasDerivAt y ((hasDerivAt_const y x).prodMk (hasDerivAt_id y))
        exact h1.deriv
      rw [e]
      exact (this.comp (contDiff_id.prodMk contDiff_const)).differentiable (by simp)
    have d1 : HasDerivAt (fun x => Q x y * -(dlat A x y / r)) (dlon (fun x y => Q x y * -(dlat A x y / r)) x y) x :=
      ((hQ.hasDerivAt_lon x y).differentiableAt.mul (hd x |>.div_const r).neg).hasDerivAt
    have d2 := (hQ.hasDerivAt_lon x y).mul_const (c / r * cos y)
    refine (HasDerivAt.deriv ((d1.sub d2).congr_of_eventuallyEq (Filter.Eventually.of_forall fun x => ?_))).trans ?_
    · simp only [Pi.sub_apply]
      ring
    · ring
  rw [e]
  field_simp
  ring

theorem absVort_spun {A : ℝ → ℝ → ℝ} (hA : SphereSmooth A) {r : ℝ} (hr : r ≠ 0) (Ω Ω' b x : ℝ) {y : ℝ} (hy : cos y ≠ 0) :
    absVort r Ω' (fun x y => A (x + b) y + (Ω' - Ω) * r ^ 2 * sin y) x y = absVort r Ω A (x + b) y := by
  have hs : SphereSmooth fun x y => A (x + b) y :=
    ⟨hA.smooth.comp ((contDiff_fst.add contDiff_const).prodMk contDiff_snd), fun x y => by rw [add_right_comm]; exact hA.periodic _ _⟩
  unfold absVort
  rw [sphereLaplacian_add_sin hs hr _ x hy, sphereLaplacian_shift]
  field_simp
  ring

/-- C153: smooth solutions for one angular velocity are those for any other, seen from the surface of the other planet. -/
theorem C153_smooth {r Ω Ω' ν W t0 t1 : ℝ} {order : ℕ} {Ψ : ℝ → ℝ → ℝ → ℝ} (hr : 0 < r) (hΨ : SmoothSolution r Ω ν order W t0 t1 Ψ) :
    SmoothSolution r Ω' ν order W t0 t1 fun t x y => Ψ t (x + (Ω' - Ω) * (t - t0)) y + (Ω' - Ω) * r ^ 2 * sin y := by
  obtain ⟨F, hF, hΨF⟩ := hΨ.smooth
  have hΨt : ∀ t, Ψ t = onSphere F t := fun t => by funext x y; exact hΨF t x y
  have hsm : ∀ t, SphereSmooth (Ψ t) := fun t => by rw [hΨt]; exact onSphere_smooth hF t
  constructor
  · refine ⟨fun v => F ![v 0, v 1 * cos ((Ω' - Ω) * (v 0 - t0)) - v 2 * sin ((Ω' - Ω) * (v 0 - t0)),
      v 1 * sin ((Ω' - Ω) * (v 0 - t0)) + v 2 * cos ((Ω' - Ω) * (v 0 - t0)), v 3] + (Ω' - Ω) * r ^ 2 * v 3, ?_, fun t x y => ?_⟩
    · have c : ∀ i : Fin 4, ContDiff ℝ (⊤ : ℕ∞) fun v : Fin 4 → ℝ => v i := fun i => contDiff_apply ℝ ℝ i
      have cb : ContDiff ℝ (⊤ : ℕ∞) fun v : Fin 4 → ℝ => (Ω' - Ω) * (v 0 - t0) := contDiff_const.mul ((c 0).sub contDiff_const)
      refine (hF.comp (contDiff_pi.mpr fun i => ?_)).add (contDiff_const.mul (c 3))
      fin_cases i
      · exact c 0
      · exact ((c 1).mul (Real.contDiff_cos.comp cb)).sub ((c 2).mul (Real.contDiff_sin.comp cb))
      · exact ((c 1).mul (Real.contDiff_sin.comp cb)).add ((c 2).mul (Real.contDiff_cos.comp cb))
      · exact c 3
    · rw [hΨF]
      unfold spacetime
      simp only [Matrix.cons_val_zero, Matrix.cons_val_one, Matrix.cons_val]
      rw [Real.cos_add, Real.sin_add]
      congr 2
      funext i
      fin_cases i
      · rfl
      · simp; ring
      · simp; ring
      · rfl
  · intro t ht x y hy
    have hV := vort_smooth r Ω hF
    have hQ : ∀ t x y, cos y ≠ 0 → absVort r Ω (Ψ t) x y = onSphere (vort r Ω F) t x y := fun t x y hy => by rw [hΨt, absVort_onSphere hF r Ω t x hy]
    have hshift : ∀ t x y, cos y ≠ 0 → absVort r Ω' (fun x y => Ψ t (x + (Ω' - Ω) * (t - t0)) y + (Ω' - Ω) * r ^ 2 * sin y) x y =
        onSphere (vort r Ω F) t (x + (Ω' - Ω) * (t - t0)) y := fun t x y hy => by rw [absVort_spun (hsm t) hr.ne' Ω Ω' _ x hy, hQ _ _ _ hy]
    have heq := hΨ.equation t ht (x + (Ω' - Ω) * (t - t0)) y hy
    obtain ⟨b, hb⟩ : ∃ b, b = (Ω' - Ω) * (t - t0) := ⟨_, rfl⟩
    -- the total derivative
    have hdiff : Differentiable ℝ fun p : ℝ × ℝ => onSphere (vort r Ω F) p.1 p.2 y := by
      refine (hV.comp (contDiff_pi.mpr fun i => ?_)).differentiable (by simp)
      fin_cases i
      · exact contDiff_fst
      · exact contDiff_const.mul (Real.contDiff_cos.comp contDiff_snd)
      · exact contDiff_const.mul (Real.contDiff_sin.comp contDiff_snd)
      · exact contDiff_const
    have hfd := (hdiff (t, x + (Ω' - Ω) * (t - t0))).hasFDerivAt
    obtain ⟨L, hL⟩ : ∃ L, L = fderiv ℝ (fun p : ℝ × ℝ => onSphere (vort r Ω F) p.1 p.2 y) (t, x + (Ω' - Ω) * (t - t0)) := ⟨_, rfl⟩
    rw [← hL] at hfd
    have hline : HasDerivAt (fun t => ((t, x + (Ω' - Ω) * (t - t0)) : ℝ × ℝ)) (1, Ω' - Ω) t := by
      have := (((hasDerivAt_id t).sub_const t0).const_mul (Ω' - Ω)).const_add x
      rw [mul_one] at this
      exact (hasDerivAt_id t).prodMk this
    have htot := hfd.comp_hasDerivAt t hline
    have htime := hfd.comp_hasDerivAt t ((hasDerivAt_id t).prodMk (hasDerivAt_const t (x + (Ω' - Ω) * (t - t0))))
    have hlon := hfd.comp_hasDerivAt (x + (Ω' - Ω) * (t - t0)) ((hasDerivAt_const (x + (Ω' - Ω) * (t - t0)) t).prodMk (hasDerivAt_id _))
    have hL1 : L (1, 0) = -sphereFlux r (absVort r Ω (Ψ t)) (Ψ t) (x + (Ω' - Ω) * (t - t0)) y -
        ν * hyperLaplacian r order (fun x y => absVort r Ω (Ψ t) x y - 2 * W * sin y) (x + (Ω' - Ω) * (t - t0)) y := by
      refine htime.unique (heq.congr_of_eventuallyEq (Filter.Eventually.of_forall fun t' => ?_))
      exact (hQ t' _ y hy).symm
    have hL2 : L (0, 1) = dlon (onSphere (vort r Ω F) t) (x + (Ω' - Ω) * (t - t0)) y := hlon.deriv.symm
    have hsplit : L (1, Ω' - Ω) = L (1, 0) + (Ω' - Ω) * L (0, 1) := by
      rw [← smul_eq_mul, ← map_smul, ← map_add]
      simp
    have hres : HasDerivAt (fun t => absVort r Ω' (fun x y => Ψ t (x + (Ω' - Ω) * (t - t0)) y + (Ω' - Ω) * r ^ 2 * sin y) x y) (L (1, Ω' - Ω)) t :=
      htot.congr_of_eventuallyEq (Filter.Eventually.of_forall fun t' => hshift t' x y hy)
    refine hres.congr_deriv ?_
    rw [hsplit, hL1, hL2]
    have hVs : SphereSmooth (onSphere (vort r Ω F) t) := onSphere_smooth hV t
    have f1 : sphereFlux r (absVort r Ω (Ψ t)) (Ψ t) (x + (Ω' - Ω) * (t - t0)) y = sphereFlux r (onSphere (vort r Ω F) t) (Ψ t) (x + (Ω' - Ω) * (t - t0)) y :=
      sphereFlux_congr r _ hy (fun x y hy => hQ t x y hy) fun _ _ _ => rfl
    have hsb : ∀ {A : ℝ → ℝ → ℝ} (b : ℝ), SphereSmooth A → SphereSmooth fun x y => A (x + b) y := fun b hA =>
      ⟨hA.smooth.comp ((contDiff_fst.add contDiff_const).prodMk contDiff_snd), fun x y => by rw [add_right_comm]; exact hA.periodic _ _⟩
    have f2 : sphereFlux r (absVort r Ω' (fun x y => Ψ t (x + (Ω' - Ω) * (t - t0)) y + (Ω' - Ω) * r ^ 2 * sin y))
        (fun x y => Ψ t (x + (Ω' - Ω) * (t - t0)) y + (Ω' - Ω) * r ^ 2 * sin y) x y =
        sphereFlux r (onSphere (vort r Ω F) t) (Ψ t) (x + (Ω' - Ω) * (t - t0)) y - (Ω' - Ω) * dlon (onSphere (vort r Ω F) t) (x + (Ω' - Ω) * (t - t0)) y := by
      rw [sphereFlux_congr r x hy (fun x y hy => hshift t x y hy) fun _ _ _ => rfl, sphereFlux_add_sin (hsb _ hVs) (hsb _ (hsm t)) hr.ne' _ x hy, dlon_shift]
      have : sphereFlux r (fun x y => onSphere (vort r Ω F) t (x + (Ω' - Ω) * (t - t0)) y) (fun x y => Ψ t (x + (Ω' - Ω) * (t - t0)) y) x y =
          sphereFlux r (onSphere (vort r Ω F) t) (Ψ t) (x + (Ω' - Ω) * (t - t0)) y := by
        unfold sphereFlux
        simp only [sphereGrad_shift]
        exact sphereDiv_shift r (fun x y => onSphere (vort r Ω F) t x y * -(sphereGrad r (Ψ t) x y).2) (fun x y => onSphere (vort r Ω F) t x y * (sphereGrad r (Ψ t) x y).1) _ x y
      rw [this, mul_div_assoc, div_self (pow_ne_zero 2 hr.ne'), mul_one]
    have f3 : hyperLaplacian r order (fun x y => absVort r Ω' (fun x y => Ψ t (x + (Ω' - Ω) * (t - t0)) y + (Ω' - Ω) * r ^ 2 * sin y) x y - 2 * W * sin y) x y =
        hyperLaplacian r order (fun x y => absVort r Ω (Ψ t) x y - 2 * W * sin y) (x + (Ω' - Ω) * (t - t0)) y := by
      rw [← congrFun (congrFun (hyperLaplacian_shift r order (fun x y => absVort r Ω (Ψ t) x y - 2 * W * sin y) ((Ω' - Ω) * (t - t0))) x) y]
      exact hyperLaplacian_congr r order (fun x y hy => by rw [hshift t x y hy, ← hQ _ _ _ hy]) x y hy
    rw [f1, f2, f3]
    ring

end Barotropic
