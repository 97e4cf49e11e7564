import Verif.Lemmas.Approx
import Verif.Lemmas.SpherePoly
import Verif.Lemmas.SphereIntegral
import Verif.Spec.Waves
import Mathlib.Analysis.Calculus.FDeriv.Symmetric

/-!
# Differential operators on the sphere in Cartesian coordinates
-/

namespace Barotropic
open Real (cos sin)
open Set

/-- Partial derivative -/
noncomputable def pd (i : Fin 4) (F : (Fin 4 → ℝ) → ℝ) : (Fin 4 → ℝ) → ℝ := fun p => fderiv ℝ F p (Pi.single i 1)

/-- Function of time and Cartesian coordinates as a function of time, longitude and latitude -/
noncomputable def onSphere (F : (Fin 4 → ℝ) → ℝ) (t x y : ℝ) : ℝ := F (spacetime t x y)

variable {F G : (Fin 4 → ℝ) → ℝ}

theorem pd_smooth (hF : ContDiff ℝ (⊤ : ℕ∞) F) (i : Fin 4) : ContDiff ℝ (⊤ : ℕ∞) (pd i F) := dir_smooth hF _

theorem fderiv_pd (F : (Fin 4 → ℝ) → ℝ) (p v : Fin 4 → ℝ) : fderiv ℝ F p v = v 0 * pd 0 F p + v 1 * pd 1 F p + v 2 * pd 2 F p + v 3 * pd 3 F p := by
  have : v = ∑ i, v i • (Pi.single i (1 : ℝ) : Fin 4 → ℝ) := by
    funext j
    simp [Finset.sum_apply, Pi.single_apply]
  conv_lhs => rw [this]
  rw [map_sum, Fin.sum_univ_four]
  simp only [map_smul, smul_eq_mul]
  rfl

theorem pd_comm (hF : ContDiff ℝ (⊤ : ℕ∞) F) (i j : Fin 4) : pd i (pd j F) = pd j (pd i F) := by
  funext p
  have hs : IsSymmSndFDerivAt ℝ F p := hF.contDiffAt.isSymmSndFDerivAt (by
    rw [minSmoothness_of_isRCLikeNormedField]
    exact WithTop.coe_le_coe.mpr (le_top : (2 : ℕ∞) ≤ ⊤))
  have hd : DifferentiableAt ℝ (fderiv ℝ F) p := (hF.fderiv_right (m := (⊤ : ℕ∞)) (by norm_cast)).differentiable (by simp) p
  have e : ∀ v w, fderiv ℝ (fun p => fderiv ℝ F p v) p w = fderiv ℝ (fderiv ℝ F) p w v := fun v w => by
    have := (hd.hasFDerivAt.clm_apply (hasFDerivAt_const v p)).fderiv
    rw [this]
    simp
  unfold pd
  rw [e, e]
  exact hs _ _

theorem onSphere_comp (hF : ContDiff ℝ (⊤ : ℕ∞) F) {c : ℝ → Fin 4 → ℝ} {c' : Fin 4 → ℝ} {s : ℝ} (hc : HasDerivAt c c' s) :
    HasDerivAt (fun s => F (c s)) (c' 0 * pd 0 F (c s) + c' 1 * pd 1 F (c s) + c' 2 * pd 2 F (c s) + c' 3 * pd 3 F (c s)) s := by
  rw [← fderiv_pd]
  exact (hF.differentiable (by simp) (c s)).hasFDerivAt.comp_hasDerivAt s hc

theorem onSphere_time (hF : ContDiff ℝ (⊤ : ℕ∞) F) (t x y : ℝ) : HasDerivAt (fun t => onSphere F t x y) (onSphere (pd 0 F) t x y) t := by
  have hc : HasDerivAt (fun t => spacetime t x y) ![1, 0, 0, 0] t := by
    rw [hasDerivAt_pi]
    intro i
    fin_cases i
    · exact hasDerivAt_id t
    · exact hasDerivAt_const t _
    · exact hasDerivAt_const t _
    · exact hasDerivAt_const t _
  refine (onSphere_comp hF hc).congr_deriv ?_
  simp [onSphere]

theorem onSphere_lon (hF : ContDiff ℝ (⊤ : ℕ∞) F) (t x y : ℝ) :
    HasDerivAt (fun x => onSphere F t x y) (cos y * (-sin x * onSphere (pd 1 F) t x y + cos x * onSphere (pd 2 F) t x y)) x := by
  have hc : HasDerivAt (fun x => spacetime t x y) ![0, cos y * -sin x, cos y * cos x, 0] x := by
    rw [hasDerivAt_pi]
    intro i
    fin_cases i
    · exact hasDerivAt_const x _
    · exact (Real.hasDerivAt_cos x).const_mul _
    · exact (Real.hasDerivAt_sin x).const_mul _
    · exact hasDerivAt_const x _
  refine (onSphere_comp hF hc).congr_deriv ?_
  simp [onSphere]
  ring

theorem onSphere_lat (hF : ContDiff ℝ (⊤ : ℕ∞) F) (t x y : ℝ) :
    HasDerivAt (fun y => onSphere F t x y)
      (-sin y * (cos x * onSphere (pd 1 F) t x y + sin x * onSphere (pd 2 F) t x y) + cos y * onSphere (pd 3 F) t x y) y := by
  have hc : HasDerivAt (fun y => spacetime t x y) ![0, -sin y * cos x, -sin y * sin x, cos y] y := by
    rw [hasDerivAt_pi]
    intro i
    fin_cases i
    · exact hasDerivAt_const y _
    · exact (Real.hasDerivAt_cos y).mul_const _
    · exact (Real.hasDerivAt_cos y).mul_const _
    · exact Real.hasDerivAt_sin y
  refine (onSphere_comp hF hc).congr_deriv ?_
  simp [onSphere]
  ring

theorem onSphere_smooth (hF : ContDiff ℝ (⊤ : ℕ∞) F) (t : ℝ) : SphereSmooth (onSphere F t) := by
  refine ⟨hF.comp (contDiff_pi.mpr fun i => ?_), fun x y => ?_⟩
  · fin_cases i
    · exact contDiff_const
    · exact (Real.contDiff_cos.comp contDiff_snd).mul (Real.contDiff_cos.comp contDiff_fst)
    · exact (Real.contDiff_cos.comp contDiff_snd).mul (Real.contDiff_sin.comp contDiff_fst)
    · exact Real.contDiff_sin.comp contDiff_snd
  · unfold onSphere spacetime
    rw [Real.cos_add_two_pi, Real.sin_add_two_pi]

/-! ## Gradient -/

/-- Derivative in eastward direction -/
noncomputable def east (F : (Fin 4 → ℝ) → ℝ) (t x y : ℝ) : ℝ := -sin x * onSphere (pd 1 F) t x y + cos x * onSphere (pd 2 F) t x y

/-- Derivative in northward direction -/
noncomputable def north (F : (Fin 4 → ℝ) → ℝ) (t x y : ℝ) : ℝ :=
  -sin y * (cos x * onSphere (pd 1 F) t x y + sin x * onSphere (pd 2 F) t x y) + cos y * onSphere (pd 3 F) t x y

theorem dlon_onSphere (hF : ContDiff ℝ (⊤ : ℕ∞) F) (t x y : ℝ) : dlon (onSphere F t) x y = cos y * east F t x y := (onSphere_lon hF t x y).deriv

theorem dlat_onSphere (hF : ContDiff ℝ (⊤ : ℕ∞) F) (t x y : ℝ) : dlat (onSphere F t) x y = north F t x y := (onSphere_lat hF t x y).deriv

theorem sphereGrad_onSphere (hF : ContDiff ℝ (⊤ : ℕ∞) F) (r t x : ℝ) {y : ℝ} (hy : cos y ≠ 0) :
    sphereGrad r (onSphere F t) x y = (east F t x y / r, north F t x y / r) := by
  unfold sphereGrad
  rw [dlon_onSphere hF, dlat_onSphere hF, mul_comm r, mul_div_mul_left _ _ hy]

theorem sphereDiv_congr {U V U' V' : ℝ → ℝ → ℝ} (r x : ℝ) {y : ℝ} (hy : cos y ≠ 0) (h : ∀ x y, cos y ≠ 0 → U x y = U' x y ∧ V x y = V' x y) :
    sphereDiv r U V x y = sphereDiv r U' V' x y := by
  have e1 : dlon U x y = dlon U' x y := congrArg (fun f => deriv f x) (funext fun x => (h x y hy).1)
  have e2 : dlat (fun x y => V x y * cos y) x y = dlat (fun x y => V' x y * cos y) x y := by
    refine Filter.EventuallyEq.deriv_eq ?_
    filter_upwards [(isOpen_ne_fun Real.continuous_cos continuous_const).mem_nhds hy] with y' hy'
    rw [(h x y' hy').2]
  unfold sphereDiv
  rw [e1, e2]

theorem sphereLaplacian_congr {A B : ℝ → ℝ → ℝ} (r x : ℝ) {y : ℝ} (hy : cos y ≠ 0) (h : ∀ x y, cos y ≠ 0 → A x y = B x y) :
    sphereLaplacian r A x y = sphereLaplacian r B x y := by
  refine sphereDiv_congr r x hy fun x y hy => ?_
  have e1 : dlon A x y = dlon B x y := congrArg (fun f => deriv f x) (funext fun x => h x y hy)
  have e2 : dlat A x y = dlat B x y := by
    refine Filter.EventuallyEq.deriv_eq ?_
    filter_upwards [(isOpen_ne_fun Real.continuous_cos continuous_const).mem_nhds hy] with y' hy'
    exact h x y' hy'
  unfold sphereGrad
  rw [e1, e2]
  exact ⟨rfl, rfl⟩

theorem east_smooth (hF : ContDiff ℝ (⊤ : ℕ∞) F) (t : ℝ) : SphereSmooth (east F t) :=
  (SphereSmooth.mk (F := fun x _ => -sin x) (Real.contDiff_sin.comp contDiff_fst).neg (fun x _ => by rw [Real.sin_add_two_pi])).mul
      (onSphere_smooth (pd_smooth hF 1) t) |>.add
    ((SphereSmooth.mk (F := fun x _ => cos x) (Real.contDiff_cos.comp contDiff_fst) (fun x _ => Real.cos_add_two_pi x)).mul
      (onSphere_smooth (pd_smooth hF 2) t))

theorem north_smooth (hF : ContDiff ℝ (⊤ : ℕ∞) F) (t : ℝ) : SphereSmooth (north F t) :=
  ((SphereSmooth.lat Real.contDiff_sin.neg).mul
    (((SphereSmooth.mk (F := fun x _ => cos x) (Real.contDiff_cos.comp contDiff_fst) (fun x _ => Real.cos_add_two_pi x)).mul
      (onSphere_smooth (pd_smooth hF 1) t)).add
    ((SphereSmooth.mk (F := fun x _ => sin x) (Real.contDiff_sin.comp contDiff_fst) (fun x _ => Real.sin_add_two_pi x)).mul
      (onSphere_smooth (pd_smooth hF 2) t)))).add ((SphereSmooth.lat Real.contDiff_cos).mul (onSphere_smooth (pd_smooth hF 3) t))

/-! ## Laplacian and advection -/

/-- Laplacian on the unit sphere -/
noncomputable def lapl (F : (Fin 4 → ℝ) → ℝ) (p : Fin 4 → ℝ) : ℝ :=
  pd 1 (pd 1 F) p + pd 2 (pd 2 F) p + pd 3 (pd 3 F) p -
    (p 1 * (p 1 * pd 1 (pd 1 F) p) + p 2 * (p 2 * pd 2 (pd 2 F) p) + p 3 * (p 3 * pd 3 (pd 3 F) p) +
      2 * (p 1 * (p 2 * pd 1 (pd 2 F) p) + p 1 * (p 3 * pd 1 (pd 3 F) p) + p 2 * (p 3 * pd 2 (pd 3 F) p))) -
    2 * (p 1 * pd 1 F p + p 2 * pd 2 F p + p 3 * pd 3 F p)

theorem sphereLaplacian_onSphere (hF : ContDiff ℝ (⊤ : ℕ∞) F) (r t x : ℝ) {y : ℝ} (hy : cos y ≠ 0) :
    sphereLaplacian r (onSphere F t) x y = onSphere (lapl F) t x y / r ^ 2 := by
  have e : sphereLaplacian r (onSphere F t) x y = sphereDiv r (fun x y => east F t x y / r) (fun x y => north F t x y / r) x y :=
    sphereDiv_congr r x hy fun x y hy => by rw [sphereGrad_onSphere hF r t x hy]; exact ⟨rfl, rfl⟩
  have h1 := fun i => onSphere_lon (pd_smooth hF i) t x y
  have h2 := fun i => onSphere_lat (pd_smooth hF i) t x y
  have d1 : HasDerivAt (fun x => east F t x y / r) _ x :=
    (((Real.hasDerivAt_sin x).neg.mul (h1 1)).add ((Real.hasDerivAt_cos x).mul (h1 2))).div_const r
  have d2 : HasDerivAt (fun y => north F t x y / r * cos y) _ y :=
    ((((Real.hasDerivAt_sin y).neg.mul (((h2 1).const_mul (cos x)).add ((h2 2).const_mul (sin x)))).add
      ((Real.hasDerivAt_cos y).mul (h2 3))).div_const r).mul (Real.hasDerivAt_cos y)
  rw [e]
  unfold sphereDiv dlon dlat
  rw [d1.deriv, d2.deriv]
  have c12 := congrFun (pd_comm hF 1 2) (spacetime t x y)
  have c13 := congrFun (pd_comm hF 1 3) (spacetime t x y)
  have c23 := congrFun (pd_comm hF 2 3) (spacetime t x y)
  have s1 : (spacetime t x y) 1 = cos y * cos x := rfl
  have s2 : (spacetime t x y) 2 = cos y * sin x := rfl
  have s3 : (spacetime t x y) 3 = sin y := rfl
  by_cases hr : r = 0
  · simp [hr]
  simp only [onSphere, lapl, s1, s2, s3, Pi.neg_apply, Pi.add_apply, Pi.mul_apply]
  have hx := Real.sin_sq_add_cos_sq x
  have hyy := Real.sin_sq_add_cos_sq y
  rw [← c12, ← c13, ← c23]
  field_simp
  linear_combination (cos y * pd 1 (pd 1 F) (spacetime t x y) + cos y * pd 2 (pd 2 F) (spacetime t x y)) * hx +
    (cos y * cos x ^ 2 * pd 1 (pd 1 F) (spacetime t x y) + cos y * sin x ^ 2 * pd 2 (pd 2 F) (spacetime t x y) +
      cos y * pd 3 (pd 3 F) (spacetime t x y) + 2 * cos x * sin x * cos y * pd 1 (pd 2 F) (spacetime t x y) +
      cos x * pd 1 F (spacetime t x y) + sin x * pd 2 F (spacetime t x y)) * hyy

theorem sphereFlux_onSphere {A B : (Fin 4 → ℝ) → ℝ} (hA : ContDiff ℝ (⊤ : ℕ∞) A) (hB : ContDiff ℝ (⊤ : ℕ∞) B) {r : ℝ} (hr : r ≠ 0) (t x : ℝ) {y : ℝ} (hy : cos y ≠ 0) :
    sphereFlux r (onSphere A t) (onSphere B t) x y = (east B t x y * north A t x y - north B t x y * east A t x y) / r ^ 2 := by
  have e : sphereFlux r (onSphere A t) (onSphere B t) x y =
      sphereDiv r (fun x y => onSphere A t x y * -(north B t x y / r)) (fun x y => onSphere A t x y * (east B t x y / r)) x y :=
    sphereDiv_congr r x hy fun x y hy => by rw [sphereGrad_onSphere hB r t x hy]; exact ⟨rfl, rfl⟩
  have hdiv : sphereDiv r (fun x y => -(north B t x y / r)) (fun x y => east B t x y / r) x y = 0 := by
    have h1 := fun i => onSphere_lon (pd_smooth hB i) t x y
    have h2 := fun i => onSphere_lat (pd_smooth hB i) t x y
    have d1 : HasDerivAt (fun x => -(north B t x y / r)) _ x :=
      (((((Real.hasDerivAt_cos x).mul (h1 1)).add ((Real.hasDerivAt_sin x).mul (h1 2))).const_mul (-sin y)).add ((h1 3).const_mul (cos y))).div_const r |>.neg
    have d2 : HasDerivAt (fun y => east B t x y / r * cos y) _ y :=
      ((((h2 1).const_mul (-sin x)).add ((h2 2).const_mul (cos x))).div_const r).mul (Real.hasDerivAt_cos y)
    unfold sphereDiv dlon dlat
    rw [d1.deriv, d2.deriv, div_eq_zero_iff]
    left
    have c12 := congrFun (pd_comm hB 1 2) (spacetime t x y)
    have c13 := congrFun (pd_comm hB 1 3) (spacetime t x y)
    have c23 := congrFun (pd_comm hB 2 3) (spacetime t x y)
    simp only [onSphere, Pi.neg_apply, Pi.add_apply, Pi.mul_apply]
    rw [← c12, ← c13, ← c23]
    field_simp
    ring
  rw [e, sphereDiv_mul (onSphere_smooth hA t) ((north_smooth hB t).div_const r).neg ((east_smooth hB t).div_const r) hr x hy, hdiv,
    sphereGrad_onSphere hA r t x hy]
  field_simp
  ring

/-! ## Vorticity and diffusion -/

theorem lapl_smooth (hF : ContDiff ℝ (⊤ : ℕ∞) F) : ContDiff ℝ (⊤ : ℕ∞) (lapl F) := by
  have h1 := fun i => pd_smooth hF i
  have h2 := fun i j => pd_smooth (pd_smooth hF j) i
  have hc := fun i : Fin 4 => (contDiff_apply ℝ ℝ i : ContDiff ℝ (⊤ : ℕ∞) fun p : Fin 4 → ℝ => p i)
  have k := fun i j => (hc i).mul ((hc j).mul (h2 i j))
  exact ((((h2 1 1).add (h2 2 2)).add (h2 3 3)).sub ((((k 1 1).add (k 2 2)).add (k 3 3)).add
    (contDiff_const.mul (((k 1 2).add (k 1 3)).add (k 2 3))))).sub
    (contDiff_const.mul ((((hc 1).mul (h1 1)).add ((hc 2).mul (h1 2))).add ((hc 3).mul (h1 3))))

/-- Absolute vorticity as a function of Cartesian coordinates -/
noncomputable def vort (r Ω : ℝ) (F : (Fin 4 → ℝ) → ℝ) (p : Fin 4 → ℝ) : ℝ := (r ^ 2)⁻¹ * lapl F p + 2 * Ω * p 3

theorem vort_smooth (r Ω : ℝ) (hF : ContDiff ℝ (⊤ : ℕ∞) F) : ContDiff ℝ (⊤ : ℕ∞) (vort r Ω F) :=
  (contDiff_const.mul (lapl_smooth hF)).add (contDiff_const.mul (contDiff_apply ℝ ℝ 3))

theorem absVort_onSphere (hF : ContDiff ℝ (⊤ : ℕ∞) F) (r Ω t x : ℝ) {y : ℝ} (hy : cos y ≠ 0) :
    absVort r Ω (onSphere F t) x y = onSphere (vort r Ω F) t x y := by
  unfold absVort
  rw [sphereLaplacian_onSphere hF r t x hy, div_eq_inv_mul]
  rfl

/-- `(-Δ)^k` on a sphere of radius `r` -/
noncomputable def hyperL (r : ℝ) (k : ℕ) : ((Fin 4 → ℝ) → ℝ) → (Fin 4 → ℝ) → ℝ := (fun A p => -(r ^ 2)⁻¹ * lapl A p)^[k]

theorem hyperL_smooth (r : ℝ) (k : ℕ) (hF : ContDiff ℝ (⊤ : ℕ∞) F) : ContDiff ℝ (⊤ : ℕ∞) (hyperL r k F) := by
  induction k generalizing F with
  | zero => exact hF
  | succ k ih => exact ih (contDiff_const.mul (lapl_smooth hF))

theorem hyperLaplacian_onSphere (r : ℝ) (k : ℕ) (hF : ContDiff ℝ (⊤ : ℕ∞) F) (t : ℝ) {A : ℝ → ℝ → ℝ}
    (hA : ∀ x y, cos y ≠ 0 → A x y = onSphere F t x y) (x : ℝ) {y : ℝ} (hy : cos y ≠ 0) :
    hyperLaplacian r k A x y = onSphere (hyperL r k F) t x y := by
  induction k generalizing F A with
  | zero => exact hA x y hy
  | succ k ih =>
    refine ih (F := fun p => -(r ^ 2)⁻¹ * lapl F p) (contDiff_const.mul (lapl_smooth hF)) (A := fun x y => -sphereLaplacian r A x y) fun x y hy => ?_
    rw [sphereLaplacian_congr r x hy hA, sphereLaplacian_onSphere hF r t x hy, div_eq_inv_mul, ← neg_mul]
    rfl

theorem sphereFlux_congr {Q Q' P P' : ℝ → ℝ → ℝ} (r x : ℝ) {y : ℝ} (hy : cos y ≠ 0) (hQ : ∀ x y, cos y ≠ 0 → Q x y = Q' x y)
    (hP : ∀ x y, cos y ≠ 0 → sphereGrad r P x y = sphereGrad r P' x y) : sphereFlux r Q P x y = sphereFlux r Q' P' x y :=
  sphereDiv_congr r x hy fun x y hy => by rw [hQ x y hy, hP x y hy]; exact ⟨rfl, rfl⟩

/-- What is left of the equation for the streamfunction `F` -/
noncomputable def defect (r Ω ν : ℝ) (k : ℕ) (W : ℝ) (F : (Fin 4 → ℝ) → ℝ) (t x y : ℝ) : ℝ :=
  onSphere (pd 0 (vort r Ω F)) t x y +
    (r ^ 2)⁻¹ * (east F t x y * north (vort r Ω F) t x y - north F t x y * east (vort r Ω F) t x y) +
    ν * onSphere (hyperL r k fun p => vort r Ω F p + -(2 * W) * p 3) t x y

theorem defect_smooth (r Ω ν : ℝ) (k : ℕ) (W : ℝ) (hF : ContDiff ℝ (⊤ : ℕ∞) F) (t : ℝ) : SphereSmooth (defect r Ω ν k W F t) := by
  have hV := vort_smooth r Ω hF
  have c : ∀ a : ℝ, SphereSmooth fun _ _ => a := fun a => .lat contDiff_const
  exact ((onSphere_smooth (pd_smooth hV 0) t).add ((c (r ^ 2)⁻¹).mul (((east_smooth hF t).mul (north_smooth hV t)).sub
    ((north_smooth hF t).mul (east_smooth hV t))))).add ((c ν).mul (onSphere_smooth (hyperL_smooth r k (hV.add (contDiff_const.mul (contDiff_apply ℝ ℝ 3)))) t))

/-- The equation in Cartesian coordinates -/
theorem equation_iff {r Ω ν : ℝ} (hr : r ≠ 0) {k : ℕ} {W : ℝ} (hF : ContDiff ℝ (⊤ : ℕ∞) F) (t x : ℝ) {y : ℝ} (hy : cos y ≠ 0) :
    HasDerivAt (fun t => absVort r Ω (onSphere F t) x y) (-sphereFlux r (absVort r Ω (onSphere F t)) (onSphere F t) x y -
      ν * hyperLaplacian r k (fun x y => absVort r Ω (onSphere F t) x y - 2 * W * sin y) x y) t ↔ defect r Ω ν k W F t x y = 0 := by
  have hV := vort_smooth r Ω hF
  have h0 := onSphere_time hV t x y
  simp only [fun t => absVort_onSphere hF r Ω t x hy]
  rw [sphereFlux_congr r x hy (fun x y hy => absVort_onSphere hF r Ω t x hy) (fun _ _ _ => rfl), sphereFlux_onSphere hV hF hr t x hy,
    hyperLaplacian_onSphere r k (F := fun p => vort r Ω F p + -(2 * W) * p 3) (hV.add (contDiff_const.mul (contDiff_apply ℝ ℝ 3))) t (fun x y hy => by
      rw [absVort_onSphere hF r Ω t x hy]
      have : spacetime t x y 3 = sin y := rfl
      simp only [onSphere, this]
      ring) x hy]
  unfold defect
  constructor
  · intro h1
    rw [h0.unique h1]
    ring
  · intro h1
    refine h0.congr_deriv ?_
    linear_combination h1

theorem defect_zero {r Ω ν : ℝ} (hr : r ≠ 0) {k : ℕ} {W t0 t1 : ℝ} {Ψ : ℝ → ℝ → ℝ → ℝ} (h : SmoothSolution r Ω ν k W t0 t1 Ψ) (hF : ContDiff ℝ (⊤ : ℕ∞) F)
    (hΨ : ∀ t x y, Ψ t x y = F (spacetime t x y)) {t : ℝ} (ht : t ∈ Icc t0 t1) (x : ℝ) {y : ℝ} (hy : cos y ≠ 0) :
    defect r Ω ν k W F t x y = 0 := by
  have e : Ψ = onSphere F := by funext t x y; exact hΨ t x y
  subst e
  exact (equation_iff hr hF t x hy).mp (h.equation t ht x y hy)

/-! ## Limits -/

section
variable {C : Set (Fin 4 → ℝ)} {b : ℝ} {Fm : ℕ → (Fin 4 → ℝ) → ℝ}

theorem SmoothLimit.lapl (hC : C ⊆ Metric.closedBall 0 b) (h : SmoothLimit C Fm F) : SmoothLimit C (fun m => lapl (Fm m)) (lapl F) := by
  have h1 : ∀ i, SmoothLimit C (fun m => pd i (Fm m)) (pd i F) := fun i => h.dir _
  have h2 : ∀ i j, SmoothLimit C (fun m => pd i (pd j (Fm m))) (pd i (pd j F)) := fun i j => (h1 j).dir _
  have k := fun i j => ((h2 i j).coord hC j).coord hC i
  have := ((((h2 1 1).add (h2 2 2)).add (h2 3 3)).add (((((k 1 1).add (k 2 2)).add (k 3 3)).add
    ((((k 1 2).add (k 1 3)).add (k 2 3)).smul 2)).smul (-1))).add
    (((((h1 1).coord hC 1).add ((h1 2).coord hC 2)).add ((h1 3).coord hC 3)).smul (-2))
  convert this using 1
  · funext m p
    unfold Barotropic.lapl
    ring
  · funext p
    unfold Barotropic.lapl
    ring

theorem SmoothLimit.vort (hC : C ⊆ Metric.closedBall 0 b) (r Ω : ℝ) (h : SmoothLimit C Fm F) : SmoothLimit C (fun m => vort r Ω (Fm m)) (vort r Ω F) :=
  ((h.lapl hC).smul _).add (SmoothLimit.const C (contDiff_const.mul (contDiff_apply ℝ ℝ 3)))

theorem SmoothLimit.hyperL (hC : C ⊆ Metric.closedBall 0 b) (r : ℝ) (k : ℕ) (h : SmoothLimit C Fm F) :
    SmoothLimit C (fun m => hyperL r k (Fm m)) (hyperL r k F) := by
  induction k generalizing Fm F with
  | zero => exact h
  | succ k ih => exact ih ((h.lapl hC).smul _)

end

/-- Uniform convergence at times `|t| ≤ b` to a bounded function -/
structure UnifTo (b : ℝ) (fm : ℕ → ℝ → ℝ → ℝ → ℝ) (f : ℝ → ℝ → ℝ → ℝ) : Prop where
  bounded : ∃ K, ∀ t, |t| ≤ b → ∀ x y, |f t x y| ≤ K
  tends : ∀ ε > 0, ∀ᶠ m in Filter.atTop, ∀ t, |t| ≤ b → ∀ x y, |fm m t x y - f t x y| ≤ ε

namespace UnifTo
variable {b : ℝ} {fm gm : ℕ → ℝ → ℝ → ℝ → ℝ} {f g : ℝ → ℝ → ℝ → ℝ}

theorem const (hf : ∃ K, ∀ t, |t| ≤ b → ∀ x y, |f t x y| ≤ K) : UnifTo b (fun _ => f) f :=
  ⟨hf, fun ε hε => Filter.Eventually.of_forall fun m t _ x y => by rw [sub_self, abs_zero]; exact hε.le⟩

theorem add (h : UnifTo b fm f) (h' : UnifTo b gm g) : UnifTo b (fun m t x y => fm m t x y + gm m t x y) (fun t x y => f t x y + g t x y) := by
  obtain ⟨K, hK⟩ := h.bounded
  obtain ⟨K', hK'⟩ := h'.bounded
  refine ⟨⟨K + K', fun t ht x y => (abs_add_le _ _).trans (add_le_add (hK t ht x y) (hK' t ht x y))⟩, fun ε hε => ?_⟩
  filter_upwards [h.tends (ε / 2) (by positivity), h'.tends (ε / 2) (by positivity)] with m h1 h2 t ht x y
  rw [add_sub_add_comm]
  exact (abs_add_le _ _).trans ((add_le_add (h1 t ht x y) (h2 t ht x y)).trans (by linarith))

theorem mul (h : UnifTo b fm f) (h' : UnifTo b gm g) : UnifTo b (fun m t x y => fm m t x y * gm m t x y) (fun t x y => f t x y * g t x y) := by
  obtain ⟨K, hK⟩ := h.bounded
  obtain ⟨K', hK'⟩ := h'.bounded
  have hKa : ∀ t, |t| ≤ b → ∀ x y, |f t x y| ≤ |K| := fun t ht x y => (hK t ht x y).trans (le_abs_self _)
  have hKa' : ∀ t, |t| ≤ b → ∀ x y, |g t x y| ≤ |K'| := fun t ht x y => (hK' t ht x y).trans (le_abs_self _)
  refine ⟨⟨|K| * |K'|, fun t ht x y => ?_⟩, fun ε hε => ?_⟩
  · rw [abs_mul]
    exact mul_le_mul (hKa t ht x y) (hKa' t ht x y) (abs_nonneg _) (abs_nonneg _)
  · have hL : 0 < |K| + |K'| + 1 := by positivity
    obtain ⟨δ, hδ⟩ : ∃ δ, δ = min 1 (ε / (|K| + |K'| + 1)) := ⟨_, rfl⟩
    have hδ0 : 0 < δ := hδ ▸ lt_min one_pos (by positivity)
    have hδ1 : δ ≤ 1 := hδ ▸ min_le_left _ _
    have hδ2 : δ * (|K| + |K'| + 1) ≤ ε := (le_div_iff₀ hL).mp (hδ ▸ min_le_right _ _)
    filter_upwards [h.tends δ hδ0, h'.tends δ hδ0] with m h1 h2 t ht x y
    have e : fm m t x y * gm m t x y - f t x y * g t x y =
        (fm m t x y - f t x y) * (gm m t x y - g t x y) + f t x y * (gm m t x y - g t x y) + (fm m t x y - f t x y) * g t x y := by ring
    have a1 := h1 t ht x y
    have a2 := h2 t ht x y
    have a3 := hKa t ht x y
    have a4 := hKa' t ht x y
    rw [e]
    refine (abs_add_le _ _).trans ((add_le_add (abs_add_le _ _) le_rfl).trans ?_)
    rw [abs_mul, abs_mul, abs_mul]
    have b1 : |fm m t x y - f t x y| * |gm m t x y - g t x y| ≤ δ * 1 := mul_le_mul a1 (a2.trans hδ1) (abs_nonneg _) hδ0.le
    have b2 : |f t x y| * |gm m t x y - g t x y| ≤ |K| * δ := mul_le_mul a3 a2 (abs_nonneg _) (abs_nonneg _)
    have b3 : |fm m t x y - f t x y| * |g t x y| ≤ δ * |K'| := mul_le_mul a1 a4 (abs_nonneg _) hδ0.le
    linarith

theorem mul_const (c : ℝ → ℝ → ℝ) (K : ℝ) (hc : ∀ x y, |c x y| ≤ K) (h : UnifTo b fm f) :
    UnifTo b (fun m t x y => c x y * fm m t x y) (fun t x y => c x y * f t x y) :=
  (const ⟨K, fun _ _ => hc⟩ : UnifTo b (fun _ _ => c) fun _ => c).mul h

theorem sub (h : UnifTo b fm f) (h' : UnifTo b gm g) : UnifTo b (fun m t x y => fm m t x y - gm m t x y) (fun t x y => f t x y - g t x y) := by
  have := h.add (h'.mul_const (fun _ _ => -1) 1 (by simp))
  simpa only [neg_one_mul, ← sub_eq_add_neg] using this

end UnifTo

theorem spacetime_mem {b : ℝ} (hb : 1 ≤ b) {t : ℝ} (ht : |t| ≤ b) (x y : ℝ) : spacetime t x y ∈ Metric.closedBall (0 : Fin 4 → ℝ) b := by
  rw [mem_closedBall_zero_iff, pi_norm_le_iff_of_nonneg (by linarith)]
  have hm : ∀ u v : ℝ, |u| ≤ 1 → |v| ≤ 1 → |u * v| ≤ b := fun u v hu hv => by
    rw [abs_mul]
    exact (mul_le_one₀ hu (abs_nonneg _) hv).trans hb
  intro i
  rw [Real.norm_eq_abs]
  fin_cases i
  · exact ht
  · exact hm _ _ (Real.abs_cos_le_one y) (Real.abs_cos_le_one x)
  · exact hm _ _ (Real.abs_cos_le_one y) (Real.abs_sin_le_one x)
  · exact (Real.abs_sin_le_one y).trans hb

section
variable {b : ℝ} {Fm : ℕ → (Fin 4 → ℝ) → ℝ}

theorem SmoothLimit.onSphere (hb : 1 ≤ b) (h : SmoothLimit (Metric.closedBall 0 b) Fm F) : UnifTo b (fun m => onSphere (Fm m)) (onSphere F) := by
  obtain ⟨K, hK⟩ := (isCompact_closedBall (0 : Fin 4 → ℝ) b).exists_bound_of_continuousOn h.lim.continuous.continuousOn
  refine ⟨⟨K, fun t ht x y => hK _ (spacetime_mem hb ht x y)⟩, fun ε hε => ?_⟩
  filter_upwards [Metric.tendstoUniformlyOn_iff.mp h.uniform ε hε] with m hm t ht x y
  have := (hm _ (spacetime_mem hb ht x y)).le
  rwa [dist_comm, Real.dist_eq] at this

theorem SmoothLimit.east (hb : 1 ≤ b) (h : SmoothLimit (Metric.closedBall 0 b) Fm F) : UnifTo b (fun m => east (Fm m)) (east F) :=
  ((SmoothLimit.onSphere hb (h.dir _)).mul_const (fun x _ => -sin x) 1 (fun x _ => by rw [abs_neg]; exact Real.abs_sin_le_one x)).add
    ((SmoothLimit.onSphere hb (h.dir _)).mul_const (fun x _ => cos x) 1 (fun x _ => Real.abs_cos_le_one x))

theorem SmoothLimit.north (hb : 1 ≤ b) (h : SmoothLimit (Metric.closedBall 0 b) Fm F) : UnifTo b (fun m => north (Fm m)) (north F) :=
  ((((SmoothLimit.onSphere hb (h.dir _)).mul_const (fun x _ => cos x) 1 (fun x _ => Real.abs_cos_le_one x)).add
    ((SmoothLimit.onSphere hb (h.dir _)).mul_const (fun x _ => sin x) 1 (fun x _ => Real.abs_sin_le_one x))).mul_const (fun _ y => -sin y) 1
      (fun _ y => by rw [abs_neg]; exact Real.abs_sin_le_one y)).add
    ((SmoothLimit.onSphere hb (h.dir _)).mul_const (fun _ y => cos y) 1 (fun _ y => Real.abs_cos_le_one y))

theorem SmoothLimit.defect (hb : 1 ≤ b) (r Ω ν : ℝ) (k : ℕ) (W : ℝ) (h : SmoothLimit (Metric.closedBall 0 b) Fm F) :
    UnifTo b (fun m => defect r Ω ν k W (Fm m)) (defect r Ω ν k W F) := by
  have hv := h.vort subset_rfl r Ω
  have hd := (hv.add (SmoothLimit.const _ (contDiff_const.mul (contDiff_apply ℝ ℝ 3) : ContDiff ℝ (⊤ : ℕ∞) fun p : Fin 4 → ℝ => -(2 * W) * p 3))).hyperL subset_rfl r k
  exact ((SmoothLimit.onSphere hb (hv.dir _)).add ((((h.east hb).mul (hv.north hb)).sub ((h.north hb).mul (hv.east hb))).mul_const
    (fun _ _ => (r ^ 2)⁻¹) |(r ^ 2)⁻¹| (fun _ _ => le_rfl))).add ((SmoothLimit.onSphere hb hd).mul_const (fun _ _ => ν) |ν| (fun _ _ => le_rfl))

end

end Barotropic
