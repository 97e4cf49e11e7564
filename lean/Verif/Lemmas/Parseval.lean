import Verif.Props.Conservation

/-!
# Orthogonality of spherical harmonics
-/

namespace Barotropic
open Real (cos sin)

variable {T : ℕ} {N : ℕ → ℕ → ℝ}

/-- Coefficients of `∂/∂λ` of the field -/
noncomputable def timesM (s : SpecField T) : SpecField T := fun k => Complex.I * (specM k * s k)

theorem dlon_eq_timesM (s : SpecField T) (x y : ℝ) : dlon (harmonicSum N s) x y = harmonicSum N (timesM s) x y := by
  unfold harmonicSum
  rw [dlon_modeSum]
  unfold modeSum timesM timesI
  refine Finset.sum_congr rfl fun k _ => ?_
  rw [show Complex.I * ((specM k : ℂ) * s k) * Complex.exp (Complex.I * ((specM k * x : ℝ) : ℂ)) =
    ((specM k : ℝ) : ℂ) * (Complex.I * s k * Complex.exp (Complex.I * ((specM k * x : ℝ) : ℂ))) by push_cast; ring, Complex.re_ofReal_mul]
  ring

/-- Integration by parts in longitude -/
theorem spherePair_timesM {r : ℝ} (hr : r ≠ 0) (p q : SpecField T) :
    spherePair r (harmonicSum N (timesM p)) (harmonicSum N q) = -spherePair r (harmonicSum N p) (harmonicSum N (timesM q)) := by
  have hp := harmonicSum_smooth (N := N) p
  have hq := harmonicSum_smooth (N := N) q
  have hA : SphereSmooth fun x y => harmonicSum N p x y * harmonicSum N q x y * (r * cos y) :=
    (hp.mul hq).mul (.lat (contDiff_const.mul Real.contDiff_cos))
  have hz : SphereSmooth fun _ _ => (0 : ℝ) := .lat contDiff_const
  have h := sphereIntegral_div hA hz hr (H := fun x y => 1 * (harmonicSum N (timesM p) x y * harmonicSum N q x y) +
      1 * (harmonicSum N p x y * harmonicSum N (timesM q) x y)) fun x y hy => by
    have h1 : dlon (fun x y => harmonicSum N p x y * harmonicSum N q x y * (r * cos y)) x y =
        (dlon (harmonicSum N p) x y * harmonicSum N q x y + harmonicSum N p x y * dlon (harmonicSum N q) x y) * (r * cos y) :=
      (((hp.hasDerivAt_lon x y).mul (hq.hasDerivAt_lon x y)).mul_const _).deriv
    have h2 : dlat (fun x y => (0 : ℝ) * cos y) x y = 0 := by simp [dlat]
    unfold sphereDiv
    rw [h1, h2, ← dlon_eq_timesM, ← dlon_eq_timesM]
    field_simp
    ring
  rw [sphereIntegral_lin ((harmonicSum_smooth _).mul hq) (hp.mul (harmonicSum_smooth _))] at h
  unfold spherePair
  linarith

theorem windPair_dropMean {r : ℝ} (hr : r ≠ 0) (p q : SpecField T) :
    windPair r (harmonicSum N p) (harmonicSum N (dropMean q)) = windPair r (harmonicSum N p) (harmonicSum N q) := by
  rw [windPair_eq hr, windPair_eq hr]
  exact sphereIntegral_congr r fun x y _ => by rw [lamDeriv_dropMean, phiDeriv_dropMean]

theorem windPair_laplace {r : ℝ} (hr : r ≠ 0) (p q : SpecField T) :
    windPair r (harmonicSum N p) (harmonicSum N q) = spherePair r (harmonicSum N p) (harmonicSum N (degMul (fun n => n * (n + 1) / r ^ 2) q)) := by
  have h := windPair_green (N := N) hr p (-degMul (fun n => n * (n + 1) / r ^ 2) q)
  have hd : dropMean (-degMul (fun n => n * (n + 1) / r ^ 2) q) = -degMul (fun n => n * (n + 1) / r ^ 2) q := by
    funext k
    unfold dropMean
    split_ifs with hk
    · simp [degMul, hk]
    · rfl
  rw [invLaplace_degMul hr, windPair_dropMean hr, hd] at h
  rw [h, spherePair, spherePair, ← neg_one_mul]
  have := sphereIntegral_lin ((harmonicSum_smooth (N := N) p).mul (harmonicSum_smooth (N := N) (-degMul (fun n => n * (n + 1) / r ^ 2) q)))
    ((harmonicSum_smooth (N := N) p).mul (harmonicSum_smooth (N := N) p)) r (-1) 0
  rw [zero_mul, add_zero] at this
  rw [← this]
  exact sphereIntegral_congr r fun x y _ => by rw [harmonicSum_neg]; ring

/-- The Laplacian is symmetric. -/
theorem spherePair_laplace {r : ℝ} (hr : r ≠ 0) (p q : SpecField T) :
    spherePair r (harmonicSum N (degMul (fun n => n * (n + 1) / r ^ 2) p)) (harmonicSum N q) =
      spherePair r (harmonicSum N p) (harmonicSum N (degMul (fun n => n * (n + 1) / r ^ 2) q)) := by
  rw [← windPair_laplace hr, windPair_comm, windPair_laplace hr, spherePair_comm]

theorem spherePair_smul (r c : ℝ) {F : ℝ → ℝ → ℝ} (hF : SphereSmooth F) (a : SpecField T) :
    spherePair r F (harmonicSum N (c • a)) = c * spherePair r F (harmonicSum N a) := by
  have h0 : spherePair r F (harmonicSum N (0 : SpecField T)) = 0 := by
    unfold spherePair sphereIntegral
    have : ∀ x y, harmonicSum N (0 : SpecField T) x y = 0 := fun x y => modeSum_eq_zero N _ (fun _ => .inl rfl) x y
    simp [this]
  have := spherePair_lin (N := N) r hF 0 a c
  rwa [zero_add, h0, zero_add] at this

theorem spherePair_sum (r : ℝ) {F : ℝ → ℝ → ℝ} (hF : SphereSmooth F) (q : SpecField T) :
    spherePair r F (harmonicSum N q) = ∑ k, spherePair r F (harmonicSum N (Pi.single k (q k))) := by
  have h0 : spherePair r F (harmonicSum N (0 : SpecField T)) = 0 := by
    have := spherePair_smul (N := N) r 0 hF (0 : SpecField T)
    rwa [smul_zero, zero_mul] at this
  have h : ∀ J : Finset (Fin (nspec T)), spherePair r F (harmonicSum N (∑ k ∈ J, Pi.single k (q k))) =
      ∑ k ∈ J, spherePair r F (harmonicSum N (Pi.single k (q k))) := by
    intro J
    induction J using Finset.induction_on with
    | empty => simp [h0]
    | insert a J ha ih =>
      rw [Finset.sum_insert ha, Finset.sum_insert ha, ← ih]
      have := spherePair_lin (N := N) r hF (Pi.single a (q a)) (∑ k ∈ J, Pi.single k (q k)) 1
      rwa [one_smul, one_mul] at this
  rw [← h, Finset.univ_sum_single]

theorem degMul_single (c : ℕ → ℝ) (k : Fin (nspec T)) (a : ℂ) : degMul c (Pi.single k a : SpecField T) = c (specN k) • Pi.single k a := by
  funext l
  by_cases hl : l = k
  · subst hl; simp [degMul]
  · simp [degMul, hl]

theorem timesM_single (k : Fin (nspec T)) (a : ℂ) : timesM (Pi.single k a : SpecField T) = (specM k : ℝ) • Pi.single k (Complex.I * a) := by
  funext l
  by_cases hl : l = k
  · subst hl
    simp only [timesM, Pi.single_eq_same, Pi.smul_apply, Complex.real_smul]
    push_cast
    ring
  · simp [timesM, hl]

/-- Modes of different degree are orthogonal. -/
theorem pair_degree {r : ℝ} (hr : r ≠ 0) {k l : Fin (nspec T)} (h : specN k ≠ specN l) (a b : ℂ) :
    spherePair r (harmonicSum N (Pi.single k a)) (harmonicSum N (Pi.single l b)) = 0 := by
  have e := spherePair_laplace (N := N) hr (Pi.single k a) (Pi.single l b)
  rw [degMul_single, degMul_single, spherePair_comm, spherePair_smul _ _ (harmonicSum_smooth _), spherePair_smul _ _ (harmonicSum_smooth _),
    spherePair_comm] at e
  have hne : (specN k : ℝ) * (specN k + 1) / r ^ 2 - specN l * (specN l + 1) / r ^ 2 ≠ 0 := by
    rw [← sub_div]
    refine div_ne_zero ?_ (pow_ne_zero 2 hr)
    have h1 : (specN k : ℝ) - specN l ≠ 0 := sub_ne_zero.mpr (by exact_mod_cast h)
    have h2 : (specN k : ℝ) + specN l + 1 ≠ 0 := by positivity
    have : (specN k : ℝ) * (specN k + 1) - specN l * (specN l + 1) = (specN k - specN l) * (specN k + specN l + 1) := by ring
    rw [this]
    exact mul_ne_zero h1 h2
  exact (mul_eq_zero.mp (show _ * spherePair r (harmonicSum N (Pi.single k a)) (harmonicSum N (Pi.single l b)) = 0 by
    rw [sub_mul, e, sub_self])).resolve_left hne

theorem pair_quarter {r : ℝ} (hr : r ≠ 0) (k l : Fin (nspec T)) (a b : ℂ) :
    specM k * spherePair r (harmonicSum N (Pi.single k (Complex.I * a))) (harmonicSum N (Pi.single l b)) =
      -(specM l * spherePair r (harmonicSum N (Pi.single k a)) (harmonicSum N (Pi.single l (Complex.I * b)))) := by
  have e := spherePair_timesM (N := N) hr (Pi.single k a) (Pi.single l b)
  rwa [timesM_single, timesM_single, spherePair_comm, spherePair_smul _ _ (harmonicSum_smooth _), spherePair_smul _ _ (harmonicSum_smooth _),
    spherePair_comm] at e

theorem single_neg (k : Fin (nspec T)) (a : ℂ) : (Pi.single k (-a) : SpecField T) = (-1 : ℝ) • Pi.single k a := by
  funext l
  by_cases hl : l = k
  · subst hl; simp
  · simp [hl]

/-- Modes of different order are orthogonal. -/
theorem pair_order {r : ℝ} (hr : r ≠ 0) {k l : Fin (nspec T)} (h : specM k ≠ specM l) (a b : ℂ) :
    spherePair r (harmonicSum N (Pi.single k a)) (harmonicSum N (Pi.single l b)) = 0 := by
  have e1 := pair_quarter (N := N) hr k l (Complex.I * a) b
  have e2 := pair_quarter (N := N) hr k l a (Complex.I * b)
  have hI : ∀ z : ℂ, Complex.I * (Complex.I * z) = -z := fun z => by rw [← mul_assoc, Complex.I_mul_I, neg_one_mul]
  rw [hI, single_neg, spherePair_comm, spherePair_smul _ _ (harmonicSum_smooth _), spherePair_comm] at e1
  rw [hI, single_neg, spherePair_smul _ _ (harmonicSum_smooth _)] at e2
  set X := spherePair r (harmonicSum N (Pi.single k a)) (harmonicSum N (Pi.single l b))
  have hne : (specM k : ℝ) ^ 2 - specM l ^ 2 ≠ 0 := by
    have h1 : (specM k : ℝ) - specM l ≠ 0 := sub_ne_zero.mpr (by exact_mod_cast h)
    have h2 : (specM k : ℝ) + specM l ≠ 0 := by
      have : specM k + specM l ≠ 0 := by omega
      exact_mod_cast this
    have : (specM k : ℝ) ^ 2 - specM l ^ 2 = (specM k - specM l) * (specM k + specM l) := by ring
    rw [this]
    exact mul_ne_zero h1 h2
  exact (mul_eq_zero.mp (show _ * X = 0 by linear_combination (-(specM k : ℝ)) * e1 + (specM l : ℝ) * e2)).resolve_left hne

/-- The square of the norm of a mode -/
noncomputable def modeNorm (r : ℝ) (N : ℕ → ℕ → ℝ) (k : Fin (nspec T)) : ℝ :=
  spherePair r (harmonicSum N (Pi.single k 1)) (harmonicSum N (Pi.single k 1))

/-- Product of coefficients: imaginary parts of zonal modes do not count. -/
noncomputable def modeDot (m : ℕ) (a b : ℂ) : ℝ := a.re * b.re + if m = 0 then 0 else a.im * b.im

theorem single_parts (k : Fin (nspec T)) (a : ℂ) : (Pi.single k a : SpecField T) = a.re • (Pi.single k 1 : SpecField T) + a.im • (Pi.single k Complex.I : SpecField T) := by
  funext l
  by_cases hl : l = k
  · subst hl
    simp only [Pi.single_eq_same, Pi.add_apply, Pi.smul_apply, Complex.real_smul, mul_one]
    exact (Complex.re_add_im a).symm
  · simp [hl]

theorem pair_same {r : ℝ} (hr : r ≠ 0) (k : Fin (nspec T)) (a b : ℂ) :
    spherePair r (harmonicSum N (Pi.single k a)) (harmonicSum N (Pi.single k b)) = modeNorm r N k * modeDot (specM k) a b := by
  have key : ∀ F : ℝ → ℝ → ℝ, SphereSmooth F → ∀ a, spherePair r F (harmonicSum N (Pi.single k a)) =
      a.re * spherePair r F (harmonicSum N (Pi.single k 1)) + a.im * spherePair r F (harmonicSum N (Pi.single k Complex.I)) := by
    intro F hF a
    rw [single_parts k a, spherePair_lin r hF, spherePair_smul r _ hF]
  have hA : ∀ c : ℂ, spherePair r (harmonicSum N (Pi.single k a : SpecField T)) (harmonicSum N (Pi.single k c : SpecField T)) =
      a.re * spherePair r (harmonicSum N (Pi.single k c : SpecField T)) (harmonicSum N (Pi.single k 1 : SpecField T)) +
      a.im * spherePair r (harmonicSum N (Pi.single k c : SpecField T)) (harmonicSum N (Pi.single k Complex.I : SpecField T)) := fun c => by
    rw [spherePair_comm, key _ (harmonicSum_smooth _) a]
  rw [key _ (harmonicSum_smooth _) b, hA, hA]
  have e11 : spherePair r (harmonicSum N (Pi.single k 1)) (harmonicSum N (Pi.single k 1)) = modeNorm r N k := rfl
  rw [e11]
  unfold modeDot
  by_cases hm : specM k = 0
  · rw [if_pos hm]
    have hz : ∀ x y, harmonicSum N (Pi.single k Complex.I : SpecField T) x y = 0 := by
      intro x y
      unfold harmonicSum
      rw [modeSum_single N legendre k (fun l hl => by simp [hl])]
      simp [hm]
    have z1 : ∀ F, spherePair r F (harmonicSum N (Pi.single k Complex.I : SpecField T)) = 0 := fun F => by
      unfold spherePair sphereIntegral; simp [hz]
    rw [z1, z1, spherePair_comm, z1]
    ring
  · rw [if_neg hm]
    have hm' : (specM k : ℝ) ≠ 0 := by exact_mod_cast hm
    have q1 := pair_quarter (N := N) hr k k 1 1
    have q2 := pair_quarter (N := N) hr k k 1 Complex.I
    rw [mul_one, spherePair_comm] at q1
    rw [mul_one, Complex.I_mul_I, single_neg, spherePair_smul _ _ (harmonicSum_smooth _), e11] at q2
    rw [spherePair_comm r (harmonicSum N (Pi.single k Complex.I)) (harmonicSum N (Pi.single k 1))]
    have h1 : spherePair r (harmonicSum N (Pi.single k 1 : SpecField T)) (harmonicSum N (Pi.single k Complex.I)) = 0 := by
      rcases mul_eq_zero.mp (show (specM k : ℝ) * spherePair r (harmonicSum N (Pi.single k 1 : SpecField T)) (harmonicSum N (Pi.single k Complex.I)) = 0 by
        linarith) with h | h
      · exact absurd h hm'
      · exact h
    have h2 : spherePair r (harmonicSum N (Pi.single k Complex.I : SpecField T)) (harmonicSum N (Pi.single k Complex.I)) = modeNorm r N k := by
      refine mul_left_cancel₀ hm' ?_
      linarith
    rw [h1, h2]
    ring

/-- Parseval's identity -/
theorem parseval {r : ℝ} (hr : r ≠ 0) (p q : SpecField T) :
    spherePair r (harmonicSum N p) (harmonicSum N q) = ∑ k, modeNorm r N k * modeDot (specM k) (p k) (q k) := by
  rw [spherePair_sum r (harmonicSum_smooth _)]
  refine Finset.sum_congr rfl fun k _ => ?_
  rw [spherePair_comm, spherePair_sum r (harmonicSum_smooth _), Finset.sum_eq_single k]
  · rw [spherePair_comm, pair_same hr]
  · intro l _ hl
    by_cases hm : specM k = specM l
    · exact pair_degree hr (fun hn => hl (specIndex_inj hm hn).symm) _ _
    · exact pair_order hr hm _ _
  · simp

theorem modeNorm_pos {r : ℝ} (hr : r ≠ 0) (hN : ∀ n m, N n m ≠ 0) (k : Fin (nspec T)) : 0 < modeNorm r N k := by
  have e : ∀ x y, harmonicSum N (Pi.single k 1 : SpecField T) x y = N (specN k) (specM k) * legendre (specN k) (specM k) y * cos (specM k * x) := by
    intro x y
    unfold harmonicSum
    rw [modeSum_single N legendre k (fun l hl => by simp [hl]), Pi.single_eq_same, one_mul, mul_comm Complex.I, Complex.exp_ofReal_mul_I_re]
  set P : ℝ → ℝ := fun y => (N (specN k) (specM k) * legendre (specN k) (specM k) y) ^ 2 * cos y with hP
  have hPc : Continuous P := by
    have : Continuous (legendre (specN k) (specM k)) := (legendre_contDiff _ _).continuous
    fun_prop
  have hpi := Real.pi_pos
  have hpos : 0 < ∫ y in -(Real.pi / 2)..Real.pi / 2, P y := by
    refine intervalIntegral.integral_pos (by linarith) hPc.continuousOn (fun y hy => ?_) ?_
    · exact mul_nonneg (sq_nonneg _) (Real.cos_nonneg_of_mem_Icc ⟨by linarith [hy.1], hy.2⟩)
    · have hp0 : rodrigues (specN k) (specM k) ≠ 0 := fun h0 => rodrigues_coeff_ne (specM_le_specN k) (by rw [h0]; simp)
      obtain ⟨z, hz, hz'⟩ : ∃ z ∈ Set.Ioo (-1 : ℝ) 1, (rodrigues (specN k) (specM k)).eval z ≠ 0 := by
        by_contra hcon
        push Not at hcon
        exact hp0 (Polynomial.eq_zero_of_infinite_isRoot _ ((Set.Ioo_infinite (by norm_num : (-1 : ℝ) < 1)).mono fun z hz => hcon z hz))
      have hy1 : -(Real.pi / 2) < Real.arcsin z := Real.neg_pi_div_two_lt_arcsin.mpr hz.1
      have hy2 : Real.arcsin z < Real.pi / 2 := Real.arcsin_lt_pi_div_two.mpr hz.2
      have hc : 0 < cos (Real.arcsin z) := Real.cos_pos_of_mem_Ioo ⟨hy1, hy2⟩
      refine ⟨Real.arcsin z, ⟨hy1.le, hy2.le⟩, mul_pos ?_ hc⟩
      refine (sq_nonneg _).lt_of_ne' (pow_ne_zero 2 (mul_ne_zero (hN _ _) ?_))
      unfold legendre
      rw [Real.sin_arcsin hz.1.le hz.2.le]
      exact mul_ne_zero (pow_ne_zero _ hc.ne') hz'
  have hlam : 0 < ∫ x in (0 : ℝ)..2 * Real.pi, cos (specM k * x) ^ 2 := by
    refine intervalIntegral.integral_pos (by linarith) (by fun_prop) (fun _ _ => sq_nonneg _) ⟨0, ⟨le_rfl, by linarith⟩, by simp⟩
  have : modeNorm r N k = r ^ 2 * ((∫ x in (0 : ℝ)..2 * Real.pi, cos (specM k * x) ^ 2) * ∫ y in -(Real.pi / 2)..Real.pi / 2, P y) := by
    unfold modeNorm spherePair sphereIntegral
    rw [← intervalIntegral.integral_mul_const]
    congr 1
    refine intervalIntegral.integral_congr fun x _ => ?_
    dsimp only
    rw [← intervalIntegral.integral_const_mul]
    refine intervalIntegral.integral_congr fun y _ => ?_
    simp only [e, hP]
    ring
  rw [this]
  positivity

end Barotropic
