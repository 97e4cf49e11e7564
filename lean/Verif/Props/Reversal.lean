import Verif.Spec.Reversal
import Verif.Props.Dipole

/-!
# C160: reversibility and volume in phase space
-/

namespace Barotropic
open Matrix Set

variable {T : ℕ} {N : ℕ → ℕ → ℝ} {g : Grid ℝ} {S : g.Sph} {τ : Type} {M : BModel g}

/-- C160: `eastWest` exchanges east and west. -/
theorem C160_eastWest (a : SpecField T) (x y : ℝ) : harmonicSum N (eastWest a) x y = harmonicSum N a (-x) y := by
  unfold harmonicSum modeSum eastWest
  refine Finset.sum_congr rfl fun k _ => ?_
  congr 1
  rw [← Complex.conj_re (a k * _), map_mul, ← Complex.exp_conj]
  congr 3
  rw [map_mul, Complex.conj_I, Complex.conj_ofReal]
  push_cast
  ring

theorem eastWest_real {a : SpecField T} (h : RealZonal a) : RealZonal (eastWest a) := fun k hk => by
  simp [eastWest, h k hk]

/-- Reflection that exchanges east and west -/
def meridianPlane : Matrix (Fin 3) (Fin 3) ℝ := !![1, 0, 0; 0, -1, 0; 0, 0, 1]

theorem meridianPlane_orthogonal : meridianPlane ∈ orthogonalGroup (Fin 3) ℝ := by
  rw [mem_orthogonalGroup_iff]
  ext i j
  change (meridianPlane * meridianPlaneᵀ) i j = _
  rw [Matrix.mul_apply, Fin.sum_univ_three]
  fin_cases i <;> fin_cases j <;> simp [meridianPlane]

theorem meridianPlane_det : meridianPlane.det = -1 := by
  rw [Matrix.det_fin_three]
  simp [meridianPlane]

theorem turn_meridian (hN : ∀ n m, N n m ≠ 0) {q : SpecField T} (hq : RealZonal q) : turnSpec hN meridianPlane_orthogonal q = -eastWest q := by
  refine harmonic_unique hN (turnSpec_real hN _ q) (fun k hk => ?_) fun x y _ => ?_
  · rw [Pi.neg_apply, Complex.neg_im, eastWest_real hq k hk, neg_zero]
  · have e := turnSpec_turned hN meridianPlane_orthogonal q (-x) y x y (by
      funext i
      simp only [Matrix.mulVec, dotProduct, Fin.sum_univ_three]
      fin_cases i <;> simp [meridianPlane, unitVec])
    rw [e, meridianPlane_det, show -eastWest q = (-1 : ℝ) • eastWest q by rw [neg_one_smul], harmonicSum_smul, C160_eastWest]

/-- The flux on a planet without rotation is quadratic. -/
theorem still_neg (hg : g.Valid) (h : Spharm.Dealiased N S) (h1 : 1 ≤ g.ntrunc) (hT : 2 * g.ntrunc + 1 ≤ g.nlat) (h0 : g.omega = 0) (t : τ) (q : g.Spc) :
    St.pvFluxSpectral S (⟨t, -q⟩ : St τ g) = St.pvFluxSpectral S (⟨t, q⟩ : St τ g) := by
  have hr := hg.rsphere_pos.ne'
  have hreal : ∀ s : St τ g, RealZonal (s.pvFluxSpectral S) := fun s => by
    obtain ⟨-, -, -, -, -, -, -, hreal, -⟩ := dealiased_flow hg h h1 hT s
    exact hreal
  have hv : ∀ q : g.Spc, St.vorticitySpectral S (⟨t, q⟩ : St τ g) = q := fun q => by
    rw [vorticity_shift h h1, h0]
    funext k
    simp [solidRotation]
  have hpair : ∀ p : g.Spc, spherePair g.rsphere (harmonicSum N p) (harmonicSum N (St.pvFluxSpectral S (⟨t, -q⟩ : St τ g))) =
      spherePair g.rsphere (harmonicSum N p) (harmonicSum N (St.pvFluxSpectral S (⟨t, q⟩ : St τ g))) := fun p => by
    rw [flux_exchange hg h h1 hT, flux_exchange hg h h1 hT, hv, hv]
    dsimp only
    rw [show -q = (-1 : ℝ) • q by rw [neg_one_smul], invLaplace_smul, exchange_smul_right, exchange_skew, exchange_smul_right, exchange_skew _ _ _ q]
    ring
  have hk : ∀ k, ∀ z : ℂ, modeDot (specM k) z (St.pvFluxSpectral S (⟨t, -q⟩ : St τ g) k) = modeDot (specM k) z (St.pvFluxSpectral S (⟨t, q⟩ : St τ g) k) := fun k z => by
    have e := hpair (Pi.single k z)
    have hs : ∀ f : g.Spc, spherePair g.rsphere (harmonicSum N (Pi.single k z : g.Spc)) (harmonicSum N f) = modeNorm g.rsphere N k * modeDot (specM k) z (f k) := fun f => by
      rw [parseval hr, Finset.sum_eq_single k (fun j _ hj => by rw [Pi.single_eq_of_ne hj, modeDot_zero, mul_zero]) (by simp), Pi.single_eq_same]
    rw [hs, hs] at e
    exact mul_left_cancel₀ (modeNorm_pos hr h.exact.norm_ne k).ne' e
  funext k
  have e1 := hk k 1
  have e2 := hk k Complex.I
  simp only [modeDot, Complex.one_re, Complex.one_im, Complex.I_re, Complex.I_im, one_mul, zero_mul, ite_self, add_zero, zero_add] at e1 e2
  by_cases hm : specM k = 0
  · exact Complex.ext e1 ((hreal _ k hm).trans (hreal _ k hm).symm)
  · rw [if_neg hm, if_neg hm] at e2
    exact Complex.ext e1 e2

/-- C160: with east and west exchanged, PV changes in the opposite way. -/
theorem C160_flux (hg : g.Valid) (h : Spharm.Dealiased N S) (h1 : 1 ≤ g.ntrunc) (hT : 2 * g.ntrunc + 1 ≤ g.nlat) (t : τ) {q : g.Spc} (hq : RealZonal q) :
    St.pvFluxSpectral S (⟨t, eastWest q⟩ : St τ g) = -eastWest (St.pvFluxSpectral S (⟨t, q⟩ : St τ g)) := by
  have hN := h.exact.norm_ne
  have hg' := spun_valid hg 0
  have h' := dealiased_spun h 0
  have e0 : ∀ a : g.Spc, shiftEast 0 a = a := fun a => by
    funext j
    simp [shiftEast]
  -- without rotation
  have still : St.pvFluxSpectral (g := g.spun 0) S (⟨t, eastWest q⟩ : St τ (g.spun 0)) = -eastWest (St.pvFluxSpectral (g := g.spun 0) S (⟨t, q⟩ : St τ (g.spun 0))) := by
    have e1 := flux_turned (g := g.spun 0) hN meridianPlane_orthogonal (fun x y x' y' _ => by simp) hg' h' h1 hT t q
    obtain ⟨-, -, -, -, -, -, -, hreal, -⟩ := dealiased_flow (g := g.spun 0) hg' h' h1 hT (⟨t, q⟩ : St τ (g.spun 0))
    rw [turn_meridian hN hq, turn_meridian hN hreal, still_neg (g := g.spun 0) hg' h' h1 hT rfl] at e1
    exact e1
  funext k
  have a := C153_flux hg h h1 hT t q 0 0 k
  have b := C153_flux hg h h1 hT t (eastWest q) 0 0 k
  rw [e0, e0] at a b
  rw [still] at b
  have c : (-eastWest (St.pvFluxSpectral (g := g.spun 0) S (⟨t, q⟩ : St τ (g.spun 0)))) k =
      -(starRingEnd ℂ) (St.pvFluxSpectral (g := g.spun 0) S (⟨t, q⟩ : St τ (g.spun 0)) k) := rfl
  rw [c, a] at b
  have d : (-eastWest (St.pvFluxSpectral S (⟨t, q⟩ : St τ g))) k = -(starRingEnd ℂ) (St.pvFluxSpectral S (⟨t, q⟩ : St τ g) k) := rfl
  rw [d]
  simp only [eastWest, map_sub, map_mul, Complex.conj_I, Complex.conj_ofReal, map_natCast] at b ⊢
  push_cast at b
  linear_combination -b

theorem unforced_rate (h : Spharm.Dealiased N S) (hν : M.diffusionCoeff = 0) (t : ℝ) (q : g.Spc) :
    galerkinRate S 0 t q + M.damping S q = -St.pvFluxSpectral S (⟨t, q⟩ : St ℝ g) := by
  have hz : S.grdtospec (0 : g.Fld) = 0 := by
    have := h.exact.analysis_smul 0 0
    rwa [zero_smul, zero_smul] at this
  funext k
  change S.grdtospec ((0 : ℝ → g.Spc → g.Fld) t q) k - St.pvFluxSpectral S (⟨t, q⟩ : St ℝ g) k + M.damping S q k = _
  rw [show (0 : ℝ → g.Spc → g.Fld) t q = 0 from rfl, hz]
  unfold BModel.damping
  rw [hν]
  simp

/-- Solutions without forcing and diffusion remain real. -/
theorem solution_real (hg : g.Valid) (h : Spharm.Dealiased N S) (h1 : 1 ≤ g.ntrunc) (hT : 2 * g.ntrunc + 1 ≤ g.nlat) (hν : M.diffusionCoeff = 0)
    {t0 t1 : ℝ} {Y : ℝ → g.Spc} (hY : M.Solution S 0 t0 t1 Y) (h0 : RealZonal (Y t0)) {t : ℝ} (ht : t ∈ Icc t0 t1) : RealZonal (Y t) := by
  intro k hk
  have hd : ∀ t ∈ Icc t0 t1, HasDerivWithinAt (fun t => (Y t k).im) 0 (Icc t0 t1) t := fun t ht => by
    have e := hasDerivWithinAt_pi.mp (hY t ht) k
    rw [unforced_rate h hν] at e
    obtain ⟨-, -, -, -, -, -, -, hreal, -⟩ := dealiased_flow hg h h1 hT (⟨t, Y t⟩ : St ℝ g)
    refine (Complex.imCLM.hasFDerivAt.comp_hasDerivWithinAt t e).congr_deriv ?_
    simp [hreal k hk]
  rw [const_of_deriv hd t ht]
  exact h0 k hk

/-- C160: the equation without forcing and diffusion is reversible: a solution that is run backwards, with east and west exchanged, is a solution. -/
theorem C160_reversible (hg : g.Valid) (h : Spharm.Dealiased N S) (h1 : 1 ≤ g.ntrunc) (hT : 2 * g.ntrunc + 1 ≤ g.nlat) (hν : M.diffusionCoeff = 0)
    {t0 t1 : ℝ} {Y : ℝ → g.Spc} (hY : M.Solution S 0 t0 t1 Y) (h0 : RealZonal (Y t0)) : M.Solution S 0 t0 t1 fun t => eastWest (Y (t0 + t1 - t)) := by
  intro t ht
  have ht' : t0 + t1 - t ∈ Icc t0 t1 := ⟨by linarith [ht.2], by linarith [ht.1]⟩
  have e := hY _ ht'
  rw [unforced_rate h hν] at e ⊢
  rw [C160_flux hg h h1 hT _ (solution_real hg h h1 hT hν hY h0 ht'), neg_neg]
  refine hasDerivWithinAt_pi.mpr fun k => ?_
  have e2 := hasDerivWithinAt_pi.mp e k
  have e3 := e2.scomp t ((hasDerivWithinAt_id t (Icc t0 t1)).const_sub (t0 + t1)) (fun u hu => (⟨by linarith [hu.2], by linarith [hu.1]⟩ : t0 + t1 - u ∈ Icc t0 t1))
  have e4 := Complex.conjCLE.toContinuousLinearMap.hasFDerivAt.comp_hasDerivWithinAt t e3
  refine e4.congr_deriv ?_
  rw [show St.pvFluxSpectral S (⟨t, Y (t0 + t1 - t)⟩ : St ℝ g) = St.pvFluxSpectral S (⟨t0 + t1 - t, Y (t0 + t1 - t)⟩ : St ℝ g) from rfl]
  simp [eastWest]

/-- C160: from the final state with east and west exchanged, the equation returns to the initial state with east and west exchanged. -/
theorem C160_return (hg : g.Valid) (h : Spharm.Dealiased N S) (h1 : 1 ≤ g.ntrunc) (hT : 2 * g.ntrunc + 1 ≤ g.nlat) (hν : M.diffusionCoeff = 0)
    {t0 t1 : ℝ} (ht : t0 ≤ t1) {Y Z : ℝ → g.Spc} (hY : M.Solution S 0 t0 t1 Y) (h0 : RealZonal (Y t0)) (hZ : M.Solution S 0 t0 t1 Z) (hZ0 : Z t0 = eastWest (Y t1)) :
    ∀ t ∈ Icc t0 t1, Z t = eastWest (Y (t0 + t1 - t)) := by
  obtain ⟨W, -, -, hW⟩ := C120_exists (M := M) (R := 0) hg h h1 hT hν.ge ht (fun B => ⟨0, fun t _ t' _ q q' _ _ => by simp⟩) ⟨0, fun t _ q => by simp⟩ (eastWest (Y t1))
  intro t htt
  have e := hW _ (C160_reversible hg h h1 hT hν hY h0) (by rw [add_sub_cancel_left]) t htt
  rw [hW Z hZ hZ0 t htt, ← e]

/-! ## Volume in phase space -/

/-- C160: no coefficient of PV has an influence on the flux of itself. -/
theorem C160_self (hg : g.Valid) (h : Spharm.Dealiased N S) (h1 : 1 ≤ g.ntrunc) (hT : 2 * g.ntrunc + 1 ≤ g.nlat) (t : τ) (q : g.Spc) (k : Fin (nspec g.ntrunc)) (ε : ℝ) :
    (St.pvFluxSpectral S (⟨t, q + ε • (Pi.single k 1 : g.Spc)⟩ : St τ g) k).re = (St.pvFluxSpectral S (⟨t, q⟩ : St τ g) k).re ∧
    (St.pvFluxSpectral S (⟨t, q + ε • (Pi.single k Complex.I : g.Spc)⟩ : St τ g) k).im = (St.pvFluxSpectral S (⟨t, q⟩ : St τ g) k).im := by
  have hr := hg.rsphere_pos.ne'
  have key : ∀ z : ℂ, modeDot (specM k) z (St.pvFluxSpectral S (⟨t, q + ε • (Pi.single k z : g.Spc)⟩ : St τ g) k) =
      modeDot (specM k) z (St.pvFluxSpectral S (⟨t, q⟩ : St τ g) k) := by
    intro z
    obtain ⟨e, he⟩ : ∃ e : g.Spc, e = Pi.single k z := ⟨_, rfl⟩
    have hs : ∀ f : g.Spc, spherePair g.rsphere (harmonicSum N e) (harmonicSum N f) = modeNorm g.rsphere N k * modeDot (specM k) z (f k) := fun f => by
      rw [he, parseval hr, Finset.sum_eq_single k (fun j _ hj => by rw [Pi.single_eq_of_ne hj, modeDot_zero, mul_zero]) (by simp), Pi.single_eq_same]
    refine mul_left_cancel₀ (modeNorm_pos hr h.exact.norm_ne k).ne' ?_
    rw [← hs, ← hs, flux_exchange hg h h1 hT, flux_exchange hg h h1 hT, ← he, vorticity_shift h h1, vorticity_shift h h1]
    dsimp only
    have hdeg : ∀ j, specN j ≠ specN k → e j = 0 := fun j hj => by
      rw [he, Pi.single_eq_of_ne fun hh => hj (by rw [hh])]
    have hself : ∀ c : g.Spc, exchange N g.rsphere e c e = 0 := fun c => by rw [exchange_skew, exchange_self hr, neg_zero]
    rw [show q + ε • e - solidRotation N g.omega = (q - solidRotation N g.omega) + ε • e by abel, invLaplace_add, invLaplace_smul, invLaplace_degree _ hdeg, smul_smul,
      exchange_add_right, exchange_smul_right, hself, exchange_add_mid, exchange_skew _ _ (ε • e), exchange_smul_right, hself]
    ring
  constructor
  · have e := key 1
    simpa [modeDot] using e
  · by_cases hm : specM k = 0
    · have hreal : ∀ s : St τ g, RealZonal (s.pvFluxSpectral S) := fun s => by
        obtain ⟨-, -, -, -, -, -, -, hreal, -⟩ := dealiased_flow hg h h1 hT s
        exact hreal
      rw [hreal _ k hm, hreal _ k hm]
    · have e := key Complex.I
      simpa [modeDot, hm] using e

/-- C160 (Liouville): advection and a forcing that does not depend on PV preserve volume in phase space; diffusion contracts it at a rate that is the same for all states. -/
theorem C160_liouville (hg : g.Valid) (h : Spharm.Dealiased N S) (h1 : 1 ≤ g.ntrunc) (hT : 2 * g.ntrunc + 1 ≤ g.nlat) (F : ℝ → g.Fld) (t : ℝ) (q : g.Spc) :
    phaseDivergence (fun q => galerkinRate S (fun t _ => F t) t q + M.damping S q) q =
      -(2 * ∑ k : Fin (nspec g.ntrunc), M.diffusionCoeff * ((specN k : ℝ) * (specN k + 1) / g.rsphere ^ 2) ^ M.diffusionOrder) := by
  unfold phaseDivergence
  rw [Finset.mul_sum, ← Finset.sum_neg_distrib]
  refine Finset.sum_congr rfl fun k _ => ?_
  obtain ⟨l, hl⟩ : ∃ l : ℝ, l = M.diffusionCoeff * ((specN k : ℝ) * (specN k + 1) / g.rsphere ^ 2) ^ M.diffusionOrder := ⟨_, rfl⟩
  have hF : ∀ q : g.Spc, (galerkinRate S (fun t _ => F t) t q + M.damping S q) k =
      S.grdtospec (F t) k - St.pvFluxSpectral S (⟨t, q⟩ : St ℝ g) k + -((l : ℂ) * (q k - M.background S k)) := fun q => by
    rw [hl]
    change S.grdtospec (F t) k - St.pvFluxSpectral S (⟨t, q⟩ : St ℝ g) k + M.damping S q k = _
    unfold BModel.damping
    push_cast
    rfl
  have d : ∀ a b c : ℝ, deriv (fun ε : ℝ => a + -(l * (b + ε - c))) 0 = -l := fun a b c => by
    have e := (((((hasDerivAt_id (0 : ℝ)).const_add b).sub_const c).const_mul l).neg).const_add a
    simpa using e.deriv
  have e1 : (fun ε : ℝ => ((galerkinRate S (fun t _ => F t) t (q + ε • (Pi.single k 1 : g.Spc)) + M.damping S (q + ε • (Pi.single k 1 : g.Spc))) k).re) =
      fun ε => ((S.grdtospec (F t) k).re - (St.pvFluxSpectral S (⟨t, q⟩ : St ℝ g) k).re) + -(l * ((q k).re + ε - (M.background S k).re)) := by
    funext ε
    rw [hF, Complex.add_re, Complex.sub_re, Complex.neg_re, Complex.re_ofReal_mul, (C160_self hg h h1 hT t q k ε).1]
    simp
  have e2 : (fun ε : ℝ => ((galerkinRate S (fun t _ => F t) t (q + ε • (Pi.single k Complex.I : g.Spc)) + M.damping S (q + ε • (Pi.single k Complex.I : g.Spc))) k).im) =
      fun ε => ((S.grdtospec (F t) k).im - (St.pvFluxSpectral S (⟨t, q⟩ : St ℝ g) k).im) + -(l * ((q k).im + ε - (M.background S k).im)) := by
    funext ε
    rw [hF, Complex.add_im, Complex.sub_im, Complex.neg_im, Complex.im_ofReal_mul, (C160_self hg h h1 hT t q k ε).2]
    simp
  rw [e1, e2, d, d, ← hl]
  ring

/-- C160: with diffusion, volume in phase space contracts. -/
theorem C160_contraction (hg : g.Valid) (h : Spharm.Dealiased N S) (h1 : 1 ≤ g.ntrunc) (hT : 2 * g.ntrunc + 1 ≤ g.nlat) (hν : 0 < M.diffusionCoeff) (F : ℝ → g.Fld) (t : ℝ) (q : g.Spc) :
    phaseDivergence (fun q => galerkinRate S (fun t _ => F t) t q + M.damping S q) q < 0 := by
  rw [C160_liouville hg h h1 hT]
  have hr := hg.rsphere_pos
  have e := Finset.single_le_sum (f := fun k : Fin (nspec g.ntrunc) => M.diffusionCoeff * ((specN k : ℝ) * (specN k + 1) / g.rsphere ^ 2) ^ M.diffusionOrder)
    (fun k _ => by positivity) (Finset.mem_univ (k1 h1))
  rw [specN_k1] at e
  have : 0 < M.diffusionCoeff * (((1 : ℕ) : ℝ) * ((1 : ℕ) + 1) / g.rsphere ^ 2) ^ M.diffusionOrder := by positivity
  linarith

/-- There are solutions and transforms as required, and the solution that returns exists. -/
theorem C160_instances (hg : g.Valid) (h1 : 1 ≤ g.ntrunc) (hT : 2 * g.ntrunc + 2 ≤ g.nlat) (q : g.Spc) (hq : RealZonal q) (t1 : ℝ) (ht : 0 ≤ t1) :
    ∃ S : g.Sph, Spharm.Dealiased (fun _ _ => 1) S ∧ ∃ Y Z, (⟨none, 2, 0, none⟩ : BModel g).Solution S 0 0 t1 Y ∧ Y 0 = q ∧
      (⟨none, 2, 0, none⟩ : BModel g).Solution S 0 0 t1 Z ∧ Z 0 = eastWest (Y t1) ∧ Z t1 = eastWest q := by
  obtain ⟨⟨S, h⟩, -⟩ := C119_exists (N := fun _ _ => 1) hg hT (fun _ _ => one_ne_zero)
  obtain ⟨-, hl, hG⟩ := unforced (M := ⟨none, 2, 0, none⟩) rfl 0 t1
  obtain ⟨Y, hY, hY0, -⟩ := C120_exists (M := ⟨none, 2, 0, none⟩) (R := 0) hg h h1 (by omega) le_rfl ht hl hG q
  obtain ⟨Z, hZ, hZ0, -⟩ := C120_exists (M := ⟨none, 2, 0, none⟩) (R := 0) hg h h1 (by omega) le_rfl ht hl hG (eastWest (Y t1))
  refine ⟨S, h, Y, Z, hY, hY0, hZ, hZ0, ?_⟩
  rw [C160_return hg h h1 (by omega) rfl ht hY (by rw [hY0]; exact hq) hZ hZ0 t1 ⟨ht, le_rfl⟩, zero_add, sub_self, hY0]

example (q : grid30.Spc) (hq : RealZonal q) :=
  C160_instances grid30_valid (show 1 ≤ grid30.ntrunc by change 1 ≤ 2; norm_num) (by rw [grid30_nlat]; change 2 * 2 + 2 ≤ 7; norm_num) q hq 1 zero_le_one

end Barotropic
