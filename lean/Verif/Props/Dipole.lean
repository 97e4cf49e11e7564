import Verif.Lemmas.Exchange
import Mathlib.Analysis.ODE.Gronwall

/-!
# C159: the dipole of the vorticity field
-/

namespace Barotropic
open Matrix Set

variable {T : ℕ} {N : ℕ → ℕ → ℝ} {g : Grid ℝ} {S : g.Sph} {τ : Type} {M : BModel g}

theorem legendre_one_one (y : ℝ) : legendre 1 1 y = 2 * Real.cos y := by
  simp [legendre, rodrigues]
  ring_nf

theorem degree_one {k : Fin (nspec T)} (hT : 1 ≤ T) (hk : specN k = 1) : k = k1 hT ∨ k = k2 hT := by
  have := specM_le_specN k
  rcases Nat.lt_or_ge (specM k) 1 with h | h
  · exact .inl (specIndex_inj (by simp; omega) (by simp [hk]))
  · exact .inr (specIndex_inj (by simp; omega) (by simp [hk]))

/-- Fields of degree 1 -/
theorem dipole_field (hT : 1 ≤ T) {a : SpecField T} (ha : RealZonal a) (x y : ℝ) : harmonicSum N (degreePart 1 a) x y =
    2 * N 1 0 * (a (k1 hT)).re * Real.sin y + 2 * N 1 1 * Real.cos y * ((a (k2 hT)).re * Real.cos x - (a (k2 hT)).im * Real.sin x) := by
  have e : degreePart 1 a = Pi.single (k1 hT) (a (k1 hT)) + (1 : ℝ) • (Pi.single (k2 hT) (a (k2 hT)) : SpecField T) := by
    funext k
    unfold degreePart
    by_cases hk : specN k = 1
    · rw [if_pos hk]
      rcases degree_one hT hk with rfl | rfl
      · simp [Pi.single_apply, (k2_ne_k1 hT).symm]
      · simp [Pi.single_apply]
    · rw [if_neg hk]
      have h1 : k ≠ k1 hT := fun h => hk (by rw [h]; simp)
      have h2 : k ≠ k2 hT := fun h => hk (by rw [h]; simp)
      simp [Pi.single_apply, h1, h2]
  rw [e, harmonicSum_lin]
  unfold harmonicSum
  rw [modeSum_single N legendre (k1 hT) (fun l hl => by simp [hl]), modeSum_single N legendre (k2 hT) (fun l hl => by simp [hl])]
  simp only [specN_k1, specM_k1, specN_k2, specM_k2, Pi.single_eq_same, legendre_one, legendre_one_one, Nat.cast_zero, zero_mul, Complex.ofReal_zero, mul_zero, Complex.exp_zero, mul_one,
    Nat.cast_one, one_mul]
  rw [mul_comm Complex.I, Complex.mul_re, Complex.exp_ofReal_mul_I_re, Complex.exp_ofReal_mul_I_im]
  ring

/-- A dipole is zero if its axis has no component along the pole, however the sphere is turned. -/
theorem dipole_zero (hT : 1 ≤ T) (hN : ∀ n m, N n m ≠ 0) {p : SpecField T} (hp : RealZonal p)
    (h : ∀ Q (hQ : Q ∈ orthogonalGroup (Fin 3) ℝ), turnSpec hN hQ p (k1 hT) = 0) {k : Fin (nspec T)} (hk : specN k = 1) : p k = 0 := by
  have key : ∀ Q (hQ : Q ∈ orthogonalGroup (Fin 3) ℝ) (x y : ℝ), unitVec 0 (Real.pi / 2) = Q *ᵥ unitVec x y → harmonicSum N (degreePart 1 p) x y = 0 := by
    intro Q hQ x y e
    have ht := turnSpec_degMul_turned hN hQ (fun n => if n = 1 then 1 else 0) p x y _ _ e
    rw [← degreePart_eq, ← degreePart_eq, dipole_field hT (turnSpec_real hN hQ p), h Q hQ] at ht
    simp only [Complex.zero_re, mul_zero, zero_mul, Real.cos_pi_div_two, add_zero] at ht
    have hdet : Q.det ≠ 0 := fun h0 => by
      have := orthogonal_det hQ
      rw [h0, zero_mul] at this
      exact zero_ne_one this
    exact (mul_eq_zero.mp ht.symm).resolve_left hdet
  -- the pole itself
  have hpole := key 1 (one_mem _) 0 (Real.pi / 2) (by rw [Matrix.one_mulVec])
  rw [dipole_field hT hp] at hpole
  simp only [Real.cos_pi_div_two, Real.sin_pi_div_two, mul_zero, zero_mul, add_zero, mul_one] at hpole
  have a1 : (p (k1 hT)).re = 0 := (mul_eq_zero.mp hpole).resolve_left (mul_ne_zero two_ne_zero (hN 1 0))
  -- two points on the equator
  have orth : ∀ A : Matrix (Fin 3) (Fin 3) ℝ, A * Aᵀ = 1 → A ∈ orthogonalGroup (Fin 3) ℝ := fun A hA => by
    rw [mem_orthogonalGroup_iff]
    exact hA
  have b1 := key !![0, 1, 0; 0, 0, 1; 1, 0, 0] (orth _ (by
    ext i j
    rw [Matrix.mul_apply, Fin.sum_univ_three]
    fin_cases i <;> fin_cases j <;> simp)) 0 0 (by
    funext i
    simp only [Matrix.mulVec, dotProduct, Fin.sum_univ_three]
    fin_cases i <;> simp [unitVec])
  have b2 := key !![1, 0, 0; 0, 0, 1; 0, 1, 0] (orth _ (by
    ext i j
    rw [Matrix.mul_apply, Fin.sum_univ_three]
    fin_cases i <;> fin_cases j <;> simp)) (Real.pi / 2) 0 (by
    funext i
    simp only [Matrix.mulVec, dotProduct, Fin.sum_univ_three]
    fin_cases i <;> simp [unitVec])
  rw [dipole_field hT hp] at b1 b2
  simp only [Real.sin_zero, Real.cos_zero, Real.cos_pi_div_two, Real.sin_pi_div_two, mul_zero, mul_one, zero_add, sub_zero, zero_sub] at b1 b2
  have n2 : 2 * N 1 1 ≠ 0 := mul_ne_zero two_ne_zero (hN 1 1)
  have a2 : (p (k2 hT)).re = 0 := (mul_eq_zero.mp b1).resolve_left n2
  have a3 : (p (k2 hT)).im = 0 := neg_eq_zero.mp ((mul_eq_zero.mp b2).resolve_left n2)
  rcases degree_one hT hk with rfl | rfl
  · exact Complex.ext a1 (hp _ (by simp))
  · exact Complex.ext a2 a3

/-- On a planet without rotation the flux has no dipole. -/
theorem still_dipole (hg : g.Valid) (h : Spharm.Dealiased N S) (h1 : 1 ≤ g.ntrunc) (hT : 2 * g.ntrunc + 1 ≤ g.nlat) (h0 : g.omega = 0) (s : St τ g)
    {k : Fin (nspec g.ntrunc)} (hk : specN k = 1) : s.pvFluxSpectral S k = 0 := by
  have hr := hg.rsphere_pos.ne'
  have hN := h.exact.norm_ne
  have hreal : ∀ s : St τ g, RealZonal (s.pvFluxSpectral S) := fun s => by
    obtain ⟨-, -, -, -, -, -, -, hreal, -⟩ := dealiased_flow hg h h1 hT s
    exact hreal
  have hax : ∀ s : St τ g, s.pvFluxSpectral S (k1 h1) = 0 := by
    intro s
    obtain ⟨-, -, -, r4⟩ := C119_rates hg h h1 hT s
    have esin : (fun _ y => Real.sin y) = harmonicSum N (solidRotation N (1 / 2) : g.Spc) := by
      funext x y
      rw [harmonicSum_solid hN h1]
      ring
    rw [esin] at r4
    unfold St.fluxFn at r4
    rw [parseval hr, Finset.sum_eq_single (k1 h1) (fun j _ hj => by
      have : (solidRotation N (1 / 2) : g.Spc) j = 0 := if_neg fun hh => hj (specIndex_inj (by rw [hh.1]; simp) (by rw [hh.2]; simp))
      rw [this, modeDot_zero, mul_zero]) (by simp)] at r4
    have e := (mul_eq_zero.mp r4).resolve_left (modeNorm_pos hr hN _).ne'
    have n1 := hN 1 0
    simp [modeDot, solidRotation, n1] at e
    exact Complex.ext e (hreal s _ (by simp))
  refine dipole_zero h1 hN (hreal s) (fun Q hQ => ?_) hk
  have hΩ : Turned Q (fun _ y => g.omega * Real.sin y) fun _ y => g.omega * Real.sin y := fun x y x' y' _ => by simp [h0]
  obtain ⟨t, q⟩ := s
  rw [← flux_turned hN hQ hΩ hg h h1 hT t q]
  exact hax _

/-- C159: the dipole of the flux of PV is that of a rotation against the planet, whatever the other scales are. -/
theorem C159_dipole (hg : g.Valid) (h : Spharm.Dealiased N S) (h1 : 1 ≤ g.ntrunc) (hT : 2 * g.ntrunc + 1 ≤ g.nlat) (s : St τ g)
    {k : Fin (nspec g.ntrunc)} (hk : specN k = 1) : s.pvFluxSpectral S k = -(g.omega * (Complex.I * specM k * s.q k)) := by
  obtain ⟨t, q⟩ := s
  have e := C153_flux hg h h1 hT t q 0 0 k
  have e0 : ∀ a : g.Spc, shiftEast 0 a = a := fun a => by
    funext j
    simp [shiftEast]
  rw [e0, e0, still_dipole (spun_valid hg 0) (dealiased_spun h 0) h1 hT rfl _ hk] at e
  push_cast at e
  linear_combination -e

/-! ## Consequences -/

/-- C159: the dipole of a solution evolves independently of all other scales: it precesses with the angular velocity of the planet and only feels forcing and
diffusion of the dipole. -/
theorem C159_precession (hg : g.Valid) (h : Spharm.Dealiased N S) (h1 : 1 ≤ g.ntrunc) (hT : 2 * g.ntrunc + 1 ≤ g.nlat) {R : ℝ → g.Spc → g.Fld}
    {t0 t1 : ℝ} {Y : ℝ → g.Spc} (hY : M.Solution S R t0 t1 Y) {t : ℝ} (ht : t ∈ Icc t0 t1) {k : Fin (nspec g.ntrunc)} (hk : specN k = 1) :
    HasDerivWithinAt (fun t => Y t k) (g.omega * (Complex.I * specM k * Y t k) + S.grdtospec (R t (Y t)) k -
      M.diffusionCoeff * (2 / g.rsphere ^ 2) ^ M.diffusionOrder * (Y t k - M.background S k)) (Icc t0 t1) t := by
  have e := C159_dipole hg h h1 hT (⟨t, Y t⟩ : St ℝ g) hk
  refine (hasDerivWithinAt_pi.mp (hY t ht) k).congr_deriv ?_
  change S.grdtospec (R t (Y t)) k - (⟨t, Y t⟩ : St ℝ g).pvFluxSpectral S k + M.damping S (Y t) k = _
  rw [e]
  unfold BModel.damping
  rw [hk]
  push_cast
  norm_num
  ring

/-- C159: the dipole of vorticity without forcing, as a formula -/
theorem C159_formula (hg : g.Valid) (h : Spharm.Dealiased N S) (h1 : 1 ≤ g.ntrunc) (hT : 2 * g.ntrunc + 1 ≤ g.nlat)
    (hM : M.diffusionCoeff = 0 ∨ M.diffusionBg = some g.fcor2) {t0 t1 : ℝ} {Y : ℝ → g.Spc} (hY : M.Solution S 0 t0 t1 Y) {t : ℝ} (ht : t ∈ Icc t0 t1)
    {k : Fin (nspec g.ntrunc)} (hk : specN k = 1) : (⟨t, Y t⟩ : St ℝ g).vorticitySpectral S k =
      Complex.exp ((-(M.diffusionCoeff * (2 / g.rsphere ^ 2) ^ M.diffusionOrder) * (t - t0) : ℝ)) * Complex.exp (Complex.I * (specM k * (g.omega * (t - t0)) : ℝ)) *
        (⟨t0, Y t0⟩ : St ℝ g).vorticitySpectral S k := by
  rw [vorticity_shift h h1, vorticity_shift h h1, ← Complex.exp_add]
  dsimp only
  obtain ⟨l, hl⟩ : ∃ l : ℝ, l = M.diffusionCoeff * (2 / g.rsphere ^ 2) ^ M.diffusionOrder := ⟨_, rfl⟩
  obtain ⟨c, hc⟩ : ∃ c : ℂ, c = -(l : ℂ) + Complex.I * specM k * g.omega := ⟨_, rfl⟩
  obtain ⟨b, hb⟩ : ∃ b : ℂ, b = (solidRotation N g.omega : g.Spc) k := ⟨_, rfl⟩
  have hbm : (specM k : ℂ) * b = 0 := by
    rw [hb]
    unfold solidRotation
    split_ifs with hh
    · rw [hh.1]; simp
    · simp
  have hz : S.grdtospec (0 : g.Fld) = 0 := by
    have := h.exact.analysis_smul 0 0
    rwa [zero_smul, zero_smul] at this
  have hd : ∀ t ∈ Icc t0 t1, HasDerivWithinAt (fun t => Y t k) (c * (Y t k - b)) (Icc t0 t1) t := by
    intro t ht
    refine (C159_precession hg h h1 hT hY ht hk).congr_deriv ?_
    rw [show (0 : ℝ → g.Spc → g.Fld) t (Y t) = 0 from rfl, hz, Pi.zero_apply, add_zero]
    have hl' : (M.diffusionCoeff : ℂ) * (2 / (g.rsphere : ℂ) ^ 2) ^ M.diffusionOrder = l := by rw [hl]; push_cast; rfl
    rw [hl', hc]
    rcases hM with h0 | hbg
    · have : l = 0 := by rw [hl, h0, zero_mul]
      rw [this, Complex.ofReal_zero]
      linear_combination (Complex.I * g.omega) * hbm
    · have hbk : M.background S k = b := by
        rw [hb, ← h.exact.fcor2 h1 h1]
        unfold BModel.background; rw [hbg]; rfl
      rw [hbk]
      linear_combination (Complex.I * g.omega) * hbm
  have he : ∀ t : ℝ, HasDerivAt (fun t : ℝ => Complex.exp (-c * ((t : ℂ) - t0))) (Complex.exp (-c * ((t : ℂ) - t0)) * (-c)) t := fun t => by
    have h3 : HasDerivAt (fun t : ℝ => -c * ((t : ℂ) - t0)) (-c) t := by
      have := ((Complex.ofRealCLM.hasDerivAt (x := t) (𝕜 := ℝ)).sub_const (t0 : ℂ)).const_mul (-c)
      simpa using this
    exact h3.cexp
  have hconst : ∀ t ∈ Icc t0 t1, Complex.exp (-c * ((t : ℂ) - t0)) * (Y t k - b) = Complex.exp (-c * ((t0 : ℂ) - t0)) * (Y t0 k - b) := by
    have hd2 : ∀ t ∈ Icc t0 t1, HasDerivWithinAt (fun t : ℝ => Complex.exp (-c * ((t : ℂ) - t0)) * (Y t k - b)) 0 (Icc t0 t1) t := fun t ht =>
      ((he t).hasDerivWithinAt.mul ((hd t ht).sub_const b)).congr_deriv (by ring)
    refine constant_of_has_deriv_right_zero (fun t ht => (hd2 t ht).continuousWithinAt) fun t ht => ?_
    exact (hd2 t (Ico_subset_Icc_self ht)).mono_of_mem_nhdsWithin (Filter.mem_of_superset (Icc_mem_nhdsGE ht.2) (Icc_subset_Icc_left ht.1))
  have e := hconst t ht
  rw [sub_self, mul_zero, Complex.exp_zero, one_mul] at e
  rw [Pi.sub_apply, Pi.sub_apply, ← hb, ← e, ← mul_assoc, ← Complex.exp_add]
  have : ((-(M.diffusionCoeff * (2 / g.rsphere ^ 2) ^ M.diffusionOrder) * (t - t0) : ℝ) : ℂ) + Complex.I * ((specM k * (g.omega * (t - t0)) : ℝ) : ℂ) + -c * ((t : ℂ) - t0) = 0 := by
    rw [← hl, hc]
    push_cast
    ring
  rw [this, Complex.exp_zero, one_mul]

/-- C159: kinetic energy of the dipole -/
theorem C159_energy (hg : g.Valid) (h : Spharm.Dealiased N S) (h1 : 1 ≤ g.ntrunc) (hT : 2 * g.ntrunc + 1 ≤ g.nlat)
    (hM : M.diffusionCoeff = 0 ∨ M.diffusionBg = some g.fcor2) {t0 t1 : ℝ} {Y : ℝ → g.Spc} (hY : M.Solution S 0 t0 t1 Y) {t : ℝ} (ht : t ∈ Icc t0 t1) :
    (⟨t, Y t⟩ : St ℝ g).degreeEnergy N S 1 =
      Real.exp (-(2 * M.diffusionCoeff * (2 / g.rsphere ^ 2) ^ M.diffusionOrder) * (t - t0)) * (⟨t0, Y t0⟩ : St ℝ g).degreeEnergy N S 1 := by
  have hr := hg.rsphere_pos.ne'
  rw [degreeEnergy_eq hr, degreeEnergy_eq hr, ← mul_div_assoc, Finset.mul_sum]
  congr 1
  refine Finset.sum_congr rfl fun k _ => ?_
  by_cases hk : specN k = 1
  · rw [if_pos hk, if_pos hk, C159_formula hg h h1 hT hM hY ht hk, ← Complex.ofReal_exp, mul_assoc, modeDot_scaled]
    have hrot : ∀ (θ : ℝ) (a : ℂ), modeDot (specM k) (Complex.exp (Complex.I * (specM k * θ : ℝ)) * a) (Complex.exp (Complex.I * (specM k * θ : ℝ)) * a) = modeDot (specM k) a a := by
      intro θ a
      by_cases hm : specM k = 0
      · simp [hm]
      · unfold modeDot
        rw [if_neg hm, if_neg hm, ← Complex.normSq_apply, ← Complex.normSq_apply, map_mul, Complex.normSq_eq_norm_sq, mul_comm Complex.I, Complex.norm_exp_ofReal_mul_I]
        ring
    rw [hrot, ← Real.exp_add]
    rw [show -(M.diffusionCoeff * (2 / g.rsphere ^ 2) ^ M.diffusionOrder) * (t - t0) + -(M.diffusionCoeff * (2 / g.rsphere ^ 2) ^ M.diffusionOrder) * (t - t0) =
      -(2 * M.diffusionCoeff * (2 / g.rsphere ^ 2) ^ M.diffusionOrder) * (t - t0) by ring]
    ring
  · rw [if_neg hk, if_neg hk, mul_zero]

theorem low_split {T : ℕ} (hT : 1 ≤ T) {E : ℕ → ℝ} (hz : E 0 = 0) : ∑ l ∈ Finset.range (T + 1), (1 * ((l : ℝ) * (l + 1)) + -6) * E l =
    -4 * E 1 + ∑ l ∈ Finset.Ioc 2 T, ((l : ℝ) * (l + 1) - 6) * E l := by
  rw [← Finset.sum_sdiff (s₁ := Finset.Ioc 2 T) (s₂ := Finset.range (T + 1)) (fun l hl => by
    simp only [Finset.mem_Ioc, Finset.mem_range] at *; omega)]
  have e1 : ∑ l ∈ Finset.range (T + 1) \ Finset.Ioc 2 T, (1 * ((l : ℝ) * (l + 1)) + -6) * E l = -4 * E 1 := by
    rw [Finset.sum_eq_single 1]
    · norm_num
    · intro l hl hl1
      simp only [Finset.mem_sdiff, Finset.mem_Ioc, Finset.mem_range] at hl
      have : l = 0 ∨ l = 2 := by omega
      rcases this with rfl | rfl
      · rw [hz, mul_zero]
      · norm_num
    · intro hl
      simp only [Finset.mem_sdiff, Finset.mem_Ioc, Finset.mem_range] at hl
      omega
  have e2 : ∑ l ∈ Finset.Ioc 2 T, (1 * ((l : ℝ) * (l + 1)) + -6) * E l = ∑ l ∈ Finset.Ioc 2 T, ((l : ℝ) * (l + 1) - 6) * E l :=
    Finset.sum_congr rfl fun l _ => by ring
  rw [e1, e2]

/-- C159: a weighted sum of the energies of degrees 3 and higher is constant, so disturbances of flows with degrees 1 and 2 never grow (and such flows stay what they are). -/
theorem C159_low (hg : g.Valid) (h : Spharm.Dealiased N S) (h1 : 1 ≤ g.ntrunc) (hT : 2 * g.ntrunc + 1 ≤ g.nlat) (hν : M.diffusionCoeff = 0)
    {t0 t1 : ℝ} {Y : ℝ → g.Spc} (hY : M.Solution S 0 t0 t1 Y) {t : ℝ} (ht : t ∈ Icc t0 t1) :
    ∑ l ∈ Finset.Ioc 2 g.ntrunc, ((l : ℝ) * (l + 1) - 6) * (⟨t, Y t⟩ : St ℝ g).degreeEnergy N S l =
      ∑ l ∈ Finset.Ioc 2 g.ntrunc, ((l : ℝ) * (l + 1) - 6) * (⟨t0, Y t0⟩ : St ℝ g).degreeEnergy N S l ∧
    6 * ∑ l ∈ Finset.Ioc 2 g.ntrunc, (⟨t, Y t⟩ : St ℝ g).degreeEnergy N S l ≤
      ∑ l ∈ Finset.Ioc 2 g.ntrunc, ((l : ℝ) * (l + 1) - 6) * (⟨t0, Y t0⟩ : St ℝ g).degreeEnergy N S l := by
  have hr := hg.rsphere_pos.ne'
  have hc := C158_conserved hg h h1 hT hν hY ht 1 (-6)
  have he := C159_energy hg h h1 hT (.inl hν) hY ht
  rw [hν, mul_zero, zero_mul, neg_zero, zero_mul, Real.exp_zero, one_mul] at he
  have split : ∀ s : St ℝ g, _ := fun s => low_split h1 (C158_spectrum (N := N) (S := S) hr h.exact.norm_ne s).2.1
  rw [split, split, he] at hc
  have hc := add_left_cancel hc
  refine ⟨hc, ?_⟩
  rw [← hc, Finset.mul_sum]
  refine Finset.sum_le_sum fun l hl => mul_le_mul_of_nonneg_right ?_ ((C158_spectrum (N := N) (S := S) hr h.exact.norm_ne _).1 l)
  have : (3 : ℝ) ≤ l := by exact_mod_cast (Finset.mem_Ioc.1 hl).1
  nlinarith

/-! ## One more degree -/

/-- A dipole exchanges nothing between different degrees. -/
theorem exchange_dipole (hg : g.Valid) (h : Spharm.Dealiased N S) (h1 : 1 ≤ g.ntrunc) (hT : 2 * g.ntrunc + 1 ≤ g.nlat) {a b c : g.Spc} {l n : ℕ} (hln : l ≠ n)
    (ha : ∀ k, specN k ≠ 1 → a k = 0) (hb : ∀ k, specN k ≠ l → b k = 0) (hc : ∀ k, specN k ≠ n → c k = 0) : exchange N g.rsphere a b c = 0 := by
  have hr := hg.rsphere_pos.ne'
  have hg' := spun_valid hg 0
  have h' := dealiased_spun h 0
  obtain ⟨s, hs⟩ : ∃ s : St Unit (g.spun 0), s = ⟨(), b + c⟩ := ⟨_, rfl⟩
  have e := flux_exchange (g := g.spun 0) hg' h' h1 hT s a
  have ev : St.vorticitySpectral (g := g.spun 0) S s = b + c := by
    rw [vorticity_shift (g := g.spun 0) h' h1, hs]
    funext k
    simp [solidRotation]
  rw [ev, hs] at e
  have el : spherePair g.rsphere (harmonicSum N a) (harmonicSum N (St.pvFluxSpectral (g := g.spun 0) S s)) = 0 := by
    rw [parseval hr]
    refine Finset.sum_eq_zero fun k _ => ?_
    by_cases hk : specN k = 1
    · rw [still_dipole (g := g.spun 0) hg' h' h1 hT rfl s hk, modeDot_comm, modeDot_zero, mul_zero]
    · rw [ha k hk, modeDot_zero, mul_zero]
  rw [hs] at el
  have e2 : exchange N g.rsphere a (b + c) (invLaplace g.rsphere (b + c)) = 0 := e.symm.trans el
  have self : ∀ u : g.Spc, exchange N g.rsphere a u u = 0 := fun u => by
    have := exchange_skew (N := N) g.rsphere a u u
    linarith
  rw [invLaplace_add, invLaplace_degree _ hb, invLaplace_degree _ hc, exchange_add_right, exchange_smul_right, exchange_smul_right, exchange_add_mid, exchange_add_mid, self, self,
    exchange_skew _ a c b] at e2
  have e3 : (invFactor g.rsphere n - invFactor g.rsphere l) * exchange N g.rsphere a b c = 0 := by linarith
  exact (mul_eq_zero.mp e3).resolve_left (sub_ne_zero.mpr fun e => hln (invFactor_inj hr e).symm)

/-- C159: a dipole and one more degree do not generate other degrees. -/
theorem C159_pair (hg : g.Valid) (h : Spharm.Dealiased N S) (h1 : 1 ≤ g.ntrunc) (hT : 2 * g.ntrunc + 1 ≤ g.nlat) (s : St τ g) {L : ℕ}
    (hq : ∀ k, specN k ≠ 1 → specN k ≠ L → s.q k = 0) {k : Fin (nspec g.ntrunc)} (hk : specN k ≠ 1) (hkL : specN k ≠ L) : s.pvFluxSpectral S k = 0 := by
  have hr := hg.rsphere_pos.ne'
  have hg' := spun_valid hg 0
  have h' := dealiased_spun h 0
  obtain ⟨t, q⟩ := s
  have e := C153_flux hg h h1 hT t q 0 0 k
  have e0 : ∀ a : g.Spc, shiftEast 0 a = a := fun a => by
    funext j
    simp [shiftEast]
  rw [e0, e0, show q k = 0 from hq k hk hkL, mul_zero, mul_zero, sub_zero] at e
  rw [← e]
  refine flux_degree (g := g.spun 0) hg' h' h1 hT _ (l := specN k) (fun p hp => ?_) rfl
  have ev : St.vorticitySpectral (g := g.spun 0) S (⟨t, q⟩ : St τ (g.spun 0)) = q := by
    rw [vorticity_shift (g := g.spun 0) h' h1]
    funext k
    simp [solidRotation]
  rw [ev]
  obtain ⟨a, ha⟩ : ∃ a : g.Spc, a = degreePart 1 q := ⟨_, rfl⟩
  obtain ⟨b, hb⟩ : ∃ b : g.Spc, b = q - a := ⟨_, rfl⟩
  have hqab : q = a + b := by rw [hb]; abel
  have ha' : ∀ k, specN k ≠ 1 → a k = 0 := fun k hk => by rw [ha]; exact if_neg hk
  have hb' : ∀ k, specN k ≠ L → b k = 0 := fun k hk => by
    rw [hb, Pi.sub_apply, ha]
    unfold degreePart
    by_cases h3 : specN k = 1
    · rw [if_pos h3, sub_self]
    · rw [if_neg h3, sub_zero]
      exact hq k h3 hk
  change exchange N g.rsphere p q (invLaplace g.rsphere q) = 0
  have self : ∀ u : g.Spc, exchange N g.rsphere p u u = 0 := fun u => by
    have := exchange_skew (N := N) g.rsphere p u u
    linarith
  have key : exchange N g.rsphere p a b = 0 := by
    rw [exchange_swap hr, exchange_dipole hg h h1 hT hkL ha' hp hb', neg_zero]
  rw [hqab, invLaplace_add, invLaplace_degree _ ha', invLaplace_degree _ hb', exchange_add_right, exchange_smul_right, exchange_smul_right, exchange_add_mid, exchange_add_mid, self, self,
    exchange_skew _ p b a, key]
  ring

/-- C159: solutions that begin with a dipole (a solid-body rotation about any axis) and one more degree have no other degrees at any time. -/
theorem C159_closed (hg : g.Valid) (h : Spharm.Dealiased N S) (h1 : 1 ≤ g.ntrunc) (hT : 2 * g.ntrunc + 1 ≤ g.nlat) (hν : 0 ≤ M.diffusionCoeff)
    (hbg : ∀ k, specN k ≠ 1 → M.background S k = 0) {t0 t1 : ℝ} {Y : ℝ → g.Spc} (hY : M.Solution S 0 t0 t1 Y) {L : ℕ}
    (h0 : ∀ k, specN k ≠ 1 → specN k ≠ L → Y t0 k = 0) {t : ℝ} (ht : t ∈ Icc t0 t1) {k : Fin (nspec g.ntrunc)} (hk : specN k ≠ 1) (hkL : specN k ≠ L) : Y t k = 0 := by
  classical
  obtain ⟨P, hP⟩ : ∃ P : g.Spc → g.Spc, P = fun q k => if specN k = 1 ∨ specN k = L then q k else 0 := ⟨_, rfl⟩
  have hPin : ∀ q k, specN k ≠ 1 → specN k ≠ L → P q k = 0 := fun q k a b => by
    rw [hP]
    exact if_neg (not_or.mpr ⟨a, b⟩)
  have hPle : ∀ q, ‖P q‖ ≤ ‖q‖ := fun q => by
    refine (pi_norm_le_iff_of_nonneg (norm_nonneg _)).mpr fun k => ?_
    rw [hP]
    dsimp only
    split_ifs
    · exact norm_le_pi_norm q k
    · rw [norm_zero]; exact norm_nonneg _
  have hPsub : ∀ q k, (q - P q) k = if specN k = 1 ∨ specN k = L then 0 else q k := fun q k => by
    rw [Pi.sub_apply, hP]
    dsimp only
    split_ifs <;> simp
  obtain ⟨F, hF⟩ : ∃ F : ℝ → g.Spc → g.Spc, F = fun t q => galerkinRate S 0 t q + M.damping S q := ⟨_, rfl⟩
  have hz : S.grdtospec (0 : g.Fld) = 0 := by
    have := h.exact.analysis_smul 0 0
    rwa [zero_smul, zero_smul] at this
  have hFP : ∀ t q k, specN k ≠ 1 → specN k ≠ L → F t (P q) k = 0 := fun t q k a b => by
    rw [hF]
    change S.grdtospec ((0 : ℝ → g.Spc → g.Fld) t (P q)) k - (⟨t, P q⟩ : St ℝ g).pvFluxSpectral S k + M.damping S (P q) k = 0
    rw [show (0 : ℝ → g.Spc → g.Fld) t (P q) = 0 from rfl, hz, C159_pair hg h h1 hT (⟨t, P q⟩ : St ℝ g) (hPin q) a b]
    unfold BModel.damping
    rw [hPin q k a b, hbg k a]
    simp
  have hcont : ContinuousOn Y (Icc t0 t1) := fun t ht => (hY t ht).continuousWithinAt
  obtain ⟨B, hB⟩ := isCompact_Icc.exists_bound_of_continuousOn hcont
  obtain ⟨L1, hL1, hlip⟩ := rate_lipschitz (S := S) h.exact.linear (R := 0) (t0 := t0) (t1 := t1) (fun B => ⟨0, fun t _ t' _ q q' _ _ => by simp⟩) B
  obtain ⟨K, hK, hdamp⟩ := damping_lipschitz (S := S) hν
  have hd : ∀ t ∈ Icc t0 t1, HasDerivWithinAt (fun t => Y t - P (Y t)) (F t (Y t) - P (F t (Y t))) (Icc t0 t1) t := fun t ht => by
    refine hasDerivWithinAt_pi.mpr fun k => ?_
    have e := hasDerivWithinAt_pi.mp (hY t ht) k
    simp only [hPsub]
    split_ifs
    · exact hasDerivWithinAt_const ..
    · rw [hF]; exact e
  have hbound : ∀ t ∈ Ico t0 t1, ‖F t (Y t) - P (F t (Y t))‖ ≤ (L1 + K) * ‖Y t - P (Y t)‖ := fun t ht => by
    have ht' := Ico_subset_Icc_self ht
    have e1 := hlip t ht' t ht' (Y t) (P (Y t)) (hB t ht') ((hPle _).trans (hB t ht'))
    have e2 := hdamp (Y t) (P (Y t))
    rw [sub_self, abs_zero, zero_add] at e1
    have e3 : ‖F t (Y t) - F t (P (Y t))‖ ≤ (L1 + K) * ‖Y t - P (Y t)‖ := by
      rw [hF]
      dsimp only
      rw [add_sub_add_comm, add_mul]
      exact (norm_add_le _ _).trans (add_le_add e1 e2)
    refine le_trans ((pi_norm_le_iff_of_nonneg (norm_nonneg _)).mpr fun k => ?_) e3
    rw [hPsub]
    split_ifs with hc
    · rw [norm_zero]; exact norm_nonneg _
    · obtain ⟨c1, c2⟩ := not_or.mp hc
      have := norm_le_pi_norm (F t (Y t) - F t (P (Y t))) k
      rwa [Pi.sub_apply, hFP t (Y t) k c1 c2, sub_zero] at this
  have hstart : Y t0 - P (Y t0) = 0 := by
    funext k
    rw [hPsub]
    split_ifs with hc
    · rfl
    · obtain ⟨c1, c2⟩ := not_or.mp hc
      exact h0 k c1 c2
  have key := eq_zero_of_abs_deriv_le_mul_abs_self_of_eq_zero_right (f := fun t => Y t - P (Y t)) (fun t ht => (hd t ht).continuousWithinAt)
    (fun t ht => (hd t (Ico_subset_Icc_self ht)).mono_of_mem_nhdsWithin (Filter.mem_of_superset (Icc_mem_nhdsGE ht.2) (Icc_subset_Icc_left ht.1))) hstart hbound t ht
  have := congrFun key k
  rwa [hPsub, if_neg (not_or.mpr ⟨hk, hkL⟩)] at this

/-! ## Runs -/

/-- The dipole as a linear map -/
noncomputable def dipoleMap (T : ℕ) : SpecField T →ₗ[ℝ] SpecField T where
  toFun := degreePart 1
  map_add' a b := by
    funext k
    simp only [degreePart, Pi.add_apply]
    split_ifs <;> simp
  map_smul' c a := by
    funext k
    simp only [degreePart, Pi.smul_apply, RingHom.id_apply]
    split_ifs <;> simp

theorem dipole_runMap (hg : g.Valid) (h : Spharm.Dealiased N S) (h1 : 1 ≤ g.ntrunc) (hT : 2 * g.ntrunc + 1 ≤ g.nlat) (hM : M.rhs = none)
    (hbg : ∀ b, M.diffusionBg = some b → ∀ k, specN k ≠ 1 → S.grdtospec b k = 0) :
    RunMap S S M M 1 (dipoleMap g.ntrunc) id id (fun _ => True) (fun _ => True) where
  seconds d _ := (one_mul _).symm
  add t d _ _ := by change t.add d = _; cases t.add d <;> rfl
  sub t t' _ _ := by change t.sub t' = _; cases t.sub t' <;> rfl
  lt t t' _ _ := rfl
  add_ok _ _ _ _ _ _ := trivial
  sub_ok _ _ _ _ _ _ := trivial
  tendency s _ := by
    have e1 : (fun t : g.Spc => (1 : ℝ) • t) = id := by funext t; exact one_smul _ _
    have e2 : ∀ x : Except PyErr g.Spc, x.map id = x := fun x => by cases x <;> rfl
    rw [e1, e2]
    change M.tendency S ⟨s.time, degreePart 1 s.q⟩ = _
    unfold BModel.tendency
    rw [hM]
    refine congrArg Except.ok ?_
    funext k
    change -St.pvFluxSpectral S (⟨s.time, degreePart 1 s.q⟩ : St PyTime g) k = degreePart 1 (-s.pvFluxSpectral S) k
    unfold degreePart
    by_cases hk : specN k = 1
    · rw [if_pos hk, C159_dipole hg h h1 hT _ hk, Pi.neg_apply, C159_dipole hg h h1 hT _ hk]
      simp [hk]
    · rw [if_neg hk, C159_pair hg h h1 hT _ (L := 1) (fun k hk _ => if_neg hk) hk hk, neg_zero]
  diffusion dt q := by
    rw [one_mul]
    change M.applyDiffusion S dt (degreePart 1 q) = degreePart 1 _
    unfold BModel.applyDiffusion
    cases hb : M.diffusionBg with
    | none =>
      simp only [Grid.diffusion_eq_degMul]
      funext k
      simp only [degMul, degreePart]
      split_ifs <;> simp
    | some b =>
      simp only [Grid.diffusion_eq_degMul]
      funext k
      simp only [degMul, degreePart, Pi.add_apply, Pi.sub_apply]
      split_ifs with hk
      · rfl
      · have : Grid.toSpectral S b k = 0 := hbg b hb k hk
        rw [this]
        simp

/-- C159: the dipole in a run without forcing does not depend on other scales: runs from states with the same dipole take the same steps and have the same dipole in the final and all saved
states, for every time step. -/
theorem C159_run (hg : g.Valid) (h : Spharm.Dealiased N S) (h1 : 1 ≤ g.ntrunc) (hT : 2 * g.ntrunc + 1 ≤ g.nlat) (hM : M.rhs = none)
    (hbg : ∀ b, M.diffusionBg = some b → ∀ k, specN k ≠ 1 → S.grdtospec b k = 0) {s s' : St PyTime g} (ht : s'.time = s.time)
    (hs : ∀ k, specN k = 1 → s'.q k = s.q k) (dt : PyDelta) (tend : PyTime) (se : ℝ) {sf : St PyTime g} {saved : List (St PyTime g)} (hr : M.Returns S s dt tend se sf saved) :
    ∃ sf' saved', M.Returns S s' dt tend se sf' saved' ∧
      List.Forall₂ (fun w w' : St PyTime g => w'.time = w.time ∧ ∀ k, specN k = 1 → w'.q k = w.q k) (sf :: saved) (sf' :: saved') := by
  obtain ⟨fuel, hr⟩ := hr
  have key := fun s => (dipole_runMap hg h h1 hT hM hbg).run one_pos (se := se) (.inr fun t x _ => by rw [one_mul]; rfl) s dt tend fuel trivial trivial trivial
  have hon : RunMap.on (dipoleMap g.ntrunc) id s' = RunMap.on (dipoleMap g.ntrunc) id s := by
    unfold RunMap.on
    rw [ht]
    refine congrArg (St.mk _) ?_
    funext k
    change degreePart 1 s'.q k = degreePart 1 s.q k
    unfold degreePart
    split_ifs with hk
    · exact hs k hk
    · rfl
  have e := (key s').symm.trans ((congrArg (fun x => M.run S x (id dt) (id tend) (1 * se) fuel) hon).trans (key s))
  rw [hr] at e
  have hw : ∀ w w' : St PyTime g, RunMap.on (dipoleMap g.ntrunc) id w' = RunMap.on (dipoleMap g.ntrunc) id w → w'.time = w.time ∧ ∀ k, specN k = 1 → w'.q k = w.q k := by
    intro w w' e
    refine ⟨congrArg (St.time (g := g)) (a₁ := RunMap.on (dipoleMap g.ntrunc) id w') (a₂ := RunMap.on (dipoleMap g.ntrunc) id w) e, fun k hk => ?_⟩
    have e2 := congrFun (congrArg (fun w : St PyTime g => w.q) e) k
    change degreePart 1 w'.q k = degreePart 1 w.q k at e2
    unfold degreePart at e2
    rwa [if_pos hk, if_pos hk] at e2
  cases hr' : M.run S s' dt tend se fuel with
  | outOfFuel => rw [hr'] at e; cases e
  | raised x => rw [hr'] at e; cases e
  | early x l => rw [hr'] at e; cases e
  | done sf' saved' =>
    rw [hr'] at e
    simp only [BModel.Outcome.map, BModel.Outcome.done.injEq] at e
    refine ⟨sf', saved', ⟨fuel, hr'⟩, .cons (hw _ _ e.1) ?_⟩
    have e2 : List.Forall₂ (· = ·) _ _ := List.forall₂_eq_eq_eq ▸ e.2.symm
    rw [List.forall₂_map_left_iff, List.forall₂_map_right_iff] at e2
    exact e2.imp fun w w' he => hw w w' he.symm

/-- Non-vacuity of C159: transforms without aliasing, a model that diffuses relative vorticity (with coefficient 0: one without diffusion) and a solution from every state, on every
grid with enough latitudes -/
theorem C159_instances (hg : g.Valid) (h1 : 1 ≤ g.ntrunc) (hT : 2 * g.ntrunc + 2 ≤ g.nlat) {ν : ℝ} (hν : 0 ≤ ν) (q : g.Spc) : ∃ S : g.Sph, Spharm.Dealiased (fun _ _ => 1) S ∧
    (∀ b, (⟨none, 2, ν, some g.fcor2⟩ : BModel g).diffusionBg = some b → ∀ k, specN k ≠ 1 → S.grdtospec b k = 0) ∧
    (∀ k, specN k ≠ 1 → (⟨none, 2, ν, some g.fcor2⟩ : BModel g).background S k = 0) ∧
    ∃ t1 Y, 0 < t1 ∧ (⟨none, 2, ν, some g.fcor2⟩ : BModel g).Solution S 0 0 t1 Y ∧ Y 0 = q := by
  obtain ⟨⟨S, h⟩, -⟩ := C119_exists (N := fun _ _ => 1) hg hT (fun _ _ => one_ne_zero)
  obtain ⟨t1, Y, h2, -, h3, h4⟩ := C114_exists (M := ⟨none, 2, ν, some g.fcor2⟩) (R := 0) h.exact.linear hν (zero_lt_one (α := ℝ))
    (fun B => ⟨0, fun t _ t' _ q q' _ _ => by simp⟩) q
  have hf : ∀ k, specN k ≠ 1 → S.grdtospec g.fcor2 k = 0 := fun k hk => by
    have e : S.grdtospec g.fcor2 = solidRotation (fun _ _ => 1) g.omega := h.exact.fcor2 h1 h1
    rw [e]
    exact if_neg fun hh => hk hh.2
  refine ⟨S, h, fun b hb => ?_, fun k hk => hf k hk, t1, Y, h2, h3, h4⟩
  obtain rfl := Option.some.inj hb
  exact hf

example (q : grid30.Spc) := C159_instances grid30_valid (show 1 ≤ grid30.ntrunc by change 1 ≤ 2; norm_num) (by rw [grid30_nlat]; change 2 * 2 + 2 ≤ 7; norm_num) zero_le_one q

end Barotropic
