import Verif.Lemmas.SpharmExact

/-!
# Exact spherical harmonic transforms satisfy all laws
-/

namespace Barotropic
open Complex

section sums
variable {T : ℕ} (N : ℕ → ℕ → ℝ) (P : ℕ → ℕ → ℝ → ℝ)

theorem modeSum_add (s s' : SpecField T) (x y : ℝ) : modeSum N P (s + s') x y = modeSum N P s x y + modeSum N P s' x y := by
  unfold modeSum
  rw [← Finset.sum_add_distrib]
  exact Finset.sum_congr rfl fun k _ => by rw [Pi.add_apply, add_mul, Complex.add_re, mul_add]

theorem modeSum_smul (c : ℝ) (s : SpecField T) (x y : ℝ) : modeSum N P (c • s) x y = c * modeSum N P s x y := by
  unfold modeSum
  rw [Finset.mul_sum]
  exact Finset.sum_congr rfl fun k _ => by
    rw [Pi.smul_apply, Complex.real_smul, mul_assoc (c : ℂ), Complex.re_ofReal_mul]; ring

theorem modeSum_neg (s : SpecField T) (x y : ℝ) : modeSum N P (-s) x y = -modeSum N P s x y := by
  have := modeSum_smul N P (-1) s x y
  rw [neg_one_smul] at this; rw [this]; ring

theorem modeSum_eq_zero {s : SpecField T} (h : ∀ k, s k = 0 ∨ ∀ y, P (specN k) (specM k) y = 0) (x y : ℝ) : modeSum N P s x y = 0 := by
  unfold modeSum
  refine Finset.sum_eq_zero fun k _ => ?_
  rcases h k with h | h
  · rw [h]; simp
  · rw [h]; simp

theorem modeSum_single {s : SpecField T} (k : Fin (nspec T)) (h : ∀ l, l ≠ k → s l = 0) (x y : ℝ) :
    modeSum N P s x y = N (specN k) (specM k) * P (specN k) (specM k) y * (s k * Complex.exp (I * (specM k * x : ℝ))).re := by
  unfold modeSum
  rw [Finset.sum_eq_single k]
  · intro l _ hl; rw [h l hl]; simp
  · simp

theorem modeSum_congr {s s' : SpecField T} (h : ∀ k, specM k ≠ 0 → s k = s' k) (h0 : ∀ k, specM k = 0 → (s k).re = (s' k).re) (x y : ℝ) :
    modeSum N P s x y = modeSum N P s' x y := by
  unfold modeSum
  refine Finset.sum_congr rfl fun k _ => ?_
  by_cases hk : specM k = 0
  · have := h0 k hk
    simp [hk, this]
  · rw [h k hk]

theorem modeSum_phase {g : Grid ℝ} (hg : g.Valid) (d : ℕ) (s : SpecField T) (i : Fin g.nlon) (y : ℝ) :
    modeSum N P (phaseShift g.nlon d s) (g.lam i) y = modeSum N P s (g.lam ((i.val + d) % g.nlon)) y := by
  have hn : g.nlon ≠ 0 := by have := hg.nlon_ge; omega
  unfold modeSum
  refine Finset.sum_congr rfl fun k _ => ?_
  have e : phaseShift g.nlon d s k = ru g.nlon (specM k * d : ℤ) * s k := by
    unfold phaseShift ru; congr 2; push_cast; ring
  rw [exp_lam hg, exp_lam hg, e]
  have e2 : ru g.nlon (specM k * ((i.val + d) % g.nlon : ℕ) : ℤ) = ru g.nlon (specM k * d : ℤ) * ru g.nlon (specM k * i.val : ℤ) := by
    rw [← ru_add]
    refine ru_congr hn ⟨-(specM k * ((i.val + d) / g.nlon : ℕ)), ?_⟩
    have := Nat.mod_add_div (i.val + d) g.nlon
    zify at this
    push_cast
    linear_combination (specM k : ℤ) * this
  rw [e2]
  congr 2
  ring

theorem modeSum_parity (σ : ℝ) (hP : ∀ n m y, P n m (-y) = σ * ((-1) ^ (n + m) * P n m y)) (hσ : σ * σ = 1) (s : SpecField T) (x y : ℝ) :
    modeSum N P (parity s) x y = σ * modeSum N P s x (-y) := by
  unfold modeSum
  rw [Finset.mul_sum]
  refine Finset.sum_congr rfl fun k _ => ?_
  have h1 : ((-1 : ℝ) ^ (specN k - specM k)) = (-1) ^ (specN k + specM k) := by
    have := specM_le_specN k
    rw [show specN k + specM k = specN k - specM k + 2 * specM k by omega, pow_add, pow_mul]
    simp
  have h2 : parity s k = (((-1 : ℝ) ^ (specN k + specM k) : ℝ) : ℂ) * s k := by
    unfold parity; rw [← h1]; push_cast; rfl
  rw [h2, mul_assoc (_ : ℂ) (s k), Complex.re_ofReal_mul, hP]
  linear_combination (-N (specN k) (specM k) * (-1) ^ (specN k + specM k) * P (specN k) (specM k) y *
    (s k * cexp (I * (specM k * x : ℝ))).re) * hσ

theorem timesI_add (s s' : SpecField T) : timesI (s + s') = timesI s + timesI s' := by
  funext k; simp [timesI]; ring

theorem timesI_smul (c : ℝ) (s : SpecField T) : timesI (c • s) = c • timesI s := by
  funext k; simp [timesI]; ring

theorem timesI_phase (n d : ℕ) (s : SpecField T) : timesI (phaseShift n d s) = phaseShift n d (timesI s) := by
  funext k; simp [timesI, phaseShift]; ring

theorem timesI_parity (s : SpecField T) : timesI (parity s) = parity (timesI s) := by
  funext k; simp [timesI, parity]; ring

theorem degMul_add (c : ℕ → ℝ) (s s' : SpecField T) : degMul c (s + s') = degMul c s + degMul c s' := by
  funext k; simp [degMul]; ring

theorem degMul_smul (c : ℕ → ℝ) (a : ℝ) (s : SpecField T) : degMul c (a • s) = a • degMul c s := by
  funext k; simp [degMul]; ring

theorem degMul_phase (c : ℕ → ℝ) (n d : ℕ) (s : SpecField T) : degMul c (phaseShift n d s) = phaseShift n d (degMul c s) := by
  funext k; simp [degMul, phaseShift]; ring

theorem degMul_parity (c : ℕ → ℝ) (s : SpecField T) : degMul c (parity s) = parity (degMul c s) := by
  funext k; simp [degMul, parity]; ring

theorem lamDeriv_add (s s' : SpecField T) (x y : ℝ) : lamDeriv N (s + s') x y = lamDeriv N s x y + lamDeriv N s' x y := by
  unfold lamDeriv; rw [timesI_add, modeSum_add]

theorem lamDeriv_smul (c : ℝ) (s : SpecField T) (x y : ℝ) : lamDeriv N (c • s) x y = c * lamDeriv N s x y := by
  unfold lamDeriv; rw [timesI_smul, modeSum_smul]

theorem phiDeriv_add (s s' : SpecField T) (x y : ℝ) : phiDeriv N (s + s') x y = phiDeriv N s x y + phiDeriv N s' x y :=
  modeSum_add ..

theorem phiDeriv_smul (c : ℝ) (s : SpecField T) (x y : ℝ) : phiDeriv N (c • s) x y = c * phiDeriv N s x y := modeSum_smul ..

theorem invLaplace_add (r : ℝ) (s s' : SpecField T) : invLaplace r (s + s') = invLaplace r s + invLaplace r s' := degMul_add ..

theorem invLaplace_smul (r c : ℝ) (s : SpecField T) : invLaplace r (c • s) = c • invLaplace r s := degMul_smul ..

theorem invLaplace_dropMean (r : ℝ) (s : SpecField T) : invLaplace r (dropMean s) = invLaplace r s := by
  funext k
  unfold invLaplace degMul dropMean
  simp only
  split_ifs <;> simp

theorem lamDeriv_phase {g : Grid ℝ} (hg : g.Valid) (d : ℕ) (s : SpecField T) (i : Fin g.nlon) (y : ℝ) :
    lamDeriv N (phaseShift g.nlon d s) (g.lam i) y = lamDeriv N s (g.lam ((i.val + d) % g.nlon)) y := by
  unfold lamDeriv; rw [timesI_phase, modeSum_phase N _ hg]

theorem phiDeriv_phase {g : Grid ℝ} (hg : g.Valid) (d : ℕ) (s : SpecField T) (i : Fin g.nlon) (y : ℝ) :
    phiDeriv N (phaseShift g.nlon d s) (g.lam i) y = phiDeriv N s (g.lam ((i.val + d) % g.nlon)) y := modeSum_phase N _ hg ..

theorem harmonicSum_parity (s : SpecField T) (x y : ℝ) : harmonicSum N (parity s) x y = harmonicSum N s x (-y) := by
  have := modeSum_parity N legendre 1 (fun n m y => by rw [legendre_neg, one_mul]) (by norm_num) s x y
  rwa [one_mul] at this

theorem lamDeriv_parity (s : SpecField T) (x y : ℝ) : lamDeriv N (parity s) x y = lamDeriv N s x (-y) := by
  have := modeSum_parity N legendreOverCos 1 (fun n m y => by rw [legendreOverCos_neg, one_mul]) (by norm_num) (timesI s) x y
  unfold lamDeriv
  rwa [one_mul, ← timesI_parity] at this

theorem phiDeriv_parity (s : SpecField T) (x y : ℝ) : phiDeriv N (parity s) x y = -phiDeriv N s x (-y) := by
  have := modeSum_parity N (fun n m => deriv (legendre n m)) (-1) (fun n m y => by rw [deriv_legendre_neg]; ring) (by norm_num) s x y
  unfold phiDeriv
  rw [this]; ring

end sums

/-- Imaginary parts of zonal modes do not matter. -/
noncomputable def realZonal {T : ℕ} (s : SpecField T) : SpecField T := fun k => if specM k = 0 then ((s k).re : ℂ) else s k

theorem realZonal_real {T : ℕ} (s : SpecField T) : RealZonal (realZonal s) := by
  intro k hk; simp [realZonal, hk]

theorem harmonicSum_realZonal {T : ℕ} (N : ℕ → ℕ → ℝ) (s : SpecField T) (x y : ℝ) :
    harmonicSum N (realZonal s) x y = harmonicSum N s x y :=
  modeSum_congr N _ (fun k hk => by simp [realZonal, hk]) (fun k hk => by simp [realZonal, hk]) x y

variable {g : Grid ℝ} {N : ℕ → ℕ → ℝ} {B : ℕ} {S : g.Sph}

theorem BandLimited.of_le {T B : ℕ} (h : T ≤ B) (s : SpecField T) : BandLimited B s := fun k hk => by
  have := specN_le k; omega

theorem Spharm.Exact.adm_iff (hB : g.ntrunc ≤ B) (h : Spharm.Exact N B S) (s : g.Spc) : S.Adm s ↔ RealZonal s := by
  constructor
  · intro hs
    have := h.analysis_real (S.spectogrd s)
    unfold Spharm.Adm at hs
    rwa [hs] at this
  · exact fun hs => h.analysis s hs (.of_le hB s)

/-- A single zonal mode -/
noncomputable def zonalMode {T : ℕ} (k : Fin (nspec T)) (c : ℝ) : SpecField T := fun l => if l = k then (c : ℂ) else 0

theorem zonalMode_real {T : ℕ} (k : Fin (nspec T)) (c : ℝ) : RealZonal (zonalMode k c) := by
  intro l _; unfold zonalMode; split_ifs <;> simp

theorem Spharm.Exact.const_field (h : Spharm.Exact N B S) (c : ℝ) :
    S.spectogrd (zonalMode (k0 _) (c / N 0 0)) = fun _ _ => c := by
  rw [h.synthesis]
  funext j i
  unfold Grid.sample harmonicSum
  rw [modeSum_single N legendre (k0 _) (by intro l hl; simp [zonalMode, hl])]
  have := h.norm_ne 0 0
  simp [zonalMode, legendre_zero]
  field_simp

theorem Spharm.Exact.coriolis_field (h : Spharm.Exact N B S) (hT : 1 ≤ g.ntrunc) :
    S.spectogrd (zonalMode (k1 hT) (g.omega / N 1 0)) = g.fcor2 := by
  rw [h.synthesis]
  funext j i
  unfold Grid.sample harmonicSum
  rw [modeSum_single N legendre (k1 hT) (by intro l hl; simp [zonalMode, hl])]
  have := h.norm_ne 1 0
  change _ = 2 * g.omega * Real.sin (g.phi j)
  simp [zonalMode, legendre_one]
  field_simp

/-- Exact transforms satisfy all laws. -/
theorem Spharm.Exact.lawful (hg : g.Valid) (hT : 1 ≤ g.ntrunc) (hB : g.ntrunc ≤ B) (h : Spharm.Exact N B S) : Spharm.Lawful S := by
  have hzv : ∀ a : g.Spc, (∀ k, specM k ≠ 0 → a k = 0) → ∀ x y, lamDeriv N a x y = 0 := by
    intro a ha x y
    refine modeSum_eq_zero N _ (fun k => ?_) x y
    by_cases hk : specM k = 0
    · right; intro y; rw [hk]; exact legendreOverCos_zonal _ y
    · left; simp [timesI, ha k hk]
  refine ⟨⟨h.analysis_add, h.analysis_smul, ?_, ?_, ?_, ?_, h.vrtdiv_add, h.vrtdiv_smul, ?_, ?_⟩, ⟨?_, ?_, ?_⟩, ⟨?_, ?_, ?_⟩,
    ⟨?_, ?_, fun u v k hk => (h.vrtdiv_mean u v k hk).1, fun u v k hk => (h.vrtdiv_mean u v k hk).2⟩,
    ⟨h.analysis_rotate, ?_, ?_, h.vrtdiv_rotate, ?_, ?_, h.vrtdiv_zonal⟩, ?_, ?_⟩
  · intro s s'
    simp only [h.synthesis]
    funext j i
    exact modeSum_add ..
  · intro c s
    simp only [h.synthesis]
    funext j i
    exact modeSum_smul ..
  · intro a a' b b'
    simp only [h.wind]
    refine Prod.ext ?_ ?_ <;> funext j i <;>
      simp only [Prod.fst_add, Prod.snd_add, Pi.add_apply, Grid.sample, invLaplace_add, phiDeriv_add, lamDeriv_add] <;> ring
  · intro c a b
    simp only [h.wind]
    refine Prod.ext ?_ ?_ <;> funext j i <;>
      simp only [Prod.smul_fst, Prod.smul_snd, Pi.smul_apply, smul_eq_mul, Grid.sample, invLaplace_smul, phiDeriv_smul, lamDeriv_smul] <;> ring
  · intro s s'
    simp only [h.gradient]
    refine Prod.ext ?_ ?_ <;> funext j i <;>
      simp only [Prod.fst_add, Prod.snd_add, Pi.add_apply, Grid.sample, phiDeriv_add, lamDeriv_add] <;> ring
  · intro c s
    simp only [h.gradient]
    refine Prod.ext ?_ ?_ <;> funext j i <;>
      simp only [Prod.smul_fst, Prod.smul_snd, Pi.smul_apply, smul_eq_mul, Grid.sample, phiDeriv_smul, lamDeriv_smul] <;> ring
  · intro f
    exact h.analysis _ (h.analysis_real f) (.of_le hB _)
  · intro s
    have e : S.spectogrd s = S.spectogrd (realZonal s) := by
      simp only [h.synthesis]
      funext j i
      exact (harmonicSum_realZonal N s _ _).symm
    rw [e, h.analysis _ (realZonal_real s) (.of_le hB _)]
  · intro c s hs
    rw [h.adm_iff hB] at hs ⊢
    intro k hk
    unfold degMul
    rw [Complex.im_ofReal_mul, hs k hk, mul_zero]
  · intro s hs
    refine ⟨N 0 0 * (s (k0 _)).re, ?_⟩
    rw [h.synthesis]
    funext j i
    unfold Grid.sample harmonicSum
    rw [modeSum_single N legendre (k0 _) (fun l hl => hs l fun e => hl (eq_k0_of_specN e))]
    simp [legendre_zero]
  · intro c
    have e := h.const_field c
    have e2 : S.grdtospec (fun _ _ => c) = zonalMode (k0 _) (c / N 0 0) := by
      rw [← e]; exact h.analysis _ (zonalMode_real _ _) (.of_le hB _)
    constructor
    · rw [e2]
      intro k hk
      have : k ≠ k0 _ := by rintro rfl; simp at hk
      simp [zonalMode, this]
    · rw [e2, e]
  · intro s hs
    rw [h.gradient]
    refine Prod.ext ?_ ?_ <;> funext j i
    · change lamDeriv N s _ _ / _ = 0
      rw [hzv s (fun k hk => hs k (by have := specM_le_specN k; omega)), zero_div]
    · change phiDeriv N s _ _ / _ = 0
      rw [show phiDeriv N s (g.lam i) (g.phi j) = 0 from modeSum_eq_zero N _ (fun k => ?_) _ _, zero_div]
      by_cases hk : specN k = 0
      · right; intro y
        have hm : specM k = 0 := by have := specM_le_specN k; omega
        rw [hk, hm, legendre_zero]; simp
      · exact .inl (hs k hk)
  · intro a b ha hb
    exact h.vrtdiv a b ((h.adm_iff hB a).mp ha.1) ((h.adm_iff hB b).mp hb.1) (.of_le hB _) (.of_le hB _)
  · intro a b
    simp only [h.wind, invLaplace_dropMean]
  · intro d s
    simp only [h.synthesis]
    funext j i
    exact modeSum_phase N _ hg d s i _
  · intro d a b
    simp only [h.wind]
    refine Prod.ext ?_ ?_ <;> funext j i <;>
      simp only [Grid.sample, rotate, invLaplace, degMul_phase, phiDeriv_phase N hg, lamDeriv_phase N hg]
  · intro d s
    simp only [h.gradient]
    refine Prod.ext ?_ ?_ <;> funext j i <;>
      simp only [Grid.sample, rotate, phiDeriv_phase N hg, lamDeriv_phase N hg]
  · intro a ha
    rw [h.wind]
    funext j i
    change (lamDeriv N _ _ _ + phiDeriv N _ _ _) / _ = 0
    rw [hzv _ (fun k hk => by simp [invLaplace, degMul, ha k hk]),
      show phiDeriv N (invLaplace g.rsphere 0) (g.lam i) (g.phi j) = 0 from
        modeSum_eq_zero N _ (fun k => .inl (by simp [invLaplace, degMul])) _ _]
    simp
  · rw [← h.coriolis_field hT, h.analysis _ (zonalMode_real _ _) (.of_le hB _)]
  · intro k hk
    rw [← h.coriolis_field hT, h.analysis _ (zonalMode_real _ _) (.of_le hB _)]
    have : k ≠ k1 hT := by rintro rfl; simp at hk
    simp [zonalMode, this]

/-- The constructed transforms also commute with reflections at the equator. -/
theorem exactSph_mirror (hg : g.Valid) {D E : ℕ → ℕ → Fin g.nlat → ℝ} (h : IsDual g B D E) : Spharm.Mirrors (exactSph N D E) := by
  have hp : ∀ k : Fin (nspec g.ntrunc), ((-1 : ℂ) ^ (specN k - specM k)) = (-1) ^ (specN k + specM k) := by
    intro k
    have := specM_le_specN k
    rw [show specN k + specM k = specN k - specM k + 2 * specM k by omega, pow_add, pow_mul]
    simp
  have hsc : ∀ k : Fin (nspec g.ntrunc), ((-1 : ℂ) ^ (specN k + specM k)) * (-1) ^ (specN k + specM k) = 1 := by
    intro k; exact_mod_cast neg_one_pow_mul_self (specN k + specM k)
  refine ⟨?_, ?_, ?_, ?_, ?_⟩
  · intro f
    funext k
    simp only [exactSph, colSum_mirror, parity]
    rw [show (fun j : Fin g.nlat => D (specM k) (specN k) j.rev) = fun j => (-1) ^ (specN k + specM k) * D (specM k) (specN k) j from
      funext fun j => h.scalar_rev _ _ _, colSum_mul, hp]
    push_cast
    rw [mul_div_assoc]
  · intro s
    funext j i
    simp only [exactSph, Grid.sample, mirror, harmonicSum_parity, Grid.phi_rev hg]
  · intro a b
    have e : ∀ s : g.Spc, invLaplace g.rsphere (-s) = -invLaplace g.rsphere s := fun s => by
      funext k; simp [invLaplace, degMul]
    have e2 : ∀ s : g.Spc, invLaplace g.rsphere (parity s) = parity (invLaplace g.rsphere s) := fun s => degMul_parity _ _
    have e3 : ∀ (s : g.Spc) (x y : ℝ), lamDeriv N (-s) x y = -lamDeriv N s x y := fun s x y => by
      have := lamDeriv_smul N (-1) s x y
      rw [neg_one_smul] at this; rw [this]; ring
    have e4 : ∀ (s : g.Spc) (x y : ℝ), phiDeriv N (-s) x y = -phiDeriv N s x y := fun s x y => by
      have := phiDeriv_smul N (-1) s x y
      rw [neg_one_smul] at this; rw [this]; ring
    refine Prod.ext ?_ ?_ <;> funext j i <;>
      simp only [exactSph, Grid.sample, mirror, Pi.neg_apply, e, e2, e3, e4, lamDeriv_parity, phiDeriv_parity, Grid.phi_rev hg] <;> ring
  · intro u v
    have hA : ∀ k : Fin (nspec g.ntrunc), colA E (mirror u) (-mirror v) (specN k) (specM k) =
        -(-1) ^ (specN k + specM k) * colB E u v (specN k) (specM k) := by
      intro k
      unfold colA colB
      rw [colSum_neg, colSum_mirror, colSum_mirror]
      linear_combination (-(colSum (fun j => E (specM k) (specN k) j.rev) (specM k) u +
        I * colSum (fun j => E (specM k) (specN k) j.rev) (specM k) v)) * hsc k
    have hB : ∀ k : Fin (nspec g.ntrunc), colB E (mirror u) (-mirror v) (specN k) (specM k) =
        -(-1) ^ (specN k + specM k) * colA E u v (specN k) (specM k) := by
      intro k
      unfold colA colB
      rw [colSum_neg, colSum_mirror, colSum_mirror]
      simp only [Fin.rev_rev]
      ring
    refine Prod.ext ?_ ?_ <;> funext k <;> simp only [exactSph, hA, hB, Pi.neg_apply, parity, hp] <;> split_ifs <;> ring
  · intro s
    refine Prod.ext ?_ ?_ <;> funext j i <;>
      simp only [exactSph, Grid.sample, mirror, Pi.neg_apply, lamDeriv_parity, phiDeriv_parity, Grid.phi_rev hg]
    ring

/-- On every grid there is a transform that is exact up to degree `nlat - 2`. -/
theorem exists_exact (hg : g.Valid) (hT : B + 2 ≤ g.nlat) (hN : ∀ n m, N n m ≠ 0) :
    ∃ S : g.Sph, Spharm.Exact N B S ∧ S.Mirrors := by
  obtain ⟨D, E, h⟩ := exists_isDual hg hT
  exact ⟨_, exactSph_exact hg hT hN h, exactSph_mirror hg h⟩

end Barotropic
