import Verif.Lemmas.SpharmZonal
import Verif.Spec.Symmetry
import Verif.Lemmas.Fourier

/-!
# A transform with waves that satisfies all spherical harmonic laws

It keeps all modes of degree 0 and 1: `1`, `sin φ`, `cos φ cos λ`, `cos φ sin λ`. This shows that the laws `Spharm.Lawful` are
consistent for transforms with zonally asymmetric flow.
-/

namespace Barotropic
open Real

/-- Fourier coefficient of wavenumber 1 -/
noncomputable def w1 {n : ℕ} (f : Fin n → ℝ) : ℂ := 2 / n * dft f 1

section w1
variable {n : ℕ}

theorem w1_add (f f' : Fin n → ℝ) : w1 (f + f') = w1 f + w1 f' := by
  unfold w1; rw [show f + f' = fun i => f i + f' i from rfl, dft_add]; ring

theorem w1_smul (c : ℝ) (f : Fin n → ℝ) : w1 (c • f) = c * w1 f := by
  unfold w1; rw [show c • f = fun i => c * f i from rfl, dft_smul]; ring

theorem w1_rotate {h : ℕ} (d : ℕ) (f : GridField h n) (j : Fin h) : w1 (rotate d f j) = ru n d * w1 (f j) := by
  unfold w1
  rw [show rotate d f j = rotRow d (f j) from rfl, dft_rot]
  push_cast; rw [one_mul]; ring

theorem not_dvd {m : ℤ} (h3 : 3 ≤ n) (h : m = 1 ∨ m = 2) : ¬ (n : ℤ) ∣ m := by
  intro hd
  have := Int.le_of_dvd (by omega) hd
  omega

theorem w1_wave (h3 : 3 ≤ n) (k : ℝ) (Y : ℂ) : w1 (fun i : Fin n => k + (Y * ru n i.val).re) = Y := by
  have hn : n ≠ 0 := by omega
  have hn' : (n : ℂ) ≠ 0 := by exact_mod_cast hn
  have h1 := dft_wave hn (k : ℂ) 0 1
  have h2 := dft_wave hn Y 1 1
  unfold w1
  rw [dft_add]
  have e1 : (fun i : Fin n => ((k : ℂ) * ru n ((0 : ℕ) * i.val : ℤ)).re) = fun _ => k := by
    funext i; simp [ru_zero]
  have e2 : (fun i : Fin n => (Y * ru n ((1 : ℕ) * i.val : ℤ)).re) = fun i : Fin n => (Y * ru n i.val).re := by
    funext i; simp
  rw [e1] at h1
  rw [e2] at h2
  rw [h1, h2]
  have d1 : ¬ (n : ℤ) ∣ ((0 : ℕ) : ℤ) - (1 : ℕ) := by
    rw [show ((0 : ℕ) : ℤ) - (1 : ℕ) = -1 by norm_num, Int.dvd_neg]; exact not_dvd h3 (.inl rfl)
  have d2 : ¬ (n : ℤ) ∣ ((0 : ℕ) : ℤ) + (1 : ℕ) := not_dvd h3 (.inl rfl)
  have d3 : ¬ (n : ℤ) ∣ ((1 : ℕ) : ℤ) + (1 : ℕ) := not_dvd h3 (.inr rfl)
  rw [if_neg d1, if_neg d2, if_neg d3, if_pos (by simp)]
  field_simp; ring

theorem w1_const (h3 : 3 ≤ n) (k : ℝ) : w1 (fun _ : Fin n => k) = 0 := by
  have := w1_wave h3 k 0
  simpa using this

theorem zmean_wave (h3 : 3 ≤ n) (k : ℝ) (Y : ℂ) : zmean (fun i : Fin n => k + (Y * ru n i.val).re) = k := by
  have hn : n ≠ 0 := by omega
  have hn' : (n : ℝ) ≠ 0 := by exact_mod_cast hn
  have h2 := dft_wave hn Y 1 0
  have e2 : (fun i : Fin n => (Y * ru n ((1 : ℕ) * i.val : ℤ)).re) = fun i : Fin n => (Y * ru n i.val).re := by
    funext i; simp
  have d3 : ¬ (n : ℤ) ∣ ((1 : ℕ) : ℤ) + (0 : ℕ) := not_dvd h3 (.inl rfl)
  have d4 : ¬ (n : ℤ) ∣ ((1 : ℕ) : ℤ) - (0 : ℕ) := not_dvd h3 (.inl rfl)
  rw [e2, if_neg d3, if_neg d4, dft_eq] at h2
  have h3 : ∑ i : Fin n, (Y * ru n i.val).re = 0 := by
    have : ((∑ i : Fin n, (Y * ru n i.val).re : ℝ) : ℂ) = 0 := by
      rw [← mul_zero ((n : ℂ) / 2), ← add_zero (0 : ℂ), ← h2]
      push_cast
      refine Finset.sum_congr rfl fun i _ => ?_
      simp [ru_zero]
    exact_mod_cast this
  unfold zmean
  rw [Finset.sum_add_distrib, h3]
  simp; field_simp

end w1

section k2
variable {T : ℕ} (hT : 1 ≤ T)

/-- index of (m,n) = (1,1) -/
def k2 (hT : 1 ≤ T) : Fin (nspec T) :=
  ⟨(specIndex T).idxOf (1, 1), List.idxOf_lt_length_of_mem (mem_specIndex.mpr ⟨le_rfl, hT⟩)⟩

theorem get_k2 : (specIndex T).get (k2 hT) = (1, 1) := by
  unfold k2
  exact List.idxOf_get _

@[simp] theorem specN_k2 : specN (k2 hT) = 1 := congrArg Prod.snd (get_k2 hT)
@[simp] theorem specM_k2 : specM (k2 hT) = 1 := congrArg Prod.fst (get_k2 hT)

@[simp] theorem k2_ne_k0 : k2 hT ≠ k0 T := fun h => by
  have := congrArg specM h; simp at this
@[simp] theorem k2_ne_k1 : k2 hT ≠ k1 hT := fun h => by
  have := congrArg specM h; simp at this

/-- spectrum of degree at most 1 -/
noncomputable def mk3 (hT : 1 ≤ T) (a b : ℝ) (c : ℂ) : SpecField T :=
  fun k => if k = k0 T then (a : ℂ) else if k = k1 hT then (b : ℂ) else if k = k2 hT then c else 0

@[simp] theorem mk3_k0 (a b : ℝ) (c : ℂ) : mk3 hT a b c (k0 T) = a := by simp [mk3]
@[simp] theorem mk3_k1 (a b : ℝ) (c : ℂ) : mk3 hT a b c (k1 hT) = b := by simp [mk3, (k0_ne_k1 hT).symm]
@[simp] theorem mk3_k2 (a b : ℝ) (c : ℂ) : mk3 hT a b c (k2 hT) = c := by simp [mk3]

theorem mk3_add (a b a' b' : ℝ) (c c' : ℂ) : mk3 hT (a + a') (b + b') (c + c') = mk3 hT a b c + mk3 hT a' b' c' := by
  funext k; simp only [mk3, Pi.add_apply]; split_ifs <;> simp

theorem mk3_smul (r a b : ℝ) (c : ℂ) : mk3 hT (r * a) (r * b) (r * c) = r • mk3 hT a b c := by
  funext k; simp only [mk3, Pi.smul_apply]; split_ifs <;> simp

theorem phase_k2 (n d : ℕ) (s : SpecField T) : phaseShift n d s (k2 hT) = ru n d * s (k2 hT) := by
  unfold phaseShift ru
  congr 2
  rw [specM_k2]; push_cast; ring

theorem mk3_phase (n d : ℕ) (a b : ℝ) (c : ℂ) : phaseShift n d (mk3 hT a b c) = mk3 hT a b (ru n d * c) := by
  funext k
  by_cases h0 : k = k0 T
  · subst h0; rw [phase_k0]; simp
  by_cases h1 : k = k1 hT
  · subst h1; rw [phase_k1]; simp
  by_cases h2 : k = k2 hT
  · subst h2; rw [phase_k2]; simp
  simp [phaseShift, mk3, h0, h1, h2]

theorem mk3_degMul (r : ℕ → ℝ) (a b : ℝ) (c : ℂ) : degMul r (mk3 hT a b c) = mk3 hT (r 0 * a) (r 1 * b) (r 1 * c) := by
  funext k; simp only [degMul, mk3]
  split_ifs with h1 h2 h3
  · subst h1; simp
  · subst h2; simp
  · subst h3; simp
  · simp

theorem mk3_dropMean (a b : ℝ) (c : ℂ) : dropMean (mk3 hT a b c) = mk3 hT 0 b c := by
  funext k; simp only [dropMean, mk3]
  by_cases h1 : k = k0 T
  · subst h1; simp
  · have : specN k ≠ 0 := fun h => h1 (eq_k0_of_specN h)
    simp [h1, this]

theorem parity_k0 (s : SpecField T) : parity s (k0 T) = s (k0 T) := by simp [parity]
theorem parity_k1 (s : SpecField T) : parity s (k1 hT) = -s (k1 hT) := by simp [parity]
theorem parity_k2 (s : SpecField T) : parity s (k2 hT) = s (k2 hT) := by simp [parity]

theorem mk3_parity (a b : ℝ) (c : ℂ) : parity (mk3 hT a b c) = mk3 hT a (-b) c := by
  funext k
  by_cases h0 : k = k0 T
  · subst h0; rw [parity_k0]; simp
  by_cases h1 : k = k1 hT
  · subst h1; rw [parity_k1]; simp
  by_cases h2 : k = k2 hT
  · subst h2; rw [parity_k2]; simp
  simp [parity, mk3, h0, h1, h2]

theorem neg_mk3 (a b : ℝ) (c : ℂ) : mk3 hT (-a) (-b) (-c) = -mk3 hT a b c := by
  funext k; simp only [mk3, Pi.neg_apply]; split_ifs <;> simp

end k2

/-- The transform: fields `a + b sin φ + Re(c exp(iλ)) cos φ`. It looks at the rows next to the poles for the waves. -/
noncomputable def waveSph {nlat nlon T : ℕ} (φ : ℕ → ℝ) (r : ℝ) (hT : 1 ≤ T) (h3 : 3 ≤ nlat) : Spharm nlat nlon T where
  grdtospec f := mk3 hT ((zmean (f ⟨0, by omega⟩) + zmean (f ⟨nlat - 1, by omega⟩)) / 2)
    ((zmean (f ⟨0, by omega⟩) - zmean (f ⟨nlat - 1, by omega⟩)) / 2)
    ((w1 (f ⟨1, by omega⟩) + w1 (f ⟨nlat - 2, by omega⟩)) / 2 / cos (φ 1))
  spectogrd s := fun j i => (s (k0 T)).re + (s (k1 hT)).re * sin (φ j) + (s (k2 hT) * cos (φ j) * ru nlon i.val).re
  getuv a b := (fun j i => r / 2 * (a (k1 hT)).re * cos (φ j) +
      (r / 2 * (-a (k2 hT) * sin (φ j) - Complex.I * b (k2 hT)) * ru nlon i.val).re,
    fun j i => -(r / 2) * (b (k1 hT)).re * cos (φ j) +
      (r / 2 * (-Complex.I * a (k2 hT) + b (k2 hT) * sin (φ j)) * ru nlon i.val).re)
  getvrtdivspec u v := (mk3 hT 0 (2 / r * ((zmean (u ⟨1, by omega⟩) + zmean (u ⟨nlat - 2, by omega⟩)) / 2) / cos (φ 1))
      (2 / r * (sin (φ 1) * ((w1 (u ⟨1, by omega⟩) - w1 (u ⟨nlat - 2, by omega⟩)) / 2) +
        Complex.I * ((w1 (v ⟨1, by omega⟩) + w1 (v ⟨nlat - 2, by omega⟩)) / 2)) / cos (φ 1) ^ 2),
    mk3 hT 0 (-(2 / r) * ((zmean (v ⟨1, by omega⟩) + zmean (v ⟨nlat - 2, by omega⟩)) / 2) / cos (φ 1))
      (2 / r * (Complex.I * ((w1 (u ⟨1, by omega⟩) + w1 (u ⟨nlat - 2, by omega⟩)) / 2) -
        sin (φ 1) * ((w1 (v ⟨1, by omega⟩) - w1 (v ⟨nlat - 2, by omega⟩)) / 2)) / cos (φ 1) ^ 2))
  getgrad s := (fun _ i => (1 / r * (Complex.I * s (k2 hT)) * ru nlon i.val).re,
    fun j i => 1 / r * (s (k1 hT)).re * cos (φ j) + (1 / r * (-s (k2 hT) * sin (φ j)) * ru nlon i.val).re)

theorem ru_rotate {n : ℕ} (d : ℕ) (i : Fin n) : ru n ((i.val + d) % n : ℕ) = ru n d * ru n i.val := by
  rw [← ru_add]
  refine ru_congr (by have := i.pos; omega) ⟨-((i.val + d) / n : ℕ), ?_⟩
  have := Nat.mod_add_div (i.val + d) n
  have h : (((i.val + d) % n : ℕ) : ℤ) + n * ((i.val + d) / n : ℕ) = i.val + d := by exact_mod_cast this
  linarith

theorem phi_second {g : Grid ℝ} (hg : g.Valid) : g.phi (g.nlat - 2) = -g.phi 1 := by
  have h := Grid.phi_symm hg (j := 1) (by have := hg.nlat_ge; omega)
  rw [← h]; congr 1

theorem cos_phi_second {g : Grid ℝ} (hg : g.Valid) : cos (g.phi (g.nlat - 2)) = cos (g.phi 1) := by rw [phi_second hg, cos_neg]
theorem sin_phi_second {g : Grid ℝ} (hg : g.Valid) : sin (g.phi (g.nlat - 2)) = -sin (g.phi 1) := by rw [phi_second hg, sin_neg]

theorem waveSph_rt {g : Grid ℝ} (hg : g.Valid) (hT : 1 ≤ g.ntrunc) (s : g.Spc) :
    (waveSph g.phi g.rsphere hT hg.nlat_ge : g.Sph).grdtospec ((waveSph g.phi g.rsphere hT hg.nlat_ge : g.Sph).spectogrd s) =
      mk3 hT (s (k0 _)).re (s (k1 hT)).re (s (k2 hT)) := by
  have hn : 3 ≤ g.nlon := by have := hg.nlon_ge; omega
  have hs0 : sin (g.phi 0) = 1 := by rw [Grid.phi_zero hg]; exact sin_pi_div_two
  have hsl : sin (g.phi (g.nlat - 1)) = -1 := by rw [Grid.phi_last hg]; simp
  have hc : cos (g.phi 1) ≠ 0 := by
    have h1 := Grid.phi_strictAnti hg (show 0 < 1 by norm_num)
    have h2 := Grid.phi_strictAnti hg (show 1 < g.nlat - 1 by have := hg.nlat_ge; omega)
    rw [Grid.phi_zero hg] at h1
    rw [Grid.phi_last hg] at h2
    exact (cos_pos_of_mem_Ioo ⟨h2, h1⟩).ne'
  have hcc : ((cos (g.phi 1) : ℝ) : ℂ) ≠ 0 := by exact_mod_cast hc
  have hcs := cos_phi_second hg
  have hss := sin_phi_second hg
  simp only [waveSph, zmean_wave hn, w1_wave hn, hs0, hsl, hcs]
  congr 1
  · ring
  · ring
  · field_simp; ring

theorem waveSph_adm {g : Grid ℝ} (hg : g.Valid) (hT : 1 ≤ g.ntrunc) (a b : ℝ) (c : ℂ) :
    (waveSph g.phi g.rsphere hT hg.nlat_ge : g.Sph).Adm (mk3 hT a b c) := by
  unfold Spharm.Adm
  rw [waveSph_rt hg hT]
  simp

theorem waveSph_lawful {g : Grid ℝ} (hg : g.Valid) (hT : 1 ≤ g.ntrunc) :
    Spharm.Lawful (g := g) (waveSph g.phi g.rsphere hT hg.nlat_ge) := by
  have hn : 3 ≤ g.nlon := by have := hg.nlon_ge; omega
  have hn0 : 0 < g.nlon := by omega
  have hr : g.rsphere ≠ 0 := hg.rsphere_pos.ne'
  have hrc : (g.rsphere : ℂ) ≠ 0 := by exact_mod_cast hr
  have hs0 : sin (g.phi 0) = 1 := by rw [Grid.phi_zero hg]; exact sin_pi_div_two
  have hsl : sin (g.phi (g.nlat - 1)) = -1 := by rw [Grid.phi_last hg]; simp
  have hc0 : cos (g.phi 0) = 0 := by rw [Grid.phi_zero hg]; exact cos_pi_div_two
  have hcl : cos (g.phi (g.nlat - 1)) = 0 := by rw [Grid.phi_last hg]; simp
  have hc : cos (g.phi 1) ≠ 0 := by
    have h1 := Grid.phi_strictAnti hg (show 0 < 1 by norm_num)
    have h2 := Grid.phi_strictAnti hg (show 1 < g.nlat - 1 by have := hg.nlat_ge; omega)
    rw [Grid.phi_zero hg] at h1
    rw [Grid.phi_last hg] at h2
    exact (cos_pos_of_mem_Ioo ⟨h2, h1⟩).ne'
  have hcc : ((cos (g.phi 1) : ℝ) : ℂ) ≠ 0 := by exact_mod_cast hc
  have hcs := cos_phi_second hg
  have hss := sin_phi_second hg
  have hsc : ((sin (g.phi 1) : ℝ) : ℂ) ^ 2 = 1 - ((cos (g.phi 1) : ℝ) : ℂ) ^ 2 := by
    have := sin_sq (g.phi 1)
    exact_mod_cast this
  generalize hSe : (waveSph g.phi g.rsphere hT hg.nlat_ge : g.Sph) = S
  have hrt : ∀ s : g.Spc, S.grdtospec (S.spectogrd s) = mk3 hT (s (k0 _)).re (s (k1 hT)).re (s (k2 hT)) := by
    intro s
    rw [← hSe]
    exact waveSph_rt hg hT s
  have hadm : ∀ s : g.Spc, S.Adm s ↔ s = mk3 hT (s (k0 _)).re (s (k1 hT)).re (s (k2 hT)) := by
    intro s; unfold Spharm.Adm; rw [hrt]; exact eq_comm
  have hfc : ∀ j : Fin g.nlat, zmean (g.fcor2 j) = 2 * g.omega * sin (g.phi j) ∧ w1 (g.fcor2 j) = 0 := by
    intro j
    have : g.fcor2 j = fun _ => g.coriolis (g.lat j) := rfl
    rw [this, zmean_const hn0, w1_const hn]; exact ⟨rfl, rfl⟩
  rw [← hSe] at hrt hadm ⊢
  refine ⟨⟨?_, ?_, ?_, ?_, ?_, ?_, ?_, ?_, ?_, ?_⟩, ⟨?_, ?_, ?_⟩, ⟨?_, ?_, ?_⟩, ⟨?_, ?_, ?_, ?_⟩, ⟨?_, ?_, ?_, ?_, ?_, ?_, ?_⟩, ?_, ?_⟩
  · intro f f'
    simp only [waveSph, Pi.add_apply, zmean_add, w1_add]
    rw [← mk3_add]; congr 1 <;> ring
  · intro c f
    simp only [waveSph, Pi.smul_apply, zmean_smul, w1_smul]
    rw [← mk3_smul]; congr 1 <;> ring
  · intro s s'; funext j i; simp [waveSph]; ring
  · intro c s; funext j i; simp [waveSph]; ring
  · intro a a' b b'; ext j i <;> simp [waveSph] <;> ring
  · intro c a b; ext j i <;> simp [waveSph] <;> ring
  · intro u u' v v'
    simp only [waveSph, Pi.add_apply, zmean_add, w1_add, Prod.mk_add_mk]
    rw [← mk3_add, ← mk3_add]
    refine Prod.ext ?_ ?_ <;> (simp only; congr 1 <;> ring)
  · intro c u v
    simp only [waveSph, Pi.smul_apply, zmean_smul, w1_smul, Prod.smul_mk]
    rw [← mk3_smul, ← mk3_smul]
    refine Prod.ext ?_ ?_ <;> (simp only; congr 1 <;> ring)
  · intro s s'; ext j i <;> simp [waveSph] <;> ring
  · intro c s; ext j i <;> simp [waveSph] <;> ring
  · intro f; rw [hadm]; simp [waveSph]
  · intro s; rw [hrt]; simp [waveSph]
  · intro c s h
    rw [hadm] at h ⊢
    rw [h, mk3_degMul]; simp
  · intro s h
    refine ⟨(s (k0 _)).re, ?_⟩
    have h1 : s (k1 hT) = 0 := h _ (by simp)
    have h2 : s (k2 hT) = 0 := h _ (by simp)
    simp [waveSph, h1, h2]
  · intro c
    constructor
    · intro k hk
      have h1 : k ≠ k0 _ := by rintro rfl; simp at hk
      simp [waveSph, mk3, zmean_const hn0, w1_const hn, h1]
    · simp [waveSph, zmean_const hn0, w1_const hn]
  · intro s h
    have h1 : s (k1 hT) = 0 := h _ (by simp)
    have h2 : s (k2 hT) = 0 := h _ (by simp)
    ext j i <;> simp [waveSph, h1, h2]
  · intro a b ha hb
    have ha := (hadm a).mp ha.1
    have hb := (hadm b).mp hb.1
    rw [ha, hb, mk3_dropMean, mk3_dropMean]
    simp only [waveSph, mk3_k1, mk3_k2, Complex.ofReal_re, zmean_wave hn, w1_wave hn, hcs, hss, Complex.ofReal_neg]
    have hI := Complex.I_sq
    refine Prod.ext ?_ ?_ <;> simp only <;> congr 1
    · field_simp; ring
    · field_simp
      linear_combination (-2 * a (k2 hT)) * hsc - 2 * a (k2 hT) * hI
    · field_simp; ring
    · field_simp
      linear_combination (-2 * b (k2 hT)) * hsc - 2 * b (k2 hT) * hI
  · intro a b
    simp [waveSph, dropMean]
  · intro u v k hk
    rw [eq_k0_of_specN hk]; simp [waveSph]
  · intro u v k hk
    rw [eq_k0_of_specN hk]; simp [waveSph]
  · intro d f
    simp only [waveSph, zmean_rotate, w1_rotate, mk3_phase]
    congr 1; ring
  · intro d s
    funext j i
    simp only [waveSph, phase_k0, phase_k1, phase_k2, rotate, ru_rotate]
    congr 2; ring
  · intro d a b
    refine Prod.ext ?_ ?_ <;> funext j i <;> simp only [waveSph, phase_k1, phase_k2, rotate, ru_rotate] <;> congr 2 <;> ring
  · intro d u v
    simp only [waveSph, zmean_rotate, w1_rotate, mk3_phase]
    refine Prod.ext ?_ ?_ <;> (simp only; congr 1; ring)
  · intro d s
    refine Prod.ext ?_ ?_ <;> funext j i <;> simp only [waveSph, phase_k1, phase_k2, rotate, ru_rotate]
    · congr 1; ring
    · congr 2; ring
  · intro a h; funext j i; simp [waveSph, h (k2 hT) (by simp)]
  · intro u h
    have h1 : ∀ j, w1 (u j) = 0 := by
      intro j
      have : u j = fun _ => u j ⟨0, hn0⟩ := funext fun i => h _ _ _
      rw [this, w1_const hn]
    have h2 : w1 (0 : Fin g.nlon → ℝ) = 0 := w1_const hn 0
    have h3 : zmean (0 : Fin g.nlon → ℝ) = 0 := zmean_const hn0 0
    funext k; simp [waveSph, h1, h2, h3, mk3]
  · funext j i
    simp only [waveSph, (hfc _).1, (hfc _).2, mk3_k0, mk3_k1, mk3_k2, Complex.ofReal_re, hs0, hsl]
    change _ = 2 * g.omega * sin (g.phi j)
    simp
  · intro k hk
    simp only [waveSph, (hfc _).1, (hfc _).2, mk3, hs0, hsl]
    split_ifs with h1 h2
    · simp
    · subst h2; simp at hk
    · simp
    · rfl

theorem waveSph_mirror {g : Grid ℝ} (hg : g.Valid) (hT : 1 ≤ g.ntrunc) :
    Spharm.Mirrors (waveSph g.phi g.rsphere hT hg.nlat_ge : g.Sph) := by
  have h3 := hg.nlat_ge
  have hphi : ∀ j : Fin g.nlat, g.phi j.rev = -g.phi j := fun j => by
    rw [← Grid.phi_symm hg j.isLt]; congr 1; rw [Fin.val_rev]; omega
  have e0 : ∀ p, (⟨0, p⟩ : Fin g.nlat).rev = ⟨g.nlat - 1, by omega⟩ := fun p => by ext; simp
  have e1 : ∀ p, (⟨g.nlat - 1, p⟩ : Fin g.nlat).rev = ⟨0, by omega⟩ := fun p => by ext; simp; omega
  have e2 : ∀ p, (⟨1, p⟩ : Fin g.nlat).rev = ⟨g.nlat - 2, by omega⟩ := fun p => by ext; simp
  have e3 : ∀ p, (⟨g.nlat - 2, p⟩ : Fin g.nlat).rev = ⟨1, by omega⟩ := fun p => by ext; simp; omega
  have hw : ∀ f : Fin g.nlon → ℝ, w1 (-f) = -w1 f := fun f => by
    have := w1_smul (-1) f
    rw [neg_one_smul] at this; rw [this]; push_cast; ring
  have hz : ∀ f : Fin g.nlon → ℝ, zmean (-f) = -zmean f := fun f => by
    have := zmean_smul (-1) f
    rw [neg_one_smul] at this; rw [this]; ring
  refine ⟨?_, ?_, ?_, ?_, ?_⟩
  · intro f
    simp only [waveSph, mirror, e0, e1, e2, e3, mk3_parity]
    congr 1 <;> ring
  · intro s
    funext j i
    simp only [waveSph, mirror, parity_k0, parity_k1, parity_k2, hphi, sin_neg, cos_neg]
    simp
  · intro a b
    refine Prod.ext ?_ ?_ <;> funext j i <;>
      simp only [waveSph, mirror, Pi.neg_apply, parity_k0, parity_k1, parity_k2, hphi, sin_neg, cos_neg]
    · simp
    · simp; ring
  · intro u v
    simp only [waveSph, Pi.neg_apply, mirror, e0, e1, e2, e3, mk3_parity, hw, hz]
    refine Prod.ext ?_ ?_
    · simp only [← neg_mk3, mk3_parity]; congr 1 <;> ring
    · simp only; congr 1 <;> ring
  · intro s
    refine Prod.ext ?_ ?_ <;> funext j i <;>
      simp only [waveSph, mirror, Pi.neg_apply, parity_k0, parity_k1, parity_k2, hphi, sin_neg, cos_neg]
    simp; ring

/-- The transform with waves on the example grid. -/
noncomputable def wave30 : grid30.Sph := waveSph grid30.phi grid30.rsphere (by unfold grid30; norm_num) grid30_valid.nlat_ge

theorem wave30_lawful : Spharm.Lawful wave30 := waveSph_lawful grid30_valid _

theorem wave30_mirror : Spharm.Mirrors wave30 := waveSph_mirror grid30_valid _

end Barotropic
