import Verif.Lemmas.SpecIndex
import Verif.Lemmas.GridReal
import Verif.Lemmas.Example

/-!
# A concrete transform that satisfies all spherical harmonic laws

It keeps the two modes `1` and `sin φ` of the zonal mean. Used only to show that the hypotheses `Spharm.Lawful` are
consistent, for every valid grid with `ntrunc ≥ 1`.
-/

namespace Barotropic
open Real

/-- mean over a latitude circle -/
noncomputable def zmean {n : ℕ} (f : Fin n → ℝ) : ℝ := (∑ i, f i) / n

theorem zmean_add {n : ℕ} (f f' : Fin n → ℝ) : zmean (f + f') = zmean f + zmean f' := by
  unfold zmean; simp [Finset.sum_add_distrib, add_div]

theorem zmean_smul {n : ℕ} (c : ℝ) (f : Fin n → ℝ) : zmean (c • f) = c * zmean f := by
  unfold zmean; simp [← Finset.mul_sum, mul_div_assoc]

theorem zmean_const {n : ℕ} (hn : 0 < n) (c : ℝ) : zmean (fun _ : Fin n => c) = c := by
  unfold zmean
  have : (n : ℝ) ≠ 0 := by positivity
  simp; field_simp

theorem rotate_perm {nlon : ℕ} (d : ℕ) :
    Function.Bijective fun i : Fin nlon => (⟨(i.val + d) % nlon, Nat.mod_lt _ i.pos⟩ : Fin nlon) := by
  rw [Fintype.bijective_iff_injective_and_card]
  refine ⟨?_, rfl⟩
  intro a b h
  simp only [Fin.mk.injEq] at h
  have := Nat.ModEq.add_right_cancel' d h
  exact Fin.ext (Nat.ModEq.eq_of_lt_of_lt this a.isLt b.isLt)

theorem zmean_rotate {nlat nlon : ℕ} (d : ℕ) (f : GridField nlat nlon) (j : Fin nlat) :
    zmean (rotate d f j) = zmean (f j) := by
  unfold zmean rotate
  congr 1
  exact (rotate_perm d).sum_comp (fun i => f j i)

/-- two-mode spectrum -/
noncomputable def mk2 {T : ℕ} (hT : 1 ≤ T) (a b : ℝ) : SpecField T :=
  fun k => if k = k0 T then (a : ℂ) else if k = k1 hT then (b : ℂ) else 0

@[simp] theorem mk2_k0 {T : ℕ} (hT : 1 ≤ T) (a b : ℝ) : mk2 hT a b (k0 T) = a := by simp [mk2]
@[simp] theorem mk2_k1 {T : ℕ} (hT : 1 ≤ T) (a b : ℝ) : mk2 hT a b (k1 hT) = b := by
  simp [mk2, (k0_ne_k1 hT).symm]

theorem mk2_add {T : ℕ} (hT : 1 ≤ T) (a b a' b' : ℝ) : mk2 hT (a + a') (b + b') = mk2 hT a b + mk2 hT a' b' := by
  funext k; simp only [mk2, Pi.add_apply]; split_ifs <;> simp

theorem mk2_smul {T : ℕ} (hT : 1 ≤ T) (c a b : ℝ) : mk2 hT (c * a) (c * b) = c • mk2 hT a b := by
  funext k; simp only [mk2, Pi.smul_apply]; split_ifs <;> simp

theorem mk2_phase {T : ℕ} (hT : 1 ≤ T) (n d : ℕ) (a b : ℝ) : phaseShift n d (mk2 hT a b) = mk2 hT a b := by
  funext k; simp only [phaseShift, mk2]
  split_ifs with h1 h2
  · subst h1; simp
  · subst h2; simp
  · simp

theorem phase_k0 {T : ℕ} (n d : ℕ) (s : SpecField T) : phaseShift n d s (k0 T) = s (k0 T) := by
  simp [phaseShift]

theorem phase_k1 {T : ℕ} (hT : 1 ≤ T) (n d : ℕ) (s : SpecField T) : phaseShift n d s (k1 hT) = s (k1 hT) := by
  simp [phaseShift]

theorem mk2_degMul {T : ℕ} (hT : 1 ≤ T) (c : ℕ → ℝ) (a b : ℝ) :
    degMul c (mk2 hT a b) = mk2 hT (c 0 * a) (c 1 * b) := by
  funext k; simp only [degMul, mk2]
  split_ifs with h1 h2
  · subst h1; simp
  · subst h2; simp
  · simp

theorem mk2_dropMean {T : ℕ} (hT : 1 ≤ T) (a b : ℝ) : dropMean (mk2 hT a b) = mk2 hT 0 b := by
  funext k; simp only [dropMean, mk2]
  by_cases h1 : k = k0 T
  · subst h1; simp
  · have : specN k ≠ 0 := fun h => h1 (eq_k0_of_specN h)
    simp [h1, this]

/-- The concrete transform. -/
noncomputable def zonalSph {nlat nlon T : ℕ} (φ : ℕ → ℝ) (r : ℝ) (hT : 1 ≤ T) (h3 : 3 ≤ nlat) :
    Spharm nlat nlon T where
  grdtospec f := mk2 hT ((zmean (f ⟨0, by omega⟩) + zmean (f ⟨nlat - 1, by omega⟩)) / 2)
    ((zmean (f ⟨0, by omega⟩) - zmean (f ⟨nlat - 1, by omega⟩)) / 2)
  spectogrd s := fun j _ => (s (k0 T)).re + (s (k1 hT)).re * sin (φ j)
  getuv a b := (fun j _ => r / 2 * (a (k1 hT)).re * cos (φ j), fun j _ => -(r / 2) * (b (k1 hT)).re * cos (φ j))
  getvrtdivspec u v := (mk2 hT 0 (2 / r * zmean (u ⟨1, by omega⟩) / cos (φ 1)),
    mk2 hT 0 (-(2 / r) * zmean (v ⟨1, by omega⟩) / cos (φ 1)))
  getgrad s := (fun _ _ => 0, fun j _ => 1 / r * (s (k1 hT)).re * cos (φ j))

theorem mk2_of_modes {T : ℕ} (hT : 1 ≤ T) {s : SpecField T} (h : ∀ k, k ≠ k0 T → k ≠ k1 hT → s k = 0)
    (h0 : (s (k0 T)).im = 0) (h1 : (s (k1 hT)).im = 0) : s = mk2 hT (s (k0 T)).re (s (k1 hT)).re := by
  funext k
  by_cases e0 : k = k0 T
  · subst e0; rw [mk2_k0]; exact Complex.ext (by simp) (by simp [h0])
  · by_cases e1 : k = k1 hT
    · subst e1; rw [mk2_k1]; exact Complex.ext (by simp) (by simp [h1])
    · rw [h k e0 e1]; simp [mk2, e0, e1]

theorem zonalSph_lawful {g : Grid ℝ} (hg : g.Valid) (hT : 1 ≤ g.ntrunc) :
    Spharm.Lawful (g := g) (zonalSph g.phi g.rsphere hT hg.nlat_ge) := by
  have hn : 0 < g.nlon := by have := hg.nlon_ge; omega
  have hr : g.rsphere ≠ 0 := hg.rsphere_pos.ne'
  have hs0 : sin (g.phi 0) = 1 := by rw [Grid.phi_zero hg]; exact sin_pi_div_two
  have hsl : sin (g.phi (g.nlat - 1)) = -1 := by rw [Grid.phi_last hg]; simp
  have hc : cos (g.phi 1) ≠ 0 := by
    have h1 := Grid.phi_strictAnti hg (show 0 < 1 by norm_num)
    have h2 := Grid.phi_strictAnti hg (show 1 < g.nlat - 1 by have := hg.nlat_ge; omega)
    rw [Grid.phi_zero hg] at h1
    rw [Grid.phi_last hg] at h2
    exact (cos_pos_of_mem_Ioo ⟨h2, h1⟩).ne'
  have hrt : ∀ s : g.Spc, (zonalSph g.phi g.rsphere hT hg.nlat_ge : g.Sph).grdtospec
      ((zonalSph g.phi g.rsphere hT hg.nlat_ge : g.Sph).spectogrd s) = mk2 hT (s (k0 _)).re (s (k1 hT)).re := by
    intro s
    simp only [zonalSph, zmean_const hn, hs0, hsl]
    congr 1 <;> ring
  have hadm : ∀ s : g.Spc, (zonalSph g.phi g.rsphere hT hg.nlat_ge : g.Sph).Adm s ↔
      s = mk2 hT (s (k0 _)).re (s (k1 hT)).re := by
    intro s; unfold Spharm.Adm; rw [hrt]; exact eq_comm
  have hfc : ∀ j : Fin g.nlat, zmean (g.fcor2 j) = 2 * g.omega * sin (g.phi j) := by
    intro j
    have : g.fcor2 j = fun _ => g.coriolis (g.lat j) := rfl
    rw [this, zmean_const hn]; rfl
  refine ⟨⟨?_, ?_, ?_, ?_, ?_, ?_, ?_, ?_, ?_, ?_⟩, ⟨?_, ?_, ?_⟩, ⟨?_, ?_, ?_⟩, ⟨?_, ?_, ?_, ?_⟩, ⟨?_, ?_, ?_, ?_, ?_, ?_, ?_⟩, ?_, ?_⟩
  · intro f f'
    simp only [zonalSph, Pi.add_apply, zmean_add]
    rw [← mk2_add]; congr 1 <;> ring
  · intro c f
    simp only [zonalSph, Pi.smul_apply, zmean_smul]
    rw [← mk2_smul]; congr 1 <;> ring
  · intro s s'; funext j i; simp [zonalSph]; ring
  · intro c s; funext j i; simp [zonalSph]; ring
  · intro a a' b b'; ext j i <;> simp [zonalSph] <;> ring
  · intro c a b; ext j i <;> simp [zonalSph] <;> ring
  · intro u u' v v'
    simp only [zonalSph, Pi.add_apply, zmean_add, Prod.mk_add_mk]
    rw [← mk2_add, ← mk2_add]
    refine Prod.ext ?_ ?_ <;> (simp only; congr 1 <;> ring)
  · intro c u v
    simp only [zonalSph, Pi.smul_apply, zmean_smul, Prod.smul_mk]
    rw [← mk2_smul, ← mk2_smul]
    refine Prod.ext ?_ ?_ <;> (simp only; congr 1 <;> ring)
  · intro s s'; ext j i <;> simp [zonalSph]; ring
  · intro c s; ext j i <;> simp [zonalSph]; ring
  · intro f; rw [hadm]; simp [zonalSph]
  · intro s; rw [hrt]; simp [zonalSph]
  · intro c s h
    rw [hadm] at h ⊢
    rw [h, mk2_degMul]; simp
  · intro s h
    refine ⟨(s (k0 _)).re, ?_⟩
    have : s (k1 hT) = 0 := h _ (by simp)
    simp [zonalSph, this]
  · intro c
    constructor
    · intro k hk
      have h1 : k ≠ k0 _ := by rintro rfl; simp at hk
      simp [zonalSph, mk2, zmean_const hn, h1]
    · simp [zonalSph, zmean_const hn]
  · intro s h
    have : s (k1 hT) = 0 := h _ (by simp)
    ext j i <;> simp [zonalSph, this]
  · intro a b ha hb
    have ha := (hadm a).mp ha.1
    have hb := (hadm b).mp hb.1
    rw [ha, hb, mk2_dropMean, mk2_dropMean]
    simp only [zonalSph, mk2_k1, Complex.ofReal_re]
    refine Prod.ext ?_ ?_ <;> simp only <;> congr 1 <;> (rw [zmean_const hn]; field_simp)
  · intro a b
    simp [zonalSph, dropMean]
  · intro u v k hk
    rw [eq_k0_of_specN hk]; simp [zonalSph]
  · intro u v k hk
    rw [eq_k0_of_specN hk]; simp [zonalSph]
  · intro d f; simp only [zonalSph, zmean_rotate, mk2_phase]
  · intro d s; simp only [zonalSph, phase_k0, phase_k1]; rfl
  · intro d a b; simp only [zonalSph, phase_k1]; rfl
  · intro d u v; simp only [zonalSph, zmean_rotate, mk2_phase]
  · intro d s; simp only [zonalSph, phase_k1]; rfl
  · intro a h; funext j i; simp [zonalSph]
  · intro u h
    funext k; simp [zonalSph, zmean, mk2]
  · funext j i
    simp only [zonalSph, hfc, mk2_k0, mk2_k1, Complex.ofReal_re, hs0, hsl]
    change _ = 2 * g.omega * sin (g.phi j)
    ring
  · intro k hk
    simp only [zonalSph, hfc, mk2, hs0, hsl]
    split_ifs with h1 h2
    · simp
    · subst h2; simp at hk
    · rfl

/-- The transform of the example grid. -/
noncomputable def sph30 : grid30.Sph := zonalSph grid30.phi grid30.rsphere (by unfold grid30; norm_num) grid30_valid.nlat_ge

theorem sph30_lawful : Spharm.Lawful sph30 := zonalSph_lawful grid30_valid _

end Barotropic
