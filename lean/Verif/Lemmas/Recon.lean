import Verif.Props.QuadError
import Verif.Spec.Rearrange
import Mathlib.Analysis.SpecialFunctions.Trigonometric.Bounds

/-!
# Quadrature along meridians as integrals of reconstructed functions of latitude
-/

namespace Barotropic
open Real Set MeasureTheory Grid

theorem latStep_pos {g : Grid ℝ} (hg : g.Valid) : 0 < latStep g := div_pos pi_pos hg.nlatm1_pos

theorem phi_step {g : Grid ℝ} (hg : g.Valid) (j : ℕ) : g.phi j - g.phi (j + 1) = latStep g := by
  rw [phi_eq hg, phi_eq hg]
  unfold latStep
  push_cast
  ring

/-- Weights by which a function of latitude is reconstructed at `φ` from its values at the latitudes of the grid -/
structure ReconAt (g : Grid ℝ) (φ : ℝ) where
  (j j' : Fin g.nlat)
  (t : ℝ)
  t0 : 0 ≤ t
  t1 : t ≤ 1
  near : (1 - t) * |φ - g.phi j| + t * |φ - g.phi j'| ≤ latStep g / 2

/-- reconstructed value -/
def ReconAt.value {g : Grid ℝ} {φ : ℝ} (R : ReconAt g φ) (y : Fin g.nlat → ℝ) : ℝ := (1 - R.t) * y R.j + R.t * y R.j'

theorem ReconAt.error {g : Grid ℝ} (hg : g.Valid) {φ : ℝ} (R : ReconAt g φ) (hφ : φ ∈ latitudes) {F : ℝ → ℝ} {L : ℝ}
    (hF : ∀ φ ∈ latitudes, ∀ φ' ∈ latitudes, |F φ - F φ'| ≤ L * |φ - φ'|) : |R.value (fun j => F (g.phi j)) - F φ| ≤ L * (latStep g / 2) := by
  have hL : 0 ≤ L := by
    have hp := one_le_pi_div_two
    have := (abs_nonneg _).trans (hF 0 ⟨by linarith, by linarith⟩ 1 ⟨by linarith, by linarith⟩)
    norm_num at this
    exact this
  have h1 := hF φ hφ _ (phi_mem hg R.j.2)
  have h2 := hF φ hφ _ (phi_mem hg R.j'.2)
  have a := R.t0
  have b := R.t1
  have e : R.value (fun j => F (g.phi j)) - F φ = -((1 - R.t) * (F φ - F (g.phi R.j)) + R.t * (F φ - F (g.phi R.j'))) := by
    unfold ReconAt.value; ring
  rw [e, abs_neg]
  refine (abs_add_le _ _).trans ?_
  rw [abs_mul, abs_mul, abs_of_nonneg a, abs_of_nonneg (by linarith : 0 ≤ 1 - R.t)]
  have c1 := mul_le_mul_of_nonneg_left h1 (by linarith : 0 ≤ 1 - R.t)
  have c2 := mul_le_mul_of_nonneg_left h2 a
  have c3 := mul_le_mul_of_nonneg_left R.near hL
  linarith

theorem ReconAt.sub_const {g : Grid ℝ} {φ : ℝ} (R : ReconAt g φ) (y : Fin g.nlat → ℝ) (c : ℝ) : R.value (fun j => y j - c) = R.value y - c := by
  unfold ReconAt.value; ring

theorem ReconAt.const {g : Grid ℝ} {φ : ℝ} (R : ReconAt g φ) (c : ℝ) : R.value (fun _ => c) = c := by
  unfold ReconAt.value; ring

private noncomputable def reconLinear {g : Grid ℝ} (hg : g.Valid) {φ : ℝ} {k : ℕ} (hk : k + 1 < g.nlat) (h0 : g.phi (k + 1) ≤ φ) (h1 : φ ≤ g.phi k) :
    ReconAt g φ where
  j := ⟨k, by omega⟩
  j' := ⟨k + 1, hk⟩
  t := (g.phi k - φ) / latStep g
  t0 := div_nonneg (by linarith) (latStep_pos hg).le
  t1 := by
    rw [div_le_one (latStep_pos hg), ← phi_step hg k]; linarith
  near := by
    have hs := latStep_pos hg
    have hst := phi_step hg k
    dsimp only
    rw [abs_sub_comm φ (g.phi k), abs_of_nonneg (by linarith : 0 ≤ g.phi k - φ), abs_of_nonneg (by linarith : 0 ≤ φ - g.phi (k + 1))]
    obtain ⟨t, ht⟩ : ∃ t, t = (g.phi k - φ) / latStep g := ⟨_, rfl⟩
    have e1 : g.phi k - φ = t * latStep g := by rw [ht]; field_simp
    have e2 : φ - g.phi (k + 1) = (1 - t) * latStep g := by linarith
    rw [← ht, e1, e2]
    nlinarith [sq_nonneg (2 * t - 1)]

/-- Both schemes integrate a reconstructed function over the part of the meridian where another reconstructed function is not negative. -/
theorem exists_recon {g : Grid ℝ} (hg : g.Valid) {m : String} (hm : KnownMethod m) :
    ∃ R : (φ : ℝ) → φ ∈ latitudes → ReconAt g φ, ∀ y z : Fin g.nlat → ℝ, ∃ G : ℝ → ℝ,
      (∀ (φ : ℝ) (hφ : φ ∈ latitudes), G φ = if 0 ≤ (R φ hφ).value z then (R φ hφ).value y * cos φ else 0) ∧
      IntervalIntegrable G volume (-(π / 2)) (π / 2) ∧ g.colQuad m y z = g.rsphere * ∫ φ in -(π / 2)..π / 2, G φ := by
  have hn := hg.nlat_ge
  rcases hm with rfl | rfl
  · -- the cell of a latitude
    have hex : ∀ φ ∈ latitudes, ∃ k < g.nlat, cellEdge g (k + 1) ≤ φ ∧ φ ≤ cellEdge g k := fun φ hφ =>
      exists_segment (x := cellEdge g) (by omega) (by unfold cellEdge; rw [if_pos rfl]; exact hφ.2)
        (by unfold cellEdge; rw [if_neg (by omega), if_pos rfl]; exact hφ.1)
    choose k hk hk1 hk2 using hex
    have hanti : ∀ i j, i ≤ j → j ≤ g.nlat → cellEdge g j ≤ cellEdge g i := by
      intro i j hij
      induction j, hij using Nat.le_induction with
      | base => exact fun _ => le_rfl
      | succ j hij ih => exact fun hj => ((cellEdge_cell hg (show j < g.nlat by omega)).1).trans (ih (by omega))
    have huniq : ∀ φ (hφ : φ ∈ latitudes) i, i < g.nlat → φ ∈ Ioo (cellEdge g (i + 1)) (cellEdge g i) → k φ hφ = i := by
      intro φ hφ i hi h
      rcases lt_trichotomy (k φ hφ) i with hlt | heq | hgt
      · exact absurd ((hanti _ _ hlt hi.le).trans (hk1 φ hφ)) (not_le.2 h.2)
      · exact heq
      · exact absurd ((hk2 φ hφ).trans (hanti _ _ hgt (hk φ hφ).le)) (not_le.2 h.1)
    have hdist : ∀ φ (hφ : φ ∈ latitudes), |φ - g.phi (k φ hφ)| ≤ latStep g / 2 := by
      intro φ hφ
      have hs := latStep_pos hg
      have hm : ∀ k, g.midPhi k = g.phi k - latStep g / 2 := by
        intro k
        unfold midPhi
        have := phi_step hg k
        linarith
      have hm' : ∀ k, g.midPhi k = g.phi (k + 1) + latStep g / 2 := by
        intro k
        unfold midPhi
        have := phi_step hg k
        linarith
      have h1 := hk1 φ hφ
      have h2 := hk2 φ hφ
      have h0 := hk φ hφ
      generalize k φ hφ = i at h1 h2 h0 ⊢
      unfold cellEdge at h1 h2
      rw [if_neg (show i + 1 ≠ 0 by omega), Nat.add_sub_cancel, hm] at h1
      have hp := phi_mem hg h0
      rw [abs_le]
      constructor
      · split_ifs at h1 with hl
        · have : g.phi i = -(π / 2) := by rw [show i = g.nlat - 1 by omega]; exact phi_last hg
          linarith
        · linarith
      · rw [if_neg (show i ≠ g.nlat by omega)] at h2
        split_ifs at h2 with hf
        · have : g.phi i = π / 2 := by rw [hf]; exact phi_zero hg
          linarith
        · rw [hm', show i - 1 + 1 = i by omega] at h2
          linarith
    refine ⟨fun φ hφ => ⟨⟨k φ hφ, hk φ hφ⟩, ⟨k φ hφ, hk φ hφ⟩, 0, le_rfl, zero_le_one, by simpa using hdist φ hφ⟩, fun y z => ?_⟩
    classical
    refine ⟨fun φ => if hφ : φ ∈ latitudes then (if 0 ≤ z ⟨k φ hφ, hk φ hφ⟩ then y ⟨k φ hφ, hk φ hφ⟩ * cos φ else 0) else 0, ?_, ?_⟩
    · intro φ hφ
      dsimp only
      rw [dif_pos hφ]
      simp [ReconAt.value]
    set G : ℝ → ℝ := fun φ => if hφ : φ ∈ latitudes then (if 0 ≤ z ⟨k φ hφ, hk φ hφ⟩ then y ⟨k φ hφ, hk φ hφ⟩ * cos φ else 0) else 0 with hG
    have hcell : ∀ i (hi : i < g.nlat), EqOn (fun φ => (if 0 ≤ z ⟨i, hi⟩ then y ⟨i, hi⟩ else 0) * cos φ) G
        (Ioo (cellEdge g (i + 1)) (cellEdge g i)) := by
      intro i hi φ h
      obtain ⟨c1, c2, c3, -⟩ := cellEdge_cell hg hi
      have hφ : φ ∈ latitudes := ⟨c2.trans h.1.le, h.2.le.trans c3⟩
      have := huniq φ hφ i hi h
      subst this
      rw [hG]
      dsimp only
      rw [dif_pos hφ, ite_mul, zero_mul]
    have hint : ∀ i < g.nlat, IntervalIntegrable G volume (cellEdge g i) (cellEdge g (i + 1)) := by
      intro i hi
      obtain ⟨c1, -⟩ := cellEdge_cell hg hi
      refine (IntervalIntegrable.congr_uIoo (f := fun φ => (if 0 ≤ z ⟨i, hi⟩ then y ⟨i, hi⟩ else 0) * cos φ) ?_ ?_).symm
      · exact (continuous_const.mul continuous_cos).intervalIntegrable _ _
      · rw [uIoo_of_le c1]
        exact hcell i hi
    have e0 : cellEdge g 0 = π / 2 := if_pos rfl
    have e1 : cellEdge g g.nlat = -(π / 2) := by unfold cellEdge; rw [if_neg (by omega), if_pos rfl]
    have htot := IntervalIntegrable.trans_iterate hint
    rw [e0, e1] at htot
    refine ⟨htot.symm, ?_⟩
    have hsum := intervalIntegral.sum_integral_adjacent_intervals hint
    rw [e0, e1] at hsum
    rw [intervalIntegral.integral_symm, ← hsum, ← Finset.sum_neg_distrib]
    unfold colQuad
    rw [if_pos rfl]
    unfold boxcountCol
    have hr := hg.rsphere_pos
    have hd := dlam_pos hg
    rw [div_div, div_eq_iff (by positivity), Finset.mul_sum, Finset.sum_mul, ← Fin.sum_univ_eq_sum_range
      (fun i => g.rsphere * -(∫ φ in cellEdge g i..cellEdge g (i + 1), G φ) * (g.rsphere * g.dlam))]
    refine Finset.sum_congr rfl fun j _ => ?_
    obtain ⟨c1, -⟩ := cellEdge_cell hg j.2
    rw [← intervalIntegral.integral_symm, ← intervalIntegral.integral_congr_Ioo_of_le c1 (hcell j j.2), intervalIntegral.integral_const_mul, integral_cos,
      cellEdge_area hg j.2]
    split_ifs
    · ring
    · ring
  · have hex : ∀ φ ∈ latitudes, ∃ k < g.nlat - 1, g.phi (k + 1) ≤ φ ∧ φ ≤ g.phi k := fun φ hφ =>
      exists_segment (x := g.phi) (by omega) (by rw [phi_zero hg]; exact hφ.2) (by rw [phi_last hg]; exact hφ.1)
    choose k hk hk1 hk2 using hex
    refine ⟨fun φ hφ => reconLinear hg (k := k φ hφ) (by have := hk φ hφ; omega) (hk1 φ hφ) (hk2 φ hφ), fun y z => ?_⟩
    obtain ⟨Y, hY⟩ := interp_exists hg y
    obtain ⟨Z, hZ⟩ := interp_exists hg z
    have hv : ∀ (y : Fin g.nlat → ℝ) (Y : ℝ → ℝ), IsPLInterp g.phi y Y → ∀ φ (hφ : φ ∈ latitudes),
        Y φ = (reconLinear hg (k := k φ hφ) (by have := hk φ hφ; omega) (hk1 φ hφ) (hk2 φ hφ)).value y := by
      intro y Y hY φ hφ
      have hs := latStep_pos hg
      have h0 := hk φ hφ
      rw [interp_aff hY (show k φ hφ + 1 < g.nlat by omega) (phi_seg hg _ (hk φ hφ)) ⟨hk1 φ hφ, hk2 φ hφ⟩]
      unfold aff ReconAt.value reconLinear
      dsimp only
      rw [show g.phi (k φ hφ + 1) - g.phi (k φ hφ) = -latStep g by rw [← phi_step hg (k φ hφ)]; ring]
      field_simp
      ring
    refine ⟨fun φ => if 0 ≤ Z φ then Y φ * cos φ else 0, fun φ hφ => ?_, ?_⟩
    · dsimp only
      rw [hv y Y hY φ hφ, hv z Z hZ φ hφ]
    · have hw : 1 ≤ g.nlon := by have := hg.nlon_ge; omega
      obtain ⟨out, h1, h2⟩ := C15_exact_integral g hg 1 hw (fun j _ => y j) (fun j _ => z j) (fun _ => Y) (fun _ => Z) (fun _ => hY) fun _ => hZ
      have h0 := (quadMeridional_ok (.inr ⟨rfl, hw⟩) (fun j (_ : Fin 1) => y j) (some fun j _ => z j)).symm.trans h1
      have h1 : (fun i : Fin 1 => g.colQuad "sptrapz" y z) = out := by
        injection h0 with h1
        injection h1
      exact ⟨(h2 0).1, (congrFun h1 0).trans (h2 0).2⟩

end Barotropic
