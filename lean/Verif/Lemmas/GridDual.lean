import Verif.Lemmas.Legendre
import Verif.Lemmas.GridReal

/-!
# Functionals on columns of the grid that pick out the coefficient of one degree
-/

namespace Barotropic
open Polynomial

variable {g : Grid ℝ}

theorem Grid.phi_rev (hg : g.Valid) (j : Fin g.nlat) : g.phi j.rev = -g.phi j := by
  rw [← Grid.phi_symm hg j.isLt]; congr 1; rw [Fin.val_rev]; omega

theorem Grid.sin_phi_injective (hg : g.Valid) : Function.Injective fun j : Fin g.nlat => Real.sin (g.phi j) := by
  intro a b h
  have ha := Grid.phi_mem hg a.isLt
  have hb := Grid.phi_mem hg b.isLt
  exact Fin.ext ((Grid.phi_strictAnti hg).injective (Real.injOn_sin ⟨ha.1, ha.2⟩ ⟨hb.1, hb.2⟩ h))

theorem Grid.cos_phi_ne (hg : g.Valid) {j : ℕ} (h0 : 0 < j) (h1 : j + 1 < g.nlat) : Real.cos (g.phi j) ≠ 0 := by
  have h2 := Grid.phi_strictAnti hg h0
  have h3 := Grid.phi_strictAnti hg (show j < g.nlat - 1 by omega)
  rw [Grid.phi_zero hg] at h2
  rw [Grid.phi_last hg] at h3
  exact (Real.cos_pos_of_mem_Ioo ⟨h3, h2⟩).ne'

theorem one_add_sin_ne {x : ℝ} (h : Real.cos x ≠ 0) : 1 + Real.sin x ≠ 0 := by
  intro h1
  have h2 := Real.sin_sq_add_cos_sq x
  have : Real.sin x = -1 := by linarith
  rw [this] at h2
  exact h (pow_eq_zero_iff two_ne_zero |>.mp (by linarith))

theorem card_interior {M : ℕ} (w : Fin M → ℝ) (hw : ∀ j : Fin M, 0 < j.val → j.val + 1 < M → w j ≠ 0) (hM : 2 ≤ M) :
    M - 2 ≤ (Finset.univ.filter fun j => w j ≠ 0).card := by
  classical
  have : Finset.univ \ {(⟨0, by omega⟩ : Fin M), ⟨M - 1, by omega⟩} ⊆ Finset.univ.filter fun j => w j ≠ 0 := by
    intro j hj
    simp only [Finset.mem_sdiff, Finset.mem_univ, true_and, Finset.mem_insert, Finset.mem_singleton, not_or, Fin.ext_iff] at hj
    have := j.isLt
    exact Finset.mem_filter.mpr ⟨Finset.mem_univ _, hw j (by omega) (by omega)⟩
  refine le_trans ?_ (Finset.card_le_card this)
  rw [Finset.card_sdiff_of_subset (Finset.subset_univ _)]
  have := Finset.card_le_two (a := (⟨0, by omega⟩ : Fin M)) (b := ⟨M - 1, by omega⟩)
  simp only [Finset.card_univ, Fintype.card_fin]
  omega

/-- A functional can be replaced by one of given parity. -/
theorem sum_rev {M : ℕ} (f : Fin M → ℝ) : ∑ j : Fin M, f j.rev = ∑ j, f j := Equiv.sum_comp Fin.revPerm f

theorem neg_one_pow_mul_self (a : ℕ) : ((-1 : ℝ) ^ a) * (-1) ^ a = 1 := by
  rw [← pow_add, ← two_mul, pow_mul]; simp

/-- Functionals for associated Legendre functions -/
theorem scalar_dual (hg : g.Valid) {B : ℕ} (hT : B + 2 ≤ g.nlat) (m : ℕ) :
    ∃ D : ℕ → Fin g.nlat → ℝ, (∀ n n', m ≤ n → n ≤ B → m ≤ n' → n' ≤ B →
        ∑ j, D n j * legendre n' m (g.phi j) = if n = n' then 1 else 0) ∧
      ∀ n j, D n j.rev = (-1) ^ (n + m) * D n j := by
  have hlat := hg.nlat_ge
  obtain ⟨D, hD⟩ : ∃ D : ℕ → Fin g.nlat → ℝ, ∀ n n', m ≤ n → n ≤ B → m ≤ n' → n' ≤ B →
        ∑ j, D n j * legendre n' m (g.phi j) = if n = n' then 1 else 0 := by
    have hcard : B + 1 - m ≤ (Finset.univ.filter fun j : Fin g.nlat => Real.cos (g.phi j) ^ m ≠ 0).card := by
      rcases Nat.eq_zero_or_pos m with rfl | hm
      · simp; omega
      · refine le_trans ?_ (card_interior _ (fun j h0 h1 => pow_ne_zero m (Grid.cos_phi_ne hg h0 h1)) (by omega))
        omega
    obtain ⟨D, hD⟩ := exists_dual (n := B + 1 - m) (fun i => rodrigues (m + i) m)
      (fun i => by rw [rodrigues_degree (by omega)]; simp) (fun j : Fin g.nlat => Real.sin (g.phi j))
      (fun j => Real.cos (g.phi j) ^ m) (Grid.sin_phi_injective hg) hcard
    refine ⟨fun n => D (n - m), fun n n' h1 h2 h3 h4 => ?_⟩
    have := hD (n - m) (by omega) (n' - m) (by omega)
    simp only [show m + (n' - m) = n' by omega] at this
    exact this.trans (if_congr (by omega) rfl rfl)
  refine ⟨fun n j => (D n j + (-1) ^ (n + m) * D n j.rev) / 2, fun n n' h1 h2 h3 h4 => ?_, fun n j => ?_⟩
  · have e : ∑ j : Fin g.nlat, D n j.rev * legendre n' m (g.phi j) = (-1) ^ (n' + m) * if n = n' then 1 else 0 := by
      rw [← hD n n' h1 h2 h3 h4, Finset.mul_sum, ← sum_rev]
      refine Finset.sum_congr rfl fun j _ => ?_
      rw [Fin.rev_rev, Grid.phi_rev hg, legendre_neg]
      ring
    have : ∑ j : Fin g.nlat, (D n j + (-1) ^ (n + m) * D n j.rev) / 2 * legendre n' m (g.phi j) =
        (∑ j, D n j * legendre n' m (g.phi j) + (-1) ^ (n + m) * ∑ j : Fin g.nlat, D n j.rev * legendre n' m (g.phi j)) / 2 := by
      rw [Finset.mul_sum, ← Finset.sum_add_distrib, Finset.sum_div]
      exact Finset.sum_congr rfl fun j _ => by ring
    rw [this, e, hD n n' h1 h2 h3 h4]
    split_ifs with h
    · subst h
      have := neg_one_pow_mul_self (n + m)
      linarith
    · ring
  · have := neg_one_pow_mul_self (n + m)
    simp only [Fin.rev_rev]
    linear_combination (-(D n j.rev) / 2) * this

/-- Functionals for derivatives of associated Legendre functions -/
theorem vector_dual (hg : g.Valid) {B : ℕ} (hT : B + 2 ≤ g.nlat) (m : ℕ) :
    ∃ D : ℕ → Fin g.nlat → ℝ, (∀ n n', m ≤ n → 1 ≤ n → n ≤ B → m ≤ n' → 1 ≤ n' → n' ≤ B →
        ∑ j, D n j * vecLegendre n' m (g.phi j) = if n = n' then 1 else 0) ∧
      (m = 0 → ∀ n j, D n j.rev = -((-1) ^ n * D n j)) := by
  have hlat := hg.nlat_ge
  rcases Nat.eq_zero_or_pos m with rfl | hm
  · obtain ⟨D, hD⟩ : ∃ D : ℕ → Fin g.nlat → ℝ, ∀ n n', 1 ≤ n → n ≤ B → 1 ≤ n' → n' ≤ B →
        ∑ j, D n j * vecLegendre n' 0 (g.phi j) = if n = n' then 1 else 0 := by
      have hcard : B ≤ (Finset.univ.filter fun j : Fin g.nlat => -Real.cos (g.phi j) ≠ 0).card := by
        refine le_trans ?_ (card_interior _ (fun j h0 h1 => neg_ne_zero.mpr (Grid.cos_phi_ne hg h0 h1)) (by omega))
        omega
      obtain ⟨D, hD⟩ := exists_dual (n := B) (fun i => rodrigues (1 + i) 1)
        (fun i => by rw [rodrigues_degree (by omega)]; simp) (fun j : Fin g.nlat => Real.sin (g.phi j))
        (fun j => -Real.cos (g.phi j)) (Grid.sin_phi_injective hg) hcard
      refine ⟨fun n => D (n - 1), fun n n' h1 h2 h3 h4 => ?_⟩
      have := hD (n - 1) (by omega) (n' - 1) (by omega)
      simp only [show 1 + (n' - 1) = n' by omega] at this
      simp only [vecLegendre_zonal]
      exact this.trans (if_congr (by omega) rfl rfl)
    refine ⟨fun n j => (D n j - (-1) ^ n * D n j.rev) / 2, fun n n' _ h1 h2 _ h3 h4 => ?_, fun _ n j => ?_⟩
    · have e : ∑ j : Fin g.nlat, D n j.rev * vecLegendre n' 0 (g.phi j) = -((-1) ^ n' * if n = n' then 1 else 0) := by
        rw [← hD n n' h1 h2 h3 h4, Finset.mul_sum, ← sum_rev, ← Finset.sum_neg_distrib]
        refine Finset.sum_congr rfl fun j _ => ?_
        rw [Fin.rev_rev, Grid.phi_rev hg, vecLegendre_zonal, vecLegendre_zonal, Real.cos_neg, Real.sin_neg, rodrigues_neg]
        ring
      have : ∑ j : Fin g.nlat, (D n j - (-1) ^ n * D n j.rev) / 2 * vecLegendre n' 0 (g.phi j) =
          (∑ j, D n j * vecLegendre n' 0 (g.phi j) - (-1) ^ n * ∑ j : Fin g.nlat, D n j.rev * vecLegendre n' 0 (g.phi j)) / 2 := by
        rw [Finset.mul_sum, ← Finset.sum_sub_distrib, Finset.sum_div]
        exact Finset.sum_congr rfl fun j _ => by ring
      rw [this, e, hD n n' h1 h2 h3 h4]
      split_ifs with h
      · subst h
        have := neg_one_pow_mul_self n
        linarith
      · ring
    · have := neg_one_pow_mul_self n
      simp only [Fin.rev_rev]
      linear_combination (-(D n j.rev) / 2) * this
  · have hw : ∀ j : Fin g.nlat, 0 < j.val → j.val + 1 < g.nlat →
        Real.cos (g.phi j) ^ (m - 1) * (1 + Real.sin (g.phi j)) ≠ 0 := fun j h0 h1 =>
      mul_ne_zero (pow_ne_zero _ (Grid.cos_phi_ne hg h0 h1)) (one_add_sin_ne (Grid.cos_phi_ne hg h0 h1))
    have hcard : B + 1 - m ≤
        (Finset.univ.filter fun j : Fin g.nlat => Real.cos (g.phi j) ^ (m - 1) * (1 + Real.sin (g.phi j)) ≠ 0).card := by
      refine le_trans ?_ (card_interior _ hw (by omega))
      omega
    obtain ⟨D, hD⟩ := exists_dual (n := B + 1 - m)
      (fun i => C (m : ℝ) * rodrigues (m + i) m - (1 - X) * rodrigues (m + i) (m + 1))
      (fun i => by rw [vecPoly_degree hm (by omega)]; simp) (fun j : Fin g.nlat => Real.sin (g.phi j))
      (fun j => Real.cos (g.phi j) ^ (m - 1) * (1 + Real.sin (g.phi j))) (Grid.sin_phi_injective hg) hcard
    refine ⟨fun n => D (n - m), fun n n' h1 _ h2 h3 _ h4 => ?_, fun h => by omega⟩
    have := hD (n - m) (by omega) (n' - m) (by omega)
    simp only [show m + (n' - m) = n' by omega] at this
    simp only [vecLegendre_eq hm]
    exact this.trans (if_congr (by omega) rfl rfl)

end Barotropic
