import Verif.Lemmas.Grid
import Verif.Model.GridReal
import Verif.Model.Mean

namespace Barotropic
open Real
namespace Grid

variable {g : Grid ℝ}

theorem phi_eq (h : g.Valid) (j : ℕ) : g.phi j = π / 2 - j * (π / ((g.nlat : ℝ) - 1)) := by
  unfold phi deg2rad
  rw [lat_eq h]
  have := h.nlatm1_pos.ne'
  field_simp
  ring

theorem phi_zero (h : g.Valid) : g.phi 0 = π / 2 := by rw [phi_eq h]; simp

theorem phi_last (h : g.Valid) : g.phi (g.nlat - 1) = -(π / 2) := by
  unfold phi; rw [lat_last h]; unfold deg2rad; ring

theorem phi_strictAnti (h : g.Valid) : StrictAnti g.phi := by
  intro a b hab
  unfold phi deg2rad
  have := lat_strictAnti h hab
  have := pi_pos
  nlinarith

theorem phi_mem (h : g.Valid) {j : ℕ} (hj : j < g.nlat) : -(π / 2) ≤ g.phi j ∧ g.phi j ≤ π / 2 := by
  have := lat_mem h hj
  have := pi_pos
  unfold phi deg2rad
  constructor <;> nlinarith

theorem phi_symm (h : g.Valid) {j : ℕ} (hj : j < g.nlat) : g.phi (g.nlat - 1 - j) = -g.phi j := by
  rw [phi_eq h, phi_eq h]
  have h1 := h.nlatm1_pos.ne'
  have : ((g.nlat - 1 - j : ℕ) : ℝ) = (g.nlat : ℝ) - 1 - j := by
    rw [Nat.cast_sub (by omega), Nat.cast_sub (by omega)]; simp
  rw [this]
  field_simp
  ring

theorem midPhi_mem (h : g.Valid) {j : ℕ} (hj : j + 1 < g.nlat) :
    -(π / 2) < g.midPhi j ∧ g.midPhi j < π / 2 := by
  have h1 := phi_mem h hj
  have h2 := phi_mem h (show j < g.nlat by omega)
  have h3 := phi_strictAnti h (show j < j + 1 by omega)
  unfold midPhi
  constructor <;> linarith

theorem midPhi_lt (h : g.Valid) (j : ℕ) : g.midPhi (j + 1) < g.midPhi j := by
  have h1 := phi_strictAnti h (show j < j + 1 by omega)
  have h2 := phi_strictAnti h (show j + 1 < j + 1 + 1 by omega)
  unfold midPhi
  linarith

theorem midPhi_symm (h : g.Valid) {j : ℕ} (hj : j + 1 < g.nlat) :
    g.midPhi (g.nlat - 2 - j) = -g.midPhi j := by
  unfold midPhi
  have h1 : g.nlat - 2 - j + 1 = g.nlat - 1 - j := by omega
  have h2 : g.nlat - 2 - j = g.nlat - 1 - (j + 1) := by omega
  rw [h1, phi_symm h (by omega), h2, phi_symm h hj]
  ring

theorem dlam_pos (h : g.Valid) : 0 < g.dlam := by
  unfold dlam deg2rad dlon
  have := h.res_pos
  have := pi_pos
  positivity

theorem gridpointArea_pos (h : g.Valid) {j : ℕ} (hj : j < g.nlat) : 0 < g.gridpointArea j := by
  have hr := h.rsphere_pos
  have hd := dlam_pos h
  have hn := h.nlat_ge
  have hs : 0 < g.rsphere * g.rsphere * g.dlam := by positivity
  unfold gridpointArea
  dsimp only
  split_ifs with h0 h1
  · apply mul_pos hs
    have := midPhi_mem h (show 0 + 1 < g.nlat by omega)
    have := sin_lt_sin_of_lt_of_le_pi_div_two this.1.le le_rfl this.2
    rw [sin_pi_div_two] at this
    linarith
  · apply mul_pos hs
    have := midPhi_mem h (show g.nlat - 2 + 1 < g.nlat by omega)
    have := sin_lt_sin_of_lt_of_le_pi_div_two le_rfl this.2.le this.1
    rw [sin_neg, sin_pi_div_two] at this
    linarith
  · apply mul_pos hs
    have h1 := midPhi_mem h (show (j - 1) + 1 < g.nlat by omega)
    have h2 := midPhi_mem h (show j + 1 < g.nlat by omega)
    have h3 := midPhi_lt h (j - 1)
    rw [show j - 1 + 1 = j by omega] at h3
    have := sin_lt_sin_of_lt_of_le_pi_div_two h2.1.le h1.2.le h3
    linarith

theorem gridpointArea_symm (h : g.Valid) {j : ℕ} (hj : j < g.nlat) :
    g.gridpointArea (g.nlat - 1 - j) = g.gridpointArea j := by
  have hn := h.nlat_ge
  have key0 : g.midPhi (g.nlat - 2) = -g.midPhi 0 := by
    have := midPhi_symm h (show 0 + 1 < g.nlat by omega)
    simpa using this
  by_cases h0 : j = 0
  · subst h0
    unfold gridpointArea
    dsimp only
    rw [if_neg (by omega), if_pos (by omega), if_pos rfl, key0, sin_neg]
    ring
  by_cases h1 : j = g.nlat - 1
  · unfold gridpointArea
    dsimp only
    rw [if_pos (by omega), if_neg h0, if_pos h1, key0, sin_neg]
    ring
  · unfold gridpointArea
    dsimp only
    rw [if_neg (by omega), if_neg (by omega), if_neg h0, if_neg h1]
    have e1 : g.nlat - 1 - j - 1 = g.nlat - 2 - j := by omega
    have e2 : g.nlat - 1 - j = g.nlat - 2 - (j - 1) := by omega
    rw [e1, midPhi_symm h (by omega), e2, midPhi_symm h (by omega), sin_neg, sin_neg]
    ring

theorem sum_gridpointArea (h : g.Valid) :
    ∑ j ∈ Finset.range g.nlat, g.gridpointArea j = 2 * (g.rsphere * g.rsphere * g.dlam) := by
  obtain ⟨m, hm⟩ : ∃ m, g.nlat = m + 2 := ⟨g.nlat - 2, by have := h.nlat_ge; omega⟩
  rw [hm, Finset.sum_range_succ, Finset.sum_range_succ']
  have hi : ∀ j ∈ Finset.range m, g.gridpointArea (j + 1) =
      g.rsphere * g.rsphere * g.dlam * (sin (g.midPhi j) - sin (g.midPhi (j + 1))) := by
    intro j hj
    rw [Finset.mem_range] at hj
    unfold gridpointArea
    dsimp only
    rw [if_neg (by omega), if_neg (by omega), Nat.add_sub_cancel]
  rw [Finset.sum_congr rfl hi, ← Finset.mul_sum, Finset.sum_range_sub']
  unfold gridpointArea
  dsimp only
  rw [if_pos rfl, if_neg (by omega), if_pos (by omega), hm]
  simp only [Nat.add_sub_cancel]
  ring

end Grid
end Barotropic
