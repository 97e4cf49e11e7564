import Verif.Props.ZonalizeError
import Verif.Props.Binary64Zonalize
import Verif.Props.TotalError
import Verif.Spec.ZonalizeTotal

/-!
# Contour areas in double precision and the true areas between the contours of a field
-/

namespace Barotropic
open Real Set Grid
open Binary64 (rnd pi64 SumTree)

section
variable {g : Grid ℝ} {Q : ℝ → ℝ → ℝ} {P : ℝ → ℝ} {Lx Ly : ℝ} {n : ℕ}

theorem trueLatitude_phi (hg : g.Valid) (hn : g.nlat = n + 1) (j : ℕ) : trueLatitude n j = g.phi j := by
  rw [phi_eq hg, trueLatitude, hn]
  push_cast
  rw [add_sub_cancel_right]

theorem bandArea_gridpointArea (hg : g.Valid) (hn : g.nlat = n + 1) {j : ℕ} (hj : j ≤ n) : bandArea n g.rsphere g.dlam j = g.gridpointArea j := by
  have h3 := hg.nlat_ge
  unfold bandArea gridpointArea northEdge southEdge midPhi
  simp only [trueLatitude_phi hg hn, hn, Nat.add_sub_cancel]
  by_cases h0 : j = 0
  · rw [if_pos h0, if_pos h0, if_neg (by omega), h0, sin_pi_div_two, show (g.phi 0 + g.phi (0 + 1)) / 2 = 1 / 2 * (g.phi (0 + 1) + g.phi 0) by ring]
    ring
  · rw [if_neg h0, if_neg h0]
    by_cases h1 : j = n
    · rw [if_pos h1, if_pos h1, h1, sin_neg, sin_pi_div_two, show n + 1 - 2 = n - 1 by omega, show n - 1 + 1 = n by omega,
        show (g.phi (n - 1) + g.phi n) / 2 = 1 / 2 * (g.phi n + g.phi (n - 1)) by ring]
      ring
    · rw [if_neg h1, if_neg h1, show j - 1 + 1 = j by omega, show (g.phi (j - 1) + g.phi j) / 2 = 1 / 2 * (g.phi j + g.phi (j - 1)) by ring,
        show (g.phi j + g.phi (j + 1)) / 2 = 1 / 2 * (g.phi (j + 1) + g.phi j) by ring]
      ring

theorem boxcount_area (hg : g.Valid) (hn : g.nlat = n + 1) (F : ℕ → ℕ → ℝ) (q : ℝ) :
    g.contourArea "boxcount" (fun j (i : Fin g.nlon) => F j i) q = Binary64.areaAbove (n + 1) g.nlon (bandArea n g.rsphere g.dlam) F q := by
  have hr := hg.rsphere_pos.ne'
  have hd := (dlam_pos hg).ne'
  have hw := hg.nlon_pos.ne'
  unfold contourArea Binary64.areaAbove colQuad boxcountCol
  rw [div_self hw, mul_one, Finset.sum_range, Finset.mul_sum]
  refine Finset.sum_congr rfl fun i _ => ?_
  rw [if_pos rfl, ← hn, Finset.sum_range]
  rw [show ∀ x : ℝ, g.rsphere * g.dlam * (x / g.rsphere / g.dlam) = x by intro x; field_simp]
  refine Finset.sum_congr rfl fun j _ => ?_
  have := j.2
  rw [bandArea_gridpointArea hg hn (by omega), mul_one]
  simp only [sub_nonneg]

/-- The true area of the boxes on which rounded samples are above a threshold, between areas enclosed by contours of the field -/
theorem boxes_sandwich (hg : g.Valid) (hs : g.resolution * g.nlon = 360) (hn : g.nlat = n + 1) (hQ : LipschitzField Q Lx Ly) {f : ℕ → ℕ → ℝ} {e : ℝ}
    (hf : ∀ j ≤ n, ∀ i < g.nlon, |f j i - Q (g.lam i) (g.phi j)| ≤ e) (q : ℝ) :
    g.rsphere ^ 2 * areaAbove Q (q + (sampleError g Lx Ly + e)) ≤ Binary64.areaAbove (n + 1) g.nlon (bandArea n g.rsphere g.dlam) f q ∧
    Binary64.areaAbove (n + 1) g.nlon (bandArea n g.rsphere g.dlam) f q ≤ g.rsphere ^ 2 * areaAbove Q (q - (sampleError g Lx Ly + e)) := by
  have hpos : ∀ j ≤ n, 0 < bandArea n g.rsphere g.dlam j := fun j hj => by
    rw [bandArea_gridpointArea hg hn hj]; exact gridpointArea_pos hg (by omega)
  have h0 := (contourArea_sandwich hg hs (.inl rfl : KnownMethod "boxcount") hQ (q + e)).1
  have h1 := (contourArea_sandwich hg hs (.inl rfl : KnownMethod "boxcount") hQ (q - e)).2
  rw [boxcount_area hg hn (fun j i => Q (g.lam i) (g.phi j))] at h0 h1
  rw [show q + (sampleError g Lx Ly + e) = q + e + sampleError g Lx Ly by ring, show q - (sampleError g Lx Ly + e) = q - e - sampleError g Lx Ly by ring]
  constructor
  · refine h0.trans (Finset.sum_le_sum fun i hi => Finset.sum_le_sum fun j hj => ?_)
    have hj' := Nat.lt_succ_iff.1 (Finset.mem_range.1 hj)
    have := (abs_le.1 (hf j hj' i (Finset.mem_range.1 hi))).1
    have hp := (hpos j hj').le
    split_ifs with a b
    · exact le_rfl
    · exact absurd (by linarith) b
    · exact hp
    · exact le_rfl
  · refine le_trans (Finset.sum_le_sum fun i hi => Finset.sum_le_sum fun j hj => ?_) h1
    have hj' := Nat.lt_succ_iff.1 (Finset.mem_range.1 hj)
    have := (abs_le.1 (hf j hj' i (Finset.mem_range.1 hi))).2
    have hp := (hpos j hj').le
    split_ifs with a b
    · exact le_rfl
    · exact absurd (by linarith) b
    · exact hp
    · exact le_rfl

/-- All boxes together are the sphere. -/
theorem boxes_total (hg : g.Valid) (hs : g.resolution * g.nlon = 360) (hn : g.nlat = n + 1) :
    ∑ _i ∈ Finset.range g.nlon, ∑ j ∈ Finset.range (n + 1), bandArea n g.rsphere g.dlam j = 4 * π * g.rsphere ^ 2 := by
  have := dlam_nlon_eq hg hs
  have h3 := hg.nlat_ge
  rw [Finset.sum_const, Finset.card_range, nsmul_eq_mul, bandArea_sum (by omega)]
  linear_combination (2 * g.rsphere ^ 2) * this

theorem boxes_range (hg : g.Valid) (hs : g.resolution * g.nlon = 360) (hn : g.nlat = n + 1) (f : ℕ → ℕ → ℝ) (q : ℝ) :
    0 ≤ Binary64.areaAbove (n + 1) g.nlon (bandArea n g.rsphere g.dlam) f q ∧
    Binary64.areaAbove (n + 1) g.nlon (bandArea n g.rsphere g.dlam) f q ≤ 4 * π * g.rsphere ^ 2 := by
  have hpos : ∀ j ≤ n, 0 < bandArea n g.rsphere g.dlam j := fun j hj => by
    rw [bandArea_gridpointArea hg hn hj]; exact gridpointArea_pos hg (by omega)
  rw [← boxes_total hg hs hn]
  constructor
  · refine Finset.sum_nonneg fun i _ => Finset.sum_nonneg fun j hj => ?_
    split_ifs
    · exact (hpos j (Nat.lt_succ_iff.1 (Finset.mem_range.1 hj))).le
    · exact le_rfl
  · refine Finset.sum_le_sum fun i _ => Finset.sum_le_sum fun j hj => ?_
    split_ifs
    · exact le_rfl
    · exact (hpos j (Nat.lt_succ_iff.1 (Finset.mem_range.1 hj))).le

/-- Nothing is below the South Pole. -/
theorem gridBoxes_nonneg {sn cs : ℝ → ℝ} (ht : GoodTrig sn cs) (hn : 0 < n) (hn22 : n ≤ 2 ^ 22) {r dlam : ℝ} (hr : r ≠ 0) (hd : 0 < dlam) (j : ℕ) :
    0 ≤ gridBoxes sn n r dlam j := by
  unfold gridBoxes
  split_ifs with h
  · exact (C141_area_pos ht hn hn22 hr hd j h).le
  · exact le_rfl

theorem gridBoxes_double {sn : ℝ → ℝ} {r dlam : ℝ} (j : ℕ) : IsDouble (gridBoxes sn n r dlam j) := by
  unfold gridBoxes
  split_ifs with h
  · exact Binary64.rnd_isDouble _
  · exact ⟨0, 0, by norm_num, by norm_num⟩

/-- Rounding of the box areas and of the spacing changes the enclosed area by little. -/
theorem boxes_rounded (hg : g.Valid) (hs : g.resolution * g.nlon = 360) (hn : g.nlat = n + 1) (h4 : n ≤ 2 ^ 49) {sn cs : ℝ → ℝ} (ht : GoodTrig sn cs)
    {dlam δ : ℝ} (hd0 : 0 < dlam) (hd : |dlam - g.dlam| ≤ δ * g.dlam) (f : ℕ → ℕ → ℝ) (q : ℝ) :
    |Binary64.areaAbove (n + 1) g.nlon (gridBoxes sn n g.rsphere dlam) f q
      - Binary64.areaAbove (n + 1) g.nlon (bandArea n g.rsphere g.dlam) f q|
      ≤ 2 * π * g.rsphere ^ 2 * ((1 + δ) * ((n + 1) / 2 ^ 46) + 2 * δ) := by
  have h3 := hg.nlat_ge
  have hdl := dlam_pos hg
  have hwd := dlam_nlon_eq hg hs
  have hpos : ∀ j ≤ n, 0 < bandArea n g.rsphere g.dlam j := fun j hj => by
    rw [bandArea_gridpointArea hg hn hj]; exact gridpointArea_pos hg (by omega)
  have hδ : 0 ≤ δ := by
    have := (abs_nonneg _).trans hd
    by_contra hc
    exact absurd this (not_le.2 (mul_neg_of_neg_of_pos (not_le.1 hc) hdl))
  have hdu : dlam ≤ (1 + δ) * g.dlam := by linarith [(abs_le.1 hd).2]
  have hbox : ∀ j ≤ n, |Binary64.gridpointArea sn (n + 1) g.rsphere dlam j - bandArea n g.rsphere g.dlam j|
      ≤ g.rsphere ^ 2 * ((1 + δ) * g.dlam) / 2 ^ 46 + δ * bandArea n g.rsphere g.dlam j := by
    intro j hj
    have k1 := C141_area ht (by omega) h4 hd0 j hj (r := g.rsphere)
    have e : bandArea n g.rsphere dlam j - bandArea n g.rsphere g.dlam j = (dlam - g.dlam) / g.dlam * bandArea n g.rsphere g.dlam j := by
      unfold bandArea; field_simp
    have k2 : |bandArea n g.rsphere dlam j - bandArea n g.rsphere g.dlam j| ≤ δ * bandArea n g.rsphere g.dlam j := by
      rw [e, abs_mul, abs_div, abs_of_pos hdl, abs_of_pos (hpos j hj)]
      exact mul_le_mul_of_nonneg_right (by rwa [div_le_iff₀ hdl]) (hpos j hj).le
    have k3 : g.rsphere ^ 2 * dlam / 2 ^ 46 ≤ g.rsphere ^ 2 * ((1 + δ) * g.dlam) / 2 ^ 46 := by gcongr
    have := abs_sub_le (Binary64.gridpointArea sn (n + 1) g.rsphere dlam j) (bandArea n g.rsphere dlam j) (bandArea n g.rsphere g.dlam j)
    linarith
  unfold Binary64.areaAbove
  rw [← Finset.sum_sub_distrib]
  have hsum : ∑ _i ∈ Finset.range g.nlon, ∑ j ∈ Finset.range (n + 1), (g.rsphere ^ 2 * ((1 + δ) * g.dlam) / 2 ^ 46 + δ * bandArea n g.rsphere g.dlam j)
      = 2 * π * g.rsphere ^ 2 * ((1 + δ) * ((n + 1) / 2 ^ 46) + 2 * δ) := by
    have := boxes_total hg hs hn
    simp only [Finset.sum_add_distrib, ← Finset.mul_sum, this]
    simp only [Finset.sum_const, Finset.card_range, nsmul_eq_mul]
    push_cast
    linear_combination ((n + 1) * (g.rsphere ^ 2 * (1 + δ)) / 2 ^ 46) * hwd
  rw [← hsum]
  refine (Finset.abs_sum_le_sum_abs _ _).trans (Finset.sum_le_sum fun i _ => ?_)
  rw [← Finset.sum_sub_distrib]
  refine (Finset.abs_sum_le_sum_abs _ _).trans (Finset.sum_le_sum fun j hj => ?_)
  have hj' := Nat.lt_succ_iff.1 (Finset.mem_range.1 hj)
  rw [gridBoxes, if_pos hj']
  split_ifs
  · exact hbox j hj'
  · rw [sub_self, abs_zero]
    have := (hpos j hj').le
    positivity

end
end Barotropic
