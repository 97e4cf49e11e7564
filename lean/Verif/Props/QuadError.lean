import Verif.Lemmas.QuadError
import Verif.Lemmas.Zonalize
import Verif.Props.Quad
import Verif.Props.Mean

/-!
# C112: accuracy of quadrature and means
-/

namespace Barotropic
open Real Set MeasureTheory Grid

/-- Distance of neighbouring latitudes -/
noncomputable def latStep (g : Grid ℝ) : ℝ := π / ((g.nlat : ℝ) - 1)

/-- borders of the cells of the grid on a meridian -/
noncomputable def cellEdge (g : Grid ℝ) (j : ℕ) : ℝ := if j = 0 then π / 2 else if j = g.nlat then -(π / 2) else g.midPhi (j - 1)

theorem cellEdge_area {g : Grid ℝ} (hg : g.Valid) {j : ℕ} (hj : j < g.nlat) :
    g.gridpointArea j = g.rsphere * g.rsphere * g.dlam * (sin (cellEdge g j) - sin (cellEdge g (j + 1))) := by
  have hn := hg.nlat_ge
  unfold gridpointArea cellEdge
  dsimp only
  rw [if_neg (show j + 1 ≠ 0 by omega), Nat.add_sub_cancel]
  by_cases h0 : j = 0
  · subst h0
    rw [if_pos rfl, if_pos rfl, if_neg (by omega), sin_pi_div_two]
  rw [if_neg h0, if_neg h0, if_neg (show j ≠ g.nlat by omega)]
  by_cases h1 : j = g.nlat - 1
  · rw [if_pos h1, if_pos (by omega), sin_neg, sin_pi_div_two, h1]
    rw [show g.nlat - 1 - 1 = g.nlat - 2 by omega]
    ring
  · rw [if_neg h1, if_neg (by omega)]

/-- The borders of a cell are halfway to the next latitudes, or a pole that is the centre. -/
theorem cellEdge_cell {g : Grid ℝ} (hg : g.Valid) {j : ℕ} (hj : j < g.nlat) :
    cellEdge g (j + 1) ≤ cellEdge g j ∧ -(π / 2) ≤ cellEdge g (j + 1) ∧ cellEdge g j ≤ π / 2 ∧
    cos (g.phi j) * ((cellEdge g j - g.phi j) ^ 2 - (cellEdge g (j + 1) - g.phi j) ^ 2) = 0 ∧
    ((cellEdge g j - g.phi j) ^ 3 - (cellEdge g (j + 1) - g.phi j) ^ 3) / 3 = latStep g ^ 2 * (cellEdge g j - cellEdge g (j + 1)) / 12 := by
  have hn := hg.nlat_ge
  have hd := hg.nlatm1_pos
  have hs : 0 < latStep g := div_pos pi_pos hd
  have hm : ∀ k, g.midPhi k = g.phi k - latStep g / 2 := by
    intro k
    unfold midPhi latStep
    rw [phi_eq hg, phi_eq hg]
    push_cast
    ring
  have hm' : ∀ k, g.midPhi k = g.phi (k + 1) + latStep g / 2 := by
    intro k
    unfold midPhi latStep
    rw [phi_eq hg, phi_eq hg]
    push_cast
    ring
  unfold cellEdge
  rw [if_neg (show j + 1 ≠ 0 by omega), Nat.add_sub_cancel]
  by_cases h0 : j = 0
  · subst h0
    have := (midPhi_mem hg (show 0 + 1 < g.nlat by omega))
    rw [if_pos rfl, if_neg (by omega), hm, phi_zero hg, cos_pi_div_two]
    rw [hm, phi_zero hg] at this
    refine ⟨by linarith, this.1.le, le_rfl, by ring, by ring⟩
  rw [if_neg h0, if_neg (show j ≠ g.nlat by omega)]
  have a := (midPhi_mem hg (show j - 1 + 1 < g.nlat by omega))
  have b := hm' (j - 1)
  rw [show j - 1 + 1 = j by omega] at b
  rw [b] at a ⊢
  by_cases h1 : j = g.nlat - 1
  · rw [if_pos (by omega)]
    have : g.phi j = -(π / 2) := by rw [h1, phi_last hg]
    rw [this] at a ⊢
    rw [cos_neg, cos_pi_div_two]
    refine ⟨by linarith, le_rfl, a.2.le, by ring, by ring⟩
  · rw [if_neg (by omega), hm]
    have c := (midPhi_mem hg (show j + 1 < g.nlat by omega))
    rw [hm] at c
    refine ⟨by linarith, c.1.le, a.2.le, by ring, by ring⟩

private theorem boxcount_error {g : Grid ℝ} (hg : g.Valid) {F : ℝ → ℝ} (hF : ContDiff ℝ 2 F) {M1 M2 : ℝ}
    (hM1 : ∀ φ ∈ Icc (-(π / 2)) (π / 2), |deriv F φ| ≤ M1) (hM2 : ∀ φ ∈ Icc (-(π / 2)) (π / 2), |iteratedDeriv 2 F φ| ≤ M2) :
    |g.boxcountCol (fun j => F (g.phi j)) (fun _ => 1) - g.rsphere * ∫ φ in -(π / 2)..π / 2, F φ * cos φ|
      ≤ g.rsphere * ((2 * M1 + M2) * π * latStep g ^ 2 / 24) := by
  have hr := hg.rsphere_pos
  have hd := dlam_pos hg
  have e1 : g.boxcountCol (fun j => F (g.phi j)) (fun _ => 1)
      = g.rsphere * ∑ j ∈ Finset.range g.nlat, F (g.phi j) * (sin (cellEdge g j) - sin (cellEdge g (j + 1))) := by
    unfold boxcountCol
    simp only [zero_le_one, if_true]
    rw [← Fin.sum_univ_eq_sum_range (fun j => F (g.phi j) * (sin (cellEdge g j) - sin (cellEdge g (j + 1)))), div_div, div_eq_iff (by positivity), Finset.mul_sum,
      Finset.sum_mul]
    refine Finset.sum_congr rfl fun j _ => ?_
    rw [cellEdge_area hg j.2]
    ring
  have hn := hg.nlat_ge
  have e2 : ∫ φ in -(π / 2)..π / 2, F φ * cos φ = ∑ j ∈ Finset.range g.nlat, ∫ φ in cellEdge g (j + 1)..cellEdge g j, F φ * cos φ := by
    have := intervalIntegral.sum_integral_adjacent_intervals (μ := volume) (f := fun φ => F φ * cos φ) (a := cellEdge g) (n := g.nlat)
      fun k _ => (hF.continuous.mul continuous_cos).intervalIntegrable _ _
    rw [show cellEdge g 0 = π / 2 from if_pos rfl, show cellEdge g g.nlat = -(π / 2) by unfold cellEdge; rw [if_neg (by omega), if_pos rfl]] at this
    rw [intervalIntegral.integral_symm, ← this, ← Finset.sum_neg_distrib]
    exact Finset.sum_congr rfl fun j _ => (intervalIntegral.integral_symm _ _).symm
  rw [e1, e2, ← mul_sub, abs_mul, abs_of_pos hr, ← Finset.sum_sub_distrib]
  refine mul_le_mul_of_nonneg_left ?_ hr.le
  refine (Finset.abs_sum_le_sum_abs _ _).trans ((Finset.sum_le_sum (g := fun j => (M1 + M2 / 2) * (latStep g ^ 2 * (cellEdge g j - cellEdge g (j + 1)) / 12))
    fun j hj => ?_).trans (le_of_eq ?_))
  · obtain ⟨c1, c2, c3, c4, c5⟩ := cellEdge_cell hg (Finset.mem_range.1 hj)
    rw [← c5]
    exact cell_error hF hM1 hM2 c1 (phi_mem hg (Finset.mem_range.1 hj)) c2 c3 c4
  · have := Finset.sum_range_sub' (cellEdge g) g.nlat
    rw [show cellEdge g 0 = π / 2 from if_pos rfl, show cellEdge g g.nlat = -(π / 2) by unfold cellEdge; rw [if_neg (by omega), if_pos rfl]] at this
    calc _ = (M1 + M2 / 2) * latStep g ^ 2 / 12 * ∑ j ∈ Finset.range g.nlat, (cellEdge g j - cellEdge g (j + 1)) := by
          rw [Finset.mul_sum]; exact Finset.sum_congr rfl fun j _ => by ring
      _ = _ := by rw [this]; ring

private theorem sptrapz_error {g : Grid ℝ} (hg : g.Valid) {F : ℝ → ℝ} (hF : ContDiff ℝ 2 F) {M2 : ℝ}
    (hM2 : ∀ φ ∈ Icc (-(π / 2)) (π / 2), |iteratedDeriv 2 F φ| ≤ M2) :
    |g.colQuad "sptrapz" (fun j => F (g.phi j)) (fun _ => 1) - g.rsphere * ∫ φ in -(π / 2)..π / 2, F φ * cos φ|
      ≤ g.rsphere * (M2 * latStep g ^ 2 / 4) := by
  have hr := hg.rsphere_pos
  obtain ⟨Y, hY⟩ := interp_exists hg fun j => F (g.phi j)
  have hw : 1 ≤ g.nlon := by have := hg.nlon_ge; omega
  obtain ⟨out, h1, h2⟩ := C15_exact_integral g hg 1 hw (fun j _ => F (g.phi j)) (fun _ _ => 1) (fun _ => Y) (fun _ _ => 1) (fun _ => hY)
    fun i j _ t _ _ => by ring
  have h0 := (quadMeridional_ok (.inr ⟨rfl, hw⟩) (fun j (_ : Fin 1) => F (g.phi j)) (some fun _ _ => 1)).symm.trans h1
  have h1 : (fun i : Fin 1 => g.colQuad "sptrapz" (fun j => F (g.phi j)) fun _ => 1) = out := by
    injection h0 with h1
    injection h1
  obtain ⟨hi, hv⟩ := h2 0
  simp only [zero_le_one, if_true] at hi hv
  have hv := (congrFun h1 0).trans hv
  rw [hv, ← mul_sub, abs_mul, abs_of_pos hr, ← intervalIntegral.integral_sub (g := fun φ => F φ * cos φ) hi ((hF.continuous.mul continuous_cos).intervalIntegrable _ _)]
  refine mul_le_mul_of_nonneg_left ?_ hr.le
  simp only [← sub_mul]
  refine (cos_weight fun φ hφ => interp_error hg hF hM2 hY hφ).trans (le_of_eq ?_)
  unfold latStep
  ring

/-- Bound of the error of an integral over latitude on the unit sphere, for functions whose first two derivatives are bounded by `M1` and `M2`. -/
noncomputable def latError (g : Grid ℝ) (m : String) (M1 M2 : ℝ) : ℝ :=
  if m = "sptrapz" then M2 * latStep g ^ 2 / 4 else (2 * M1 + M2) * π * latStep g ^ 2 / 24

private theorem col_error {g : Grid ℝ} (hg : g.Valid) {m : String} (hm : KnownMethod m) {F : ℝ → ℝ} (hF : ContDiff ℝ 2 F) {M1 M2 : ℝ}
    (hM1 : ∀ φ ∈ Icc (-(π / 2)) (π / 2), |deriv F φ| ≤ M1) (hM2 : ∀ φ ∈ Icc (-(π / 2)) (π / 2), |iteratedDeriv 2 F φ| ≤ M2) :
    |g.colQuad m (fun j => F (g.phi j)) (fun _ => 1) - g.rsphere * ∫ φ in -(π / 2)..π / 2, F φ * cos φ|
      ≤ g.rsphere * latError g m M1 M2 := by
  rcases hm with rfl | rfl
  · exact boxcount_error hg hF hM1 hM2
  · exact sptrapz_error hg hF hM2

/-- C112: on every meridian both schemes approximate the integral over latitude to second order in the distance of the latitudes. Fields are values of
twice continuously differentiable functions of latitude, a different one on every meridian. -/
theorem C112_meridional (g : Grid ℝ) (hg : g.Valid) (m : String) (hm : KnownMethod m) (w : ℕ) (hw : w ≤ g.nlon) (F : Fin w → ℝ → ℝ)
    (hF : ∀ i, ContDiff ℝ 2 (F i)) (M1 M2 : Fin w → ℝ) (hM1 : ∀ i, ∀ φ ∈ Icc (-(π / 2)) (π / 2), |deriv (F i) φ| ≤ M1 i)
    (hM2 : ∀ i, ∀ φ ∈ Icc (-(π / 2)) (π / 2), |iteratedDeriv 2 (F i) φ| ≤ M2 i) :
    ∃ out, g.quadMeridional (.d2 g.nlat w fun j i => F i (g.phi j)) none m = .ok (.d1 w out) ∧
      ∀ i, |out i - g.rsphere * ∫ φ in -(π / 2)..π / 2, F i φ * cos φ| ≤ g.rsphere * latError g m (M1 i) (M2 i) :=
  ⟨_, quadMeridional_ok (hm.imp_right fun h => ⟨h, hw⟩) _ _, fun i => col_error hg hm (hF i) (hM1 i) (hM2 i)⟩

theorem lam_eq {g : Grid ℝ} (hg : g.Valid) (i : ℕ) : g.lam i = i * (2 * π / g.nlon) := by
  have := hg.nlon_pos
  unfold lam deg2rad lon linspaceOpen
  field_simp
  ring

/-- Distance of neighbouring longitudes -/
noncomputable def lonStep (g : Grid ℝ) : ℝ := 2 * π / g.nlon

/-- Bounds of derivatives of a function on the sphere: second derivative in longitude, first and second derivatives in latitude. -/
structure DerivBounds (F : ℝ → ℝ → ℝ) (L M1 M2 : ℝ) : Prop where
  lon2 : ∀ x ∈ Icc 0 (2 * π), ∀ φ ∈ Icc (-(π / 2)) (π / 2), |iteratedDeriv 2 (fun x => F x φ) x| ≤ L
  lat1 : ∀ x ∈ Icc 0 (2 * π), ∀ φ ∈ Icc (-(π / 2)) (π / 2), |deriv (F x) φ| ≤ M1
  lat2 : ∀ x ∈ Icc 0 (2 * π), ∀ φ ∈ Icc (-(π / 2)) (π / 2), |iteratedDeriv 2 (F x) φ| ≤ M2

private theorem sphere_error {g : Grid ℝ} (hg : g.Valid) {m : String} (hm : KnownMethod m) {F : ℝ → ℝ → ℝ}
    (hF : ContDiff ℝ 2 fun p : ℝ × ℝ => F p.1 p.2) (hper : ∀ φ, F (2 * π) φ = F 0 φ) {L M1 M2 : ℝ} (hB : DerivBounds F L M1 M2) :
    |g.rsphere * lonStep g * ∑ i : Fin g.nlon, g.colQuad m (fun j => F (g.lam i) (g.phi j)) (fun _ => 1) - sphereIntegral g.rsphere F|
      ≤ g.rsphere ^ 2 * (2 * π * latError g m M1 M2 + π * L * lonStep g ^ 2 / 3) := by
  have hr := hg.rsphere_pos
  have hn := hg.nlon_pos
  have hp := pi_pos
  have hd : 0 < lonStep g := by unfold lonStep; positivity
  have hdn : lonStep g * g.nlon = 2 * π := by unfold lonStep; field_simp
  have hx : ∀ x, ContDiff ℝ 2 (F x) := fun x => hF.comp (contDiff_const.prodMk contDiff_id)
  have hlam : ∀ i : Fin g.nlon, g.lam i ∈ Icc 0 (2 * π) := by
    intro i
    rw [lam_eq hg]
    have : (i : ℝ) ≤ g.nlon := by exact_mod_cast i.2.le
    refine ⟨by positivity, ?_⟩
    change (i : ℝ) * lonStep g ≤ _
    rw [← hdn]
    nlinarith
  have hz := zonal_error hF hper hB.lon2 (n := g.nlon) (by exact_mod_cast hn)
  rw [← Fin.sum_univ_eq_sum_range (fun i : ℕ => ∫ φ in -(π / 2)..π / 2, F (i * (2 * π / g.nlon)) φ * cos φ)] at hz
  have h1 : |∑ i : Fin g.nlon, g.colQuad m (fun j => F (g.lam i) (g.phi j)) (fun _ => 1)
      - g.rsphere * ∑ i : Fin g.nlon, ∫ φ in -(π / 2)..π / 2, F (i * (2 * π / g.nlon)) φ * cos φ| ≤ g.nlon * (g.rsphere * latError g m M1 M2) := by
    rw [Finset.mul_sum, ← Finset.sum_sub_distrib]
    refine (Finset.abs_sum_le_sum_abs _ _).trans ((Finset.sum_le_sum (g := fun _ => g.rsphere * latError g m M1 M2) fun i _ => ?_).trans (le_of_eq ?_))
    · rw [← lam_eq hg]
      exact col_error hg hm (hx _) (hB.lat1 _ (hlam i)) (hB.lat2 _ (hlam i))
    · simp
  unfold sphereIntegral
  change |lonStep g * _ - _| ≤ _ at hz
  set S := ∑ i : Fin g.nlon, g.colQuad m (fun j => F (g.lam i) (g.phi j)) (fun _ => 1)
  set T := ∑ i : Fin g.nlon, ∫ φ in -(π / 2)..π / 2, F (i * (2 * π / g.nlon)) φ * cos φ
  have e : g.rsphere * lonStep g * S - g.rsphere ^ 2 * (∫ x in (0 : ℝ)..2 * π, ∫ φ in -(π / 2)..π / 2, F x φ * cos φ)
      = g.rsphere * lonStep g * (S - g.rsphere * T)
        + g.rsphere ^ 2 * (lonStep g * T - ∫ x in (0 : ℝ)..2 * π, ∫ φ in -(π / 2)..π / 2, F x φ * cos φ) := by ring
  rw [e]
  refine (abs_add_le _ _).trans ?_
  rw [abs_mul, abs_mul (g.rsphere ^ 2), abs_of_pos (by positivity : 0 < g.rsphere * lonStep g), abs_of_pos (by positivity : 0 < g.rsphere ^ 2)]
  have p1 := mul_le_mul_of_nonneg_left h1 (by positivity : 0 ≤ g.rsphere * lonStep g)
  have p2 := mul_le_mul_of_nonneg_left hz (by positivity : 0 ≤ g.rsphere ^ 2)
  refine (add_le_add p1 p2).trans (le_of_eq ?_)
  rw [show 2 * π / (g.nlon : ℝ) = lonStep g from rfl]
  linear_combination g.rsphere ^ 2 * latError g m M1 M2 * hdn

/-- C112: both schemes approximate the integral over the sphere, with an error proportional to the squares of the distances between latitudes and
between longitudes. -/
theorem C112_quad (g : Grid ℝ) (hg : g.Valid) (hs : g.resolution * g.nlon = 360) (m : String) (hm : KnownMethod m) (F : ℝ → ℝ → ℝ)
    (hF : ContDiff ℝ 2 fun p : ℝ × ℝ => F p.1 p.2) (hper : ∀ φ, F (2 * π) φ = F 0 φ) (L M1 M2 : ℝ) (hB : DerivBounds F L M1 M2) :
    ∃ Q, g.quad (.d2 g.nlat g.nlon fun j i => F (g.lam i) (g.phi j)) none m = .ok Q ∧
      |Q - sphereIntegral g.rsphere F| ≤ g.rsphere ^ 2 * (2 * π * latError g m M1 M2 + π * L * lonStep g ^ 2 / 3) := by
  refine ⟨_, quad_ok (hm.imp_right fun h => ⟨h, le_rfl⟩) _ _, ?_⟩
  have : g.dlam = lonStep g := by
    have := dlam_nlon_eq hg hs
    unfold lonStep
    rw [eq_div_iff hg.nlon_pos.ne', this]
  rw [this]
  exact sphere_error hg hm hF hper hB

/-- C112: the mean over the grid approximates the mean over the sphere, also on grids whose resolution does not divide 360°. -/
theorem C112_mean (g : Grid ℝ) (hg : g.Valid) (F : ℝ → ℝ → ℝ) (hF : ContDiff ℝ 2 fun p : ℝ × ℝ => F p.1 p.2) (hper : ∀ φ, F (2 * π) φ = F 0 φ)
    (L M1 M2 : ℝ) (hB : DerivBounds F L M1 M2) :
    ∃ Q, g.mean (.d2 g.nlat g.nlon fun j i => F (g.lam i) (g.phi j)) .none none = .ok (.d0 Q) ∧
      |Q - sphereIntegral 1 F / (4 * π)| ≤ (2 * M1 + M2) * π * latStep g ^ 2 / 48 + L * lonStep g ^ 2 / 12 := by
  have hr := hg.rsphere_pos
  have hd := dlam_pos hg
  have hn := hg.nlon_pos
  have hp := pi_pos
  have hdn : lonStep g * g.nlon = 2 * π := by unfold lonStep; field_simp
  have hn4 := hg.nlon_ge
  have hn3 := hg.nlat_ge
  obtain ⟨M, h1, h2, -⟩ := C11_mean_value g hg none (fun _ h => nomatch h) ⟨⟨0, by omega⟩, ⟨0, by omega⟩, trivial⟩
  refine ⟨_, h1 _, ?_⟩
  rw [h2]
  have e0 : ∀ j i, inRegion (none : Option (Region g)) j i := fun _ _ => trivial
  simp only [e0, if_true]
  have e1 : ∑ j : Fin g.nlat, ∑ _i : Fin g.nlon, g.gridpointArea j = g.nlon * (2 * (g.rsphere * g.rsphere * g.dlam)) := by
    rw [← sum_gridpointArea hg, ← Fin.sum_univ_eq_sum_range, Finset.mul_sum]
    simp
  have e2 : ∑ j : Fin g.nlat, ∑ i : Fin g.nlon, g.gridpointArea j * F (g.lam i) (g.phi j)
      = g.rsphere * g.dlam * ∑ i : Fin g.nlon, g.colQuad "boxcount" (fun j => F (g.lam i) (g.phi j)) (fun _ => 1) := by
    rw [Finset.sum_comm, Finset.mul_sum]
    refine Finset.sum_congr rfl fun i _ => ?_
    unfold colQuad boxcountCol
    simp only [zero_le_one, if_true]
    field_simp
  have key := sphere_error hg (.inl rfl) hF hper hB
  rw [e1, e2]
  set S := ∑ i : Fin g.nlon, g.colQuad "boxcount" (fun j => F (g.lam i) (g.phi j)) (fun _ => 1)
  have e3 : g.rsphere * g.dlam * S / (g.nlon * (2 * (g.rsphere * g.rsphere * g.dlam))) - sphereIntegral 1 F / (4 * π)
      = (g.rsphere * lonStep g * S - sphereIntegral g.rsphere F) / (4 * π * g.rsphere ^ 2) := by
    have : lonStep g = 2 * π / g.nlon := rfl
    unfold sphereIntegral
    rw [this]
    field_simp
    ring
  rw [e3, abs_div, abs_of_pos (by positivity : 0 < 4 * π * g.rsphere ^ 2), div_le_iff₀ (by positivity)]
  refine key.trans (le_of_eq ?_)
  unfold latError
  rw [if_neg (by decide)]
  ring

/-- partial derivatives of functions with continuous derivatives -/
private theorem partials {F : ℝ → ℝ → ℝ} {n : ℕ} (hF : ContDiff ℝ (n + 1) fun p : ℝ × ℝ => F p.1 p.2) :
    ContDiff ℝ n (fun p : ℝ × ℝ => deriv (F p.1) p.2) ∧ ContDiff ℝ n fun p : ℝ × ℝ => deriv (fun x => F x p.2) p.1 := by
  have hd : Differentiable ℝ fun p : ℝ × ℝ => F p.1 p.2 := hF.differentiable (by simp)
  have h : ∀ v, ContDiff ℝ n fun p => fderiv ℝ (fun p : ℝ × ℝ => F p.1 p.2) p v :=
    fun v => (hF.fderiv_right le_rfl).clm_apply contDiff_const
  constructor
  · convert h (0, 1) using 2 with p
    have := (hd p).hasFDerivAt.comp_hasDerivAt (f := fun y => (p.1, y)) p.2 ((hasDerivAt_const _ _).prodMk (hasDerivAt_id _))
    exact this.deriv
  · convert h (1, 0) using 2 with p
    have := (hd p).hasFDerivAt.comp_hasDerivAt (f := fun x => (x, p.2)) p.1 ((hasDerivAt_id _).prodMk (hasDerivAt_const _ _))
    exact this.deriv

/-- Bounds of the derivatives of functions with two continuous derivatives exist. -/
theorem exists_derivBounds {F : ℝ → ℝ → ℝ} (hF : ContDiff ℝ 2 fun p : ℝ × ℝ => F p.1 p.2) :
    ∃ C, 0 ≤ C ∧ DerivBounds F C C C := by
  have b : ∀ G : ℝ × ℝ → ℝ, Continuous G → ∃ C, ∀ p ∈ Icc 0 (2 * π) ×ˢ Icc (-(π / 2)) (π / 2), |G p| ≤ C := fun G hG =>
    (isCompact_Icc.prod isCompact_Icc).exists_bound_of_continuousOn hG.continuousOn
  obtain ⟨p1, p2⟩ := partials (n := 1) (by exact_mod_cast hF)
  have q1 := (partials (F := fun x φ => deriv (F x) φ) (n := 0) (by exact_mod_cast p1)).1
  have q2 := (partials (F := fun x φ => deriv (fun x => F x φ) x) (n := 0) (by exact_mod_cast p2)).2
  obtain ⟨A, hA⟩ := b _ p1.continuous
  obtain ⟨B, hB⟩ := b _ q1.continuous
  obtain ⟨C, hC⟩ := b _ q2.continuous
  refine ⟨max 0 (max A (max B C)), le_max_left _ _, ⟨fun x hx φ hφ => ?_, fun x hx φ hφ => ?_, fun x hx φ hφ => ?_⟩⟩
  · rw [iteratedDeriv_succ, iteratedDeriv_one]
    exact (hC (x, φ) ⟨hx, hφ⟩).trans (by simp)
  · exact (hA (x, φ) ⟨hx, hφ⟩).trans (by simp)
  · rw [iteratedDeriv_succ, iteratedDeriv_one]
    exact (hB (x, φ) ⟨hx, hφ⟩).trans (by simp)

theorem latStep_le {g : Grid ℝ} (hg : g.Valid) (hs : g.resolution * g.nlon = 360) : latStep g ≤ 2 * lonStep g := by
  have hn := hg.nlon_pos
  have hn4 : (4 : ℝ) ≤ g.nlon := by exact_mod_cast hg.nlon_ge
  have hp := pi_pos
  have hl := hg.nlatm1_pos
  have hf := Nat.lt_floor_add_one (180 / g.resolution)
  have e : ((g.nlat : ℕ) : ℝ) - 1 = ⌊180 / g.resolution⌋₊ := by
    unfold Grid.nlat nlatOf; push_cast; ring
  rw [← e] at hf
  have e2 : 180 / g.resolution = g.nlon / 2 := by
    rw [div_eq_div_iff hg.res_pos.ne' (by norm_num)]; linarith
  rw [e2] at hf
  unfold latStep lonStep
  rw [← mul_div_assoc, div_le_div_iff₀ hl hn]
  nlinarith

/-- C112: integrals converge to second order in the resolution: the error of the integral of a function is bounded by a constant times the square of the
resolution, with the same constant for both schemes and all grids. -/
theorem C112_converges (F : ℝ → ℝ → ℝ) (hF : ContDiff ℝ 2 fun p : ℝ × ℝ => F p.1 p.2) (hper : ∀ φ, F (2 * π) φ = F 0 φ) :
    ∃ C : ℝ, ∀ (g : Grid ℝ), g.Valid → g.resolution * g.nlon = 360 → ∀ m, KnownMethod m →
      ∃ Q, g.quad (.d2 g.nlat g.nlon fun j i => F (g.lam i) (g.phi j)) none m = .ok Q ∧
        |Q - sphereIntegral g.rsphere F| ≤ C * g.rsphere ^ 2 * g.resolution ^ 2 := by
  obtain ⟨C, hC, hB⟩ := exists_derivBounds hF
  refine ⟨(2 * π * (C * 4 + C * π) + π * C) * (π / 180) ^ 2, fun g hg hs m hm => ?_⟩
  obtain ⟨Q, h1, h2⟩ := C112_quad g hg hs m hm F hF hper C C C hB
  refine ⟨Q, h1, h2.trans ?_⟩
  have hp := pi_pos
  have hr := hg.rsphere_pos
  have hstep := latStep_le hg hs
  have h0 : 0 ≤ latStep g := div_nonneg hp.le hg.nlatm1_pos.le
  have hl : lonStep g = g.resolution * (π / 180) := by
    unfold lonStep
    rw [div_eq_iff hg.nlon_pos.ne']
    linear_combination -(π / 180) * hs
  have hsq : latStep g ^ 2 ≤ 4 * lonStep g ^ 2 := by nlinarith
  have hlat : latError g m C C ≤ (C * 4 + C * π) * lonStep g ^ 2 := by
    unfold latError
    split_ifs
    · have : C * latStep g ^ 2 ≤ C * (4 * lonStep g ^ 2) := mul_le_mul_of_nonneg_left hsq hC
      have : 0 ≤ C * π * lonStep g ^ 2 := by positivity
      have : 0 ≤ C * lonStep g ^ 2 := by positivity
      linarith
    · have : C * π * latStep g ^ 2 ≤ C * π * (4 * lonStep g ^ 2) := mul_le_mul_of_nonneg_left hsq (by positivity)
      have : 0 ≤ C * π * lonStep g ^ 2 := by positivity
      have : 0 ≤ C * lonStep g ^ 2 := by positivity
      linarith
  have h3 : 2 * π * latError g m C C + π * C * lonStep g ^ 2 / 3 ≤ (2 * π * (C * 4 + C * π) + π * C) * lonStep g ^ 2 := by
    have := mul_le_mul_of_nonneg_left hlat (by positivity : 0 ≤ 2 * π)
    have : 0 ≤ π * C * lonStep g ^ 2 := by positivity
    linarith
  refine (mul_le_mul_of_nonneg_left h3 (by positivity)).trans (le_of_eq ?_)
  rw [hl]
  ring

/-- Non-vacuity: a function, and grids of every even number of longitudes -/
example : (ContDiff ℝ 2 fun p : ℝ × ℝ => (fun x φ => sin x * cos φ : ℝ → ℝ → ℝ) p.1 p.2) ∧ (∀ φ : ℝ, sin (2 * π) * cos φ = sin 0 * cos φ) ∧
    ∀ k : ℕ, 2 ≤ k → ∃ g : Grid ℝ, g.Valid ∧ g.nlon = 2 * k ∧ g.resolution * g.nlon = 360 := by
  refine ⟨by fun_prop, fun φ => by simp, fun k hk => ⟨⟨180 / k, 1, 1, 0⟩, ?_⟩⟩
  have hk0 : (0 : ℝ) < k := by exact_mod_cast (by omega : 0 < k)
  have h1 : (⟨180 / k, 1, 1, 0⟩ : Grid ℝ).nlon = 2 * k := by
    unfold Grid.nlon nlonOf
    rw [show (360 : ℝ) / (180 / k) = ((2 * k : ℕ) : ℝ) by push_cast; field_simp; norm_num, Nat.floor_natCast]
  have h2 : (⟨180 / k, 1, 1, 0⟩ : Grid ℝ).nlat = k + 1 := by
    unfold Grid.nlat nlatOf
    rw [show (180 : ℝ) / (180 / k) = (k : ℝ) by field_simp, Nat.floor_natCast]
  refine ⟨⟨by positivity, by norm_num, by rw [h1]; omega, by rw [h2]; omega, by simp⟩, h1, ?_⟩
  rw [h1]
  push_cast
  field_simp
  norm_num

end Barotropic
