import Verif.Lemmas.Recon
import Verif.Lemmas.RearrangeExists
import Verif.Props.Zonalize
import Mathlib.MeasureTheory.Integral.IntervalIntegral.Periodic

/-!
# C115: zonalization converges to the rearrangement of the field
-/

namespace Barotropic
open Real Set MeasureTheory Grid

/-- How much the values of a Lipschitz field can differ from those at the nearest gridpoints -/
noncomputable def sampleError (g : Grid ℝ) (Lx Ly : ℝ) : ℝ := (Lx * lonStep g + Ly * latStep g) / 2

section Area
variable {g : Grid ℝ} {Q : ℝ → ℝ → ℝ} {Lx Ly : ℝ}

/-- The reconstructed function on a meridian is close to the field in the cells around the meridian. -/
theorem recon_close (hg : g.Valid) (hQ : LipschitzField Q Lx Ly) {φ : ℝ} (hφ : φ ∈ latitudes) (R : ReconAt g φ) {x x' : ℝ}
    (hx : |x - x'| ≤ lonStep g / 2) : |R.value (fun j => Q x (g.phi j)) - Q x' φ| ≤ sampleError g Lx Ly := by
  have h1 := R.error hg hφ (F := Q x) (hQ.lat x)
  have h2 := hQ.lon x x' φ hφ
  have h3 := mul_le_mul_of_nonneg_left hx hQ.nonneg.1
  have e : R.value (fun j => Q x (g.phi j)) - Q x' φ = (R.value (fun j => Q x (g.phi j)) - Q x φ) + (Q x φ - Q x' φ) := by ring
  rw [e]
  refine (abs_add_le _ _).trans ?_
  unfold sampleError
  linarith

private theorem col_sandwich (hg : g.Valid) {m : String} (hm : KnownMethod m) (hQ : LipschitzField Q Lx Ly) (c : ℝ) {x x' : ℝ}
    (hx : |x - x'| ≤ lonStep g / 2) :
    g.rsphere * meridAbove Q (c + sampleError g Lx Ly) x' ≤ g.colQuad m (fun _ => 1) (fun j => Q x (g.phi j) - c) ∧
    g.colQuad m (fun _ => 1) (fun j => Q x (g.phi j) - c) ≤ g.rsphere * meridAbove Q (c - sampleError g Lx Ly) x' := by
  obtain ⟨R, hR⟩ := exists_recon hg hm
  obtain ⟨G, hG, hi, hv⟩ := hR (fun _ => 1) fun j => Q x (g.phi j) - c
  have hG' : ∀ φ (hφ : φ ∈ latitudes), G φ = if c ≤ (R φ hφ).value (fun j => Q x (g.phi j)) then cos φ else 0 := by
    intro φ hφ
    rw [hG φ hφ, ReconAt.sub_const, ReconAt.const, one_mul]
    simp only [sub_nonneg]
  have hc := hQ.cont
  rw [hv]
  constructor
  · refine mul_le_mul_of_nonneg_left ?_ hg.rsphere_pos.le
    refine intervalIntegral.integral_mono_on poles_le (above_integrable hc _ x' le_rfl poles_le le_rfl) hi fun φ hφ => ?_
    rw [hG' φ hφ]
    have a := abs_le.1 (recon_close hg hQ hφ (R φ hφ) hx)
    have b := cos_lat hφ
    unfold above
    split_ifs with h1 h2
    · rw [one_mul]
    · exact absurd (by linarith [a.1]) h2
    · simpa using b
    · simp
  · refine mul_le_mul_of_nonneg_left ?_ hg.rsphere_pos.le
    refine intervalIntegral.integral_mono_on poles_le hi (above_integrable hc _ x' le_rfl poles_le le_rfl) fun φ hφ => ?_
    rw [hG' φ hφ]
    have a := abs_le.1 (recon_close hg hQ hφ (R φ hφ) hx)
    have b := cos_lat hφ
    unfold above
    split_ifs with h1 h2
    · rw [one_mul]
    · exact absurd (by linarith [a.2]) h2
    · simpa using b
    · simp

theorem meridAbove_periodic (hQ : LipschitzField Q Lx Ly) (c : ℝ) : Function.Periodic (meridAbove Q c) (2 * π) := by
  intro x
  refine intervalIntegral.integral_congr fun φ hφ => ?_
  rw [uIcc_of_le poles_le] at hφ
  unfold above
  rw [hQ.periodic x φ hφ]

theorem lonStep_pos (hg : g.Valid) : 0 < lonStep g := by
  have := hg.nlon_pos
  unfold lonStep
  positivity

theorem lonStep_nlon (hg : g.Valid) : lonStep g * g.nlon = 2 * π := by
  have := hg.nlon_pos
  unfold lonStep
  field_simp

/-- integral over longitude as sum over the cells around the meridians of the grid -/
theorem sum_cells (hg : g.Valid) {f : ℝ → ℝ} (hp : Function.Periodic f (2 * π)) (hf : ∀ a b, IntervalIntegrable f volume a b) :
    ∫ x in (0 : ℝ)..2 * π, f x = ∑ i : Fin g.nlon, ∫ x in g.lam i - lonStep g / 2..g.lam i + lonStep g / 2, f x := by
  have h := intervalIntegral.sum_integral_adjacent_intervals (μ := volume) (f := f) (a := fun i : ℕ => i * lonStep g - lonStep g / 2) (n := g.nlon)
    fun k _ => hf _ _
  have e := hp.intervalIntegral_add_eq 0 (-(lonStep g / 2))
  rw [zero_add] at e
  rw [e]
  rw [show ((0 : ℕ) : ℝ) * lonStep g - lonStep g / 2 = -(lonStep g / 2) by push_cast; ring,
    show ((g.nlon : ℕ) : ℝ) * lonStep g - lonStep g / 2 = -(lonStep g / 2) + 2 * π by rw [← lonStep_nlon hg]; ring] at h
  rw [← h, ← Fin.sum_univ_eq_sum_range (fun k => ∫ x in (k : ℝ) * lonStep g - lonStep g / 2..((k + 1 : ℕ) : ℝ) * lonStep g - lonStep g / 2, f x)]
  refine Finset.sum_congr rfl fun i _ => ?_
  rw [lam_eq hg]
  change _ = ∫ x in (i : ℝ) * lonStep g - lonStep g / 2..(i : ℝ) * lonStep g + lonStep g / 2, f x
  congr 1
  push_cast
  ring

theorem dlam_eq_lonStep (hg : g.Valid) (hs : g.resolution * g.nlon = 360) : g.dlam = lonStep g := by
  have := dlam_nlon_eq hg hs
  unfold lonStep
  rw [eq_div_iff hg.nlon_pos.ne', this]

/-- The area enclosed by a contour on the grid is between the areas enclosed by slightly different contours of the field. -/
theorem contourArea_sandwich (hg : g.Valid) (hs : g.resolution * g.nlon = 360) {m : String} (hm : KnownMethod m) (hQ : LipschitzField Q Lx Ly) (c : ℝ) :
    g.rsphere ^ 2 * areaAbove Q (c + sampleError g Lx Ly) ≤ g.contourArea m (fun j (i : Fin g.nlon) => Q (g.lam i) (g.phi j)) c ∧
    g.contourArea m (fun j (i : Fin g.nlon) => Q (g.lam i) (g.phi j)) c ≤ g.rsphere ^ 2 * areaAbove Q (c - sampleError g Lx Ly) := by
  have hr := hg.rsphere_pos
  have hd := lonStep_pos hg
  have hn := hg.nlon_pos
  have e : g.contourArea m (fun j (i : Fin g.nlon) => Q (g.lam i) (g.phi j)) c
      = ∑ i : Fin g.nlon, g.rsphere * (lonStep g * g.colQuad m (fun _ => 1) fun j => Q (g.lam i) (g.phi j) - c) := by
    unfold contourArea
    rw [div_self hn.ne', mul_one, dlam_eq_lonStep hg hs, Finset.mul_sum]
    exact Finset.sum_congr rfl fun i _ => by ring
  have hc : ∀ (i : Fin g.nlon) (v : ℝ), lonStep g * v = ∫ x in g.lam i - lonStep g / 2..g.lam i + lonStep g / 2, v := by
    intro i v
    rw [intervalIntegral.integral_const, smul_eq_mul]
    ring
  have hx : ∀ (i : Fin g.nlon) (x : ℝ), x ∈ Icc (g.lam i - lonStep g / 2) (g.lam i + lonStep g / 2) → |g.lam i - x| ≤ lonStep g / 2 := by
    intro i x hx
    rw [abs_le]
    constructor <;> linarith [hx.1, hx.2]
  have hcf := hQ.cont
  rw [e, areaAbove_eq, areaAbove_eq, sum_cells hg (meridAbove_periodic hQ _) (meridAbove_integrable hcf _),
    sum_cells hg (meridAbove_periodic hQ _) (meridAbove_integrable hcf _), Finset.mul_sum, Finset.mul_sum]
  constructor
  · refine Finset.sum_le_sum fun i _ => ?_
    rw [sq, mul_assoc]
    refine mul_le_mul_of_nonneg_left ?_ hr.le
    rw [hc i, ← intervalIntegral.integral_const_mul]
    exact intervalIntegral.integral_mono_on (by linarith) ((meridAbove_integrable hcf _ _ _).const_mul _) intervalIntegrable_const
      fun x h => (col_sandwich hg hm hQ c (hx i x h)).1
  · refine Finset.sum_le_sum fun i _ => ?_
    rw [sq, mul_assoc]
    refine mul_le_mul_of_nonneg_left ?_ hr.le
    rw [hc i, ← intervalIntegral.integral_const_mul]
    exact intervalIntegral.integral_mono_on (by linarith) intervalIntegrable_const ((meridAbove_integrable hcf _ _ _).const_mul _)
      fun x h => (col_sandwich hg hm hQ c (hx i x h)).2

end Area

section Knots
variable {g : Grid ℝ} {Q : ℝ → ℝ → ℝ} {Lx Ly : ℝ} {P : ℝ → ℝ}

/-- The profile `P` passes the value `q` at the latitude `y`, up to `ε`. -/
def Brackets (P : ℝ → ℝ) (ε y q : ℝ) : Prop := ∀ φ ∈ latitudes, (y ≤ φ → q - ε ≤ P φ) ∧ (φ ≤ y → P φ ≤ q + ε)

/-- latitudes slightly north of a latitude -/
theorem perturb_north (hP : ContinuousOn P latitudes) {φ c : ℝ} (hφ : φ ∈ latitudes) (h1 : φ < π / 2) (h : P φ < c) :
    ∃ φ' ∈ latitudes, φ < φ' ∧ P φ' < c := by
  have h2 : ∀ᶠ ψ in nhdsWithin φ (Ioc φ (π / 2)), P ψ < c :=
    ((hP φ hφ).mono fun ψ hψ => ⟨hφ.1.trans hψ.1.le, hψ.2⟩).eventually (gt_mem_nhds h)
  have := left_nhdsWithin_Ioc_neBot h1
  obtain ⟨ψ, a, b⟩ := (h2.and self_mem_nhdsWithin).exists
  exact ⟨ψ, ⟨hφ.1.trans b.1.le, b.2⟩, b.1, a⟩

theorem perturb_south (hP : ContinuousOn P latitudes) {φ c : ℝ} (hφ : φ ∈ latitudes) (h1 : -(π / 2) < φ) (h : c < P φ) :
    ∃ φ' ∈ latitudes, φ' < φ ∧ c < P φ' := by
  have h2 : ∀ᶠ ψ in nhdsWithin φ (Ico (-(π / 2)) φ), c < P ψ :=
    ((hP φ hφ).mono fun ψ hψ => ⟨hψ.1, hψ.2.le.trans hφ.2⟩).eventually (lt_mem_nhds h)
  have := right_nhdsWithin_Ico_neBot h1
  obtain ⟨ψ, a, b⟩ := (h2.and self_mem_nhdsWithin).exists
  exact ⟨ψ, ⟨b.1, b.2.le.trans hφ.2⟩, b.2, a⟩

theorem cap_lt {φ φ' : ℝ} (hφ : φ ∈ latitudes) (hφ' : φ' ∈ latitudes) (h : φ < φ') : 2 * π * (1 - sin φ') < 2 * π * (1 - sin φ) := by
  have := strictMonoOn_sin hφ hφ' h
  have := pi_pos
  nlinarith

/-- A latitude whose polar cap has the size of the area above `q`, up to `ε` -/
theorem brackets_of_area (hP : IsRearrangement Q P) {ε y q : ℝ} (hy0 : -(π / 2) < y) (hy1 : y < π / 2)
    (h0 : areaAbove Q (q + ε) ≤ 2 * π * (1 - sin y)) (h1 : 2 * π * (1 - sin y) ≤ areaAbove Q (q - ε)) : Brackets P ε y q := by
  have hy : y ∈ latitudes := ⟨hy0.le, hy1.le⟩
  rw [hP.area] at h0 h1
  intro φ hφ
  constructor
  · intro h
    by_contra hc
    rw [not_le] at hc
    obtain ⟨ψ, a, b, c⟩ : ∃ ψ ∈ latitudes, y < ψ ∧ P ψ < q - ε := by
      rcases eq_or_lt_of_le h with rfl | h
      · exact perturb_north hP.continuous hφ hy1 hc
      · exact ⟨φ, hφ, h, hc⟩
    exact absurd ((area_profile_le hP.continuous hP.increasing a c).trans_lt (cap_lt hy a b)) (not_lt.2 h1)
  · intro h
    by_contra hc
    rw [not_le] at hc
    obtain ⟨ψ, a, b, c⟩ : ∃ ψ ∈ latitudes, ψ < y ∧ q + ε < P ψ := by
      rcases eq_or_lt_of_le h with rfl | h
      · exact perturb_south hP.continuous hφ hy0 hc
      · exact ⟨φ, hφ, h, hc⟩
    exact absurd ((cap_lt a hy b).trans_le (area_profile_ge hP.continuous hP.increasing a c.le)) (not_lt.2 h0)

variable (hg : g.Valid) (hs : g.resolution * g.nlon = 360) {m : String} (hm : KnownMethod m) (hQ : LipschitzField Q Lx Ly) (hP : IsRearrangement Q P)
include hg hs hm hQ hP

/-- the field on the grid -/
local notation "F" => fun (j : Fin g.nlat) (i : Fin g.nlon) => Q (g.lam i) (g.phi j)

theorem brackets_contour {q : ℝ} (h0 : ∃ j i, F j i < q) (h1 : ∃ j i, q < F j i) :
    Brackets P (sampleError g Lx Ly) (deg2rad (g.eqLat (g.contourArea m F q))) q := by
  have hr := hg.rsphere_pos
  have hp := pi_pos
  obtain ⟨a, b, c⟩ := eqLat_interior hr (contourArea_pos hg m F h1) (contourArea_lt hg m F h0)
  obtain ⟨s0, s1⟩ := contourArea_sandwich hg hs hm hQ q
  rw [← c] at s0 s1
  have hr2 : 0 < g.rsphere ^ 2 := by positivity
  refine brackets_of_area hP ?_ ?_ ?_ ?_
  · unfold deg2rad; nlinarith
  · unfold deg2rad; nlinarith
  · exact le_of_mul_le_mul_left (s0.trans (le_of_eq (by ring))) hr2
  · exact le_of_mul_le_mul_left ((le_of_eq (by ring)).trans s1) hr2

/-- The value at the North Pole is the maximum on the grid. -/
theorem brackets_north : Brackets P (sampleError g Lx Ly) (π / 2) (fieldMax F) := by
  have hr := hg.rsphere_pos
  have hr2 : 0 < g.rsphere ^ 2 := by positivity
  have hp := pi_pos
  have hn : π / 2 ∈ latitudes := ⟨by linarith, le_rfl⟩
  have hh : 0 < g.nlat := by have := hg.nlat_ge; omega
  have hw : 0 < g.nlon := by have := hg.nlon_ge; omega
  obtain ⟨j1, i1, e1⟩ := fieldMax_attained hh hw F
  have hlow : fieldMax F - sampleError g Lx Ly ≤ P (π / 2) := by
    refine le_of_forall_lt fun c hc => ?_
    obtain ⟨q, q1, q2⟩ := exists_between (show c + sampleError g Lx Ly < fieldMax F by linarith)
    by_contra hcon
    rw [not_lt] at hcon
    have a := contourArea_pos hg m F (q := q) ⟨j1, i1, by rw [e1]; exact q2⟩
    have b := (contourArea_sandwich hg hs hm hQ q).2
    have d := area_profile_le hP.continuous hP.increasing hn (c := q - sampleError g Lx Ly) (by linarith)
    rw [sin_pi_div_two, ← hP.area] at d
    nlinarith
  have hup : P (π / 2) ≤ fieldMax F + sampleError g Lx Ly := by
    refine le_of_forall_gt fun c hc => ?_
    by_contra hcon
    rw [not_lt] at hcon
    obtain ⟨q, q1, q2⟩ := exists_between (show fieldMax F < c - sampleError g Lx Ly by linarith)
    obtain ⟨ψ, a1, a2, a3⟩ := perturb_south hP.continuous hn (by linarith) (c := q + sampleError g Lx Ly) (by linarith)
    have a := contourArea_none hg m F (q := q) fun j i => (le_fieldMax F j i).trans_lt q1
    have b := (contourArea_sandwich hg hs hm hQ q).1
    have d := area_profile_ge hP.continuous hP.increasing a1 a3.le
    rw [← hP.area] at d
    have e := cap_lt a1 hn a2
    rw [sin_pi_div_two] at e
    nlinarith
  intro φ hφ
  constructor
  · intro h
    rw [show φ = π / 2 from le_antisymm hφ.2 h]
    exact hlow
  · intro h
    exact (hP.increasing hφ hn hφ.2).trans hup

/-- The value at the South Pole is the minimum on the grid. -/
theorem brackets_south : Brackets P (sampleError g Lx Ly) (-(π / 2)) (fieldMin F) := by
  have hr := hg.rsphere_pos
  have hr2 : 0 < g.rsphere ^ 2 := by positivity
  have hp := pi_pos
  have hn : -(π / 2) ∈ latitudes := ⟨le_rfl, by linarith⟩
  have hh : 0 < g.nlat := by have := hg.nlat_ge; omega
  have hw : 0 < g.nlon := by have := hg.nlon_ge; omega
  obtain ⟨j0, i0, e0⟩ := fieldMin_attained hh hw F
  have hup : P (-(π / 2)) ≤ fieldMin F + sampleError g Lx Ly := by
    refine le_of_forall_gt fun c hc => ?_
    obtain ⟨q, q1, q2⟩ := exists_between (show fieldMin F < c - sampleError g Lx Ly by linarith)
    by_contra hcon
    rw [not_lt] at hcon
    have a := contourArea_lt hg m F (q := q) ⟨j0, i0, by rw [e0]; exact q1⟩
    have b := (contourArea_sandwich hg hs hm hQ q).1
    have d := area_profile_ge hP.continuous hP.increasing hn (c := q + sampleError g Lx Ly) (by linarith)
    rw [sin_neg, sin_pi_div_two, ← hP.area] at d
    nlinarith
  have hlow : fieldMin F - sampleError g Lx Ly ≤ P (-(π / 2)) := by
    by_contra hcon
    rw [not_le] at hcon
    obtain ⟨ψ, a1, a2, a3⟩ := perturb_north hP.continuous hn (by linarith) hcon
    have a := contourArea_all hg (by omega : g.nlon ≠ 0) m F (q := fieldMin F) fun j i => fieldMin_le F j i
    rw [dlam_nlon_eq hg hs] at a
    have b := (contourArea_sandwich hg hs hm hQ (fieldMin F)).2
    have d := area_profile_le hP.continuous hP.increasing a1 a3
    rw [← hP.area] at d
    have e := cap_lt hn a1 a2
    rw [sin_neg, sin_pi_div_two] at e
    nlinarith
  intro φ hφ
  constructor
  · intro h
    exact hlow.trans (hP.increasing hn hφ hφ.1)
  · intro h
    rw [show φ = -(π / 2) from le_antisymm h hφ.1]
    exact hup

end Knots

/-- Interpolation between values that a profile passes -/
theorem npInterp_brackets {P : ℝ → ℝ} {ε δ : ℝ} (hδ : 0 ≤ δ) (x : ℝ) (hx : deg2rad x ∈ latitudes) :
    ∀ (l : List (ℝ × ℝ)) (a : ℝ × ℝ), (a :: l).IsChain (fun p q => p.2 ≤ q.2 ∧ q.2 - p.2 ≤ δ) →
      (∀ p ∈ a :: l, Brackets P ε (deg2rad p.1) p.2) → a.1 ≤ x → x ≤ ((a :: l).getLast (by simp)).1 →
      |npInterp lerp a l x - P (deg2rad x)| ≤ ε + δ := by
  have hmono : ∀ {s t : ℝ}, s ≤ t → deg2rad s ≤ deg2rad t := fun h => by
    unfold deg2rad
    have := pi_pos
    gcongr
  intro l
  induction l with
  | nil =>
    intro a _ hb h0 h1
    simp only [List.getLast_singleton] at h1
    obtain ⟨b1, b2⟩ := hb a (by simp) _ hx
    have b1 := b1 (hmono h0)
    have b2 := b2 (hmono h1)
    unfold npInterp
    rw [abs_le]
    constructor <;> linarith
  | cons b l ih =>
    intro a hc hb h0 h1
    rw [List.isChain_cons_cons] at hc
    unfold npInterp
    split_ifs with h2 h3
    · exact ih b hc.2 (fun p hp => hb p (List.mem_cons_of_mem _ hp)) h2 (by simpa using h1)
    · obtain ⟨b1, b2⟩ := hb a (by simp) _ hx
      have b1 := b1 (hmono h0)
      have b2 := b2 (by rw [h3])
      rw [abs_le]
      constructor <;> linarith
    · rw [not_le] at h2
      have h4 : a.1 < b.1 := h0.trans_lt h2
      have l1 := lerp_ge h4 h0 h2.le (y0 := a.2) (y1 := b.2) le_rfl hc.1.1
      have l2 := lerp_le h4 h0 h2.le (y0 := a.2) (y1 := b.2) hc.1.1 le_rfl
      have b1 := (hb a (by simp) _ hx).1 (hmono h0)
      have b2 := (hb b (by simp) _ hx).2 (hmono h2.le)
      have := hc.1.2
      rw [abs_le]
      constructor <;> linarith

/-- contours with the extremes of the field -/
private noncomputable def allLevels (lo hi : ℝ) (n k : ℕ) : ℝ := 1 / 2 * ((hi - lo) * sin (1 / 2 * π * linspace (-1) 1 (n + 2) k) + lo + hi)

private theorem allLevels_eq (n k : ℕ) : linspace (-1 : ℝ) 1 (n + 2) k = -1 + k * (2 / (n + 1)) := by
  unfold linspace
  push_cast
  rw [show (n : ℝ) + 2 - 1 = n + 1 by ring]
  ring

private theorem allLevels_step {lo hi : ℝ} (h : lo ≤ hi) {n k : ℕ} (hk : k ≤ n) :
    allLevels lo hi n k ≤ allLevels lo hi n (k + 1) ∧ allLevels lo hi n (k + 1) - allLevels lo hi n k ≤ π * (hi - lo) / (2 * (n + 1)) := by
  have hp := pi_pos
  have hn : (0 : ℝ) < n + 1 := by positivity
  have hk' : (k : ℝ) ≤ n := by exact_mod_cast hk
  have e : ∀ k : ℕ, 1 / 2 * π * linspace (-1) 1 (n + 2) k = -(π / 2) + k * (π / (n + 1)) := by
    intro k; rw [allLevels_eq]; field_simp
  have hs : sin (-(π / 2) + k * (π / (n + 1))) ≤ sin (-(π / 2) + (k + 1 : ℕ) * (π / (n + 1))) := by
    have h3 : ((k + 1 : ℕ) : ℝ) * (π / (n + 1)) ≤ π := by
      rw [mul_div_assoc', div_le_iff₀ hn]
      push_cast
      nlinarith
    refine strictMonoOn_sin.monotoneOn ⟨by have : 0 ≤ (k : ℝ) * (π / (n + 1)) := by positivity
                                           linarith, ?_⟩ ⟨?_, ?_⟩ ?_
    · have : (k : ℝ) * (π / (n + 1)) ≤ ((k + 1 : ℕ) : ℝ) * (π / (n + 1)) := by push_cast; gcongr; linarith
      linarith
    · have : 0 ≤ ((k + 1 : ℕ) : ℝ) * (π / (n + 1)) := by positivity
      linarith
    · linarith
    · push_cast; gcongr; linarith
  have hd : sin (-(π / 2) + (k + 1 : ℕ) * (π / (n + 1))) - sin (-(π / 2) + k * (π / (n + 1))) ≤ π / (n + 1) := by
    have := abs_sin_sub_sin_le (-(π / 2) + (k + 1 : ℕ) * (π / (n + 1))) (-(π / 2) + k * (π / (n + 1)))
    have e2 : (-(π / 2) + ((k + 1 : ℕ) : ℝ) * (π / (n + 1))) - (-(π / 2) + k * (π / (n + 1))) = π / (n + 1) := by push_cast; ring
    rw [e2, abs_of_pos (by positivity : 0 < π / ((n : ℝ) + 1))] at this
    exact (le_abs_self _).trans this
  unfold allLevels
  rw [e, e]
  constructor
  · nlinarith
  · have := mul_le_mul_of_nonneg_left hd (sub_nonneg.2 h)
    have e3 : π * (hi - lo) / (2 * (n + 1)) = 1 / 2 * ((hi - lo) * (π / (n + 1))) := by field_simp
    rw [e3]
    linarith

/-- How many contours `zonalize` chooses -/
def ContourCount (g : Grid ℝ) (levels : Levels) (m : String) (n : ℕ) : Prop :=
  (levels = .int n ∧ 1 ≤ n) ∨ (levels = .none ∧ n = if m = "boxcount" then 2 * g.nlat else g.nlat)

/-- C115: the equivalent latitude of every contour is where the rearranged field has the value of the contour, up to the distance of the gridpoints. -/
theorem C115_contours (g : Grid ℝ) (hg : g.Valid) (hs : g.resolution * g.nlon = 360) (m : String) (hm : KnownMethod m) (Q : ℝ → ℝ → ℝ) (Lx Ly : ℝ)
    (hQ : LipschitzField Q Lx Ly) (P : ℝ → ℝ) (hP : IsRearrangement Q P) (qs : List ℝ) (hqs : qs ≠ [])
    (hin : ∀ q ∈ qs, (∃ (j : Fin g.nlat) (i : Fin g.nlon), Q (g.lam i) (g.phi j) < q) ∧ ∃ (j : Fin g.nlat) (i : Fin g.nlon), q < Q (g.lam i) (g.phi j)) :
    ∃ out, g.zonalizeContours (fun j (i : Fin g.nlon) => Q (g.lam i) (g.phi j)) (.array qs) m = .ok out ∧ out.map Prod.fst = qs ∧
      ∀ c ∈ out, |P (deg2rad c.2) - c.1| ≤ (Lx * lonStep g + Ly * latStep g) / 2 := by
  have hw : g.nlon ≠ 0 := by have := hg.nlon_ge; omega
  have hm' : g.OkMethod m g.nlon := hm.imp_right fun h => ⟨h, le_rfl⟩
  refine ⟨_, zonalizeContours_ok hw hm' _ hqs, ?_, ?_⟩
  · show List.map _ (List.map _ qs) = qs
    rw [List.map_map]
    exact List.map_id qs
  · intro c hc
    obtain ⟨q, hq, rfl⟩ := List.mem_map.1 hc
    have hp := pi_pos
    obtain ⟨e0, e1⟩ := eqLat_mem (g := g) (g.contourArea m (fun j (i : Fin g.nlon) => Q (g.lam i) (g.phi j)) q)
    obtain ⟨b1, b2⟩ := brackets_contour hg hs hm hQ hP (hin q hq).1 (hin q hq).2 _
      (show deg2rad (g.eqLat (g.contourArea m (fun j (i : Fin g.nlon) => Q (g.lam i) (g.phi j)) q)) ∈ latitudes by
        unfold deg2rad
        constructor <;> nlinarith)
    have b1 := b1 le_rfl
    have b2 := b2 le_rfl
    unfold sampleError at b1 b2
    dsimp only
    rw [abs_le]
    constructor <;> linarith

/-- The knots between which the profile is interpolated -/
theorem zonal_knots (g : Grid ℝ) (hg : g.Valid) (hs : g.resolution * g.nlon = 360) (m : String) (hm : KnownMethod m) (Q : ℝ → ℝ → ℝ) (Lx Ly : ℝ)
    (hQ : LipschitzField Q Lx Ly) (P : ℝ → ℝ) (hP : IsRearrangement Q P) (levels : Levels) (n : ℕ) (hn : ContourCount g levels m n)
    (f : Fin g.nlat → Fin g.nlon → ℝ) (hf : f = fun (j : Fin g.nlat) (i : Fin g.nlon) => Q (g.lam i) (g.phi j)) (out : List (ℝ × ℝ))
    (hout' : out = (g.contourLevels f levels m).map fun q => (q, g.eqLat (g.contourArea m f q))) :
    g.zonalizeContours f levels m = .ok out ∧ fieldMax f - fieldMin f ≤ 2 * π * Lx + π * Ly ∧
      (∃ a l, meridionalKnots (out.map Prod.swap) (fieldMax f) (fieldMin f) = a :: l ∧ ∀ x, -90 ≤ x → x ≤ 90 →
        |npInterp lerp a l x - P (deg2rad x)| ≤ (Lx * lonStep g + Ly * latStep g) / 2 + π * (2 * π * Lx + π * Ly) / (2 * (n + 1)) ∧
        fieldMin f ≤ npInterp lerp a l x ∧ npInterp lerp a l x ≤ fieldMax f) ∧
      (fieldMin f < fieldMax f →
        ((-90, fieldMin f) :: (out.map Prod.swap ++ [(90, fieldMax f)])).IsChain
          (fun p q => p.2 ≤ q.2 ∧ q.2 - p.2 ≤ π * (2 * π * Lx + π * Ly) / (2 * (n + 1))) ∧
        ∀ p ∈ (-90, fieldMin f) :: (out.map Prod.swap ++ [(90, fieldMax f)]), Brackets P (sampleError g Lx Ly) (deg2rad p.1) p.2) := by
  have hp := pi_pos
  have hr := hg.rsphere_pos
  have hh : 0 < g.nlat := by have := hg.nlat_ge; omega
  have hw : 0 < g.nlon := by have := hg.nlon_ge; omega
  have hm' : g.OkMethod m g.nlon := hm.imp_right fun h => ⟨h, le_rfl⟩
  obtain ⟨nx, ny⟩ := hQ.nonneg
  have hn0 : 0 < n := by
    rcases hn with ⟨-, h⟩ | ⟨-, rfl⟩
    · exact h
    · split_ifs <;> omega
  have hlv : g.contourLevels f levels m = (List.range n).map (autoLevel (fieldMin f) (fieldMax f) n) := by
    unfold contourLevels
    rcases hn with ⟨rfl, -⟩ | ⟨rfl, rfl⟩
    · simp
    · dsimp only
      have : (g.nlat * if m = "boxcount" then 2 else 1) = if m = "boxcount" then 2 * g.nlat else g.nlat := by split_ifs <;> omega
      rw [this]
  obtain ⟨j0, i0, h0⟩ := fieldMin_attained hh hw f
  obtain ⟨j1, i1, h1⟩ := fieldMax_attained hh hw f
  have hmm : fieldMin f ≤ fieldMax f := by rw [← h0]; exact le_fieldMax f j0 i0
  -- range of the field
  have hrange : fieldMax f - fieldMin f ≤ 2 * π * Lx + π * Ly := by
    rw [← h0, ← h1, hf]
    dsimp only
    have hlam : ∀ i : Fin g.nlon, 0 ≤ g.lam i ∧ g.lam i ≤ 2 * π := by
      intro i
      rw [lam_eq hg]
      have h3 : (i : ℝ) ≤ g.nlon := by exact_mod_cast i.2.le
      have h4 := lonStep_pos hg
      have h5 := lonStep_nlon hg
      change 0 ≤ (i : ℝ) * lonStep g ∧ (i : ℝ) * lonStep g ≤ _
      exact ⟨by positivity, by nlinarith⟩
    have a := hQ.lon (g.lam i1) (g.lam i0) _ (phi_mem hg j1.2)
    have b := hQ.lat (g.lam i0) _ (phi_mem hg j1.2) _ (phi_mem hg j0.2)
    have d1 : |g.lam i1 - g.lam i0| ≤ 2 * π := by
      have := hlam i0
      have := hlam i1
      rw [abs_le]; constructor <;> linarith
    have d2 : |g.phi j1 - g.phi j0| ≤ π := by
      have := phi_mem hg j0.2
      have := phi_mem hg j1.2
      rw [abs_le]; constructor <;> linarith
    have := mul_le_mul_of_nonneg_left d1 nx
    have := mul_le_mul_of_nonneg_left d2 ny
    have := le_abs_self (Q (g.lam i1) (g.phi j1) - Q (g.lam i0) (g.phi j1))
    have := le_abs_self (Q (g.lam i0) (g.phi j1) - Q (g.lam i0) (g.phi j0))
    linarith
  have hδ : 0 ≤ π * (2 * π * Lx + π * Ly) / (2 * (n + 1)) := by positivity
  have hN := brackets_north hg hs hm hQ hP
  have hS := brackets_south hg hs hm hQ hP
  rw [← hf] at hN hS
  have hdeg : ∀ x : ℝ, -90 ≤ x → x ≤ 90 → deg2rad x ∈ latitudes := by
    intro x h0 h1
    unfold deg2rad
    constructor <;> nlinarith
  have hne : g.contourLevels f levels m ≠ [] := by
    rw [hlv]; intro hc; have := congrArg List.length hc; simp at this; omega
  have hout : g.zonalizeContours f levels m = .ok out := by rw [hout']; exact zonalizeContours_ok hw.ne' hm' f hne
  refine ⟨hout, hrange, ?_⟩
  rcases eq_or_lt_of_le hmm with hc | hlt
  · -- constant field
    refine ⟨?_, fun h => absurd hc h.ne⟩
    have hperm := sortKnots_perm ((90, fieldMax f) :: out.map Prod.swap ++ [(-90, fieldMin f)])
    have hsort := sortKnots_pairwise ((90, fieldMax f) :: out.map Prod.swap ++ [(-90, fieldMin f)])
    have hval : ∀ p ∈ (90, fieldMax f) :: out.map Prod.swap ++ [(-90, fieldMin f)], p.2 = fieldMin f := by
      intro p hp
      simp only [List.mem_append, List.mem_cons, List.mem_map, List.not_mem_nil, or_false] at hp
      rcases hp with (rfl | ⟨p', hp', rfl⟩) | rfl
      · exact hc.symm
      · rw [hout', hlv, List.map_map] at hp'
        obtain ⟨k, -, rfl⟩ := List.mem_map.1 hp'
        show autoLevel _ _ _ _ = _
        rw [← hc]
        unfold autoLevel
        ring
      · rfl
    match hk : sortKnots ((90, fieldMax f) :: out.map Prod.swap ++ [(-90, fieldMin f)]) with
    | [] => rw [hk] at hperm; simpa using hperm.length_eq
    | a :: l =>
      rw [hk] at hperm hsort
      refine ⟨a, l, hk, fun x h0 h1 => ?_⟩
      have ha : a.1 ≤ x := by
        refine le_trans ?_ h0
        have hmem : (-90, fieldMin f) ∈ a :: l := hperm.mem_iff.2 (by simp)
        rcases List.mem_cons.1 hmem with h | h
        · rw [← h]
        · exact (List.pairwise_cons.1 hsort).1 _ h
      have hge := npInterp_ge (m := fieldMin f) a l ha fun p hp => (hval p (hperm.mem_iff.1 hp)).ge
      have hle := npInterp_le (m := fieldMin f) a l ha fun p hp => (hval p (hperm.mem_iff.1 hp)).le
      have hφ := hdeg x h0 h1
      have b1 := (hS _ hφ).1 hφ.1
      have b2 := (hN _ hφ).2 hφ.2
      unfold sampleError at b1 b2
      refine ⟨?_, hge, hle.trans hmm⟩
      rw [abs_le]
      constructor <;> linarith
  · have hq : ∀ q ∈ g.contourLevels f levels m, fieldMin f < q ∧ q < fieldMax f := by
      intro q hq
      rw [hlv] at hq
      obtain ⟨k, hk, rfl⟩ := List.mem_map.1 hq
      exact autoLevel_mem hlt (List.mem_range.1 hk)
    have hqs : (g.contourLevels f levels m).Pairwise (· ≤ ·) := by
      rw [hlv, List.pairwise_map]
      refine List.Pairwise.imp_of_mem ?_ (List.pairwise_lt_range (n := n))
      intro a b ha hb hab
      exact autoLevel_mono hmm hab.le (List.mem_range.1 hb)
    have hbr : ∀ p ∈ out, Brackets P (sampleError g Lx Ly) (deg2rad p.2) p.1 := by
      intro p hp
      rw [hout'] at hp
      obtain ⟨q, hq', rfl⟩ := List.mem_map.1 hp
      have u := (hq q hq').1
      have v := (hq q hq').2
      rw [← h0] at u
      rw [← h1] at v
      have := brackets_contour hg hs hm hQ hP (q := q) ⟨j0, i0, by rw [hf] at u; exact u⟩ ⟨j1, i1, by rw [hf] at v; exact v⟩
      rw [← hf] at this
      exact this
    have hk : meridionalKnots (out.map Prod.swap) (fieldMax f) (fieldMin f)
        = (-90, fieldMin f) :: (out.map Prod.swap ++ [(90, fieldMax f)]) := by
      apply meridionalKnots_sorted
      · rw [hout', List.map_map, List.pairwise_map]
        exact hqs.imp fun h => eqLat_antitone hr (contourArea_antitone hg m f h)
      · intro p hp
        rw [hout', List.map_map] at hp
        obtain ⟨q, hq', rfl⟩ := List.mem_map.1 hp
        have := eqLat_interior hr (contourArea_pos hg m f ⟨j1, i1, h1 ▸ (hq q hq').2⟩)
          (contourArea_lt hg m f ⟨j0, i0, h0 ▸ (hq q hq').1⟩)
        exact ⟨this.1, this.2.1⟩
    have hchain : ((-90, fieldMin f) :: (out.map Prod.swap ++ [(90, fieldMax f)])).IsChain
        (fun p q => p.2 ≤ q.2 ∧ q.2 - p.2 ≤ π * (2 * π * Lx + π * Ly) / (2 * (n + 1))) := by
      -- distances of the contours
      have hvals : (((-90 : ℝ), fieldMin f) :: (out.map Prod.swap ++ [(90, fieldMax f)])).map Prod.snd
          = (List.range (n + 2)).map (allLevels (fieldMin f) (fieldMax f) n) := by
        rw [List.range_succ, List.range_succ_eq_map]
        simp only [List.map_cons, List.map_append, List.map_map, List.map_nil, List.cons_append]
        have e0 : allLevels (fieldMin f) (fieldMax f) n 0 = fieldMin f := by
          unfold allLevels
          rw [allLevels_eq]
          push_cast
          rw [show 1 / 2 * π * (-1 + 0 * (2 / ((n : ℝ) + 1))) = -(π / 2) by ring, sin_neg, sin_pi_div_two]
          ring
        have e1 : allLevels (fieldMin f) (fieldMax f) n (n + 1) = fieldMax f := by
          unfold allLevels
          rw [allLevels_eq]
          push_cast
          rw [show 1 / 2 * π * (-1 + ((n : ℝ) + 1) * (2 / ((n : ℝ) + 1))) = π / 2 by field_simp; ring, sin_pi_div_two]
          ring
        rw [e0, e1, hout', hlv, List.map_map, List.map_map]
        rfl
      have hch : ((List.range (n + 2)).map (allLevels (fieldMin f) (fieldMax f) n)).IsChain
          (fun p q => p ≤ q ∧ q - p ≤ π * (2 * π * Lx + π * Ly) / (2 * (n + 1))) := by
        rw [List.isChain_map]
        rw [List.isChain_range]
        intro k hk
        obtain ⟨a, b⟩ := allLevels_step hmm (n := n) (k := k) (by omega)
        refine ⟨a, b.trans ?_⟩
        gcongr
      rw [← hvals, List.isChain_map] at hch
      exact hch
    have hbrk : ∀ p ∈ (-90, fieldMin f) :: (out.map Prod.swap ++ [(90, fieldMax f)]), Brackets P (sampleError g Lx Ly) (deg2rad p.1) p.2 := by
      intro p hp
      simp only [List.mem_append, List.mem_cons, List.mem_map, List.not_mem_nil, or_false] at hp
      rcases hp with rfl | ⟨p', hp', rfl⟩ | rfl
      · rw [show deg2rad (-90, fieldMin f).1 = -(π / 2) by unfold deg2rad; ring]
        exact hS
      · exact hbr p' hp'
      · rw [show deg2rad (90, fieldMax f).1 = π / 2 by unfold deg2rad; ring]
        exact hN
    refine ⟨⟨_, _, hk, fun x h0 h1 => ⟨?_, ?_⟩⟩, fun _ => ⟨hchain, hbrk⟩⟩
    · refine npInterp_brackets (P := P) hδ x (hdeg x h0 h1) _ _ hchain hbrk h0 ?_
      simp only [List.getLast_cons (show out.map Prod.swap ++ [(90, fieldMax f)] ≠ [] by simp), List.getLast_append_singleton]
      exact h1
    · have hrg : ∀ p ∈ (-90, fieldMin f) :: (out.map Prod.swap ++ [(90, fieldMax f)]), fieldMin f ≤ p.2 ∧ p.2 ≤ fieldMax f := by
        intro p hp
        simp only [List.mem_append, List.mem_cons, List.mem_map, List.not_mem_nil, or_false] at hp
        rcases hp with rfl | ⟨p', hp', rfl⟩ | rfl
        · exact ⟨le_rfl, hmm⟩
        · rw [hout'] at hp'
          obtain ⟨q, hq', rfl⟩ := List.mem_map.1 hp'
          exact ⟨(hq q hq').1.le, (hq q hq').2.le⟩
        · exact ⟨hmm, le_rfl⟩
      exact ⟨npInterp_ge _ _ h0 fun p hp => (hrg p hp).1, npInterp_le _ _ h0 fun p hp => (hrg p hp).2⟩

/-- C115: the interpolated profile is the rearranged field, up to the distance of the gridpoints and of the contours. -/
theorem C115_profile (g : Grid ℝ) (hg : g.Valid) (hs : g.resolution * g.nlon = 360) (m : String) (hm : KnownMethod m) (Q : ℝ → ℝ → ℝ) (Lx Ly : ℝ)
    (hQ : LipschitzField Q Lx Ly) (P : ℝ → ℝ) (hP : IsRearrangement Q P) (levels : Levels) (n : ℕ) (hn : ContourCount g levels m n) :
    ∃ R, g.zonalize (fun j (i : Fin g.nlon) => Q (g.lam i) (g.phi j)) levels m = .ok R ∧
      ∀ j : Fin g.nlat, |R j - P (g.phi j)| ≤ (Lx * lonStep g + Ly * latStep g) / 2 + π * (2 * π * Lx + π * Ly) / (2 * (n + 1)) := by
  obtain ⟨hout, -, ⟨a, l, hk, hE⟩, -⟩ := zonal_knots g hg hs m hm Q Lx Ly hQ P hP levels n hn _ rfl _ rfl
  refine ⟨fun j => npInterp lerp a l (g.lat j), ?_, fun j => ?_⟩
  · unfold zonalize
    rw [hout]
    dsimp only
    rw [hk]
  · have hlat := g.lat_mem hg j.2
    exact (hE (g.lat j) hlat.1 hlat.2).1

/-- C115: profiles converge with the resolution of the grid, in the same way for all fields with the same bounds of the gradient. -/
theorem C115_uniform (Lx Ly : ℝ) : ∃ C : ℝ, 0 ≤ C ∧ ∀ (Q : ℝ → ℝ → ℝ), LipschitzField Q Lx Ly → ∀ (P : ℝ → ℝ), IsRearrangement Q P →
    ∀ (g : Grid ℝ), g.Valid → g.resolution * g.nlon = 360 → ∀ m, KnownMethod m →
      ∃ R, g.zonalize (fun j (i : Fin g.nlon) => Q (g.lam i) (g.phi j)) .none m = .ok R ∧
        ∀ j : Fin g.nlat, |R j - P (g.phi j)| ≤ C * g.resolution := by
  have hp := pi_pos
  refine ⟨|((Lx + 2 * Ly) / 2 + (2 * π * Lx + π * Ly)) * (π / 180)|, abs_nonneg _, fun Q hQ P hP g hg hs m hm => ?_⟩
  obtain ⟨nx, ny⟩ := hQ.nonneg
  rw [abs_of_nonneg (by positivity)]
  obtain ⟨R, h1, h2⟩ := C115_profile g hg hs m hm Q Lx Ly hQ P hP .none _ (.inr ⟨rfl, rfl⟩)
  refine ⟨R, h1, fun j => (h2 j).trans ?_⟩
  have hl : lonStep g = g.resolution * (π / 180) := by
    unfold lonStep
    rw [div_eq_iff hg.nlon_pos.ne']
    linear_combination -(π / 180) * hs
  have hd := hg.nlatm1_pos
  have h3 := latStep_le hg hs
  have h4 : g.nlat ≤ if m = "boxcount" then 2 * g.nlat else g.nlat := by split_ifs <;> omega
  have h5 : (g.nlat : ℝ) ≤ ((if m = "boxcount" then 2 * g.nlat else g.nlat : ℕ) : ℝ) := by exact_mod_cast h4
  generalize ((if m = "boxcount" then 2 * g.nlat else g.nlat : ℕ) : ℝ) = n at h5
  have h6 : π * (2 * π * Lx + π * Ly) / (2 * (n + 1)) ≤ (2 * π * Lx + π * Ly) * lonStep g := by
    have e : π * (2 * π * Lx + π * Ly) / (2 * (g.nlat - 1)) = (2 * π * Lx + π * Ly) * (latStep g / 2) := by
      unfold latStep
      field_simp
    have : π * (2 * π * Lx + π * Ly) / (2 * (n + 1)) ≤ π * (2 * π * Lx + π * Ly) / (2 * (g.nlat - 1)) := by
      gcongr
      linarith
    rw [e] at this
    refine this.trans (mul_le_mul_of_nonneg_left (by linarith) (by positivity))
  have h7 := mul_le_mul_of_nonneg_left h3 ny
  have e : ((Lx + 2 * Ly) / 2 + (2 * π * Lx + π * Ly)) * (π / 180) * g.resolution = ((Lx + 2 * Ly) / 2 + (2 * π * Lx + π * Ly)) * lonStep g := by
    rw [hl]; ring
  rw [e]
  linarith

/-- C115: profiles of a field converge with the resolution of the grid. -/
theorem C115_converges (Q : ℝ → ℝ → ℝ) (Lx Ly : ℝ) (hQ : LipschitzField Q Lx Ly) (P : ℝ → ℝ) (hP : IsRearrangement Q P) :
    ∃ C : ℝ, ∀ (g : Grid ℝ), g.Valid → g.resolution * g.nlon = 360 → ∀ m, KnownMethod m →
      ∃ R, g.zonalize (fun j (i : Fin g.nlon) => Q (g.lam i) (g.phi j)) .none m = .ok R ∧
        ∀ j : Fin g.nlat, |R j - P (g.phi j)| ≤ C * g.resolution := by
  obtain ⟨C, -, h⟩ := C115_uniform Lx Ly
  exact ⟨C, h Q hQ P hP⟩

/-- C115: the rearranged field exists, ... -/
theorem C115_exists (Q : ℝ → ℝ → ℝ) (Lx Ly : ℝ) (hQ : LipschitzField Q Lx Ly) : ∃ P, IsRearrangement Q P := exists_rearrangement hQ.cont

/-- C115: ... and is unique. -/
theorem C115_unique (Q : ℝ → ℝ → ℝ) (P P' : ℝ → ℝ) (hP : IsRearrangement Q P) (hP' : IsRearrangement Q P') : ∀ φ ∈ latitudes, P φ = P' φ := by
  have key : ∀ P P', IsRearrangement Q P → IsRearrangement Q P' → ∀ φ ∈ latitudes, P' φ ≤ P φ := by
    intro P P' hP hP' φ hφ
    by_contra hlt
    rw [not_le] at hlt
    obtain ⟨c, h1, h2⟩ := exists_between hlt
    have e := (hP.area c).symm.trans (hP'.area c)
    rcases eq_or_lt_of_le hφ.2 with h | h
    · have hs : -(π / 2) < φ := by linarith [pi_pos]
      obtain ⟨ψ, a, b, d⟩ := perturb_south hP'.continuous hφ hs h2
      have u := area_profile_ge hP'.continuous hP'.increasing a d.le
      have v := area_profile_le hP.continuous hP.increasing hφ h1
      linarith [cap_lt a hφ b]
    · obtain ⟨ψ, a, b, d⟩ := perturb_north hP.continuous hφ h h1
      have u := area_profile_le hP.continuous hP.increasing a d
      have v := area_profile_ge hP'.continuous hP'.increasing hφ h2.le
      linarith [cap_lt hφ a b]
  exact fun φ hφ => le_antisymm (key P' P hP' hP φ hφ) (key P P' hP hP' φ hφ)

/-- a zonal flow on which a planetary wave is superposed -/
example : LipschitzField (fun x φ => 2 * sin φ + cos φ * cos x) 1 3 where
  periodic := fun x φ _ => by rw [cos_add_two_pi]
  lon := fun x x' φ _ => by
    have e : 2 * sin φ + cos φ * cos x - (2 * sin φ + cos φ * cos x') = cos φ * (cos x - cos x') := by ring
    rw [e, abs_mul]
    exact mul_le_mul (abs_cos_le_one φ) (abs_cos_sub_cos_le x x') (abs_nonneg _) zero_le_one
  lat := fun x φ _ φ' _ => by
    have e : 2 * sin φ + cos φ * cos x - (2 * sin φ' + cos φ' * cos x) = 2 * (sin φ - sin φ') + (cos φ - cos φ') * cos x := by ring
    rw [e]
    refine (abs_add_le _ _).trans ?_
    rw [abs_mul, abs_mul, abs_two]
    have a := abs_sin_sub_sin_le φ φ'
    have b := mul_le_mul (abs_cos_sub_cos_le φ φ') (abs_cos_le_one x) (abs_nonneg _) (abs_nonneg _)
    linarith

/-- a field that is arranged already -/
example : IsRearrangement (fun _ φ => sin φ) sin := ⟨continuous_sin.continuousOn, strictMonoOn_sin.monotoneOn, fun _ => rfl⟩

end Barotropic
