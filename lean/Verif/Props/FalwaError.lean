import Verif.Lemmas.WaveActivity
import Verif.Props.ZonalizeError
import Verif.Props.Falwa
import Mathlib.Analysis.Real.Pi.Bounds

/-!
# C116: FALWA converges to the local wave activity of Huang and Nakamura
-/

namespace Barotropic
open Real Set MeasureTheory Grid

variable {g : Grid ℝ} {Q : ℝ → ℝ → ℝ} {P : ℝ → ℝ} {Lx Ly : ℝ}

/-- Bound of the variation of a Lipschitz field on the sphere -/
noncomputable def fieldRange (Lx Ly : ℝ) : ℝ := 2 * π * Lx + π * Ly

/-- Bound of the error of zonalized PV with `n` contours -/
noncomputable def zonalError (g : Grid ℝ) (Lx Ly : ℝ) (n : ℕ) : ℝ := (Lx * lonStep g + Ly * latStep g) / 2 + π * fieldRange Lx Ly / (2 * (n + 1))

/-- Bound of the error of meridional integrals -/
noncomputable def falwaError (g : Grid ℝ) (Lx Ly : ℝ) (n : ℕ) : ℝ := 2 * (Ly * latStep g / 2 + zonalError g Lx Ly n) + fieldRange Lx Ly * latStep g

theorem falwaNum_error (hg : g.Valid) {m : String} (hm : KnownMethod m) (hQ : LipschitzField Q Lx Ly) {q q0 y M : ℝ} (i : Fin g.nlon)
    (hM : ∀ j : Fin g.nlat, |Q (g.lam i) (g.phi j) - q| ≤ M) :
    |g.falwaNum m (fun j (i : Fin g.nlon) => Q (g.lam i) (g.phi j)) q y i - g.rsphere * displaced Q q0 (g.lam i) (deg2rad y)|
      ≤ g.rsphere * (2 * (Ly * latStep g / 2 + |q - q0|) + M * latStep g) := by
  classical
  have hr := hg.rsphere_pos
  have hp := pi_pos
  have hM0 : 0 ≤ M := (abs_nonneg _).trans (hM ⟨0, by have := hg.nlat_ge; omega⟩)
  obtain ⟨R, hR⟩ := exists_recon hg hm
  obtain ⟨G1, e1, i1, v1⟩ := hR (fun j => Q (g.lam i) (g.phi j) - q) fun j => Q (g.lam i) (g.phi j) - q
  obtain ⟨G2, e2, i2, v2⟩ := hR (fun j => Q (g.lam i) (g.phi j) - q) fun j => g.lat j - y
  have e : g.falwaNum m (fun j (i : Fin g.nlon) => Q (g.lam i) (g.phi j)) q y i = g.rsphere * ∫ φ in -(π / 2)..π / 2, (G1 φ - G2 φ) := by
    unfold falwaNum
    rw [v1, v2, intervalIntegral.integral_sub i1 i2]
    ring
  rw [e, ← mul_sub, abs_mul, abs_of_pos hr, displaced_eq]
  refine mul_le_mul_of_nonneg_left ?_ hr.le
  refine integral_close (φe := deg2rad y) (i1.sub i2) (crossed_integrable hQ.cont _ _ _) hM0 (latStep_pos hg).le fun φ hφ => ?_
  have hc := cos_lat hφ
  set u := (R φ hφ).value (fun j => Q (g.lam i) (g.phi j)) - q with hu
  have eG : G1 φ - G2 φ = crossed u (deg2rad y ≤ (R φ hφ).value fun j => g.phi j) * cos φ := by
    rw [e1 φ hφ, e2 φ hφ]
    have ev : (R φ hφ).value (fun j => g.phi j) = deg2rad ((R φ hφ).value fun j => g.lat j) := by
      unfold ReconAt.value Grid.phi deg2rad
      ring
    have eb : (0 ≤ (R φ hφ).value (fun j => g.lat j - y)) ↔ deg2rad y ≤ (R φ hφ).value fun j => g.phi j := by
      rw [ev, ReconAt.sub_const, sub_nonneg]
      unfold deg2rad
      constructor
      · intro h; gcongr
      · intro h
        have h2 : (0 : ℝ) < π / 180 := by positivity
        exact le_of_mul_le_mul_right (by linarith) h2
    rw [ReconAt.sub_const, ← hu]
    simp only [eb]
    unfold crossed
    split_ifs <;> ring
  rw [eG, ← sub_mul, abs_mul, abs_of_nonneg hc]
  have h1 := crossed_flip u (deg2rad y ≤ (R φ hφ).value fun j => g.phi j) (deg2rad y ≤ φ)
  have h2 := crossed_lip u (Q (g.lam i) φ - q0) (deg2rad y ≤ φ)
  have h3 : |u - (Q (g.lam i) φ - q0)| ≤ Ly * latStep g / 2 + |q - q0| := by
    have a := (R φ hφ).error hg hφ (F := Q (g.lam i)) (hQ.lat (g.lam i))
    have : u - (Q (g.lam i) φ - q0) = ((R φ hφ).value (fun j => Q (g.lam i) (g.phi j)) - Q (g.lam i) φ) - (q - q0) := by rw [hu]; ring
    rw [this]
    refine (abs_sub _ _).trans ?_
    linarith
  have hu' : |u| ≤ M := by
    have a := hM (R φ hφ).j
    have b := hM (R φ hφ).j'
    rw [hu]
    have t0 := (R φ hφ).t0
    have t1 := (R φ hφ).t1
    unfold ReconAt.value
    have : (1 - (R φ hφ).t) * Q (g.lam i) (g.phi (R φ hφ).j) + (R φ hφ).t * Q (g.lam i) (g.phi (R φ hφ).j') - q
        = (1 - (R φ hφ).t) * (Q (g.lam i) (g.phi (R φ hφ).j) - q) + (R φ hφ).t * (Q (g.lam i) (g.phi (R φ hφ).j') - q) := by ring
    rw [this]
    refine (abs_add_le _ _).trans ?_
    rw [abs_mul, abs_mul, abs_of_nonneg t0, abs_of_nonneg (by linarith : 0 ≤ 1 - (R φ hφ).t)]
    have := mul_le_mul_of_nonneg_left a (by linarith : 0 ≤ 1 - (R φ hφ).t)
    have := mul_le_mul_of_nonneg_left b t0
    linarith
  have h4 : |crossed u (deg2rad y ≤ (R φ hφ).value fun j => g.phi j) - crossed (Q (g.lam i) φ - q0) (deg2rad y ≤ φ)|
      ≤ (Ly * latStep g / 2 + |q - q0|) + if |φ - deg2rad y| ≤ latStep g / 2 then M else 0 := by
    have e : crossed u (deg2rad y ≤ (R φ hφ).value fun j => g.phi j) - crossed (Q (g.lam i) φ - q0) (deg2rad y ≤ φ)
        = (crossed u (deg2rad y ≤ (R φ hφ).value fun j => g.phi j) - crossed u (deg2rad y ≤ φ))
          + (crossed u (deg2rad y ≤ φ) - crossed (Q (g.lam i) φ - q0) (deg2rad y ≤ φ)) := by ring
    rw [e]
    refine (abs_add_le _ _).trans ?_
    rw [add_comm]
    refine add_le_add (h2.trans h3) (h1.trans ?_)
    have hd := (R φ hφ).error hg hφ (F := fun φ => φ) (L := 1) fun a _ b _ => by rw [one_mul]
    rw [one_mul] at hd
    have hd := abs_le.1 hd
    by_cases hb : (deg2rad y ≤ (R φ hφ).value fun j => g.phi j) ↔ deg2rad y ≤ φ
    · rw [if_pos hb]
      split_ifs <;> simp [hM0]
    · rw [if_neg hb, if_pos]
      · exact hu'
      · by_cases h : deg2rad y ≤ φ
        · have := not_le.1 fun h' => hb ⟨fun _ => h, fun _ => h'⟩
          rw [abs_le]; constructor <;> linarith [hd.1, hd.2]
        · have h' : deg2rad y ≤ (R φ hφ).value fun j => g.phi j := by
            by_contra h'
            exact hb ⟨fun x => absurd x h', fun x => absurd x h⟩
          rw [not_le] at h
          rw [abs_le]; constructor <;> linarith [hd.1, hd.2]
  refine (mul_le_mul_of_nonneg_right h4 hc).trans ?_
  rw [add_mul]
  refine add_le_add le_rfl ?_
  have := cos_le_one φ
  split_ifs
  · nlinarith
  · simp

/-- The contours of FALWA are those of the rearranged field. -/
theorem falwaContours_error (hg : g.Valid) (hs : g.resolution * g.nlon = 360) {m : String} (hm : KnownMethod m) (hQ : LipschitzField Q Lx Ly)
    (hP : IsRearrangement Q P) {levels : Levels} {n : ℕ} (hn : ContourCount g levels m n) (f : Fin g.nlat → Fin g.nlon → ℝ)
    (hf : f = fun (j : Fin g.nlat) (i : Fin g.nlon) => Q (g.lam i) (g.phi j)) (hin : m = "boxcount" ∨ ∃ j i j' i', f j i ≠ f j' i') :
    ∃ out, g.falwaContours f levels m = .ok out ∧ ∀ p ∈ out, (-90 < p.2 ∧ p.2 < 90) ∧ |p.1 - P (deg2rad p.2)| ≤ zonalError g Lx Ly n ∧
      ∀ j i, |f j i - p.1| ≤ fieldRange Lx Ly := by
  have hp := pi_pos
  obtain ⟨nx, ny⟩ := hQ.nonneg
  have hn0 : 0 < n := by
    rcases hn with ⟨-, h⟩ | ⟨-, rfl⟩
    · exact h
    · have := hg.nlat_ge
      split_ifs <;> omega
  have hsome : levels.Some := by
    rcases hn with ⟨rfl, h⟩ | ⟨rfl, -⟩
    · show (1 : ℤ) ≤ n
      exact_mod_cast h
    · trivial
  have hinside : m = "boxcount" ∨ levels.Inside f := by
    rcases hn with ⟨rfl, h⟩ | ⟨rfl, -⟩ <;> exact hin
  obtain ⟨out, hout, -, hin', hz, -⟩ := falwaContours_ok hg hm f hsome
  have hin' := hin' hinside
  refine ⟨out, hout, fun p hp' => ⟨hin' p hp', ?_⟩⟩
  obtain ⟨hzc, hrange, ⟨a, l, hk, hE⟩, hbr⟩ := zonal_knots g hg hs m hm Q Lx Ly hQ P hP levels n hn f hf _ rfl
  have hdist : fieldMin f ≤ p.1 → p.1 ≤ fieldMax f → ∀ j i, |f j i - p.1| ≤ fieldRange Lx Ly := by
    intro h0 h1 j i
    have := fieldMin_le f j i
    have := le_fieldMax f j i
    unfold fieldRange
    rw [abs_le]
    constructor <;> linarith
  by_cases hb : m = "boxcount"
  · unfold falwaContours at hout
    rw [hzc] at hout
    dsimp only at hout
    rw [if_pos hb, hk] at hout
    injection hout with hout
    rw [← hout] at hp'
    obtain ⟨j, -, rfl⟩ := List.mem_map.1 hp'
    have := hin' _ (hout ▸ hp')
    obtain ⟨u, v, w⟩ := hE _ this.1.le this.2.le
    exact ⟨u, hdist v w⟩
  · obtain ⟨j0, i0, j1, i1, hne⟩ : ∃ j i j' i', f j i ≠ f j' i' := hin.resolve_left hb
    have hlt : fieldMin f < fieldMax f := by
      rcases lt_or_gt_of_ne hne with h | h
      · exact (fieldMin_le f j0 i0).trans_lt (h.trans_le (le_fieldMax f j1 i1))
      · exact (fieldMin_le f j1 i1).trans_lt (h.trans_le (le_fieldMax f j0 i0))
    obtain ⟨-, hbr⟩ := hbr hlt
    rw [(hz hb).2] at hp'
    have hl := hin' p ((hz hb).2 ▸ hp')
    have hb' := hbr p.swap (by
      rw [List.mem_cons, List.mem_append]
      exact .inr (.inl (List.mem_map_of_mem hp')))
    have hφ : deg2rad p.2 ∈ latitudes := by
      unfold deg2rad
      constructor <;> nlinarith [hl.1, hl.2]
    obtain ⟨c1, c2⟩ := hb' _ hφ
    have c1 := c1 le_rfl
    have c2 := c2 le_rfl
    dsimp only [Prod.swap] at c1 c2
    have hq : fieldMin f < p.1 ∧ p.1 < fieldMax f := by
      obtain ⟨q, hq, rfl⟩ := List.mem_map.1 hp'
      have := contourLevels_inside hg (by have := hg.nlon_ge; omega) f hsome (hinside.resolve_left hb) m q hq
      obtain ⟨⟨j, i, h1⟩, j', i', h2⟩ := this
      exact ⟨(fieldMin_le f j i).trans_lt h1, h2.trans_le (le_fieldMax f j' i')⟩
    refine ⟨?_, hdist hq.1.le hq.2.le⟩
    have : 0 ≤ π * fieldRange Lx Ly / (2 * (n + 1)) := by unfold fieldRange; positivity
    unfold zonalError
    unfold sampleError at c1 c2
    rw [abs_le]
    constructor <;> linarith

/-- C116: FALWA on equivalent latitudes is the local wave activity there, up to the distance of the gridpoints and of the contours. -/
theorem C116_contoured (g : Grid ℝ) (hg : g.Valid) (hs : g.resolution * g.nlon = 360) (m : String) (hm : KnownMethod m) (Q : ℝ → ℝ → ℝ) (Lx Ly : ℝ)
    (hQ : LipschitzField Q Lx Ly) (P : ℝ → ℝ) (hP : IsRearrangement Q P) (levels : Levels) (n : ℕ) (hn : ContourCount g levels m n)
    (hin : m = "boxcount" ∨ ∃ (j j' : Fin g.nlat) (i i' : Fin g.nlon), Q (g.lam i) (g.phi j) ≠ Q (g.lam i') (g.phi j')) :
    ∃ rows, g.falwaContoured (fun j (i : Fin g.nlon) => Q (g.lam i) (g.phi j)) levels m = .ok rows ∧ ∀ p ∈ rows, (-90 < p.1 ∧ p.1 < 90) ∧
      ∀ i, ∃ v, p.2 i = some v ∧
        |v - localWaveActivity g.rsphere Q P (g.lam i) (deg2rad p.1)| ≤ g.rsphere / cos (deg2rad p.1) * falwaError g Lx Ly n := by
  have hr := hg.rsphere_pos
  obtain ⟨out, hout, h⟩ := falwaContours_error hg hs hm hQ hP hn _ rfl (hin.imp_right fun ⟨j, j', i, i', h⟩ => ⟨j, i, j', i', h⟩)
  refine ⟨_, falwaContoured_of hm hout, fun p' hp' => ?_⟩
  obtain ⟨p, hp, rfl⟩ := List.mem_map.1 hp'
  obtain ⟨hl, hq, hM⟩ := h p hp
  have hc := cos_deg_pos hl.1 hl.2
  refine ⟨hl, fun i => ⟨_, if_neg hc.ne', ?_⟩⟩
  dsimp only
  have := falwaNum_error hg hm hQ (q := p.1) (q0 := P (deg2rad p.2)) (y := p.2) i (fun j => hM j i)
  unfold localWaveActivity
  rw [div_mul_eq_mul_div, div_mul_eq_mul_div, ← sub_div, abs_div, abs_of_pos hc]
  refine div_le_div_of_nonneg_right (this.trans ?_) hc.le
  unfold falwaError
  gcongr

/-! ## Interpolated FALWA -/

theorem lip_range (hQ : LipschitzField Q Lx Ly) {x x' φ φ' : ℝ} (hx : x ∈ Icc 0 (2 * π)) (hx' : x' ∈ Icc 0 (2 * π)) (hφ : φ ∈ latitudes)
    (hφ' : φ' ∈ latitudes) : |Q x φ - Q x' φ'| ≤ fieldRange Lx Ly := by
  obtain ⟨nx, ny⟩ := hQ.nonneg
  have a := hQ.lon x x' φ hφ
  have b := hQ.lat x' φ hφ φ' hφ'
  have d1 : |x - x'| ≤ 2 * π := by rw [abs_le]; constructor <;> linarith [hx.1, hx.2, hx'.1, hx'.2]
  have d2 : |φ - φ'| ≤ π := by rw [abs_le]; constructor <;> linarith [hφ.1, hφ.2, hφ'.1, hφ'.2]
  have := mul_le_mul_of_nonneg_left d1 nx
  have := mul_le_mul_of_nonneg_left d2 ny
  have e : Q x φ - Q x' φ' = (Q x φ - Q x' φ) + (Q x' φ - Q x' φ') := by ring
  rw [e]
  refine (abs_add_le _ _).trans ?_
  unfold fieldRange
  linarith

/-- The rearranged field has the range of the field. -/
theorem rearr_range (hQ : LipschitzField Q Lx Ly) (hP : IsRearrangement Q P) {x ψ φ : ℝ} (hx : x ∈ Icc 0 (2 * π)) (hψ : ψ ∈ latitudes)
    (hφ : φ ∈ latitudes) : |Q x ψ - P φ| ≤ fieldRange Lx Ly := by
  have hp := pi_pos
  have hr := fun {x' : ℝ} (hx' : x' ∈ Icc 0 (2 * π)) {φ' : ℝ} (hφ' : φ' ∈ latitudes) => abs_le.1 (lip_range hQ hx hx' hψ hφ')
  have hS : -(π / 2) ∈ latitudes := ⟨le_rfl, poles_le⟩
  have hN : π / 2 ∈ latitudes := ⟨poles_le, le_rfl⟩
  have cS : 2 * π * (1 - sin (-(π / 2))) = 4 * π := by rw [sin_neg, sin_pi_div_two]; ring
  have cN : 2 * π * (1 - sin (π / 2)) = 0 := by rw [sin_pi_div_two]; ring
  rw [abs_le]
  constructor
  · by_contra hlt
    rw [not_le] at hlt
    obtain ⟨c, h1, h2⟩ := exists_between (show Q x ψ + fieldRange Lx Ly < P φ by linarith)
    have e := hP.area c
    rw [areaAbove_empty fun x' hx' φ' hφ' => by linarith [(hr hx' hφ').1]] at e
    rcases eq_or_lt_of_le hφ.2 with h | h
    · obtain ⟨χ, a, b, d⟩ := perturb_south hP.continuous hφ (by linarith) h2
      have := area_profile_ge hP.continuous hP.increasing a d.le
      have := cap_lt a hN (by linarith)
      linarith
    · have := area_profile_ge hP.continuous hP.increasing hφ h2.le
      have := cap_lt hφ hN h
      linarith
  · by_contra hlt
    rw [not_le] at hlt
    obtain ⟨c, h1, h2⟩ := exists_between (show P φ < Q x ψ - fieldRange Lx Ly by linarith)
    have e := hP.area c
    rw [areaAbove_full fun x' hx' φ' hφ' => by linarith [(hr hx' hφ').2]] at e
    rcases eq_or_lt_of_le hφ.2 with h | h
    · have := area_profile_le hP.continuous hP.increasing hφ h1
      rw [h, cN] at this
      linarith
    · obtain ⟨χ, a, b, d⟩ := perturb_north hP.continuous hφ h h1
      have := area_profile_le hP.continuous hP.increasing a d
      have := cap_lt hS a (by linarith [hφ.1])
      linarith

/-- Local wave activity is uniformly continuous away from the poles, in the same way for all fields whose profiles are close to a profile. -/
theorem activity_uniform {P0 : ℝ → ℝ} (hP0 : ContinuousOn P0 latitudes) (nx : 0 ≤ Lx) (ny : 0 ≤ Ly) {r c e : ℝ} (hr : 0 < r) (hc : 0 < c) (he : 0 < e) :
    ∃ d > 0, ∃ η > 0, ∀ {Q : ℝ → ℝ → ℝ} {P : ℝ → ℝ}, LipschitzField Q Lx Ly → IsRearrangement Q P → (∀ φ ∈ latitudes, |P φ - P0 φ| ≤ η) →
      ∀ x ∈ Icc 0 (2 * π), ∀ φ ∈ latitudes, ∀ φ' ∈ latitudes, c ≤ cos φ → c ≤ cos φ' → |φ - φ'| ≤ d →
      |localWaveActivity r Q P x φ - localWaveActivity r Q P x φ'| ≤ e := by
  have hM : 0 ≤ fieldRange Lx Ly := by unfold fieldRange; positivity
  have hu : UniformContinuousOn P0 latitudes := isCompact_Icc.uniformContinuousOn_of_continuous hP0
  rw [Metric.uniformContinuousOn_iff] at hu
  obtain ⟨d1, hd1, hu⟩ := hu (e * c / (16 * r)) (by positivity)
  set d2 := e / (2 * (r * (2 * fieldRange Lx Ly / c + 2 * fieldRange Lx Ly / c ^ 2) + 1)) with hd2
  have hd2' : 0 < d2 := by positivity
  refine ⟨min (d1 / 2) d2, by positivity, e * c / (32 * r), by positivity, fun {Q P} hQ hP hclose x hx φ hφ φ' hφ' c1 c2 hd => ?_⟩
  have h1 : |P φ - P φ'| < e * c / (8 * r) := by
    have := hu φ hφ φ' hφ' (by rw [Real.dist_eq]; linarith [hd.trans (min_le_left _ _)])
    rw [Real.dist_eq] at this
    have t1 := hclose φ hφ
    have t2 := hclose φ' hφ'
    rw [abs_sub_comm] at t2
    have e1 : e * c / (8 * r) = e * c / (32 * r) + e * c / (16 * r) + e * c / (32 * r) := by field_simp; norm_num
    have e2 : P φ - P φ' = (P φ - P0 φ) + (P0 φ - P0 φ') + (P0 φ' - P φ') := by ring
    have t3 := (abs_add_le (P φ - P0 φ + (P0 φ - P0 φ')) (P0 φ' - P φ')).trans (add_le_add_left (abs_add_le _ _) _)
    rw [e2, e1]
    linarith
  have h2 : |φ - φ'| ≤ d2 := hd.trans (min_le_right _ _)
  have hMx : ∀ ψ ∈ latitudes, |Q x ψ - P φ| ≤ fieldRange Lx Ly := fun ψ hψ => rearr_range hQ hP hx hψ hφ
  have hMx' : ∀ ψ ∈ latitudes, |Q x ψ - P φ'| ≤ fieldRange Lx Ly := fun ψ hψ => rearr_range hQ hP hx hψ hφ'
  have h3 := displaced_close hQ.cont (q := P φ) (q' := P φ') (φ := φ) (φ' := φ') hMx
  obtain ⟨h4, h5⟩ := displaced_mem hQ.cont (φ := φ') hMx'
  unfold localWaveActivity
  have k1 : 0 < cos φ := hc.trans_le c1
  have k2 : 0 < cos φ' := hc.trans_le c2
  generalize displaced Q (P φ) x φ = B at h3
  generalize displaced Q (P φ') x φ' = B' at h3 h4 h5
  have key : r / cos φ * B - r / cos φ' * B' = r * ((B - B') / cos φ + B' * ((cos φ' - cos φ) / (cos φ * cos φ'))) := by
    field_simp
    ring
  rw [key, abs_mul, abs_of_pos hr]
  have h6 : |(B - B') / cos φ| ≤ (2 * |P φ - P φ'| + fieldRange Lx Ly * (2 * |φ - φ'|)) / c := by
    rw [abs_div, abs_of_pos k1]
    exact div_le_div₀ (by positivity) h3 hc c1
  have h7 : |B' * ((cos φ' - cos φ) / (cos φ * cos φ'))| ≤ 2 * fieldRange Lx Ly * (|φ - φ'| / c ^ 2) := by
    rw [abs_mul, abs_of_nonneg h4, abs_div, abs_of_pos (mul_pos k1 k2)]
    refine mul_le_mul h5 ?_ (by positivity) (by positivity)
    refine div_le_div₀ (abs_nonneg _) ?_ (by positivity) ?_
    · rw [abs_sub_comm φ]; exact abs_cos_sub_cos_le φ' φ
    · rw [sq]; exact mul_le_mul c1 c2 hc.le k1.le
  have h8 := mul_le_mul_of_nonneg_left ((abs_add_le _ _).trans (add_le_add h6 h7)) hr.le
  refine h8.trans ?_
  have e1 : r * ((2 * |P φ - P φ'| + fieldRange Lx Ly * (2 * |φ - φ'|)) / c + 2 * fieldRange Lx Ly * (|φ - φ'| / c ^ 2))
      = (2 * r / c) * |P φ - P φ'| + r * (2 * fieldRange Lx Ly / c + 2 * fieldRange Lx Ly / c ^ 2) * |φ - φ'| := by
    field_simp
    ring
  rw [e1]
  have h9 : (2 * r / c) * |P φ - P φ'| ≤ e / 4 := by
    refine (mul_le_mul_of_nonneg_left h1.le (by positivity)).trans (le_of_eq ?_)
    field_simp
    norm_num
  have h10 : r * (2 * fieldRange Lx Ly / c + 2 * fieldRange Lx Ly / c ^ 2) * |φ - φ'| ≤ e / 2 := by
    have hA : 0 ≤ r * (2 * fieldRange Lx Ly / c + 2 * fieldRange Lx Ly / c ^ 2) := by positivity
    generalize r * (2 * fieldRange Lx Ly / c + 2 * fieldRange Lx Ly / c ^ 2) = A at hA hd2
    have e2 : (A + 1) * d2 = e / 2 := by rw [hd2]; field_simp
    have := mul_le_mul_of_nonneg_left h2 hA
    nlinarith
  linarith

/-- The neighbours between which is interpolated -/
theorem callLinear_near {V : Type*} (L : ℝ → ℝ → ℝ → V → V → V) (a b : ℝ × V) (l : List (ℝ × V)) (x : ℝ)
    (hs : (a :: b :: l).Pairwise fun p q => p.1 ≤ q.1) (hab : a.1 < b.1 ∨ a.1 < x) (hx : a.1 ≤ x) (hl : x ≤ ((a :: b :: l).getLast (by simp)).1) :
    ∃ p ∈ a :: b :: l, ∃ q ∈ a :: b :: l, p.1 < q.1 ∧ p.1 ≤ x ∧ x ≤ q.1 ∧ callLinear L a b l x = L p.1 q.1 x p.2 q.2 ∧
      (∀ k ∈ a :: b :: l, k.1 < x → k.1 ≤ p.1) ∧ ∀ k ∈ a :: b :: l, x < k.1 → q.1 ≤ k.1 := by
  induction l generalizing a b with
  | nil =>
    have hl : x ≤ b.1 := by simpa using hl
    refine ⟨a, by simp, b, by simp, by rcases hab with h | h <;> linarith, hx, hl, rfl, ?_, ?_⟩
    · intro k hk h
      simp only [List.mem_cons, List.not_mem_nil, or_false] at hk
      rcases hk with rfl | rfl
      · exact le_rfl
      · linarith
    · intro k hk h
      simp only [List.mem_cons, List.not_mem_nil, or_false] at hk
      rcases hk with rfl | rfl
      · linarith
      · exact le_rfl
  | cons c l ih =>
    have hs' := List.pairwise_cons.1 hs
    have hs'' := List.pairwise_cons.1 hs'.2
    unfold callLinear
    by_cases h : x ≤ b.1
    · rw [if_pos h]
      refine ⟨a, by simp, b, by simp, by rcases hab with h | h <;> linarith, hx, h, rfl, ?_, ?_⟩
      · intro k hk hkx
        rcases List.mem_cons.1 hk with rfl | hk
        · exact le_rfl
        rcases List.mem_cons.1 hk with rfl | hk
        · linarith
        · linarith [hs''.1 k hk]
      · intro k hk hkx
        rcases List.mem_cons.1 hk with rfl | hk
        · linarith
        rcases List.mem_cons.1 hk with rfl | hk
        · exact le_rfl
        · exact hs''.1 k hk
    · rw [if_neg h]
      have h := not_le.1 h
      obtain ⟨p, hp, q, hq, r1, r2, r3, r4, r5, r6⟩ := ih b c hs'.2 (.inr h) h.le (by rw [List.getLast_cons (by simp)] at hl; exact hl)
      refine ⟨p, List.mem_cons_of_mem _ hp, q, List.mem_cons_of_mem _ hq, r1, r2, r3, r4, ?_, ?_⟩
      · intro k hk hkx
        rcases List.mem_cons.1 hk with rfl | hk
        · exact hs'.1 p hp
        · exact r5 k hk hkx
      · intro k hk hkx
        rcases List.mem_cons.1 hk with rfl | hk
        · linarith
        · exact r6 k hk hkx

/-- Interpolation between rows near a latitude -/
theorem falwa_near {m : String} {f : Fin g.nlat → Fin g.nlon → ℝ} {levels : Levels} {rows : List (ℝ × (Fin g.nlon → Option ℝ))}
    (h : g.falwaContoured f levels m = .ok rows) (hin : ∀ p ∈ rows, -90 < p.1 ∧ p.1 < 90) {F : Fin g.nlat → Fin g.nlon → Option ℝ}
    (hF : g.falwa f levels m = .ok F) {j : Fin g.nlat} {d e : ℝ} {a : Fin g.nlon → ℝ} (h0 : -90 ≤ g.lat j) (h1 : g.lat j ≤ 90)
    (hS : ∃ p ∈ rows, g.phi j - d ≤ deg2rad p.1 ∧ p.1 < g.lat j) (hN : ∃ p ∈ rows, g.lat j < p.1 ∧ deg2rad p.1 ≤ g.phi j + d)
    (he : ∀ p ∈ rows, |deg2rad p.1 - g.phi j| ≤ d → ∀ i, ∃ v, p.2 i = some v ∧ |v - a i| ≤ e) : ∀ i, ∃ v, F j i = some v ∧ |v - a i| ≤ e := by
  have hp := pi_pos
  have hmono : ∀ {s t : ℝ}, s ≤ t → deg2rad s ≤ deg2rad t := fun h => by
    unfold deg2rad
    gcongr
  obtain ⟨k0, k1, l, hk, hF', hk0, hlast, hsort, hmem⟩ := falwa_of h fun p hp => ⟨(hin p hp).1.le, (hin p hp).2.le⟩
  rw [hF] at hF'
  injection hF' with hF'
  subst hF'
  have hlt := knots_first_lt hk hk0 hsort fun p hp => (hin p hp).1
  obtain ⟨p, hp, q, hq, r1, r2, r3, r4, r5, r6⟩ := callLinear_near lerpRow k0 k1 l (g.lat j) hsort (.inl hlt) (hk0 ▸ h0) (hlast ▸ h1)
  obtain ⟨s, hs, s1, s2⟩ := hS
  obtain ⟨t, ht, t1, t2⟩ := hN
  have u1 := r5 s ((hmem s).2 (.inr (.inr hs))) s2
  have u2 := r6 t ((hmem t).2 (.inr (.inr ht))) t1
  have hpr : p ∈ rows := by
    rcases (hmem p).1 hp with rfl | rfl | h
    · dsimp only at r2
      linarith [(hin t ht).2]
    · dsimp only at u1
      linarith [(hin s hs).1]
    · exact h
  have hqr : q ∈ rows := by
    rcases (hmem q).1 hq with rfl | rfl | h
    · dsimp only at u2
      linarith [(hin t ht).2]
    · dsimp only at r3
      linarith [(hin s hs).1]
    · exact h
  intro i
  have v1 := hmono u1
  have v2 := hmono r2
  have v3 := hmono r3
  have v4 := hmono u2
  change _ ≤ g.phi j at v2
  change g.phi j ≤ _ at v3
  have hd : 0 ≤ d := by linarith
  obtain ⟨v, ev, hv⟩ := he p hpr (by rw [abs_le]; constructor <;> linarith) i
  obtain ⟨w, ew, hw⟩ := he q hqr (by rw [abs_le]; constructor <;> linarith) i
  refine ⟨lerp p.1 q.1 (g.lat j) v w, ?_, ?_⟩
  · dsimp only
    rw [r4]
    unfold lerpRow
    rw [ev, ew, lerpO_some r1]
  · have hv := abs_le.1 hv
    have hw := abs_le.1 hw
    have x1 := lerp_ge r1 r2 r3 (m := a i - e) (y0 := v) (y1 := w) (by linarith) (by linarith)
    have x2 := lerp_le r1 r2 r3 (m := a i + e) (y0 := v) (y1 := w) (by linarith) (by linarith)
    rw [abs_le]; constructor <;> linarith

/-- A list of values with small steps comes close to every value in its range. -/
theorem chain_close {δ ε c : ℝ} (hδ : 0 ≤ δ) (hε : 0 ≤ ε) :
    ∀ (l : List (ℝ × ℝ)) (a : ℝ × ℝ), (a :: l).IsChain (fun p q => p.2 ≤ q.2 ∧ q.2 - p.2 ≤ δ) → a.2 - ε ≤ c → c ≤ ((a :: l).getLast (by simp)).2 + ε →
      ∃ p ∈ a :: l, |p.2 - c| ≤ δ + ε := by
  intro l
  induction l with
  | nil =>
    intro a _ h0 h1
    simp only [List.getLast_singleton] at h1
    exact ⟨a, by simp, by rw [abs_le]; constructor <;> linarith⟩
  | cons b l ih =>
    intro a hc h0 h1
    rw [List.isChain_cons_cons] at hc
    by_cases h : c ≤ b.2
    · by_cases h' : c ≤ a.2
      · exact ⟨a, by simp, by rw [abs_le]; constructor <;> linarith⟩
      · exact ⟨a, by simp, by rw [abs_le]; constructor <;> linarith [hc.1.2]⟩
    · obtain ⟨p, hp, h2⟩ := ih b hc.2 (by linarith) (by simpa using h1)
      exact ⟨p, List.mem_cons_of_mem _ hp, h2⟩

/-- Contours lie densely where the profile increases. -/
theorem contour_between {ε δ : ℝ} (hδ : 0 ≤ δ) (hε : 0 ≤ ε) (hm : MonotoneOn P latitudes) (lo hi : ℝ) (l : List (ℝ × ℝ))
    (hc : ((-90, lo) :: (l ++ [(90, hi)])).IsChain fun p q => p.2 ≤ q.2 ∧ q.2 - p.2 ≤ δ)
    (hb : ∀ p ∈ (-90, lo) :: (l ++ [(90, hi)]), Brackets P ε (deg2rad p.1) p.2) {φ φ' : ℝ} (hφ : φ ∈ latitudes) (hφ' : φ' ∈ latitudes)
    (h0 : -(π / 2) < φ) (h : 2 * (δ + 2 * ε) < P φ' - P φ) : ∃ p ∈ l, φ ≤ deg2rad p.1 ∧ deg2rad p.1 < φ' := by
  have eN : deg2rad (90 : ℝ) = π / 2 := by unfold deg2rad; ring
  have eS : deg2rad (-90 : ℝ) = -(π / 2) := by unfold deg2rad; ring
  have hS := (hb (-90, lo) (by simp) φ hφ).1 (by rw [eS]; exact hφ.1)
  have hN := (hb (90, hi) (by simp) φ' hφ').2 (by rw [eN]; exact hφ'.2)
  dsimp only at hS hN
  obtain ⟨p, hp, h1⟩ := chain_close (c := (P φ + P φ') / 2) hδ hε _ _ hc (by dsimp only; linarith) (by
    simp only [List.getLast_cons (show l ++ [(90, hi)] ≠ [] by simp), List.getLast_append_singleton]
    linarith)
  have h1 := abs_le.1 h1
  have k1 : φ ≤ deg2rad p.1 := by
    by_contra hlt
    have := (hb p hp φ hφ).1 (not_le.1 hlt).le
    linarith
  have k2 : deg2rad p.1 < φ' := by
    by_contra hlt
    have := (hb p hp φ' hφ').2 (not_lt.1 hlt)
    linarith
  refine ⟨p, ?_, k1, k2⟩
  simp only [List.mem_append, List.mem_cons, List.not_mem_nil, or_false] at hp
  rcases hp with rfl | hp | rfl
  · rw [eS] at k1; linarith
  · exact hp
  · rw [eN] at k2; linarith [hφ'.2]

/-- Bounds for the default number of contours in terms of the resolution -/
theorem default_errors (hg : g.Valid) (hs : g.resolution * g.nlon = 360) (nx : 0 ≤ Lx) (ny : 0 ≤ Ly) (m : String) {n : ℕ}
    (hn : n = if m = "boxcount" then 2 * g.nlat else g.nlat) :
    π * fieldRange Lx Ly / (2 * (n + 1)) ≤ fieldRange Lx Ly * lonStep g ∧ sampleError g Lx Ly ≤ (Lx + 2 * Ly) / 2 * lonStep g ∧
      falwaError g Lx Ly n ≤ (4 * Ly + Lx + 4 * fieldRange Lx Ly) * lonStep g := by
  have hp := pi_pos
  have hM : 0 ≤ fieldRange Lx Ly := by unfold fieldRange; positivity
  have hd := hg.nlatm1_pos
  have h3 := latStep_le hg hs
  have h4 : g.nlat ≤ n := by rw [hn]; split_ifs <;> omega
  have h5 : (g.nlat : ℝ) ≤ n := by exact_mod_cast h4
  have h6 : π * fieldRange Lx Ly / (2 * (n + 1)) ≤ fieldRange Lx Ly * lonStep g := by
    have e : π * fieldRange Lx Ly / (2 * (g.nlat - 1)) = fieldRange Lx Ly * (latStep g / 2) := by
      unfold latStep
      field_simp
    have : π * fieldRange Lx Ly / (2 * (n + 1)) ≤ π * fieldRange Lx Ly / (2 * (g.nlat - 1)) := by
      gcongr
      linarith
    rw [e] at this
    refine this.trans (mul_le_mul_of_nonneg_left (by linarith) hM)
  have h7 := mul_le_mul_of_nonneg_left h3 ny
  have h8 := mul_le_mul_of_nonneg_left h3 hM
  refine ⟨h6, ?_, ?_⟩
  · unfold sampleError
    linarith
  · unfold falwaError zonalError
    linarith

theorem lam_mem (hg : g.Valid) (i : Fin g.nlon) : g.lam i ∈ Icc 0 (2 * π) := by
  rw [lam_eq hg]
  have h3 : (i : ℝ) ≤ g.nlon := by exact_mod_cast i.2.le
  have h4 := lonStep_pos hg
  have h5 := lonStep_nlon hg
  change 0 ≤ (i : ℝ) * lonStep g ∧ (i : ℝ) * lonStep g ≤ _
  exact ⟨by positivity, by nlinarith⟩

/-- C116: FALWA converges to the local wave activity away from the poles as the resolution increases: always for boxcounting, and for the default
quadrature if the rearranged field increases strictly (contours do not resolve latitudes where it is constant). The same resolution suffices for all
fields with the same bounds of the gradient whose profiles are close to each other. -/
theorem C116_stable (Lx Ly : ℝ) (nx : 0 ≤ Lx) (ny : 0 ≤ Ly) (P0 : ℝ → ℝ) (hP0 : ContinuousOn P0 latitudes) (r φ0 ε : ℝ) (hr : 0 < r)
    (h0 : 0 ≤ φ0) (h1 : φ0 < π / 2) (hε : 0 < ε) :
    ∃ δ > 0, ∃ η0 > 0, ∀ (Q : ℝ → ℝ → ℝ) (P : ℝ → ℝ), LipschitzField Q Lx Ly → IsRearrangement Q P → (∀ φ ∈ latitudes, |P φ - P0 φ| ≤ η0) →
      ∀ g : Grid ℝ, g.Valid → g.resolution * g.nlon = 360 → g.rsphere = r → g.resolution ≤ δ → ∀ m, KnownMethod m →
      (m = "boxcount" ∨ StrictMonoOn P0 latitudes) →
      (m = "boxcount" ∨ ∃ (j j' : Fin g.nlat) (i i' : Fin g.nlon), Q (g.lam i) (g.phi j) ≠ Q (g.lam i') (g.phi j')) ∧
      ∃ F, g.falwa (fun j (i : Fin g.nlon) => Q (g.lam i) (g.phi j)) .none m = .ok F ∧
        ∀ j : Fin g.nlat, |g.phi j| ≤ φ0 → ∀ i, ∃ v, F j i = some v ∧ |v - localWaveActivity r Q P (g.lam i) (g.phi j)| ≤ ε := by
  have hp := pi_pos
  have hM : 0 ≤ fieldRange Lx Ly := by unfold fieldRange; positivity
  obtain ⟨φ1, hφ1⟩ : ∃ φ1, φ1 = (φ0 + π / 2) / 2 := ⟨_, rfl⟩
  have hφ1a : φ0 < φ1 := by linarith
  have hφ1b : φ1 < π / 2 := by linarith
  obtain ⟨c, hc⟩ : ∃ c, c = cos φ1 := ⟨_, rfl⟩
  have hc0 : 0 < c := by rw [hc]; exact cos_pos_of_mem_Ioo ⟨by linarith, hφ1b⟩
  have hcle : ∀ φ, |φ| ≤ φ1 → c ≤ cos φ := by
    intro φ h
    rw [hc, ← cos_abs φ]
    exact cos_le_cos_of_nonneg_of_le_pi (abs_nonneg _) (by linarith) h
  have hlat1 : ∀ φ, |φ| ≤ φ1 → φ ∈ latitudes := by
    intro φ h
    have := abs_le.1 h
    constructor <;> linarith [this.1, this.2]
  obtain ⟨d', hd', η1, hη1, hA⟩ := activity_uniform hP0 nx ny hr hc0 (half_pos hε)
  obtain ⟨d, hd⟩ : ∃ d, d = min d' (φ1 - φ0) := ⟨_, rfl⟩
  have hd0 : 0 < d := by rw [hd]; exact lt_min hd' (by linarith)
  have hdd : d ≤ d' := hd ▸ min_le_left _ _
  have hdφ : d ≤ φ1 - φ0 := hd ▸ min_le_right _ _
  obtain ⟨κ0, hκ0, hκP0⟩ : ∃ κ > 0, StrictMonoOn P0 latitudes → ∀ ψ, -φ1 ≤ ψ → ψ + d / 2 ≤ φ1 → κ ≤ P0 (ψ + d / 2) - P0 ψ := by
    by_cases hst : StrictMonoOn P0 latitudes
    · have hmem : ∀ ψ ∈ Icc (-φ1) (φ1 - d / 2), ψ ∈ latitudes ∧ ψ + d / 2 ∈ latitudes := by
        intro ψ hψ
        refine ⟨⟨?_, ?_⟩, ⟨?_, ?_⟩⟩ <;> linarith [hψ.1, hψ.2]
      have hcont : ContinuousOn (fun ψ => P0 (ψ + d / 2) - P0 ψ) (Icc (-φ1) (φ1 - d / 2)) :=
        (hP0.comp (f := fun ψ => ψ + d / 2) (by fun_prop) fun ψ hψ => (hmem ψ hψ).2).sub (hP0.mono fun ψ hψ => (hmem ψ hψ).1)
      obtain ⟨ψ0, m0, hmin⟩ := isCompact_Icc.exists_isMinOn (nonempty_Icc.2 (by linarith)) hcont
      refine ⟨P0 (ψ0 + d / 2) - P0 ψ0, ?_, fun _ ψ a b => ?_⟩
      · have := hst (hmem ψ0 m0).1 (hmem ψ0 m0).2 (by linarith)
        linarith
      · exact hmin (show ψ ∈ Icc (-φ1) (φ1 - d / 2) from ⟨a, by linarith⟩)
    · exact ⟨1, one_pos, fun h => absurd h hst⟩
  obtain ⟨κ, hκκ⟩ : ∃ κ, κ = κ0 / 2 := ⟨_, rfl⟩
  have hκ : 0 < κ := by linarith
  obtain ⟨C, hC⟩ : ∃ C, C = 4 * Ly + Lx + 4 * fieldRange Lx Ly := ⟨_, rfl⟩
  have hC0 : 0 ≤ C := by rw [hC]; positivity
  obtain ⟨D, hD⟩ : ∃ D, D = fieldRange Lx Ly + (Lx + 2 * Ly) := ⟨_, rfl⟩
  have hD0 : 0 ≤ D := by rw [hD]; positivity
  obtain ⟨η, hη⟩ : ∃ η, η = min (ε * c / (2 * r * (C + 1))) (min (d / 2) (κ / (2 * D + 1))) := ⟨_, rfl⟩
  have hη0 : 0 < η := by rw [hη]; exact lt_min (by positivity) (lt_min (by positivity) (by positivity))
  refine ⟨η * (180 / π), by positivity, min η1 (κ / 2), by positivity, fun Q P hQ hP hclose g hg hs hgr hres m hm hcase => ?_⟩
  have hκP : StrictMonoOn P0 latitudes → ∀ ψ, -φ1 ≤ ψ → ψ + d / 2 ≤ φ1 → κ ≤ P (ψ + d / 2) - P ψ := by
    intro hst ψ a b
    have t1 := hκP0 hst ψ a b
    have t2 := abs_le.1 ((hclose ψ ⟨by linarith, by linarith⟩).trans (min_le_right _ _))
    have t3 := abs_le.1 ((hclose (ψ + d / 2) ⟨by linarith, by linarith⟩).trans (min_le_right _ _))
    linarith [t2.1, t2.2, t3.1, t3.2]
  have hA := hA hQ hP fun φ hφ => (hclose φ hφ).trans (min_le_left _ _)
  have hS0 := lonStep_pos hg
  have hS : lonStep g ≤ η := by
    have hl : lonStep g = g.resolution * (π / 180) := by
      unfold lonStep
      rw [div_eq_iff hg.nlon_pos.ne']
      linear_combination -(π / 180) * hs
    rw [hl]
    have := mul_le_mul_of_nonneg_right hres (by positivity : 0 ≤ π / 180)
    have e : η * (180 / π) * (π / 180) = η := by field_simp
    linarith
  have hS1 : lonStep g ≤ ε * c / (2 * r * (C + 1)) := hS.trans (hη ▸ min_le_left _ _)
  have hS2 : lonStep g ≤ d / 2 := hS.trans ((hη ▸ min_le_right _ _ : η ≤ _).trans (min_le_left _ _))
  have hS3 : lonStep g ≤ κ / (2 * D + 1) := hS.trans ((hη ▸ min_le_right _ _ : η ≤ _).trans (min_le_right _ _))
  obtain ⟨n, hn⟩ : ∃ n, n = if m = "boxcount" then 2 * g.nlat else g.nlat := ⟨_, rfl⟩
  have hcount : ContourCount g .none m n := .inr ⟨rfl, hn⟩
  obtain ⟨E1, E2, E3⟩ := default_errors hg hs nx ny m hn
  have E3' : r / c * falwaError g Lx Ly n ≤ ε / 2 := by
    have h1 : falwaError g Lx Ly n ≤ C * lonStep g := by rw [hC]; linarith
    have h2 : C * lonStep g ≤ (C + 1) * (ε * c / (2 * r * (C + 1))) := by
      refine mul_le_mul (by linarith) hS1 hS0.le (by linarith)
    have h3 := mul_le_mul_of_nonneg_left (h1.trans h2) (by positivity : 0 ≤ r / c)
    refine h3.trans (le_of_eq ?_)
    field_simp
  have hκ' : 2 * (π * fieldRange Lx Ly / (2 * (n + 1)) + 2 * sampleError g Lx Ly) < κ := by
    have h1 : π * fieldRange Lx Ly / (2 * (n + 1)) + 2 * sampleError g Lx Ly ≤ D * lonStep g := by
      rw [hD]
      linarith
    have h2 : (2 * D + 1) * lonStep g ≤ κ := by
      rw [le_div_iff₀ (by linarith)] at hS3
      linarith
    linarith
  have hε0 : 0 ≤ sampleError g Lx Ly := by
    have := latStep_pos hg
    unfold sampleError
    positivity
  have hδ0 : 0 ≤ π * fieldRange Lx Ly / (2 * (n + 1)) := by positivity
  have hstep : latStep g ≤ d := by linarith [latStep_le hg hs]
  obtain ⟨f, hf⟩ : ∃ f, f = fun (j : Fin g.nlat) (i : Fin g.nlon) => Q (g.lam i) (g.phi j) := ⟨_, rfl⟩
  obtain ⟨hzc, -, ⟨a, l, hk, -⟩, hbr⟩ := zonal_knots g hg hs m hm Q Lx Ly hQ P hP .none n hcount f hf _ rfl
  have hlt : m ≠ "boxcount" → fieldMin f < fieldMax f := by
    intro hb
    have hst := hcase.resolve_left hb
    have hN := brackets_north hg hs hm hQ hP
    have hS := brackets_south hg hs hm hQ hP
    rw [← hf] at hN hS
    have k1 := hκP hst 0 (by linarith) (by linarith)
    have l0 : (0 : ℝ) ∈ latitudes := ⟨by linarith, by linarith⟩
    have l1 : (0 : ℝ) + d / 2 ∈ latitudes := ⟨by linarith, by linarith⟩
    have k2 := (hN _ l1).2 l1.2
    have k3 := (hS _ l0).1 l0.1
    linarith
  have hin : m = "boxcount" ∨ ∃ (j j' : Fin g.nlat) (i i' : Fin g.nlon), Q (g.lam i) (g.phi j) ≠ Q (g.lam i') (g.phi j') := by
    by_cases hb : m = "boxcount"
    · exact .inl hb
    · have hh : 0 < g.nlat := by have := hg.nlat_ge; omega
      have hw : 0 < g.nlon := by have := hg.nlon_ge; omega
      obtain ⟨j0, i0, a0⟩ := fieldMin_attained hh hw f
      obtain ⟨j1, i1, a1⟩ := fieldMax_attained hh hw f
      have hl := hlt hb
      rw [← a0, ← a1, hf] at hl
      exact .inr ⟨j0, j1, i0, i1, hl.ne⟩
  refine ⟨hin, ?_⟩
  obtain ⟨rows, hrows, hrow⟩ := C116_contoured g hg hs m hm Q Lx Ly hQ P hP .none n hcount hin
  rw [← hf] at hrows ⊢
  have hb90 : ∀ p ∈ rows, -90 < p.1 ∧ p.1 < 90 := fun p hp => (hrow p hp).1
  obtain ⟨_, _, _, _, hF, -⟩ := falwa_of hrows fun p hp => ⟨(hb90 p hp).1.le, (hb90 p hp).2.le⟩
  refine ⟨_, hF, fun j hj => ?_⟩
  have hj' := abs_le.1 hj
  have hlatj := g.lat_mem hg j.2
  have hanti : ∀ {s t : ℝ}, deg2rad s < deg2rad t → s < t := fun {s t} h => by
    by_contra hc
    rw [not_lt] at hc
    have : deg2rad t ≤ deg2rad s := by unfold deg2rad; gcongr
    linarith
  -- contours on both sides
  have hsides : (∃ p ∈ rows, g.phi j - d ≤ deg2rad p.1 ∧ p.1 < g.lat j) ∧ ∃ p ∈ rows, g.lat j < p.1 ∧ deg2rad p.1 ≤ g.phi j + d := by
    by_cases hb : m = "boxcount"
    · obtain ⟨out, hout⟩ : ∃ out, g.falwaContours f .none m = .ok out := by
        obtain ⟨out, h, -⟩ := falwaContours_ok hg hm f (levels := .none) trivial
        exact ⟨out, h⟩
      have hr' := falwaContoured_of hm hout
      rw [hrows] at hr'
      injection hr' with hr'
      unfold falwaContours at hout
      rw [hzc] at hout
      dsimp only at hout
      rw [if_pos hb, hk] at hout
      injection hout with hout
      have hmem : ∀ k : ℕ, k + 1 < g.nlat → ∃ p ∈ rows, p.1 = 1 / 2 * (g.lat k + g.lat (k + 1)) := by
        intro k hk'
        rw [hr', ← hout, List.map_map]
        exact ⟨_, List.mem_map_of_mem (List.mem_range.2 (by omega : k < g.nlat - 1)), rfl⟩
      have hmid : ∀ k : ℕ, deg2rad (1 / 2 * (g.lat k + g.lat (k + 1))) = g.phi k - latStep g / 2 ∧
          deg2rad (1 / 2 * (g.lat k + g.lat (k + 1))) = g.phi (k + 1) + latStep g / 2 := by
        intro k
        have := phi_step hg k
        have e : deg2rad (1 / 2 * (g.lat k + g.lat (k + 1))) = (g.phi k + g.phi (k + 1)) / 2 := by
          unfold Grid.phi deg2rad
          ring
        rw [e]
        constructor <;> linarith
      have hls := latStep_pos hg
      have j0 : (j : ℕ) ≠ 0 := by
        intro h
        have := phi_zero hg
        rw [h] at hj'
        linarith [hj'.2]
      have j1 : (j : ℕ) + 1 < g.nlat := by
        by_contra h
        have e : (j : ℕ) = g.nlat - 1 := by have := j.2; omega
        have := phi_last hg
        rw [e] at hj'
        linarith [hj'.1]
      constructor
      · obtain ⟨p, hp, e⟩ := hmem j j1
        refine ⟨p, hp, ?_, hanti ?_⟩
        · rw [e, (hmid j).1]; linarith
        · rw [e, (hmid j).1]
          show _ < g.phi j
          linarith
      · obtain ⟨p, hp, e⟩ := hmem (j - 1) (by omega)
        have e2 := (hmid (j - 1)).2
        rw [← e, show (j : ℕ) - 1 + 1 = j by omega] at e2
        refine ⟨p, hp, hanti ?_, ?_⟩
        · rw [e2]
          show g.phi j < _
          linarith
        · rw [e2]; linarith
    · obtain ⟨hch, hbr⟩ := hbr (hlt hb)
      have hst := hcase.resolve_left hb
      obtain ⟨out, hout, -, -, hz, -⟩ := falwaContours_ok hg hm f (levels := .none) trivial
      have hr' := falwaContoured_of hm hout
      rw [hrows] at hr'
      injection hr' with hr'
      have ho := (hz hb).2
      have hmem : ∀ p ∈ ((g.contourLevels f .none m).map fun q => (q, g.eqLat (g.contourArea m f q))).map Prod.swap, ∃ p' ∈ rows, p'.1 = p.1 := by
        intro p hp
        rw [← ho] at hp
        obtain ⟨p'', hp'', rfl⟩ := List.mem_map.1 hp
        rw [hr']
        exact ⟨_, List.mem_map_of_mem hp'', rfl⟩
      have hwin : ∀ ψ, -φ1 ≤ ψ → ψ + d / 2 ≤ φ1 → ∃ p ∈ rows, ψ ≤ deg2rad p.1 ∧ deg2rad p.1 < ψ + d / 2 := by
        intro ψ u v
        have := hκP hst ψ u v
        obtain ⟨p, hp, k1, k2⟩ := contour_between hδ0 hε0 hP.increasing (fieldMin f) (fieldMax f) _ hch hbr (φ := ψ) (φ' := ψ + d / 2)
          ⟨by linarith, by linarith⟩ ⟨by linarith, by linarith⟩ (by linarith) (by linarith)
        obtain ⟨p', hp', e⟩ := hmem p hp
        exact ⟨p', hp', by rw [e]; exact k1, by rw [e]; exact k2⟩
      constructor
      · obtain ⟨p, hp, k1, k2⟩ := hwin (g.phi j - d) (by linarith) (by linarith)
        refine ⟨p, hp, k1, hanti ?_⟩
        show _ < g.phi j
        linarith
      · obtain ⟨p, hp, k1, k2⟩ := hwin (g.phi j + d / 2) (by linarith) (by linarith)
        refine ⟨p, hp, hanti ?_, by linarith⟩
        show g.phi j < _
        linarith
  refine falwa_near hrows hb90 hF hlatj.1 hlatj.2 hsides.1 hsides.2 fun p hp hpd i => ?_
  obtain ⟨v, ev, hv⟩ := (hrow p hp).2 i
  refine ⟨v, ev, ?_⟩
  have hpd' := abs_le.1 hpd
  have hp1 : |deg2rad p.1| ≤ φ1 := by rw [abs_le]; constructor <;> linarith
  have hj1 : |g.phi j| ≤ φ1 := by linarith
  have hc1 := hcle _ hp1
  have hu := hA (g.lam i) (lam_mem hg i) _ (hlat1 _ hp1) _ (hlat1 _ hj1) hc1 (hcle _ hj1) (hpd.trans hdd)
  have hfe : 0 ≤ falwaError g Lx Ly n := by
    have := latStep_pos hg
    have hz : 0 ≤ zonalError g Lx Ly n := by unfold zonalError; positivity
    unfold falwaError
    positivity
  have hv2 : |v - localWaveActivity r Q P (g.lam i) (deg2rad p.1)| ≤ ε / 2 := by
    rw [hgr] at hv
    refine hv.trans (le_trans ?_ E3')
    refine mul_le_mul_of_nonneg_right ?_ hfe
    exact div_le_div_of_nonneg_left hr.le hc0 hc1
  have := abs_sub_le v (localWaveActivity r Q P (g.lam i) (deg2rad p.1)) (localWaveActivity r Q P (g.lam i) (g.phi j))
  linarith

/-- C116: FALWA of a field converges to the local wave activity. -/
theorem C116_converges (Q : ℝ → ℝ → ℝ) (Lx Ly : ℝ) (hQ : LipschitzField Q Lx Ly) (P : ℝ → ℝ) (hP : IsRearrangement Q P) (r φ0 ε : ℝ) (hr : 0 < r)
    (h0 : 0 ≤ φ0) (h1 : φ0 < π / 2) (hε : 0 < ε) :
    ∃ δ > 0, ∀ g : Grid ℝ, g.Valid → g.resolution * g.nlon = 360 → g.rsphere = r → g.resolution ≤ δ → ∀ m, KnownMethod m →
      (m = "boxcount" ∨ StrictMonoOn P latitudes) →
      (m = "boxcount" ∨ ∃ (j j' : Fin g.nlat) (i i' : Fin g.nlon), Q (g.lam i) (g.phi j) ≠ Q (g.lam i') (g.phi j')) ∧
      ∃ F, g.falwa (fun j (i : Fin g.nlon) => Q (g.lam i) (g.phi j)) .none m = .ok F ∧
        ∀ j : Fin g.nlat, |g.phi j| ≤ φ0 → ∀ i, ∃ v, F j i = some v ∧ |v - localWaveActivity r Q P (g.lam i) (g.phi j)| ≤ ε := by
  obtain ⟨δ, hδ, η0, hη0, h⟩ := C116_stable Lx Ly hQ.nonneg.1 hQ.nonneg.2 P hP.continuous r φ0 ε hr h0 h1 hε
  exact ⟨δ, hδ, h Q P hQ hP fun φ _ => by rw [sub_self, abs_zero]; exact hη0.le⟩

/-! ## FAWA -/

/-- Zonal means of Lipschitz functions -/
theorem mean_error (hg : g.Valid) {f : ℝ → ℝ} {L : ℝ} (hL : 0 ≤ L) (hp : Function.Periodic f (2 * π)) (hf : ∀ x x', |f x - f x'| ≤ L * |x - x'|) :
    |(∑ i : Fin g.nlon, f (g.lam i)) / g.nlon - (∫ x in (0 : ℝ)..2 * π, f x) / (2 * π)| ≤ L * (lonStep g / 2) := by
  have hpi := pi_pos
  have hS := lonStep_pos hg
  have hSn := lonStep_nlon hg
  have hn := hg.nlon_pos
  have hc : Continuous f := by
    refine (LipschitzWith.of_dist_le_mul (K := ⟨L, hL⟩) fun x y => ?_).continuous
    rw [Real.dist_eq, Real.dist_eq]
    exact hf x y
  have hcell : ∀ i : Fin g.nlon, |lonStep g * f (g.lam i) - ∫ x in g.lam i - lonStep g / 2..g.lam i + lonStep g / 2, f x|
      ≤ L * (lonStep g / 2) * lonStep g := by
    intro i
    have e : ∫ x in g.lam i - lonStep g / 2..g.lam i + lonStep g / 2, (f x - f (g.lam i))
        = (∫ x in g.lam i - lonStep g / 2..g.lam i + lonStep g / 2, f x) - lonStep g * f (g.lam i) := by
      rw [intervalIntegral.integral_sub (hc.intervalIntegrable _ _) intervalIntegrable_const, intervalIntegral.integral_const, smul_eq_mul]
      ring
    rw [abs_sub_comm, ← e]
    have h := intervalIntegral.norm_integral_le_of_norm_le_const (a := g.lam i - lonStep g / 2) (b := g.lam i + lonStep g / 2)
      (f := fun x => f x - f (g.lam i)) (C := L * (lonStep g / 2)) fun x hx => by
        rw [uIoc_of_le (by linarith)] at hx
        rw [Real.norm_eq_abs]
        refine (hf _ _).trans (mul_le_mul_of_nonneg_left ?_ hL)
        rw [abs_le]; constructor <;> linarith [hx.1, hx.2]
    rw [Real.norm_eq_abs] at h
    refine h.trans (le_of_eq ?_)
    rw [show g.lam i + lonStep g / 2 - (g.lam i - lonStep g / 2) = lonStep g by ring, abs_of_pos hS]
  have e : (∑ i : Fin g.nlon, f (g.lam i)) / g.nlon - (∫ x in (0 : ℝ)..2 * π, f x) / (2 * π)
      = (∑ i : Fin g.nlon, (lonStep g * f (g.lam i) - ∫ x in g.lam i - lonStep g / 2..g.lam i + lonStep g / 2, f x)) / (2 * π) := by
    rw [sum_cells hg hp fun a b => hc.intervalIntegrable a b, Finset.sum_sub_distrib, ← Finset.mul_sum, sub_div]
    congr 1
    rw [div_eq_div_iff hn.ne' (by positivity), ← hSn]
    ring
  rw [e, abs_div, abs_of_pos (by positivity : 0 < 2 * π), div_le_iff₀ (by positivity)]
  refine (Finset.abs_sum_le_sum_abs _ _).trans ((Finset.sum_le_sum fun i _ => hcell i).trans (le_of_eq ?_))
  rw [Finset.sum_const, Finset.card_univ, Fintype.card_fin, nsmul_eq_mul, ← hSn]
  ring

/-- C116: FAWA converges to the zonal mean of the local wave activity, whichever way it is computed; with the same resolution for all fields with the same
bounds of the gradient whose profiles are close to each other. -/
theorem C116_fawa_stable (Lx Ly : ℝ) (nx : 0 ≤ Lx) (ny : 0 ≤ Ly) (P0 : ℝ → ℝ) (hP0 : ContinuousOn P0 latitudes) (r φ0 ε : ℝ) (hr : 0 < r)
    (h0 : 0 ≤ φ0) (h1 : φ0 < π / 2) (hε : 0 < ε) :
    ∃ δ > 0, ∃ η0 > 0, ∀ (Q : ℝ → ℝ → ℝ) (P : ℝ → ℝ), LipschitzField Q Lx Ly → IsRearrangement Q P → (∀ φ ∈ latitudes, |P φ - P0 φ| ≤ η0) →
      ∀ g : Grid ℝ, g.Valid → g.resolution * g.nlon = 360 → g.rsphere = r → g.resolution ≤ δ → ∀ m, KnownMethod m →
      (m = "boxcount" ∨ StrictMonoOn P0 latitudes) →
      ∃ W, g.fawa (fun j (i : Fin g.nlon) => Q (g.lam i) (g.phi j)) .none m = .ok W ∧
        (m = "sptrapz" → g.stateFawa (fun j (i : Fin g.nlon) => Q (g.lam i) (g.phi j)) = .ok W) ∧
        ∀ j : Fin g.nlat, |g.phi j| ≤ φ0 → ∃ v, W j = some v ∧ |v - waveActivity r Q P (g.phi j)| ≤ ε := by
  have hp := pi_pos
  obtain ⟨δ, hδ, η0, hη00, H⟩ := C116_stable Lx Ly nx ny P0 hP0 r φ0 (ε / 2) hr h0 h1 (half_pos hε)
  obtain ⟨c, hc⟩ : ∃ c, c = cos φ0 := ⟨_, rfl⟩
  have hc0 : 0 < c := by rw [hc]; exact cos_pos_of_mem_Ioo ⟨by linarith, h1⟩
  obtain ⟨η, hη⟩ : ∃ η, η = ε * c / (2 * (r * Lx + 1)) := ⟨_, rfl⟩
  have hη0 : 0 < η := by rw [hη]; positivity
  refine ⟨min δ (η * (180 / π)), lt_min hδ (by positivity), η0, hη00, fun Q P hQ hP hclose g hg hs hgr hres m hm hcase => ?_⟩
  obtain ⟨hin, F, hF, hconv⟩ := H Q P hQ hP hclose g hg hs hgr (hres.trans (min_le_left _ _)) m hm hcase
  have hin' : m = "boxcount" ∨ (Levels.none.Inside (fun (j : Fin g.nlat) (i : Fin g.nlon) => Q (g.lam i) (g.phi j)) ∧ g.resolution * g.nlon = 360) :=
    hin.imp_right fun ⟨j, j', i, i', h⟩ => ⟨⟨j, i, j', i', h⟩, hs⟩
  obtain ⟨-, F', -, -, e1, e2, e3, -⟩ := C26_fawa_partial g hg m hm (fun j i => Q (g.lam i) (g.phi j)) .none trivial hin'
  rw [hF] at e1
  injection e1 with e1
  subst e1
  refine ⟨_, e2, e3 rfl, fun j hj => ⟨_, rfl, ?_⟩⟩
  have hn := hg.nlon_pos
  have hcj : c ≤ cos (g.phi j) := by
    rw [hc, ← cos_abs (g.phi j)]
    exact cos_le_cos_of_nonneg_of_le_pi (abs_nonneg _) (by linarith) hj
  have hcj0 := hc0.trans_le hcj
  -- the mean over the meridians of the grid
  have hS : lonStep g ≤ η := by
    have hl : lonStep g = g.resolution * (π / 180) := by
      unfold lonStep
      rw [div_eq_iff hg.nlon_pos.ne']
      linear_combination -(π / 180) * hs
    rw [hl]
    have := mul_le_mul_of_nonneg_right (hres.trans (min_le_right _ _)) (by positivity : 0 ≤ π / 180)
    have e : η * (180 / π) * (π / 180) = η := by field_simp
    linarith
  have hA : ∀ x x', |localWaveActivity r Q P x (g.phi j) - localWaveActivity r Q P x' (g.phi j)| ≤ r / c * (2 * Lx) * |x - x'| := by
    intro x x'
    unfold localWaveActivity
    rw [← mul_sub, abs_mul, abs_of_pos (by positivity)]
    have := displaced_lon hQ (P (g.phi j)) x x' (g.phi j)
    have h2 : r / cos (g.phi j) ≤ r / c := div_le_div_of_nonneg_left hr.le hc0 hcj
    have := mul_le_mul h2 this (abs_nonneg _) (by positivity)
    linarith
  have hper : Function.Periodic (fun x => localWaveActivity r Q P x (g.phi j)) (2 * π) := by
    intro x
    have e : displaced Q (P (g.phi j)) (x + 2 * π) (g.phi j) = displaced Q (P (g.phi j)) x (g.phi j) := by
      unfold displaced
      refine intervalIntegral.integral_congr fun φ hφ => ?_
      rw [uIcc_of_le poles_le] at hφ
      rw [hQ.periodic x φ hφ]
    unfold localWaveActivity
    dsimp only
    rw [e]
  have hmean := mean_error hg (by positivity : 0 ≤ r / c * (2 * Lx)) hper hA
  have hm2 : r / c * (2 * Lx) * (lonStep g / 2) ≤ ε / 2 := by
    have h3 : r * Lx * lonStep g ≤ (r * Lx + 1) * η := mul_le_mul (by linarith) hS (lonStep_pos hg).le (by positivity)
    have e : r / c * (2 * Lx) * (lonStep g / 2) = r * Lx * lonStep g / c := by field_simp
    rw [e, div_le_iff₀ hc0]
    refine h3.trans (le_of_eq ?_)
    rw [hη]
    field_simp
  have hsum : |(∑ i, F' j i) / g.nlon - (∑ i : Fin g.nlon, localWaveActivity r Q P (g.lam i) (g.phi j)) / g.nlon| ≤ ε / 2 := by
    rw [← sub_div, ← Finset.sum_sub_distrib, abs_div, abs_of_pos hn, div_le_iff₀ hn]
    refine (Finset.abs_sum_le_sum_abs _ _).trans ?_
    have : ∀ i : Fin g.nlon, |F' j i - localWaveActivity r Q P (g.lam i) (g.phi j)| ≤ ε / 2 := by
      intro i
      obtain ⟨v, hv, h⟩ := hconv j hj i
      injection hv with hv
      rw [hv]
      exact h
    refine (Finset.sum_le_sum fun i _ => this i).trans (le_of_eq ?_)
    rw [Finset.sum_const, Finset.card_univ, Fintype.card_fin, nsmul_eq_mul]
    ring
  unfold waveActivity
  have := abs_sub_le ((∑ i, F' j i) / g.nlon) ((∑ i : Fin g.nlon, localWaveActivity r Q P (g.lam i) (g.phi j)) / g.nlon)
    ((∫ x in (0 : ℝ)..2 * π, localWaveActivity r Q P x (g.phi j)) / (2 * π))
  linarith

/-- C116: FAWA of a field converges to the zonal mean of the local wave activity. -/
theorem C116_fawa (Q : ℝ → ℝ → ℝ) (Lx Ly : ℝ) (hQ : LipschitzField Q Lx Ly) (P : ℝ → ℝ) (hP : IsRearrangement Q P) (r φ0 ε : ℝ) (hr : 0 < r)
    (h0 : 0 ≤ φ0) (h1 : φ0 < π / 2) (hε : 0 < ε) :
    ∃ δ > 0, ∀ g : Grid ℝ, g.Valid → g.resolution * g.nlon = 360 → g.rsphere = r → g.resolution ≤ δ → ∀ m, KnownMethod m →
      (m = "boxcount" ∨ StrictMonoOn P latitudes) →
      ∃ W, g.fawa (fun j (i : Fin g.nlon) => Q (g.lam i) (g.phi j)) .none m = .ok W ∧
        (m = "sptrapz" → g.stateFawa (fun j (i : Fin g.nlon) => Q (g.lam i) (g.phi j)) = .ok W) ∧
        ∀ j : Fin g.nlat, |g.phi j| ≤ φ0 → ∃ v, W j = some v ∧ |v - waveActivity r Q P (g.phi j)| ≤ ε := by
  obtain ⟨δ, hδ, η0, hη0, h⟩ := C116_fawa_stable Lx Ly hQ.nonneg.1 hQ.nonneg.2 P hP.continuous r φ0 ε hr h0 h1 hε
  exact ⟨δ, hδ, h Q P hQ hP fun φ _ => by rw [sub_self, abs_zero]; exact hη0.le⟩

/-- a wave that is zonalized and whose wave activity is approximated by boxcounting -/
example : ∃ P, IsRearrangement (fun x φ => cos φ * sin x) P ∧ ∃ δ > 0, ∀ g : Grid ℝ, g.Valid → g.resolution * g.nlon = 360 → g.rsphere = 1 →
    g.resolution ≤ δ → ∃ F, g.falwa (fun j (i : Fin g.nlon) => cos (g.phi j) * sin (g.lam i)) .none "boxcount" = .ok F ∧
      ∀ j : Fin g.nlat, |g.phi j| ≤ 1 → ∀ i, ∃ v, F j i = some v ∧
        |v - localWaveActivity 1 (fun x φ => cos φ * sin x) P (g.lam i) (g.phi j)| ≤ 1 / 100 := by
  have hQ : LipschitzField (fun x φ => cos φ * sin x) 1 1 := by
    refine ⟨fun x φ _ => by rw [sin_add_two_pi], fun x x' φ _ => ?_, fun x φ _ φ' _ => ?_⟩
    · rw [← mul_sub, abs_mul]
      exact mul_le_mul (abs_cos_le_one φ) (abs_sin_sub_sin_le x x') (abs_nonneg _) zero_le_one
    · rw [← sub_mul, abs_mul, one_mul]
      have := mul_le_mul (abs_cos_sub_cos_le φ φ') (abs_sin_le_one x) (abs_nonneg _) (abs_nonneg _)
      linarith
  obtain ⟨P, hP⟩ := C115_exists _ _ _ hQ
  have h1 : (1 : ℝ) < π / 2 := by linarith [pi_gt_three]
  obtain ⟨δ, hδ, H⟩ := C116_converges _ _ _ hQ P hP 1 1 (1 / 100) one_pos zero_le_one h1 (by norm_num)
  exact ⟨P, hP, δ, hδ, fun g hg hs hr hres => (H g hg hs hr hres "boxcount" (.inl rfl) (.inl rfl)).2⟩

end Barotropic
