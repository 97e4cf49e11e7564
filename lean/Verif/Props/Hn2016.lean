import Verif.Model.Hn2016
import Verif.Props.State
import Verif.Props.Binary64
import Mathlib.Analysis.Real.Pi.Bounds

/-!
# Conversion from falwa/hn2016 without a given grid: C125
-/

set_option linter.unusedSectionVars false

namespace Barotropic

theorem rad2deg_falwaDphi (n : ℕ) : rad2deg (falwaDphi n) = 180 / (n - 1 : ℕ) := by
  have := Real.pi_ne_zero
  unfold rad2deg falwaDphi
  rcases eq_or_ne ((n - 1 : ℕ) : ℝ) 0 with h | h
  · rw [h]; simp
  · field_simp

/-- The grid that is created for a field with `m + 1` latitudes -/
noncomputable def earthGrid (m : ℕ) : Grid ℝ := ⟨180 / (m : ℝ), 6371200, 7292 / 10 ^ 8, m⟩

theorem nlatOf_div {m : ℕ} (hm : 2 ≤ m) : Grid.nlatOf (180 / (m : ℝ)) = m + 1 := by
  have hm0 : (0 : ℝ) < m := by exact_mod_cast (by omega : 0 < m)
  unfold Grid.nlatOf
  rw [show (180 : ℝ) / (180 / m) = m by field_simp, Nat.floor_natCast]

theorem nlonOf_div {m : ℕ} (hm : 2 ≤ m) : Grid.nlonOf (180 / (m : ℝ)) = 2 * m := by
  have hm0 : (0 : ℝ) < m := by exact_mod_cast (by omega : 0 < m)
  unfold Grid.nlonOf
  rw [show (360 : ℝ) / (180 / m) = (2 * m : ℕ) by push_cast; field_simp; norm_num, Nat.floor_natCast]

theorem earthGrid_valid {m : ℕ} (hm : 2 ≤ m) : (earthGrid m).Valid := by
  have hm0 : (0 : ℝ) < m := by exact_mod_cast (by omega : 0 < m)
  have g1 : (earthGrid m).nlat = m + 1 := nlatOf_div hm
  have g2 : (earthGrid m).nlon = 2 * m := nlonOf_div hm
  exact ⟨by unfold earthGrid; positivity, by norm_num [earthGrid], by omega, by omega, by rw [g1]; simp [earthGrid]⟩

theorem fromHn2016_none {τ : Type} (sph : ∀ g : Grid ℝ, g.Sph) (t : τ) (b : BaroField) {m : ℕ} (hm : 2 ≤ m) (hb : b.nlat = m + 1) :
    fromHn2016Any sph none t (falwaDphi b.nlat) b = (fromHn2016 (sph (earthGrid m)) t b).map fun s => ⟨earthGrid m, s⟩ := by
  have hm0 : (0 : ℝ) < m := by exact_mod_cast (by omega : 0 < m)
  have hres : rad2deg (falwaDphi b.nlat) = 180 / (m : ℝ) := by
    rw [rad2deg_falwaDphi, hb, Nat.add_sub_cancel]
  have hmake : Grid.make (180 / (m : ℝ)) planetRadius planetOmega none = .ok (earthGrid m) := by
    unfold Grid.make
    rw [if_neg (by positivity), if_neg (not_lt.2 (by positivity)), nlatOf_div hm, nlonOf_div hm,
      if_neg (by rw [not_or, not_or]; norm_num [planetRadius]; omega)]
    simp [earthGrid, planetRadius, planetOmega]
  unfold fromHn2016Any
  rw [hres]
  simp only [hmake]
  cases fromHn2016 (sph (earthGrid m)) t b <;> rfl

/-- C125: without a grid, a grid of the planet Earth with default truncation is created; it has the numbers of gridpoints of the field if
there are twice as many longitudes as steps from pole to pole, otherwise AssertionError is raised. PV at the gridpoints is that of the
field, whose rows run from south to north. -/
theorem C125_grid {τ : Type} (sph : ∀ g : Grid ℝ, g.Sph) (t : τ) (b : BaroField) (h3 : 3 ≤ b.nlat) :
    if b.nlon = 2 * (b.nlat - 1) then
      ∃ (g : Grid ℝ) (s : St τ g) (e : b.nlat = g.nlat) (e' : b.nlon = g.nlon), fromHn2016Any sph none t (falwaDphi b.nlat) b = .ok ⟨g, s⟩ ∧ g.Valid ∧
        g.ntrunc = b.nlat - 1 ∧ g.rsphere = 6371200 ∧ g.omega = 7292 / 10 ^ 8 ∧ s.time = t ∧
        s.q = (sph g).grdtospec fun j i => b.pvField (Fin.cast e.symm j).rev (Fin.cast e'.symm i)
    else fromHn2016Any sph none t (falwaDphi b.nlat) b = .error .assertionError := by
  obtain ⟨m, hm⟩ : ∃ m, b.nlat = m + 1 := ⟨b.nlat - 1, by omega⟩
  have hm2 : 2 ≤ m := by omega
  have g1 : (earthGrid m).nlat = m + 1 := nlatOf_div hm2
  have g2 : (earthGrid m).nlon = 2 * m := nlonOf_div hm2
  rw [fromHn2016_none sph t b hm2 hm]
  split_ifs with h
  · have e : b.nlat = (earthGrid m).nlat := by omega
    have e' : b.nlon = (earthGrid m).nlon := by omega
    refine ⟨earthGrid m, .ofPv (sph _) t fun j i => b.pvField (Fin.cast e.symm j).rev (Fin.cast e'.symm i), e, e', ?_, earthGrid_valid hm2, ?_, rfl, rfl,
      rfl, rfl⟩
    · unfold fromHn2016
      rw [dif_pos e', dif_pos e]
      rfl
    · rw [hm]; rfl
  · rw [C37_mismatch (sph _) t b (.inl (by omega))]
    rfl

/-- C125: with a grid, that grid is used. -/
theorem C125_given {τ : Type} (sph : ∀ g : Grid ℝ, g.Sph) (t : τ) (dphi0 : ℝ) (b : BaroField) (g : Grid ℝ) :
    fromHn2016Any sph (some g) t dphi0 b = (fromHn2016 (sph g) t b).map fun s => ⟨g, s⟩ := by
  unfold fromHn2016Any
  simp only
  cases fromHn2016 (sph g) t b <;> rfl

/-- C125 (what is missing: other planets, truncations and resolutions, see the refutations): a state of a grid of the Earth whose resolution
divides the distance of the poles, with default truncation, is reproduced. -/
theorem C125_roundtrip_partial {τ : Type} (sph : ∀ g : Grid ℝ, g.Sph) (t : τ) {m : ℕ} (hm : 2 ≤ m) {g : Grid ℝ}
    (hg : g.resolution = 180 / m ∧ g.rsphere = 6371200 ∧ g.omega = 7292 / 10 ^ 8 ∧ g.ntrunc = m) (hs : (sph g).RoundTrips) (s : St τ g) :
    ∃ r : St τ g, fromHn2016Any sph none t (falwaDphi g.nlat) (asHn2016 (sph g) s) = .ok ⟨g, r⟩ ∧ r.time = t ∧ r.pv (sph g) = s.pv (sph g) ∧
      ((sph g).Adm s.q → r.q = s.q) := by
  have hg' : g = earthGrid m := by
    obtain ⟨h1, h2, h3, h4⟩ := hg
    obtain ⟨a, b, c, d⟩ := g
    simp only at h1 h2 h3 h4
    subst h1 h2 h3 h4
    rfl
  subst hg'
  obtain ⟨r, h1, h2⟩ := C37_roundtrip (sph _) hs t s
  refine ⟨r, ?_, h2⟩
  have := fromHn2016_none sph t (asHn2016 (sph _) s) hm (nlatOf_div hm)
  rw [h1] at this
  exact this

/-- C125 is false for other planets: the state that is returned has the same PV (if the new grid represents it), but another relative
vorticity everywhere outside of the equator. -/
theorem C125_planet_refuted {τ : Type} (sph : ∀ g : Grid ℝ, g.Sph) (t : τ) {m : ℕ} (hm : 2 ≤ m) {R Ω : ℝ} {nt : ℕ} (hΩ : Ω ≠ 7292 / 10 ^ 8)
    (s : St τ (⟨180 / m, R, Ω, nt⟩ : Grid ℝ)) (pv : (earthGrid m).Fld) (hpv : pv = s.pv (sph (⟨180 / m, R, Ω, nt⟩ : Grid ℝ)))
    (hrep : (sph (earthGrid m)).spectogrd ((sph (earthGrid m)).grdtospec pv) = pv) :
    ∃ r : St τ (earthGrid m), fromHn2016Any sph none t (falwaDphi (m + 1)) (asHn2016 (sph _) s) = .ok ⟨earthGrid m, r⟩ ∧
      r.pv (sph _) = pv ∧ ∀ (j : Fin (earthGrid m).nlat) (i : Fin (earthGrid m).nlon), (earthGrid m).lat j ≠ 0 →
        r.vorticity (sph _) j i ≠ s.vorticity (sph (⟨180 / m, R, Ω, nt⟩ : Grid ℝ)) j i := by
  have hn : (asHn2016 (sph (⟨180 / m, R, Ω, nt⟩ : Grid ℝ)) s).nlat = m + 1 := nlatOf_div hm
  have h := fromHn2016_none sph t (asHn2016 (sph _) s) hm hn
  rw [hn] at h
  refine ⟨.ofPv (sph _) t pv, ?_, hrep, ?_⟩
  · rw [h]
    unfold fromHn2016
    rw [dif_pos (show (asHn2016 (sph (⟨180 / m, R, Ω, nt⟩ : Grid ℝ)) s).nlon = (earthGrid m).nlon from rfl),
      dif_pos (show (asHn2016 (sph (⟨180 / m, R, Ω, nt⟩ : Grid ℝ)) s).nlat = (earthGrid m).nlat from rfl)]
    have hf : (fun (j : Fin (earthGrid m).nlat) (i : Fin (earthGrid m).nlon) => s.pv (sph (⟨180 / m, R, Ω, nt⟩ : Grid ℝ)) j.rev.rev i) = pv := by
      rw [hpv]; funext j i; rw [Fin.rev_rev]
    rw [← hf]
    rfl
  · intro j i hj hc
    have hv := earthGrid_valid hm
    have e1 : (St.ofPv (sph (earthGrid m)) t pv).vorticity (sph _) j i = pv j i - 2 * (7292 / 10 ^ 8) * Real.sin (deg2rad ((earthGrid m).lat j)) := by
      have : (St.ofPv (sph (earthGrid m)) t pv).pv (sph _) = pv := hrep
      show (St.ofPv (sph (earthGrid m)) t pv).pv (sph _) j i - _ = _
      rw [this]
      rfl
    have e2 : s.vorticity (sph (⟨180 / m, R, Ω, nt⟩ : Grid ℝ)) j i = pv j i - 2 * Ω * Real.sin (deg2rad ((earthGrid m).lat j)) := by
      rw [hpv]; rfl
    rw [e1, e2] at hc
    have h0 : Real.sin (deg2rad ((earthGrid m).lat j)) = 0 := by
      have : (Ω - 7292 / 10 ^ 8) * Real.sin (deg2rad ((earthGrid m).lat j)) = 0 := by linarith
      exact (mul_eq_zero.1 this).resolve_left (sub_ne_zero.2 hΩ)
    obtain ⟨l1, l2⟩ := Grid.lat_mem hv j.2
    have hp := Real.pi_pos
    have h1 := (Real.sin_eq_zero_iff_of_lt_of_lt (by unfold deg2rad; nlinarith) (by unfold deg2rad; nlinarith)).1 h0
    unfold deg2rad at h1
    have : (earthGrid m).lat j * Real.pi = 0 := by linarith
    exact hj ((mul_eq_zero.1 this).resolve_right hp.ne')

/-- C125 is false for resolutions that do not divide the distance between the poles: the grid with resolution 7 has 51 longitudes and 26
latitudes, none of its states is reproduced. -/
theorem C125_resolution_refuted {τ : Type} (sph : ∀ g : Grid ℝ, g.Sph) (t : τ) {R Ω : ℝ} {nt : ℕ} (s : St τ (⟨7, R, Ω, nt⟩ : Grid ℝ)) :
    fromHn2016Any sph none t (falwaDphi (⟨7, R, Ω, nt⟩ : Grid ℝ).nlat) (asHn2016 (sph _) s) = .error .assertionError := by
  have e1 : (asHn2016 (sph (⟨7, R, Ω, nt⟩ : Grid ℝ)) s).nlat = 26 := by
    show Grid.nlatOf (7 : ℝ) = 26
    unfold Grid.nlatOf
    rw [show ⌊(180 / 7 : ℝ)⌋₊ = 25 from (Nat.floor_eq_iff (by norm_num)).2 (by norm_num)]
  have e2 : (asHn2016 (sph (⟨7, R, Ω, nt⟩ : Grid ℝ)) s).nlon = 51 := by
    show Grid.nlonOf (7 : ℝ) = 51
    unfold Grid.nlonOf
    exact (Nat.floor_eq_iff (by norm_num)).2 (by norm_num)
  have := C125_grid sph t (asHn2016 (sph _) s) (by omega)
  rw [if_neg (by omega)] at this
  exact this

/-! ## Double precision -/

namespace Binary64
variable {K : Type*} [Field K] [LinearOrder K] [IsStrictOrderedRing K] [FloorRing K]

theorem lastBit_two_mul {x : K} (hx : 0 < x) : lastBit (2 * x) = lastBit x + 1 := by
  unfold lastBit
  rw [abs_of_pos hx, abs_of_pos (by positivity : 0 < 2 * x)]
  have a := Int.zpow_log_le_self (b := 2) (by norm_num) hx
  have b := Int.lt_zpow_succ_log_self (b := 2) (by norm_num) x
  push_cast at a b
  have : Int.log 2 (2 * x) = Int.log 2 x + 1 := by
    refine le_antisymm ?_ ?_
    · rw [← Int.lt_add_one_iff, ← Int.lt_zpow_iff_log_lt (by norm_num) (by positivity)]
      push_cast
      rw [zpow_add_one₀ (by norm_num)]
      linarith
    · rw [← Int.zpow_le_iff_le_log (by norm_num) (by positivity)]
      push_cast
      rw [zpow_add_one₀ (by norm_num)]
      linarith
  omega

theorem rnd_two_mul {x : K} (hx : 0 < x) : rnd (2 * x) = 2 * rnd x := by
  unfold rnd
  rw [lastBit_two_mul hx, zpow_add_one₀ (by norm_num), show 2 * x / (2 ^ lastBit x * 2) = x / 2 ^ lastBit x by
    have := (two_zpow_pos (K := K) (lastBit x)).ne'; field_simp]
  ring

theorem floor_near_of {c r : K} (hc : 0 < c) {n : ℕ} (h1 : 1 ≤ n) (hn : n ≤ 2 ^ 49)
    (hlo : c / n * (1 - 4 / 2 ^ 53) ≤ r) (hhi : r ≤ c / n * (1 + 4 / 2 ^ 53)) :
    ⌊rnd (c / r)⌋₊ = n ∨ ⌊rnd (c / r)⌋₊ + 1 = n := by
  have hnp : (0 : K) < n := by exact_mod_cast h1
  have hnK : (n : K) ≤ 2 ^ 49 := by exact_mod_cast hn
  have hq : 0 < c / n := by positivity
  have hrp : 0 < r := lt_of_lt_of_le (mul_pos hq (by norm_num)) hlo
  have hqn : c / n * n = c := by field_simp
  have lo : (n : K) - 1 ≤ c / r := by
    rw [le_div_iff₀ hrp]
    rcases le_or_gt ((n : K) - 1) 0 with h0 | h0
    · exact (mul_nonpos_of_nonpos_of_nonneg h0 hrp.le).trans hc.le
    · calc ((n : K) - 1) * r ≤ (n - 1) * (c / n * (1 + 4 / 2 ^ 53)) := mul_le_mul_of_nonneg_left hhi h0.le
        _ = c / n * ((n - 1) * (1 + 4 / 2 ^ 53)) := by ring
        _ ≤ c / n * n := mul_le_mul_of_nonneg_left (by linarith) hq.le
        _ = c := hqn
  have hi : c / r ≤ (n : K) + 1 / 2 := by
    rw [div_le_iff₀ hrp]
    calc c = c / n * n := hqn.symm
      _ ≤ c / n * ((n + 1 / 2) * (1 - 4 / 2 ^ 53)) := mul_le_mul_of_nonneg_left (by linarith) hq.le
      _ = (n + 1 / 2) * (c / n * (1 - 4 / 2 ^ 53)) := by ring
      _ ≤ (n + 1 / 2) * r := mul_le_mul_of_nonneg_left hlo (by positivity)
  have d1 : rnd ((n : K) - 1) = n - 1 := by
    refine rnd_double ⟨(n : ℤ) - 1, 0, ?_, by push_cast; simp⟩
    rw [abs_of_nonneg (by omega)]; omega
  have d2 : rnd ((n : K) + 1 / 2) = n + 1 / 2 := by
    refine rnd_double ⟨2 * (n : ℤ) + 1, -1, ?_, by push_cast; rw [zpow_neg_one]; ring⟩
    rw [abs_of_nonneg (by omega)]; omega
  have e1 := rnd_mono lo
  have e2 := rnd_mono hi
  rw [d1] at e1
  rw [d2] at e2
  have f1 : n - 1 ≤ ⌊rnd (c / r)⌋₊ := by
    refine Nat.le_floor ?_
    push_cast [h1]
    exact e1
  have f2 : ⌊rnd (c / r)⌋₊ < n + 1 := by
    rw [Nat.floor_lt (rnd_nonneg (by positivity))]
    push_cast
    linarith
  omega

theorem rnd_mem {x : K} (hx : 0 < x) : x * (1 - 1 / 2 ^ 53) ≤ rnd x ∧ rnd x ≤ x * (1 + 1 / 2 ^ 53) := by
  have hr := rnd_rel x
  rw [abs_of_pos hx, abs_le] at hr
  constructor <;> linarith [hr.1, hr.2]

theorem hnResolution_mem {p : K} (hp : 0 < p) {n : ℕ} (hn : 2 ≤ n) :
    180 / (n - 1 : ℕ) * (1 - 4 / 2 ^ 53) ≤ hnResolution p n ∧ hnResolution p n ≤ 180 / (n - 1 : ℕ) * (1 + 4 / 2 ^ 53) := by
  obtain ⟨m, rfl⟩ : ∃ m, n = m + 1 := ⟨n - 1, by omega⟩
  rw [Nat.add_sub_cancel]
  have hm : (0 : K) < m := by exact_mod_cast (by omega : 0 < m)
  unfold hnResolution rad2deg
  rw [Nat.add_sub_cancel]
  obtain ⟨a1, a2⟩ := rnd_mem (x := p / m) (by positivity)
  obtain ⟨b1, b2⟩ := rnd_mem (x := 180 / p) (by positivity)
  have ha : 0 < rnd (p / (m : K)) := rnd_pos (by positivity)
  have hb : 0 < rnd (180 / p) := rnd_pos (by positivity)
  obtain ⟨c1, c2⟩ := rnd_mem (x := rnd (p / m) * rnd (180 / p)) (by positivity)
  have e : 180 / (m : K) = p / m * (180 / p) := by field_simp
  have hq : (0 : K) < 180 / m := by positivity
  constructor
  · refine le_trans ?_ c1
    calc (180 : K) / m * (1 - 4 / 2 ^ 53) ≤ 180 / m * ((1 - 1 / 2 ^ 53) * (1 - 1 / 2 ^ 53) * (1 - 1 / 2 ^ 53)) :=
          mul_le_mul_of_nonneg_left (by norm_num) hq.le
      _ = p / m * (1 - 1 / 2 ^ 53) * (180 / p * (1 - 1 / 2 ^ 53)) * (1 - 1 / 2 ^ 53) := by rw [e]; ring
      _ ≤ _ := mul_le_mul_of_nonneg_right (mul_le_mul a1 b1 (mul_nonneg (by positivity) (by norm_num)) ha.le) (by norm_num)
  · refine c2.trans ?_
    calc rnd (p / (m : K)) * rnd (180 / p) * (1 + 1 / 2 ^ 53) ≤ p / m * (1 + 1 / 2 ^ 53) * (180 / p * (1 + 1 / 2 ^ 53)) * (1 + 1 / 2 ^ 53) :=
          mul_le_mul_of_nonneg_right (mul_le_mul a2 b2 hb.le (by positivity)) (by positivity)
      _ = 180 / m * ((1 + 1 / 2 ^ 53) * (1 + 1 / 2 ^ 53) * (1 + 1 / 2 ^ 53)) := by rw [e]; ring
      _ ≤ _ := mul_le_mul_of_nonneg_left (by norm_num) hq.le

end Binary64

open Binary64 in
/-- C125: in double precision, the grid that is created for a field with `n` latitudes either has `n` latitudes and twice as many longitudes
as steps between them, or one latitude and one longitude less. `p` is any approximation of π. -/
theorem C125_double {K : Type*} [Field K] [LinearOrder K] [IsStrictOrderedRing K] [FloorRing K] {p : K} (hp : 0 < p) {n : ℕ} (hn : 2 ≤ n) (hn' : n ≤ 2 ^ 48) :
    (Binary64.nlatOf (hnResolution p n) = n ∧ Binary64.nlonOf (hnResolution p n) = 2 * (n - 1)) ∨
    (Binary64.nlatOf (hnResolution p n) = n - 1 ∧ Binary64.nlonOf (hnResolution p n) = 2 * (n - 1) - 1) := by
  obtain ⟨h1, h2⟩ := hnResolution_mem hp hn
  have hm : (0 : K) < (n - 1 : ℕ) := by exact_mod_cast (by omega : 0 < n - 1)
  have a := floor_near_of (c := 180) (by norm_num) (by omega) (by omega) h1 h2
  have e : (360 : K) / (2 * (n - 1) : ℕ) = 180 / (n - 1 : ℕ) := by push_cast; field_simp; norm_num
  rw [← e] at h1 h2
  have b := floor_near_of (c := 360) (by norm_num) (by omega) (by omega) h1 h2
  have hr : 0 < hnResolution p n := lt_of_lt_of_le (by rw [e]; exact mul_pos (by positivity) (by norm_num)) h1
  have d : rnd (360 / hnResolution p n) = 2 * rnd (180 / hnResolution p n) := by
    rw [← rnd_two_mul (by positivity)]
    congr 1
    ring
  have hf : ⌊rnd (180 / hnResolution p n)⌋₊ = ⌊rnd (360 / hnResolution p n)⌋₊ / 2 := by
    rw [d]
    have h0 : 0 ≤ rnd (180 / hnResolution p n) := rnd_nonneg (by positivity)
    obtain ⟨y, hy⟩ : ∃ y, y = rnd (180 / hnResolution p n) := ⟨_, rfl⟩
    rw [← hy] at h0 ⊢
    have u1 := Nat.floor_le h0
    have u2 := Nat.lt_floor_add_one y
    have v1 : 2 * ⌊y⌋₊ ≤ ⌊2 * y⌋₊ := Nat.le_floor (by push_cast; linarith)
    have v2 : ⌊2 * y⌋₊ < 2 * ⌊y⌋₊ + 2 := (Nat.floor_lt (by positivity)).2 (by push_cast; linarith)
    omega
  unfold Binary64.nlatOf Binary64.nlonOf
  omega

/-- C125: the grids of usual fields are right. -/
theorem C125_usual : ∀ n ∈ [19, 37, 46, 61, 73, 91, 121, 145, 181, 241, 361, 721],
    Binary64.nlatOf (Binary64.hnResolution (Binary64.pi64 : ℚ) n) = n ∧ Binary64.nlonOf (Binary64.hnResolution (Binary64.pi64 : ℚ) n) = 2 * (n - 1) := by
  decide +kernel

/-- C125 is false in double precision: for a field with 84 latitudes and 166 longitudes a grid with 83 and 165 is created, the conversion
fails. -/
theorem C125_double_refuted : Binary64.nlatOf (Binary64.hnResolution (Binary64.pi64 : ℚ) 84) = 83 ∧
    Binary64.nlonOf (Binary64.hnResolution (Binary64.pi64 : ℚ) 84) = 165 := by
  decide +kernel

/-- Transforms for the examples -/
noncomputable def sphZero (g : Grid ℝ) : g.Sph := ⟨0, 0, 0, 0, 0⟩

example : (sphZero (earthGrid 90)).RoundTrips := ⟨fun _ => rfl, fun _ => rfl, fun c s h => by
  have : s = 0 := h.symm
  subst this
  show (0 : SpecField _) = degMul c 0
  funext k
  simp [degMul]⟩

theorem earthGrid_pole {m : ℕ} (hm : 2 ≤ m) : ∃ j : Fin (earthGrid m).nlat, (earthGrid m).lat j ≠ 0 := by
  have h : (earthGrid m).nlat = m + 1 := nlatOf_div hm
  exact ⟨⟨0, by omega⟩, by simp [Grid.lat, linspace]⟩

example : ∃ r : St ℕ (earthGrid 90), fromHn2016Any sphZero none 3 (falwaDphi 91) (asHn2016 (sphZero ⟨180 / (90 : ℕ), 1, 1, 5⟩) ⟨0, 0⟩) = .ok ⟨earthGrid 90, r⟩ ∧
    ∃ j i, r.vorticity (sphZero _) j i ≠ St.vorticity (sphZero ⟨180 / (90 : ℕ), 1, 1, 5⟩) (⟨0, 0⟩ : St ℕ _) j i := by
  obtain ⟨r, h1, -, h3⟩ := C125_planet_refuted (R := 1) (Ω := 1) (nt := 5) sphZero (3 : ℕ) (m := 90) (by norm_num) (by norm_num) ⟨0, 0⟩ 0 rfl rfl
  obtain ⟨j, hj⟩ := earthGrid_pole (m := 90) (by norm_num)
  exact ⟨r, h1, j, ⟨0, by rw [show (earthGrid 90).nlon = 180 from nlonOf_div (by norm_num)]; norm_num⟩, h3 j _ hj⟩

example : (falwaDphi 91 : ℝ) = Real.pi / 90 := by norm_num [falwaDphi]

example : IsDouble (Binary64.pi64 : ℚ) := ⟨884279719003555, -48, by norm_num, by norm_num [Binary64.pi64]⟩

end Barotropic
