import Verif.Lemmas.Interp
import Verif.Lemmas.ColQuad

/-!
# Equivalent latitude and zonalization
-/

namespace Barotropic
open Real

/-! ### Equivalent latitude -/

theorem clipSine_eq (s : ℝ) : Grid.clipSine s = max (-1) (min 1 s) := by
  unfold Grid.clipSine
  dsimp only
  by_cases h1 : 1 ≤ s
  · rw [if_pos h1, if_neg (by norm_num), min_eq_left h1, max_eq_right (by norm_num)]
  · rw [if_neg h1, min_eq_right (not_le.1 h1).le]
    by_cases h2 : s ≤ -1
    · rw [if_pos h2, max_eq_left h2]
    · rw [if_neg h2, max_eq_right (not_le.1 h2).le]

theorem clipSine_mono {s t : ℝ} (h : s ≤ t) : Grid.clipSine s ≤ Grid.clipSine t := by
  rw [clipSine_eq, clipSine_eq]
  exact max_le_max le_rfl (min_le_min le_rfl h)

theorem rad2deg_mono {s t : ℝ} (h : s ≤ t) : rad2deg s ≤ rad2deg t := by
  unfold rad2deg
  have := pi_pos
  exact mul_le_mul_of_nonneg_right h (by positivity)

theorem rad2deg_lt {s t : ℝ} (h : s < t) : rad2deg s < rad2deg t := by
  unfold rad2deg
  have := pi_pos
  exact mul_lt_mul_of_pos_right h (by positivity)

theorem rad2deg_pi2 : rad2deg (π / 2) = 90 := by
  unfold rad2deg; have := pi_pos.ne'; field_simp; norm_num

theorem rad2deg_neg (x : ℝ) : rad2deg (-x) = -rad2deg x := by unfold rad2deg; ring

theorem rad2deg_deg2rad (x : ℝ) : rad2deg (deg2rad x) = x := by
  unfold rad2deg deg2rad; have := pi_pos.ne'; field_simp

theorem deg2rad_rad2deg (x : ℝ) : deg2rad (rad2deg x) = x := by
  unfold rad2deg deg2rad; have := pi_pos.ne'; field_simp

namespace Grid
variable {g : Grid ℝ}

theorem eqLat_antitone (hr : 0 < g.rsphere) {a b : ℝ} (h : a ≤ b) : g.eqLat b ≤ g.eqLat a := by
  unfold eqLat
  apply rad2deg_mono
  apply monotone_arcsin
  apply clipSine_mono
  have hp := pi_pos
  have : 1 / 2 * a / π / g.rsphere ^ 2 ≤ 1 / 2 * b / π / g.rsphere ^ 2 := by
    apply div_le_div_of_nonneg_right _ (by positivity)
    apply div_le_div_of_nonneg_right _ hp.le
    linarith
  linarith

theorem eqLat_mem (a : ℝ) : -90 ≤ g.eqLat a ∧ g.eqLat a ≤ 90 := by
  unfold eqLat
  have h1 := rad2deg_mono (neg_pi_div_two_le_arcsin (clipSine (1 - 1 / 2 * a / π / g.rsphere ^ 2)))
  have h2 := rad2deg_mono (arcsin_le_pi_div_two (clipSine (1 - 1 / 2 * a / π / g.rsphere ^ 2)))
  rw [rad2deg_pi2] at h2
  rw [rad2deg_neg, rad2deg_pi2] at h1
  exact ⟨h1, h2⟩

/-- the area north of latitude `φ` -/
theorem eqLat_cap (hr : 0 < g.rsphere) {φ : ℝ} (h0 : -(π / 2) ≤ φ) (h1 : φ ≤ π / 2) :
    g.eqLat (2 * π * g.rsphere ^ 2 * (1 - sin φ)) = rad2deg φ := by
  have hp := pi_pos
  have e : 1 - 1 / 2 * (2 * π * g.rsphere ^ 2 * (1 - sin φ)) / π / g.rsphere ^ 2 = sin φ := by
    field_simp; ring
  unfold eqLat
  rw [e, clipSine_eq, min_eq_right (sin_le_one φ), max_eq_right (neg_one_le_sin φ), arcsin_sin h0 h1]

theorem eqLat_nonpos (hr : 0 < g.rsphere) {a : ℝ} (h : a ≤ 0) : g.eqLat a = 90 := by
  apply le_antisymm (eqLat_mem a).2
  have := eqLat_cap hr (φ := π / 2) (by linarith [pi_pos]) le_rfl
  rw [sin_pi_div_two, rad2deg_pi2] at this
  rw [← this]
  apply eqLat_antitone hr
  linarith

theorem eqLat_full (hr : 0 < g.rsphere) {a : ℝ} (h : 4 * π * g.rsphere ^ 2 ≤ a) : g.eqLat a = -90 := by
  apply le_antisymm _ (eqLat_mem a).1
  have := eqLat_cap hr (φ := -(π / 2)) le_rfl (by linarith [pi_pos])
  rw [sin_neg, sin_pi_div_two, rad2deg_neg, rad2deg_pi2] at this
  rw [← this]
  apply eqLat_antitone hr
  linarith

/-- areas strictly between 0 and the sphere: the equivalent latitude is strictly inside and determines the area -/
theorem eqLat_interior (hr : 0 < g.rsphere) {a : ℝ} (h0 : 0 < a) (h1 : a < 4 * π * g.rsphere ^ 2) :
    -90 < g.eqLat a ∧ g.eqLat a < 90 ∧ 2 * π * g.rsphere ^ 2 * (1 - sin (deg2rad (g.eqLat a))) = a := by
  have hp := pi_pos
  set s := 1 - 1 / 2 * a / π / g.rsphere ^ 2 with hs
  have e : 1 / 2 * a / π / g.rsphere ^ 2 = a / (2 * π * g.rsphere ^ 2) := by field_simp
  have s1 : s < 1 := by
    have : 0 < a / (2 * π * g.rsphere ^ 2) := by positivity
    rw [hs, e]; linarith
  have s2 : -1 < s := by
    have : a / (2 * π * g.rsphere ^ 2) < 2 := by
      rw [div_lt_iff₀ (by positivity)]; linarith
    rw [hs, e]; linarith
  have ec : clipSine s = s := by rw [clipSine_eq, min_eq_right s1.le, max_eq_right s2.le]
  have ev : g.eqLat a = rad2deg (arcsin s) := by unfold eqLat; rw [← hs, ec]
  rw [ev, deg2rad_rad2deg, sin_arcsin s2.le s1.le]
  refine ⟨?_, ?_, ?_⟩
  · have := rad2deg_lt (neg_pi_div_two_lt_arcsin.2 s2)
    rwa [rad2deg_neg, rad2deg_pi2] at this
  · have := rad2deg_lt (arcsin_lt_pi_div_two.2 s1)
    rwa [rad2deg_pi2] at this
  · rw [hs]; field_simp; ring

/-! ### Contours -/

/-- The area (scaled to the globe) where the field is at least `q`. -/
noncomputable def contourArea (g : Grid ℝ) {w : ℕ} (m : String) (f : Fin g.nlat → Fin w → ℝ) (q : ℝ) : ℝ :=
  g.rsphere * g.dlam * (∑ i, g.colQuad m (fun _ => 1) fun j => f j i - q) * (g.nlon / w)

theorem mapM_ok {α β : Type} (l : List α) (f : α → β) :
    (l.mapM fun a => (Except.ok (f a) : Except PyErr β)) = .ok (l.map f) := by
  induction l with
  | nil => rfl
  | cons a l ih =>
    rw [List.mapM_cons, ih]
    rfl

theorem zonalizeContours_ok {w : ℕ} (hw : w ≠ 0) {m : String} (hm : g.OkMethod m w) (f : Fin g.nlat → Fin w → ℝ)
    {levels : Levels} (hl : g.contourLevels f levels m ≠ []) :
    g.zonalizeContours f levels m
      = .ok ((g.contourLevels f levels m).map fun q => (q, g.eqLat (g.contourArea m f q))) := by
  unfold zonalizeContours
  rw [if_neg hw, if_neg hl, ← mapM_ok]
  congr 1
  funext q
  rw [quadCore_ok hm]
  rfl

section
variable (hg : g.Valid)
include hg

theorem dlam_nlon_le : g.dlam * g.nlon ≤ 2 * π := by
  have h1 : g.resolution * g.nlon ≤ 360 := by
    unfold nlon nlonOf
    have := Nat.floor_le (a := 360 / g.resolution) (by have := hg.res_pos; positivity)
    rw [le_div_iff₀ hg.res_pos] at this
    linarith
  unfold dlam deg2rad dlon
  have := pi_pos
  have h2 : g.resolution * (π / 180) * g.nlon = (g.resolution * g.nlon) * (π / 180) := by ring
  rw [h2]
  have : g.resolution * g.nlon * (π / 180) ≤ 360 * (π / 180) := mul_le_mul_of_nonneg_right h1 (by positivity)
  linarith

theorem dlam_nlon_eq (hs : g.resolution * g.nlon = 360) : g.dlam * g.nlon = 2 * π := by
  unfold dlam deg2rad dlon
  have h2 : g.resolution * (π / 180) * g.nlon = (g.resolution * g.nlon) * (π / 180) := by ring
  rw [h2, hs]; ring

theorem contourArea_antitone {w : ℕ} (m : String) (f : Fin g.nlat → Fin w → ℝ) {q q' : ℝ} (h : q ≤ q') :
    g.contourArea m f q' ≤ g.contourArea m f q := by
  have hr := hg.rsphere_pos
  have hd := dlam_pos hg
  unfold contourArea
  apply mul_le_mul_of_nonneg_right _ (by positivity)
  apply mul_le_mul_of_nonneg_left _ (by positivity)
  apply Finset.sum_le_sum
  intro i _
  exact colQuad_mono hg m (fun _ => zero_le_one) fun j => by linarith

theorem contourArea_nonneg {w : ℕ} (m : String) (f : Fin g.nlat → Fin w → ℝ) (q : ℝ) : 0 ≤ g.contourArea m f q := by
  have hr := hg.rsphere_pos
  have hd := dlam_pos hg
  unfold contourArea
  apply mul_nonneg _ (by positivity)
  apply mul_nonneg (by positivity)
  exact Finset.sum_nonneg fun i _ => colQuad_nonneg hg m fun _ => zero_le_one

theorem contourArea_pos {w : ℕ} (m : String) (f : Fin g.nlat → Fin w → ℝ) {q : ℝ} (h : ∃ j i, q < f j i) :
    0 < g.contourArea m f q := by
  have hr := hg.rsphere_pos
  have hd := dlam_pos hg
  have hn := hg.nlon_pos
  obtain ⟨j, i, h⟩ := h
  have hw : (0 : ℝ) < w := by exact_mod_cast (by have := i.2; omega : 0 < w)
  unfold contourArea
  apply mul_pos _ (by positivity)
  apply mul_pos (by positivity)
  apply Finset.sum_pos'
  · exact fun i _ => colQuad_nonneg hg m fun _ => zero_le_one
  · exact ⟨i, Finset.mem_univ i, (colQuad_one hg m _).2.2.1 ⟨j, by linarith⟩⟩

/-- value for constant columns of the full integral -/
theorem contourArea_full_eq {w : ℕ} (hw : w ≠ 0) : g.rsphere * g.dlam * (∑ _i : Fin w, 2 * g.rsphere) * (g.nlon / w)
    = 2 * g.rsphere ^ 2 * (g.dlam * g.nlon) := by
  have hw : (w : ℝ) ≠ 0 := by exact_mod_cast hw
  simp only [Finset.sum_const, Finset.card_univ, Fintype.card_fin, nsmul_eq_mul]
  field_simp

theorem contourArea_lt {w : ℕ} (m : String) (f : Fin g.nlat → Fin w → ℝ) {q : ℝ} (h : ∃ j i, f j i < q) :
    g.contourArea m f q < 4 * π * g.rsphere ^ 2 := by
  have hr := hg.rsphere_pos
  have hd := dlam_pos hg
  have hn := hg.nlon_pos
  obtain ⟨j, i, h⟩ := h
  have hw0 : 0 < w := by have := i.2; omega
  have hw : (0 : ℝ) < w := by exact_mod_cast hw0
  have h1 : g.contourArea m f q < g.rsphere * g.dlam * (∑ _i : Fin w, 2 * g.rsphere) * (g.nlon / w) := by
    unfold contourArea
    apply mul_lt_mul_of_pos_right _ (by positivity)
    apply mul_lt_mul_of_pos_left _ (by positivity)
    apply Finset.sum_lt_sum
    · exact fun i _ => (colQuad_one hg m _).2.1
    · exact ⟨i, Finset.mem_univ i, (colQuad_one hg m _).2.2.2.1 ⟨j, by linarith⟩⟩
  rw [contourArea_full_eq hg hw0.ne'] at h1
  have h2 : 2 * g.rsphere ^ 2 * (g.dlam * g.nlon) ≤ 2 * g.rsphere ^ 2 * (2 * π) :=
    mul_le_mul_of_nonneg_left (dlam_nlon_le hg) (by positivity)
  linarith

theorem contourArea_all {w : ℕ} (hw : w ≠ 0) (m : String) (f : Fin g.nlat → Fin w → ℝ) {q : ℝ} (h : ∀ j i, q ≤ f j i) :
    g.contourArea m f q = 2 * g.rsphere ^ 2 * (g.dlam * g.nlon) := by
  rw [← contourArea_full_eq hg hw]
  unfold contourArea
  congr 2
  exact Finset.sum_congr rfl fun i _ => (colQuad_one hg m _).2.2.2.2.1 fun j => by linarith [h j i]

theorem contourArea_none {w : ℕ} (m : String) (f : Fin g.nlat → Fin w → ℝ) {q : ℝ} (h : ∀ j i, f j i < q) :
    g.contourArea m f q = 0 := by
  unfold contourArea
  rw [Finset.sum_eq_zero fun i _ => (colQuad_one hg m _).2.2.2.2.2 fun j => by linarith [h j i]]
  simp

end

/-! ### Minimum, maximum, automatic levels -/

theorem fieldMin_le {h w : ℕ} (f : Fin h → Fin w → ℝ) (j : Fin h) (i : Fin w) : fieldMin f ≤ f j i :=
  ciInf_le (Set.finite_range fun p : Fin h × Fin w => f p.1 p.2).bddBelow (j, i)

theorem le_fieldMax {h w : ℕ} (f : Fin h → Fin w → ℝ) (j : Fin h) (i : Fin w) : f j i ≤ fieldMax f :=
  le_ciSup (Set.finite_range fun p : Fin h × Fin w => f p.1 p.2).bddAbove (j, i)

theorem fieldMin_attained {h w : ℕ} (hh : 0 < h) (hw : 0 < w) (f : Fin h → Fin w → ℝ) : ∃ j i, f j i = fieldMin f := by
  haveI : Nonempty (Fin h × Fin w) := ⟨(⟨0, hh⟩, ⟨0, hw⟩)⟩
  obtain ⟨p, hp⟩ := exists_eq_ciInf_of_finite (f := fun p : Fin h × Fin w => f p.1 p.2)
  exact ⟨p.1, p.2, hp⟩

theorem fieldMax_attained {h w : ℕ} (hh : 0 < h) (hw : 0 < w) (f : Fin h → Fin w → ℝ) : ∃ j i, f j i = fieldMax f := by
  haveI : Nonempty (Fin h × Fin w) := ⟨(⟨0, hh⟩, ⟨0, hw⟩)⟩
  obtain ⟨p, hp⟩ := exists_eq_ciSup_of_finite (f := fun p : Fin h × Fin w => f p.1 p.2)
  exact ⟨p.1, p.2, hp⟩

theorem linspace_sym (n k : ℕ) : linspace (-1 : ℝ) 1 (n + 2) (k + 1) = -1 + (k + 1) * (2 / (n + 1)) := by
  unfold linspace
  rw [if_neg (by omega)]
  push_cast
  have : (n : ℝ) + 2 - 1 = n + 1 := by ring
  rw [this]
  norm_num

theorem sinArg_mem {n k : ℕ} (hk : k < n) : -(π / 2) < 1 / 2 * π * linspace (-1) 1 (n + 2) (k + 1) ∧
    1 / 2 * π * linspace (-1) 1 (n + 2) (k + 1) < π / 2 := by
  have hp := pi_pos
  have hk' : (k : ℝ) + 1 ≤ n := by exact_mod_cast hk
  have hn : (0 : ℝ) < n + 1 := by positivity
  have e : -1 < linspace (-1 : ℝ) 1 (n + 2) (k + 1) ∧ linspace (-1 : ℝ) 1 (n + 2) (k + 1) < 1 := by
    rw [linspace_sym]
    have h1 : (k + 1) * (2 / ((n : ℝ) + 1)) = 2 * ((k + 1) / (n + 1)) := by ring
    have h2 : ((k : ℝ) + 1) / (n + 1) < 1 := by rw [div_lt_one hn]; linarith
    have h3 : 0 < ((k : ℝ) + 1) / (n + 1) := by positivity
    rw [h1]
    constructor <;> linarith
  constructor <;> nlinarith

theorem autoLevel_mem {qmin qmax : ℝ} (h : qmin < qmax) {n k : ℕ} (hk : k < n) :
    qmin < autoLevel qmin qmax n k ∧ autoLevel qmin qmax n k < qmax := by
  obtain ⟨h1, h2⟩ := sinArg_mem hk
  set t := 1 / 2 * π * linspace (-1) 1 (n + 2) (k + 1) with ht
  have s1 : sin t < 1 := by
    rw [← sin_pi_div_two]; exact sin_lt_sin_of_lt_of_le_pi_div_two h1.le le_rfl h2
  have s2 : -1 < sin t := by
    rw [show (-1 : ℝ) = sin (-(π / 2)) by rw [sin_neg, sin_pi_div_two]]
    exact sin_lt_sin_of_lt_of_le_pi_div_two le_rfl h2.le h1
  unfold autoLevel
  rw [← ht]
  constructor <;> nlinarith

theorem autoLevel_mono {qmin qmax : ℝ} (h : qmin ≤ qmax) {n k k' : ℕ} (hk : k ≤ k') (hk' : k' < n) :
    autoLevel qmin qmax n k ≤ autoLevel qmin qmax n k' := by
  have hp := pi_pos
  obtain ⟨h1, h2⟩ := sinArg_mem (lt_of_le_of_lt hk hk')
  obtain ⟨h3, h4⟩ := sinArg_mem hk'
  have hle : 1 / 2 * π * linspace (-1) 1 (n + 2) (k + 1) ≤ 1 / 2 * π * linspace (-1) 1 (n + 2) (k' + 1) := by
    apply mul_le_mul_of_nonneg_left _ (by positivity)
    rw [linspace_sym, linspace_sym]
    have : (k : ℝ) ≤ k' := by exact_mod_cast hk
    have : (0 : ℝ) < 2 / (n + 1) := by positivity
    nlinarith
  have := sin_le_sin_of_le_of_le_pi_div_two h1.le h4.le hle
  unfold autoLevel
  nlinarith

/-- Levels that are chosen automatically. -/
def _root_.Barotropic.Levels.Auto : Levels → Prop
  | .none => True
  | .int n => 1 ≤ n
  | .array _ => False

theorem contourLevels_auto (hg : g.Valid) {w : ℕ} (f : Fin g.nlat → Fin w → ℝ) {levels : Levels} (h : levels.Auto)
    (m : String) : ∃ n, 0 < n ∧
      g.contourLevels f levels m = (List.range n).map (autoLevel (fieldMin f) (fieldMax f) n) := by
  have hn := hg.nlat_ge
  cases levels with
  | none =>
    refine ⟨g.nlat * if m = "boxcount" then 2 else 1, ?_, rfl⟩
    split_ifs <;> omega
  | int n =>
    have h : 1 ≤ n := h
    exact ⟨n.toNat, by omega, rfl⟩
  | array q => exact h.elim

end Grid
end Barotropic
