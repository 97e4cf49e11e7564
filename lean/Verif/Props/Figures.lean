import Verif.Spec.Figures
import Verif.Spec.Falwa
import Verif.Props.Plot
import Verif.Props.PlotLon
import Verif.Props.Falwa
import Verif.Props.Zonalize
import Verif.Props.Wavelet
import Verif.Props.Dominant
import Verif.Props.StationaryWavenumber
import Verif.Props.Waveguide
import Verif.Props.Hovmoeller
import Verif.Props.Derivative

/-!
# The data shown in the predefined figures: C124
-/

namespace Barotropic
open Plot

theorem mem_flat {α : Type*} {h w : ℕ} {f : Fin h → Fin w → α} {x : α} : x ∈ flat f ↔ ∃ j i, f j i = x := by
  simp [flat]

theorem flat_ne_nil {α : Type*} {h w : ℕ} (hh : 0 < h) (hw : 0 < w) (f : Fin h → Fin w → α) : flat f ≠ [] :=
  List.ne_nil_of_mem (mem_flat.mpr ⟨⟨0, hh⟩, ⟨0, hw⟩, rfl⟩)

/-- Symmetric levels are increasing unless a negative override is given. -/
theorem symmetricLevels_drawable {x : List ℝ} (hx : x ≠ []) {n : ℕ} (hn : 2 ≤ n) {ext : Option ℝ} (he : ∀ e, ext = some e → 0 ≤ e) :
    ∃ l, symmetricLevels x n ext = .ok l ∧ l.Pairwise (· < ·) := by
  cases ext with
  | some e =>
    rcases (he e rfl).eq_or_lt with h | h
    · exact ⟨[-1, 1], by simp [symmetricLevels, ← h], by simp⟩
    · obtain ⟨l, h1, -, h2, -⟩ := C75_override_partial x hn h
      exact ⟨l, h1, h2⟩
  | none =>
    by_cases hz : ∃ a ∈ x, a ≠ 0
    · obtain ⟨l, e, h1, -, h2, -⟩ := C75_levels_partial hz hn
      exact ⟨l, h1, h2⟩
    · push Not at hz
      obtain ⟨lo, hi, h1, h2, h3, -⟩ := range?_spec hx
      refine ⟨[-1, 1], ?_, by simp⟩
      rw [hz lo h2, hz hi h3] at h1
      simp [symmetricLevels, h1]

/-- The streamfunction contours: absent for constant fields, otherwise increasing levels. -/
theorem psiContours_spec {g : Grid ℝ} (hg : g.Valid) (shift : ℤ) (psi : Fin g.nlat → Fin g.nlon → ℝ) {n : ℕ} (hn : 2 ≤ n) :
    ∃ o, psiContours shift psi n = .ok o ∧ (o = none ↔ ∀ j i j' i', psi j i = psi j' i') ∧
      ∀ m, o = some m → m.Drawable ∧ m.field = roll shift fun j i => some (psi j i) := by
  have hh : 0 < g.nlat := by have := hg.nlat_ge; omega
  have hw : 0 < g.nlon := by have := hg.nlon_ge; omega
  obtain ⟨lo, hi, h1, h2, h3, h4⟩ := range?_spec (flat_ne_nil hh hw psi)
  have hle : lo ≤ hi := (h4 lo h2).2
  have hhead : ((List.range n).map fun i => linspace lo hi n i).head? = some lo := by
    obtain ⟨k, rfl⟩ : ∃ k, n = k + 1 := ⟨n - 1, by omega⟩
    simp [List.range_succ_eq_map, linspace_start]
  have hlast : ((List.range n).map fun i => linspace lo hi n i).getLast? = some hi := by
    obtain ⟨k, rfl⟩ : ∃ k, n = k + 1 := ⟨n - 1, by omega⟩
    have := linspace_end hn lo hi
    simp only [Nat.add_sub_cancel] at this
    simp [List.range_succ, this]
  have hconst : lo = hi ↔ ∀ j i j' i', psi j i = psi j' i' := by
    constructor
    · intro e j i j' i'
      obtain ⟨a1, a2⟩ := h4 _ (mem_flat.mpr ⟨j, i, rfl⟩)
      obtain ⟨b1, b2⟩ := h4 _ (mem_flat.mpr ⟨j', i', rfl⟩)
      linarith
    · intro h
      obtain ⟨j, i, e1⟩ := mem_flat.mp h2
      obtain ⟨j', i', e2⟩ := mem_flat.mp h3
      rw [← e1, ← e2]
      exact h j i j' i'
  have e : psiContours shift psi n = .ok (if lo = hi then none else
      some (rolled shift psi (some ((List.range n).map fun i => linspace lo hi n i)))) := by
    unfold psiContours psiLevels
    rw [h1]
    dsimp only
    rw [hhead, hlast]
    by_cases h : lo = hi
    · rw [if_pos (by rw [h]), if_pos h]
    · rw [if_neg (by simpa using h), if_neg h]
  refine ⟨_, e, ?_, ?_⟩
  · rw [← hconst]
    split_ifs with h <;> simp [h]
  · intro m hm
    split_ifs at hm with h
    injection hm with hm
    subst hm
    refine ⟨?_, rfl⟩
    intro l hl
    injection hl with hl
    subst hl
    rw [List.pairwise_map]
    exact List.pairwise_lt_range.imp fun hij => linspace_lt hn (lt_of_le_of_ne hle h) hij

/-- The mean of a row does not depend on the order of the columns. -/
theorem meanOf_roll {g : Grid ℝ} {col : Fin g.nlon → Fin g.nlon} (hcol : Function.Bijective col) (hw : 0 < g.nlon) {m : MapItem g}
    {f : Fin g.nlat → Fin g.nlon → ℝ} (h : m.Shows col f) (j : Fin g.nlat) : MeanOf (m.field j) (rowMean f j) := by
  refine ⟨fun k => f j (col k), fun k => h j k, ?_⟩
  have : (g.nlon : ℝ) ≠ 0 := by exact_mod_cast hw.ne'
  unfold rowMean
  rw [div_mul_cancel₀ _ this]
  exact (Function.Bijective.sum_comp hcol (fun i => f j i)).symm

theorem MeanOf.unique {w : ℕ} {row : Fin w → Option ℝ} {x y : ℝ} (hw : 0 < w) (hx : MeanOf row x) (hy : MeanOf row y) : x = y := by
  obtain ⟨r, h1, h2⟩ := hx
  obtain ⟨r', h3, h4⟩ := hy
  have : r = r' := funext fun k => by
    have := (h1 k).symm.trans (h3 k)
    injection this
  subst this
  have hw' : (w : ℝ) ≠ 0 := by exact_mod_cast hw.ne'
  exact mul_right_cancel₀ hw' (h2.trans h4.symm)

theorem rolled_shows {g : Grid ℝ} {shift : ℤ} {col : Fin g.nlon → Fin g.nlon}
    (h : ∀ {α : Type} (f : Fin g.nlat → Fin g.nlon → α) j k, roll shift f j k = f j (col k)) (f : Fin g.nlat → Fin g.nlon → ℝ)
    (l : Option (List ℝ)) : (rolled shift f l).Shows col f := fun j k => h (fun j i => some (f j i)) j k

/-- The columns of a rolled map and their labels, for arrays of all kinds. -/
theorem rollLon_cols {g : Grid ℝ} (hg : g.Valid) (center : ℝ) :
    ∃ shift offset, ∃ col : Fin g.nlon → Fin g.nlon, rollLon g.nlon g.lon center = .ok (shift, offset) ∧
      Function.Bijective col ∧ (∀ {α : Type} (f : Fin g.nlat → Fin g.nlon → α) j k, roll shift f j k = f j (col k)) ∧
      ∀ k : Fin g.nlon, lonLabel offset (g.lon k) = g.lon (col k) := by
  obtain ⟨offset, h1, h2⟩ := rollLon_eq hg center
  exact ⟨_, offset, srcCol _, h1, srcCol_bijective _, fun _ _ _ => rfl, label_eq hg _ _ h2⟩

theorem windVectors_spec {g : Grid ℝ} (u v : Fin g.nlat → Fin g.nlon → ℝ) (hemisphere : String) :
    ∃ o, windVectors u v hemisphere = .ok o ∧ (o = none ↔ (∀ j i, u j i = 0) ∧ ∀ j i, v j i = 0) ∧
      ∀ x, o = some x → reduceVectors g.nlat g.nlon (fun _ i => g.lon i) (fun j _ => g.lat j) (extend u) (extend v)
        (if hemisphere = "both" then 13 else 21) = .ok x := by
  by_cases h : (∀ j i, u j i = 0) ∧ ∀ j i, v j i = 0
  · refine ⟨none, by unfold windVectors; rw [if_pos h], by simp [h], by simp⟩
  · have hny : (if hemisphere = "both" then 13 else 21 : ℤ) ≠ 0 := by split_ifs <;> norm_num
    unfold windVectors reduceVectors
    rw [if_neg h, if_neg hny]
    refine ⟨_, rfl, by simp [h], ?_⟩
    intro x hx
    injection hx with hx
    subst hx
    rfl

variable {τ : Type} {g : Grid ℝ} (S : g.Sph)

/-- C124: the summary figure, for all states of all valid grids and overrides that are not negative. The figure is created; columns of both
maps show the same meridian, which is the one on the label; the line of the potential vorticity is the sum of those of the planetary and the
relative vorticity, and is the zonal mean of the map to the right; the streamfunction and wind vectors are left out exactly if they are
constant or zero; all levels can be drawn. -/
theorem C124_summary (hg : g.Valid) (s : St τ g) (hemisphere : String) (center : ℝ) {pvMax vMax : Option ℝ}
    (hp : ∀ m, pvMax = some m → 0 ≤ m) (hv : ∀ m, vMax = some m → 0 ≤ m) :
    ∃ (fig : Figure4 g) (col : Fin g.nlon → Fin g.nlon) (pla rel pot wind : Fin g.nlat → ℝ),
      summary S s hemisphere center pvMax vMax = .ok fig ∧ Function.Bijective col ∧
      fig.ax12.Labelled col hemisphere ∧ fig.ax22.Labelled col hemisphere ∧
      fig.ax12.filled.Shows col (fun j i => 10000 * s.pv S j i) ∧ fig.ax22.filled.Shows col (s.v S) ∧
      (∀ m, fig.ax22.lines = some m → m.Shows col (s.streamfunction S)) ∧ fig.ax12.lines = none ∧
      (fig.ax22.lines = none ↔ ∀ j i j' i', s.streamfunction S j i = s.streamfunction S j' i') ∧
      (fig.ax12.vectors = none ↔ (∀ j i, s.u S j i = 0) ∧ ∀ j i, s.v S j i = 0) ∧ fig.ax22.vectors = none ∧
      (∀ x, fig.ax12.vectors = some x → reduceVectors g.nlat g.nlon (fun _ i => g.lon i) (fun j _ => g.lat j) (extend (s.u S)) (extend (s.v S))
        (if hemisphere = "both" then 13 else 21) = .ok x) ∧
      fig.ax11.lines = [("pla.", fun j => some (pla j)), ("rel.", fun j => some (rel j)), ("pot.", fun j => some (pot j))] ∧
      fig.ax21.lines = [("", fun j => some (wind j))] ∧
      (∀ j, pla j = 10000 * g.fcor j ∧ pot j = pla j + rel j ∧ MeanOf (fig.ax12.filled.field j) (pot j) ∧
        MeanOf (fun i => some (s.u S j i)) (wind j)) ∧
      fig.ax11.limits = latLimits hemisphere ∧ fig.ax21.limits = latLimits hemisphere ∧ fig.ax12.Drawable ∧ fig.ax22.Drawable := by
  have hh : 0 < g.nlat := by have := hg.nlat_ge; omega
  have hw : 0 < g.nlon := by have := hg.nlon_ge; omega
  obtain ⟨shift, offset, col, h1, h2, h3, h4⟩ := rollLon_cols hg center
  obtain ⟨l1, p1, p2⟩ := symmetricLevels_drawable (flat_ne_nil hh hw fun j i => 10000 * s.pv S j i)
    (n := if hemisphere = "both" then 11 else 17) (by split_ifs <;> norm_num) (ext := pvMax.map fun m => m * 10000) (by
      intro e he
      cases pvMax with
      | none => simp at he
      | some m =>
        have := hp m rfl
        simp only [Option.map_some, Option.some.injEq] at he
        rw [← he]
        positivity)
  obtain ⟨vec, q1, q2, q3⟩ := windVectors_spec (s.u S) (s.v S) hemisphere
  obtain ⟨l2, r1, r2⟩ := symmetricLevels_drawable (flat_ne_nil hh hw (s.v S)) (n := 10) (by norm_num) hv
  obtain ⟨psi, t1, t2, t3⟩ := psiContours_spec hg shift (s.streamfunction S) (n := if hemisphere = "both" then 10 else 14)
    (by split_ifs <;> norm_num)
  have e : summary S s hemisphere center pvMax vMax = .ok ⟨⟨[("pla.", fun j => some (g.fcor j * 10000)),
      ("rel.", fun j => some (rowMean (fun j i => s.vorticity S j i * 10000) j)),
      ("pot.", fun j => some (rowMean (fun j i => 10000 * s.pv S j i) j))], latLimits hemisphere⟩,
      ⟨rolled shift (fun j i => 10000 * s.pv S j i) (some l1), none, vec, offset, latLimits hemisphere⟩,
      ⟨[("", fun j => some (rowMean (s.u S) j))], latLimits hemisphere⟩,
      ⟨rolled shift (s.v S) (some l2), psi, none, offset, latLimits hemisphere⟩⟩ := by
    unfold summary
    simp only [h1, p1, q1, r1, t1, bind, Except.bind, pure, Except.pure]
  refine ⟨_, col, _, _, _, _, e, h2, ⟨h4, rfl⟩, ⟨h4, rfl⟩, rolled_shows h3 _ _, rolled_shows h3 _ _, ?_, rfl, t2, q2, rfl, q3, rfl, rfl, ?_, rfl, rfl,
    ⟨?_, by simp⟩, ⟨?_, fun m hm => (t3 m hm).1⟩⟩
  · intro m hm j k
    rw [(t3 m hm).2]
    exact h3 _ j k
  · intro j
    refine ⟨mul_comm _ _, ?_, meanOf_roll h2 hw (rolled_shows h3 _ _) j, ?_⟩
    · have hn : (g.nlon : ℝ) ≠ 0 := by exact_mod_cast hw.ne'
      have e1 : ∀ i, s.vorticity S j i * 10000 = 10000 * s.pv S j i - g.fcor j * 10000 := by
        intro i
        change (s.pv S j i - g.fcor2 j i) * 10000 = _
        change (s.pv S j i - g.fcor j) * 10000 = _
        ring
      simp only [rowMean, e1, Finset.sum_sub_distrib, Finset.sum_const, Finset.card_univ, Fintype.card_fin, nsmul_eq_mul]
      field_simp
      ring
    · exact meanOf_roll (m := ⟨fun j i => some (s.u S j i), none⟩) Function.bijective_id hw (fun _ _ => rfl) j
  · intro l hl
    injection hl with hl
    exact hl ▸ p2
  · intro l hl
    injection hl with hl
    exact hl ▸ r2

theorem pvLevels_scale (hg : g.Valid) (f : Fin g.nlat → Fin g.nlon → ℝ) {n : ℕ} (hn : 4 ≤ n) :
    ∃ l, pvLevels (flat f) n = .ok l ∧ l.length = n - 2 ∧ (l.Pairwise (· < ·) ↔ ∃ j i j' i', f j i ≠ f j' i') := by
  have hh : 0 < g.nlat := by have := hg.nlat_ge; omega
  have hw : 0 < g.nlon := by have := hg.nlon_ge; omega
  by_cases hc : ∃ j i j' i', f j i ≠ f j' i'
  · obtain ⟨j, i, j', i', h⟩ := hc
    obtain ⟨l, h1, h2, h3, -⟩ := C82_pv_levels (mem_flat.mpr ⟨j, i, rfl⟩) (mem_flat.mpr ⟨j', i', rfl⟩) h (show 2 ≤ n by omega)
    exact ⟨l, h1, h2, iff_of_true h3 ⟨j, i, j', i', h⟩⟩
  · have hc' : ∀ a ∈ flat f, a = f ⟨0, hh⟩ ⟨0, hw⟩ := by
      push Not at hc
      intro a ha
      obtain ⟨j, i, rfl⟩ := mem_flat.mp ha
      exact hc _ _ _ _
    obtain ⟨l, h1, h2, h3⟩ := C82_pv_constant_refuted (flat_ne_nil hh hw f) hc' hn
    exact ⟨l, h1, h2, iff_of_false h3 hc⟩

/-- The wave activity figure of any state, with what is drawn in terms of the diagnostics. -/
theorem waveActivity_spec (hg : g.Valid) (s : St τ g) (hemisphere : String) (center : ℝ) :
    ∃ (fig : Figure4 g) (col : Fin g.nlon → Fin g.nlon) (equiv mean : Fin g.nlat → ℝ) (F : Fin g.nlat → Fin g.nlon → Option ℝ),
      waveActivity S s hemisphere center = .ok fig ∧ Function.Bijective col ∧
      (∃ R, s.pvZonalized S = .ok R ∧ ∀ j, equiv j = 10000 * R j) ∧ s.falwa S = .ok F ∧
      fig.ax12.Labelled col hemisphere ∧ fig.ax22.Labelled col hemisphere ∧
      fig.ax11.limits = latLimits hemisphere ∧ fig.ax21.limits = latLimits hemisphere ∧
      fig.ax12.filled.Shows col (fun j i => 10000 * s.pv S j i - equiv j) ∧ (∀ j k, fig.ax22.filled.field j k = F j (col k)) ∧
      fig.ax22.filled.levels = none ∧
      (∃ m, fig.ax12.lines = some m ∧ fig.ax22.lines = some m ∧ m.Shows col (fun j i => 10000 * s.pv S j i) ∧
        (m.Drawable ↔ ∃ j i j' i', s.pv S j i ≠ s.pv S j' i')) ∧
      fig.ax12.vectors = none ∧ fig.ax22.vectors = none ∧
      fig.ax11.lines = [("equiv. lat.", fun j => some (equiv j)), ("mean", fun j => some (mean j))] ∧
      fig.ax21.lines = [("", fun j => Grid.meanO (F j))] ∧
      (∀ j, MeanOf (fun i => some (10000 * s.pv S j i)) (mean j) ∧ MeanOf (fig.ax12.filled.field j) (mean j - equiv j)) ∧
      fig.ax12.filled.Drawable := by
  have hh : 0 < g.nlat := by have := hg.nlat_ge; omega
  have hw : 0 < g.nlon := by have := hg.nlon_ge; omega
  obtain ⟨shift, offset, col, h1, h2, h3, h4⟩ := rollLon_cols hg center
  obtain ⟨R, lo, hi, hR, -⟩ := C21_profile g hg "sptrapz" (Or.inr rfl) g.nlon hw le_rfl (s.pv S) .none trivial
  obtain ⟨l1, p1, p2⟩ := symmetricLevels_drawable (flat_ne_nil hh hw fun j i => 10000 * s.pv S j i - 10000 * R j) (n := 10) (by norm_num)
    (ext := none) (by simp)
  obtain ⟨l2, q1, -, q3⟩ := pvLevels_scale hg (fun j i => 10000 * s.pv S j i) (n := if hemisphere = "both" then 10 else 14)
    (by split_ifs <;> norm_num)
  obtain ⟨-, F, -, hF, -⟩ := C24_nonneg_partial g hg "sptrapz" (Or.inr rfl) (s.pv S) .none trivial
  have hfawa : g.stateFawa (s.pv S) = .ok fun j => Grid.meanO (F j) := by
    unfold Grid.stateFawa
    rw [hF]
  have e : waveActivity S s hemisphere center = .ok ⟨⟨[("equiv. lat.", fun j => some (10000 * R j)),
      ("mean", fun j => some (rowMean (fun j i => 10000 * s.pv S j i) j))], latLimits hemisphere⟩,
      ⟨rolled shift (fun j i => 10000 * s.pv S j i - 10000 * R j) (some l1), some (rolled shift (fun j i => 10000 * s.pv S j i) (some l2)),
        none, offset, latLimits hemisphere⟩,
      ⟨[("", fun j => Grid.meanO (F j))], latLimits hemisphere⟩,
      ⟨⟨roll shift F, none⟩, some (rolled shift (fun j i => 10000 * s.pv S j i) (some l2)), none, offset, latLimits hemisphere⟩⟩ := by
    unfold waveActivity St.pvZonalized St.falwa
    simp only [h1, hR, p1, q1, hfawa, hF, bind, Except.bind, pure, Except.pure]
  refine ⟨_, col, fun j => 10000 * R j, _, F, e, h2, ⟨R, hR, fun _ => rfl⟩, hF, ⟨h4, rfl⟩, ⟨h4, rfl⟩, rfl, rfl, rolled_shows h3 _ _, fun j k => h3 _ j k,
    rfl, ⟨_, rfl, rfl, rolled_shows h3 _ _, ?_⟩, rfl, rfl, rfl, rfl, ?_, ?_⟩
  · have : (∃ j i j' i', s.pv S j i ≠ s.pv S j' i') ↔ ∃ j i j' i', 10000 * s.pv S j i ≠ 10000 * s.pv S j' i' := by
      simp
    rw [this, ← q3]
    constructor
    · intro h
      exact h l2 rfl
    · intro h l hl
      injection hl with hl
      exact hl ▸ h
  · intro j
    refine ⟨meanOf_roll (m := ⟨fun j i => some (10000 * s.pv S j i), none⟩) Function.bijective_id hw (fun _ _ => rfl) j, ?_⟩
    have := meanOf_roll h2 hw (rolled_shows h3 (fun j i => 10000 * s.pv S j i - 10000 * R j) (some l1)) j
    have e1 : rowMean (fun j i => 10000 * s.pv S j i - 10000 * R j) j = rowMean (fun j i => 10000 * s.pv S j i) j - 10000 * R j := by
      have hn : (g.nlon : ℝ) ≠ 0 := by exact_mod_cast hw.ne'
      simp only [rowMean, Finset.sum_sub_distrib, Finset.sum_const, Finset.card_univ, Fintype.card_fin, nsmul_eq_mul]
      field_simp
    rw [e1] at this
    exact this
  · intro l hl
    injection hl with hl
    exact hl ▸ p2

/-- C124: the wave activity figure, for all states of all valid grids whose PV is not constant. The figure is created and can be drawn; the
columns of both maps show the same meridian, which is the one on the label; the PV contours in both maps are the same; the difference between the
lines "mean" and "equiv. lat." is the zonal mean of the map of the deviation, the line of FAWA is the zonal mean of the map of FALWA; FALWA is
shown at all gridpoints and not negative. -/
theorem C124_wave_activity_partial (hg : g.Valid) (s : St τ g) (hne : ∃ j i j' i', s.pv S j i ≠ s.pv S j' i') (hemisphere : String) (center : ℝ) :
    ∃ (fig : Figure4 g) (col : Fin g.nlon → Fin g.nlon) (equiv mean fawa : Fin g.nlat → ℝ) (F : Fin g.nlat → Fin g.nlon → ℝ),
      waveActivity S s hemisphere center = .ok fig ∧ Function.Bijective col ∧
      (∃ R, s.pvZonalized S = .ok R ∧ ∀ j, equiv j = 10000 * R j) ∧ (s.falwa S = .ok fun j i => some (F j i)) ∧ (∀ j i, 0 ≤ F j i) ∧
      fig.ax12.Labelled col hemisphere ∧ fig.ax22.Labelled col hemisphere ∧
      fig.ax11.limits = latLimits hemisphere ∧ fig.ax21.limits = latLimits hemisphere ∧
      fig.ax12.filled.Shows col (fun j i => 10000 * s.pv S j i - equiv j) ∧ fig.ax22.filled.Shows col F ∧
      (∃ m, fig.ax12.lines = some m ∧ fig.ax22.lines = some m ∧ m.Shows col (fun j i => 10000 * s.pv S j i)) ∧
      fig.ax11.lines = [("equiv. lat.", fun j => some (equiv j)), ("mean", fun j => some (mean j))] ∧
      fig.ax21.lines = [("", fun j => some (fawa j))] ∧
      (∀ j, MeanOf (fun i => some (10000 * s.pv S j i)) (mean j) ∧ MeanOf (fig.ax12.filled.field j) (mean j - equiv j) ∧
        MeanOf (fig.ax22.filled.field j) (fawa j) ∧ 0 ≤ fawa j) ∧
      fig.ax12.vectors = none ∧ fig.ax22.vectors = none ∧ fig.ax12.Drawable ∧ fig.ax22.Drawable := by
  have hw : 0 < g.nlon := by have := hg.nlon_ge; omega
  obtain ⟨fig, col, equiv, mean, F, h1, h2, h3, h4, h5, h6, h7, h8, h9, h10, h11, ⟨m, h12, h13, h14, h15⟩, h16, h17, h18, h19, h20, h21⟩ :=
    waveActivity_spec S hg s hemisphere center
  obtain ⟨rows, F', -, hF', -, -, hnum⟩ := C24_nonneg_partial g hg "sptrapz" (Or.inr rfl) (s.pv S) .none trivial
  have hFF : F' = F := by
    have := hF'.symm.trans h4
    injection this
  subst hFF
  choose V hV1 hV2 using (hnum (Or.inr hne)).2
  have hFV : F' = fun j i => some (V j i) := funext fun j => funext fun i => hV1 j i
  have hmap : fig.ax22.filled.Shows col V := fun j k => by rw [h10, hV1]
  refine ⟨fig, col, equiv, mean, rowMean V, V, h1, h2, h3, hFV ▸ h4, hV2, h5, h6, h7, h8, h9, hmap, ⟨m, h12, h13, h14⟩, h18, ?_, ?_, h16, h17,
    ⟨h21, ?_⟩, ⟨?_, ?_⟩⟩
  · rw [h19, hFV]
    congr 2
    funext j
    unfold Grid.meanO rowMean
    rw [if_pos (by simp)]
    simp
  · intro j
    refine ⟨(h20 j).1, (h20 j).2, meanOf_roll h2 hw hmap j, ?_⟩
    exact div_nonneg (Finset.sum_nonneg fun i _ => hV2 j i) (Nat.cast_nonneg _)
  · intro m' hm'
    rw [h12] at hm'
    injection hm' with hm'
    exact hm' ▸ h15.mpr hne
  · intro l hl
    rw [h11] at hl
    cases hl
  · intro m' hm'
    rw [h13] at hm'
    injection hm' with hm'
    exact hm' ▸ h15.mpr hne

/-- C124 is false for constant PV: the levels of the PV contours are all the same, so that the figure can not be drawn (the streamfunction
contours of the other figures are guarded against this). -/
theorem C124_constant_refuted (hg : g.Valid) (s : St τ g) (c : ℝ) (hc : ∀ j i, s.pv S j i = c) (hemisphere : String) (center : ℝ) :
    ∃ fig, waveActivity S s hemisphere center = .ok fig ∧ ¬ fig.ax12.Drawable ∧ ¬ fig.ax22.Drawable := by
  obtain ⟨fig, col, equiv, mean, F, h1, h2, h3, h4, h5, h6, h7, h8, h9, h10, h11, ⟨m, h12, h13, h14, h15⟩, h16, h17, h18, h19, h20, h21⟩ :=
    waveActivity_spec S hg s hemisphere center
  have hn : ¬ m.Drawable := by
    rw [h15]
    rintro ⟨j, i, j', i', h⟩
    exact h ((hc j i).trans (hc j' i').symm)
  exact ⟨fig, h1, fun h => hn (h.2 m h12), fun h => hn (h.2 m h13)⟩

/-! ## rwp_diagnostics -/

/-- Hann windows of non-negative width have weights that are not negative and add up to 1. -/
theorem hannWindow_ok (hg : g.Valid) {width : ℝ} (hwd : 0 ≤ width) :
    ∃ m x, g.getFilterWindow hannWindow () width = .ok ⟨m, x⟩ ∧ ∑ k, x k = 1 ∧ ∀ k, 0 ≤ x k := by
  have hd : 0 < g.dlon := hg.res_pos
  have h0 : 0 ≤ pyRound (width / g.dlon) := by
    have h1 := (abs_le.mp (pyRound_spec (width / g.dlon)).1).2
    have h2 : 0 ≤ width / g.dlon := div_nonneg hwd hd.le
    have h3 : (-1 : ℝ) < (pyRound (width / g.dlon) : ℝ) := by linarith
    have h4 : -1 < pyRound (width / g.dlon) := by exact_mod_cast h3
    omega
  obtain ⟨n, hn⟩ : ∃ n : ℕ, g.filterWidth width = ((2 * n + 1 : ℕ) : ℤ) := by
    unfold Grid.filterWidth
    split_ifs with h
    · exact ⟨(pyRound (width / g.dlon) / 2).toNat, by push_cast; omega⟩
    · exact ⟨(pyRound (width / g.dlon) / 2).toNat, by push_cast; omega⟩
  refine ⟨_, _, getFilterWindow_of hannWindow g (2 * n + 1) hn _ rfl, ?_, ?_⟩
  · rcases Nat.eq_zero_or_pos n with rfl | hp
    · simp
    · have e : ∀ k : Fin (2 * n + 1), (if 2 * n + 1 = 1 then (1 : ℝ) else hann (2 * n + 1) k) = hann (2 * n + 1) k := fun k => if_neg (by omega)
      simp only [e]
      exact hannWeights_sum hp
  · intro k
    rcases Nat.eq_zero_or_pos n with rfl | hp
    · simp
    · have e : ∀ k : Fin (2 * n + 1), (if 2 * n + 1 = 1 then (1 : ℝ) else hann (2 * n + 1) k) = hann (2 * n + 1) k := fun k => if_neg (by omega)
      simp only [e]
      exact hannWeights_nonneg _ _

theorem asMap_self (f : Fin g.nlat → Fin g.nlon → ℝ) : asMap g (.d2 g.nlat g.nlon f) = .ok f := by
  simp [asMap]

theorem varies_spec (hg : g.Valid) (f : Fin g.nlat → Fin g.nlon → ℝ) :
    ∃ b, varies (flat f) = .ok b ∧ (b = false ↔ ∀ j i j' i', f j i = f j' i') := by
  have hh : 0 < g.nlat := by have := hg.nlat_ge; omega
  have hw : 0 < g.nlon := by have := hg.nlon_ge; omega
  obtain ⟨lo, hi, h1, h2, h3, h4⟩ := range?_spec (flat_ne_nil hh hw f)
  refine ⟨_, by unfold varies; rw [h1], ?_⟩
  simp only [ne_eq, decide_not, Bool.not_eq_false', decide_eq_true_eq]
  constructor
  · intro e j i j' i'
    obtain ⟨a1, a2⟩ := h4 _ (mem_flat.mpr ⟨j, i, rfl⟩)
    obtain ⟨b1, b2⟩ := h4 _ (mem_flat.mpr ⟨j', i', rfl⟩)
    linarith
  · intro h
    obtain ⟨j, i, e1⟩ := mem_flat.mp h2
    obtain ⟨j', i', e2⟩ := mem_flat.mp h3
    rw [← e1, ← e2]
    exact h j i j' i'

/-- Common levels of two fields without NaN and negative values -/
theorem packetLevels_spec {env ff : List ℝ} (h1 : env ≠ []) (h2 : ff ≠ []) (p1 : ∀ a ∈ env, 0 ≤ a) (p2 : ∀ a ∈ ff, 0 ≤ a) (rwpMax : Option ℝ)
    (hr : ∀ m, rwpMax = some m → 0 < m) :
    ∃ l top, packetLevels env (ff.map some) rwpMax = .ok l ∧ l.length = 6 ∧ l.head? = some 0 ∧ l.getLast? = some top ∧
      (∀ m, rwpMax = some m → top = m) ∧ (rwpMax = none → (top ∈ env ++ ff) ∧ ∀ a ∈ env ++ ff, a ≤ top) ∧
      (l.Pairwise (· < ·) ↔ rwpMax ≠ none ∨ ∃ a ∈ env ++ ff, a ≠ 0) := by
  have hmem : none ∉ ff.map (some : ℝ → Option ℝ) := by simp
  have hred : (ff.map some).reduceOption = ff := by simp [List.reduceOption]
  unfold packetLevels
  rw [if_neg hmem, hred]
  cases rwpMax with
  | some m =>
    have hm := hr m rfl
    refine ⟨(List.range 6).map fun i => linspace 0 m 6 i, m, rfl, by simp, by simp [List.range_succ_eq_map, linspace_start], ?_, ?_, by simp, ?_⟩
    · have := linspace_end (n := 6) (by norm_num) 0 m
      simp only [show 6 - 1 = 5 from rfl] at this
      simp [List.range_succ, this]
    · intro m' hm'
      injection hm'
    · refine iff_of_true ?_ (Or.inl (by simp))
      rw [List.pairwise_map]
      exact List.pairwise_lt_range.imp fun h => linspace_lt (by norm_num) hm h
  | none =>
    by_cases hp : ∃ a ∈ env ++ ff, a ≠ 0
    · obtain ⟨a, ha, hne⟩ := hp
      have hpos : 0 < a := by
        rcases List.mem_append.mp ha with h | h
        · exact lt_of_le_of_ne (p1 a h) hne.symm
        · exact lt_of_le_of_ne (p2 a h) hne.symm
      obtain ⟨l, m, e1, e2, e3, e4, e5, e6, e7⟩ := C82_rwp_levels h1 h2 ⟨a, ha, hpos⟩
      exact ⟨l, m, e1, e2, e4, e5, by simp, fun _ => ⟨e6, e7⟩, iff_of_true e3 (Or.inr ⟨a, ha, hne⟩)⟩
    · push Not at hp
      refine ⟨_, 0, C82_rwp_zero_refuted h1 h2 hp, rfl, rfl, rfl, by simp, fun _ => ⟨?_, fun a ha => (hp a ha).le⟩, ?_⟩
      · obtain ⟨a, ha⟩ := List.exists_mem_of_ne_nil _ h1
        have := hp a (List.mem_append_left _ ha)
        exact List.mem_append_left _ (this ▸ ha)
      · refine iff_of_false (by simp) ?_
        rintro (h | ⟨a, ha, h⟩)
        · exact h rfl
        · exact h (hp a ha)

/-- C124: the figure of the wave packet diagnostics, for grids with an even number of longitudes, states whose PV is not constant and overrides that
are positive. The figure is created; columns of all maps show the same meridian, which is the one on the label; the dominant wavenumber is left out
exactly if it is constant; the envelope and the filtered FALWA are not negative and have the same six levels from 0 to their common maximum (or
the override), which can be drawn unless both are zero everywhere. Missing: odd numbers of longitudes (see `C124_rwp_odd_refuted`), constant PV. -/
theorem C124_rwp_partial (hg : g.Valid) (he : Even g.nlon) (ψ : Wavelet) (hf : 0 ≤ ψ.frequency) (hψ : ∀ a < 120, 2 ≤ (ψ.samples (waveletScale a)).1)
    (s : St τ g) (hne : ∃ j i j' i', s.pv S j i ≠ s.pv S j' i') (hemisphere : String) (center : ℝ) {vMax rwpMax : Option ℝ}
    (hv : ∀ m, vMax = some m → 0 ≤ m) (hr : ∀ m, rwpMax = some m → 0 < m) :
    ∃ (fig : Figure3 g) (col : Fin g.nlon → Fin g.nlon) (dwn env F ff : Fin g.nlat → Fin g.nlon → ℝ) (l : List ℝ) (top : ℝ),
      rwpDiagnostics S ψ s hemisphere center vMax rwpMax = .ok fig ∧ Function.Bijective col ∧
      g.dominantWavelet hannWindow ψ (s.v S) (some ((), 40, 10)) = .ok (.d2 g.nlat g.nlon dwn) ∧
      s.vEnvelopeHilbert S = .ok (.d2 g.nlat g.nlon env) ∧ (s.falwa S = .ok fun j i => some (F j i)) ∧
      filterByWavenumber F (.field fun j i => 2 * dwn j i) = .ok (.d2 g.nlat g.nlon ff) ∧
      (∀ j i, ψ.frequency * g.nlon / 192 ≤ dwn j i ∧ dwn j i ≤ ψ.frequency * g.nlon / 3) ∧ (∀ j i, 0 ≤ env j i) ∧ (∀ j i, 0 ≤ ff j i) ∧
      fig.ax1.Labelled col hemisphere ∧ fig.ax2.Labelled col hemisphere ∧ fig.ax3.Labelled col hemisphere ∧
      fig.ax1.filled.Shows col (s.v S) ∧ fig.ax2.filled.Shows col env ∧ fig.ax3.filled.Shows col ff ∧
      (∀ m, fig.ax1.lines = some m → m.Shows col dwn ∧ m.levels = some [1, 2, 3, 4, 5, 6, 7, 8, 9, 10]) ∧
      (fig.ax1.lines = none ↔ ∀ j i j' i', dwn j i = dwn j' i') ∧
      (∀ m, fig.ax2.lines = some m → m.Shows col (s.streamfunction S) ∧ m.Drawable) ∧
      (fig.ax2.lines = none ↔ ∀ j i j' i', s.streamfunction S j i = s.streamfunction S j' i') ∧
      (∃ m, fig.ax3.lines = some m ∧ m.Shows col (s.pv S) ∧ m.Drawable) ∧
      fig.ax2.filled.levels = some l ∧ fig.ax3.filled.levels = some l ∧ l.length = 6 ∧ l.head? = some 0 ∧ l.getLast? = some top ∧
      (∀ m, rwpMax = some m → top = m) ∧
      (rwpMax = none → (∃ j i, env j i = top ∨ ff j i = top) ∧ ∀ j i, env j i ≤ top ∧ ff j i ≤ top) ∧
      (l.Pairwise (· < ·) ↔ rwpMax ≠ none ∨ ∃ j i, env j i ≠ 0 ∨ ff j i ≠ 0) ∧ fig.ax1.Drawable := by
  have hh : 0 < g.nlat := by have := hg.nlat_ge; omega
  have hw : 0 < g.nlon := by have := hg.nlon_ge; omega
  have hw2 : 2 ≤ g.nlon := by have := hg.nlon_ge; omega
  obtain ⟨shift, offset, col, h1, h2, h3, h4⟩ := rollLon_cols hg center
  obtain ⟨l1, r1, r2⟩ := symmetricLevels_drawable (flat_ne_nil hh hw (s.v S)) (n := 10) (by norm_num) hv
  obtain ⟨dwn, hdwn, hb⟩ := C94_range_partial (gw := hannWindow) (ψ := ψ) rfl rfl he hw2 hf hψ (s.v S) (some ((), 40, 10)) (by
    intro window wlon wlat hsm width hwidth
    injection hsm with hsm
    injection hsm with _ hsm
    injection hsm with e1 e2
    subst e1 e2
    refine hannWindow_ok hg ?_
    rcases hwidth with rfl | rfl <;> norm_num)
  obtain ⟨b, hb1, hb2⟩ := varies_spec hg dwn
  obtain ⟨y, hy⟩ := C61_shape_even_partial hw he (s.v S) 2 10
  obtain ⟨env, henv, henv0⟩ := C64_bounds _ _ _ _ hy
  obtain ⟨rows, F', -, hF', -, -, hnum⟩ := C24_nonneg_partial g hg "sptrapz" (Or.inr rfl) (s.pv S) .none trivial
  choose F hF1 hF2 using (hnum (Or.inr hne)).2
  have hFF : F' = fun j i => some (F j i) := funext fun j => funext fun i => hF1 j i
  subst hFF
  have hfO := filterByWavenumberO_ok hh hw2 (fun j i => some (F j i)) (.field fun j i => 2 * dwn j i) _ rfl
  have hfR := filterByWavenumber_ok hh hw2 F (.field fun j i => 2 * dwn j i) _ rfl
  obtain ⟨ff, hff⟩ : ∃ ff : Fin g.nlat → Fin g.nlon → ℝ, ff = fun j i => convolve (wrapExt (F j)) (hannWeights (hannWidth g.nlon (2 * dwn j i))) i :=
    ⟨_, rfl⟩
  have hfO' : filterByWavenumberO (fun j i => some (F j i)) (.field fun j i => 2 * dwn j i) = .ok fun j i => some (ff j i) := by
    rw [hfO, hff]
    congr 1
    funext j i
    exact convolveO_some hw (fun i => rfl) _ _
  have hff0 : ∀ j i, 0 ≤ ff j i := by
    intro j i
    rw [hff]
    refine Finset.sum_nonneg fun k _ => mul_nonneg (hannWeights_nonneg _ _) ?_
    obtain ⟨i', hi'⟩ := wrapExt_mem hw (F j) (i + (hannWidth g.nlon (2 * dwn j i) / 2 : ℕ) - k.val)
    rw [hi']
    exact hF2 j i'
  have hmap : flat (fun j i => some (ff j i)) = (flat ff).map some := by
    simp [flat, List.map_flatMap, Function.comp_def]
  obtain ⟨l, top, k1, k2, k3, k4, k5, k6, k7⟩ := packetLevels_spec (flat_ne_nil hh hw env) (flat_ne_nil hh hw ff)
    (by intro a ha; obtain ⟨j, i, rfl⟩ := mem_flat.mp ha; exact (henv0 j i).1)
    (by intro a ha; obtain ⟨j, i, rfl⟩ := mem_flat.mp ha; exact hff0 j i) rwpMax hr
  obtain ⟨psi, t1, t2, t3⟩ := psiContours_spec hg shift (s.streamfunction S) (n := if hemisphere = "both" then 10 else 14)
    (by split_ifs <;> norm_num)
  obtain ⟨l2, q1, -, q3⟩ := pvLevels_scale hg (s.pv S) (n := if hemisphere = "both" then 10 else 14) (by split_ifs <;> norm_num)
  have hlev : ((List.range 10).map fun k : ℕ => (k : ℝ) + 1) = [1, 2, 3, 4, 5, 6, 7, 8, 9, 10] := by
    simp [List.range_succ]
    norm_num
  have e : rwpDiagnostics S ψ s hemisphere center vMax rwpMax = .ok ⟨⟨rolled shift (s.v S) (some l1),
      if b then some (rolled shift dwn (some [1, 2, 3, 4, 5, 6, 7, 8, 9, 10])) else none, none, offset, latLimits hemisphere⟩,
      ⟨rolled shift env (some l), psi, none, offset, latLimits hemisphere⟩,
      ⟨⟨roll shift fun j i => some (ff j i), some l⟩, some (rolled shift (s.pv S) (some l2)), none, offset, latLimits hemisphere⟩⟩ := by
    unfold rwpDiagnostics St.vEnvelopeHilbert St.falwa
    rw [hmap.symm] at k1
    simp only [h1, r1, hdwn, asMap_self, hb1, henv, hF', hfO', k1, t1, q1, hlev, bind, Except.bind, pure, Except.pure]
  refine ⟨_, col, dwn, env, F, ff, l, top, e, h2, hdwn, henv, hF', hff ▸ hfR, hb, fun j i => (henv0 j i).1, hff0, ⟨h4, rfl⟩, ⟨h4, rfl⟩, ⟨h4, rfl⟩,
    rolled_shows h3 _ _, rolled_shows h3 _ _, fun j k => h3 (fun j i => some (ff j i)) j k, ?_, ?_, ?_, t2, ⟨_, rfl, rolled_shows h3 _ _, ?_⟩, rfl, rfl, k2, k3, k4, k5, ?_, ?_, ?_, ?_⟩
  · intro m hm
    cases b with
    | false => cases hm
    | true =>
      injection hm with hm
      subst hm
      exact ⟨rolled_shows h3 _ _, rfl⟩
  · rw [← hb2]
    cases b <;> simp
  · intro m hm
    refine ⟨fun j k => ?_, (t3 m hm).1⟩
    rw [(t3 m hm).2]
    exact h3 _ j k
  · intro l' hl'
    injection hl' with hl'
    exact hl' ▸ q3.mpr hne
  · intro hn
    obtain ⟨a1, a2⟩ := k6 hn
    refine ⟨?_, fun j i => ⟨a2 _ (List.mem_append_left _ (mem_flat.mpr ⟨j, i, rfl⟩)), a2 _ (List.mem_append_right _ (mem_flat.mpr ⟨j, i, rfl⟩))⟩⟩
    rcases List.mem_append.mp a1 with h | h
    · obtain ⟨j, i, h⟩ := mem_flat.mp h
      exact ⟨j, i, Or.inl h⟩
    · obtain ⟨j, i, h⟩ := mem_flat.mp h
      exact ⟨j, i, Or.inr h⟩
  · rw [k7]
    refine or_congr Iff.rfl ⟨?_, ?_⟩
    · rintro ⟨a, ha, hn⟩
      rcases List.mem_append.mp ha with h | h
      · obtain ⟨j, i, rfl⟩ := mem_flat.mp h
        exact ⟨j, i, Or.inl hn⟩
      · obtain ⟨j, i, rfl⟩ := mem_flat.mp h
        exact ⟨j, i, Or.inr hn⟩
    · rintro ⟨j, i, h | h⟩
      · exact ⟨_, List.mem_append_left _ (mem_flat.mpr ⟨j, i, rfl⟩), h⟩
      · exact ⟨_, List.mem_append_right _ (mem_flat.mpr ⟨j, i, rfl⟩), h⟩
  · intro l' hl'
    injection hl' with hl'
    exact hl' ▸ r2
  · intro m hm
    cases b with
    | false => cases hm
    | true =>
      injection hm with hm
      subst hm
      intro l' hl'
      injection hl' with hl'
      subst hl'
      norm_num

/-- C124 is false for odd numbers of longitudes: the figure of the wave packet diagnostics can not be created for any state, the dominant
wavenumber raises AssertionError. -/
theorem C124_rwp_odd_refuted (hg : g.Valid) (ho : Odd g.nlon) (ψ : Wavelet) (hψ : ∀ a < 120, 2 ≤ (ψ.samples (waveletScale a)).1)
    (s : St τ g) (hemisphere : String) (center : ℝ) {vMax rwpMax : Option ℝ} (hv : ∀ m, vMax = some m → 0 ≤ m) :
    rwpDiagnostics S ψ s hemisphere center vMax rwpMax = .error .assertionError := by
  have hh : 0 < g.nlat := by have := hg.nlat_ge; omega
  have hw : 0 < g.nlon := by have := hg.nlon_ge; omega
  have hw2 : 2 ≤ g.nlon := by have := hg.nlon_ge; omega
  obtain ⟨shift, offset, col, h1, h2, h3, h4⟩ := rollLon_cols hg center
  obtain ⟨l1, r1, r2⟩ := symmetricLevels_drawable (flat_ne_nil hh hw (s.v S)) (n := 10) (by norm_num) hv
  obtain ⟨m, x, hx, hs1, -⟩ := hannWindow_ok hg (show (0 : ℝ) ≤ 10 by norm_num)
  obtain ⟨m', x', hx', -⟩ := hannWindow_ok hg (show (0 : ℝ) ≤ 40 by norm_num)
  have hm : 0 < m := by
    rcases Nat.eq_zero_or_pos m with rfl | h
    · simp at hs1
    · exact h
  have hd := (C94_odd_refuted (gw := hannWindow) (ψ := ψ) rfl rfl ho hw2 hψ (s.v S)).2 () 40 10 m x m' x' hx hx' hm
  unfold rwpDiagnostics
  simp only [h1, r1, hd, bind, Except.bind]

/-! ## waveguides -/

/-- C124: the waveguides figure, for all states of grids with at least 5 latitudes. For each requested wavenumber, in their order, vertical line segments at this wavenumber connect the boundaries of its
waveguides; the curve is the stationary wavenumber where it is real, and minus its magnitude where it is imaginary; the other panel shows
the zonal mean of the zonal wind. -/
theorem C124_waveguides (hg : g.Valid) (s : St τ g) (h5 : 5 ≤ g.nlat) (k : WaveguidesArg) (hemisphere : String) :
    ∃ (fig : WaveguideFigure g) (wind : Fin g.nlat → ℝ) (z : Fin g.nlat → FloatX × FloatX),
      s.stationaryWavenumber S = .ok (.complex z) ∧ waveguides S s k hemisphere = .ok fig ∧
      fig.wind.lines = [("", fun j => some (wind j))] ∧ (∀ j, MeanOf (fun i => some (s.u S j i)) (wind j)) ∧
      fig.wind.limits = latLimits hemisphere ∧ fig.limits = latLimits hemisphere ∧
      fig.guides.length = k.wavenumbers.length ∧
      (∀ n (h : n < fig.guides.length) (h' : n < k.wavenumbers.length), ∃ wgs, s.extractKsWaveguides S k.wavenumbers[n] = .ok wgs ∧
        drawnSegments fig.guides[n] = wgs.map fun w => ((FloatX.fin k.wavenumbers[n], w.1), (FloatX.fin k.wavenumbers[n], w.2))) ∧
      ∀ j (x : ℝ), z j = FloatX.csqrt (.fin x) → ∃ c : ℝ, fig.curve j = .fin c ∧ c * |c| = x := by
  have hh : 0 < g.nlat := by omega
  have hw : 0 < g.nlon := by have := hg.nlon_ge; omega
  obtain ⟨z, hz⟩ : ∃ z, s.stationaryWavenumber S = .ok (.complex z) := by
    obtain ⟨D, hD, -⟩ := C14_structure_1d g (.int 4) (by simp [Order.Known]) h5
    unfold St.stationaryWavenumber
    rcases stationary_eq (g := g) (.field (s.u S)) (some (.field (s.pv S))) (.int 4) (1 / 1000) with ⟨e, h⟩ | ⟨q, d, -, -, h⟩
    · exfalso
      have := h "complex"
      unfold Grid.stationaryWavenumber Grid.ksPv Grid.derivativeProfile at this
      simp [hD] at this
    · rw [h "complex"]
      exact ⟨_, rfl⟩
  have hex : ∀ κ : ℝ, ∃ wgs, g.extractKsWaveguides (List.ofFn z) (.fin κ, .fin 0) = .ok wgs := by
    intro κ
    cases hl : List.ofFn z with
    | nil =>
      have := congrArg List.length hl
      simp at this
      omega
    | cons a l => exact ⟨_, rfl⟩
  choose W hW using hex
  have e : waveguides S s k hemisphere = .ok ⟨⟨[("", fun j => some (rowMean (s.u S) j))], latLimits hemisphere⟩,
      k.wavenumbers.map fun κ => waveguidePoints (FloatX.fin κ) (W κ), fun j => FloatX.realVariant (z j), latLimits hemisphere⟩ := by
    unfold waveguides
    have := mapM_map k.wavenumbers (fun κ => do
      let wgs ← g.extractKsWaveguides (List.ofFn z) (.fin κ, .fin 0)
      return waveguidePoints (FloatX.fin κ) wgs) (fun κ => waveguidePoints (FloatX.fin κ) (W κ)) (by
        intro κ _
        simp only [hW, bind, Except.bind, pure, Except.pure])
    simp only [bind, Except.bind, pure, Except.pure] at this ⊢
    rw [hz]
    dsimp only
    rw [this]
  refine ⟨_, _, z, hz, e, rfl, fun j => meanOf_roll (m := ⟨fun j i => some (s.u S j i), none⟩) Function.bijective_id hw (fun _ _ => rfl) j, rfl, rfl,
    by simp, ?_, ?_⟩
  · intro n h h'
    refine ⟨W k.wavenumbers[n], ?_, ?_⟩
    · unfold St.extractKsWaveguides
      rw [hz]
      exact hW _
    · simp only [List.getElem_map]
      exact C88_segments _ _
  · intro j x hx
    refine ⟨SignType.sign x * Real.sqrt |x|, ?_, ?_⟩
    · change FloatX.realVariant (z j) = _
      rw [hx, realVariant_csqrt]
      rfl
    · rcases lt_trichotomy x 0 with h | h | h
      · rw [sign_neg h, abs_of_neg h]
        have := Real.mul_self_sqrt (show 0 ≤ -x by linarith)
        simp only [SignType.coe_neg_one, neg_mul, one_mul, abs_neg, abs_of_nonneg (Real.sqrt_nonneg (-x))]
        linarith
      · simp [h]
      · rw [sign_pos h, abs_of_pos h]
        simp only [SignType.coe_one, one_mul, abs_of_nonneg (Real.sqrt_nonneg x)]
        exact Real.mul_self_sqrt h.le

/-- C124: no argument requests no wavenumber, a number only itself, an iterable its elements. -/
theorem C124_wavenumbers (s : St τ g) (κ : ℝ) (κs : List ℝ) (hemisphere : String) :
    (WaveguidesArg.iterable κs).wavenumbers = κs ∧ waveguides S s .none hemisphere = waveguides S s (.iterable []) hemisphere ∧
    waveguides S s (.number κ) hemisphere = waveguides S s (.iterable [κ]) hemisphere := ⟨rfl, rfl, rfl⟩

/-- C124: missing values in the filtered FALWA do not affect the levels, they range up to the maximum of the envelope. -/
theorem C124_packet_nan {env : List ℝ} {ff : List (Option ℝ)} (h1 : env ≠ []) (hn : none ∈ ff) (p1 : ∃ a ∈ env, 0 < a) :
    ∃ l top, packetLevels env ff none = .ok l ∧ l.Pairwise (· < ·) ∧ l.head? = some 0 ∧ l.getLast? = some top ∧ top ∈ env ∧ ∀ a ∈ env, a ≤ top := by
  unfold packetLevels
  rw [if_pos hn]
  obtain ⟨a, ha, hpos⟩ := p1
  obtain ⟨l, m, e1, e2, e3, e4, e5, e6, e7⟩ := C82_rwp_levels h1 h1 ⟨a, List.mem_append_left _ ha, hpos⟩
  exact ⟨l, m, e1, e3, e4, e5, by simpa using e6, fun a ha => e7 a (List.mem_append_left _ ha)⟩

example : (none : Option ℝ) ∈ [some 1, none] ∧ ∃ a ∈ [(2 : ℝ), 0], 0 < a := ⟨by simp, 2, by simp, by norm_num⟩

/-! ## The hypotheses can be met -/

/-- Constant in longitude and increasing to the south -/
noncomputable def southward30 : grid30.Sph := ⟨fun _ => 0, fun _ j _ => ((j : ℕ) : ℝ), fun _ _ => (0, 0), fun _ _ => (0, 0), fun _ => (0, 0)⟩

example (s : St ℝ grid30) : grid30.Valid ∧ Even grid30.nlon ∧ 5 ≤ grid30.nlat ∧
    (∃ j i j' i', s.pv southward30 j i ≠ s.pv southward30 j' i') ∧
    ∃ ψ : Wavelet, 0 ≤ ψ.frequency ∧ ∀ a < 120, 2 ≤ (ψ.samples (waveletScale a)).1 := by
  refine ⟨grid30_valid, ⟨6, by rw [grid30_nlon]⟩, by rw [grid30_nlat]; norm_num, ?_, ⟨fun _ => ⟨2, fun _ => 0⟩, 1⟩, by norm_num, fun _ _ => le_rfl⟩
  have hn : grid30.nlat = 7 := grid30_nlat
  have hw : grid30.nlon = 12 := grid30_nlon
  refine ⟨⟨0, by omega⟩, ⟨0, by omega⟩, ⟨1, by omega⟩, ⟨0, by omega⟩, ?_⟩
  simp [St.pv, Grid.toGrid, southward30]

/-- A grid with 9 longitudes and 5 latitudes -/
noncomputable def grid40 : Grid ℝ := ⟨40, 1, 1, 4⟩

example : grid40.Valid ∧ Odd grid40.nlon := by
  have h1 : grid40.nlon = 9 := by
    unfold Grid.nlon Grid.nlonOf grid40
    norm_num
  have h2 : grid40.nlat = 5 := by
    have : ⌊180 / (40 : ℝ)⌋₊ = 4 := by rw [Nat.floor_eq_iff (by norm_num)]; constructor <;> norm_num
    unfold grid40 Grid.nlat Grid.nlatOf
    simp only [this]
  exact ⟨⟨by unfold grid40; norm_num, by unfold grid40; norm_num, by omega, by omega, by rw [h2]; unfold grid40; norm_num⟩, ⟨4, h1⟩⟩

end Barotropic
