import Verif.Lemmas.Filter
import Verif.Spec.Filter
import Mathlib.Algebra.BigOperators.Field
import Mathlib.Algebra.BigOperators.Intervals
import Mathlib.Data.Rat.Floor

/-!
# C67 Filter windows, C68 Filtering
-/

set_option linter.unusedSectionVars false

namespace Barotropic
open Finset

variable {K : Type*} [Field K] [LinearOrder K] [IsStrictOrderedRing K] [FloorRing K]
variable {W : Type*} (gw : W → (n : ℕ) → Except PyErr (Fin n → K)) (g : Grid K)

/-! ## C67 -/

/-- C67: `round` is rounding to the nearest integer, ties to even, and this determines it. -/
theorem C67_round (x : K) (r : ℤ) : pyRound x = r ↔ IsRounded x r := by
  refine ⟨fun h => h ▸ pyRound_spec x, fun h => ?_⟩
  obtain ⟨h1, h2⟩ := pyRound_spec x
  obtain ⟨h3, h4⟩ := h
  have a1 := abs_le.mp h1
  have a3 := abs_le.mp h3
  rcases lt_trichotomy (pyRound x) r with hlt | heq | hlt
  · exfalso
    have hc : ((pyRound x : ℤ) : K) + 1 ≤ r := by exact_mod_cast hlt
    have e : x - pyRound x = 1 / 2 := by linarith
    have e' : x - r = -(1 / 2) := by linarith
    have hr : ((pyRound x : ℤ) : K) + 1 = r := by linarith
    have hr' : pyRound x + 1 = r := by exact_mod_cast hr
    obtain ⟨a, ha⟩ := h2 (by rw [e]; norm_num [abs_of_pos])
    obtain ⟨b, hb⟩ := h4 (by rw [e']; norm_num [abs_of_pos])
    omega
  · exact heq
  · exfalso
    have hc : (r : K) + 1 ≤ pyRound x := by exact_mod_cast hlt
    have e : x - pyRound x = -(1 / 2) := by linarith
    have e' : x - r = 1 / 2 := by linarith
    have hr : (r : K) + 1 = pyRound x := by linarith
    have hr' : r + 1 = pyRound x := by exact_mod_cast hr
    obtain ⟨a, ha⟩ := h2 (by rw [e]; norm_num [abs_of_pos])
    obtain ⟨b, hb⟩ := h4 (by rw [e']; norm_num [abs_of_pos])
    omega

/-- C67: the number of points is odd, at least one, and the rounded number of gridpoints if that is odd, otherwise one more. -/
theorem C67_length (window : W) (width : K) (n : ℕ) (w : Fin n → K)
    (h : g.getFilterWindow gw window width = .ok ⟨n, w⟩) :
    Odd n ∧ 1 ≤ n ∧ ∀ r : ℤ, IsRounded (width / g.dlon) r → (Odd r → n = r) ∧ (Even r → n = r + 1) := by
  have hn : n = (g.filterWidth width).toNat ∧ 0 ≤ g.filterWidth width := by
    unfold Grid.getFilterWindow at h
    by_cases hneg : g.filterWidth width < 0
    · rw [if_pos hneg] at h; cases h
    · rw [if_neg hneg] at h
      refine ⟨?_, not_lt.mp hneg⟩
      split at h
      · cases h
      · cases h; rfl
  obtain ⟨rfl, h0⟩ := hn
  have hcast := Int.toNat_of_nonneg h0
  have hodd : g.filterWidth width % 2 = 1 := by
    unfold Grid.filterWidth; split_ifs <;> omega
  refine ⟨Nat.odd_iff.mpr (by omega), by omega, fun r hr => ?_⟩
  have hr' := (C67_round _ _).mpr hr
  rw [hcast]
  unfold Grid.filterWidth
  rw [hr']
  refine ⟨fun ho => if_pos (Int.odd_iff.mp ho), fun he => if_neg (by rw [Int.even_iff.mp he]; decide)⟩

/-- C67: every width `≥ 0` is accepted if scipy knows the window, and scipy is asked for a window of that length; the
result is this window divided by its sum. -/
theorem C67_window (hd : 0 < g.dlon) (window : W) (width : K) (hw : 0 ≤ width) :
    ∃ n : ℕ, Odd n ∧
      (∀ raw, gw window n = .ok raw → ∃ w, g.getFilterWindow gw window width = .ok ⟨n, w⟩ ∧ ∀ i, w i * ∑ k, raw k = raw i ∨ ∑ k, raw k = 0) ∧
      (∀ e, gw window n = .error e → g.getFilterWindow gw window width = .error e) := by
  have h0 : 0 ≤ pyRound (width / g.dlon) := by
    have hx : 0 ≤ width / g.dlon := div_nonneg hw hd.le
    have := (abs_le.mp (pyRound_spec (width / g.dlon)).1).2
    by_contra hneg
    have : ((pyRound (width / g.dlon) : ℤ) : K) ≤ -1 := by exact_mod_cast (by omega : pyRound (width / g.dlon) ≤ -1)
    linarith
  have h1 : 0 ≤ g.filterWidth width := by unfold Grid.filterWidth; split_ifs <;> omega
  have hodd : g.filterWidth width % 2 = 1 := by
    unfold Grid.filterWidth; split_ifs <;> omega
  refine ⟨(g.filterWidth width).toNat, Nat.odd_iff.mpr (by omega), fun raw hraw => ?_, fun e he => ?_⟩
  · refine ⟨fun i => raw i / ∑ k, raw k, ?_, fun i => ?_⟩
    · unfold Grid.getFilterWindow
      rw [if_neg (not_lt.mpr h1), hraw]
    · by_cases hs : ∑ k, raw k = 0
      · exact Or.inr hs
      · exact Or.inl (div_mul_cancel₀ _ hs)
  · unfold Grid.getFilterWindow
    rw [if_neg (not_lt.mpr h1), he]

/-- C67: the weights sum to 1, and they are non-negative or symmetric if scipy's window is. -/
theorem C67_normalized (window : W) (width : K) (n : ℕ) (w : Fin n → K)
    (h : g.getFilterWindow gw window width = .ok ⟨n, w⟩) (raw : Fin n → K) (hraw : gw window n = .ok raw) (hs : ∑ k, raw k ≠ 0) :
    ∑ k, w k = 1 ∧ ((∀ k, 0 ≤ raw k) → ∀ k, 0 ≤ w k) ∧ (reversed raw = raw → reversed w = w) := by
  have hw : w = fun i => raw i / ∑ k, raw k := by
    unfold Grid.getFilterWindow at h
    by_cases hneg : g.filterWidth width < 0
    · rw [if_pos hneg] at h; cases h
    · rw [if_neg hneg] at h
      split at h
      · cases h
      · next w' hw' =>
        cases h
        rw [hraw] at hw'
        cases hw'
        rfl
  subst hw
  refine ⟨?_, fun hp k => div_nonneg (hp k) (sum_nonneg fun k _ => hp k), fun hr => ?_⟩
  · rw [← sum_div, div_self hs]
  · funext i
    exact congrArg (· / ∑ k, raw k) (congrFun hr i)

/-- C67: widths below minus half a grid spacing are rejected. -/
theorem C67_negative (hd : 0 < g.dlon) (window : W) (width : K) (hw : width < -(1 / 2) * g.dlon) :
    g.getFilterWindow gw window width = .error .valueError := by
  have hx : width / g.dlon < -(1 / 2) := by rwa [div_lt_iff₀ hd]
  have := (abs_le.mp (pyRound_spec (width / g.dlon)).1).1
  have h2 : ((pyRound (width / g.dlon) : ℤ) : K) < 0 := by linarith
  have h3 : pyRound (width / g.dlon) < 0 := by exact_mod_cast h2
  have : g.filterWidth width < 0 := by unfold Grid.filterWidth; split_ifs <;> omega
  unfold Grid.getFilterWindow
  rw [if_pos this]

theorem getFilterWindow_of {window : W} {width : K} (n : ℕ) (h : g.filterWidth width = n) (raw : Fin n → K) (hr : gw window n = .ok raw) :
    g.getFilterWindow gw window width = .ok ⟨n, fun i => raw i / ∑ k, raw k⟩ := by
  have hn : (g.filterWidth width).toNat = n := by rw [h]; rfl
  subst hn
  unfold Grid.getFilterWindow
  rw [if_neg (by omega), hr]

/-- Non-vacuity of C67: a boxcar window of 10 degrees on a 2.5 degree grid has 5 points of equal weight, one of 11.25 degrees
(4.5 gridpoints, rounded to 4) as well. -/
example : let g : Grid ℚ := ⟨5 / 2, 1, 1, 20⟩
    let boxcar : Unit → (n : ℕ) → Except PyErr (Fin n → ℚ) := fun _ _ => .ok fun _ => 1
    g.filterWidth 10 = 5 ∧ g.filterWidth (45 / 4) = 5 ∧ g.filterWidth (55 / 4) = 7 ∧
      ∃ w, g.getFilterWindow boxcar () 10 = .ok ⟨5, w⟩ ∧ w 0 = 1 / 5 := by
  refine ⟨by decide +kernel, by decide +kernel, by decide +kernel, fun _ => 1 / 5, ?_, rfl⟩
  have h : (⟨5 / 2, 1, 1, 20⟩ : Grid ℚ).filterWidth 10 = 5 := by decide +kernel
  rw [getFilterWindow_of _ _ 5 h (fun _ => 1) rfl]
  norm_num

/-! ## C68 -/

variable {gw g} {win : WindowArg W K} {m : ℕ} {w : Fin m → K}

theorem merid_d1 (hw : g.resolveWindow gw win = .ok ⟨m, w⟩) (hm : 0 < m) (f : Fin g.nlat → K) :
    g.filterMeridional gw (.d1 g.nlat f) win = .ok (.d1 g.nlat fun j => convolve (reflectExt f) w j) := by
  unfold Grid.filterMeridional
  rw [hw]
  simp [hm.ne']

theorem zonal_d1 (hw : g.resolveWindow gw win = .ok ⟨m, w⟩) (hm : 0 < m) (f : Fin g.nlon → K) :
    g.filterZonal gw (.d1 g.nlon f) win = .ok (.d1 g.nlon fun i => convolve (wrapExt f) w i) := by
  unfold Grid.filterZonal
  rw [hw]
  simp [hm.ne']

/-- C68: errors of the window are passed on, a window without weights raises RuntimeError for fields of the right size. -/
theorem C68_window_errors (field : Arr K) :
    (∀ e, g.resolveWindow gw win = .error e → g.filterMeridional gw field win = .error e ∧ g.filterZonal gw field win = .error e) ∧
    (∀ w : Fin 0 → K, ∀ f : Fin g.nlat → K, g.filterMeridional gw (.d1 g.nlat f) (.gridded ⟨0, w⟩) = .error .runtimeError) ∧
    (∀ w : Fin 0 → K, ∀ f : Fin g.nlon → K, g.filterZonal gw (.d1 g.nlon f) (.gridded ⟨0, w⟩) = .error .runtimeError) := by
  refine ⟨fun e he => ?_, fun w f => ?_, fun w f => ?_⟩
  · unfold Grid.filterMeridional Grid.filterZonal
    rw [he]
    exact ⟨rfl, rfl⟩
  · simp [Grid.filterMeridional, Grid.resolveWindow]
  · simp [Grid.filterZonal, Grid.resolveWindow]

/-- C68: wrong sizes raise AssertionError, other dimensionalities ValueError, everything else is accepted and keeps its shape. -/
theorem C68_meridional_shapes (hw : g.resolveWindow gw win = .ok ⟨m, w⟩) (hm : 0 < m) (field : Arr K) (hf : field.WF) :
    (field.ndim ≠ 1 ∧ field.ndim ≠ 2 → g.filterMeridional gw field win = .error .valueError) ∧
    (field.ndim = 1 ∨ field.ndim = 2 → field.shape.head? ≠ some g.nlat →
      g.filterMeridional gw field win = .error .assertionError) ∧
    (field.ndim = 1 ∨ field.ndim = 2 → field.shape.head? = some g.nlat →
      ∃ out, g.filterMeridional gw field win = .ok out ∧ out.shape = field.shape) := by
  unfold Grid.filterMeridional
  rw [hw]
  cases field with
  | d0 x => exact ⟨fun _ => rfl, fun h => by simp [Arr.ndim, Arr.shape] at h, fun h => by simp [Arr.ndim, Arr.shape] at h⟩
  | d1 n f =>
    refine ⟨fun h => absurd rfl h.1, fun _ h => if_pos (by simpa [Arr.shape] using h), fun _ h => ?_⟩
    refine ⟨_, (if_neg (by simpa [Arr.shape] using h)).trans (if_neg hm.ne'), rfl⟩
  | d2 h n f =>
    refine ⟨fun h => absurd rfl h.2, fun _ h => if_pos (by simpa [Arr.shape] using h), fun _ h => ?_⟩
    refine ⟨_, (if_neg (by simpa [Arr.shape] using h)).trans (if_neg hm.ne'), rfl⟩
  | nd s =>
    have : 3 ≤ s.length := hf
    exact ⟨fun _ => rfl, fun h => by simp only [Arr.ndim, Arr.shape] at h; omega, fun h => by simp only [Arr.ndim, Arr.shape] at h; omega⟩

/-- C68: the same for zonal filtering, where the last dimension must have the size of the longitude axis. -/
theorem C68_zonal_shapes (hw : g.resolveWindow gw win = .ok ⟨m, w⟩) (hm : 0 < m) (field : Arr K) (hf : field.WF) :
    (field.ndim ≠ 1 ∧ field.ndim ≠ 2 → g.filterZonal gw field win = .error .valueError) ∧
    (field.ndim = 1 ∨ field.ndim = 2 → field.shape.getLast? ≠ some g.nlon →
      g.filterZonal gw field win = .error .assertionError) ∧
    (field.ndim = 1 ∨ field.ndim = 2 → field.shape.getLast? = some g.nlon →
      ∃ out, g.filterZonal gw field win = .ok out ∧ out.shape = field.shape) := by
  unfold Grid.filterZonal
  rw [hw]
  cases field with
  | d0 x => exact ⟨fun _ => rfl, fun h => by simp [Arr.ndim, Arr.shape] at h, fun h => by simp [Arr.ndim, Arr.shape] at h⟩
  | d1 n f =>
    refine ⟨fun h => absurd rfl h.1, fun _ h => if_pos (by simpa [Arr.shape] using h), fun _ h => ?_⟩
    refine ⟨_, (if_neg (by simpa [Arr.shape] using h)).trans (if_neg hm.ne'), rfl⟩
  | d2 h n f =>
    refine ⟨fun h => absurd rfl h.2, fun _ h => if_pos (by simpa [Arr.shape] using h), fun _ h => ?_⟩
    refine ⟨_, (if_neg (by simpa [Arr.shape] using h)).trans (if_neg hm.ne'), rfl⟩
  | nd s =>
    have : 3 ≤ s.length := hf
    exact ⟨fun _ => rfl, fun h => by simp only [Arr.ndim, Arr.shape] at h; omega, fun h => by simp only [Arr.ndim, Arr.shape] at h; omega⟩

/-- C68: 2-dimensional fields are filtered meridionally column by column. With this the following theorems about meridional
filtering of 1-dimensional fields are theorems about 2-dimensional fields. -/
theorem C68_columns {n : ℕ} (f out : Fin g.nlat → Fin n → K) (h : g.filterMeridional gw (.d2 g.nlat n f) win = .ok (.d2 g.nlat n out)) (i : Fin n) :
    g.filterMeridional gw (.d1 g.nlat fun j => f j i) win = .ok (.d1 g.nlat fun j => out j i) := by
  unfold Grid.filterMeridional at h ⊢
  rcases hw : g.resolveWindow gw win with e | ⟨m, w⟩
  · rw [hw] at h; cases h
  · rw [hw] at h
    simp only [ne_eq, not_true_eq_false, if_false] at h ⊢
    split_ifs at h ⊢ with hm
    cases h
    rfl

/-- C68: 2-dimensional fields are filtered zonally row by row. -/
theorem C68_rows {n : ℕ} (f out : Fin n → Fin g.nlon → K) (h : g.filterZonal gw (.d2 n g.nlon f) win = .ok (.d2 n g.nlon out)) (j : Fin n) :
    g.filterZonal gw (.d1 g.nlon (f j)) win = .ok (.d1 g.nlon (out j)) := by
  unfold Grid.filterZonal at h ⊢
  rcases hw : g.resolveWindow gw win with e | ⟨m, w⟩
  · rw [hw] at h; cases h
  · rw [hw] at h
    simp only [ne_eq, not_true_eq_false, if_false] at h ⊢
    split_ifs at h ⊢ with hm
    cases h
    rfl

theorem merid_ok {f out : Fin g.nlat → K} (h : g.filterMeridional gw (.d1 g.nlat f) win = .ok (.d1 g.nlat out)) :
    ∃ (m : ℕ) (w : Fin m → K), g.resolveWindow gw win = .ok ⟨m, w⟩ ∧ 0 < m ∧ out = fun j => convolve (reflectExt f) w j.val := by
  rcases hw : g.resolveWindow gw win with e | ⟨m, w⟩
  · unfold Grid.filterMeridional at h
    rw [hw] at h; cases h
  · rcases Nat.eq_zero_or_pos m with rfl | hm
    · unfold Grid.filterMeridional at h
      rw [hw] at h; simp at h
    · rw [merid_d1 hw hm] at h
      cases h
      exact ⟨m, w, rfl, hm, rfl⟩

theorem zonal_ok {f out : Fin g.nlon → K} (h : g.filterZonal gw (.d1 g.nlon f) win = .ok (.d1 g.nlon out)) :
    ∃ (m : ℕ) (w : Fin m → K), g.resolveWindow gw win = .ok ⟨m, w⟩ ∧ 0 < m ∧ out = fun j => convolve (wrapExt f) w j.val := by
  rcases hw : g.resolveWindow gw win with e | ⟨m, w⟩
  · unfold Grid.filterZonal at h
    rw [hw] at h; cases h
  · rcases Nat.eq_zero_or_pos m with rfl | hm
    · unfold Grid.filterZonal at h
      rw [hw] at h; simp at h
    · rw [zonal_d1 hw hm] at h
      cases h
      exact ⟨m, w, rfl, hm, rfl⟩

/-- C68: filtering is linear. -/
theorem C68_linear (c : K) :
    (∀ f f' out out' : Fin g.nlat → K, g.filterMeridional gw (.d1 g.nlat f) win = .ok (.d1 g.nlat out) →
      g.filterMeridional gw (.d1 g.nlat f') win = .ok (.d1 g.nlat out') →
      g.filterMeridional gw (.d1 g.nlat (c • f + f')) win = .ok (.d1 g.nlat (c • out + out'))) ∧
    (∀ f f' out out' : Fin g.nlon → K, g.filterZonal gw (.d1 g.nlon f) win = .ok (.d1 g.nlon out) →
      g.filterZonal gw (.d1 g.nlon f') win = .ok (.d1 g.nlon out') →
      g.filterZonal gw (.d1 g.nlon (c • f + f')) win = .ok (.d1 g.nlon (c • out + out'))) := by
  constructor
  · intro f f' out out' h h'
    obtain ⟨m, w, hw, hm, rfl⟩ := merid_ok h
    rw [merid_d1 hw hm] at h'
    cases h'
    rw [merid_d1 hw hm]
    congr 2
    funext j
    exact convolve_linear c _ _ _ (reflectExt_linear c f f') w j
  · intro f f' out out' h h'
    obtain ⟨m, w, hw, hm, rfl⟩ := zonal_ok h
    rw [zonal_d1 hw hm] at h'
    cases h'
    rw [zonal_d1 hw hm]
    congr 2
    funext j
    exact convolve_linear c _ _ _ (wrapExt_linear c f f') w j

/-- C68: constants are reproduced by windows with sum 1. -/
theorem C68_const (hw : g.resolveWindow gw win = .ok ⟨m, w⟩) (hs : ∑ k, w k = 1) (c : K) :
    g.filterMeridional gw (.d1 g.nlat fun _ => c) win = .ok (.d1 g.nlat fun _ => c) ∧
    g.filterZonal gw (.d1 g.nlon fun _ => c) win = .ok (.d1 g.nlon fun _ => c) := by
  have hm : 0 < m := by
    rcases Nat.eq_zero_or_pos m with rfl | hm
    · simp at hs
    · exact hm
  constructor
  · rw [merid_d1 hw hm]
    congr 2
    funext j
    refine convolve_const hs (fun t => ?_) j
    obtain ⟨i, hi⟩ := reflectExt_mem j.pos (fun _ => c) t
    exact hi
  · rw [zonal_d1 hw hm]
    congr 2
    funext j
    refine convolve_const hs (fun t => ?_) j
    obtain ⟨i, hi⟩ := wrapExt_mem j.pos (fun _ => c) t
    exact hi

/-- C68: with non-negative weights with sum 1 the result stays between bounds of the field. -/
theorem C68_bounds (hw : g.resolveWindow gw win = .ok ⟨m, w⟩) (hs : ∑ k, w k = 1) (hp : ∀ k, 0 ≤ w k) (lo hi : K) :
    (∀ f out : Fin g.nlat → K, g.filterMeridional gw (.d1 g.nlat f) win = .ok (.d1 g.nlat out) →
      (∀ j, lo ≤ f j ∧ f j ≤ hi) → ∀ j, lo ≤ out j ∧ out j ≤ hi) ∧
    (∀ f out : Fin g.nlon → K, g.filterZonal gw (.d1 g.nlon f) win = .ok (.d1 g.nlon out) →
      (∀ j, lo ≤ f j ∧ f j ≤ hi) → ∀ j, lo ≤ out j ∧ out j ≤ hi) := by
  constructor
  · intro f out h hb j
    obtain ⟨m', w', hw', hm, rfl⟩ := merid_ok h
    rw [hw] at hw'
    cases hw'
    refine convolve_bounds hp hs (fun t => ?_) j
    obtain ⟨i, hi⟩ := reflectExt_mem j.pos f t
    rw [hi]; exact hb i
  · intro f out h hb j
    obtain ⟨m', w', hw', hm, rfl⟩ := zonal_ok h
    rw [hw] at hw'
    cases hw'
    refine convolve_bounds hp hs (fun t => ?_) j
    obtain ⟨i, hi⟩ := wrapExt_mem j.pos f t
    rw [hi]; exact hb i

/-- C68: zonal filtering commutes with rotation. -/
theorem C68_zonal_rotation (d : ℕ) (f out : Fin g.nlon → K) (h : g.filterZonal gw (.d1 g.nlon f) win = .ok (.d1 g.nlon out)) :
    g.filterZonal gw (.d1 g.nlon (rotated d f)) win = .ok (.d1 g.nlon (rotated d out)) := by
  obtain ⟨m, w, hw, hm, rfl⟩ := zonal_ok h
  rw [zonal_d1 hw hm]
  congr 2
  funext i
  have hper := wrapExt_periodic f
  have hrot : ∀ t : ℤ, wrapExt (rotated d f) t = wrapExt f (t + d) := by
    refine wrap_unique i.pos (wrapExt_periodic _) (fun t => ?_) (fun k => ?_)
    · rw [add_right_comm]; exact hper _
    · rw [wrapExt_node]
      change f _ = _
      rw [← wrapExt_node f, periodic_eq_emod hper ((k.val : ℤ) + d)]
      push_cast
      rfl
  change convolve (wrapExt (rotated d f)) w i.val = convolve (wrapExt f) w ((i.val + d) % g.nlon)
  unfold convolve
  refine sum_congr rfl fun k _ => ?_
  rw [hrot, periodic_eq_emod hper, periodic_eq_emod hper (((i.val + d) % g.nlon : ℕ) + _ - _)]
  congr 2
  push_cast
  rw [add_sub_assoc, add_sub_assoc, Int.emod_add_emod]
  congr 1
  ring

/-- C68: zonal filtering with weights with sum 1 preserves the zonal mean. -/
theorem C68_zonal_mean (hw : g.resolveWindow gw win = .ok ⟨m, w⟩) (hs : ∑ k, w k = 1) (f out : Fin g.nlon → K)
    (h : g.filterZonal gw (.d1 g.nlon f) win = .ok (.d1 g.nlon out)) :
    (∑ i, out i) / g.nlon = (∑ i, f i) / g.nlon := by
  obtain ⟨m', w', hw', hm, rfl⟩ := zonal_ok h
  rw [hw] at hw'
  cases hw'
  congr 1
  unfold convolve
  rw [sum_comm]
  have key : ∀ k : Fin m, ∑ i : Fin g.nlon, w k * wrapExt f ((i.val : ℤ) + (m / 2 : ℕ) - k.val) = w k * ∑ i, f i := by
    intro k
    rw [← mul_sum]
    congr 1
    rw [Fin.sum_univ_eq_sum_range (fun i : ℕ => wrapExt f ((i : ℤ) + (m / 2 : ℕ) - k.val))]
    have := sum_period (wrapExt_periodic f) (((m / 2 : ℕ) : ℤ) - k.val)
    simp only [← add_sub_assoc] at this
    rw [this, ← Fin.sum_univ_eq_sum_range (fun i : ℕ => wrapExt f (i : ℤ))]
    exact sum_congr rfl fun i _ => wrapExt_node f i
  rw [sum_congr rfl fun k _ => key k, ← sum_mul, hs, one_mul]

theorem reflect_sum {n : ℕ} (f : Fin n → K) (s : ℤ) :
    ∑ i : Fin n, (reflectExt f (i.val + s) + reflectExt f (i.val - s)) = 2 * ∑ i, f i := by
  have h1 : ∀ i : ℕ, reflectExt f (i - s) = reflectExt f (-1 - i + s) := fun i => by
    rw [← reflectExt_symm]; congr 1; ring
  have e : ∀ s : ℤ, ∑ i : Fin n, (reflectExt f (i.val + s) + reflectExt f (i.val - s)) = ∑ i ∈ range (2 * n), reflectExt f (i + s) := by
    intro s
    rw [two_mul, sum_range_add, sum_add_distrib, Fin.sum_univ_eq_sum_range (fun i : ℕ => reflectExt f (i + s)),
      Fin.sum_univ_eq_sum_range (fun i : ℕ => reflectExt f (i - s))]
    congr 1
    rw [← sum_range_reflect]
    refine sum_congr rfl fun i hi => ?_
    have hi' := mem_range.mp hi
    rw [← reflectExt_symm, ← reflectExt_periodic f]
    congr 1
    push_cast [Nat.cast_sub (show 1 ≤ n by omega), Nat.cast_sub (show i ≤ n - 1 by omega)]
    ring
  rw [e, sum_period (reflectExt_periodic f)]
  have := e 0
  simp only [add_zero, sub_zero] at this
  rw [← this, mul_sum]
  refine sum_congr rfl fun i _ => ?_
  rw [reflectExt_node]; ring

/-- C68 for odd symmetric windows with sum 1 (which is what `get_filter_window` returns): meridional filtering preserves the
meridional sum, even if the window is longer than the field. Missing: windows with an even number of points, for which this
is false, see `C68_even_refuted`. -/
theorem C68_meridional_sum_partial (hw : g.resolveWindow gw win = .ok ⟨m, w⟩) (hs : ∑ k, w k = 1) (hr : reversed w = w) (ho : Odd m)
    (f out : Fin g.nlat → K) (h : g.filterMeridional gw (.d1 g.nlat f) win = .ok (.d1 g.nlat out)) :
    ∑ j, out j = ∑ j, f j := by
  obtain ⟨m', w', hw', hm, rfl⟩ := merid_ok h
  rw [hw] at hw'
  cases hw'
  obtain ⟨p, rfl⟩ := ho
  have hp : (2 * p + 1) / 2 = p := by omega
  unfold convolve
  rw [hp, sum_comm]
  have h2 : ∑ k : Fin (2 * p + 1), ∑ j : Fin g.nlat, w k * reflectExt f ((j.val : ℤ) + p - k.val) =
      ∑ k : Fin (2 * p + 1), ∑ j : Fin g.nlat, w k * reflectExt f ((j.val : ℤ) - (p - k.val)) := by
    rw [← Equiv.sum_comp Fin.revPerm]
    refine sum_congr rfl fun k _ => sum_congr rfl fun j _ => ?_
    have : w (Fin.revPerm k) = w k := congrFun hr k
    rw [this]
    congr 2
    have hk := k.isLt
    simp only [Fin.revPerm_apply, Fin.val_rev]
    omega
  have h3 : (2 : K) * ∑ k : Fin (2 * p + 1), ∑ j : Fin g.nlat, w k * reflectExt f ((j.val : ℤ) + p - k.val) = 2 * ∑ j, f j := by
    rw [two_mul]
    nth_rewrite 2 [h2]
    rw [← sum_add_distrib]
    have : ∀ k : Fin (2 * p + 1), ∑ j : Fin g.nlat, w k * reflectExt f ((j.val : ℤ) + p - k.val) +
        ∑ j : Fin g.nlat, w k * reflectExt f ((j.val : ℤ) - (p - k.val)) = w k * (2 * ∑ j, f j) := by
      intro k
      rw [← reflect_sum f ((p : ℤ) - k.val), mul_sum, ← sum_add_distrib]
      refine sum_congr rfl fun j _ => ?_
      rw [mul_add, add_sub_assoc]
    rw [sum_congr rfl fun k _ => this k, ← sum_mul, hs, one_mul]
  exact mul_left_cancel₀ two_ne_zero h3

/-- C68 for odd symmetric windows: meridional filtering commutes with north-south reflection. Missing: as above. -/
theorem C68_reflection_partial (hw : g.resolveWindow gw win = .ok ⟨m, w⟩) (hr : reversed w = w) (ho : Odd m)
    (f out : Fin g.nlat → K) (h : g.filterMeridional gw (.d1 g.nlat f) win = .ok (.d1 g.nlat out)) :
    g.filterMeridional gw (.d1 g.nlat (reversed f)) win = .ok (.d1 g.nlat (reversed out)) := by
  obtain ⟨m', w', hw', hm, rfl⟩ := merid_ok h
  rw [hw] at hw'
  cases hw'
  rw [merid_d1 hw hm]
  congr 2
  funext j
  obtain ⟨p, rfl⟩ := ho
  have hp : (2 * p + 1) / 2 = p := by omega
  have hper := reflectExt_periodic f
  have hrev : ∀ t : ℤ, reflectExt (reversed f) t = reflectExt f (g.nlat - 1 - t) := by
    refine reflect_unique j.pos (reflectExt_periodic _) (fun t => ?_) (reflectExt_symm _) (fun t => ?_) (fun k => ?_)
    · rw [← sub_sub]; exact hper.sub_eq _
    · rw [← reflectExt_symm f (g.nlat - 1 - t), ← hper (-1 - (g.nlat - 1 - t))]
      congr 1
      push_cast; ring
    · rw [reflectExt_node]
      change f k.rev = _
      rw [← reflectExt_node f]
      congr 1
      have hk := k.isLt
      rw [Fin.val_rev]
      omega
  change convolve (reflectExt (reversed f)) w j.val = convolve (reflectExt f) w j.rev.val
  unfold convolve
  rw [← Equiv.sum_comp Fin.revPerm]
  refine sum_congr rfl fun k _ => ?_
  have : w (Fin.revPerm k) = w k := congrFun hr k
  rw [this, hrev]
  congr 2
  have hk := k.isLt
  have hj := j.isLt
  simp only [Fin.revPerm_apply, Fin.val_rev, hp]
  omega

/-- C68 is false for symmetric windows with an even number of points: neither is the sum preserved nor does filtering commute
with reflection (the centre of the window is between two gridpoints, the result is displaced by half a gridpoint). -/
theorem C68_even_refuted :
    ∃ (g : Grid ℚ) (w : Fin 2 → ℚ) (f out out' : Fin g.nlat → ℚ), reversed w = w ∧ ∑ k, w k = 1 ∧
      (∀ (W : Type) (gw : W → (n : ℕ) → Except PyErr (Fin n → ℚ)),
        g.filterMeridional gw (.d1 g.nlat f) (.gridded ⟨2, w⟩) = .ok (.d1 g.nlat out) ∧
        g.filterMeridional gw (.d1 g.nlat (reversed f)) (.gridded ⟨2, w⟩) = .ok (.d1 g.nlat out')) ∧
      ∑ j, out j ≠ ∑ j, f j ∧ out' ≠ reversed out := by
  refine ⟨⟨90, 1, 1, 2⟩, fun _ => 1 / 2, fun j => if j.val = 0 then 1 else 0, fun j => convolve (reflectExt fun j => if j.val = 0 then 1 else 0) (fun _ : Fin 2 => 1 / 2) j.val,
    fun j => convolve (reflectExt (reversed fun j => if j.val = 0 then 1 else 0)) (fun _ : Fin 2 => 1 / 2) j.val, rfl, by norm_num,
    fun W gw => ⟨merid_d1 rfl (by norm_num) _, merid_d1 rfl (by norm_num) _⟩, by decide +kernel, fun h => ?_⟩
  have := congrFun h ⟨2, by decide +kernel⟩
  revert this
  decide +kernel

/-- Non-vacuity of C68: a window of 5 points on a field of 3 latitudes. -/
example : ∃ out : Fin (⟨90, 1, 1, 2⟩ : Grid ℚ).nlat → ℚ,
    (⟨90, 1, 1, 2⟩ : Grid ℚ).filterMeridional (W := Unit) (fun _ _ => .error .valueError) (.d1 (⟨90, 1, 1, 2⟩ : Grid ℚ).nlat fun j => if j.val = 0 then 1 else 0)
      (.gridded ⟨5, fun _ => 1 / 5⟩) = .ok (.d1 (⟨90, 1, 1, 2⟩ : Grid ℚ).nlat out) ∧ out ⟨0, by decide +kernel⟩ = 2 / 5 ∧ out ⟨2, by decide +kernel⟩ = 1 / 5 := by
  refine ⟨_, merid_d1 rfl (by norm_num) _, by decide +kernel, by decide +kernel⟩

end Barotropic
