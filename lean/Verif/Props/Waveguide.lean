import Verif.Lemmas.WaveguideInf
import Mathlib.Tactic.IntervalCases

/-!
# C66 Waveguide extraction

`hsp` says that the resolution divides 180°; otherwise the latitudes of the grid are not spaced by `dlat` (see C02) and the
crossing points are not the ones of the interpolant.
-/

namespace Barotropic
open FloatX Grid

variable {g : Grid ℝ}

theorem ksAt_of_lt (z : Fin g.nlat → FloatX × FloatX) {j : ℕ} (h : j < g.nlat) : ksAt z j = realVariant (z ⟨j, h⟩) := dif_pos h

theorem lat_zero (hg : g.Valid) (hsp : g.resolution * ((g.nlat : ℝ) - 1) = 180) : g.lat 0 = 90 := by
  rw [lat_spacing hg hsp]; simp

theorem lat_last (hg : g.Valid) (hsp : g.resolution * ((g.nlat : ℝ) - 1) = 180) : g.lat (g.nlat - 1) = -90 := by
  have h2 := hg.nlat_ge
  rw [lat_spacing hg hsp, Nat.cast_sub (by omega)]
  push_cast
  linarith

open Classical in
/-- Finite profiles: the waveguides are ordered from north to south and disjoint, they are intervals within [-90, 90], they cover
every latitude where the linear interpolant of the profile exceeds `k`, the interpolant is nowhere less than `k` in them and
they start and end at the poles or at points where the interpolant is `k`. (Infinite values: `C66_infinite_partial`.) -/
theorem C66_finite_partial (hg : g.Valid) (hsp : g.resolution * ((g.nlat : ℝ) - 1) = 180) (z : Fin g.nlat → FloatX × FloatX)
    (k : FloatX × FloatX) (x : ℕ → ℝ) (c : ℝ) (hz : ∀ j : Fin g.nlat, realVariant (z j) = fin (x j)) (hk : realVariant k = fin c) :
    ∃ C : List (ℝ × ℝ), g.extractKsWaveguides (List.ofFn z) k = .ok (C.map toX) ∧
      (C.Pairwise fun p q => q.1 < p.2) ∧
      (∀ p ∈ C, -90 ≤ p.2 ∧ p.2 ≤ p.1 ∧ p.1 ≤ 90) ∧
      (∀ i, i + 1 < g.nlat → ∀ t, 0 ≤ t → t ≤ 1 → c < lin x i t → ∃ p ∈ C, Within p (g.lat i - t * g.resolution)) ∧
      (∀ i, i + 1 < g.nlat → ∀ t, 0 ≤ t → t ≤ 1 → ∀ p ∈ C, Within p (g.lat i - t * g.resolution) → c ≤ lin x i t) ∧
      (∀ p ∈ C, (p.1 = 90 ∧ c ≤ x 0) ∨
        ∃ i, i + 1 < g.nlat ∧ ∃ t, 0 ≤ t ∧ t < 1 ∧ p.1 = g.lat i - t * g.resolution ∧ lin x i t = c ∧ c < x (i + 1)) ∧
      (∀ p ∈ C, (p.2 = -90 ∧ c ≤ x (g.nlat - 1)) ∨
        ∃ i, i + 1 < g.nlat ∧ ∃ t, 0 ≤ t ∧ t < 1 ∧ p.2 = g.lat i - t * g.resolution ∧ lin x i t = c ∧ x (i + 1) < c) := by
  have hn2 := hg.nlat_ge
  have hn : 0 < g.nlat := by omega
  have hks : ∀ j < g.nlat, ksAt z j = fin (x j) := fun j h => by rw [ksAt_of_lt z h, hz]
  obtain ⟨s, ⟨G, hG, h⟩, hs⟩ := extract_induct hn z k (FinState g x c)
    (by
      rw [hk, hks 0 hn]
      refine ⟨[], rfl, ?_⟩
      by_cases h0 : c ≤ x 0
      · refine Or.inl ⟨decide_eq_true (show (fin c).Le (fin (x 0)) from h0), h0, g.lat 0, rfl, ?_⟩
        refine ⟨List.pairwise_singleton _ _, fun p hp => ?_, fun i hi => absurd hi (Nat.not_lt_zero _),
          fun i hi => absurd hi (Nat.not_lt_zero _), fun p hp => ?_, fun p hp => absurd hp List.not_mem_nil⟩
        · rw [List.nil_append, List.mem_singleton] at hp
          subst hp
          exact ⟨le_rfl, le_rfl, (lat_zero hg hsp).le⟩
        · rw [List.nil_append, List.mem_singleton] at hp
          subst hp
          exact Or.inl ⟨lat_zero hg hsp, h0⟩
      · refine Or.inr ⟨decide_eq_false (show ¬ (fin c).Le (fin (x 0)) from h0), (not_le.mp h0).le,
          fun p hp => absurd hp List.not_mem_nil, ?_⟩
        exact ⟨List.Pairwise.nil, fun p hp => absurd hp List.not_mem_nil, fun i hi => absurd hi (Nat.not_lt_zero _),
          fun i hi => absurd hi (Nat.not_lt_zero _), fun p hp => absurd hp List.not_mem_nil, fun p hp => absurd hp List.not_mem_nil⟩)
    (by
      intro j s hj hP
      rw [hk, hks j (by omega), hks (j + 1) hj]
      exact finState_step hg hsp x c j s hP)
  have hlast := lat_last hg hsp
  rw [hs]
  have hlt : ∀ i, i + 1 < g.nlat → i < g.nlat - 1 := fun i hi => by omega
  rcases h with ⟨hact, hx, a, ha, inv⟩ | ⟨hact, hx, hend, inv⟩
  · refine ⟨G ++ [(a, g.lat (g.nlat - 1))], by simp [hact, hG, ha, toX], inv.pairwise, ?_,
      fun i hi t h0 h1 hc => inv.complete i (hlt i hi) t h0 h1 hc,
      fun i hi t h0 h1 p hp hw => inv.sound i (hlt i hi) t h0 h1 p hp hw.1 hw.2, fun p hp => ?_, fun p hp => ?_⟩
    · rw [← hlast]; exact inv.bounds
    · rcases inv.starts p hp with h | ⟨i, hi, h⟩
      · exact Or.inl h
      · exact Or.inr ⟨i, by omega, h⟩
    · rcases List.mem_append.mp hp with hp | hp
      · obtain ⟨i, hi, h⟩ := inv.ends p hp
        exact Or.inr ⟨i, by omega, h⟩
      · rw [List.mem_singleton] at hp
        subst hp
        exact Or.inl ⟨hlast, hx⟩
  · refine ⟨G, by simp [hact, hG], inv.pairwise, ?_,
      fun i hi t h0 h1 hc => inv.complete i (hlt i hi) t h0 h1 hc,
      fun i hi t h0 h1 p hp hw => inv.sound i (hlt i hi) t h0 h1 p hp hw.1 hw.2, fun p hp => ?_, fun p hp => ?_⟩
    · rw [← hlast]; exact inv.bounds
    · rcases inv.starts p hp with h | ⟨i, hi, h⟩
      · exact Or.inl h
      · exact Or.inr ⟨i, by omega, h⟩
    · obtain ⟨i, hi, h⟩ := inv.ends p hp
      exact Or.inr ⟨i, by omega, h⟩

open Classical in
/-- Profiles with infinite values, but without a jump from -inf to a finite value greater than `k`: the waveguides are ordered
(adjacent ones may touch) and within [-90, 90], contain every gridpoint with `Ks > k` and no gridpoint with `Ks < k` in their
interior. (Missing: the excluded jumps and gridpoints with `Ks < k` at the ends, see the `_refuted` theorems.) -/
theorem C66_infinite_partial (hg : g.Valid) (hsp : g.resolution * ((g.nlat : ℝ) - 1) = 180) (z : Fin g.nlat → FloatX × FloatX)
    (k : FloatX × FloatX) (x : ℕ → FloatX) (c : ℝ) (hz : ∀ j : Fin g.nlat, realVariant (z j) = x j) (hk : realVariant k = fin c)
    (hnan : ∀ j : Fin g.nlat, x j ≠ nan)
    (hjump : ∀ j, j + 1 < g.nlat → ¬ (x j = ninf ∧ (fin c).Lt (x (j + 1)) ∧ x (j + 1) ≠ pinf)) :
    ∃ C : List (ℝ × ℝ), g.extractKsWaveguides (List.ofFn z) k = .ok (C.map toX) ∧
      (C.Pairwise fun p q => q.1 ≤ p.2) ∧
      (∀ p ∈ C, -90 ≤ p.2 ∧ p.2 ≤ p.1 ∧ p.1 ≤ 90) ∧
      (∀ i < g.nlat, (fin c).Lt (x i) → ∃ p ∈ C, Within p (g.lat i)) ∧
      (∀ i < g.nlat, (x i).Lt (fin c) → ∀ p ∈ C, ¬ (p.2 < g.lat i ∧ g.lat i < p.1)) := by
  have hn2 := hg.nlat_ge
  have hn : 0 < g.nlat := by omega
  have hks : ∀ j < g.nlat, ksAt z j = x j := fun j h => by rw [ksAt_of_lt z h, hz]
  obtain ⟨s, ⟨G, hG, h⟩, hs⟩ := extract_induct hn z k (InfState g x c)
    (by
      rw [hk, hks 0 hn]
      refine ⟨[], rfl, ?_⟩
      by_cases h0 : (fin c).Le (x 0)
      · refine Or.inl ⟨decide_eq_true h0, h0, g.lat 0, rfl, ?_⟩
        refine ⟨List.pairwise_singleton _ _, fun p hp => ?_, fun i hi _ => ?_, fun i hi _ p hp => ?_⟩
        · rw [List.nil_append, List.mem_singleton] at hp
          subst hp
          exact ⟨le_rfl, le_rfl, (lat_zero hg hsp).le⟩
        · obtain rfl : i = 0 := by omega
          exact ⟨(g.lat 0, g.lat 0), by simp, le_rfl, le_rfl⟩
        · rw [List.nil_append, List.mem_singleton] at hp
          subst hp
          exact fun h => lt_asymm h.1 h.2
      · have h0' : (x 0).Lt (fin c) := by
          by_contra h
          exact h0 (fx_le_of_not_lt (by simp) (hnan ⟨0, hn⟩) h)
        refine Or.inr ⟨decide_eq_false h0, fx_le_of_lt h0', ?_⟩
        refine ⟨List.Pairwise.nil, fun p hp => absurd hp List.not_mem_nil, fun i hi h => ?_, fun i hi h p hp => absurd hp List.not_mem_nil⟩
        obtain rfl : i = 0 := by omega
        exact absurd (fx_le_of_lt h) h0)
    (by
      intro j s hj hP
      rw [hk, hks j (by omega), hks (j + 1) hj]
      exact infState_step hg hsp x c j s (hnan ⟨j + 1, hj⟩) (hjump j hj) hP)
  have hlast := lat_last hg hsp
  rw [hs]
  rcases h with ⟨hact, hx, a, ha, inv⟩ | ⟨hact, hx, inv⟩
  · refine ⟨G ++ [(a, g.lat (g.nlat - 1))], by simp [hact, hG, ha, toX], inv.pairwise, ?_,
      fun i hi hc => inv.complete i (by omega) hc, fun i hi hc => inv.sound i (by omega) hc⟩
    rw [← hlast]; exact inv.bounds
  · refine ⟨G, by simp [hact, hG], inv.pairwise, ?_,
      fun i hi hc => inv.complete i (by omega) hc, fun i hi hc => inv.sound i (by omega) hc⟩
    rw [← hlast]; exact inv.bounds

/-- An empty array of wavenumbers raises IndexError. -/
theorem C66_empty (g : Grid ℝ) (k : FloatX × FloatX) : g.extractKsWaveguides [] k = .error .indexError := rfl

theorem grid30_lat (j : ℕ) : grid30.lat j = 90 - j * 30 :=
  lat_spacing grid30_valid (by rw [grid30_nlat]; unfold grid30; norm_num) j

theorem grid30_dlat : grid30.dlat = -30 := by unfold grid30 dlat; norm_num

/-- A jump from -inf at the North Pole to finite values greater than `k`: the waveguide starts at NaN. -/
theorem C66_start_nan_refuted :
    grid30.extractKsWaveguides ((fin 0, pinf) :: List.replicate 6 (fin 2, fin 0)) (fin 1, fin 0) = .ok [(nan, fin (-90))] := by
  simp [extractKsWaveguides, scan, scanStep, grid30_nlat, grid30_lat, grid30_dlat, realVariant, crossing, FloatX.sub, FloatX.neg,
    FloatX.add, FloatX.mul, FloatX.div, Lt, Le, isinf, List.replicate, signInf]
  norm_num

/-- +inf at the North Pole, 0 elsewhere: the waveguide for `k = 1` is `[(90, 60)]`, its southern end is a gridpoint with `Ks < k`. -/
theorem C66_closed_refuted :
    grid30.extractKsWaveguides ((pinf, fin 0) :: List.replicate 6 (fin 0, fin 0)) (fin 1, fin 0) = .ok [(fin 90, fin 60)] ∧
      grid30.lat 1 = 60 := by
  refine ⟨?_, by rw [grid30_lat]; norm_num⟩
  simp [extractKsWaveguides, scan, scanStep, grid30_nlat, grid30_lat, grid30_dlat, realVariant, crossing, FloatX.sub, FloatX.neg,
    FloatX.add, FloatX.mul, FloatX.div, Lt, Le, isinf, List.replicate, signInf]
  norm_num

/-- +inf at 90° and 30°N, 0 elsewhere: the two waveguides touch at 60°N, where Ks is less than `k`. -/
theorem C66_touching_refuted :
    grid30.extractKsWaveguides ((pinf, fin 0) :: (fin 0, fin 0) :: (pinf, fin 0) :: List.replicate 4 (fin 0, fin 0)) (fin 1, fin 0) =
      .ok [(fin 90, fin 60), (fin 60, fin 0)] := by
  simp [extractKsWaveguides, scan, scanStep, grid30_nlat, grid30_lat, grid30_dlat, realVariant, crossing, FloatX.sub, FloatX.neg,
    FloatX.add, FloatX.mul, FloatX.div, Lt, Le, isinf, List.replicate, signInf]
  norm_num

/-- Non-vacuity: a finite profile with an interior waveguide between crossing points -/
example : grid30.extractKsWaveguides
    [(fin 0, fin 3), (fin 0, fin 0), (fin 4, fin 0), (fin 2, fin 0), (fin 0, fin 0), (fin 0, fin 0), (fin 0, fin 0)] (fin 1, fin 0) =
      .ok [(fin (105 / 2), fin (-15))] := by
  simp [extractKsWaveguides, scan, scanStep, grid30_nlat, grid30_lat, grid30_dlat, realVariant, crossing, FloatX.sub, FloatX.neg,
    FloatX.add, FloatX.mul, FloatX.div, Lt, Le, isinf, signInf]
  norm_num [FloatX.sub, FloatX.neg, FloatX.add, FloatX.mul, FloatX.div, Lt]

/-- The hypotheses of `C66_finite_partial` and `C66_infinite_partial` can be met. -/
example : grid30.Valid ∧ grid30.resolution * ((grid30.nlat : ℝ) - 1) = 180 ∧
    (∀ j : Fin grid30.nlat, realVariant (fin ((j : ℕ) : ℝ), fin 0) = fin ((j : ℕ) : ℝ)) :=
  ⟨grid30_valid, by rw [grid30_nlat]; unfold grid30; norm_num,
    fun j => by simp [realVariant, FloatX.sub, FloatX.neg, FloatX.add]⟩

end Barotropic
