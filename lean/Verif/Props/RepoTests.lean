import Verif.Props.Run
import Verif.Props.Derivative
import Verif.Props.Mean
import Verif.Props.Quad
import Verif.Props.Filter
import Verif.Props.StateList
import Verif.Props.IoCoords
import Mathlib.Data.Rat.Floor

/-!
# C144: the assertions of the repository's tests

The tests of grids, regions, filters, means and of the README example (tests/test_grid.py, tests/test_examples.py), of lists of states and of imported coordinates (tests/test_state.py, tests/test_io.py), with arbitrary parameters where
the tests use a few. A model in which one of the tests fails is not a model of the code.
-/

namespace Barotropic

open Grid

/-! ### tests/test_examples.py -/

section Readme

variable {g : Grid ℝ} {S : g.Sph} {M : BModel g}

/-- C144: a run from time 0 to a multiple `b` of the saving interval, which is a multiple `a` of the time step, ends at the given time and saves
`b + 1` states at the multiples of the interval. -/
theorem C144_run (s : St PyTime g) (hs : s.time = .num 0) {d : ℝ} (hd : 0 < d) {a b : ℕ} (ha : 0 < a)
    (sf : St PyTime g) (saved : List (St PyTime g))
    (h : M.Returns S s (.num d) (.num (b * (a * d))) (a * d) sf saved) :
    sf.time = .num (b * (a * d)) ∧ saved.length = b + 1 ∧
      saved.map (fun x => x.time.sec) = (List.range (b + 1)).map fun m : ℕ => (m : ℝ) * (a * d) := by
  have hc : s.time.Compatible (.num d) := by rw [hs]; trivial
  have hk : s.time.SameKind (.num (b * (a * d))) := by rw [hs]; trivial
  have ha' : (1 : ℝ) ≤ a := by exact_mod_cast ha
  have hse : d ≤ a * d := by nlinarith
  have hcmp : ∀ i j : ℕ, (i : ℝ) * d < j * d ↔ i < j := fun i j => by
    rw [mul_lt_mul_iff_left₀ hd]; exact_mod_cast Iff.rfl
  obtain ⟨n', h1, h2, h3⟩ := C42_final_time s (.num d) (.num (b * (a * d))) (a * d) hc hk sf saved h
  obtain ⟨n, x, ks, e1, e2, e3, e4, e5⟩ := C43_exact_partial s 0 d (b * (a * d)) (a * d) hs hd hse le_rfl (by nlinarith) sf saved h
  simp only [hs, PyTime.sec, toSeconds, zero_add] at h1 h2 h3
  have hn' : n' = b * a := by
    have k1 : ¬ n' < b * a := by
      rw [← hcmp]; push_cast; rw [mul_assoc]; exact not_lt.mpr h2
    have k2 : ¬ b * a < n' := fun hlt => by
      have := h3 _ hlt
      push_cast at this
      rw [mul_assoc] at this
      exact lt_irrefl _ this
    omega
  have ht : ∀ k ≤ n, (x k).time = .num (k * d) := by
    intro k hk
    obtain ⟨y, hy⟩ := e3 k hk
    rw [(pairAt_time hc k _ hy).1, hs]
    simp [stepTime]
  have hn : n = b * a := by
    have k1 := ht n le_rfl
    rw [← e2] at k1
    rw [k1] at h1
    simp only [PyTime.sec] at h1
    have : n = n' := by
      have h4 : (n : ℝ) = n' := mul_right_cancel₀ hd.ne' h1
      exact_mod_cast h4
    omega
  have hmem : ∀ k, k ∈ ks ↔ k ∈ (List.range (b + 1)).map fun m => m * a := by
    intro k
    rw [e5, List.mem_map]
    simp only [List.mem_range, zero_add]
    constructor
    · rintro ⟨k1, rfl | ⟨m, hm, hm1, hm2⟩⟩
      · exact ⟨0, by omega, by simp⟩
      · have k2 : ¬ k < m * a := by
          rw [← hcmp]; push_cast; rw [mul_assoc]; exact not_lt.mpr hm1
        have k3 : ¬ m * a < k := fun hlt => by
          have := hm2 _ hlt
          push_cast at this
          rw [mul_assoc] at this
          exact lt_irrefl _ this
        have k4 : m * a = k := by omega
        refine ⟨m, ?_, k4⟩
        by_contra hcon
        have : (b + 1) * a ≤ m * a := Nat.mul_le_mul_right a (by omega)
        rw [add_mul] at this
        omega
    · rintro ⟨m, hm, rfl⟩
      refine ⟨by rw [hn]; exact Nat.mul_le_mul_right a (by omega), ?_⟩
      rcases Nat.eq_zero_or_pos m with rfl | hm0
      · left; simp
      · right
        refine ⟨m, hm0, by push_cast; rw [mul_assoc], fun j hj => ?_⟩
        rw [← mul_assoc, ← Nat.cast_mul]
        exact (hcmp _ _).mpr hj
  have hsorted : ((List.range (b + 1)).map fun m => m * a).Pairwise (· < ·) := by
    rw [List.pairwise_map]
    exact List.pairwise_lt_range.imp fun hij => Nat.mul_lt_mul_of_pos_right hij ha
  have hks : ks = (List.range (b + 1)).map fun m => m * a := e4.eq_of_mem_iff hsorted hmem
  refine ⟨?_, by rw [e1, hks]; simp, ?_⟩
  · rw [e2, ht n le_rfl, hn]; push_cast; rw [mul_assoc]
  · rw [e1, hks, List.map_map, List.map_map]
    refine List.map_congr_left fun m hm => ?_
    have hm' : m * a ≤ n := by rw [hn]; exact Nat.mul_le_mul_right a (by have := List.mem_range.mp hm; omega)
    simp only [Function.comp, ht _ hm', PyTime.sec]
    push_cast
    ring

/-- C144: the README example, whatever the grid, the initial state at time 0 and the forcing -/
theorem C144_readme (s : St PyTime g) (hs : s.time = .num 0) (sf : St PyTime g) (saved : List (St PyTime g))
    (h : M.Returns S s (.num (15 * 60)) (.num (10 * (24 * 3600))) (6 * 3600) sf saved) :
    sf.time = .num (10 * (24 * 3600)) ∧ saved.length = 1 + 10 * 4 := by
  have := C144_run (d := 15 * 60) (a := 24) (b := 40) s hs (by norm_num) (by norm_num) sf saved (by norm_num at h ⊢; exact h)
  refine ⟨by rw [this.1]; norm_num, this.2.1⟩

end Readme

/-! ### tests/test_grid.py -/

/-- `Grid(resolution=10.)` -/
def grid10 : Grid ℚ := ⟨10, 1, 1, 18⟩

/-- Shape, latitudes and longitudes of a region -/
def describe {g : Grid ℚ} (r : Except PyErr (Region g)) : Option ((ℕ × ℕ) × List ℚ × List ℚ) :=
  match r with
  | .ok r => some (r.shape, r.lat, r.lon)
  | .error _ => none

/-- A step-less slice with optional bounds -/
def upto (a b : Option ℚ) : Sel ℚ := .slice (a.elim .none .num) (b.elim .none .num) false

/-- All latitudes and longitudes of the grid -/
def allLat : List ℚ := (List.range 19).map fun j : ℕ => (90 : ℚ) - 10 * j
@[inherit_doc allLat] def allLon : List ℚ := (List.range 36).map fun i : ℕ => (10 : ℚ) * i

/-- C144: the tests of regions -/
theorem C144_regions :
    describe (grid10.region (.tuple [upto none none, upto none none])) = some ((19, 36), allLat, allLon) ∧
    describe (grid10.region (.tuple [upto none none, upto (some 30) (some 60)])) = some ((4, 36), [60, 50, 40, 30], allLon) ∧
    describe (grid10.region (.tuple [upto none none, upto (some 60) (some 30)])) = some ((4, 36), [60, 50, 40, 30], allLon) ∧
    describe (grid10.region (.tuple [upto (some 265) none, upto none none])) =
      some ((19, 9), allLat, [270, 280, 290, 300, 310, 320, 330, 340, 350]) ∧
    describe (grid10.region (.tuple [upto (some 310) (some 40), upto none none])) =
      some ((19, 10), allLat, [310, 320, 330, 340, 350, 0, 10, 20, 30, 40]) ∧
    describe (grid10.region (.tuple [upto (some 20) (some 50), upto none (some (-50))])) =
      some ((5, 4), [-50, -60, -70, -80, -90], [20, 30, 40, 50]) ∧
    describe (grid10.region (.tuple [.num 80, .num 40])) = some ((1, 1), [40], [80]) ∧
    describe (grid10.region (.tuple [upto (some 80) (some 80), upto (some 40) (some 40)])) = some ((1, 1), [40], [80]) ∧
    describe (grid10.region (.tuple [upto (some 500) (some (-200)), upto (some (-200)) (some (-300))])) = some ((0, 0), [], []) := by
  refine ⟨?_, ?_, ?_, ?_, ?_, ?_, ?_, ?_, ?_⟩ <;> decide +kernel

/-- C144: the tests of filter windows, for any kind of window -/
theorem C144_windows {W : Type*} (getWindow : W → (n : ℕ) → Except PyErr (Fin n → ℚ)) (hw : ∀ w n, ∃ v, getWindow w n = .ok v) (window : W)
    (r ω : ℚ) (nt : ℕ) :
    let g : Grid ℚ := ⟨1, r, ω, nt⟩
    (∃ v, g.getFilterWindow getWindow window 7 = .ok ⟨7, v⟩) ∧ (∃ v, g.getFilterWindow getWindow window 9 = .ok ⟨9, v⟩) ∧
      (∃ v, g.getFilterWindow getWindow window 8 = .ok ⟨9, v⟩) ∧ (∃ v, g.getFilterWindow getWindow window (72 / 5) = .ok ⟨15, v⟩) := by
  intro g
  have key : ∀ (x : ℚ) (n : ℕ), g.filterWidth x = n → ∃ v, g.getFilterWindow getWindow window x = .ok ⟨n, v⟩ := by
    intro x n hx
    obtain ⟨v, hv⟩ := hw window (g.filterWidth x).toNat
    unfold getFilterWindow
    rw [if_neg (by omega), hv]
    obtain rfl : n = (g.filterWidth x).toNat := by omega
    exact ⟨_, rfl⟩
  have hg : ∀ x, g.filterWidth x = if pyRound (x / 1) % 2 = 1 then pyRound (x / 1) else pyRound (x / 1) + 1 := fun x => rfl
  refine ⟨key 7 7 ?_, key 9 9 ?_, key 8 9 ?_, key (72 / 5) 15 ?_⟩ <;> (rw [hg]; clear hg key; decide +kernel)

open Polynomial in
/-- C144: derivatives of `phi` (1) and `lat` (180/π) inside of the domain and at the poles (0), for both orders -/
theorem C144_derivative (g : Grid ℝ) (hg : g.Valid) (hs : g.resolution * ((g.nlat : ℝ) - 1) = 180) (hn : 5 ≤ g.nlat) (order : Order)
    (ho : order = .int 2 ∨ order = .int 4 ∨ order = .none) :
    ∃ p l, g.derivativeMeridional (.d1 g.nlat fun j => g.phi j) order = .ok (.d1 g.nlat p) ∧
      g.derivativeMeridional (.d1 g.nlat fun j => g.lat j) order = .ok (.d1 g.nlat l) ∧
      ∀ j : Fin g.nlat, (0 < (j : ℕ) → (j : ℕ) < g.nlat - 1 → p j = 1 ∧ l j = 180 / Real.pi) ∧
        ((j : ℕ) = 0 ∨ (j : ℕ) = g.nlat - 1 → p j = 0 ∧ l j = 0) := by
  obtain ⟨d, hd, h2, h4⟩ : ∃ d, exactDegree order = some d ∧ 2 ≤ d ∧ d ≤ 4 := by
    rcases ho with rfl | rfl | rfl
    · exact ⟨2, rfl, le_rfl, by norm_num⟩
    · exact ⟨4, rfl, by norm_num, le_rfl⟩
    · exact ⟨4, rfl, by norm_num, le_rfl⟩
  obtain ⟨p, h1, h2', h3⟩ := C13_exact_1d g hg hs order d hd (by omega) X (natDegree_X_le.trans (by omega))
  obtain ⟨l, h1', h2'', h3'⟩ := C13_exact_1d g hg hs order d hd (by omega) (C (180 / Real.pi) * X)
    ((natDegree_C_mul_le _ _).trans (natDegree_X_le.trans (by omega)))
  have e : ∀ j : Fin g.nlat, (C (180 / Real.pi) * X : ℝ[X]).eval (g.phi j) = g.lat j := by
    intro j
    simp only [eval_mul, eval_C, eval_X, phi, deg2rad]
    field_simp
  simp only [e] at h1'
  simp only [eval_X] at h1
  refine ⟨p, l, h1, h1', fun j => ⟨fun a b => ⟨?_, ?_⟩, fun a => ⟨h3 j a, h3' j a⟩⟩⟩
  · rw [h2' j a b]; simp
  · rw [h2'' j a b]; simp

/-- C144: means of a field that is 1 in the western half and 0 in the eastern half -/
theorem C144_east_west (g : Grid ℝ) (hg : g.Valid) {m : ℕ} (hm : g.nlon = 2 * m) :
    let f : Fin g.nlat → Fin g.nlon → ℝ := fun _ i => if (i : ℕ) < m then 1 else 0
    g.mean (.d2 g.nlat g.nlon f) .none none = .ok (.d0 (1 / 2)) ∧
      g.mean (.d2 g.nlat g.nlon f) (.str "zonal") none = .ok (.d1 g.nlat fun _ => 1 / 2) ∧
      g.mean (.d2 g.nlat g.nlon f) (.str "meridional") none = .ok (.d1 g.nlon fun i => if (i : ℕ) < m then 1 else 0) := by
  intro f
  have hA : 0 < ∑ j : Fin g.nlat, g.gridpointArea j :=
    Finset.sum_pos (fun j _ => gridpointArea_pos hg j.2) ⟨⟨0, by have := hg.nlat_ge; omega⟩, Finset.mem_univ _⟩
  have hm0 : (0 : ℝ) < m := by
    have := hg.nlon_ge
    have : 0 < m := by omega
    exact_mod_cast this
  have hn : (g.nlon : ℝ) = 2 * m := by rw [hm]; push_cast; ring
  have hrow : ∑ i : Fin g.nlon, (if (i : ℕ) < m then (1 : ℝ) else 0) = m := by
    rw [Fin.sum_univ_eq_sum_range (fun i : ℕ => if i < m then (1 : ℝ) else 0), ← Finset.sum_filter, Finset.sum_const,
      nsmul_eq_mul, mul_one]
    congr 1
    rw [show (Finset.range g.nlon).filter (fun i => i < m) = Finset.range m by ext i; simp; omega, Finset.card_range]
  simp only [mean, and_self, dite_true, meanCore, f]
  refine ⟨?_, ?_, ?_⟩
  · simp only [← Finset.sum_mul, hrow, ← Finset.mul_sum]
    congr 2
    rw [hn]
    field_simp
  · simp only [hrow, hn]
    congr 2
    funext _
    field_simp
  · congr 2
    funext i
    rw [← Finset.mul_sum, mul_div_cancel_right₀ _ hA.ne']

/-- C144: means of a field that is 1 in the northern hemisphere, 1/2 at the equator and 0 in the southern hemisphere -/
theorem C144_north_south (g : Grid ℝ) (hg : g.Valid) {m : ℕ} (hm : g.nlat = 2 * m + 1) :
    let v : ℕ → ℝ := fun j => if j < m then 1 else if j = m then 1 / 2 else 0
    let f : Fin g.nlat → Fin g.nlon → ℝ := fun j _ => v j
    g.mean (.d2 g.nlat g.nlon f) .none none = .ok (.d0 (1 / 2)) ∧
      g.mean (.d2 g.nlat g.nlon f) (.str "zonal") none = .ok (.d1 g.nlat fun j => v j) ∧
      g.mean (.d2 g.nlat g.nlon f) (.str "meridional") none = .ok (.d1 g.nlon fun _ => 1 / 2) := by
  intro v f
  have hA : 0 < ∑ j : Fin g.nlat, g.gridpointArea j :=
    Finset.sum_pos (fun j _ => gridpointArea_pos hg j.2) ⟨⟨0, by have := hg.nlat_ge; omega⟩, Finset.mem_univ _⟩
  have hn : (0 : ℝ) < g.nlon := by
    have := hg.nlon_ge
    have : 0 < g.nlon := by omega
    exact_mod_cast this
  have hv : ∀ j : Fin g.nlat, v j + v (Fin.rev j) = 1 := by
    intro j
    have := j.2
    simp only [v, Fin.val_rev]
    split_ifs <;> first | omega | norm_num
  have hcol : ∑ j : Fin g.nlat, v j * g.gridpointArea j = 1 / 2 * ∑ j : Fin g.nlat, g.gridpointArea j := by
    have h1 : ∑ j : Fin g.nlat, v j * g.gridpointArea j = ∑ j : Fin g.nlat, v (Fin.rev j) * g.gridpointArea j := by
      rw [← Equiv.sum_comp Fin.revPerm]
      refine Finset.sum_congr rfl fun j _ => ?_
      have h2 : g.gridpointArea (Fin.rev j) = g.gridpointArea j := by
        rw [Fin.val_rev, ← gridpointArea_symm hg j.2]
        congr 1
        omega
      simp only [Fin.revPerm_apply, h2]
    have h2 : ∑ j : Fin g.nlat, v j * g.gridpointArea j + ∑ j : Fin g.nlat, v (Fin.rev j) * g.gridpointArea j =
        ∑ j : Fin g.nlat, g.gridpointArea j := by
      rw [← Finset.sum_add_distrib]
      refine Finset.sum_congr rfl fun j _ => ?_
      rw [← add_mul, hv, one_mul]
    linarith
  simp only [mean, and_self, dite_true, meanCore, f]
  refine ⟨?_, ?_, ?_⟩
  · rw [Finset.sum_comm]
    simp only [hcol, Finset.sum_const, Finset.card_univ, Fintype.card_fin, nsmul_eq_mul]
    congr 2
    field_simp
  · congr 2
    funext j
    rw [Finset.sum_const, Finset.card_univ, Fintype.card_fin, nsmul_eq_mul]
    field_simp
  · simp only [hcol]
    congr 2
    funext _
    rw [mul_div_assoc, div_self hA.ne', mul_one]

/-! ### tests/test_state.py, tests/test_io.py -/

/-- C144: the tests of refused lists of states, for any states, objects and grids -/
theorem C144_lists {τ : Type} {H : GridHeap} (a b : AnySt τ H) (x : PyObj τ H) (hx : ∀ s, x ≠ .state s)
    (hab : ¬ (H.grid a.1).eq (H.grid b.1)) :
    SList.make [.state a, x, .state a] = .error .typeError ∧ SList.make [.state a, .state a, .state b] = .error .assertionError := by
  have hx' : x.asState = none := by
    cases h : x.asState with
    | none => rfl
    | some s => exact absurd (PyObj.asState_some h) (hx s)
  have hs : ∀ s : AnySt τ H, (PyObj.state s).asState = some s := fun _ => rfl
  constructor
  · simp [SList.make, SList.check, hs, hx', Grid.eq_refl]
  · simp [SList.make, SList.check, hs, hab, Grid.eq_refl]

/-- Non-vacuity: the test's grids with resolutions 1° and 2° are not equal. -/
example : ¬ Grid.eq (⟨1, 6371200, 1 / 10000, 179⟩ : Grid ℝ) ⟨2, 6371200, 1 / 10000, 89⟩ := fun h => by
  have : 179 = 89 := h.2.2.2
  omega

/-- Reject or accept -/
def verdict {α : Type} : Except PyErr α → Option PyErr
  | .ok _ => none
  | .error e => some e

/-- C144: the tests of irregular coordinates: the dataset's own coordinates are accepted, missing longitudes or latitudes, regions and irregular
spacings are refused with AssertionError. -/
theorem C144_irregular (rs om : ℚ) :
    verdict (Io.gridFromCoords allLon allLat 1 1 none) = none ∧
    verdict (Io.gridFromCoords (allLon.take 32) allLat rs om none) = some .assertionError ∧
    verdict (Io.gridFromCoords allLon (allLat.take 15) rs om none) = some .assertionError ∧
    verdict (Io.gridFromCoords (allLon.take 18) (allLat.take 10) rs om none) = some .assertionError ∧
    verdict (Io.gridFromCoords ([0, 10, 25, 30] ++ allLon.drop 4) allLat rs om none) = some .assertionError ∧
    verdict (Io.gridFromCoords allLon ([90, 80, 71, 60] ++ allLat.drop 4) rs om none) = some .assertionError := by
  have lon32 : Io.checkLon (allLon.take 32) = .error .assertionError := by decide +kernel
  have lon36 : Io.checkLon allLon = .ok 10 := by decide +kernel
  have lon18 : Io.checkLon (allLon.take 18) = .error .assertionError := by decide +kernel
  have lonx : Io.checkLon ([0, 10, 25, 30] ++ allLon.drop 4) = .error .assertionError := by decide +kernel
  have lat15 : Io.checkLat allLon.length 10 (allLat.take 15) = .error .assertionError := by decide +kernel
  have latx : Io.checkLat allLon.length 10 ([90, 80, 71, 60] ++ allLat.drop 4) = .error .assertionError := by decide +kernel
  refine ⟨by decide +kernel, ?_, ?_, ?_, ?_, ?_⟩ <;> simp only [Io.gridFromCoords, lon32, lon36, lon18, lonx, lat15, latx, verdict]

end Barotropic
