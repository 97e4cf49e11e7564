import Verif.Spec.Quad
import Verif.Lemmas.ColQuad

/-!
# Piecewise-linear interpolants
-/

namespace Barotropic
open Real Set MeasureTheory Grid

/-- an interpolant is affine on every interval -/
theorem interp_aff {n : ℕ} {x : ℕ → ℝ} {y : Fin n → ℝ} {Y : ℝ → ℝ} (hY : IsPLInterp x y Y) {j : ℕ} (h : j + 1 < n)
    (hx : x (j + 1) < x j) {φ : ℝ} (hφ : φ ∈ Icc (x (j + 1)) (x j)) :
    Y φ = aff (x j) (x (j + 1)) (y ⟨j, by omega⟩) (y ⟨j + 1, h⟩) φ := by
  have h1 : x j - x (j + 1) > 0 := by linarith
  have := hY j h ((x j - φ) / (x j - x (j + 1))) (div_nonneg (by linarith [hφ.2]) h1.le)
    (by rw [div_le_one h1]; linarith [hφ.1])
  have e : x j + (x j - φ) / (x j - x (j + 1)) * (x (j + 1) - x j) = φ := by
    field_simp
    ring
  rw [e] at this
  rw [this]
  unfold aff
  have e2 : (φ - x j) / (x (j + 1) - x j) = (x j - φ) / (x j - x (j + 1)) := by
    rw [← neg_div_neg_eq]; congr 1 <;> ring
  rw [e2]
  ring

/-- Every meridional profile has a piecewise-linear interpolant on the latitudes of the grid. -/
theorem interp_exists {g : Grid ℝ} (hg : g.Valid) (y : Fin g.nlat → ℝ) : ∃ Y, IsPLInterp g.phi y Y := by
  have hd := hg.nlatm1_pos
  have hp := pi_pos
  refine ⟨fun φ => let s := (π / 2 - φ) / (π / ((g.nlat : ℝ) - 1))
    col y ⌊s⌋₊ + (s - ⌊s⌋₊) * (col y (⌊s⌋₊ + 1) - col y ⌊s⌋₊), ?_⟩
  intro j hj t ht0 ht1
  have e : (π / 2 - (g.phi j + t * (g.phi (j + 1) - g.phi j))) / (π / ((g.nlat : ℝ) - 1)) = j + t := by
    rw [phi_eq hg, phi_eq hg]
    push_cast
    field_simp
    ring
  simp only [e]
  rcases eq_or_lt_of_le ht1 with rfl | ht
  · have : ⌊(j : ℝ) + 1⌋₊ = j + 1 := by exact_mod_cast Nat.floor_natCast (R := ℝ) (j + 1)
    rw [this]
    rw [col_of_lt y hj]
    push_cast
    ring
  · have : ⌊(j : ℝ) + t⌋₊ = j := by
      rw [Nat.floor_eq_iff (by positivity)]
      constructor <;> linarith
    rw [this, col_of_lt y hj, col_of_lt y (show j < g.nlat by omega)]
    ring

/-- locating a value between the members of a decreasing sequence -/
theorem exists_segment {x : ℕ → ℝ} {n : ℕ} (hn : 0 < n) {φ : ℝ} (h0 : φ ≤ x 0) (h1 : x n ≤ φ) :
    ∃ k < n, x (k + 1) ≤ φ ∧ φ ≤ x k := by
  induction n with
  | zero => omega
  | succ n ih =>
    by_cases h : φ ≤ x n
    · exact ⟨n, by omega, h1, h⟩
    · rcases Nat.eq_zero_or_pos n with rfl | hn
      · exact absurd h0 h
      · obtain ⟨k, hk, hk'⟩ := ih hn (not_le.1 h).le
        exact ⟨k, by omega, hk'⟩

theorem aff_lt_left {x0 x1 y0 y1 φ : ℝ} (hx : x1 < x0) (hy : y1 < y0) (h : φ < x0) : aff x0 x1 y0 y1 φ < y0 := by
  unfold aff
  have : 0 < (φ - x0) / (x1 - x0) := div_pos_of_neg_of_neg (by linarith) (by linarith)
  nlinarith

theorem aff_strictMono {x0 x1 y0 y1 φ ψ : ℝ} (hx : x1 < x0) (hy : y1 < y0) (h : φ < ψ) :
    aff x0 x1 y0 y1 φ < aff x0 x1 y0 y1 ψ := by
  rw [aff_slope, aff_slope]
  have : 0 < (y1 - y0) / (x1 - x0) := div_pos_of_neg_of_neg (by linarith) (by linarith)
  nlinarith

theorem aff_le_iff {x0 x1 y0 y1 φ ψ : ℝ} (hx : x1 < x0) (hy : y1 < y0) :
    aff x0 x1 y0 y1 φ ≤ aff x0 x1 y0 y1 ψ ↔ φ ≤ ψ := by
  constructor
  · intro h
    by_contra hc
    exact absurd (aff_strictMono hx hy (not_le.1 hc)) (not_lt.2 h)
  · intro h
    rcases eq_or_lt_of_le h with rfl | h
    · exact le_rfl
    · exact (aff_strictMono hx hy h).le

/-- For a strictly decreasing profile the region above the value at `ψ` is the region north of `ψ`. -/
theorem above_iff_north {n : ℕ} {x p : ℕ → ℝ} (hx : ∀ j < n, x (j + 1) < x j) (hp : ∀ j < n, p (j + 1) < p j)
    {k : ℕ} (hk : k < n) {ψ q : ℝ} (hψ : x (k + 1) ≤ ψ ∧ ψ ≤ x k) (hq : aff (x k) (x (k + 1)) (p k) (p (k + 1)) ψ = q)
    {j : ℕ} (hj : j < n) {φ : ℝ} (hφ : φ ∈ Ioo (x (j + 1)) (x j)) :
    0 ≤ aff (x j) (x (j + 1)) (p j - q) (p (j + 1) - q) φ ↔ ψ ≤ φ := by
  have anti : ∀ (u : ℕ → ℝ), (∀ j < n, u (j + 1) < u j) → ∀ a b, a ≤ b → b ≤ n → u b ≤ u a := by
    intro u hu a b hab
    induction b, hab using Nat.le_induction with
    | base => intro _; exact le_rfl
    | succ b _ ih => intro hb; exact (hu b (by omega)).le.trans (ih (by omega))
  have q1 : q ≤ p k := by
    rw [← hq]
    calc aff (x k) (x (k + 1)) (p k) (p (k + 1)) ψ ≤ aff (x k) (x (k + 1)) (p k) (p (k + 1)) (x k) :=
          (aff_le_iff (hx k hk) (hp k hk)).2 hψ.2
      _ = p k := aff_left _ _ _ _
  have q2 : p (k + 1) ≤ q := by
    rw [← hq]
    calc p (k + 1) = aff (x k) (x (k + 1)) (p k) (p (k + 1)) (x (k + 1)) := (aff_right (hx k hk).ne _ _).symm
      _ ≤ _ := (aff_le_iff (hx k hk) (hp k hk)).2 hψ.1
  rw [aff_sub, aff_const, sub_nonneg]
  rcases lt_trichotomy j k with h | rfl | h
  · -- north
    have e1 : ψ ≤ φ := by
      have := anti x hx (j + 1) k h (by omega)
      linarith [hφ.1, hψ.2]
    have e2 : q ≤ aff (x j) (x (j + 1)) (p j) (p (j + 1)) φ := by
      have h1 := anti p hp (j + 1) k h (by omega)
      have h2 : aff (x j) (x (j + 1)) (p j) (p (j + 1)) (x (j + 1)) ≤ aff (x j) (x (j + 1)) (p j) (p (j + 1)) φ :=
        (aff_le_iff (hx j hj) (hp j hj)).2 hφ.1.le
      rw [aff_right (hx j hj).ne] at h2
      linarith
    exact ⟨fun _ => e1, fun _ => e2⟩
  · rw [← hq]
    exact aff_le_iff (hx j hj) (hp j hj)
  · -- south
    have e1 : ¬ ψ ≤ φ := by
      have := anti x hx (k + 1) j h (by omega)
      rw [not_le]
      linarith [hφ.2, hψ.1]
    have e2 : ¬ q ≤ aff (x j) (x (j + 1)) (p j) (p (j + 1)) φ := by
      have h1 := anti p hp (k + 1) j h (by omega)
      have h2 := aff_lt_left (hx j hj) (hp j hj) hφ.2
      rw [not_le]
      linarith
    exact ⟨fun h => absurd h e2, fun h => absurd h e1⟩

/-- the interpolated latitude is the latitude -/
theorem aff_id {x0 x1 : ℝ} (hx : x1 < x0) (c φ : ℝ) : aff x0 x1 (x0 - c) (x1 - c) φ = φ - c := by
  unfold aff
  have : x1 - x0 ≠ 0 := by linarith
  field_simp
  ring

/-- integral of one north of latitude `ψ` -/
theorem sptrapzCol_north {g : Grid ℝ} (hg : g.Valid) {ψ : ℝ} (h0 : -(π / 2) ≤ ψ) (h1 : ψ ≤ π / 2) :
    sptrapzCol g.rsphere (g.nlat - 1) g.phi (fun _ => 1) (fun j => g.phi j - ψ) = g.rsphere * (1 - sin ψ) := by
  have := (col_integral g.rsphere (n := g.nlat - 1) (x := g.phi) (fun _ => 1) (fun j => g.phi j - ψ) (phi_seg hg)
    (fun φ => if ψ ≤ φ then cos φ else 0) (by
      intro j hj φ _
      unfold segFun
      rw [aff_id (phi_seg hg j hj), aff_const]
      simp only [sub_nonneg, one_mul])).2
  rw [this, phi_last hg, phi_zero hg]
  congr 1
  have i1 : IntervalIntegrable (fun φ => if ψ ≤ φ then cos φ else 0) volume (-(π / 2)) ψ := by
    refine (intervalIntegrable_const (c := (0 : ℝ))).congr_uIoo ?_
    rw [uIoo_of_le h0]
    intro φ hφ
    simp only
    rw [if_neg (not_le.2 hφ.2)]
  have i2 : IntervalIntegrable (fun φ => if ψ ≤ φ then cos φ else 0) volume ψ (π / 2) := by
    refine (continuous_cos.intervalIntegrable ψ (π / 2)).congr_uIoo ?_
    rw [uIoo_of_le h1]
    intro φ hφ
    simp only
    rw [if_pos hφ.1.le]
  rw [← intervalIntegral.integral_add_adjacent_intervals i1 i2]
  have e1 : ∫ φ in (-(π / 2))..ψ, (if ψ ≤ φ then cos φ else 0) = 0 := by
    rw [intervalIntegral.integral_congr_Ioo_of_le (g := fun _ => (0 : ℝ)) h0]
    · simp
    · intro φ hφ
      simp only
      rw [if_neg (not_le.2 hφ.2)]
  have e2 : ∫ φ in ψ..(π / 2), (if ψ ≤ φ then cos φ else 0) = 1 - sin ψ := by
    rw [intervalIntegral.integral_congr_Ioo_of_le (g := cos) h1]
    · rw [integral_cos, sin_pi_div_two]
    · intro φ hφ
      simp only
      rw [if_pos hφ.1.le]
  rw [e1, e2, zero_add]

end Barotropic
