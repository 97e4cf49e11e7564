import Verif.Model.GridReal
import Mathlib.Tactic.Linarith
import Mathlib.Tactic.Ring
import Mathlib.Tactic.Positivity
import Mathlib.Tactic.FieldSimp

/-!
# C04: Coriolis parameter and circumference
-/

namespace Barotropic
open Real

theorem C04_coriolis (g : Grid ℝ) (hω : 0 < g.omega) :
    (∀ x, g.coriolis (-x) = -g.coriolis x) ∧ g.coriolis 0 = 0 ∧
    StrictMonoOn g.coriolis (Set.Icc (-90) 90) ∧
    g.coriolis (-90) = -(2 * g.omega) ∧ g.coriolis 90 = 2 * g.omega ∧
    (∀ j i, g.fcor2 j i = g.coriolis (g.lat j)) ∧ (∀ j, g.fcor j = g.coriolis (g.lat j)) := by
  have h90 : deg2rad 90 = π / 2 := by unfold deg2rad; ring
  refine ⟨?_, ?_, ?_, ?_, ?_, fun _ _ => rfl, fun _ => rfl⟩
  · intro x
    unfold Grid.coriolis deg2rad
    rw [neg_mul, sin_neg]; ring
  · unfold Grid.coriolis deg2rad; simp
  · intro x hx y hy hxy
    have hπ := pi_pos
    have key : sin (deg2rad x) < sin (deg2rad y) := by
      apply sin_lt_sin_of_lt_of_le_pi_div_two
      · unfold deg2rad; nlinarith [hx.1]
      · unfold deg2rad; nlinarith [hy.2]
      · unfold deg2rad; nlinarith
    unfold Grid.coriolis
    nlinarith
  · have : deg2rad (-90) = -(π / 2) := by unfold deg2rad; ring
    unfold Grid.coriolis; rw [this, sin_neg, sin_pi_div_two]; ring
  · unfold Grid.coriolis; rw [h90, sin_pi_div_two]; ring

theorem C04_circumference (g : Grid ℝ) (hr : 0 < g.rsphere) :
    (∀ x, g.circumference (-x) = g.circumference x) ∧
    (∀ x ∈ Set.Icc (-90 : ℝ) 90, 0 ≤ g.circumference x) ∧
    g.circumference 90 = 0 ∧ g.circumference (-90) = 0 ∧
    g.circumference 0 = 2 * π * g.rsphere ∧ (∀ x, g.circumference x ≤ 2 * π * g.rsphere) := by
  have h90 : deg2rad 90 = π / 2 := by unfold deg2rad; ring
  have hn90 : deg2rad (-90) = -(π / 2) := by unfold deg2rad; ring
  have hπ := pi_pos
  refine ⟨?_, ?_, ?_, ?_, ?_, ?_⟩
  · intro x
    unfold Grid.circumference deg2rad
    rw [neg_mul, cos_neg]
  · intro x hx
    have : 0 ≤ cos (deg2rad x) := by
      apply cos_nonneg_of_neg_pi_div_two_le_of_le
      · unfold deg2rad; nlinarith [hx.1]
      · unfold deg2rad; nlinarith [hx.2]
    unfold Grid.circumference
    positivity
  · unfold Grid.circumference; rw [h90, cos_pi_div_two, mul_zero]
  · unfold Grid.circumference; rw [hn90, cos_neg, cos_pi_div_two, mul_zero]
  · unfold Grid.circumference deg2rad; simp
  · intro x
    have := cos_le_one (deg2rad x)
    have h2 : 0 < 2 * π * g.rsphere := by positivity
    unfold Grid.circumference
    nlinarith

/-- Non-vacuity: a grid with positive radius and angular velocity. -/
example : ∃ g : Grid ℝ, 0 < g.omega ∧ 0 < g.rsphere := ⟨⟨1, 1, 1, 1⟩, by norm_num, by norm_num⟩

end Barotropic
