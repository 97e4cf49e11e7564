import Mathlib.Analysis.ODE.ExistUnique
import Mathlib.Analysis.ODE.Gronwall

/-!
# Continuation of solutions of ordinary differential equations
-/

namespace Barotropic
open Set

variable {E : Type*} [NormedAddCommGroup E] [NormedSpace ℝ E] [CompleteSpace E]

/-- If solutions cannot leave a ball, then they exist as long as the right-hand side is defined. -/
theorem exists_global {v : ℝ → E → E} {t0 t1 : ℝ} (ht : t0 ≤ t1)
    (hv : ∀ B, ∃ L, 0 ≤ L ∧ ∀ t ∈ Icc t0 t1, ∀ t' ∈ Icc t0 t1, ∀ q q', ‖q‖ ≤ B → ‖q'‖ ≤ B → ‖v t q - v t' q'‖ ≤ L * (|t - t'| + ‖q - q'‖))
    {q0 : E} {B : ℝ} (hB : ∀ t2 ∈ Icc t0 t1, ∀ Y : ℝ → E, Y t0 = q0 → (∀ t ∈ Icc t0 t2, HasDerivWithinAt Y (v t (Y t)) (Icc t0 t2) t) →
      ∀ t ∈ Icc t0 t2, ‖Y t‖ ≤ B) : ∃ Y : ℝ → E, Y t0 = q0 ∧ ∀ t ∈ Icc t0 t1, HasDerivWithinAt Y (v t (Y t)) (Icc t0 t1) t := by
  have hB0 : ‖q0‖ ≤ B := by
    have := hB t0 ⟨le_rfl, ht⟩ (fun _ => q0) rfl (fun t h => by
      rw [Icc_self] at h ⊢
      rw [mem_singleton_iff.mp h]
      exact HasFDerivWithinAt.singleton) t0 ⟨le_rfl, le_rfl⟩
    exact this
  have hBn : 0 ≤ B := (norm_nonneg _).trans hB0
  obtain ⟨L, hL, hlip⟩ := hv (B + 1)
  set V : ℝ := ‖v t0 0‖ + L * ((t1 - t0) + (B + 1)) with hV
  have htt : 0 ≤ t1 - t0 := by linarith
  have hV0 : 0 ≤ V := by positivity
  have hVb : ∀ t ∈ Icc t0 t1, ∀ x, ‖x‖ ≤ B + 1 → ‖v t x‖ ≤ V := by
    intro t h x hx
    have h1 := norm_add_le (v t x - v t0 0) (v t0 0)
    rw [sub_add_cancel] at h1
    have h2 := hlip t h t0 ⟨le_rfl, ht⟩ x 0 hx (by rw [norm_zero]; linarith)
    rw [sub_zero] at h2
    have h3 : |t - t0| ≤ t1 - t0 := by rw [abs_of_nonneg (by linarith [h.1])]; linarith [h.2]
    have h5 := mul_le_mul_of_nonneg_left (add_le_add h3 hx) hL
    linarith
  -- existence for a time that does not depend on the initial value
  have loc : ∀ ta tb x, t0 ≤ ta → ta ≤ tb → tb ≤ t1 → tb ≤ ta + 1 / (V + 1) → ‖x‖ ≤ B →
      ∃ Y : ℝ → E, Y ta = x ∧ ∀ t ∈ Icc ta tb, HasDerivWithinAt Y (v t (Y t)) (Icc ta tb) t := by
    intro ta tb x h0 h1 h2 h3 hx
    have hsub : Icc ta tb ⊆ Icc t0 t1 := Icc_subset_Icc h0 h2
    have hball : ∀ z ∈ Metric.closedBall x 1, ‖z‖ ≤ B + 1 := by
      intro z hz
      rw [mem_closedBall_iff_norm] at hz
      have := norm_add_le (z - x) x
      rw [sub_add_cancel] at this
      linarith
    have hpl : IsPicardLindelof v (tmin := ta) (tmax := tb) ⟨ta, le_rfl, h1⟩ x 1 0 ⟨V, hV0⟩ ⟨L, hL⟩ := by
      refine ⟨fun t h => LipschitzOnWith.of_dist_le_mul fun z hz z' hz' => ?_, fun z hz => ?_, fun t h z hz => ?_, ?_⟩
      · rw [dist_eq_norm, dist_eq_norm]
        have e := hlip t (hsub h) t (hsub h) z z' (hball z (by simpa using hz)) (hball z' (by simpa using hz'))
        rw [sub_self, abs_zero, zero_add] at e
        exact e
      · refine LipschitzOnWith.continuousOn (K := ⟨L, hL⟩) (LipschitzOnWith.of_dist_le_mul fun t h t' h' => ?_)
        rw [dist_eq_norm]
        have e := hlip t (hsub h) t' (hsub h') z z (hball z (by simpa using hz)) (hball z (by simpa using hz))
        rw [sub_self, norm_zero, add_zero] at e
        exact e
      · exact hVb t (hsub h) z (hball z (by simpa using hz))
      · change V * max (tb - ta) (ta - ta) ≤ 1 - 0
        rw [sub_self, max_eq_left (by linarith), sub_zero]
        refine (mul_le_mul_of_nonneg_left (by linarith : tb - ta ≤ 1 / (V + 1)) hV0).trans ?_
        rw [mul_one_div, div_le_one (by positivity)]
        linarith
    exact hpl.exists_eq_forall_mem_Icc_hasDerivWithinAt₀
  have step : ∀ n : ℕ, ∃ Y : ℝ → E, Y t0 = q0 ∧
      ∀ t ∈ Icc t0 (min t1 (t0 + n * (1 / (V + 1)))), HasDerivWithinAt Y (v t (Y t)) (Icc t0 (min t1 (t0 + n * (1 / (V + 1))))) t := by
    have hτ : 0 < 1 / (V + 1) := by positivity
    intro n
    induction n with
    | zero =>
      refine ⟨fun _ => q0, rfl, fun t h => ?_⟩
      rw [Nat.cast_zero, zero_mul, add_zero, min_eq_right ht, Icc_self] at h ⊢
      rw [mem_singleton_iff.mp h]
      exact HasFDerivWithinAt.singleton
    | succ n ih =>
      obtain ⟨Y1, h10, h1⟩ := ih
      set a := min t1 (t0 + n * (1 / (V + 1))) with ha
      set b := min t1 (t0 + (n + 1 : ℕ) * (1 / (V + 1))) with hb
      have h0a : t0 ≤ a := le_min ht (by have : 0 ≤ (n : ℝ) * (1 / (V + 1)) := by positivity
                                         linarith)
      have hab : a ≤ b := min_le_min le_rfl (by push_cast; linarith)
      have hb1 : b ≤ t1 := min_le_left _ _
      have hba : b ≤ a + 1 / (V + 1) := by
        rw [ha, hb, ← min_add_add_right]
        refine min_le_min (by linarith) ?_
        push_cast
        linarith
      have hYa := hB a ⟨h0a, hab.trans hb1⟩ Y1 h10 h1 a ⟨h0a, le_rfl⟩
      obtain ⟨Y2, h20, h2⟩ := loc a b (Y1 a) h0a hab hb1 hba hYa
      refine ⟨fun t => if t ≤ a then Y1 t else Y2 t, by simp [h0a, h10], fun t h => ?_⟩
      have e1 : ∀ t ∈ Icc t0 a, (if t ≤ a then Y1 t else Y2 t) = Y1 t := fun t h => if_pos h.2
      have e2 : ∀ t ∈ Icc a b, (if t ≤ a then Y1 t else Y2 t) = Y2 t := fun t h => by
        by_cases hta : t ≤ a
        · have : t = a := le_antisymm hta h.1
          rw [if_pos hta, this, h20]
        · rw [if_neg hta]
      have d1 : ∀ t ∈ Icc t0 a, HasDerivWithinAt (fun t => if t ≤ a then Y1 t else Y2 t) (v t (if t ≤ a then Y1 t else Y2 t)) (Icc t0 a) t := by
        intro t h
        rw [e1 t h]
        exact (h1 t h).congr e1 (e1 t h)
      have d2 : ∀ t ∈ Icc a b, HasDerivWithinAt (fun t => if t ≤ a then Y1 t else Y2 t) (v t (if t ≤ a then Y1 t else Y2 t)) (Icc a b) t := by
        intro t h
        rw [e2 t h]
        exact (h2 t h).congr e2 (e2 t h)
      rcases lt_trichotomy t a with hta | hta | hta
      · refine (d1 t ⟨h.1, hta.le⟩).mono_of_mem_nhdsWithin ?_
        rw [← Icc_union_Icc_eq_Icc h0a hab]
        refine mem_nhdsWithin.mpr ⟨Iio a, isOpen_Iio, hta, ?_⟩
        rintro z ⟨hz1, hz2 | hz2⟩
        · exact hz2
        · exact absurd hz2.1 (not_le.mpr hz1)
      · subst hta
        have := (d1 _ ⟨h0a, le_rfl⟩).union (d2 _ ⟨le_rfl, hab⟩)
        rwa [Icc_union_Icc_eq_Icc h0a hab] at this
      · refine (d2 t ⟨hta.le, h.2⟩).mono_of_mem_nhdsWithin ?_
        rw [← Icc_union_Icc_eq_Icc h0a hab]
        refine mem_nhdsWithin.mpr ⟨Ioi a, isOpen_Ioi, hta, ?_⟩
        rintro z ⟨hz1, hz2 | hz2⟩
        · exact absurd hz2.2 (not_le.mpr hz1)
        · exact hz2
  obtain ⟨n, hn⟩ := exists_nat_ge ((t1 - t0) * (V + 1))
  have e : min t1 (t0 + n * (1 / (V + 1))) = t1 := by
    refine min_eq_left ?_
    rw [mul_one_div]
    have : t1 - t0 ≤ n / (V + 1) := by rwa [le_div_iff₀ (by positivity)]
    linarith
  have := step n
  rwa [e] at this

end Barotropic
