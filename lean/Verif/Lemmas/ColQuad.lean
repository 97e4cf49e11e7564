import Verif.Lemmas.Quad

/-!
# Quadrature along one meridian, for both methods
-/

namespace Barotropic
open Real Set MeasureTheory intervalIntegral

theorem col_of_lt {h : ℕ} (f : Fin h → ℝ) {j : ℕ} (hj : j < h) : Grid.col f j = f ⟨j, hj⟩ := by
  unfold Grid.col; rw [dif_pos hj]

theorem col_fin {h : ℕ} (f : Fin h → ℝ) (j : Fin h) : Grid.col f j = f j := col_of_lt f j.2

/-! ### One interval -/

theorem seg_linear (x0 x1 a b y0 y1 u0 u1 z0 z1 : ℝ) :
    sptrapzSeg x0 x1 (a * y0 + b * u0) (a * y1 + b * u1) z0 z1
      = a * sptrapzSeg x0 x1 y0 y1 z0 z1 + b * sptrapzSeg x0 x1 u0 u1 z0 z1 := by
  simp only [sptrapzSeg]; ring

theorem aff_sub (x0 x1 y0 y1 u0 u1 φ : ℝ) :
    aff x0 x1 (y0 - u0) (y1 - u1) φ = aff x0 x1 y0 y1 φ - aff x0 x1 u0 u1 φ := by
  unfold aff; ring

theorem aff_const (x0 x1 c φ : ℝ) : aff x0 x1 c c φ = c := by
  unfold aff; ring

theorem aff_mono {x0 x1 z0 z1 u0 u1 φ : ℝ} (hx : x1 < x0) (h0 : z0 ≤ u0) (h1 : z1 ≤ u1) (ha : x1 ≤ φ) (hb : φ ≤ x0) :
    aff x0 x1 z0 z1 φ ≤ aff x0 x1 u0 u1 φ := by
  have := aff_nonneg (z0 := u0 - z0) (z1 := u1 - z1) hx (by linarith) (by linarith) ha hb
  rw [aff_sub] at this
  linarith

theorem aff_left (x0 x1 y0 y1 : ℝ) : aff x0 x1 y0 y1 x0 = y0 := by unfold aff; simp

theorem aff_right {x0 x1 : ℝ} (hx : x1 ≠ x0) (y0 y1 : ℝ) : aff x0 x1 y0 y1 x1 = y1 := by
  unfold aff; rw [div_self (sub_ne_zero.2 hx)]; ring

/-- Splitting at the sign change. -/
theorem seg_complement {x0 x1 : ℝ} (y0 y1 z0 z1 : ℝ) (h0 : z0 ≠ 0) (h1 : z1 ≠ 0) :
    (if 0 ≤ z0 ∨ 0 ≤ z1 then sptrapzSeg x0 x1 y0 y1 z0 z1 else 0)
      + (if 0 ≤ -z0 ∨ 0 ≤ -z1 then sptrapzSeg x0 x1 y0 y1 (-z0) (-z1) else 0)
      = sptrapzSeg x0 x1 y0 y1 1 1 := by
  rcases lt_or_gt_of_ne h0 with a | a <;> rcases lt_or_gt_of_ne h1 with b | b
  · have c0 : ¬ 0 ≤ z0 := by linarith
    have c1 : ¬ 0 ≤ z1 := by linarith
    have d0 : 0 ≤ -z0 := by linarith
    have d1 : 0 ≤ -z1 := by linarith
    have e : (0 : ℝ) ≤ 1 := by norm_num
    simp only [sptrapzSeg, c0, c1, d0, d1, e, or_self, if_false, if_true, not_true, false_and, and_false]
    ring
  · have c0 : ¬ 0 ≤ z0 := by linarith
    have c1 : 0 ≤ z1 := by linarith
    have d0 : 0 ≤ -z0 := by linarith
    have d1 : ¬ 0 ≤ -z1 := by linarith
    have e : (0 : ℝ) ≤ 1 := by norm_num
    have hz : z0 ≠ z1 := by linarith
    have r1 : x1 - -z1 / (-z1 - -z0) * (x1 - x0) = x0 - z0 / (z1 - z0) * (x1 - x0) := by
      rw [← root_alt hz]
      congr 2
      rw [show -z1 - -z0 = -(z1 - z0) by ring, neg_div_neg_eq]
    simp only [sptrapzSeg, c0, c1, d0, d1, e, or_true, true_or, if_false, if_true, not_true, false_and, and_false, and_self,
      not_false_eq_true, r1]
    ring
  · have c0 : 0 ≤ z0 := by linarith
    have c1 : ¬ 0 ≤ z1 := by linarith
    have d0 : ¬ 0 ≤ -z0 := by linarith
    have d1 : 0 ≤ -z1 := by linarith
    have e : (0 : ℝ) ≤ 1 := by norm_num
    have hz : z0 ≠ z1 := by linarith
    have r1 : x0 - -z0 / (-z1 - -z0) * (x1 - x0) = x1 - z1 / (z1 - z0) * (x1 - x0) := by
      rw [root_alt hz]
      congr 2
      rw [show -z1 - -z0 = -(z1 - z0) by ring, neg_div_neg_eq]
    simp only [sptrapzSeg, c0, c1, d0, d1, e, or_true, true_or, if_false, if_true, not_true, false_and, and_false, and_self,
      not_false_eq_true, r1]
    ring
  · have c0 : 0 ≤ z0 := by linarith
    have c1 : 0 ≤ z1 := by linarith
    have d0 : ¬ 0 ≤ -z0 := by linarith
    have d1 : ¬ 0 ≤ -z1 := by linarith
    have e : (0 : ℝ) ≤ 1 := by norm_num
    simp only [sptrapzSeg, c0, c1, d0, d1, e, or_self, if_false, if_true, not_true, false_and, and_false]
    ring

/-- The integral of one over the trimmed interval. -/
theorem seg_one {x0 x1 : ℝ} (hx : x1 < x0) (hl : -(π / 2) ≤ x1) (hr : x0 ≤ π / 2) (z0 z1 : ℝ) :
    let A := if 0 ≤ z0 ∨ 0 ≤ z1 then sptrapzSeg x0 x1 1 1 z0 z1 else 0
    0 ≤ A ∧ A ≤ sin x0 - sin x1 ∧ (0 < z0 ∨ 0 < z1 → 0 < A) ∧ (z0 < 0 ∨ z1 < 0 → A < sin x0 - sin x1) ∧
    (0 ≤ z0 → 0 ≤ z1 → A = sin x0 - sin x1) := by
  have hfull : sin x1 < sin x0 := sin_lt_sin_of_lt_of_le_pi_div_two hl hr hx
  by_cases h0 : 0 ≤ z0 <;> by_cases h1 : 0 ≤ z1
  · have hA : (if 0 ≤ z0 ∨ 0 ≤ z1 then sptrapzSeg x0 x1 1 1 z0 z1 else 0) = sin x0 - sin x1 := by
      simp only [sptrapzSeg, h0, h1, or_self, if_true, not_true, false_and, and_false, if_false]; ring
    intro A
    refine ⟨by linarith, by linarith, fun _ => by linarith, ?_, fun _ _ => hA⟩
    rintro (h | h) <;> linarith
  · have hneg := not_le.1 h1
    have hz : z0 ≠ z1 := by linarith
    have hρ0 : 0 ≤ z0 / (z1 - z0) * (x1 - x0) :=
      mul_nonneg_of_nonpos_of_nonpos (div_nonpos_of_nonneg_of_nonpos h0 (by linarith)) (by linarith)
    have hρ1 : z1 / (z1 - z0) * (x1 - x0) < 0 :=
        mul_neg_of_pos_of_neg (div_pos_of_neg_of_neg (by linarith) (by linarith)) (by linarith)
    have hρ2 : 0 < z0 → 0 < z0 / (z1 - z0) * (x1 - x0) := fun h =>
      mul_pos_of_neg_of_neg (div_neg_of_pos_of_neg h (by linarith)) (by linarith)
    set ρ := x1 - z1 / (z1 - z0) * (x1 - x0) with hρ
    have hρ' : ρ = x0 - z0 / (z1 - z0) * (x1 - x0) := root_alt hz
    have hA : (if 0 ≤ z0 ∨ 0 ≤ z1 then sptrapzSeg x0 x1 1 1 z0 z1 else 0) = sin x0 - sin ρ := by
      simp only [sptrapzSeg, h0, h1, true_or, if_true, not_true, false_and, if_false, not_false_eq_true, and_self, ← hρ]; ring
    have k1 : sin x1 < sin ρ := sin_lt_sin_of_lt_of_le_pi_div_two hl (by linarith) (by linarith)
    have k2 : sin ρ ≤ sin x0 := sin_le_sin_of_le_of_le_pi_div_two (by linarith) hr (by linarith)
    intro A
    refine ⟨by linarith, by linarith, ?_, fun _ => by linarith, fun _ h => absurd h h1⟩
    rintro (h | h)
    · have k3 : sin ρ < sin x0 := sin_lt_sin_of_lt_of_le_pi_div_two (by linarith) hr (by linarith [hρ2 h])
      linarith
    · linarith
  · have hneg := not_le.1 h0
    have hz : z0 ≠ z1 := by linarith
    have hρ0 : 0 < z0 / (z1 - z0) * (x1 - x0) :=
      mul_pos_of_neg_of_neg (div_neg_of_neg_of_pos hneg (by linarith)) (by linarith)
    have hρ1 : z1 / (z1 - z0) * (x1 - x0) ≤ 0 :=
      mul_nonpos_of_nonneg_of_nonpos (div_nonneg h1 (by linarith)) (by linarith)
    have hρ2 : 0 < z1 → z1 / (z1 - z0) * (x1 - x0) < 0 := fun h =>
      mul_neg_of_pos_of_neg (div_pos h (by linarith)) (by linarith)
    have hρ' := root_alt (x0 := x0) (x1 := x1) hz
    set ρ := x0 - z0 / (z1 - z0) * (x1 - x0) with hρ
    have hA : (if 0 ≤ z0 ∨ 0 ≤ z1 then sptrapzSeg x0 x1 1 1 z0 z1 else 0) = sin ρ - sin x1 := by
      simp only [sptrapzSeg, h0, h1, or_true, if_true, not_true, false_and, if_false, not_false_eq_true, and_self, ← hρ]; ring
    have k1 : sin x1 ≤ sin ρ := sin_le_sin_of_le_of_le_pi_div_two hl (by linarith) (by linarith)
    have k2 : sin ρ < sin x0 := sin_lt_sin_of_lt_of_le_pi_div_two (by linarith) hr (by linarith)
    intro A
    refine ⟨by linarith, by linarith, ?_, fun _ => by linarith, fun h _ => absurd h h0⟩
    rintro (h | h)
    · linarith
    · have k3 : sin x1 < sin ρ := sin_lt_sin_of_lt_of_le_pi_div_two hl (by linarith) (by linarith [hρ2 h])
      linarith
  · have hA : (if 0 ≤ z0 ∨ 0 ≤ z1 then sptrapzSeg x0 x1 1 1 z0 z1 else 0) = 0 := by
      rw [if_neg (by rw [not_or]; exact ⟨h0, h1⟩)]
    intro A
    refine ⟨by linarith, by linarith, ?_, fun _ => by linarith, fun h _ => absurd h h0⟩
    rintro (h | h) <;> linarith

/-! ### A meridian -/

theorem sptrapzCol_linear (r : ℝ) (n : ℕ) (x : ℕ → ℝ) (a b : ℝ) (y u z : ℕ → ℝ) :
    sptrapzCol r n x (fun j => a * y j + b * u j) z = a * sptrapzCol r n x y z + b * sptrapzCol r n x u z := by
  unfold sptrapzCol
  rw [Finset.mul_sum, Finset.mul_sum, ← Finset.sum_add_distrib]
  apply Finset.sum_congr rfl
  intro j _
  split_ifs
  · rw [seg_linear]; ring
  · ring

theorem sptrapzCol_congr (r : ℝ) {n : ℕ} (x : ℕ → ℝ) {y u z v : ℕ → ℝ} (hy : ∀ j ≤ n, y j = u j) (hz : ∀ j ≤ n, z j = v j) :
    sptrapzCol r n x y z = sptrapzCol r n x u v := by
  unfold sptrapzCol
  apply Finset.sum_congr rfl
  intro j hj
  have hj := Finset.mem_range.1 hj
  rw [hy j (by omega), hy (j + 1) (by omega), hz j (by omega), hz (j + 1) (by omega)]

theorem sptrapzCol_mono {r : ℝ} (hr : 0 ≤ r) {n : ℕ} {x : ℕ → ℝ} (hx : ∀ j < n, x (j + 1) < x j) {y u z v : ℕ → ℝ}
    (h : ∀ j < n, ∀ φ ∈ Icc (x (j + 1)) (x j), segFun (x j) (x (j + 1)) (y j) (y (j + 1)) (z j) (z (j + 1)) φ
      ≤ segFun (x j) (x (j + 1)) (u j) (u (j + 1)) (v j) (v (j + 1)) φ) :
    sptrapzCol r n x y z ≤ sptrapzCol r n x u v := by
  unfold sptrapzCol
  apply Finset.sum_le_sum
  intro j hj
  have hj := Finset.mem_range.1 hj
  rw [← mul_ite_zero, ← mul_ite_zero]
  apply mul_le_mul_of_nonneg_left _ hr
  obtain ⟨i1, e1⟩ := seg_integral (hx j hj) (y j) (y (j + 1)) (z j) (z (j + 1))
  obtain ⟨i2, e2⟩ := seg_integral (hx j hj) (u j) (u (j + 1)) (v j) (v (j + 1))
  rw [e1, e2]
  exact integral_mono_on (hx j hj).le i1 i2 (h j hj)

theorem sptrapzCol_nonneg {r : ℝ} (hr : 0 ≤ r) {n : ℕ} {x : ℕ → ℝ} (hx : ∀ j < n, x (j + 1) < x j) {y z : ℕ → ℝ}
    (h : ∀ j < n, ∀ φ ∈ Icc (x (j + 1)) (x j), 0 ≤ segFun (x j) (x (j + 1)) (y j) (y (j + 1)) (z j) (z (j + 1)) φ) :
    0 ≤ sptrapzCol r n x y z := by
  unfold sptrapzCol
  apply Finset.sum_nonneg
  intro j hj
  have hj := Finset.mem_range.1 hj
  rw [← mul_ite_zero]
  apply mul_nonneg hr
  obtain ⟨i1, e1⟩ := seg_integral (hx j hj) (y j) (y (j + 1)) (z j) (z (j + 1))
  rw [e1]
  exact integral_nonneg (hx j hj).le (h j hj)

/-- Fields whose domains agree on every interval give the same integral. -/
theorem sptrapzCol_domain {r : ℝ} {n : ℕ} {x : ℕ → ℝ} (hx : ∀ j < n, x (j + 1) < x j) {y z v : ℕ → ℝ}
    (h : ∀ j < n, ∀ φ ∈ Ioo (x (j + 1)) (x j),
      (0 ≤ aff (x j) (x (j + 1)) (z j) (z (j + 1)) φ ↔ 0 ≤ aff (x j) (x (j + 1)) (v j) (v (j + 1)) φ)) :
    sptrapzCol r n x y z = sptrapzCol r n x y v := by
  unfold sptrapzCol
  apply Finset.sum_congr rfl
  intro j hj
  have hj := Finset.mem_range.1 hj
  rw [← mul_ite_zero, ← mul_ite_zero]
  congr 1
  obtain ⟨i1, e1⟩ := seg_integral (hx j hj) (y j) (y (j + 1)) (z j) (z (j + 1))
  obtain ⟨i2, e2⟩ := seg_integral (hx j hj) (y j) (y (j + 1)) (v j) (v (j + 1))
  rw [e1, e2]
  apply integral_congr_Ioo_of_le (hx j hj).le
  intro φ hφ
  have := h j hj φ hφ
  unfold segFun
  simp only [this]

theorem sptrapzCol_complement (r : ℝ) (n : ℕ) (x y z : ℕ → ℝ) (hz : ∀ j ≤ n, z j ≠ 0) :
    sptrapzCol r n x y z + sptrapzCol r n x y (fun j => -z j) = sptrapzCol r n x y (fun _ => 1) := by
  unfold sptrapzCol
  rw [← Finset.sum_add_distrib]
  apply Finset.sum_congr rfl
  intro j hj
  have hj := Finset.mem_range.1 hj
  rw [if_pos (Or.inl zero_le_one), ← seg_complement (y j) (y (j + 1)) (z j) (z (j + 1)) (hz j (by omega)) (hz (j + 1) (by omega)),
    mul_add, mul_ite_zero, mul_ite_zero]

/-- Bounds for the integral of one. -/
theorem sptrapzCol_one {r : ℝ} (hr : 0 < r) {n : ℕ} {x : ℕ → ℝ} (hx : ∀ j < n, x (j + 1) < x j)
    (hl : ∀ j ≤ n, -(π / 2) ≤ x j) (hu : ∀ j ≤ n, x j ≤ π / 2) (z : ℕ → ℝ) :
    0 ≤ sptrapzCol r n x (fun _ => 1) z ∧ sptrapzCol r n x (fun _ => 1) z ≤ r * (sin (x 0) - sin (x n)) ∧
    (0 < n → (∃ j ≤ n, 0 < z j) → 0 < sptrapzCol r n x (fun _ => 1) z) ∧
    (0 < n → (∃ j ≤ n, z j < 0) → sptrapzCol r n x (fun _ => 1) z < r * (sin (x 0) - sin (x n))) ∧
    ((∀ j ≤ n, 0 ≤ z j) → sptrapzCol r n x (fun _ => 1) z = r * (sin (x 0) - sin (x n))) := by
  have key := fun j (hj : j < n) => seg_one (hx j hj) (hl (j + 1) (by omega)) (hu j (by omega)) (z j) (z (j + 1))
  have tel : r * (sin (x 0) - sin (x n)) = ∑ j ∈ Finset.range n, r * (sin (x j) - sin (x (j + 1))) := by
    rw [← Finset.mul_sum, Finset.sum_range_sub']
  have seg_of : ∀ (P : ℝ → Prop), 0 < n → (∃ j ≤ n, P (z j)) → ∃ j < n, P (z j) ∨ P (z (j + 1)) := by
    rintro P hn ⟨j, hj, hp⟩
    by_cases h : j < n
    · exact ⟨j, h, .inl hp⟩
    · exact ⟨n - 1, by omega, .inr (by rwa [show n - 1 + 1 = j by omega])⟩
  have term : ∀ j, (if 0 ≤ z j ∨ 0 ≤ z (j + 1) then r * sptrapzSeg (x j) (x (j + 1)) 1 1 (z j) (z (j + 1)) else 0)
    = r * (if 0 ≤ z j ∨ 0 ≤ z (j + 1) then sptrapzSeg (x j) (x (j + 1)) 1 1 (z j) (z (j + 1)) else 0) :=
    fun j => (mul_ite_zero _ _ _).symm
  unfold sptrapzCol
  simp only [term]
  rw [tel]
  refine ⟨?_, ?_, ?_, ?_, ?_⟩
  · exact Finset.sum_nonneg fun j hj => mul_nonneg hr.le (key j (Finset.mem_range.1 hj)).1
  · exact Finset.sum_le_sum fun j hj => mul_le_mul_of_nonneg_left (key j (Finset.mem_range.1 hj)).2.1 hr.le
  · intro hn hz
    obtain ⟨j, hj, hp⟩ := seg_of (fun t => 0 < t) hn hz
    exact Finset.sum_pos' (fun j hj => mul_nonneg hr.le (key j (Finset.mem_range.1 hj)).1)
      ⟨j, Finset.mem_range.2 hj, mul_pos hr ((key j hj).2.2.1 hp)⟩
  · intro hn hz
    obtain ⟨j, hj, hp⟩ := seg_of (fun t => t < 0) hn hz
    exact Finset.sum_lt_sum (fun j hj => mul_le_mul_of_nonneg_left (key j (Finset.mem_range.1 hj)).2.1 hr.le)
      ⟨j, Finset.mem_range.2 hj, mul_lt_mul_of_pos_left ((key j hj).2.2.2.1 hp) hr⟩
  · intro hz
    apply Finset.sum_congr rfl
    intro j hj
    have hj := Finset.mem_range.1 hj
    rw [(key j hj).2.2.2.2 (hz j (by omega)) (hz (j + 1) (by omega))]

/-! ### Both methods -/

namespace Grid

/-- The value `quad_meridional` returns for one column. -/
noncomputable def colQuad (g : Grid ℝ) (m : String) (y z : Fin g.nlat → ℝ) : ℝ :=
  if m = "boxcount" then g.boxcountCol y z
  else sptrapzCol g.rsphere (g.nlat - 1) g.phi (col y) (col z)

/-- `m` is a known method and applicable to fields with `w` columns. -/
def OkMethod (g : Grid ℝ) (m : String) (w : ℕ) : Prop := m = "boxcount" ∨ (m = "sptrapz" ∧ w ≤ g.nlon)

theorem quadMeridionalCore_ok {g : Grid ℝ} {m : String} {w : ℕ} (hm : g.OkMethod m w) (y : Fin g.nlat → Fin w → ℝ)
    (z : Option (Fin g.nlat → Fin w → ℝ)) :
    g.quadMeridionalCore y z m = .ok fun i => g.colQuad m (fun j => y j i) (fun j => z.getD (fun _ _ => 1) j i) := by
  unfold quadMeridionalCore colQuad
  rcases hm with rfl | ⟨rfl, hw⟩
  · simp
  · simp only [String.reduceEq, if_false, if_true]
    rw [if_neg (by omega)]

theorem quadCore_ok {g : Grid ℝ} {m : String} {w : ℕ} (hm : g.OkMethod m w) (y : Fin g.nlat → Fin w → ℝ)
    (z : Option (Fin g.nlat → Fin w → ℝ)) :
    g.quadCore y z m = .ok (g.rsphere * g.dlam *
      ∑ i, g.colQuad m (fun j => y j i) (fun j => z.getD (fun _ _ => 1) j i)) := by
  unfold quadCore
  rw [quadMeridionalCore_ok hm]

theorem quadMeridional_ok {g : Grid ℝ} {m : String} {w : ℕ} (hm : g.OkMethod m w) (y : Fin g.nlat → Fin w → ℝ)
    (z : Option (Fin g.nlat → Fin w → ℝ)) :
    g.quadMeridional (.d2 g.nlat w y) z m
      = .ok (.d1 w fun i => g.colQuad m (fun j => y j i) (fun j => z.getD (fun _ _ => 1) j i)) := by
  unfold quadMeridional
  dsimp only
  rw [dif_pos rfl, quadMeridionalCore_ok hm]
  cases z <;> rfl

theorem quad_ok {g : Grid ℝ} {m : String} {w : ℕ} (hm : g.OkMethod m w) (y : Fin g.nlat → Fin w → ℝ)
    (z : Option (Fin g.nlat → Fin w → ℝ)) :
    g.quad (.d2 g.nlat w y) z m = .ok (g.rsphere * g.dlam *
      ∑ i, g.colQuad m (fun j => y j i) (fun j => z.getD (fun _ _ => 1) j i)) := by
  unfold quad
  rw [quadMeridional_ok hm]

section
variable {g : Grid ℝ} (hg : g.Valid)
include hg

theorem phi_seg : ∀ j < g.nlat - 1, g.phi (j + 1) < g.phi j := fun _ _ => phi_strictAnti hg (Nat.lt_succ_self _)

theorem cos_seg {j : ℕ} (hj : j < g.nlat - 1) {φ : ℝ} (h : φ ∈ Icc (g.phi (j + 1)) (g.phi j)) : 0 ≤ cos φ := by
  apply cos_nonneg_of_mem_Icc
  exact ⟨(phi_mem hg (show j + 1 < g.nlat by omega)).1.trans h.1, h.2.trans (phi_mem hg (show j < g.nlat by omega)).2⟩

omit hg in
theorem colQuad_linear (m : String) (a b : ℝ) (y u z : Fin g.nlat → ℝ) :
    g.colQuad m (fun j => a * y j + b * u j) z = a * g.colQuad m y z + b * g.colQuad m u z := by
  unfold colQuad
  split_ifs
  · unfold boxcountCol
    have : (∑ j, if 0 ≤ z j then g.gridpointArea j * (a * y j + b * u j) else 0)
        = a * (∑ j, if 0 ≤ z j then g.gridpointArea j * y j else 0)
          + b * ∑ j, if 0 ≤ z j then g.gridpointArea j * u j else 0 := by
      rw [Finset.mul_sum, Finset.mul_sum, ← Finset.sum_add_distrib]
      apply Finset.sum_congr rfl
      intro j _
      split_ifs <;> ring
    rw [this]; ring
  · rw [← sptrapzCol_linear]
    congr 1
    funext j
    unfold col
    split_ifs <;> ring

theorem boxcountCol_mono {y u z v : Fin g.nlat → ℝ}
    (h : ∀ j, (if 0 ≤ z j then y j else 0) ≤ if 0 ≤ v j then u j else 0) : g.boxcountCol y z ≤ g.boxcountCol u v := by
  have hr := hg.rsphere_pos
  have hd := dlam_pos hg
  unfold boxcountCol
  apply div_le_div_of_nonneg_right _ hd.le
  apply div_le_div_of_nonneg_right _ hr.le
  apply Finset.sum_le_sum
  intro j _
  rw [← mul_ite_zero, ← mul_ite_zero]
  exact mul_le_mul_of_nonneg_left (h j) (gridpointArea_pos hg j.2).le

theorem colQuad_nonneg (m : String) {y z : Fin g.nlat → ℝ} (hy : ∀ j, 0 ≤ y j) : 0 ≤ g.colQuad m y z := by
  unfold colQuad
  split_ifs
  · have : g.boxcountCol (fun _ => 0) z ≤ g.boxcountCol y z := boxcountCol_mono hg (by
      intro j; split_ifs; exacts [hy j, le_rfl])
    have h0 : g.boxcountCol (fun _ => 0) z = 0 := by unfold boxcountCol; simp
    linarith
  · apply sptrapzCol_nonneg hg.rsphere_pos.le (phi_seg hg)
    intro j hj φ hφ
    unfold segFun
    split_ifs
    · apply mul_nonneg _ (cos_seg hg hj hφ)
      rw [col_of_lt y (show j < g.nlat by omega), col_of_lt y (show j + 1 < g.nlat by omega)]
      exact aff_nonneg (phi_seg hg j hj) (hy _) (hy _) hφ.1 hφ.2
    · exact le_rfl

/-- monotone in the domain -/
theorem colQuad_mono (m : String) {y z v : Fin g.nlat → ℝ} (hy : ∀ j, 0 ≤ y j) (hz : ∀ j, z j ≤ v j) :
    g.colQuad m y z ≤ g.colQuad m y v := by
  unfold colQuad
  split_ifs
  · apply boxcountCol_mono hg
    intro j
    have := hz j
    split_ifs
    · exact le_rfl
    · linarith
    · exact hy j
    · exact le_rfl
  · apply sptrapzCol_mono hg.rsphere_pos.le (phi_seg hg)
    intro j hj φ hφ
    rw [col_of_lt y (show j < g.nlat by omega), col_of_lt y (show j + 1 < g.nlat by omega),
      col_of_lt z (show j < g.nlat by omega), col_of_lt z (show j + 1 < g.nlat by omega),
      col_of_lt v (show j < g.nlat by omega), col_of_lt v (show j + 1 < g.nlat by omega)]
    have h1 := aff_mono (phi_seg hg j hj) (hz ⟨j, by omega⟩) (hz ⟨j + 1, by omega⟩) hφ.1 hφ.2
    have h2 := mul_nonneg (aff_nonneg (phi_seg hg j hj) (hy ⟨j, by omega⟩) (hy ⟨j + 1, by omega⟩) hφ.1 hφ.2)
      (cos_seg hg hj hφ)
    unfold segFun
    split_ifs
    · exact le_rfl
    · linarith
    · exact h2
    · exact le_rfl

/-- integrating over the set where the integrand itself is non-negative gives the largest value -/
theorem colQuad_self_max (m : String) (y z : Fin g.nlat → ℝ) : g.colQuad m y z ≤ g.colQuad m y y := by
  unfold colQuad
  split_ifs
  · apply boxcountCol_mono hg
    intro j
    split_ifs <;> linarith
  · apply sptrapzCol_mono hg.rsphere_pos.le (phi_seg hg)
    intro j hj φ hφ
    have := cos_seg hg hj hφ
    unfold segFun
    split_ifs with h1 h2
    · exact le_rfl
    · exact mul_nonpos_of_nonpos_of_nonneg (not_le.1 h2).le this
    · apply mul_nonneg _ this
      assumption
    · exact le_rfl

theorem boxcount_one_all {z : Fin g.nlat → ℝ} (hz : ∀ j, 0 ≤ z j) : g.boxcountCol (fun _ => 1) z = 2 * g.rsphere := by
  have hr := hg.rsphere_pos
  have hd := dlam_pos hg
  unfold boxcountCol
  have : (∑ j, if 0 ≤ z j then g.gridpointArea j * 1 else 0) = 2 * (g.rsphere * g.rsphere * g.dlam) := by
    rw [← sum_gridpointArea hg, ← Fin.sum_univ_eq_sum_range]
    apply Finset.sum_congr rfl
    intro j _
    rw [if_pos (hz j), mul_one]
  rw [this]
  field_simp

omit hg in
theorem col_one (m : ℕ) (hm : m = g.nlat) (j : ℕ) (hj : j < m) : col (fun _ : Fin g.nlat => (1 : ℝ)) j = 1 := by
  subst hm; exact col_of_lt _ hj

/-- bounds of the integral of one -/
theorem colQuad_one (m : String) (z : Fin g.nlat → ℝ) :
    0 ≤ g.colQuad m (fun _ => 1) z ∧ g.colQuad m (fun _ => 1) z ≤ 2 * g.rsphere ∧
    ((∃ j, 0 < z j) → 0 < g.colQuad m (fun _ => 1) z) ∧
    ((∃ j, z j < 0) → g.colQuad m (fun _ => 1) z < 2 * g.rsphere) ∧
    ((∀ j, 0 ≤ z j) → g.colQuad m (fun _ => 1) z = 2 * g.rsphere) ∧
    ((∀ j, z j < 0) → g.colQuad m (fun _ => 1) z = 0) := by
  have hr := hg.rsphere_pos
  have hd := dlam_pos hg
  have hn := hg.nlat_ge
  unfold colQuad
  split_ifs
  · have hle : g.boxcountCol (fun _ => 1) z ≤ 2 * g.rsphere := by
      rw [← boxcount_one_all hg (z := fun _ => 0) fun _ => le_rfl]
      apply boxcountCol_mono hg
      intro j
      rw [if_pos le_rfl]
      split_ifs
      · exact le_rfl
      · exact zero_le_one
    have h0 : 0 ≤ g.boxcountCol (fun _ => 1) z := by
      have := colQuad_nonneg hg "boxcount" (y := fun _ => 1) (z := z) fun _ => zero_le_one
      unfold colQuad at this
      simpa using this
    refine ⟨h0, hle, ?_, ?_, boxcount_one_all hg, ?_⟩
    · rintro ⟨j, hj⟩
      unfold boxcountCol
      apply div_pos _ hd
      apply div_pos _ hr
      apply Finset.sum_pos'
      · intro k _
        split_ifs
        · rw [mul_one]; exact (gridpointArea_pos hg k.2).le
        · exact le_rfl
      · exact ⟨j, Finset.mem_univ j, by rw [if_pos hj.le, mul_one]; exact gridpointArea_pos hg j.2⟩
    · rintro ⟨j, hj⟩
      rw [← boxcount_one_all hg (z := fun _ => 0) fun _ => le_rfl]
      unfold boxcountCol
      apply div_lt_div_of_pos_right _ hd
      apply div_lt_div_of_pos_right _ hr
      apply Finset.sum_lt_sum
      · intro k _
        rw [if_pos le_rfl]
        split_ifs
        · exact le_rfl
        · rw [mul_one]; exact (gridpointArea_pos hg k.2).le
      · exact ⟨j, Finset.mem_univ j, by
          rw [if_neg (not_le.2 hj), if_pos le_rfl, mul_one]; exact gridpointArea_pos hg j.2⟩
    · intro hz
      unfold boxcountCol
      rw [Finset.sum_eq_zero (fun j _ => if_neg (not_le.2 (hz j)))]
      simp
  · have hc : sptrapzCol g.rsphere (g.nlat - 1) g.phi (col fun _ : Fin g.nlat => 1) (col z)
        = sptrapzCol g.rsphere (g.nlat - 1) g.phi (fun _ => 1) (col z) :=
      sptrapzCol_congr _ _ (fun j hj => col_of_lt _ (by omega)) (fun _ _ => rfl)
    have e2 : g.rsphere * (sin (g.phi 0) - sin (g.phi (g.nlat - 1))) = 2 * g.rsphere := by
      rw [phi_zero hg, phi_last hg, sin_neg, sin_pi_div_two]; ring
    obtain ⟨k1, k2, k3, k4, k5⟩ := sptrapzCol_one hr (phi_seg hg)
      (fun j hj => (phi_mem hg (show j < g.nlat by omega)).1) (fun j hj => (phi_mem hg (show j < g.nlat by omega)).2) (col z)
    rw [e2] at k2 k4 k5
    rw [hc]
    refine ⟨k1, k2, ?_, ?_, ?_, ?_⟩
    · rintro ⟨j, hj⟩
      exact k3 (by omega) ⟨j, by omega, by rw [col_fin]; exact hj⟩
    · rintro ⟨j, hj⟩
      exact k4 (by omega) ⟨j, by omega, by rw [col_fin]; exact hj⟩
    · intro hz
      exact k5 fun j hj => by rw [col_of_lt z (show j < g.nlat by omega)]; exact hz _
    · intro hz
      unfold sptrapzCol
      apply Finset.sum_eq_zero
      intro j hj
      have hj := Finset.mem_range.1 hj
      rw [if_neg]
      rw [col_of_lt z (show j < g.nlat by omega), col_of_lt z (show j + 1 < g.nlat by omega), not_or]
      exact ⟨not_le.2 (hz _), not_le.2 (hz _)⟩

/-- any non-negative domain field is the full domain -/
theorem colQuad_full (m : String) (y : Fin g.nlat → ℝ) {z : Fin g.nlat → ℝ} (hz : ∀ j, 0 ≤ z j) :
    g.colQuad m y z = g.colQuad m y fun _ => 1 := by
  unfold colQuad
  split_ifs
  · unfold boxcountCol
    simp only [hz, if_true, zero_le_one]
  · apply sptrapzCol_domain (phi_seg hg)
    intro j hj φ hφ
    rw [col_of_lt z (show j < g.nlat by omega), col_of_lt z (show j + 1 < g.nlat by omega),
      col_of_lt _ (show j < g.nlat by omega), col_of_lt _ (show j + 1 < g.nlat by omega), aff_const]
    exact ⟨fun _ => zero_le_one, fun _ => aff_nonneg (phi_seg hg j hj) (hz _) (hz _) hφ.1.le hφ.2.le⟩

theorem colQuad_complement (m : String) (y : Fin g.nlat → ℝ) {z : Fin g.nlat → ℝ} (hz : ∀ j, z j ≠ 0) :
    g.colQuad m y z + g.colQuad m y (fun j => -z j) = g.colQuad m y fun _ => 1 := by
  have hn := hg.nlat_ge
  unfold colQuad
  split_ifs
  · unfold boxcountCol
    rw [← add_div, ← add_div, ← Finset.sum_add_distrib]
    congr 2
    apply Finset.sum_congr rfl
    intro j _
    rcases lt_or_gt_of_ne (hz j) with h | h
    · rw [if_neg (by linarith), if_pos (by linarith), if_pos zero_le_one]; ring
    · rw [if_pos h.le, if_neg (by linarith), if_pos zero_le_one]; ring
  · have e1 : sptrapzCol g.rsphere (g.nlat - 1) g.phi (col y) (col fun j => -z j)
        = sptrapzCol g.rsphere (g.nlat - 1) g.phi (col y) (fun j => -col z j) :=
      sptrapzCol_congr _ _ (fun _ _ => rfl) (fun j hj => by
        rw [col_of_lt _ (show j < g.nlat by omega), col_of_lt _ (show j < g.nlat by omega)])
    rw [e1, sptrapzCol_complement g.rsphere (g.nlat - 1) g.phi (col y) (col z)
      (fun j hj => by rw [col_of_lt _ (show j < g.nlat by omega)]; exact hz _)]
    exact sptrapzCol_congr _ _ (fun _ _ => rfl) fun j hj => by rw [col_of_lt _ (show j < g.nlat by omega)]

end

end Grid
end Barotropic
