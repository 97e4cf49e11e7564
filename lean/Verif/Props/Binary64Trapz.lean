import Verif.Spec.Binary64Trapz
import Verif.Lemmas.Binary64Quot
import Verif.Lemmas.ColQuad
import Verif.Spec.Binary64Zonalize

set_option linter.unusedSectionVars false

/-!
# C138: spherical trapezoidal rule and wave activity with it in double precision
-/

namespace Barotropic
open Binary64

/-- The root of a function with values of different signs: rounded data, rounded operations. -/
theorem root_close {x0 x1 z0 z1 a w : ℝ} (hx : |a| ≤ 2) (hw : x1 - x0 = w) (hw0 : |w| ≤ 2) (hz : z1 - z0 ≠ 0)
    (hs : |z0| + |z1| = |z1 - z0|) {z : ℝ} (hzz : |z| ≤ |z1 - z0|) :
    Close 9 4 (a - z / (z1 - z0) * w) (rnd (a - rnd (rnd (rnd z / rnd (rnd z1 - rnd z0)) * rnd w))) ∧
      |a - z / (z1 - z0) * w| ≤ 4 := by
  have c0 : Close 1 |z0| z0 (rnd z0) := (Close.refl _ _).rnd le_rfl
  have c1 : Close 1 |z1| z1 (rnd z1) := (Close.refl _ _).rnd le_rfl
  have cd := c1.sub c0
  rw [add_comm, hs] at cd
  have cd := cd.rnd le_rfl
  have cz : Close 1 |z1 - z0| z (rnd z) := (Close.refl _ _).rnd hzz
  have ct := Close.quot (by norm_num) hz hzz cz cd
  have hone : |z1 - z0| / |z1 - z0| = 1 := div_self (abs_pos.2 hz).ne'
  have ht : |z / (z1 - z0)| ≤ 1 := hone ▸ abs_quot_le hzz
  rw [hone] at ct
  have cw : Close 1 2 w (rnd w) := (Close.refl _ _).rnd hw0
  have hp : |z / (z1 - z0) * w| ≤ 2 := by rw [abs_mul]; nlinarith [abs_nonneg (z / (z1 - z0)), abs_nonneg w]
  have cp := (ct.rnd ht).mul ht hw0 cw
  rw [one_mul] at cp
  have cp := cp.rnd hp
  have ca : Close 8 2 a a := (Close.refl _ _).mono (by norm_num) (by norm_num)
  have hb : |a - z / (z1 - z0) * w| ≤ 2 + 2 := (abs_sub _ _).trans (add_le_add hx hp)
  have := (ca.sub cp).rnd hb
  norm_num at this hb ⊢
  exact ⟨this, hb⟩

theorem start_close {x0 x1 : ℝ} (hx0 : |x0| ≤ 2) (hw : |x1 - x0| ≤ 2) (z0 z1 : ℝ) :
    Close 9 4 (if ¬ 0 ≤ z0 ∧ 0 ≤ z1 then x0 - z0 / (z1 - z0) * (x1 - x0) else x0) (trapzStart x0 x1 (rnd z0) (rnd z1)) ∧
      |if ¬ 0 ≤ z0 ∧ 0 ≤ z1 then x0 - z0 / (z1 - z0) * (x1 - x0) else x0| ≤ 4 := by
  unfold trapzStart
  simp only [rnd_nonneg_iff]
  split_ifs with h
  · obtain ⟨h0, h1⟩ := h
    have h0 := not_le.1 h0
    have hs : |z0| + |z1| = |z1 - z0| := by rw [abs_of_neg h0, abs_of_nonneg h1, abs_of_pos (by linarith)]; ring
    exact root_close hx0 rfl hw (by linarith) hs (by rw [← hs]; linarith [abs_nonneg z1])
  · exact ⟨(Close.refl _ _).mono (by norm_num) (by norm_num), by linarith⟩

theorem end_close {x0 x1 : ℝ} (hx1 : |x1| ≤ 2) (hw : |x1 - x0| ≤ 2) (z0 z1 : ℝ) :
    Close 9 4 (if 0 ≤ z0 ∧ ¬ 0 ≤ z1 then x1 - z1 / (z1 - z0) * (x1 - x0) else x1) (trapzEnd x0 x1 (rnd z0) (rnd z1)) ∧
      |if 0 ≤ z0 ∧ ¬ 0 ≤ z1 then x1 - z1 / (z1 - z0) * (x1 - x0) else x1| ≤ 4 := by
  unfold trapzEnd
  simp only [rnd_nonneg_iff]
  split_ifs with h
  · obtain ⟨h0, h1⟩ := h
    have h1 := not_le.1 h1
    have hs : |z0| + |z1| = |z1 - z0| := by rw [abs_of_neg h1, abs_of_nonneg h0, abs_of_neg (by linarith)]; ring
    exact root_close hx1 rfl hw (by linarith) hs (by rw [← hs]; linarith [abs_nonneg z0])
  · exact ⟨(Close.refl _ _).mono (by norm_num) (by norm_num), by linarith⟩

theorem trig_close {f f' : ℝ → ℝ} (hf : ∀ x y, |f x - f y| ≤ |x - y|) (hf1 : ∀ x, |f x| ≤ 1) (h : ∀ x, |f' x - f x| ≤ 1 / 2 ^ 53) {x x' : ℝ}
    (hx : Close 9 4 x x') : Close 9 5 (f x) (f' x') ∧ |f x| ≤ 5 := by
  refine ⟨?_, (hf1 x).trans (by norm_num)⟩
  unfold Close at *
  have h9 : (1 : ℝ) / 2 ^ 53 ≤ (1 + 1 / 2 ^ 53) ^ 9 - 1 := by norm_num
  have e : f' x' - f x = (f' x' - f x') + (f x' - f x) := by ring
  rw [e]
  refine (abs_add_le _ _).trans ?_
  have := h x'
  have := hf x' x
  linarith

theorem sin_lip (x y : ℝ) : |Real.sin x - Real.sin y| ≤ |x - y| := by
  simpa [Real.dist_eq] using Real.lipschitzWith_sin.dist_le_mul x y

theorem cos_lip (x y : ℝ) : |Real.cos x - Real.cos y| ≤ |x - y| := by
  simpa [Real.dist_eq] using Real.lipschitzWith_cos.dist_le_mul x y

/-- One interval: 29 roundings of `160·r·M/D` for an interval of length `D`. -/
theorem C138_interval {sn cs : ℝ → ℝ} (hsc : GoodTrig sn cs) {r x0 x1 y0 y1 z0 z1 M : ℝ} (hr : 0 ≤ r) (hx0 : |x0| ≤ 2) (hx1 : |x1| ≤ 2)
    (hx : x1 < x0) (hxd : x0 - x1 ≤ 2) (hy0 : |y0| ≤ M) (hy1 : |y1| ≤ M) :
    |trapzSeg sn cs r x0 x1 (rnd y0) (rnd y1) (rnd z0) (rnd z1) - r * sptrapzSeg x0 x1 y0 y1 z0 z1| ≤
      160 * r * M / (x0 - x1) * ((1 + 1 / 2 ^ 53) ^ 29 - 1) := by
  have hM : 0 ≤ M := (abs_nonneg _).trans hy0
  have hd : x1 - x0 ≠ 0 := by linarith
  have hD : |x1 - x0| = x0 - x1 := by rw [abs_of_neg (by linarith)]; ring
  have hD0 : 0 < x0 - x1 := by linarith
  obtain ⟨D, hDD⟩ : ∃ D, D = x0 - x1 := ⟨_, rfl⟩
  rw [← hDD] at hD hD0 hxd ⊢
  have hMD : 0 ≤ M / D := div_nonneg hM hD0.le
  have hMM : M ≤ 2 * (M / D) := by rw [← mul_div_assoc, le_div_iff₀ hD0]; nlinarith
  -- slope and offset
  have cy0 : Close 1 M y0 (rnd y0) := (Close.refl _ _).rnd hy0
  have cy1 : Close 1 M y1 (rnd y1) := (Close.refl _ _).rnd hy1
  have hdy : |y1 - y0| ≤ M + M := (abs_sub _ _).trans (add_le_add hy1 hy0)
  have cdy := (cy1.sub cy0).rnd hdy
  have cdx : Close 1 |x1 - x0| (x1 - x0) (rnd (x1 - x0)) := (Close.refl _ _).rnd le_rfl
  have ca := Close.quot (by norm_num) hd hdy cdy cdx
  have hA : |(y1 - y0) / (x1 - x0)| ≤ (M + M) / |x1 - x0| := abs_quot_le hdy
  rw [hD] at ca hA
  have eA : (M + M) / D = 2 * (M / D) := by ring
  rw [eA] at ca hA
  have ca := ca.rnd hA
  obtain ⟨A, hAA⟩ : ∃ A, A = (y1 - y0) / (x1 - x0) := ⟨_, rfl⟩
  obtain ⟨a, haa⟩ : ∃ a, a = rnd (rnd (rnd y1 - rnd y0) / rnd (x1 - x0)) := ⟨_, rfl⟩
  rw [← hAA] at ca hA
  rw [← haa] at ca
  generalize hm : M / D = m at *
  have cax := ca.mul hA hx0 (Close.refl 2 x0)
  have hax : |A * x0| ≤ 2 * m * 2 := by rw [abs_mul]; exact mul_le_mul hA hx0 (abs_nonneg _) (by linarith)
  have cax := cax.rnd hax
  have cb := (cy0.mono hM (show 1 ≤ 6 by norm_num)).sub cax
  have hB : |y0 - A * x0| ≤ M + 2 * m * 2 := (abs_sub _ _).trans (add_le_add hy0 hax)
  have cb := cb.rnd hB
  -- ends
  obtain ⟨cs0, hs0⟩ := start_close hx0 (hD.trans_le hxd) z0 z1
  obtain ⟨ce0, he0⟩ := end_close hx1 (hD.trans_le hxd) z0 z1
  obtain ⟨S, hS⟩ : ∃ S, S = (if ¬ 0 ≤ z0 ∧ 0 ≤ z1 then x0 - z0 / (z1 - z0) * (x1 - x0) else x0) := ⟨_, rfl⟩
  obtain ⟨E, hE⟩ : ∃ E, E = (if 0 ≤ z0 ∧ ¬ 0 ≤ z1 then x1 - z1 / (z1 - z0) * (x1 - x0) else x1) := ⟨_, rfl⟩
  rw [← hS] at cs0 hs0
  rw [← hE] at ce0 he0
  obtain ⟨ccs, hcs⟩ := trig_close cos_lip Real.abs_cos_le_one hsc.cos cs0
  obtain ⟨cce, hce⟩ := trig_close cos_lip Real.abs_cos_le_one hsc.cos ce0
  obtain ⟨css, hss⟩ := trig_close sin_lip Real.abs_sin_le_one hsc.sin cs0
  obtain ⟨cse, hse⟩ := trig_close sin_lip Real.abs_sin_le_one hsc.sin ce0
  -- the three terms
  have h1 : |Real.cos S - Real.cos E| ≤ 5 + 5 := (abs_sub _ _).trans (add_le_add hcs hce)
  have t1 := ca.mul hA h1 ((ccs.sub cce).rnd h1)
  have b1 : |A * (Real.cos S - Real.cos E)| ≤ 2 * m * (5 + 5) := by rw [abs_mul]; exact mul_le_mul hA h1 (abs_nonneg _) (by linarith)
  have t1 := t1.rnd b1
  have term : ∀ {X X' σ σ' : ℝ}, Close 9 4 X X' → |X| ≤ 4 → Close 9 5 σ σ' → |σ| ≤ 5 →
      Close 26 ((2 * m * 4 + (M + 2 * m * 2)) * 5) ((A * X + (y0 - A * x0)) * σ)
        (rnd (rnd (rnd (a * X') + rnd (rnd y0 - rnd (a * x0))) * σ')) ∧
      |(A * X + (y0 - A * x0)) * σ| ≤ (2 * m * 4 + (M + 2 * m * 2)) * 5 := by
    intro X X' σ σ' hX hX4 hσ hσ5
    have c1 := ca.mul hA hX4 hX
    have b1 : |A * X| ≤ 2 * m * 4 := by rw [abs_mul]; exact mul_le_mul hA hX4 (abs_nonneg _) (by linarith)
    have b2 : |A * X + (y0 - A * x0)| ≤ 2 * m * 4 + (M + 2 * m * 2) := (abs_add_le _ _).trans (add_le_add b1 hB)
    have c2 := ((c1.rnd b1).add (cb.mono (by linarith) (show 6 + 1 ≤ 2 + (1 + 1) + 1 + 9 + 1 by norm_num))).rnd b2
    have b3 : |(A * X + (y0 - A * x0)) * σ| ≤ (2 * m * 4 + (M + 2 * m * 2)) * 5 := by
      rw [abs_mul]; exact mul_le_mul b2 hσ5 (abs_nonneg _) (by linarith)
    have c3 := (c2.mul b2 hσ5 hσ).rnd b3
    exact ⟨c3, b3⟩
  obtain ⟨t2, b2⟩ := term cs0 hs0 css hss
  obtain ⟨t3, b3⟩ := term ce0 he0 cse hse
  have b12 := (abs_add_le _ _).trans (add_le_add b1 b2)
  have t12 := ((t1.mono (m := 26) (by linarith) (by norm_num)).add t2).rnd b12
  have b123 := (abs_sub _ _).trans (add_le_add b12 b3)
  have t123 := (t12.sub (t3.mono (m := 26 + 1) (by linarith) (by norm_num))).rnd b123
  have hr' : |r| ≤ r := (abs_of_nonneg hr).le
  have t4 := (Close.refl r r).mul hr' b123 t123
  have b4 := mul_le_mul hr' b123 (abs_nonneg _) hr
  rw [← abs_mul] at b4
  have t4 := t4.rnd b4
  have hfin := t4.up (b' := 160 * r * M / D) (m := 29) (mul_nonneg hr (by linarith)) ?_ (by norm_num)
  · unfold Close at hfin
    unfold trapzSeg sptrapzSeg
    simp only [← haa, ← hAA, ← hS, ← hE]
    exact hfin
  · rw [show 160 * r * M / D = r * (160 * (M / D)) by ring, hm]
    apply mul_le_mul_of_nonneg_left _ hr
    linarith

theorem Binary64.SumTree.eval_congr {f g : ℕ → ℝ} {t : SumTree} (h : ∀ i ∈ t.leaves, f i = g i) : t.eval f = t.eval g := by
  induction t with
  | leaf i => exact h i (by simp [SumTree.leaves])
  | node l r ihl ihr =>
    simp only [SumTree.eval]
    rw [ihl fun i hi => h i (by simp [SumTree.leaves, hi]), ihr fun i hi => h i (by simp [SumTree.leaves, hi])]

/-- A sum of terms with absolute errors -/
theorem sum_error {t : SumTree} {n : ℕ} (ht : t.Sums n) {f g : ℕ → ℝ} {b : ℕ → ℝ} {e : ℝ} (hb : ∀ j < n, |f j| ≤ b j)
    (h : ∀ j < n, |g j - f j| ≤ e) :
    |t.eval g - ∑ j ∈ Finset.range n, f j| ≤
      n * e * (1 + 1 / 2 ^ 53) ^ t.depth + (∑ j ∈ Finset.range n, b j) * ((1 + 1 / 2 ^ 53) ^ t.depth - 1) := by
  let g' : ℕ → ℝ := fun j => if j < n then g j else 0
  have e1 : t.eval g = t.eval g' := SumTree.eval_congr fun i hi => by
    have : i < n := List.mem_range.1 ((ht.mem_iff).1 hi)
    simp only [g', if_pos this]
  have c := SumTree.eval_close (k := 0) (f := g') (g := g') (b := fun j => |g' j|) (fun _ => le_rfl) (fun j => Close.refl _ _) t
  rw [SumTree.total_sums ht, SumTree.total_sums ht, zero_add] at c
  unfold Close at c
  have e2 : ∑ j ∈ Finset.range n, g' j = ∑ j ∈ Finset.range n, g j := Finset.sum_congr rfl fun j hj => by
    simp only [g', if_pos (Finset.mem_range.1 hj)]
  have e3 : ∑ j ∈ Finset.range n, |g' j| = ∑ j ∈ Finset.range n, |g j| := Finset.sum_congr rfl fun j hj => by
    simp only [g', if_pos (Finset.mem_range.1 hj)]
  rw [e2, e3, ← e1] at c
  have s1 : |∑ j ∈ Finset.range n, g j - ∑ j ∈ Finset.range n, f j| ≤ n * e := by
    rw [← Finset.sum_sub_distrib]
    refine (Finset.abs_sum_le_sum_abs _ _).trans ((Finset.sum_le_sum fun j hj => h j (Finset.mem_range.1 hj)).trans ?_)
    rw [Finset.sum_const, Finset.card_range, nsmul_eq_mul]
  have s2 : ∑ j ∈ Finset.range n, |g j| ≤ ∑ j ∈ Finset.range n, b j + n * e := by
    have : ∑ j ∈ Finset.range n, |g j| ≤ ∑ j ∈ Finset.range n, (b j + e) := Finset.sum_le_sum fun j hj => by
      have h1 := h j (Finset.mem_range.1 hj)
      have h2 := hb j (Finset.mem_range.1 hj)
      have h3 : |g j| - |f j| ≤ |g j - f j| := abs_sub_abs_le_abs_sub _ _
      linarith
    rwa [Finset.sum_add_distrib, Finset.sum_const, Finset.card_range, nsmul_eq_mul] at this
  have hf : (0 : ℝ) ≤ (1 + 1 / 2 ^ 53) ^ t.depth - 1 := sub_nonneg.2 (one_le_fac _)
  have s3 := mul_le_mul_of_nonneg_right s2 hf
  have s4 : |t.eval g - ∑ j ∈ Finset.range n, f j| ≤
      |t.eval g - ∑ j ∈ Finset.range n, g j| + |∑ j ∈ Finset.range n, g j - ∑ j ∈ Finset.range n, f j| := abs_sub_le _ _ _
  linarith

/-- The integral over one interval is at most the largest value times the length. -/
theorem seg_abs_le {x0 x1 y0 y1 M : ℝ} (hx : x1 < x0) (hy0 : |y0| ≤ M) (hy1 : |y1| ≤ M) (z0 z1 : ℝ) :
    |if 0 ≤ z0 ∨ 0 ≤ z1 then sptrapzSeg x0 x1 y0 y1 z0 z1 else 0| ≤ M * (x0 - x1) := by
  obtain ⟨-, e⟩ := seg_integral hx y0 y1 z0 z1
  rw [e, ← Real.norm_eq_abs, ← abs_of_pos (sub_pos.2 hx)]
  apply intervalIntegral.norm_integral_le_of_norm_le_const
  intro φ hφ
  rw [Set.uIoc_of_le hx.le] at hφ
  have hM : 0 ≤ M := (abs_nonneg _).trans hy0
  have ha : |aff x0 x1 y0 y1 φ| ≤ M := by
    have t1 : 0 ≤ (φ - x0) / (x1 - x0) := div_nonneg_of_nonpos (by linarith [hφ.2]) (by linarith)
    have t2 : (φ - x0) / (x1 - x0) ≤ 1 := by rw [div_le_one_of_neg (by linarith)]; linarith [hφ.1]
    unfold aff
    generalize (φ - x0) / (x1 - x0) = s at *
    rw [show y0 + (y1 - y0) * s = (1 - s) * y0 + s * y1 by ring]
    refine (abs_add_le _ _).trans ?_
    rw [abs_mul, abs_mul, abs_of_nonneg t1, abs_of_nonneg (sub_nonneg.2 t2)]
    nlinarith
  unfold segFun
  split_ifs
  · rw [Real.norm_eq_abs, abs_mul]
    calc |aff x0 x1 y0 y1 φ| * |Real.cos φ| ≤ M * 1 := mul_le_mul ha (Real.abs_cos_le_one φ) (abs_nonneg _) hM
      _ = M := mul_one M
  · simpa using hM

theorem sptrapzCol_abs_le {n : ℕ} {D : ℝ} {x : ℕ → ℝ} (hx : Meridian n D x) {r M : ℝ} (hr : 0 ≤ r) {y : ℕ → ℝ} (z : ℕ → ℝ)
    (hy : ∀ j ≤ n, |y j| ≤ M) :
    (∀ j < n, |if 0 ≤ z j ∨ 0 ≤ z (j + 1) then r * sptrapzSeg (x j) (x (j + 1)) (y j) (y (j + 1)) (z j) (z (j + 1)) else 0| ≤
      r * M * (x j - x (j + 1))) ∧ |sptrapzCol r n x y z| ≤ 4 * r * M ∧ ∑ j ∈ Finset.range n, r * M * (x j - x (j + 1)) ≤ 4 * r * M := by
  have hM : 0 ≤ M := (abs_nonneg _).trans (hy 0 (Nat.zero_le n))
  have h1 : ∀ j < n, |if 0 ≤ z j ∨ 0 ≤ z (j + 1) then r * sptrapzSeg (x j) (x (j + 1)) (y j) (y (j + 1)) (z j) (z (j + 1)) else 0| ≤
      r * M * (x j - x (j + 1)) := by
    intro j hj
    rw [← mul_ite_zero, abs_mul, abs_of_nonneg hr, mul_assoc]
    exact mul_le_mul_of_nonneg_left
      (seg_abs_le (by linarith [hx.step j hj, hx.pos]) (hy j hj.le) (hy (j + 1) hj) (z j) (z (j + 1))) hr
  have h2 : ∑ j ∈ Finset.range n, r * M * (x j - x (j + 1)) ≤ 4 * r * M := by
    rw [← Finset.mul_sum, Finset.sum_range_sub']
    have a := (abs_le.1 (hx.bound 0 (Nat.zero_le n))).2
    have b := (abs_le.1 (hx.bound n le_rfl)).1
    nlinarith [mul_nonneg hr hM]
  refine ⟨h1, ?_, h2⟩
  unfold sptrapzCol
  exact (Finset.abs_sum_le_sum_abs _ _).trans ((Finset.sum_le_sum fun j hj => h1 j (Finset.mem_range.1 hj)).trans h2)

/-- A column of the quadrature -/
theorem C138_column {sn cs : ℝ → ℝ} (hsc : GoodTrig sn cs) {t : SumTree} {n : ℕ} (ht : t.Sums n) {D : ℝ} {x : ℕ → ℝ}
    (hx : Meridian n D x) {r M : ℝ} (hr : 0 ≤ r) {y : ℕ → ℝ} (z : ℕ → ℝ) (hy : ∀ j ≤ n, |y j| ≤ M) :
    |trapzColumn t sn cs r x (fun j => rnd (y j)) (fun j => rnd (z j)) - sptrapzCol r n x y z| ≤ trapzError t n r M D := by
  have hM : 0 ≤ M := (abs_nonneg _).trans (hy 0 (Nat.zero_le n))
  obtain ⟨h1, -, h2⟩ := sptrapzCol_abs_le hx hr z hy
  have key := sum_error ht h1 (e := 160 * r * M / D * ((1 + 1 / 2 ^ 53) ^ 29 - 1))
    (g := fun j => if 0 ≤ rnd (z j) ∨ 0 ≤ rnd (z (j + 1)) then
      trapzSeg sn cs r (x j) (x (j + 1)) (rnd (y j)) (rnd (y (j + 1))) (rnd (z j)) (rnd (z (j + 1))) else 0) ?_
  · refine key.trans ?_
    unfold trapzError
    have := mul_le_mul_of_nonneg_right h2 (sub_nonneg.2 (one_le_fac (K := ℝ) t.depth))
    linarith
  · intro j hj
    have hf : (0 : ℝ) ≤ (1 + 1 / 2 ^ 53) ^ 29 - 1 := sub_nonneg.2 (one_le_fac _)
    have hp := hx.pos
    simp only [rnd_nonneg_iff]
    split_ifs
    · refine (C138_interval hsc hr (hx.bound j hj.le) (hx.bound (j + 1) hj) (by linarith [hx.step j hj]) (hx.short j hj) (hy j hj.le)
        (hy (j + 1) hj)).trans (mul_le_mul_of_nonneg_right ?_ hf)
      exact div_le_div_of_nonneg_left (mul_nonneg (mul_nonneg (by norm_num) hr) hM) hp (hx.step j hj)
    · rw [sub_zero, abs_zero]
      exact mul_nonneg (div_nonneg (mul_nonneg (mul_nonneg (by norm_num) hr) hM) hp.le) hf

theorem diff_error {Q Y Q' Y' B c b : ℝ} (hc : 0 < c) (hQ : |Q| ≤ b) (hY : |Y| ≤ b) (h1 : |Q' - Q| ≤ B) (h2 : |Y' - Y| ≤ B) :
    |rnd (rnd (Q' - Y') / c) - (Q - Y) / c| ≤ (2 * B * (1 + 1 / 2 ^ 53) ^ 2 + 2 * b * ((1 + 1 / 2 ^ 53) ^ 2 - 1)) / c := by
  have hB : 0 ≤ B := (abs_nonneg _).trans h1
  have h3 : |(Q' - Y') - (Q - Y)| ≤ 2 * B := by
    rw [show (Q' - Y') - (Q - Y) = (Q' - Q) - (Y' - Y) by ring]
    exact (abs_sub _ _).trans (by linarith)
  have h4 : |Q' - Y'| ≤ 2 * B + 2 * b := by
    have : |Q - Y| ≤ 2 * b := (abs_sub _ _).trans (by linarith)
    rw [show Q' - Y' = ((Q' - Y') - (Q - Y)) + (Q - Y) by ring]
    exact (abs_add_le _ _).trans (by linarith)
  have k1 : Close 1 (2 * B + 2 * b) (Q' - Y') (rnd (Q' - Y')) := (Close.refl _ _).rnd h4
  have h5 : |(Q' - Y') / c| ≤ (2 * B + 2 * b) / c := by
    rw [abs_div, abs_of_pos hc]; exact div_le_div_of_nonneg_right h4 hc.le
  have k2 := (k1.div hc).rnd h5
  unfold Close at k2
  have h6 : |(Q' - Y') / c - (Q - Y) / c| ≤ 2 * B / c := by
    rw [← sub_div, abs_div, abs_of_pos hc]; exact div_le_div_of_nonneg_right h3 hc.le
  have h7 := abs_sub_le (rnd (rnd (Q' - Y') / c)) ((Q' - Y') / c) ((Q - Y) / c)
  have e : (2 * B + 2 * b) / c * ((1 + 1 / 2 ^ 53) ^ (1 + 1) - 1) + 2 * B / c =
      (2 * B * (1 + 1 / 2 ^ 53) ^ 2 + 2 * b * ((1 + 1 / 2 ^ 53) ^ 2 - 1)) / c := by ring
  linarith

/-- Wave activity with the default quadrature -/
theorem C138_falwa {sn cs : ℝ → ℝ} (hsc : GoodTrig sn cs) {t : SumTree} {n : ℕ} (ht : t.Sums n) {D : ℝ} {x : ℕ → ℝ}
    (hx : Meridian n D x) {r M : ℝ} (hr : 0 ≤ r) (lat : ℕ → ℝ) {pv : ℕ → ℝ} {q : ℝ} (y : ℝ) {c : ℝ} (hc : 0 < c)
    (hM : ∀ j ≤ n, |pv j - q| ≤ M) :
    |falwaTrapz t sn cs r x lat pv q y c - waveActivityTrapz n r x lat pv q y c| ≤ falwaTrapzError t n r M D c :=
  diff_error hc (sptrapzCol_abs_le hx hr _ hM).2.1 (sptrapzCol_abs_le hx hr _ hM).2.1 (C138_column hsc ht hx hr _ hM)
    (C138_column hsc ht hx hr _ hM)

/-- Wave activity is not negative except for rounding errors. -/
theorem C138_falwa_nonneg {sn cs : ℝ → ℝ} (hsc : GoodTrig sn cs) {t : SumTree} {n : ℕ} (ht : t.Sums n) {D : ℝ} {x : ℕ → ℝ}
    (hx : Meridian n D x) (hpi : ∀ j ≤ n, |x j| ≤ Real.pi / 2) {r M : ℝ} (hr : 0 ≤ r) (lat : ℕ → ℝ) {pv : ℕ → ℝ} {q : ℝ} (y : ℝ)
    {c : ℝ} (hc : 0 < c) (hM : ∀ j ≤ n, |pv j - q| ≤ M) :
    0 ≤ waveActivityTrapz n r x lat pv q y c ∧ -falwaTrapzError t n r M D c ≤ falwaTrapz t sn cs r x lat pv q y c := by
  have hA : 0 ≤ waveActivityTrapz n r x lat pv q y c := by
    unfold waveActivityTrapz
    apply div_nonneg _ hc.le
    rw [sub_nonneg]
    apply sptrapzCol_mono hr fun j hj => by linarith [hx.step j hj, hx.pos]
    intro j hj φ hφ
    have : 0 ≤ Real.cos φ := Real.cos_nonneg_of_mem_Icc
      ⟨(abs_le.1 (hpi (j + 1) hj)).1.trans hφ.1, hφ.2.trans (abs_le.1 (hpi j hj.le)).2⟩
    unfold segFun
    split_ifs with h1 h2
    · exact le_rfl
    · exact mul_nonpos_of_nonpos_of_nonneg (not_le.1 h2).le this
    · apply mul_nonneg _ this
      assumption
    · exact le_rfl
  have := abs_le.1 (C138_falwa hsc ht hx hr lat y hc hM)
  exact ⟨hA, by linarith [this.1]⟩

/-- Areas (integrals of one) are computed without a slope: the error does not grow as the grid is refined. -/
theorem C138_area {sn cs : ℝ → ℝ} (hsc : GoodTrig sn cs) {r x0 x1 : ℝ} (z0 z1 : ℝ) (hr : 0 ≤ r) (hx0 : |x0| ≤ 2) (hx1 : |x1| ≤ 2)
    (hx : x1 < x0) (hxd : x0 - x1 ≤ 2) :
    trapzSeg sn cs r x0 x1 1 1 (rnd z0) (rnd z1) =
        rnd (r * rnd (rnd (sn (trapzStart x0 x1 (rnd z0) (rnd z1))) - rnd (sn (trapzEnd x0 x1 (rnd z0) (rnd z1))))) ∧
      |trapzSeg sn cs r x0 x1 1 1 (rnd z0) (rnd z1) - r * sptrapzSeg x0 x1 1 1 z0 z1| ≤ 10 * r * ((1 + 1 / 2 ^ 53) ^ 12 - 1) := by
  have r1 : rnd (1 : ℝ) = 1 := rnd_double ⟨1, 0, by norm_num, by norm_num⟩
  have rr : ∀ v : ℝ, rnd (rnd v) = rnd v := fun v => rnd_double (rnd_isDouble v)
  have e : trapzSeg sn cs r x0 x1 1 1 (rnd z0) (rnd z1) =
      rnd (r * rnd (rnd (sn (trapzStart x0 x1 (rnd z0) (rnd z1))) - rnd (sn (trapzEnd x0 x1 (rnd z0) (rnd z1))))) := by
    simp [trapzSeg, rnd_zero, r1, rr]
  have hD : |x1 - x0| ≤ 2 := by rw [abs_of_neg (by linarith)]; linarith
  obtain ⟨cs0, -⟩ := start_close hx0 hD z0 z1
  obtain ⟨ce0, -⟩ := end_close hx1 hD z0 z1
  obtain ⟨css, hss⟩ := trig_close sin_lip Real.abs_sin_le_one hsc.sin cs0
  obtain ⟨cse, hse⟩ := trig_close sin_lip Real.abs_sin_le_one hsc.sin ce0
  have b1 := (abs_sub _ _).trans (add_le_add hss hse)
  have t1 := ((css.rnd hss).sub (cse.rnd hse)).rnd b1
  have hr' : |r| ≤ r := (abs_of_nonneg hr).le
  have b2 := mul_le_mul hr' b1 (abs_nonneg _) hr
  rw [← abs_mul] at b2
  have t2 := ((Close.refl r r).mul hr' b1 t1).rnd b2
  refine ⟨e, ?_⟩
  rw [e]
  unfold Close at t2
  have e2 : sptrapzSeg x0 x1 1 1 z0 z1 = Real.sin (if ¬ 0 ≤ z0 ∧ 0 ≤ z1 then x0 - z0 / (z1 - z0) * (x1 - x0) else x0) -
      Real.sin (if 0 ≤ z0 ∧ ¬ 0 ≤ z1 then x1 - z1 / (z1 - z0) * (x1 - x0) else x1) := by
    simp [sptrapzSeg]
  rw [e2, show 10 * r = r * (5 + 5) by ring]
  exact t2

theorem quad_error {s : SumTree} {w : ℕ} (hs : s.Sums w) {r dlam b B : ℝ} (hr : 0 ≤ r) (hl : 0 ≤ dlam) {f g : ℕ → ℝ}
    (hb : ∀ i < w, |f i| ≤ b) (h : ∀ i < w, |g i - f i| ≤ B) :
    |rnd (rnd (r * dlam) * s.eval g) - r * dlam * ∑ i ∈ Finset.range w, f i| ≤ quadError s w r dlam b B := by
  have h1 := sum_error hs hb h
  rw [Finset.sum_const, Finset.card_range, nsmul_eq_mul] at h1
  have hf : |∑ i ∈ Finset.range w, f i| ≤ w * b := by
    refine (Finset.abs_sum_le_sum_abs _ _).trans ((Finset.sum_le_sum fun j hj => hb j (Finset.mem_range.1 hj)).trans ?_)
    rw [Finset.sum_const, Finset.card_range, nsmul_eq_mul]
  unfold quadError
  generalize (1 + 1 / 2 ^ 53 : ℝ) ^ s.depth = F at *
  generalize ∑ i ∈ Finset.range w, f i = S at *
  generalize s.eval g = S' at *
  have hC : 0 ≤ r * dlam := mul_nonneg hr hl
  have hS' : |S'| ≤ w * b + w * (B * F + b * (F - 1)) := by
    have := abs_sub_abs_le_abs_sub S' S
    linarith
  have c1 : Close 1 (r * dlam) (r * dlam) (rnd (r * dlam)) := (Close.refl _ _).rnd (abs_of_nonneg hC).le
  have c2 := (c1.mul (abs_of_nonneg hC).le hS' (Close.refl _ S')).rnd
    (by rw [abs_mul, abs_of_nonneg hC]; exact mul_le_mul_of_nonneg_left hS' hC)
  unfold Close at c2
  have h2 : |r * dlam * S' - r * dlam * S| ≤ r * dlam * (w * (B * F + b * (F - 1))) := by
    rw [← mul_sub, abs_mul, abs_of_nonneg hC]
    exact mul_le_mul_of_nonneg_left (by linarith) hC
  refine (abs_sub_le _ (r * dlam * S') _).trans ((add_le_add c2 h2).trans (le_of_eq ?_))
  ring

/-- Integrals over the sphere -/
theorem C138_quad {sn cs : ℝ → ℝ} (hsc : GoodTrig sn cs) {t s : SumTree} {n w : ℕ} (ht : t.Sums n) (hs : s.Sums w) {D : ℝ} {x : ℕ → ℝ}
    (hx : Meridian n D x) {r dlam M : ℝ} (hr : 0 ≤ r) (hl : 0 ≤ dlam) {y : ℕ → ℕ → ℝ} (z : ℕ → ℕ → ℝ)
    (hy : ∀ j ≤ n, ∀ i < w, |y j i| ≤ M) :
    |trapzQuad t s sn cs r dlam x (fun j i => rnd (y j i)) (fun j i => rnd (z j i)) -
        r * dlam * ∑ i ∈ Finset.range w, sptrapzCol r n x (fun j => y j i) (fun j => z j i)| ≤
      quadError s w r dlam (4 * r * M) (trapzError t n r M D) :=
  quad_error hs hr hl (fun _ hi => (sptrapzCol_abs_le hx hr _ fun j hj => hy j hj _ hi).2.1)
    fun i hi => C138_column hsc ht hx hr (fun j => z j i) fun j hj => hy j hj i hi

/-- Areas: the error of every interval is independent of the grid spacing. -/
theorem C138_quad_area {sn cs : ℝ → ℝ} (hsc : GoodTrig sn cs) {t s : SumTree} {n w : ℕ} (ht : t.Sums n) (hs : s.Sums w) {D : ℝ}
    {x : ℕ → ℝ} (hx : Meridian n D x) {r dlam : ℝ} (hr : 0 ≤ r) (hl : 0 ≤ dlam) (z : ℕ → ℕ → ℝ) :
    |trapzQuad t s sn cs r dlam x (fun _ _ => 1) (fun j i => rnd (z j i)) -
        r * dlam * ∑ i ∈ Finset.range w, sptrapzCol r n x (fun _ => 1) (fun j => z j i)| ≤
      quadError s w r dlam (4 * r) (n * (10 * r * ((1 + 1 / 2 ^ 53) ^ 12 - 1)) * (1 + 1 / 2 ^ 53) ^ t.depth +
        4 * r * ((1 + 1 / 2 ^ 53) ^ t.depth - 1)) := by
  have hy : ∀ j ≤ n, |(fun _ : ℕ => (1 : ℝ)) j| ≤ 1 := fun _ _ => by simp
  have hf : (0 : ℝ) ≤ (1 + 1 / 2 ^ 53) ^ 12 - 1 := sub_nonneg.2 (one_le_fac _)
  have hp := hx.pos
  refine quad_error hs hr hl (fun i _ => by simpa using (sptrapzCol_abs_le hx hr (fun j => z j i) hy).2.1) fun i _ => ?_
  obtain ⟨h1, -, h2⟩ := sptrapzCol_abs_le hx hr (fun j => z j i) hy
  have key := sum_error ht h1 (e := 10 * r * ((1 + 1 / 2 ^ 53) ^ 12 - 1))
    (g := fun j => if 0 ≤ rnd (z j i) ∨ 0 ≤ rnd (z (j + 1) i) then
      trapzSeg sn cs r (x j) (x (j + 1)) 1 1 (rnd (z j i)) (rnd (z (j + 1) i)) else 0) ?_
  · refine key.trans ?_
    have := mul_le_mul_of_nonneg_right h2 (sub_nonneg.2 (one_le_fac (K := ℝ) t.depth))
    linarith
  · intro j hj
    simp only [rnd_nonneg_iff]
    split_ifs
    · exact (C138_area hsc _ _ hr (hx.bound j hj.le) (hx.bound (j + 1) hj) (by linarith [hx.step j hj]) (hx.short j hj)).2
    · rw [sub_zero, abs_zero]
      exact mul_nonneg (by linarith) hf

/-- The sine of the equivalent latitude of an area with an error of at most `E` -/
theorem C138_sine {p r A A' E : ℝ} (hp : 0 < p) (hr : 0 < r) (h : |A' - A| ≤ E) {nlon w : ℕ} {c : ℝ}
    (hc : c = (nlon / w) / (2 * p * r ^ 2)) :
    |sineOf p r (rnd (A' * rnd ((nlon : ℝ) / (w : ℝ)))) - max (-1) (min 1 (1 - c * A))| ≤
      c * E + (1 + c * (|A| + E)) * ((1 + 1 / 2 ^ 53) ^ 8 - 1) := by
  have hn : (0 : ℝ) ≤ nlon / w := div_nonneg (Nat.cast_nonneg _) (Nat.cast_nonneg _)
  have hr2 : (0 : ℝ) < r ^ 2 := by positivity
  have hc0 : 0 ≤ c := by rw [hc]; positivity
  have clip_eq : ∀ s : ℝ, (if (if 1 ≤ s then 1 else s) ≤ -1 then -1 else if 1 ≤ s then 1 else s) = max (-1) (min 1 s) := fun s => by
    by_cases h1 : 1 ≤ s
    · rw [if_pos h1, if_neg (by linarith), min_eq_left h1, max_eq_right (by linarith)]
    · rw [if_neg h1, min_eq_right (not_le.1 h1).le]
      split_ifs with h2
      · rw [max_eq_left h2]
      · rw [max_eq_right (not_le.1 h2).le]
  have bA : |A'| ≤ |A| + E := by have := abs_sub_abs_le_abs_sub A' A; linarith
  have c1 : Close 1 ((nlon : ℝ) / w) (nlon / w) (rnd (nlon / w)) := (Close.refl _ _).rnd (abs_of_nonneg hn).le
  have b2 : |A' * ((nlon : ℝ) / w)| ≤ (|A| + E) * (nlon / w) := by
    rw [abs_mul, abs_of_nonneg hn]; exact mul_le_mul_of_nonneg_right bA hn
  have c2 := ((Close.refl (|A| + E) A').mul bA (abs_of_nonneg hn).le c1).rnd b2
  have h2 : |(1 / 2 : ℝ)| ≤ 1 / 2 := by rw [abs_of_pos (by norm_num)]
  have b3 : |1 / 2 * (A' * ((nlon : ℝ) / w))| ≤ 1 / 2 * ((|A| + E) * (nlon / w)) := by
    rw [abs_mul]; exact mul_le_mul h2 b2 (abs_nonneg _) (by norm_num)
  have c3 := ((Close.refl (1 / 2 : ℝ) (1 / 2)).mul h2 b2 c2).rnd b3
  have b4 : |1 / 2 * (A' * ((nlon : ℝ) / w)) / p| ≤ 1 / 2 * ((|A| + E) * (nlon / w)) / p := by
    rw [abs_div, abs_of_pos hp]; exact div_le_div_of_nonneg_right b3 hp.le
  have c4 := (c3.div hp).rnd b4
  have cr : Close 1 |r ^ 2| (r ^ 2) (rnd (r ^ 2)) := (Close.refl _ _).rnd le_rfl
  have b5 := abs_quot_le (d := r ^ 2) b4
  have c5 := (Close.quot (by norm_num) hr2.ne' b4 c4 cr).rnd b5
  have e5 : 1 / 2 * ((|A| + E) * ((nlon : ℝ) / w)) / p / |r ^ 2| = c * (|A| + E) := by
    rw [abs_of_pos hr2, hc]; field_simp
  have e5' : 1 / 2 * (A' * ((nlon : ℝ) / w)) / p / r ^ 2 = c * A' := by rw [hc]; field_simp
  rw [e5, e5'] at c5 b5
  have b6 : |1 - c * A'| ≤ 1 + c * (|A| + E) := (abs_sub _ _).trans (by rw [abs_one]; linarith)
  have c6 := (((Close.refl (1 : ℝ) 1).mono (m := 7) (by norm_num) (by norm_num)).sub c5).rnd b6
  unfold Close at c6
  have h7 : |(1 - c * A') - (1 - c * A)| ≤ c * E := by
    rw [show (1 - c * A') - (1 - c * A) = -(c * (A' - A)) by ring, abs_neg, abs_mul, abs_of_nonneg hc0]
    exact mul_le_mul_of_nonneg_left h hc0
  have lip : ∀ a b : ℝ, |max (-1) (min 1 a) - max (-1) (min 1 b)| ≤ |a - b| := fun a b =>
    (abs_max_sub_max_le_max _ _ _ _).trans (max_le (by simp) ((abs_min_sub_min_le_max _ _ _ _).trans (max_le (by simp) le_rfl)))
  unfold sineOf
  simp only [clip_eq]
  refine (lip _ _).trans ?_
  have := abs_sub_le (rnd (1 - rnd (rnd (rnd (1 / 2 * rnd (A' * rnd ((nlon : ℝ) / w))) / p) / rnd (r ^ 2)))) (1 - c * A') (1 - c * A)
  linarith

/-! ### Non-vacuity -/

/-- A library that is correct up to rounding exists, and a meridian of three points. -/
example : GoodTrig (fun x => rnd (Real.sin x)) (fun x => rnd (Real.cos x)) ∧ Meridian 2 1 (fun j => 1 - (j : ℝ)) := by
  have h : ∀ v : ℝ, |v| ≤ 1 → |rnd v - v| ≤ 1 / 2 ^ 53 := fun v hv => by
    rw [abs_sub_comm]
    exact (rnd_rel v).trans (div_le_div_of_nonneg_right hv (by norm_num))
  refine ⟨⟨fun x => h _ (Real.abs_sin_le_one x), fun x => h _ (Real.abs_cos_le_one x)⟩, by norm_num, ?_, ?_, ?_⟩
  · intro j hj
    have : (j : ℝ) ≤ 2 := by exact_mod_cast hj
    rw [abs_le]; constructor <;> linarith [(Nat.cast_nonneg j : (0 : ℝ) ≤ j)]
  · intro j _; push_cast; linarith
  · intro j _; push_cast; linarith

/-- On a grid of 1° and for a planet of radius 1, the error of an integral is below 10⁻⁸ of the largest value. -/
example (M : ℝ) (hM : 0 ≤ M) (t : SumTree) (ht : t.depth ≤ 180) : trapzError t 180 1 M (1 / 58) ≤ M / 10 ^ 8 := by
  have h : ((1 : ℝ) + 1 / 2 ^ 53) ^ t.depth ≤ 1 + 1 / 10 ^ 13 :=
    (pow_le_pow_right₀ (by norm_num) ht).trans (by norm_num)
  have h29 : ((1 : ℝ) + 1 / 2 ^ 53) ^ 29 - 1 ≤ 4 / 10 ^ 15 := by norm_num
  have h29' : (0 : ℝ) ≤ (1 + 1 / 2 ^ 53) ^ 29 - 1 := by norm_num
  unfold trapzError
  generalize ((1 : ℝ) + 1 / 2 ^ 53) ^ t.depth = a at *
  generalize ((1 : ℝ) + 1 / 2 ^ 53) ^ 29 - 1 = b at *
  have e1 : ((180 : ℕ) : ℝ) * (160 * 1 * M / (1 / 58) * b) * a = 1670400 * (M * b) * a := by push_cast; ring
  rw [e1]
  have p1 : M * b ≤ M * (4 / 10 ^ 15) := mul_le_mul_of_nonneg_left h29 hM
  have p0 : 0 ≤ M * b := mul_nonneg hM h29'
  have p2 : 1670400 * (M * b) * a ≤ 1670400 * (M * b) * (1 + 1 / 10 ^ 13) := mul_le_mul_of_nonneg_left h (by linarith)
  have p3 : 4 * 1 * M * (a - 1) ≤ 4 * 1 * M * (1 / 10 ^ 13) := mul_le_mul_of_nonneg_left (by linarith) (by linarith)
  linarith

end Barotropic
