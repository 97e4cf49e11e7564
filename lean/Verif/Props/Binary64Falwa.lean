import Verif.Spec.Binary64Falwa
import Verif.Lemmas.Binary64Sum
import Verif.Props.Binary64Zonalize

set_option linter.unusedSectionVars false

/-!
# C135: wave activity with boxcounting in double precision
-/

namespace Barotropic
open Binary64

variable {K : Type*} [Field K] [LinearOrder K] [IsStrictOrderedRing K] [FloorRing K]

/-- FALWA from boxcounting is never negative, exactly, despite the cancellation of two rounded integrals. -/
theorem C135_falwa_nonneg (t : SumTree) {r dlam c : K} (hr : 0 < r) (hd : 0 < dlam) (hc : 0 < c) {a : ℕ → K} (ha : ∀ j, 0 ≤ a j)
    (lat pv : ℕ → K) (q y : K) : 0 ≤ falwaAt t r dlam a lat pv q y c := by
  refine rnd_nonneg (div_nonneg (rnd_nonneg (sub_nonneg.2 ?_)) hc.le)
  refine rnd_mono (div_le_div_of_nonneg_right (rnd_mono (div_le_div_of_nonneg_right (SumTree.eval_mono (fun j => ?_) t) hr.le)) hd.le)
  split_ifs with h1 h2 h2
  · exact le_rfl
  · exact rnd_mono (mul_nonpos_of_nonneg_of_nonpos (ha j) (not_le.1 h2).le) |>.trans (by rw [rnd_zero])
  · exact rnd_nonneg (mul_nonneg (ha j) h2)
  · exact le_rfl

/-- So is FAWA. -/
theorem C135_fawa_nonneg (t s : SumTree) {r dlam c : K} (hr : 0 < r) (hd : 0 < dlam) (hc : 0 < c) {a : ℕ → K} (ha : ∀ j, 0 ≤ a j)
    (lat : ℕ → K) (pv : ℕ → ℕ → K) (w : ℕ) (q y : K) : 0 ≤ fawaAt t s r dlam a lat pv w q y c :=
  rnd_nonneg (div_nonneg (SumTree.eval_nonneg (fun _ => C135_falwa_nonneg t hr hd hc ha lat _ q y) s) (Nat.cast_nonneg _))

theorem boxMeridional_close {h : ℕ} {t : SumTree} (ht : t.Sums h) {r dlam : K} (hr : 0 < r) (hd : 0 < dlam) {a : ℕ → K} (ha : ∀ j, 0 ≤ a j)
    (pv z : ℕ → K) (q : K) : Close (t.depth + 4) ((∑ j ∈ Finset.range h, if 0 ≤ z j then a j * |pv j - q| else 0) / r / dlam)
      ((∑ j ∈ Finset.range h, if 0 ≤ z j then a j * (pv j - q) else 0) / r / dlam)
      (boxMeridional t r dlam a (fun j => rnd (pv j - q)) z) ∧
    |(∑ j ∈ Finset.range h, if 0 ≤ z j then a j * (pv j - q) else 0) / r / dlam| ≤
      (∑ j ∈ Finset.range h, if 0 ≤ z j then a j * |pv j - q| else 0) / r / dlam := by
  have hb : ∀ j, |if 0 ≤ z j then a j * (pv j - q) else 0| ≤ if 0 ≤ z j then a j * |pv j - q| else 0 := by
    intro j
    split_ifs
    · rw [abs_mul, abs_of_nonneg (ha j)]
    · simp
  have hterm : ∀ j, Close 2 (if 0 ≤ z j then a j * |pv j - q| else 0) (if 0 ≤ z j then a j * (pv j - q) else 0)
      (if 0 ≤ z j then rnd (a j * rnd (pv j - q)) else 0) := by
    intro j
    split_ifs
    · have h1 : |a j| ≤ a j := (abs_of_nonneg (ha j)).le
      have := (Close.refl (a j) (a j)).mul h1 (le_refl |pv j - q|) ((Close.refl |pv j - q| (pv j - q)).rnd le_rfl)
      exact (this.rnd (by rw [abs_mul, abs_of_nonneg (ha j)])).mono (mul_nonneg (ha j) (abs_nonneg _)) (by omega)
    · simp [Close]
  have hs := SumTree.eval_close hb hterm t
  have hab := SumTree.abs_total hb t
  rw [SumTree.total_sums ht, SumTree.total_sums ht] at hs hab
  have d1 : ∀ {x b c : K}, 0 < c → |x| ≤ b → |x / c| ≤ b / c := fun hc hx => by
    rw [abs_div, abs_of_pos hc]; exact div_le_div_of_nonneg_right hx hc.le
  have a1 := d1 hr hab
  have a2 := d1 hd a1
  refine ⟨?_, a2⟩
  have := (((hs.div hr).rnd a1).div hd).rnd a2
  exact this.mono ((abs_nonneg _).trans a2) (by omega)

/-- FALWA is accurate relative to the sizes of the integrated values. -/
theorem C135_falwa {h : ℕ} {t : SumTree} (ht : t.Sums h) {r dlam c : K} (hr : 0 < r) (hd : 0 < dlam) (hc : 0 < c) {a : ℕ → K}
    (ha : ∀ j, 0 ≤ a j) (lat pv : ℕ → K) (q y : K) :
    |falwaAt t r dlam a lat pv q y c - waveActivity h r dlam a lat pv q y c| ≤
      waveActivitySize h r dlam a lat pv q y c * ((1 + 1 / 2 ^ 53) ^ (t.depth + 6) - 1) := by
  obtain ⟨c1, b1⟩ := boxMeridional_close ht hr hd ha pv (fun j => rnd (pv j - q)) q
  obtain ⟨c2, b2⟩ := boxMeridional_close ht hr hd ha pv (fun j => rnd (lat j - y)) q
  simp only [C134_domain] at c1 b1 c2 b2
  have hsub := (c1.sub c2).rnd ((abs_sub _ _).trans (add_le_add b1 b2))
  have hb := (abs_sub _ _).trans (add_le_add b1 b2)
  have hfin := (hsub.div hc).rnd (by rw [abs_div, abs_of_pos hc]; exact div_le_div_of_nonneg_right hb hc.le)
  have e1 : waveActivity h r dlam a lat pv q y c = ((∑ j ∈ Finset.range h, if q ≤ pv j then a j * (pv j - q) else 0) / r / dlam -
      (∑ j ∈ Finset.range h, if y ≤ lat j then a j * (pv j - q) else 0) / r / dlam) / c := by
    unfold waveActivity
    rw [Finset.sum_sub_distrib, sub_div, sub_div]
  have e2 : waveActivitySize h r dlam a lat pv q y c = ((∑ j ∈ Finset.range h, if q ≤ pv j then a j * |pv j - q| else 0) / r / dlam +
      (∑ j ∈ Finset.range h, if y ≤ lat j then a j * |pv j - q| else 0) / r / dlam) / c := by
    unfold waveActivitySize
    rw [Finset.sum_add_distrib, add_div, add_div]
  rw [e1, e2]
  exact hfin

theorem line_mem {x0 x1 x y0 y1 B : K} (h0 : x0 ≤ x) (h1 : x ≤ x1) (h : x0 < x1) (b0 : 0 ≤ y0 ∧ y0 ≤ B) (b1 : 0 ≤ y1 ∧ y1 ≤ B) :
    0 ≤ line x0 x1 x y0 y1 ∧ line x0 x1 x y0 y1 ≤ B := by
  have hx : 0 < x1 - x0 := by linarith
  have w0 : 0 ≤ (x - x0) / (x1 - x0) := div_nonneg (by linarith) hx.le
  have w1 : (x - x0) / (x1 - x0) ≤ 1 := (div_le_one hx).2 (by linarith)
  unfold line
  set w := (x - x0) / (x1 - x0)
  constructor
  · nlinarith [mul_nonneg w0 b1.1, mul_nonneg (sub_nonneg.2 w1) b0.1]
  · nlinarith [mul_nonneg w0 (sub_nonneg.2 b1.2), mul_nonneg (sub_nonneg.2 w1) (sub_nonneg.2 b0.2)]

theorem lerp_bounds {x0 x1 x y0 y1 B : K} (h0 : x0 ≤ x) (h1 : x ≤ x1) (h : x0 < x1) (b0 : 0 ≤ y0 ∧ y0 ≤ B) (b1 : 0 ≤ y1 ∧ y1 ≤ B) :
    -(2 * B / 2 ^ 50) ≤ Binary64.lerp x0 x1 x y0 y1 ∧ Binary64.lerp x0 x1 x y0 y1 ≤ B + 2 * B / 2 ^ 50 := by
  have hl := line_mem h0 h1 h b0 b1
  have hc := abs_le.1 (lerp_close (y0 := y0) (y1 := y1) h0 h1 h)
  have : (|y0| + |y1 - y0|) / 2 ^ 50 ≤ 2 * B / 2 ^ 50 := by
    refine div_le_div_of_nonneg_right ?_ (by positivity)
    rw [abs_of_nonneg b0.1]
    have : |y1 - y0| ≤ B := abs_le.2 ⟨by linarith [b0.2, b1.1], by linarith [b0.1, b1.2]⟩
    linarith [b0.2]
  exact ⟨by linarith, by linarith⟩

theorem callLinear_bounds {B x : K} : ∀ {l : List (K × K)} {a b : K × K}, (a :: b :: l).Pairwise (fun p q => p.1 ≤ q.1) →
    a.1 ≤ x → (a.1 < x ∨ a.1 < b.1) → (∃ p ∈ a :: b :: l, x ≤ p.1) → (∀ p ∈ a :: b :: l, 0 ≤ p.2 ∧ p.2 ≤ B) →
    -(2 * B / 2 ^ 50) ≤ Binary64.callLinear a b l x ∧ Binary64.callLinear a b l x ≤ B + 2 * B / 2 ^ 50 := by
  intro l
  induction l with
  | nil =>
    intro a b hs hax hab hex hB
    obtain ⟨p, hp, hpx⟩ := hex
    have hxb : x ≤ b.1 := by
      simp only [List.mem_cons, List.not_mem_nil, or_false] at hp
      rcases hp with rfl | rfl
      · exact hpx.trans ((List.pairwise_cons.1 hs).1 b (by simp))
      · exact hpx
    exact lerp_bounds hax hxb (hab.elim (fun h => h.trans_le hxb) id) (hB a (by simp)) (hB b (by simp))
  | cons c l ih =>
    intro a b hs hax hab hex hB
    unfold Binary64.callLinear
    have hs' := List.pairwise_cons.1 hs
    split_ifs with h
    · exact lerp_bounds hax h (hab.elim (fun h' => h'.trans_le h) id) (hB a (by simp)) (hB b (by simp))
    · have hbx := not_le.1 h
      obtain ⟨p, hp, hpx⟩ := hex
      refine ih hs'.2 hbx.le (.inl hbx) ⟨p, ?_, hpx⟩ (fun p hp => hB p (List.mem_cons_of_mem _ hp))
      rcases List.mem_cons.1 hp with rfl | hp
      · exact absurd (hpx.trans (hs'.1 b (by simp))) h
      · exact hp

/-- Wave activity interpolated to the latitudes of the grid, from non-negative values up to `B` between the poles: non-negative and up to
`B` except for `2·2⁻⁵⁰` of `B`, and exactly zero at the South Pole. -/
theorem C135_interpolated {ks : List (K × K)} {B : K} (hB0 : 0 ≤ B) (hin : ∀ p ∈ ks, -90 < p.1 ∧ p.1 < 90) (hv : ∀ p ∈ ks, 0 ≤ p.2 ∧ p.2 ≤ B) :
    (∀ x, -90 ≤ x → x ≤ 90 → -(2 * B / 2 ^ 50) ≤ interpolateColumn ks x ∧ interpolateColumn ks x ≤ B + 2 * B / 2 ^ 50) ∧
      interpolateColumn ks (-90) = 0 := by
  have hperm : (Binary64.meridionalKnots ks (0 : K) 0).Perm ((90, 0) :: ks ++ [(-90, 0)]) := List.mergeSort_perm _ _
  have hsorted : (Binary64.meridionalKnots ks (0 : K) 0).Pairwise fun p q => p.1 ≤ q.1 :=
    (List.pairwise_mergeSort (le := fun a b : K × K => decide (a.1 ≤ b.1))
      (by intro a b c h1 h2; simp only [decide_eq_true_eq] at *; exact h1.trans h2)
      (by intro a b; simp only [Bool.or_eq_true, decide_eq_true_eq]; exact le_total _ _) ((90, 0) :: ks ++ [(-90, 0)])).imp
        fun h => by simpa using h
  have hlen : (Binary64.meridionalKnots ks (0 : K) 0).length = ks.length + 2 := by rw [hperm.length_eq]; simp
  have hmem : ∀ p, p ∈ Binary64.meridionalKnots ks (0 : K) 0 ↔ p = (90, 0) ∨ p ∈ ks ∨ p = (-90, 0) := by
    intro p; rw [hperm.mem_iff]; simp
  have hnd : (Binary64.meridionalKnots ks (0 : K) 0).countP (fun p => decide (p.1 ≤ -90)) = 1 := by
    rw [hperm.countP_eq, List.cons_append, List.countP_cons, List.countP_append]
    have : ks.countP (fun p => decide (p.1 ≤ -90)) = 0 := by
      rw [List.countP_eq_zero]; intro p hp; simpa using (hin p hp).1
    rw [this]
    norm_num [List.countP_cons]
  unfold interpolateColumn
  match hk : Binary64.meridionalKnots ks (0 : K) 0 with
  | [] => rw [hk] at hlen; simp at hlen
  | [a] => rw [hk] at hlen; simp at hlen
  | a :: b :: l =>
    rw [hk] at hsorted hmem hnd
    have hs' := List.pairwise_cons.1 hsorted
    have ha : a = (-90, 0) := by
      rcases (hmem a).1 (by simp) with h | h | h
      · have h1 := (hmem (-90, 0)).2 (.inr (.inr rfl))
        rcases List.mem_cons.1 h1 with h1 | h1
        · exact h1.symm
        · have := hs'.1 _ h1; rw [h] at this; norm_num at this
      · have h1 := (hmem (-90, 0)).2 (.inr (.inr rfl))
        rcases List.mem_cons.1 h1 with h1 | h1
        · exact h1.symm
        · have := hs'.1 _ h1; exact absurd (hin a h).1 (not_lt.2 this)
      · exact h
    have hb : -90 < b.1 := by
      by_contra hb
      rw [ha, List.countP_cons, List.countP_cons] at hnd
      simp [not_lt.1 hb] at hnd
    have hval : ∀ p ∈ a :: b :: l, 0 ≤ p.2 ∧ p.2 ≤ B := by
      intro p hp
      rcases (hmem p).1 hp with rfl | h | rfl
      · exact ⟨le_rfl, hB0⟩
      · exact hv p h
      · exact ⟨le_rfl, hB0⟩
    subst ha
    refine ⟨fun x h1 h2 => callLinear_bounds hsorted h1 (.inr hb) ⟨(90, 0), (hmem _).2 (.inl rfl), h2⟩ hval, ?_⟩
    have e : Binary64.callLinear (-90, 0) b l (-90) = Binary64.lerp (-90) b.1 (-90) 0 b.2 := by
      cases l with
      | nil => rfl
      | cons c l => unfold Binary64.callLinear; rw [if_pos hb.le]
    change Binary64.callLinear (-90, 0) b l (-90) = 0
    rw [e]
    unfold Binary64.lerp
    simp [rnd_zero]

/-- Interpolation loses the exact sign and the zero at the North Pole: on a grid of 3.75° with a wave activity of 31 at the northernmost
latitude between gridpoints, FALWA at the North Pole is negative. -/
theorem C135_pole_refuted : ∃ ks : List (ℚ × ℚ), (∀ p ∈ ks, IsDouble p.1 ∧ IsDouble p.2) ∧ (∀ p ∈ ks, -90 < p.1 ∧ p.1 < 90) ∧
    (∀ p ∈ ks, 0 ≤ p.2) ∧ interpolateColumn ks 90 < 0 := by
  refine ⟨[(88 + 1 / 8, 31)], ?_, ?_, ?_, ?_⟩
  · intro p hp; rw [List.mem_singleton.1 hp]
    exact ⟨⟨705, -3, by norm_num, by norm_num⟩, ⟨31, 0, by norm_num, by norm_num⟩⟩
  · intro p hp; rw [List.mem_singleton.1 hp]; norm_num
  · intro p hp; rw [List.mem_singleton.1 hp]; norm_num
  · unfold interpolateColumn
    rw [knots_sorted _ _ _ (List.pairwise_singleton _ _) (by intro p hp; rw [List.mem_singleton.1 hp]; norm_num)]
    change Binary64.callLinear _ _ [(90, 0)] 90 < 0
    decide +kernel

/-- The latitude of C135_pole_refuted is the one `falwa` uses on such a grid. -/
example : rnd (1 / 2 * rnd (Binary64.lat 49 0 + Binary64.lat 49 1)) = (88 + 1 / 8 : ℚ) := by decide +kernel

/-! ### Non-vacuity -/

/-- Three boxes with PV 1, 0, 2 and a contour 1 at the northernmost box -/
example : falwaAt (.node (.node (.leaf 0) (.leaf 1)) (.leaf 2)) (1 : ℚ) 1 (fun _ => 1) (fun j => 60 - 60 * (j : ℚ)) (fun j => if j = 0 then 1 else if j = 1 then 0 else 2) 1 30 1 = 1 ∧
    waveActivity 3 (1 : ℚ) 1 (fun _ => 1) (fun j => 60 - 60 * (j : ℚ)) (fun j => if j = 0 then 1 else if j = 1 then 0 else 2) 1 30 1 = 1 ∧
    (SumTree.node (.node (.leaf 0) (.leaf 1)) (.leaf 2)).Sums 3 := by
  refine ⟨by decide +kernel, by decide +kernel, List.Perm.refl _⟩

end Barotropic
