import Verif.Lemmas.ColQuad
import Verif.Lemmas.Zonalize
import Verif.Lemmas.Falwa
import Verif.Lemmas.GridDual
import Verif.Spec.MirrorDiag

/-!
# Reflection of the quadrature and of interpolation
-/

namespace Barotropic
open Real (pi_pos)

/-- An interval, and its mirror image with the complementary domain. -/
theorem seg_mirror {x0 x1 : ℝ} (hx : x1 < x0) (y0 y1 z0 z1 : ℝ) (h : z0 = 0 → z1 = 0 → y0 = 0 ∧ y1 = 0) :
    (if 0 ≤ z0 ∨ 0 ≤ z1 then sptrapzSeg x0 x1 y0 y1 z0 z1 else 0) +
      (if 0 ≤ -z1 ∨ 0 ≤ -z0 then sptrapzSeg (-x1) (-x0) y1 y0 (-z1) (-z0) else 0) = sptrapzSeg x0 x1 y0 y1 1 1 := by
  have hd : x1 - x0 ≠ 0 := by linarith
  -- the antiderivative
  obtain ⟨G, hG⟩ : ∃ G : ℝ → ℝ, ∀ t, G t = (y1 - y0) / (x1 - x0) * Real.cos t +
      ((y1 - y0) / (x1 - x0) * t + (y0 - (y1 - y0) / (x1 - x0) * x0)) * Real.sin t := ⟨_, fun _ => rfl⟩
  have key : ∀ z0 z1 : ℝ, sptrapzSeg x0 x1 y0 y1 z0 z1 =
      G (if ¬ 0 ≤ z0 ∧ 0 ≤ z1 then x0 - z0 / (z1 - z0) * (x1 - x0) else x0) -
      G (if 0 ≤ z0 ∧ ¬ 0 ≤ z1 then x1 - z1 / (z1 - z0) * (x1 - x0) else x1) := by
    intro z0 z1; rw [hG, hG]; unfold sptrapzSeg; dsimp only; ring
  have key' : ∀ z0 z1 : ℝ, sptrapzSeg (-x1) (-x0) y1 y0 z0 z1 =
      G (-(if 0 ≤ z0 ∧ ¬ 0 ≤ z1 then -x0 - z1 / (z1 - z0) * (x1 - x0) else -x0)) -
      G (-(if ¬ 0 ≤ z0 ∧ 0 ≤ z1 then -x1 - z0 / (z1 - z0) * (x1 - x0) else -x1)) := by
    intro z0 z1
    rw [hG, hG, Real.cos_neg, Real.cos_neg, Real.sin_neg, Real.sin_neg]
    unfold sptrapzSeg; dsimp only
    have e1 : (y0 - y1) / (-x0 - -x1) = -((y1 - y0) / (x1 - x0)) := by
      rw [show -x0 - -x1 = x1 - x0 by ring]; ring
    have e2 : y1 = y0 + (y1 - y0) / (x1 - x0) * (x1 - x0) := by rw [div_mul_cancel₀ _ hd]; ring
    have e3 : -x0 - -x1 = x1 - x0 := by ring
    rw [e1, e3]
    generalize (y1 - y0) / (x1 - x0) = a at e2
    rw [e2]
    ring
  have one : sptrapzSeg x0 x1 y0 y1 1 1 = G x0 - G x1 := by
    rw [key, if_neg (by norm_num), if_neg (by norm_num)]
  rw [key, key', one]
  clear key key' one
  rcases lt_trichotomy z0 0 with h0 | h0 | h0
  · have p0 : ¬ 0 ≤ z0 := not_le.2 h0
    have n0 : 0 ≤ -z0 := by linarith
    rcases lt_trichotomy z1 0 with h1 | h1 | h1
    · have p1 : ¬ 0 ≤ z1 := not_le.2 h1
      have n1 : 0 ≤ -z1 := by linarith
      simp only [p0, n0, p1, n1, not_true_eq_false, not_false_eq_true, and_true, and_false, or_true,
        or_false, if_true, if_false, neg_neg]
      ring
    · subst h1
      have n1 : (0 : ℝ) ≤ -0 := by simp
      simp only [p0, n0, n1, le_refl, not_true_eq_false, not_false_eq_true, and_true, and_false, or_true,
        if_true, if_false, neg_neg]
      rw [show x0 - z0 / (0 - z0) * (x1 - x0) = x1 by have := h0.ne; field_simp; ring]
      ring
    · have p1 : 0 ≤ z1 := h1.le
      have n1 : ¬ 0 ≤ -z1 := by linarith
      simp only [p0, n0, p1, n1, not_true_eq_false, not_false_eq_true, and_true, and_false, or_true,
        if_true, if_false, neg_neg]
      have hz : z1 - z0 ≠ 0 := by linarith
      have e : -(-x1 - -z1 / (-z0 - -z1) * (x1 - x0)) = x0 - z0 / (z1 - z0) * (x1 - x0) := by
        rw [show -z0 - -z1 = z1 - z0 by ring]; field_simp; ring
      rw [e]; ring
  · subst h0
    have n0 : (0 : ℝ) ≤ -0 := by simp
    rcases lt_trichotomy z1 0 with h1 | h1 | h1
    · have p1 : ¬ 0 ≤ z1 := not_le.2 h1
      have n1 : 0 ≤ -z1 := by linarith
      simp only [n0, p1, n1, le_refl, not_true_eq_false, not_false_eq_true, and_true, and_false, true_or, or_true,
        if_true, if_false, neg_neg]
      rw [show x1 - z1 / (z1 - 0) * (x1 - x0) = x0 by have := h1.ne; rw [sub_zero, div_self this]; ring]
      ring
    · obtain ⟨e0, e1⟩ := h rfl h1
      have hG0 : ∀ t, G t = 0 := by intro t; rw [hG, e0, e1]; simp
      simp [hG0]
    · have p1 : 0 ≤ z1 := h1.le
      have n1 : ¬ 0 ≤ -z1 := by linarith
      simp only [n0, p1, n1, le_refl, not_true_eq_false, not_false_eq_true, and_true, and_false, or_true,
        if_true, if_false, neg_neg]
      rw [show -(-x1 - -z1 / (-0 - -z1) * (x1 - x0)) = x0 by
        have := h1.ne'; rw [show -z1 / (-0 - -z1) = -1 by rw [neg_zero, zero_sub, neg_neg, neg_div, div_self this]]; ring]
      ring
  · have p0 : 0 ≤ z0 := h0.le
    have n0 : ¬ 0 ≤ -z0 := by linarith
    rcases lt_trichotomy z1 0 with h1 | h1 | h1
    · have p1 : ¬ 0 ≤ z1 := not_le.2 h1
      have n1 : 0 ≤ -z1 := by linarith
      simp only [p0, n0, p1, n1, not_true_eq_false, not_false_eq_true, and_true, and_false, or_false,
        if_true, if_false, neg_neg]
      have hz : z1 - z0 ≠ 0 := by linarith
      have e : -(-x0 - -z0 / (-z0 - -z1) * (x1 - x0)) = x1 - z1 / (z1 - z0) * (x1 - x0) := by
        rw [show -z0 - -z1 = z1 - z0 by ring]; field_simp; ring
      rw [e]; ring
    · subst h1
      have n1 : (0 : ℝ) ≤ -0 := by simp
      simp only [p0, n0, n1, le_refl, not_true_eq_false, not_false_eq_true, and_true, and_false, or_true, true_or,
        if_true, if_false, neg_neg]
      rw [show -(-x0 - -z0 / (-z0 - -0) * (x1 - x0)) = x1 by
        have := h0.ne'; rw [show -z0 / (-z0 - -0) = 1 by rw [neg_zero, sub_zero, div_self (neg_ne_zero.2 this)]]; ring]
      ring
    · have p1 : 0 ≤ z1 := h1.le
      have n1 : ¬ 0 ≤ -z1 := by linarith
      simp only [p0, n0, p1, n1, not_true_eq_false, and_true, and_false, or_true,
        or_false, if_true, if_false, neg_neg]
      ring

/-! ### Meridians -/

namespace Grid
variable {g : Grid ℝ}

/-- The integral over the mirror image of the complement is what remains of the whole meridian. -/
theorem colQuad_mirror (hg : g.Valid) (m : String) (y z : Fin g.nlat → ℝ)
    (h : if m = "boxcount" then ∀ j, z j = 0 → y j = 0
      else ∀ j j' : Fin g.nlat, j'.val = j.val + 1 → z j = 0 → z j' = 0 → y j = 0 ∧ y j' = 0) :
    g.colQuad m (fun j => y j.rev) (fun j => -z j.rev) = g.colQuad m y (fun _ => 1) - g.colQuad m y z := by
  unfold colQuad
  by_cases hm : m = "boxcount"
  · rw [if_pos hm] at h
    simp only [if_pos hm]
    unfold boxcountCol
    rw [← sub_div, ← sub_div, ← Finset.sum_sub_distrib, ← Equiv.sum_comp Fin.revPerm]
    congr 2
    refine Finset.sum_congr rfl fun j _ => ?_
    have e : g.gridpointArea (Fin.revPerm j : Fin g.nlat) = g.gridpointArea j := by
      rw [← gridpointArea_symm hg j.isLt]; congr 1; simp [Fin.val_rev]; omega
    rw [e]
    simp only [Fin.revPerm_apply, Fin.rev_rev, zero_le_one, if_true]
    rcases lt_trichotomy (z j) 0 with h0 | h0 | h0
    · rw [if_pos (by linarith), if_neg (by linarith)]; ring
    · rw [h j h0]; simp
    · rw [if_neg (by linarith), if_pos h0.le]; ring
  · rw [if_neg hm] at h
    simp only [if_neg hm]
    have hn := hg.nlat_ge
    unfold sptrapzCol
    rw [eq_sub_iff_add_eq, ← Finset.sum_range_reflect, ← Finset.sum_add_distrib]
    refine Finset.sum_congr rfl fun j hj => ?_
    have hj := Finset.mem_range.1 hj
    have p0 : g.phi (g.nlat - 1 - 1 - j) = -g.phi (j + 1) := by
      rw [← phi_symm hg (by omega)]; congr 1; omega
    have p1 : g.phi (g.nlat - 1 - 1 - j + 1) = -g.phi j := by
      rw [← phi_symm hg (by omega)]; congr 1; omega
    have c0 : ∀ f : Fin g.nlat → ℝ, col (fun j => f j.rev) (g.nlat - 1 - 1 - j) = col f (j + 1) := by
      intro f; unfold col
      rw [dif_pos (by omega), dif_pos (by omega)]
      exact congrArg f (Fin.ext (by simp only [Fin.val_rev]; omega))
    have c1 : ∀ f : Fin g.nlat → ℝ, col (fun j => f j.rev) (g.nlat - 1 - 1 - j + 1) = col f j := by
      intro f; unfold col
      rw [dif_pos (by omega), dif_pos (by omega)]
      exact congrArg f (Fin.ext (by simp only [Fin.val_rev]; omega))
    have cn : ∀ (f : Fin g.nlat → ℝ) k, col (fun j => -f j) k = -col f k := by
      intro f k; unfold col; split_ifs <;> simp
    have co : ∀ k < g.nlat, col (fun _ : Fin g.nlat => (1 : ℝ)) k = 1 := by
      intro k hk; unfold col; rw [dif_pos hk]
    rw [p0, p1, c0 y, c1 y, c0 fun j => -z j, c1 fun j => -z j, cn, cn, co j (by omega), co (j + 1) (by omega), add_comm,
      if_pos (Or.inl zero_le_one)]
    rw [← seg_mirror (phi_strictAnti hg (Nat.lt_succ_self j)) (col y j) (col y (j + 1)) (col z j) (col z (j + 1)), mul_add,
      mul_ite, mul_ite, mul_zero]
    intro h0 h1
    have k0 : j < g.nlat := by omega
    have k1 : j + 1 < g.nlat := by omega
    unfold col at h0 h1 ⊢
    rw [dif_pos k0] at h0 ⊢
    rw [dif_pos k1] at h1 ⊢
    exact h ⟨j, k0⟩ ⟨j + 1, k1⟩ rfl h0 h1

/-- The complement of an area belongs to the opposite equivalent latitude. -/
theorem eqLat_mirror (hg : g.Valid) (a : ℝ) : g.eqLat (4 * Real.pi * g.rsphere ^ 2 - a) = -g.eqLat a := by
  have hr := hg.rsphere_pos
  have hp := pi_pos
  unfold eqLat
  have e : 1 - 1 / 2 * (4 * Real.pi * g.rsphere ^ 2 - a) / Real.pi / g.rsphere ^ 2
      = -(1 - 1 / 2 * a / Real.pi / g.rsphere ^ 2) := by field_simp; ring
  have ec : ∀ s, clipSine (-s) = -clipSine s := by
    intro s
    rw [clipSine_eq, clipSine_eq]
    rcases le_total s 1 with h1 | h1 <;> rcases le_total (-1) s with h2 | h2
    · rw [min_eq_right (by linarith), max_eq_right (by linarith), min_eq_right h1, max_eq_right h2]
    · rw [min_eq_left (by linarith), max_eq_right (by linarith), min_eq_right h1, max_eq_left h2]; ring
    · rw [min_eq_right (by linarith), max_eq_left (by linarith), min_eq_left h1, max_eq_right (by linarith)]
    · linarith
  rw [e, ec, Real.arcsin_neg, rad2deg_neg]

/-- Area of the mirror image. -/
theorem contourArea_mirror (hg : g.Valid) (hs : g.resolution * g.nlon = 360) {w : ℕ} (hw : w ≠ 0) (m : String)
    (f : Fin g.nlat → Fin w → ℝ) (q : ℝ)
    (h : if m = "boxcount" then ∀ j i, f j i ≠ q
      else ∀ i, ∀ j j' : Fin g.nlat, j'.val = j.val + 1 → f j i = q → f j' i ≠ q) :
    g.contourArea m (fun j i => -f j.rev i) (-q) = 4 * Real.pi * g.rsphere ^ 2 - g.contourArea m f q := by
  have tot : 4 * Real.pi * g.rsphere ^ 2 = g.rsphere * g.dlam * (∑ _i : Fin w, 2 * g.rsphere) * (g.nlon / w) := by
    rw [contourArea_full_eq hg hw, dlam_nlon_eq hg hs]; ring
  rw [tot]
  unfold contourArea
  rw [← sub_mul, ← mul_sub, ← Finset.sum_sub_distrib]
  congr 2
  refine Finset.sum_congr rfl fun i _ => ?_
  rw [← (colQuad_one hg m (fun _ => 1)).2.2.2.2.1 fun _ => zero_le_one,
    ← colQuad_mirror hg m (fun _ => 1) (fun j => f j i - q)]
  · congr 1; funext j; ring
  · by_cases hm : m = "boxcount"
    · rw [if_pos hm] at h ⊢
      intro j hj
      exact absurd (sub_eq_zero.1 hj) (h j i)
    · rw [if_neg hm] at h ⊢
      intro j j' hj h0 h1
      exact absurd (sub_eq_zero.1 h1) (h i j j' hj (sub_eq_zero.1 h0))

/-- Wave activity of the mirror image. -/
theorem falwaNum_mirror (hg : g.Valid) (m : String) (pv : Fin g.nlat → Fin g.nlon → ℝ) (q y : ℝ) (i : Fin g.nlon)
    (hlat : ∀ j : Fin g.nlat, g.lat j.rev = -g.lat j)
    (h : m = "boxcount" → ∀ j : Fin g.nlat, g.lat j ≠ y) :
    g.falwaNum m (fun j i => -pv j.rev i) (-q) (-y) i = g.falwaNum m pv q y i := by
  have hn : ∀ z : Fin g.nlat → ℝ, g.colQuad m (fun j => -(pv j i - q)) z = -g.colQuad m (fun j => pv j i - q) z := by
    intro z
    have := colQuad_linear (g := g) m (-1) 0 (fun j => pv j i - q) (fun j => pv j i - q) z
    rw [← show (fun j => -1 * (pv j i - q) + 0 * (pv j i - q)) = fun j => -(pv j i - q) by funext j; ring, this]; ring
  have e1 := colQuad_mirror hg m (fun j => -(pv j i - q)) (fun j => pv j i - q) (by
    split_ifs
    · intro j hj; rw [hj, neg_zero]
    · intro j j' _ h0 h1; rw [h0, h1, neg_zero]; exact ⟨rfl, rfl⟩)
  have e2 := colQuad_mirror hg m (fun j => -(pv j i - q)) (fun j => g.lat j - y) (by
    split_ifs with hm
    · intro j hj; exact absurd (sub_eq_zero.1 hj) (h hm j)
    · intro j j' hj h0 h1
      exfalso
      have hp : g.phi j' < g.phi j := phi_strictAnti hg (by omega)
      have : g.lat j' = g.lat j := by linarith
      unfold phi at hp
      rw [this] at hp
      exact lt_irrefl _ hp)
  simp only [hn] at e1 e2
  unfold falwaNum
  have f1 : (fun j : Fin g.nlat => -pv j.rev i - -q) = fun j => -(pv j.rev i - q) := by funext j; ring
  have f2 : (fun j : Fin g.nlat => g.lat j - -y) = fun j : Fin g.nlat => -(g.lat j.rev - y) := by funext j; rw [hlat]; ring
  rw [f1, f2, e1, e2]
  ring

end Grid

end Barotropic
