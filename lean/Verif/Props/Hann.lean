import Verif.Model.Hann
import Verif.Lemmas.Filter
import Verif.Lemmas.Fourier
import Verif.Spec.Filter

/-!
# C63 Wavenumber-dependent Hann filter
-/

namespace Barotropic
open Finset

variable {h w : ℕ}

theorem clip_bounds (hw : 2 ≤ w) (k : ℝ) : 1 ≤ clipWavenumber w k ∧ clipWavenumber w k ≤ w / 2 := by
  have : (2 : ℝ) ≤ w := by exact_mod_cast hw
  unfold clipWavenumber
  exact ⟨le_min (le_max_right _ _) (by linarith), min_le_right _ _⟩

/-- C63: half of every window has at least 2 and at most as many gridpoints as a latitude circle, for every wavenumber
(zero, negative, huge). -/
theorem C63_windows (hw : 2 ≤ w) (k : ℝ) : ∃ n, hannWidth w k = 2 * n + 1 ∧ 2 ≤ n ∧ n ≤ w ∧
    n ≤ w / clipWavenumber w k ∧ (w : ℝ) / clipWavenumber w k < n + 1 := by
  obtain ⟨h1, h2⟩ := clip_bounds hw k
  have hp : (0 : ℝ) < clipWavenumber w k := by linarith
  refine ⟨⌊(w : ℝ) / clipWavenumber w k⌋₊, by unfold hannWidth; ring, ?_, ?_, ?_, ?_⟩
  · rw [Nat.le_floor_iff (by positivity), le_div_iff₀ hp]
    push_cast; linarith
  · refine Nat.floor_le_of_le ?_
    rw [div_le_iff₀ hp]
    have : (0 : ℝ) ≤ w := Nat.cast_nonneg _
    nlinarith
  · exact Nat.floor_le (by positivity)
  · exact Nat.lt_floor_add_one _

theorem hann_sum {n : ℕ} (hn : 0 < n) : ∑ k : Fin (2 * n + 1), hann (2 * n + 1) k = n := by
  rw [Fin.sum_univ_eq_sum_range (fun k : ℕ => hann (2 * n + 1) k)]
  unfold hann
  have hn' : (n : ℝ) ≠ 0 := by exact_mod_cast hn.ne'
  have h1 := congrArg Complex.re (sum_ru (N := 2 * n) (by omega) 1)
  rw [if_neg (by intro hd; have := Int.le_of_dvd one_pos hd; push_cast at this; omega), Complex.re_sum] at h1
  have h2 : ∀ k : ℕ, (ru (2 * n) (1 * k)).re = Real.cos (2 * Real.pi * k / (2 * n + 1 - 1 : ℕ)) := by
    intro k
    rw [← Complex.exp_ofReal_mul_I_re]
    unfold ru
    congr 2
    push_cast [Nat.add_sub_cancel]
    ring
  simp only [h2, Complex.zero_re] at h1
  rw [sum_sub_distrib, ← mul_sum, sum_range_succ (fun i : ℕ => Real.cos (2 * Real.pi * i / (2 * n + 1 - 1 : ℕ))), h1, sum_const, card_range]
  have : (2 : ℝ) * Real.pi * (2 * n : ℕ) / (2 * n + 1 - 1 : ℕ) = 2 * Real.pi := by
    rw [Nat.add_sub_cancel]
    push_cast
    field_simp
  rw [this, Real.cos_two_pi]
  simp only [nsmul_eq_mul]
  push_cast
  ring

theorem hannWeights_nonneg (m : ℕ) (k : Fin m) : 0 ≤ hannWeights m k := by
  have h : ∀ j, 0 ≤ hann m j := fun j => by
    unfold hann
    have := Real.cos_le_one (2 * Real.pi * j / (m - 1 : ℕ))
    linarith
  exact div_nonneg (h _) (sum_nonneg fun j _ => h j)

theorem hannWeights_sum {n : ℕ} (hn : 0 < n) : ∑ k, hannWeights (2 * n + 1) k = 1 := by
  unfold hannWeights
  rw [← sum_div, hann_sum hn, div_self (by exact_mod_cast hn.ne')]

theorem foldl_max_le (l : List ℕ) (a : ℕ) : a ≤ l.foldl max a ∧ ∀ x ∈ l, x ≤ l.foldl max a := by
  induction l generalizing a with
  | nil => exact ⟨le_rfl, fun x hx => by cases hx⟩
  | cons y l ih =>
    obtain ⟨h1, h2⟩ := ih (max a y)
    refine ⟨(le_max_left _ _).trans h1, fun x hx => ?_⟩
    rcases List.mem_cons.mp hx with rfl | hx
    · exact (le_max_right _ _).trans h1
    · exact h2 x hx

theorem filterByWavenumber_ok (hh : 0 < h) (hw : 2 ≤ w) (f : Fin h → Fin w → ℝ) (a : WavenumberArg h w) (k : Fin h → Fin w → ℝ)
    (ha : a.expand = .ok k) :
    filterByWavenumber f a = .ok (.d2 h w fun j i => convolve (wrapExt (f j)) (hannWeights (hannWidth w (k j i))) i) := by
  unfold filterByWavenumber
  rw [ha]
  dsimp only
  have hmem : ∀ j i, hannWidth w (k j i) ∈ (List.finRange h).flatMap fun j => (List.finRange w).map fun i => hannWidth w (k j i) := by
    intro j i
    simp only [List.mem_flatMap, List.mem_map, List.mem_finRange, true_and]
    exact ⟨j, i, rfl⟩
  generalize ((List.finRange h).flatMap fun j => (List.finRange w).map fun i => hannWidth w (k j i)) = used at hmem
  have hlen : ∀ j i, (hannWidth w (k j i) - 1) / 2 < (used.foldl max 0 + 1) / 2 := by
    intro j i
    have h1 := (foldl_max_le used 0).2 _ (hmem j i)
    obtain ⟨n, hn, -⟩ := C63_windows hw (k j i)
    rw [hn] at h1 ⊢
    omega
  rw [if_neg, if_pos]
  · congr 2
    funext j i
    obtain ⟨n, hn, -⟩ := C63_windows hw (k j i)
    have h2 : (hannWidth w (k j i) - 1) / 2 = n := by omega
    have hl := hlen j i
    have hm := hmem j i
    rw [h2] at hl ⊢
    rw [hn] at hm
    rw [List.getD_eq_getElem?_getD, List.getElem?_map, List.getElem?_range hl, Option.map_some, Option.getD_some, if_pos hm, hn]
  · intro j i
    rw [List.length_map, List.length_range]
    exact hlen j i
  · intro hnil
    have := hmem ⟨0, hh⟩ ⟨0, by omega⟩
    rw [hnil] at this
    cases this

/-- C63: result for every wavenumber argument of the right size; at a gridpoint it is the average over the window whose half
width is the number of gridpoints of a wavelength (rounded down), with Hann weights `(1 + cos(π s / n)) / (2 n)`. -/
theorem C63_formula (hh : 0 < h) (hw : 2 ≤ w) (f : Fin h → Fin w → ℝ) (a : WavenumberArg h w) (k : Fin h → Fin w → ℝ)
    (ha : a = .field k ∨ ∃ p : Fin h → ℝ, a = .profile h p ∧ k = fun j _ => p j) :
    ∃ out : Fin h → Fin w → ℝ, filterByWavenumber f a = .ok (.d2 h w out) ∧
      ∀ j i, ∀ n : ℕ, n ≤ w / min (max (k j i) 1) (w / 2 : ℝ) → w / min (max (k j i) 1) (w / 2 : ℝ) < n + 1 →
        out j i = ∑ s ∈ Finset.Icc (-(n : ℤ)) n, (1 + Real.cos (Real.pi * s / n)) / (2 * n) *
          f j ⟨((i.val - s) % w).toNat, by have := Int.emod_lt_of_pos ((i.val : ℤ) - s) (show (0 : ℤ) < w by omega); omega⟩ := by
  have hk : a.expand = .ok k := by
    rcases ha with rfl | ⟨p, rfl, rfl⟩
    · rfl
    · simp [WavenumberArg.expand]
  refine ⟨_, filterByWavenumber_ok hh hw f a k hk, fun j i n h1 h2 => ?_⟩
  obtain ⟨n', e, hn2, -, h3, h4⟩ := C63_windows hw (k j i)
  have hnn : n' = n := by
    have a1 : (n' : ℝ) < n + 1 := h3.trans_lt h2
    have a2 : (n : ℝ) < n' + 1 := h1.trans_lt h4
    have b1 : n' < n + 1 := by exact_mod_cast a1
    have b2 : n < n' + 1 := by exact_mod_cast a2
    omega
  subst hnn
  rw [e]
  unfold convolve
  have hd : (2 * n' + 1) / 2 = n' := by omega
  rw [hd]
  refine Finset.sum_bij (fun (m : Fin (2 * n' + 1)) _ => (m.val : ℤ) - n') ?_ ?_ ?_ ?_
  · intro m _
    have := m.isLt
    rw [mem_Icc]; omega
  · intro m _ m' _ hmm
    apply Fin.ext; omega
  · intro s hs
    rw [mem_Icc] at hs
    exact ⟨⟨(s + n').toNat, by omega⟩, mem_univ _, by simp only; omega⟩
  · intro m _
    have hn0 : (n' : ℝ) ≠ 0 := by exact_mod_cast (by omega : n' ≠ 0)
    congr 1
    · unfold hannWeights
      rw [hann_sum (by omega)]
      unfold hann
      rw [Nat.add_sub_cancel]
      have : (2 : ℝ) * Real.pi * m.val / (2 * n' : ℕ) = Real.pi * (((m.val : ℤ) - n' : ℤ) : ℝ) / n' + Real.pi := by
        push_cast; field_simp; ring
      rw [this, Real.cos_add_pi]
      field_simp
      ring
    · unfold wrapExt
      have e2 : (i.val : ℤ) + n' - m.val = i.val - (m.val - n') := by ring
      have hlt : (((i.val : ℤ) + n' - m.val) % w).toNat < w := by
        have := Int.emod_lt_of_pos ((i.val : ℤ) + n' - m.val) (show (0 : ℤ) < w by omega); omega
      rw [dif_pos hlt]
      congr 2
      rw [e2]

/-- C63: success for every wavenumber (no index is out of range), AssertionError for profiles of the wrong size and ValueError
for empty fields. -/
theorem C63_errors (f : Fin h → Fin w → ℝ) :
    (∀ k, 0 < h → 2 ≤ w → ∃ out, filterByWavenumber f (.field k) = .ok (.d2 h w out)) ∧
    (∀ k : Fin h → ℝ, 0 < h → 2 ≤ w → ∃ out, filterByWavenumber f (.profile h k) = .ok (.d2 h w out)) ∧
    (∀ n, ∀ k : Fin n → ℝ, n ≠ h → filterByWavenumber f (.profile n k) = .error .assertionError) ∧
    (∀ k, h = 0 ∨ w = 0 → filterByWavenumber f (.field k) = .error .valueError) := by
  refine ⟨fun k hh hw => ⟨_, filterByWavenumber_ok hh hw f _ k rfl⟩,
    fun k hh hw => ⟨_, filterByWavenumber_ok hh hw f _ (fun j _ => k j) (by simp [WavenumberArg.expand])⟩, fun n k hn => ?_, fun k h0 => ?_⟩
  · unfold filterByWavenumber WavenumberArg.expand
    simp only
    rw [dif_neg (Ne.symm hn)]
  · unfold filterByWavenumber WavenumberArg.expand
    simp only
    rw [if_pos]
    rcases h0 with rfl | rfl <;> simp

variable {f f' out out' : Fin h → Fin w → ℝ} {a : WavenumberArg h w}

theorem result_eq (hw : 2 ≤ w) (ho : filterByWavenumber f a = .ok (.d2 h w out)) :
    ∃ k, a.expand = .ok k ∧ ∀ j i, out j i = convolve (wrapExt (f j)) (hannWeights (hannWidth w (k j i))) i := by
  rcases ha : a.expand with e | k
  · unfold filterByWavenumber at ho
    rw [ha] at ho; cases ho
  · refine ⟨k, rfl, fun j i => ?_⟩
    rw [filterByWavenumber_ok j.pos hw f a k ha] at ho
    cases ho
    rfl

/-- C63: linear in the field. -/
theorem C63_linear (hh : 0 < h) (hw : 2 ≤ w) (c : ℝ) (ho : filterByWavenumber f a = .ok (.d2 h w out))
    (ho' : filterByWavenumber f' a = .ok (.d2 h w out')) :
    filterByWavenumber (c • f + f') a = .ok (.d2 h w (c • out + out')) := by
  obtain ⟨k, hk, h1⟩ := result_eq hw ho
  obtain ⟨k', hk', h2⟩ := result_eq hw ho'
  rw [hk] at hk'
  cases hk'
  rw [filterByWavenumber_ok hh hw _ a k hk]
  congr 2
  funext j i
  change _ = c * out j i + out' j i
  rw [h1, h2]
  exact convolve_linear c _ _ _ (wrapExt_linear c (f j) (f' j)) _ _

/-- C63: the result stays within bounds of the values at the same latitude; in particular constants are reproduced. -/
theorem C63_bounds (hw : 2 ≤ w) (ho : filterByWavenumber f a = .ok (.d2 h w out)) (j : Fin h) (lo hi : ℝ)
    (hb : ∀ i, lo ≤ f j i ∧ f j i ≤ hi) (i : Fin w) : lo ≤ out j i ∧ out j i ≤ hi := by
  obtain ⟨k, hk, h1⟩ := result_eq hw ho
  obtain ⟨n, e, hn, -⟩ := C63_windows hw (k j i)
  rw [h1, e]
  refine convolve_bounds (hannWeights_nonneg _) (hannWeights_sum (by omega)) (fun t => ?_) _
  obtain ⟨i', hi'⟩ := wrapExt_mem i.pos (f j) t
  rw [hi']; exact hb i'

/-- C63: constants (zonally symmetric fields) are reproduced. -/
theorem C63_const (hw : 2 ≤ w) (c : Fin h → ℝ) (ho : filterByWavenumber (fun j _ => c j) a = .ok (.d2 h w out)) :
    out = fun j _ => c j := by
  funext j i
  have := C63_bounds hw ho j (c j) (c j) (fun _ => ⟨le_rfl, le_rfl⟩) i
  exact le_antisymm this.2 this.1

/-- The wavenumber argument belonging to rotated fields. -/
noncomputable def WavenumberArg.rotate (d : ℕ) : WavenumberArg h w → WavenumberArg h w
  | .profile n k => .profile n k
  | .field k => .field fun j => rotated d (k j)

/-- C63: commutes with zonal rotation of field and wavenumber. -/
theorem C63_rotation (hh : 0 < h) (hw : 2 ≤ w) (d : ℕ) (ho : filterByWavenumber f a = .ok (.d2 h w out)) :
    filterByWavenumber (fun j => rotated d (f j)) (a.rotate d) = .ok (.d2 h w fun j => rotated d (out j)) := by
  obtain ⟨k, hk, h1⟩ := result_eq hw ho
  have hk' : (a.rotate d).expand = .ok fun j => rotated d (k j) := by
    cases a with
    | field k' => cases hk; rfl
    | profile n p =>
      unfold WavenumberArg.expand at hk
      simp only at hk
      split_ifs at hk with hn
      cases hk
      simp only [WavenumberArg.rotate, WavenumberArg.expand, dif_pos hn]
      rfl
  rw [filterByWavenumber_ok hh hw _ _ _ hk']
  congr 2
  funext j i
  have hper := wrapExt_periodic (f j)
  have hrot : ∀ t : ℤ, wrapExt (rotated d (f j)) t = wrapExt (f j) (t + d) := by
    refine wrap_unique i.pos (wrapExt_periodic _) (fun t => ?_) (fun k => ?_)
    · rw [add_right_comm]; exact hper _
    · rw [wrapExt_node]
      change f j _ = _
      rw [← wrapExt_node (f j), periodic_eq_emod hper ((k.val : ℤ) + d)]
      push_cast
      rfl
  change _ = out j ⟨(i.val + d) % w, _⟩
  rw [h1]
  change convolve (wrapExt (rotated d (f j))) (hannWeights (hannWidth w (k j ⟨(i.val + d) % w, _⟩))) i.val = _
  unfold convolve
  refine sum_congr rfl fun m _ => ?_
  rw [hrot, periodic_eq_emod hper, periodic_eq_emod hper (((i.val + d) % w : ℕ) + _ - _)]
  congr 2
  push_cast
  rw [add_sub_assoc, add_sub_assoc, Int.emod_add_emod]
  congr 1
  ring

/-- C63: the zonal mean is preserved for wavenumbers that depend on latitude only. -/
theorem C63_zonal_mean (hw : 2 ≤ w) (p : Fin h → ℝ) (ho : filterByWavenumber f (.profile h p) = .ok (.d2 h w out)) (j : Fin h) :
    (∑ i, out j i) / w = (∑ i, f j i) / w := by
  obtain ⟨k, hk, h1⟩ := result_eq hw ho
  have hk' : k = fun j _ => p j := by simpa [WavenumberArg.expand] using hk.symm
  subst hk'
  congr 1
  obtain ⟨n, e, hn, -⟩ := C63_windows hw (p j)
  have h1' : ∀ i, out j i = convolve (wrapExt (f j)) (hannWeights (2 * n + 1)) i.val := fun i => by rw [h1, e]
  simp only [h1']
  unfold convolve
  rw [sum_comm]
  have key : ∀ m : Fin (2 * n + 1), ∑ i : Fin w, hannWeights (2 * n + 1) m * wrapExt (f j) ((i.val : ℤ) + ((2 * n + 1) / 2 : ℕ) - m.val) =
      hannWeights (2 * n + 1) m * ∑ i, f j i := by
    intro m
    rw [← mul_sum]
    congr 1
    rw [Fin.sum_univ_eq_sum_range (fun i : ℕ => wrapExt (f j) ((i : ℤ) + ((2 * n + 1) / 2 : ℕ) - m.val))]
    have := sum_period (wrapExt_periodic (f j)) ((((2 * n + 1) / 2 : ℕ) : ℤ) - m.val)
    simp only [← add_sub_assoc] at this
    rw [this, ← Fin.sum_univ_eq_sum_range (fun i : ℕ => wrapExt (f j) (i : ℤ))]
    exact sum_congr rfl fun i _ => wrapExt_node (f j) i
  rw [sum_congr rfl fun m _ => key m, ← sum_mul, hannWeights_sum (by omega), one_mul]

/-- Non-vacuity of C63: wavenumber 0 (clipped to 1) on 4 longitudes: the result at a point where the field is 1 and 0
elsewhere. -/
example : ∃ out : Fin 1 → Fin 4 → ℝ,
    filterByWavenumber (h := 1) (w := 4) (fun _ i => if i.val = 0 then 1 else 0) (.field fun _ _ => 0) = .ok (.d2 1 4 out) ∧ out 0 0 = 1 / 4 := by
  obtain ⟨out, ho, hf⟩ := C63_formula (h := 1) (w := 4) one_pos (by norm_num) (fun _ i => if i.val = 0 then 1 else 0) (.field fun _ _ => 0)
    (fun _ _ => 0) (Or.inl rfl)
  refine ⟨out, ho, ?_⟩
  rw [hf 0 0 4 (by norm_num) (by norm_num)]
  have : (Finset.Icc (-((4 : ℕ) : ℤ)) (4 : ℕ)) = {-4, -3, -2, -1, 0, 1, 2, 3, 4} := by decide
  rw [this]
  norm_num [Finset.sum_insert]
  rw [show -(Real.pi * 4) / 4 = -Real.pi by ring, Real.cos_neg, Real.cos_pi]
  norm_num

end Barotropic
