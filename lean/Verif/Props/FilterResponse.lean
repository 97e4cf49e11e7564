import Verif.Spec.FilterResponse
import Verif.Props.Filter
import Verif.Model.Dominant
import Verif.Lemmas.Example
import Mathlib.Analysis.SpecialFunctions.Trigonometric.Bounds

/-!
# C168: response of waves to zonal and meridional filtering
-/

namespace Barotropic
open Finset

variable {W : Type*} {gw : W → (n : ℕ) → Except PyErr (Fin n → ℝ)} {g : Grid ℝ} {win : WindowArg W ℝ} {m : ℕ} {w : Fin m → ℝ}

/-- The sine transform of a symmetric window vanishes. -/
theorem window_sine (ho : Odd m) (hr : reversed w = w) (θ : ℝ) :
    ∑ k : Fin m, w k * Real.sin (((k.val : ℝ) - ((m / 2 : ℕ) : ℝ)) * θ) = 0 := by
  have h1 : ∑ k : Fin m, w k * Real.sin (((k.val : ℝ) - ((m / 2 : ℕ) : ℝ)) * θ) =
      ∑ k : Fin m, -(w k * Real.sin (((k.val : ℝ) - ((m / 2 : ℕ) : ℝ)) * θ)) := by
    rw [← Equiv.sum_comp Fin.revPerm]
    refine sum_congr rfl fun k _ => ?_
    have hk : w k.rev = w k := congrFun hr k
    have h2 : ((k.rev.val : ℝ) - ((m / 2 : ℕ) : ℝ)) * θ = -(((k.val : ℝ) - ((m / 2 : ℕ) : ℝ)) * θ) := by
      obtain ⟨n, rfl⟩ := ho
      have h3 : (2 * n + 1) / 2 = n := by omega
      have h4 : k.rev.val + k.val = 2 * n := by rw [Fin.val_rev]; omega
      have h5 : (k.rev.val : ℝ) + k.val = 2 * n := by exact_mod_cast h4
      rw [h3]
      linear_combination θ * h5
    rw [Fin.revPerm_apply, hk, h2, Real.sin_neg, mul_neg]
  rw [sum_neg_distrib] at h1
  linarith

/-- Symmetric windows do not shift the phase. -/
theorem convolve_wave (ho : Odd m) (hr : reversed w = w) (θ φ : ℝ) (i : ℕ) :
    convolve (fun t : ℤ => Real.cos (t * θ + φ)) w i = windowResponse w θ * Real.cos (i * θ + φ) := by
  have hs := window_sine ho hr θ
  unfold convolve windowResponse
  have h : ∀ k : Fin m, w k * Real.cos (((i + (m / 2 : ℕ) - k.val : ℤ) : ℝ) * θ + φ) =
      w k * Real.cos (((k.val : ℝ) - ((m / 2 : ℕ) : ℝ)) * θ) * Real.cos (i * θ + φ) +
        w k * Real.sin (((k.val : ℝ) - ((m / 2 : ℕ) : ℝ)) * θ) * Real.sin (i * θ + φ) := fun k => by
    rw [show ((i + (m / 2 : ℕ) - k.val : ℤ) : ℝ) * θ + φ = (i * θ + φ) - ((k.val : ℝ) - ((m / 2 : ℕ) : ℝ)) * θ by
        simp only [Int.cast_sub, Int.cast_add, Int.cast_natCast]; ring, Real.cos_sub]
    ring
  rw [sum_congr rfl fun k _ => h k, sum_add_distrib, ← sum_mul, ← sum_mul, hs]
  ring

/-- Zonal filtering multiplies every wave by the response of the window. -/
theorem C168_zonal (hw : g.resolveWindow gw win = .ok ⟨m, w⟩) (ho : Odd m) (hr : reversed w = w) (k : ℕ) (φ : ℝ) :
    g.filterZonal gw (.d1 g.nlon (waveAlong g.nlon k φ)) win =
      .ok (.d1 g.nlon fun i => windowResponse w (2 * Real.pi * k / g.nlon) * waveAlong g.nlon k φ i) := by
  rw [zonal_d1 hw ho.pos]
  congr 2
  funext i
  have hN : (g.nlon : ℝ) ≠ 0 := by exact_mod_cast i.pos.ne'
  have h : wrapExt (waveAlong g.nlon k φ) = fun t : ℤ => Real.cos (t * (2 * Real.pi * k / g.nlon) + φ) := by
    funext t
    refine wrap_unique (e' := fun t : ℤ => Real.cos (t * (2 * Real.pi * k / g.nlon) + φ)) i.pos (wrapExt_periodic (waveAlong g.nlon k φ)) (fun t => ?_) (fun j => ?_) t
    · dsimp only
      rw [← Real.cos_add_nat_mul_two_pi (t * (2 * Real.pi * k / g.nlon) + φ) k]
      congr 1
      push_cast
      field_simp
      ring
    · rw [wrapExt_node]
      simp only [waveAlong, Int.cast_natCast]
      congr 1
      ring
  rw [h, convolve_wave ho hr]
  simp only [waveAlong]
  congr 2
  ring

/-- Meridional filtering multiplies every symmetric wave by the response of the window. -/
theorem C168_meridional (hw : g.resolveWindow gw win = .ok ⟨m, w⟩) (ho : Odd m) (hr : reversed w = w) (k : ℕ) :
    g.filterMeridional gw (.d1 g.nlat (waveAcross g.nlat k)) win =
      .ok (.d1 g.nlat fun j => windowResponse w (Real.pi * k / g.nlat) * waveAcross g.nlat k j) := by
  rw [merid_d1 hw ho.pos]
  congr 2
  funext i
  have hN : (g.nlat : ℝ) ≠ 0 := by exact_mod_cast i.pos.ne'
  have h : reflectExt (waveAcross g.nlat k) =
      fun t : ℤ => Real.cos (t * (Real.pi * k / g.nlat) + Real.pi * k / g.nlat / 2) := by
    funext t
    refine reflect_unique (e' := fun t : ℤ => Real.cos (t * (Real.pi * k / g.nlat) + Real.pi * k / g.nlat / 2)) i.pos
      (reflectExt_periodic (waveAcross g.nlat k)) (fun t => ?_) (fun t => reflectExt_symm _ t) (fun t => ?_) (fun j => ?_) t
    · dsimp only
      rw [← Real.cos_add_nat_mul_two_pi (t * (Real.pi * k / g.nlat) + Real.pi * k / g.nlat / 2) k]
      congr 1
      push_cast
      field_simp
      ring
    · rw [← Real.cos_neg]
      congr 1
      push_cast
      ring
    · rw [reflectExt_node]
      simp only [waveAcross, Int.cast_natCast]
      congr 1
      ring
  rw [h, convolve_wave ho hr]
  simp only [waveAcross]
  congr 2
  ring

/-- Normalized windows keep the mean, and no wave is amplified if the weights are not negative. -/
theorem C168_bounded (hs : ∑ k, w k = 1) :
    windowResponse w 0 = 1 ∧ ((∀ k, 0 ≤ w k) → ∀ θ, |windowResponse w θ| ≤ 1) := by
  refine ⟨by simp [windowResponse, hs], fun hp θ => ?_⟩
  unfold windowResponse
  refine (abs_sum_le_sum_abs _ _).trans (le_of_le_of_eq (sum_le_sum fun k _ => ?_) hs)
  rw [abs_mul, abs_of_nonneg (hp k)]
  exact mul_le_of_le_one_right (hp k) (Real.abs_cos_le_one _)

/-- The window that `get_filter_window("boxcar", width)` returns -/
theorem boxcar_window {width : ℝ} {n : ℕ} (h : g.filterWidth width = n) :
    g.resolveWindow boxcar (.named () width) = .ok ⟨n, fun _ => 1 / n⟩ := by
  have h1 := getFilterWindow_of (gw := boxcar) (g := g) (window := ()) n h (fun _ => 1) rfl
  simp only [Grid.resolveWindow]
  rw [h1]
  simp

/-- The response of the boxcar window is a Dirichlet kernel. -/
theorem C168_dirichlet (n : ℕ) (θ : ℝ) :
    windowResponse (fun _ : Fin (2 * n + 1) => 1 / ((2 * n + 1 : ℕ) : ℝ)) θ * ((2 * n + 1) * Real.sin (θ / 2)) = Real.sin ((2 * n + 1) * θ / 2) := by
  have hn : (2 * n + 1 : ℝ) ≠ 0 := by positivity
  have h0 : (2 * n + 1) / 2 = n := by omega
  unfold windowResponse
  rw [h0, ← mul_sum, Fin.sum_univ_eq_sum_range (fun k : ℕ => Real.cos (((k : ℝ) - n) * θ)) (2 * n + 1)]
  have h1 : ∀ k : ℕ, Real.cos (((k : ℝ) - n) * θ) * (2 * Real.sin (θ / 2)) =
      Real.sin (((k + 1 : ℕ) - n - 1 / 2 : ℝ) * θ) - Real.sin (((k : ℕ) - n - 1 / 2 : ℝ) * θ) := fun k => by
    rw [show ((k + 1 : ℕ) - n - 1 / 2 : ℝ) * θ = ((k : ℝ) - n) * θ + θ / 2 by push_cast; ring,
      show ((k : ℕ) - n - 1 / 2 : ℝ) * θ = ((k : ℝ) - n) * θ - θ / 2 by ring, Real.sin_add, Real.sin_sub]
    ring
  have h2 : (∑ k ∈ range (2 * n + 1), Real.cos (((k : ℝ) - n) * θ)) * (2 * Real.sin (θ / 2)) = 2 * Real.sin ((2 * n + 1) * θ / 2) := by
    rw [sum_mul, sum_congr rfl fun k _ => h1 k, sum_range_sub (fun k : ℕ => Real.sin ((k - n - 1 / 2 : ℝ) * θ))]
    rw [show (((2 * n + 1 : ℕ) : ℝ) - n - 1 / 2) * θ = (2 * n + 1) * θ / 2 by push_cast; ring,
      show (((0 : ℕ) : ℝ) - n - 1 / 2) * θ = -((2 * n + 1) * θ / 2) by push_cast; ring, Real.sin_neg]
    ring
  push_cast
  field_simp
  linarith

/-- The boxcar window removes exactly those waves of which it covers a whole number of periods. -/
theorem C168_removed (N k n : ℕ) (hk : 0 < k) (hN : k < N) :
    windowResponse (fun _ : Fin (2 * n + 1) => 1 / ((2 * n + 1 : ℕ) : ℝ)) (2 * Real.pi * k / N) = 0 ↔ N ∣ (2 * n + 1) * k := by
  have hN0 : (0 : ℝ) < N := by exact_mod_cast hk.trans hN
  have hk0 : (0 : ℝ) < k := by exact_mod_cast hk
  have hkN : (k : ℝ) < N := by exact_mod_cast hN
  have hp := Real.pi_pos
  have hs : Real.sin (2 * Real.pi * k / N / 2) ≠ 0 := by
    refine (Real.sin_pos_of_pos_of_lt_pi (by positivity) ?_).ne'
    rw [div_div, div_lt_iff₀ (by positivity)]
    nlinarith
  have h := C168_dirichlet n (2 * Real.pi * k / N)
  have hn : (2 * n + 1 : ℝ) ≠ 0 := by positivity
  have e : windowResponse (fun _ : Fin (2 * n + 1) => 1 / ((2 * n + 1 : ℕ) : ℝ)) (2 * Real.pi * k / N) = 0 ↔
      Real.sin ((2 * n + 1) * (2 * Real.pi * k / N) / 2) = 0 := by
    rw [← h]
    simp [hs, hn]
  rw [e, Real.sin_eq_zero_iff]
  constructor
  · rintro ⟨z, hz⟩
    have h1 : (z : ℝ) * N = (2 * n + 1) * k := by
      field_simp at hz
      linarith
    have h2 : z * (N : ℤ) = ((2 * n + 1) * k : ℕ) := by
      have : ((z * (N : ℤ) : ℤ) : ℝ) = (((2 * n + 1) * k : ℕ) : ℤ) := by push_cast; linarith
      exact_mod_cast this
    exact Int.natCast_dvd_natCast.mp ⟨z, by rw [← h2, mul_comm]⟩
  · rintro ⟨z, hz⟩
    refine ⟨z, ?_⟩
    have h1 : ((2 * n + 1) * k : ℝ) = N * z := by exact_mod_cast hz
    push_cast
    field_simp
    linear_combination -h1

/-- `filter_zonal(·, "boxcar", width)` multiplies every wave by a Dirichlet kernel and `filter_meridional` likewise. -/
theorem C168_boxcar {width : ℝ} {n : ℕ} (hg : g.filterWidth width = (2 * n + 1 : ℕ)) (k : ℕ) (φ : ℝ) :
    ∃ H : ℝ → ℝ, (∀ θ, H θ * ((2 * n + 1) * Real.sin (θ / 2)) = Real.sin ((2 * n + 1) * θ / 2)) ∧ H 0 = 1 ∧ (∀ θ, |H θ| ≤ 1) ∧
      g.filterZonal boxcar (.d1 g.nlon (waveAlong g.nlon k φ)) (.named () width) =
        .ok (.d1 g.nlon fun i => H (2 * Real.pi * k / g.nlon) * waveAlong g.nlon k φ i) ∧
      g.filterMeridional boxcar (.d1 g.nlat (waveAcross g.nlat k)) (.named () width) =
        .ok (.d1 g.nlat fun j => H (Real.pi * k / g.nlat) * waveAcross g.nlat k j) := by
  have hw := boxcar_window hg
  have hs : ∑ _ : Fin (2 * n + 1), 1 / ((2 * n + 1 : ℕ) : ℝ) = 1 := by
    rw [sum_const, card_univ, Fintype.card_fin, nsmul_eq_mul]
    field_simp
  have ho : Odd (2 * n + 1) := ⟨n, rfl⟩
  obtain ⟨h0, hb⟩ := C168_bounded hs
  exact ⟨_, C168_dirichlet n, h0, hb fun _ => by positivity, C168_zonal hw ho rfl k φ, C168_meridional hw ho rfl k⟩

/-- Response of a boxcar window of three gridpoints -/
theorem response_three (θ : ℝ) : windowResponse (fun _ : Fin (2 * 1 + 1) => 1 / ((2 * 1 + 1 : ℕ) : ℝ)) θ = (1 + 2 * Real.cos θ) / 3 := by
  unfold windowResponse
  rw [Fin.sum_univ_three]
  norm_num [Real.cos_neg]
  ring

/-- A window of 90° has three gridpoints on a 30° grid. -/
theorem filterWidth30 : grid30.filterWidth 90 = (2 * 1 + 1 : ℕ) := by
  have h0 : (⌊(3 : ℝ)⌋ : ℤ) = 3 := by exact_mod_cast Int.floor_natCast (R := ℝ) 3
  have h1 : pyRound (90 / grid30.dlon) = 3 := by
    rw [show (90 : ℝ) / grid30.dlon = 3 by unfold grid30 Grid.dlon; norm_num]
    unfold pyRound
    rw [h0]
    norm_num
  unfold Grid.filterWidth
  rw [h1]
  norm_num

/-- The boxcar window does not merely weaken waves: it reverses the shortest one. -/
theorem C168_reversal_refuted : ¬ ∀ (g : Grid ℝ) (width : ℝ) (k : ℕ) (φ : ℝ) (out : Fin g.nlon → ℝ),
    g.filterZonal boxcar (.d1 g.nlon (waveAlong g.nlon k φ)) (.named () width) = .ok (.d1 g.nlon out) →
      ∀ i, 0 ≤ out i * waveAlong g.nlon k φ i := by
  intro h
  have h1 := h grid30 90 6 0 _ (C168_zonal (boxcar_window filterWidth30) ⟨1, rfl⟩ rfl 6 0) ⟨0, by rw [grid30_nlon]; norm_num⟩
  rw [response_three] at h1
  have h2 : (2 * Real.pi * ((6 : ℕ) : ℝ) / (grid30.nlon : ℝ)) = Real.pi := by rw [grid30_nlon]; push_cast; ring
  rw [h2, Real.cos_pi] at h1
  simp [waveAlong] at h1
  norm_num at h1

/-- Windows of three gridpoints remove the wave with four periods on twelve longitudes. -/
example : windowResponse (fun _ : Fin (2 * 1 + 1) => 1 / ((2 * 1 + 1 : ℕ) : ℝ)) (2 * Real.pi * (4 : ℕ) / (12 : ℕ)) = 0 :=
  (C168_removed 12 4 1 (by norm_num) (by norm_num)).mpr (by norm_num)

/-- ... and keep the one with three periods. -/
example : windowResponse (fun _ : Fin (2 * 1 + 1) => 1 / ((2 * 1 + 1 : ℕ) : ℝ)) (2 * Real.pi * (3 : ℕ) / (12 : ℕ)) ≠ 0 :=
  fun h => absurd ((C168_removed 12 3 1 (by norm_num) (by norm_num)).mp h) (by norm_num)

end Barotropic
