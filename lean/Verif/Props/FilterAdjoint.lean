import Verif.Props.FilterTransform

/-!
# C171: filters with symmetric windows are self-adjoint
-/

namespace Barotropic
open Finset

variable {W : Type*} {gw : W → (n : ℕ) → Except PyErr (Fin n → ℝ)} {g : Grid ℝ} {win : WindowArg W ℝ} {m : ℕ} {w : Fin m → ℝ}

/-- The convolution at any integer -/
noncomputable def convolveAt (e : ℤ → ℝ) (w : Fin m → ℝ) (t : ℤ) : ℝ := ∑ k : Fin m, w k * e (t + (m / 2 : ℕ) - k.val)

/-- With a symmetric window the direction does not matter. -/
theorem convolveAt_rev (ho : Odd m) (hr : reversed w = w) (e : ℤ → ℝ) (t : ℤ) :
    convolveAt e w t = ∑ k : Fin m, w k * e (t - ((m / 2 : ℕ) - k.val)) := by
  unfold convolveAt
  rw [← Equiv.sum_comp Fin.revPerm]
  refine sum_congr rfl fun k _ => ?_
  have hk : w k.rev = w k := congrFun hr k
  rw [Fin.revPerm_apply, hk]
  congr 2
  obtain ⟨n, rfl⟩ := ho
  have h3 : (2 * n + 1) / 2 = n := by omega
  have h4 : k.rev.val + k.val = 2 * n := by rw [Fin.val_rev]; omega
  rw [h3]
  omega

theorem convolveAt_adjoint (ho : Odd m) (hr : reversed w = w) {e e' : ℤ → ℝ} {P : ℕ} (he : Function.Periodic e (P : ℤ))
    (he' : Function.Periodic e' (P : ℤ)) :
    ∑ t ∈ range P, convolveAt e w t * e' t = ∑ t ∈ range P, e t * convolveAt e' w t := by
  simp only [convolveAt_rev ho hr e']
  simp only [convolveAt, sum_mul, mul_sum]
  rw [sum_comm, sum_comm (s := range P)]
  refine sum_congr rfl fun k _ => ?_
  have hp : Function.Periodic (fun t : ℤ => e t * (w k * e' (t - ((m / 2 : ℕ) - k.val)))) (P : ℤ) := fun t => by
    dsimp only
    rw [he t, show t + (P : ℤ) - ((m / 2 : ℕ) - k.val) = t - ((m / 2 : ℕ) - k.val) + P by ring, he' _]
  rw [← sum_period hp (((m / 2 : ℕ) : ℤ) - k.val)]
  refine sum_congr rfl fun t _ => ?_
  rw [show (t : ℤ) + (((m / 2 : ℕ) : ℤ) - k.val) - ((m / 2 : ℕ) - k.val) = t by ring, ← add_sub_assoc]
  ring

theorem sum_symmetric {D : ℤ → ℝ} {N : ℕ} (hp : Function.Periodic D ((2 * N : ℕ) : ℤ)) (hs : ∀ t, D (-1 - t) = D t) :
    ∑ t ∈ range (2 * N), D t = 2 * ∑ t ∈ range N, D t := by
  rw [two_mul N, sum_range_add, two_mul (∑ t ∈ range N, D t)]
  congr 1
  rw [← sum_range_reflect]
  refine sum_congr rfl fun t ht => ?_
  have ht' := mem_range.mp ht
  rw [← hs, ← hp]
  congr 1
  push_cast
  omega

/-- C171: zonal and meridional filtering with a symmetric window of odd length are self-adjoint. -/
theorem C171_adjoint (hw : g.resolveWindow gw win = .ok ⟨m, w⟩) (ho : Odd m) (hr : reversed w = w) :
    (∀ f f' out out' : Fin g.nlon → ℝ, g.filterZonal gw (.d1 g.nlon f) win = .ok (.d1 g.nlon out) →
      g.filterZonal gw (.d1 g.nlon f') win = .ok (.d1 g.nlon out') → ∑ i, out i * f' i = ∑ i, f i * out' i) ∧
    (∀ f f' out out' : Fin g.nlat → ℝ, g.filterMeridional gw (.d1 g.nlat f) win = .ok (.d1 g.nlat out) →
      g.filterMeridional gw (.d1 g.nlat f') win = .ok (.d1 g.nlat out') → ∑ j, out j * f' j = ∑ j, f j * out' j) := by
  constructor
  · intro f f' out out' h h'
    rw [zonal_d1 hw ho.pos] at h h'
    cases h
    cases h'
    have h1 := convolveAt_adjoint ho hr (wrapExt_periodic f) (wrapExt_periodic f')
    rw [← Fin.sum_univ_eq_sum_range (fun t : ℕ => convolveAt (wrapExt f) w t * wrapExt f' (t : ℤ)),
      ← Fin.sum_univ_eq_sum_range (fun t : ℕ => wrapExt f (t : ℤ) * convolveAt (wrapExt f') w t)] at h1
    simp only [wrapExt_node] at h1
    exact h1
  · intro f f' out out' h h'
    rw [merid_d1 hw ho.pos] at h h'
    cases h
    cases h'
    have hper : ∀ f : Fin g.nlat → ℝ, Function.Periodic (convolveAt (reflectExt f) w) ((2 * g.nlat : ℕ) : ℤ) := fun f t => by
      unfold convolveAt
      refine sum_congr rfl fun k _ => ?_
      rw [show t + ((2 * g.nlat : ℕ) : ℤ) + (m / 2 : ℕ) - k.val = t + (m / 2 : ℕ) - k.val + ((2 * g.nlat : ℕ) : ℤ) by ring, reflectExt_periodic f _]
    have hsym : ∀ (f : Fin g.nlat → ℝ) (t : ℤ), convolveAt (reflectExt f) w (-1 - t) = convolveAt (reflectExt f) w t := fun f t => by
      rw [convolveAt_rev ho hr]
      unfold convolveAt
      refine sum_congr rfl fun k _ => ?_
      rw [← reflectExt_symm f]
      congr 2
      ring
    have h1 := convolveAt_adjoint ho hr (reflectExt_periodic f) (reflectExt_periodic f')
    have h2 := sum_symmetric (D := fun t => convolveAt (reflectExt f) w t * reflectExt f' t) (N := g.nlat)
      (fun t => by dsimp only; rw [hper f t, reflectExt_periodic f' t]) (fun t => by rw [hsym, reflectExt_symm])
    have h3 := sum_symmetric (D := fun t => reflectExt f t * convolveAt (reflectExt f') w t) (N := g.nlat)
      (fun t => by dsimp only; rw [hper f' t, reflectExt_periodic f t]) (fun t => by rw [hsym, reflectExt_symm])
    rw [h2, h3] at h1
    have h4 := mul_left_cancel₀ two_ne_zero h1
    rw [← Fin.sum_univ_eq_sum_range (fun t : ℕ => convolveAt (reflectExt f) w t * reflectExt f' (t : ℤ)),
      ← Fin.sum_univ_eq_sum_range (fun t : ℕ => reflectExt f (t : ℤ) * convolveAt (reflectExt f') w t)] at h4
    simp only [reflectExt_node] at h4
    exact h4

/-- C171: meridional filtering with a symmetric window multiplies every coefficient of the cosine transform by the response of
the window. -/
theorem C171_cosine (hw : g.resolveWindow gw win = .ok ⟨m, w⟩) (ho : Odd m) (hr : reversed w = w) (f out : Fin g.nlat → ℝ)
    (h : g.filterMeridional gw (.d1 g.nlat f) win = .ok (.d1 g.nlat out)) (k : ℕ) :
    ∑ j : Fin g.nlat, out j * Real.cos (Real.pi * k * (j.val + 1 / 2) / g.nlat) =
      windowResponse w (Real.pi * k / g.nlat) * ∑ j : Fin g.nlat, f j * Real.cos (Real.pi * k * (j.val + 1 / 2) / g.nlat) := by
  have h1 := (C171_adjoint hw ho hr).2 f (waveAcross g.nlat k) out _ h (C168_meridional hw ho hr k)
  unfold waveAcross at h1
  rw [h1, mul_sum]
  exact sum_congr rfl fun j _ => by ring

/-- Non-vacuity of C171: a window of three gridpoints -/
example : grid30.resolveWindow boxcar (.named () 90) = .ok ⟨2 * 1 + 1, fun _ => 1 / ((2 * 1 + 1 : ℕ) : ℝ)⟩ ∧ Odd (2 * 1 + 1) ∧
    reversed (fun _ : Fin (2 * 1 + 1) => 1 / ((2 * 1 + 1 : ℕ) : ℝ)) = fun _ => 1 / ((2 * 1 + 1 : ℕ) : ℝ) :=
  ⟨boxcar_window filterWidth30, ⟨1, rfl⟩, rfl⟩

end Barotropic
