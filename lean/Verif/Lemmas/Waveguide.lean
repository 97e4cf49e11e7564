import Verif.Model.Waveguide
import Verif.Lemmas.GridReal
import Mathlib.Tactic.Linarith
import Mathlib.Tactic.FieldSimp

/-!
# The scan of `extract_ks_waveguides`
-/

namespace Barotropic
open FloatX Grid

variable {g : Grid ℝ}

theorem scan_induct (k : FloatX) (x : ℕ → FloatX) (P : ℕ → Scan → Prop)
    (hstep : ∀ j s, j + 1 < g.nlat → P j s → P (j + 1) (g.scanStep k s (g.lat j) (x j) (x (j + 1)))) :
    ∀ m j s, j + m + 1 = g.nlat → P j s → P (g.nlat - 1) (g.scan k j ((List.range' j (m + 1)).map x) s) := by
  intro m
  induction m with
  | zero =>
    intro j s hj hP
    have : j = g.nlat - 1 := by omega
    subst this
    simpa [List.range', scan] using hP
  | succ m ih =>
    intro j s hj hP
    have e : (List.range' j (m + 1 + 1)).map x = x j :: x (j + 1) :: (List.range' (j + 1 + 1) m).map x := rfl
    rw [e, scan, if_pos (by omega)]
    exact ih (j + 1) _ (by omega) (hstep j s (by omega) hP)

/-- Profile values at all row numbers -/
noncomputable def ksAt (z : Fin g.nlat → FloatX × FloatX) (j : ℕ) : FloatX :=
  if h : j < g.nlat then realVariant (z ⟨j, h⟩) else fin 0

theorem map_ofFn (z : Fin g.nlat → FloatX × FloatX) :
    (List.ofFn z).map realVariant = (List.range' 0 g.nlat).map (ksAt z) := by
  apply List.ext_getElem
  · simp
  · intro j h1 h2
    have hj : j < g.nlat := by simpa using h1
    simp [ksAt, hj]

open Classical in
/-- A property of the scan that holds initially and is preserved holds at the end. -/
theorem extract_induct (hn : 0 < g.nlat) (z : Fin g.nlat → FloatX × FloatX) (k : FloatX × FloatX) (P : ℕ → Scan → Prop)
    (h0 : P 0 ⟨decide ((realVariant k).Le (ksAt z 0)), fin (g.lat 0), []⟩)
    (hstep : ∀ j s, j + 1 < g.nlat → P j s → P (j + 1) (g.scanStep (realVariant k) s (g.lat j) (ksAt z j) (ksAt z (j + 1)))) :
    ∃ s, P (g.nlat - 1) s ∧ g.extractKsWaveguides (List.ofFn z) k =
      .ok (if s.active = true then s.guides ++ [(s.start, fin (g.lat (g.nlat - 1)))] else s.guides) := by
  have hind := scan_induct (realVariant k) (ksAt z) P hstep (g.nlat - 1) 0 _ (by omega) h0
  rw [show g.nlat - 1 + 1 = g.nlat by omega, ← map_ofFn] at hind
  refine ⟨_, hind, ?_⟩
  obtain ⟨z0, zs, hz⟩ : ∃ z0 zs, List.ofFn z = z0 :: zs := by
    rcases hl : List.ofFn z with _ | ⟨a, l⟩
    · have := congrArg List.length hl
      simp at this; omega
    · exact ⟨a, l, rfl⟩
  have hz0 : ksAt z 0 = realVariant z0 := by
    have h1 : z0 = (List.ofFn z)[0]'(by simp; exact hn) := by simp only [hz, List.getElem_cons_zero]
    rw [h1, List.getElem_ofFn]
    simp [ksAt, hn]
  unfold extractKsWaveguides
  rw [hz, hz0]

theorem lat_spacing (hg : g.Valid) (hsp : g.resolution * ((g.nlat : ℝ) - 1) = 180) (j : ℕ) : g.lat j = 90 - j * g.resolution := by
  rw [lat_eq hg, ← hsp, mul_div_assoc, div_self hg.nlatm1_pos.ne', mul_one]

/-- The crossing point between finite values -/
theorem crossing_fin (hg : g.Valid) (hsp : g.resolution * ((g.nlat : ℝ) - 1) = 180) {c a b : ℝ} (hab : b ≠ a) (j : ℕ) :
    g.crossing (fin c) (g.lat j) (fin a) (fin b) = fin (g.lat j - (a - c) / (a - b) * g.resolution) := by
  have h1 : b + -a ≠ 0 := by rw [← sub_eq_add_neg]; exact sub_ne_zero.mpr hab
  have h2 : a - b ≠ 0 := sub_ne_zero.mpr (Ne.symm hab)
  simp only [crossing, sub, neg, add, mul, div, h1, if_false]
  congr 1
  unfold dlat
  have h3 : b + -a = -(a - b) := by ring
  rw [h3, div_neg]
  field_simp
  ring

end Barotropic
