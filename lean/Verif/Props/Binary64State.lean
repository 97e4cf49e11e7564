import Verif.Model.Binary64State
import Verif.Lemmas.Binary64Quot
import Verif.Props.Binary64Mean
import Mathlib.Analysis.SpecialFunctions.Exp

set_option linter.unusedSectionVars false

/-!
# C139: values of states, forcings and initial conditions in double precision
-/

namespace Barotropic
open Binary64

variable {K : Type*} [Field K] [LinearOrder K] [IsStrictOrderedRing K] [FloorRing K]

theorem rnd_eq_zero {x : K} : rnd x = 0 ↔ x = 0 := by
  constructor
  · intro h
    rcases lt_trichotomy x 0 with hx | hx | hx
    · have := rnd_pos (x := -x) (by linarith)
      rw [rnd_neg, h] at this
      linarith
    · exact hx
    · have := rnd_pos hx; linarith
  · rintro rfl; exact rnd_zero

theorem rnd_half {x : K} (hx : IsDouble x) : rnd (1 / 2 * x) = 1 / 2 * x := by
  obtain ⟨n, e, hn, rfl⟩ := hx
  refine rnd_double ⟨n, e - 1, hn, ?_⟩
  rw [zpow_sub₀ (by norm_num)]
  ring

/-- Vorticity of a state at rest is exactly zero; vorticity from which a state was made is recovered up to rounding errors of the size
of PV. -/
theorem C139_vorticity (f ζ : K) :
    vorticityOf f f = 0 ∧ (IsDouble f → pvOfVorticity f 0 = f) ∧
      |vorticityOf f (pvOfVorticity f ζ) - ζ| ≤ (|f + ζ| * (1 + 1 / 2 ^ 53) + |ζ|) / 2 ^ 53 := by
  refine ⟨by simp [vorticityOf, rnd_zero], fun h => by simp [pvOfVorticity, rnd_double h], ?_⟩
  unfold vorticityOf pvOfVorticity
  have h1 := rnd_rel (f + ζ)
  generalize rnd (f + ζ) = p at *
  have h2 := rnd_rel (p - f)
  generalize rnd (p - f) = z at *
  have h3 : |p - f| ≤ |ζ| + |f + ζ| / 2 ^ 53 := by
    rw [show p - f = ζ - (f + ζ - p) by ring]
    exact (abs_sub _ _).trans (by linarith)
  have h4 : |z - ζ| ≤ |p - f - z| + |f + ζ - p| := by
    rw [show z - ζ = -((p - f - z) + (f + ζ - p)) by ring, abs_neg]
    exact abs_add_le _ _
  have h5 := div_le_div_of_nonneg_right h3 (show (0 : K) ≤ 2 ^ 53 by positivity)
  have e : (|f + ζ| * (1 + 1 / 2 ^ 53) + |ζ|) / 2 ^ 53 = (|ζ| + |f + ζ| / 2 ^ 53) / 2 ^ 53 + |f + ζ| / 2 ^ 53 := by ring
  linarith

/-- Vorticity is not recovered exactly: small values are lost, and addition of vorticity is not symmetric. -/
theorem C139_vorticity_refuted : (∃ f ζ : ℚ, IsDouble f ∧ IsDouble ζ ∧ 0 < ζ ∧ vorticityOf f (pvOfVorticity f ζ) = 0) ∧
    ∃ f p p' : ℚ, IsDouble f ∧ IsDouble p ∧ IsDouble p' ∧ Binary64.addVorticity f p p' ≠ Binary64.addVorticity f p' p := by
  refine ⟨⟨1, 1 / 2 ^ 60, ⟨1, 0, by norm_num, by norm_num⟩, ⟨1, -60, by norm_num, by norm_num⟩, by norm_num, by decide +kernel⟩, 1, 1 + 1 / 2 ^ 52, 1 / 2 ^ 60,
    ⟨1, 0, by norm_num, by norm_num⟩, ⟨2 ^ 52 + 1, -52, by norm_num, by norm_num⟩, ⟨1, -60, by norm_num, by norm_num⟩, by decide +kernel⟩

/-- Enstrophy and energy: never negative, zero only for zero PV and wind, relative error of one and two roundings. -/
theorem C139_energy (pv u v : K) :
    0 ≤ enstrophy pv ∧ (enstrophy pv = 0 ↔ pv = 0) ∧ Near 1 (pv ^ 2 / 2) (enstrophy pv) ∧ enstrophy (-pv) = enstrophy pv ∧
      0 ≤ energy u v ∧ (energy u v = 0 ↔ u = 0 ∧ v = 0) ∧ Near 2 ((u ^ 2 + v ^ 2) / 2) (energy u v) ∧ energy u v = energy v u := by
  have hu : (0 : K) ≤ u * u := mul_self_nonneg u
  have hv : (0 : K) ≤ v * v := mul_self_nonneg v
  have e1 : enstrophy pv = 1 / 2 * rnd (pv * pv) := rnd_half (rnd_isDouble _)
  have e2 : energy u v = 1 / 2 * rnd (rnd (u * u) + rnd (v * v)) := rnd_half (rnd_isDouble _)
  have n1 := (Near.refl (pv * pv)).rnd (mul_self_nonneg pv)
  have n2 := (((Near.refl (u * u)).rnd hu).add ((Near.refl (v * v)).rnd hv)).rnd (add_nonneg hu hv)
  refine ⟨?_, ?_, ?_, ?_, ?_, ?_, ?_, ?_⟩
  · rw [e1]; exact mul_nonneg (by norm_num) (rnd_nonneg (mul_self_nonneg pv))
  · rw [e1]; simp [rnd_eq_zero]
  · rw [e1]
    unfold Near at *
    constructor <;> linarith [n1.1, n1.2, sq pv]
  · unfold enstrophy; rw [neg_mul_neg]
  · rw [e2]; exact mul_nonneg (by norm_num) (rnd_nonneg (add_nonneg (rnd_nonneg hu) (rnd_nonneg hv)))
  · rw [e2]
    have h1 := rnd_nonneg hu
    have h2 := rnd_nonneg hv
    rw [mul_eq_zero, or_iff_right (by norm_num), rnd_eq_zero, add_eq_zero_iff_of_nonneg h1 h2, rnd_eq_zero, rnd_eq_zero, mul_self_eq_zero,
      mul_self_eq_zero]
  · rw [e2]
    unfold Near at *
    constructor <;> linarith [n2.1, n2.2, sq u, sq v]
  · unfold energy; rw [add_comm]

/-- Eddy enstrophy of zonally symmetric PV need not be zero. -/
theorem C139_eddy_refuted : ∃ (t : SumTree) (c : ℚ), IsDouble c ∧ t.leaves = [0, 1, 2] ∧ 0 < eddyEnstrophy t 3 (fun _ => c) 0 :=
  ⟨.node (.node (.leaf 0) (.leaf 1)) (.leaf 2), rnd (1 / 10), rnd_isDouble _, rfl, by decide +kernel⟩

/-- Eddy enstrophy: never negative, zero only where PV equals its computed mean; half the square of the difference from the mean up to
rounding errors relative to the size of PV. -/
theorem C139_eddy {w : ℕ} {t : SumTree} (ht : t.Sums w) (hw : 0 < w) (pv : ℕ → K) (i : ℕ) :
    0 ≤ eddyEnstrophy t w pv i ∧ (eddyEnstrophy t w pv i = 0 ↔ pv i = meanZonal t w pv) ∧
      |eddyEnstrophy t w pv i - (pv i - (∑ i ∈ Finset.range w, pv i) / w) ^ 2 / 2| ≤
        (|pv i| + (∑ i ∈ Finset.range w, |pv i|) / w) ^ 2 / 2 * ((1 + 1 / 2 ^ 53) ^ (2 * t.depth + 5) - 1) := by
  have hw' : (0 : K) < w := by exact_mod_cast hw
  obtain ⟨h1, h2, -, -, -⟩ := C139_energy (rnd (pv i - meanZonal t w pv)) 0 0
  refine ⟨h1, by rw [eddyEnstrophy, h2, rnd_eq_zero, sub_eq_zero], ?_⟩
  have hb : |(∑ i ∈ Finset.range w, pv i) / w| ≤ (∑ i ∈ Finset.range w, |pv i|) / w :=
    abs_div_le hw'.le (Finset.abs_sum_le_sum_abs _ _)
  have hm : Close (t.depth + 1) ((∑ i ∈ Finset.range w, |pv i|) / w) ((∑ i ∈ Finset.range w, pv i) / w) (meanZonal t w pv) :=
    C136_zonal ht hw pv
  have hp : Close (t.depth + 1) |pv i| (pv i) (pv i) := (Close.refl _ _).mono (abs_nonneg _) (by omega)
  have hs : |pv i - (∑ i ∈ Finset.range w, pv i) / w| ≤ |pv i| + (∑ i ∈ Finset.range w, |pv i|) / w :=
    (abs_sub _ _).trans (by linarith)
  have hd := (hp.sub hm).rnd hs
  have hq := (Close.mul hs hs hd hd).rnd (by rw [abs_mul]; exact mul_le_mul hs hs (abs_nonneg _) ((abs_nonneg _).trans hs))
  have e1 : eddyEnstrophy t w pv i = 1 / 2 * rnd (rnd (pv i - meanZonal t w pv) * rnd (pv i - meanZonal t w pv)) :=
    rnd_half (rnd_isDouble _)
  rw [e1]
  unfold Close at hq
  rw [show t.depth + 1 + 1 + (t.depth + 1 + 1) + 1 = 2 * t.depth + 5 by ring] at hq
  generalize rnd (rnd (pv i - meanZonal t w pv) * rnd (pv i - meanZonal t w pv)) = y at *
  generalize ((1 : K) + 1 / 2 ^ 53) ^ (2 * t.depth + 5) - 1 = E at *
  rw [abs_le] at hq ⊢
  constructor <;> linarith [hq.1, hq.2]

/-- Relaxation: exactly zero at the reference and only there, towards the reference elsewhere, relative error of two roundings. -/
theorem C139_relaxation {rate : K} (hr : 0 < rate) (ref pv : K) :
    (relaxation rate ref pv = 0 ↔ pv = ref) ∧ (0 < relaxation rate ref pv ↔ pv < ref) ∧ (relaxation rate ref pv < 0 ↔ ref < pv) ∧
      |relaxation rate ref pv - rate * (ref - pv)| ≤ rate * |ref - pv| * ((1 + 1 / 2 ^ 53) ^ 2 - 1) := by
  have hpos : ∀ x : K, 0 < rnd x ↔ 0 < x := fun x => by
    constructor
    · intro h
      refine lt_of_le_of_ne (rnd_nonneg_iff.1 h.le) fun h0 => ?_
      rw [← h0, rnd_zero] at h
      exact h.false
    · exact rnd_pos
  have hp : ∀ a b : K, 0 < relaxation rate a b ↔ b < a := fun a b => by
    unfold relaxation
    rw [hpos, mul_pos_iff_of_pos_left hr, hpos, sub_pos]
  refine ⟨?_, hp ref pv, ?_, ?_⟩
  · unfold relaxation
    rw [rnd_eq_zero, mul_eq_zero, or_iff_right hr.ne', rnd_eq_zero, sub_eq_zero, eq_comm]
  · rw [← hp pv ref]
    have : relaxation rate pv ref = -relaxation rate ref pv := by
      unfold relaxation
      rw [← rnd_neg, ← mul_neg, ← rnd_neg, neg_sub]
    rw [this, neg_pos]
  · have c1 : Close 1 |ref - pv| (ref - pv) (rnd (ref - pv)) := (Close.refl _ _).rnd le_rfl
    have c2 := ((Close.refl rate rate).mul (abs_of_pos hr).le le_rfl c1).rnd (by rw [abs_mul, abs_of_pos hr])
    exact c2

/-- Orographic forcing: exactly zero over flat terrain and without wind, opposite for opposite wind, slope or rotation; relative to the sizes of
its two terms the error is that of four roundings. -/
theorem C139_orographic {h : K} (hh : 0 < h) (f u v gx gy : K) :
    orographic f h u v 0 0 = 0 ∧ orographic f h 0 0 gx gy = 0 ∧ orographic 0 h u v gx gy = 0 ∧
      orographic (-f) h u v gx gy = -orographic f h u v gx gy ∧ orographic f h (-u) (-v) gx gy = -orographic f h u v gx gy ∧
      orographic f h u v (-gx) (-gy) = -orographic f h u v gx gy ∧
      |orographic f h u v gx gy - -f / h * (u * gx + v * gy)| ≤
        |f| / h * (|u * gx| + |v * gy|) * ((1 + 1 / 2 ^ 53) ^ 4 - 1) := by
  have hneg : ∀ a b : K, rnd (rnd (-a) + rnd (-b)) = -rnd (rnd a + rnd b) := fun a b => by
    rw [rnd_neg, rnd_neg, ← neg_add, rnd_neg]
  refine ⟨?_, ?_, ?_, ?_, ?_, ?_, ?_⟩
  · simp [orographic, rnd_zero]
  · simp [orographic, rnd_zero]
  · simp [orographic, rnd_zero]
  · unfold orographic
    rw [neg_div, rnd_neg, neg_mul, rnd_neg]
  · unfold orographic
    rw [neg_mul, neg_mul, hneg, mul_neg, rnd_neg]
  · unfold orographic
    rw [mul_neg, mul_neg, hneg, mul_neg, rnd_neg]
  · have c1 : Close 1 |u * gx| (u * gx) (rnd (u * gx)) := (Close.refl _ _).rnd le_rfl
    have c2 : Close 1 |v * gy| (v * gy) (rnd (v * gy)) := (Close.refl _ _).rnd le_rfl
    have b3 : |u * gx + v * gy| ≤ |u * gx| + |v * gy| := abs_add_le _ _
    have c3 := (c1.add c2).rnd b3
    have b4 : |-f / h| ≤ |f| / h := by rw [abs_div, abs_neg, abs_of_pos hh]
    have c4 : Close 1 (|f| / h) (-f / h) (rnd (-f / h)) := (Close.refl _ _).rnd b4
    have c5 := (c4.mul b4 b3 c3).rnd (by rw [abs_mul]; exact mul_le_mul b4 b3 (abs_nonneg _) ((abs_nonneg _).trans b4))
    exact c5

/-- The bell shape for a library function `ex` with an error of at most 2⁻⁵³: eight roundings, relative to the exponent if that is large. -/
theorem C139_bell {ex : ℝ → ℝ} (hex : ∀ x ≤ 0, |ex x - Real.exp x| ≤ 1 / 2 ^ 53) (amplitude center lat : ℝ) {σ : ℝ} (hσ : σ ≠ 0) :
    |bell ex amplitude center σ lat - amplitude * Real.exp (-(lat - center) ^ 2 / (2 * σ ^ 2))| ≤
      |amplitude| * (1 + (lat - center) ^ 2 / (2 * σ ^ 2)) * ((1 + 1 / 2 ^ 53) ^ 8 - 1) := by
  have c1 : Close 1 |lat - center| (lat - center) (rnd (lat - center)) := (Close.refl _ _).rnd le_rfl
  have c2 := (c1.mul le_rfl le_rfl c1).rnd (by rw [abs_mul])
  have b2 : |(lat - center) * (lat - center)| ≤ |lat - center| * |lat - center| := by rw [abs_mul]
  have h2 : |(-(1 / 2) : ℝ)| ≤ 1 / 2 := by rw [abs_neg, abs_of_pos (by norm_num)]
  have b3 : |-(1 / 2) * ((lat - center) * (lat - center))| ≤ 1 / 2 * (|lat - center| * |lat - center|) := by
    rw [abs_mul]; exact mul_le_mul h2 b2 (abs_nonneg _) (by norm_num)
  have c3 := ((Close.refl (1 / 2 : ℝ) (-(1 / 2))).mul h2 b2 c2).rnd b3
  have hs : σ * σ ≠ 0 := mul_self_ne_zero.2 hσ
  have cs : Close 1 |σ * σ| (σ * σ) (rnd (σ * σ)) := (Close.refl _ _).rnd le_rfl
  have b4 := abs_quot_le (d := σ * σ) b3
  have c4 := (Close.quot (by norm_num) hs b3 c3 cs).rnd b4
  have eX : 1 / 2 * (|lat - center| * |lat - center|) / |σ * σ| = (lat - center) ^ 2 / (2 * σ ^ 2) := by
    rw [abs_mul_abs_self, abs_mul_self]
    field_simp
  have ex' : -(1 / 2) * ((lat - center) * (lat - center)) / (σ * σ) = -(lat - center) ^ 2 / (2 * σ ^ 2) := by
    field_simp
  rw [eX, ex'] at c4
  rw [eX, ex'] at b4
  have hneg : rnd (rnd (-(1 / 2) * rnd (rnd (lat - center) * rnd (lat - center))) / rnd (σ * σ)) ≤ 0 := by
    have h1 : 0 ≤ rnd (rnd (lat - center) * rnd (lat - center)) := rnd_nonneg (mul_self_nonneg _)
    have h2 : 0 ≤ rnd (σ * σ) := rnd_nonneg (mul_self_nonneg _)
    have h3 : 0 ≤ rnd (1 / 2 * rnd (rnd (lat - center) * rnd (lat - center))) := rnd_nonneg (mul_nonneg (by norm_num) h1)
    rw [neg_mul, rnd_neg, neg_div, rnd_neg, neg_nonpos]
    exact rnd_nonneg (div_nonneg h3 h2)
  have hneg' : -(lat - center) ^ 2 / (2 * σ ^ 2) ≤ 0 := by
    rw [neg_div, neg_nonpos]; positivity
  have hX : 0 ≤ (lat - center) ^ 2 / (2 * σ ^ 2) := by positivity
  unfold bell
  generalize (lat - center) ^ 2 / (2 * σ ^ 2) = X at *
  generalize -(lat - center) ^ 2 / (2 * σ ^ 2) = x at *
  generalize rnd (rnd (-(1 / 2) * rnd (rnd (lat - center) * rnd (lat - center))) / rnd (σ * σ)) = x' at *
  have lip : |Real.exp x' - Real.exp x| ≤ |x' - x| := by
    have key : ∀ a b : ℝ, a ≤ b → b ≤ 0 → Real.exp b - Real.exp a ≤ b - a := fun a b hab hb => by
      have h1 : Real.exp b ≤ 1 := Real.exp_le_one_iff.2 hb
      have h2 : a - b + 1 ≤ Real.exp (a - b) := Real.add_one_le_exp _
      have h3 : Real.exp a = Real.exp b * Real.exp (a - b) := by rw [← Real.exp_add]; congr 1; ring
      have h4 : Real.exp b * (a - b + 1) ≤ Real.exp b * Real.exp (a - b) := mul_le_mul_of_nonneg_left h2 (Real.exp_pos b).le
      have h5 : Real.exp b * (b - a) ≤ 1 * (b - a) := mul_le_mul_of_nonneg_right h1 (by linarith)
      rw [h3]
      linarith
    rcases le_total x x' with h | h
    · rw [abs_of_nonneg (sub_nonneg.2 (Real.exp_le_exp.2 h)), abs_of_nonneg (sub_nonneg.2 h)]
      exact key x x' h hneg
    · rw [abs_sub_comm, abs_sub_comm x', abs_of_nonneg (sub_nonneg.2 (Real.exp_le_exp.2 h)), abs_of_nonneg (sub_nonneg.2 h)]
      exact key x' x h hneg'
  have c5 : Close 7 (1 + X) (Real.exp x) (ex x') := by
    have h1 := hex x' hneg
    have c4 : |x' - x| ≤ X * ((1 + 1 / 2 ^ 53) ^ 7 - 1) := c4
    have h9 : (1 : ℝ) / 2 ^ 53 ≤ (1 + 1 / 2 ^ 53) ^ 7 - 1 := by norm_num
    unfold Close
    have := abs_sub_le (ex x') (Real.exp x') (Real.exp x)
    linarith
  have b5 : |Real.exp x| ≤ 1 + X := by
    rw [abs_of_pos (Real.exp_pos x)]
    linarith [Real.exp_le_one_iff.2 hneg']
  exact ((Close.refl |amplitude| amplitude).mul le_rfl b5 c5).rnd
    (by rw [abs_mul]; exact mul_le_mul_of_nonneg_left b5 (abs_nonneg _))

/-- The wind of a Gaussian jet at latitude `lat`: five roundings relative to the size of its terms. -/
theorem C139_levelled {us un u lat : K} (hlat : |lat| ≤ 90) :
    |levelled us un u lat - (u - 1 / 2 * (us + un) + (us - un) * lat / 180)| ≤ (|u| + |us| + |un|) * ((1 + 1 / 2 ^ 53) ^ 5 - 1) := by
  have b1 : |us + un| ≤ |us| + |un| := abs_add_le _ _
  have c1 : Close 1 (|us| + |un|) (us + un) (rnd (us + un)) := (Close.refl _ _).rnd b1
  have h2 : |(1 / 2 : K)| ≤ 1 / 2 := by rw [abs_of_pos (by norm_num)]
  have b2 : |1 / 2 * (us + un)| ≤ 1 / 2 * (|us| + |un|) := by
    rw [abs_mul]; exact mul_le_mul h2 b1 (abs_nonneg _) (by norm_num)
  have c2 := ((Close.refl (1 / 2 : K) (1 / 2)).mul h2 b1 c1).rnd b2
  have b3 : |u - 1 / 2 * (us + un)| ≤ |u| + 1 / 2 * (|us| + |un|) := (abs_sub _ _).trans (add_le_add le_rfl b2)
  have c3 := (((Close.refl |u| u).mono (abs_nonneg _) (Nat.zero_le _)).sub c2).rnd b3
  have b4 : |us - un| ≤ |us| + |un| := abs_sub _ _
  have c4 : Close 1 (|us| + |un|) (us - un) (rnd (us - un)) := (Close.refl _ _).rnd b4
  have h0 : 0 ≤ |us| + |un| := (abs_nonneg _).trans b4
  have b5 : |(us - un) * lat| ≤ (|us| + |un|) * 90 := by rw [abs_mul]; exact mul_le_mul b4 hlat (abs_nonneg _) h0
  have c5 := (c4.mul b4 hlat (Close.refl 90 lat)).rnd b5
  have h180 : (0 : K) < 180 := by norm_num
  have b6 : |(us - un) * lat / 180| ≤ (|us| + |un|) * 90 / 180 := by
    rw [abs_div, abs_of_pos h180]; exact div_le_div_of_nonneg_right b5 h180.le
  have c6 := (c5.div h180).rnd b6
  have h6 : 0 ≤ (|us| + |un|) * 90 / 180 := (abs_nonneg _).trans b6
  have c7 := ((c3.mono (m := 4) ((abs_nonneg _).trans b3) (by norm_num)).add (c6.mono (m := 4) h6 (by norm_num))).rnd
    ((abs_add_le _ _).trans (add_le_add b3 b6))
  have e : |u| + 1 / 2 * (|us| + |un|) + (|us| + |un|) * 90 / 180 = |u| + |us| + |un| := by ring
  rw [e] at c7
  exact c7

/-- Hence there is almost no wind at the poles. -/
theorem C139_jet_poles (ex : K → K) (amplitude center σ : K) :
    |jet ex amplitude center σ 90| ≤
        (2 * |bell ex amplitude center σ 90| + |bell ex amplitude center σ (-90)|) * ((1 + 1 / 2 ^ 53) ^ 5 - 1) ∧
      |jet ex amplitude center σ (-90)| ≤
        (2 * |bell ex amplitude center σ (-90)| + |bell ex amplitude center σ 90|) * ((1 + 1 / 2 ^ 53) ^ 5 - 1) := by
  unfold jet
  generalize bell ex amplitude center σ 90 = n
  generalize bell ex amplitude center σ (-90) = s
  have h1 := C139_levelled (us := s) (un := n) (u := n) (lat := 90) (by rw [abs_of_pos (by norm_num)])
  have h2 := C139_levelled (us := s) (un := n) (u := s) (lat := -90) (by rw [abs_neg, abs_of_pos (by norm_num)])
  rw [show n - 1 / 2 * (s + n) + (s - n) * 90 / 180 = 0 by ring, sub_zero] at h1
  rw [show s - 1 / 2 * (s + n) + (s - n) * -90 / 180 = 0 by ring, sub_zero] at h2
  exact ⟨h1.trans (le_of_eq (by ring)), h2.trans (le_of_eq (by ring))⟩

/-- But not always none at all. -/
theorem C139_jet_poles_refuted : ∃ us un : ℚ, IsDouble us ∧ IsDouble un ∧ levelled us un un 90 ≠ 0 :=
  ⟨rnd (1 / 10), rnd (1 / 5), rnd_isDouble _, rnd_isDouble _, by decide +kernel⟩

/-! ### Non-vacuity -/

example : pvOfVorticity (1 : ℚ) (1 / 2) = 3 / 2 ∧ vorticityOf (1 : ℚ) (3 / 2) = 1 / 2 ∧ Binary64.addVorticity (1 : ℚ) 2 3 = 4 ∧ enstrophy (3 : ℚ) = 9 / 2 ∧
    energy (3 : ℚ) 4 = 25 / 2 ∧ relaxation (1 / 2 : ℚ) 3 1 = 1 ∧ orographic (2 : ℚ) 4 3 1 2 (-2) = -2 ∧
    jet (fun x : ℚ => 1 + x) 8 0 90 0 = 4 ∧ eddyEnstrophy (.node (.leaf 0) (.leaf 1)) 2 (fun i => ((2 * i : ℕ) : ℚ)) 0 = 1 / 2 := by
  decide +kernel

end Barotropic
