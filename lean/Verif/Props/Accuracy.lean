import Verif.Model.Derivative
import Verif.Lemmas.GridReal
import Verif.Lemmas.Taylor
import Mathlib.Analysis.SpecialFunctions.Trigonometric.Deriv
import Mathlib.Tactic.LinearCombination

/-!
# Accuracy of the meridional derivative: C111
-/

namespace Barotropic
open Grid

/-- Taylor polynomial of degree 4 on equidistant points -/
private theorem taylor4 {F : ℝ → ℝ} (hF : ContDiff ℝ 5 F) {lo hi M : ℝ} (hM : ∀ y ∈ Set.Icc lo hi, |iteratedDeriv 5 F y| ≤ M) (x d : ℝ)
    (hx : x ∈ Set.Icc lo hi) : ∃ c2 c3 c4 : ℝ, ∀ m : ℝ, x + m * d ∈ Set.Icc lo hi → ∃ E : ℝ,
      F (x + m * d) = F x + deriv F x * (m * d) + c2 * (m * d) ^ 2 + c3 * (m * d) ^ 3 + c4 * (m * d) ^ 4 + E ∧
      |E| ≤ |m| ^ 5 * (M * |d| ^ 5 / 120) := by
  refine ⟨iteratedDeriv 2 F x / 2, iteratedDeriv 3 F x / 6, iteratedDeriv 4 F x / 24, fun m hm => ⟨_, (add_sub_cancel _ _).symm, ?_⟩⟩
  have := taylor_bound (n := 5) (b := x + m * d) (by exact_mod_cast hF) fun y hy => hM y (Set.uIcc_subset_Icc hx hm hy)
  simp only [Finset.sum_range_succ, Finset.sum_range_zero, iteratedDeriv_zero, iteratedDeriv_one, add_sub_cancel_left] at this
  have e : M * |m * d| ^ 5 / (Nat.factorial 5 : ℕ) = |m| ^ 5 * (M * |d| ^ 5 / 120) := by
    rw [abs_mul, show Nat.factorial 5 = 120 from rfl]
    push_cast
    ring
  rw [e] at this
  refine le_trans (le_of_eq ?_) this
  congr 1
  rw [show Nat.factorial 2 = 2 from rfl, show Nat.factorial 3 = 6 from rfl, show Nat.factorial 4 = 24 from rfl]
  push_cast [Nat.factorial]
  ring

private theorem taylor2 {F : ℝ → ℝ} (hF : ContDiff ℝ 3 F) {lo hi M : ℝ} (hM : ∀ y ∈ Set.Icc lo hi, |iteratedDeriv 3 F y| ≤ M) (x d : ℝ)
    (hx : x ∈ Set.Icc lo hi) : ∃ c2 : ℝ, ∀ m : ℝ, x + m * d ∈ Set.Icc lo hi → ∃ E : ℝ,
      F (x + m * d) = F x + deriv F x * (m * d) + c2 * (m * d) ^ 2 + E ∧ |E| ≤ |m| ^ 3 * (M * |d| ^ 3 / 6) := by
  refine ⟨iteratedDeriv 2 F x / 2, fun m hm => ⟨_, (add_sub_cancel _ _).symm, ?_⟩⟩
  have := taylor_bound (n := 3) (b := x + m * d) (by exact_mod_cast hF) fun y hy => hM y (Set.uIcc_subset_Icc hx hm hy)
  simp only [Finset.sum_range_succ, Finset.sum_range_zero, iteratedDeriv_zero, iteratedDeriv_one, add_sub_cancel_left] at this
  have e : M * |m * d| ^ 3 / (Nat.factorial 3 : ℕ) = |m| ^ 3 * (M * |d| ^ 3 / 6) := by
    rw [abs_mul, show Nat.factorial 3 = 6 from rfl]
    push_cast
    ring
  rw [e] at this
  refine le_trans (le_of_eq ?_) this
  congr 1
  rw [show Nat.factorial 2 = 2 from rfl]
  push_cast [Nat.factorial]
  ring

/-- Factor of the error of the approximation of order 4: at the poles, beside them and elsewhere -/
noncomputable def error4 (nlat j : ℕ) : ℝ := if j = 0 ∨ j = nlat - 1 then 17 / 3 else if j = 1 ∨ j = nlat - 2 then 19 / 60 else 1 / 18

/-- Factor of the error of the approximation of order 2: at the poles and elsewhere -/
noncomputable def error2 (nlat j : ℕ) : ℝ := if j = 0 ∨ j = nlat - 1 then 1 else 1 / 6

theorem stencil2_error {F : ℝ → ℝ} (hF : ContDiff ℝ 3 F) {lo hi M : ℝ} (hM : ∀ y ∈ Set.Icc lo hi, |iteratedDeriv 3 F y| ≤ M)
    (poles : Bool) {h : ℕ} (hh : 3 ≤ h) (x0 d : ℝ) (a : ℕ → ℝ) (ha : ∀ j < h, x0 + j * d ∈ Set.Icc lo hi ∧ a j = F (x0 + j * d)) {j : ℕ} (hj : j < h)
    (hpole : poles = true ∨ (0 < j ∧ j < h - 1)) :
    |stencil2 poles h a j - 2 * d * deriv F (x0 + j * d)| ≤ 2 * error2 h j * (M * |d| ^ 3) := by
  obtain ⟨n, rfl⟩ : ∃ n, h = n + 3 := ⟨h - 3, by omega⟩
  obtain ⟨c2, key⟩ := taylor2 hF hM (x0 + j * d) d (ha j hj).1
  have e : n + 3 - 3 = n ∧ n + 3 - 2 = n + 1 ∧ n + 3 - 1 = n + 2 := by omega
  unfold stencil2 error2
  rw [e.1, e.2.1, e.2.2]
  rw [e.2.2] at hpole
  have pt : ∀ (i : ℕ) (m : ℝ), i < n + 3 → (i : ℝ) = j + m → ∃ E : ℝ,
      a i = F (x0 + j * d) + deriv F (x0 + j * d) * (m * d) + c2 * (m * d) ^ 2 + E ∧ |E| ≤ |m| ^ 3 * (M * |d| ^ 3 / 6) := by
    intro i m hi hm
    have e : x0 + j * d + m * d = x0 + i * d := by rw [hm]; ring
    obtain ⟨E, h1, h2⟩ := key m (by rw [e]; exact (ha i hi).1)
    exact ⟨E, by rw [(ha i hi).2, ← e, h1], h2⟩
  have ej : a j = F (x0 + j * d) := (ha j hj).2
  generalize F (x0 + j * d) = f0 at *
  generalize deriv F (x0 + j * d) = f1 at *
  generalize M * |d| ^ 3 = X at *
  by_cases h0 : j = 0
  · have hp : poles = true := hpole.resolve_right (by omega)
    subst h0
    rw [if_pos rfl, if_pos hp, if_pos (.inl rfl)]
    obtain ⟨E1, e1, b1⟩ := pt 1 1 (by omega) (by norm_num)
    obtain ⟨E2, e2, b2⟩ := pt 2 2 (by omega) (by norm_num)
    rw [ej, e1, e2]
    norm_num at b1 b2
    rw [abs_le] at *
    constructor <;> linarith
  rw [if_neg h0]
  by_cases h1 : j = n + 2
  · have hp : poles = true := hpole.resolve_right (by omega)
    rw [if_pos h1, if_pos hp, if_pos (.inr h1)]
    obtain ⟨E1, e1, b1⟩ := pt (n + 1) (-1) (by omega) (by rw [h1]; push_cast; ring)
    obtain ⟨E2, e2, b2⟩ := pt n (-2) (by omega) (by rw [h1]; push_cast; ring)
    rw [← h1, ej, e1, e2]
    norm_num at b1 b2
    rw [abs_le] at *
    constructor <;> linarith
  · rw [if_neg h1, if_neg (by omega)]
    obtain ⟨E1, e1, b1⟩ := pt (j + 1) 1 (by omega) (by push_cast; ring)
    obtain ⟨E2, e2, b2⟩ := pt (j - 1) (-1) (by omega) (by rw [Nat.cast_sub (by omega)]; push_cast; ring)
    rw [e1, e2]
    norm_num at b1 b2
    rw [abs_le] at *
    constructor <;> linarith

theorem stencil4_error {F : ℝ → ℝ} (hF : ContDiff ℝ 5 F) {lo hi M : ℝ} (hM : ∀ y ∈ Set.Icc lo hi, |iteratedDeriv 5 F y| ≤ M)
    (poles : Bool) {h : ℕ} (hh : 5 ≤ h) (x0 d : ℝ) (a : ℕ → ℝ) (ha : ∀ j < h, x0 + j * d ∈ Set.Icc lo hi ∧ a j = F (x0 + j * d)) {j : ℕ} (hj : j < h)
    (hpole : poles = true ∨ (0 < j ∧ j < h - 1)) :
    |stencil4 poles h a j - 12 * d * deriv F (x0 + j * d)| ≤ 12 * error4 h j * (M * |d| ^ 5) := by
  obtain ⟨n, rfl⟩ : ∃ n, h = n + 5 := ⟨h - 5, by omega⟩
  obtain ⟨c2, c3, c4, key⟩ := taylor4 hF hM (x0 + j * d) d (ha j hj).1
  have e : n + 5 - 5 = n ∧ n + 5 - 4 = n + 1 ∧ n + 5 - 3 = n + 2 ∧ n + 5 - 2 = n + 3 ∧ n + 5 - 1 = n + 4 := by omega
  unfold stencil4 error4
  rw [e.1, e.2.1, e.2.2.1, e.2.2.2.1, e.2.2.2.2]
  rw [e.2.2.2.2] at hpole
  have pt : ∀ (i : ℕ) (m : ℝ), i < n + 5 → (i : ℝ) = j + m → ∃ E : ℝ,
      a i = F (x0 + j * d) + deriv F (x0 + j * d) * (m * d) + c2 * (m * d) ^ 2 + c3 * (m * d) ^ 3 + c4 * (m * d) ^ 4 + E ∧
      |E| ≤ |m| ^ 5 * (M * |d| ^ 5 / 120) := by
    intro i m hi hm
    have e : x0 + j * d + m * d = x0 + i * d := by rw [hm]; ring
    obtain ⟨E, h1, h2⟩ := key m (by rw [e]; exact (ha i hi).1)
    exact ⟨E, by rw [(ha i hi).2, ← e, h1], h2⟩
  have ej : a j = F (x0 + j * d) := (ha j hj).2
  generalize F (x0 + j * d) = f0 at *
  generalize deriv F (x0 + j * d) = f1 at *
  generalize M * |d| ^ 5 = X at *
  by_cases h0 : j = 0
  · have hp : poles = true := hpole.resolve_right (by omega)
    subst h0
    rw [if_pos rfl, if_pos hp, if_pos (.inl rfl)]
    obtain ⟨E1, e1, b1⟩ := pt 1 1 (by omega) (by norm_num)
    obtain ⟨E2, e2, b2⟩ := pt 2 2 (by omega) (by norm_num)
    obtain ⟨E3, e3, b3⟩ := pt 3 3 (by omega) (by norm_num)
    obtain ⟨E4, e4, b4⟩ := pt 4 4 (by omega) (by norm_num)
    rw [ej, e1, e2, e3, e4]
    norm_num at b1 b2 b3 b4
    rw [abs_le] at *
    constructor <;> linarith
  rw [if_neg h0]
  by_cases h1 : j = n + 4
  · have hp : poles = true := hpole.resolve_right (by omega)
    rw [if_pos h1, if_pos hp, if_pos (.inr h1)]
    obtain ⟨E1, e1, b1⟩ := pt (n + 3) (-1) (by omega) (by rw [h1]; push_cast; ring)
    obtain ⟨E2, e2, b2⟩ := pt (n + 2) (-2) (by omega) (by rw [h1]; push_cast; ring)
    obtain ⟨E3, e3, b3⟩ := pt (n + 1) (-3) (by omega) (by rw [h1]; push_cast; ring)
    obtain ⟨E4, e4, b4⟩ := pt n (-4) (by omega) (by rw [h1]; push_cast; ring)
    rw [← h1, ej, e1, e2, e3, e4]
    norm_num at b1 b2 b3 b4
    rw [abs_le] at *
    constructor <;> linarith
  rw [if_neg h1, if_neg (show ¬(j = 0 ∨ j = n + 4) by omega)]
  by_cases h2 : j = 1
  · subst h2
    rw [if_pos rfl, if_pos (.inl rfl)]
    obtain ⟨E1, e1, b1⟩ := pt 0 (-1) (by omega) (by norm_num)
    obtain ⟨E2, e2, b2⟩ := pt 2 1 (by omega) (by norm_num)
    obtain ⟨E3, e3, b3⟩ := pt 3 2 (by omega) (by norm_num)
    obtain ⟨E4, e4, b4⟩ := pt 4 3 (by omega) (by norm_num)
    rw [ej, e1, e2, e3, e4]
    norm_num at b1 b2 b3 b4
    rw [abs_le] at *
    constructor <;> linarith
  rw [if_neg h2]
  by_cases h3 : j = n + 3
  · rw [if_pos h3, if_pos (.inr h3)]
    obtain ⟨E1, e1, b1⟩ := pt (n + 4) 1 (by omega) (by rw [h3]; push_cast; ring)
    obtain ⟨E2, e2, b2⟩ := pt (n + 2) (-1) (by omega) (by rw [h3]; push_cast; ring)
    obtain ⟨E3, e3, b3⟩ := pt (n + 1) (-2) (by omega) (by rw [h3]; push_cast; ring)
    obtain ⟨E4, e4, b4⟩ := pt n (-3) (by omega) (by rw [h3]; push_cast; ring)
    rw [← h3, ej, e1, e2, e3, e4]
    norm_num at b1 b2 b3 b4
    rw [abs_le] at *
    constructor <;> linarith
  · rw [if_neg h3, if_neg (by omega)]
    obtain ⟨E1, e1, b1⟩ := pt (j + 1) 1 (by omega) (by push_cast; ring)
    obtain ⟨E2, e2, b2⟩ := pt (j - 1) (-1) (by omega) (by rw [Nat.cast_sub (by omega)]; push_cast; ring)
    obtain ⟨E3, e3, b3⟩ := pt (j + 2) 2 (by omega) (by push_cast; ring)
    obtain ⟨E4, e4, b4⟩ := pt (j - 2) (-2) (by omega) (by rw [Nat.cast_sub (by omega)]; push_cast; ring)
    rw [e1, e2, e3, e4]
    norm_num at b1 b2 b3 b4
    rw [abs_le] at *
    constructor <;> linarith

private theorem rows {g : Grid ℝ} (hg : g.Valid) (F : ℝ → ℝ) : ∀ j < g.nlat,
    Real.pi / 2 + j * (-(Real.pi / ((g.nlat : ℝ) - 1))) ∈ Set.Icc (-(Real.pi / 2)) (Real.pi / 2) ∧
    col (fun j : Fin g.nlat => F (g.phi j)) j = F (Real.pi / 2 + j * (-(Real.pi / ((g.nlat : ℝ) - 1)))) := by
  intro j hj
  have h1 := hg.nlatm1_pos
  have hpi := Real.pi_pos
  have h2 : (j : ℝ) ≤ (g.nlat : ℝ) - 1 := by
    have : (j : ℝ) + 1 ≤ g.nlat := by exact_mod_cast hj
    linarith
  have h3 : (j : ℝ) * (Real.pi / ((g.nlat : ℝ) - 1)) ≤ Real.pi := by
    rw [mul_div_assoc', div_le_iff₀ h1]
    nlinarith
  have h4 : 0 ≤ (j : ℝ) * (Real.pi / ((g.nlat : ℝ) - 1)) := by positivity
  refine ⟨⟨by linarith, by linarith⟩, ?_⟩
  unfold col
  rw [dif_pos hj]
  change F (g.phi j) = _
  rw [phi_eq hg]
  congr 1
  ring

private theorem scale {g : Grid ℝ} (hg : g.Valid) (hs : g.resolution * ((g.nlat : ℝ) - 1) = 180) :
    -(Real.pi / ((g.nlat : ℝ) - 1)) = g.dphi ∧ |g.dphi| = Real.pi / ((g.nlat : ℝ) - 1) ∧ 0 < |g.dphi| := by
  have h1 := hg.nlatm1_pos
  have h2 := hg.res_pos
  have h3 := Real.pi_pos
  have h4 : -(Real.pi / ((g.nlat : ℝ) - 1)) = g.dphi := by
    unfold dphi deg2rad dlat
    field_simp
    linarith
  have h5 : 0 < Real.pi / ((g.nlat : ℝ) - 1) := by positivity
  refine ⟨h4, ?_, ?_⟩
  · rw [← h4, abs_neg, abs_of_pos h5]
  · rw [← h4, abs_neg, abs_of_pos h5]; exact h5

private theorem quotient {s d f c X : ℝ} {k p : ℕ} (hk : 0 < k) (hd : 0 < |d|) (h : |s - k * d * f| ≤ k * c * (X * |d| ^ (p + 1))) :
    |s / k / d - f| ≤ c * X * |d| ^ p := by
  have hd0 : d ≠ 0 := abs_pos.mp hd
  have hk' : (0 : ℝ) < k := by exact_mod_cast hk
  have e : s / k / d - f = (s - k * d * f) / (k * d) := by
    field_simp
  rw [e, abs_div, abs_mul, abs_of_pos hk', div_le_iff₀ (by positivity)]
  refine h.trans (le_of_eq ?_)
  rw [pow_succ]
  ring

private theorem dm2 (g : Grid ℝ) {f : Arr ℝ} (h : f.ndim ≤ 2) : g.derivativeMeridional f (.int 2) = g.derivative2 f := by
  unfold derivativeMeridional
  rw [if_neg (by omega), if_pos rfl]

private theorem dm4 (g : Grid ℝ) {f : Arr ℝ} {order : Order} (ho : order = .none ∨ order = .int 4) (h : f.ndim ≤ 2) :
    g.derivativeMeridional f order = g.derivative4 f := by
  unfold derivativeMeridional
  rw [if_neg (by omega), if_neg (by rcases ho with rfl | rfl <;> decide), if_pos ho]

/-- C111: the approximation of order 4 (the default) is accurate to fourth order on every meridian: the error is at most a constant
times the largest fifth derivative and the fourth power of the distance between latitudes. Fields are values of smooth functions of
latitude, a different one on every meridian. -/
theorem C111_order4_2d (g : Grid ℝ) (hg : g.Valid) (hs : g.resolution * ((g.nlat : ℝ) - 1) = 180) (hlat : 5 ≤ g.nlat)
    (order : Order) (ho : order = .none ∨ order = .int 4) (w : ℕ) (F : Fin w → ℝ → ℝ) (hF : ∀ i, ContDiff ℝ 5 (F i)) (M : Fin w → ℝ)
    (hM : ∀ i, ∀ φ ∈ Set.Icc (-(Real.pi / 2)) (Real.pi / 2), |iteratedDeriv 5 (F i) φ| ≤ M i) :
    ∃ out, g.derivativeMeridional (.d2 g.nlat w fun j i => F i (g.phi j)) order = .ok (.d2 g.nlat w out) ∧
      ∀ j i, |out j i - deriv (F i) (g.phi j)| ≤ error4 g.nlat j * M i * (Real.pi / ((g.nlat : ℝ) - 1)) ^ 4 := by
  obtain ⟨e1, e2, e3⟩ := scale hg hs
  refine ⟨fun j i => stencil4 true g.nlat (col fun j : Fin g.nlat => F i (g.phi j)) j / 12 / g.dphi, ?_, fun j i => ?_⟩
  · rw [dm4 g ho (by simp [Arr.ndim, Arr.shape])]
    unfold derivative4
    rw [if_neg (by omega)]
    dsimp only
    rw [if_neg (by omega)]
  · have := stencil4_error (hF i) (hM i) true hlat _ _ _ (rows hg (F i)) j.2 (.inl rfl)
    rw [show Real.pi / 2 + (j : ℕ) * (-(Real.pi / ((g.nlat : ℝ) - 1))) = g.phi j by rw [phi_eq hg]; ring, e1] at this
    rw [← e2]
    exact quotient (k := 12) (by norm_num) e3 this

/-- C111 for profiles: the same between the poles. -/
theorem C111_order4_1d (g : Grid ℝ) (hg : g.Valid) (hs : g.resolution * ((g.nlat : ℝ) - 1) = 180) (hlat : 5 ≤ g.nlat)
    (order : Order) (ho : order = .none ∨ order = .int 4) (F : ℝ → ℝ) (hF : ContDiff ℝ 5 F) (M : ℝ)
    (hM : ∀ φ ∈ Set.Icc (-(Real.pi / 2)) (Real.pi / 2), |iteratedDeriv 5 F φ| ≤ M) :
    ∃ out, g.derivativeMeridional (.d1 g.nlat fun j => F (g.phi j)) order = .ok (.d1 g.nlat out) ∧
      ∀ j : Fin g.nlat, 0 < (j : ℕ) → (j : ℕ) < g.nlat - 1 →
        |out j - deriv F (g.phi j)| ≤ error4 g.nlat j * M * (Real.pi / ((g.nlat : ℝ) - 1)) ^ 4 := by
  obtain ⟨e1, e2, e3⟩ := scale hg hs
  refine ⟨fun j => stencil4 false g.nlat (col fun j : Fin g.nlat => F (g.phi j)) j / 12 / g.dphi, ?_, fun j hj0 hj1 => ?_⟩
  · rw [dm4 g ho (by simp [Arr.ndim, Arr.shape])]
    unfold derivative4
    rw [if_neg (by omega)]
    dsimp only
    rw [if_neg (by omega)]
  · have := stencil4_error hF hM false hlat _ _ _ (rows hg F) j.2 (.inr ⟨hj0, hj1⟩)
    rw [show Real.pi / 2 + (j : ℕ) * (-(Real.pi / ((g.nlat : ℝ) - 1))) = g.phi j by rw [phi_eq hg]; ring, e1] at this
    rw [← e2]
    exact quotient (k := 12) (by norm_num) e3 this

/-- C111: the approximation of order 2 is accurate to second order. -/
theorem C111_order2_2d (g : Grid ℝ) (hg : g.Valid) (hs : g.resolution * ((g.nlat : ℝ) - 1) = 180) (w : ℕ) (F : Fin w → ℝ → ℝ)
    (hF : ∀ i, ContDiff ℝ 3 (F i)) (M : Fin w → ℝ)
    (hM : ∀ i, ∀ φ ∈ Set.Icc (-(Real.pi / 2)) (Real.pi / 2), |iteratedDeriv 3 (F i) φ| ≤ M i) :
    ∃ out, g.derivativeMeridional (.d2 g.nlat w fun j i => F i (g.phi j)) (.int 2) = .ok (.d2 g.nlat w out) ∧
      ∀ j i, |out j i - deriv (F i) (g.phi j)| ≤ error2 g.nlat j * M i * (Real.pi / ((g.nlat : ℝ) - 1)) ^ 2 := by
  obtain ⟨e1, e2, e3⟩ := scale hg hs
  have hlat := hg.nlat_ge
  refine ⟨fun j i => stencil2 true g.nlat (col fun j : Fin g.nlat => F i (g.phi j)) j / 2 / g.dphi, ?_, fun j i => ?_⟩
  · rw [dm2 g (by simp [Arr.ndim, Arr.shape])]
    unfold derivative2
    rw [if_neg (by omega)]
    dsimp only
    rw [if_neg (by omega)]
  · have := stencil2_error (hF i) (hM i) true hlat _ _ _ (rows hg (F i)) j.2 (.inl rfl)
    rw [show Real.pi / 2 + (j : ℕ) * (-(Real.pi / ((g.nlat : ℝ) - 1))) = g.phi j by rw [phi_eq hg]; ring, e1] at this
    rw [← e2]
    exact quotient (k := 2) (by norm_num) e3 this

theorem C111_order2_1d (g : Grid ℝ) (hg : g.Valid) (hs : g.resolution * ((g.nlat : ℝ) - 1) = 180) (F : ℝ → ℝ) (hF : ContDiff ℝ 3 F) (M : ℝ)
    (hM : ∀ φ ∈ Set.Icc (-(Real.pi / 2)) (Real.pi / 2), |iteratedDeriv 3 F φ| ≤ M) :
    ∃ out, g.derivativeMeridional (.d1 g.nlat fun j => F (g.phi j)) (.int 2) = .ok (.d1 g.nlat out) ∧
      ∀ j : Fin g.nlat, 0 < (j : ℕ) → (j : ℕ) < g.nlat - 1 →
        |out j - deriv F (g.phi j)| ≤ error2 g.nlat j * M * (Real.pi / ((g.nlat : ℝ) - 1)) ^ 2 := by
  obtain ⟨e1, e2, e3⟩ := scale hg hs
  have hlat := hg.nlat_ge
  refine ⟨fun j => stencil2 false g.nlat (col fun j : Fin g.nlat => F (g.phi j)) j / 2 / g.dphi, ?_, fun j hj0 hj1 => ?_⟩
  · rw [dm2 g (by simp [Arr.ndim, Arr.shape])]
    unfold derivative2
    rw [if_neg (by omega)]
  · have := stencil2_error hF hM false hlat _ _ _ (rows hg F) j.2 (.inr ⟨hj0, hj1⟩)
    rw [show Real.pi / 2 + (j : ℕ) * (-(Real.pi / ((g.nlat : ℝ) - 1))) = g.phi j by rw [phi_eq hg]; ring, e1] at this
    rw [← e2]
    exact quotient (k := 2) (by norm_num) e3 this

/-- Non-vacuity: the sine on a 30° grid -/
example : ∃ g : Grid ℝ, g.Valid ∧ g.resolution * ((g.nlat : ℝ) - 1) = 180 ∧ 5 ≤ g.nlat ∧ ContDiff ℝ 5 Real.sin ∧
    ∀ φ, |iteratedDeriv 5 Real.sin φ| ≤ 1 := by
  have h1 : (⟨30, 1, 1, 2⟩ : Grid ℝ).nlat = 7 := by
    have : ⌊180 / (30 : ℝ)⌋₊ = 6 := by rw [Nat.floor_eq_iff (by norm_num)]; constructor <;> norm_num
    unfold Grid.nlat nlatOf; simp only [this]
  have h2 : (⟨30, 1, 1, 2⟩ : Grid ℝ).nlon = 12 := by
    have : ⌊360 / (30 : ℝ)⌋₊ = 12 := by rw [Nat.floor_eq_iff (by norm_num)]; constructor <;> norm_num
    unfold Grid.nlon nlonOf; simp only [this]
  refine ⟨⟨30, 1, 1, 2⟩, ⟨by norm_num, by norm_num, by rw [h2]; norm_num, by rw [h1]; norm_num, by rw [h1]; norm_num⟩,
    by rw [h1]; norm_num, by rw [h1]; norm_num, Real.contDiff_sin, fun φ => ?_⟩
  have : iteratedDeriv 5 Real.sin = Real.cos := by
    simp only [iteratedDeriv_succ, iteratedDeriv_zero, Real.deriv_sin, Real.deriv_cos', deriv.fun_neg', neg_neg]
  rw [this]
  exact Real.abs_cos_le_one φ

end Barotropic
