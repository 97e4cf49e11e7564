import Verif.Model.Derivative
import Verif.Lemmas.GridReal
import Mathlib.Algebra.Polynomial.Derivative
import Mathlib.Tactic.LinearCombination

/-!
# C13, C14: meridional derivative
-/

namespace Barotropic
open Grid Polynomial

private theorem eval_deg4 {p : ℝ[X]} (hp : p.natDegree ≤ 4) (x : ℝ) :
    p.eval x = p.coeff 0 + p.coeff 1 * x + p.coeff 2 * x ^ 2 + p.coeff 3 * x ^ 3 + p.coeff 4 * x ^ 4 := by
  rw [eval_eq_sum_range' (n := 5) (by omega)]
  simp [Finset.sum_range_succ]

private theorem deriv_deg4 {p : ℝ[X]} (hp : p.natDegree ≤ 4) (x : ℝ) :
    p.derivative.eval x = p.coeff 1 + 2 * p.coeff 2 * x + 3 * p.coeff 3 * x ^ 2 + 4 * p.coeff 4 * x ^ 3 := by
  rw [eval_eq_sum_range' (n := 4) (lt_of_le_of_lt (natDegree_derivative_le p) (by omega))]
  simp only [Finset.sum_range_succ, coeff_derivative, Finset.sum_range_zero]
  norm_num
  ring

private theorem eval_deg2 {p : ℝ[X]} (hp : p.natDegree ≤ 2) (x : ℝ) :
    p.eval x = p.coeff 0 + p.coeff 1 * x + p.coeff 2 * x ^ 2 := by
  rw [eval_eq_sum_range' (n := 3) (by omega)]
  simp [Finset.sum_range_succ]

private theorem deriv_deg2 {p : ℝ[X]} (hp : p.natDegree ≤ 2) (x : ℝ) :
    p.derivative.eval x = p.coeff 1 + 2 * p.coeff 2 * x := by
  rw [eval_eq_sum_range' (n := 2) (lt_of_le_of_lt (natDegree_derivative_le p) (by omega))]
  simp only [Finset.sum_range_succ, coeff_derivative, Finset.sum_range_zero]
  norm_num
  exact Or.inl (by ring)

/-- One column: on equidistant points `x0 + j*d` the stencils differentiate polynomials exactly (up to `2d`, `12d`). -/
private theorem stencil2_poly {p : ℝ[X]} (hp : p.natDegree ≤ 2) (poles : Bool) {h : ℕ} (hh : 3 ≤ h) (x0 d : ℝ)
    (a : ℕ → ℝ) (ha : ∀ j < h, a j = p.eval (x0 + j * d)) {j : ℕ} (hj : j < h)
    (hpole : poles = true ∨ (0 < j ∧ j < h - 1)) :
    stencil2 poles h a j = 2 * d * p.derivative.eval (x0 + j * d) := by
  obtain ⟨n, rfl⟩ : ∃ n, h = n + 3 := ⟨h - 3, by omega⟩
  unfold stencil2
  split_ifs with h0 h1 h2 h3
  · subst h0
    rw [ha 0 (by omega), ha 1 (by omega), ha 2 (by omega)]
    simp only [eval_deg2 hp, deriv_deg2 hp]
    push_cast
    ring
  · subst h0; rcases hpole with h | h
    · exact absurd h h1
    · omega
  · rw [show n + 3 - 3 = n by omega, show n + 3 - 2 = n + 1 by omega, show n + 3 - 1 = n + 2 by omega,
      ha n (by omega), ha (n + 1) (by omega), ha (n + 2) (by omega)]
    rw [show j = n + 2 by omega]
    simp only [eval_deg2 hp, deriv_deg2 hp]
    push_cast
    ring
  · rcases hpole with h | h
    · exact absurd h h3
    · omega
  · obtain ⟨m, rfl⟩ : ∃ m, j = m + 1 := ⟨j - 1, by omega⟩
    rw [show m + 1 - 1 = m by omega, ha m (by omega), ha (m + 1 + 1) (by omega)]
    simp only [eval_deg2 hp, deriv_deg2 hp]
    push_cast
    ring

private theorem stencil4_poly {p : ℝ[X]} (hp : p.natDegree ≤ 4) (poles : Bool) {h : ℕ} (hh : 5 ≤ h) (x0 d : ℝ)
    (a : ℕ → ℝ) (ha : ∀ j < h, a j = p.eval (x0 + j * d)) {j : ℕ} (hj : j < h)
    (hpole : poles = true ∨ (0 < j ∧ j < h - 1)) :
    stencil4 poles h a j = 12 * d * p.derivative.eval (x0 + j * d) := by
  obtain ⟨n, rfl⟩ : ∃ n, h = n + 5 := ⟨h - 5, by omega⟩
  have e : n + 5 - 5 = n ∧ n + 5 - 4 = n + 1 ∧ n + 5 - 3 = n + 2 ∧ n + 5 - 2 = n + 3 ∧ n + 5 - 1 = n + 4 := by omega
  unfold stencil4
  rw [e.1, e.2.1, e.2.2.1, e.2.2.2.1, e.2.2.2.2]
  rw [e.2.2.2.2] at hpole
  split_ifs with h0 h1 h2 h3 h4 h5
  · subst h0
    rw [ha 0 (by omega), ha 1 (by omega), ha 2 (by omega), ha 3 (by omega), ha 4 (by omega)]
    simp only [eval_deg4 hp, deriv_deg4 hp]
    push_cast
    ring
  · subst h0; rcases hpole with h | h
    · exact absurd h h1
    · omega
  · rw [ha n (by omega), ha (n + 1) (by omega), ha (n + 2) (by omega), ha (n + 3) (by omega), ha (n + 4) (by omega)]
    rw [h2]
    simp only [eval_deg4 hp, deriv_deg4 hp]
    push_cast
    ring
  · rcases hpole with h | h
    · exact absurd h h3
    · omega
  · subst h4
    rw [ha 0 (by omega), ha 1 (by omega), ha 2 (by omega), ha 3 (by omega), ha 4 (by omega)]
    simp only [eval_deg4 hp, deriv_deg4 hp]
    push_cast
    ring
  · rw [ha n (by omega), ha (n + 1) (by omega), ha (n + 2) (by omega), ha (n + 3) (by omega), ha (n + 4) (by omega)]
    rw [h5]
    simp only [eval_deg4 hp, deriv_deg4 hp]
    push_cast
    ring
  · obtain ⟨m, rfl⟩ : ∃ m, j = m + 2 := ⟨j - 2, by omega⟩
    rw [show m + 2 - 2 = m by omega, show m + 2 - 1 = m + 1 by omega, ha m (by omega), ha (m + 1) (by omega),
      ha (m + 2 + 1) (by omega), ha (m + 2 + 2) (by omega)]
    simp only [eval_deg4 hp, deriv_deg4 hp]
    push_cast
    ring

private theorem dm2 (g : Grid ℝ) {f : Arr ℝ} (h : f.ndim ≤ 2) : g.derivativeMeridional f (.int 2) = g.derivative2 f := by
  unfold derivativeMeridional
  rw [if_neg (by omega), if_pos rfl]

private theorem dm4 (g : Grid ℝ) {f : Arr ℝ} (h : f.ndim ≤ 2) : g.derivativeMeridional f (.int 4) = g.derivative4 f := by
  unfold derivativeMeridional
  rw [if_neg (by omega), if_neg (by decide), if_pos (.inr rfl)]

private theorem dmn (g : Grid ℝ) {f : Arr ℝ} (h : f.ndim ≤ 2) : g.derivativeMeridional f .none = g.derivative4 f := by
  unfold derivativeMeridional
  rw [if_neg (by omega), if_neg (by decide), if_pos (.inl rfl)]

private theorem col_val {h : ℕ} (f : Fin h → ℝ) {j : ℕ} (hj : j < h) : col f j = f ⟨j, hj⟩ := by
  unfold col; rw [dif_pos hj]

private theorem phi_affine {g : Grid ℝ} (hg : g.Valid) (j : ℕ) :
    g.phi j = Real.pi / 2 + j * (-(Real.pi / ((g.nlat : ℝ) - 1))) := by
  rw [phi_eq hg]; ring

private theorem dphi_true {g : Grid ℝ} (hg : g.Valid) (hs : g.resolution * ((g.nlat : ℝ) - 1) = 180) :
    -(Real.pi / ((g.nlat : ℝ) - 1)) = g.dphi ∧ g.dphi ≠ 0 := by
  have h1 := hg.nlatm1_pos.ne'
  have h2 := hg.res_pos
  have h3 := Real.pi_pos
  unfold dphi deg2rad dlat
  constructor
  · field_simp
    linarith
  · have : g.resolution * (Real.pi / 180) > 0 := by positivity
    linarith

/-- The largest polynomial degree the approximation of a given order is exact for. -/
def exactDegree : Order → Option ℕ
  | .int 2 => some 2
  | .int 4 => some 4
  | .none => some 4
  | _ => none

/-- 2D input: the derivative of polynomial columns (a different polynomial on each meridian) is exact everywhere,
including the poles. -/
theorem C13_exact_2d (g : Grid ℝ) (hg : g.Valid) (hs : g.resolution * ((g.nlat : ℝ) - 1) = 180)
    (order : Order) (d : ℕ) (hd : exactDegree order = some d) (hlat : d < g.nlat)
    (w : ℕ) (p : Fin w → ℝ[X]) (hp : ∀ i, (p i).natDegree ≤ d) :
    ∃ out, g.derivativeMeridional (.d2 g.nlat w fun j i => (p i).eval (g.phi j)) order = .ok (.d2 g.nlat w out) ∧
      ∀ j i, out j i = (p i).derivative.eval (g.phi j) := by
  obtain ⟨e1, e2⟩ := dphi_true hg hs
  have h2 : d = 2 → ∀ j : Fin g.nlat, ∀ i, stencil2 true g.nlat (col fun j : Fin g.nlat => (p i).eval (g.phi j)) j / 2 / g.dphi
      = (p i).derivative.eval (g.phi j) := by
    rintro rfl j i
    rw [stencil2_poly (hp i) true hg.nlat_ge (Real.pi / 2) g.dphi _ (by
      intro k hk; rw [col_val _ hk, phi_affine hg, e1]) j.2 (.inl rfl), phi_affine hg j, e1]
    field_simp
  have h4 : d = 4 → ∀ j : Fin g.nlat, ∀ i, stencil4 true g.nlat (col fun j : Fin g.nlat => (p i).eval (g.phi j)) j / 12 / g.dphi
      = (p i).derivative.eval (g.phi j) := by
    rintro rfl j i
    rw [stencil4_poly (hp i) true hlat (Real.pi / 2) g.dphi _ (by
      intro k hk; rw [col_val _ hk, phi_affine hg, e1]) j.2 (.inl rfl), phi_affine hg j, e1]
    field_simp
  unfold exactDegree at hd
  split at hd
  · injection hd with hd
    subst hd
    refine ⟨_, ?_, h2 rfl⟩
    rw [dm2 g (by simp [Arr.ndim, Arr.shape])]
    unfold derivative2
    rw [if_neg (by omega)]
    dsimp only
    rw [if_neg (by omega)]
  · injection hd with hd
    subst hd
    refine ⟨_, ?_, h4 rfl⟩
    rw [dm4 g (by simp [Arr.ndim, Arr.shape])]
    unfold derivative4
    rw [if_neg (by omega)]
    dsimp only
    rw [if_neg (by omega)]
  · injection hd with hd
    subst hd
    refine ⟨_, ?_, h4 rfl⟩
    rw [dmn g (by simp [Arr.ndim, Arr.shape])]
    unfold derivative4
    rw [if_neg (by omega)]
    dsimp only
    rw [if_neg (by omega)]
  · simp at hd

/-- 1D input: exact at every interior latitude, zero at the poles. -/
theorem C13_exact_1d (g : Grid ℝ) (hg : g.Valid) (hs : g.resolution * ((g.nlat : ℝ) - 1) = 180)
    (order : Order) (d : ℕ) (hd : exactDegree order = some d) (hlat : d < g.nlat)
    (p : ℝ[X]) (hp : p.natDegree ≤ d) :
    ∃ out, g.derivativeMeridional (.d1 g.nlat fun j => p.eval (g.phi j)) order = .ok (.d1 g.nlat out) ∧
      (∀ j : Fin g.nlat, 0 < (j : ℕ) → (j : ℕ) < g.nlat - 1 → out j = p.derivative.eval (g.phi j)) ∧
      (∀ j : Fin g.nlat, (j : ℕ) = 0 ∨ (j : ℕ) = g.nlat - 1 → out j = 0) := by
  obtain ⟨e1, e2⟩ := dphi_true hg hs
  have h2 : d = 2 → ∀ j : Fin g.nlat, 0 < (j : ℕ) → (j : ℕ) < g.nlat - 1 →
      stencil2 false g.nlat (col fun j : Fin g.nlat => p.eval (g.phi j)) j / 2 / g.dphi
      = p.derivative.eval (g.phi j) := by
    rintro rfl j hj0 hj1
    rw [stencil2_poly hp false hg.nlat_ge (Real.pi / 2) g.dphi _ (by
      intro k hk; rw [col_val _ hk, phi_affine hg, e1]) j.2 (.inr ⟨hj0, hj1⟩), phi_affine hg j, e1]
    field_simp
  have h4 : d = 4 → ∀ j : Fin g.nlat, 0 < (j : ℕ) → (j : ℕ) < g.nlat - 1 →
      stencil4 false g.nlat (col fun j : Fin g.nlat => p.eval (g.phi j)) j / 12 / g.dphi
      = p.derivative.eval (g.phi j) := by
    rintro rfl j hj0 hj1
    rw [stencil4_poly hp false hlat (Real.pi / 2) g.dphi _ (by
      intro k hk; rw [col_val _ hk, phi_affine hg, e1]) j.2 (.inr ⟨hj0, hj1⟩), phi_affine hg j, e1]
    field_simp
  have z2 : ∀ a, ∀ j : Fin g.nlat, (j : ℕ) = 0 ∨ (j : ℕ) = g.nlat - 1 → stencil2 false g.nlat a j / 2 / g.dphi = 0 := by
    rintro a j (h | h) <;> unfold stencil2
    · simp [h]
    · simp [h]
  have z4 : ∀ a, ∀ j : Fin g.nlat, (j : ℕ) = 0 ∨ (j : ℕ) = g.nlat - 1 → stencil4 false g.nlat a j / 12 / g.dphi = 0 := by
    rintro a j (h | h) <;> unfold stencil4
    · simp [h]
    · simp [h]
  unfold exactDegree at hd
  split at hd
  · injection hd with hd
    subst hd
    refine ⟨_, ?_, h2 rfl, z2 _⟩
    rw [dm2 g (by simp [Arr.ndim, Arr.shape])]
    unfold derivative2
    rw [if_neg (by omega)]
  · injection hd with hd
    subst hd
    refine ⟨_, ?_, h4 rfl, z4 _⟩
    rw [dm4 g (by simp [Arr.ndim, Arr.shape])]
    unfold derivative4
    rw [if_neg (by omega)]
    dsimp only
    rw [if_neg (by omega)]
  · injection hd with hd
    subst hd
    refine ⟨_, ?_, h4 rfl, z4 _⟩
    rw [dmn g (by simp [Arr.ndim, Arr.shape])]
    unfold derivative4
    rw [if_neg (by omega)]
    dsimp only
    rw [if_neg (by omega)]
  · simp at hd

/-- Non-vacuity of C13: a 30° grid has true spacing and 7 latitudes. -/
example : ∃ g : Grid ℝ, g.Valid ∧ g.resolution * ((g.nlat : ℝ) - 1) = 180 ∧ 4 < g.nlat := by
  have h1 : (⟨30, 1, 1, 2⟩ : Grid ℝ).nlat = 7 := by
    have : ⌊180 / (30 : ℝ)⌋₊ = 6 := by rw [Nat.floor_eq_iff (by norm_num)]; constructor <;> norm_num
    unfold Grid.nlat nlatOf; simp only [this]
  have h2 : (⟨30, 1, 1, 2⟩ : Grid ℝ).nlon = 12 := by
    have : ⌊360 / (30 : ℝ)⌋₊ = 12 := by rw [Nat.floor_eq_iff (by norm_num)]; constructor <;> norm_num
    unfold Grid.nlon nlonOf; simp only [this]
  exact ⟨⟨30, 1, 1, 2⟩, ⟨by norm_num, by norm_num, by rw [h2]; norm_num, by rw [h1]; norm_num, by rw [h1]; norm_num⟩,
    by rw [h1]; norm_num, by rw [h1]; norm_num⟩

/-! ## C14 -/

/-- The order is available. -/
def Order.Known (o : Order) : Prop := o = .int 2 ∨ o = .int 4 ∨ o = .none

/-- Number of latitudes the order requires. -/
def Order.need (o : Order) : ℕ := match o with
  | .int 2 => 3
  | _ => 5

private theorem deriv_2d (g : Grid ℝ) (o : Order) (ho : o.Known) (hg : o.need ≤ g.nlat) {h w : ℕ} (hh : o.need ≤ h)
    (v : Fin h → Fin w → ℝ) : ∃ (S : (ℕ → ℝ) → ℕ → ℝ) (c : ℝ),
      (S = stencil2 true h ∧ c = 2 ∧ 3 ≤ h ∨ S = stencil4 true h ∧ c = 12 ∧ 5 ≤ h) ∧
      (∀ v : Fin h → Fin w → ℝ, g.derivativeMeridional (.d2 h w v) o
        = .ok (.d2 h w fun j i => S (col fun j => v j i) j / c / g.dphi)) := by
  have key : ∀ (P : Prop), P → ¬ (2 < (Arr.d2 h w v).ndim) := by
    intro _ _; simp [Arr.ndim, Arr.shape]
  rcases ho with rfl | rfl | rfl
  · have hg : 3 ≤ g.nlat := hg
    have hh : 3 ≤ h := hh
    refine ⟨_, _, .inl ⟨rfl, rfl, hh⟩, ?_⟩
    intro v
    rw [dm2 g (by simp [Arr.ndim, Arr.shape])]
    unfold derivative2
    rw [if_neg (by omega)]
    dsimp only
    rw [if_neg (by omega)]
  · have hg : 5 ≤ g.nlat := hg
    have hh : 5 ≤ h := hh
    refine ⟨_, _, .inr ⟨rfl, rfl, hh⟩, ?_⟩
    intro v
    rw [dm4 g (by simp [Arr.ndim, Arr.shape])]
    unfold derivative4
    rw [if_neg (by omega)]
    dsimp only
    rw [if_neg (by omega)]
  · have hg : 5 ≤ g.nlat := hg
    have hh : 5 ≤ h := hh
    refine ⟨_, _, .inr ⟨rfl, rfl, hh⟩, ?_⟩
    intro v
    rw [dmn g (by simp [Arr.ndim, Arr.shape])]
    unfold derivative4
    rw [if_neg (by omega)]
    dsimp only
    rw [if_neg (by omega)]

private theorem col_lin {h : ℕ} (a b : ℝ) (u v : Fin h → ℝ) (j : ℕ) :
    col (fun j => a * u j + b * v j) j = a * col u j + b * col v j := by
  unfold col; split_ifs <;> simp

private theorem stencil2_lin (p : Bool) (h : ℕ) (a b : ℝ) (u v : ℕ → ℝ) (j : ℕ) :
    stencil2 p h (fun j => a * u j + b * v j) j = a * stencil2 p h u j + b * stencil2 p h v j := by
  unfold stencil2; split_ifs <;> ring

private theorem stencil4_lin (p : Bool) (h : ℕ) (a b : ℝ) (u v : ℕ → ℝ) (j : ℕ) :
    stencil4 p h (fun j => a * u j + b * v j) j = a * stencil4 p h u j + b * stencil4 p h v j := by
  unfold stencil4; split_ifs <;> ring

private theorem stencil2_congr (p : Bool) {h : ℕ} (hh : 3 ≤ h) {u v : ℕ → ℝ} (huv : ∀ j < h, u j = v j) {j : ℕ} (hj : j < h) :
    stencil2 p h u j = stencil2 p h v j := by
  unfold stencil2
  rw [huv 0 (by omega), huv 1 (by omega), huv 2 (by omega), huv (h - 3) (by omega), huv (h - 2) (by omega),
    huv (h - 1) (by omega)]
  split_ifs
  · rfl
  · rfl
  · rfl
  · rfl
  · rw [huv (j + 1) (by omega), huv (j - 1) (by omega)]

private theorem stencil4_congr (p : Bool) {h : ℕ} (hh : 5 ≤ h) {u v : ℕ → ℝ} (huv : ∀ j < h, u j = v j) {j : ℕ} (hj : j < h) :
    stencil4 p h u j = stencil4 p h v j := by
  unfold stencil4
  rw [huv 0 (by omega), huv 1 (by omega), huv 2 (by omega), huv 3 (by omega), huv 4 (by omega), huv (h - 3) (by omega),
    huv (h - 2) (by omega), huv (h - 1) (by omega), huv (h - 4) (by omega), huv (h - 5) (by omega)]
  split_ifs
  any_goals rfl
  rw [huv (j + 1) (by omega), huv (j - 1) (by omega), huv (j + 2) (by omega), huv (j - 2) (by omega)]

private theorem stencil2_flip (p : Bool) {h : ℕ} (hh : 3 ≤ h) (u : ℕ → ℝ) {j : ℕ} (hj : j < h) :
    stencil2 p h (fun j => u (h - 1 - j)) j = -stencil2 p h u (h - 1 - j) := by
  unfold stencil2
  have a1 : ¬ (h - 1 = 0) := by omega
  have e1 : h - 1 - 1 = h - 2 := by omega
  have e2 : h - 1 - 2 = h - 3 := by omega
  have f1 : h - 1 - (h - 1) = 0 := by omega
  have f2 : h - 1 - (h - 2) = 1 := by omega
  have f3 : h - 1 - (h - 3) = 2 := by omega
  by_cases h0 : j = 0
  · subst h0
    cases p <;> simp only [Nat.sub_zero, a1, e1, e2, if_true, if_false, Bool.false_eq_true] <;> ring
  by_cases h1 : j = h - 1
  · subst h1
    cases p <;> simp only [a1, f1, f2, f3, if_true, if_false, Bool.false_eq_true] <;> ring
  · have b1 : ¬ (h - 1 - j = 0) := by omega
    have b2 : ¬ (h - 1 - j = h - 1) := by omega
    simp only [h0, h1, b1, b2, if_false]
    rw [show h - 1 - (j + 1) = h - 1 - j - 1 by omega, show h - 1 - (j - 1) = h - 1 - j + 1 by omega]
    ring

private theorem stencil4_flip (p : Bool) {h : ℕ} (hh : 5 ≤ h) (u : ℕ → ℝ) {j : ℕ} (hj : j < h) :
    stencil4 p h (fun j => u (h - 1 - j)) j = -stencil4 p h u (h - 1 - j) := by
  unfold stencil4
  have a1 : ¬ (h - 1 = 0) := by omega
  have a2 : ¬ (1 = h - 1) := by omega
  have a3 : ¬ (h - 2 = 0) := by omega
  have a4 : ¬ (h - 2 = 1) := by omega
  have a5 : ¬ (h - 2 = h - 1) := by omega
  have a6 : ¬ (1 = 0) := by omega
  have e1 : h - 1 - 1 = h - 2 := by omega
  have e2 : h - 1 - 2 = h - 3 := by omega
  have e3 : h - 1 - 3 = h - 4 := by omega
  have e4 : h - 1 - 4 = h - 5 := by omega
  have f1 : h - 1 - (h - 1) = 0 := by omega
  have f2 : h - 1 - (h - 2) = 1 := by omega
  have f3 : h - 1 - (h - 3) = 2 := by omega
  have f4 : h - 1 - (h - 4) = 3 := by omega
  have f5 : h - 1 - (h - 5) = 4 := by omega
  by_cases h0 : j = 0
  · subst h0
    cases p <;> simp only [Nat.sub_zero, a1, e1, e2, e3, e4, if_true, if_false, Bool.false_eq_true] <;> ring
  by_cases h1 : j = h - 1
  · subst h1
    cases p <;> simp only [a1, f1, f2, f3, f4, f5, if_true, if_false, Bool.false_eq_true] <;> ring
  by_cases h2 : j = 1
  · subst h2
    simp only [a2, a3, a4, a5, a6, e1, e2, e3, e4, Nat.sub_zero, if_true, if_false]
    ring
  by_cases h3 : j = h - 2
  · subst h3
    simp only [a2, a3, a4, a5, a6, f1, f2, f3, f4, f5, if_true, if_false]
    ring
  · have b1 : ¬ (h - 1 - j = 0) := by omega
    have b2 : ¬ (h - 1 - j = h - 1) := by omega
    have b3 : ¬ (h - 1 - j = 1) := by omega
    have b4 : ¬ (h - 1 - j = h - 2) := by omega
    simp only [h0, h1, h2, h3, b1, b2, b3, b4, if_false]
    rw [show h - 1 - (j + 1) = h - 1 - j - 1 by omega, show h - 1 - (j - 1) = h - 1 - j + 1 by omega,
      show h - 1 - (j + 2) = h - 1 - j - 2 by omega, show h - 1 - (j - 2) = h - 1 - j + 2 by omega]
    ring

/-- Two-dimensional input: the derivative acts on each meridian separately by one linear operator `D`, which kills
constants and anticommutes with the north-south flip. -/
theorem C14_structure_2d (g : Grid ℝ) (o : Order) (ho : o.Known) (hg : o.need ≤ g.nlat) (w : ℕ) :
    ∃ D : (Fin g.nlat → ℝ) → Fin g.nlat → ℝ,
      (∀ v : Fin g.nlat → Fin w → ℝ, g.derivativeMeridional (.d2 g.nlat w v) o
        = .ok (.d2 g.nlat w fun j i => D (fun k => v k i) j)) ∧
      (∀ a b u v, D (fun j => a * u j + b * v j) = fun j => a * D u j + b * D v j) ∧
      (∀ c, D (fun _ => c) = 0) ∧
      (∀ u, D (fun j => u j.rev) = fun j => -D u j.rev) := by
  obtain ⟨S, c, hS, hD⟩ := deriv_2d g o ho hg (w := w) hg 0
  have hlin : ∀ a b u v j, S (fun j => a * u j + b * v j) j = a * S u j + b * S v j := by
    intro a b u v j
    rcases hS with ⟨rfl, -, -⟩ | ⟨rfl, -, -⟩
    · exact stencil2_lin _ _ _ _ _ _ _
    · exact stencil4_lin _ _ _ _ _ _ _
  have hcongr : ∀ u v : ℕ → ℝ, (∀ j < g.nlat, u j = v j) → ∀ j < g.nlat, S u j = S v j := by
    intro u v huv j hj
    rcases hS with ⟨rfl, -, h⟩ | ⟨rfl, -, h⟩
    · exact stencil2_congr _ h huv hj
    · exact stencil4_congr _ h huv hj
  have hflip : ∀ u, ∀ j < g.nlat, S (fun j => u (g.nlat - 1 - j)) j = -S u (g.nlat - 1 - j) := by
    intro u j hj
    rcases hS with ⟨rfl, -, h⟩ | ⟨rfl, -, h⟩
    · exact stencil2_flip _ h _ hj
    · exact stencil4_flip _ h _ hj
  have hconst : ∀ x j, S (fun _ => x) j = 0 := by
    intro x j
    rcases hS with ⟨rfl, -, -⟩ | ⟨rfl, -, -⟩
    · unfold stencil2; split_ifs <;> ring
    · unfold stencil4; split_ifs <;> ring
  refine ⟨fun u j => S (col u) j / c / g.dphi, hD, ?_, ?_, ?_⟩
  · intro a b u v
    funext j
    have : col (fun j => a * u j + b * v j) = fun j => a * col u j + b * col v j := by
      funext j; exact col_lin a b u v j
    dsimp only
    rw [this, hlin]
    ring
  · intro x
    funext j
    have : S (col fun _ : Fin g.nlat => x) j = 0 := by
      rw [hcongr _ (fun _ => x) (fun k hk => col_val _ hk) j j.2, hconst]
    simp only [this, Pi.zero_apply]
    simp
  · intro u
    funext j
    have : S (col fun j => u j.rev) j = -S (col u) (j.rev : Fin _) := by
      rw [hcongr _ (fun k => col u (g.nlat - 1 - k)) (fun k hk => ?_) j j.2, hflip _ j j.2]
      · congr 2
        rw [Fin.val_rev]; omega
      · have h1 : g.nlat - 1 - k < g.nlat := by omega
        rw [col_val _ hk, col_val _ h1]
        congr 1
        apply Fin.ext
        rw [Fin.val_rev]
        simp only
        omega
    dsimp only
    rw [this]
    ring

/-- One-dimensional input: linear, zero for constants, antisymmetric under the flip, zero at both poles. -/
theorem C14_structure_1d (g : Grid ℝ) (o : Order) (ho : o.Known) (hg : o.need ≤ g.nlat) :
    ∃ D : (Fin g.nlat → ℝ) → Fin g.nlat → ℝ,
      (∀ v : Fin g.nlat → ℝ, g.derivativeMeridional (.d1 g.nlat v) o = .ok (.d1 g.nlat (D v))) ∧
      (∀ a b u v, D (fun j => a * u j + b * v j) = fun j => a * D u j + b * D v j) ∧
      (∀ c, D (fun _ => c) = 0) ∧
      (∀ u, D (fun j => u j.rev) = fun j => -D u j.rev) ∧
      (∀ u (j : Fin g.nlat), (j : ℕ) = 0 ∨ (j : ℕ) = g.nlat - 1 → D u j = 0) := by
  have hex : ∃ (S : (ℕ → ℝ) → ℕ → ℝ) (c : ℝ),
      (S = stencil2 false g.nlat ∧ c = 2 ∧ 3 ≤ g.nlat ∨ S = stencil4 false g.nlat ∧ c = 12 ∧ 5 ≤ g.nlat) ∧
      (∀ v : Fin g.nlat → ℝ, g.derivativeMeridional (.d1 g.nlat v) o
        = .ok (.d1 g.nlat fun j => S (col v) j / c / g.dphi)) := by
    rcases ho with rfl | rfl | rfl
    · have hg : 3 ≤ g.nlat := hg
      refine ⟨_, _, .inl ⟨rfl, rfl, hg⟩, ?_⟩
      intro v
      rw [dm2 g (by simp [Arr.ndim, Arr.shape])]
      unfold derivative2
      rw [if_neg (by omega)]
    · have hg : 5 ≤ g.nlat := hg
      refine ⟨_, _, .inr ⟨rfl, rfl, hg⟩, ?_⟩
      intro v
      rw [dm4 g (by simp [Arr.ndim, Arr.shape])]
      unfold derivative4
      rw [if_neg (by omega)]
      dsimp only
      rw [if_neg (by omega)]
    · have hg : 5 ≤ g.nlat := hg
      refine ⟨_, _, .inr ⟨rfl, rfl, hg⟩, ?_⟩
      intro v
      rw [dmn g (by simp [Arr.ndim, Arr.shape])]
      unfold derivative4
      rw [if_neg (by omega)]
      dsimp only
      rw [if_neg (by omega)]
  obtain ⟨S, c, hS, hD⟩ := hex
  have hlin : ∀ a b u v j, S (fun j => a * u j + b * v j) j = a * S u j + b * S v j := by
    intro a b u v j
    rcases hS with ⟨rfl, -, -⟩ | ⟨rfl, -, -⟩
    · exact stencil2_lin _ _ _ _ _ _ _
    · exact stencil4_lin _ _ _ _ _ _ _
  have hcongr : ∀ u v : ℕ → ℝ, (∀ j < g.nlat, u j = v j) → ∀ j < g.nlat, S u j = S v j := by
    intro u v huv j hj
    rcases hS with ⟨rfl, -, h⟩ | ⟨rfl, -, h⟩
    · exact stencil2_congr _ h huv hj
    · exact stencil4_congr _ h huv hj
  have hflip : ∀ u, ∀ j < g.nlat, S (fun j => u (g.nlat - 1 - j)) j = -S u (g.nlat - 1 - j) := by
    intro u j hj
    rcases hS with ⟨rfl, -, h⟩ | ⟨rfl, -, h⟩
    · exact stencil2_flip _ h _ hj
    · exact stencil4_flip _ h _ hj
  have hconst : ∀ x j, S (fun _ => x) j = 0 := by
    intro x j
    rcases hS with ⟨rfl, -, -⟩ | ⟨rfl, -, -⟩
    · unfold stencil2; split_ifs <;> ring
    · unfold stencil4; split_ifs <;> ring
  refine ⟨fun u j => S (col u) j / c / g.dphi, hD, ?_, ?_, ?_, ?_⟩
  · intro a b u v
    funext j
    have : col (fun j => a * u j + b * v j) = fun j => a * col u j + b * col v j := by
      funext j; exact col_lin a b u v j
    dsimp only
    rw [this, hlin]
    ring
  · intro x
    funext j
    have : S (col fun _ : Fin g.nlat => x) j = 0 := by
      rw [hcongr _ (fun _ => x) (fun k hk => col_val _ hk) j j.2, hconst]
    simp only [this, Pi.zero_apply]
    simp
  · intro u
    funext j
    have : S (col fun j => u j.rev) j = -S (col u) (j.rev : Fin _) := by
      rw [hcongr _ (fun k => col u (g.nlat - 1 - k)) (fun k hk => ?_) j j.2, hflip _ j j.2]
      · congr 2
        rw [Fin.val_rev]; omega
      · have h1 : g.nlat - 1 - k < g.nlat := by omega
        rw [col_val _ hk, col_val _ h1]
        congr 1
        apply Fin.ext
        rw [Fin.val_rev]
        simp only
        omega
    dsimp only
    rw [this]
    ring
  · intro u j hj
    have : S (col u) j = 0 := by
      rcases hS with ⟨rfl, -, -⟩ | ⟨rfl, -, -⟩
      · unfold stencil2; rcases hj with h | h <;> simp [h]
      · unfold stencil4; rcases hj with h | h <;> simp [h]
    simp only [this]
    simp

/-- Errors of `derivative_meridional`: more than two dimensions → AssertionError; unknown order → NotImplementedError;
too few grid latitudes for the order → AssertionError. -/
theorem C14_errors (g : Grid ℝ) (f : Arr ℝ) (o : Order) :
    (2 < f.ndim → g.derivativeMeridional f o = .error .assertionError) ∧
    (f.ndim ≤ 2 → ¬ o.Known → g.derivativeMeridional f o = .error .notImplementedError) ∧
    (f.ndim ≤ 2 → o.Known → g.nlat < o.need → g.derivativeMeridional f o = .error .assertionError) := by
  refine ⟨?_, ?_, ?_⟩
  · intro h
    unfold derivativeMeridional
    rw [if_pos h]
  · intro h ho
    unfold derivativeMeridional
    rw [if_neg (by omega), if_neg (fun e => ho (.inl e)), if_neg (fun e => ho (.inr e.symm))]
  · intro h ho hn
    rcases ho with rfl | rfl | rfl
    · have hn : g.nlat < 3 := hn
      rw [dm2 g h]
      unfold derivative2
      rw [if_pos hn]
    · have hn : g.nlat < 5 := hn
      rw [dm4 g h]
      unfold derivative4
      rw [if_pos hn]
    · have hn : g.nlat < 5 := hn
      rw [dmn g h]
      unfold derivative4
      rw [if_pos hn]

/-- Non-vacuity of C14 (structure): order 4 with 7 latitudes. -/
example : Order.Known (.int 4) ∧ (Order.int 4).need ≤ 7 := ⟨.inr (.inl rfl), by decide⟩

end Barotropic
