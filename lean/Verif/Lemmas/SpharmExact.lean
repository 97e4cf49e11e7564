import Verif.Lemmas.GridDual
import Verif.Lemmas.Fourier
import Verif.Lemmas.SpecIndex
import Verif.Lemmas.SpharmWave
import Verif.Spec.Symmetry

/-!
# An exact spherical harmonic transform on every grid with truncation at most `nlat - 2`
-/

namespace Barotropic
open Complex

/-! ## Fourier coefficients of rows -/

/-- Fourier coefficient of a row -/
noncomputable def rowCoeff {n : ℕ} (m : ℕ) (f : Fin n → ℝ) : ℂ := (if m = 0 then 1 else 2) / n * dft f m

section rows
variable {n : ℕ}

theorem rowCoeff_add (m : ℕ) (f f' : Fin n → ℝ) : rowCoeff m (f + f') = rowCoeff m f + rowCoeff m f' := by
  unfold rowCoeff; rw [show f + f' = fun i => f i + f' i from rfl, dft_add]; ring

theorem rowCoeff_smul (m : ℕ) (c : ℝ) (f : Fin n → ℝ) : rowCoeff m (c • f) = c * rowCoeff m f := by
  unfold rowCoeff; rw [show c • f = fun i => c * f i from rfl, dft_smul]; ring

theorem rowCoeff_rotate {h : ℕ} (m d : ℕ) (f : GridField h n) (j : Fin h) :
    rowCoeff m (rotate d f j) = ru n (m * d : ℤ) * rowCoeff m (f j) := by
  unfold rowCoeff
  rw [show rotate d f j = rotRow d (f j) from rfl, dft_rot]
  ring

theorem rowCoeff_im_zero (f : Fin n → ℝ) : (rowCoeff 0 f).im = 0 := by
  unfold rowCoeff
  have := dft_im_zero f
  rw [if_pos rfl, show (1 : ℂ) / n = ((1 / n : ℝ) : ℂ) by push_cast; rfl, Complex.im_ofReal_mul, this, mul_zero]

theorem rowCoeff_sum {ι : Type*} (m : ℕ) (s : Finset ι) (f : ι → Fin n → ℝ) :
    rowCoeff m (fun i => ∑ a ∈ s, f a i) = ∑ a ∈ s, rowCoeff m (f a) := by
  unfold rowCoeff; rw [dft_sum, Finset.mul_sum]

theorem rowCoeff_wave (hn : n ≠ 0) {l m : ℕ} (hl : 2 * l < n) (hm : 2 * m < n) (Y : ℂ) :
    rowCoeff m (fun i : Fin n => (Y * ru n (l * i.val : ℤ)).re) = if l = m then (if m = 0 then (Y.re : ℂ) else Y) else 0 := by
  have hn' : (n : ℂ) ≠ 0 := by exact_mod_cast hn
  unfold rowCoeff
  rw [dft_wave hn]
  have h1 : ((n : ℤ) ∣ (l : ℤ) - m) ↔ l = m := by
    constructor
    · intro h
      have := Int.eq_zero_of_abs_lt_dvd h (by rw [abs_lt]; constructor <;> omega)
      omega
    · rintro rfl; simp
  have h2 : ((n : ℤ) ∣ (l : ℤ) + m) ↔ l = 0 ∧ m = 0 := by
    constructor
    · intro h
      have := Int.eq_zero_of_abs_lt_dvd h (by rw [abs_lt]; constructor <;> omega)
      omega
    · rintro ⟨rfl, rfl⟩; simp
  simp only [h1, h2]
  by_cases hm0 : m = 0
  · subst hm0
    by_cases hl0 : l = 0
    · subst hl0
      simp only [and_self, if_true]
      rw [Complex.add_conj]
      push_cast; field_simp
    · simp [hl0]
  · have : ¬ (l = 0 ∧ m = 0) := fun h => hm0 h.2
    simp only [hm0, and_false, if_false, add_zero]
    split_ifs
    · field_simp
    · simp

theorem rowCoeff_zero (m : ℕ) : rowCoeff m (fun _ : Fin n => (0 : ℝ)) = 0 := by
  have := rowCoeff_smul m 0 (fun _ : Fin n => (0 : ℝ))
  rw [Complex.ofReal_zero, zero_mul] at this
  rw [← this]
  congr 1
  funext i
  simp

theorem rowCoeff_const (h0 : 0 < n) {m : ℕ} (hm : m ≠ 0) (h : 2 * m < n) (c : ℝ) : rowCoeff m (fun _ : Fin n => c) = 0 := by
  have := rowCoeff_wave (n := n) (by omega) (l := 0) (m := m) (by omega) h c
  simp only [Nat.cast_zero, zero_mul, ru_zero, mul_one, ofReal_re] at this
  rw [this, if_neg (Ne.symm hm)]

end rows

/-! ## Functionals of gridded fields -/

/-- Sum of Fourier coefficients with weights that depend on latitude -/
noncomputable def colSum {h w : ℕ} (E : Fin h → ℝ) (m : ℕ) (f : GridField h w) : ℂ := ∑ j, (E j : ℂ) * rowCoeff m (f j)

section cols
variable {h w : ℕ} (E : Fin h → ℝ) (m : ℕ)

theorem colSum_add (f f' : GridField h w) : colSum E m (f + f') = colSum E m f + colSum E m f' := by
  unfold colSum
  rw [← Finset.sum_add_distrib]
  exact Finset.sum_congr rfl fun j _ => by rw [Pi.add_apply, rowCoeff_add]; ring

theorem colSum_smul (c : ℝ) (f : GridField h w) : colSum E m (c • f) = c * colSum E m f := by
  unfold colSum
  rw [Finset.mul_sum]
  exact Finset.sum_congr rfl fun j _ => by rw [Pi.smul_apply, rowCoeff_smul]; ring

theorem colSum_neg (f : GridField h w) : colSum E m (-f) = -colSum E m f := by
  have := colSum_smul E m (-1) f
  rw [neg_one_smul] at this; rw [this]; push_cast; ring

theorem colSum_zero : colSum E m (0 : GridField h w) = 0 := by
  have := colSum_smul E m 0 (0 : GridField h w)
  simpa using this

theorem colSum_rotate (d : ℕ) (f : GridField h w) : colSum E m (rotate d f) = ru w (m * d : ℤ) * colSum E m f := by
  unfold colSum
  rw [Finset.mul_sum]
  exact Finset.sum_congr rfl fun j _ => by rw [rowCoeff_rotate]; ring

theorem colSum_mirror (f : GridField h w) : colSum E m (mirror f) = colSum (fun j => E j.rev) m f := by
  unfold colSum mirror
  rw [← Equiv.sum_comp Fin.revPerm]
  exact Finset.sum_congr rfl fun j _ => by simp

theorem colSum_mul (c : ℝ) (f : GridField h w) : colSum (fun j => c * E j) m f = c * colSum E m f := by
  unfold colSum
  rw [Finset.mul_sum]
  exact Finset.sum_congr rfl fun j _ => by push_cast; ring

theorem colSum_im_zero (f : GridField h w) : (colSum E 0 f).im = 0 := by
  unfold colSum
  rw [Complex.im_sum]
  exact Finset.sum_eq_zero fun j _ => by rw [Complex.im_ofReal_mul, rowCoeff_im_zero, mul_zero]

theorem colSum_zonal {m : ℕ} (hm : m ≠ 0) (h2 : 2 * m < w) {f : GridField h w} (hf : ZonallySymmetric f) : colSum E m f = 0 := by
  unfold colSum
  refine Finset.sum_eq_zero fun j _ => ?_
  have : f j = fun _ => f j ⟨0, by omega⟩ := funext fun i => hf _ _ _
  rw [this, rowCoeff_const (by omega) hm h2, mul_zero]

end cols

theorem exp_lam {g : Grid ℝ} (hg : g.Valid) (m i : ℕ) : Complex.exp (I * ((m * g.lam i : ℝ) : ℂ)) = ru g.nlon (m * i : ℤ) := by
  have hn : (g.nlon : ℂ) ≠ 0 := by
    have : g.nlon ≠ 0 := by have := hg.nlon_ge; omega
    exact_mod_cast this
  unfold ru Grid.lam deg2rad
  rw [Grid.lon_eq]
  congr 1
  push_cast
  field_simp
  ring

theorem colSum_sample {g : Grid ℝ} (hg : g.Valid) (E : Fin g.nlat → ℝ) {m : ℕ} (hm : 2 * m < g.nlon)
    (N : ℕ → ℕ → ℝ) (P : ℕ → ℕ → ℝ → ℝ) (s : g.Spc) (hT : ∀ k, s k = 0 ∨ 2 * specM k < g.nlon)
    (hs : m = 0 → ∀ k, specM k = 0 → (s k).im = 0 ∨ ∀ y, P (specN k) 0 y = 0) :
    colSum E m (g.sample (modeSum N P s)) =
      ∑ k, if specM k = m then ((N (specN k) m * ∑ j, E j * P (specN k) m (g.phi j) : ℝ) : ℂ) * s k else 0 := by
  have hn : g.nlon ≠ 0 := by omega
  have hrow : ∀ j : Fin g.nlat, rowCoeff m (g.sample (modeSum N P s) j) =
      ∑ k, if specM k = m then ((N (specN k) m * P (specN k) m (g.phi j) : ℝ) : ℂ) * s k else 0 := by
    intro j
    have e : g.sample (modeSum N P s) j = fun i : Fin g.nlon => ∑ k,
        ((((N (specN k) (specM k) * P (specN k) (specM k) (g.phi j) : ℝ) : ℂ) * s k) * ru g.nlon (specM k * i.val : ℤ)).re := by
      funext i
      unfold Grid.sample modeSum
      refine Finset.sum_congr rfl fun k _ => ?_
      rw [exp_lam hg, mul_assoc (_ : ℂ) (s k), Complex.re_ofReal_mul]
    rw [e, rowCoeff_sum]
    refine Finset.sum_congr rfl fun k _ => ?_
    rcases hT k with hk | hk
    · have e0 : (fun i : Fin g.nlon => ((((N (specN k) (specM k) * P (specN k) (specM k) (g.phi j) : ℝ) : ℂ) * s k) *
          ru g.nlon (specM k * i.val : ℤ)).re) = fun _ => 0 := by funext i; simp [hk]
      rw [e0, hk, mul_zero, ite_self]
      exact rowCoeff_zero m
    rw [rowCoeff_wave hn hk (by omega)]
    by_cases hkm : specM k = m
    · rw [if_pos hkm, if_pos hkm, hkm]
      by_cases hm0 : m = 0
      · rw [if_pos hm0]
        subst hm0
        rcases hs rfl k hkm with h | h
        · rw [Complex.re_ofReal_mul]
          push_cast
          congr 1
          exact Complex.ext (by simp) (by simp [h])
        · simp [h]
      · rw [if_neg hm0]
    · rw [if_neg hkm, if_neg hkm]
  unfold colSum
  simp only [hrow, Finset.mul_sum]
  rw [Finset.sum_comm]
  refine Finset.sum_congr rfl fun k _ => ?_
  split_ifs
  · push_cast
    rw [Finset.sum_mul]
    exact Finset.sum_congr rfl fun j _ => by ring
  · simp

/-! ## The transform -/

variable {g : Grid ℝ}

/-- Streamfunction and velocity potential of a wind field, mode by mode. `E` are the functionals of `vector_dual`. -/
noncomputable def colA (E : ℕ → ℕ → Fin g.nlat → ℝ) (u v : g.Fld) (n m : ℕ) : ℂ := colSum (E m n) m u - I * colSum (E m n) m v

noncomputable def colB (E : ℕ → ℕ → Fin g.nlat → ℝ) (u v : g.Fld) (n m : ℕ) : ℂ :=
  -(-1) ^ (n + m) * (colSum (fun j => E m n j.rev) m u + I * colSum (fun j => E m n j.rev) m v)

/-- Transform with given functionals `D`, `E` for analysis -/
noncomputable def exactSph (N : ℕ → ℕ → ℝ) (D E : ℕ → ℕ → Fin g.nlat → ℝ) : g.Sph where
  grdtospec f := fun k => colSum (D (specM k) (specN k)) (specM k) f / N (specN k) (specM k)
  spectogrd s := g.sample (harmonicSum N s)
  getuv a b := (g.sample fun x y => (-phiDeriv N (invLaplace g.rsphere a) x y + lamDeriv N (invLaplace g.rsphere b) x y) / g.rsphere,
     g.sample fun x y => (lamDeriv N (invLaplace g.rsphere a) x y + phiDeriv N (invLaplace g.rsphere b) x y) / g.rsphere)
  getvrtdivspec u v := (fun k => if specN k = 0 then 0 else
      -(specN k * (specN k + 1) / g.rsphere ^ 2 : ℝ) * (g.rsphere / (2 * N (specN k) (specM k)) *
        (colA E u v (specN k) (specM k) + colB E u v (specN k) (specM k))),
    fun k => if specN k = 0 then 0 else
      -(specN k * (specN k + 1) / g.rsphere ^ 2 : ℝ) * (-I * (g.rsphere / (2 * N (specN k) (specM k))) *
        (colA E u v (specN k) (specM k) - colB E u v (specN k) (specM k))))
  getgrad s := (g.sample fun x y => lamDeriv N s x y / g.rsphere, g.sample fun x y => phiDeriv N s x y / g.rsphere)

/-- What the functionals have to do -/
structure IsDual (g : Grid ℝ) (B : ℕ) (D E : ℕ → ℕ → Fin g.nlat → ℝ) : Prop where
  scalar : ∀ m n n', m ≤ n → n ≤ B → m ≤ n' → n' ≤ B → ∑ j, D m n j * legendre n' m (g.phi j) = if n = n' then 1 else 0
  scalar_rev : ∀ m n j, D m n j.rev = (-1) ^ (n + m) * D m n j
  scalar_high : ∀ m n j, B < n → D m n j = 0
  vector : ∀ m n n', m ≤ n → 1 ≤ n → n ≤ B → m ≤ n' → 1 ≤ n' → n' ≤ B →
    ∑ j, E m n j * vecLegendre n' m (g.phi j) = if n = n' then 1 else 0
  vector_rev : ∀ n j, E 0 n j.rev = -((-1) ^ n * E 0 n j)
  vector_high : ∀ m n j, B < n → E m n j = 0

theorem exists_isDual (hg : g.Valid) {B : ℕ} (hT : B + 2 ≤ g.nlat) : ∃ D E, IsDual g B D E := by
  choose D hD1 hD2 using scalar_dual hg hT
  choose E hE1 hE2 using vector_dual hg hT
  refine ⟨fun m n j => if n ≤ B then D m n j else 0, fun m n j => if n ≤ B then E m n j else 0, ?_, ?_, ?_, ?_, ?_, ?_⟩
  · intro m n n' h1 h2 h3 h4
    simp only [if_pos h2]
    exact hD1 m n n' h1 h2 h3 h4
  · intro m n j
    split_ifs
    · exact hD2 m n j
    · simp
  · intro m n j h; rw [if_neg (by omega)]
  · intro m n n' h1 h1' h2 h3 h3' h4
    simp only [if_pos h2]
    exact hE1 m n n' h1 h1' h2 h3 h3' h4
  · intro n j
    split_ifs
    · exact hE2 0 rfl n j
    · simp
  · intro m n j h; rw [if_neg (by omega)]

theorem two_mul_lt_nlon (hg : g.Valid) {B : ℕ} (hT : B + 2 ≤ g.nlat) : 2 * B < g.nlon := by
  have h1 : 2 * (g.nlat - 1) ≤ g.nlon := by
    unfold Grid.nlat Grid.nlon Grid.nlatOf Grid.nlonOf
    rw [Nat.add_sub_cancel]
    refine Nat.le_floor ?_
    have := Nat.floor_le (show (0 : ℝ) ≤ 180 / g.resolution by have := hg.res_pos; positivity)
    push_cast
    calc (2 : ℝ) * ⌊180 / g.resolution⌋₊ ≤ 2 * (180 / g.resolution) := by linarith
      _ = 360 / g.resolution := by ring
  omega

theorem colSum_weights_zero {h w : ℕ} {E : Fin h → ℝ} (hE : ∀ j, E j = 0) (m : ℕ) (f : GridField h w) : colSum E m f = 0 := by
  unfold colSum
  exact Finset.sum_eq_zero fun j _ => by rw [hE]; simp

theorem BandLimited.wave {T B n : ℕ} {s : SpecField T} (h : BandLimited B s) (hB : 2 * B < n) (k : Fin (nspec T)) :
    s k = 0 ∨ 2 * specM k < n := by
  by_cases hk : B < specN k
  · exact .inl (h k hk)
  · have := specM_le_specN k
    right; omega

theorem BandLimited.invLaplace {T B : ℕ} {s : SpecField T} (h : BandLimited B s) (r : ℝ) : BandLimited B (invLaplace r s) := by
  intro k hk
  unfold Barotropic.invLaplace degMul
  rw [h k hk, mul_zero]

theorem RealZonal.invLaplace {T : ℕ} {s : SpecField T} (hs : RealZonal s) (r : ℝ) : RealZonal (invLaplace r s) := by
  intro k hk
  unfold Barotropic.invLaplace degMul
  rw [Complex.im_ofReal_mul, hs k hk, mul_zero]

theorem invLaplace_zero {T : ℕ} (r : ℝ) (s : SpecField T) {k : Fin (nspec T)} (hk : specN k = 0) : invLaplace r s k = 0 := by
  unfold invLaplace degMul; simp [hk]

theorem legendreOverCos_zonal (n : ℕ) (y : ℝ) : legendreOverCos n 0 y = 0 := by simp [legendreOverCos]

section wind
variable (hg : g.Valid) {B : ℕ} (hT : 2 * B < g.nlon) (N : ℕ → ℕ → ℝ) (E : Fin g.nlat → ℝ) {m : ℕ} (hm : 2 * m < g.nlon)
include hg hT hm

theorem colSum_phiDeriv (s : g.Spc) (hs : RealZonal s) (hb : BandLimited B s) : colSum E m (g.sample (phiDeriv N s)) =
    ∑ k, if specM k = m then ((N (specN k) m * ∑ j, E j * deriv (legendre (specN k) m) (g.phi j) : ℝ) : ℂ) * s k else 0 :=
  colSum_sample hg E hm N _ s (hb.wave hT) fun _ k hk => .inl (hs k hk)

theorem colSum_lamDeriv (s : g.Spc) (hb : BandLimited B s) : colSum E m (g.sample (lamDeriv N s)) =
    ∑ k, if specM k = m then ((N (specN k) m * ∑ j, E j * legendreOverCos (specN k) m (g.phi j) : ℝ) : ℂ) * (I * s k) else 0 :=
  colSum_sample hg E hm N _ (timesI s) (fun k => (hb.wave hT k).imp_left fun h => by simp [timesI, h]) fun _ _ _ => .inr fun y => legendreOverCos_zonal _ y

/-- Both wind components for a streamfunction and velocity potential -/
theorem colSum_u (a b : g.Spc) (ha : RealZonal a) (hA : BandLimited B a) (hB : BandLimited B b) :
    colSum E m (g.sample fun x y => (-phiDeriv N a x y + lamDeriv N b x y) / g.rsphere) =
      1 / g.rsphere * ∑ k, if specM k = m then (N (specN k) m : ℂ) *
        (-((∑ j, E j * deriv (legendre (specN k) m) (g.phi j) : ℝ) : ℂ) * a k +
          ((∑ j, E j * legendreOverCos (specN k) m (g.phi j) : ℝ) : ℂ) * (I * b k)) else 0 := by
  have e : (g.sample fun x y => (-phiDeriv N a x y + lamDeriv N b x y) / g.rsphere) =
      (1 / g.rsphere) • (-g.sample (phiDeriv N a) + g.sample (lamDeriv N b)) := by
    funext j i; simp [Grid.sample]; ring
  rw [e, colSum_smul, colSum_add, colSum_neg, colSum_phiDeriv hg hT N E hm a ha hA, colSum_lamDeriv hg hT N E hm b hB,
    ← Finset.sum_neg_distrib, ← Finset.sum_add_distrib]
  push_cast
  congr 1
  refine Finset.sum_congr rfl fun k _ => ?_
  split_ifs
  · ring
  · simp

theorem colSum_v (a b : g.Spc) (hb : RealZonal b) (hA : BandLimited B a) (hB : BandLimited B b) :
    colSum E m (g.sample fun x y => (lamDeriv N a x y + phiDeriv N b x y) / g.rsphere) =
      1 / g.rsphere * ∑ k, if specM k = m then (N (specN k) m : ℂ) *
        (((∑ j, E j * legendreOverCos (specN k) m (g.phi j) : ℝ) : ℂ) * (I * a k) +
          ((∑ j, E j * deriv (legendre (specN k) m) (g.phi j) : ℝ) : ℂ) * b k) else 0 := by
  have e : (g.sample fun x y => (lamDeriv N a x y + phiDeriv N b x y) / g.rsphere) =
      (1 / g.rsphere) • (g.sample (lamDeriv N a) + g.sample (phiDeriv N b)) := by
    funext j i; simp [Grid.sample]; ring
  rw [e, colSum_smul, colSum_add, colSum_phiDeriv hg hT N E hm b hb hB, colSum_lamDeriv hg hT N E hm a hA, ← Finset.sum_add_distrib]
  push_cast
  congr 1
  refine Finset.sum_congr rfl fun k _ => ?_
  split_ifs
  · ring
  · simp

theorem colSum_minus (a b : g.Spc) (ha : RealZonal a) (hb : RealZonal b) (hA : BandLimited B a) (hB : BandLimited B b) :
    colSum E m (g.sample fun x y => (-phiDeriv N a x y + lamDeriv N b x y) / g.rsphere) -
      I * colSum E m (g.sample fun x y => (lamDeriv N a x y + phiDeriv N b x y) / g.rsphere) =
      1 / g.rsphere * ∑ k, if specM k = m then (N (specN k) m : ℂ) *
        ((∑ j, E j * vecLegendre (specN k) m (g.phi j) : ℝ) : ℂ) * (a k + I * b k) else 0 := by
  rw [colSum_u hg hT N E hm a b ha hA hB, colSum_v hg hT N E hm a b hb hA hB, mul_left_comm, ← mul_sub, Finset.mul_sum, ← Finset.sum_sub_distrib]
  congr 1
  refine Finset.sum_congr rfl fun k _ => ?_
  split_ifs
  · have e : ∑ j, E j * vecLegendre (specN k) m (g.phi j) =
        -∑ j, E j * deriv (legendre (specN k) m) (g.phi j) + ∑ j, E j * legendreOverCos (specN k) m (g.phi j) := by
      rw [← Finset.sum_neg_distrib, ← Finset.sum_add_distrib]
      exact Finset.sum_congr rfl fun j _ => by unfold vecLegendre; ring
    rw [e, Complex.ofReal_add, Complex.ofReal_neg]
    have hI := Complex.I_sq
    linear_combination (-(N (specN k) m : ℂ) * ((∑ j, E j * legendreOverCos (specN k) m (g.phi j) : ℝ) : ℂ) * a k) * hI
  · simp

theorem colSum_plus (a b : g.Spc) (ha : RealZonal a) (hb : RealZonal b) (hA : BandLimited B a) (hB : BandLimited B b) :
    colSum (fun j => E j.rev) m (g.sample fun x y => (-phiDeriv N a x y + lamDeriv N b x y) / g.rsphere) +
      I * colSum (fun j => E j.rev) m (g.sample fun x y => (lamDeriv N a x y + phiDeriv N b x y) / g.rsphere) =
      1 / g.rsphere * ∑ k, if specM k = m then (N (specN k) m : ℂ) *
        (-(-1) ^ (specN k + m) * (∑ j, E j * vecLegendre (specN k) m (g.phi j) : ℝ) : ℂ) * (a k - I * b k) else 0 := by
  rw [colSum_u hg hT N _ hm a b ha hA hB, colSum_v hg hT N _ hm a b hb hA hB, mul_left_comm, ← mul_add, Finset.mul_sum, ← Finset.sum_add_distrib]
  congr 1
  refine Finset.sum_congr rfl fun k _ => ?_
  split_ifs
  · have e1 : ∑ j : Fin g.nlat, E j.rev * deriv (legendre (specN k) m) (g.phi j) =
        -((-1) ^ (specN k + m) * ∑ j, E j * deriv (legendre (specN k) m) (g.phi j)) := by
      rw [Finset.mul_sum, ← Finset.sum_neg_distrib, ← sum_rev]
      exact Finset.sum_congr rfl fun j _ => by rw [Fin.rev_rev, Grid.phi_rev hg, deriv_legendre_neg]; ring
    have e2 : ∑ j : Fin g.nlat, E j.rev * legendreOverCos (specN k) m (g.phi j) =
        (-1) ^ (specN k + m) * ∑ j, E j * legendreOverCos (specN k) m (g.phi j) := by
      rw [Finset.mul_sum, ← sum_rev]
      exact Finset.sum_congr rfl fun j _ => by rw [Fin.rev_rev, Grid.phi_rev hg, legendreOverCos_neg]; ring
    have e : ∑ j, E j * vecLegendre (specN k) m (g.phi j) =
        -∑ j, E j * deriv (legendre (specN k) m) (g.phi j) + ∑ j, E j * legendreOverCos (specN k) m (g.phi j) := by
      rw [← Finset.sum_neg_distrib, ← Finset.sum_add_distrib]
      exact Finset.sum_congr rfl fun j _ => by unfold vecLegendre; ring
    rw [e1, e2, e]
    push_cast
    have hI := Complex.I_sq
    linear_combination ((N (specN k) m : ℂ) * (-1) ^ (specN k + m) *
      (∑ j, (E j : ℂ) * (legendreOverCos (specN k) m (g.phi j) : ℂ)) * a k) * hI
  · simp

end wind

/-- Sums over modes of one order reduce to a single mode. -/
theorem sum_mode {T : ℕ} (k : Fin (nspec T)) (F : Fin (nspec T) → ℂ) (hF : ∀ l, specM l = specM k → l ≠ k → F l = 0) :
    (∑ l : Fin (nspec T), if specM l = specM k then F l else 0) = F k := by
  rw [Finset.sum_eq_single k]
  · rw [if_pos rfl]
  · intro l _ hl
    split_ifs with h
    · exact hF l h hl
    · rfl
  · simp

theorem exactSph_exact (hg : g.Valid) {B : ℕ} (hT : B + 2 ≤ g.nlat) {N : ℕ → ℕ → ℝ} (hN : ∀ n m, N n m ≠ 0)
    {D E : ℕ → ℕ → Fin g.nlat → ℝ} (h : IsDual g B D E) : Spharm.Exact N B (exactSph N D E) := by
  have hT2 := two_mul_lt_nlon hg hT
  have hr : (g.rsphere : ℂ) ≠ 0 := by exact_mod_cast hg.rsphere_pos.ne'
  have hNc : ∀ n m, (N n m : ℂ) ≠ 0 := fun n m => by exact_mod_cast hN n m
  refine ⟨hN, fun _ => rfl, fun _ => rfl, fun _ _ => rfl, ?_, ?_, ?_, ?_, ?_, ?_, ?_, ?_, ?_, ?_, ?_⟩
  · intro f k hk
    simp only [exactSph]
    rw [hk, Complex.div_ofReal_im, colSum_im_zero, zero_div]
  · intro s hs hb
    funext k
    simp only [exactSph, harmonicSum]
    have h1 := specM_le_specN k
    by_cases hk : B < specN k
    · rw [colSum_weights_zero (fun j => h.scalar_high _ _ j hk), hb k hk, zero_div]
    have h2 : specN k ≤ B := by omega
    rw [colSum_sample hg _ (by omega) N legendre s (hb.wave hT2) fun _ k hk => .inl (hs k hk), sum_mode k]
    · rw [h.scalar _ _ _ h1 h2 h1 h2, if_pos rfl, mul_one, mul_div_cancel_left₀ _ (hNc _ _)]
    · intro l hl hlk
      have h3 := specM_le_specN l
      by_cases hlB : B < specN l
      · rw [hb l hlB, mul_zero]
      have h4 : specN l ≤ B := by omega
      rw [h.scalar _ _ _ h1 h2 (hl ▸ h3) h4, if_neg, mul_zero, Complex.ofReal_zero, zero_mul]
      intro e
      exact hlk (specIndex_inj hl e.symm)
  · intro f f'
    funext k
    simp only [exactSph, Pi.add_apply, colSum_add, add_div]
  · intro c f
    funext k
    simp only [exactSph, Pi.smul_apply, colSum_smul, Complex.real_smul, mul_div_assoc]
  · intro d f
    funext k
    simp only [exactSph, colSum_rotate, phaseShift]
    rw [show Complex.exp (2 * Real.pi * I * (specM k * d / g.nlon)) = ru g.nlon (specM k * d : ℤ) by
      unfold ru; congr 1; push_cast; ring, mul_div_assoc]
  · intro a b ha hb hA hB
    have key : ∀ k : Fin (nspec g.ntrunc), specN k ≠ 0 → specN k ≤ B →
        colA E ((exactSph N D E).getuv a b).1 ((exactSph N D E).getuv a b).2 (specN k) (specM k) =
          1 / g.rsphere * (N (specN k) (specM k) * (invLaplace g.rsphere a k + I * invLaplace g.rsphere b k)) ∧
        colB E ((exactSph N D E).getuv a b).1 ((exactSph N D E).getuv a b).2 (specN k) (specM k) =
          1 / g.rsphere * (N (specN k) (specM k) * (invLaplace g.rsphere a k - I * invLaplace g.rsphere b k)) := by
      intro k hk h2
      have h1 := specM_le_specN k
      have hz : ∀ l : Fin (nspec g.ntrunc), specM l = specM k → specN l ≠ 0 → specN l ≤ B →
          ∑ j, E (specM k) (specN k) j * vecLegendre (specN l) (specM k) (g.phi j) = if specN k = specN l then 1 else 0 := by
        intro l hl hl0 h4
        have h3 := specM_le_specN l
        exact h.vector _ _ _ h1 (by omega) h2 (hl ▸ h3) (by omega) h4
      have hself := hz k rfl hk h2
      rw [if_pos rfl] at hself
      have hs := neg_one_pow_mul_self (specN k + specM k)
      have hsc : ((-1 : ℂ) ^ (specN k + specM k)) * (-1) ^ (specN k + specM k) = 1 := by exact_mod_cast hs
      constructor
      · unfold colA
        simp only [exactSph]
        rw [colSum_minus hg hT2 N _ (by omega) _ _ (ha.invLaplace _) (hb.invLaplace _) (hA.invLaplace _) (hB.invLaplace _), sum_mode k]
        · rw [hself]; push_cast; ring
        · intro l hl hlk
          by_cases hl0 : specN l = 0
          · rw [invLaplace_zero _ _ hl0, invLaplace_zero _ _ hl0]; ring
          by_cases hlB : B < specN l
          · rw [hA.invLaplace _ l hlB, hB.invLaplace _ l hlB]; ring
          · rw [hz l hl hl0 (by omega), if_neg fun e => hlk (specIndex_inj hl e.symm)]; simp
      · unfold colB
        simp only [exactSph]
        rw [colSum_plus hg hT2 N _ (by omega) _ _ (ha.invLaplace _) (hb.invLaplace _) (hA.invLaplace _) (hB.invLaplace _), sum_mode k]
        · rw [hself]; push_cast
          linear_combination (1 / g.rsphere * (N (specN k) (specM k) * (invLaplace g.rsphere a k - I * invLaplace g.rsphere b k))) * hsc
        · intro l hl hlk
          by_cases hl0 : specN l = 0
          · rw [invLaplace_zero _ _ hl0, invLaplace_zero _ _ hl0]; ring
          by_cases hlB : B < specN l
          · rw [hA.invLaplace _ l hlB, hB.invLaplace _ l hlB]; ring
          · rw [hz l hl hl0 (by omega), if_neg fun e => hlk (specIndex_inj hl e.symm)]; simp
    refine Prod.ext ?_ ?_ <;> funext k
    · change (if specN k = 0 then (0 : ℂ) else _) = dropMean a k
      unfold dropMean
      split_ifs with hk
      · rfl
      by_cases hkB : B < specN k
      · unfold colA colB
        rw [hA k hkB, colSum_weights_zero (fun j => h.vector_high _ _ j hkB), colSum_weights_zero (fun j => h.vector_high _ _ j hkB),
          colSum_weights_zero (fun j => h.vector_high _ _ _ hkB), colSum_weights_zero (fun j => h.vector_high _ _ _ hkB)]
        ring
      · rw [(key k hk (by omega)).1, (key k hk (by omega)).2]
        unfold invLaplace degMul
        have hn : (specN k : ℂ) ≠ 0 := by exact_mod_cast hk
        have hn1 : (specN k : ℂ) + 1 ≠ 0 := by exact_mod_cast (specN k).succ_ne_zero
        have := hNc (specN k) (specM k)
        simp only [if_neg hk]
        push_cast
        field_simp
        ring
    · change (if specN k = 0 then (0 : ℂ) else _) = dropMean b k
      unfold dropMean
      split_ifs with hk
      · rfl
      by_cases hkB : B < specN k
      · unfold colA colB
        rw [hB k hkB, colSum_weights_zero (fun j => h.vector_high _ _ j hkB), colSum_weights_zero (fun j => h.vector_high _ _ j hkB),
          colSum_weights_zero (fun j => h.vector_high _ _ _ hkB), colSum_weights_zero (fun j => h.vector_high _ _ _ hkB)]
        ring
      · rw [(key k hk (by omega)).1, (key k hk (by omega)).2]
        unfold invLaplace degMul
        have hn : (specN k : ℂ) ≠ 0 := by exact_mod_cast hk
        have hn1 : (specN k : ℂ) + 1 ≠ 0 := by exact_mod_cast (specN k).succ_ne_zero
        have := hNc (specN k) (specM k)
        simp only [if_neg hk]
        push_cast
        have hI := Complex.I_sq
        field_simp
        linear_combination (-2 * b k) * hI
  · intro u u' v v'
    refine Prod.ext ?_ ?_ <;> funext k <;> simp only [exactSph, colA, colB, colSum_add, Prod.fst_add, Prod.snd_add, Pi.add_apply] <;>
      split_ifs <;> ring
  · intro c u v
    refine Prod.ext ?_ ?_ <;> funext k <;>
      simp only [exactSph, colA, colB, colSum_smul, Prod.smul_fst, Prod.smul_snd, Pi.smul_apply, Complex.real_smul] <;>
      split_ifs <;> ring
  · intro d u v
    have e : ∀ k : Fin (nspec g.ntrunc), Complex.exp (2 * Real.pi * I * (specM k * d / g.nlon)) = ru g.nlon (specM k * d : ℤ) := by
      intro k; unfold ru; congr 1; push_cast; ring
    refine Prod.ext ?_ ?_ <;> funext k <;> simp only [exactSph, colA, colB, colSum_rotate, phaseShift, e] <;> split_ifs <;> ring
  · intro u v k hk
    simp [exactSph, hk]
  · intro u hu
    funext k
    simp only [exactSph, colA, colB, colSum_zero, Pi.zero_apply]
    split_ifs with hk
    · rfl
    · by_cases hm : specM k = 0
      · rw [hm]
        have e : (fun j : Fin g.nlat => E 0 (specN k) j.rev) = fun j => -(-1) ^ specN k * E 0 (specN k) j := by
          funext j; rw [h.vector_rev]; ring
        rw [e, colSum_mul]
        have hs := neg_one_pow_mul_self (specN k)
        have hsc : ((-1 : ℂ) ^ specN k) * (-1) ^ specN k = 1 := by exact_mod_cast hs
        push_cast
        rw [add_zero]
        linear_combination (-(specN k * (specN k + 1) / g.rsphere ^ 2 : ℂ) * (-I * (g.rsphere / (2 * N (specN k) 0))) *
          (-colSum (E 0 (specN k)) 0 u)) * hsc
      by_cases hkB : B < specN k
      · rw [colSum_weights_zero (fun j => h.vector_high _ _ j hkB), colSum_weights_zero (fun j => h.vector_high _ _ _ hkB)]
        ring
      · have h1 := specM_le_specN k
        rw [colSum_zonal _ hm (by omega) hu, colSum_zonal _ hm (by omega) hu]
        ring

end Barotropic
