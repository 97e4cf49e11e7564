import Verif.Lemmas.Fourier
import Verif.Spec.Fourier

/-!
# Zonal Fourier analysis: C61, C62, C64
-/

namespace Barotropic
open Complex Finset

variable {h w : ℕ}

/-! ## C61 band-pass -/

theorem restrict_ok (f : Fin h → Fin w → ℝ) (kmin kmax : ℕ) (hw : 2 ≤ w) : restrictFourierZonal f kmin kmax =
    .ok (.d2 h (2 * (w / 2)) fun j i => irfft (w / 2) (restrictBand kmin kmax (dft (f j))) i) := by
  unfold restrictFourierZonal
  rw [if_neg (by omega), if_neg (by omega)]

theorem restrict_even {M : ℕ} (f : Fin h → Fin (2 * M) → ℝ) (kmin kmax : ℕ) (hM : 0 < M) : restrictFourierZonal f kmin kmax =
    .ok (.d2 h (2 * M) fun j i => irfft M (restrictBand kmin kmax (dft (f j))) i) := by
  rw [restrict_ok f kmin kmax (by omega), Nat.mul_div_cancel_left M (by norm_num)]

theorem band_linear (kmin kmax : ℕ) (c : ℝ) (X Y : ℕ → ℂ) :
    restrictBand kmin kmax (fun k => c * X k + Y k) = fun k => c * restrictBand kmin kmax X k + restrictBand kmin kmax Y k := by
  funext k
  unfold restrictBand
  split_ifs <;> simp

theorem band_band (kmin kmax : ℕ) (X : ℕ → ℂ) : restrictBand kmin kmax (restrictBand kmin kmax X) = restrictBand kmin kmax X := by
  funext k
  unfold restrictBand
  split_ifs <;> rfl

theorem band_im {kmin kmax k : ℕ} {X : ℕ → ℂ} (hX : (X k).im = 0) : (restrictBand kmin kmax X k).im = 0 := by
  unfold restrictBand
  split_ifs <;> simp [hX]

theorem wave_re {n : ℕ} (k : ℕ) (A φ : Fin h → ℝ) (j : Fin h) (i : Fin n) :
    zonalWave n k A φ j i = ((A j : ℂ) * exp (-(φ j : ℂ) * I) * ru n (k * i.val : ℤ)).re := by
  unfold zonalWave ru
  rw [mul_assoc (A j : ℂ), ← exp_add, re_ofReal_mul,
    show (-(φ j : ℂ) * I + 2 * Real.pi * I * ((k * i.val : ℤ) : ℂ) / n) = ((2 * Real.pi * k * i.val / n - φ j : ℝ) : ℂ) * I by
      push_cast; ring, exp_ofReal_mul_I_re]

/-- spectrum of a wave -/
theorem dft_zonalWave {M k l : ℕ} (hM : 0 < M) (hk : k ≤ M) (hl : l ≤ M) {A φ : Fin h → ℝ} {j : Fin h} :
    dft (zonalWave (2 * M) k A φ j) l = if l = k then dft (zonalWave (2 * M) k A φ j) k else 0 := by
  split_ifs with e
  · rw [e]
  · have h1 : zonalWave (2 * M) k A φ j = fun i : Fin (2 * M) => ((A j : ℂ) * exp (-(φ j : ℂ) * I) * ru (2 * M) (k * i.val : ℤ)).re :=
      funext fun i => wave_re k A φ j i
    rw [h1, dft_wave (by omega), if_neg (fun h => e ((dvd_sub_iff hM hk hl).mp h).symm),
      if_neg (fun h => by rcases (dvd_add_iff hM hk hl).mp h with h | h <;> omega)]
    simp

/-- C61: the shape is preserved for an even number of longitudes. -/
theorem C61_shape_even_partial (hw : 0 < w) (he : Even w) (f : Fin h → Fin w → ℝ) (kmin kmax : ℕ) :
    ∃ y : Fin h → Fin w → ℝ, restrictFourierZonal f kmin kmax = .ok (.d2 h w y) := by
  obtain ⟨M, rfl⟩ := he.two_dvd
  exact ⟨_, restrict_even f kmin kmax (by omega)⟩

/-- C61 is false for an odd number of longitudes: one column is lost (and a single column is rejected). -/
theorem C61_shape_odd_refuted (ho : Odd w) (f : Fin h → Fin w → ℝ) (kmin kmax : ℕ) :
    (w = 1 ∧ restrictFourierZonal f kmin kmax = .error .valueError) ∨
    ∃ y : Fin h → Fin (w - 1) → ℝ, restrictFourierZonal f kmin kmax = .ok (.d2 h (w - 1) y) := by
  obtain ⟨M, rfl⟩ := ho
  rcases Nat.eq_zero_or_pos M with rfl | hM
  · left
    refine ⟨rfl, ?_⟩
    unfold restrictFourierZonal
    rw [if_neg (by omega), if_pos (by omega)]
  · right
    rw [restrict_ok f kmin kmax (by omega)]
    have : 2 * ((2 * M + 1) / 2) = 2 * M + 1 - 1 := by omega
    rw [this]
    exact ⟨_, rfl⟩

/-- C61: linear. -/
theorem C61_linear {n : ℕ} (c : ℝ) (f f' : Fin h → Fin w → ℝ) (kmin kmax : ℕ) (y y' : Fin h → Fin n → ℝ)
    (hy : restrictFourierZonal f kmin kmax = .ok (.d2 h n y)) (hy' : restrictFourierZonal f' kmin kmax = .ok (.d2 h n y')) :
    restrictFourierZonal (c • f + f') kmin kmax = .ok (.d2 h n (c • y + y')) := by
  by_cases hw : 2 ≤ w
  · rw [restrict_ok _ _ _ hw] at hy hy' ⊢
    simp only [Except.ok.injEq, Arr.d2.injEq, heq_eq_eq, true_and] at hy hy' ⊢
    obtain ⟨rfl, hy⟩ := hy
    obtain ⟨_, hy'⟩ := hy'
    cases hy; cases hy'
    refine ⟨rfl, heq_of_eq ?_⟩
    funext j i
    rw [Pi.add_apply, Pi.smul_apply, show dft (c • f j + f' j) = fun k => c * dft (f j) k + dft (f' j) k from
      funext fun k => dft_linear c _ _ k, band_linear, irfft_linear]
    rfl
  · unfold restrictFourierZonal at hy
    split_ifs at hy with h1 h2
    omega

/-- C61: idempotent (for every number of columns, the result can be restricted again without change). -/
theorem C61_idempotent {n : ℕ} (f : Fin h → Fin w → ℝ) (kmin kmax : ℕ) (y : Fin h → Fin n → ℝ)
    (hy : restrictFourierZonal f kmin kmax = .ok (.d2 h n y)) : restrictFourierZonal y kmin kmax = .ok (.d2 h n y) := by
  by_cases hw : 2 ≤ w
  · rw [restrict_ok _ _ _ hw] at hy
    simp only [Except.ok.injEq, Arr.d2.injEq, true_and] at hy
    obtain ⟨rfl, hy⟩ := hy
    cases hy
    have hM : 0 < w / 2 := by omega
    rw [restrict_even _ _ _ hM]
    simp only [Except.ok.injEq, Arr.d2.injEq, heq_eq_eq, true_and]
    funext j i
    rw [← irfft_endReal (w / 2) (restrictBand kmin kmax (dft (f j)))]
    refine irfft_congr (fun k hk => ?_) _
    have e : ∀ X : ℕ → ℂ, restrictBand kmin kmax X k = if k < kmin then 0 else if kmax + 1 ≤ k then 0 else X k := fun _ => rfl
    rw [e, dft_irfft' hM _ k hk]
    unfold endReal
    rw [e]
    by_cases h1 : k < kmin
    · simp [h1]
    · by_cases h2 : kmax + 1 ≤ k
      · simp [h1, h2]
      · simp only [h1, h2, if_false]
  · unfold restrictFourierZonal at hy
    split_ifs at hy with h1 h2
    omega

/-- C61: commutes with zonal rotation. -/
theorem C61_rotation (he : Even w) (d : ℕ) (f : Fin h → Fin w → ℝ) (kmin kmax : ℕ) (y : Fin h → Fin w → ℝ)
    (hy : restrictFourierZonal f kmin kmax = .ok (.d2 h w y)) :
    restrictFourierZonal (rotate d f) kmin kmax = .ok (.d2 h w (rotate d y)) := by
  obtain ⟨M, rfl⟩ := he.two_dvd
  rcases Nat.eq_zero_or_pos M with rfl | hM
  · unfold restrictFourierZonal at hy
    rw [if_pos (by omega)] at hy
    cases hy
  rw [restrict_even _ _ _ hM] at hy ⊢
  simp only [Except.ok.injEq, Arr.d2.injEq, heq_eq_eq, true_and] at hy ⊢
  subst hy
  funext j i
  have e : dft (rotate d f j) = fun k : ℕ => ru (2 * M) (k * d : ℤ) * dft (f j) k := funext fun k : ℕ => dft_rot d (f j) k
  rw [e]
  change _ = irfft M (restrictBand kmin kmax (dft (f j))) ((i.val + d) % (2 * M))
  have e2 : restrictBand kmin kmax (fun k : ℕ => ru (2 * M) (k * d : ℤ) * dft (f j) k) =
      fun k : ℕ => ru (2 * M) (k * d : ℤ) * restrictBand kmin kmax (dft (f j)) k := by
    funext k; unfold restrictBand; split_ifs <;> simp
  rw [e2]
  exact irfft_rot hM _ d i (by exact band_im (dft_im_half hM _))

/-- C61: waves inside of the band are unchanged, waves outside are removed. -/
theorem C61_waves (hw : 0 < w) (he : Even w) (k : ℕ) (hk : k ≤ w / 2) (A φ : Fin h → ℝ) (kmin kmax : ℕ) :
    restrictFourierZonal (zonalWave w k A φ) kmin kmax =
      .ok (.d2 h w (if kmin ≤ k ∧ k ≤ kmax then zonalWave w k A φ else 0)) := by
  obtain ⟨M, rfl⟩ := he.two_dvd
  have hM : 0 < M := by omega
  have hk' : k ≤ M := by omega
  rw [restrict_even _ _ _ hM]
  simp only [Except.ok.injEq, Arr.d2.injEq, heq_eq_eq, true_and]
  funext j i
  split_ifs with hb
  · rw [← irfft_dft hM (zonalWave (2 * M) k A φ j) i]
    refine irfft_congr (fun l hl => ?_) _
    unfold restrictBand
    rw [dft_zonalWave hM hk' hl]
    split_ifs <;> first | rfl | omega
  · have : ∀ l ≤ M, restrictBand kmin kmax (dft (zonalWave (2 * M) k A φ j)) l = 0 := by
      intro l hl
      unfold restrictBand
      rw [dft_zonalWave hM hk' hl]
      split_ifs <;> first | rfl | omega
    rw [irfft_congr (Y := fun _ => 0) this]
    simp [irfft]

/-- C61: restricting to all wavenumbers changes nothing, in particular no component is lost or invented. -/
theorem C61_full_band (hw : 0 < w) (he : Even w) (f : Fin h → Fin w → ℝ) (kmax : ℕ) (hk : w / 2 ≤ kmax) :
    restrictFourierZonal f 0 kmax = .ok (.d2 h w f) := by
  obtain ⟨M, rfl⟩ := he.two_dvd
  have hM : 0 < M := by omega
  rw [restrict_even _ _ _ hM]
  simp only [Except.ok.injEq, Arr.d2.injEq, heq_eq_eq, true_and]
  funext j i
  rw [← irfft_dft hM (f j) i]
  refine irfft_congr (fun l hl => ?_) _
  unfold restrictBand
  rw [if_neg (by omega), if_neg (by omega)]

/-- C61: the part inside and the parts outside of the band add up to the field. -/
theorem C61_decomposition (hw : 0 < w) (he : Even w) (f : Fin h → Fin w → ℝ) (kmin kmax : ℕ) (hk : kmin ≤ kmax + 1) (hk0 : 0 < kmin) :
    ∃ y0 y1 y2 : Fin h → Fin w → ℝ, restrictFourierZonal f 0 (kmin - 1) = .ok (.d2 h w y0) ∧
      restrictFourierZonal f kmin kmax = .ok (.d2 h w y1) ∧ restrictFourierZonal f (kmax + 1) (w / 2) = .ok (.d2 h w y2) ∧
      y0 + y1 + y2 = f := by
  obtain ⟨M, rfl⟩ := he.two_dvd
  have hM : 0 < M := by omega
  refine ⟨_, _, _, restrict_even _ _ _ hM, restrict_even _ _ _ hM, restrict_even _ _ _ hM, ?_⟩
  funext j i
  simp only [Pi.add_apply]
  have h1 := irfft_linear (M := M) 1 (restrictBand 0 (kmin - 1) (dft (f j))) (restrictBand kmin kmax (dft (f j))) i
  have h2 := irfft_linear (M := M) 1 (fun k => (1 : ℝ) * restrictBand 0 (kmin - 1) (dft (f j)) k + restrictBand kmin kmax (dft (f j)) k)
    (restrictBand (kmax + 1) (2 * M / 2) (dft (f j))) i
  rw [h1, one_mul, one_mul] at h2
  rw [← h2, ← irfft_dft hM (f j) i]
  refine irfft_congr (fun l hl => ?_) _
  unfold restrictBand
  push_cast
  split_ifs <;> first | omega | simp

/-- Non-vacuity of C61. -/
example : restrictFourierZonal (zonalWave (h := 2) 8 3 (fun _ => 1) (fun _ => 0)) 2 4 =
    .ok (.d2 2 8 (zonalWave 8 3 (fun _ => 1) (fun _ => 0))) := by
  rw [C61_waves (by norm_num) (by decide) 3 (by norm_num), if_pos (by norm_num)]

/-! ## C62 dominant wavenumber -/

theorem argmax_spec (p : ℕ → ℝ) {n : ℕ} (hn : 0 < n) :
    argmax p n < n ∧ (∀ k < n, p k ≤ p (argmax p n)) ∧ ∀ k < argmax p n, p k < p (argmax p n) := by
  induction n with
  | zero => omega
  | succ n ih =>
    rcases Nat.eq_zero_or_pos n with rfl | h0
    · have : argmax p 1 = 0 := by unfold argmax; split_ifs <;> rfl
      rw [this]
      refine ⟨by omega, fun k hk => ?_, fun k hk => by omega⟩
      rw [show k = 0 by omega]
    · obtain ⟨h1, h2, h3⟩ := ih h0
      unfold argmax
      split_ifs with hlt
      · refine ⟨by omega, fun k hk => ?_, fun k hk => (h2 k hk).trans_lt hlt⟩
        rcases Nat.lt_succ_iff_lt_or_eq.mp hk with h | rfl
        · exact ((h2 k h).trans_lt hlt).le
        · exact le_rfl
      · refine ⟨by omega, fun k hk => ?_, h3⟩
        rcases Nat.lt_succ_iff_lt_or_eq.mp hk with h | rfl
        · exact h2 k h
        · exact not_lt.mp hlt

/-- C62, what holds: `kmin` plus the returned number is the smallest of the wavenumbers with maximal power in the range.
Missing: the returned number itself is not that wavenumber, see `C62_wave_refuted`. -/
theorem C62_maximum_partial (f : Fin h → Fin w → ℝ) (kmin kmax : ℕ) (r : Fin h → ℝ)
    (hr : dominantWavenumberFourier f kmin kmax = .ok r) (j : Fin h) :
    ∃ k : ℕ, r j + kmin = k ∧ kmin ≤ k ∧ k ≤ kmax ∧ k ≤ w / 2 ∧
      (∀ l, kmin ≤ l → l ≤ kmax → l ≤ w / 2 → ‖dft (f j) l‖ ≤ ‖dft (f j) k‖) ∧
      ∀ l, kmin ≤ l → l < k → ‖dft (f j) l‖ < ‖dft (f j) k‖ := by
  unfold dominantWavenumberFourier at hr
  by_cases hw : w = 0
  · rw [if_pos hw] at hr; cases hr
  rw [if_neg hw] at hr
  dsimp only at hr
  by_cases hn : min (kmax + 1) (w / 2 + 1) - kmin = 0
  · rw [if_pos hn] at hr; cases hr
  rw [if_neg hn] at hr
  cases hr
  obtain ⟨h1, h2, h3⟩ := argmax_spec (fun k => power (f j) (kmin + k)) (Nat.pos_of_ne_zero hn)
  refine ⟨kmin + argmax (fun k => power (f j) (kmin + k)) (min (kmax + 1) (w / 2 + 1) - kmin), ?_, by omega, by omega, by omega,
    fun l hl hl' hl'' => ?_, fun l hl hl' => ?_⟩
  · push_cast; ring
  · have := h2 (l - kmin) (by omega)
    rw [show kmin + (l - kmin) = l by omega] at this
    exact (pow_le_pow_iff_left₀ (norm_nonneg _) (norm_nonneg _) two_ne_zero).mp this
  · have := h3 (l - kmin) (by omega)
    rw [show kmin + (l - kmin) = l by omega] at this
    exact (pow_lt_pow_iff_left₀ (norm_nonneg _) (norm_nonneg _) two_ne_zero).mp this

/-- C62: a result is returned iff the range contains a resolved wavenumber, ValueError otherwise. -/
theorem C62_errors (f : Fin h → Fin w → ℝ) (kmin kmax : ℕ) :
    ((∃ r, dominantWavenumberFourier f kmin kmax = .ok r) ↔ 0 < w ∧ kmin ≤ kmax ∧ kmin ≤ w / 2) ∧
    (¬ (0 < w ∧ kmin ≤ kmax ∧ kmin ≤ w / 2) → dominantWavenumberFourier f kmin kmax = .error .valueError) := by
  unfold dominantWavenumberFourier
  by_cases hw : w = 0
  · rw [if_pos hw]
    exact ⟨⟨fun ⟨r, hr⟩ => (by cases hr), fun h => by omega⟩, fun _ => rfl⟩
  · rw [if_neg hw]
    dsimp only
    by_cases hn : min (kmax + 1) (w / 2 + 1) - kmin = 0
    · rw [if_pos hn]
      exact ⟨⟨fun ⟨r, hr⟩ => (by cases hr), fun h => by omega⟩, fun _ => rfl⟩
    · rw [if_neg hn]
      exact ⟨⟨fun _ => ⟨by omega, by omega, by omega⟩, fun _ => ⟨_, rfl⟩⟩, fun h => absurd ⟨by omega, by omega, by omega⟩ h⟩

/-- spectrum of a resolved wave on any number of longitudes -/
theorem dft_wave_any {k l : ℕ} (hk0 : 0 < k) (hk : 2 * k < w) (hl : l ≤ w / 2) (A φ : Fin h → ℝ) (j : Fin h) :
    ‖dft (zonalWave w k A φ j) l‖ = if l = k then w / 2 * |A j| else 0 := by
  have hw : w ≠ 0 := by omega
  have h1 : zonalWave w k A φ j = fun i : Fin w => ((A j : ℂ) * exp (-(φ j : ℂ) * I) * ru w (k * i.val : ℤ)).re :=
    funext fun i => wave_re k A φ j i
  have h2 : ¬ (w : ℤ) ∣ (k : ℤ) + l := by
    intro hd
    have := Int.eq_zero_of_abs_lt_dvd hd (by rw [abs_lt]; constructor <;> omega)
    omega
  have h3 : (w : ℤ) ∣ (k : ℤ) - l ↔ l = k := by
    constructor
    · intro hd
      have := Int.eq_zero_of_abs_lt_dvd hd (by rw [abs_lt]; constructor <;> omega)
      omega
    · rintro rfl; simp
  rw [h1, dft_wave hw, if_neg h2, if_congr h3 rfl rfl, add_zero]
  split_ifs
  · rw [norm_mul, norm_mul, norm_real, norm_div, norm_natCast,
      show (-(φ j : ℂ) * I) = ((-φ j : ℝ) : ℂ) * I by push_cast; ring, norm_exp_ofReal_mul_I]
    simp
  · simp

/-- C62 is false: for a pure wave with wavenumber in the range, the returned number is too small by `kmin`. -/
theorem C62_wave_refuted {k : ℕ} (hk0 : 0 < k) (hk : 2 * k < w) (A φ : Fin h → ℝ) (kmin kmax : ℕ) (h1 : kmin ≤ k) (h2 : k ≤ kmax) :
    ∃ r, dominantWavenumberFourier (zonalWave w k A φ) kmin kmax = .ok r ∧
      ∀ j, A j ≠ 0 → r j = k - kmin ∧ (0 < kmin → r j ≠ k) := by
  obtain ⟨r, hr⟩ := (C62_errors (zonalWave w k A φ) kmin kmax).1.mpr ⟨by omega, by omega, by omega⟩
  refine ⟨r, hr, fun j hA => ?_⟩
  obtain ⟨k', e, h3, h4, h5, h6, -⟩ := C62_maximum_partial _ _ _ r hr j
  have h7 := h6 k h1 h2 (by omega)
  rw [dft_wave_any hk0 hk h5, dft_wave_any hk0 hk (by omega), if_pos rfl] at h7
  have hpos : 0 < (w : ℝ) / 2 * |A j| := by
    have : 0 < |A j| := abs_pos.mpr hA
    have : (0 : ℝ) < w := by exact_mod_cast (by omega : 0 < w)
    positivity
  have hkk : k' = k := by
    by_contra hne
    rw [if_neg hne] at h7
    linarith
  subst hkk
  have e' : r j = k' - kmin := by rw [← e]; ring
  refine ⟨e', fun hp => ?_⟩
  have : (0 : ℝ) < kmin := by exact_mod_cast hp
  rw [e']; intro h; linarith

/-- C62 for ranges that start with 0: the wavenumber of a pure wave is found. Missing: other ranges. -/
theorem C62_wave_partial {k : ℕ} (hk0 : 0 < k) (hk : 2 * k < w) (A φ : Fin h → ℝ) (kmax : ℕ) (h2 : k ≤ kmax) :
    ∃ r, dominantWavenumberFourier (zonalWave w k A φ) 0 kmax = .ok r ∧ ∀ j, A j ≠ 0 → r j = k := by
  obtain ⟨r, hr, h⟩ := C62_wave_refuted hk0 hk A φ 0 kmax (Nat.zero_le _) h2
  exact ⟨r, hr, fun j hA => by rw [(h j hA).1]; simp⟩

/-- With the default range `(1, 20)` the result for wavenumber 5 is 4. -/
example : ∃ r, dominantWavenumberFourier (zonalWave (h := 2) 36 5 (fun _ => 1) (fun _ => 0)) 1 20 = .ok r ∧ r 0 = 4 := by
  obtain ⟨r, hr, h⟩ := C62_wave_refuted (h := 2) (w := 36) (k := 5) (by norm_num) (by norm_num) (fun _ => 1) (fun _ => 0) 1 20
    (by norm_num) (by norm_num)
  exact ⟨r, hr, by rw [(h 0 one_ne_zero).1]; norm_num⟩

/-! ## C64 envelope -/

theorem hilbert_eq {M : ℕ} (hM : 0 < M) (x : Fin (2 * M) → ℝ) (i : ℕ) :
    hilbert x i = (dft x 0 + dft x M * ru (2 * M) (M * i : ℤ) + 2 * ∑ k ∈ Ico 1 M, dft x k * ru (2 * M) (k * i : ℤ)) / (2 * M : ℕ) := by
  unfold hilbert
  congr 1
  have h1 : ∀ g : ℕ → ℂ, ∑ k ∈ range (2 * M), g k = g 0 + ∑ k ∈ Ico 1 M, g k + (g M + ∑ k ∈ Ico (M + 1) (2 * M), g k) := by
    intro g
    rw [range_eq_Ico, ← sum_Ico_consecutive g (Nat.zero_le M) (by omega), sum_eq_sum_Ico_succ_bot hM,
      sum_eq_sum_Ico_succ_bot (show M < 2 * M by omega)]
  simp only [exp_ru]
  rw [h1]
  have e0 : hilbertFactor (2 * M) 0 = 1 := if_pos rfl
  have eM : hilbertFactor (2 * M) M = 1 := by
    unfold hilbertFactor; rw [if_neg (by omega), if_pos (by omega)]
  have e1 : ∀ k ∈ Ico 1 M, dft x k * (hilbertFactor (2 * M) k : ℂ) * ru (2 * M) (k * i : ℤ) = 2 * (dft x k * ru (2 * M) (k * i : ℤ)) := by
    intro k hk
    rw [mem_Ico] at hk
    have : hilbertFactor (2 * M) k = 2 := by
      unfold hilbertFactor; rw [if_neg (by omega), if_neg (by omega), if_pos (by omega)]
    rw [this]; push_cast; ring
  have e2 : ∀ k ∈ Ico (M + 1) (2 * M), dft x k * (hilbertFactor (2 * M) k : ℂ) * ru (2 * M) (k * i : ℤ) = 0 := by
    intro k hk
    rw [mem_Ico] at hk
    have : hilbertFactor (2 * M) k = 0 := by
      unfold hilbertFactor; rw [if_neg (by omega), if_neg (by omega), if_neg (by omega)]
    rw [this]; push_cast; ring
  rw [sum_congr rfl e1, sum_congr rfl e2, e0, eM, sum_const_zero, ← mul_sum]
  simp only [Nat.cast_zero, zero_mul, ru_zero, ofReal_one, mul_one, add_zero]
  ring

theorem hilbert_re {M : ℕ} (hM : 0 < M) (x : Fin (2 * M) → ℝ) (i : Fin (2 * M)) : (hilbert x i).re = x i := by
  rw [hilbert_eq hM, ← irfft_dft hM x i]
  unfold irfft
  simp only [exp_ru]
  rw [← ofReal_natCast, div_ofReal_re]
  congr 1
  rw [add_re, add_re, ru_half hM, show ((-1 : ℂ)) ^ i.val = (((-1 : ℝ) ^ i.val : ℝ) : ℂ) by push_cast; rfl, re_mul_ofReal,
    show (2 : ℂ) = ((2 : ℝ) : ℂ) by norm_num, re_ofReal_mul, re_sum]

/-- C64: the envelope is non-negative and at least the magnitude of the band-passed field, for every field for which the
band-pass succeeds. -/
theorem C64_bounds {n : ℕ} (f : Fin h → Fin w → ℝ) (kmin kmax : ℕ) (y : Fin h → Fin n → ℝ)
    (hy : restrictFourierZonal f kmin kmax = .ok (.d2 h n y)) :
    ∃ e : Fin h → Fin n → ℝ, envelopeHilbert f kmin kmax = .ok (.d2 h n e) ∧ ∀ j i, 0 ≤ e j i ∧ |y j i| ≤ e j i := by
  refine ⟨fun j i => ‖hilbert (y j) i‖, ?_, fun j i => ⟨norm_nonneg _, ?_⟩⟩
  · unfold envelopeHilbert
    rw [hy]
  · by_cases hw : 2 ≤ w
    · rw [restrict_ok _ _ _ hw] at hy
      simp only [Except.ok.injEq, Arr.d2.injEq, true_and] at hy
      obtain ⟨rfl, -⟩ := hy
      rw [← hilbert_re (by omega) (y j) i]
      exact abs_re_le_norm _
    · unfold restrictFourierZonal at hy
      split_ifs at hy with h1 h2
      omega

/-- C64: errors are those of the band-pass. -/
theorem C64_errors (f : Fin h → Fin w → ℝ) (kmin kmax : ℕ) (e : PyErr) :
    envelopeHilbert f kmin kmax = .error e ↔ restrictFourierZonal f kmin kmax = .error e := by
  unfold envelopeHilbert restrictFourierZonal
  split_ifs <;> simp

theorem hilbert_rot {M : ℕ} (hM : 0 < M) (x : Fin (2 * M) → ℝ) (d i : ℕ) :
    hilbert (rotRow d x) i = hilbert x ((i + d) % (2 * M)) := by
  rw [hilbert_eq hM, hilbert_eq hM]
  have key : ∀ k : ℕ, dft (rotRow d x) k * ru (2 * M) (k * i : ℤ) = dft x k * ru (2 * M) (k * ((i + d) % (2 * M) : ℕ) : ℤ) := by
    intro k
    rw [dft_rot, mul_comm (ru _ _), mul_assoc, ← ru_add]
    congr 1
    apply ru_congr (by omega)
    have h' : (((i + d) % (2 * M) : ℕ) : ℤ) + (2 * M : ℕ) * ((i + d) / (2 * M) : ℕ) = i + d := by
      exact_mod_cast Nat.mod_add_div (i + d) (2 * M)
    refine ⟨k * ((i + d) / (2 * M) : ℕ), ?_⟩
    have h'' : (((i + d) % (2 * M) : ℕ) : ℤ) = i + d - (2 * M : ℕ) * ((i + d) / (2 * M) : ℕ) := by linarith
    rw [h'']; ring
  rw [key M, sum_congr rfl fun k _ => key k]
  have h0 := key 0
  simp only [Nat.cast_zero, zero_mul, ru_zero, mul_one] at h0
  rw [h0]

/-- C64: commutes with zonal rotation. -/
theorem C64_rotation (he : Even w) (d : ℕ) (f : Fin h → Fin w → ℝ) (kmin kmax : ℕ) (e : Fin h → Fin w → ℝ)
    (hy : envelopeHilbert f kmin kmax = .ok (.d2 h w e)) :
    envelopeHilbert (rotate d f) kmin kmax = .ok (.d2 h w (rotate d e)) := by
  rcases Nat.eq_zero_or_pos w with rfl | hw
  · unfold envelopeHilbert restrictFourierZonal at hy
    simp at hy
  obtain ⟨y, h1⟩ := C61_shape_even_partial hw he f kmin kmax
  have h2 := C61_rotation he d f kmin kmax y h1
  unfold envelopeHilbert at hy ⊢
  rw [h1] at hy
  rw [h2]
  simp only [Except.ok.injEq, Arr.d2.injEq, heq_eq_eq, true_and] at hy ⊢
  subst hy
  obtain ⟨M, rfl⟩ := he.two_dvd
  funext j i
  change ‖hilbert (rotRow d (y j)) i‖ = ‖hilbert (y j) ((i.val + d) % (2 * M))‖
  rw [hilbert_rot (by omega)]

/-- C64: the envelope of a pure wave in the band is its amplitude everywhere. -/
theorem C64_wave (he : Even w) {k : ℕ} (hk0 : 0 < k) (hk : 2 * k < w) (A φ : Fin h → ℝ) (kmin kmax : ℕ) (h1 : kmin ≤ k) (h2 : k ≤ kmax) :
    envelopeHilbert (zonalWave w k A φ) kmin kmax = .ok (.d2 h w fun j _ => |A j|) := by
  have hr := C61_waves (w := w) (by omega) he k (by omega) A φ kmin kmax
  rw [if_pos ⟨h1, h2⟩] at hr
  unfold envelopeHilbert
  rw [hr]
  simp only [Except.ok.injEq, Arr.d2.injEq, heq_eq_eq, true_and]
  obtain ⟨M, rfl⟩ := he.two_dvd
  have hM : 0 < M := by omega
  funext j i
  have hz : ∀ l, l ≤ M → l ≠ k → dft (zonalWave (2 * M) k A φ j) l = 0 := by
    intro l hl hne
    have := dft_wave_any (h := h) hk0 hk (l := l) (by omega) A φ j
    rw [if_neg hne] at this
    exact norm_eq_zero.mp this
  have hs : ∑ l ∈ Ico 1 M, dft (zonalWave (2 * M) k A φ j) l * ru (2 * M) (l * i.val : ℤ) =
      dft (zonalWave (2 * M) k A φ j) k * ru (2 * M) (k * i.val : ℤ) := by
    refine sum_eq_single_of_mem k (by rw [mem_Ico]; omega) fun l hl hne => ?_
    rw [hz l (mem_Ico.mp hl).2.le hne, zero_mul]
  rw [hilbert_eq hM, hz 0 (Nat.zero_le _) (by omega), hz M le_rfl (by omega), hs, zero_mul, zero_add, zero_add, norm_div,
    norm_mul, norm_mul, norm_ru, mul_one, dft_wave_any hk0 hk (by omega), if_pos rfl, norm_natCast]
  have : (M : ℝ) ≠ 0 := by exact_mod_cast hM.ne'
  push_cast
  rw [Complex.norm_ofNat]
  field_simp

/-- Non-vacuity of C64. -/
example : envelopeHilbert (zonalWave (h := 2) 36 5 (fun _ => -3) (fun _ => 1)) 2 10 = .ok (.d2 2 36 fun _ _ => 3) := by
  rw [C64_wave (by decide) (by norm_num) (by norm_num) _ _ 2 10 (by norm_num) (by norm_num)]
  norm_num

end Barotropic
