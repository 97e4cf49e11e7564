import Mathlib.Analysis.Complex.Basic
import Mathlib.Analysis.Normed.Group.InfiniteSum
import Verif.Props.Fourier
import Verif.Model.State
import Verif.Spec.WavePacket

/-!
# C152: wave packets

The envelope (`_restrict_fourier_zonal`, then the absolute value of the analytic signal; diagnostics.py) of a field that is the real part of a complex Fourier series is the absolute
value of that series when the series is confined to the range of wavenumbers, and close to it otherwise; aliased wavenumbers included.
-/

namespace Barotropic
open Complex Finset

variable {h w : ℕ}

/-- The analytic signal of the band-passed field -/
noncomputable def bandSignal (kmin kmax : ℕ) (f : Fin w → ℝ) (i : ℕ) : ℂ := 2 / w * ∑ k ∈ Icc kmin kmax, dft f k * ru w (k * i : ℤ)

theorem envelope_formula (he : Even w) {kmin kmax : ℕ} (h1 : 1 ≤ kmin) (hk : 2 * kmax < w) (f : Fin h → Fin w → ℝ) :
    envelopeHilbert f kmin kmax = .ok (.d2 h w fun j i => ‖bandSignal kmin kmax (f j) i‖) := by
  obtain ⟨M, rfl⟩ := he.two_dvd
  have hM : 0 < M := by omega
  unfold envelopeHilbert
  rw [restrict_even f kmin kmax hM]
  simp only [Except.ok.injEq, Arr.d2.injEq, heq_eq_eq, true_and]
  funext j i
  have h0 : restrictBand kmin kmax (dft (f j)) 0 = 0 := by
    unfold restrictBand
    rw [if_pos (by omega)]
  have hMk : restrictBand kmin kmax (dft (f j)) M = 0 := by
    unfold restrictBand
    split_ifs
    · rfl
    · rfl
    · omega
  have hd : ∀ k ≤ M, dft (fun i : Fin (2 * M) => irfft M (restrictBand kmin kmax (dft (f j))) i) k = restrictBand kmin kmax (dft (f j)) k := fun k hk =>
    dft_irfft hM _ (by rw [h0]; rfl) (by rw [hMk]; rfl) k hk
  rw [hilbert_eq hM, hd 0 (Nat.zero_le _), hd M le_rfl, h0, hMk, zero_mul, add_zero, zero_add]
  have hs : ∑ k ∈ Ico 1 M, dft (fun i : Fin (2 * M) => irfft M (restrictBand kmin kmax (dft (f j))) i) k * ru (2 * M) (k * i.val : ℤ) =
      ∑ k ∈ Icc kmin kmax, dft (f j) k * ru (2 * M) (k * i.val : ℤ) := by
    have hsub : Icc kmin kmax ⊆ Ico 1 M := fun k hk => by
      rw [mem_Icc] at hk
      rw [mem_Ico]
      omega
    rw [← sum_subset hsub]
    · refine sum_congr rfl fun k hk => ?_
      rw [mem_Icc] at hk
      rw [hd k (by omega)]
      unfold restrictBand
      rw [if_neg (by omega), if_neg (by omega)]
    · intro k hk hk'
      rw [mem_Icc] at hk'
      rw [mem_Ico] at hk
      rw [hd k (by omega)]
      unfold restrictBand
      split_ifs
      · rw [zero_mul]
      · rw [zero_mul]
      · omega
  rw [hs]
  unfold bandSignal
  congr 1
  push_cast
  ring

/-- transform of a wave with an arbitrary wavenumber -/
theorem dft_anywave {N : ℕ} (hN : N ≠ 0) (Y : ℂ) (l : ℤ) (k : ℕ) :
    dft (fun i : Fin N => (Y * ru N (l * i.val)).re) k =
      (N : ℂ) / 2 * ((if (N : ℤ) ∣ l - k then Y else 0) + (if (N : ℤ) ∣ l + k then (starRingEnd ℂ) Y else 0)) := by
  rw [dft_eq]
  have h : ∀ j : Fin N, (((Y * ru N (l * j.val : ℤ)).re : ℝ) : ℂ) * ru N (-(k * j.val : ℤ)) =
      1 / 2 * Y * ru N ((l - k) * (j.val : ℕ)) + 1 / 2 * (starRingEnd ℂ) Y * ru N (-(l + k) * (j.val : ℕ)) := by
    intro j
    rw [re_eq_add_conj, map_mul, conj_ru]
    have e1 : ru N ((l - k) * (j.val : ℕ)) = ru N (l * j.val : ℤ) * ru N (-(k * j.val : ℤ)) := by
      rw [← ru_add]; congr 1; ring
    have e2 : ru N (-(l + k) * (j.val : ℕ)) = ru N (-(l * j.val : ℤ)) * ru N (-(k * j.val : ℤ)) := by
      rw [← ru_add]; congr 1; ring
    rw [e1, e2]; ring
  rw [sum_congr rfl fun j _ => h j, sum_add_distrib, ← mul_sum, ← mul_sum,
    Fin.sum_univ_eq_sum_range (fun j => ru N ((l - k) * (j : ℕ))),
    Fin.sum_univ_eq_sum_range (fun j => ru N (-(l + k) * (j : ℕ))), sum_ru hN, sum_ru hN]
  simp only [Int.dvd_neg]
  split_ifs <;> ring

/-- Signal of one wave: the wave itself inside of the band, not larger than it in any case -/
theorem bandSignal_wave {kmin kmax : ℕ} (h1 : 1 ≤ kmin) (hk : 2 * kmax < w) (Y : ℂ) (l : ℤ) (i : ℕ) :
    ((kmin ≤ l ∧ l ≤ kmax) → bandSignal kmin kmax (fun m : Fin w => (Y * ru w (l * m.val)).re) i = Y * ru w (l * i)) ∧
    ‖bandSignal kmin kmax (fun m : Fin w => (Y * ru w (l * m.val)).re) i‖ ≤ ‖Y‖ := by
  by_cases hb : kmin ≤ kmax
  swap
  · refine ⟨fun h => by omega, ?_⟩
    unfold bandSignal
    rw [Icc_eq_empty hb, sum_empty, mul_zero, norm_zero]
    exact norm_nonneg _
  have hw : w ≠ 0 := by omega
  have hwc : (w : ℂ) ≠ 0 := by exact_mod_cast hw
  have hform : bandSignal kmin kmax (fun m : Fin w => (Y * ru w (l * m.val)).re) i =
      ∑ k ∈ Icc kmin kmax, ((if (w : ℤ) ∣ l - k then Y else 0) + (if (w : ℤ) ∣ l + k then (starRingEnd ℂ) Y else 0)) * ru w (k * i : ℤ) := by
    unfold bandSignal
    rw [mul_sum]
    refine sum_congr rfl fun k _ => ?_
    rw [dft_anywave hw]
    field_simp
  by_cases hex : ∃ k ∈ Icc kmin kmax, (w : ℤ) ∣ l - k ∨ (w : ℤ) ∣ l + k
  · obtain ⟨k, hkm, hdvd⟩ := hex
    have hkm' := mem_Icc.mp hkm
    have hsmall : ∀ x : ℤ, (w : ℤ) ∣ x → -(w : ℤ) < x → x < w → x = 0 := fun x hx h1 h2 =>
      Int.eq_zero_of_abs_lt_dvd hx (abs_lt.mpr ⟨h1, h2⟩)
    have huniq : ∀ k' ∈ Icc kmin kmax, k' ≠ k → ¬ (w : ℤ) ∣ l - k' ∧ ¬ (w : ℤ) ∣ l + k' := by
      intro k' hk' hne
      have hk'm := mem_Icc.mp hk'
      constructor
      · intro hd'
        rcases hdvd with hd | hd
        · have := hsmall _ (dvd_sub hd hd') (by omega) (by omega)
          omega
        · have := hsmall _ (dvd_sub hd hd') (by omega) (by omega)
          omega
      · intro hd'
        rcases hdvd with hd | hd
        · have := hsmall _ (dvd_sub hd' hd) (by omega) (by omega)
          omega
        · have := hsmall _ (dvd_sub hd hd') (by omega) (by omega)
          omega
    have hnb : ¬ ((w : ℤ) ∣ l - k ∧ (w : ℤ) ∣ l + k) := by
      rintro ⟨hd, hd'⟩
      have := hsmall _ (dvd_sub hd' hd) (by omega) (by omega)
      omega
    have hval : bandSignal kmin kmax (fun m : Fin w => (Y * ru w (l * m.val)).re) i =
        ((if (w : ℤ) ∣ l - k then Y else 0) + (if (w : ℤ) ∣ l + k then (starRingEnd ℂ) Y else 0)) * ru w (k * i : ℤ) := by
      rw [hform]
      refine sum_eq_single_of_mem k hkm fun k' hk' hne => ?_
      obtain ⟨n1, n2⟩ := huniq k' hk' hne
      rw [if_neg n1, if_neg n2, add_zero, zero_mul]
    rw [hval]
    refine ⟨fun hl => ?_, ?_⟩
    · obtain ⟨l', rfl⟩ : ∃ l' : ℕ, l = l' := ⟨l.toNat, by omega⟩
      have hlk : l' = k := by
        by_contra hne
        exact (huniq l' (mem_Icc.mpr (by omega)) hne).1 (by simp)
      subst hlk
      have hd : (w : ℤ) ∣ (l' : ℤ) - l' := by simp
      rw [if_pos hd, if_neg fun hd' => hnb ⟨hd, hd'⟩, add_zero]
    · rw [norm_mul, norm_ru, mul_one]
      by_cases hd : (w : ℤ) ∣ l - k
      · rw [if_pos hd, if_neg fun hd' => hnb ⟨hd, hd'⟩, add_zero]
      · rw [if_neg hd, zero_add]
        split_ifs
        · rw [RCLike.norm_conj]
        · rw [norm_zero]
          exact norm_nonneg _
  · push Not at hex
    have hzero : bandSignal kmin kmax (fun m : Fin w => (Y * ru w (l * m.val)).re) i = 0 := by
      rw [hform]
      refine sum_eq_zero fun k hk => ?_
      rw [if_neg (hex k hk).1, if_neg (hex k hk).2, add_zero, zero_mul]
    refine ⟨fun hl => ?_, by rw [hzero, norm_zero]; exact norm_nonneg _⟩
    obtain ⟨l', rfl⟩ : ∃ l' : ℕ, l = l' := ⟨l.toNat, by omega⟩
    exact absurd (by simp) (hex l' (mem_Icc.mpr (by omega))).1

theorem exp_series (l : ℤ) (m : ℕ) : exp (I * (l * (2 * Real.pi * m / w : ℝ) : ℝ)) = ru w (l * m) := by
  unfold ru
  congr 1
  push_cast
  ring

theorem dft_hasSum {f : ℤ → Fin w → ℝ} {F : Fin w → ℝ} (hf : ∀ m, HasSum (fun l => f l m) (F m)) (k : ℕ) : HasSum (fun l => dft (f l) k) (dft F k) := by
  simp only [dft_eq]
  exact hasSum_sum fun m _ => ((Complex.ofRealCLM.hasSum (hf m)).mul_right _)

theorem bandSignal_hasSum {f : ℤ → Fin w → ℝ} {F : Fin w → ℝ} (hf : ∀ m, HasSum (fun l => f l m) (F m)) (kmin kmax i : ℕ) :
    HasSum (fun l => bandSignal kmin kmax (f l) i) (bandSignal kmin kmax F i) := by
  unfold bandSignal
  exact (hasSum_sum fun k _ => (dft_hasSum hf k).mul_right _).mul_left _

theorem series_hasSum {c : ℤ → ℂ} (hc : Summable fun l => ‖c l‖) (lam : ℝ) : HasSum (fun l => c l * exp (I * (l * lam : ℝ))) (fourierSeries c lam) := by
  refine Summable.hasSum (Summable.of_norm ?_)
  refine hc.congr fun l => ?_
  rw [norm_mul, mul_comm I, norm_exp_ofReal_mul_I, mul_one]

/-- C152: for every field that is the real part of a Fourier series, the envelope is the absolute value of the series, up to twice the magnitude of the coefficients outside of the range
of wavenumbers. -/
theorem C152_envelope (he : Even w) {kmin kmax : ℕ} (h1 : 1 ≤ kmin) (hk : 2 * kmax < w) (c : Fin h → ℤ → ℂ) (hc : ∀ j, Summable fun l => ‖c j l‖)
    (f : Fin h → Fin w → ℝ) (hf : ∀ j i, f j i = (fourierSeries (c j) (2 * Real.pi * i.val / w)).re) :
    ∃ e : Fin h → Fin w → ℝ, envelopeHilbert f kmin kmax = .ok (.d2 h w e) ∧
      ∀ j i, |e j i - ‖fourierSeries (c j) (2 * Real.pi * i.val / w)‖| ≤ 2 * outside (c j) kmin kmax := by
  refine ⟨_, envelope_formula he h1 hk f, fun j i => ?_⟩
  have hz := series_hasSum (hc j) (2 * Real.pi * i.val / w)
  have hF : ∀ m : Fin w, HasSum (fun l => (c j l * ru w (l * m.val)).re) (f j m) := fun m => by
    rw [hf j m]
    have := Complex.reCLM.hasSum (series_hasSum (hc j) (2 * Real.pi * m.val / w))
    simp only [exp_series] at this
    exact this
  have hE := bandSignal_hasSum hF kmin kmax i
  simp only [exp_series] at hz
  refine (abs_norm_sub_norm_le _ _).trans ?_
  have hdiff := hE.sub hz
  rw [← hdiff.tsum_eq]
  have hsum : Summable fun l : ℤ => if (kmin : ℤ) ≤ l ∧ l ≤ kmax then 0 else ‖c j l‖ :=
    (hc j).of_nonneg_of_le (fun l => by split_ifs <;> [exact le_rfl; exact norm_nonneg _]) (fun l => by split_ifs <;> [exact norm_nonneg _; exact le_rfl])
  refine tsum_of_norm_bounded (hsum.hasSum.mul_left 2) fun l => ?_
  obtain ⟨b1, b2⟩ := bandSignal_wave (w := w) h1 hk (c j l) l i
  split_ifs with hl
  · rw [b1 hl, sub_self, norm_zero, mul_zero]
  · refine (norm_sub_le _ _).trans ?_
    rw [norm_mul, norm_ru, mul_one, two_mul]
    exact add_le_add b2 le_rfl

/-- C152: the envelope is exact if all wavenumbers are in the range. -/
theorem C152_exact (he : Even w) {kmin kmax : ℕ} (h1 : 1 ≤ kmin) (hk : 2 * kmax < w) (c : Fin h → ℤ → ℂ) (hc : ∀ j (l : ℤ), ¬ (kmin ≤ l ∧ l ≤ kmax) → c j l = 0)
    (f : Fin h → Fin w → ℝ) (hf : ∀ j i, f j i = (fourierSeries (c j) (2 * Real.pi * i.val / w)).re) :
    envelopeHilbert f kmin kmax = .ok (.d2 h w fun j i => ‖fourierSeries (c j) (2 * Real.pi * i.val / w)‖) := by
  have hs : ∀ j, Summable fun l => ‖c j l‖ := fun j => by
    refine summable_of_ne_finset_zero (s := Icc (kmin : ℤ) kmax) fun l hl => ?_
    rw [mem_Icc] at hl
    rw [hc j l hl, norm_zero]
  obtain ⟨e, he', hb⟩ := C152_envelope he h1 hk c hs f hf
  rw [he']
  have : e = fun j i => ‖fourierSeries (c j) (2 * Real.pi * i.val / w)‖ := by
    funext j i
    have h0 : outside (c j) kmin kmax = 0 := by
      unfold outside
      rw [tsum_congr (g := fun _ => (0 : ℝ)), tsum_zero]
      intro l
      split_ifs with hl
      · rfl
      · rw [hc j l hl, norm_zero]
    have := hb j i
    rw [h0, mul_zero] at this
    exact sub_eq_zero.mp (abs_eq_zero.mp (le_antisymm this (abs_nonneg _)))
  rw [this]

theorem series_shift (a : ℤ → ℂ) (k : ℤ) (lam : ℝ) : fourierSeries (fun l => a (l - k)) lam = fourierSeries a lam * exp (I * (k * lam : ℝ)) := by
  unfold fourierSeries
  rw [← tsum_mul_right, ← (Equiv.addRight k).tsum_eq]
  refine tsum_congr fun l => ?_
  simp only [Equiv.coe_addRight, add_sub_cancel_right]
  rw [mul_assoc, ← exp_add]
  congr 2
  push_cast
  ring

/-- C152: a wave of wavenumber `k` with an amplitude that varies with longitude: the envelope is the absolute value of the amplitude, up to twice the magnitude of those coefficients of
the amplitude that move the wave out of the range of wavenumbers. -/
theorem C152_packet (he : Even w) {kmin kmax : ℕ} (h1 : 1 ≤ kmin) (hk : 2 * kmax < w) (k : Fin h → ℤ) (a : Fin h → ℤ → ℂ) (ha : ∀ j, Summable fun l => ‖a j l‖)
    (f : Fin h → Fin w → ℝ) (hf : ∀ j i, f j i = (fourierSeries (a j) (2 * Real.pi * i.val / w) * exp (I * (k j * (2 * Real.pi * i.val / w) : ℝ))).re) :
    ∃ e : Fin h → Fin w → ℝ, envelopeHilbert f kmin kmax = .ok (.d2 h w e) ∧
      ∀ j i, |e j i - ‖fourierSeries (a j) (2 * Real.pi * i.val / w)‖| ≤ 2 * outside (a j) (kmin - k j) (kmax - k j) := by
  obtain ⟨e, he', hb⟩ := C152_envelope he h1 hk (fun j l => a j (l - k j)) (fun j => (Equiv.subRight (k j)).summable_iff.mpr (ha j)) f
    fun j i => by rw [series_shift, hf]
  refine ⟨e, he', fun j i => ?_⟩
  have := hb j i
  rw [series_shift, norm_mul, mul_comm I, norm_exp_ofReal_mul_I, mul_one] at this
  refine this.trans (le_of_eq ?_)
  congr 1
  unfold outside
  rw [← (Equiv.addRight (k j)).tsum_eq]
  refine tsum_congr fun l => ?_
  simp only [Equiv.coe_addRight, add_sub_cancel_right, sub_le_iff_le_add, le_sub_iff_add_le]

/-- C152: the sampled coefficients in the range are those of the series, up to the magnitude of the coefficients outside. -/
theorem C152_coefficients {kmin kmax : ℕ} (h1 : 1 ≤ kmin) (hk : 2 * kmax < w) (c : ℤ → ℂ) (hc : Summable fun l => ‖c l‖)
    (f : Fin w → ℝ) (hf : ∀ i, f i = (fourierSeries c (2 * Real.pi * i.val / w)).re) (k : ℕ) (hk1 : kmin ≤ k) (hk2 : k ≤ kmax) :
    ‖2 / w * dft f k - c k‖ ≤ outside c kmin kmax := by
  have hw : w ≠ 0 := by omega
  have hwc : (w : ℂ) ≠ 0 := by exact_mod_cast hw
  have hF : ∀ m : Fin w, HasSum (fun l => (c l * ru w (l * m.val)).re) (f m) := fun m => by
    rw [hf m]
    have := Complex.reCLM.hasSum (series_hasSum hc (2 * Real.pi * m.val / w))
    simp only [exp_series] at this
    exact this
  have hE := (dft_hasSum hF k).mul_left (2 / (w : ℂ))
  have hck := hasSum_ite_eq (k : ℤ) (c k)
  have hdiff := hE.sub hck
  rw [← hdiff.tsum_eq]
  have hsum : Summable fun l : ℤ => if (kmin : ℤ) ≤ l ∧ l ≤ kmax then 0 else ‖c l‖ :=
    hc.of_nonneg_of_le (fun l => by split_ifs <;> [exact le_rfl; exact norm_nonneg _]) (fun l => by split_ifs <;> [exact norm_nonneg _; exact le_rfl])
  refine tsum_of_norm_bounded hsum.hasSum fun l => ?_
  have hsmall : ∀ x : ℤ, (w : ℤ) ∣ x → -(w : ℤ) < x → x < w → x = 0 := fun x hx h1 h2 =>
    Int.eq_zero_of_abs_lt_dvd hx (abs_lt.mpr ⟨h1, h2⟩)
  rw [dft_anywave hw, ← mul_assoc, show (2 / (w : ℂ)) * (w / 2) = 1 by field_simp, one_mul]
  by_cases hl : (kmin : ℤ) ≤ l ∧ l ≤ kmax
  · rw [if_pos hl]
    have n2 : ¬ (w : ℤ) ∣ l + k := fun hd => by
      have := hsmall _ hd (by omega) (by omega)
      omega
    rw [if_neg n2, add_zero]
    by_cases hlk : l = k
    · subst hlk
      simp
    · have n1 : ¬ (w : ℤ) ∣ l - k := fun hd => by
        have := hsmall _ hd (by omega) (by omega)
        omega
      rw [if_neg n1, if_neg hlk, sub_zero, norm_zero]
  · have hlk : l ≠ k := fun e => hl (by omega)
    rw [if_neg hl, if_neg hlk, sub_zero]
    by_cases hd : (w : ℤ) ∣ l - k
    · have n2 : ¬ (w : ℤ) ∣ l + k := fun hd' => by
        have := hsmall _ (dvd_sub hd' hd) (by omega) (by omega)
        omega
      rw [if_pos hd, if_neg n2, add_zero]
    · rw [if_neg hd, zero_add]
      split_ifs
      · rw [RCLike.norm_conj]
      · rw [norm_zero]
        exact norm_nonneg _

/-- C152: the dominant wavenumber is found if its coefficient exceeds those of the other wavenumbers of the range by more than twice the magnitude of the coefficients outside; it is
counted from `kmin`, see C62. -/
theorem C152_dominant {kmin kmax : ℕ} (h1 : 1 ≤ kmin) (hb : kmin ≤ kmax) (hk : 2 * kmax < w) (c : Fin h → ℤ → ℂ) (hc : ∀ j, Summable fun l => ‖c j l‖)
    (f : Fin h → Fin w → ℝ) (hf : ∀ j i, f j i = (fourierSeries (c j) (2 * Real.pi * i.val / w)).re) (k : Fin h → ℕ) (hkr : ∀ j, kmin ≤ k j ∧ k j ≤ kmax)
    (hdom : ∀ j (l : ℕ), kmin ≤ l → l ≤ kmax → l ≠ k j → ‖c j l‖ + 2 * outside (c j) kmin kmax < ‖c j (k j)‖) :
    dominantWavenumberFourier f kmin kmax = .ok fun j => (k j : ℝ) - kmin := by
  obtain ⟨r, hr⟩ := ((C62_errors f kmin kmax).1).mpr ⟨by omega, hb, by omega⟩
  rw [hr]
  congr 1
  funext j
  obtain ⟨k', e, b1, b2, b3, hmax, -⟩ := C62_maximum_partial f kmin kmax r hr j
  by_cases hkk : k' = k j
  · rw [← hkk, ← e]
    ring
  exfalso
  have hw : (0 : ℝ) < w := by exact_mod_cast (by omega : 0 < w)
  have m := hmax (k j) (hkr j).1 (hkr j).2 (by have := (hkr j).2; omega)
  have u := C152_coefficients h1 hk (c j) (hc j) (f j) (hf j) k' b1 b2
  have v := C152_coefficients h1 hk (c j) (hc j) (f j) (hf j) (k j) (hkr j).1 (hkr j).2
  have d := hdom j k' b1 b2 hkk
  have m' : ‖(2 / w : ℂ) * dft (f j) (k j)‖ ≤ ‖(2 / w : ℂ) * dft (f j) k'‖ := by
    rw [norm_mul, norm_mul]
    exact mul_le_mul_of_nonneg_left m (norm_nonneg _)
  have u' := (abs_le.mp (abs_norm_sub_norm_le ((2 / w : ℂ) * dft (f j) k') (c j k'))).2
  have v' := (abs_le.mp (abs_norm_sub_norm_le ((2 / w : ℂ) * dft (f j) (k j)) (c j (k j)))).1
  linarith

variable {g : Grid ℝ} {S : g.Sph} {τ : Type}

/-- C152: the envelope of a state whose meridional wind is a wave packet. -/
theorem C152_state (he : Even g.nlon) (hw : 20 < g.nlon) (k : Fin g.nlat → ℤ) (a : Fin g.nlat → ℤ → ℂ) (ha : ∀ j, Summable fun l => ‖a j l‖) (s : St τ g)
    (hv : ∀ j i, s.v S j i = (fourierSeries (a j) (2 * Real.pi * i.val / g.nlon) * exp (I * (k j * (2 * Real.pi * i.val / g.nlon) : ℝ))).re) :
    ∃ e : Fin g.nlat → Fin g.nlon → ℝ, s.vEnvelopeHilbert S = .ok (.d2 g.nlat g.nlon e) ∧
      ∀ j i, |e j i - ‖fourierSeries (a j) (2 * Real.pi * i.val / g.nlon)‖| ≤ 2 * outside (a j) (2 - k j) (10 - k j) := by
  obtain ⟨e, he', hb⟩ := C152_packet he (kmin := 2) (kmax := 10) (by norm_num) (by omega) k a ha (s.v S) hv
  exact ⟨e, he', fun j i => by simpa using hb j i⟩

/-- Non-vacuity: a wave of wavenumber 4 with an amplitude between 1/2 and 3/2, whose envelope is found exactly. -/
example : envelopeHilbert (h := 1) (w := 24) (fun _ i => ((1 + Real.cos (2 * Real.pi * i.val / 24) / 2) * Real.cos (4 * (2 * Real.pi * i.val / 24)))) 2 10 =
    .ok (.d2 1 24 fun _ i => 1 + Real.cos (2 * Real.pi * i.val / 24) / 2) := by
  have hser : ∀ lam : ℝ, fourierSeries (fun l => if l = 3 then 1 / 4 else if l = 4 then 1 else if l = 5 then 1 / 4 else 0) lam =
      ((1 + Real.cos lam / 2 : ℝ) : ℂ) * exp (I * (4 * lam : ℝ)) := by
    intro lam
    unfold fourierSeries
    rw [tsum_eq_sum (s := {3, 4, 5}) (fun l hl => by
      simp only [mem_insert, mem_singleton, not_or] at hl
      simp [hl.1, hl.2.1, hl.2.2])]
    rw [sum_insert (by decide), sum_insert (by decide), sum_singleton]
    push_cast
    rw [Complex.cos]
    have e3 : exp (I * (3 * lam)) = exp (-(lam * I)) * exp (I * (4 * lam)) := by
      rw [← exp_add]; congr 1; ring
    have e5 : exp (I * (5 * lam)) = exp (lam * I) * exp (I * (4 * lam)) := by
      rw [← exp_add]; congr 1; ring
    norm_num
    rw [e3, e5]
    ring
  have hx := C152_exact (h := 1) (w := 24) (by decide) (kmin := 2) (kmax := 10) (by norm_num) (by norm_num)
    (fun _ l => if l = 3 then 1 / 4 else if l = 4 then 1 else if l = 5 then 1 / 4 else 0)
    (fun j l hl => by
      rw [if_neg (by rintro rfl; exact hl (by norm_num)), if_neg (by rintro rfl; exact hl (by norm_num)), if_neg (by rintro rfl; exact hl (by norm_num))])
    (fun _ i => ((1 + Real.cos (2 * Real.pi * i.val / 24) / 2) * Real.cos (4 * (2 * Real.pi * i.val / 24))))
    (fun j i => by
      push_cast
      rw [hser, re_ofReal_mul, mul_comm I, exp_ofReal_mul_I_re])
  rw [hx]
  congr 2
  funext j i
  push_cast
  rw [hser, norm_mul, mul_comm I, norm_exp_ofReal_mul_I, mul_one, norm_real, Real.norm_eq_abs, abs_of_nonneg]
  have := Real.neg_one_le_cos (2 * Real.pi * i.val / 24)
  linarith

end Barotropic
