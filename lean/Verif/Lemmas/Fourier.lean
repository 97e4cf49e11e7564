import Verif.Model.Fourier
import Verif.Spec.Spharm
import Mathlib.Algebra.Field.GeomSum

/-!
# Lemmas about the discrete Fourier transform
-/

namespace Barotropic
open Complex Finset

/-- the root of unity to the power of `m` -/
noncomputable def ru (N : ℕ) (m : ℤ) : ℂ := exp (2 * Real.pi * I * m / N)

theorem ru_add (N : ℕ) (a b : ℤ) : ru N (a + b) = ru N a * ru N b := by
  unfold ru; rw [← exp_add]; congr 1; push_cast; ring

theorem ru_zero (N : ℕ) : ru N 0 = 1 := by simp [ru]

theorem ru_pow (N : ℕ) (a : ℤ) (n : ℕ) : ru N a ^ n = ru N (a * n) := by
  unfold ru; rw [← exp_nat_mul]; congr 1; push_cast; ring

theorem ru_self {N : ℕ} (hN : N ≠ 0) : ru N N = 1 := by
  unfold ru
  have : (N : ℂ) ≠ 0 := by exact_mod_cast hN
  rw [Int.cast_natCast, mul_div_assoc, div_self this, mul_one, exp_two_pi_mul_I]

theorem ru_mul_self {N : ℕ} (hN : N ≠ 0) (a : ℤ) : ru N (a * N) = 1 := by
  rw [mul_comm]
  obtain ⟨n, rfl | rfl⟩ := a.eq_nat_or_neg
  · rw [← ru_pow, ru_self hN, one_pow]
  · have h := ru_add N (N * (-n)) (N * n)
    rw [← ru_pow N N n, ru_self hN, one_pow, mul_one] at h
    rw [← h, show (N : ℤ) * -n + N * n = 0 by ring, ru_zero]

theorem ru_eq_one_iff {N : ℕ} (hN : N ≠ 0) (a : ℤ) : ru N a = 1 ↔ (N : ℤ) ∣ a := by
  constructor
  · intro h
    unfold ru at h
    rw [exp_eq_one_iff] at h
    obtain ⟨n, hn⟩ := h
    refine ⟨n, ?_⟩
    have hN' : (N : ℂ) ≠ 0 := by exact_mod_cast hN
    have h2 : (2 * Real.pi * I : ℂ) ≠ 0 := two_pi_I_ne_zero
    have : (a : ℂ) = N * n := by
      rw [div_eq_iff hN'] at hn
      apply mul_left_cancel₀ h2
      rw [hn]; ring
    exact_mod_cast this
  · rintro ⟨n, rfl⟩
    rw [mul_comm]; exact ru_mul_self hN n

theorem ru_congr {N : ℕ} (hN : N ≠ 0) {a b : ℤ} (h : (N : ℤ) ∣ a - b) : ru N a = ru N b := by
  have := ru_add N (a - b) b
  rwa [(ru_eq_one_iff hN _).mpr h, one_mul, sub_add_cancel] at this

theorem conj_ru (N : ℕ) (a : ℤ) : (starRingEnd ℂ) (ru N a) = ru N (-a) := by
  unfold ru
  rw [← exp_conj]
  congr 1
  simp only [map_div₀, map_mul, conj_I, conj_ofReal, map_ofNat, map_natCast, map_intCast]
  push_cast; ring

theorem norm_ru (N : ℕ) (a : ℤ) : ‖ru N a‖ = 1 := by
  unfold ru
  rw [show (2 * Real.pi * I * a / N : ℂ) = ((2 * Real.pi * a / N : ℝ) : ℂ) * I by push_cast; ring]
  exact norm_exp_ofReal_mul_I _

/-- orthogonality -/
theorem sum_ru {N : ℕ} (hN : N ≠ 0) (a : ℤ) : ∑ j ∈ range N, ru N (a * j) = if (N : ℤ) ∣ a then (N : ℂ) else 0 := by
  have h : ∀ j ∈ range N, ru N (a * j) = ru N a ^ j := fun j _ => (ru_pow N a j).symm
  rw [sum_congr rfl h]
  split_ifs with hd
  · rw [(ru_eq_one_iff hN a).mpr hd]; simp
  · have h1 : ru N a ≠ 1 := fun h => hd ((ru_eq_one_iff hN a).mp h)
    rw [geom_sum_eq h1, ru_pow, ru_mul_self hN, sub_self, zero_div]

theorem dft_eq {n : ℕ} (f : Fin n → ℝ) (k : ℕ) : dft f k = ∑ j : Fin n, (f j : ℂ) * ru n (-(k * j.val : ℤ)) := by
  unfold dft ru
  refine sum_congr rfl fun j _ => ?_
  congr 2; push_cast; ring

theorem exp_ru (k i N : ℕ) : exp (2 * Real.pi * I * k * i / N) = ru N (k * i : ℤ) := by
  unfold ru; congr 1; push_cast; ring

theorem dft_linear {n : ℕ} (c : ℝ) (f f' : Fin n → ℝ) (k : ℕ) : dft (c • f + f') k = c * dft f k + dft f' k := by
  unfold dft
  rw [mul_sum, ← sum_add_distrib]
  refine sum_congr rfl fun j _ => ?_
  simp only [Pi.add_apply, Pi.smul_apply, smul_eq_mul]
  push_cast; ring

theorem dft_sum {n : ℕ} {ι : Type*} (s : Finset ι) (f : ι → Fin n → ℝ) (k : ℕ) :
    dft (fun i => ∑ a ∈ s, f a i) k = ∑ a ∈ s, dft (f a) k := by
  unfold dft
  rw [sum_comm]
  refine sum_congr rfl fun j _ => ?_
  push_cast; rw [sum_mul]

theorem dft_smul {n : ℕ} (c : ℝ) (f : Fin n → ℝ) (k : ℕ) : dft (fun i => c * f i) k = c * dft f k := by
  unfold dft
  rw [mul_sum]
  refine sum_congr rfl fun j _ => ?_
  push_cast; ring

theorem dft_add {n : ℕ} (f f' : Fin n → ℝ) (k : ℕ) : dft (fun i => f i + f' i) k = dft f k + dft f' k := by
  unfold dft
  rw [← sum_add_distrib]
  refine sum_congr rfl fun j _ => ?_
  push_cast; ring

/-- rotation of a row -/
def rotRow {n : ℕ} (d : ℕ) (f : Fin n → ℝ) : Fin n → ℝ :=
  fun i => f ⟨(i.val + d) % n, Nat.mod_lt _ (Nat.lt_of_le_of_lt (Nat.zero_le _) i.isLt)⟩

/-- the rotation as permutation -/
def rotEquiv (n d : ℕ) : Fin n ≃ Fin n where
  toFun i := ⟨(i.val + d) % n, Nat.mod_lt _ (Nat.lt_of_le_of_lt (Nat.zero_le _) i.isLt)⟩
  invFun i := ⟨(i.val + (n - d % n)) % n, Nat.mod_lt _ (Nat.lt_of_le_of_lt (Nat.zero_le _) i.isLt)⟩
  left_inv i := by
    have hn : 0 < n := Nat.lt_of_le_of_lt (Nat.zero_le _) i.isLt
    have hd := Nat.mod_lt d hn
    ext
    simp only [Nat.mod_add_mod]
    have : i.val + d + (n - d % n) = i.val + n * (d / n + 1) := by
      have := Nat.div_add_mod d n; rw [mul_add]; omega
    rw [this, Nat.add_mul_mod_self_left, Nat.mod_eq_of_lt i.isLt]
  right_inv i := by
    have hn : 0 < n := Nat.lt_of_le_of_lt (Nat.zero_le _) i.isLt
    have hd := Nat.mod_lt d hn
    ext
    simp only [Nat.mod_add_mod]
    have : i.val + (n - d % n) + d = i.val + n * (d / n + 1) := by
      have := Nat.div_add_mod d n; rw [mul_add]; omega
    rw [this, Nat.add_mul_mod_self_left, Nat.mod_eq_of_lt i.isLt]

theorem dft_rot {n : ℕ} (d : ℕ) (f : Fin n → ℝ) (k : ℕ) : dft (rotRow d f) k = ru n (k * d : ℤ) * dft f k := by
  rcases Nat.eq_zero_or_pos n with rfl | hn
  · simp [dft]
  rw [dft_eq, dft_eq, mul_sum, ← Equiv.sum_comp (rotEquiv n d) (fun j => ru n (k * d : ℤ) * ((f j : ℂ) * ru n (-(k * j.val : ℤ))))]
  refine sum_congr rfl fun j _ => ?_
  have : ru n (-(k * j.val : ℤ)) = ru n (k * d : ℤ) * ru n (-(k * ((rotEquiv n d) j).val : ℤ)) := by
    rw [← ru_add]
    apply ru_congr hn.ne'
    have h := Nat.mod_add_div (j.val + d) n
    refine ⟨-(k * ((j.val + d) / n : ℕ) : ℤ), ?_⟩
    change -(k * j.val : ℤ) - (k * d + -(k * (((j.val + d) % n : ℕ) : ℤ))) = _
    have h' : (((j.val + d) % n : ℕ) : ℤ) + n * ((j.val + d) / n : ℕ) = j.val + d := by exact_mod_cast h
    have h'' : (((j.val + d) % n : ℕ) : ℤ) = j.val + d - n * ((j.val + d) / n : ℕ) := by linarith
    rw [h'']; ring
  rw [this]
  change (f (rotEquiv n d j) : ℂ) * _ = _
  ring

/-- transform of a wave -/
theorem dft_wave {N : ℕ} (hN : N ≠ 0) (Y : ℂ) (l k : ℕ) :
    dft (fun i : Fin N => (Y * ru N (l * i.val : ℤ)).re) k =
      (N : ℂ) / 2 * ((if (N : ℤ) ∣ (l : ℤ) - k then Y else 0) + (if (N : ℤ) ∣ (l : ℤ) + k then (starRingEnd ℂ) Y else 0)) := by
  rw [dft_eq]
  have h : ∀ j : Fin N, (((Y * ru N (l * j.val : ℤ)).re : ℝ) : ℂ) * ru N (-(k * j.val : ℤ)) =
      1 / 2 * Y * ru N (((l : ℤ) - k) * (j.val : ℕ)) + 1 / 2 * (starRingEnd ℂ) Y * ru N (-((l : ℤ) + k) * (j.val : ℕ)) := by
    intro j
    rw [re_eq_add_conj, map_mul, conj_ru]
    have e1 : ru N (((l : ℤ) - k) * (j.val : ℕ)) = ru N (l * j.val : ℤ) * ru N (-(k * j.val : ℤ)) := by
      rw [← ru_add]; congr 1; ring
    have e2 : ru N (-((l : ℤ) + k) * (j.val : ℕ)) = ru N (-(l * j.val : ℤ)) * ru N (-(k * j.val : ℤ)) := by
      rw [← ru_add]; congr 1; ring
    rw [e1, e2]; ring
  rw [sum_congr rfl fun j _ => h j, sum_add_distrib, ← mul_sum, ← mul_sum,
    Fin.sum_univ_eq_sum_range (fun j => ru N (((l : ℤ) - k) * (j : ℕ))),
    Fin.sum_univ_eq_sum_range (fun j => ru N (-((l : ℤ) + k) * (j : ℕ))), sum_ru hN, sum_ru hN]
  simp only [Int.dvd_neg]
  split_ifs <;> ring

/-- for resolved wavenumbers -/
theorem dvd_sub_iff {M l k : ℕ} (hM : 0 < M) (hl : l ≤ M) (hk : k ≤ M) : (((2 * M : ℕ) : ℤ) ∣ (l : ℤ) - k) ↔ l = k := by
  constructor
  · intro h
    have := Int.eq_zero_of_abs_lt_dvd h (by rw [abs_lt]; push_cast; constructor <;> omega)
    omega
  · rintro rfl; simp

theorem dvd_add_iff {M l k : ℕ} (hM : 0 < M) (hl : l ≤ M) (hk : k ≤ M) :
    (((2 * M : ℕ) : ℤ) ∣ (l : ℤ) + k) ↔ (l = 0 ∧ k = 0) ∨ (l = M ∧ k = M) := by
  constructor
  · rintro ⟨c, hc⟩
    push_cast at hc
    rcases lt_trichotomy c 0 with h | rfl | h
    · nlinarith
    · left; omega
    · have : c < 2 := by by_contra h2; nlinarith
      have : c = 1 := by omega
      subst this; right; omega
  · rintro (⟨rfl, rfl⟩ | ⟨rfl, rfl⟩)
    · simp
    · exact ⟨1, by push_cast; ring⟩

theorem ru_half {M : ℕ} (hM : 0 < M) (i : ℕ) : ru (2 * M) (M * i : ℤ) = (-1) ^ i := by
  rw [← ru_pow]
  congr 1
  unfold ru
  have : (M : ℂ) ≠ 0 := by exact_mod_cast hM.ne'
  have e : (2 * Real.pi * I * ((M : ℤ) : ℂ) / ((2 * M : ℕ) : ℂ)) = Real.pi * I := by push_cast; field_simp
  rw [e, exp_pi_mul_I]

/-- the inverse transform as sum of waves -/
theorem irfft_eq {M : ℕ} (hM : 0 < M) (X : ℕ → ℂ) (i : ℕ) :
    irfft M X i = 1 / (2 * M : ℕ) * (((X 0).re : ℂ) * ru (2 * M) ((0 : ℕ) * i : ℤ)).re +
      1 / (2 * M : ℕ) * (((X M).re : ℂ) * ru (2 * M) (M * i : ℤ)).re +
      ∑ k ∈ Ico 1 M, 2 / (2 * M : ℕ) * (X k * ru (2 * M) (k * i : ℤ)).re := by
  unfold irfft
  have h1 : (((X M).re : ℂ) * ru (2 * M) (M * i : ℤ)).re = (X M).re * (-1) ^ i := by
    rw [ru_half hM, show ((-1 : ℂ)) ^ i = (((-1 : ℝ) ^ i : ℝ) : ℂ) by push_cast; rfl, ← ofReal_mul, ofReal_re]
  rw [h1, Nat.cast_zero, zero_mul, ru_zero, mul_one, ofReal_re, ← mul_sum]
  simp only [exp_ru]
  ring

theorem dft_irfft {M : ℕ} (hM : 0 < M) (X : ℕ → ℂ) (h0 : (X 0).im = 0) (hX : (X M).im = 0) (k : ℕ) (hk : k ≤ M) :
    dft (fun i : Fin (2 * M) => irfft M X i) k = X k := by
  have hN : 2 * M ≠ 0 := by omega
  have hN' : ((2 * M : ℕ) : ℂ) ≠ 0 := by exact_mod_cast hN
  have e0 : ((X 0).re : ℂ) = X 0 := by apply Complex.ext <;> simp [h0]
  have eM : ((X M).re : ℂ) = X M := by apply Complex.ext <;> simp [hX]
  simp only [irfft_eq hM]
  rw [dft_add, dft_add, dft_smul, dft_smul, dft_sum]
  simp only [dft_smul]
  rw [dft_wave hN, dft_wave hN, sum_congr rfl fun l _ => by rw [dft_wave hN]]
  simp only [dvd_sub_iff hM (Nat.zero_le _) hk, dvd_sub_iff hM le_rfl hk, dvd_add_iff hM (Nat.zero_le _) hk,
    dvd_add_iff hM le_rfl hk, conj_ofReal]
  have hs : ∀ l ∈ Ico 1 M, ((2 / (2 * M : ℕ) : ℝ) : ℂ) * (((2 * M : ℕ) : ℂ) / 2 * ((if ((2 * M : ℕ) : ℤ) ∣ (l : ℤ) - k then X l else 0) +
      (if ((2 * M : ℕ) : ℤ) ∣ (l : ℤ) + k then (starRingEnd ℂ) (X l) else 0))) = if l = k then X l else 0 := by
    intro l hl
    obtain ⟨h1, h2⟩ := mem_Ico.mp hl
    rw [if_congr (dvd_sub_iff hM h2.le hk) rfl rfl, if_neg (show ¬ ((2 * M : ℕ) : ℤ) ∣ (l : ℤ) + k from fun h => by
      rcases (dvd_add_iff hM h2.le hk).mp h with h | h <;> omega), add_zero]
    have hM0 : (M : ℂ) ≠ 0 := by exact_mod_cast hM.ne'
    push_cast
    split_ifs <;> field_simp
  rw [sum_congr rfl hs, sum_ite_eq' (Ico 1 M) k X, e0, eM]
  rcases Nat.eq_zero_or_pos k with rfl | hk0
  · have : (0 : ℕ) ∉ Ico 1 M := by simp
    rw [if_neg this]
    have hM0 : M ≠ 0 := by omega
    simp only [true_and, if_true, true_or, hM0, false_and, and_false, if_false, or_false]
    push_cast at hN' ⊢
    field_simp
    rw [if_neg (by tauto)]; ring
  · have hk0' : k ≠ 0 := by omega
    rcases eq_or_lt_of_le hk with rfl | hlt
    · have : k ∉ Ico 1 k := by simp
      rw [if_neg this]
      have h0k : (0 : ℕ) ≠ k := by omega
      simp only [and_self, if_true, or_true, hk0', false_and, and_false, if_false, h0k, or_self]
      push_cast at hN' ⊢
      field_simp
      ring
    · have : k ∈ Ico 1 M := by simp; omega
      rw [if_pos this]
      have h0k : (0 : ℕ) ≠ k := by omega
      have hMk : M ≠ k := by omega
      have hkM : k ≠ M := by omega
      have hM0 : M ≠ 0 := by omega
      simp [h0k, hMk, hkM, hM0, hk0']

theorem dft_im_zero {n : ℕ} (f : Fin n → ℝ) : (dft f 0).im = 0 := by
  rw [dft_eq]
  simp [ru_zero]

theorem dft_im_half {M : ℕ} (hM : 0 < M) (f : Fin (2 * M) → ℝ) : (dft f M).im = 0 := by
  rw [dft_eq, im_sum]
  refine sum_eq_zero fun j _ => ?_
  rw [show ru (2 * M) (-(M * j.val : ℤ)) = (-1) ^ j.val by
    rw [← conj_ru, ru_half hM, map_pow, map_neg, map_one]]
  rw [show ((-1 : ℂ)) ^ j.val = (((-1 : ℝ) ^ j.val : ℝ) : ℂ) by push_cast; rfl, ← ofReal_mul, ofReal_im]

theorem dft_conj {N : ℕ} (f : Fin N → ℝ) {k : ℕ} (hk : k ≤ N) : dft f (N - k) = (starRingEnd ℂ) (dft f k) := by
  rcases Nat.eq_zero_or_pos N with rfl | hN
  · simp [dft]
  rw [dft_eq, dft_eq, map_sum]
  refine sum_congr rfl fun j _ => ?_
  rw [map_mul, conj_ofReal, conj_ru, neg_neg]
  congr 1
  apply ru_congr hN.ne'
  refine ⟨-j.val, ?_⟩
  push_cast [Nat.cast_sub hk]; ring

theorem dft_inverse {N : ℕ} (f : Fin N → ℝ) (i : Fin N) : ∑ k ∈ range N, dft f k * ru N (k * i.val : ℤ) = N * f i := by
  have hN : N ≠ 0 := by have := i.isLt; omega
  simp only [dft_eq, sum_mul]
  rw [sum_comm]
  have h : ∀ j : Fin N, ∑ k ∈ range N, (f j : ℂ) * ru N (-(k * j.val : ℤ)) * ru N (k * i.val : ℤ) =
      if j = i then (N : ℂ) * f i else 0 := by
    intro j
    have : ∀ k ∈ range N, (f j : ℂ) * ru N (-(k * j.val : ℤ)) * ru N (k * i.val : ℤ) = f j * ru N (((i.val : ℤ) - j.val) * k) := by
      intro k _
      rw [mul_assoc, ← ru_add]; congr 2; ring
    rw [sum_congr rfl this, ← mul_sum, sum_ru hN]
    have hd : ((N : ℤ) ∣ (i.val : ℤ) - j.val) ↔ j = i := by
      constructor
      · intro h
        have := Int.eq_zero_of_abs_lt_dvd h (by rw [abs_lt]; have := i.isLt; have := j.isLt; constructor <;> omega)
        ext; omega
      · rintro rfl; simp
    rw [if_congr hd rfl rfl]
    split_ifs with e
    · subst e; ring
    · ring
  rw [sum_congr rfl fun j _ => h j]
  simp

/-- folding the spectrum of a real signal -/
theorem fold_sum {M : ℕ} (hM : 0 < M) (g : ℕ → ℂ) (hg : ∀ k ∈ Ico 1 M, g (2 * M - k) = (starRingEnd ℂ) (g k)) :
    (∑ k ∈ range (2 * M), g k).re = (g 0).re + (g M).re + 2 * ∑ k ∈ Ico 1 M, (g k).re := by
  have h1 : ∑ k ∈ range (2 * M), g k = g 0 + ∑ k ∈ Ico 1 M, g k + (g M + ∑ k ∈ Ico (M + 1) (2 * M), g k) := by
    rw [range_eq_Ico, ← sum_Ico_consecutive g (Nat.zero_le M) (by omega), sum_eq_sum_Ico_succ_bot hM,
      sum_eq_sum_Ico_succ_bot (show M < 2 * M by omega)]
  have h2 : ∑ k ∈ Ico (M + 1) (2 * M), g k = ∑ k ∈ Ico 1 M, (starRingEnd ℂ) (g k) := by
    rw [← sum_congr rfl hg]
    refine (sum_bij' (fun k _ => 2 * M - k) (fun k _ => 2 * M - k) ?_ ?_ ?_ ?_ ?_).symm
    · intro k hk; rw [mem_Ico] at hk ⊢; omega
    · intro k hk; rw [mem_Ico] at hk ⊢; omega
    · intro k hk; rw [mem_Ico] at hk; omega
    · intro k hk; rw [mem_Ico] at hk; omega
    · intro k hk; rfl
  rw [h1, h2, ← map_sum]
  simp only [add_re, conj_re, re_sum]
  ring

theorem irfft_dft {M : ℕ} (hM : 0 < M) (f : Fin (2 * M) → ℝ) (i : Fin (2 * M)) : irfft M (dft f) i = f i := by
  have hN : ((2 * M : ℕ) : ℝ) ≠ 0 := by exact_mod_cast (by omega : 2 * M ≠ 0)
  have h := congrArg Complex.re (dft_inverse f i)
  rw [fold_sum hM] at h
  · rw [show (((2 * M : ℕ) : ℂ) * (f i : ℂ)).re = (2 * M : ℕ) * f i by rw [← ofReal_natCast, ← ofReal_mul, ofReal_re]] at h
    unfold irfft
    rw [div_eq_iff hN, mul_comm (f i), ← h]
    rw [show ((0 : ℕ) * i.val : ℤ) = 0 by simp, ru_zero, mul_one, ru_half hM,
      show ((-1 : ℂ)) ^ i.val = (((-1 : ℝ) ^ i.val : ℝ) : ℂ) by push_cast; rfl, re_mul_ofReal]
    simp only [exp_ru]
  · intro k hk
    rw [mem_Ico] at hk
    rw [dft_conj f (by omega), map_mul, conj_ru]
    congr 1
    apply ru_congr (by omega)
    refine ⟨i.val, ?_⟩
    rw [Nat.cast_sub (by omega)]; ring

theorem irfft_congr {M : ℕ} {X Y : ℕ → ℂ} (h : ∀ k ≤ M, X k = Y k) (i : ℕ) : irfft M X i = irfft M Y i := by
  unfold irfft
  rw [h 0 (Nat.zero_le _), h M le_rfl, sum_congr rfl fun k hk => by rw [h k (mem_Ico.mp hk).2.le]]

theorem irfft_linear {M : ℕ} (c : ℝ) (X Y : ℕ → ℂ) (i : ℕ) :
    irfft M (fun k => c * X k + Y k) i = c * irfft M X i + irfft M Y i := by
  unfold irfft
  have h : ∀ k, ((c * X k + Y k) * exp (2 * Real.pi * I * k * i / (2 * M : ℕ))).re =
      c * (X k * exp (2 * Real.pi * I * k * i / (2 * M : ℕ))).re + (Y k * exp (2 * Real.pi * I * k * i / (2 * M : ℕ))).re := by
    intro k
    rw [add_mul, add_re, mul_assoc, re_ofReal_mul]
  simp only [h, sum_add_distrib, ← mul_sum, add_re, re_ofReal_mul]
  ring

/-- what the inverse transform sees of the coefficients -/
noncomputable def endReal (M : ℕ) (X : ℕ → ℂ) (k : ℕ) : ℂ := if k = 0 ∨ k = M then ((X k).re : ℂ) else X k

theorem irfft_endReal (M : ℕ) (X : ℕ → ℂ) (i : ℕ) : irfft M (endReal M X) i = irfft M X i := by
  unfold irfft endReal
  rw [if_pos (.inl rfl), if_pos (.inr rfl), ofReal_re, ofReal_re, sum_congr rfl fun k hk => by
    rw [if_neg (by have := mem_Ico.mp hk; omega)]]

theorem dft_irfft' {M : ℕ} (hM : 0 < M) (X : ℕ → ℂ) (k : ℕ) (hk : k ≤ M) :
    dft (fun i : Fin (2 * M) => irfft M X i) k = endReal M X k := by
  rw [show (fun i : Fin (2 * M) => irfft M X i) = fun i : Fin (2 * M) => irfft M (endReal M X) i from
    funext fun i => (irfft_endReal M X i).symm]
  refine dft_irfft hM _ ?_ ?_ k hk
  · simp [endReal]
  · simp [endReal]

theorem irfft_rot {M : ℕ} (hM : 0 < M) (X : ℕ → ℂ) (d : ℕ) (i : ℕ) (hX : (X M).im = 0) :
    irfft M (fun k => ru (2 * M) (k * d : ℤ) * X k) i = irfft M X ((i + d) % (2 * M)) := by
  have hN : 2 * M ≠ 0 := by omega
  have key : ∀ k : ℕ, ru (2 * M) (k * d : ℤ) * ru (2 * M) (k * i : ℤ) = ru (2 * M) (k * ((i + d) % (2 * M) : ℕ) : ℤ) := by
    intro k
    rw [← ru_add]
    apply ru_congr hN
    have h' : (((i + d) % (2 * M) : ℕ) : ℤ) + (2 * M : ℕ) * ((i + d) / (2 * M) : ℕ) = i + d := by
      exact_mod_cast Nat.mod_add_div (i + d) (2 * M)
    refine ⟨k * ((i + d) / (2 * M) : ℕ), ?_⟩
    have h'' : (((i + d) % (2 * M) : ℕ) : ℤ) = i + d - (2 * M : ℕ) * ((i + d) / (2 * M) : ℕ) := by linarith
    rw [h'']; ring
  unfold irfft
  simp only [exp_ru]
  congr 2
  · congr 1
    · simp [ru_zero]
    · have e := key M
      rw [ru_half hM, ru_half hM, ru_half hM] at e
      rw [ru_half hM]
      have e' : ((-1 : ℝ)) ^ d * (-1) ^ i = (-1) ^ ((i + d) % (2 * M)) := by
        have := congrArg Complex.re e
        rw [show ((-1 : ℂ)) ^ d * (-1) ^ i = (((-1 : ℝ) ^ d * (-1) ^ i : ℝ) : ℂ) by push_cast; rfl,
          show ((-1 : ℂ)) ^ ((i + d) % (2 * M)) = (((-1 : ℝ) ^ ((i + d) % (2 * M)) : ℝ) : ℂ) by push_cast; rfl,
          ofReal_re, ofReal_re] at this
        exact this
      rw [show ((-1 : ℂ)) ^ d = (((-1 : ℝ) ^ d : ℝ) : ℂ) by push_cast; rfl, re_ofReal_mul, ← e']
      ring
  · congr 1
    refine sum_congr rfl fun k _ => ?_
    rw [← key k]
    congr 1; ring

end Barotropic
