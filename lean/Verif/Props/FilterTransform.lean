import Verif.Spec.FilterTransform
import Verif.Props.FilterResponse
import Verif.Lemmas.Fourier
import Mathlib.Algebra.Order.Chebyshev

/-!
# C169: filters in wavenumber space, and which filters can be inverted
-/

namespace Barotropic
open Finset

variable {W : Type*} {gw : W → (n : ℕ) → Except PyErr (Fin n → ℝ)} {g : Grid ℝ} {win : WindowArg W ℝ} {m : ℕ} {w : Fin m → ℝ}

theorem sum_period_complex {e : ℤ → ℂ} {N : ℕ} (he : Function.Periodic e (N : ℤ)) (s : ℤ) :
    ∑ i ∈ range N, e (i + s) = ∑ i ∈ range N, e i := by
  have step : ∀ s : ℤ, ∑ i ∈ range N, e (i + (s + 1)) = ∑ i ∈ range N, e (i + s) := by
    intro s
    have h1 := sum_range_succ (fun i : ℕ => e (i + s)) N
    have h2 := sum_range_succ' (fun i : ℕ => e (i + s)) N
    have h3 : e (N + s) = e s := by rw [add_comm]; exact he s
    have h4 : ∀ i : ℕ, e (((i + 1 : ℕ) : ℤ) + s) = e (i + (s + 1)) := fun i => by congr 1; push_cast; ring
    simp only [h4] at h2
    rw [h1, h3] at h2
    simp only [Nat.cast_zero, zero_add] at h2
    exact (add_right_cancel h2).symm
  induction s using Int.induction_on with
  | zero => simp
  | succ n ih => rw [step, ih]
  | pred n ih =>
    have := step (-(n : ℤ) - 1)
    rw [sub_add_cancel] at this
    rw [← this, ih]

theorem transfer_eq (w : Fin m → ℝ) (N k : ℕ) :
    transferFunction w N k = ∑ s : Fin m, (w s : ℂ) * ru N (k * (((m / 2 : ℕ) : ℤ) - s.val)) := by
  unfold transferFunction ru
  refine sum_congr rfl fun s _ => ?_
  congr 2
  simp only [Int.cast_mul, Int.cast_sub, Int.cast_natCast]
  ring

/-- The convolution theorem: zonal filtering with any window multiplies every Fourier coefficient by the transfer function
of the window. -/
theorem C169_transform (hw : g.resolveWindow gw win = .ok ⟨m, w⟩) (f out : Fin g.nlon → ℝ)
    (h : g.filterZonal gw (.d1 g.nlon f) win = .ok (.d1 g.nlon out)) (k : ℕ) :
    dft out k = transferFunction w g.nlon k * dft f k := by
  obtain ⟨m', w', hw', hm, rfl⟩ := zonal_ok h
  rw [hw] at hw'
  cases hw'
  rcases Nat.eq_zero_or_pos g.nlon with h0 | hN
  · have : IsEmpty (Fin g.nlon) := by rw [h0]; infer_instance
    simp [dft]
  have hN' : g.nlon ≠ 0 := hN.ne'
  rw [dft_eq, dft_eq, transfer_eq, sum_mul]
  unfold convolve
  simp only [Complex.ofReal_sum, Complex.ofReal_mul, sum_mul]
  rw [sum_comm]
  refine sum_congr rfl fun s _ => ?_
  have hp : Function.Periodic (fun t : ℤ => ((wrapExt f t : ℝ) : ℂ) * ru g.nlon (-(k * t))) (g.nlon : ℤ) := fun t => by
    dsimp only
    rw [wrapExt_periodic f t, ru_congr hN' (b := -(k * t)) ⟨-k, by ring⟩]
  have h1 := sum_period_complex hp (((m / 2 : ℕ) : ℤ) - s.val)
  have h2 : ∑ i : Fin g.nlon, (f i : ℂ) * ru g.nlon (-(k * i.val : ℤ)) = ∑ i ∈ range g.nlon, ((wrapExt f (i : ℤ) : ℝ) : ℂ) * ru g.nlon (-(k * (i : ℤ))) := by
    rw [← Fin.sum_univ_eq_sum_range (fun i : ℕ => ((wrapExt f (i : ℤ) : ℝ) : ℂ) * ru g.nlon (-(k * (i : ℤ))))]
    exact sum_congr rfl fun i _ => by rw [wrapExt_node]
  rw [h2, ← h1, ← Fin.sum_univ_eq_sum_range (fun i : ℕ => ((wrapExt f ((i : ℤ) + (((m / 2 : ℕ) : ℤ) - s.val)) : ℝ) : ℂ) *
    ru g.nlon (-(k * ((i : ℤ) + (((m / 2 : ℕ) : ℤ) - s.val))))), mul_sum]
  refine sum_congr rfl fun i _ => ?_
  rw [← add_sub_assoc, show (-(k * i.val : ℤ)) = k * (((m / 2 : ℕ) : ℤ) - s.val) + -(k * ((i.val : ℤ) + ((m / 2 : ℕ) : ℤ) - s.val)) by ring,
    ru_add]
  ring

/-- For symmetric windows the transfer function is the (real) response. -/
theorem C169_real (ho : Odd m) (hr : reversed w = w) (N k : ℕ) :
    transferFunction w N k = (windowResponse w (2 * Real.pi * k / N) : ℝ) := by
  have hs := sum_congr (s₁ := (univ : Finset (Fin m))) rfl fun s _ => show
    (w s : ℂ) * Complex.exp (-(2 * Real.pi * Complex.I * k * ((s.val : ℂ) - ((m / 2 : ℕ) : ℂ)) / N)) =
      ((w s * Real.cos (((s.val : ℝ) - ((m / 2 : ℕ) : ℝ)) * (2 * Real.pi * k / N)) : ℝ) : ℂ) -
        ((w s * Real.sin (((s.val : ℝ) - ((m / 2 : ℕ) : ℝ)) * (2 * Real.pi * k / N)) : ℝ) : ℂ) * Complex.I by
    rw [show -(2 * Real.pi * Complex.I * k * ((s.val : ℂ) - ((m / 2 : ℕ) : ℂ)) / N) =
      ((-(((s.val : ℝ) - ((m / 2 : ℕ) : ℝ)) * (2 * Real.pi * k / N)) : ℝ) : ℂ) * Complex.I by
        simp only [Complex.ofReal_neg, Complex.ofReal_mul, Complex.ofReal_sub, Complex.ofReal_div, Complex.ofReal_natCast, Complex.ofReal_ofNat]
        ring, Complex.exp_mul_I, ← Complex.ofReal_cos, ← Complex.ofReal_sin, Real.cos_neg, Real.sin_neg]
    push_cast
    ring
  unfold transferFunction
  rw [hs, sum_sub_distrib, ← sum_mul, ← Complex.ofReal_sum, ← Complex.ofReal_sum, window_sine ho hr]
  simp [windowResponse]

theorem band_core {N M : ℕ} (hN : N = 2 * M) (hM : 0 < M) (kmin kmax : ℕ) (T : ℕ → ℂ) (f out R S : Fin N → ℝ)
    (h1 : ∀ k, dft out k = T k * dft f k) (hR : R = fun i => irfft M (restrictBand kmin kmax (dft f)) i.val)
    (h2 : ∀ k, dft S k = T k * dft R k) : S = fun i => irfft M (restrictBand kmin kmax (dft out)) i.val := by
  subst hN
  funext i
  rw [← irfft_dft hM S i]
  have hk : ∀ k ≤ M, dft S k = restrictBand kmin kmax (dft out) k := fun k hk => by
    have hr0 : (restrictBand kmin kmax (dft f) 0).im = 0 := by
      unfold restrictBand
      split_ifs
      · rfl
      · rfl
      · exact dft_im_zero f
    have hrM : (restrictBand kmin kmax (dft f) M).im = 0 := by
      unfold restrictBand
      split_ifs
      · rfl
      · rfl
      · exact dft_im_half hM f
    rw [h2, hR, dft_irfft hM _ hr0 hrM k hk]
    unfold restrictBand
    rw [h1]
    split_ifs <;> simp
  unfold irfft
  rw [hk 0 (Nat.zero_le _), hk M le_rfl]
  congr 3
  refine sum_congr rfl fun k hk' => ?_
  rw [hk k (mem_Ico.mp hk').2.le]

theorem restrict_even_width {h n : ℕ} (hn : Even n) (h0 : 0 < n) (f : Fin h → Fin n → ℝ) (kmin kmax : ℕ) :
    restrictFourierZonal f kmin kmax = .ok (.d2 h n fun j i => irfft (n / 2) (restrictBand kmin kmax (dft (f j))) i.val) := by
  obtain ⟨M, rfl⟩ := hn.two_dvd
  unfold restrictFourierZonal
  rw [if_neg h0.ne', if_neg (by omega)]
  have h1 : ∀ p, p = 2 * M → (Arr.d2 h p fun j i => irfft (2 * M / 2) (restrictBand kmin kmax (dft (f j))) i.val) =
      Arr.d2 h (2 * M) fun j i => irfft (2 * M / 2) (restrictBand kmin kmax (dft (f j))) i.val := by
    rintro _ rfl
    rfl
  exact congrArg Except.ok (h1 _ (by omega))

/-- Zonal filtering with any window and the selection of wavenumbers by `_restrict_fourier_zonal` can be interchanged. -/
theorem C169_band (he : Even g.nlon) (h0 : 0 < g.nlon) {h : ℕ} (f out R S : Fin h → Fin g.nlon → ℝ) (kmin kmax : ℕ)
    (hf : g.filterZonal gw (.d2 h g.nlon f) win = .ok (.d2 h g.nlon out))
    (hR : restrictFourierZonal f kmin kmax = .ok (.d2 h g.nlon R))
    (hS : g.filterZonal gw (.d2 h g.nlon R) win = .ok (.d2 h g.nlon S)) :
    restrictFourierZonal out kmin kmax = .ok (.d2 h g.nlon S) := by
  rw [restrict_even_width he h0] at hR ⊢
  have hR' : (fun (j : Fin h) (i : Fin g.nlon) => irfft (g.nlon / 2) (restrictBand kmin kmax (dft (f j))) i.val) = R := by
    injection hR with hR
    injection hR
  congr 2
  funext j
  have e1 := C68_rows f out hf j
  have e2 := C68_rows R S hS j
  obtain ⟨m, w, hw, -, -⟩ := zonal_ok e1
  obtain ⟨M, hM⟩ := he.two_dvd
  have := band_core (M := g.nlon / 2) (by omega) (by omega) kmin kmax (transferFunction w g.nlon) (f j) (out j) (R j) (S j)
    (C169_transform hw _ _ e1) (by rw [← hR']) (C169_transform hw _ _ e2)
  rw [this]

/-- Non-vacuity of `C169_band` -/
example (f : Fin 3 → Fin grid30.nlon → ℝ) : Even grid30.nlon ∧ 0 < grid30.nlon ∧ (∃ R, restrictFourierZonal f 1 4 = .ok (.d2 3 grid30.nlon R)) ∧
    ∃ out, grid30.filterZonal boxcar (.d2 3 grid30.nlon f) (.named () 90) = .ok (.d2 3 grid30.nlon out) := by
  have h1 : Even grid30.nlon := by rw [grid30_nlon]; decide
  have h2 : 0 < grid30.nlon := by rw [grid30_nlon]; norm_num
  refine ⟨h1, h2, ⟨_, restrict_even_width h1 h2 f 1 4⟩, ?_⟩
  unfold Grid.filterZonal
  rw [boxcar_window filterWidth30]
  simp

/-- Filtering with non-negative weights with sum 1 does not increase the sum of squares, in the meridional direction
provided that the window is symmetric. -/
theorem C169_variance (hw : g.resolveWindow gw win = .ok ⟨m, w⟩) (hs : ∑ k, w k = 1) (hp : ∀ k, 0 ≤ w k) :
    (∀ f out : Fin g.nlon → ℝ, g.filterZonal gw (.d1 g.nlon f) win = .ok (.d1 g.nlon out) → ∑ i, out i ^ 2 ≤ ∑ i, f i ^ 2) ∧
    (Odd m → reversed w = w → ∀ f out : Fin g.nlat → ℝ, g.filterMeridional gw (.d1 g.nlat f) win = .ok (.d1 g.nlat out) →
      ∑ j, out j ^ 2 ≤ ∑ j, f j ^ 2) := by
  have key : ∀ (e e2 : ℤ → ℝ), (∀ t, e2 t = e t ^ 2) → ∀ i : ℕ, convolve e w i ^ 2 ≤ convolve e2 w i := fun e e2 he i => by
    unfold convolve
    have h := sum_sq_le_sum_mul_sum_of_sq_le_mul univ (r := fun k : Fin m => w k * e (i + (m / 2 : ℕ) - k.val)) (f := w)
      (g := fun k => w k * e2 (i + (m / 2 : ℕ) - k.val)) (fun k _ => hp k) (fun k _ => mul_nonneg (hp k) (by rw [he]; positivity))
      (fun k _ => le_of_eq (by rw [he]; ring))
    rwa [hs, one_mul] at h
  constructor
  · intro f out h
    obtain ⟨m', w', hw', hm, rfl⟩ := zonal_ok h
    rw [hw] at hw'
    cases hw'
    rcases Nat.eq_zero_or_pos g.nlon with h0 | hN
    · have : IsEmpty (Fin g.nlon) := by rw [h0]; infer_instance
      simp
    have hN' : (g.nlon : ℝ) ≠ 0 := by exact_mod_cast hN.ne'
    have h1 := C68_zonal_mean hw hs (fun i => f i ^ 2) _ (zonal_d1 hw hm _)
    rw [div_left_inj' hN'] at h1
    rw [← h1]
    exact sum_le_sum fun i _ => key _ _ (fun t => by unfold wrapExt; split_ifs <;> simp) i
  · intro ho hr f out h
    obtain ⟨m', w', hw', hm, rfl⟩ := merid_ok h
    rw [hw] at hw'
    cases hw'
    have h1 := C68_meridional_sum_partial hw hs hr ho (fun i => f i ^ 2) _ (merid_d1 hw hm _)
    rw [← h1]
    exact sum_le_sum fun i _ => key _ _ (fun t => by unfold reflectExt; split_ifs <;> simp) i

/-- A periodic sequence whose sums of `m` consecutive values vanish vanishes if its period has no divisor in common with `m`. -/
theorem runs_zero {e : ℤ → ℝ} {P : ℕ} (he : Function.Periodic e (P : ℤ)) (hm : 0 < m) (hc : Nat.Coprime m P)
    (hz : ∀ t : ℤ, ∑ k ∈ range m, e (t - k) = 0) (t : ℤ) : e t = 0 := by
  have h1 : Function.Periodic e (m : ℤ) := fun t => by
    have h1 := sum_range_succ (fun k : ℕ => e (t + m - k)) m
    have h2 := sum_range_succ' (fun k : ℕ => e (t + m - k)) m
    have h4 : ∀ k : ℕ, e (t + m - ((k + 1 : ℕ) : ℤ)) = e (t + m - 1 - k) := fun k => by congr 1; push_cast; ring
    simp only [h4] at h2
    rw [hz] at h1 h2
    rw [h1] at h2
    simp only [add_sub_cancel_right, Nat.cast_zero, sub_zero, zero_add] at h2
    exact h2.symm
  have h2 : ∀ t, e t = e 0 := by
    have hb : (1 : ℤ) = m.gcdA P * m + m.gcdB P * P := by
      have := Nat.gcd_eq_gcd_ab m P
      rw [hc] at this
      push_cast at this
      linarith
    have h3 : Function.Periodic e 1 := by
      rw [hb]
      have ha := h1.int_mul (m.gcdA P)
      have hb := he.int_mul (m.gcdB P)
      simp only [Int.cast_id] at ha hb
      exact ha.add_period hb
    intro t
    have := h3.int_mul t 0
    simpa using this
  have h3 := hz 0
  simp only [h2, sum_const, card_range, nsmul_eq_mul] at h3
  rw [h2]
  rcases mul_eq_zero.mp h3 with h | h
  · exact absurd h (by exact_mod_cast hm.ne')
  · exact h

/-- The convolution with a boxcar window in terms of sums of consecutive values -/
theorem convolve_runs (e : ℤ → ℝ) (n i : ℕ) :
    convolve e (fun _ : Fin (2 * n + 1) => 1 / ((2 * n + 1 : ℕ) : ℝ)) i = (∑ k ∈ range (2 * n + 1), e ((i : ℤ) + n - k)) / (2 * n + 1 : ℕ) := by
  unfold convolve
  rw [show (2 * n + 1) / 2 = n by omega, ← mul_sum, Fin.sum_univ_eq_sum_range (fun k : ℕ => e ((i : ℤ) + n - k))]
  ring

/-- Zonal filtering with the boxcar window loses no information if and only if the lengths of the window and of the latitude
circle have no divisor in common. -/
theorem C169_invertible_zonal {width : ℝ} {n : ℕ} (hg : g.filterWidth width = (2 * n + 1 : ℕ)) (hN : 0 < g.nlon) :
    (∀ f f' out : Fin g.nlon → ℝ, g.filterZonal boxcar (.d1 g.nlon f) (.named () width) = .ok (.d1 g.nlon out) →
      g.filterZonal boxcar (.d1 g.nlon f') (.named () width) = .ok (.d1 g.nlon out) → f = f') ↔ Nat.Coprime (2 * n + 1) g.nlon := by
  have hw := boxcar_window hg
  have hm : 0 < 2 * n + 1 := by omega
  have hr : ((2 * n + 1 : ℕ) : ℝ) ≠ 0 := by positivity
  constructor
  · intro h
    by_contra hc
    obtain ⟨q, hq⟩ := Nat.gcd_dvd_right (2 * n + 1) g.nlon
    have hd : 1 < Nat.gcd (2 * n + 1) g.nlon := by
      have := Nat.gcd_pos_of_pos_left g.nlon hm
      unfold Nat.Coprime at hc
      omega
    have hq0 : 0 < q := Nat.pos_of_ne_zero fun h0 => by rw [h0, mul_zero] at hq; omega
    have hqN : q < g.nlon := by
      calc q = 1 * q := (one_mul q).symm
        _ < Nat.gcd (2 * n + 1) g.nlon * q := Nat.mul_lt_mul_of_pos_right hd hq0
        _ = g.nlon := hq.symm
    have hv : g.nlon ∣ (2 * n + 1) * q := by
      obtain ⟨p, hp⟩ := Nat.gcd_dvd_left (2 * n + 1) g.nlon
      refine ⟨p, ?_⟩
      calc (2 * n + 1) * q = Nat.gcd (2 * n + 1) g.nlon * p * q := by rw [← hp]
        _ = Nat.gcd (2 * n + 1) g.nlon * q * p := by ring
        _ = g.nlon * p := by rw [← hq]
    have h1 := C168_zonal hw ⟨n, rfl⟩ rfl q 0
    simp only [(C168_removed g.nlon q n hq0 hqN).mpr hv, zero_mul] at h1
    have h2 := (C68_const hw (by rw [sum_const, card_univ, Fintype.card_fin, nsmul_eq_mul]; field_simp) 0).2
    have h3 := congrFun (h _ _ _ h1 h2) ⟨0, hN⟩
    simp [waveAlong] at h3
  · intro hc f f' out h h'
    have hd := (C68_linear (-1)).2 _ _ _ _ h h'
    rw [zonal_d1 hw hm] at hd
    have hz : ∀ t : ℤ, ∑ k ∈ range (2 * n + 1), wrapExt ((-1 : ℝ) • f + f') (t - k) = 0 := by
      have hp := wrapExt_periodic ((-1 : ℝ) • f + f')
      intro t
      have h1 := wrap_unique (e := fun t : ℤ => ∑ k ∈ range (2 * n + 1), wrapExt ((-1 : ℝ) • f + f') (t + n - k)) (e' := fun _ => 0) hN
        (fun t => by
          refine sum_congr rfl fun k _ => ?_
          rw [show t + (g.nlon : ℤ) + n - k = t + n - k + g.nlon by ring]
          exact hp _) (fun t => rfl) (fun i => by
          have h2 : convolve (wrapExt ((-1 : ℝ) • f + f')) (fun _ : Fin (2 * n + 1) => 1 / ((2 * n + 1 : ℕ) : ℝ)) i.val = 0 := by
            injection hd with h3
            injection h3 with _ h3
            have h4 := congrFun h3 i
            rw [h4]
            simp
          rw [convolve_runs, div_eq_zero_iff] at h2
          exact h2.resolve_right hr) (t - n)
      simpa using h1
    funext i
    have h1 := runs_zero (wrapExt_periodic ((-1 : ℝ) • f + f')) hm hc hz i.val
    rw [wrapExt_node] at h1
    simp only [Pi.add_apply, Pi.smul_apply, smul_eq_mul] at h1
    linarith

/-- Meridional filtering with the boxcar window loses no information if and only if the lengths of the window and of the
meridian have no divisor in common. -/
theorem C169_invertible_meridional {width : ℝ} {n : ℕ} (hg : g.filterWidth width = (2 * n + 1 : ℕ)) (hN : 0 < g.nlat) :
    (∀ f f' out : Fin g.nlat → ℝ, g.filterMeridional boxcar (.d1 g.nlat f) (.named () width) = .ok (.d1 g.nlat out) →
      g.filterMeridional boxcar (.d1 g.nlat f') (.named () width) = .ok (.d1 g.nlat out) → f = f') ↔ Nat.Coprime (2 * n + 1) g.nlat := by
  have hw := boxcar_window hg
  have hm : 0 < 2 * n + 1 := by omega
  have hr : ((2 * n + 1 : ℕ) : ℝ) ≠ 0 := by positivity
  constructor
  · intro h
    by_contra hc
    obtain ⟨q, hq⟩ := Nat.gcd_dvd_right (2 * n + 1) g.nlat
    obtain ⟨p, hp⟩ := Nat.gcd_dvd_left (2 * n + 1) g.nlat
    have hd : 3 ≤ Nat.gcd (2 * n + 1) g.nlat := by
      have := Nat.gcd_pos_of_pos_left g.nlat hm
      have h2 : Nat.gcd (2 * n + 1) g.nlat ≠ 2 := fun h2 => by rw [h2] at hp; omega
      unfold Nat.Coprime at hc
      omega
    have hq0 : 0 < q := Nat.pos_of_ne_zero fun h0 => by rw [h0, mul_zero] at hq; omega
    have hqN : 2 * q < g.nlat := by
      calc 2 * q < Nat.gcd (2 * n + 1) g.nlat * q := Nat.mul_lt_mul_of_pos_right hd hq0
        _ = g.nlat := hq.symm
    have hv : 2 * g.nlat ∣ (2 * n + 1) * (2 * q) := by
      refine ⟨p, ?_⟩
      calc (2 * n + 1) * (2 * q) = Nat.gcd (2 * n + 1) g.nlat * p * (2 * q) := by rw [← hp]
        _ = 2 * (Nat.gcd (2 * n + 1) g.nlat * q) * p := by ring
        _ = 2 * g.nlat * p := by rw [← hq]
    have h1 := C168_meridional hw ⟨n, rfl⟩ rfl (2 * q)
    have h0 := (C168_removed (2 * g.nlat) (2 * q) n (by omega) (by omega)).mpr hv
    have hN' : (0 : ℝ) < g.nlat := by exact_mod_cast hN
    rw [show 2 * Real.pi * ((2 * q : ℕ) : ℝ) / ((2 * g.nlat : ℕ) : ℝ) = Real.pi * ((2 * q : ℕ) : ℝ) / g.nlat by
      push_cast; field_simp] at h0
    simp only [h0, zero_mul] at h1
    have h2 := (C68_const hw (by rw [sum_const, card_univ, Fintype.card_fin, nsmul_eq_mul]; field_simp) 0).1
    have h3 := congrFun (h _ _ _ h1 h2) ⟨0, hN⟩
    have hqr : (2 * q : ℝ) < g.nlat := by exact_mod_cast hqN
    have hq1 : (0 : ℝ) < q := by exact_mod_cast hq0
    have hpi := Real.pi_pos
    refine absurd h3 (Real.cos_pos_of_mem_Ioo ⟨?_, ?_⟩).ne'
    · have : 0 < Real.pi * ((2 * q : ℕ) : ℝ) * (((0 : ℕ) : ℝ) + 1 / 2) / g.nlat := by push_cast; positivity
      dsimp only
      linarith
    · dsimp only
      rw [div_lt_iff₀ hN']
      push_cast
      nlinarith
  · intro hc f f' out h h'
    have hd := (C68_linear (-1)).1 _ _ _ _ h h'
    rw [merid_d1 hw hm] at hd
    have hs := reflectExt_symm ((-1 : ℝ) • f + f')
    have hz : ∀ t : ℤ, ∑ k ∈ range (2 * n + 1), reflectExt ((-1 : ℝ) • f + f') (t - k) = 0 := by
      have hp := reflectExt_periodic ((-1 : ℝ) • f + f')
      intro t
      have h1 := reflect_unique (e := fun t : ℤ => ∑ k ∈ range (2 * n + 1), reflectExt ((-1 : ℝ) • f + f') (t + n - k)) (e' := fun _ => 0) hN
        (fun t => by
          refine sum_congr rfl fun k _ => ?_
          rw [show t + ((2 * g.nlat : ℕ) : ℤ) + n - k = t + n - k + ((2 * g.nlat : ℕ) : ℤ) by ring]
          exact hp _) (fun t => rfl) (fun t => by
          rw [← sum_range_reflect]
          refine sum_congr rfl fun k hk => ?_
          have hk' := mem_range.mp hk
          rw [← hs (t + n - k), show ((2 * n + 1 - 1 - k : ℕ) : ℤ) = 2 * n - k by omega]
          congr 1
          ring) (fun t => rfl) (fun i => by
          have h2 : convolve (reflectExt ((-1 : ℝ) • f + f')) (fun _ : Fin (2 * n + 1) => 1 / ((2 * n + 1 : ℕ) : ℝ)) i.val = 0 := by
            injection hd with h3
            injection h3 with _ h3
            have h4 := congrFun h3 i
            rw [h4]
            simp
          rw [convolve_runs, div_eq_zero_iff] at h2
          exact h2.resolve_right hr) (t - n)
      simpa using h1
    have hc2 : Nat.Coprime (2 * n + 1) (2 * g.nlat) := Nat.Coprime.mul_right (by simp) hc
    funext i
    have h1 := runs_zero (reflectExt_periodic ((-1 : ℝ) • f + f')) hm hc2 hz i.val
    rw [reflectExt_node] at h1
    simp only [Pi.add_apply, Pi.smul_apply, smul_eq_mul] at h1
    linarith

/-- Windows of three gridpoints lose information on 12 longitudes, but not on 7 latitudes. -/
example : (∃ f f' out : Fin grid30.nlon → ℝ, grid30.filterZonal boxcar (.d1 grid30.nlon f) (.named () 90) = .ok (.d1 grid30.nlon out) ∧
      grid30.filterZonal boxcar (.d1 grid30.nlon f') (.named () 90) = .ok (.d1 grid30.nlon out) ∧ f ≠ f') ∧
    ∀ f f' out : Fin grid30.nlat → ℝ, grid30.filterMeridional boxcar (.d1 grid30.nlat f) (.named () 90) = .ok (.d1 grid30.nlat out) →
      grid30.filterMeridional boxcar (.d1 grid30.nlat f') (.named () 90) = .ok (.d1 grid30.nlat out) → f = f' := by
  refine ⟨?_, (C169_invertible_meridional filterWidth30 (by rw [grid30_nlat]; norm_num)).mpr (by rw [grid30_nlat]; decide)⟩
  by_contra h
  push Not at h
  have := (C169_invertible_zonal filterWidth30 (by rw [grid30_nlon]; norm_num)).mp h
  rw [grid30_nlon] at this
  exact absurd this (by decide)

end Barotropic
