import Verif.Model.Wavelet
import Verif.Spec.Wavelet
import Verif.Props.Dominant

/-!
# C94 Dominant wavenumber from wavelets
-/

namespace Barotropic
open Finset

variable {h w : ℕ} {W : Type*} {gw : W → (n : ℕ) → Except PyErr (Fin n → ℝ)} {g : Grid ℝ} {ψ : Wavelet}

theorem waveletScale_bounds {a : ℕ} (ha : a < 120) : 3 ≤ waveletScale a ∧ waveletScale a ≤ 192 := by
  unfold waveletScale
  have h1 : (0 : ℝ) ≤ 6 * (a : ℝ) / 119 := by positivity
  have h2 : 6 * (a : ℝ) / 119 ≤ 6 := by
    have : (a : ℝ) ≤ 119 := by exact_mod_cast (by omega : a ≤ 119)
    rw [div_le_iff₀ (by norm_num)]; linarith
  have h3 := Real.rpow_le_rpow_of_exponent_le (x := 2) (by norm_num) h1
  have h4 := Real.rpow_le_rpow_of_exponent_le (x := 2) (by norm_num) h2
  rw [Real.rpow_zero] at h3
  rw [show (2 : ℝ) ^ (6 : ℝ) = 64 by rw [show (6 : ℝ) = (6 : ℕ) by norm_num, Real.rpow_natCast]; norm_num] at h4
  constructor <;> linarith

theorem wavelet_bounds (hf : 0 ≤ ψ.frequency) (nlon : ℕ) {n : ℕ} (x : Fin n → ℝ) (i : ℕ) :
    ψ.frequency * nlon / 192 ≤ waveletDominant ψ nlon x i ∧ waveletDominant ψ nlon x i ≤ ψ.frequency * nlon / 3 := by
  unfold waveletDominant
  obtain ⟨h1, h2⟩ := waveletScale_bounds (argmax_spec (fun a => ‖cwtEntry x (waveletScale a) (ψ.samples (waveletScale a)).2 (n + i)‖ ^ 2)
    (show 0 < 120 by norm_num)).1
  generalize waveletScale (argmax (fun a => ‖cwtEntry x (waveletScale a) (ψ.samples (waveletScale a)).2 (n + i)‖ ^ 2) 120) = s at h1 h2
  have hn : (0 : ℝ) ≤ nlon := Nat.cast_nonneg _
  have e : ψ.frequency / s * nlon = ψ.frequency * nlon / s := by ring
  rw [e]
  have hp : 0 ≤ ψ.frequency * nlon := mul_nonneg hf hn
  exact ⟨div_le_div_of_nonneg_left hp (by linarith) h2, div_le_div_of_nonneg_left hp (by norm_num) h1⟩

theorem restrict_eq (hw : 2 ≤ w) (f : Fin h → Fin w → ℝ) (kmin kmax : ℕ) : restrictFourierZonal f kmin kmax =
    .ok (.d2 h (2 * (w / 2)) fun j i => irfft (w / 2) (restrictBand kmin kmax (dft (f j))) i) := by
  unfold restrictFourierZonal
  rw [if_neg (by omega), if_neg (by omega)]

/-- the profile before smoothing -/
noncomputable def rawWavelet (ψ : Wavelet) (g : Grid ℝ) (f : Fin h → Fin w → ℝ) : Fin h → Fin (2 * (w / 2)) → ℝ := fun j i =>
  waveletDominant ψ g.nlon (fun i : Fin (2 * (w / 2)) => irfft (w / 2) (restrictBand 0 20 (dft (f j))) i) i

/-- smoothing -/
noncomputable def smoothBoth (gw : W → (n : ℕ) → Except PyErr (Fin n → ℝ)) (g : Grid ℝ) (k : Arr ℝ) : Option (W × ℝ × ℝ) → Except PyErr (Arr ℝ)
  | none => .ok k
  | some (window, wlon, wlat) =>
    match g.filterMeridional gw k (.named window wlat) with
    | .error e => .error e
    | .ok k' => g.filterZonal gw k' (.named window wlon)

theorem dominantWavelet_eq (hw : 2 ≤ w) (hψ : ∀ a < 120, 2 ≤ (ψ.samples (waveletScale a)).1) (f : Fin h → Fin w → ℝ)
    (smooth : Option (W × ℝ × ℝ)) :
    g.dominantWavelet gw ψ f smooth = smoothBoth gw g (.d2 h (2 * (w / 2)) (rawWavelet ψ g f)) smooth := by
  unfold Grid.dominantWavelet
  rw [restrict_eq hw]
  dsimp only
  rw [if_pos hψ]
  cases smooth <;> rfl

/-- C94, what holds: for an even number of longitudes the result has the shape of the field, and all values (also smoothed ones, for
windows with non-negative weights with sum 1) are between the wavenumbers of the smallest and largest scale. Missing: odd numbers of
longitudes, see `C94_odd_refuted`. -/
theorem C94_range_partial (hlat : h = g.nlat) (hlon : w = g.nlon) (he : Even w) (hw : 2 ≤ w) (hf : 0 ≤ ψ.frequency)
    (hψ : ∀ a < 120, 2 ≤ (ψ.samples (waveletScale a)).1) (f : Fin h → Fin w → ℝ) (smooth : Option (W × ℝ × ℝ))
    (hs : ∀ window wlon wlat, smooth = some (window, wlon, wlat) → ∀ width, width = wlon ∨ width = wlat →
      ∃ m x, g.getFilterWindow gw window width = .ok ⟨m, x⟩ ∧ ∑ k, x k = 1 ∧ ∀ k, 0 ≤ x k) :
    ∃ r : Fin h → Fin w → ℝ, g.dominantWavelet gw ψ f smooth = .ok (.d2 h w r) ∧
      ∀ j i, ψ.frequency * g.nlon / 192 ≤ r j i ∧ r j i ≤ ψ.frequency * g.nlon / 3 := by
  obtain ⟨M, rfl⟩ := he.two_dvd
  rw [dominantWavelet_eq hw hψ]
  have hraw : ∀ j i, ψ.frequency * g.nlon / 192 ≤ rawWavelet ψ g f j i ∧ rawWavelet ψ g f j i ≤ ψ.frequency * g.nlon / 3 :=
    fun j i => wavelet_bounds hf _ _ _
  generalize rawWavelet ψ g f = r at hraw
  have hM : 2 * (2 * M / 2) = 2 * M := by omega
  generalize 2 * (2 * M / 2) = n at hM r hraw
  subst hM
  cases smooth with
  | none => exact ⟨r, rfl, hraw⟩
  | some s =>
    obtain ⟨window, wlon, wlat⟩ := s
    obtain ⟨m, x, hx, hs1, hp1⟩ := hs window wlon wlat rfl wlat (.inr rfl)
    obtain ⟨m', x', hx', hs2, hp2⟩ := hs window wlon wlat rfl wlon (.inl rfl)
    have hm : m ≠ 0 := by rintro rfl; simp at hs1
    have hm' : m' ≠ 0 := by rintro rfl; simp at hs2
    have e1 : g.filterMeridional gw (.d2 h (2 * M) r) (.named window wlat) =
        .ok (.d2 h (2 * M) fun j i => convolve (reflectExt fun j' => r j' i) x j) := by
      unfold Grid.filterMeridional Grid.resolveWindow
      dsimp only
      rw [hx]
      dsimp only
      rw [if_neg (not_not.mpr hlat), if_neg hm]
    have b1 : ∀ j i, ψ.frequency * g.nlon / 192 ≤ convolve (reflectExt fun j' : Fin h => r j' i) x (j : Fin h) ∧
        convolve (reflectExt fun j' : Fin h => r j' i) x (j : Fin h) ≤ ψ.frequency * g.nlon / 3 := by
      intro j i
      refine convolve_bounds hp1 hs1 (fun t => ?_) _
      obtain ⟨j', hj'⟩ := reflectExt_mem j.pos (fun j' => r j' i) t
      rw [hj']; exact hraw j' i
    refine ⟨fun j i => convolve (wrapExt fun i => convolve (reflectExt fun j' : Fin h => r j' i) x (j : Fin h)) x' i, ?_, fun j i => ?_⟩
    · unfold smoothBoth
      dsimp only
      rw [e1]
      dsimp only
      unfold Grid.filterZonal Grid.resolveWindow
      dsimp only
      rw [hx']
      dsimp only
      rw [if_neg (not_not.mpr hlon), if_neg hm']
    · refine convolve_bounds hp2 hs2 (fun t => ?_) _
      obtain ⟨i', hi'⟩ := wrapExt_mem i.pos (fun i => convolve (reflectExt fun j' : Fin h => r j' i) x (j : Fin h)) t
      rw [hi']; exact b1 j i'

/-- C94 is false for odd numbers of longitudes: without smoothing one column is missing, with smoothing AssertionError is raised (for
windows that scipy knows). -/
theorem C94_odd_refuted (hlat : h = g.nlat) (hlon : w = g.nlon) (ho : Odd w) (hw : 2 ≤ w)
    (hψ : ∀ a < 120, 2 ≤ (ψ.samples (waveletScale a)).1) (f : Fin h → Fin w → ℝ) :
    (∃ r : Fin h → Fin (w - 1) → ℝ, g.dominantWavelet gw ψ f none = .ok (.d2 h (w - 1) r)) ∧
    ∀ window wlon wlat m x m' x', g.getFilterWindow gw window wlat = .ok ⟨m, x⟩ → g.getFilterWindow gw window wlon = .ok ⟨m', x'⟩ → 0 < m →
      g.dominantWavelet gw ψ f (some (window, wlon, wlat)) = .error .assertionError := by
  have e : 2 * (w / 2) = w - 1 := by obtain ⟨k, rfl⟩ := ho; omega
  constructor
  · rw [dominantWavelet_eq hw hψ]
    generalize rawWavelet ψ g f = r
    generalize 2 * (w / 2) = n at e r
    subst e
    exact ⟨r, rfl⟩
  · intro window wlon wlat m x m' x' h1 h2 hm
    rw [dominantWavelet_eq hw hψ]
    unfold smoothBoth Grid.filterMeridional Grid.resolveWindow
    dsimp only
    rw [h1]
    dsimp only
    rw [if_neg (not_not.mpr hlat), if_neg hm.ne']
    dsimp only
    unfold Grid.filterZonal Grid.resolveWindow
    dsimp only
    rw [h2]
    dsimp only
    rw [if_pos (by omega)]

theorem tripled_eq {n : ℕ} (x : Fin n → ℝ) {t : ℤ} (h0 : 0 ≤ t) (h1 : t < 3 * n) : tripled x t = wrapExt x t := by
  unfold tripled wrapExt
  rw [if_pos ⟨h0, h1⟩]

theorem cwt_middle {n m : ℕ} (x : Fin n → ℝ) (s : ℝ) (psi : Fin m → ℂ) (hm : 2 ≤ m) (hm' : m ≤ 2 * n) {i : ℕ} (hi : i < n) :
    cwtEntry x s psi (n + i) = -(Real.sqrt s : ℂ) * (convolveFull (wrapExt x) psi (i + ((m - 2) / 2 : ℕ) + 1) -
      convolveFull (wrapExt x) psi (i + ((m - 2) / 2 : ℕ))) := by
  have key : ∀ c : ℤ, (n : ℤ) + i + ((m - 2) / 2 : ℕ) ≤ c → c ≤ n + i + ((m - 2) / 2 : ℕ) + 1 →
      convolveFull (tripled x) psi c = convolveFull (wrapExt x) psi (c - n) := by
    intro c h1 h2
    unfold convolveFull
    refine sum_congr rfl fun t _ => ?_
    have ht := t.isLt
    rw [tripled_eq x (by omega) (by omega)]
    have := wrapExt_periodic x (c - n - t.val)
    rw [← this]
    congr 3
    ring
  unfold cwtEntry
  rw [key _ (by push_cast; omega) (by push_cast; omega), key _ (by push_cast; omega) (by push_cast; omega)]
  congr 3
  · push_cast; ring
  · push_cast; ring

theorem wrapExt_rot {n : ℕ} (hn : 0 < n) (d : ℕ) (f : Fin n → ℝ) (t : ℤ) : wrapExt (rotated d f) t = wrapExt f (t + d) := by
  have hper := wrapExt_periodic f
  refine wrap_unique (e' := fun t => wrapExt f (t + d)) hn (wrapExt_periodic _) (fun t => ?_) (fun k => ?_) t
  · dsimp only
    rw [add_right_comm]; exact hper _
  · rw [wrapExt_node]
    change f _ = _
    rw [← wrapExt_node f, periodic_eq_emod hper ((k.val : ℤ) + d)]
    push_cast
    rfl

theorem convolveFull_rot {n m : ℕ} (hn : 0 < n) (d : ℕ) (x : Fin n → ℝ) (psi : Fin m → ℂ) (i : ℕ) (c : ℤ) :
    convolveFull (wrapExt (rotated d x)) psi (i + c) = convolveFull (wrapExt x) psi (((i + d) % n : ℕ) + c) := by
  unfold convolveFull
  refine sum_congr rfl fun t _ => ?_
  congr 2
  have hper := wrapExt_periodic x
  rw [wrapExt_rot hn, periodic_eq_emod hper, periodic_eq_emod hper ((((i + d) % n : ℕ) : ℤ) + c - t.val)]
  congr 1
  push_cast
  rw [add_sub_assoc _ c, add_sub_assoc _ c, Int.emod_add_emod]
  congr 1
  ring

theorem wavelet_rot (hψ : ∀ a < 120, 2 ≤ (ψ.samples (waveletScale a)).1) {n : ℕ}
    (hψ' : ∀ a < 120, (ψ.samples (waveletScale a)).1 ≤ 2 * n) (d nlon : ℕ) (x : Fin n → ℝ) (i : Fin n) :
    waveletDominant ψ nlon (rotated d x) i = waveletDominant ψ nlon x ((i.val + d) % n) := by
  have hn := i.pos
  have key : ∀ a < 120, cwtEntry (rotated d x) (waveletScale a) (ψ.samples (waveletScale a)).2 (n + i.val) =
      cwtEntry x (waveletScale a) (ψ.samples (waveletScale a)).2 (n + (i.val + d) % n) := by
    intro a ha
    rw [cwt_middle _ _ _ (hψ a ha) (hψ' a ha) i.isLt, cwt_middle _ _ _ (hψ a ha) (hψ' a ha) (Nat.mod_lt _ hn)]
    rw [add_assoc, convolveFull_rot hn, convolveFull_rot hn, add_assoc]
  have harg : ∀ (p q : ℕ → ℝ) (N : ℕ), (∀ a < N, p a = q a) → argmax p N = argmax q N := by
    intro p q N
    induction N with
    | zero => intro _; rfl
    | succ N ih =>
      intro hpq
      unfold argmax
      rw [ih fun a ha => hpq a (by omega)]
      have hlt : argmax q N < N + 1 := by
        rcases Nat.eq_zero_or_pos N with rfl | hN
        · simp [argmax]
        · have := (argmax_spec q hN).1; omega
      rw [hpq _ hlt, hpq N (by omega)]
  unfold waveletDominant
  rw [harg _ _ 120 fun a ha => by rw [key a ha]]

theorem filterMeridional_rot (d : ℕ) (k : Arr ℝ) (win : WindowArg W ℝ) :
    g.filterMeridional gw (k.rotateRows d) win = (g.filterMeridional gw k win).map (Arr.rotateRows d) := by
  unfold Grid.filterMeridional
  rcases g.resolveWindow gw win with e | ⟨m, x⟩
  · rfl
  · cases k with
    | d0 x => rfl
    | nd s => rfl
    | d1 n f => dsimp only [Arr.rotateRows]; split_ifs <;> rfl
    | d2 h n f => dsimp only [Arr.rotateRows]; split_ifs <;> rfl

theorem filterZonal_rot (d : ℕ) {h n : ℕ} (k : Fin h → Fin n → ℝ) (win : WindowArg W ℝ) :
    g.filterZonal gw (.d2 h n fun j => rotated d (k j)) win = (g.filterZonal gw (.d2 h n k) win).map (Arr.rotateRows d) := by
  unfold Grid.filterZonal
  rcases g.resolveWindow gw win with e | ⟨m, x⟩
  · rfl
  · dsimp only
    split_ifs
    · rfl
    · rfl
    · refine congrArg Except.ok (congrArg (Arr.d2 h n) (funext fun j => funext fun i => ?_))
      change convolve (wrapExt (rotated d (k j))) x i.val = convolve (wrapExt (k j)) x ((i.val + d) % n)
      have hper := wrapExt_periodic (k j)
      unfold convolve
      refine sum_congr rfl fun t _ => ?_
      rw [wrapExt_rot i.pos, periodic_eq_emod hper, periodic_eq_emod hper (((i.val + d) % n : ℕ) + _ - _)]
      congr 2
      push_cast
      rw [add_sub_assoc, add_sub_assoc, Int.emod_add_emod]
      congr 1
      ring

/-- C94: commutes with zonal rotation for even numbers of longitudes, with or without smoothing, if the samples of the wavelet do not
reach beyond the padding at any scale (at most `2 * nlon` samples). -/
theorem C94_rotation (he : Even w) (hw : 2 ≤ w) (hψ : ∀ a < 120, 2 ≤ (ψ.samples (waveletScale a)).1)
    (hψ' : ∀ a < 120, (ψ.samples (waveletScale a)).1 ≤ 2 * w) (d : ℕ) (f : Fin h → Fin w → ℝ) (smooth : Option (W × ℝ × ℝ)) :
    g.dominantWavelet gw ψ (fun j => rotated d (f j)) smooth = (g.dominantWavelet gw ψ f smooth).map (Arr.rotateRows d) := by
  rw [dominantWavelet_eq hw hψ, dominantWavelet_eq hw hψ]
  have hraw : Arr.d2 h (2 * (w / 2)) (rawWavelet ψ g fun j => rotated d (f j)) =
      .d2 h (2 * (w / 2)) fun j => rotated d (rawWavelet ψ g f j) := by
    have e : 2 * (w / 2) = w := by obtain ⟨k, rfl⟩ := he; omega
    refine congrArg (Arr.d2 h (2 * (w / 2))) (funext fun j => funext fun i => ?_)
    have hrow : (fun i : Fin (2 * (w / 2)) => irfft (w / 2) (restrictBand 0 20 (dft (rotated d (f j)))) i) =
        rotated d (fun i : Fin (2 * (w / 2)) => irfft (w / 2) (restrictBand 0 20 (dft (f j))) i) := by
      have h1 : dft (rotated d (f j)) = fun k : ℕ => ru w (k * d : ℤ) * dft (f j) k := funext fun k : ℕ => dft_rot d (f j) k
      funext i
      change _ = irfft (w / 2) (restrictBand 0 20 (dft (f j))) ((i.val + d) % (2 * (w / 2)))
      rw [h1]
      have e2 : restrictBand 0 20 (fun k : ℕ => ru w (k * d : ℤ) * dft (f j) k) =
          fun k : ℕ => ru (2 * (w / 2)) (k * d : ℤ) * restrictBand 0 20 (dft (f j)) k := by
        funext k; unfold restrictBand; rw [e]; split_ifs <;> simp
      rw [e2]
      refine irfft_rot (by omega) _ d i (band_im ?_)
      have := dft_im_half (M := w / 2) (by omega) (fun i => f j (Fin.cast e i))
      rw [← this]
      congr 1
      unfold dft
      rw [← Equiv.sum_comp (finCongr e)]
      simp [e]
    refine (congrArg (fun x => waveletDominant ψ g.nlon x i.val) hrow).trans ?_
    exact wavelet_rot hψ (by rw [e]; exact hψ') d g.nlon _ i
  rw [hraw]
  generalize rawWavelet ψ g f = r
  cases smooth with
  | none => rfl
  | some s =>
    obtain ⟨window, wlon, wlat⟩ := s
    unfold smoothBoth
    dsimp only
    have h1 := filterMeridional_rot (g := g) (gw := gw) d (.d2 h (2 * (w / 2)) r) (.named window wlat)
    change g.filterMeridional gw (.d2 h (2 * (w / 2)) fun j => rotated d (r j)) _ = _ at h1
    rw [h1]
    unfold Grid.filterMeridional
    rcases g.resolveWindow gw (.named window wlat) with e | ⟨m, x⟩
    · rfl
    · dsimp only
      split_ifs
      · rfl
      · rfl
      · exact filterZonal_rot d _ _

/-- C94: the result does not depend on the amplitude of the field: multiplying the rows with numbers different from 0 changes nothing,
also errors, for every wavelet and smoothing. -/
theorem C94_amplitude (c : Fin h → ℝ) (hc : ∀ j, c j ≠ 0) (f : Fin h → Fin w → ℝ) (smooth : Option (W × ℝ × ℝ)) :
    g.dominantWavelet gw ψ (fun j i => c j * f j i) smooth = g.dominantWavelet gw ψ f smooth := by
  by_cases hw : 2 ≤ w
  swap
  · unfold Grid.dominantWavelet restrictFourierZonal
    by_cases h0 : w = 0
    · rw [if_pos h0, if_pos h0]
    · rw [if_neg h0, if_pos (by omega), if_neg h0, if_pos (by omega)]
  by_cases hψ : ∀ a < 120, 2 ≤ (ψ.samples (waveletScale a)).1
  swap
  · unfold Grid.dominantWavelet
    rw [restrict_eq hw, restrict_eq hw]
    dsimp only
    rw [if_neg hψ, if_neg hψ]
  rw [dominantWavelet_eq hw hψ, dominantWavelet_eq hw hψ]
  have hraw : rawWavelet ψ g (fun j i => c j * f j i) = rawWavelet ψ g f := by
    funext j i
    have hrow : (fun i : Fin (2 * (w / 2)) => irfft (w / 2) (restrictBand 0 20 (dft fun i => c j * f j i)) i) =
        fun i : Fin (2 * (w / 2)) => c j * irfft (w / 2) (restrictBand 0 20 (dft (f j))) i := by
      funext i
      have e : restrictBand 0 20 (dft fun i => c j * f j i) = fun k => (c j : ℂ) * restrictBand 0 20 (dft (f j)) k + 0 := by
        funext k
        unfold restrictBand
        rw [dft_smul]
        split_ifs <;> simp
      rw [e, irfft_linear (c j) _ (fun _ => 0)]
      have : irfft (w / 2) (fun _ => 0) i = 0 := by unfold irfft; simp
      rw [this, add_zero]
    unfold rawWavelet
    rw [hrow]
    suffices key : ∀ x : Fin (2 * (w / 2)) → ℝ, waveletDominant ψ g.nlon (fun i => c j * x i) i = waveletDominant ψ g.nlon x i from
      key fun i => irfft (w / 2) (restrictBand 0 20 (dft (f j))) i
    intro x
    have hx : ∀ t, tripled (fun i => c j * x i) t = c j * tripled x t := by
      intro t; unfold tripled; split_ifs <;> simp
    have hcw : ∀ a, ‖cwtEntry (fun i => c j * x i) (waveletScale a) (ψ.samples (waveletScale a)).2 (2 * (w / 2) + i.val)‖ ^ 2 =
        |c j| ^ 2 * ‖cwtEntry x (waveletScale a) (ψ.samples (waveletScale a)).2 (2 * (w / 2) + i.val)‖ ^ 2 := by
      intro a
      have h1 : ∀ {m : ℕ} (psi : Fin m → ℂ) (t : ℤ), convolveFull (tripled fun i => c j * x i) psi t = c j * convolveFull (tripled x) psi t := by
        intro m psi t
        unfold convolveFull
        rw [mul_sum]
        refine sum_congr rfl fun k _ => ?_
        rw [hx]; push_cast; ring
      unfold cwtEntry
      rw [h1, h1, ← mul_sub, mul_left_comm, norm_mul, mul_pow, Complex.norm_real, Real.norm_eq_abs]
    unfold waveletDominant
    rw [argmax_congr (q := fun a => ‖cwtEntry x (waveletScale a) (ψ.samples (waveletScale a)).2 (2 * (w / 2) + i.val)‖ ^ 2) (fun a b => ?_)]
    rw [hcw, hcw]
    have : 0 < |c j| ^ 2 := by have := hc j; positivity
    exact mul_lt_mul_iff_right₀ this
  rw [hraw]

theorem wavelet_const (hψ : ∀ a < 120, 2 ≤ (ψ.samples (waveletScale a)).1) {n : ℕ}
    (hψ' : ∀ a < 120, (ψ.samples (waveletScale a)).1 ≤ 2 * n) (nlon : ℕ) (c : ℝ) (i : Fin n) :
    waveletDominant ψ nlon (fun _ : Fin n => c) i = ψ.frequency / 3 * nlon := by
  have key : ∀ a < 120, cwtEntry (fun _ : Fin n => c) (waveletScale a) (ψ.samples (waveletScale a)).2 (n + i.val) = 0 := by
    intro a ha
    rw [cwt_middle _ _ _ (hψ a ha) (hψ' a ha) i.isLt]
    have hc : ∀ t : ℤ, wrapExt (fun _ : Fin n => c) t = c := fun t => by
      obtain ⟨_, h⟩ := wrapExt_mem i.pos (fun _ : Fin n => c) t
      exact h
    unfold convolveFull
    simp only [hc, sub_self, mul_zero]
  have harg : ∀ N : ℕ, ∀ p : ℕ → ℝ, (∀ a < N, p a = 0) → argmax p N = 0 := by
    intro N
    induction N with
    | zero => intro _ _; rfl
    | succ N ih =>
      intro p hp
      unfold argmax
      rw [ih p fun a ha => hp a (by omega), hp 0 (by omega), hp N (by omega), if_neg (lt_irrefl _)]
  unfold waveletDominant
  rw [harg 120 _ fun a ha => by rw [key a ha]; simp]
  unfold waveletScale
  norm_num

/-- C94 is false for the wavenumbers that occur: the field is truncated after wavenumber 20, but where there are no waves the result is
the wavenumber of the smallest scale, a third of the number of longitudes for central frequency 1. -/
theorem C94_no_waves_refuted (hw : 2 ≤ w) (hψ : ∀ a < 120, 2 ≤ (ψ.samples (waveletScale a)).1)
    (hψ' : ∀ a < 120, (ψ.samples (waveletScale a)).1 ≤ 2 * (2 * (w / 2))) (c : Fin h → ℝ) :
    g.dominantWavelet gw ψ (fun j (_ : Fin w) => c j) none = .ok (.d2 h (2 * (w / 2)) fun _ _ => ψ.frequency / 3 * g.nlon) := by
  rw [dominantWavelet_eq hw hψ]
  refine congrArg Except.ok (congrArg (Arr.d2 h (2 * (w / 2))) (funext fun j => funext fun i => ?_))
  have hd : ∀ k ≤ w / 2, dft (fun _ : Fin w => c j) k = if k = 0 then ((w * c j : ℝ) : ℂ) else 0 := by
    intro k hk
    rw [dft_eq, ← mul_sum, Fin.sum_univ_eq_sum_range (fun i : ℕ => ru w (-(k * i : ℤ)))]
    have := sum_ru (N := w) (by omega) (-k)
    simp only [neg_mul] at this
    rw [this]
    by_cases h0 : k = 0
    · subst h0; simp; ring
    · rw [if_neg h0, if_neg, mul_zero]
      intro hdv
      have := Int.eq_zero_of_abs_lt_dvd hdv (by rw [abs_lt]; omega)
      omega
  have hrow : (fun i : Fin (2 * (w / 2)) => irfft (w / 2) (restrictBand 0 20 (dft fun _ : Fin w => c j)) i) =
      fun _ => w * c j / (2 * (w / 2) : ℕ) := by
    funext i
    have e : ∀ k ≤ w / 2, restrictBand 0 20 (dft fun _ : Fin w => c j) k = if k = 0 then ((w * c j : ℝ) : ℂ) else 0 := by
      intro k hk
      unfold restrictBand
      rw [hd k hk]
      by_cases h0 : k = 0
      · subst h0; norm_num
      · simp [h0]
    unfold irfft
    rw [e 0 (by omega), e (w / 2) le_rfl, if_pos rfl, if_neg (by omega), sum_eq_zero fun k hk => ?_]
    · simp
    · have := mem_Ico.mp hk
      rw [e k (by omega), if_neg (by omega)]
      simp
  refine (congrArg (fun x => waveletDominant ψ g.nlon x i.val) hrow).trans ?_
  exact wavelet_const hψ hψ' g.nlon _ i

/-- Non-vacuity of C94: a wavelet with two samples at every scale, constant field on 180 longitudes. -/
example (g : Grid ℝ) (hg : g.nlon = 180) : g.dominantWavelet boxcar ⟨fun _ => ⟨2, fun _ => 1⟩, 1⟩ (fun (_ : Fin 3) (_ : Fin 180) => 7) none =
    .ok (.d2 3 180 fun _ _ => 60) := by
  rw [C94_no_waves_refuted (by norm_num) (fun a _ => le_rfl) (fun a _ => by norm_num) (fun _ => 7), hg]
  norm_num

end Barotropic
