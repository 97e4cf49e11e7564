import Verif.Model.Dominant
import Verif.Props.Fourier
import Verif.Props.Filter
import Verif.Props.Hann
import Verif.Props.Falwa

/-!
# C92, C93: dominant wavenumber with smoothing, phase-filtered wave activity
-/

namespace Barotropic
open Finset

variable {h w : ℕ} {W : Type*} {gw : W → (n : ℕ) → Except PyErr (Fin n → ℝ)} {g : Grid ℝ}

/-! ## C92 dominant wavenumber -/

theorem dominant_none {f : Fin h → Fin w → ℝ} {kmin kmax : ℕ} {k : Fin h → ℝ} (hk : dominantWavenumberFourier f kmin kmax = .ok k) :
    g.dominantWavenumber gw f none kmin kmax = .ok (.d1 h k) := by
  unfold Grid.dominantWavenumber; rw [hk]

theorem dominant_some {f : Fin h → Fin w → ℝ} {kmin kmax : ℕ} {k : Fin h → ℝ} (hk : dominantWavenumberFourier f kmin kmax = .ok k)
    (win : WindowArg W ℝ) : g.dominantWavenumber gw f (some win) kmin kmax = g.filterMeridional gw (.d1 h k) win := by
  unfold Grid.dominantWavenumber; rw [hk]

/-- C92: a profile is returned iff the range contains a resolved wavenumber and, with smoothing, the field has the latitudes of the
grid and the window is not empty; every profile has one value per row of the field. Wavenumber errors come first. -/
theorem C92_errors (f : Fin h → Fin w → ℝ) (smooth : Option (WindowArg W ℝ)) (kmin kmax : ℕ) :
    ((∃ r, g.dominantWavenumber gw f smooth kmin kmax = .ok r) ↔
      (0 < w ∧ kmin ≤ kmax ∧ kmin ≤ w / 2) ∧
        ∀ win, smooth = some win → h = g.nlat ∧ ∃ m x, g.resolveWindow gw win = .ok ⟨m, x⟩ ∧ 0 < m) ∧
    (∀ r, g.dominantWavenumber gw f smooth kmin kmax = .ok r → ∃ k, r = .d1 h k) ∧
    (¬ (0 < w ∧ kmin ≤ kmax ∧ kmin ≤ w / 2) → g.dominantWavenumber gw f smooth kmin kmax = .error .valueError) := by
  obtain ⟨h1, h2⟩ := C62_errors f kmin kmax
  by_cases hc : 0 < w ∧ kmin ≤ kmax ∧ kmin ≤ w / 2
  · obtain ⟨k, hk⟩ := h1.mpr hc
    refine ⟨⟨fun ⟨r, hr⟩ => ⟨hc, fun win hs => ?_⟩, fun ⟨_, hs⟩ => ?_⟩, fun r hr => ?_, fun hn => absurd hc hn⟩
    · subst hs
      rw [dominant_some hk] at hr
      unfold Grid.filterMeridional at hr
      rcases hw : g.resolveWindow gw win with e | ⟨m, x⟩
      · rw [hw] at hr; cases hr
      · rw [hw] at hr
        dsimp only at hr
        by_cases hh : h ≠ g.nlat
        · rw [if_pos hh] at hr; cases hr
        · rw [if_neg hh] at hr
          by_cases hm : m = 0
          · rw [if_pos hm] at hr; cases hr
          · exact ⟨not_not.mp hh, m, x, rfl, Nat.pos_of_ne_zero hm⟩
    · cases smooth with
      | none => exact ⟨_, dominant_none hk⟩
      | some win =>
        obtain ⟨hh, m, x, hw, hm⟩ := hs win rfl
        rw [dominant_some hk]
        unfold Grid.filterMeridional
        rw [hw]
        dsimp only
        rw [if_neg (not_not.mpr hh), if_neg hm.ne']
        exact ⟨_, rfl⟩
    · cases smooth with
      | none => rw [dominant_none hk] at hr; cases hr; exact ⟨_, rfl⟩
      | some win =>
        rw [dominant_some hk] at hr
        unfold Grid.filterMeridional at hr
        rcases hw : g.resolveWindow gw win with e | ⟨m, x⟩
        · rw [hw] at hr; cases hr
        · rw [hw] at hr
          dsimp only at hr
          split_ifs at hr
          cases hr
          exact ⟨_, rfl⟩
  · have he : g.dominantWavenumber gw f smooth kmin kmax = .error .valueError := by
      unfold Grid.dominantWavenumber; rw [h2 hc]
    refine ⟨⟨fun ⟨r, hr⟩ => ?_, fun hh => absurd hh.1 hc⟩, fun r hr => ?_, fun _ => he⟩
    · rw [he] at hr; cases hr
    · rw [he] at hr; cases hr

/-- C92: smoothing with non-negative weights with sum 1 keeps the values between those without smoothing, in particular between 0 and
the length of the range. -/
theorem C92_bounds (f : Fin g.nlat → Fin w → ℝ) (win : WindowArg W ℝ) {m : ℕ} {x : Fin m → ℝ} (hw : g.resolveWindow gw win = .ok ⟨m, x⟩)
    (hs : ∑ k, x k = 1) (hp : ∀ k, 0 ≤ x k) (kmin kmax : ℕ) (k r : Fin g.nlat → ℝ)
    (hk : g.dominantWavenumber gw f none kmin kmax = .ok (.d1 g.nlat k))
    (hr : g.dominantWavenumber gw f (some win) kmin kmax = .ok (.d1 g.nlat r)) :
    (∀ lo hi, (∀ j, lo ≤ k j ∧ k j ≤ hi) → ∀ j, lo ≤ r j ∧ r j ≤ hi) ∧
    ∀ j, 0 ≤ r j ∧ r j + kmin ≤ kmax ∧ r j + kmin ≤ (w / 2 : ℕ) := by
  rcases hd : dominantWavenumberFourier f kmin kmax with e | k'
  · unfold Grid.dominantWavenumber at hk; rw [hd] at hk; cases hk
  rw [dominant_none hd] at hk
  cases hk
  rw [dominant_some hd] at hr
  have hb := fun lo hi => (C68_bounds (g := g) (gw := gw) hw hs hp lo hi).1 k r hr
  refine ⟨hb, fun j => ?_⟩
  have h3 : ∀ j, 0 ≤ k j ∧ k j ≤ min (kmax : ℝ) (w / 2 : ℕ) - kmin := by
    intro j
    obtain ⟨l, e, h1, h2, h3, -⟩ := C62_maximum_partial f kmin kmax k hd j
    have e' : k j = l - kmin := by rw [← e]; ring
    have a1 : (kmin : ℝ) ≤ l := by exact_mod_cast h1
    have a2 : (l : ℝ) ≤ kmax := by exact_mod_cast h2
    have a3 : (l : ℝ) ≤ (w / 2 : ℕ) := by exact_mod_cast h3
    rw [e']
    exact ⟨by linarith, by linarith [le_min a2 a3]⟩
  obtain ⟨b1, b2⟩ := hb _ _ h3 j
  have := min_le_left (kmax : ℝ) (w / 2 : ℕ)
  have := min_le_right (kmax : ℝ) (w / 2 : ℕ)
  exact ⟨b1, by linarith, by linarith⟩

theorem argmax_congr {p q : ℕ → ℝ} (hpq : ∀ a b, p a < p b ↔ q a < q b) (n : ℕ) : argmax p n = argmax q n := by
  induction n with
  | zero => rfl
  | succ n ih =>
    unfold argmax
    rw [ih]
    exact if_congr (hpq _ _) rfl rfl

/-- C92: rotating the field (even by a different angle at each latitude) and multiplying it with numbers different from 0 (even
different numbers at each latitude) changes nothing, whatever the smoothing. -/
theorem C92_invariant (f f' : Fin h → Fin w → ℝ) (hf : ∀ j, ∃ c : ℝ, ∃ d : ℕ, c ≠ 0 ∧ ∀ i, f' j i = c * rotated d (f j) i)
    (smooth : Option (WindowArg W ℝ)) (kmin kmax : ℕ) :
    g.dominantWavenumber gw f' smooth kmin kmax = g.dominantWavenumber gw f smooth kmin kmax := by
  have key : dominantWavenumberFourier f' kmin kmax = dominantWavenumberFourier f kmin kmax := by
    unfold dominantWavenumberFourier
    dsimp only
    split_ifs
    · rfl
    · rfl
    congr 1
    funext j
    obtain ⟨c, d, hc, e⟩ := hf j
    have hp : ∀ k, power (f' j) k = |c| ^ 2 * power (f j) k := by
      intro k
      unfold power
      rw [show f' j = fun i => c * rotRow d (f j) i from funext e, dft_smul, dft_rot, norm_mul, norm_mul, norm_ru, one_mul,
        Complex.norm_real, Real.norm_eq_abs, mul_pow]
    have hc2 : 0 < |c| ^ 2 := by positivity
    rw [argmax_congr (fun a b => ?_)]
    rw [hp, hp]
    exact mul_lt_mul_iff_right₀ hc2
  unfold Grid.dominantWavenumber
  rw [key]

/-- C92, what holds for waves: if every row is a wave with the same wavenumber `k` then the profile is `k - kmin`, smoothed with any
window with sum 1. Missing: the value should be `k`, see `C92_range_refuted`. -/
theorem C92_wave_partial {k : ℕ} (hk0 : 0 < k) (hk : 2 * k < w) (A φ : Fin g.nlat → ℝ) (hA : ∀ j, A j ≠ 0) (kmin kmax : ℕ) (h1 : kmin ≤ k)
    (h2 : k ≤ kmax) (win : WindowArg W ℝ) {m : ℕ} {x : Fin m → ℝ} (hw : g.resolveWindow gw win = .ok ⟨m, x⟩) (hs : ∑ k, x k = 1) :
    g.dominantWavenumber gw (zonalWave w k A φ) (some win) kmin kmax = .ok (.d1 g.nlat fun _ => (k : ℝ) - kmin) := by
  obtain ⟨r, hr, h⟩ := C62_wave_refuted hk0 hk A φ kmin kmax h1 h2
  rw [dominant_some hr, show r = fun _ => (k : ℝ) - kmin from funext fun j => (h j (hA j)).1]
  exact (C68_const (g := g) (gw := gw) hw hs _).1

/-- C92 is false: the returned wavenumbers need not lie in the requested range. With range `(kmin, kmax)` and a wave of wavenumber
`kmin > 0` at all latitudes, the result is 0. -/
theorem C92_range_refuted {kmin : ℕ} (hk0 : 0 < kmin) (hk : 2 * kmin < w) (A φ : Fin g.nlat → ℝ) (hA : ∀ j, A j ≠ 0) (kmax : ℕ)
    (h2 : kmin ≤ kmax) (win : WindowArg W ℝ) {m : ℕ} {x : Fin m → ℝ} (hw : g.resolveWindow gw win = .ok ⟨m, x⟩) (hs : ∑ k, x k = 1) :
    g.dominantWavenumber gw (zonalWave w kmin A φ) (some win) kmin kmax = .ok (.d1 g.nlat fun _ => 0) := by
  rw [C92_wave_partial hk0 hk A φ hA kmin kmax le_rfl h2 win hw hs, sub_self]

/-- C92: the default smoothing is possible on every grid: a moving average over an odd number `m` of latitudes. -/
theorem C92_default (hd : 0 < g.dlon) : ∃ m : ℕ, Odd m ∧ (∀ r : ℤ, IsRounded (10 / g.dlon) r → (Odd r → m = r) ∧ (Even r → m = r + 1)) ∧
    g.resolveWindow boxcar (.named () 10) = .ok ⟨m, fun _ => 1 / m⟩ := by
  obtain ⟨n, ho, h1, -⟩ := C67_window boxcar g hd () 10 (by norm_num)
  obtain ⟨x, hx, hx'⟩ := h1 _ rfl
  have hn : (n : ℝ) ≠ 0 := by exact_mod_cast ho.pos.ne'
  have e : x = fun _ => 1 / (n : ℝ) := by
    funext i
    rcases hx' i with h | h
    · simp only [sum_const, card_univ, Fintype.card_fin, nsmul_eq_mul, mul_one] at h
      field_simp; linarith
    · simp only [sum_const, card_univ, Fintype.card_fin, nsmul_eq_mul, mul_one] at h
      exact absurd h hn
  subst e
  exact ⟨n, ho, (C67_length boxcar g _ _ _ _ hx).2.2, hx⟩

/-- Non-vacuity of C92: default arguments on the 30-degree grid, wave 5 everywhere. -/
example : grid30.dominantWavenumber boxcar (zonalWave (h := grid30.nlat) grid30.nlon 5 (fun _ => 1) (fun _ => 0)) (some (.named () 10)) 1 20 =
    .ok (.d1 grid30.nlat fun _ => 4) := by
  obtain ⟨m, ho, -, hw⟩ := C92_default (g := grid30) (by unfold Grid.dlon grid30; norm_num)
  have hm : (m : ℝ) ≠ 0 := by exact_mod_cast ho.pos.ne'
  rw [C92_wave_partial (by norm_num) (by rw [grid30_nlon]; norm_num) (fun _ => 1) (fun _ => 0) (fun _ => one_ne_zero) 1 20 (by norm_num)
    (by norm_num) _ hw (by simp [hm])]
  norm_num

/-! ## C93 phase filter -/

theorem filterByWavenumberO_ok (hh : 0 < h) (hw : 2 ≤ w) (f : Fin h → Fin w → Option ℝ) (a : WavenumberArg h w) (k : Fin h → Fin w → ℝ)
    (ha : a.expand = .ok k) :
    filterByWavenumberO f a = .ok fun j i => convolveO (wrapExtO (f j)) (hannWeights (hannWidth w (k j i))) i := by
  unfold filterByWavenumberO
  rw [ha]
  dsimp only
  have hmem : ∀ j i, hannWidth w (k j i) ∈ (List.finRange h).flatMap fun j => (List.finRange w).map fun i => hannWidth w (k j i) := by
    intro j i
    simp only [List.mem_flatMap, List.mem_map, List.mem_finRange, true_and]
    exact ⟨j, i, rfl⟩
  generalize ((List.finRange h).flatMap fun j => (List.finRange w).map fun i => hannWidth w (k j i)) = used at hmem
  have hlen : ∀ j i, (hannWidth w (k j i) - 1) / 2 < (used.foldl max 0 + 1) / 2 := by
    intro j i
    have h1 := (foldl_max_le used 0).2 _ (hmem j i)
    obtain ⟨n, hn, -⟩ := C63_windows hw (k j i)
    rw [hn] at h1 ⊢
    omega
  rw [if_neg, if_pos]
  · congr 1
    funext j i
    obtain ⟨n, hn, -⟩ := C63_windows hw (k j i)
    have h2 : (hannWidth w (k j i) - 1) / 2 = n := by omega
    have hl := hlen j i
    have hm := hmem j i
    rw [h2] at hl ⊢
    rw [hn] at hm
    rw [List.getD_eq_getElem?_getD, List.getElem?_map, List.getElem?_range hl, Option.map_some, Option.getD_some, if_pos hm, hn]
  · intro j i
    rw [List.length_map, List.length_range]
    exact hlen j i
  · intro hnil
    have := hmem ⟨0, hh⟩ ⟨0, by omega⟩
    rw [hnil] at this
    cases this

theorem wrapExtO_some {n : ℕ} (hn : 0 < n) {f : Fin n → Option ℝ} {x : Fin n → ℝ} (hf : ∀ i, f i = some (x i)) (t : ℤ) :
    wrapExtO f t = some (wrapExt x t) := by
  have hlt : (t % n).toNat < n := by
    have := Int.emod_lt_of_pos t (show (0 : ℤ) < n by omega)
    omega
  unfold wrapExtO wrapExt
  rw [dif_pos hlt, dif_pos hlt, hf]

theorem convolveO_some {n m : ℕ} (hn : 0 < n) {f : Fin n → Option ℝ} {x : Fin n → ℝ} (hf : ∀ i, f i = some (x i)) (c : Fin m → ℝ) (i : ℕ) :
    convolveO (wrapExtO f) c i = some (convolve (wrapExt x) c i) := by
  unfold convolveO
  rw [if_pos fun k => by rw [wrapExtO_some hn hf]; rfl]
  congr 2
  funext t
  rw [wrapExtO_some hn hf]; rfl

/-- C93: rows without NaN are filtered as fields without NaN are, whatever the other rows; a NaN inside of the window (with its
ends) of a gridpoint gives NaN. -/
theorem C93_rows (hh : 0 < h) (hw : 2 ≤ w) (F : Fin h → Fin w → Option ℝ) (p : Fin h → ℝ) :
    ∃ Z, filterByWavenumberO F (.profile h p) = .ok Z ∧
      (∀ j (x : Fin w → ℝ), (∀ i, F j i = some (x i)) → ∀ X : Fin h → Fin w → ℝ, X j = x →
        ∃ out, filterByWavenumber X (.profile h p) = .ok (.d2 h w out) ∧ ∀ i, Z j i = some (out j i)) ∧
      (∀ j i, ∀ n : ℕ, n ≤ w / min (max (p j) 1) (w / 2 : ℝ) → w / min (max (p j) 1) (w / 2 : ℝ) < n + 1 →
        ((∃ s : ℤ, |s| ≤ n ∧ wrapExtO (F j) (i.val + s) = none) ↔ Z j i = none)) := by
  have hk : (WavenumberArg.profile (w := w) h p).expand = .ok fun j (_ : Fin w) => p j := by simp [WavenumberArg.expand]
  refine ⟨_, filterByWavenumberO_ok hh hw F _ _ hk, fun j x hx X hX => ?_, fun j i n hn1 hn2 => ?_⟩
  · refine ⟨_, filterByWavenumber_ok hh hw X _ _ hk, fun i => ?_⟩
    rw [hX]
    exact convolveO_some i.pos hx _ _
  · obtain ⟨n', e, h2, h3, h4, h5⟩ := C63_windows hw (p j)
    have hnn : n' = n := by
      change (n' : ℝ) ≤ w / min (max (p j) 1) (w / 2 : ℝ) at h4
      change w / min (max (p j) 1) (w / 2 : ℝ) < (n' : ℝ) + 1 at h5
      have b1 : n' < n + 1 := by exact_mod_cast h4.trans_lt hn2
      have b2 : n < n' + 1 := by exact_mod_cast hn1.trans_lt h5
      omega
    subst hnn
    change _ ↔ convolveO (wrapExtO (F j)) (hannWeights (hannWidth w (p j))) i = none
    rw [e]
    unfold convolveO
    have hd : (2 * n' + 1) / 2 = n' := by omega
    rw [hd]
    constructor
    · rintro ⟨s, hs, hn⟩
      rw [abs_le] at hs
      refine if_neg fun hall => ?_
      have := hall ⟨(n' - s).toNat, by omega⟩
      rw [show ((i.val : ℤ) + n' - ((n' - s).toNat : ℕ)) = i.val + s by omega, hn] at this
      cases this
    · intro hz
      by_contra hno
      push Not at hno
      rw [if_pos] at hz
      · cases hz
      · intro k
        have hk := k.isLt
        have := hno (n' - k.val) (by rw [abs_le]; omega)
        rw [show (i.val : ℤ) + n' - k.val = i.val + (n' - k.val) by ring]
        exact Option.isSome_iff_ne_none.mpr this

theorem dominantProfile_ok (hd : 0 < g.dlon) (hw : 2 ≤ g.nlon) (v : Fin g.nlat → Fin g.nlon → ℝ) :
    ∃ k : Fin g.nlat → ℝ, g.dominantProfile v = .ok ⟨g.nlat, k⟩ := by
  obtain ⟨m, ho, -, hwin⟩ := C92_default hd
  obtain ⟨⟨-, h1⟩, h2, -⟩ := C92_errors (g := g) (gw := boxcar) v (some (.named () 10)) 1 20
  obtain ⟨r, hr⟩ := h1 ⟨⟨by omega, by omega, by omega⟩, fun win hs => by cases hs; exact ⟨rfl, m, _, hwin, ho.pos⟩⟩
  obtain ⟨k, rfl⟩ := h2 r hr
  refine ⟨k, ?_⟩
  unfold Grid.dominantProfile
  rw [hr]

/-- C93: the default arguments. In each row take the first of the strongest resolved wavenumbers between 1 and 20, minus 1 (the
defect of `C62_wave_refuted`); away from the poles the profile is the mean of this over the `m` latitudes that make up 10 degrees,
with `m` odd. -/
theorem C93_profile (hd : 0 < g.dlon) (hw : 2 ≤ g.nlon) (v : Fin g.nlat → Fin g.nlon → ℝ) :
    ∃ (k : Fin g.nlat → ℝ) (d : Fin g.nlat → ℕ) (p : ℕ), g.dominantProfile v = .ok ⟨g.nlat, k⟩ ∧
      (∀ r : ℤ, IsRounded (10 / g.dlon) r → (Odd r → (2 * p + 1 : ℕ) = r) ∧ (Even r → (2 * p + 1 : ℕ) = r + 1)) ∧
      (∀ j, 1 ≤ d j ∧ d j ≤ 20 ∧ d j ≤ g.nlon / 2 ∧ (∀ l, 1 ≤ l → l ≤ 20 → l ≤ g.nlon / 2 → ‖dft (v j) l‖ ≤ ‖dft (v j) (d j)‖) ∧
        ∀ l, 1 ≤ l → l < d j → ‖dft (v j) l‖ < ‖dft (v j) (d j)‖) ∧
      ∀ (j : ℕ) (hj : j + 2 * p < g.nlat),
        k ⟨j + p, by omega⟩ = (∑ s : Fin (2 * p + 1), ((d ⟨j + s, by omega⟩ : ℝ) - 1)) / (2 * p + 1 : ℕ) := by
  obtain ⟨m, ho, hm, hwin⟩ := C92_default hd
  obtain ⟨p, rfl⟩ := ho
  obtain ⟨raw, hraw⟩ := (C62_errors v 1 20).1.mpr ⟨by omega, by omega, by omega⟩
  choose d hd1 hd2 using C62_maximum_partial v 1 20 raw hraw
  have hk : g.dominantProfile v = .ok ⟨g.nlat, fun j => convolve (reflectExt raw) (fun _ : Fin (2 * p + 1) => 1 / ((2 * p + 1 : ℕ) : ℝ)) j⟩ := by
    unfold Grid.dominantProfile
    rw [dominant_some hraw, merid_d1 hwin (by omega)]
  refine ⟨_, d, p, hk, hm, hd2, fun j hj => ?_⟩
  unfold convolve
  rw [← mul_sum, one_div, inv_mul_eq_div]
  congr 1
  rw [← Equiv.sum_comp Fin.revPerm]
  refine sum_congr rfl fun s _ => ?_
  have hs := s.isLt
  have e : ((j + p : ℕ) : ℤ) + ((2 * p + 1) / 2 : ℕ) - ((Fin.revPerm s).val : ℕ) = (j + s.val : ℕ) := by
    rw [Fin.revPerm_apply, Fin.val_rev]
    omega
  simp only [e]
  have hlt : j + s.val < g.nlat := by omega
  have e2 : (((j + s.val : ℕ) : ℤ) % (2 * g.nlat : ℕ)).toNat = j + s.val := by
    rw [Int.emod_eq_of_lt (by omega) (by omega)]
    omega
  unfold reflectExt
  simp only [e2, dif_pos hlt]
  have := hd1 ⟨j + s.val, hlt⟩
  push_cast at this
  linarith

/-- C93: filtered wave activity exists for every PV that is not constant and every wind; it is not negative, bounded by the wave
activity at the same latitude, and its zonal mean is FAWA. -/
theorem C93_mean (hg : g.Valid) (hs : g.resolution * g.nlon = 360) (pv v : Fin g.nlat → Fin g.nlon → ℝ)
    (hpv : ∃ j i j' i', pv j i ≠ pv j' i') :
    ∃ F Z : Fin g.nlat → Fin g.nlon → ℝ, g.falwa pv = .ok (fun j i => some (F j i)) ∧
      g.falwaFiltered pv v = .ok (fun j i => some (Z j i)) ∧
      g.stateFawa pv = .ok (fun j => some ((∑ i, Z j i) / g.nlon)) ∧
      (∀ j i, 0 ≤ Z j i) ∧
      ∀ j hi, (∀ i, F j i ≤ hi) → ∀ i, Z j i ≤ hi := by
  have hlon := hg.nlon_ge
  have hlat := hg.nlat_ge
  have hw : 2 ≤ g.nlon := by omega
  obtain ⟨rows, F, -, -, hF, -, hst, -⟩ := C26_fawa_partial g hg "sptrapz" (.inr rfl) pv .none trivial (.inr ⟨hpv, hs⟩)
  obtain ⟨_, F', -, hF', -, hnn, -⟩ := C24_nonneg_partial g hg "sptrapz" (.inr rfl) pv .none trivial
  have hFF : F' = fun j i => some (F j i) := by rw [hF] at hF'; cases hF'; rfl
  subst hFF
  obtain ⟨k, hk⟩ := dominantProfile_ok hg.res_pos hw v
  obtain ⟨out, ho⟩ := (C63_errors F).2.1 (fun j => 2 * k j) (by omega) hw
  refine ⟨F, out, hF, ?_, ?_, fun j i => ?_, fun j hi hb i => ?_⟩
  · unfold Grid.falwaFiltered
    rw [hk, hF]
    obtain ⟨Z, hZ, hrow, -⟩ := C93_rows (h := g.nlat) (by omega) hw (fun j i => some (F j i)) (fun j => 2 * k j)
    refine hZ.trans ?_
    congr 1
    funext j i
    obtain ⟨out', ho', e⟩ := hrow j (F j) (fun _ => rfl) F rfl
    rw [ho] at ho'
    cases ho'
    exact e i
  · rw [hst rfl rfl]
    congr 1
    funext j
    rw [C63_zonal_mean hw _ ho j]
  · obtain ⟨hi, hhi⟩ : ∃ hi, ∀ i, F j i ≤ hi := ⟨∑ i, F j i, fun i => single_le_sum (f := F j) (fun i _ => hnn j i _ rfl) (mem_univ i)⟩
    exact (C63_bounds hw ho j 0 hi (fun i => ⟨hnn j i _ rfl, hhi i⟩) i).1
  · exact (C63_bounds hw ho j 0 hi (fun i => ⟨hnn j i _ rfl, hb i⟩) i).2

theorem wrapExtO_rot {n : ℕ} (hn : 0 < n) (d : ℕ) (f : Fin n → Option ℝ) (t : ℤ) : wrapExtO (rotated d f) t = wrapExtO f (t + d) := by
  have hlt : ∀ t : ℤ, (t % n).toNat < n := fun t => by
    have := Int.emod_lt_of_pos t (show (0 : ℤ) < n by omega)
    omega
  unfold wrapExtO rotated
  rw [dif_pos (hlt _), dif_pos (hlt _)]
  congr 2
  have h1 := Int.emod_nonneg t (show (n : ℤ) ≠ 0 by omega)
  have h2 := Int.emod_nonneg (t + d) (show (n : ℤ) ≠ 0 by omega)
  zify
  rw [Int.toNat_of_nonneg h1, Int.toNat_of_nonneg h2, Int.emod_add_emod]

theorem wrapExtO_emod {n : ℕ} (f : Fin n → Option ℝ) (t : ℤ) : wrapExtO f t = wrapExtO f (t % n) := by
  unfold wrapExtO
  simp only [Int.emod_emod_of_dvd _ (dvd_refl _)]

theorem convolveO_congr {m : ℕ} {e e' : ℤ → Option ℝ} {i i' : ℕ} (he : ∀ k : ℤ, e (i + k) = e' (i' + k)) (c : Fin m → ℝ) :
    convolveO e c i = convolveO e' c i' := by
  have hk : ∀ k : Fin m, e (i + (m / 2 : ℕ) - k.val) = e' (i' + (m / 2 : ℕ) - k.val) := fun k => by
    rw [add_sub_assoc, add_sub_assoc]; exact he _
  unfold convolveO convolve
  simp only [hk]

/-- C93: the phase filter commutes with rotation, also for fields with NaN. -/
theorem filterO_rotation (hh : 0 < h) (hw : 2 ≤ w) (d : ℕ) (F : Fin h → Fin w → Option ℝ) (p : Fin h → ℝ) :
    filterByWavenumberO (fun j => rotated d (F j)) (.profile h p) =
      (filterByWavenumberO F (.profile h p)).map fun Z j => rotated d (Z j) := by
  have hk : (WavenumberArg.profile (w := w) h p).expand = .ok fun j (_ : Fin w) => p j := by simp [WavenumberArg.expand]
  rw [filterByWavenumberO_ok hh hw _ _ _ hk, filterByWavenumberO_ok hh hw _ _ _ hk]
  refine congrArg Except.ok (funext fun j => funext fun i => ?_)
  refine convolveO_congr (fun k => ?_) _
  rw [wrapExtO_rot i.pos, wrapExtO_emod, wrapExtO_emod _ ((((i.val + d) % w : ℕ) : ℤ) + k)]
  congr 1
  push_cast
  rw [Int.emod_add_emod]
  congr 1
  ring

/-- C93: rotating PV and wind rotates the filtered wave activity (also NaN and errors). -/
theorem C93_rotation (hg : g.Valid) (d : ℕ) (pv v : Fin g.nlat → Fin g.nlon → ℝ) :
    g.falwaFiltered (fun j => rotated d (pv j)) (fun j => rotated d (v j)) = (g.falwaFiltered pv v).map fun Z j => rotated d (Z j) := by
  have hlon := hg.nlon_ge
  have hlat := hg.nlat_ge
  have hw : 2 ≤ g.nlon := by omega
  obtain ⟨k, hk⟩ := dominantProfile_ok hg.res_pos hw v
  have hk' : g.dominantProfile (fun j => rotated d (v j)) = .ok ⟨g.nlat, k⟩ := by
    rw [← hk]
    unfold Grid.dominantProfile
    rw [C92_invariant v _ (fun j => ⟨1, d, one_ne_zero, fun i => (one_mul _).symm⟩)]
  have hF := (C27_rotation g pv (rotEquiv g.nlon d) .none "sptrapz").2.1
  unfold Grid.falwaFiltered
  rw [hk, hk']
  dsimp only
  rw [show (fun j => rotated d (pv j)) = fun j i => pv j ((rotEquiv g.nlon d) i) from rfl, hF]
  cases g.falwa pv with
  | error e => rfl
  | ok F => exact filterO_rotation (by omega) hw d F _

theorem hann_kill {n : ℕ} (hn : 2 ≤ n) (θ : ℝ) :
    ∑ m : Fin (2 * n + 1), hannWeights (2 * n + 1) m * Real.cos (θ - 2 * Real.pi * m / n) = 0 := by
  have hn' : (n : ℝ) ≠ 0 := by exact_mod_cast (by omega : n ≠ 0)
  have hnc : (n : ℂ) ≠ 0 := by exact_mod_cast (by omega : n ≠ 0)
  unfold hannWeights
  rw [hann_sum (by omega)]
  rw [Fin.sum_univ_eq_sum_range (fun m : ℕ => hann (2 * n + 1) m / (n : ℝ) * Real.cos (θ - 2 * Real.pi * m / n)), sum_range_succ]
  have hlast : hann (2 * n + 1) (2 * n) = 0 := by
    unfold hann
    have : (2 : ℝ) * Real.pi * (2 * n : ℕ) / (2 * n + 1 - 1 : ℕ) = 2 * Real.pi := by
      rw [Nat.add_sub_cancel]; push_cast; field_simp
    rw [this, Real.cos_two_pi]; norm_num
  rw [hlast, zero_div, zero_mul, add_zero]
  have key : ∀ m : ℕ, hann (2 * n + 1) m / (n : ℝ) * Real.cos (θ - 2 * Real.pi * m / n) =
      (Complex.exp (θ * Complex.I) / n * (1 / 2 * ru (2 * n) (-2 * m) - 1 / 4 * ru (2 * n) (-1 * m) - 1 / 4 * ru (2 * n) (-3 * m))).re := by
    intro m
    have e1 : ru (2 * n) (-2 * m) = ru (2 * n) (-1 * m) * ru (2 * n) (-1 * m) := by rw [← ru_add]; congr 1; ring
    have e2 : ru (2 * n) (-1 * m) = ru (2 * n) m * ru (2 * n) (-2 * m) := by rw [← ru_add]; congr 1; ring
    have e3 : ru (2 * n) (-3 * m) = ru (2 * n) (-m) * ru (2 * n) (-2 * m) := by rw [← ru_add]; congr 1; ring
    have e4 : (1 / 2 * ru (2 * n) (-2 * m) - 1 / 4 * ru (2 * n) (-1 * m) - 1 / 4 * ru (2 * n) (-3 * m)) =
        (hann (2 * n + 1) m : ℂ) * ru (2 * n) (-2 * m) := by
      rw [e2, e3]
      unfold hann
      rw [Nat.add_sub_cancel]
      push_cast
      rw [Complex.cos]
      have a1 : ru (2 * n) m = Complex.exp (2 * Real.pi * m / (2 * n) * Complex.I) := by
        unfold ru; congr 1; push_cast; ring
      have a2 : ru (2 * n) (-m) = Complex.exp (-(2 * Real.pi * m / (2 * n)) * Complex.I) := by
        unfold ru; congr 1; push_cast; ring
      rw [a1, a2]
      ring
    rw [e4]
    have e5 : Complex.exp (θ * Complex.I) / n * ((hann (2 * n + 1) m : ℂ) * ru (2 * n) (-2 * m)) =
        ((hann (2 * n + 1) m / n : ℝ) : ℂ) * Complex.exp (((θ - 2 * Real.pi * m / n : ℝ) : ℂ) * Complex.I) := by
      have : Complex.exp (((θ - 2 * Real.pi * m / n : ℝ) : ℂ) * Complex.I) = Complex.exp (θ * Complex.I) * ru (2 * n) (-2 * m) := by
        unfold ru
        rw [← Complex.exp_add]
        congr 1
        push_cast
        field_simp
        ring
      rw [this]
      push_cast
      ring
    rw [e5, Complex.re_ofReal_mul, Complex.exp_ofReal_mul_I_re]
  rw [sum_congr rfl fun m _ => key m, ← Complex.re_sum, ← mul_sum, sum_sub_distrib, sum_sub_distrib, ← mul_sum, ← mul_sum, ← mul_sum,
    sum_ru (by omega), sum_ru (by omega), sum_ru (by omega)]
  have d1 : ¬ ((2 * n : ℕ) : ℤ) ∣ -2 := fun hd => by
    have := Int.eq_zero_of_abs_lt_dvd hd (by rw [abs_lt]; push_cast; omega); omega
  have d2 : ¬ ((2 * n : ℕ) : ℤ) ∣ -1 := fun hd => by
    have := Int.eq_zero_of_abs_lt_dvd hd (by rw [abs_lt]; push_cast; omega); omega
  have d3 : ¬ ((2 * n : ℕ) : ℤ) ∣ -3 := fun hd => by
    have := Int.eq_zero_of_abs_lt_dvd hd (by rw [abs_lt]; push_cast; omega); omega
  rw [if_neg d1, if_neg d2, if_neg d3]
  simp

theorem wrapExt_wave {q : ℕ} (hw : 0 < w) (M A φ : Fin h → ℝ) (j : Fin h) (t : ℤ) :
    wrapExt (fun i => M j + zonalWave w q A φ j i) t = M j + A j * Real.cos (2 * Real.pi * q * t / w - φ j) := by
  have hw' : (w : ℝ) ≠ 0 := by exact_mod_cast hw.ne'
  refine wrap_unique (e' := fun t : ℤ => M j + A j * Real.cos (2 * Real.pi * q * t / w - φ j)) hw (wrapExt_periodic _) (fun t => ?_)
    (fun k => ?_) t
  · dsimp only
    congr 2
    refine Eq.trans ?_ (Real.cos_add_nat_mul_two_pi _ q)
    congr 1
    push_cast
    field_simp
    ring
  · rw [wrapExt_node]
    unfold zonalWave
    push_cast
    rfl

theorem hannWidth_of {n q : ℕ} (hn : 2 ≤ n) (hq : 0 < q) (r : ℝ) (hr : r = q) : hannWidth (q * n) r = 2 * n + 1 := by
  unfold hannWidth clipWavenumber
  subst hr
  have hq' : (1 : ℝ) ≤ q := by exact_mod_cast hq
  have hn' : (2 : ℝ) ≤ n := by exact_mod_cast hn
  rw [max_eq_left hq', min_eq_left (by push_cast; nlinarith)]
  push_cast
  rw [mul_div_cancel_left₀ _ (by linarith), Nat.floor_natCast]
  ring

/-- C93: a window whose wavenumber `q` divides the number of longitudes removes waves of wavenumber `q` and leaves zonal means as
they are. -/
theorem C93_removal {q : ℕ} (hq : 0 < q) (hd : q ∣ w) (h2 : 2 * q ≤ w) (hh : 0 < h) (M A φ : Fin h → ℝ) :
    filterByWavenumber (fun j i => M j + zonalWave w q A φ j i) (.profile h fun _ => q) = .ok (.d2 h w fun j _ => M j) := by
  obtain ⟨n, rfl⟩ := hd
  have hn : 2 ≤ n := by
    by_contra hlt
    have : q * n ≤ q * 1 := Nat.mul_le_mul_left q (by omega)
    omega
  have hw0 : 0 < q * n := Nat.mul_pos hq (by omega)
  have hk : (WavenumberArg.profile (h := h) (w := q * n) h fun _ => (q : ℝ)).expand = .ok fun _ (_ : Fin (q * n)) => (q : ℝ) := by
    simp [WavenumberArg.expand]
  rw [filterByWavenumber_ok hh (by omega) _ _ _ hk]
  congr 2
  funext j i
  rw [hannWidth_of hn hq _ rfl]
  unfold convolve
  simp only [wrapExt_wave hw0, mul_add, sum_add_distrib, ← sum_mul]
  rw [hannWeights_sum (by omega), one_mul]
  have hk := hann_kill hn (2 * Real.pi * q * ((i.val : ℝ) + n) / (q * n : ℕ) - φ j)
  have : ∀ m : Fin (2 * n + 1), hannWeights (2 * n + 1) m * (A j * Real.cos (2 * Real.pi * q *
      (((i.val : ℤ) + ((2 * n + 1) / 2 : ℕ) - m.val : ℤ) : ℝ) / (q * n : ℕ) - φ j)) =
      A j * (hannWeights (2 * n + 1) m * Real.cos (2 * Real.pi * q * ((i.val : ℝ) + n) / (q * n : ℕ) - φ j - 2 * Real.pi * m / n)) := by
    intro m
    have hq' : (q : ℝ) ≠ 0 := by exact_mod_cast hq.ne'
    have hn' : (n : ℝ) ≠ 0 := by exact_mod_cast (by omega : n ≠ 0)
    rw [show (2 * n + 1) / 2 = n by omega, mul_left_comm]
    congr 3
    push_cast
    field_simp
    ring
  rw [sum_congr rfl fun m _ => this m, ← mul_sum, hk, mul_zero, add_zero]

theorem residual_ne : ∑ m : Fin (2 * 4 + 1), hann (2 * 4 + 1) m / ((4 : ℕ) : ℝ) * Real.cos (2 * Real.pi * 8 * (4 - (m.val : ℝ)) / 24) ≠ 0 := by
  have c0 : Real.cos (Real.pi / 4) = √2 / 2 := Real.cos_pi_div_four
  have t0 : Real.cos (2 * Real.pi / 3) = -(1 / 2) := by
    rw [show 2 * Real.pi / 3 = Real.pi - Real.pi / 3 by ring, Real.cos_pi_sub, Real.cos_pi_div_three]
  have hc : ∀ m : ℕ, m ≤ 8 → Real.cos (2 * Real.pi * m / (2 * 4 + 1 - 1 : ℕ)) =
      if m = 0 ∨ m = 8 then 1 else if m = 1 ∨ m = 7 then √2 / 2 else if m = 2 ∨ m = 6 then 0 else if m = 4 then -1 else -(√2 / 2) := by
    intro m hm
    interval_cases m <;> norm_num
    · rw [← c0]; congr 1; ring
    · rw [show 2 * Real.pi * 2 / 8 = Real.pi / 2 by ring, Real.cos_pi_div_two]
    · rw [show 2 * Real.pi * 3 / 8 = Real.pi - Real.pi / 4 by ring, Real.cos_pi_sub, c0]
    · rw [show 2 * Real.pi * 4 / 8 = Real.pi by ring, Real.cos_pi]
    · rw [show 2 * Real.pi * 5 / 8 = Real.pi / 4 + Real.pi by ring, Real.cos_add_pi, c0]
    · rw [show 2 * Real.pi * 6 / 8 = Real.pi / 2 + Real.pi by ring, Real.cos_add_pi, Real.cos_pi_div_two, neg_zero]
    · rw [show 2 * Real.pi * 7 / 8 = 2 * Real.pi - Real.pi / 4 by ring, Real.cos_two_pi_sub, c0]
  have ht : ∀ m : ℕ, m ≤ 8 → Real.cos (2 * Real.pi * 8 * (4 - (m : ℝ)) / 24) = if m = 1 ∨ m = 4 ∨ m = 7 then 1 else -(1 / 2) := by
    intro m hm
    interval_cases m <;> norm_num
    · rw [show 2 * Real.pi * 8 * 4 / 24 = 2 * Real.pi / 3 + 2 * Real.pi by ring, Real.cos_add_two_pi, t0]
    · rw [show 2 * Real.pi * 8 * 3 / 24 = 2 * Real.pi by ring, Real.cos_two_pi]
    · rw [show 2 * Real.pi * 8 * 2 / 24 = 2 * Real.pi - 2 * Real.pi / 3 by ring, Real.cos_two_pi_sub, t0]
    · rw [show 2 * Real.pi * 8 / 24 = 2 * Real.pi / 3 by ring, t0]
    · rw [show -(2 * Real.pi * 8) / 24 = -(2 * Real.pi / 3) by ring, Real.cos_neg, t0]
    · rw [show -(2 * Real.pi * 8 * 2) / 24 = -(2 * Real.pi - 2 * Real.pi / 3) by ring, Real.cos_neg, Real.cos_two_pi_sub, t0]
    · rw [show -(2 * Real.pi * 8 * 3) / 24 = -(2 * Real.pi) by ring, Real.cos_neg, Real.cos_two_pi]
    · rw [show -(2 * Real.pi * 8 * 4) / 24 = -(2 * Real.pi / 3 + 2 * Real.pi) by ring, Real.cos_neg, Real.cos_add_two_pi, t0]
  have key : ∀ m : Fin (2 * 4 + 1), hann (2 * 4 + 1) m / ((4 : ℕ) : ℝ) * Real.cos (2 * Real.pi * 8 * (4 - (m.val : ℝ)) / 24) =
      (1 / 2 - 1 / 2 * (if m.val = 0 ∨ m.val = 8 then 1 else if m.val = 1 ∨ m.val = 7 then √2 / 2 else if m.val = 2 ∨ m.val = 6 then 0 else
        if m.val = 4 then -1 else -(√2 / 2))) / 4 * (if m.val = 1 ∨ m.val = 4 ∨ m.val = 7 then 1 else -(1 / 2)) := by
    intro m
    have := m.isLt
    unfold hann
    rw [hc _ (by omega), ht _ (by omega)]
    push_cast
    rfl
  rw [sum_congr rfl fun m _ => key m]
  simp only [Fin.sum_univ_succ, Fin.val_zero, Fin.val_succ, univ_eq_empty, sum_empty]
  norm_num
  intro h
  have h2 : √2 * √2 = 2 := Real.mul_self_sqrt (by norm_num)
  have h3 : √2 = 4 / 3 := by linarith
  rw [h3] at h2
  norm_num at h2

/-- C93 is false for the removal of the phase: on a grid with 24 longitudes and a meridional wind with wavenumber 4 everywhere, the
wave activity is filtered with wavenumber 6 (not 8), and a signal with wavenumber 8 remains. -/
theorem C93_phase_refuted (hg : g.Valid) (hlon : g.nlon = 24) (A φ : Fin g.nlat → ℝ) (hA : ∀ j, A j ≠ 0) :
    g.dominantProfile (zonalWave g.nlon 4 A φ) = .ok ⟨g.nlat, fun _ => 3⟩ ∧
    ∃ Z, g.phaseFilter (fun j i => some (1 + zonalWave g.nlon 8 (fun _ => 1) (fun _ => 0) j i)) ⟨g.nlat, fun _ => 3⟩ = .ok Z ∧
      ∀ j (i : Fin g.nlon), i.val = 0 → Z j i ≠ some 1 := by
  have hlat := hg.nlat_ge
  obtain ⟨m, ho, -, hw⟩ := C92_default (g := g) hg.res_pos
  have hm : (m : ℝ) ≠ 0 := by exact_mod_cast ho.pos.ne'
  constructor
  · unfold Grid.dominantProfile
    rw [C92_wave_partial (by norm_num) (by omega) A φ hA 1 20 (by norm_num) (by norm_num) _ hw (by simp [hm])]
    norm_num
  · unfold Grid.phaseFilter
    obtain ⟨Z, hZ, hrow, -⟩ := C93_rows (h := g.nlat) (w := g.nlon) (by omega) (by omega)
      (fun j i => some (1 + zonalWave g.nlon 8 (fun _ => 1) (fun _ => 0) j i)) (fun _ => 2 * 3)
    refine ⟨Z, hZ, fun j i hi hz => ?_⟩
    obtain ⟨out, hout, e⟩ := hrow j _ (fun _ => rfl) (fun j i => 1 + zonalWave g.nlon 8 (fun _ => 1) (fun _ => 0) j i) rfl
    have hk : (WavenumberArg.profile (h := g.nlat) (w := g.nlon) g.nlat fun _ => (2 * 3 : ℝ)).expand = .ok fun _ (_ : Fin g.nlon) => (2 * 3 : ℝ) := by
      simp [WavenumberArg.expand]
    rw [filterByWavenumber_ok (by omega) (by omega) _ _ _ hk] at hout
    cases hout
    rw [e] at hz
    simp only [Option.some.injEq, hi] at hz
    have hwd : hannWidth g.nlon (2 * 3) = 2 * 4 + 1 := by
      have := hannWidth_of (n := 4) (q := 6) (by norm_num) (by norm_num) (2 * 3) (by norm_num)
      rwa [show 6 * 4 = g.nlon by omega] at this
    rw [hwd] at hz
    unfold convolve at hz
    have hx := fun t : ℤ => wrapExt_wave (h := g.nlat) (w := g.nlon) (q := 8) (by omega) (fun _ => 1) (fun _ => 1) (fun _ => 0) j t
    simp only [hx, mul_add, sum_add_distrib, mul_one] at hz
    rw [hannWeights_sum (by norm_num)] at hz
    unfold hannWeights at hz
    rw [hann_sum (by norm_num)] at hz
    rw [hlon] at hz
    refine residual_ne ?_
    refine Eq.trans (sum_congr rfl fun m _ => ?_) (add_eq_left.mp hz)
    simp

/-- Non-vacuity of C93: a disturbed PV field on the 30-degree grid, and a grid with 24 longitudes. -/
example (v : Fin grid30.nlat → Fin grid30.nlon → ℝ) :
    ∃ Z : Fin grid30.nlat → Fin grid30.nlon → ℝ, grid30.falwaFiltered (fun j _ => ((j : ℕ) : ℝ)) v = .ok fun j i => some (Z j i) := by
  obtain ⟨_, Z, _, h, _⟩ := C93_mean grid30_valid grid30_spacing (fun j _ => ((j : ℕ) : ℝ)) v
    ⟨⟨0, by rw [grid30_nlat]; norm_num⟩, ⟨0, by rw [grid30_nlon]; norm_num⟩,
      ⟨1, by rw [grid30_nlat]; norm_num⟩, ⟨0, by rw [grid30_nlon]; norm_num⟩, by norm_num⟩
  exact ⟨Z, h⟩

example : ∃ g : Grid ℝ, g.Valid ∧ g.nlon = 24 := by
  have h1 : (⟨15, 1, 1, 2⟩ : Grid ℝ).nlon = 24 := by
    have : ⌊360 / (15 : ℝ)⌋₊ = 24 := by rw [Nat.floor_eq_iff (by norm_num)]; constructor <;> norm_num
    unfold Grid.nlon Grid.nlonOf; simp only [this]
  have h2 : (⟨15, 1, 1, 2⟩ : Grid ℝ).nlat = 13 := by
    have : ⌊180 / (15 : ℝ)⌋₊ = 12 := by rw [Nat.floor_eq_iff (by norm_num)]; constructor <;> norm_num
    unfold Grid.nlat Grid.nlatOf; simp only [this]
  exact ⟨⟨15, 1, 1, 2⟩, ⟨by norm_num, by norm_num, by rw [h1]; norm_num, by rw [h2]; norm_num, by rw [h2]; norm_num⟩, h1⟩

end Barotropic
