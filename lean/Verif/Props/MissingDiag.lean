import Verif.Model.MissingDiag
import Verif.Spec.MissingDiag
import Verif.Props.Missing
import Verif.Props.Waveguide

/-!
# C143: missing values (NaN) in derivatives, wavenumbers and waveguides

The expected behaviour — a value is missing if and only if a value is missing on which it depends, and all others are those of the
field with any numbers in place of the missing ones — holds for derivatives, stationary wavenumber and wave envelope. It fails for
the dominant wavenumber, which is 0, and for waveguides, which extend over missing values.
-/

set_option linter.unusedSectionVars false

namespace Barotropic

open FloatX

namespace Missing

section

variable {K : Type*} [Field K] [LinearOrder K]

theorem times_none (c : K) (x : Option K) : times c x = none ↔ x = none := by cases x <;> simp [times, mul]
theorem over_none (x : Option K) (c : K) : over x c = none ↔ x = none := by cases x <;> simp [over]
theorem times_some (c x : K) : times c (some x) = some (c * x) := rfl
theorem over_some (x c : K) : over (some x) c = some (x / c) := rfl
theorem add_some (x y : K) : add (some x) (some y) = some (x + y) := rfl
theorem sub_some (x y : K) : sub (some x) (some y) = some (x - y) := rfl
theorem mul_some (x y : K) : mul (some x) (some y) = some (x * y) := rfl

theorem used_iff4 {P : ℕ → Prop} {poles : Bool} {h j : ℕ} (hh : 5 ≤ h) (hj : j < h) :
    (∃ r, UsedRow true poles h j r ∧ P r) ↔
      if j = 0 then poles = true ∧ (P 0 ∨ P 1 ∨ P 2 ∨ P 3 ∨ P 4)
      else if j = h - 1 then poles = true ∧ (P (h - 5) ∨ P (h - 4) ∨ P (h - 3) ∨ P (h - 2) ∨ P (h - 1))
      else if j = 1 then P 0 ∨ P 1 ∨ P 2 ∨ P 3 ∨ P 4
      else if j = h - 2 then P (h - 5) ∨ P (h - 4) ∨ P (h - 3) ∨ P (h - 2) ∨ P (h - 1)
      else P (j - 2) ∨ P (j - 1) ∨ P (j + 1) ∨ P (j + 2) := by
  have e1 : (j + 1 = h) ↔ j = h - 1 := by omega
  have e2 : (j + 2 = h) ↔ j = h - 2 := by omega
  have north : (∃ r, r < 5 ∧ P r) ↔ (P 0 ∨ P 1 ∨ P 2 ∨ P 3 ∨ P 4) := by
    constructor
    · rintro ⟨r, hr, hp⟩
      interval_cases r <;> simp [hp]
    · rintro (h | h | h | h | h) <;> exact ⟨_, by norm_num, h⟩
  have south : (∃ r, (h ≤ r + 5 ∧ r < h) ∧ P r) ↔ (P (h - 5) ∨ P (h - 4) ∨ P (h - 3) ∨ P (h - 2) ∨ P (h - 1)) := by
    constructor
    · rintro ⟨r, hr, hp⟩
      obtain h | h | h | h | h : r = h - 5 ∨ r = h - 4 ∨ r = h - 3 ∨ r = h - 2 ∨ r = h - 1 := by omega
      all_goals subst h; simp [hp]
    · rintro (h | h | h | h | h) <;> exact ⟨_, by omega, h⟩
  simp only [UsedRow, if_true, e1, e2]
  split_ifs with h0 h1 h2 h3
  · simp only [and_assoc, exists_and_left, north]
  · rw [← south]
    constructor
    · rintro ⟨r, ⟨hp, hr⟩, hP⟩; exact ⟨hp, r, hr, hP⟩
    · rintro ⟨hp, r, hr, hP⟩; exact ⟨r, ⟨hp, hr⟩, hP⟩
  · exact north
  · exact south
  · constructor
    · rintro ⟨r, hr, hp⟩
      obtain h | h | h | h : r = j - 2 ∨ r = j - 1 ∨ r = j + 1 ∨ r = j + 2 := by omega
      all_goals subst h; simp [hp]
    · rintro (h | h | h | h) <;> exact ⟨_, by omega, h⟩

theorem used_iff2 {P : ℕ → Prop} {poles : Bool} {h j : ℕ} (hh : 3 ≤ h) (hj : j < h) :
    (∃ r, UsedRow false poles h j r ∧ P r) ↔
      if j = 0 then poles = true ∧ (P 0 ∨ P 1 ∨ P 2)
      else if j = h - 1 then poles = true ∧ (P (h - 3) ∨ P (h - 2) ∨ P (h - 1))
      else P (j - 1) ∨ P (j + 1) := by
  have e1 : (j + 1 = h) ↔ j = h - 1 := by omega
  simp only [UsedRow, if_false, e1, Bool.false_eq_true]
  split_ifs with h0 h1
  · constructor
    · rintro ⟨r, ⟨hp, hr⟩, hP⟩
      interval_cases r <;> simp [hp, hP]
    · rintro ⟨hp, (h | h | h)⟩ <;> exact ⟨_, ⟨hp, by norm_num⟩, h⟩
  · constructor
    · rintro ⟨r, ⟨hp, hr⟩, hP⟩
      obtain h | h | h : r = h - 3 ∨ r = h - 2 ∨ r = h - 1 := by omega
      all_goals subst h; simp [hp, hP]
    · rintro ⟨hp, (h | h | h)⟩ <;> exact ⟨_, ⟨hp, by omega⟩, h⟩
  · constructor
    · rintro ⟨r, hr, hp⟩
      obtain h | h : r = j - 1 ∨ r = j + 1 := by omega
      all_goals subst h; simp [hp]
    · rintro (h | h) <;> exact ⟨_, by omega, h⟩

/-- C143: a derivative is missing if and only if a value is missing on which it depends. -/
theorem _root_.Barotropic.C143_derivative (four poles : Bool) (h : ℕ) (hh : (if four then 5 else 3) ≤ h) (dphi : K) (a : ℕ → Option K) (j : ℕ)
    (hj : j < h) : derivative four poles h dphi a j = none ↔ ∃ r, UsedRow four poles h j r ∧ a r = none := by
  cases four
  · rw [used_iff2 (by simpa using hh) hj]
    simp only [derivative, over_none, Bool.false_eq_true, if_false, stencil2]
    cases poles <;> split_ifs <;> simp_all [sub_none, add_none, times_none, or_assoc] <;> rw [or_comm]
  · rw [used_iff4 (by simpa using hh) hj]
    simp only [derivative, over_none, if_true, stencil4]
    cases poles <;> split_ifs <;> simp_all [sub_none, add_none, times_none, or_assoc]

end

theorem derivative_some (four poles : Bool) (h : ℕ) (hh : (if four then 5 else 3) ≤ h) (dphi : ℝ) (a : ℕ → Option ℝ) (v : ℕ → ℝ) (j : ℕ)
    (hj : j < h) (ha : ∀ r, UsedRow four poles h j r → a r = some (v r)) :
    derivative four poles h dphi a j =
      some ((if four then Grid.stencil4 poles h v j / 12 else Grid.stencil2 poles h v j / 2) / dphi) := by
  have key : ¬ ∃ r, UsedRow four poles h j r ∧ a r ≠ some (v r) := by
    rintro ⟨r, h1, h2⟩; exact h2 (ha r h1)
  cases four
  · rw [used_iff2 (by simpa using hh) hj] at key
    simp only [derivative, Bool.false_eq_true, if_false, stencil2, Grid.stencil2]
    cases poles <;> split_ifs at key ⊢ <;>
      simp_all [sub_some, add_some, times_some, over_some]
  · rw [used_iff4 (by simpa using hh) hj] at key
    simp only [derivative, if_true, stencil4, Grid.stencil4]
    cases poles <;> split_ifs at key ⊢ <;>
      simp_all [sub_some, add_some, times_some, over_some]

end Missing

open Missing

section Stationary

variable (g : Grid ℝ)

/-- The argument `order` of the code -/
def orderArg (four : Bool) : Order := .int (if four then 4 else 2)

theorem Missing.columnEntry_lt {α : Type*} {h : ℕ} (f : Fin h → Option α) (j : Fin h) : columnEntry f j = f j := dif_pos j.2

theorem Missing.used_lt {four poles : Bool} {h j r : ℕ} (hh : (if four then 5 else 3) ≤ h) (hj : j < h) (hu : UsedRow four poles h j r) :
    r < h := by
  unfold UsedRow at hu
  cases four <;> simp at hu hh <;> split_ifs at hu <;> omega

/-- C143: the derivative of a field with missing values is missing exactly where it depends on a missing value. Everywhere else it is
the derivative of the field with any number in place of the missing values. -/
theorem C143_field (four : Bool) {h w : ℕ} (hh : (if four then 5 else 3) ≤ h) (hn : (if four then 5 else 3) ≤ g.nlat)
    (f : Fin h → Fin w → Option ℝ) (c : ℝ) :
    ∃ d, g.derivativeMeridional (.d2 h w fun j i => (f j i).getD c) (orderArg four) = .ok (.d2 h w d) ∧
      ∀ (j : Fin h) i, ((∃ r : Fin h, UsedRow four true h j r ∧ f r i = none) ∧ derivative four true h g.dphi (columnEntry fun j => f j i) j = none) ∨
        ((∀ r : Fin h, UsedRow four true h j r → f r i ≠ none) ∧
          derivative four true h g.dphi (columnEntry fun j => f j i) j = some (d j i)) := by
  refine ⟨fun j i => (if four then Grid.stencil4 true h (Grid.col fun j => (f j i).getD c) j / 12
    else Grid.stencil2 true h (Grid.col fun j => (f j i).getD c) j / 2) / g.dphi, ?_, ?_⟩
  · cases four <;> simp only [Bool.false_eq_true, if_false, if_true] at hh hn <;>
      simp [not_lt.mpr hh, not_lt.mpr hn, Grid.derivativeMeridional, orderArg, Arr.ndim, Arr.shape, Grid.derivative2, Grid.derivative4]
  · intro j i
    by_cases hm : ∃ r : Fin h, UsedRow four true h j r ∧ f r i = none
    · refine Or.inl ⟨hm, (C143_derivative four true h hh g.dphi _ j j.2).mpr ?_⟩
      obtain ⟨r, h1, h2⟩ := hm
      exact ⟨r, h1, by rw [columnEntry_lt]; exact h2⟩
    · push Not at hm
      refine Or.inr ⟨hm, derivative_some four true h hh g.dphi _ _ j j.2 fun r hr => ?_⟩
      have hlt := used_lt hh j.2 hr
      have h1 := hm ⟨r, hlt⟩ hr
      simp only [columnEntry, Grid.col, dif_pos hlt]
      revert h1
      cases f ⟨r, hlt⟩ i <;> simp

/-- C143: the same for profiles, whose derivative is zero at the poles. -/
theorem C143_profile (four : Bool) (hn : (if four then 5 else 3) ≤ g.nlat) (f : Fin g.nlat → Option ℝ) (c : ℝ) :
    ∃ d, g.derivativeProfile (fun j => (f j).getD c) (orderArg four) = .ok d ∧
      ∀ j : Fin g.nlat, ((∃ r : Fin g.nlat, UsedRow four false g.nlat j r ∧ f r = none) ∧ derivative four false g.nlat g.dphi (columnEntry f) j = none) ∨
        ((∀ r : Fin g.nlat, UsedRow four false g.nlat j r → f r ≠ none) ∧
          derivative four false g.nlat g.dphi (columnEntry f) j = some (d j)) := by
  refine ⟨fun j => (if four then Grid.stencil4 false g.nlat (Grid.col fun j => (f j).getD c) j / 12
    else Grid.stencil2 false g.nlat (Grid.col fun j => (f j).getD c) j / 2) / g.dphi, ?_, ?_⟩
  · cases four <;> simp only [Bool.false_eq_true, if_false, if_true] at hn <;>
      simp [not_lt.mpr hn, Grid.derivativeProfile, Grid.derivativeMeridional, orderArg, Arr.ndim, Arr.shape, Grid.derivative2, Grid.derivative4]
  · intro j
    by_cases hm : ∃ r : Fin g.nlat, UsedRow four false g.nlat j r ∧ f r = none
    · refine Or.inl ⟨hm, (C143_derivative four false g.nlat hn g.dphi _ j j.2).mpr ?_⟩
      obtain ⟨r, h1, h2⟩ := hm
      exact ⟨r, h1, by rw [columnEntry_lt]; exact h2⟩
    · push Not at hm
      refine Or.inr ⟨hm, derivative_some four false g.nlat hn g.dphi _ _ j j.2 fun r hr => ?_⟩
      have hlt := used_lt hn j.2 hr
      have h1 := hm ⟨r, hlt⟩ hr
      simp only [columnEntry, Grid.col, dif_pos hlt]
      revert h1
      cases f ⟨r, hlt⟩ <;> simp

/-- C143: a zonal mean is missing if and only if a value of the row is. -/
theorem C143_row (w : ℕ) (a : ℕ → Option ℝ) : rowMean w a = none ↔ ∃ i < w, a i = none := by
  rw [rowMean, over_none, sum_none]

theorem Missing.signInf_ne_nan {x : ℝ} (hx : x ≠ 0) : signInf x ≠ nan := by
  unfold signInf
  rcases lt_or_gt_of_ne hx with h | h
  · rw [if_neg (not_lt.mpr h.le), if_pos h]; simp
  · rw [if_pos h]; simp

theorem Missing.ksSquared_some (b u minU : ℝ) : Missing.ksSquared (some b) (some u) minU = Grid.ksSquared b u minU := by
  simp [Missing.ksSquared, Grid.ksSquared, smallWind, toX]

theorem Missing.ksSquared_nan (beta u : Option ℝ) {minU : ℝ} (hm : 0 ≤ minU) :
    Missing.ksSquared beta u minU = nan ↔ beta = none ∨ u = none := by
  rcases u with _ | u
  · simp only [Missing.ksSquared, smallWind, if_false, toX, or_true, iff_true]
    cases beta <;> simp [FloatX.div, toX]
  · rcases beta with _ | b
    · simp only [Missing.ksSquared, toX, true_or, iff_true]
      split_ifs <;> simp_all [FloatX.mul, FloatX.div]
    · rw [ksSquared_some]
      simp only [reduceCtorEq, or_self, iff_false, Grid.ksSquared]
      split_ifs with h1 h2
      · exact signInf_ne_nan h2
      · simp
      · have : u ≠ 0 := by rintro rfl; exact h1 (by simpa using hm)
        simp [FloatX.div, this]

/-- C143: the stationary wavenumber is missing if and only if the zonal-mean wind at the same latitude is missing or the zonal-mean PV
at a latitude on which the derivative depends. -/
theorem C143_stationary (four : Bool) (hn : (if four then 5 else 3) ≤ g.nlat) {minU : ℝ} (hm : 0 ≤ minU) (u pv : ℕ → Option ℝ) (j : ℕ)
    (hj : j < g.nlat) :
    stationarySquared g four minU u pv j = nan ↔ u j = none ∨ ∃ r, UsedRow four false g.nlat j r ∧ pv r = none := by
  rw [stationarySquared, ksSquared_nan _ _ hm, times_none, C143_derivative four false g.nlat hn g.dphi pv j hj, or_comm]

/-- C143: stationary wavenumbers that are not missing are those of the profiles with any numbers in place of the missing values. -/
theorem C143_stationary_present (four : Bool) (hn : (if four then 5 else 3) ≤ g.nlat) (minU : ℝ) (u pv : Fin g.nlat → Option ℝ) (c c' : ℝ) :
    ∃ s, g.stationaryWavenumber (.profile fun j => (u j).getD c) (some (.profile fun j => (pv j).getD c')) (orderArg four) minU
        "squared" = .ok (.real s) ∧
      ∀ j, u j ≠ none → (∀ r : Fin g.nlat, UsedRow four false g.nlat j r → pv r ≠ none) →
        stationarySquared g four minU (columnEntry u) (columnEntry pv) j = s j := by
  obtain ⟨d, h1, h2⟩ := C143_profile g four hn pv c'
  refine ⟨_, by simp [Grid.stationaryWavenumber, Grid.ksPv, ProfileOrField.zonalMean, h1]; rfl, fun j hu hp => ?_⟩
  rcases h2 j with ⟨⟨r, hr, hr'⟩, _⟩ | ⟨_, h3⟩
  · exact absurd hr' (hp r hr)
  · obtain ⟨x, hx⟩ := Option.ne_none_iff_exists'.mp hu
    rw [stationarySquared, h3, columnEntry_lt, hx, times_some, ksSquared_some]
    simp [ProfileOrField.zonalMean, hx]

theorem Missing.pvFromWind_none (four : Bool) (hn : (if four then 5 else 3) ≤ g.nlat) (u : ℕ → Option ℝ) (j : ℕ) (hj : j < g.nlat) :
    Missing.pvFromWind g four u j = none ↔ ∃ r, UsedRow four false g.nlat j r ∧ u r = none := by
  rw [Missing.pvFromWind, add_none, over_none, over_none, times_none, C143_derivative four false g.nlat hn g.dphi _ j hj]
  simp [mul_none]

/-- C143: without PV, the stationary wavenumber is missing if and only if the wind is missing at the same latitude or at a latitude
on which the derivative of the derivative depends. -/
theorem C143_stationary_wind (four : Bool) (hn : (if four then 5 else 3) ≤ g.nlat) {minU : ℝ} (hm : 0 ≤ minU) (u : ℕ → Option ℝ) (j : ℕ)
    (hj : j < g.nlat) :
    stationarySquared g four minU u (Missing.pvFromWind g four u) j = nan ↔
      u j = none ∨ ∃ r, UsedRow four false g.nlat j r ∧ ∃ r', UsedRow four false g.nlat r r' ∧ u r' = none := by
  rw [C143_stationary g four hn hm u _ j hj]
  refine or_congr_right (exists_congr fun r => and_congr_right fun hr => ?_)
  exact pvFromWind_none g four hn u r (used_lt hn hj hr)

/-- C143: PV computed from a profile of wind, where it is not missing -/
theorem C143_wind_present (four : Bool) (hn : (if four then 5 else 3) ≤ g.nlat) (u : Fin g.nlat → Option ℝ) (c : ℝ) :
    ∃ q, g.pvFromWind (fun j => (u j).getD c) (orderArg four) = .ok q ∧
      ∀ j : Fin g.nlat, (∀ r : Fin g.nlat, UsedRow four false g.nlat j r → u r ≠ none) →
        Missing.pvFromWind g four (columnEntry u) j = some (q j) := by
  obtain ⟨d, h1, h2⟩ := C143_profile g four hn (fun j => (u j).map (· * Real.cos (g.phi j))) 0
  obtain ⟨d', h1', -⟩ := C143_profile g four hn (fun j => some ((u j).getD c * Real.cos (g.phi j))) 0
  refine ⟨fun j => g.fcor j + -d' j / g.rsphere / Real.cos (g.phi j), ?_, fun j hj => ?_⟩
  · simp only [Option.getD_some] at h1'
    simp [Grid.pvFromWind, h1']
  · obtain ⟨d'', e1, e2⟩ := C143_profile g four hn (fun j => some ((u j).getD c * Real.cos (g.phi j))) 0
    have : d'' = d' := by rw [e1] at h1'; exact Except.ok.inj h1'
    subst this
    have hd : derivative four false g.nlat g.dphi (fun r => mul (columnEntry u r) (some (Real.cos (g.phi r)))) j = some (d'' j) := by
      rcases e2 j with ⟨⟨r, _, hr⟩, _⟩ | ⟨_, e3⟩
      · simp at hr
      · rw [← e3]
        have hs : ∀ r, UsedRow four false g.nlat j r → ∃ x : ℝ, mul (columnEntry u r) (some (Real.cos (g.phi r))) = some x ∧
            columnEntry (fun j => some ((u j).getD c * Real.cos (g.phi j))) r = some x := by
          intro r hr
          have hlt := used_lt hn j.2 hr
          obtain ⟨x, hx⟩ := Option.ne_none_iff_exists'.mp (hj ⟨r, hlt⟩ hr)
          exact ⟨x * Real.cos (g.phi r), by simp [columnEntry, hlt, hx, mul_some], by simp [columnEntry, hlt, hx]⟩
        choose! x hx using hs
        rw [derivative_some four false g.nlat hn g.dphi _ x j j.2 fun r hr => (hx r hr).1,
          derivative_some four false g.nlat hn g.dphi _ x j j.2 fun r hr => (hx r hr).2]
    simp [Missing.pvFromWind, hd, times_some, over_some, add_some]

end Stationary

section Wave

theorem Missing.fourier_none {n : ℕ} (f : Fin n → Option ℝ) (k : ℕ) : fourier f k = none ↔ ∃ i, f i = none := by
  unfold fourier; split_ifs with h <;> simp [h]

theorem Missing.argmax_none (p : ℕ → Option ℝ) (h : p 0 = none) (n : ℕ) : Missing.argmax p n = 0 := by
  induction n with
  | zero => rfl
  | succ n ih => rw [Missing.argmax, ih, h]

theorem Missing.argmax_some (p : ℕ → ℝ) (q : ℕ → Option ℝ) (h : ∀ k, q k = some (p k)) (n : ℕ) :
    Missing.argmax q n = Barotropic.argmax p n := by
  induction n with
  | zero => rfl
  | succ n ih => rw [Missing.argmax, ih, h, h, Barotropic.argmax]

/-- C143: the dominant wavenumber of a row without missing values is the one of C62. -/
theorem C143_dominant_present {h w : ℕ} (f : Fin h → Fin w → ℝ) (kmin kmax : ℕ) (k : Fin h → ℝ)
    (hk : dominantWavenumberFourier f kmin kmax = .ok k) (j : Fin h) :
    ((dominant (fun i => some (f j i)) kmin kmax : ℕ) : ℝ) = k j := by
  unfold dominantWavenumberFourier at hk
  simp only at hk
  split_ifs at hk
  rw [← Except.ok.inj hk, dominant, argmax_some (fun k => Barotropic.power (f j) (kmin + k))]
  intro k
  simp [Missing.power, fourier, Barotropic.power]

/-- C143, refuted: the dominant wavenumber of a row with a missing value, wherever it is, is the number 0 and not missing. It is the
same as for a row of zeros. -/
theorem C143_dominant_refuted {w : ℕ} (f : Fin w → Option ℝ) (kmin kmax : ℕ) (hf : ∃ i, f i = none) :
    dominant f kmin kmax = 0 ∧ dominant (fun _ : Fin w => some 0) kmin kmax = 0 := by
  constructor
  · refine argmax_none _ ?_ _
    have := (fourier_none f kmin).mpr hf
    simp [Missing.power, this]
  · rw [dominant, argmax_some (fun _ => 0)]
    · generalize min (kmax + 1) (w / 2 + 1) - kmin = n
      induction n with
      | zero => rfl
      | succ n ih => simp [Barotropic.argmax, ih]
    · intro k; simp [Missing.power, fourier, dft]

/-- C143: the wave envelope of a row with a missing value is missing everywhere, if the range of wavenumbers contains one that is
resolved. -/
theorem C143_envelope {w : ℕ} (hw : 2 ≤ w) (f : Fin w → Option ℝ) (hf : ∃ i, f i = none) (kmin kmax : ℕ) (hk : kmin ≤ kmax) (hk' : kmin ≤ w / 2)
    (i : ℕ) : envelopeRow (fun t : Fin (2 * (w / 2)) => restrictRow f kmin kmax t) i = none := by
  have hr : ∀ t, restrictRow f kmin kmax t = none := by
    intro t
    rw [restrictRow]
    refine if_pos ⟨kmin, hk', ?_⟩
    show (if kmin < kmin then _ else _) = _
    rw [if_neg (lt_irrefl _), if_neg (by omega)]
    exact (fourier_none f kmin).mpr hf
  rw [envelopeRow, if_pos]
  exact ⟨⟨0, by omega⟩, hr _⟩

/-- C143: the wave envelope of a row without missing values -/
theorem C143_envelope_present {h w : ℕ} (f : Fin h → Fin w → ℝ) (kmin kmax n : ℕ) (e : Fin h → Fin n → ℝ)
    (he : envelopeHilbert f kmin kmax = .ok (.d2 h n e)) (j : Fin h) (i : Fin n) :
    envelopeRow (fun t : Fin (2 * (w / 2)) => restrictRow (fun i => some (f j i)) kmin kmax t) i = some (e j i) := by
  unfold envelopeHilbert restrictFourierZonal at he
  split_ifs at he
  simp only [Except.ok.injEq] at he
  cases he
  have hr : ∀ t, restrictRow (fun i => some (f j i)) kmin kmax t = some (irfft (w / 2) (restrictBand kmin kmax (dft (f j))) t) := by
    intro t
    rw [restrictRow]
    have hX : ∀ k, (if k < kmin then some 0 else if kmax + 1 ≤ k then some 0 else fourier (fun i => some (f j i)) k) =
        some (restrictBand kmin kmax (dft (f j)) k) := by
      intro k
      unfold restrictBand
      split_ifs <;> simp [fourier]
    simp only [hX]
    simp
  simp [envelopeRow, hr]

end Wave

section Guide

variable (g : Grid ℝ)

/-- A missing stationary wavenumber -/
def missingKs : FloatX × FloatX := (nan, nan)

theorem Missing.realVariant_missing : realVariant missingKs = nan := rfl

theorem Missing.csqrt_nan : csqrt nan = missingKs := rfl

open Grid

theorem Missing.scan_append (k : FloatX) (A : List FloatX) (a : FloatX) (B : List FloatX) (j : ℕ) (s : Scan) :
    g.scan k j (A ++ a :: B) s = g.scan k (j + A.length) (a :: B) (g.scan k j (A ++ [a]) s) := by
  induction A generalizing j s with
  | nil => simp [scan]
  | cons c A ih =>
    rcases A with _ | ⟨c', A⟩
    · rcases B with _ | ⟨b, B⟩
      · simp [scan]
      · simp only [List.cons_append, List.nil_append, scan, List.length_singleton]
        split_ifs <;> first | rfl | omega
    · simp only [List.cons_append, scan] at ih ⊢
      by_cases hj : j + 1 < g.nlat
      · simp only [if_pos hj]
        rw [ih]
        simp [add_assoc, add_comm 1]
      · simp only [if_neg hj, List.length_cons]
        rcases B with _ | ⟨b, B⟩
        · simp [scan]
        · simp only [scan]
          rw [if_neg (by omega)]

theorem Missing.not_le_and_lt {a b : FloatX} (h : a.Le b) : ¬ b.Lt a := by
  cases a <;> cases b <;> simp_all [Le, Lt]

theorem Missing.not_nan_lt (a : FloatX) : ¬ nan.Lt a := by cases a <;> simp [Lt]
theorem Missing.not_lt_nan (a : FloatX) : ¬ a.Lt nan := by cases a <;> simp [Lt]

theorem Missing.not_lt_of_lt {a b : FloatX} (h : a.Lt b) : ¬ b.Lt a := by
  cases a <;> cases b <;> simp_all [Le, Lt]; exact h.le

theorem Missing.scanStep_active (k : FloatX) (s : Scan) (lat : ℝ) (x y : FloatX) (hs : s.active = true) (hy : ¬ y.Lt k) :
    g.scanStep k s lat x y = s := by
  simp [scanStep, hs, hy]

theorem Missing.scanStep_above (k : FloatX) (s : Scan) (lat : ℝ) (x y : FloatX) (hy : k.Lt y) : (g.scanStep k s lat x y).active = true := by
  unfold scanStep
  by_cases hs : s.active = true
  · simp [hs, not_lt_of_lt hy]
  · simp [hs, hy]

theorem Missing.scan_run (k : FloatX) (s : Scan) (hs : s.active = true) (B : List FloatX) (hB : ∀ b ∈ B.head?, ¬ b.Lt k) (l l' : List FloatX)
    (hlen : l.length = l'.length) (hl : ∀ y ∈ l, ¬ y.Lt k) (hl' : ∀ y ∈ l', ¬ y.Lt k) (a a' : FloatX) (j : ℕ) :
    g.scan k j (a :: (l ++ B)) s = g.scan k j (a' :: (l' ++ B)) s := by
  induction l generalizing l' a a' j with
  | nil =>
    obtain rfl : l' = [] := List.length_eq_zero_iff.mp hlen.symm
    rcases B with _ | ⟨b, B⟩
    · simp [scan]
    · have hb : ¬ b.Lt k := hB b (by simp)
      simp only [List.nil_append, scan, scanStep_active g k s _ _ b hs hb]
  | cons y l ih =>
    rcases l' with _ | ⟨y', l'⟩
    · simp at hlen
    · simp only [List.cons_append, scan]
      rw [scanStep_active g k s _ _ y hs (hl y (by simp)), scanStep_active g k s _ _ y' hs (hl' y' (by simp)),
        ih l' (by simpa using hlen) (fun z hz => hl z (by simp [hz])) (fun z hz => hl' z (by simp [hz])) y y' (j + 1)]

theorem Missing.scan_above (k : FloatX) (A : List FloatX) (a : FloatX) (ha : k.Lt a) (j : ℕ) (hj : j + A.length < g.nlat) (s : Scan)
    (hs : A = [] → s.active = true) : (g.scan k j (A ++ [a]) s).active = true := by
  induction A generalizing j s with
  | nil => simpa [scan] using hs rfl
  | cons c A ih =>
    rcases A with _ | ⟨c', A⟩
    · simp only [List.length_singleton] at hj
      simp only [List.cons_append, List.nil_append, scan, if_pos hj]
      exact scanStep_above g k s _ _ a ha
    · simp only [List.length_cons] at hj
      simp only [List.cons_append, scan] at ih ⊢
      rw [if_pos (by omega)]
      exact ih (j + 1) (by simp; omega) _ (by simp)

/-- C143, refuted: a waveguide extends over missing values. In any profile, missing values that follow a value greater than `k` and are
followed by a value not less than `k` (or by none, up to the South Pole) give the same waveguides as any values not less than `k`
in their place. -/
theorem C143_waveguide_refuted (A : List (FloatX × FloatX)) (a : FloatX × FloatX) (X B : List (FloatX × FloatX)) (k : FloatX × FloatX)
    (hA : A.length < g.nlat) (ha : (realVariant k).Lt (realVariant a)) (hX : ∀ x ∈ X, (realVariant k).Le (realVariant x))
    (hB : ∀ b ∈ B.head?, (realVariant k).Le (realVariant b)) :
    g.extractKsWaveguides (A ++ a :: (List.replicate X.length missingKs ++ B)) k = g.extractKsWaveguides (A ++ a :: (X ++ B)) k := by
  have hs : ∀ s : Scan, (A = [] → s.active = true) →
      g.scan (realVariant k) 0 ((A ++ a :: (List.replicate X.length missingKs ++ B)).map realVariant) s =
        g.scan (realVariant k) 0 ((A ++ a :: (X ++ B)).map realVariant) s := by
    intro s h0
    simp only [List.map_append, List.map_cons]
    rw [scan_append, scan_append g _ _ _ (List.map realVariant X ++ _)]
    have h1 := scan_above g (realVariant k) (A.map realVariant) (realVariant a) ha 0 (by simpa using hA) s (by simpa using h0)
    refine scan_run g _ _ h1 _ ?_ _ _ (by simp) ?_ ?_ _ _ _
    · intro b hb
      rcases B with _ | ⟨c, B⟩
      · simp at hb
      · simp only [List.map_cons, List.head?_cons, Option.mem_def, Option.some.injEq] at hb
        subst hb
        exact not_le_and_lt (hB c (by simp))
    · intro y hy
      simp only [List.map_replicate, List.mem_replicate] at hy
      rw [hy.2]
      exact not_nan_lt _
    · intro y hy
      obtain ⟨x, hx, rfl⟩ := List.mem_map.mp hy
      exact not_le_and_lt (hX x hx)
  rcases A with _ | ⟨c, A⟩
  · simp only [List.nil_append, extractKsWaveguides] at hs ⊢
    rw [hs]
    intro _
    simp only [decide_eq_true_eq]
    revert ha
    cases realVariant k <;> cases realVariant a <;> simp [Lt, Le]
    exact le_of_lt
  · simp only [List.cons_append, extractKsWaveguides] at hs ⊢
    rw [hs]
    simp

/-- C143, refuted: with a profile that is missing everywhere, there are no waveguides, as for a profile without waveguides. -/
theorem C143_waveguide_all_refuted (n : ℕ) (k : FloatX × FloatX) :
    g.extractKsWaveguides (List.replicate (n + 1) missingKs) k = .ok [] := by
  have h : ∀ (n j : ℕ) (s : Scan), s.active = false → g.scan (realVariant k) j (List.replicate (n + 1) nan) s = s := by
    intro n
    induction n with
    | zero => intro j s hs; simp [scan]
    | succ n ih =>
      intro j s hs
      rw [List.replicate_succ, List.replicate_succ, scan, ← List.replicate_succ]
      have h1 : g.scanStep (realVariant k) s (g.lat j) nan nan = s := by
        simp [scanStep, hs, not_lt_nan]
      rw [h1]
      split_ifs
      · exact ih _ _ hs
      · rfl
  have h0 : ¬ (realVariant k).Le nan := by cases realVariant k <;> simp [Le]
  rw [List.replicate_succ]
  simp only [extractKsWaveguides, ← List.replicate_succ, List.map_replicate, realVariant_missing]
  rw [h n 0 _ (by simp [h0])]
  simp [h0]

/-- C143: a boundary between a missing value and a finite one is missing; the waveguide is reported. -/
theorem C143_boundary (k : ℝ) (s : Scan) (lat y : ℝ) :
    (s.active = true → y < k → g.scanStep (fin k) s lat nan (fin y) = { s with active := false, guides := s.guides ++ [(s.start, nan)] }) ∧
      (s.active = false → k < y → g.scanStep (fin k) s lat nan (fin y) = { s with active := true, start := nan }) := by
  constructor
  · intro hs hy
    have : (fin y).Lt (fin k) := hy
    simp [scanStep, hs, this, isinf, crossing, FloatX.sub, FloatX.add, FloatX.neg, FloatX.mul, FloatX.div]
  · intro hs hy
    have : (fin k).Lt (fin y) := hy
    simp [scanStep, hs, this, isinf, crossing, FloatX.sub, FloatX.add, FloatX.neg, FloatX.mul, FloatX.div]

/-- Non-vacuity: Ks is missing from 30°N to the South Pole; the waveguide ends at the South Pole. -/
example : grid30.extractKsWaveguides ((fin 0, fin 0) :: (fin 2, fin 0) :: List.replicate 5 missingKs) (fin 1, fin 0) =
    .ok [(fin 75, fin (-90))] := by
  simp [extractKsWaveguides, scan, scanStep, grid30_nlat, grid30_lat, grid30_dlat, realVariant, crossing, FloatX.sub, FloatX.neg,
    FloatX.add, FloatX.mul, FloatX.div, Lt, Le, isinf, List.replicate, signInf, missingKs]
  norm_num

end Guide

section Examples

/-- Non-vacuity: one missing value in a column of 9 rows; the derivative is present in its own row -/
example : (List.range 9).map (fun j => (derivative true true 9 (1 : ℚ) (fun r => if r = 4 then none else some (r : ℚ)) j).isSome) =
    [false, false, false, false, true, false, false, false, false] := by decide +kernel

/-- Non-vacuity: order 2, missing at the pole -/
example : (List.range 9).map (fun j => derivative false false 9 (1 : ℚ) (fun r => if r = 0 then none else some (r : ℚ)) j) =
    [some 0, none, some 1, some 1, some 1, some 1, some 1, some 1, some 0] := by decide +kernel

end Examples

end Barotropic
