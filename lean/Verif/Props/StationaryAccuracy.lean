import Mathlib.Analysis.Real.Pi.Bounds
import Verif.Spec.Mercator
import Verif.Props.Accuracy
import Verif.Props.StationaryWavenumber
import Verif.Spec.Waves
import Mathlib.Analysis.SpecialFunctions.Trigonometric.Bounds

/-!
# C113: accuracy of the stationary wavenumber
-/

namespace Barotropic
open Grid FloatX

variable {g : Grid ℝ}

/-- the derivative of a profile, in terms of the stencil -/
theorem derivativeProfile_four (hlat : 5 ≤ g.nlat) {order : Order} (ho : order = .none ∨ order = .int 4) (a : Fin g.nlat → ℝ) :
    g.derivativeMeridional (.d1 g.nlat a) order = .ok (.d1 g.nlat fun j => stencil4 false g.nlat (col a) j / 12 / g.dphi) ∧
    g.derivativeProfile a order = .ok fun j => stencil4 false g.nlat (col a) j / 12 / g.dphi := by
  have h : g.derivativeMeridional (.d1 g.nlat a) order = .ok (.d1 g.nlat fun j => stencil4 false g.nlat (col a) j / 12 / g.dphi) := by
    unfold derivativeMeridional
    rw [if_neg (by simp [Arr.ndim, Arr.shape]), if_neg (by rcases ho with rfl | rfl <;> decide), if_pos ho]
    unfold derivative4
    rw [if_neg (by omega)]
    dsimp only
    rw [if_neg (by omega)]
  refine ⟨h, ?_⟩
  unfold derivativeProfile
  rw [h]
  dsimp only
  rw [dif_pos rfl]
  rfl

private theorem smooth4 (hg : g.Valid) (hs : g.resolution * ((g.nlat : ℝ) - 1) = 180) (hlat : 5 ≤ g.nlat)
    {F : ℝ → ℝ} (hF : ContDiff ℝ 5 F) {M : ℝ}
    (hM : ∀ φ ∈ Set.Icc (-(Real.pi / 2)) (Real.pi / 2), |iteratedDeriv 5 F φ| ≤ M) (j : Fin g.nlat) (h0 : 0 < (j : ℕ)) (h1 : (j : ℕ) < g.nlat - 1) :
    |stencil4 false g.nlat (col fun j : Fin g.nlat => F (g.phi j)) j / 12 / g.dphi - deriv F (g.phi j)|
      ≤ error4 g.nlat j * M * (Real.pi / ((g.nlat : ℝ) - 1)) ^ 4 := by
  obtain ⟨out, e, h⟩ := C111_order4_1d g hg hs hlat .none (.inl rfl) F hF M hM
  have := (derivativeProfile_four hlat (.inl rfl) fun j => F (g.phi j)).1.symm.trans e
  injection this with this
  injection this with _ this
  subst this
  exact h j h0 h1

private theorem cos_pos_row (hg : g.Valid) {j : ℕ} (h0 : 0 < j) (h1 : j < g.nlat - 1) : 0 < Real.cos (g.phi j) := by
  apply Real.cos_pos_of_mem_Ioo
  constructor
  · rw [← phi_last hg]; exact phi_strictAnti hg h1
  · rw [← phi_zero hg]; exact phi_strictAnti hg h0

private theorem ks_finite {b u m : ℝ} (h : m < |u|) (hm : 0 ≤ m) : ksSquared b u m = fin (b / u) := by
  have hu : u ≠ 0 := by intro h'; rw [h', abs_zero] at h; linarith
  unfold ksSquared
  rw [if_neg (by linarith)]
  simp [FloatX.div, hu]

private theorem relative {r Q' u c d E : ℝ} (hr : 0 < r) (hc : 0 < c) (hu : u ≠ 0) (h : |d - Q'| ≤ E) :
    |c ^ 2 * r * d / u - r ^ 2 * (c * (Q' / r)) / (u / c)| ≤ r * c ^ 2 / |u| * E := by
  have e : c ^ 2 * r * d / u - r ^ 2 * (c * (Q' / r)) / (u / c) = r * c ^ 2 / u * (d - Q') := by
    field_simp
  rw [e, abs_mul, abs_div, abs_of_pos (by positivity : 0 < r * c ^ 2)]
  exact mul_le_mul_of_nonneg_left h (by positivity)

/-- C113: for smooth zonal-mean PV and given zonal-mean wind (profiles, fields or a state) the square of the stationary wavenumber is accurate to fourth
order. -/
theorem C113_given (hg : g.Valid) (hs : g.resolution * ((g.nlat : ℝ) - 1) = 180) (hlat : 5 ≤ g.nlat) (order : Order)
    (ho : order = .none ∨ order = .int 4) (u p : ProfileOrField g) {Q U : ℝ → ℝ} (hQ : ContDiff ℝ 5 Q) (hp : ∀ j, p.zonalMean j = Q (g.phi j))
    (hu : ∀ j, u.zonalMean j = U (g.phi j)) {M : ℝ} (hM : ∀ φ ∈ Set.Icc (-(Real.pi / 2)) (Real.pi / 2), |iteratedDeriv 5 Q φ| ≤ M) {minU : ℝ} (hm : 0 ≤ minU) :
    ∃ s, g.stationaryWavenumber u (some p) order minU "squared" = .ok (.real s) ∧
      ∀ j : Fin g.nlat, 0 < (j : ℕ) → (j : ℕ) < g.nlat - 1 → minU < |U (g.phi j)| → ∃ x, s j = fin x ∧
        |x - stationarySq g.rsphere Q U (g.phi j)| ≤
          g.rsphere * Real.cos (g.phi j) ^ 2 / |U (g.phi j)| * (error4 g.nlat j * M * (Real.pi / ((g.nlat : ℝ) - 1)) ^ 4) := by
  refine ⟨fun j => ksSquared (Real.cos (g.phi j) ^ 2 * g.rsphere *
    (stencil4 false g.nlat (col fun j : Fin g.nlat => Q (g.phi j)) j / 12 / g.dphi)) (u.zonalMean j) minU, ?_, fun j h0 h1 hU => ?_⟩
  · unfold stationaryWavenumber ksPv
    dsimp only
    rw [show p.zonalMean = fun j : Fin g.nlat => Q (g.phi j) from funext hp, (derivativeProfile_four hlat ho _).2]
    simp only [if_true]
  · dsimp only
    rw [hu j, ks_finite hU hm]
    refine ⟨_, rfl, ?_⟩
    have hu0 : U (g.phi j) ≠ 0 := by intro h'; rw [h', abs_zero] at hU; linarith
    exact relative hg.rsphere_pos (cos_pos_row hg h0 h1) hu0 (smooth4 hg hs hlat hQ hM j h0 h1)

private theorem stencil4_add (h : ℕ) (a b : ℕ → ℝ) (j : ℕ) :
    stencil4 false h (fun k => a k + b k) j = stencil4 false h a j + stencil4 false h b j := by
  unfold stencil4
  split_ifs <;> ring

/-- Deviation of PV computed from wind -/
private noncomputable def pvDev (g : Grid ℝ) (U Q : ℝ → ℝ) (j : Fin g.nlat) : ℝ :=
  g.fcor j + -(stencil4 false g.nlat (col fun j : Fin g.nlat => U (g.phi j) * Real.cos (g.phi j)) j / 12 / g.dphi) / g.rsphere / Real.cos (g.phi j)
    - Q (g.phi j)

private theorem fcor_eq (j : ℕ) : g.fcor j = 2 * g.omega * Real.sin (g.phi j) := by
  unfold fcor coriolis phi
  ring

private theorem pvDev_bound (hg : g.Valid) (hs : g.resolution * ((g.nlat : ℝ) - 1) = 180) (hlat : 5 ≤ g.nlat) {U Q : ℝ → ℝ}
    (hQ : PvOfZonalFlow g.rsphere g.omega U Q) (hF : ContDiff ℝ 5 fun y => U y * Real.cos y) {M : ℝ}
    (hM : ∀ φ ∈ Set.Icc (-(Real.pi / 2)) (Real.pi / 2), |iteratedDeriv 5 (fun y => U y * Real.cos y) φ| ≤ M) (j : Fin g.nlat) (h0 : 0 < (j : ℕ))
    (h1 : (j : ℕ) < g.nlat - 1) :
    |pvDev g U Q j| ≤ 19 / 60 * M * (Real.pi / ((g.nlat : ℝ) - 1)) ^ 4 / (g.rsphere * Real.cos (g.phi j)) := by
  have hc := cos_pos_row hg h0 h1
  have hr := hg.rsphere_pos
  have hM0 : 0 ≤ M := (abs_nonneg _).trans (hM 0 ⟨by have := Real.pi_pos; linarith, by have := Real.pi_pos; linarith⟩)
  have key := smooth4 hg hs hlat hF hM j h0 h1
  have e : pvDev g U Q j = -(stencil4 false g.nlat (col fun j : Fin g.nlat => U (g.phi j) * Real.cos (g.phi j)) j / 12 / g.dphi
      - deriv (fun y => U y * Real.cos y) (g.phi j)) / (g.rsphere * Real.cos (g.phi j)) := by
    unfold pvDev
    rw [fcor_eq, hQ _ hc.ne']
    field_simp
    ring
  rw [e, abs_div, abs_neg, abs_of_pos (by positivity : 0 < g.rsphere * Real.cos (g.phi j))]
  refine div_le_div_of_nonneg_right (key.trans ?_) (by positivity)
  have he : error4 g.nlat j ≤ 19 / 60 := by
    unfold error4
    rw [if_neg (by omega)]
    split_ifs <;> norm_num
  exact mul_le_mul_of_nonneg_right (mul_le_mul_of_nonneg_right he hM0) (by positivity)

/-- the stationary wavenumber without PV, in terms of the deviation -/
private theorem from_wind (hlat : 5 ≤ g.nlat) {order : Order} (ho : order = .none ∨ order = .int 4) (u : ProfileOrField g) {U : ℝ → ℝ} (Q : ℝ → ℝ)
    (hu : ∀ j, u.zonalMean j = U (g.phi j)) (minU : ℝ) :
    g.stationaryWavenumber u none order minU "squared" = .ok (.real fun j => ksSquared (Real.cos (g.phi j) ^ 2 * g.rsphere *
      (stencil4 false g.nlat (col fun j : Fin g.nlat => Q (g.phi j)) j / 12 / g.dphi + stencil4 false g.nlat (col (pvDev g U Q)) j / 12 / g.dphi))
      (U (g.phi j)) minU) := by
  unfold stationaryWavenumber ksPv pvFromWind
  dsimp only
  rw [show u.zonalMean = fun j : Fin g.nlat => U (g.phi j) from funext hu, (derivativeProfile_four hlat ho _).2]
  dsimp only
  rw [(derivativeProfile_four hlat ho _).2]
  simp only [if_true]
  congr 3
  funext j
  rw [← add_div, ← add_div, ← stencil4_add]
  congr 5
  congr 1
  funext k
  by_cases hk : k < g.nlat
  · have e : ∀ f : Fin g.nlat → ℝ, col f k = f ⟨k, hk⟩ := fun f => dif_pos hk
    simp only [e, pvDev]
    ring
  · have e : ∀ f : Fin g.nlat → ℝ, col f k = 0 := fun f => dif_neg hk
    simp only [e]
    ring

/-- C113, wind only: at all latitudes whose difference formula does not reach the poles the square of the stationary wavenumber is accurate to third order.
`c` bounds the cosine of the latitudes in the formula. The case of latitudes close to the poles is false, see `C113_wind_refuted`. -/
theorem C113_wind_partial (hg : g.Valid) (hs : g.resolution * ((g.nlat : ℝ) - 1) = 180) (hlat : 5 ≤ g.nlat) (order : Order)
    (ho : order = .none ∨ order = .int 4) (u : ProfileOrField g) {Q U : ℝ → ℝ} (hQ : ContDiff ℝ 5 Q) (hpv : PvOfZonalFlow g.rsphere g.omega U Q)
    (hF : ContDiff ℝ 5 fun y => U y * Real.cos y) (hu : ∀ j, u.zonalMean j = U (g.phi j)) {MQ MF : ℝ}
    (hMQ : ∀ φ ∈ Set.Icc (-(Real.pi / 2)) (Real.pi / 2), |iteratedDeriv 5 Q φ| ≤ MQ)
    (hMF : ∀ φ ∈ Set.Icc (-(Real.pi / 2)) (Real.pi / 2), |iteratedDeriv 5 (fun y => U y * Real.cos y) φ| ≤ MF) {minU : ℝ} (hm : 0 ≤ minU) :
    ∃ s, g.stationaryWavenumber u none order minU "squared" = .ok (.real s) ∧
      ∀ j : Fin g.nlat, 3 ≤ (j : ℕ) → (j : ℕ) + 4 ≤ g.nlat → minU < |U (g.phi j)| →
        ∀ c > 0, (∀ k, (j : ℕ) - 2 ≤ k → k ≤ j + 2 → c ≤ Real.cos (g.phi k)) → ∃ x, s j = fin x ∧
          let h := Real.pi / ((g.nlat : ℝ) - 1)
          |x - stationarySq g.rsphere Q U (g.phi j)| ≤
            g.rsphere * Real.cos (g.phi j) ^ 2 / |U (g.phi j)| * (MQ * h ^ 4 / 18 + 19 / 40 * MF * h ^ 3 / (g.rsphere * c)) := by
  refine ⟨_, from_wind hlat ho u Q hu minU, fun j h0 h1 hU c hc hcos => ?_⟩
  dsimp only
  rw [ks_finite hU hm]
  refine ⟨_, rfl, ?_⟩
  have hr := hg.rsphere_pos
  have hu0 : U (g.phi j) ≠ 0 := by intro h'; rw [h', abs_zero] at hU; linarith
  have hn := hg.nlatm1_pos
  have hp := Real.pi_pos
  have hM0 : 0 ≤ MF := (abs_nonneg _).trans (hMF 0 ⟨by linarith, by linarith⟩)
  refine relative hr (cos_pos_row hg (by omega) (by omega)) hu0 ?_
  set h := Real.pi / ((g.nlat : ℝ) - 1) with hh
  have hpos : 0 < h := by positivity
  have k1 := smooth4 hg hs hlat hQ hMQ j (by omega) (by omega)
  have he : error4 g.nlat j = 1 / 18 := by
    unfold error4
    rw [if_neg (by omega), if_neg (by omega)]
  rw [he, ← hh] at k1
  set E := 19 / 60 * MF * h ^ 4 / (g.rsphere * c) with hE
  have dev : ∀ k, (j : ℕ) - 2 ≤ k → k ≤ j + 2 → |col (pvDev g U Q) k| ≤ E := by
    intro k hk1 hk2
    unfold col
    rw [dif_pos (by omega)]
    refine (pvDev_bound hg hs hlat hpv hF hMF ⟨k, by omega⟩ (by simp; omega) (by simp; omega)).trans ?_
    rw [hE, ← hh]
    have := hcos k hk1 hk2
    exact div_le_div_of_nonneg_left (by positivity) (by positivity) (mul_le_mul_of_nonneg_left this hr.le)
  have hd : |g.dphi| = h := by
    have : g.dphi = -h := by
      rw [hh]
      unfold dphi deg2rad Grid.dlat
      field_simp
      linarith
    rw [this, abs_neg, abs_of_pos hpos]
  have k2 : |stencil4 false g.nlat (col (pvDev g U Q)) j / 12 / g.dphi| ≤ 19 / 40 * MF * h ^ 3 / (g.rsphere * c) := by
    have s : |stencil4 false g.nlat (col (pvDev g U Q)) j| ≤ 18 * E := by
      unfold stencil4
      rw [if_neg (by omega), if_neg (by omega), if_neg (by omega), if_neg (by omega)]
      have a1 := dev (j - 2) (by omega) (by omega)
      have a2 := dev (j - 1) (by omega) (by omega)
      have a3 := dev (j + 1) (by omega) (by omega)
      have a4 := dev (j + 2) (by omega) (by omega)
      rw [abs_le] at *
      constructor <;> linarith
    rw [abs_div, abs_div, hd, div_le_iff₀ hpos, div_le_iff₀ (by norm_num)]
    refine s.trans (le_of_eq ?_)
    rw [hE, abs_of_pos (by norm_num : (0 : ℝ) < 12)]
    ring
  have := abs_add_le (stencil4 false g.nlat (col fun j : Fin g.nlat => Q (g.phi j)) j / 12 / g.dphi - deriv Q (g.phi j))
    (stencil4 false g.nlat (col (pvDev g U Q)) j / 12 / g.dphi)
  rw [show ∀ a b d : ℝ, a + b - d = a - d + b from fun a b d => by ring]
  linarith

/-! ### Solid-body rotation -/

private theorem deriv_cos2 (a b : ℝ) : deriv (fun x => a * Real.cos (2 * x) + b) = fun x => -(2 * a) * Real.sin (2 * x) := by
  funext x
  have := (((Real.hasDerivAt_cos (2 * x)).comp x ((hasDerivAt_id x).const_mul 2)).const_mul a).add_const b
  refine (this.congr_deriv ?_).deriv
  simp; ring

private theorem deriv_sin2 (a : ℝ) : deriv (fun x => a * Real.sin (2 * x)) = fun x => 2 * a * Real.cos (2 * x) + 0 := by
  funext x
  have := ((Real.hasDerivAt_sin (2 * x)).comp x ((hasDerivAt_id x).const_mul 2)).const_mul a
  refine (this.congr_deriv ?_).deriv
  simp; ring

private theorem cos_sq_form (a : ℝ) : (fun y => a * Real.cos y * Real.cos y) = fun x => a / 2 * Real.cos (2 * x) + a / 2 := by
  funext x
  rw [Real.cos_two_mul]
  ring

private theorem cos_sq_fifth (a y : ℝ) : |iteratedDeriv 5 (fun y => a * Real.cos y * Real.cos y) y| ≤ 16 * |a| := by
  rw [cos_sq_form]
  simp only [iteratedDeriv_succ, iteratedDeriv_zero, deriv_cos2, deriv_sin2]
  rw [abs_mul]
  have := mul_le_mul_of_nonneg_left (Real.abs_sin_le_one (2 * y)) (abs_nonneg (-(2 * (2 * -(2 * (2 * -(2 * (a / 2))))))))
  refine this.trans (le_of_eq ?_)
  rw [mul_one, show -(2 * (2 * -(2 * (2 * -(2 * (a / 2)))))) = -16 * a by ring, abs_mul]
  norm_num

private theorem sin_fifth (a y : ℝ) : |iteratedDeriv 5 (fun y => a * Real.sin y) y| ≤ |a| := by
  have : iteratedDeriv 5 (fun y => a * Real.sin y) = fun y => a * Real.cos y := by
    have d1 : ∀ a : ℝ, deriv (fun y => a * Real.sin y) = fun y => a * Real.cos y := fun a => by
      funext y; exact ((Real.hasDerivAt_sin y).const_mul a).deriv
    have d2 : ∀ a : ℝ, deriv (fun y => a * Real.cos y) = fun y => -a * Real.sin y := fun a => by
      funext y; exact (((Real.hasDerivAt_cos y).const_mul a).congr_deriv (by ring)).deriv
    simp only [iteratedDeriv_succ, iteratedDeriv_zero, d1, d2, neg_neg]
  rw [this, abs_mul]
  exact mul_le_of_le_one_right (abs_nonneg _) (Real.abs_cos_le_one y)

/-- PV of solid-body rotation -/
theorem pv_solidRotation {r : ℝ} (hr : r ≠ 0) (Ω A : ℝ) :
    PvOfZonalFlow r Ω (fun y => r * A * Real.cos y) fun y => 2 * (Ω + A) * Real.sin y := by
  intro φ hφ
  have : deriv (fun y => r * A * Real.cos y * Real.cos y) φ = -(2 * (r * A)) * (Real.sin φ * Real.cos φ) := by
    rw [cos_sq_form, deriv_cos2]
    dsimp only
    rw [Real.sin_two_mul]
    ring
  rw [this]
  field_simp
  ring

/-- C113, wind only, next to the pole: for solid-body rotation with angular velocity `A` relative to the planet the squared wavenumber misses the exact value
by about -1/2 on all grids. The PV at the poles, where the derivative of profiles is set to zero, is planetary vorticity alone. -/
theorem C113_pole (hg : g.Valid) (hs : g.resolution * ((g.nlat : ℝ) - 1) = 180) (hlat : 9 ≤ g.nlat) (order : Order)
    (ho : order = .none ∨ order = .int 4) {A : ℝ} (hA : A ≠ 0) {minU : ℝ} (hm : 0 ≤ minU) :
    let U := fun φ => g.rsphere * A * Real.cos φ
    let h := Real.pi / ((g.nlat : ℝ) - 1)
    ∃ s, g.stationaryWavenumber (.profile fun j => U (g.phi j)) none order minU "squared" = .ok (.real s) ∧
      (minU < |U (g.phi 1)| → ∃ x, s ⟨1, by omega⟩ = fin x ∧
        |x - stationarySq g.rsphere (fun φ => 2 * (g.omega + A) * Real.sin φ) U (g.phi 1) + Real.sin h / (2 * h)| ≤
          24 * h ^ 3 + |g.omega + A| / |A| * h ^ 5) := by
  intro U h
  set Q : ℝ → ℝ := fun φ => 2 * (g.omega + A) * Real.sin φ with hQdef
  refine ⟨_, from_wind (U := U) (by omega) ho (.profile fun j => U (g.phi j)) Q (fun _ => rfl) minU, fun hU => ?_⟩
  dsimp only
  rw [ks_finite hU hm]
  refine ⟨_, rfl, ?_⟩
  have hr := hg.rsphere_pos
  have hn := hg.nlatm1_pos
  have hp := Real.pi_pos
  have hp2 := Real.pi_lt_d2
  have hpos : 0 < h := by positivity
  have hn9 : (9 : ℝ) ≤ g.nlat := by exact_mod_cast hlat
  have h8 : 8 * h ≤ Real.pi := by
    simp only [h]
    rw [← mul_div_assoc, div_le_iff₀ hn]
    nlinarith
  have hA' : 0 < |A| := abs_pos.2 hA
  have hphi : ∀ k : ℕ, g.phi k = Real.pi / 2 - k * h := fun k => phi_eq hg k
  have hcos : ∀ k : ℕ, Real.cos (g.phi k) = Real.sin (k * h) := fun k => by rw [hphi, Real.cos_pi_div_two_sub]
  have hsin : 0 < Real.sin h := Real.sin_pos_of_pos_of_lt_pi hpos (by linarith)
  have hsin' : Real.sin h ≤ h := Real.sin_le hpos.le
  have hjordan : 2 / Real.pi * h ≤ Real.sin h := Real.mul_le_sin hpos.le (by linarith)
  have hpv : PvOfZonalFlow g.rsphere g.omega U Q := pv_solidRotation hr.ne' _ _
  have hF : ContDiff ℝ 5 fun y => U y * Real.cos y := by
    simp only [U]; fun_prop
  have hMF : ∀ φ ∈ Set.Icc (-(Real.pi / 2)) (Real.pi / 2), |iteratedDeriv 5 (fun y => U y * Real.cos y) φ| ≤ 16 * (g.rsphere * |A|) := by
    intro φ _
    have := cos_sq_fifth (g.rsphere * A) φ
    rwa [abs_mul, abs_of_pos hr] at this
  have hd : g.dphi = -h := by
    simp only [h]
    unfold dphi deg2rad Grid.dlat
    field_simp
    linarith
  -- deviations of PV
  have dev : ∀ k : ℕ, 1 ≤ k → k ≤ 4 → |col (pvDev g U Q) k| ≤ 8 * |A| * h ^ 3 := by
    intro k hk1 hk4
    have e : col (pvDev g U Q) k = pvDev g U Q ⟨k, by omega⟩ := dif_pos _
    rw [e]
    refine (pvDev_bound hg hs (by omega) hpv hF hMF ⟨k, by omega⟩ hk1 (by simp; omega)).trans ?_
    have hk : (1 : ℝ) ≤ k := by exact_mod_cast hk1
    have hk' : (k : ℝ) ≤ 4 := by exact_mod_cast hk4
    have c1 : 2 / Real.pi * h ≤ Real.cos (g.phi k) := by
      rw [hcos]
      refine hjordan.trans (Real.sin_le_sin_of_le_of_le_pi_div_two (by linarith) (by nlinarith) (by nlinarith))
    have c2 : 0 < 2 / Real.pi * h := by positivity
    rw [show Real.pi / ((g.nlat : ℝ) - 1) = h from rfl, div_le_iff₀ (mul_pos hr (c2.trans_le c1))]
    have c3 : 8 * |A| * h ^ 3 * (g.rsphere * (2 / Real.pi * h)) ≤ 8 * |A| * h ^ 3 * (g.rsphere * Real.cos (g.phi k)) :=
      mul_le_mul_of_nonneg_left (mul_le_mul_of_nonneg_left c1 hr.le) (by positivity)
    refine le_trans ?_ c3
    have c4 : 8 * |A| * h ^ 3 * (g.rsphere * (2 / Real.pi * h)) = 16 / Real.pi * (|A| * h ^ 4 * g.rsphere) := by
      field_simp; norm_num
    rw [c4, show 19 / 60 * (16 * (g.rsphere * |A|)) * h ^ 4 = 76 / 15 * (|A| * h ^ 4 * g.rsphere) by ring]
    refine mul_le_mul_of_nonneg_right ?_ (by positivity)
    rw [le_div_iff₀ hp]
    linarith
  have dev0 : col (pvDev g U Q) 0 = -2 * A := by
    have e : col (pvDev g U Q) 0 = pvDev g U Q ⟨0, by omega⟩ := dif_pos _
    rw [e]
    unfold pvDev stencil4
    rw [if_pos rfl, if_neg (by decide), fcor_eq]
    simp only [hQdef, phi_zero hg, Real.sin_pi_div_two]
    ring
  have k1 := smooth4 hg hs (by omega) (show ContDiff ℝ 5 Q by simp only [hQdef]; fun_prop) (fun φ _ => sin_fifth (2 * (g.omega + A)) φ) ⟨1, by omega⟩ (by simp)
    (by simp; omega)
  rw [show error4 g.nlat ((⟨1, by omega⟩ : Fin g.nlat) : ℕ) = 19 / 60 by unfold error4; rw [if_neg (by simp; omega), if_pos (.inl rfl)]] at k1
  rw [show Real.pi / ((g.nlat : ℝ) - 1) = h from rfl] at k1
  dsimp only at k1
  set D := stencil4 false g.nlat (col fun j : Fin g.nlat => Q (g.phi j)) 1 / 12 / g.dphi with hD
  have k2 : stencil4 false g.nlat (col (pvDev g U Q)) 1 = 6 * A - 10 * col (pvDev g U Q) 1 + 18 * col (pvDev g U Q) 2
      - 6 * col (pvDev g U Q) 3 + col (pvDev g U Q) 4 := by
    unfold stencil4
    rw [if_neg (by omega), if_neg (by omega), if_pos rfl, dev0]
    ring
  have a1 := dev 1 (by omega) (by omega)
  have a2 := dev 2 (by omega) (by omega)
  have a3 := dev 3 (by omega) (by omega)
  have a4 := dev 4 (by omega) (by omega)
  set R := -10 * col (pvDev g U Q) 1 + 18 * col (pvDev g U Q) 2 - 6 * col (pvDev g U Q) 3 + col (pvDev g U Q) 4 with hR
  have k3 : |R| ≤ 280 * |A| * h ^ 3 := by
    rw [abs_le] at *
    constructor <;> linarith
  have k4 : stencil4 false g.nlat (col (pvDev g U Q)) 1 = 6 * A + R := by rw [k2, hR]; ring
  rw [k4, hd]
  have hc1 : Real.cos (g.phi 1) = Real.sin h := by rw [hcos]; simp
  have e : Real.cos (g.phi 1) ^ 2 * g.rsphere * (D + (6 * A + R) / 12 / -h) / U (g.phi 1) - stationarySq g.rsphere Q U (g.phi 1) + Real.sin h / (2 * h)
      = Real.sin h / A * (D - deriv Q (g.phi 1) - R / (12 * h)) := by
    unfold stationarySq mercatorBeta mercatorWind
    simp only [U]
    rw [hc1]
    field_simp
    ring
  rw [show g.phi ((⟨1, by omega⟩ : Fin g.nlat) : ℕ) = g.phi 1 from rfl, e, abs_mul, abs_div, abs_of_pos hsin]
  have k5 : |R / (12 * h)| ≤ 24 * |A| * h ^ 2 := by
    rw [abs_div, abs_of_pos (by positivity : 0 < 12 * h), div_le_iff₀ (by positivity)]
    have : 0 ≤ |A| * h ^ 3 := by positivity
    linarith [k3]
  have k6 : |D - deriv Q (g.phi 1) - R / (12 * h)| ≤ |g.omega + A| * h ^ 4 + 24 * |A| * h ^ 2 := by
    refine (abs_sub _ _).trans (add_le_add (k1.trans ?_) k5)
    rw [abs_mul, abs_of_pos (by norm_num : (0 : ℝ) < 2)]
    have : 0 ≤ |g.omega + A| * h ^ 4 := by positivity
    linarith
  calc Real.sin h / |A| * |D - deriv Q (g.phi 1) - R / (12 * h)| ≤ h / |A| * (|g.omega + A| * h ^ 4 + 24 * |A| * h ^ 2) :=
        mul_le_mul (div_le_div_of_nonneg_right hsin' hA'.le) k6 (abs_nonneg _) (by positivity)
    _ = _ := by field_simp; ring

/-- C113 is false for wind without PV: next to the pole the squared stationary wavenumber of solid-body rotation is wrong by at least 1/4, however fine
the grid. -/
theorem C113_wind_refuted (r Ω A : ℝ) (hr : 0 < r) (hA : A ≠ 0) (order : Order) (ho : order = .none ∨ order = .int 4) :
    ∀ δ > 0, ∃ g : Grid ℝ, g.Valid ∧ g.resolution * ((g.nlat : ℝ) - 1) = 180 ∧ g.rsphere = r ∧ g.omega = Ω ∧ g.resolution < δ ∧
      PvOfZonalFlow r Ω (fun φ => r * A * Real.cos φ) (fun φ => 2 * (Ω + A) * Real.sin φ) ∧
      ∃ s, g.stationaryWavenumber (.profile fun j => r * A * Real.cos (g.phi j)) none order 0 "squared" = .ok (.real s) ∧
        ∃ j, ∃ x, s j = fin x ∧ 1 / 4 ≤ |x - stationarySq r (fun φ => 2 * (Ω + A) * Real.sin φ) (fun φ => r * A * Real.cos φ) (g.phi j)| := by
  intro δ hδ
  have hp := Real.pi_pos
  set c := |Ω + A| / |A| with hc
  have hc0 : 0 ≤ c := by positivity
  obtain ⟨k, hk⟩ := exists_nat_gt (max (180 / δ) (Real.pi * (8 * (24 + c)) + 8))
  have hk1 : 180 / δ < k := (le_max_left _ _).trans_lt hk
  have hk2 : Real.pi * (8 * (24 + c)) + 8 < k := (le_max_right _ _).trans_lt hk
  have hk8 : (8 : ℝ) < k := by
    have : 0 ≤ Real.pi * (8 * (24 + c)) := by positivity
    linarith
  have hk8' : 8 < k := by exact_mod_cast hk8
  have hk0 : (0 : ℝ) < k := by linarith
  have h1 : (⟨180 / k, r, Ω, 0⟩ : Grid ℝ).nlon = 2 * k := by
    unfold Grid.nlon nlonOf
    rw [show (360 : ℝ) / (180 / k) = ((2 * k : ℕ) : ℝ) by push_cast; field_simp; norm_num, Nat.floor_natCast]
  have h2 : (⟨180 / k, r, Ω, 0⟩ : Grid ℝ).nlat = k + 1 := by
    unfold Grid.nlat nlatOf
    rw [show (180 : ℝ) / (180 / k) = (k : ℝ) by field_simp, Nat.floor_natCast]
  have hv : (⟨180 / k, r, Ω, 0⟩ : Grid ℝ).Valid := ⟨by positivity, hr, by rw [h1]; omega, by rw [h2]; omega, by simp⟩
  have hs : (⟨180 / k, r, Ω, 0⟩ : Grid ℝ).resolution * (((⟨180 / k, r, Ω, 0⟩ : Grid ℝ).nlat : ℝ) - 1) = 180 := by
    rw [h2]; push_cast; field_simp; ring
  set g : Grid ℝ := ⟨180 / k, r, Ω, 0⟩ with hgdef
  obtain ⟨s, e1, e2⟩ := C113_pole hv hs (by rw [h2]; omega) order ho hA le_rfl
  have hh : Real.pi / ((g.nlat : ℝ) - 1) = Real.pi / k := by rw [h2]; push_cast; ring_nf
  rw [hh] at e2
  set h := Real.pi / (k : ℝ) with hhdef
  have hpos : 0 < h := by positivity
  have hsmall : h * (8 * (24 + c)) ≤ 1 := by
    rw [hhdef, div_mul_eq_mul_div, div_le_one hk0]; linarith
  have hle1 : h ≤ 1 := by nlinarith
  have hsin : h - h ^ 3 / 6 < Real.sin h := Real.sin_gt_sub_cube hpos
  have hphi : Real.cos (g.phi 1) = Real.sin h := by
    have : g.phi 1 = Real.pi / 2 - h := by rw [phi_eq hv, hh]; simp
    rw [this, Real.cos_pi_div_two_sub]
  have hsp : 0 < Real.sin h := by nlinarith [pow_pos hpos 3, mul_self_nonneg h]
  refine ⟨g, hv, hs, rfl, rfl, ?_, pv_solidRotation hr.ne' _ _, s, e1, ⟨1, by rw [h2]; omega⟩, ?_⟩
  · change 180 / (k : ℝ) < δ
    rw [div_lt_iff₀ hk0]
    rw [div_lt_iff₀ hδ] at hk1
    linarith
  obtain ⟨x, ex, hx⟩ := e2 (by
    dsimp only
    rw [hphi, abs_pos]
    exact mul_ne_zero (mul_ne_zero hr.ne' hA) hsp.ne')
  refine ⟨x, ex, ?_⟩
  have q1 : 3 / 8 ≤ Real.sin h / (2 * h) := by
    rw [le_div_iff₀ (by positivity)]
    nlinarith [pow_pos hpos 3, mul_self_nonneg h]
  have q2 : 24 * h ^ 3 + c * h ^ 5 ≤ 1 / 8 := by
    have i1 : h ^ 3 ≤ h := pow_le_of_le_one hpos.le hle1 (by norm_num)
    have i2 : h ^ 5 ≤ h := pow_le_of_le_one hpos.le hle1 (by norm_num)
    nlinarith
  change |x - stationarySq r (fun φ => 2 * (Ω + A) * Real.sin φ) (fun φ => r * A * Real.cos φ) (g.phi 1) + _| ≤ 24 * h ^ 3 + c * h ^ 5 at hx
  change 1 / 4 ≤ |x - stationarySq r (fun φ => 2 * (Ω + A) * Real.sin φ) (fun φ => r * A * Real.cos φ) (g.phi 1)|
  have := (abs_le.1 hx).2
  rw [le_abs]
  right
  linarith

/-- The exact stationary wavenumber of solid-body rotation is that of the waves that C109 propagates with zero speed: total wavenumber `n` is stationary
if and only if `Ks² = n (n + 1) cos² φ` at any, hence all latitudes. -/
theorem C113_stationary_wave {r Ω A : ℝ} (hr : r ≠ 0) (hA : A ≠ 0) {n : ℕ} (hn : 0 < n) {φ : ℝ} (hφ : Real.cos φ ≠ 0) :
    waveSpeed Ω (Ω + A) n = 0 ↔
      stationarySq r (fun φ => 2 * (Ω + A) * Real.sin φ) (fun φ => r * A * Real.cos φ) φ = n * (n + 1) * Real.cos φ ^ 2 := by
  have hn' : (n : ℝ) * (n + 1) ≠ 0 := by positivity
  have hd : deriv (fun φ => 2 * (Ω + A) * Real.sin φ) φ = 2 * (Ω + A) * Real.cos φ := ((Real.hasDerivAt_sin φ).const_mul _).deriv
  unfold waveSpeed stationarySq mercatorBeta mercatorWind
  rw [hd, show Ω + A - Ω = A by ring, sub_eq_zero, eq_div_iff hn']
  rw [show r ^ 2 * (Real.cos φ * (2 * (Ω + A) * Real.cos φ / r)) / (r * A * Real.cos φ / Real.cos φ) = 2 * (Ω + A) * Real.cos φ ^ 2 / A by field_simp,
    div_eq_iff hA]
  constructor
  · intro h
    rw [← h]
    ring
  · intro h
    exact mul_right_cancel₀ (pow_ne_zero 2 hφ) (by linear_combination -h)

/-- Non-vacuity of C113: solid-body rotation on a grid of 10 degrees, where the bounds at 40°N are those of the theorems -/
example : let g : Grid ℝ := ⟨10, 1, 1, 0⟩
    g.Valid ∧ g.resolution * ((g.nlat : ℝ) - 1) = 180 ∧ 9 ≤ g.nlat ∧ PvOfZonalFlow g.rsphere g.omega (fun φ => 1 * 1 * Real.cos φ) (fun φ => 2 * (1 + 1) * Real.sin φ) ∧
    ContDiff ℝ 5 (fun φ => 2 * (1 + 1) * Real.sin φ) ∧ ContDiff ℝ 5 (fun φ => 1 * 1 * Real.cos φ * Real.cos φ) ∧
    (∀ φ ∈ Set.Icc (-(Real.pi / 2)) (Real.pi / 2), |iteratedDeriv 5 (fun φ => 2 * (1 + 1) * Real.sin φ) φ| ≤ 4) ∧
    (∀ φ ∈ Set.Icc (-(Real.pi / 2)) (Real.pi / 2), |iteratedDeriv 5 (fun φ => 1 * 1 * Real.cos φ * Real.cos φ) φ| ≤ 16) ∧
    0 < |1 * 1 * Real.cos (g.phi 5)| := by
  intro g
  have h1 : g.nlon = 36 := by unfold Grid.nlon nlonOf; norm_num [g]
  have h2 : g.nlat = 19 := by unfold Grid.nlat nlatOf; norm_num [g]
  have hv : g.Valid := ⟨by norm_num [g], by norm_num [g], by rw [h1]; norm_num, by rw [h2]; norm_num, by simp [g]⟩
  refine ⟨hv, by rw [h2]; norm_num [g], by rw [h2]; norm_num, pv_solidRotation one_ne_zero 1 1, by fun_prop, by fun_prop,
    fun φ _ => (sin_fifth _ φ).trans (by norm_num), fun φ _ => (cos_sq_fifth _ φ).trans (by norm_num), ?_⟩
  rw [one_mul, one_mul]
  exact abs_pos.2 (cos_pos_row hv (by norm_num) (by rw [h2]; norm_num)).ne'

end Barotropic
