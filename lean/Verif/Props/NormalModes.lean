import Verif.Spec.NormalModes
import Verif.Props.StationaryWave
import Mathlib.MeasureTheory.Integral.IntervalIntegral.FundThmCalculus

/-!
# C167: growing waves need a change of sign of the PV gradient
-/

namespace Barotropic
open Real (cos sin)

/-- `cos² φ` times the Laplacian of a wave on the unit sphere -/
noncomputable def modeLaplace (k : ℕ) (A : ℝ → ℝ) (y : ℝ) : ℝ := cos y * deriv (fun z => cos z * deriv A z) y - k ^ 2 * A y

theorem dlon_moving (F : ℝ → ℝ → ℝ) (e d x y : ℝ) : dlon (fun x y => e * F (x - d) y) x y = e * dlon F (x - d) y := by
  unfold dlon
  rw [deriv_const_mul_field, deriv_comp_sub_const (f := fun x => F x y)]

theorem dlat_moving (F : ℝ → ℝ → ℝ) (e d x y : ℝ) : dlat (fun x y => e * F (x - d) y) x y = e * dlat F (x - d) y := by
  unfold dlat
  rw [deriv_const_mul_field]

theorem grad_moving (r : ℝ) (F : ℝ → ℝ → ℝ) (e d x y : ℝ) :
    sphereGrad r (fun x y => e * F (x - d) y) x y = (e * (sphereGrad r F (x - d) y).1, e * (sphereGrad r F (x - d) y).2) := by
  unfold sphereGrad
  rw [dlon_moving, dlat_moving]
  simp only [Prod.mk.injEq]
  constructor <;> ring

theorem laplacian_moving (r : ℝ) (F : ℝ → ℝ → ℝ) (e d x y : ℝ) :
    sphereLaplacian r (fun x y => e * F (x - d) y) x y = e * sphereLaplacian r F (x - d) y := by
  unfold sphereLaplacian sphereDiv
  simp only [grad_moving]
  have h1 := dlon_moving (fun x y => (sphereGrad r F x y).1) e d x y
  have h2 := dlat_moving (fun x y => (sphereGrad r F x y).2 * cos y) e d x y
  rw [h1, show (fun x y => e * (sphereGrad r F (x - d) y).2 * cos y) = fun x y => e * ((sphereGrad r F (x - d) y).2 * cos y) by
    funext x y; ring, h2]
  ring

theorem waveOf_hasDeriv (k : ℕ) (A B : ℝ → ℝ) (x y : ℝ) : HasDerivAt (fun x => waveOf k A B x y) (k * waveOf k B (-A) x y) x := by
  have h : HasDerivAt (fun x => waveOf k A B x y) (A y * (-sin (k * x) * (k * 1)) + B y * (cos (k * x) * (k * 1))) x := by
    unfold waveOf
    exact (((Real.hasDerivAt_cos _).comp x ((hasDerivAt_id x).const_mul (k : ℝ))).const_mul _).add
      (((Real.hasDerivAt_sin _).comp x ((hasDerivAt_id x).const_mul (k : ℝ))).const_mul _)
  refine h.congr_deriv ?_
  simp only [waveOf, Pi.neg_apply]
  ring

/-- C167: growth and motion of a normal mode follow from two ordinary differential equations for its structure (Rayleigh's equation). -/
theorem C167_equation {r : ℝ} (hr : r ≠ 0) {Q U : ℝ → ℝ} {k : ℕ} (hk : k ≠ 0) {A B : ℝ → ℝ} (hA : ContDiff ℝ 2 A) (hB : ContDiff ℝ 2 B) (σ c : ℝ) :
    LinearWave r Q U (normalMode k A B σ c) ↔ ∀ y ∈ Set.Ioo (-(Real.pi / 2)) (Real.pi / 2),
      σ * modeLaplace k A y + k * (angularWind r U y - c) * modeLaplace k B y + k * cos y * deriv Q y * B y = 0 ∧
      σ * modeLaplace k B y - k * (angularWind r U y - c) * modeLaplace k A y - k * cos y * deriv Q y * A y = 0 := by
  unfold LinearWave
  have hsw : ∀ P : ℝ → ℝ → ℝ → Prop, (∀ t x, ∀ y ∈ Set.Ioo (-(Real.pi / 2)) (Real.pi / 2), P t x y) ↔
      ∀ y ∈ Set.Ioo (-(Real.pi / 2)) (Real.pi / 2), ∀ t x, P t x y := fun P => ⟨fun h y hy t x => h t x y hy, fun h t x y hy => h y hy t x⟩
  rw [hsw]
  refine forall_congr' fun y => forall_congr' fun hy => ?_
  have hc : cos y ≠ 0 := (cos_pos_of hy).ne'
  have hlap : ∀ x, sphereLaplacian r (waveOf k A B) x y = waveOf k (fun y => modeLaplace k A y / (r * cos y) ^ 2) (fun y => modeLaplace k B y / (r * cos y) ^ 2) x y := by
    intro x
    rw [laplacian_waveOf r k hA hB]
    simp only [waveOf, modeLaplace]
    field_simp
  have e1 : ∀ t x, sphereLaplacian r (normalMode k A B σ c t) x y =
      Real.exp (σ * t) * waveOf k (fun y => modeLaplace k A y / (r * cos y) ^ 2) (fun y => modeLaplace k B y / (r * cos y) ^ 2) (x - c * t) y := by
    intro t x
    rw [← hlap, ← laplacian_moving]
    rfl
  have key : ∀ t x, deriv (fun t => sphereLaplacian r (normalMode k A B σ c t) x y) t +
        U y / (r * cos y) * dlon (sphereLaplacian r (normalMode k A B σ c t)) x y + (sphereGrad r (normalMode k A B σ c t) x y).1 * (deriv Q y / r) =
      Real.exp (σ * t) / (r * cos y) ^ 2 * waveOf k
        (fun y => σ * modeLaplace k A y + k * (angularWind r U y - c) * modeLaplace k B y + k * cos y * deriv Q y * B y)
        (fun y => σ * modeLaplace k B y - k * (angularWind r U y - c) * modeLaplace k A y - k * cos y * deriv Q y * A y) (x - c * t) y := by
    intro t x
    have d1 : HasDerivAt (fun t => sphereLaplacian r (normalMode k A B σ c t) x y) (Real.exp (σ * t) * σ *
        waveOf k (fun y => modeLaplace k A y / (r * cos y) ^ 2) (fun y => modeLaplace k B y / (r * cos y) ^ 2) (x - c * t) y +
        Real.exp (σ * t) * (k * waveOf k (fun y => modeLaplace k B y / (r * cos y) ^ 2) (-fun y => modeLaplace k A y / (r * cos y) ^ 2) (x - c * t) y * (-c))) t := by
      simp only [e1]
      have a1 : HasDerivAt (fun t => Real.exp (σ * t)) (Real.exp (σ * t) * σ) t := by
        have := ((hasDerivAt_id t).const_mul σ).exp
        simpa using this
      have a2 : HasDerivAt (fun t => x - c * t) (-c) t := by
        have := ((hasDerivAt_id t).const_mul c).const_sub x
        simpa using this
      have a3 := (waveOf_hasDeriv k (fun y => modeLaplace k A y / (r * cos y) ^ 2) (fun y => modeLaplace k B y / (r * cos y) ^ 2) (x - c * t) y).comp t a2
      exact a1.mul a3
    have d2 : dlon (sphereLaplacian r (normalMode k A B σ c t)) x y = Real.exp (σ * t) *
        (k * waveOf k (fun y => modeLaplace k B y / (r * cos y) ^ 2) (-fun y => modeLaplace k A y / (r * cos y) ^ 2) (x - c * t) y) := by
      have := dlon_moving (waveOf k (fun y => modeLaplace k A y / (r * cos y) ^ 2) (fun y => modeLaplace k B y / (r * cos y) ^ 2)) (Real.exp (σ * t)) (c * t) x y
      rw [dlon_waveOf] at this
      rw [← this]
      unfold dlon
      congr 1
      funext x
      exact e1 t x
    have d3 : (sphereGrad r (normalMode k A B σ c t) x y).1 = Real.exp (σ * t) * (k * waveOf k B (-A) (x - c * t) y / (r * cos y)) := by
      rw [show normalMode k A B σ c t = fun x y => Real.exp (σ * t) * waveOf k A B (x - c * t) y from rfl, grad_moving]
      simp only [sphereGrad, dlon_waveOf]
    rw [d1.deriv, d2, d3]
    simp only [waveOf, Pi.neg_apply, angularWind]
    field_simp
    ring
  have hpos : ∀ t, Real.exp (σ * t) / (r * cos y) ^ 2 ≠ 0 := fun t => div_ne_zero (Real.exp_pos _).ne' (pow_ne_zero _ (mul_ne_zero hr hc))
  simp only [key, mul_eq_zero, hpos, false_or]
  rw [← waveOf_zero hk (A := fun y => σ * modeLaplace k A y + k * (angularWind r U y - c) * modeLaplace k B y + k * cos y * deriv Q y * B y)
    (B := fun y => σ * modeLaplace k B y - k * (angularWind r U y - c) * modeLaplace k A y - k * cos y * deriv Q y * A y)]
  refine ⟨fun h x => by simpa using h 0 x, fun h t x => h _⟩

/-- A function with slope of one sign that vanishes at both poles vanishes everywhere, and so does the slope. -/
theorem slope_vanishes {G G' : ℝ → ℝ} (hG : ∀ y, HasDerivAt G (G' y) y) (h0 : G (-(Real.pi / 2)) = 0) (h1 : G (Real.pi / 2) = 0)
    (hs : ∀ y ∈ Set.Ioo (-(Real.pi / 2)) (Real.pi / 2), 0 ≤ G' y) : ∀ y ∈ Set.Ioo (-(Real.pi / 2)) (Real.pi / 2), G' y = 0 := by
  have hmono : MonotoneOn G (Set.Icc (-(Real.pi / 2)) (Real.pi / 2)) := by
    refine monotoneOn_of_deriv_nonneg (convex_Icc _ _) (fun y _ => (hG y).continuousAt.continuousWithinAt)
      (fun y _ => (hG y).differentiableAt.differentiableWithinAt) fun y hy => ?_
    rw [interior_Icc] at hy
    rw [(hG y).deriv]
    exact hs y hy
  intro y hy
  have hz : G =ᶠ[nhds y] fun _ => 0 := by
    filter_upwards [isOpen_Ioo.mem_nhds hy] with z hz
    have hab := (hz.1.trans hz.2).le
    have a1 := hmono ⟨le_rfl, hab⟩ ⟨hz.1.le, hz.2.le⟩ hz.1.le
    have a2 := hmono ⟨hz.1.le, hz.2.le⟩ ⟨hab, le_rfl⟩ hz.2.le
    linarith
  rw [← (hG y).deriv, hz.deriv_eq]
  simp

section criteria
variable {r : ℝ} {Q U : ℝ → ℝ} {k : ℕ} {A B : ℝ → ℝ} {σ c : ℝ}

/-- The two identities behind the criteria, at one latitude -/
theorem mode_identities {w q C a b p s : ℝ} {κ : ℝ} (hσ : σ ≠ 0) (e1 : σ * p + κ * w * s + κ * C * q * b = 0) (e2 : σ * s - κ * w * p - κ * C * q * a = 0) :
    a * s - b * p = κ * C * q * σ * (a ^ 2 + b ^ 2) / (σ ^ 2 + κ ^ 2 * w ^ 2) ∧
    a * p + b * s = -(κ ^ 2 * C * q * w * (a ^ 2 + b ^ 2) / (σ ^ 2 + κ ^ 2 * w ^ 2)) := by
  have hD : σ ^ 2 + κ ^ 2 * w ^ 2 ≠ 0 := by positivity
  constructor
  · rw [eq_div_iff hD]
    linear_combination (a * κ * w - b * σ) * e1 + (a * σ + b * κ * w) * e2
  · rw [eq_neg_iff_add_eq_zero, ← mul_right_inj' hD, mul_zero, mul_add, mul_div_cancel₀ _ hD]
    linear_combination (a * σ + b * κ * w) * e1 + (b * σ - a * κ * w) * e2

variable (hr : r ≠ 0) (hk : k ≠ 0) (hA : ContDiff ℝ 2 A) (hB : ContDiff ℝ 2 B) (hσ : σ ≠ 0) (hw : LinearWave r Q U (normalMode k A B σ c))
include hA hB

theorem momentumFlux_deriv (y : ℝ) : HasDerivAt (fun y => A y * (cos y * deriv B y) - B y * (cos y * deriv A y))
    (A y * deriv (fun z => cos z * deriv B z) y - B y * deriv (fun z => cos z * deriv A z) y) y := by
  obtain ⟨a1, a2, a3, a4⟩ := structure_differentiable hA
  obtain ⟨b1, b2, b3, b4⟩ := structure_differentiable hB
  refine (((a1 y).hasDerivAt.mul (b4 y).hasDerivAt).sub ((b1 y).hasDerivAt.mul (a4 y).hasDerivAt)).congr_deriv ?_
  ring

theorem amplitude_deriv (y : ℝ) : HasDerivAt (fun y => A y * (cos y * deriv A y) + B y * (cos y * deriv B y))
    (cos y * (deriv A y ^ 2 + deriv B y ^ 2) + (A y * deriv (fun z => cos z * deriv A z) y + B y * deriv (fun z => cos z * deriv B z) y)) y := by
  obtain ⟨a1, a2, a3, a4⟩ := structure_differentiable hA
  obtain ⟨b1, b2, b3, b4⟩ := structure_differentiable hB
  refine (((a1 y).hasDerivAt.mul (a4 y).hasDerivAt).add ((b1 y).hasDerivAt.mul (b4 y).hasDerivAt)).congr_deriv ?_
  ring

include hr hk hσ hw

/-- C167 (Fjørtoft's criterion): in a growing or decaying wave, for every angular velocity `ω₀` the PV gradient and the angular velocity of the flow relative to
`ω₀` have the same sign somewhere (where the amplitude is not zero). -/
theorem C167_fjortoft (hne : ∃ y ∈ Set.Ioo (-(Real.pi / 2)) (Real.pi / 2), A y ≠ 0 ∨ B y ≠ 0) (ω₀ : ℝ) :
    ∃ y ∈ Set.Ioo (-(Real.pi / 2)) (Real.pi / 2), 0 < deriv Q y * (angularWind r U y - ω₀) ∧ (A y ≠ 0 ∨ B y ≠ 0) := by
  by_contra hcon
  push Not at hcon
  have hterm : ∀ y ∈ Set.Ioo (-(Real.pi / 2)) (Real.pi / 2),
      0 ≤ k ^ 2 * (-(deriv Q y * (angularWind r U y - ω₀))) * (A y ^ 2 + B y ^ 2) / (σ ^ 2 + k ^ 2 * (angularWind r U y - c) ^ 2) := by
    intro y hy
    rcases lt_or_ge 0 (deriv Q y * (angularWind r U y - ω₀)) with h | h
    · obtain ⟨hA0, hB0⟩ := hcon y hy h
      rw [hA0, hB0]
      simp
    · have : 0 ≤ -(deriv Q y * (angularWind r U y - ω₀)) := by linarith
      positivity
  have hk' : (k : ℝ) ≠ 0 := by exact_mod_cast hk
  have hode := (C167_equation hr hk hA hB σ c).mp hw
  have hG := fun y => (amplitude_deriv hA hB y).add ((momentumFlux_deriv hA hB y).const_mul (k * (ω₀ - c) / σ))
  have hval : ∀ y ∈ Set.Ioo (-(Real.pi / 2)) (Real.pi / 2), cos y * (deriv A y ^ 2 + deriv B y ^ 2) +
        (A y * deriv (fun z => cos z * deriv A z) y + B y * deriv (fun z => cos z * deriv B z) y) +
        k * (ω₀ - c) / σ * (A y * deriv (fun z => cos z * deriv B z) y - B y * deriv (fun z => cos z * deriv A z) y) =
      cos y * (deriv A y ^ 2 + deriv B y ^ 2) + k ^ 2 * (A y ^ 2 + B y ^ 2) / cos y +
        k ^ 2 * (-(deriv Q y * (angularWind r U y - ω₀))) * (A y ^ 2 + B y ^ 2) / (σ ^ 2 + k ^ 2 * (angularWind r U y - c) ^ 2) := by
    intro y hy
    have hc := (cos_pos_of hy).ne'
    obtain ⟨o1, o2⟩ := hode y hy
    obtain ⟨i1, i2⟩ := mode_identities hσ o1 o2
    have hD : σ ^ 2 + k ^ 2 * (angularWind r U y - c) ^ 2 ≠ 0 := by positivity
    unfold modeLaplace at i1 i2
    have j1 : A y * deriv (fun z => cos z * deriv B z) y - B y * deriv (fun z => cos z * deriv A z) y =
        k * deriv Q y * σ * (A y ^ 2 + B y ^ 2) / (σ ^ 2 + k ^ 2 * (angularWind r U y - c) ^ 2) := by
      apply mul_left_cancel₀ hc
      linear_combination i1
    have j2 : A y * deriv (fun z => cos z * deriv A z) y + B y * deriv (fun z => cos z * deriv B z) y =
        k ^ 2 * (A y ^ 2 + B y ^ 2) / cos y - k ^ 2 * deriv Q y * (angularWind r U y - c) * (A y ^ 2 + B y ^ 2) / (σ ^ 2 + k ^ 2 * (angularWind r U y - c) ^ 2) := by
      apply mul_left_cancel₀ hc
      rw [mul_sub, mul_div_cancel₀ _ hc]
      linear_combination i2
    rw [j1, j2]
    field_simp
    ring
  have hz := slope_vanishes hG (by simp [Real.cos_neg, Real.cos_pi_div_two]) (by simp [Real.cos_pi_div_two]) fun y hy => by
    rw [hval y hy]
    have hc := cos_pos_of hy
    have h1 := hterm y hy
    positivity
  obtain ⟨y, hy, hne⟩ := hne
  have h0 := hz y hy
  rw [hval y hy] at h0
  have hc := cos_pos_of hy
  have p1 : 0 ≤ cos y * (deriv A y ^ 2 + deriv B y ^ 2) := by positivity
  have p2 : 0 < k ^ 2 * (A y ^ 2 + B y ^ 2) / cos y := by
    have : 0 < A y ^ 2 + B y ^ 2 := by
      rcases hne with h | h <;> positivity
    positivity
  have p3 : 0 ≤ k ^ 2 * (-(deriv Q y * (angularWind r U y - ω₀))) * (A y ^ 2 + B y ^ 2) / (σ ^ 2 + k ^ 2 * (angularWind r U y - c) ^ 2) := hterm y hy
  linarith

/-- C167 (Rayleigh's and Kuo's criterion): a growing or decaying wave exists only on flows with a change of sign of the PV gradient. -/
theorem C167_rayleigh (hne : ∃ y ∈ Set.Ioo (-(Real.pi / 2)) (Real.pi / 2), A y ≠ 0 ∨ B y ≠ 0) :
    (∃ y ∈ Set.Ioo (-(Real.pi / 2)) (Real.pi / 2), 0 < deriv Q y) ∧ ∃ y ∈ Set.Ioo (-(Real.pi / 2)) (Real.pi / 2), deriv Q y < 0 := by
  have hk' : (k : ℝ) ≠ 0 := by exact_mod_cast hk
  have hode := (C167_equation hr hk hA hB σ c).mp hw
  have hJ : ∀ y ∈ Set.Ioo (-(Real.pi / 2)) (Real.pi / 2), A y * deriv (fun z => cos z * deriv B z) y - B y * deriv (fun z => cos z * deriv A z) y =
      k * σ * (deriv Q y * (A y ^ 2 + B y ^ 2)) / (σ ^ 2 + k ^ 2 * (angularWind r U y - c) ^ 2) := by
    intro y hy
    have hc := (cos_pos_of hy).ne'
    obtain ⟨o1, o2⟩ := hode y hy
    obtain ⟨i1, -⟩ := mode_identities hσ o1 o2
    unfold modeLaplace at i1
    apply mul_left_cancel₀ hc
    linear_combination i1
  -- with a gradient of one sign, the product of gradient and amplitude is zero
  have hone : ∀ e : ℝ, e ≠ 0 → (∀ y ∈ Set.Ioo (-(Real.pi / 2)) (Real.pi / 2), 0 ≤ e * deriv Q y) → False := by
    intro e he hs
    have hz := slope_vanishes (fun y => (momentumFlux_deriv hA hB y).const_mul (e / (k * σ))) (by simp [Real.cos_neg, Real.cos_pi_div_two])
      (by simp [Real.cos_pi_div_two]) fun y hy => by
        rw [hJ y hy]
        have h1 := hs y hy
        have : e / (k * σ) * (k * σ * (deriv Q y * (A y ^ 2 + B y ^ 2)) / (σ ^ 2 + k ^ 2 * (angularWind r U y - c) ^ 2)) =
            e * deriv Q y * (A y ^ 2 + B y ^ 2) / (σ ^ 2 + k ^ 2 * (angularWind r U y - c) ^ 2) := by
          field_simp
        rw [this]
        positivity
    obtain ⟨y, hy, hpos, hy0⟩ := C167_fjortoft hr hk hA hB hσ hw hne 0
    have h0 := hz y hy
    rw [hJ y hy] at h0
    have hq : deriv Q y ≠ 0 := left_ne_zero_of_mul hpos.ne'
    have ha : A y ^ 2 + B y ^ 2 ≠ 0 := by rcases hy0 with h | h <;> positivity
    exact mul_ne_zero (div_ne_zero he (mul_ne_zero hk' hσ)) (div_ne_zero (mul_ne_zero (mul_ne_zero hk' hσ) (mul_ne_zero hq ha)) (by positivity)) h0
  constructor
  · by_contra hcon
    push Not at hcon
    exact hone (-1) (by norm_num) fun y hy => by linarith [hcon y hy]
  · by_contra hcon
    push Not at hcon
    exact hone 1 one_ne_zero fun y hy => by linarith [hcon y hy]

/-- C167: a wave grows or decays only on flows with a positive square of the stationary wavenumber somewhere: no wave does where all are evanescent. -/
theorem C167_stationary (hr0 : 0 < r) (hne : ∃ y ∈ Set.Ioo (-(Real.pi / 2)) (Real.pi / 2), A y ≠ 0 ∨ B y ≠ 0) :
    ∃ y ∈ Set.Ioo (-(Real.pi / 2)) (Real.pi / 2), 0 < stationarySq r Q U y := by
  obtain ⟨y, hy, hpos, -⟩ := C167_fjortoft hr hk hA hB hσ hw hne 0
  refine ⟨y, hy, ?_⟩
  have hc := cos_pos_of hy
  have hU : U y ≠ 0 := by
    intro h
    rw [angularWind, h] at hpos
    simp at hpos
  have : stationarySq r Q U y = deriv Q y * (angularWind r U y - 0) * (r ^ 2 * cos y ^ 3 / U y ^ 2) := by
    unfold stationarySq mercatorBeta mercatorWind angularWind
    field_simp
    ring
  rw [this]
  have : 0 < U y ^ 2 := by positivity
  positivity

open Grid FloatX in
/-- C167: `stationary_wavenumber` reveals it. With PV and wind of a flow on which a wave grows or decays, the squared stationary wavenumber that the code computes
is positive at some gridpoint of every sufficiently fine grid (for a sufficiently small threshold `min_u`). -/
theorem C167_code (hr0 : 0 < r) (hQ : ContDiff ℝ 5 Q) (hU : ContinuousOn U (Set.Ioo (-(Real.pi / 2)) (Real.pi / 2)))
    (hne : ∃ y ∈ Set.Ioo (-(Real.pi / 2)) (Real.pi / 2), A y ≠ 0 ∨ B y ≠ 0) :
    ∃ h0 > 0, ∃ u0 > 0, ∀ g : Grid ℝ, g.Valid → g.rsphere = r → g.resolution * ((g.nlat : ℝ) - 1) = 180 → g.resolution < h0 →
      ∀ (order : Order) (_ : order = .none ∨ order = .int 4) (u p : ProfileOrField g) (_ : ∀ j, p.zonalMean j = Q (g.phi j))
        (_ : ∀ j, u.zonalMean j = U (g.phi j)) (minU : ℝ) (_ : 0 ≤ minU) (_ : minU < u0),
        ∃ s, g.stationaryWavenumber u (some p) order minU "squared" = .ok (.real s) ∧ ∃ j x, s j = fin x ∧ 0 < x := by
  obtain ⟨M, hM⟩ : ∃ M, ∀ φ ∈ Set.Icc (-(Real.pi / 2)) (Real.pi / 2), |iteratedDeriv 5 Q φ| ≤ M := by
    obtain ⟨M, hM⟩ := (isCompact_Icc (a := -(Real.pi / 2)) (b := Real.pi / 2)).exists_bound_of_continuousOn (hQ.continuous_iteratedDeriv 5 le_rfl).continuousOn
    exact ⟨M, fun φ hφ => by simpa using hM φ hφ⟩
  have hM0 : 0 ≤ M := (abs_nonneg _).trans (hM 0 ⟨by have := Real.pi_pos; linarith, by have := Real.pi_pos; linarith⟩)
  obtain ⟨y, hy, hpos⟩ := C167_stationary hr hk hA hB hσ hw hr0 hne
  have hc := cos_pos_of hy
  have hUy : U y ≠ 0 := by
    intro h
    simp [stationarySq, mercatorWind, h] at hpos
  have hUc : ContinuousAt U y := hU.continuousAt (isOpen_Ioo.mem_nhds hy)
  have hQc : Continuous (deriv Q) := hQ.continuous_deriv (by norm_num)
  have hSc : ContinuousAt (stationarySq r Q U) y := by
    unfold stationarySq mercatorBeta mercatorWind
    have hcc : ContinuousAt cos y := Real.continuous_cos.continuousAt
    exact (continuousAt_const.mul (hcc.mul (hQc.continuousAt.div_const r))).div (hUc.div hcc hc.ne') (div_ne_zero hUy hc.ne')
  obtain ⟨m, hm⟩ : ∃ m, m = stationarySq r Q U y / 2 := ⟨_, rfl⟩
  obtain ⟨u0, hu0⟩ : ∃ u0, u0 = |U y| / 2 := ⟨_, rfl⟩
  have hm0 : 0 < m := by rw [hm]; positivity
  have hu00 : 0 < u0 := by rw [hu0]; positivity
  have hev : ∀ᶠ z in nhds y, z ∈ Set.Ioo (-(Real.pi / 2)) (Real.pi / 2) ∧ u0 < |U z| ∧ m < stationarySq r Q U z := by
    refine (isOpen_Ioo.eventually_mem hy).and (Filter.Eventually.and ?_ ?_)
    · exact hUc.abs.eventually_const_lt (by rw [hu0]; linarith [abs_pos.mpr hUy])
    · exact hSc.eventually_const_lt (by rw [hm]; linarith)
  obtain ⟨ε, hε, hball⟩ := Metric.eventually_nhds_iff.mp hev
  obtain ⟨K, hK⟩ : ∃ K, K = r / u0 * M := ⟨_, rfl⟩
  have hK0 : 0 ≤ K := by rw [hK]; positivity
  refine ⟨min (min ε 1) (m / (K + 1)), by positivity, u0, hu00, fun g hg hgr hsp hlt order ho u p hp hu minU hm1 hmu => ?_⟩
  have hres := hg.res_pos
  have hlt1 := hlt.trans_le ((min_le_left _ _).trans (min_le_left _ _))
  have hlt2 := hlt.trans_le ((min_le_left _ _).trans (min_le_right _ _))
  have hlt3 := hlt.trans_le (min_le_right _ _)
  have hlat : 5 ≤ g.nlat := by
    by_contra h
    have : (g.nlat : ℝ) ≤ 4 := by exact_mod_cast (show g.nlat ≤ 4 by omega)
    nlinarith
  have hn1 : (0 : ℝ) < (g.nlat : ℝ) - 1 := by
    have : (5 : ℝ) ≤ g.nlat := by exact_mod_cast hlat
    linarith
  have hpi : Real.pi / ((g.nlat : ℝ) - 1) = g.resolution * (Real.pi / 180) := by
    rw [div_eq_iff hn1.ne']
    linear_combination (-Real.pi / 180) * hsp
  obtain ⟨s, hs, hx⟩ := C113_given hg hsp hlat order ho u p hQ hp hu hM hm1
  refine ⟨s, hs, ?_⟩
  have hp0 := Real.pi_pos
  have hp4 := Real.pi_lt_four
  obtain ⟨i, hi, t, ht0, ht1, hyt⟩ := exists_cell hg hsp (y := y * 180 / Real.pi) (by
    rw [le_div_iff₀ hp0]; have := hy.1; linarith) (by rw [div_le_iff₀ hp0]; have := hy.2; linarith)
  have hphi : g.phi i = y + t * g.resolution * (Real.pi / 180) := by
    have e1 : g.phi i = g.lat i * (Real.pi / 180) := by unfold phi deg2rad; rfl
    have e2 : g.lat i = y * 180 / Real.pi + t * g.resolution := by linarith
    rw [e1, e2]
    field_simp
  have hnear : dist (g.phi i) y < ε := by
    rw [hphi, Real.dist_eq, add_sub_cancel_left, abs_of_nonneg (by positivity)]
    have h1 : t * g.resolution ≤ g.resolution := mul_le_of_le_one_left hres.le ht1
    have h2 : t * g.resolution * (Real.pi / 180) ≤ g.resolution * 1 := mul_le_mul h1 (by linarith) (by positivity) hres.le
    linarith
  obtain ⟨hin, hUi, hSi⟩ := hball hnear
  have hi0 : 0 < i := by
    rcases Nat.eq_zero_or_pos i with rfl | h
    · rw [phi_zero hg] at hin; exact absurd hin.2 (lt_irrefl _)
    · exact h
  have hi1 : i < g.nlat - 1 := by omega
  obtain ⟨x, e, hb⟩ := hx ⟨i, by omega⟩ hi0 hi1 (hmu.trans hUi)
  refine ⟨_, x, e, ?_⟩
  dsimp only at hb
  rw [hgr] at hb
  have e1 : r * cos (g.phi i) ^ 2 / |U (g.phi i)| ≤ r / u0 := by
    rw [div_le_div_iff₀ (hu00.trans hUi) hu00]
    have hc1 := Real.cos_le_one (g.phi i)
    have hc0 := (cos_pos_of hin).le
    have h1 : cos (g.phi i) ^ 2 ≤ 1 := pow_le_one₀ hc0 hc1
    have h2 : cos (g.phi i) ^ 2 * u0 ≤ |U (g.phi i)| := (mul_le_of_le_one_left hu00.le h1).trans hUi.le
    rw [mul_assoc]
    exact mul_le_mul_of_nonneg_left h2 hr0.le
  have e2 : error4 g.nlat i ≤ 1 := by
    unfold error4
    rw [if_neg (by omega)]
    split_ifs <;> norm_num
  have e0 : 0 ≤ error4 g.nlat i := by
    unfold error4
    split_ifs <;> norm_num
  have e3 : (Real.pi / ((g.nlat : ℝ) - 1)) ^ 4 ≤ g.resolution := by
    have h1 : Real.pi / ((g.nlat : ℝ) - 1) ≤ g.resolution := by
      rw [hpi]; exact mul_le_of_le_one_right hres.le (by linarith)
    have h0 : 0 ≤ Real.pi / ((g.nlat : ℝ) - 1) := by positivity
    calc (Real.pi / ((g.nlat : ℝ) - 1)) ^ 4 ≤ g.resolution ^ 4 := pow_le_pow_left₀ h0 h1 4
      _ ≤ g.resolution ^ 1 := pow_le_pow_of_le_one hres.le hlt2.le (by norm_num)
      _ = g.resolution := pow_one _
  have e4 : error4 g.nlat i * M * (Real.pi / ((g.nlat : ℝ) - 1)) ^ 4 ≤ 1 * M * g.resolution := by gcongr
  have e5 : r * cos (g.phi i) ^ 2 / |U (g.phi i)| * (error4 g.nlat i * M * (Real.pi / ((g.nlat : ℝ) - 1)) ^ 4) ≤ K * g.resolution := by
    rw [hK]
    calc _ ≤ r / u0 * (1 * M * g.resolution) := mul_le_mul e1 e4 (by positivity) (by positivity)
      _ = _ := by ring
  have e6 : K * g.resolution < m := by
    rw [lt_div_iff₀ (by positivity)] at hlt3
    rw [mul_comm]
    linarith [mul_add g.resolution K 1]
  have := (abs_le.mp (hb.trans e5)).1
  linarith

end criteria

/-- C167: no wave grows or decays on a solid-body rotation, whatever its speed. -/
theorem C167_solid {r Ω W : ℝ} (hr : r ≠ 0) {k : ℕ} (hk : k ≠ 0) {A B : ℝ → ℝ} (hA : ContDiff ℝ 2 A) (hB : ContDiff ℝ 2 B) {σ c : ℝ}
    (hw : LinearWave r (fun y => 2 * (Ω + W) * sin y) (fun y => r * W * cos y) (normalMode k A B σ c)) (hσ : σ ≠ 0) :
    ∀ y ∈ Set.Ioo (-(Real.pi / 2)) (Real.pi / 2), A y = 0 ∧ B y = 0 := by
  by_contra hcon
  push Not at hcon
  obtain ⟨y, hy, hne⟩ := hcon
  obtain ⟨⟨y1, hy1, h1⟩, ⟨y2, hy2, h2⟩⟩ := C167_rayleigh hr hk hA hB hσ hw ⟨y, hy, or_iff_not_imp_left.mpr fun h => hne (not_not.mp h)⟩
  have hd : ∀ y, deriv (fun y => 2 * (Ω + W) * sin y) y = 2 * (Ω + W) * cos y := fun y => ((Real.hasDerivAt_sin y).const_mul _).deriv
  rw [hd] at h1 h2
  have c1 := cos_pos_of hy1
  have c2 := cos_pos_of hy2
  have p1 := pos_of_mul_pos_left h1 c1.le
  have := mul_pos p1 c2
  linarith

/-- Non-vacuity of C167_equation and C167_solid: a wave that moves westward with the rotation of the sphere, on any solid-body rotation -/
example {r Ω W : ℝ} (hr : r ≠ 0) : ContDiff ℝ 2 cos ∧ (∃ y ∈ Set.Ioo (-(Real.pi / 2)) (Real.pi / 2), cos y ≠ 0) ∧
    LinearWave r (fun y => 2 * (Ω + W) * sin y) (fun y => r * W * cos y) (normalMode 1 cos 0 0 (-Ω)) := by
  have hA : ContDiff ℝ 2 cos := Real.contDiff_cos
  refine ⟨hA, ⟨0, ⟨by have := Real.pi_pos; linarith, by have := Real.pi_pos; linarith⟩, by simp⟩, ?_⟩
  refine (C167_equation hr one_ne_zero hA (show ContDiff ℝ 2 (0 : ℝ → ℝ) from contDiff_const) 0 (-Ω)).mpr fun y hy => ?_
  have hc := (cos_pos_of hy).ne'
  have hd : deriv (fun y => 2 * (Ω + W) * sin y) y = 2 * (Ω + W) * cos y := ((Real.hasDerivAt_sin y).const_mul _).deriv
  have hL : modeLaplace 1 cos y = -2 * cos y ^ 3 := by
    unfold modeLaplace
    have : HasDerivAt (fun z => cos z * deriv cos z) (-sin y * -sin y + cos y * -cos y) y := by
      simp only [Real.deriv_cos]
      exact (Real.hasDerivAt_cos y).mul (Real.hasDerivAt_sin y).neg
    rw [this.deriv]
    have := Real.sin_sq y
    simp only [Nat.cast_one, one_pow, one_mul]
    linear_combination cos y * this
  have h0 : modeLaplace 1 0 y = 0 := by
    unfold modeLaplace
    simp
  rw [hd, hL, h0]
  unfold angularWind
  simp only [Pi.zero_apply, mul_zero, zero_mul, add_zero, Nat.cast_one, one_mul, true_and]
  field_simp
  ring

theorem modeLaplace_one {h h' h'' : ℝ → ℝ} (d1 : ∀ s, HasDerivAt h (h' s) s) (d2 : ∀ s, HasDerivAt h' (h'' s) s) (y : ℝ) :
    modeLaplace 1 (fun y => cos y * h (sin y)) y = cos y ^ 3 * (cos y ^ 2 * h'' (sin y) - 4 * sin y * h' (sin y) - 2 * h (sin y)) := by
  have e1 : ∀ y, HasDerivAt (fun y => cos y * h (sin y)) (-sin y * h (sin y) + cos y * (h' (sin y) * cos y)) y := fun y =>
    (Real.hasDerivAt_cos y).mul ((d1 (sin y)).comp y (Real.hasDerivAt_sin y))
  have e2 : HasDerivAt (fun z => cos z * deriv (fun y => cos y * h (sin y)) z)
      (-sin y * (-sin y * h (sin y) + cos y * (h' (sin y) * cos y)) + cos y * ((-cos y * h (sin y) + -sin y * (h' (sin y) * cos y)) +
        (-sin y * (h' (sin y) * cos y) + cos y * (h'' (sin y) * cos y * cos y + h' (sin y) * -sin y)))) y := by
    have : (fun z => cos z * deriv (fun y => cos y * h (sin y)) z) = fun z => cos z * (-sin z * h (sin z) + cos z * (h' (sin z) * cos z)) := by
      funext z
      rw [(e1 z).deriv]
    rw [this]
    have a1 := (d1 (sin y)).comp y (Real.hasDerivAt_sin y)
    have a2 := (d2 (sin y)).comp y (Real.hasDerivAt_sin y)
    exact (Real.hasDerivAt_cos y).mul (((Real.hasDerivAt_sin y).neg.mul a1).add ((Real.hasDerivAt_cos y).mul (a2.mul (Real.hasDerivAt_cos y))))
  unfold modeLaplace
  rw [e2.deriv]
  have := Real.sin_sq y
  simp only [Nat.cast_one, one_pow, one_mul]
  linear_combination (cos y * h (sin y)) * this

/-- Non-vacuity of C167 and C170: a growing wave for a choice of PV and wind -/
theorem growing_wave : ∃ Q U A B ω : ℝ → ℝ, ContDiff ℝ 2 A ∧ ContDiff ℝ 2 B ∧ Continuous U ∧ Differentiable ℝ ω ∧ (∀ y, U y = 1 * cos y * ω y) ∧
    (∃ y ∈ Set.Ioo (-(Real.pi / 2)) (Real.pi / 2), A y ≠ 0 ∨ B y ≠ 0) ∧ LinearWave 1 Q U (normalMode 1 A B 1 0) := by
  obtain ⟨a, ha⟩ : ∃ a : ℝ → ℝ, a = fun s => 1 + s ^ 2 - s ^ 4 / 4 := ⟨_, rfl⟩
  obtain ⟨E, hE⟩ : ∃ E : ℝ → ℝ, E = fun s => -6 + 9 * s ^ 2 - 6 * s ^ 4 := ⟨_, rfl⟩
  have hEn : ∀ s, E s ≠ 0 := fun s => by
    have : E s < 0 := by rw [hE]; nlinarith [sq_nonneg (s ^ 2 - 3 / 4)]
    exact this.ne
  have hPn : ∀ s, a s ^ 2 + s ^ 2 ≠ 0 := fun s h => by
    have h1 : s = 0 := by nlinarith [sq_nonneg (a s), sq_nonneg s]
    rw [ha, h1] at h
    norm_num at h
  obtain ⟨w, hw⟩ : ∃ w : ℝ → ℝ, w = fun s => s * ((15 - 15 / 2 * s ^ 2) * a s + 6) / E s := ⟨_, rfl⟩
  obtain ⟨G, hG⟩ : ∃ G : ℝ → ℝ, G = fun s => s * E s * (1 + w s ^ 2) / (a s ^ 2 + s ^ 2) := ⟨_, rfl⟩
  have ca : Continuous a := by rw [ha]; fun_prop
  have cE : Continuous E := by rw [hE]; fun_prop
  have cw : Continuous w := by rw [hw]; exact Continuous.div (by fun_prop) cE hEn
  have cG : Continuous G := by rw [hG]; exact Continuous.div (by fun_prop) (by fun_prop) hPn
  have hA : ContDiff ℝ 2 fun y => cos y * a (sin y) := by rw [ha]; fun_prop
  have hB : ContDiff ℝ 2 fun y => cos y * sin y := by fun_prop
  have dw : Differentiable ℝ fun y => w (sin y) := by
    have h1 : Differentiable ℝ E := by rw [hE]; fun_prop
    have h2 : Differentiable ℝ a := by rw [ha]; fun_prop
    have h3 : Differentiable ℝ w := by rw [hw]; exact Differentiable.div (by fun_prop) h1 hEn
    exact h3.comp Real.differentiable_sin
  refine ⟨fun y => ∫ s in (0 : ℝ)..sin y, G s, fun y => cos y * w (sin y), _, _, _, hA, hB, by fun_prop, dw, fun y => by rw [one_mul],
    ⟨0, ⟨by have := Real.pi_pos; linarith, by have := Real.pi_pos; linarith⟩, .inl (by rw [ha]; simp)⟩, ?_⟩
  refine (C167_equation one_ne_zero one_ne_zero hA hB 1 0).mpr fun y hy => ?_
  have hc := (cos_pos_of hy).ne'
  have hQ : deriv (fun y => ∫ s in (0 : ℝ)..sin y, G s) y = G (sin y) * cos y := by
    have := (intervalIntegral.integral_hasDerivAt_right (cG.intervalIntegrable 0 (sin y)) (cG.stronglyMeasurableAtFilter _ _) cG.continuousAt).comp y (Real.hasDerivAt_sin y)
    exact this.deriv
  have hU : angularWind 1 (fun y => cos y * w (sin y)) y = w (sin y) := by
    unfold angularWind
    rw [one_mul, mul_div_cancel_left₀ _ hc]
  have hp : modeLaplace 1 (fun y => cos y * a (sin y)) y = cos y ^ 3 * (-15 * sin y ^ 2 + 15 / 2 * sin y ^ 4) := by
    have d1 : ∀ s, HasDerivAt a (2 * s - s ^ 3) s := fun s => by
      rw [ha]
      refine ((((hasDerivAt_pow 2 s).const_add 1).sub ((hasDerivAt_pow 4 s).div_const 4))).congr_deriv ?_
      norm_num
    have d2 : ∀ s : ℝ, HasDerivAt (fun s => 2 * s - s ^ 3) (2 - 3 * s ^ 2) s := fun s => by
      refine (((hasDerivAt_id s).const_mul 2).sub (hasDerivAt_pow 3 s)).congr_deriv ?_
      norm_num
    rw [modeLaplace_one d1 d2, Real.cos_sq', ha]
    ring
  have hs : modeLaplace 1 (fun y => cos y * sin y) y = cos y ^ 3 * (-6 * sin y) := by
    have := modeLaplace_one (h := fun s => s) (h' := fun _ => 1) (h'' := fun _ => 0) hasDerivAt_id (fun s => hasDerivAt_const s 1) y
    rw [this]
    ring
  rw [hQ, hU, hp, hs]
  obtain ⟨s, hs⟩ : ∃ s, s = sin y := ⟨_, rfl⟩
  rw [← hs]
  have n1 := hEn s
  have n2 := hPn s
  have f1 : (-15 * s ^ 2 + 15 / 2 * s ^ 4) + w s * (-6 * s) + G s * s = 0 := by
    rw [hG, hw]
    dsimp only
    field_simp
    rw [hE, ha]
    ring
  have f2 : -6 * s - w s * (-15 * s ^ 2 + 15 / 2 * s ^ 4) - G s * a s = 0 := by
    rw [hG, hw]
    dsimp only
    field_simp
    rw [hE, ha]
    ring
  constructor
  · simp only [Nat.cast_one]
    linear_combination cos y ^ 3 * f1
  · simp only [Nat.cast_one]
    linear_combination cos y ^ 3 * f2

end Barotropic
