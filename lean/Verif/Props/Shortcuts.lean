import Verif.Model.State
import Verif.Props.Fourier
import Verif.Props.StationaryWavenumber
import Verif.Lemmas.SpharmWave
import Verif.Model.Init

/-!
# C64, C65: diagnostics of states with the default parameters
-/

namespace Barotropic
open FloatX Grid

variable {τ : Type} {g : Grid ℝ} {S : g.Sph}

/-- C64: the envelope of a state whose meridional wind is a pure wave is the amplitude for the wavenumbers 2 to 10 and 0 for all
others. -/
theorem C64_state (he : Even g.nlon) {k : ℕ} (hk0 : 0 < k) (hk : 2 * k < g.nlon) (A φ : Fin g.nlat → ℝ) (s : St τ g)
    (hv : s.v S = zonalWave g.nlon k A φ) :
    s.vEnvelopeHilbert S = .ok (.d2 g.nlat g.nlon fun j _ => if 2 ≤ k ∧ k ≤ 10 then |A j| else 0) := by
  unfold St.vEnvelopeHilbert
  rw [hv]
  by_cases hb : 2 ≤ k ∧ k ≤ 10
  · rw [C64_wave he hk0 hk A φ 2 10 hb.1 hb.2]
    simp [hb]
  · have hr := C61_waves (w := g.nlon) (by omega) he k (by omega) A φ 2 10
    rw [if_neg hb] at hr
    unfold envelopeHilbert
    rw [hr]
    simp only [Except.ok.injEq, Arr.d2.injEq, heq_eq_eq, true_and, if_neg hb]
    funext j i
    obtain ⟨M, hM⟩ := he.two_dvd
    have h0 : ∀ l, dft (0 : Fin g.nlon → ℝ) l = 0 := fun l => by simp [dft]
    simp [hilbert, h0]

/-- Non-vacuity of `C64_state`: a state with a wave of wavenumber 1. -/
example : ∃ s : St Unit grid30, s.v wave30 = zonalWave grid30.nlon 1 (fun _ => 1 / 2) (fun _ => 0) := by
  refine ⟨⟨(), mk3 (T := grid30.ntrunc) (by unfold grid30; norm_num) 0 0 Complex.I + fcor2Spectral wave30⟩, ?_⟩
  unfold St.v St.invertPv Grid.wind St.vorticitySpectral
  rw [add_sub_cancel_right]
  funext j i
  simp [wave30, waveSph, zonalWave, ru]
  rw [show (2 * Real.pi * Complex.I * (i.val : ℂ) / (grid30.nlon : ℂ) : ℂ) = ((2 * Real.pi * i.val / grid30.nlon : ℝ) : ℂ) * Complex.I by
    push_cast; ring, Complex.exp_ofReal_mul_I_re, show grid30.rsphere = 1 from rfl]
  ring

/-- C65: the stationary wavenumber of a state: from the fourth-order derivative `d` of its zonal-mean PV and its zonal-mean wind,
infinite where the wind is at most 0.001. -/
theorem C65_state (hg : g.Valid) (s : St τ g) (d : Fin g.nlat → ℝ)
    (hd : g.derivativeProfile (fun j => (∑ i, s.pv S j i) / g.nlon) (.int 4) = .ok d) :
    ∃ z, s.stationaryWavenumber S = .ok (.complex z) ∧ ∀ j,
      (|(∑ i, s.u S j i) / g.nlon| ≤ 1 / 1000 → (0 < d j → z j = (pinf, fin 0)) ∧ (d j < 0 → z j = (fin 0, pinf)) ∧
        (d j = 0 → z j = (fin 0, fin 0))) ∧
      (1 / 1000 < |(∑ i, s.u S j i) / g.nlon| → ∃ a b, z j = (fin a, fin b) ∧ 0 ≤ a ∧ 0 ≤ b ∧ a * b = 0 ∧
        a ^ 2 - b ^ 2 = Real.cos (g.phi j) ^ 2 * g.rsphere * d j / ((∑ i, s.u S j i) / g.nlon)) := by
  have hsq : ∃ x, g.stationaryWavenumber (.field (s.u S)) (some (.field (s.pv S))) (.int 4) (1 / 1000) "squared" = .ok (.real x) := by
    rcases stationary_eq (.field (s.u S)) (some (.field (s.pv S))) (.int 4) (1 / 1000) with ⟨e, h⟩ | ⟨q, d', h1, h2, h⟩
    · exfalso
      have := h "squared"
      unfold stationaryWavenumber ksPv at this
      dsimp only at this
      rw [show g.derivativeProfile (ProfileOrField.zonalMean (.field (s.pv S))) (.int 4) = .ok d from hd] at this
      simp at this
    · exact ⟨_, (h _).trans (if_pos rfl)⟩
  obtain ⟨x, hx⟩ := hsq
  obtain ⟨z, r, hz, -, hzr⟩ := C65_variants _ _ _ _ x hx
  refine ⟨z, hz, fun j => ?_⟩
  have hv := C65_values hg (.field (s.u S)) (.field (s.pv S)) (.int 4) (by norm_num : (0 : ℝ) ≤ 1 / 1000) x d hx hd j
  obtain ⟨-, -, z1, z2, z3⟩ := hzr j
  refine ⟨fun hs => ?_, fun hl => ?_⟩
  · obtain ⟨h1, h2, h3⟩ := hv.1 hs
    refine ⟨fun h => z2 (h1 h), fun h => z3 (h2 h), fun h => ?_⟩
    obtain ⟨a, b, e1, ha, hb, hab, e2⟩ := z1 0 (h3 h)
    have h0 : a ^ 2 = 0 ∧ b ^ 2 = 0 := by
      rcases mul_eq_zero.mp hab with h | h <;> subst h <;> constructor <;> nlinarith
    rw [e1, pow_eq_zero_iff (n := 2) (by norm_num) |>.mp h0.1, pow_eq_zero_iff (n := 2) (by norm_num) |>.mp h0.2]
  · exact z1 _ (hv.2 hl)

/-- Non-vacuity of `C65_state`: on a grid of 30 degrees the derivative exists. -/
example : ∃ d, grid30.derivativeProfile (fun j => (∑ i, (Init.motionless sph30 ()).pv sph30 j i) / grid30.nlon) (.int 4) = .ok d := by
  unfold derivativeProfile derivativeMeridional derivative4
  simp [Arr.ndim, Arr.shape, show ¬ grid30.nlat < 5 by rw [grid30_nlat]; norm_num]

end Barotropic
