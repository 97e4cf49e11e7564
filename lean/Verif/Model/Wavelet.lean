import Verif.Model.Fourier
import Verif.Model.Filter
import Mathlib.Analysis.SpecialFunctions.Pow.Real

/-!
# Dominant wavenumber from wavelets  (diagnostics.py:124-169)

PyWavelets is not part of the repository. `pywt.cwt` is modelled with the structure of its implementation (convolution with the
sampled integral of the wavelet, differences, centred cut-out of the length of the data); the samples themselves and the central
frequency are parameters.
-/

namespace Barotropic

/-- What is used of `pywt.ContinuousWavelet("cmor1.0-1.0")`: the samples of the integrated wavelet for each scale (in the order in
which they are convolved with the data) and the central frequency, `scale2frequency(w, s) = frequency / s`. -/
structure Wavelet where
  samples : ℝ → Weights ℂ
  frequency : ℝ

/-- `np.hstack([x, x, x])` (diagnostics.py:148), continued with zeros on both sides as by `np.convolve` -/
noncomputable def tripled {n : ℕ} (x : Fin n → ℝ) (t : ℤ) : ℝ :=
  if 0 ≤ t ∧ t < 3 * n then (if h : (t % n).toNat < n then x ⟨(t % n).toNat, h⟩ else 0) else 0

/-- `np.convolve(data, psi)[c]` for data continued with zeros -/
noncomputable def convolveFull {m : ℕ} (e : ℤ → ℝ) (psi : Fin m → ℂ) (c : ℤ) : ℂ := ∑ t : Fin m, psi t * (e (c - t.val) : ℂ)

/-- `pywt.cwt` for one scale and tripled data, entry `i`: `coef = -sqrt(scale) * diff(convolve(data, psi))`, from which the outer
`floor((m-2)/2)` and `ceil((m-2)/2)` of the entries are removed (`m` samples, at least 2) -/
noncomputable def cwtEntry {n m : ℕ} (x : Fin n → ℝ) (scale : ℝ) (psi : Fin m → ℂ) (i : ℕ) : ℂ :=
  -(Real.sqrt scale : ℂ) * (convolveFull (tripled x) psi ((i + (m - 2) / 2 : ℕ) + 1) - convolveFull (tripled x) psi (i + (m - 2) / 2 : ℕ))

/-- `3 * 2**np.linspace(0, 6, 120)` (diagnostics.py:152), entry `a` -/
noncomputable def waveletScale (a : ℕ) : ℝ := 3 * (2 : ℝ) ^ (6 * (a : ℝ) / 119)

/-- `wavenum[np.argmax(power, axis=0)]` (diagnostics.py:154-163) at entry `i` of the middle third of the coefficients (entry `n + i`
of the coefficients of the tripled data) -/
noncomputable def waveletDominant (ψ : Wavelet) (nlon : ℕ) {n : ℕ} (x : Fin n → ℝ) (i : ℕ) : ℝ :=
  ψ.frequency / waveletScale (argmax (fun a => ‖cwtEntry x (waveletScale a) (ψ.samples (waveletScale a)).2 (n + i)‖ ^ 2) 120) * nlon

/-- `dominant_wavenumber_wavelet` (diagnostics.py:124-169). `pywt.cwt` raises ValueError if a scale is too small (less than 2
samples). `smooth` is None or the window with the widths in longitude and latitude. -/
noncomputable def Grid.dominantWavelet {W : Type*} (getWindow : W → (n : ℕ) → Except PyErr (Fin n → ℝ)) (g : Grid ℝ) (ψ : Wavelet) {h w : ℕ}
    (field : Fin h → Fin w → ℝ) (smooth : Option (W × ℝ × ℝ)) : Except PyErr (Arr ℝ) :=
  match restrictFourierZonal field 0 20 with
  | .error e => .error e
  | .ok (.d2 h n x) =>
    if ∀ a < 120, 2 ≤ (ψ.samples (waveletScale a)).1 then
      let k : Arr ℝ := .d2 h n fun j i => waveletDominant ψ g.nlon (x j) i
      match smooth with
      | none => .ok k
      | some (window, wlon, wlat) =>
        match g.filterMeridional getWindow k (.named window wlat) with
        | .error e => .error e
        | .ok k' => g.filterZonal getWindow k' (.named window wlon)
    else .error .valueError
  | .ok _ => .error .valueError

end Barotropic
