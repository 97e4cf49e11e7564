import Verif.Model.GridReal
import Mathlib.Analysis.SpecialFunctions.Complex.Circle

/-!
# Zonal Fourier analysis  (diagnostics.py:20-29, 99-121, 232-248)

Wavenumber bounds are natural numbers (negative bounds would be Python's negative indices, floating point bounds raise
TypeError; neither is modelled).
-/

namespace Barotropic

/-- Entry `k` of the discrete Fourier transform of real data: `np.fft.rfft` (`k ≤ n/2`) and `scipy.fft.fft` (`k < n`) -/
noncomputable def dft {n : ℕ} (f : Fin n → ℝ) (k : ℕ) : ℂ :=
  ∑ j : Fin n, (f j : ℂ) * Complex.exp (-(2 * Real.pi * Complex.I * k * j.val / n))

/-- Entry `i` of `np.fft.irfft` of coefficients `X 0, …, X M`, which has `2 * M` entries: the imaginary parts of the first
and last coefficient are ignored. -/
noncomputable def irfft (M : ℕ) (X : ℕ → ℂ) (i : ℕ) : ℝ :=
  ((X 0).re + (X M).re * (-1) ^ i +
    2 * ∑ k ∈ Finset.Ico 1 M, (X k * Complex.exp (2 * Real.pi * Complex.I * k * i / (2 * M : ℕ))).re) / (2 * M : ℕ)

/-- `xfft[:,:kmin] = 0; xfft[:,kmax+1:] = 0` (diagnostics.py:27-28) -/
noncomputable def restrictBand (kmin kmax : ℕ) (X : ℕ → ℂ) (k : ℕ) : ℂ :=
  if k < kmin then 0 else if kmax + 1 ≤ k then 0 else X k

/-- `_restrict_fourier_zonal` (diagnostics.py:20-29) for a 2-dimensional field. `rfft` of `w` columns has `w//2 + 1`
coefficients, `irfft` of these has `2*(w//2)` entries. `rfft` raises ValueError without data, `irfft` raises ValueError if
the output would be empty. -/
noncomputable def restrictFourierZonal {h w : ℕ} (field : Fin h → Fin w → ℝ) (kmin kmax : ℕ) : Except PyErr (Arr ℝ) :=
  if w = 0 then .error .valueError
  else if 2 * (w / 2) = 0 then .error .valueError
  else .ok (.d2 h (2 * (w / 2)) fun j i => irfft (w / 2) (restrictBand kmin kmax (dft (field j))) i)

/-- `np.argmax` of the list `p 0, …, p (n-1)`, `n > 0`: position of the first maximum. -/
noncomputable def argmax (p : ℕ → ℝ) : ℕ → ℕ
  | 0 => 0
  | n + 1 => if p (argmax p n) < p n then n else argmax p n

/-- `np.abs(np.fft.rfft(field, axis=_ZONAL)) ** 2` (diagnostics.py:118) -/
noncomputable def power {n : ℕ} (f : Fin n → ℝ) (k : ℕ) : ℝ := ‖dft f k‖ ^ 2

/-- `dominant_wavenumber_fourier(field, grid, smooth=None, wavenumber_range=(kmin, kmax))` (diagnostics.py:114-121).
The slice `power[:,kmin:kmax+1]` has entries `kmin … min(kmax, w//2)`; `argmax` of nothing raises ValueError. -/
noncomputable def dominantWavenumberFourier {h w : ℕ} (field : Fin h → Fin w → ℝ) (kmin kmax : ℕ) :
    Except PyErr (Fin h → ℝ) :=
  if w = 0 then .error .valueError
  else
    let n := min (kmax + 1) (w / 2 + 1) - kmin
    if n = 0 then .error .valueError
    else .ok fun j => (argmax (fun k => power (field j) (kmin + k)) n : ℕ)

/-- The factors of `scipy.signal.hilbert`: `h[0] = 1`, `h[1:(N+1)//2] = 2`, and `h[N//2] = 1` for even `N`. -/
noncomputable def hilbertFactor (N k : ℕ) : ℝ :=
  if k = 0 then 1 else if N % 2 = 0 ∧ k = N / 2 then 1 else if k < (N + 1) / 2 then 2 else 0

/-- `scipy.signal.hilbert(x)` (analytic signal), entry `i`: `ifft(fft(x) * h)` -/
noncomputable def hilbert {N : ℕ} (x : Fin N → ℝ) (i : ℕ) : ℂ :=
  (∑ k ∈ Finset.range N, dft x k * (hilbertFactor N k : ℂ) * Complex.exp (2 * Real.pi * Complex.I * k * i / N)) / N

/-- `envelope_hilbert` (diagnostics.py:245-248) -/
noncomputable def envelopeHilbert {h w : ℕ} (field : Fin h → Fin w → ℝ) (kmin kmax : ℕ) : Except PyErr (Arr ℝ) :=
  match restrictFourierZonal field kmin kmax with
  | .error e => .error e
  | .ok (.d2 h n x) => .ok (.d2 h n fun j i => ‖hilbert (x j) i‖)
  | .ok _ => .error .valueError

end Barotropic
