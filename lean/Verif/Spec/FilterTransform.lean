import Mathlib.Analysis.SpecialFunctions.Complex.Circle

/-!
# Specification vocabulary for filters in wavenumber space
-/

namespace Barotropic

/-- Transfer function of a window of any shape on a latitude circle with `N` gridpoints: the discrete Fourier transform of
the weights, with the central weight at longitude 0 -/
noncomputable def transferFunction {m : ℕ} (w : Fin m → ℝ) (N k : ℕ) : ℂ :=
  ∑ s : Fin m, (w s : ℂ) * Complex.exp (-(2 * Real.pi * Complex.I * k * ((s.val : ℂ) - ((m / 2 : ℕ) : ℂ)) / N))

end Barotropic
