import Mathlib.Analysis.SpecialFunctions.Trigonometric.Basic

/-!
# Specification vocabulary for the response of waves to windows
-/

namespace Barotropic

/-- Response of a window to a wave whose phase advances by `θ` from gridpoint to gridpoint: the cosine transform of the
weights about the central one. -/
noncomputable def windowResponse {m : ℕ} (w : Fin m → ℝ) (θ : ℝ) : ℝ := ∑ k : Fin m, w k * Real.cos (((k.val : ℝ) - ((m / 2 : ℕ) : ℝ)) * θ)

/-- A wave with `k` periods around a latitude circle of `N` gridpoints -/
noncomputable def waveAlong (N k : ℕ) (φ : ℝ) (i : Fin N) : ℝ := Real.cos (2 * Real.pi * k * i.val / N + φ)

/-- A wave with `k` half periods between the poles, symmetric about the ends of a meridian of `N` gridpoints -/
noncomputable def waveAcross (N k : ℕ) (j : Fin N) : ℝ := Real.cos (Real.pi * k * (j.val + 1 / 2) / N)

end Barotropic
