import Verif.Model.Fourier

/-!
# Vocabulary for zonal waves
-/

namespace Barotropic

/-- A field that is in every row a zonal wave of wavenumber `k` with amplitude and phase depending on latitude -/
noncomputable def zonalWave {h : ℕ} (n : ℕ) (k : ℕ) (A φ : Fin h → ℝ) : Fin h → Fin n → ℝ :=
  fun j i => A j * Real.cos (2 * Real.pi * k * i.val / n - φ j)

end Barotropic
