import Verif.Model.Fourier
import Verif.Model.Hann
import Verif.Model.Falwa

/-!
# Dominant wavenumber with smoothing and phase filter  (diagnostics.py:99-121, state.py:255-268)
-/

namespace Barotropic

/-- `scipy.signal.get_window("boxcar", n)` -/
def boxcar (_ : Unit) (n : ℕ) : Except PyErr (Fin n → ℝ) := .ok fun _ => 1

namespace Grid

/-- `dominant_wavenumber_fourier(field, grid, smooth, (kmin, kmax))` (diagnostics.py:99-121). The wavenumbers are determined
first, then smoothed if `smooth` is not None. -/
noncomputable def dominantWavenumber {W : Type*} (getWindow : W → (n : ℕ) → Except PyErr (Fin n → ℝ)) (g : Grid ℝ) {h w : ℕ}
    (field : Fin h → Fin w → ℝ) (smooth : Option (WindowArg W ℝ)) (kmin kmax : ℕ) : Except PyErr (Arr ℝ) :=
  match dominantWavenumberFourier field kmin kmax with
  | .error e => .error e
  | .ok k =>
    match smooth with
    | none => .ok (.d1 h k)
    | some win => g.filterMeridional getWindow (.d1 h k) win

/-- `dominant_wavenumber_fourier(v, grid)` with the default arguments, as used by `State.falwa_filtered` (state.py:267). The
result is a profile; the last case does not occur. -/
noncomputable def dominantProfile (g : Grid ℝ) (v : Fin g.nlat → Fin g.nlon → ℝ) : Except PyErr (Weights ℝ) :=
  match g.dominantWavenumber boxcar v (some (.named () 10)) 1 20 with
  | .error e => .error e
  | .ok (.d1 n k) => .ok ⟨n, k⟩
  | .ok _ => .error .valueError

/-- `filter_by_wavenumber(F, 2*dominant_wavenumber)` (state.py:268) -/
noncomputable def phaseFilter (g : Grid ℝ) (F : Fin g.nlat → Fin g.nlon → Option ℝ) (k : Weights ℝ) :
    Except PyErr (Fin g.nlat → Fin g.nlon → Option ℝ) :=
  filterByWavenumberO F (.profile k.1 fun j => 2 * k.2 j)

/-- `State.falwa_filtered` (state.py:267-268) as function of PV and meridional wind -/
noncomputable def falwaFiltered (g : Grid ℝ) (pv v : Fin g.nlat → Fin g.nlon → ℝ) :
    Except PyErr (Fin g.nlat → Fin g.nlon → Option ℝ) :=
  match g.dominantProfile v with
  | .error e => .error e
  | .ok k =>
    match g.falwa pv with
    | .error e => .error e
    | .ok F => g.phaseFilter F k

end Grid
end Barotropic
