import Verif.Model.Plot
import Verif.Model.Wavelet
import Verif.Model.Dominant

/-!
# The data shown in the predefined figures  (plot.py:130-385)

A figure is described by what is handed over to matplotlib: lines over latitude, fields with their contour levels over longitude and
latitude, and the labels of the axes. Colours, titles, legends, colorbars and everything that matplotlib does are not modelled, with the
exception that fields whose shape is not that of the axes are rejected with TypeError. The shortcuts `state.plot.summary()` etc.
(state.py:375-394) create the same figures and do not return them.
-/

namespace Barotropic
namespace Plot
open St

/-- The entries of an array of shape (h, w), row after row -/
def flat {α : Type*} {h w : ℕ} (f : Fin h → Fin w → α) : List α := (List.finRange h).flatMap fun j => (List.finRange w).map fun i => f j i

/-- `np.mean(f, axis=ZONAL)` -/
noncomputable def rowMean {h w : ℕ} (f : Fin h → Fin w → ℝ) (j : Fin h) : ℝ := (∑ i, f j i) / w

/-- A field over `grid.lon` and `grid.lat` (`none` is NaN), and the levels, `none` if they are chosen by matplotlib -/
structure MapItem (g : Grid ℝ) where
  field : Fin g.nlat → Fin g.nlon → Option ℝ
  levels : Option (List ℝ)

/-- A panel with lines over latitude: label and values of each line, limits of the latitude axis -/
structure LinePanel (g : Grid ℝ) where
  lines : List (String × (Fin g.nlat → Option ℝ))
  limits : ℝ × ℝ

/-- A panel with a map: filled contours, contour lines, vectors (positions and components), offset of the labels of the longitude axis,
limits of the latitude axis -/
structure MapPanel (g : Grid ℝ) where
  filled : MapItem g
  lines : Option (MapItem g)
  vectors : Option (List (List ℝ) × List (List ℝ) × List (List ℝ) × List (List ℝ))
  offset : ℝ
  limits : ℝ × ℝ

/-- A figure with four panels -/
structure Figure4 (g : Grid ℝ) where
  ax11 : LinePanel g
  ax12 : MapPanel g
  ax21 : LinePanel g
  ax22 : MapPanel g

/-- A figure with three panels -/
structure Figure3 (g : Grid ℝ) where
  ax1 : MapPanel g
  ax2 : MapPanel g
  ax3 : MapPanel g

/-- `roll(field)` (plot.py:80) of a field without NaN, with levels -/
noncomputable def rolled {g : Grid ℝ} (shift : ℤ) (f : Fin g.nlat → Fin g.nlon → ℝ) (levels : Option (List ℝ)) : MapItem g :=
  ⟨roll shift fun j i => some (f j i), levels⟩

/-- `np.linspace(np.min(psi), np.max(psi), n)` (plot.py:196, 308) -/
noncomputable def psiLevels (x : List ℝ) (n : ℕ) : Except PyErr (List ℝ) :=
  match range? x with
  | none => .error .valueError
  | some (lo, hi) => .ok ((List.range n).map fun i => linspace lo hi n i)

/-- The streamfunction contours, not drawn if the first and last level are the same (plot.py:195-198, 307-310) -/
noncomputable def psiContours {g : Grid ℝ} (shift : ℤ) (psi : Fin g.nlat → Fin g.nlon → ℝ) (n : ℕ) : Except PyErr (Option (MapItem g)) :=
  match psiLevels (flat psi) n with
  | .error e => .error e
  | .ok l => .ok (if l.head? = l.getLast? then none else some (rolled shift psi (some l)))

variable {τ : Type} {g : Grid ℝ} (S : g.Sph)

/-- A field as function of all row and column numbers -/
noncomputable def extend (f : Fin g.nlat → Fin g.nlon → ℝ) (j i : ℕ) : ℝ := if h : j < g.nlat ∧ i < g.nlon then f ⟨j, h.1⟩ ⟨i, h.2⟩ else 0

open Classical in
/-- The wind vectors, not drawn if the wind is zero everywhere (plot.py:178-180) -/
noncomputable def windVectors (u v : Fin g.nlat → Fin g.nlon → ℝ) (hemisphere : String) :
    Except PyErr (Option (List (List ℝ) × List (List ℝ) × List (List ℝ) × List (List ℝ))) :=
  if (∀ j i, u j i = 0) ∧ ∀ j i, v j i = 0 then .ok none
  else
    match reduceVectors g.nlat g.nlon (fun _ i => g.lon i) (fun j _ => g.lat j) (extend u) (extend v)
        (if hemisphere = "both" then 13 else 21) with
    | .error e => .error e
    | .ok a => .ok (some a)

/-- `summary` (plot.py:151-204) -/
noncomputable def summary (s : St τ g) (hemisphere : String) (center : ℝ) (pvMax vMax : Option ℝ) : Except PyErr (Figure4 g) := do
  let (shift, offset) ← rollLon g.nlon g.lon center
  let pv : Fin g.nlat → Fin g.nlon → ℝ := fun j i => 10000 * s.pv S j i
  let pvMax := pvMax.map fun m => m * 10000
  let zmrv := rowMean fun j i => s.vorticity S j i * 10000
  let zmav := rowMean pv
  let ax11 : LinePanel g := ⟨[("pla.", fun j => some (g.fcor j * 10000)), ("rel.", fun j => some (zmrv j)), ("pot.", fun j => some (zmav j))],
    latLimits hemisphere⟩
  let pvLevels ← symmetricLevels (flat pv) (if hemisphere = "both" then 11 else 17) pvMax
  let vectors ← windVectors (s.u S) (s.v S) hemisphere
  let ax12 : MapPanel g := ⟨rolled shift pv (some pvLevels), none, vectors, offset, latLimits hemisphere⟩
  let zmu := rowMean (s.u S)
  let ax21 : LinePanel g := ⟨[("", fun j => some (zmu j))], latLimits hemisphere⟩
  let vLevels ← symmetricLevels (flat (s.v S)) 10 vMax
  let psi ← psiContours shift (s.streamfunction S) (if hemisphere = "both" then 10 else 14)
  let ax22 : MapPanel g := ⟨rolled shift (s.v S) (some vLevels), psi, none, offset, latLimits hemisphere⟩
  return ⟨ax11, ax12, ax21, ax22⟩

/-- `wave_activity` (plot.py:220-263) -/
noncomputable def waveActivity (s : St τ g) (hemisphere : String) (center : ℝ) : Except PyErr (Figure4 g) := do
  let (shift, offset) ← rollLon g.nlon g.lon center
  let pv : Fin g.nlat → Fin g.nlon → ℝ := fun j i => 10000 * s.pv S j i
  let zonalized ← s.pvZonalized S
  let zlpv := fun j => 10000 * zonalized j
  let zmpv := rowMean pv
  let ax11 : LinePanel g := ⟨[("equiv. lat.", fun j => some (zlpv j)), ("mean", fun j => some (zmpv j))], latLimits hemisphere⟩
  let devpv : Fin g.nlat → Fin g.nlon → ℝ := fun j i => pv j i - zlpv j
  let devLevels ← symmetricLevels (flat devpv) 10 none
  let levels ← pvLevels (flat pv) (if hemisphere = "both" then 10 else 14)
  let ax12 : MapPanel g := ⟨rolled shift devpv (some devLevels), some (rolled shift pv (some levels)), none, offset, latLimits hemisphere⟩
  let fawa ← g.stateFawa (s.pv S)
  let ax21 : LinePanel g := ⟨[("", fawa)], latLimits hemisphere⟩
  let falwa ← s.falwa S
  let ax22 : MapPanel g := ⟨⟨roll shift falwa, none⟩, some (rolled shift pv (some levels)), none, offset, latLimits hemisphere⟩
  return ⟨ax11, ax12, ax21, ax22⟩

/-- `scipy.signal.get_window("hann", n, fftbins=False)`, for all names of windows -/
noncomputable def hannWindow (_ : Unit) (n : ℕ) : Except PyErr (Fin n → ℝ) := .ok fun m => if n = 1 then 1 else hann n m

/-- An array that is drawn over `grid.lon2` and `grid.lat2`: TypeError if it has another shape -/
noncomputable def asMap (g : Grid ℝ) : Arr ℝ → Except PyErr (Fin g.nlat → Fin g.nlon → ℝ)
  | .d2 h w f => if e : g.nlat = h ∧ g.nlon = w then .ok fun j i => f (Fin.cast e.1 j) (Fin.cast e.2 i) else .error .typeError
  | _ => .error .typeError

/-- `np.min(x) != np.max(x)` -/
noncomputable def varies (x : List ℝ) : Except PyErr Bool :=
  match range? x with
  | none => .error .valueError
  | some (lo, hi) => .ok (decide (lo ≠ hi))

/-- `max(np.max(env), np.max(ffalwa))` and the levels (plot.py:300-302): if `ffalwa` contains NaN then `np.max(ffalwa)` is NaN, and
Python's `max` of a number and NaN (in this order) is the number. -/
noncomputable def packetLevels (env : List ℝ) (ffalwa : List (Option ℝ)) (rwpMax : Option ℝ) : Except PyErr (List ℝ) :=
  rwpLevels env (if none ∈ ffalwa then env else ffalwa.reduceOption) rwpMax

/-- `rwp_diagnostics` (plot.py:282-324) with `dominant_wavenumber_wavelet(v, grid)` for the default arguments (diagnostics.py:124). An
array with dominant wavenumbers of another shape is rejected by `ax1.contour` with TypeError (line 295); simplification: also if it is
constant and not drawn (it would be rejected later on with IndexError, diagnostics.py:229). -/
noncomputable def rwpDiagnostics (ψ : Wavelet) (s : St τ g) (hemisphere : String) (center : ℝ) (vMax rwpMax : Option ℝ) :
    Except PyErr (Figure3 g) := do
  let (shift, offset) ← rollLon g.nlon g.lon center
  let v := s.v S
  let vLevels ← symmetricLevels (flat v) 10 vMax
  let dwn ← g.dominantWavelet hannWindow ψ v (some ((), 40, 10))
  let dwn ← asMap g dwn
  let draw ← varies (flat dwn)
  let dwnLevels : List ℝ := (List.range 10).map fun k : ℕ => (k : ℝ) + 1
  let ax1 : MapPanel g := ⟨rolled shift v (some vLevels), if draw then some (rolled shift dwn (some dwnLevels)) else none, none, offset,
    latLimits hemisphere⟩
  let env ← s.vEnvelopeHilbert S
  let env ← asMap g env
  let falwa ← s.falwa S
  let ffalwa ← filterByWavenumberO falwa (.field fun j i => 2 * dwn j i)
  let rwpLevels ← packetLevels (flat env) (flat ffalwa) rwpMax
  let psi ← psiContours shift (s.streamfunction S) (if hemisphere = "both" then 10 else 14)
  let ax2 : MapPanel g := ⟨rolled shift env (some rwpLevels), psi, none, offset, latLimits hemisphere⟩
  let levels ← pvLevels (flat (s.pv S)) (if hemisphere = "both" then 10 else 14)
  let ax3 : MapPanel g := ⟨⟨roll shift ffalwa, some rwpLevels⟩, some (rolled shift (s.pv S) (some levels)), none, offset, latLimits hemisphere⟩
  return ⟨ax1, ax2, ax3⟩

/-- The argument `k_waveguides` of `waveguides` (plot.py:352-355) -/
inductive WaveguidesArg
  | none
  | number (k : ℝ)
  | iterable (ks : List ℝ)

/-- The wavenumbers that are highlighted -/
def WaveguidesArg.wavenumbers : WaveguidesArg → List ℝ
  | .none => []
  | .number k => [k]
  | .iterable ks => ks

/-- The panels of `waveguides`: zonal wind; lines of waveguides (in the order of the wavenumbers) and the curve with the stationary
wavenumber -/
structure WaveguideFigure (g : Grid ℝ) where
  wind : LinePanel g
  guides : List (List (FloatX × Option FloatX))
  curve : Fin g.nlat → FloatX
  limits : ℝ × ℝ

/-- `waveguides` (plot.py:343-368, 381-382), without the limits and ticks of the wavenumber axis -/
noncomputable def waveguides (s : St τ g) (k : WaveguidesArg) (hemisphere : String) : Except PyErr (WaveguideFigure g) := do
  let zmu := rowMean (s.u S)
  let ks ← s.stationaryWavenumber S
  let z : Fin g.nlat → FloatX × FloatX := match ks with
    | .complex z => z
    | .real a => fun j => (a j, .fin 0)
  let guides ← k.wavenumbers.mapM fun k => do
    let wgs ← g.extractKsWaveguides (List.ofFn z) (.fin k, .fin 0)
    return waveguidePoints (FloatX.fin k) wgs
  return ⟨⟨[("", fun j => some (zmu j))], latLimits hemisphere⟩, guides, fun j => FloatX.realVariant (z j), latLimits hemisphere⟩

end Plot
end Barotropic
