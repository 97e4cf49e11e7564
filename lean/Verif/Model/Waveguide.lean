import Verif.Model.FloatX
import Verif.Model.Derivative
import Verif.Model.GridReal

/-!
# Stationary wavenumber and waveguides  (diagnostics.py:251-360)
-/

namespace Barotropic
open FloatX

/-- A meridional profile or a 2-dimensional field on the grid. Arrays of other shapes are not modelled. -/
inductive ProfileOrField (g : Grid ℝ)
  | profile (a : Fin g.nlat → ℝ)
  | field (a : Fin g.nlat → Fin g.nlon → ℝ)

/-- `if a.ndim != 1: a = np.mean(a, axis=_ZONAL)` (diagnostics.py:286-287, 293-294) -/
noncomputable def ProfileOrField.zonalMean {g : Grid ℝ} : ProfileOrField g → Fin g.nlat → ℝ
  | .profile a => a
  | .field a => fun j => (∑ i, a j i) / g.nlon

/-- The result of `stationary_wavenumber`: a real or complex array -/
inductive KsResult (n : ℕ)
  | real (a : Fin n → FloatX)
  | complex (a : Fin n → FloatX × FloatX)

namespace Grid

/-- Derivative of a profile (a 1-dimensional array is returned for a 1-dimensional array, so that the last case does not occur) -/
noncomputable def derivativeProfile (g : Grid ℝ) (a : Fin g.nlat → ℝ) (order : Order) : Except PyErr (Fin g.nlat → ℝ) :=
  match g.derivativeMeridional (.d1 g.nlat a) order with
  | .error e => .error e
  | .ok (.d1 n d) => if hn : g.nlat = n then .ok fun j => d (Fin.cast hn j) else .error .valueError
  | .ok _ => .error .valueError

/-- Zonal-mean PV from zonal-mean zonal wind (diagnostics.py:290-291). The derivative of a profile is 0 at the poles, where
the code divides by `cos(±π/2)`, which is a tiny positive number in floating point arithmetic; here the cosine is 0 and `0/0 = 0`. -/
noncomputable def pvFromWind (g : Grid ℝ) (u : Fin g.nlat → ℝ) (order : Order) : Except PyErr (Fin g.nlat → ℝ) :=
  match g.derivativeProfile (fun j => u j * Real.cos (g.phi j)) order with
  | .error e => .error e
  | .ok d => .ok fun j => g.fcor j + -d j / g.rsphere / Real.cos (g.phi j)

/-- `ks2` at a latitude with PV gradient `beta` (times cosine squared and radius) and zonal wind `u`
(diagnostics.py:298-303). `np.isclose(u, 0., atol=min_u)` is `|u| <= min_u`. -/
noncomputable def ksSquared (beta u minU : ℝ) : FloatX :=
  if |u| ≤ minU then (if beta ≠ 0 then (fin beta).mul pinf else fin beta) else (fin beta).div (fin u)

/-- Zonal-mean PV (diagnostics.py:288-294) -/
noncomputable def ksPv (g : Grid ℝ) (u : ProfileOrField g) (pv : Option (ProfileOrField g)) (order : Order) :
    Except PyErr (Fin g.nlat → ℝ) :=
  match pv with
  | none => g.pvFromWind u.zonalMean order
  | some p => .ok p.zonalMean

/-- `stationary_wavenumber` (diagnostics.py:251-312) with given wind and optional PV -/
noncomputable def stationaryWavenumber (g : Grid ℝ) (u : ProfileOrField g) (pv : Option (ProfileOrField g)) (order : Order)
    (minU : ℝ) (kind : String) : Except PyErr (KsResult g.nlat) :=
  match g.ksPv u pv order with
  | .error e => .error e
  | .ok q =>
    match g.derivativeProfile q order with
    | .error e => .error e
    | .ok d =>
      let ks2 := fun j : Fin g.nlat => ksSquared (Real.cos (g.phi j) ^ 2 * g.rsphere * d j) (u.zonalMean j) minU
      if kind = "squared" then .ok (.real ks2)
      else if kind = "complex" then .ok (.complex fun j => csqrt (ks2 j))
      else if kind = "real" then .ok (.real fun j => realVariant (csqrt (ks2 j)))
      else .error .valueError

/-- State of the scan of `extract_ks_waveguides` -/
structure Scan where
  active : Bool
  start : FloatX
  guides : List (FloatX × FloatX)

/-- Latitude between a gridpoint and its southern neighbour where the linear interpolant is `k` (diagnostics.py:350, 355) -/
noncomputable def crossing (g : Grid ℝ) (k : FloatX) (lat : ℝ) (ksN ksS : FloatX) : FloatX :=
  (fin lat).sub (((fin g.dlat).mul (ksN.sub k)).div (ksS.sub ksN))

open Classical in
/-- One iteration of the loop (diagnostics.py:347-356) -/
noncomputable def scanStep (g : Grid ℝ) (k : FloatX) (s : Scan) (lat : ℝ) (ksN ksS : FloatX) : Scan :=
  if s.active = true ∧ ksS.Lt k then
    { s with
      active := false
      guides := s.guides ++ [(s.start, if ksN.isinf then (fin lat).add (fin g.dlat) else g.crossing k lat ksN ksS)] }
  else if s.active = false ∧ k.Lt ksS then
    { s with active := true, start := if ksS.isinf then fin lat else g.crossing k lat ksN ksS }
  else s

/-- The loop over `zip(grid.lat[:-1], ks[:-1], ks[1:])` (diagnostics.py:347-356), from gridpoint `j`; `ks` is the list of
values from this gridpoint on and the loop ends with the shorter of `ks` and the latitudes. -/
noncomputable def scan (g : Grid ℝ) (k : FloatX) : ℕ → List FloatX → Scan → Scan
  | j, a :: b :: ks, s => if j + 1 < g.nlat then scan g k (j + 1) (b :: ks) (g.scanStep k s (g.lat j) a b) else s
  | _, _, s => s

open Classical in
/-- `extract_ks_waveguides` (diagnostics.py:315-360) for an array of complex wavenumbers; IndexError if it is empty -/
noncomputable def extractKsWaveguides (g : Grid ℝ) (ks : List (FloatX × FloatX)) (k : FloatX × FloatX) :
    Except PyErr (List (FloatX × FloatX)) :=
  match ks with
  | [] => .error .indexError
  | z :: _ =>
    let s := g.scan (realVariant k) 0 (ks.map realVariant)
      ⟨decide ((realVariant k).Le (realVariant z)), fin (g.lat 0), []⟩
    .ok (if s.active then s.guides ++ [(s.start, fin (g.lat (g.nlat - 1)))] else s.guides)

end Grid

end Barotropic
