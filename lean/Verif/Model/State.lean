import Verif.Model.Spectral
import Verif.Model.Dominant
import Verif.Model.Waveguide

/-!
# State  (state.py:13-372)

`Field` values are evaluated lazily and memoized by the code. `StateObj` is the Python object with its caches and the
`read…` functions are its properties, as a state machine. `St` is the immutable content of an object (time, spectral PV)
with the same properties evaluated without caches; C33 proves that the two agree.
-/

namespace Barotropic

/-! ## Uncached content -/

/-- The content of a `State` that was created with PV. `τ` is the type of times. -/
structure St (τ : Type) (g : Grid ℝ) where
  time : τ
  q : g.Spc

namespace St
variable {τ : Type} {g : Grid ℝ} (S : g.Sph)

/-- `State(grid, time, pv=pv)` (state.py:54) -/
def ofPv (time : τ) (pv : g.Fld) : St τ g := ⟨time, Grid.toSpectral S pv⟩

/-- `State.pv` (state.py:144) -/
def pv (s : St τ g) : g.Fld := Grid.toGrid S s.q

/-- `State.vorticity` (state.py:198) -/
noncomputable def vorticity (s : St τ g) : g.Fld := s.pv S - g.fcor2

/-- `State.vorticity_spectral` (state.py:210) -/
noncomputable def vorticitySpectral (s : St τ g) : g.Spc := s.q - Grid.fcor2Spectral S

/-- `State._invert_pv` (state.py:176-180) -/
noncomputable def invertPv (s : St τ g) : g.Fld × g.Fld :=
  Grid.wind S (.inr (s.vorticitySpectral S)) (.inr 0)

/-- `State.u` (state.py:163-167) -/
noncomputable def u (s : St τ g) : g.Fld := (s.invertPv S).1

/-- `State.v` (state.py:170-174) -/
noncomputable def v (s : St τ g) : g.Fld := (s.invertPv S).2

/-- `State.streamfunction` (state.py:183-188) -/
noncomputable def streamfunction (s : St τ g) : g.Fld :=
  Grid.toGrid S (Grid.solvePoissonSpectral (s.vorticitySpectral S) 0)

/-- `State.pv_flux_spectral` (state.py:193) -/
noncomputable def pvFluxSpectral (s : St τ g) : g.Spc :=
  Grid.divergenceSpectral S (s.pv S * s.u S) (s.pv S * s.v S)

/-- `State.enstrophy` (state.py:215) -/
noncomputable def enstrophy (s : St τ g) : g.Fld := fun j i => 1 / 2 * s.pv S j i ^ 2

/-- `State.eddy_enstrophy` (state.py:220) -/
noncomputable def eddyEnstrophy (s : St τ g) : g.Fld :=
  fun j i => 1 / 2 * (s.pv S j i - (∑ i', s.pv S j i') / g.nlon) ^ 2

/-- `State.energy` (state.py:225) -/
noncomputable def energy (s : St τ g) : g.Fld := fun j i => 1 / 2 * (s.u S j i * s.u S j i + s.v S j i * s.v S j i)

/-- `State.pv_zonalized` (state.py:235) -/
noncomputable def pvZonalized (s : St τ g) : Except PyErr (Fin g.nlat → ℝ) := g.zonalize (s.pv S) .none "sptrapz"

/-- `State.falwa` (state.py:253) -/
noncomputable def falwa (s : St τ g) : Except PyErr (Fin g.nlat → Fin g.nlon → Option ℝ) := g.falwa (s.pv S)

/-- `State.falwa_filtered` (state.py:267-268) -/
noncomputable def falwaFiltered (s : St τ g) : Except PyErr (Fin g.nlat → Fin g.nlon → Option ℝ) :=
  g.falwaFiltered (s.pv S) (s.v S)

/-- `State.v_envelope_hilbert` (state.py:276) -/
noncomputable def vEnvelopeHilbert (s : St τ g) : Except PyErr (Arr ℝ) := envelopeHilbert (s.v S) 2 10

/-- `State.stationary_wavenumber` (state.py:278-284, default arguments) -/
noncomputable def stationaryWavenumber (s : St τ g) : Except PyErr (KsResult g.nlat) :=
  g.stationaryWavenumber (.field (s.u S)) (some (.field (s.pv S))) (.int 4) (1 / 1000) "complex"

/-- `State.extract_ks_waveguides(k)` (state.py:286-288) -/
noncomputable def extractKsWaveguides (s : St τ g) (k : ℝ) :
    Except PyErr (List (FloatX × FloatX)) :=
  match s.stationaryWavenumber S with
  | .error e => .error e
  | .ok (.complex ks) => g.extractKsWaveguides (List.ofFn ks) (FloatX.fin k, FloatX.fin 0)
  | .ok (.real ks) => g.extractKsWaveguides (List.ofFn fun j => (ks j, FloatX.fin 0)) (FloatX.fin k, FloatX.fin 0)

/-- `State.from_wind` (state.py:77-78) -/
noncomputable def fromWind (time : τ) (u v : g.Fld) : St τ g := ofPv S time (g.fcor2 + Grid.vorticity S u v)

/-- `State.from_vorticity` (state.py:92-93) -/
noncomputable def fromVorticity (time : τ) (vo : g.Fld) : St τ g := ofPv S time (g.fcor2 + vo)

end St

/-! ## Objects with caches -/

/-- A `State` object: its attributes, `None` is `none` (state.py:48-59). `_pv_zonalized` and `_falwa` are created by
`_cached_property` (state.py:13-20); "attribute missing" is `none` as well. -/
structure StateObj (τ : Type) (g : Grid ℝ) where
  time : τ
  pvSpectral : Option g.Spc
  pv : Option g.Fld := none
  u : Option g.Fld := none
  v : Option g.Fld := none
  streamfunction : Option g.Fld := none
  pvZonalized : Option (Fin g.nlat → ℝ) := none
  falwa : Option (Fin g.nlat → Fin g.nlon → Option ℝ) := none

/-- Reading from an object: may raise, may update caches (which persist when an exception is raised later). -/
def Rd (τ : Type) (g : Grid ℝ) (α : Type) := StateObj τ g → Except PyErr α × StateObj τ g

instance (τ : Type) (g : Grid ℝ) : Monad (Rd τ g) where
  pure a := fun o => (.ok a, o)
  bind m f := fun o => match m o with
    | (.ok a, o') => f a o'
    | (.error e, o') => (.error e, o')

/-- the object itself -/
def Rd.get {τ : Type} {g : Grid ℝ} : Rd τ g (StateObj τ g) := fun o => (.ok o, o)

/-- attribute assignment -/
def Rd.modify {τ : Type} {g : Grid ℝ} (f : StateObj τ g → StateObj τ g) : Rd τ g Unit := fun o => (.ok (), f o)

/-- raise an exception -/
def Rd.raise {τ : Type} {g : Grid ℝ} {α : Type} (e : PyErr) : Rd τ g α := fun o => (.error e, o)

namespace StateObj
variable {τ : Type} {g : Grid ℝ} (S : g.Sph)

/-- `State.__init__` (state.py:48-59) -/
def init (time : τ) (pv : Option g.Fld) (pvSpectral : Option g.Spc) : Except PyErr (StateObj τ g) :=
  if pv.isNone ∨ pvSpectral.isNone then
    .ok { time := time, pvSpectral := match pv with
      | none => pvSpectral
      | some pv => some (Grid.toSpectral S pv) }
  else .error .assertionError

/-- `State.pv` (state.py:141-145); `to_grid(None)` raises AttributeError (spharm looks at `.shape`). -/
def readPv : Rd τ g g.Fld := do
  let s ← Rd.get
  match s.pv with
  | some pv => return pv
  | none =>
    match s.pvSpectral with
    | none => Rd.raise .attributeError
    | some q =>
      let pv := Grid.toGrid S q
      Rd.modify fun s => { s with pv := some pv }
      return pv

/-- `State.pv_spectral` (state.py:156-160); `to_spectral(None)` raises AttributeError. -/
def readPvSpectral : Rd τ g g.Spc := do
  let s ← Rd.get
  match s.pvSpectral with
  | some q => return q
  | none =>
    match s.pv with
    | none => Rd.raise .attributeError
    | some pv =>
      let q := Grid.toSpectral S pv
      Rd.modify fun s => { s with pvSpectral := some q }
      return q

/-- `State.vorticity` (state.py:198) -/
noncomputable def readVorticity : Rd τ g g.Fld := do
  let pv ← readPv S
  return pv - g.fcor2

/-- `State.vorticity_spectral` (state.py:210) -/
noncomputable def readVorticitySpectral : Rd τ g g.Spc := do
  let q ← readPvSpectral S
  return q - Grid.fcor2Spectral S

/-- `State._invert_pv` (state.py:176-180): sets both wind components. -/
noncomputable def invertPv : Rd τ g Unit := do
  let vo ← readVorticitySpectral S
  let uv := Grid.wind S (.inr vo) (.inr 0)
  Rd.modify fun s => { s with u := some uv.1, v := some uv.2 }

/-- `return self._u` after `_invert_pv` (state.py:167); the `none` case does not occur. -/
def getU : Rd τ g g.Fld := do
  match (← Rd.get).u with
  | some u => return u
  | none => Rd.raise .attributeError

/-- `return self._v` (state.py:174) -/
def getV : Rd τ g g.Fld := do
  match (← Rd.get).v with
  | some v => return v
  | none => Rd.raise .attributeError

/-- `State.u` (state.py:163-167) -/
noncomputable def readU : Rd τ g g.Fld := do
  let s ← Rd.get
  if s.u.isNone then do
    invertPv S
    getU
  else getU

/-- `State.v` (state.py:170-174) -/
noncomputable def readV : Rd τ g g.Fld := do
  let s ← Rd.get
  if s.v.isNone then do
    invertPv S
    getV
  else getV

/-- `State.streamfunction` (state.py:183-188) -/
noncomputable def readStreamfunction : Rd τ g g.Fld := do
  match (← Rd.get).streamfunction with
  | some psi => return psi
  | none =>
    let vo ← readVorticitySpectral S
    let psi := Grid.toGrid S (Grid.solvePoissonSpectral vo 0)
    Rd.modify fun s => { s with streamfunction := some psi }
    return psi

/-- `State.pv_flux_spectral` (state.py:193): four reads, left to right. -/
noncomputable def readPvFlux : Rd τ g g.Spc := do
  let q1 ← readPv S
  let u ← readU S
  let q2 ← readPv S
  let v ← readV S
  return Grid.divergenceSpectral S (q1 * u) (q2 * v)

/-- `State.enstrophy` (state.py:215) -/
noncomputable def readEnstrophy : Rd τ g g.Fld := do
  let q ← readPv S
  return fun j i => 1 / 2 * q j i ^ 2

/-- `State.eddy_enstrophy` (state.py:220) -/
noncomputable def readEddyEnstrophy : Rd τ g g.Fld := do
  let q ← readPv S
  let q' ← readPv S
  return fun j i => 1 / 2 * (q j i - (∑ i', q' j i') / g.nlon) ^ 2

/-- `State.energy` (state.py:225) -/
noncomputable def readEnergy : Rd τ g g.Fld := do
  let u1 ← readU S
  let u2 ← readU S
  let v1 ← readV S
  let v2 ← readV S
  return fun j i => 1 / 2 * (u1 j i * u2 j i + v1 j i * v2 j i)

/-- `State.pv_zonalized` (state.py:13-20, 229-235) -/
noncomputable def readPvZonalized : Rd τ g (Fin g.nlat → ℝ) := do
  match (← Rd.get).pvZonalized with
  | some z => return z
  | none =>
    let q ← readPv S
    match g.zonalize q .none "sptrapz" with
    | .error e => Rd.raise e
    | .ok z =>
      Rd.modify fun s => { s with pvZonalized := some z }
      return z

/-- `State.falwa` (state.py:13-20, 247-253) -/
noncomputable def readFalwa : Rd τ g (Fin g.nlat → Fin g.nlon → Option ℝ) := do
  match (← Rd.get).falwa with
  | some z => return z
  | none =>
    let q ← readPv S
    match g.falwa q with
    | .error e => Rd.raise e
    | .ok z =>
      Rd.modify fun s => { s with falwa := some z }
      return z

/-- `State.fawa` (state.py:245) -/
noncomputable def readFawa : Rd τ g (Fin g.nlat → Option ℝ) := do
  let f ← readFalwa S
  return fun j => Grid.meanO (f j)

/-- `State.falwa_filtered` (state.py:255-268): `v` is read first, FALWA after the dominant wavenumber is known. -/
noncomputable def readFalwaFiltered : Rd τ g (Fin g.nlat → Fin g.nlon → Option ℝ) := do
  let v ← readV S
  match g.dominantProfile v with
  | .error e => Rd.raise e
  | .ok k =>
    let F ← readFalwa S
    match g.phaseFilter F k with
    | .error e => Rd.raise e
    | .ok z => return z

/-- `State.v_envelope_hilbert` (state.py:270-276) -/
noncomputable def readVEnvelopeHilbert : Rd τ g (Arr ℝ) := do
  let v ← readV S
  match envelopeHilbert v 2 10 with
  | .error e => Rd.raise e
  | .ok z => return z

/-- `State.stationary_wavenumber` (state.py:278-284, diagnostics.py:9-18): `u` and `pv` are read in this order. -/
noncomputable def readStationaryWavenumber : Rd τ g (KsResult g.nlat) := do
  let u ← readU S
  let pv ← readPv S
  match g.stationaryWavenumber (.field u) (some (.field pv)) (.int 4) (1 / 1000) "complex" with
  | .error e => Rd.raise e
  | .ok z => return z

end StateObj

/-- The modelled properties of `State`. (`avo` and `vo` are aliases, state.py:147-153, 200-206.) -/
inductive StateProp
  | time | pv | avo | pvSpectral | u | v | streamfunction | pvFluxSpectral | vorticity | vo | vorticitySpectral
  | enstrophy | eddyEnstrophy | energy | pvZonalized | falwa | fawa
  | falwaFiltered | vEnvelopeHilbert | stationaryWavenumber

/-- The possible property values. -/
inductive PropVal (τ : Type) (g : Grid ℝ)
  | time (t : τ)
  | fld (f : g.Fld)
  | spc (s : g.Spc)
  | prof (p : Fin g.nlat → ℝ)
  | fldO (f : Fin g.nlat → Fin g.nlon → Option ℝ)
  | profO (f : Fin g.nlat → Option ℝ)
  | arr (a : Arr ℝ)
  | ks (a : KsResult g.nlat)

/-- Property access `obj.name` -/
noncomputable def StateObj.read {τ : Type} {g : Grid ℝ} (S : g.Sph) : StateProp → Rd τ g (PropVal τ g)
  | .time => do return .time (← Rd.get).time
  | .pv => .fld <$> readPv S
  | .avo => .fld <$> readPv S
  | .pvSpectral => .spc <$> readPvSpectral S
  | .u => .fld <$> readU S
  | .v => .fld <$> readV S
  | .streamfunction => .fld <$> readStreamfunction S
  | .pvFluxSpectral => .spc <$> readPvFlux S
  | .vorticity => .fld <$> readVorticity S
  | .vo => .fld <$> readVorticity S
  | .vorticitySpectral => .spc <$> readVorticitySpectral S
  | .enstrophy => .fld <$> readEnstrophy S
  | .eddyEnstrophy => .fld <$> readEddyEnstrophy S
  | .energy => .fld <$> readEnergy S
  | .pvZonalized => .prof <$> readPvZonalized S
  | .falwa => .fldO <$> readFalwa S
  | .fawa => .profO <$> readFawa S
  | .falwaFiltered => .fldO <$> readFalwaFiltered S
  | .vEnvelopeHilbert => .arr <$> readVEnvelopeHilbert S
  | .stationaryWavenumber => .ks <$> readStationaryWavenumber S

/-- A sequence of property reads on one object; exceptions of single reads are caught by the caller. -/
noncomputable def StateObj.reads {τ : Type} {g : Grid ℝ} (S : g.Sph) :
    List StateProp → StateObj τ g → List (Except PyErr (PropVal τ g))
  | [], _ => []
  | p :: ps, o =>
    let r := StateObj.read S p o
    r.1 :: StateObj.reads S ps r.2

/-! ## Several grid objects: identity and shape checks -/

/-- Grid objects that exist (address ↦ grid) with their transforms. -/
structure GridHeap where
  grid : ℕ → Grid ℝ
  sph : ∀ i, (grid i).Sph

/-- A state together with the address of its grid object. -/
abbrev AnySt (τ : Type) (H : GridHeap) := Σ i : ℕ, St τ (H.grid i)

/-- A two-dimensional array of the shape of the grid as field, `none` if the shape differs. -/
noncomputable def Arr.asFld (g : Grid ℝ) : Arr ℝ → Option g.Fld
  | .d2 h w f => if e : h = g.nlat ∧ w = g.nlon then
      some fun j i => f (Fin.cast e.1.symm j) (Fin.cast e.2.symm i) else none
  | _ => none

/-- Argument of `add_vorticity` -/
inductive VoArg (τ : Type) (H : GridHeap)
  | state (s : AnySt τ H)
  | array (a : Arr ℝ)

/-- Argument of `add_wind` -/
inductive WindArg (τ : Type) (H : GridHeap)
  | state (s : AnySt τ H)
  | tuple (u v : Arr ℝ)

/-- `State.add_vorticity` (state.py:129-136) -/
noncomputable def addVorticity {τ : Type} {H : GridHeap} (s : AnySt τ H) : VoArg τ H → Except PyErr (AnySt τ H)
  | .state o =>
    if e : o.1 = s.1 then
      let other : St τ (H.grid s.1) := e ▸ o.2
      .ok ⟨s.1, .ofPv (H.sph s.1) s.2.time (s.2.pv (H.sph s.1) + other.vorticity (H.sph s.1))⟩
    else .error .assertionError
  | .array a =>
    match a.asFld (H.grid s.1) with
    | some f => .ok ⟨s.1, .ofPv (H.sph s.1) s.2.time (s.2.pv (H.sph s.1) + f)⟩
    | none => .error .assertionError

/-- `State.add_wind` (state.py:108-116). In the second case the wind of `self` is not used. -/
noncomputable def addWind {τ : Type} {H : GridHeap} (s : AnySt τ H) : WindArg τ H → Except PyErr (AnySt τ H)
  | .state o =>
    if e : o.1 = s.1 then
      let other : St τ (H.grid s.1) := e ▸ o.2
      .ok ⟨s.1, .fromWind (H.sph s.1) s.2.time (s.2.u (H.sph s.1) + other.u (H.sph s.1))
        (s.2.v (H.sph s.1) + other.v (H.sph s.1))⟩
    else .error .assertionError
  | .tuple u v =>
    match u.asFld (H.grid s.1), v.asFld (H.grid s.1) with
    | some u, some v => .ok ⟨s.1, .fromWind (H.sph s.1) s.2.time u v⟩
    | _, _ => .error .assertionError

/-! ## Conversion to and from falwa/hn2016 -/

/-- The attributes of `falwa.barotropic_field.BarotropicField` that are used: coordinates and PV field. -/
structure BaroField where
  nlon : ℕ
  nlat : ℕ
  xlon : Fin nlon → ℝ
  ylat : Fin nlat → ℝ
  pvField : Fin nlat → Fin nlon → ℝ

/-- `State.as_hn2016` (state.py:338-343); `np.flip`/`np.flipud` reverse the rows. -/
noncomputable def asHn2016 {τ : Type} {g : Grid ℝ} (S : g.Sph) (s : St τ g) : BaroField where
  nlon := g.nlon
  nlat := g.nlat
  xlon := fun i => g.lon i
  ylat := fun j => g.lat j.rev
  pvField := fun j i => s.pv S j.rev i

/-- `State.from_hn2016` with a grid (state.py:366-372) -/
noncomputable def fromHn2016 {τ : Type} {g : Grid ℝ} (S : g.Sph) (time : τ) (b : BaroField) : Except PyErr (St τ g) :=
  if e : b.nlon = g.nlon then
    if e' : b.nlat = g.nlat then
      .ok (.ofPv S time fun j i => b.pvField (Fin.cast e'.symm j).rev (Fin.cast e.symm i))
    else .error .assertionError
  else .error .assertionError

end Barotropic
