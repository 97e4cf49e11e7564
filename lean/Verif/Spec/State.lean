import Verif.Model.State

/-!
# Uncached meaning of the properties of a state object
-/

namespace Barotropic
variable {τ : Type} {g : Grid ℝ}

/-- Value of a property as a function of the time and the spectral PV alone. -/
noncomputable def propValue (S : g.Sph) (s : St τ g) : StateProp → Except PyErr (PropVal τ g)
  | .time => .ok (.time s.time)
  | .pv => .ok (.fld (s.pv S))
  | .avo => .ok (.fld (s.pv S))
  | .pvSpectral => .ok (.spc s.q)
  | .u => .ok (.fld (s.u S))
  | .v => .ok (.fld (s.v S))
  | .streamfunction => .ok (.fld (s.streamfunction S))
  | .pvFluxSpectral => .ok (.spc (s.pvFluxSpectral S))
  | .vorticity => .ok (.fld (s.vorticity S))
  | .vo => .ok (.fld (s.vorticity S))
  | .vorticitySpectral => .ok (.spc (s.vorticitySpectral S))
  | .enstrophy => .ok (.fld (s.enstrophy S))
  | .eddyEnstrophy => .ok (.fld (s.eddyEnstrophy S))
  | .energy => .ok (.fld (s.energy S))
  | .pvZonalized => (s.pvZonalized S).map .prof
  | .falwa => (s.falwa S).map .fldO
  | .fawa => (g.stateFawa (s.pv S)).map .profO
  | .falwaFiltered => (s.falwaFiltered S).map .fldO
  | .vEnvelopeHilbert => (s.vEnvelopeHilbert S).map .arr
  | .stationaryWavenumber => (s.stationaryWavenumber S).map .ks

/-- For an object that was created without PV every property except `time` raises AttributeError. -/
def propValueNone (time : τ) : StateProp → Except PyErr (PropVal τ g)
  | .time => .ok (.time time)
  | _ => .error .attributeError

end Barotropic
