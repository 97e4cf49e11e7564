import Verif.Spec.State

/-! # Cache invariant of state objects -/

namespace Barotropic
variable {τ : Type} {g : Grid ℝ}

/-- Every cache is empty or holds the uncached value. -/
structure CacheInv (S : g.Sph) (s : St τ g) (o : StateObj τ g) : Prop where
  time : o.time = s.time
  q : o.pvSpectral = some s.q
  pv : o.pv = none ∨ o.pv = some (s.pv S)
  u : o.u = none ∨ o.u = some (s.u S)
  v : o.v = none ∨ o.v = some (s.v S)
  psi : o.streamfunction = none ∨ o.streamfunction = some (s.streamfunction S)
  zon : o.pvZonalized = none ∨ ∃ z, s.pvZonalized S = .ok z ∧ o.pvZonalized = some z
  falwa : o.falwa = none ∨ ∃ z, s.falwa S = .ok z ∧ o.falwa = some z

/-- Reading `m` on any object with the invariant gives `r` and keeps the invariant. -/
def Yields (S : g.Sph) (s : St τ g) {α : Type} (m : Rd τ g α) (r : Except PyErr α) : Prop :=
  ∀ o, CacheInv S s o → ∃ o', m o = (r, o') ∧ CacheInv S s o'

variable {S : g.Sph} {s : St τ g} {α β : Type}

theorem rd_bind {m : Rd τ g α} {f : α → Rd τ g β} {o o' : StateObj τ g} {a : α} (h : m o = (.ok a, o')) :
    (m >>= f) o = f a o' := by
  change (match m o with
    | (.ok a, o') => f a o'
    | (.error e, o') => (.error e, o')) = _
  rw [h]

theorem rd_bind_error {m : Rd τ g α} {f : α → Rd τ g β} {o o' : StateObj τ g} {e : PyErr} (h : m o = (.error e, o')) :
    (m >>= f) o = (.error e, o') := by
  change (match m o with
    | (.ok a, o') => f a o'
    | (.error e, o') => (.error e, o')) = _
  rw [h]

theorem Yields.pure (a : α) : Yields S s (Pure.pure a) (.ok a) := fun o h => ⟨o, rfl, h⟩

theorem Yields.bind {m : Rd τ g α} {f : α → Rd τ g β} {a : α} {r : Except PyErr β}
    (h1 : Yields S s m (.ok a)) (h2 : Yields S s (f a) r) : Yields S s (m >>= f) r := by
  intro o ho
  obtain ⟨o1, e1, i1⟩ := h1 o ho
  obtain ⟨o2, e2, i2⟩ := h2 o1 i1
  exact ⟨o2, (rd_bind e1).trans e2, i2⟩

theorem Yields.bind_error {m : Rd τ g α} {f : α → Rd τ g β} {e : PyErr}
    (h1 : Yields S s m (.error e)) : Yields S s (m >>= f) (.error e) := by
  intro o ho
  obtain ⟨o1, e1, i1⟩ := h1 o ho
  exact ⟨o1, rd_bind_error e1, i1⟩

theorem Yields.map {m : Rd τ g α} {r : Except PyErr α} (f : α → β) (h : Yields S s m r) :
    Yields S s (f <$> m) (r.map f) := by
  change Yields S s (m >>= fun a => Pure.pure (f a)) _
  cases r with
  | ok a => exact h.bind (Yields.pure _)
  | error e => exact h.bind_error

open StateObj

theorem yields_pv : Yields S s (readPv S) (.ok (s.pv S)) := by
  intro o h
  rcases h.pv with h1 | h1
  · refine ⟨{ o with pv := some (s.pv S) }, ?_, ⟨h.time, h.q, .inr rfl, h.u, h.v, h.psi, h.zon, h.falwa⟩⟩
    unfold readPv
    rw [rd_bind (show Rd.get o = (.ok o, o) from rfl)]
    simp only [h1, h.q]; rw [← h.q]; rfl
  · refine ⟨o, ?_, h⟩
    unfold readPv
    rw [rd_bind (show Rd.get o = (.ok o, o) from rfl)]
    simp only [h1]; rfl

theorem yields_pvSpectral : Yields S s (readPvSpectral S) (.ok s.q) := by
  intro o h
  refine ⟨o, ?_, h⟩
  unfold readPvSpectral
  rw [rd_bind (show Rd.get o = (.ok o, o) from rfl)]
  simp only [h.q]; rfl

theorem yields_vorticitySpectral : Yields S s (readVorticitySpectral S) (.ok (s.vorticitySpectral S)) :=
  yields_pvSpectral.bind (Yields.pure _)

theorem yields_vorticity : Yields S s (readVorticity S) (.ok (s.vorticity S)) :=
  yields_pv.bind (Yields.pure _)

/-- after `_invert_pv` both components are cached -/
theorem invertPv_run {o : StateObj τ g} (h : CacheInv S s o) :
    ∃ o', invertPv S o = (.ok (), o') ∧ CacheInv S s o' ∧ o'.u = some (s.u S) ∧ o'.v = some (s.v S) := by
  obtain ⟨o1, e1, i1⟩ := yields_vorticitySpectral (S := S) (s := s) o h
  refine ⟨{ o1 with u := some (s.u S), v := some (s.v S) }, ?_,
    ⟨i1.time, i1.q, i1.pv, .inr rfl, .inr rfl, i1.psi, i1.zon, i1.falwa⟩, rfl, rfl⟩
  unfold invertPv
  rw [rd_bind e1]; rfl

theorem getU_run {o : StateObj τ g} {u : g.Fld} (h : o.u = some u) : getU o = (.ok u, o) := by
  unfold getU
  rw [rd_bind (show Rd.get o = (.ok o, o) from rfl)]
  simp only [h]; rfl

theorem getV_run {o : StateObj τ g} {u : g.Fld} (h : o.v = some u) : getV o = (.ok u, o) := by
  unfold getV
  rw [rd_bind (show Rd.get o = (.ok o, o) from rfl)]
  simp only [h]; rfl

theorem yields_u : Yields S s (readU S) (.ok (s.u S)) := by
  intro o h
  unfold readU
  rw [rd_bind (show Rd.get o = (.ok o, o) from rfl)]
  rcases h.u with h1 | h1
  · obtain ⟨o1, e1, i1, hu, hv⟩ := invertPv_run h
    refine ⟨o1, ?_, i1⟩
    rw [h1, Option.isNone_none, if_pos rfl, rd_bind e1, getU_run hu]
  · refine ⟨o, ?_, h⟩
    rw [h1, Option.isNone_some, if_neg (by simp), getU_run h1]

theorem yields_v : Yields S s (readV S) (.ok (s.v S)) := by
  intro o h
  unfold readV
  rw [rd_bind (show Rd.get o = (.ok o, o) from rfl)]
  rcases h.v with h1 | h1
  · obtain ⟨o1, e1, i1, hu, hv⟩ := invertPv_run h
    refine ⟨o1, ?_, i1⟩
    rw [h1, Option.isNone_none, if_pos rfl, rd_bind e1, getV_run hv]
  · refine ⟨o, ?_, h⟩
    rw [h1, Option.isNone_some, if_neg (by simp), getV_run h1]

theorem yields_psi : Yields S s (readStreamfunction S) (.ok (s.streamfunction S)) := by
  intro o h
  rcases h.psi with h1 | h1
  · unfold readStreamfunction
    rw [rd_bind (show Rd.get o = (.ok o, o) from rfl)]
    simp only [h1]
    refine (yields_vorticitySpectral.bind (f := fun vo => _) ?_ : Yields S s _ _) o h
    intro o ho
    exact ⟨{ o with streamfunction := some (s.streamfunction S) }, rfl,
      ⟨ho.time, ho.q, ho.pv, ho.u, ho.v, .inr rfl, ho.zon, ho.falwa⟩⟩
  · refine ⟨o, ?_, h⟩
    unfold readStreamfunction
    rw [rd_bind (show Rd.get o = (.ok o, o) from rfl)]
    simp only [h1]; rfl

theorem yields_zon : Yields S s (readPvZonalized S) (s.pvZonalized S) := by
  intro o h
  rcases h.zon with h1 | ⟨z, hz, h1⟩
  · unfold readPvZonalized
    rw [rd_bind (show Rd.get o = (.ok o, o) from rfl)]
    simp only [h1]
    refine (yields_pv.bind (f := fun vo => _) ?_ : Yields S s _ _) o h
    intro o ho
    have hdef : g.zonalize (s.pv S) .none "sptrapz" = s.pvZonalized S := rfl
    rw [hdef]
    cases hz : s.pvZonalized S with
    | error e => exact ⟨o, rfl, ho⟩
    | ok z =>
      exact ⟨{ o with pvZonalized := some z }, rfl,
        ⟨ho.time, ho.q, ho.pv, ho.u, ho.v, ho.psi, .inr ⟨z, hz, rfl⟩, ho.falwa⟩⟩
  · refine ⟨o, ?_, h⟩
    unfold readPvZonalized
    rw [rd_bind (show Rd.get o = (.ok o, o) from rfl)]
    simp only [h1, hz]; rfl

theorem yields_falwa : Yields S s (readFalwa S) (s.falwa S) := by
  intro o h
  rcases h.falwa with h1 | ⟨z, hz, h1⟩
  · unfold readFalwa
    rw [rd_bind (show Rd.get o = (.ok o, o) from rfl)]
    simp only [h1]
    refine (yields_pv.bind (f := fun vo => _) ?_ : Yields S s _ _) o h
    intro o ho
    have hdef : g.falwa (s.pv S) = s.falwa S := rfl
    rw [hdef]
    cases hz : s.falwa S with
    | error e => exact ⟨o, rfl, ho⟩
    | ok z =>
      exact ⟨{ o with falwa := some z }, rfl,
        ⟨ho.time, ho.q, ho.pv, ho.u, ho.v, ho.psi, ho.zon, .inr ⟨z, hz, rfl⟩⟩⟩
  · refine ⟨o, ?_, h⟩
    unfold readFalwa
    rw [rd_bind (show Rd.get o = (.ok o, o) from rfl)]
    simp only [h1, hz]; rfl

theorem yields_fawa : Yields S s (readFawa S) (g.stateFawa (s.pv S)) := by
  have h := yields_falwa (S := S) (s := s)
  have hdef : g.falwa (s.pv S) = s.falwa S := rfl
  unfold readFawa Grid.stateFawa
  rw [hdef]
  cases hz : s.falwa S with
  | error e => rw [hz] at h; exact h.bind_error
  | ok z => rw [hz] at h; exact h.bind (Yields.pure _)

theorem Yields.raise (e : PyErr) : Yields S s (Rd.raise e : Rd τ g α) (.error e) := fun o h => ⟨o, rfl, h⟩

theorem yields_falwaFiltered : Yields S s (readFalwaFiltered S) (s.falwaFiltered S) := by
  have h := yields_falwa (S := S) (s := s)
  have hdef : g.falwa (s.pv S) = s.falwa S := rfl
  unfold readFalwaFiltered St.falwaFiltered Grid.falwaFiltered
  rw [hdef]
  refine yields_v.bind ?_
  cases g.dominantProfile (s.v S) with
  | error e => exact Yields.raise e
  | ok k =>
    cases hz : s.falwa S with
    | error e => rw [hz] at h; exact h.bind_error
    | ok F =>
      rw [hz] at h
      refine h.bind ?_
      dsimp only
      cases g.phaseFilter F k with
      | error e => exact Yields.raise e
      | ok z => exact Yields.pure z

theorem yields_vEnvelopeHilbert : Yields S s (readVEnvelopeHilbert S) (s.vEnvelopeHilbert S) := by
  unfold readVEnvelopeHilbert St.vEnvelopeHilbert
  refine yields_v.bind ?_
  cases envelopeHilbert (s.v S) 2 10 with
  | error e => exact Yields.raise e
  | ok z => exact Yields.pure z

theorem yields_stationaryWavenumber : Yields S s (readStationaryWavenumber S) (s.stationaryWavenumber S) := by
  unfold readStationaryWavenumber St.stationaryWavenumber
  refine yields_u.bind (yields_pv.bind ?_)
  cases g.stationaryWavenumber (.field (s.u S)) (some (.field (s.pv S))) (.int 4) (1 / 1000) "complex" with
  | error e => exact Yields.raise e
  | ok z => exact Yields.pure z

theorem yields_read (p : StateProp) : Yields S s (StateObj.read S p) (propValue S s p) := by
  cases p with
  | time =>
    intro o h
    refine ⟨o, ?_, h⟩
    change (Except.ok (PropVal.time o.time), o) = _
    rw [h.time]; rfl
  | pv => exact yields_pv.map _
  | avo => exact yields_pv.map _
  | pvSpectral => exact yields_pvSpectral.map _
  | u => exact yields_u.map _
  | v => exact yields_v.map _
  | streamfunction => exact yields_psi.map _
  | pvFluxSpectral =>
    exact (yields_pv.bind (yields_u.bind (yields_pv.bind (yields_v.bind (Yields.pure _)))) :
      Yields S s (readPvFlux S) (.ok (s.pvFluxSpectral S))).map _
  | vorticity => exact yields_vorticity.map _
  | vo => exact yields_vorticity.map _
  | vorticitySpectral => exact yields_vorticitySpectral.map _
  | enstrophy => exact (yields_pv.bind (Yields.pure _) : Yields S s (readEnstrophy S) (.ok (s.enstrophy S))).map _
  | eddyEnstrophy =>
    exact (yields_pv.bind (yields_pv.bind (Yields.pure _)) :
      Yields S s (readEddyEnstrophy S) (.ok (s.eddyEnstrophy S))).map _
  | energy =>
    exact (yields_u.bind (yields_u.bind (yields_v.bind (yields_v.bind (Yields.pure _)))) :
      Yields S s (readEnergy S) (.ok (s.energy S))).map _
  | pvZonalized => exact yields_zon.map _
  | falwa => exact yields_falwa.map _
  | fawa => exact yields_fawa.map _
  | falwaFiltered => exact yields_falwaFiltered.map _
  | vEnvelopeHilbert => exact yields_vEnvelopeHilbert.map _
  | stationaryWavenumber => exact yields_stationaryWavenumber.map _

theorem reads_eq (ps : List StateProp) : ∀ o, CacheInv S s o → StateObj.reads S ps o = ps.map (propValue S s) := by
  induction ps with
  | nil => intro o _; rfl
  | cons p ps ih =>
    intro o h
    obtain ⟨o', e, i⟩ := yields_read p o h
    unfold StateObj.reads
    simp only [e, List.map_cons, ih o' i]

end Barotropic
