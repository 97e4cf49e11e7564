import Verif.Lemmas.Memory

/-!
# C128: functions do not modify the arrays they are given
-/

namespace Barotropic
open Mp Mem

/-- C128: `equivalent_latitude` -/
theorem C128_equivalent_latitude (g : Grid ℝ) {ι : Type} [Flat ι] (m : Mem) (area : Nd ι ℝ) :
    YieldsNew m (g.equivalentLatitudeM area) fun i => g.eqLat (m.read area i) := by
  classical
  refine ⟨_, _, rfl, ?_, ?_, ?_, ?_⟩
  · exact ((((Unchanged.refl m).alloc _).store _ le_rfl _).store _ le_rfl _).alloc _
  · exact Nat.le_succ _
  · exact Nat.lt_succ_self _
  · refine (read_alloc_self _ _).trans ?_
    funext i
    simp only [Grid.eqLat]
    congr 2
    rw [read_store_where _ _ Flat.flat_injective, read_store_where _ _ Flat.flat_injective, read_alloc_self]
    simp only [Grid.clipSine]
    split_ifs <;> simp_all

/-- C128: `gridpoint_area` -/
theorem C128_area (g : Grid ℝ) (hg : 3 ≤ g.nlat) (m : Mem) (phi : Nd (Fin g.nlat) ℝ)
    (hv : ∀ j, m.read phi j = g.phi j) :
    YieldsNew m (g.gridpointAreaM phi) fun j => g.gridpointArea j := by
  classical
  refine ⟨_, _, rfl, ?_, ?_, ?_, ?_⟩
  · exact ((((Unchanged.refl m).alloc _).store _ le_rfl _).store _ le_rfl _).store _ le_rfl _
  · exact le_rfl
  · exact Nat.lt_succ_self _
  · funext j
    rw [read_store_where _ _ Flat.flat_injective, read_sub, read_store_where _ _ Flat.flat_injective, read_sub,
      read_store_where _ _ Flat.flat_injective, read_sub, read_alloc_self]
    have hc : ∀ k, k < g.nlat - 1 → 1 / 2 * (Grid.col (m.read phi) (k + 1) + Grid.col (m.read phi) k) = g.midPhi k := by
      intro k hk
      simp only [Grid.col, show k + 1 < g.nlat by omega, show k < g.nlat by omega, dif_pos, hv, Grid.midPhi]
    have hj := j.isLt
    simp only [Grid.gridpointArea]
    by_cases h0 : j.val = 0
    · rw [dif_neg (by omega), dif_pos h0, dif_neg (by omega), if_pos h0, hc 0 (by omega)]
    · by_cases h1 : j.val = g.nlat - 1
      · rw [dif_pos h1, dif_neg h0, dif_neg (by omega), if_neg h0, if_pos h1, hc _ (by omega)]
      · rw [dif_neg h1, dif_neg h0, dif_pos ⟨by omega, by omega⟩, if_neg h0, if_neg h1, hc _ (by omega), hc _ (by omega)]

/-- C128: `derivative_meridional`, order 2 -/
theorem C128_derivative2 (g : Grid ℝ) {h : ℕ} (hh : 3 ≤ h) {κ : Type} [Flat (Fin h × κ)] (poles : Bool) (m : Mem)
    (f : Nd (Fin h × κ) ℝ) (hf : f.Valid m) :
    YieldsNew m (g.derivative2M poles f) fun p =>
      Grid.stencil2 poles h (Grid.col fun j => m.read f (j, p.2)) p.1 / 2 / g.dphi := by
  classical
  have hb : f.buf ≠ m.next := hf.ne
  cases poles
  · refine ⟨_, _, rfl, ?_, ?_, ?_, ?_⟩
    · exact (((Unchanged.refl m).alloc _).store _ le_rfl _).alloc _
    · exact Nat.le_succ _
    · exact Nat.lt_succ_self _
    · refine (read_alloc_self _ _).trans ?_
      funext ⟨j, i⟩
      have hj := j.isLt
      rw [read_store_rows _ _ Flat.flat_injective, read_alloc_self, read_alloc_ne _ _ _ hb]
      simp only [Grid.stencil2, Bool.false_eq_true, if_false, if_true]
      split_ifs <;> first | rfl | omega
  · refine ⟨_, _, rfl, ?_, ?_, ?_, ?_⟩
    · exact (((((Unchanged.refl m).alloc _).store _ le_rfl _).store _ le_rfl _).store _ le_rfl _).alloc _
    · exact Nat.le_succ _
    · exact Nat.lt_succ_self _
    · refine (read_alloc_self _ _).trans ?_
      funext ⟨j, i⟩
      have hj := j.isLt
      rw [read_store_rows _ _ Flat.flat_injective, read_store_rows _ _ Flat.flat_injective,
        read_store_rows _ _ Flat.flat_injective, read_alloc_self]
      simp only [read_store_rows_ne _ ⟨m.next, Flat.flat⟩ _ _ f hb, read_alloc_ne _ _ f hb]
      simp only [Grid.stencil2, Bool.false_eq_true, if_false, if_true]
      split_ifs <;> first | rfl | omega

/-- C128: `derivative_meridional`, order 4 -/
theorem C128_derivative4 (g : Grid ℝ) {h : ℕ} (hh : 5 ≤ h) {κ : Type} [Flat (Fin h × κ)] (poles : Bool) (m : Mem)
    (f : Nd (Fin h × κ) ℝ) (hf : f.Valid m) :
    YieldsNew m (g.derivative4M poles f) fun p =>
      Grid.stencil4 poles h (Grid.col fun j => m.read f (j, p.2)) p.1 / 12 / g.dphi := by
  classical
  have hb : f.buf ≠ m.next := hf.ne
  cases poles
  · refine ⟨_, _, rfl, ?_, ?_, ?_, ?_⟩
    · exact (((((Unchanged.refl m).alloc _).store _ le_rfl _).store _ le_rfl _).store _ le_rfl _).alloc _
    · exact Nat.le_succ _
    · exact Nat.lt_succ_self _
    · refine (read_alloc_self _ _).trans ?_
      funext ⟨j, i⟩
      have hj := j.isLt
      rw [read_store_rows _ _ Flat.flat_injective, read_store_rows _ _ Flat.flat_injective,
        read_store_rows _ _ Flat.flat_injective, read_alloc_self]
      simp only [read_store_rows_ne _ ⟨m.next, Flat.flat⟩ _ _ f hb, read_alloc_ne _ _ f hb]
      simp only [Grid.stencil4, Bool.false_eq_true, if_false, if_true]
      split_ifs <;> first | rfl | omega
  · refine ⟨_, _, rfl, ?_, ?_, ?_, ?_⟩
    · exact (((((((Unchanged.refl m).alloc _).store _ le_rfl _).store _ le_rfl _).store _ le_rfl _).store _ le_rfl
        _).store _ le_rfl _).alloc _
    · exact Nat.le_succ _
    · exact Nat.lt_succ_self _
    · refine (read_alloc_self _ _).trans ?_
      funext ⟨j, i⟩
      have hj := j.isLt
      rw [read_store_rows _ _ Flat.flat_injective, read_store_rows _ _ Flat.flat_injective,
        read_store_rows _ _ Flat.flat_injective, read_store_rows _ _ Flat.flat_injective,
        read_store_rows _ _ Flat.flat_injective, read_alloc_self]
      simp only [read_store_rows_ne _ ⟨m.next, Flat.flat⟩ _ _ f hb, read_alloc_ne _ _ f hb]
      simp only [Grid.stencil4, Bool.false_eq_true, if_false, if_true]
      split_ifs <;> first | rfl | omega

/-- C128: `solve_poisson_spectral` -/
theorem C128_poisson (g : Grid ℝ) (m : Mem) (rhs : g.SpcRef) (hr : rhs.Valid m) (opAdd : ℝ) :
    YieldsNew m (g.solvePoissonSpectralM rhs opAdd) (Grid.solvePoissonSpectral (g := g) (m.read rhs) opAdd) := by
  classical
  have hb : rhs.buf ≠ m.next := hr.ne
  refine ⟨_, _, rfl, ?_, ?_, ?_, ?_⟩
  · exact ((Unchanged.refl m).alloc _).store _ le_rfl _
  · exact le_rfl
  · exact Nat.lt_succ_self _
  · funext k
    rw [read_store_where _ _ Flat.flat_injective, read_alloc_self, read_alloc_ne _ _ _ hb]
    simp only [Grid.solvePoissonSpectral]
    split_ifs <;> first | rfl | omega

/-- C128: `_restrict_fourier_zonal` -/
theorem C128_fourier {h w : ℕ} (hw : 2 ≤ w) (m : Mem) (field : Nd (Fin h × Fin w) ℝ) (kmin kmax : ℕ) :
    ∃ v, YieldsNew m (restrictFourierZonalM field kmin kmax) (fun p => v p.1 p.2) ∧
      restrictFourierZonal (fun j i => m.read field (j, i)) kmin kmax = .ok (.d2 h (2 * (w / 2)) v) := by
  classical
  refine ⟨_, ⟨_, _, rfl, ?_, ?_, ?_, ?_⟩, by
    rw [restrictFourierZonal, if_neg (by omega), if_neg (by omega)]⟩
  · exact ((((Unchanged.refl m).alloc _).store _ le_rfl _).store _ le_rfl _).alloc _
  · exact Nat.le_succ _
  · exact Nat.lt_succ_self _
  · refine (read_alloc_self _ _).trans ?_
    funext ⟨j, i⟩
    have key : ∀ k, k ≤ w / 2 → ∀ hk : k < w / 2 + 1, (((m.alloc (fun p : Fin h × Fin (w / 2 + 1) =>
        dft (fun i => m.read field (p.1, i)) p.2.val)).store ((⟨m.next, Flat.flat⟩ : Nd (Fin h × Fin (w / 2 + 1)) ℂ).sub
        fun k : {p : Fin h × Fin (w / 2 + 1) // p.2.val < kmin} => k.val) fun _ => (0 : ℂ)).store
        ((⟨m.next, Flat.flat⟩ : Nd (Fin h × Fin (w / 2 + 1)) ℂ).sub
        fun k : {p : Fin h × Fin (w / 2 + 1) // kmax + 1 ≤ p.2.val} => k.val) fun _ => (0 : ℂ)).read
        (⟨m.next, Flat.flat⟩ : Nd (Fin h × Fin (w / 2 + 1)) ℂ) (j, ⟨k, hk⟩) =
        restrictBand kmin kmax (dft fun i => m.read field (j, i)) k := by
      intro k _ hk
      rw [read_store_where _ _ Flat.flat_injective, read_store_where _ _ Flat.flat_injective, read_alloc_self]
      simp only [restrictBand]
      split_ifs <;> rfl
    simp only [irfft]
    have h0 := key 0 (by omega) (by omega)
    have h1 := key (w / 2) (by omega) (by omega)
    rw [dif_pos (by omega : 0 < w / 2 + 1), dif_pos (by omega : w / 2 < w / 2 + 1)]
    rw [h0, h1]
    congr 3
    refine Finset.sum_congr rfl fun k hk => ?_
    have hk' := Finset.mem_Ico.1 hk
    rw [dif_pos (by omega : k < w / 2 + 1), key k (by omega) (by omega)]

/-- C128: `stationary_wavenumber` -/
theorem C128_wavenumber (g : Grid ℝ) (m : Mem) (dpv u : Nd (Fin g.nlat) ℝ) (hu : u.Valid m) (minU : ℝ) :
    YieldsNew m (ksSquaredM g dpv u minU) fun j =>
      Grid.ksSquared (Real.cos (g.phi j) ^ 2 * g.rsphere * m.read dpv j) (m.read u j) minU := by
  classical
  have hb : u.buf ≠ m.next := hu.ne
  refine ⟨_, _, rfl, ?_, ?_, ?_, ?_⟩
  · exact (((Unchanged.refl m).alloc _).store _ le_rfl _).store _ le_rfl _
  · exact le_rfl
  · exact Nat.lt_succ_self _
  · funext j
    rw [read_store_where _ _ Flat.flat_injective, read_sub, read_store_where _ _ Flat.flat_injective, read_sub,
      read_alloc_self, read_alloc_ne _ _ _ hb]
    simp only [Grid.ksSquared]
    by_cases h : |m.read u j| ≤ minU
    · by_cases h0 : Real.cos (g.phi j) ^ 2 * g.rsphere * m.read dpv j = 0
      · simp [h, h0]
      · rw [dif_pos ⟨h, by simp [h, h0]⟩, if_pos h, if_pos h0]
        rw [read_store_where _ _ Flat.flat_injective, read_alloc_self]
        simp [h]
    · simp [h]

/-- C128: `lon_mono` -/
theorem C128_lon_mono (g : Grid ℝ) (r : Region g) (m : Mem) (lon : Nd (Fin g.nlon) ℝ)
    (hv : ∀ i, m.read lon i = g.lon i) :
    match r.lonMono with
    | .ok l => YieldsNew m (r.lonMonoM lon) fun k => l.getD k.val 0
    | .error e => ∃ m', r.lonMonoM lon m = (.error e, m') ∧ m.Unchanged m' := by
  classical
  have hl : List.ofFn (fun k => m.read lon (r.lonIndices.get k)) = r.lon := by
    have := List.map_ofFn (f := r.lonIndices.get) (g := fun i => m.read lon i)
    rw [List.ofFn_get] at this
    rw [Region.lon]
    simp only [hv] at this
    simpa [Function.comp_def, hv] using this.symm
  have hg : ∀ k : Fin r.lonIndices.length, r.lon.getD k.val 0 = m.read lon (r.lonIndices.get k) := by
    intro k
    simp [Region.lon, hv]
  have h1 : r.lonMonoM lon m = (match Region.jumps (List.ofFn ((m.alloc fun k : Fin r.lonIndices.length =>
      m.read lon (r.lonIndices.get k)).read (⟨m.next, Flat.flat⟩ : Nd (Fin r.lonIndices.length) ℝ))) with
    | [] => (pure ⟨m.next, Flat.flat⟩ : Mp (Nd (Fin r.lonIndices.length) ℝ))
    | [k] => do
      let part := (⟨m.next, Flat.flat⟩ : Nd (Fin r.lonIndices.length) ℝ).sub
        fun i : {i : Fin r.lonIndices.length // i.val < k + 1} => i.val
      let p ← load part
      assign part fun i => p i - 360
      pure ⟨m.next, Flat.flat⟩
    | _ => raise .assertionError) (m.alloc fun k : Fin r.lonIndices.length => m.read lon (r.lonIndices.get k)) := rfl
  rw [read_alloc_self, hl] at h1
  have h2 : r.lonMono = match Region.jumps r.lon with
    | [] => .ok r.lon
    | [k] => .ok (r.lon.mapIdx fun i x => if i < k + 1 then x - 360 else x)
    | _ => .error .assertionError := rfl
  generalize Region.jumps r.lon = js at h1 h2
  match js, h1, h2 with
  | [], h1, h2 =>
    rw [h2]
    refine ⟨_, _, h1.trans rfl, (Unchanged.refl m).alloc _, le_rfl, Nat.lt_succ_self _, ?_⟩
    rw [read_alloc_self]
    funext k
    exact (hg k).symm
  | [k], h1, h2 =>
    rw [h2]
    refine ⟨_, _, h1.trans rfl, ((Unchanged.refl m).alloc _).store _ le_rfl _, le_rfl, Nat.lt_succ_self _, ?_⟩
    rw [read_store_where _ _ Flat.flat_injective, read_sub, read_alloc_self]
    funext i
    have hi : i.val < r.lon.length := by
      have := i.isLt
      simpa [Region.lon] using this
    have hgi := hg i
    rw [List.getD_eq_getElem?_getD, List.getElem?_eq_getElem hi, Option.getD_some] at hgi
    rw [List.getD_eq_getElem?_getD, List.getElem?_eq_getElem (by simpa using hi), Option.getD_some, List.getElem_mapIdx, hgi]
    split_ifs <;> rfl
  | _ :: _ :: _, h1, h2 =>
    rw [h2]
    exact ⟨_, h1.trans rfl, (Unchanged.refl m).alloc _⟩

/-- C128: `mask` -/
theorem C128_mask (g : Grid ℝ) (r : Region g) (m : Mem) : YieldsNew m r.maskM fun p => r.mask p.1 p.2 := by
  classical
  refine ⟨_, _, rfl, ((Unchanged.refl m).alloc _).store _ le_rfl _, le_rfl, Nat.lt_succ_self _, ?_⟩
  funext p
  rw [read_store_where _ _ Flat.flat_injective, read_alloc_self]
  simp only [Region.mask]
  split_ifs with h
  · simp [h.1, h.2]
  · by_cases h1 : p.1 ∈ r.latIndices <;> by_cases h2 : p.2 ∈ r.lonIndices <;> simp_all

/-- C128: `extract` copies. -/
theorem C128_extract (g : Grid ℝ) (r : Region g) (m : Mem) (field : g.FldRef) :
    YieldsNew m (r.extractM field) fun p => m.read field (r.latIndices.get p.1, r.lonIndices.get p.2) :=
  ⟨_, _, rfl, (Unchanged.refl m).alloc _, le_rfl, Nat.lt_succ_self _, read_alloc_self _ _⟩

/-- C128: the spherical trapezoidal rule -/
theorem C128_sptrapz (g : Grid ℝ) {w : ℕ} (hw : w ≤ g.nlon) (m : Mem) (phi2 : g.FldRef) (hp : phi2.Valid m)
    (hv : ∀ j i, m.read phi2 (j, i) = g.phi j) (y z : Nd (Fin g.nlat × Fin w) ℝ) :
    ∃ v, YieldsNew m (g.sptrapzM hw phi2 y z) v ∧
      g.quadMeridionalCore (fun j i => m.read y (j, i)) (some fun j i => m.read z (j, i)) "sptrapz" = .ok v := by
  classical
  have hb : phi2.buf ≠ m.next := hp.ne
  refine ⟨_, ⟨_, _, rfl, ?_, ?_, ?_, ?_⟩, by
    rw [Grid.quadMeridionalCore]
    simp only [show ("sptrapz" = "boxcount") = False by decide, if_false, if_true, if_neg (not_lt.2 hw)]
    rfl⟩
  · exact (((((Unchanged.refl m).alloc _).store _ le_rfl _).alloc _).store _ (Nat.le_succ _) _).alloc _
  · exact (Nat.le_succ _).trans (Nat.le_succ _)
  · exact Nat.lt_succ_self _
  · refine (read_alloc_self _ _).trans ?_
    funext i
    rw [read_store_where _ _ Flat.flat_injective,
      read_store_ne _ (Nd.sub _ _) _ _ (show m.next ≠ m.next + 1 by omega),
      read_alloc_ne _ _ _ (show m.next ≠ m.next + 1 by omega),
      read_store_where _ _ Flat.flat_injective]
    simp only [read_sub]
    rw [read_alloc_self, read_alloc_self]
    simp only [read_store_ne _ (Nd.sub (⟨m.next, Flat.flat⟩ : Nd (Fin (g.nlat - 1) × Fin w) ℝ) _) _ phi2 hb,
      read_alloc_ne _ _ phi2 hb, hv]
    rw [sptrapzCol, Finset.sum_range]
    refine Finset.sum_congr rfl fun j _ => ?_
    have hj := j.isLt
    have h1 : ∀ a : Nd (Fin g.nlat × Fin w) ℝ, Grid.col (fun j => m.read a (j, i)) j.val =
        m.read a (j.castLE (Nat.sub_le _ _), i) := fun a => by
      rw [Grid.col, dif_pos (by omega)]
      rfl
    have h2 : ∀ a : Nd (Fin g.nlat × Fin w) ℝ, Grid.col (fun j => m.read a (j, i)) (j.val + 1) =
        m.read a (⟨j.val + 1, by omega⟩, i) := fun a => by
      rw [Grid.col, dif_pos (by omega)]
    simp only [Option.getD_some, h1, h2, sptrapzSeg]
    rfl

/-! ## States -/

namespace StateRef
variable {g : Grid ℝ} {S : g.Sph}

theorem Holds.mono {m m' : Mem} (h : m.Unchanged m') {a : Option g.FldRef} {f : g.Fld} (ha : Holds m a f) :
    Holds m' a f := by
  intro b hb
  obtain ⟨h1, h2⟩ := ha b hb
  refine ⟨lt_of_lt_of_le h1 h.1, ?_⟩
  rw [← h2]
  funext j i
  simp only [fld, read_unchanged h b h1]

theorem Rep.mono {m m' : Mem} (h : m.Unchanged m') {s : StateRef g} {st : St PyTime g} (hs : Rep S m s st) :
    Rep S m' s st :=
  ⟨hs.time, lt_of_lt_of_le hs.valid h.1, (read_unchanged h _ hs.valid).trans hs.q, hs.pv.mono h, hs.u.mono h,
    hs.v.mono h, hs.streamfunction.mono h⟩

theorem does_newFld (m : Mem) (f : g.Fld) :
    Does m (newFld f) fun a m' => m.next ≤ a.buf ∧ a.Valid m' ∧ fld m' a = f := by
  refine (Does.new m fun p : Fin g.nlat × Fin g.nlon => f p.1 p.2).mono fun a m' _ h => ⟨h.1, h.2.1, ?_⟩
  funext j i
  simp only [fld, h.2.2]

theorem does_loadFld (m : Mem) (a : g.FldRef) : Does m (loadFld a) fun v m' => v = fld m a ∧ m = m' :=
  ⟨_, m, rfl, .refl m, rfl, rfl⟩

theorem holds_none (m : Mem) (f : g.Fld) : Holds m none f := fun _ h => by simp at h

theorem holds_some {m : Mem} {a : g.FldRef} {f : g.Fld} (h : a.Valid m) (hf : fld m a = f) : Holds m (some a) f := by
  intro b hb
  obtain rfl : a = b := by simpa using hb
  exact ⟨h, hf⟩

theorem rep_ofSpectral {m : Mem} {q : g.SpcRef} (h : q.Valid m) (t : PyTime) :
    Rep S m (ofSpectral t q) ⟨t, m.read q⟩ :=
  ⟨rfl, h, rfl, holds_none _ _, holds_none _ _, holds_none _ _, holds_none _ _⟩

end StateRef

open StateRef

section states
variable {g : Grid ℝ} (S : g.Sph)

/-- C128: a state created with gridded PV does not share an array with the caller. -/
theorem C128_of_pv (m : Mem) (time : PyTime) (pv : g.FldRef) :
    Does m (StateRef.ofPv S time pv) fun s m' =>
      m.next ≤ s.pvSpectral.buf ∧ Rep S m' s (.ofPv S time (fld m pv)) := by
  refine (does_loadFld m pv).bind ?_
  rintro _ _ - ⟨rfl, rfl⟩
  refine (Does.new m _).bind ?_
  rintro q m' - ⟨h1, h2, h3⟩
  refine Does.pure ⟨h1, rfl, h2, h3, holds_none _ _, holds_none _ _, holds_none _ _, holds_none _ _⟩

/-- C128: a state created with wind does not share an array with the caller. -/
theorem C128_of_wind (m : Mem) (time : PyTime) (fcor2 u v : g.FldRef) (hf : fld m fcor2 = g.fcor2) :
    Does m (StateRef.fromWind S fcor2 time u v) fun s m' =>
      m.next ≤ s.pvSpectral.buf ∧ Rep S m' s (.fromWind S time (fld m u) (fld m v)) := by
  refine (does_loadFld m u).bind ?_
  rintro _ _ - ⟨rfl, rfl⟩
  refine (does_loadFld _ v).bind ?_
  rintro _ _ - ⟨rfl, rfl⟩
  refine (does_loadFld _ fcor2).bind ?_
  rintro _ _ - ⟨rfl, rfl⟩
  refine (does_newFld _ _).bind ?_
  rintro q m' hu ⟨h1, h2, h3⟩
  refine (C128_of_pv S m' time q).mono ?_
  rintro s m'' - ⟨h4, h5⟩
  refine ⟨hu.1.trans h4, ?_⟩
  rw [h3, hf] at h5
  exact h5

/-- C128: reading `pv` of a state -/
theorem C128_pv (m : Mem) (s : StateRef g) (st : St PyTime g) (h : Rep S m s st) :
    Does m (s.getPv S) fun x m' => x.1.Valid m' ∧ fld m' x.1 = st.pv S ∧ Rep S m' x.2 st := by
  rw [StateRef.getPv]
  split
  case h_1 a ha => exact Does.pure ⟨(h.pv a ha).1, (h.pv a ha).2, h⟩
  case h_2 =>
    refine (Does.load _).bind ?_
    rintro _ _ - ⟨rfl, rfl⟩
    refine (does_newFld _ _).bind ?_
    rintro a m' hu ⟨-, h2, h3⟩
    rw [h.q] at h3
    have h' := h.mono hu
    exact Does.pure ⟨h2, h3, ⟨h'.time, h'.valid, h'.q, holds_some h2 h3, h'.u, h'.v, h'.streamfunction⟩⟩

variable {S}

theorem IsF2s.mono {m m' : Mem} {f2s : g.SpcRef} (h : IsF2s S m f2s) (hu : m.Unchanged m') : IsF2s S m' f2s :=
  ⟨lt_of_lt_of_le h.1 hu.1, (read_unchanged hu _ h.1).trans h.2⟩

theorem does_vorticity (m : Mem) (f2s : g.SpcRef) (hf : IsF2s S m f2s) (s : StateRef g) (st : St PyTime g)
    (h : Rep S m s st) :
    YieldsNew m (s.getVorticitySpectral f2s) (st.vorticitySpectral S) := by
  refine (Does.load _).bind ?_
  rintro _ _ - ⟨rfl, rfl⟩
  refine (Does.load _).bind ?_
  rintro _ _ - ⟨rfl, rfl⟩
  rw [h.q, hf.2]
  exact Does.new _ _

theorem does_invert (m : Mem) (f2s : g.SpcRef) (hf : IsF2s S m f2s) (s : StateRef g) (st : St PyTime g)
    (h : Rep S m s st) :
    Does m (s.invert S f2s) fun x m' => (x.1.Valid m' ∧ fld m' x.1 = st.u S) ∧ (x.2.1.Valid m' ∧ fld m' x.2.1 = st.v S) ∧
      Rep S m' x.2.2 st := by
  refine (does_vorticity m f2s hf s st h).bind ?_
  rintro vo m1 hu1 ⟨-, -, h1⟩
  refine (Does.load _).bind ?_
  rintro _ _ - ⟨rfl, rfl⟩
  refine (Does.new _ _).bind ?_
  rintro zero m2 hu2 ⟨-, -, h2⟩
  refine (Does.load _).bind ?_
  rintro _ _ - ⟨rfl, rfl⟩
  rw [h1, h2]
  refine (does_newFld _ _).bind ?_
  rintro u m3 hu3 ⟨-, h3, h3'⟩
  refine (does_newFld _ _).bind ?_
  rintro v m4 hu4 ⟨-, h4, h4'⟩
  have h' := (((h.mono hu1).mono hu2).mono hu3).mono hu4
  have ku := (holds_some h3 h3').mono hu4
  obtain ⟨k1, k2⟩ := ku u rfl
  have e1 : (Grid.wind S (Sum.inr (st.vorticitySpectral S)) (Sum.inr fun _ => 0)).1 = st.u S := rfl
  have e2 : (Grid.wind S (Sum.inr (st.vorticitySpectral S)) (Sum.inr fun _ => 0)).2 = st.v S := rfl
  rw [e1] at k2
  rw [e2] at h4'
  exact Does.pure ⟨⟨k1, k2⟩, ⟨h4, h4'⟩, ⟨h'.time, h'.valid, h'.q, h'.pv, holds_some k1 k2, holds_some h4 h4',
    h'.streamfunction⟩⟩

/-- C128: reading `u` of a state -/
theorem C128_u (m : Mem) (f2s : g.SpcRef) (hf : IsF2s S m f2s) (s : StateRef g) (st : St PyTime g) (h : Rep S m s st) :
    Does m (s.getU S f2s) fun x m' => x.1.Valid m' ∧ fld m' x.1 = st.u S ∧ Rep S m' x.2 st := by
  rw [StateRef.getU]
  split
  case h_1 a ha => exact Does.pure ⟨(h.u a ha).1, (h.u a ha).2, h⟩
  case h_2 =>
    refine (does_invert m f2s hf s st h).bind ?_
    rintro ⟨u, v, s'⟩ m' - ⟨⟨h1, h2⟩, -, h3⟩
    exact Does.pure ⟨h1, h2, h3⟩

/-- C128: reading `v` of a state -/
theorem C128_v (m : Mem) (f2s : g.SpcRef) (hf : IsF2s S m f2s) (s : StateRef g) (st : St PyTime g) (h : Rep S m s st) :
    Does m (s.getV S f2s) fun x m' => x.1.Valid m' ∧ fld m' x.1 = st.v S ∧ Rep S m' x.2 st := by
  rw [StateRef.getV]
  split
  case h_1 a ha => exact Does.pure ⟨(h.v a ha).1, (h.v a ha).2, h⟩
  case h_2 =>
    refine (does_invert m f2s hf s st h).bind ?_
    rintro ⟨u, v, s'⟩ m' - ⟨-, ⟨h1, h2⟩, h3⟩
    exact Does.pure ⟨h1, h2, h3⟩

/-- C128: reading the streamfunction of a state -/
theorem C128_streamfunction (m : Mem) (f2s : g.SpcRef) (hf : IsF2s S m f2s) (s : StateRef g) (st : St PyTime g)
    (h : Rep S m s st) :
    Does m (s.getStreamfunction S f2s) fun x m' => x.1.Valid m' ∧ fld m' x.1 = st.streamfunction S ∧ Rep S m' x.2 st := by
  rw [StateRef.getStreamfunction]
  split
  case h_1 a ha => exact Does.pure ⟨(h.streamfunction a ha).1, (h.streamfunction a ha).2, h⟩
  case h_2 =>
    refine (does_vorticity m f2s hf s st h).bind ?_
    rintro vo m1 hu1 ⟨-, k1, h1⟩
    refine (C128_poisson g m1 vo k1 0).bind ?_
    rintro psi m2 hu2 ⟨-, -, h2⟩
    refine (Does.load _).bind ?_
    rintro _ _ - ⟨rfl, rfl⟩
    rw [h2, h1]
    refine (does_newFld _ _).bind ?_
    rintro a m3 hu3 ⟨-, h3, h3'⟩
    have h' := ((h.mono hu1).mono hu2).mono hu3
    exact Does.pure ⟨h3, h3', ⟨h'.time, h'.valid, h'.q, h'.pv, h'.u, h'.v, holds_some h3 h3'⟩⟩

theorem does_flux (m : Mem) (f2s : g.SpcRef) (hf : IsF2s S m f2s) (s : StateRef g) (st : St PyTime g)
    (h : Rep S m s st) :
    Does m (s.getPvFlux S f2s) fun x m' => m.next ≤ x.1.buf ∧ x.1.Valid m' ∧ m'.read x.1 = st.pvFluxSpectral S ∧
      Rep S m' x.2 st := by
  refine (C128_pv S m s st h).bind ?_
  rintro ⟨q1, s1⟩ m1 hu1 ⟨hq1, hq1', h1⟩
  refine (C128_u m1 f2s (hf.mono hu1) s1 st h1).bind ?_
  rintro ⟨u, s2⟩ m2 hu2 ⟨hu, hu', h2⟩
  refine (does_loadFld _ _).bind ?_
  rintro _ _ - ⟨rfl, rfl⟩
  refine (does_loadFld _ _).bind ?_
  rintro _ _ - ⟨rfl, rfl⟩
  have e1 : fld m2 q1 = st.pv S := ((holds_some hq1 hq1').mono hu2 q1 rfl).2
  simp only [] at hu'
  rw [e1, hu']
  refine (does_newFld _ _).bind ?_
  rintro qu m3 hu3 ⟨-, hqu, hqu'⟩
  refine (C128_pv S m3 s2 st (h2.mono hu3)).bind ?_
  rintro ⟨q2, s3⟩ m4 hu4 ⟨hq2, hq2', h4⟩
  refine (C128_v m4 f2s ((((hf.mono hu1).mono hu2).mono hu3).mono hu4) s3 st h4).bind ?_
  rintro ⟨v, s4⟩ m5 hu5 ⟨hv, hv', h5⟩
  refine (does_loadFld _ _).bind ?_
  rintro _ _ - ⟨rfl, rfl⟩
  refine (does_loadFld _ _).bind ?_
  rintro _ _ - ⟨rfl, rfl⟩
  have e2 : fld m5 q2 = st.pv S := ((holds_some hq2 hq2').mono hu5 q2 rfl).2
  rw [e2, hv']
  refine (does_newFld _ _).bind ?_
  rintro qv m6 hu6 ⟨-, hqv, hqv'⟩
  refine (does_loadFld _ _).bind ?_
  rintro _ _ - ⟨rfl, rfl⟩
  refine (does_loadFld _ _).bind ?_
  rintro _ _ - ⟨rfl, rfl⟩
  have e3 := ((((holds_some hqu hqu').mono hu4).mono hu5).mono hu6 qu rfl).2
  rw [e3, hqv']
  refine (Does.new _ _).bind ?_
  rintro d m7 hu7 ⟨k1, k2, k3⟩
  refine Does.pure ⟨?_, k2, k3, (h5.mono hu6).mono hu7⟩
  exact ((((hu1.trans hu2).trans hu3).trans hu4).trans hu5 |>.trans hu6).1.trans k1

theorem StateRef.Rep.bufs_lt {m : Mem} {s : StateRef g} {st : St PyTime g} (h : StateRef.Rep S m s st) :
    ∀ b ∈ s.bufs, b < m.next := by
  intro b hb
  simp only [bufs, List.mem_cons, List.mem_filterMap, Option.map_eq_some_iff, List.not_mem_nil, or_false] at hb
  rcases hb with rfl | ⟨o, ho, a, ha, rfl⟩
  · exact h.valid
  · rcases ho with rfl | rfl | rfl | rfl
    · exact (h.pv a ha).1
    · exact (h.u a ha).1
    · exact (h.v a ha).1
    · exact (h.streamfunction a ha).1

theorem StateRef.Rep.store {m : Mem} {s : StateRef g} {st : St PyTime g} (h : StateRef.Rep S m s st) (a : g.SpcRef)
    (v : g.Spc) (ha : ∀ b ∈ s.bufs, b ≠ a.buf) : StateRef.Rep S (m.store a v) s st := by
  have hh : ∀ (o : Option g.FldRef) (f : g.Fld), o ∈ [s.pv, s.u, s.v, s.streamfunction] → Holds m o f →
      Holds (m.store a v) o f := by
    intro o f ho hf b hb
    obtain ⟨h1, h2⟩ := hf b hb
    refine ⟨h1, ?_⟩
    rw [← h2]
    funext j i
    simp only [fld]
    rw [read_store_ne]
    refine ha _ ?_
    simp only [bufs, List.mem_cons, List.mem_filterMap, Option.map_eq_some_iff]
    exact Or.inr ⟨o, by simpa using ho, b, hb, rfl⟩
  refine ⟨h.time, h.valid, ?_, hh _ _ (by simp) h.pv, hh _ _ (by simp) h.u, hh _ _ (by simp) h.v,
    hh _ _ (by simp) h.streamfunction⟩
  rw [read_store_ne _ _ _ _ (ha _ (by simp [bufs]))]
  exact h.q

/-- C128: the tendency -/
theorem C128_tendency (m : Mem) (f2s : g.SpcRef) (hf : IsF2s S m f2s) (M : ModelRef g) (M0 : BModel g)
    (hM : ModelRef.Rep S m M M0) (s : StateRef g) (st : St PyTime g) (h : StateRef.Rep S m s st) :
    Refines m (M.tendencyM S f2s s) (M0.tendency S st) fun x t m' =>
      m.next ≤ x.1.buf ∧ x.1.Valid m' ∧ m'.read x.1 = t ∧ StateRef.Rep S m' x.2 st := by
  rw [ModelRef.tendencyM, BModel.tendency]
  have hR := hM.rhs
  cases hr : M.rhs with
  | none =>
    rw [hr] at hR
    cases hr0 : M0.rhs with
    | some _ => rw [hr0] at hR; exact hR.elim
    | none =>
      refine (does_flux m f2s hf s st h).bindR ?_
      rintro ⟨flux, s1⟩ m1 hu1 ⟨k1, k2, k3, k4⟩
      refine (Does.load _).bindR ?_
      rintro _ _ - ⟨rfl, rfl⟩
      refine (Does.new _ _).bindR ?_
      rintro t m2 hu2 ⟨l1, l2, l3⟩
      refine Does.pure ⟨hu1.1.trans l1, l2, ?_, k4.mono hu2⟩
      rw [l3]
      simp only [] at k3
      rw [k3]
  | some rhs =>
    rw [hr] at hR
    cases hr0 : M0.rhs with
    | none => rw [hr0] at hR; exact hR.elim
    | some f =>
      rw [hr0] at hR
      obtain ⟨⟨flux, s1⟩, m1, e1, hu1, k1, k2, k3, k4⟩ := does_flux m f2s hf s st h
      obtain ⟨t, m2, e2, hu2, l1, l2, l3⟩ := Does.new m1 (-m1.read flux)
      have hrhs := hR m2 s1 st (k4.mono hu2)
      have start : ∀ (F : g.SpcRef → g.FldRef × StateRef g → Mp (g.SpcRef × StateRef g)),
          (do
            let (flux, s) ← s.getPvFlux S f2s
            let f ← load flux
            let tendency ← new (-f)
            let x ← rhs s
            F tendency x : Mp (g.SpcRef × StateRef g)) m = (rhs s1 >>= F t) m2 := by
        intro F
        exact (Mp.bind_ok e1).trans ((Mp.bind_ok (show load flux m1 = (.ok (m1.read flux), m1) from rfl)).trans
          (Mp.bind_ok e2))
      change Refines m _ (match f st with
        | .error e => .error e
        | .ok r => .ok (-st.pvFluxSpectral S + Grid.toSpectral S r)) _
      cases hf : f st with
      | error e =>
        rw [hf] at hrhs
        obtain ⟨m3, e3, hu3⟩ := hrhs
        refine ⟨m3, (start _).trans (Mp.bind_error e3), (hu1.trans hu2).trans hu3⟩
      | ok r =>
        rw [hf] at hrhs
        obtain ⟨⟨ra, s2⟩, m3, e3, hu3, n1, n2, n3⟩ := hrhs
        obtain ⟨rs, m4, e4, hu4, o1, o2, o3⟩ := Does.new m3 (Grid.toSpectral S (fld m3 ra))
        refine ⟨(t, s2), m4.store t (m4.read t + m4.read rs), (start _).trans ?_, ?_, ?_, ?_, ?_, ?_⟩
        · exact (Mp.bind_ok e3).trans ((Mp.bind_ok (show loadFld ra m3 = (.ok (fld m3 ra), m3) from rfl)).trans
            (Mp.bind_ok e4))
        · exact (((hu1.trans hu2).trans hu3).trans hu4).store _ (hu1.1.trans l1) _
        · exact hu1.1.trans l1
        · exact lt_of_lt_of_le l2 (hu3.1.trans hu4.1)
        · have ht : Function.Injective t.pos := by
            have := congrArg (fun x => x.1) e2
            simp only [Mp.new, Except.ok.injEq] at this
            rw [← this]
            exact Flat.flat_injective
          simp only []
          rw [read_store_self _ _ ht, o3, read_unchanged (hu3.trans hu4) _ l2, l3]
          simp only [] at k3 n1
          rw [k3, n1]
        · refine (n2.mono hu4).store _ _ ?_
          intro b hb
          rcases n3 b hb with hb' | hb'
          · have := k4.bufs_lt b hb'
            have := l1
            omega
          · have := l2
            omega

theorem ModelRef.Rep.mono {m m' : Mem} (h : m.Unchanged m') {M : ModelRef g} {M0 : BModel g}
    (hM : ModelRef.Rep S m M M0) : ModelRef.Rep S m' M M0 := by
  refine ⟨hM.rhs, hM.order, hM.coeff, ?_⟩
  have hb := hM.bg
  revert hb
  cases M.diffusionBg with
  | none => cases M0.diffusionBg <;> exact id
  | some a =>
    cases M0.diffusionBg with
    | none => exact id
    | some f => exact fun hb => (holds_some hb.1 hb.2).mono h a rfl

theorem does_diffusion (m : Mem) (M : ModelRef g) (M0 : BModel g) (hM : ModelRef.Rep S m M M0) (dt : ℝ) (q : g.SpcRef)
    (hq : q.Valid m) : YieldsNew m (M.diffusionM S dt q) (M0.applyDiffusion S dt (m.read q)) := by
  rw [ModelRef.diffusionM, BModel.applyDiffusion, hM.order, hM.coeff]
  have hb := hM.bg
  cases hr : M.diffusionBg with
  | none =>
    rw [hr] at hb
    cases hr0 : M0.diffusionBg with
    | some _ => rw [hr0] at hb; exact hb.elim
    | none =>
      refine (Does.load _).bind ?_
      rintro _ _ - ⟨rfl, rfl⟩
      exact Does.new _ _
  | some bg =>
    rw [hr] at hb
    cases hr0 : M0.diffusionBg with
    | none => rw [hr0] at hb; exact hb.elim
    | some f =>
      rw [hr0] at hb
      refine (does_loadFld _ _).bind ?_
      rintro _ _ - ⟨rfl, rfl⟩
      rw [hb.2]
      refine (Does.new _ _).bind ?_
      rintro b m1 hu1 ⟨h1, h1', h1''⟩
      refine (Does.load _).bind ?_
      rintro _ _ - ⟨rfl, rfl⟩
      refine (Does.load _).bind ?_
      rintro _ _ - ⟨rfl, rfl⟩
      rw [h1'', read_unchanged hu1 _ hq]
      refine (Does.new _ _).bind ?_
      rintro a m2 hu2 ⟨-, -, h2⟩
      refine (Does.load _).bind ?_
      rintro _ _ - ⟨rfl, rfl⟩
      rw [h2]
      refine (Does.new _ _).bind ?_
      rintro c m3 hu3 ⟨-, -, h3⟩
      refine (Does.load _).bind ?_
      rintro _ _ - ⟨rfl, rfl⟩
      refine (Does.load _).bind ?_
      rintro _ _ - ⟨rfl, rfl⟩
      rw [h3, read_unchanged (hu2.trans hu3) _ h1', h1'']
      refine (Does.new _ _).mono ?_
      rintro d m4 - ⟨k1, k2, k3⟩
      exact ⟨(hu1.1.trans (hu2.1.trans hu3.1)).trans k1, k2, k3⟩

/-- C128: an Euler step leaves all arrays as they are, the new state has arrays of its own. -/
theorem C128_euler (m : Mem) (f2s : g.SpcRef) (hf : IsF2s S m f2s) (M : ModelRef g) (M0 : BModel g)
    (hM : ModelRef.Rep S m M M0) (s : StateRef g) (st : St PyTime g) (h : StateRef.Rep S m s st) (dt : PyDelta) :
    Refines m (M.eulerM S f2s s dt) (M0.euler S st dt) fun x st' m' =>
      m.next ≤ x.1.pvSpectral.buf ∧ StateRef.Rep S m' x.1 st' ∧ StateRef.Rep S m' x.2 st := by
  rw [ModelRef.eulerM, BModel.euler]
  refine (C128_tendency m f2s hf M M0 hM s st h).bind ?_
  rintro ⟨ta, s1⟩ tv m1 hu1 ⟨-, -, k3, k4⟩
  refine (Does.load _).bindR ?_
  rintro _ _ - ⟨rfl, rfl⟩
  refine (Does.load _).bindR ?_
  rintro _ _ - ⟨rfl, rfl⟩
  simp only [] at k3 k4
  rw [k3, k4.q]
  refine (Does.new _ _).bindR ?_
  rintro q m2 hu2 ⟨l1, l2, l3⟩
  refine (does_diffusion m2 M M0 ((hM.mono hu1).mono hu2) _ q l2).bindR ?_
  rintro q' m3 hu3 ⟨n1, n2, n3⟩
  rw [k4.time]
  have k4' := (k4.mono hu2).mono hu3
  cases ht : st.time.add dt with
  | error e => exact ⟨m3, rfl, .refl _⟩
  | ok t =>
    refine Does.pure ⟨(hu1.1.trans hu2.1).trans n1, ?_, k4'⟩
    have := rep_ofSpectral (S := S) n2 t
    rw [n3, l3] at this
    exact this

/-- C128: a leapfrog step leaves all arrays as they are (in particular those of the old state and of the unfiltered
current state); both states it returns have arrays of their own. -/
theorem C128_leapfrog (m : Mem) (f2s : g.SpcRef) (hf : IsF2s S m f2s) (M : ModelRef g) (M0 : BModel g)
    (hM : ModelRef.Rep S m M M0) (old now : StateRef g) (sto stn : St PyTime g) (ho : StateRef.Rep S m old sto)
    (hn : StateRef.Rep S m now stn) (filter : ℝ) :
    Refines m (M.leapfrogM S f2s old now filter) (M0.leapfrog S sto stn filter) fun x y m' =>
      m.next ≤ x.1.pvSpectral.buf ∧ m.next ≤ x.2.1.pvSpectral.buf ∧ x.1.pvSpectral.buf ≠ x.2.1.pvSpectral.buf ∧
      StateRef.Rep S m' x.1 y.1 ∧ StateRef.Rep S m' x.2.1 y.2 ∧ StateRef.Rep S m' x.2.2 stn := by
  rw [ModelRef.leapfrogM, BModel.leapfrog, hn.time, ho.time]
  cases hdt : stn.time.sub sto.time with
  | error e => exact ⟨m, rfl, .refl _⟩
  | ok dt =>
    change Refines m _ (M0.tendency S stn >>= _) _
    refine (C128_tendency m f2s hf M M0 hM now stn hn).bind ?_
    rintro ⟨ta, s1⟩ tv m1 hu1 ⟨-, -, k3, k4⟩
    refine (Does.load _).bindR ?_
    rintro _ _ - ⟨rfl, rfl⟩
    refine (Does.load _).bindR ?_
    rintro _ _ - ⟨rfl, rfl⟩
    simp only [] at k3 k4
    rw [k3, (ho.mono hu1).q]
    refine (Does.new _ _).bindR ?_
    rintro q m2 hu2 ⟨l1, l2, l3⟩
    refine (does_diffusion m2 M M0 ((hM.mono hu1).mono hu2) _ q l2).bindR ?_
    rintro q' m3 hu3 ⟨n1, n2, n3⟩
    have k4' := (k4.mono hu2).mono hu3
    have ho' := ((ho.mono hu1).mono hu2).mono hu3
    rw [k4.time]
    cases ht : stn.time.add dt with
    | error e => exact ⟨m3, rfl, .refl _⟩
    | ok t =>
      change Refines m3 _ (.ok _) _
      refine (Does.load _).bindR ?_
      rintro _ _ - ⟨rfl, rfl⟩
      refine (Does.load _).bindR ?_
      rintro _ _ - ⟨rfl, rfl⟩
      refine (Does.load _).bindR ?_
      rintro _ _ - ⟨rfl, rfl⟩
      rw [k4'.q, ho'.q, n3, l3]
      refine (Does.new _ _).bindR ?_
      rintro r m4 hu4 ⟨o1, o2, o3⟩
      have r1 := rep_ofSpectral (S := S) o2 stn.time
      have r2 := (rep_ofSpectral (S := S) n2 t).mono hu4
      rw [o3] at r1
      rw [n3, l3] at r2
      have hu := (hu1.1.trans hu2.1)
      refine Does.pure ⟨(hu.trans hu3.1).trans o1, hu.trans n1, ?_, r1, r2, k4'.mono hu4⟩
      exact (lt_of_lt_of_le n2 o1).ne'

/-- What `BModel.run` returns, with exceptions as `Except` -/
def BModel.Outcome.toExcept : BModel.Outcome g → Except PyErr (BModel.Outcome g)
  | .raised e => .error e
  | o => .ok o

theorem forall₂_mono {m m' : Mem} (hu : m.Unchanged m') {l : List (StateRef g)} {l' : List (St PyTime g)}
    (h : List.Forall₂ (StateRef.Rep S m) l l') : List.Forall₂ (StateRef.Rep S m') l l' :=
  h.imp fun _ _ h => h.mono hu

theorem refines_loop (f2s : g.SpcRef) (M : ModelRef g) (M0 : BModel g) (tend : PyTime) (saveEvery : ℝ) (fuel : ℕ) :
    ∀ (m : Mem), IsF2s S m f2s → ModelRef.Rep S m M M0 → ∀ (s s1 : StateRef g) (l : List (StateRef g))
      (st st1 : St PyTime g) (lt : List (St PyTime g)) (tSave : ℝ), StateRef.Rep S m s st → StateRef.Rep S m s1 st1 →
      List.Forall₂ (StateRef.Rep S m) l lt →
      Refines m (M.loopM S f2s tend saveEvery fuel s s1 l tSave)
        (M0.loop S tend saveEvery fuel ⟨st, st1, lt, tSave⟩).toExcept fun o o' m' => o.Rep S m' o' := by
  induction fuel with
  | zero =>
    intro m _ _ s s1 l st st1 lt tSave _ _ _
    exact Does.pure trivial
  | succ fuel ih =>
    intro m hf hM s s1 l st st1 lt tSave hs hs1 hl
    rw [ModelRef.loopM, BModel.loop, hs.time]
    dsimp only
    cases hlt : st.time.lt tend with
    | error e => exact ⟨m, rfl, .refl _⟩
    | ok b =>
      cases b with
      | false => exact Does.pure ⟨hs, hl⟩
      | true =>
        dsimp only
        rw [BModel.body]
        have hL := C128_leapfrog m f2s hf M M0 hM s s1 st st1 hs hs1 (2 / 10)
        dsimp only
        cases hlf : M0.leapfrog S st st1 (2 / 10) with
        | error e =>
          rw [hlf] at hL
          obtain ⟨m', e1, hu⟩ := hL
          exact ⟨m', Mp.bind_error e1, hu⟩
        | ok y =>
          rw [hlf] at hL
          obtain ⟨y1, y2⟩ := y
          have hL' : Does m (M.leapfrogM S f2s s s1 (2 / 10)) _ := hL
          refine hL'.bindR ?_
          rintro ⟨x1, x2, x3⟩ m' hu ⟨-, -, -, r1, r2, -⟩
          have hf' := hf.mono hu
          have hM' := hM.mono hu
          have hl' := forall₂_mono hu hl
          simp only [] at r1 r2
          by_cases hsv : saveEvery > 0
          · simp only [hsv, if_true, r1.time, bind, Except.bind, pure, Except.pure]
            cases hge : y1.time.ge (.num tSave) with
            | error e => exact ⟨m', rfl, .refl _⟩
            | ok b =>
              cases b with
              | false => exact ih m' hf' hM' _ _ _ _ _ _ _ r1 r2 hl'
              | true =>
                refine ih m' hf' hM' _ _ _ _ _ _ _ r1 r2 ?_
                exact List.rel_append hl' (.cons r1 .nil)
          · simp only [hsv, if_false, bind, Except.bind, pure, Except.pure]
            exact ih m' hf' hM' _ _ _ _ _ _ _ r1 r2 hl'

/-- C128: `run` does not modify any array that existed before, and the states it returns have at the end the contents
that the model without memory computes: no state is overwritten by a later time step. -/
theorem C128_run (m : Mem) (f2s : g.SpcRef) (hf : IsF2s S m f2s) (M : ModelRef g) (M0 : BModel g)
    (hM : ModelRef.Rep S m M M0) (s : StateRef g) (st : St PyTime g) (h : StateRef.Rep S m s st) (dt : PyDelta)
    (tend : PyTime) (saveEvery : ℝ) (fuel : ℕ) :
    Refines m (M.runM S f2s s dt tend saveEvery fuel) (M0.run S st dt tend saveEvery fuel).toExcept
      fun o o' m' => o.Rep S m' o' := by
  rw [ModelRef.runM, BModel.run, h.time]
  cases htl : tend.lt st.time with
  | error e => exact ⟨m, rfl, .refl _⟩
  | ok b =>
    cases b with
    | true => exact Does.pure ⟨h, .cons h .nil⟩
    | false =>
      dsimp only
      have hE := C128_euler m f2s hf M M0 hM s st h dt
      cases he : M0.euler S st dt with
      | error e =>
        rw [he] at hE
        obtain ⟨m', e1, hu⟩ := hE
        exact ⟨m', Mp.bind_error e1, hu⟩
      | ok y =>
        rw [he] at hE
        have hE' : Does m (M.eulerM S f2s s dt) _ := hE
        refine hE'.bindR ?_
        rintro ⟨x1, x2⟩ m' hu ⟨-, r1, r2⟩
        exact refines_loop f2s M M0 tend saveEvery fuel m' (hf.mono hu) (hM.mono hu) _ _ _ _ _ _ _ r2 r1 (.cons r2 .nil)

/-! ## What the caller can do -/

/-- C128: writing into the result of a function does not modify the arrays that existed before the call. -/
theorem C128_independent {ι κ α : Type} [Stored α] (m : Mem) (p : Mp (Nd ι α)) (w : ι → α) (h : YieldsNew m p w)
    (e : κ → ι) (v : κ → α) : Does m (p >>= fun a => assign (a.sub e) v) fun _ _ => True := by
  obtain ⟨a, m', e1, hu, h1, -, -⟩ := h
  exact ⟨(), _, Mp.bind_ok e1, hu.store (a.sub e) h1 _, trivial⟩

/-- C128, refuted for states created with spectral PV: the state uses the caller's array. If the caller writes into it,
spectral PV changes while a field that has been read before does not, so that the state is not consistent any more. -/
theorem C128_shared_refuted (m : Mem) (t : PyTime) (q : g.SpcRef) (hq : q.Valid m) (hi : Function.Injective q.pos)
    (v : g.Spc) (hv : Grid.toGrid S v ≠ Grid.toGrid S (m.read q)) :
    ∃ a s m', (do
        let (pv, s) ← (StateRef.ofSpectral t q).getPv S
        assign q v
        return (pv, s)) m = (.ok (a, s), m') ∧
      m'.read s.pvSpectral = v ∧ s.getPv S m' = (.ok (a, s), m') ∧ fld m' a = Grid.toGrid S (m.read q) ∧
      ¬ ∃ st, StateRef.Rep S m' s st := by
  obtain ⟨a, m1, e1, hu1, h1, h2, h3⟩ := does_newFld m (Grid.toGrid S (m.read q))
  have hb : a.buf ≠ q.buf := (lt_of_lt_of_le hq h1).ne'
  have e2 : (StateRef.ofSpectral t q).getPv S m = (.ok (a, { StateRef.ofSpectral t q with pv := some a }), m1) :=
    (Mp.bind_ok (show load q m = (.ok (m.read q), m) from rfl)).trans (Mp.bind_ok e1)
  have h3' : fld (m1.store q v) a = Grid.toGrid S (m.read q) := by
    rw [← h3]
    funext j i
    simp only [fld]
    rw [read_store_ne _ _ _ _ hb]
  refine ⟨a, _, _, (Mp.bind_ok e2).trans rfl, read_store_self _ _ hi _, rfl, h3', ?_⟩
  rintro ⟨st, hst⟩
  have k1 := (hst.pv a rfl).2
  have k2 := hst.q
  rw [h3'] at k1
  have k3 : (m1.store q v).read q = v := read_store_self _ _ hi _
  rw [show (m1.store q v).read q = st.q from k2] at k3
  rw [St.pv, k3] at k1
  exact hv k1.symm

/-- C128, refuted: `State.pv` returns the array that the state keeps. If the caller writes into it, later reads of `pv`
give what was written, while spectral PV (and wind derived from it) stay as they were. -/
theorem C128_handed_out_refuted (m : Mem) (s : StateRef g) (st : St PyTime g) (h : StateRef.Rep S m s st)
    (hs : s.pv = none) (f : g.Fld) (hf : f ≠ st.pv S) :
    ∃ a s' m', (do
        let (pv, s) ← s.getPv S
        assign pv fun p => f p.1 p.2
        return (pv, s)) m = (.ok (a, s'), m') ∧
      s'.getPv S m' = (.ok (a, s'), m') ∧ fld m' a = f ∧ m'.read s'.pvSpectral = st.q ∧ ¬ ∃ st, StateRef.Rep S m' s' st := by
  obtain ⟨m1, e1, hu1⟩ : ∃ m1, newFld (Grid.toGrid S (m.read s.pvSpectral)) m =
      (.ok (⟨m.next, Flat.flat⟩ : g.FldRef), m1) ∧ m.Unchanged m1 := ⟨_, rfl, (Unchanged.refl m).alloc _⟩
  have e2 : s.getPv S m = (.ok ((⟨m.next, Flat.flat⟩ : g.FldRef), { s with pv := some ⟨m.next, Flat.flat⟩ }), m1) := by
    rw [StateRef.getPv, hs]
    exact (Mp.bind_ok (show load s.pvSpectral m = (.ok (m.read s.pvSpectral), m) from rfl)).trans (Mp.bind_ok e1)
  have e3 : fld (m1.store (⟨m.next, Flat.flat⟩ : g.FldRef) fun p => f p.1 p.2) (⟨m.next, Flat.flat⟩ : g.FldRef) = f := by
    funext j i
    simp only [fld]
    rw [read_store_self _ _ Flat.flat_injective]
  have e4 : (m1.store (⟨m.next, Flat.flat⟩ : g.FldRef) fun p => f p.1 p.2).read s.pvSpectral = st.q := by
    rw [read_store_ne _ _ _ _ (show s.pvSpectral.buf ≠ m.next from Nat.ne_of_lt h.valid), read_unchanged hu1 _ h.valid, h.q]
  refine ⟨_, _, _, (Mp.bind_ok e2).trans rfl, rfl, e3, e4, ?_⟩
  rintro ⟨st', hst⟩
  have k1 := (hst.pv _ rfl).2
  have k2 : _ = st'.q := hst.q
  rw [e3] at k1
  rw [e4] at k2
  refine hf ?_
  rw [k1, St.pv, St.pv, k2]

/-- C128, refuted for `as_hn2016`: falwa's object has the longitude array of the grid itself and views of the latitudes
of the grid and of the PV of the state; writing into them changes the grid and the state. -/
theorem C128_falwa_refuted (m : Mem) (lon : Nd (Fin g.nlon) ℝ) (lat : Nd (Fin g.nlat) ℝ)
    (hl : Function.Injective lon.pos) (hl' : Function.Injective lat.pos) (s : StateRef g) (a : g.FldRef) (hs : s.pv = some a)
    (ha : Function.Injective a.pos) (hb : a.buf ≠ lon.buf) (hb' : a.buf ≠ lat.buf) (hll : lon.buf ≠ lat.buf)
    (x : Fin g.nlon → ℝ) (y : Fin g.nlat → ℝ) (f : g.Fld) :
    ∃ m', (do
        let ((xlon, ylat, pvud), s) ← s.asHn2016M S lon lat
        assign xlon x
        assign ylat y
        assign pvud fun p => f p.1 p.2
        return s) m = (.ok s, m') ∧
      m'.read lon = x ∧ (∀ j, m'.read lat j.rev = y j) ∧ ∀ j i, fld m' a j.rev i = f j i := by
  have e1 : s.getPv S m = (.ok (a, s), m) := by
    rw [StateRef.getPv, hs]
    rfl
  have e2 : s.asHn2016M S lon lat m =
      (.ok ((lon, lat.sub Fin.rev, a.sub fun p => (p.1.rev, p.2)), s), m) :=
    (Mp.bind_ok e1).trans ((Mp.bind_ok e1).trans rfl)
  refine ⟨_, (Mp.bind_ok e2).trans rfl, ?_, ?_, ?_⟩
  · rw [read_store_sub_ne _ _ _ _ _ hb.symm, read_store_sub_ne _ _ _ _ _ hll, read_store_self _ _ hl]
  · intro j
    rw [read_store_sub_ne _ _ _ _ _ hb'.symm, read_store_sub _ _ hl' _ Fin.rev_injective]
    exact Fin.rev_injective.extend_apply y _ j
  · intro j i
    have he : Function.Injective fun p : Fin g.nlat × Fin g.nlon => (p.1.rev, p.2) := by
      rintro ⟨a, b⟩ ⟨c, d⟩ h
      simp only [Prod.mk.injEq, Fin.rev_inj] at h
      exact Prod.ext h.1 h.2
    simp only [fld]
    rw [read_store_sub _ _ ha _ he]
    exact he.extend_apply (fun p : Fin g.nlat × Fin g.nlon => f p.1 p.2) _ (j, i)

omit S in
/-- C128, refuted for `zonalize` with given levels and without interpolation: the first array that is returned is the
array of levels itself; the second one is new. -/
theorem C128_levels_refuted {n w : ℕ} (quad : (Fin g.nlat × Fin w → ℝ) → ℝ) (m : Mem)
    (field : Nd (Fin g.nlat × Fin w) ℝ) (levels : Nd (Fin n) ℝ) :
    Does m (g.zonalizeM quad field levels) fun x m' => x.1 = levels ∧ m.next ≤ x.2.buf ∧
      m'.read x.2 = fun k => g.eqLat (quad (fun p => m.read field p - m.read levels k) * (g.nlon / w)) := by
  refine (Does.load _).bind ?_
  rintro _ _ - ⟨rfl, rfl⟩
  refine (Does.load _).bind ?_
  rintro _ _ - ⟨rfl, rfl⟩
  refine (Does.new _ _).bind ?_
  rintro a m1 hu1 ⟨-, -, h1⟩
  refine (C128_equivalent_latitude g m1 a).bind ?_
  rintro y m2 hu2 ⟨k1, -, k3⟩
  refine Does.pure ⟨rfl, hu1.1.trans k1, ?_⟩
  rw [k3, h1]

/-! ## The hypotheses can be satisfied -/

/-- Memory without arrays -/
def Mem.empty : Mem := ⟨0, fun _ _ => .bl false⟩

/-- There are memory contents with an array of any contents, e.g. `phi2`. -/
example (f : Fin g.nlat × Fin g.nlon → ℝ) : ∃ (m : Mem) (a : g.FldRef), a.Valid m ∧ m.read a = f := by
  obtain ⟨a, m1, -, -, -, h1, h2⟩ := Does.new Mem.empty f
  exact ⟨m1, a, h1, h2⟩

/-- There are memory contents with a grid and a state. -/
example (S : g.Sph) (st : St PyTime g) : ∃ m f2s s, IsF2s S m f2s ∧ StateRef.Rep S m s st := by
  obtain ⟨f2s, m1, -, -, -, h1, h2⟩ := Does.new Mem.empty (Grid.fcor2Spectral S)
  obtain ⟨q, m2, -, hu, -, k1, k2⟩ := Does.new m1 st.q
  have hr := rep_ofSpectral (S := S) k1 st.time
  rw [k2] at hr
  exact ⟨m2, f2s, _, IsF2s.mono ⟨h1, h2⟩ hu, hr⟩

/-- `LinearRelaxation` (rhs.py:91): reads PV of the state -/
example (S : g.Sph) (c : ℝ) (ref : g.Fld) : IsRhs S
    (fun s => do
      let (pv, s) ← s.getPv S
      let q ← loadFld pv
      let r ← newFld (c • (ref - q))
      return (r, s)) fun st => .ok (c • (ref - st.pv S)) := by
  intro m s st h
  obtain ⟨⟨a, s1⟩, m1, e1, hu1, h1, h2, h3⟩ := C128_pv S m s st h
  obtain ⟨r, m2, e2, hu2, k1, k2, k3⟩ := does_newFld m1 (c • (ref - fld m1 a))
  refine ⟨(r, s1), m2, (Mp.bind_ok e1).trans ((Mp.bind_ok (show loadFld a m1 = (.ok (fld m1 a), m1) from rfl)).trans
    (Mp.bind_ok e2)), hu1.trans hu2, ?_, h3.mono hu2, ?_⟩
  · simp only [] at h2
    simp only []
    rw [k3, h2]
  · intro b hb
    cases hs : s.pv with
    | some a' =>
      have : s.getPv S m = (.ok (a', s), m) := by
        rw [StateRef.getPv, hs]
        rfl
      rw [this] at e1
      simp only [Prod.mk.injEq, Except.ok.injEq] at e1
      rw [← e1.1.2] at hb
      exact .inl hb
    | none =>
      have : s.getPv S m = (.ok ((⟨m.next, Flat.flat⟩ : g.FldRef), { s with pv := some ⟨m.next, Flat.flat⟩ }),
          m.alloc fun p : Fin g.nlat × Fin g.nlon => Grid.toGrid S (m.read s.pvSpectral) p.1 p.2) := by
        rw [StateRef.getPv, hs]
        rfl
      rw [this] at e1
      simp only [Prod.mk.injEq, Except.ok.injEq] at e1
      rw [← e1.1.2] at hb
      simp only [bufs, List.mem_cons, List.mem_filterMap, Option.map_eq_some_iff, List.not_mem_nil, or_false] at hb ⊢
      rcases hb with rfl | ⟨o, rfl | rfl | rfl | rfl, d, hd, rfl⟩
      · exact .inl (.inl rfl)
      · obtain rfl : (⟨m.next, Flat.flat⟩ : g.FldRef) = d := by simpa using hd
        exact .inr le_rfl
      · exact .inl (.inr ⟨_, .inr (.inl rfl), d, hd, rfl⟩)
      · exact .inl (.inr ⟨_, .inr (.inr (.inl rfl)), d, hd, rfl⟩)
      · exact .inl (.inr ⟨_, .inr (.inr (.inr rfl)), d, hd, rfl⟩)

/-- A model without forcing and with a background field -/
example (S : g.Sph) (m : Mem) (bg : g.FldRef) (h : bg.Valid m) (c : ℝ) (n : ℕ) :
    ModelRef.Rep S m ⟨none, n, c, some bg⟩ ⟨none, n, c, some (fld m bg)⟩ := ⟨trivial, rfl, rfl, h, rfl⟩

/-- Without the copy the trapezoidal rule would write into `phi2`: an assignment to a view of an existing array changes
that array. -/
example : ∃ (m : Mem) (a : Nd (Fin 2) ℝ), a.Valid m ∧
    ((assign (a.sub fun _ : Fin 1 => (0 : Fin 2)) fun _ => (5 : ℝ)) m).2.read a 0 = 5 ∧ m.read a 0 = 1 := by
  obtain ⟨a, m1, e, -, -, h1, h2⟩ := Does.new Mem.empty (fun _ : Fin 2 => (1 : ℝ))
  have ha : Function.Injective a.pos := by
    have := congrArg (fun x => x.1) e
    simp only [Mp.new, Except.ok.injEq] at this
    rw [← this]
    exact Flat.flat_injective
  refine ⟨m1, a, h1, ?_, by rw [h2]⟩
  have hi : Function.Injective fun _ : Fin 1 => (0 : Fin 2) := fun x y _ => Subsingleton.elim x y
  change (m1.store (a.sub fun _ : Fin 1 => (0 : Fin 2)) fun _ => (5 : ℝ)).read a 0 = 5
  rw [read_store_sub _ _ ha _ hi]
  exact hi.extend_apply (fun _ : Fin 1 => (5 : ℝ)) _ 0

end states

end Barotropic
