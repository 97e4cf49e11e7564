import Verif.Lemmas.State
import Verif.Props.Spectral

/-!
# State: C32 – C38
-/

namespace Barotropic
open Grid Spharm

variable {τ : Type} {g : Grid ℝ}

/-! ## C32 construction -/

/-- C32: giving both `pv` and `pv_spectral` raises AssertionError; otherwise construction succeeds, without evaluating
any cached field, and the spectral PV is the given one or the transform of the given gridded PV. -/
theorem C32_init (S : g.Sph) (t : τ) :
    (∀ pv q, StateObj.init S t (some pv) (some q) = .error .assertionError) ∧
    (∀ pv, StateObj.init S t (some pv) none = .ok { time := t, pvSpectral := some (S.grdtospec pv) }) ∧
    (∀ q, StateObj.init S t none (some q) = .ok { time := t, pvSpectral := some q }) ∧
    StateObj.init S t none none = .ok { time := t, pvSpectral := none } :=
  ⟨fun _ _ => rfl, fun _ => rfl, fun _ => rfl, rfl⟩

/-- C32: a state built from gridded PV has consistent representations: its `pv` is the synthesis of its
`pv_spectral`, and its `pv_spectral` is the analysis of its `pv`. Rebuilding it from its `pv` (any number of times)
gives the same state, hence the same value for every property. -/
theorem C32_idempotent (S : g.Sph) (h : S.RoundTrips) (t : τ) (pv : g.Fld) :
    let s := St.ofPv S t pv
    s.pv S = S.spectogrd s.q ∧ s.q = S.grdtospec (s.pv S) ∧ St.ofPv S s.time (s.pv S) = s ∧
    ∀ p, propValue S (St.ofPv S s.time (s.pv S)) p = propValue S s p := by
  intro s
  have hq : S.grdtospec (s.pv S) = s.q := h.adm_analysis pv
  have he : St.ofPv S s.time (s.pv S) = s := by
    unfold St.ofPv; rw [toSpectral, hq]
  exact ⟨rfl, hq.symm, he, fun p => by rw [he]⟩

/-- C32: the same for a state built from any admissible spectral PV; for arbitrary spectral coefficients the gridded PV
is still reproduced. -/
theorem C32_spectral (S : g.Sph) (h : S.RoundTrips) (s : St τ g) :
    (S.Adm s.q → St.ofPv S s.time (s.pv S) = s ∧ ∀ p, propValue S (St.ofPv S s.time (s.pv S)) p = propValue S s p) ∧
    (St.ofPv S s.time (s.pv S)).pv S = s.pv S := by
  refine ⟨fun ha => ?_, h.synth_again s.q⟩
  have he : St.ofPv S s.time (s.pv S) = s := by
    unfold St.ofPv St.pv; rw [toSpectral, toGrid, ha]
  exact ⟨he, fun p => by rw [he]⟩

/-- Non-vacuity of C32 -/
example : sph30.RoundTrips := sph30_lawful.rt

/-! ## C33 caching -/

/-- C33: whatever sequence of properties is read from a state object, each read returns the value of the uncached
evaluation on the content (time and spectral PV) given at construction. -/
theorem C33_cache_transparent (S : g.Sph) (t : τ) (q : g.Spc) (ps : List StateProp) :
    StateObj.reads S ps { time := t, pvSpectral := some q } = ps.map (propValue S ⟨t, q⟩) :=
  reads_eq ps _ ⟨rfl, rfl, .inl rfl, .inl rfl, .inl rfl, .inl rfl, .inl rfl, .inl rfl⟩

/-- C33 for objects created from gridded PV. -/
theorem C33_cache_transparent_pv (S : g.Sph) (t : τ) (pv : g.Fld) (ps : List StateProp) :
    ∃ o, StateObj.init S t (some pv) none = .ok o ∧
      StateObj.reads S ps o = ps.map (propValue S (St.ofPv S t pv)) :=
  ⟨_, rfl, C33_cache_transparent S t _ ps⟩

/-- C33: in particular, the value of a read does not depend on what was read before. -/
theorem C33_history_independent (S : g.Sph) (t : τ) (q : g.Spc) (ps ps' : List StateProp) (p : StateProp) :
    (StateObj.reads S (ps ++ [p]) { time := t, pvSpectral := some q }).getLast? =
      (StateObj.reads S (ps' ++ [p]) { time := t, pvSpectral := some q }).getLast? := by
  rw [C33_cache_transparent, C33_cache_transparent]; simp

/-- C33 for objects created without PV: every read raises the same exception each time. -/
theorem C33_no_pv (S : g.Sph) (t : τ) (ps : List StateProp) :
    StateObj.reads S ps ({ time := t, pvSpectral := none } : StateObj τ g) = ps.map (propValueNone t) := by
  have key : ∀ p, StateObj.read S p ({ time := t, pvSpectral := none } : StateObj τ g) =
      (propValueNone t p, { time := t, pvSpectral := none }) := by
    intro p; cases p <;> rfl
  induction ps with
  | nil => rfl
  | cons p ps ih =>
    unfold StateObj.reads
    simp only [key, List.map_cons, ih]

/-- Non-vacuity of C33: the caches are really filled and used (reading `u` fills both wind components). -/
example : (StateObj.read sph30 .u { time := (), pvSpectral := some 0 }).2.v.isSome = true := rfl

/-! ## C34 constructors -/

theorem fcor_adm (S : g.Sph) (hl : S.RoundTrips) : S.Adm (fcor2Spectral S) := hl.adm_analysis _

/-- C34, the part that holds: for a state whose vorticity is resolved (no Nyquist component), `from_vorticity` and
`State(pv=…)` reproduce the state; `from_wind` reproduces it if the vorticity has no global mean, and reproduces the
wind in any case. What is missing from the full statement: a non-zero global-mean vorticity is lost by `from_wind`
(`C34_mean_refuted`). -/
theorem C34_constructors_partial (S : g.Sph) (hS : Lawful S) (s : St τ g)
    (hv : S.Resolved (s.vorticitySpectral S)) :
    St.fromVorticity S s.time (s.vorticity S) = s ∧
    St.ofPv S s.time (s.pv S) = s ∧
    ((∀ k, specN k = 0 → s.vorticitySpectral S k = 0) → St.fromWind S s.time (s.u S) (s.v S) = s) ∧
    (St.fromWind S s.time (s.u S) (s.v S)).u S = s.u S ∧ (St.fromWind S s.time (s.u S) (s.v S)).v S = s.v S := by
  have hq : S.Adm s.q := by
    have := hv.1.add hS.lin (fcor_adm S hS.rt)
    unfold St.vorticitySpectral at this
    rwa [sub_add_cancel] at this
  have hpv : St.ofPv S s.time (s.pv S) = s := by unfold St.ofPv St.pv; rw [toSpectral, toGrid, hq]
  have hz : S.Resolved (0 : g.Spc) := by
    refine ⟨?_, fun _ _ => rfl⟩
    unfold Adm; rw [hS.lin.spectogrd_zero, hS.lin.grdtospec_zero]
  have hvd : S.getvrtdivspec (s.u S) (s.v S) = (dropMean (s.vorticitySpectral S), dropMean 0) :=
    hS.wind.vrtdiv_uv _ _ hv hz
  have hfw : (St.fromWind S s.time (s.u S) (s.v S)).q = fcor2Spectral S + dropMean (s.vorticitySpectral S) := by
    unfold St.fromWind St.ofPv Grid.vorticity Grid.vorticitySpectral vorticityDivergenceSpectral
    rw [hvd]
    simp only [toSpectral, toGrid, fcor2Spectral]
    rw [hS.lin.grdtospec_add]
    congr 1
    rw [dropMean_eq_degMul]
    exact hS.rt.adm_degMul _ _ hv.1
  have hd0 : dropMean (0 : g.Spc) = 0 := by funext k; simp [dropMean]
  have hinv : (St.fromWind S s.time (s.u S) (s.v S)).invertPv S = s.invertPv S := by
    unfold St.invertPv wind St.vorticitySpectral
    rw [hfw, add_sub_cancel_left]
    simp only
    have := hS.wind.uv_dropMean (s.vorticitySpectral S) 0
    rw [hd0] at this
    exact this
  refine ⟨?_, hpv, ?_, ?_, ?_⟩
  · unfold St.fromVorticity St.vorticity
    rw [add_sub_cancel]; exact hpv
  · intro h0
    have : dropMean (s.vorticitySpectral S) = s.vorticitySpectral S := by
      funext k; unfold dropMean; split_ifs with hk
      · exact (h0 k hk).symm
      · rfl
    rw [this, St.vorticitySpectral, add_sub_cancel] at hfw
    cases s
    simp only [St.fromWind, St.ofPv, St.mk.injEq, true_and] at hfw ⊢
    exact hfw
  · exact congrArg Prod.fst hinv
  · exact congrArg Prod.snd hinv

/-- C34 is false for states with non-zero global-mean vorticity: such a state (here: PV = planetary vorticity + 1) is
not reproduced by `from_wind`. -/
theorem C34_mean_refuted : ∃ s : St Unit grid30, sph30.Resolved (s.vorticitySpectral sph30) ∧
    (St.fromWind sph30 s.time (s.u sph30) (s.v sph30)).pv sph30 ≠ s.pv sph30 := by
  have hT : 1 ≤ grid30.ntrunc := by unfold grid30; norm_num
  have hl := sph30_lawful
  refine ⟨⟨(), fcor2Spectral sph30 + mk2 hT 1 0⟩, ?_, ?_⟩
  · unfold St.vorticitySpectral
    simp only [add_sub_cancel_left]
    refine ⟨?_, ?_⟩
    · have h1 : sph30.grdtospec (fun _ _ => 1) = mk2 hT 1 0 := by
        have hn : 0 < grid30.nlon := by rw [grid30_nlon]; norm_num
        simp only [sph30, zonalSph, zmean_const hn]; norm_num
      rw [← h1]; exact hl.rt.adm_analysis _
    · intro k hk
      unfold mk2
      have h0 : specM k ≠ 0 := by
        intro h; rw [h, grid30_nlon] at hk; omega
      rw [if_neg (by rintro rfl; simp at h0), if_neg (by rintro rfl; simp at h0)]
  · intro h
    set s : St Unit grid30 := ⟨(), fcor2Spectral sph30 + mk2 hT 1 0⟩ with hs
    have hvo : s.vorticitySpectral sph30 = mk2 hT 1 0 := by simp [St.vorticitySpectral, hs]
    have hu : s.u sph30 = 0 := by
      unfold St.u St.invertPv wind
      simp only [hvo]; funext j i; simp [sph30, zonalSph]
    have hv : s.v sph30 = 0 := by
      unfold St.v St.invertPv wind
      simp only [hvo]; funext j i; simp [sph30, zonalSph]
    have hw : (St.fromWind sph30 s.time (s.u sph30) (s.v sph30)).pv sph30 = grid30.fcor2 := by
      rw [hu, hv]
      unfold St.fromWind St.ofPv St.pv Grid.vorticity Grid.vorticitySpectral vorticityDivergenceSpectral
      rw [hl.lin.getvrtdiv_zero]
      simp only [toGrid, toSpectral, Prod.fst_zero]
      rw [hl.lin.spectogrd_zero, add_zero, hl.coriolis]
    have hp : s.pv sph30 = grid30.fcor2 + fun _ _ => 1 := by
      unfold St.pv
      simp only [hs, toGrid, fcor2Spectral, toSpectral]
      rw [hl.lin.spectogrd_add, hl.coriolis]
      congr 1
      funext j i; simp [sph30, zonalSph]
    rw [hw, hp] at h
    have := congrFun (congrFun h ⟨0, by rw [grid30_nlat]; norm_num⟩) ⟨0, by rw [grid30_nlon]; norm_num⟩
    simp at this

/-! ## C35 vorticity addition -/

section Add
variable {H : GridHeap}

/-- the state with zero relative vorticity -/
noncomputable def motionlessAt (H : GridHeap) (i : ℕ) (t : τ) : AnySt τ H :=
  ⟨i, St.ofPv (H.sph i) t (H.grid i).fcor2⟩

theorem addVorticity_same (i : ℕ) (s o : St τ (H.grid i)) :
    addVorticity ⟨i, s⟩ (.state ⟨i, o⟩) =
      .ok ⟨i, .ofPv (H.sph i) s.time (s.pv (H.sph i) + o.vorticity (H.sph i))⟩ := by
  simp [addVorticity]

theorem ofPv_pv_sum (S : g.Sph) (hS : Lawful S) (t : τ) (a b : St τ g) :
    (St.ofPv S t (a.pv S + b.vorticity S)).pv S = a.pv S + b.vorticity S := by
  unfold St.pv St.ofPv St.vorticity St.pv
  simp only [toGrid, toSpectral]
  rw [hS.lin.grdtospec_add, hS.lin.grdtospec_sub, hS.lin.spectogrd_add, hS.lin.spectogrd_sub, hS.rt.synth_again,
    hS.rt.synth_again, hS.coriolis]

/-- C35: the relative vorticity of the sum is the sum of the relative vorticities, the time is that of the first
state. -/
theorem C35_sum (i : ℕ) (hS : Lawful (H.sph i)) (s o : St τ (H.grid i)) :
    ∃ r, addVorticity ⟨i, s⟩ (.state ⟨i, o⟩) = .ok ⟨i, r⟩ ∧ r.time = s.time ∧
      r.vorticity (H.sph i) = s.vorticity (H.sph i) + o.vorticity (H.sph i) ∧
      r.pv (H.sph i) = s.vorticity (H.sph i) + o.vorticity (H.sph i) + (H.grid i).fcor2 := by
  refine ⟨_, addVorticity_same i s o, rfl, ?_, ?_⟩
  · have := ofPv_pv_sum (H.sph i) hS s.time s o
    unfold St.vorticity at this ⊢
    rw [this]; abel
  · rw [ofPv_pv_sum (H.sph i) hS]; unfold St.vorticity; abel

/-- C35: commutative up to the time, associative. -/
theorem C35_comm_assoc (i : ℕ) (hS : Lawful (H.sph i)) (a b c : St τ (H.grid i)) :
    (∃ r r', addVorticity ⟨i, a⟩ (.state ⟨i, b⟩) = .ok ⟨i, r⟩ ∧ addVorticity ⟨i, b⟩ (.state ⟨i, a⟩) = .ok ⟨i, r'⟩ ∧
      r.q = r'.q ∧ r.time = a.time ∧ r'.time = b.time) ∧
    (∃ ab bc r, addVorticity ⟨i, a⟩ (.state ⟨i, b⟩) = .ok ⟨i, ab⟩ ∧ addVorticity ⟨i, b⟩ (.state ⟨i, c⟩) = .ok ⟨i, bc⟩ ∧
      addVorticity ⟨i, ab⟩ (.state ⟨i, c⟩) = .ok ⟨i, r⟩ ∧ addVorticity ⟨i, a⟩ (.state ⟨i, bc⟩) = .ok ⟨i, r⟩) := by
  constructor
  · refine ⟨_, _, addVorticity_same i a b, addVorticity_same i b a, ?_, rfl, rfl⟩
    simp only [St.ofPv]
    congr 1
    unfold St.vorticity; abel
  · refine ⟨_, _, _, addVorticity_same i a b, addVorticity_same i b c, addVorticity_same i _ c, ?_⟩
    rw [addVorticity_same]
    have h1 := ofPv_pv_sum (H.sph i) hS a.time a b
    have h2 := ofPv_pv_sum (H.sph i) hS b.time b c
    have hr : a.pv (H.sph i) + (St.ofPv (H.sph i) b.time (b.pv (H.sph i) + c.vorticity (H.sph i))).vorticity (H.sph i) =
        (St.ofPv (H.sph i) a.time (a.pv (H.sph i) + b.vorticity (H.sph i))).pv (H.sph i) + c.vorticity (H.sph i) := by
      have h3 : ∀ x : St τ (H.grid i), x.vorticity (H.sph i) = x.pv (H.sph i) - (H.grid i).fcor2 := fun _ => rfl
      rw [h1, h3 (St.ofPv _ _ _), h2, h3 b]; abel
    rw [hr]; rfl

/-- C35: the motionless state is neutral (exactly for states with admissible spectral PV, in gridded PV and vorticity
for all states). -/
theorem C35_neutral (i : ℕ) (hS : Lawful (H.sph i)) (s : St τ (H.grid i)) (t : τ) :
    (∃ r, addVorticity ⟨i, s⟩ (.state (motionlessAt H i t)) = .ok ⟨i, r⟩ ∧ r.pv (H.sph i) = s.pv (H.sph i) ∧
      r.time = s.time ∧ ((H.sph i).Adm s.q → r = s)) ∧
    (∃ r, addVorticity (motionlessAt H i t) (.state ⟨i, s⟩) = .ok ⟨i, r⟩ ∧ r.pv (H.sph i) = s.pv (H.sph i) ∧
      r.time = t ∧ ((H.sph i).Adm s.q → r.q = s.q)) := by
  have hm : (St.ofPv (H.sph i) t (H.grid i).fcor2).pv (H.sph i) = (H.grid i).fcor2 := hS.coriolis
  have hm' : (St.ofPv (H.sph i) t (H.grid i).fcor2).vorticity (H.sph i) = 0 := by
    unfold St.vorticity; rw [hm, sub_self]
  constructor
  · refine ⟨_, addVorticity_same i s _, ?_, rfl, ?_⟩
    · rw [hm', add_zero]; exact hS.rt.synth_again _
    · intro ha; rw [hm', add_zero]; cases s; unfold St.ofPv St.pv; rw [toSpectral, toGrid, ha]
  · refine ⟨_, addVorticity_same i _ s, ?_, rfl, ?_⟩
    · rw [hm]; unfold St.vorticity; rw [add_sub_cancel]; exact hS.rt.synth_again _
    · intro ha
      rw [hm]; unfold St.vorticity; rw [add_sub_cancel]; exact ha

/-- C35: an array of the right shape is added to the vorticity (projected onto the resolved modes; exactly the array if
it is band-limited). A different grid object or a different shape raises AssertionError. -/
theorem C35_array_and_errors (i : ℕ) (hS : Lawful (H.sph i)) (s : St τ (H.grid i)) :
    (∀ f : (H.grid i).Fld, ∃ r, addVorticity ⟨i, s⟩ (.array (.d2 _ _ f)) = .ok ⟨i, r⟩ ∧ r.time = s.time ∧
      r.vorticity (H.sph i) = s.vorticity (H.sph i) + (H.sph i).spectogrd ((H.sph i).grdtospec f)) ∧
    (∀ a : Arr ℝ, a.shape ≠ [(H.grid i).nlat, (H.grid i).nlon] →
      addVorticity ⟨i, s⟩ (.array a) = .error .assertionError) ∧
    (∀ (j : ℕ) (o : St τ (H.grid j)), j ≠ i → addVorticity ⟨i, s⟩ (.state ⟨j, o⟩) = .error .assertionError) := by
  refine ⟨?_, ?_, ?_⟩
  · intro f
    refine ⟨.ofPv (H.sph i) s.time (s.pv (H.sph i) + f), by simp [addVorticity, Arr.asFld], rfl, ?_⟩
    unfold St.vorticity St.pv St.ofPv
    simp only [toGrid, toSpectral]
    rw [hS.lin.grdtospec_add, hS.lin.spectogrd_add]
    have := hS.rt.synth_again s.q
    rw [this]; abel
  · intro a ha
    have : a.asFld (H.grid i) = none := by
      cases a with
      | d2 h w f =>
        refine dif_neg ?_
        rintro ⟨rfl, rfl⟩
        exact ha rfl
      | _ => rfl
    simp [addVorticity, this]
  · intro j o hj
    simp [addVorticity, hj]

/-! ## C36 wind addition -/

theorem addWind_same (i : ℕ) (s o : St τ (H.grid i)) :
    addWind ⟨i, s⟩ (.state ⟨i, o⟩) =
      .ok ⟨i, .fromWind (H.sph i) s.time (s.u (H.sph i) + o.u (H.sph i)) (s.v (H.sph i) + o.v (H.sph i))⟩ := by
  simp [addWind]

/-- C36, the part that holds: with a State argument on the same grid object, the wind of the sum is the sum of the winds
(both vorticity fields resolved). Missing: the (u,v)-tuple case, see `C36_tuple_refuted`. -/
theorem C36_add_wind_state_partial (i : ℕ) (hS : Lawful (H.sph i)) (s o : St τ (H.grid i))
    (h1 : (H.sph i).Resolved (s.vorticitySpectral (H.sph i))) (h2 : (H.sph i).Resolved (o.vorticitySpectral (H.sph i))) :
    ∃ r, addWind ⟨i, s⟩ (.state ⟨i, o⟩) = .ok ⟨i, r⟩ ∧ r.time = s.time ∧
      r.u (H.sph i) = s.u (H.sph i) + o.u (H.sph i) ∧ r.v (H.sph i) = s.v (H.sph i) + o.v (H.sph i) := by
  set S := H.sph i
  -- a state with the summed vorticity
  set c : St τ (H.grid i) := ⟨s.time, s.vorticitySpectral S + o.vorticitySpectral S + fcor2Spectral S⟩ with hc
  have hcv : c.vorticitySpectral S = s.vorticitySpectral S + o.vorticitySpectral S := by
    rw [hc]; simp only [St.vorticitySpectral]; abel
  have hcr : S.Resolved (c.vorticitySpectral S) := by
    rw [hcv]
    exact ⟨h1.1.add hS.lin h2.1, fun k hk => by rw [Pi.add_apply, h1.2 k hk, h2.2 k hk, add_zero]⟩
  have huv : c.invertPv S = s.invertPv S + o.invertPv S := by
    unfold St.invertPv wind
    simp only [hcv]
    have := hS.lin.getuv_add (s.vorticitySpectral S) (o.vorticitySpectral S) 0 0
    rwa [add_zero] at this
  have hu : c.u S = s.u S + o.u S := congrArg Prod.fst huv
  have hv : c.v S = s.v S + o.v S := congrArg Prod.snd huv
  obtain ⟨_, _, _, h4, h5⟩ := C34_constructors_partial S hS c hcr
  refine ⟨_, addWind_same i s o, rfl, ?_, ?_⟩
  · have e : c.time = s.time := rfl
    rw [← hu, ← hv, ← e, h4]
  · have e : c.time = s.time := rfl
    rw [← hu, ← hv, ← e, h5]

/-- C36, errors: different grid objects and wrong shapes raise AssertionError. -/
theorem C36_errors (i : ℕ) (s : St τ (H.grid i)) :
    (∀ (j : ℕ) (o : St τ (H.grid j)), j ≠ i → addWind ⟨i, s⟩ (.state ⟨j, o⟩) = .error .assertionError) ∧
    (∀ u v : Arr ℝ, u.shape ≠ [(H.grid i).nlat, (H.grid i).nlon] ∨ v.shape ≠ [(H.grid i).nlat, (H.grid i).nlon] →
      addWind ⟨i, s⟩ (.tuple u v) = .error .assertionError) := by
  have key : ∀ a : Arr ℝ, a.shape ≠ [(H.grid i).nlat, (H.grid i).nlon] → a.asFld (H.grid i) = none := by
    intro a ha
    cases a with
    | d2 h w f =>
      refine dif_neg ?_
      rintro ⟨rfl, rfl⟩
      exact ha rfl
    | _ => rfl
  constructor
  · intro j o hj; simp [addWind, hj]
  · rintro u v (h | h)
    · simp [addWind, key u h]
    · simp only [addWind, key v h]
      cases u.asFld (H.grid i) <;> rfl

/-- C36 is false for a (u,v)-tuple: the result does not depend on the wind of `self` at all. -/
theorem C36_tuple_ignores_self (i : ℕ) (s s' : St τ (H.grid i)) (ht : s.time = s'.time) (u v : Arr ℝ) :
    addWind ⟨i, s⟩ (.tuple u v) = addWind ⟨i, s'⟩ (.tuple u v) := by
  simp only [addWind]
  cases u.asFld (H.grid i) <;> cases v.asFld (H.grid i) <;> simp [ht]

end Add

/-- example heap: every address holds the 30° grid -/
noncomputable def heap30 : GridHeap := ⟨fun _ => grid30, fun _ => sph30⟩

/-- C36 refuted: a state in solid-body rotation plus a zero (u,v)-tuple has zero wind instead of its own wind. -/
theorem C36_tuple_refuted : ∃ (s : St Unit grid30) (r : AnySt Unit heap30),
    addWind (H := heap30) ⟨0, s⟩ (.tuple (.d2 grid30.nlat grid30.nlon 0) (.d2 grid30.nlat grid30.nlon 0)) = .ok r ∧
    r.2.u (heap30.sph r.1) = 0 ∧ s.u sph30 + 0 ≠ 0 := by
  have hT : 1 ≤ grid30.ntrunc := by unfold grid30; norm_num
  have hl := sph30_lawful
  refine ⟨⟨(), fcor2Spectral sph30 + mk2 hT 0 2⟩, ⟨0, St.fromWind sph30 () 0 0⟩, ?_, ?_, ?_⟩
  · simp [addWind, Arr.asFld, heap30]; rfl
  · change (St.fromWind sph30 () 0 0).u sph30 = 0
    have : (St.fromWind sph30 () 0 0).vorticitySpectral sph30 = 0 := by
      unfold St.vorticitySpectral St.fromWind St.ofPv Grid.vorticity Grid.vorticitySpectral vorticityDivergenceSpectral
      rw [hl.lin.getvrtdiv_zero]
      simp only [toGrid, Prod.fst_zero]
      rw [hl.lin.spectogrd_zero, add_zero]; simp [fcor2Spectral]
    unfold St.u St.invertPv wind
    simp only [this]
    rw [hl.lin.getuv_zero]; rfl
  · rw [add_zero]
    intro h
    have hvo : (⟨(), fcor2Spectral sph30 + mk2 hT 0 2⟩ : St Unit grid30).vorticitySpectral sph30 = mk2 hT 0 2 := by
      simp [St.vorticitySpectral]
    unfold St.u St.invertPv wind at h
    simp only [hvo] at h
    have := congrFun (congrFun h ⟨3, by rw [grid30_nlat]; norm_num⟩) ⟨0, by rw [grid30_nlon]; norm_num⟩
    simp only [sph30, zonalSph, mk2_k1] at this
    have e : grid30.phi 3 = 0 := by rw [phi_eq grid30_valid, grid30_nlat]; push_cast; ring
    simp only [e] at this
    simp [grid30] at this

/-- Non-vacuity of C35, C36. -/
example : Lawful (heap30.sph 0) := sph30_lawful

/-! ## C37 hn2016 -/

/-- C37: round trip through the falwa representation reproduces the PV (and the state, if its spectral PV is
admissible). -/
theorem C37_roundtrip (S : g.Sph) (h : S.RoundTrips) (t : τ) (s : St τ g) :
    ∃ r : St τ g, fromHn2016 S t (asHn2016 S s) = .ok r ∧ r.time = t ∧ r.pv S = s.pv S ∧
      (S.Adm s.q → r.q = s.q) := by
  have hf : (fun (j : Fin g.nlat) (i : Fin g.nlon) => s.pv S j.rev.rev i) = s.pv S := by
    funext j i; rw [Fin.rev_rev]
  refine ⟨.ofPv S t (s.pv S), ?_, rfl, h.synth_again s.q, ?_⟩
  · unfold fromHn2016
    rw [dif_pos (show (asHn2016 S s).nlon = g.nlon from rfl), dif_pos (show (asHn2016 S s).nlat = g.nlat from rfl)]
    congr 2
  · intro ha; exact ha

/-- C37: the exported latitudes run strictly from south to north and row `j` of the exported field is the row of the
state at the same latitude; longitudes are unchanged. -/
theorem C37_orientation (S : g.Sph) (hg : g.Valid) (s : St τ g) :
    StrictMono (asHn2016 S s).ylat ∧
    (∀ j : Fin g.nlat, ∀ j' : Fin g.nlat, (asHn2016 S s).ylat j = g.lat j' →
      ∀ i : Fin g.nlon, (asHn2016 S s).pvField j i = s.pv S j' i) ∧
    ∀ i : Fin g.nlon, (asHn2016 S s).xlon i = g.lon i := by
  have hanti := lat_strictAnti hg
  refine ⟨?_, ?_, fun i => rfl⟩
  · intro a b hab
    have hab' : (a : Fin g.nlat) < b := hab
    exact hanti (Fin.lt_def.mp (Fin.rev_lt_rev.mpr hab'))
  · intro j j' h i
    have : j.rev = j' := by
      have h' : g.lat j.rev = g.lat j' := h
      exact Fin.ext (hanti.injective h')
    subst this; rfl

/-- C37: mismatching dimensions raise AssertionError. -/
theorem C37_mismatch (S : g.Sph) (t : τ) (b : BaroField) (h : b.nlon ≠ g.nlon ∨ b.nlat ≠ g.nlat) :
    fromHn2016 S t b = .error .assertionError := by
  unfold fromHn2016
  split_ifs with h1 h2
  · rcases h with h | h
    · exact absurd h1 h
    · exact absurd h2 h
  · rfl
  · rfl

/-! ## C38 energy and enstrophy -/

/-- C38: the diagnostics are non-negative. -/
theorem C38_nonneg (S : g.Sph) (s : St τ g) (j : Fin g.nlat) (i : Fin g.nlon) :
    0 ≤ s.energy S j i ∧ 0 ≤ s.enstrophy S j i ∧ 0 ≤ s.eddyEnstrophy S j i := by
  refine ⟨?_, ?_, ?_⟩
  · unfold St.energy; nlinarith [mul_self_nonneg (s.u S j i), mul_self_nonneg (s.v S j i)]
  · unfold St.enstrophy; positivity
  · unfold St.eddyEnstrophy; positivity

/-- C38: energy is half the squared wind speed, enstrophy half the squared PV; energy vanishes iff the wind does. -/
theorem C38_energy (S : g.Sph) (s : St τ g) (j : Fin g.nlat) (i : Fin g.nlon) :
    s.energy S j i = (s.u S j i ^ 2 + s.v S j i ^ 2) / 2 ∧ s.enstrophy S j i = s.pv S j i ^ 2 / 2 ∧
    (s.energy S j i = 0 ↔ s.u S j i = 0 ∧ s.v S j i = 0) := by
  refine ⟨by unfold St.energy; ring, by unfold St.enstrophy; ring, ?_⟩
  constructor
  · intro h
    unfold St.energy at h
    constructor <;> nlinarith [mul_self_nonneg (s.u S j i), mul_self_nonneg (s.v S j i)]
  · rintro ⟨h1, h2⟩
    unfold St.energy; rw [h1, h2]; ring

/-- C38: eddy enstrophy vanishes iff PV is zonally symmetric. -/
theorem C38_eddy_zero_iff (S : g.Sph) (s : St τ g) :
    (∀ j i, s.eddyEnstrophy S j i = 0) ↔ ZonallySymmetric (s.pv S) := by
  constructor
  · intro h j i i'
    have h1 := h j i
    have h2 := h j i'
    unfold St.eddyEnstrophy at h1 h2
    have h1 : (s.pv S j i - (∑ i', s.pv S j i') / g.nlon) ^ 2 = 0 := by linarith
    have h2 : (s.pv S j i' - (∑ i', s.pv S j i') / g.nlon) ^ 2 = 0 := by linarith
    rw [sq_eq_zero_iff, sub_eq_zero] at h1 h2
    rw [h1, h2]
  · intro h j i
    have hn : (g.nlon : ℝ) ≠ 0 := by
      have := i.pos
      positivity
    have hsum : ∑ i', s.pv S j i' = g.nlon * s.pv S j i := by
      rw [Finset.sum_congr rfl (fun i' _ => h j i' i)]; simp
    unfold St.eddyEnstrophy
    rw [hsum]
    field_simp
    simp

/-- C38: zonal-mean eddy enstrophy = zonal-mean enstrophy - half the squared zonal-mean PV. -/
theorem C38_eddy_mean (S : g.Sph) (hn : 0 < g.nlon) (s : St τ g) (j : Fin g.nlat) :
    (∑ i, s.eddyEnstrophy S j i) / g.nlon =
      (∑ i, s.enstrophy S j i) / g.nlon - ((∑ i, s.pv S j i) / g.nlon) ^ 2 / 2 := by
  have hn' : (g.nlon : ℝ) ≠ 0 := by positivity
  unfold St.eddyEnstrophy St.enstrophy
  set m : ℝ := (∑ i, s.pv S j i) / g.nlon with hm
  have hsum : ∑ i, s.pv S j i = m * g.nlon := by rw [hm]; field_simp
  have : ∑ i, 1 / 2 * (s.pv S j i - m) ^ 2 = ∑ i, 1 / 2 * s.pv S j i ^ 2 - m * ∑ i, s.pv S j i + g.nlon * (m ^ 2 / 2) := by
    rw [Finset.mul_sum]
    have e : (g.nlon : ℝ) * (m ^ 2 / 2) = ∑ _i : Fin g.nlon, m ^ 2 / 2 := by simp
    rw [e, ← Finset.sum_sub_distrib, ← Finset.sum_add_distrib]
    exact Finset.sum_congr rfl fun i _ => by ring
  rw [this, hsum]
  field_simp
  ring

/-- Non-vacuity of C37, C38. -/
example : grid30.Valid ∧ 0 < grid30.nlon := ⟨grid30_valid, by rw [grid30_nlon]; norm_num⟩

end Barotropic
