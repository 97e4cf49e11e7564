import Verif.Props.AsDataset
import Verif.Props.FromDataset
import Verif.Props.IoCoords
import Verif.Props.State

/-!
# C73 `from_dataset(as_dataset(states))`
-/

namespace Barotropic
open Io SList Spharm

section
variable {g : Grid ℝ}

theorem toNd_wf (f : g.Fld) : f.toNd.WF := by
  unfold NdArr.WF Grid.Fld.toNd
  simp [List.length_flatMap]

theorem toNd_get (f : g.Fld) (j : Fin g.nlat) (i : Fin g.nlon) : f.toNd.data[(j : ℕ) * g.nlon + i]? = some (f j i) := by
  unfold Grid.Fld.toNd
  dsimp only
  rw [flatMap_get (List.finRange g.nlat) _ g.nlon (by simp) j i j (by simp) i.2]
  simp

/-- The variable of the exported dataset -/
noncomputable def stackVar (l : List g.Fld) : XVar ℝ :=
  ⟨["time", "latitude", "longitude"], [l.length, g.nlat, g.nlon], (l.map fun f => f.toNd.data).flatten⟩

theorem stackVar_get (l : List g.Fld) (k : ℕ) (hk : k < l.length) (j : Fin g.nlat) (i : Fin g.nlon) :
    (stackVar l).data[k * (g.nlat * g.nlon) + ((j : ℕ) * g.nlon + i)]? = some (l[k] j i) := by
  have hlt : (j : ℕ) * g.nlon + i < g.nlat * g.nlon := by
    have h1 := j.2
    have h2 := i.2
    calc (j : ℕ) * g.nlon + i < j * g.nlon + g.nlon := by omega
      _ = (j + 1) * g.nlon := by ring
      _ ≤ g.nlat * g.nlon := Nat.mul_le_mul_right _ h1
  unfold stackVar
  dsimp only
  rw [← List.flatMap_def, flatMap_get l _ (g.nlat * g.nlon) (fun f => by have := toNd_wf f; unfold NdArr.WF at this; rw [this]; simp [Grid.Fld.toNd]) k _ l[k]
    (by simp [hk]) hlt, toNd_get]

theorem numbers_map (l : List ℝ) : numbers (l.map .num) = some l := by
  induction l with
  | nil => rfl
  | cons a l ih => simp [numbers, ih]

theorem timeLabel_injective : Function.Injective timeLabel := by
  intro a b h
  cases a <;> cases b <;> simp [timeLabel] at h <;> simp [h]

/-- The exported dataset -/
noncomputable def exported (g : Grid ℝ) (times : List PyTime) (vars : List (String × XVar ℝ)) : Dataset :=
  ⟨[("latitude", ⟨["latitude"], [g.nlat], (List.range g.nlat).map fun j => .num (g.lat j)⟩),
    ("longitude", ⟨["longitude"], [g.nlon], (List.range g.nlon).map fun k => .num (g.lon k)⟩),
    ("time", ⟨["time"], [times.length], times.map timeLabel⟩)], vars⟩

/-- Position along the leading dimensions: there is none if there is only one state. -/
def leadIdx (n k : ℕ) : List ℕ := if n = 1 then [] else [k]

theorem squeeze_stackVar (hv : g.Valid) (l : List g.Fld) : squeezeVar (stackVar l) =
    ⟨(if l.length = 1 then [] else ["time"]) ++ ["latitude", "longitude"], (if l.length = 1 then [] else [l.length]) ++ [g.nlat, g.nlon],
      (stackVar l).data⟩ := by
  have h1 : g.nlat ≠ 1 := by have := hv.nlat_ge; omega
  have h2 : g.nlon ≠ 1 := by have := hv.nlon_ge; omega
  unfold squeezeVar stackVar
  by_cases h : l.length = 1
  · simp [h, h1, h2]
  · simp [h, h1, h2]

theorem squeeze_at (hv : g.Valid) (l : List g.Fld) (k : ℕ) (hk : k < l.length) (j : Fin g.nlat) (i : Fin g.nlon) :
    (squeezeVar (stackVar l)).at (leadIdx l.length k ++ [(j : ℕ), (i : ℕ)]) = l[k] j i := by
  rw [squeeze_stackVar hv]
  unfold XVar.at leadIdx
  dsimp only
  rw [List.getD_eq_getElem?_getD]
  have hs := stackVar_get l k hk j i
  by_cases h : l.length = 1
  · obtain rfl : k = 0 := by omega
    rw [if_pos h, if_pos h]
    simp only [zero_mul, zero_add] at hs
    simp only [List.nil_append, cOrder, List.prod_cons, List.prod_nil, mul_one, add_zero]
    rw [hs]
    rfl
  · rw [if_neg h, if_neg h]
    simp only [List.cons_append, List.nil_append, cOrder, List.prod_cons, List.prod_nil, mul_one, add_zero]
    rw [hs]
    rfl

theorem squeeze_coords (hv : g.Valid) (times : List PyTime) (vars : List (String × XVar ℝ)) :
    (squeeze (exported g times vars)).coord "latitude" = some ⟨["latitude"], [g.nlat], (List.range g.nlat).map fun j => .num (g.lat j)⟩ ∧
    (squeeze (exported g times vars)).coord "longitude" = some ⟨["longitude"], [g.nlon], (List.range g.nlon).map fun j => .num (g.lon j)⟩ ∧
    (squeeze (exported g times vars)).coord "time" = some
      ⟨if times.length = 1 then [] else ["time"], if times.length = 1 then [] else [times.length], times.map timeLabel⟩ := by
  have h1 : g.nlat ≠ 1 := by have := hv.nlat_ge; omega
  have h2 : g.nlon ≠ 1 := by have := hv.nlon_ge; omega
  refine ⟨?_, ?_, ?_⟩
  · simp [Dataset.coord, squeeze, exported, squeezeVar, h1]
  · simp [Dataset.coord, squeeze, exported, squeezeVar, h2]
  · by_cases h : times.length = 1
    · simp [Dataset.coord, squeeze, exported, squeezeVar, h]
    · simp [Dataset.coord, squeeze, exported, squeezeVar, h]

/-- Import of an exported dataset, any of the three kinds of fields -/
theorem import_exported (sph : ∀ g : Grid ℝ, g.Sph) (hv : g.Valid) (hsp : g.resolution * g.nlon = 360) (heven : 2 ∣ g.nlon)
    (times : List PyTime) (hne : times ≠ []) (hnd : times.Nodup) (vars : List (String × XVar ℝ))
    (hc : (exported g times vars).Consistent) (src : Source) (l : List g.Fld) (hl : l.length = times.length)
    (hsrc : source (squeeze (exported g times vars)) (fun _ => none) = .ok src) (hdata : src.data = squeezeVar (stackVar l)) (tf : PyTime) :
    ∃ states, fromDataset sph (exported g times vars) (fun _ => none) g.rsphere g.omega (some g.ntrunc) tf = .ok ⟨g, states⟩ ∧
      states.length = times.length ∧
      ∀ k (hk : k < times.length), states[k]? = some (src.state (sph g) times[k] (leadIdx times.length k)) := by
  obtain ⟨cl1, cl2, cl3⟩ := squeeze_coords hv times vars
  have vm : ∀ ref names c, varNames ref = c :: names → ((squeeze (exported g times vars)).coord c).isSome →
      varMap (squeeze (exported g times vars)) (fun _ => none) ref = some c := by
    intro ref names c h1 h2
    unfold varMap
    dsimp only
    rw [h1, List.find?_cons_of_pos (by unfold Dataset.contains; rw [h2]; rfl)]
  have vlon := vm "lon" ["lon"] "longitude" rfl (by rw [cl2]; rfl)
  have vlat := vm "lat" ["lat"] "latitude" rfl (by rw [cl1]; rfl)
  have vtime := vm "time" [] "time" rfl (by rw [cl3]; rfl)
  have hlon : horizontalCoord (squeeze (exported g times vars)) (some "longitude") =
      .ok ("longitude", (List.range g.nlon).map fun i => g.lon i) := by
    unfold horizontalCoord
    dsimp only
    rw [cl2]
    dsimp only
    rw [if_pos (by simp), show ((List.range g.nlon).map fun j => Label.num (g.lon j)) = ((List.range g.nlon).map fun i => g.lon i).map .num by
      rw [List.map_map]; rfl, numbers_map]
  have hlat : horizontalCoord (squeeze (exported g times vars)) (some "latitude") =
      .ok ("latitude", (List.range g.nlat).map fun i => g.lat i) := by
    unfold horizontalCoord
    dsimp only
    rw [cl1]
    dsimp only
    rw [if_pos (by simp), show ((List.range g.nlat).map fun j => Label.num (g.lat j)) = ((List.range g.nlat).map fun i => g.lat i).map .num by
      rw [List.map_map]; rfl, numbers_map]
  have hgrid := C70_own_grid g hv hsp heven
  unfold gridFromCoords at hgrid
  cases hcl : checkLon ((List.range g.nlon).map fun i => g.lon i) with
  | error e => rw [hcl] at hgrid; cases hgrid
  | ok dlon =>
    rw [hcl] at hgrid
    dsimp only at hgrid
    cases hct : checkLat ((List.range g.nlon).map fun i => g.lon i).length dlon ((List.range g.nlat).map fun j => g.lat j) with
    | error e => rw [hct] at hgrid; cases hgrid
    | ok u =>
      rw [hct] at hgrid
      dsimp only at hgrid
      have hsq := squeeze_stackVar hv l
      rw [hl] at hsq
      rw [hsq] at hdata
      have htime : ∀ idx, InShape (if times.length = 1 then [] else [times.length]) idx →
          ∃ k, ∃ hk : k < times.length, idx = leadIdx times.length k ∧
            fieldTime (squeeze (exported g times vars)) (fun _ => none) src.data idx tf = .ok times[k] := by
        intro idx hi
        have hlt := C72_time (squeeze (exported g times vars)) (fun _ => none) src.data idx tf
        by_cases h1 : times.length = 1
        · obtain ⟨t, rfl⟩ := List.length_eq_one_iff.mp h1
          rw [if_pos h1] at hi
          cases hi
          refine ⟨0, by simp, by simp [leadIdx], ?_⟩
          rw [hlt.2.1 "time" _ (timeLabel t) vtime cl3 (by simp) (by simp)]
          simp [C72_label_time.2.2.2]
        · rw [if_neg h1] at hi
          rw [if_neg h1, if_neg h1] at cl3
          cases hi with
          | @cons k _ idx' _ hk hi' =>
            cases hi'
            refine ⟨k, hk, by simp [leadIdx, h1], ?_⟩
            rw [hlt.1 "time" _ [] "time" [] "latitude" "longitude" times.length vtime cl3 (by rw [hdata]; simp [h1]) (by simp) rfl rfl
              (by simpa using hk) (timeLabel times[k]) (by simp [hk])]
            exact C72_label_time.2.2.2 _
      have hlead : src.data.dims = (if times.length = 1 then [] else ["time"]) ++ ["latitude", "longitude"] := by rw [hdata]
      have hshape : src.data.shape = (if times.length = 1 then [] else [times.length]) ++ [g.nlat, g.nlon] := by rw [hdata]
      have hll : ((if times.length = 1 then [] else ["time"]) : List String).length =
          ((if times.length = 1 then [] else [times.length]) : List ℕ).length := by split_ifs <;> rfl
      obtain ⟨states, hst⟩ := C72_success sph (exported g times vars) hc (fun _ => none) g.rsphere g.omega (some g.ntrunc) tf g
        "longitude" "latitude" _ _ dlon src (if times.length = 1 then [] else ["time"]) (by rw [vlon]; exact hlon) hcl
        (by rw [vlat]; exact hlat) hct hgrid hsrc hlead (by rw [hshape, hll]; simp)
        (by
          intro d hd
          split_ifs at hd with h1
          · cases hd
          · rw [List.mem_singleton] at hd
            subst hd
            exact ⟨_, cl3, (List.nodup_map_iff timeLabel_injective).mpr hnd⟩)
        (by
          intro idx hi
          rw [hshape, hll, List.take_left] at hi
          obtain ⟨k, hk, -, ht⟩ := htime idx hi
          exact ⟨_, ht⟩)
      refine ⟨states, hst, ?_⟩
      obtain ⟨src', hs', lead, a, b, hab, hlen, hall⟩ := C72_fields sph _ hc _ _ _ _ _ _ _ hst
      rw [hsrc] at hs'
      cases hs'
      rw [hshape] at hab
      obtain ⟨rfl, hab⟩ := List.append_inj' hab rfl
      have hprod : ((if times.length = 1 then [] else [times.length]) : List ℕ).prod = times.length := by
        split_ifs with h1
        · simp [h1]
        · simp
      refine ⟨by rw [hlen, hprod], fun k hk => ?_⟩
      have hin : InShape (if times.length = 1 then [] else [times.length]) (leadIdx times.length k) := by
        unfold leadIdx
        split_ifs with h1
        · exact .nil
        · exact .cons hk .nil
      obtain ⟨-, t, ht, hget⟩ := hall _ hin
      obtain ⟨k', hk', he, ht'⟩ := htime _ hin
      have hkk : k = k' := by
        unfold leadIdx at he
        split_ifs at he with h1
        · omega
        · simpa using he
      subst hkk
      rw [ht] at ht'
      cases ht'
      have hco : cOrder (if times.length = 1 then [] else [times.length]) (leadIdx times.length k) = k := by
        unfold leadIdx
        split_ifs with h1
        · simp [cOrder]; omega
        · simp [cOrder]
      rw [hco] at hget
      exact hget


theorem exported_consistent (times : List PyTime) (vars : List (String × XVar ℝ))
    (hv : ∀ v ∈ vars, ∃ l : List g.Fld, l.length = times.length ∧ v.2 = stackVar l) : (exported g times vars).Consistent := by
  refine ⟨⟨exportSize g times.length, fun c hc => ?_, fun v hvm => ?_⟩, fun c hc v _ _ => ?_⟩
  · simp only [exported, List.mem_cons, List.not_mem_nil, or_false] at hc
    rcases hc with rfl | rfl | rfl <;> simp [exportSize]
  · obtain ⟨l, hl, e⟩ := hv v hvm
    rw [e]
    unfold stackVar
    refine ⟨by simp [exportSize, hl], ?_⟩
    dsimp only
    rw [flatten_length (g.nlat * g.nlon)]
    · simp
    · intro d hd
      obtain ⟨f, -, rfl⟩ := List.mem_map.mp hd
      have := toNd_wf f
      unfold NdArr.WF at this
      rw [this]
      simp [Grid.Fld.toNd]
  · simp only [exported, List.mem_cons, List.not_mem_nil, or_false] at hc
    rcases hc with rfl | rfl | rfl <;> rfl

end

variable {H : GridHeap} {α : Type}

theorem asDataset_exported (C : StateCls PyTime H α) (i : ℕ) (ss : List (St PyTime (H.grid i))) (hne : ss ≠ []) (arg : StatesArg H)
    (harg : arg.list = ss.map fun s => .state ⟨i, s⟩) (names : List String) (hnn : names.Nodup)
    (hn : ∀ n ∈ names, n ≠ "latitude" ∧ n ≠ "longitude" ∧ n ≠ "time") (F : String → St PyTime (H.grid i) → (H.grid i).Fld)
    (hF : ∀ n ∈ names, C.method n = none ∧ ∀ s ∈ ss, C.attr n ⟨i, s⟩ = .ok (.ndarray (F n s).toNd)) :
    asDataset C arg (.names names) "time" =
      .ok (exported (H.grid i) (ss.map (·.time)) (names.map fun n => (n, stackVar (ss.map (F n))))) := by
  have hl : (ss.map fun s => (.state ⟨i, s⟩ : PyObj PyTime H)) = (ss.map fun s => (⟨i, s⟩ : AnySt PyTime H)).map .state := by
    rw [List.map_map]; rfl
  rw [asDataset_exportList (by rw [harg]; simpa using hne), harg, hl]
  obtain ⟨s0, rest, rfl⟩ := List.exists_cons_of_ne_nil hne
  have hmake : make (((s0 :: rest).map fun s => (⟨i, s⟩ : AnySt PyTime H)).map .state) =
      .ok (⟨(s0 :: rest).map fun s => ⟨i, s⟩⟩ : SList PyTime H) := by
    rw [C39_success]
    refine ⟨rfl, fun f hf s hs => ?_⟩
    simp only [List.map_cons, List.head?_cons, Option.some.injEq] at hf
    obtain ⟨s', -, rfl⟩ := List.mem_map.mp hs
    rw [← hf]
    exact Grid.eq_refl _
  unfold exportList
  rw [hmake]
  dsimp only
  have hgrid : (⟨(s0 :: rest).map fun s => ⟨i, s⟩⟩ : SList PyTime H).grid = some i := rfl
  rw [hgrid]
  dsimp only
  rw [if_pos rfl]
  dsimp only
  have hvar : ∀ n ∈ names, fieldVar C ⟨(s0 :: rest).map fun s => ⟨i, s⟩⟩ (H.grid i) "time" (.attr n) = .ok (stackVar ((s0 :: rest).map (F n))) := by
    intro n hnm
    obtain ⟨hm, ha⟩ := hF n hnm
    have hmap : (⟨(s0 :: rest).map fun s => ⟨i, s⟩⟩ : SList PyTime H).map (C.attr n) = .ok (.ndarray
        ⟨[(s0 :: rest).length, (H.grid i).nlat, (H.grid i).nlon], (stackVar ((s0 :: rest).map (F n))).data⟩) := by
      have hmm : ((s0 :: rest).map fun s => (⟨i, s⟩ : AnySt PyTime H)).mapM (C.attr n) =
          .ok ((s0 :: rest).map fun s => .ndarray (F n s).toNd) := by
        rw [mapM_forall₂, List.forall₂_map_left_iff, List.forall₂_map_right_iff, List.forall₂_same]
        exact ha
      unfold SList.map
      dsimp only [Bind.bind, Except.bind]
      rw [hmm]
      dsimp only
      unfold convertSequence
      rw [if_pos (by intro x hx; obtain ⟨s, -, rfl⟩ := List.mem_map.mp hx; rfl)]
      have hfm : ((s0 :: rest).map fun s => (.ndarray (F n s).toNd : PyObj PyTime H)).filterMap PyObj.asNdarray =
          (s0 :: rest).map fun s => (F n s).toNd := by
        rw [List.filterMap_map]
        rw [show (PyObj.asNdarray ∘ fun s => (.ndarray (F n s).toNd : PyObj PyTime H)) = some ∘ fun s => (F n s).toNd from rfl,
          List.filterMap_eq_map]
      rw [hfm]
      unfold stack
      simp only [List.map_cons]
      rw [if_pos (by intro b hb; obtain ⟨s, -, rfl⟩ := List.mem_map.mp hb; rfl)]
      simp [stackVar, Grid.Fld.toNd, Function.comp_def]
    unfold fieldVar fieldValues
    dsimp only
    rw [(C40_getattr C _ n).2 hm, hmap]
    dsimp only [Except.map]
    unfold fieldDims
    rw [if_pos (by simp)]
    simp [stackVar]
  have hvars : fieldVars C ⟨(s0 :: rest).map fun s => ⟨i, s⟩⟩ (H.grid i) "time" (FieldsArg.names names : FieldsArg H).items =
      .ok (names.map fun n => (n, stackVar ((s0 :: rest).map (F n)))) := by
    have : (FieldsArg.names names : FieldsArg H).items = names.map fun s => (s, .attr s) := by
      unfold FieldsArg.items
      dsimp only
      rw [hnn.dedup]
    rw [this]
    clear this hnn hn hF
    induction names with
    | nil => rfl
    | cons n names ih =>
      simp only [List.map_cons, fieldVars]
      have h1 := hvar n List.mem_cons_self
      have h2 := ih fun m hm => hvar m (List.mem_cons_of_mem _ hm)
      simp only [List.map_cons] at h1 h2
      rw [h1, h2]
  rw [hvars]
  dsimp only
  have hcoords : (updateCoords [("latitude", ⟨["latitude"], [(H.grid i).nlat], (List.range (H.grid i).nlat).map fun j => .num ((H.grid i).lat j)⟩),
      ("longitude", ⟨["longitude"], [(H.grid i).nlon], (List.range (H.grid i).nlon).map fun k => .num ((H.grid i).lon k)⟩),
      ("time", ⟨["time"], [((s0 :: rest).map fun s => (⟨i, s⟩ : AnySt PyTime H)).length],
        ((s0 :: rest).map fun s => (⟨i, s⟩ : AnySt PyTime H)).map fun s => timeLabel s.2.time⟩)] [] : List (String × XVar Label)) =
      (exported (H.grid i) ((s0 :: rest).map (·.time)) (names.map fun n => (n, stackVar ((s0 :: rest).map (F n))))).coords := by
    simp [updateCoords_nil, exported, Function.comp_def]
  rw [hcoords]
  unfold mkDataset
  dsimp only
  rw [if_neg]
  · rfl
  · rintro (⟨v, hv, c, hc, e⟩ | ⟨a, ha, b, hb, e1, e2⟩)
    · obtain ⟨n, hnm, rfl⟩ := List.mem_map.mp hv
      obtain ⟨n1, n2, n3⟩ := hn n hnm
      simp only [exported, List.mem_cons, List.not_mem_nil, or_false] at hc
      rcases hc with rfl | rfl | rfl
      · exact n1 e
      · exact n2 e
      · exact n3 e
    · have key : ∀ p ∈ ((exported (H.grid i) ((s0 :: rest).map (·.time)) (names.map fun n => (n, stackVar ((s0 :: rest).map (F n))))).coords.map
          fun c => c.2.dims.zip c.2.shape).flatten ++ ((names.map fun n => (n, stackVar ((s0 :: rest).map (F n)))).map
          fun c => c.2.dims.zip c.2.shape).flatten, p.2 = exportSize (H.grid i) (rest.length + 1) p.1 := by
        intro p hp
        rcases List.mem_append.mp hp with hp | hp
        · simp only [exported, List.map_cons, List.map_nil, List.zip_cons_cons, List.zip_nil_right, List.flatten_cons, List.flatten_nil,
            List.mem_append, List.mem_singleton, List.not_mem_nil, or_false, List.length_map, List.length_cons] at hp
          rcases hp with rfl | rfl | rfl <;> simp [exportSize]
        · obtain ⟨zs, hz, hpz⟩ := List.mem_flatten.mp hp
          obtain ⟨c, hc, rfl⟩ := List.mem_map.mp hz
          obtain ⟨n, -, rfl⟩ := List.mem_map.mp hc
          simp only [stackVar, List.zip_cons_cons, List.zip_nil_right, List.mem_cons, List.not_mem_nil, or_false, List.length_map,
            List.length_cons] at hpz
          rcases hpz with rfl | rfl | rfl <;> simp [exportSize]
      exact e2 (by rw [key a ha, key b hb, e1])

/-- A heap object list on one regular grid, exported and imported with the parameters of the grid. `S` is the transform of the grid. -/
structure RoundTrip (H : GridHeap) (i : ℕ) (sph : ∀ g : Grid ℝ, g.Sph) (ss : List (St PyTime (H.grid i))) : Prop where
  valid : (H.grid i).Valid
  regular : (H.grid i).resolution * (H.grid i).nlon = 360
  even : 2 ∣ (H.grid i).nlon
  sph : sph (H.grid i) = H.sph i
  ne : ss ≠ []
  times : (ss.map (·.time)).Nodup

/-- Export of wind components: the imported states are constructed from the wind of the given states, in the same order and with
the same times. -/
theorem C73_wind_partial (C : StateCls PyTime H α) (i : ℕ) (sph : ∀ g : Grid ℝ, g.Sph) (ss : List (St PyTime (H.grid i)))
    (hR : RoundTrip H i sph ss) (arg : StatesArg H) (harg : arg.list = ss.map fun s => .state ⟨i, s⟩)
    (hu : C.method "u" = none ∧ ∀ s ∈ ss, C.attr "u" ⟨i, s⟩ = .ok (.ndarray (Grid.Fld.toNd (s.u (H.sph i)))))
    (hv : C.method "v" = none ∧ ∀ s ∈ ss, C.attr "v" ⟨i, s⟩ = .ok (.ndarray (Grid.Fld.toNd (s.v (H.sph i))))) (tf : PyTime) :
    ∃ ds, asDataset C arg (.names ["u", "v"]) "time" = .ok ds ∧
      fromDataset sph ds (fun _ => none) (H.grid i).rsphere (H.grid i).omega (some (H.grid i).ntrunc) tf =
        .ok ⟨H.grid i, ss.map fun s => St.fromWind (H.sph i) s.time (s.u (H.sph i)) (s.v (H.sph i))⟩ := by
  let F : String → St PyTime (H.grid i) → (H.grid i).Fld := fun n s => if n = "u" then s.u (H.sph i) else s.v (H.sph i)
  have hds := asDataset_exported C i ss hR.ne arg harg ["u", "v"] (by decide) (by decide) F (by
    intro n hn
    simp only [List.mem_cons, List.not_mem_nil, or_false] at hn
    rcases hn with rfl | rfl
    · exact ⟨hu.1, fun s hs => by rw [hu.2 s hs]; rfl⟩
    · exact ⟨hv.1, fun s hs => by rw [hv.2 s hs]; rfl⟩)
  refine ⟨_, hds, ?_⟩
  have hsrc : source (squeeze (exported (H.grid i) (ss.map (·.time)) (["u", "v"].map fun n => (n, stackVar (ss.map (F n)))))) (fun _ => none) =
      .ok (.wind (squeezeVar (stackVar (ss.map (F "u")))) (squeezeVar (stackVar (ss.map (F "v"))))) := by
    rw [(C71_priority _ _).1 "u" "v" (squeezeVar (stackVar (ss.map (F "u")))) (squeezeVar (stackVar (ss.map (F "v"))))]
    · rw [if_pos (by rw [squeeze_stackVar hR.valid, squeeze_stackVar hR.valid]; simp)]
    · simp [varMap, varNames, Dataset.contains, Dataset.coord, Dataset.var, squeeze, exported]
    · simp [varMap, varNames, Dataset.contains, Dataset.coord, Dataset.var, squeeze, exported]
    · simp [Dataset.var, squeeze, exported]
    · simp [Dataset.var, squeeze, exported]
  obtain ⟨states, h1, h2, h3⟩ := import_exported sph hR.valid hR.regular hR.even (ss.map (·.time)) (by simpa using hR.ne) hR.times _
    (exported_consistent _ _ (by
      intro v hv
      obtain ⟨n, -, rfl⟩ := List.mem_map.mp hv
      exact ⟨_, by simp, rfl⟩)) _ (ss.map (F "u")) (by simp) hsrc rfl tf
  rw [h1]
  congr 2
  apply List.ext_getElem?
  intro k
  by_cases hk : k < ss.length
  · rw [h3 k (by simpa using hk), List.getElem?_map, List.getElem?_eq_getElem hk]
    simp only [Source.state, Option.map_some, List.getElem_map]
    rw [hR.sph]
    congr 2
    · funext a b
      have := squeeze_at hR.valid (ss.map (F "u")) k (by simpa using hk) a b
      simp only [List.length_map, List.getElem_map] at this ⊢
      exact this
    · funext a b
      have := squeeze_at hR.valid (ss.map (F "v")) k (by simpa using hk) a b
      simp only [List.length_map, List.getElem_map] at this ⊢
      exact this
  · rw [List.getElem?_eq_none (by rw [h2]; simpa using hk), List.getElem?_eq_none (by simpa using hk)]

theorem round_trip_field (C : StateCls PyTime H α) (i : ℕ) (sph : ∀ g : Grid ℝ, g.Sph) (ss : List (St PyTime (H.grid i)))
    (hR : RoundTrip H i sph ss) (arg : StatesArg H) (harg : arg.list = ss.map fun s => .state ⟨i, s⟩) (tf : PyTime)
    (nm : String) (f : St PyTime (H.grid i) → (H.grid i).Fld) (src : XVar ℝ → Source)
    (mk : PyTime → (H.grid i).Fld → St PyTime (H.grid i)) (hnm : nm ≠ "latitude" ∧ nm ≠ "longitude" ∧ nm ≠ "time")
    (hd : ∀ x, (src x).data = x)
    (hst : ∀ x t idx, (src x).state (sph (H.grid i)) t idx =
      mk t fun (a : Fin (H.grid i).nlat) (b : Fin (H.grid i).nlon) => x.at (idx ++ [(a : ℕ), (b : ℕ)]))
    (hsrc : source (squeeze (exported (H.grid i) (ss.map (·.time)) [(nm, stackVar (g := H.grid i) (ss.map f))])) (fun _ => none) =
        Except.ok (src (squeezeVar (stackVar (g := H.grid i) (ss.map f)))))
    (hC : C.method nm = none ∧ ∀ s ∈ ss, C.attr nm ⟨i, s⟩ = .ok (.ndarray (Grid.Fld.toNd (f s)))) :
    ∃ ds, asDataset C arg (.names [nm]) "time" = .ok ds ∧
      fromDataset sph ds (fun _ => none) (H.grid i).rsphere (H.grid i).omega (some (H.grid i).ntrunc) tf =
        .ok ⟨H.grid i, ss.map fun s => mk s.time (f s)⟩ := by
  have hds := asDataset_exported C i ss hR.ne arg harg [nm] (by simp) (by simpa using hnm) (fun _ => f) (by
    intro n hn
    rw [List.mem_singleton] at hn
    subst hn
    exact hC)
  refine ⟨_, hds, ?_⟩
  have hlen : (ss.map f).length = (ss.map (·.time)).length := by rw [List.length_map, List.length_map]
  have hdd := hd (squeezeVar (stackVar (g := H.grid i) (ss.map f)))
  obtain ⟨states, h1, h2, h3⟩ := import_exported sph hR.valid hR.regular hR.even (ss.map (·.time)) (by simpa using hR.ne) hR.times
    [(nm, stackVar (g := H.grid i) (ss.map f))] (exported_consistent _ [(nm, stackVar (g := H.grid i) (ss.map f))] (by
      intro v hv
      rw [List.mem_singleton] at hv
      rw [hv]
      exact ⟨ss.map f, hlen, rfl⟩)) (src (squeezeVar (stackVar (g := H.grid i) (ss.map f)))) (ss.map f) hlen (by exact hsrc) hdd tf
  refine h1.trans ?_
  congr 2
  apply List.ext_getElem?
  intro k
  by_cases hk : k < ss.length
  · rw [h3 k (by simpa using hk), List.getElem?_map, List.getElem?_eq_getElem hk, hst, Option.map_some, List.getElem_map]
    congr 1
    refine congrArg (mk _) (funext fun a => funext fun b => ?_)
    have := squeeze_at hR.valid (ss.map f) k (by simpa using hk) a b
    rw [List.getElem_map] at this
    rw [← hlen]
    exact this
  · rw [List.getElem?_eq_none (by rw [h2]; simpa using hk), List.getElem?_eq_none (by simpa using hk)]

/-- Export of vorticity, absolute vorticity or PV -/
theorem C73_vorticity_partial (C : StateCls PyTime H α) (i : ℕ) (sph : ∀ g : Grid ℝ, g.Sph) (ss : List (St PyTime (H.grid i)))
    (hR : RoundTrip H i sph ss) (arg : StatesArg H) (harg : arg.list = ss.map fun s => .state ⟨i, s⟩) (tf : PyTime) :
    ((C.method "vo" = none ∧ ∀ s ∈ ss, C.attr "vo" ⟨i, s⟩ = .ok (.ndarray (Grid.Fld.toNd (s.vorticity (H.sph i))))) →
      ∃ ds, asDataset C arg (.names ["vo"]) "time" = .ok ds ∧
        fromDataset sph ds (fun _ => none) (H.grid i).rsphere (H.grid i).omega (some (H.grid i).ntrunc) tf =
          .ok ⟨H.grid i, ss.map fun s => St.fromVorticity (H.sph i) s.time (s.vorticity (H.sph i))⟩) ∧
    (∀ nm, nm = "avo" ∨ nm = "pv" →
      (C.method nm = none ∧ ∀ s ∈ ss, C.attr nm ⟨i, s⟩ = .ok (.ndarray (Grid.Fld.toNd (s.pv (H.sph i))))) →
      ∃ ds, asDataset C arg (.names [nm]) "time" = .ok ds ∧
        fromDataset sph ds (fun _ => none) (H.grid i).rsphere (H.grid i).omega (some (H.grid i).ntrunc) tf =
          .ok ⟨H.grid i, ss.map fun s => St.ofPv (H.sph i) s.time (s.pv (H.sph i))⟩) := by
  refine ⟨fun hC => round_trip_field C i sph ss hR arg harg tf "vo" (fun s => s.vorticity (H.sph i)) .vorticity (St.fromVorticity (H.sph i)) (by decide) (fun _ => rfl)
      (fun x t idx => by rw [hR.sph]; rfl) ?_ hC, fun nm hnm hC => ?_⟩
  · apply (C71_priority _ _).2.1 (Or.inl _) "vo"
    · simp [varMap, varNames, Dataset.contains, Dataset.coord, Dataset.var, squeeze, exported]
    · simp [Dataset.var, squeeze, exported]
    · simp [varMap, varNames, Dataset.contains, Dataset.coord, Dataset.var, squeeze, exported]
  · have hsrc : source (squeeze (exported (H.grid i) (ss.map (·.time)) [(nm, stackVar (ss.map fun s => s.pv (H.sph i)))])) (fun _ => none) =
        .ok (.pv (squeezeVar (stackVar (ss.map fun s => s.pv (H.sph i))))) := by
      apply (C71_priority _ _).2.2.1 (Or.inl _) _ nm
      · rcases hnm with rfl | rfl <;> simp [varMap, varNames, Dataset.contains, Dataset.coord, Dataset.var, squeeze, exported]
      · rcases hnm with rfl | rfl <;> simp [Dataset.var, squeeze, exported]
      · rcases hnm with rfl | rfl <;> simp [varMap, varNames, Dataset.contains, Dataset.coord, Dataset.var, squeeze, exported]
      · rcases hnm with rfl | rfl <;> simp [varMap, varNames, Dataset.contains, Dataset.coord, Dataset.var, squeeze, exported]
    refine round_trip_field C i sph ss hR arg harg tf nm (fun s => s.pv (H.sph i)) .pv (St.ofPv (H.sph i)) ?_ (fun _ => rfl) (fun x t idx => by rw [hR.sph]; rfl) hsrc hC
    rcases hnm with rfl | rfl <;> decide

/-- The states given by the round trip have the same times and winds; for vorticity and PV they are the given states. -/
theorem C73_same_states {g : Grid ℝ} (S : g.Sph) (hS : Lawful S) (ss : List (St PyTime g))
    (hv : ∀ s ∈ ss, S.Resolved (s.vorticitySpectral S)) :
    List.Forall₂ (fun s r : St PyTime g => r.time = s.time ∧ r.u S = s.u S ∧ r.v S = s.v S) ss
      (ss.map fun s => St.fromWind S s.time (s.u S) (s.v S)) ∧
    (ss.map fun s => St.fromVorticity S s.time (s.vorticity S)) = ss ∧ (ss.map fun s => St.ofPv S s.time (s.pv S)) = ss := by
  refine ⟨?_, ?_, ?_⟩
  · rw [List.forall₂_map_right_iff, List.forall₂_same]
    intro s hs
    obtain ⟨-, -, -, h4, h5⟩ := C34_constructors_partial S hS s (hv s hs)
    exact ⟨rfl, h4, h5⟩
  · conv_rhs => rw [← List.map_id ss]
    exact List.map_congr_left fun s hs => (C34_constructors_partial S hS s (hv s hs)).1
  · conv_rhs => rw [← List.map_id ss]
    exact List.map_congr_left fun s hs => (C34_constructors_partial S hS s (hv s hs)).2.1

/-- Two states with the same time (e.g. an ensemble) cannot be imported again: no result for any names, parameters and fill value. -/
theorem C73_equal_times_refuted {g : Grid ℝ} (sph : ∀ g : Grid ℝ, g.Sph) (hv : g.Valid) (t : PyTime) (f1 f2 : g.Fld) (tf : PyTime) :
    let ds := exported g [t, t] [("vo", stackVar [f1, f2])]
    ds.Consistent ∧ ∀ rs om nt g' states, fromDataset sph ds (fun _ => none) rs om nt tf ≠ .ok ⟨g', states⟩ := by
  intro ds
  have hc : ds.Consistent := exported_consistent _ _ (by
    intro v hv
    rw [List.mem_singleton] at hv
    subst hv
    exact ⟨_, rfl, rfl⟩)
  refine ⟨hc, fun rs om nt g' states h => ?_⟩
  have hsrc : source (squeeze ds) (fun _ => none) = .ok (.vorticity (squeezeVar (stackVar [f1, f2]))) := by
    apply (C71_priority _ _).2.1 (Or.inl _) "vo"
    · simp [ds, varMap, varNames, Dataset.contains, Dataset.coord, Dataset.var, squeeze, exported]
    · simp [ds, Dataset.var, squeeze, exported]
    · simp [ds, varMap, varNames, Dataset.contains, Dataset.coord, Dataset.var, squeeze, exported]
  have hst := C72_fields sph ds hc _ rs om nt tf g' states h
  obtain ⟨src', hs', lead, a, b, hab, hlen, -⟩ := hst
  rw [hsrc] at hs'
  cases hs'
  have hsq := squeeze_stackVar hv [f1, f2]
  simp only [List.length_cons, List.length_nil] at hsq
  have hne : states ≠ [] := by
    intro e
    rw [e] at hlen
    have hd : (Source.vorticity (squeezeVar (stackVar [f1, f2]))).data.shape = [2] ++ [g.nlat, g.nlon] := by
      show (squeezeVar (stackVar [f1, f2])).shape = _
      rw [hsq]; rfl
    rw [hd] at hab
    obtain ⟨rfl, -⟩ := List.append_inj' hab rfl
    simp at hlen
  have hnd := C72_duplicates_refuted sph ds hc _ rs om nt tf g' states h hne _ hsrc "time" _
    (by
      show "time" ∈ List.take ((squeezeVar (stackVar [f1, f2])).dims.length - 2) (squeezeVar (stackVar [f1, f2])).dims
      rw [hsq]; simp) (squeeze_coords hv [t, t] [("vo", stackVar [f1, f2])]).2.2
  simp at hnd

/-- Non-vacuity: two states on the grid with a resolution of 10 degrees -/
example (sph : ∀ g : Grid ℝ, g.Sph) : ∃ (H : GridHeap) (ss : List (St PyTime (H.grid 0))), ss.length = 2 ∧ RoundTrip H 0 sph ss := by
  obtain ⟨g, hg⟩ := (C01_accepts (10 : ℝ) 1 1 none).mpr ⟨by norm_num, by norm_num, by norm_num, by simp⟩
  obtain ⟨hv, hres, -⟩ := Grid.make_ok hg
  have hn : g.nlon = 36 := by
    unfold Grid.nlon Grid.nlonOf
    rw [hres, Nat.floor_eq_iff (by norm_num)]
    constructor <;> norm_num
  refine ⟨⟨fun _ => g, fun _ => sph g⟩, [St.ofPv (sph g) (.num 0) 0, St.ofPv (sph g) (.num 1) 0], rfl, hv, ?_, ?_, rfl, by simp, ?_⟩
  · dsimp only; rw [hn, hres]; norm_num
  · dsimp only; rw [hn]; norm_num
  · simp [St.ofPv]

end Barotropic
