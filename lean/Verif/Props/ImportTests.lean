import Verif.Props.RoundTrip
import Verif.Props.StateTests
import Verif.Spec.ImportTests

/-!
# C144: the tests of the import of datasets (tests/test_io.py:62-162)

On every regular grid, with any leading dimensions, labels and values.
-/

namespace Barotropic
open Io Spharm

variable {g : Grid ℝ} {lead : List (String × List Label)} {scal : List (String × Label)}

theorem find_unique {α : Type} (l : List (String × α)) (hl : (l.map Prod.fst).Nodup) (n : String) (x : α) (h : (n, x) ∈ l) :
    (l.find? (·.1 = n)).map Prod.snd = some x := by
  induction l with
  | nil => cases h
  | cons a l ih =>
    simp only [List.map_cons, List.nodup_cons] at hl
    rw [List.find?_cons]
    by_cases ha : a.1 = n
    · rcases List.mem_cons.mp h with h | h
      · subst h
        simp
      · exfalso
        apply hl.1
        rw [ha]
        exact List.mem_map.mpr ⟨_, h, rfl⟩
    · rcases List.mem_cons.mp h with h | h
      · subst h
        exact absurd rfl ha
      · simp only [ha, decide_false]
        exact ih hl.2 h

theorem gridCoords_names : (gridCoords g lead scal).map Prod.fst = lead.map Prod.fst ++ scal.map Prod.fst ++ ["latitude", "longitude"] := by
  simp [gridCoords, Function.comp_def]

theorem coord_of_mem (hg : GoodCoords lead scal) (vars : List (String × XVar ℝ)) (n : String) (c : XVar Label)
    (h : (n, c) ∈ gridCoords g lead scal) : (⟨gridCoords g lead scal, vars⟩ : Dataset).coord n = some c := by
  refine find_unique _ ?_ n c h
  rw [gridCoords_names]
  exact hg.names

theorem coord_none (vars : List (String × XVar ℝ)) (n : String)
    (h : n ∉ lead.map Prod.fst ++ scal.map Prod.fst ++ ["latitude", "longitude"]) :
    (⟨gridCoords g lead scal, vars⟩ : Dataset).coord n = none := by
  unfold Dataset.coord
  rw [Option.map_eq_none_iff, List.find?_eq_none]
  intro x hx
  simp only [decide_eq_true_eq]
  intro hn
  apply h
  rw [← gridCoords_names (g := g), ← hn]
  exact List.mem_map.mpr ⟨x, hx, rfl⟩

theorem squeezeVar_same {α : Type} (v : XVar α) (hl : v.dims.length = v.shape.length) (h : 1 ∉ v.shape) : squeezeVar v = v := by
  unfold squeezeVar
  have : (v.dims.zip v.shape).filter (fun p => p.2 ≠ 1) = v.dims.zip v.shape := by
    rw [List.filter_eq_self]
    intro p hp
    have := (List.of_mem_zip (show (p.1, p.2) ∈ v.dims.zip v.shape from hp)).2
    simp only [ne_eq, decide_not, Bool.not_eq_eq_eq_not, Bool.not_true, decide_eq_false_iff_not]
    intro e
    rw [e] at this
    exact h this
  dsimp only
  rw [this, List.map_fst_zip hl.le, List.map_snd_zip hl.ge]

theorem squeezeVar_coord (hv : g.Valid) (hg : GoodCoords lead scal) : ∀ c ∈ gridCoords g lead scal, squeezeVar c.2 = c.2 := by
  intro c hc
  have h1 : g.nlat ≠ 1 := by have := hv.nlat_ge; omega
  have h2 : g.nlon ≠ 1 := by have := hv.nlon_ge; omega
  simp only [gridCoords, List.mem_append, List.mem_map, List.mem_cons, List.not_mem_nil, or_false] at hc
  rcases hc with (⟨p, hp, rfl⟩ | ⟨p, hp, rfl⟩) | rfl | rfl
  · refine squeezeVar_same _ rfl ?_
    have := hg.sizes p hp
    simpa using this.symm
  · exact squeezeVar_same _ rfl (by simp)
  · exact squeezeVar_same _ rfl (by simpa using h1.symm)
  · exact squeezeVar_same _ rfl (by simpa using h2.symm)

theorem squeezeVar_gridVar (hv : g.Valid) (hg : GoodCoords lead scal) (data : List ℝ) : squeezeVar (gridVar g lead data) = gridVar g lead data := by
  have h1 : g.nlat ≠ 1 := by have := hv.nlat_ge; omega
  have h2 : g.nlon ≠ 1 := by have := hv.nlon_ge; omega
  refine squeezeVar_same _ (by simp [gridVar, leadShape]) ?_
  simp only [gridVar, leadShape, List.mem_append, List.mem_map, List.mem_cons, List.not_mem_nil, or_false, not_or]
  refine ⟨?_, h1.symm, h2.symm⟩
  rintro ⟨p, hp, e⟩
  exact hg.sizes p hp e

/-- Nothing is squeezed. -/
theorem squeeze_same (hv : g.Valid) (hg : GoodCoords lead scal) (vars : List (String × XVar ℝ)) (h : ∀ v ∈ vars, squeezeVar v.2 = v.2) :
    squeeze ⟨gridCoords g lead scal, vars⟩ = ⟨gridCoords g lead scal, vars⟩ := by
  unfold squeeze
  congr 1
  · refine (List.map_congr_left fun c hc => ?_).trans (List.map_id _)
    rw [squeezeVar_coord hv hg c hc]
    rfl
  · refine (List.map_congr_left fun c hc => ?_).trans (List.map_id _)
    rw [h c hc]
    rfl

/-- The steps of `from_dataset` up to the choice of fields -/
theorem coordinates_ok (hv : g.Valid) (hsp : g.resolution * g.nlon = 360) (heven : 2 ∣ g.nlon) (hg : GoodCoords lead scal)
    (vars : List (String × XVar ℝ)) :
    let ds : Dataset := ⟨gridCoords g lead scal, vars⟩
    horizontalCoord ds (varMap ds (fun _ => none) "lon") = .ok ("longitude", (List.range g.nlon).map fun i => g.lon i) ∧
    horizontalCoord ds (varMap ds (fun _ => none) "lat") = .ok ("latitude", (List.range g.nlat).map fun i => g.lat i) ∧
    ∃ dlon, checkLon ((List.range g.nlon).map fun i => g.lon i) = .ok dlon ∧
      checkLat ((List.range g.nlon).map fun i => g.lon i).length dlon ((List.range g.nlat).map fun i => g.lat i) = .ok () ∧
      Grid.make dlon g.rsphere g.omega (some g.ntrunc) = .ok g := by
  intro ds
  have c1 : ds.coord "longitude" = some ⟨["longitude"], [g.nlon], (List.range g.nlon).map fun i => .num (g.lon i)⟩ :=
    coord_of_mem hg vars _ _ (by simp [gridCoords])
  have c2 : ds.coord "latitude" = some ⟨["latitude"], [g.nlat], (List.range g.nlat).map fun i => .num (g.lat i)⟩ :=
    coord_of_mem hg vars _ _ (by simp [gridCoords])
  have hlab : ∀ (n : ℕ) (f : ℕ → ℝ), ((List.range n).map fun i => Label.num (f i)) = ((List.range n).map fun i => f i).map .num := by
    intro n f
    rw [List.map_map]; rfl
  refine ⟨?_, ?_, ?_⟩
  · have : varMap ds (fun _ => none) "lon" = some "longitude" := by
      simp [varMap, varNames, Dataset.contains, c1]
    rw [this]
    unfold horizontalCoord
    dsimp only
    rw [c1]
    dsimp only
    rw [if_pos (by simp), hlab, numbers_map]
  · have : varMap ds (fun _ => none) "lat" = some "latitude" := by
      simp [varMap, varNames, Dataset.contains, c2]
    rw [this]
    unfold horizontalCoord
    dsimp only
    rw [c2]
    dsimp only
    rw [if_pos (by simp), hlab, numbers_map]
  · have h := C70_own_grid g hv hsp heven
    unfold gridFromCoords at h
    cases h1 : checkLon ((List.range g.nlon).map fun i => g.lon i) with
    | error e => rw [h1] at h; cases h
    | ok dlon =>
      rw [h1] at h
      dsimp only at h
      cases h2 : checkLat ((List.range g.nlon).map fun i => g.lon i).length dlon ((List.range g.nlat).map fun i => g.lat i) with
      | error e => rw [h2] at h; cases h
      | ok _ =>
        rw [h2] at h
        exact ⟨dlon, rfl, h2, h⟩

/-- Consistency of the datasets -/
theorem gridDataset_consistent (hg : GoodCoords lead scal) (vars : List (String × List ℝ))
    (hvars : ∀ v ∈ vars, v.2.length = (leadShape lead ++ [g.nlat, g.nlon]).prod) : (gridDataset g lead scal vars).Consistent := by
  obtain ⟨size, hsize⟩ : ∃ size : String → ℕ, size = fun n => if n = "latitude" then g.nlat else if n = "longitude" then g.nlon else
    ((lead.find? (·.1 = n)).map Prod.snd).elim 0 List.length := ⟨_, rfl⟩
  have hnd := hg.names
  have hlead : ∀ p ∈ lead, size p.1 = p.2.length := by
    intro p hp
    rw [List.append_assoc, List.nodup_append] at hnd
    obtain ⟨n1, n2, n3⟩ := hnd
    have a1 : p.1 ≠ "latitude" := n3 p.1 (List.mem_map.mpr ⟨p, hp, rfl⟩) "latitude" (by simp)
    have a2 : p.1 ≠ "longitude" := n3 p.1 (List.mem_map.mpr ⟨p, hp, rfl⟩) "longitude" (by simp)
    rw [hsize]
    simp only [a1, a2, if_false]
    rw [find_unique lead n1 p.1 p.2 hp]
    rfl
  have hlat : size "latitude" = g.nlat := by rw [hsize]; simp
  have hlon : size "longitude" = g.nlon := by rw [hsize]; simp
  refine ⟨⟨size, fun c hc => ?_, fun v hv => ?_⟩, fun c hc v hv hcv => ?_⟩
  · simp only [gridDataset, gridCoords, List.mem_append, List.mem_map, List.mem_cons, List.not_mem_nil, or_false] at hc
    rcases hc with (⟨p, hp, rfl⟩ | ⟨p, hp, rfl⟩) | rfl | rfl
    · simp [hlead p hp]
    · simp
    · simp [hlat]
    · simp [hlon]
  · obtain ⟨p, hp, rfl⟩ := List.mem_map.mp hv
    refine ⟨?_, hvars p hp⟩
    simp only [gridVar, leadShape, List.map_append, List.map_cons, List.map_nil, hlat, hlon, List.map_map, Function.comp_def]
    congr 1
    exact List.map_congr_left fun q hq => (hlead q hq).symm
  · obtain ⟨p, hp, rfl⟩ := List.mem_map.mp hv
    simp only [gridDataset, gridCoords, List.mem_append, List.mem_map, List.mem_cons, List.not_mem_nil, or_false] at hc
    rcases hc with (⟨q, hq, rfl⟩ | ⟨q, hq, rfl⟩) | rfl | rfl
    · rfl
    · exfalso
      simp only [gridVar, List.mem_append, List.mem_cons, List.not_mem_nil, or_false] at hcv
      rw [List.append_assoc, List.nodup_append] at hnd
      obtain ⟨n1, n2, n3⟩ := hnd
      rw [List.nodup_append] at n2
      obtain ⟨m1, m2, m3⟩ := n2
      have hqs : q.1 ∈ scal.map Prod.fst := List.mem_map.mpr ⟨q, hq, rfl⟩
      rcases hcv with h | h | h
      · exact n3 q.1 h q.1 (List.mem_append_left _ hqs) rfl
      · exact m3 q.1 hqs "latitude" (by simp) h
      · exact m3 q.1 hqs "longitude" (by simp) h
    · rfl
    · rfl

theorem var_eq (vars : List (String × List ℝ)) (n : String) : (gridDataset g lead scal vars).var n = (valuesOf vars n).map (gridVar g lead) := by
  unfold Dataset.var gridDataset valuesOf
  dsimp only
  rw [List.find?_map, Option.map_map, Option.map_map]
  rfl

theorem valuesOf_none {vars : List (String × List ℝ)} (hvars : ∀ v ∈ vars, v.1 ∈ ["u", "v", "vo", "avo"]) {n : String}
    (hn : n ∉ ["u", "v", "vo", "avo"]) : valuesOf vars n = none := by
  unfold valuesOf
  rw [Option.map_eq_none_iff, List.find?_eq_none]
  intro x hx
  simp only [decide_eq_true_eq]
  rintro rfl
  exact hn (hvars x hx)

theorem varMap_eq (hg : GoodCoords lead scal) {vars : List (String × List ℝ)} (hvars : ∀ v ∈ vars, v.1 ∈ ["u", "v", "vo", "avo"]) (ref : String)
    (hr : ref ∈ ["u", "v", "vo", "avo"]) :
    varMap (gridDataset g lead scal vars) (fun _ => none) ref = (valuesOf vars ref).map fun _ => ref := by
  have hc : ∀ n ∈ ["u", "ugrd", "eastward_wind", "v", "vgrd", "northward_wind", "vo", "relv",
    "vorticity", "relative_vorticity", "avo", "absv", "absolute_vorticity", "pv"], (gridDataset g lead scal vars).contains n = (valuesOf vars n).isSome := by
    intro n hn
    unfold Dataset.contains
    have : (gridDataset g lead scal vars).coord n = none := by
      refine coord_none _ n fun h => ?_
      rcases List.mem_append.mp h with h | h
      · exact hg.fields n h hn
      · simp only [List.mem_cons, List.not_mem_nil, or_false] at h hn
        rcases h with rfl | rfl <;> simp at hn
    rw [this, var_eq]
    simp
  have key : ∀ c rest, varNames ref = c :: rest → c = ref → (∀ n ∈ rest, n ∉ ["u", "v", "vo", "avo"]) →
      (∀ n ∈ c :: rest, n ∈ ["u", "ugrd", "eastward_wind", "v", "vgrd", "northward_wind", "vo", "relv",
        "vorticity", "relative_vorticity", "avo", "absv", "absolute_vorticity", "pv"]) →
      varMap (gridDataset g lead scal vars) (fun _ => none) ref = (valuesOf vars ref).map fun _ => ref := by
    intro c rest h1 h2 h3 h4
    subst h2
    unfold varMap
    dsimp only
    rw [h1, List.find?_cons, hc c (h4 c List.mem_cons_self)]
    cases hv : valuesOf vars c with
    | some x => rfl
    | none =>
      simp only [Option.isSome_none, Option.map_none]
      rw [List.find?_eq_none]
      intro n hn
      rw [hc n (h4 n (List.mem_cons_of_mem _ hn)), valuesOf_none hvars (h3 n hn)]
      simp
  simp only [List.mem_cons, List.not_mem_nil, or_false] at hr
  rcases hr with rfl | rfl | rfl | rfl
  · exact key "u" ["ugrd", "eastward_wind"] rfl rfl (by decide) (by decide)
  · exact key "v" ["vgrd", "northward_wind"] rfl rfl (by decide) (by decide)
  · exact key "vo" ["relv", "vorticity", "relative_vorticity"] rfl rfl (by decide) (by decide)
  · exact key "avo" ["absv", "absolute_vorticity", "pv"] rfl rfl (by decide) (by decide)

/-- The choice of fields -/
theorem source_chosen (hg : GoodCoords lead scal) {vars : List (String × List ℝ)} (hvars : ∀ v ∈ vars, v.1 ∈ ["u", "v", "vo", "avo"]) :
    source (gridDataset g lead scal vars) (fun _ => none) =
      match chosenFields g lead vars with
      | some src => .ok src
      | none => .error .valueError := by
  have h1 := varMap_eq (g := g) hg hvars "u" (by simp)
  have h2 := varMap_eq (g := g) hg hvars "v" (by simp)
  have h3 := varMap_eq (g := g) hg hvars "vo" (by simp)
  have h4 := varMap_eq (g := g) hg hvars "avo" (by simp)
  have v1 := var_eq (g := g) (lead := lead) (scal := scal) vars "u"
  have v2 := var_eq (g := g) (lead := lead) (scal := scal) vars "v"
  have v3 := var_eq (g := g) (lead := lead) (scal := scal) vars "vo"
  have v4 := var_eq (g := g) (lead := lead) (scal := scal) vars "avo"
  unfold source chosenFields
  rw [h1, h2, h3, h4]
  cases e1 : valuesOf vars "u" <;> cases e2 : valuesOf vars "v" <;> cases e3 : valuesOf vars "vo" <;> cases e4 : valuesOf vars "avo" <;>
    simp [v1, v2, v3, v4, e1, e2, e3, e4, gridVar]

theorem isTime_labelTime {l : Label} {t : PyTime} (h : l.IsTime t) : labelTime l = .ok t := by
  cases h with
  | num x => rfl
  | datetime us => exact C72_label_time.2.2.1 us

/-- The time of a field -/
theorem fieldTime_at (hg : GoodCoords lead scal) (vars : List (String × List ℝ)) (hvars : ∀ v ∈ vars, v.1 ∈ ["u", "v", "vo", "avo"]) (data : List ℝ)
    (tf : PyTime) (idx : List ℕ) (t : PyTime) (h : TimeAt lead scal tf idx t) :
    fieldTime (gridDataset g lead scal vars) (fun _ => none) (gridVar g lead data) idx tf = .ok t := by
  have hnd := hg.names
  obtain ⟨t1, t2, t3, t4, t5⟩ := C72_time (gridDataset g lead scal vars) (fun _ => none) (gridVar g lead data) idx tf
  have vm : ∀ c, (gridDataset g lead scal vars).coord "time" = some c →
      varMap (gridDataset g lead scal vars) (fun _ => none) "time" = some "time" := by
    intro c hc
    simp [varMap, varNames, Dataset.contains, hc]
  rcases h with ⟨pre, ls, post, l, h1, h2, h3⟩ | ⟨l, h1, h2⟩ | ⟨h1, rfl⟩
  · have hc : (gridDataset g lead scal vars).coord "time" = some ⟨["time"], [ls.length], ls⟩ :=
      coord_of_mem hg _ _ _ (by rw [h1]; simp [gridCoords])
    have hlt : idx.getD pre.length 0 < ls.length := (List.getElem?_eq_some_iff.mp h2).1
    rw [t1 "time" _ (pre.map Prod.fst) "time" (post.map Prod.fst) "latitude" "longitude" ls.length (vm _ hc) hc
      (by simp [gridVar, h1]) ?_ rfl rfl (by simpa using hlt) l (by simpa using h2)]
    · exact isTime_labelTime h3
    · rw [h1, List.append_assoc, List.nodup_append] at hnd
      have n1 := hnd.1
      rw [List.map_append, List.nodup_append] at n1
      intro hm
      exact n1.2.2 "time" hm "time" (by simp) rfl
  · have hc : (gridDataset g lead scal vars).coord "time" = some ⟨[], [], [l]⟩ :=
      coord_of_mem hg _ _ _ (by
        simp only [gridCoords, List.mem_append, List.mem_map]
        exact Or.inl (Or.inr ⟨_, h1, rfl⟩))
    rw [t2 "time" _ l (vm _ hc) hc rfl rfl]
    exact isTime_labelTime h2
  · refine t3 ?_
    have hc : (gridDataset g lead scal vars).coord "time" = none := coord_none _ _ (by
      intro h
      rcases List.mem_append.mp h with h | h
      · exact h1 h
      · simp at h)
    have hv : (gridDataset g lead scal vars).var "time" = none := by
      rw [var_eq, valuesOf_none hvars (by decide)]
      rfl
    simp [varMap, varNames, Dataset.contains, hc, hv]

/-- C144 (tests/test_io.py:96-130): a dataset on a regular grid gives one state for every index of the leading dimensions, made of the fields and the
time at this index. -/
theorem C144_import (sph : ∀ g : Grid ℝ, g.Sph) (hv : g.Valid) (hsp : g.resolution * g.nlon = 360) (heven : 2 ∣ g.nlon) (hg : GoodCoords lead scal)
    (vars : List (String × List ℝ)) (hvars : ∀ v ∈ vars, v.1 ∈ ["u", "v", "vo", "avo"])
    (hlen : ∀ v ∈ vars, v.2.length = (leadShape lead ++ [g.nlat, g.nlon]).prod) (tf : PyTime)
    (ht : ∀ idx, InShape (leadShape lead) idx → ∃ t, TimeAt lead scal tf idx t) :
    match chosenFields g lead vars with
    | some src => ∃ states, fromDataset sph (gridDataset g lead scal vars) (fun _ => none) g.rsphere g.omega (some g.ntrunc) tf = .ok ⟨g, states⟩ ∧
        states.length = (leadShape lead).prod ∧
        ∀ idx, InShape (leadShape lead) idx → ∀ t, TimeAt lead scal tf idx t →
          states[cOrder (leadShape lead) idx]? = some (src.state (sph g) t idx)
    | none => fromDataset sph (gridDataset g lead scal vars) (fun _ => none) g.rsphere g.omega (some g.ntrunc) tf = .error .valueError := by
  have hsq : squeeze (gridDataset g lead scal vars) = gridDataset g lead scal vars :=
    squeeze_same hv hg _ fun v hvm => by
      obtain ⟨p, -, rfl⟩ := List.mem_map.mp hvm
      exact squeezeVar_gridVar hv hg p.2
  have hcons := gridDataset_consistent (g := g) hg vars hlen
  obtain ⟨c1, c2, dlon, c3, c4, c5⟩ := coordinates_ok hv hsp heven hg (vars.map fun p => (p.1, gridVar g lead p.2))
  have hs := source_chosen (g := g) hg hvars
  have hdat : ∀ src, chosenFields g lead vars = some src → ∃ d, src.data = gridVar g lead d := by
    intro src h
    unfold chosenFields at h
    split at h <;> first | (cases h; exact ⟨_, rfl⟩) | cases h
  cases hch : chosenFields g lead vars with
  | none =>
    rw [hch] at hs
    dsimp only at hs ⊢
    refine (C71_missing sph _ _ _ _ _ tf).2.1 "longitude" _ dlon "latitude" _ g ?_ c3 ?_ c4 c5 ?_
    · rw [hsq]; exact c1
    · rw [hsq]; exact c2
    · rw [hsq]; exact hs
  | some src =>
    rw [hch] at hs
    dsimp only at hs ⊢
    obtain ⟨d, hd⟩ := hdat src hch
    have hshape : src.data.shape = leadShape lead ++ [g.nlat, g.nlon] := by rw [hd]; rfl
    have hll : (lead.map Prod.fst).length = (leadShape lead).length := by simp [leadShape]
    obtain ⟨states, h⟩ := C72_success sph (gridDataset g lead scal vars) hcons (fun _ => none) g.rsphere g.omega (some g.ntrunc) tf g "longitude" "latitude"
      _ _ dlon src (lead.map Prod.fst) (by rw [hsq]; exact c1) c3 (by rw [hsq]; exact c2) c4 c5 (by rw [hsq]; exact hs)
      (by rw [hd]; rfl) (by rw [hshape, hll]; simp)
      (by
        intro n hn
        obtain ⟨p, hp, rfl⟩ := List.mem_map.mp hn
        refine ⟨⟨[p.1], [p.2.length], p.2⟩, ?_, hg.labels p hp⟩
        rw [hsq]
        refine coord_of_mem hg _ _ _ ?_
        simp only [gridCoords, List.mem_append, List.mem_map]
        exact Or.inl (Or.inl ⟨p, hp, rfl⟩))
      (by
        intro idx hi
        rw [hshape, hll, List.take_left] at hi
        obtain ⟨t, h⟩ := ht idx hi
        refine ⟨t, ?_⟩
        rw [hsq, hd]
        exact fieldTime_at hg vars hvars d tf idx t h)
    refine ⟨states, h, ?_⟩
    obtain ⟨src', e1, lead', a, b, e2, e3, e4⟩ := C72_fields sph _ hcons _ _ _ _ tf g states h
    rw [hsq, hs] at e1
    cases e1
    rw [hshape] at e2
    obtain ⟨rfl, -⟩ := List.append_inj' e2 rfl
    refine ⟨e3, fun idx hi t htt => ?_⟩
    obtain ⟨-, t', e5, e6⟩ := e4 idx hi
    rw [hsq, hd, fieldTime_at hg vars hvars d tf idx t htt] at e5
    cases e5
    exact e6

/-- C144 (tests/test_io.py:89-108): the fields of an atmosphere at rest give states at rest. -/
theorem C144_import_rest (sph : ∀ g : Grid ℝ, g.Sph) (hS : Lawful (sph g)) (hv : g.Valid) (hsp : g.resolution * g.nlon = 360) (heven : 2 ∣ g.nlon)
    (hg : GoodCoords lead scal) (vars : List (String × List ℝ)) (hvars : ∀ v ∈ vars, v.1 ∈ ["u", "v", "vo", "avo"])
    (hlen : ∀ v ∈ vars, v.2.length = (leadShape lead ++ [g.nlat, g.nlon]).prod) (tf : PyTime)
    (ht : ∀ idx, InShape (leadShape lead) idx → ∃ t, TimeAt lead scal tf idx t) (src : Source) (hsrc : chosenFields g lead vars = some src)
    (hrest : src.AtRest g (leadShape lead)) :
    ∃ states, fromDataset sph (gridDataset g lead scal vars) (fun _ => none) g.rsphere g.omega (some g.ntrunc) tf = .ok ⟨g, states⟩ ∧
      states.length = (leadShape lead).prod ∧ ∀ s ∈ states, s.u (sph g) = 0 ∧ s.v (sph g) = 0 := by
  have h := C144_import sph hv hsp heven hg vars hvars hlen tf ht
  rw [hsrc] at h
  obtain ⟨states, h1, h2, h3⟩ := h
  refine ⟨states, h1, h2, fun s hs => ?_⟩
  obtain ⟨k, hk, rfl⟩ := List.mem_iff_getElem.mp hs
  obtain ⟨idx, hi, rfl⟩ := cOrder_surj (leadShape lead) k (by omega)
  obtain ⟨t, htt⟩ := ht idx hi
  have h4 := h3 idx hi t htt
  rw [List.getElem?_eq_getElem hk, Option.some.injEq] at h4
  rw [h4]
  have hm := C144_motionless hS t
  have : src.state (sph g) t idx ∈ ([St.fromWind (sph g) t 0 0, St.fromVorticity (sph g) t 0, St.ofPv (sph g) t g.fcor2] : List (St PyTime g)) := by
    cases src with
    | wind u v =>
      have hr := hrest idx hi
      have e1 : (fun (j : Fin g.nlat) (i : Fin g.nlon) => u.at (idx ++ [(j : ℕ), (i : ℕ)])) = 0 := funext fun j => funext fun i => (hr j i).1
      have e2 : (fun (j : Fin g.nlat) (i : Fin g.nlon) => v.at (idx ++ [(j : ℕ), (i : ℕ)])) = 0 := funext fun j => funext fun i => (hr j i).2
      unfold Source.state
      dsimp only
      rw [e1, e2]
      exact List.mem_cons_self
    | vorticity vo =>
      have hr := hrest idx hi
      have e1 : (fun (j : Fin g.nlat) (i : Fin g.nlon) => vo.at (idx ++ [(j : ℕ), (i : ℕ)])) = 0 := funext fun j => funext fun i => hr j i
      unfold Source.state
      dsimp only
      rw [e1]
      exact List.mem_cons_of_mem _ List.mem_cons_self
    | pv avo =>
      have hr := hrest idx hi
      have e1 : (fun (j : Fin g.nlat) (i : Fin g.nlon) => avo.at (idx ++ [(j : ℕ), (i : ℕ)])) = g.fcor2 := funext fun j => funext fun i => hr j i
      unfold Source.state
      dsimp only
      rw [e1]
      exact List.mem_cons_of_mem _ (List.mem_cons_of_mem _ List.mem_cons_self)
  exact ⟨(hm _ this).2.2.1, (hm _ this).2.2.2.1⟩

/-- C144 (tests/test_io.py:148-150): latitude and longitude have to be the last two dimensions, in this order. -/
theorem C144_dims_order (sph : ∀ g : Grid ℝ, g.Sph) (hv : g.Valid) (hsp : g.resolution * g.nlon = 360) (heven : 2 ∣ g.nlon) (hg : GoodCoords lead scal)
    (vars : List (String × XVar ℝ)) (hvars : ∀ v ∈ vars, squeezeVar v.2 = v.2) (tf : PyTime) (src : Source)
    (hsrc : source ⟨gridCoords g lead scal, vars⟩ (fun _ => none) = .ok src) (h2 : 2 ≤ src.data.dims.length)
    (hd : src.data.dims.drop (src.data.dims.length - 2) ≠ ["latitude", "longitude"]) :
    fromDataset sph ⟨gridCoords g lead scal, vars⟩ (fun _ => none) g.rsphere g.omega (some g.ntrunc) tf = .error .assertionError := by
  have hsq := squeeze_same hv hg vars hvars
  obtain ⟨c1, c2, dlon, c3, c4, c5⟩ := coordinates_ok hv hsp heven hg vars
  unfold fromDataset
  dsimp only
  rw [hsq, c1]
  dsimp only
  rw [c3]
  dsimp only
  rw [c2]
  dsimp only
  rw [c4]
  dsimp only
  rw [c5]
  dsimp only
  rw [hsrc]
  dsimp only
  rw [if_neg (by omega), if_neg hd]

/-- C144 (tests/test_io.py:152-157): components of the wind with different dimensions -/
theorem C144_mismatch (sph : ∀ g : Grid ℝ, g.Sph) (hv : g.Valid) (hsp : g.resolution * g.nlon = 360) (heven : 2 ∣ g.nlon) (hg : GoodCoords lead scal)
    (vars : List (String × XVar ℝ)) (hvars : ∀ v ∈ vars, squeezeVar v.2 = v.2) (tf : PyTime) (u v : XVar ℝ)
    (hu : (⟨gridCoords g lead scal, vars⟩ : Dataset).var "u" = some u) (hv' : (⟨gridCoords g lead scal, vars⟩ : Dataset).var "v" = some v)
    (hd : u.dims ≠ v.dims) :
    fromDataset sph ⟨gridCoords g lead scal, vars⟩ (fun _ => none) g.rsphere g.omega (some g.ntrunc) tf = .error .assertionError := by
  have hsq := squeeze_same hv hg vars hvars
  obtain ⟨c1, c2, dlon, c3, c4, c5⟩ := coordinates_ok hv hsp heven hg vars
  have hsrc : source ⟨gridCoords g lead scal, vars⟩ (fun _ => none) = .error .assertionError := by
    rw [(C71_priority _ _).1 "u" "v" u v _ _ hu hv', if_neg hd]
    · simp [varMap, varNames, Dataset.contains, hu]
    · simp [varMap, varNames, Dataset.contains, hv']
  unfold fromDataset
  dsimp only
  rw [hsq, c1]
  dsimp only
  rw [c3]
  dsimp only
  rw [c2]
  dsimp only
  rw [c4]
  dsimp only
  rw [c5]
  dsimp only
  rw [hsrc]

/-- C144 (tests/test_io.py:159-161): datasets without longitude or latitude -/
theorem C144_no_coordinate (sph : ∀ g : Grid ℝ, g.Sph) (hv : g.Valid) (hsp : g.resolution * g.nlon = 360) (heven : 2 ∣ g.nlon) (hg : GoodCoords lead scal)
    (hn : ∀ n ∈ lead.map Prod.fst ++ scal.map Prod.fst, n ≠ "lon" ∧ n ≠ "lat")
    (vars : List (String × XVar ℝ)) (hvars : ∀ v ∈ vars, v.1 ∈ ["u", "v", "vo", "avo"]) (rs om : ℝ) (nt : Option ℕ) (tf : PyTime) (missing : String)
    (hm : missing = "longitude" ∨ missing = "latitude") :
    fromDataset sph ⟨(gridCoords g lead scal).filter (fun c => c.1 ≠ missing), vars⟩ (fun _ => none) rs om nt tf = .error .valueError := by
  obtain ⟨cs, hcs⟩ : ∃ cs, cs = (gridCoords g lead scal).filter (fun c => c.1 ≠ missing) := ⟨_, rfl⟩
  rw [← hcs]
  have hmem : ∀ c ∈ cs, c ∈ gridCoords g lead scal ∧ c.1 ≠ missing := by
    intro c hc
    rw [hcs, List.mem_filter] at hc
    exact ⟨hc.1, by simpa using hc.2⟩
  have hsq : squeeze ⟨cs, vars⟩ = ⟨cs, vars.map fun c => (c.1, squeezeVar c.2)⟩ := by
    unfold squeeze
    congr 1
    refine (List.map_congr_left fun c hc => ?_).trans (List.map_id _)
    rw [squeezeVar_coord hv hg c (hmem c hc).1]
    rfl
  obtain ⟨ds, hds⟩ : ∃ ds : Dataset, ds = ⟨cs, vars.map fun c => (c.1, squeezeVar c.2)⟩ := ⟨_, rfl⟩
  have hnames : ∀ c ∈ cs, c.1 ∈ lead.map Prod.fst ++ scal.map Prod.fst ++ ["latitude", "longitude"] := by
    intro c hc
    rw [← gridCoords_names (g := g)]
    exact List.mem_map.mpr ⟨c, (hmem c hc).1, rfl⟩
  have hno : ∀ n, n ∉ ["u", "v", "vo", "avo"] → (∀ c ∈ cs, c.1 ≠ n) → ds.contains n = false := by
    intro n h1 h2
    have a : ds.coord n = none := by
      rw [hds]
      unfold Dataset.coord
      rw [Option.map_eq_none_iff, List.find?_eq_none]
      intro x hx
      simpa using h2 x hx
    have b : ds.var n = none := by
      rw [hds]
      unfold Dataset.var
      rw [Option.map_eq_none_iff, List.find?_eq_none]
      intro x hx
      obtain ⟨y, hy, rfl⟩ := List.mem_map.mp hx
      simp only [decide_eq_true_eq]
      rintro rfl
      exact h1 (hvars y hy)
    unfold Dataset.contains
    rw [a, b]
    rfl
  have hshort : ∀ n, n = "lon" ∨ n = "lat" → ∀ c ∈ cs, c.1 ≠ n := by
    intro n h c hc e
    have := hnames c hc
    rw [e] at this
    rcases List.mem_append.mp this with h' | h'
    · have := hn n h'
      rcases h with rfl | rfl
      · exact this.1 rfl
      · exact this.2 rfl
    · rcases h with rfl | rfl <;> simp at h'
  have hmiss : ds.contains missing = false := hno missing (by rcases hm with rfl | rfl <;> decide) fun c hc => (hmem c hc).2
  obtain ⟨m1, -, m3⟩ := C71_missing sph ⟨cs, vars⟩ (fun _ => none) rs om nt tf
  rw [hsq, ← hds] at m1 m3
  have hl1 := hno "lon" (by decide) (hshort _ (.inl rfl))
  have hl2 := hno "lat" (by decide) (hshort _ (.inr rfl))
  rcases hm with rfl | rfl
  · refine m1 ?_
    simp [varMap, varNames, hmiss, hl1]
  · obtain ⟨-, -, dlon, c3, -, -⟩ := coordinates_ok hv hsp heven hg (vars.map fun c => (c.1, squeezeVar c.2))
    have hc : ds.coord "longitude" = some ⟨["longitude"], [g.nlon], (List.range g.nlon).map fun i => .num (g.lon i)⟩ := by
      rw [hds]
      refine find_unique _ ?_ _ _ ?_
      · have hnd : ((gridCoords g lead scal).map Prod.fst).Nodup := by rw [gridCoords_names]; exact hg.names
        rw [hcs]
        exact hnd.sublist (List.filter_sublist.map _)
      · rw [hcs, List.mem_filter]
        exact ⟨by simp [gridCoords], by simp⟩
    refine m3 "longitude" ((List.range g.nlon).map fun i => g.lon i) dlon ?_ c3 ?_
    · have : varMap ds (fun _ => none) "lon" = some "longitude" := by
        simp [varMap, varNames, Dataset.contains, hc]
      rw [this]
      unfold horizontalCoord
      dsimp only
      rw [hc]
      dsimp only
      rw [if_pos (by simp), show ((List.range g.nlon).map fun i => Label.num (g.lon i)) = ((List.range g.nlon).map fun i => g.lon i).map .num by
        rw [List.map_map]; rfl, numbers_map]
    · simp [varMap, varNames, hmiss, hl2]

/-- Non-vacuity of C144: times and levels of a dataset like that of the tests (three times, four levels), on any grid -/
example : GoodCoords [("time", [.dt64 0, .dt64 43200000000000, .dt64 86400000000000]), ("level", [.num 0, .num 1, .num 2, .num 3])] [] :=
  ⟨by decide, by decide, by simp, by simp⟩

/-- and the time at an index of the leading dimensions -/
example (fill : PyTime) : TimeAt [("time", [.dt64 0, .dt64 43200000000000, .dt64 86400000000000]), ("level", [.num 0, .num 1, .num 2, .num 3])] [] fill [1, 3]
    (.datetime 43200000000) :=
  .inl ⟨[], _, _, _, rfl, rfl, .datetime 43200000000⟩

/-- After a selection of one time and level, and without times -/
example (fill : PyTime) : GoodCoords [] [("time", .num 7), ("level", .num 0)] ∧ TimeAt [] [("time", .num 7), ("level", .num 0)] fill [] (.num 7) ∧
    GoodCoords [("foo", [.num 0, .num 1])] [] ∧ TimeAt [("foo", [.num 0, .num 1])] [] fill [1] fill :=
  ⟨⟨by decide, by decide, by simp, by simp⟩, .inr (.inl ⟨.num 7, by simp, .num 7⟩), ⟨by decide, by decide, by simp, by simp⟩, .inr (.inr ⟨by decide, rfl⟩)⟩

/-- Non-vacuity of C144: vorticity at rest at two times, imported without times -/
example (sph : ∀ g : Grid ℝ, g.Sph) (hS : Lawful (sph grid30)) (fill : PyTime) :
    ∃ states, fromDataset sph (gridDataset grid30 [("foo", [.num 0, .num 1])] [] [("vo", List.replicate (2 * (grid30.nlat * grid30.nlon)) 0)]) (fun _ => none)
      grid30.rsphere grid30.omega (some grid30.ntrunc) fill = .ok ⟨grid30, states⟩ ∧ states.length = 2 ∧
      ∀ s ∈ states, s.u (sph grid30) = 0 ∧ s.v (sph grid30) = 0 := by
  refine C144_import_rest sph hS grid30_valid grid30_spacing ⟨6, grid30_nlon⟩ ⟨by decide, by decide, by simp, by simp⟩ _ (by simp) (by simp [leadShape]) fill
    (fun idx _ => ⟨fill, .inr (.inr ⟨by decide, rfl⟩)⟩) (.vorticity (gridVar grid30 [("foo", [.num 0, .num 1])] (List.replicate (2 * (grid30.nlat * grid30.nlon)) 0)))
    rfl ?_
  intro idx _ j i
  unfold XVar.at gridVar
  dsimp only
  rw [List.getD_eq_getElem?_getD, List.getElem?_replicate]
  split <;> rfl

end Barotropic
