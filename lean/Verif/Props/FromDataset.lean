import Verif.Lemmas.Io
import Verif.Lemmas.Filter

/-!
# C71, C72 `from_dataset`: choice of variables, enumeration of fields
-/

namespace Barotropic
open Io

/-! ## C71 -/

/-- Explicit names win; otherwise the first name of the documented list that occurs in the dataset. -/
theorem C71_detection (ds : Dataset) (names : Names) (ref : String) (docs : List String) (hd : (ref, docs) ∈ documented) :
    (∀ r, names ref = some r → varMap ds names ref = r) ∧
    (names ref = none → ∀ n, varMap ds names ref = some n ↔
      ∃ pre post, docs = pre ++ n :: post ∧ ds.contains n = true ∧ ∀ x ∈ pre, ds.contains x = false) ∧
    (names ref = none → (varMap ds names ref = none ↔ ∀ x ∈ docs, ds.contains x = false)) := by
  have hdocs : varNames ref = docs := by
    simp only [documented, List.mem_cons, List.not_mem_nil, or_false, Prod.mk.injEq] at hd
    rcases hd with ⟨rfl, rfl⟩ | ⟨rfl, rfl⟩ | ⟨rfl, rfl⟩ | ⟨rfl, rfl⟩ | ⟨rfl, rfl⟩ | ⟨rfl, rfl⟩ | ⟨rfl, rfl⟩ <;> rfl
  refine ⟨fun r hr => by unfold varMap; rw [hr], fun hn n => ?_, fun hn => ?_⟩
  · unfold varMap
    rw [hn, hdocs]
    dsimp only
    rw [List.find?_eq_some_iff_append]
    constructor
    · rintro ⟨h, pre, post, e, hp⟩
      exact ⟨pre, post, e, h, fun x hx => by simpa using hp x hx⟩
    · rintro ⟨pre, post, e, h, hp⟩
      exact ⟨h, pre, post, e, fun x hx => by simpa using hp x hx⟩
  · unfold varMap
    rw [hn, hdocs]
    simp

/-- Wind is used if both components are detected, else vorticity, else absolute vorticity, else ValueError. -/
theorem C71_priority (ds : Dataset) (names : Names) :
    (∀ un vn u v, varMap ds names "u" = some un → varMap ds names "v" = some vn → ds.var un = some u → ds.var vn = some v →
      source ds names = if u.dims = v.dims then .ok (.wind u v) else .error .assertionError) ∧
    ((varMap ds names "u" = none ∨ varMap ds names "v" = none) → ∀ n vo, varMap ds names "vo" = some n → ds.var n = some vo →
      source ds names = .ok (.vorticity vo)) ∧
    ((varMap ds names "u" = none ∨ varMap ds names "v" = none) → varMap ds names "vo" = none →
      ∀ n avo, varMap ds names "avo" = some n → ds.var n = some avo → source ds names = .ok (.pv avo)) ∧
    ((varMap ds names "u" = none ∨ varMap ds names "v" = none) → varMap ds names "vo" = none → varMap ds names "avo" = none →
      source ds names = .error .valueError) := by
  refine ⟨fun un vn u v h1 h2 h3 h4 => ?_, fun h n vo h1 h2 => ?_, fun h h0 n avo h1 h2 => ?_, fun h h0 h1 => ?_⟩
  · unfold source
    rw [h1, h2]
    dsimp only
    rw [h3, h4]
  · unfold source
    rcases h with h | h
    · rw [h]
      dsimp only
      rw [h1]
      dsimp only
      rw [h2]
    · rw [h]
      cases varMap ds names "u" <;> (dsimp only; rw [h1]; dsimp only; rw [h2])
  · unfold source
    rcases h with h | h
    · rw [h]
      dsimp only
      rw [h0]
      dsimp only
      rw [h1]
      dsimp only
      rw [h2]
    · rw [h]
      cases varMap ds names "u" <;> (dsimp only; rw [h0]; dsimp only; rw [h1]; dsimp only; rw [h2])
  · unfold source
    rcases h with h | h
    · rw [h]
      dsimp only
      rw [h0]
      dsimp only
      rw [h1]
    · rw [h]
      cases varMap ds names "u" <;> (dsimp only; rw [h0]; dsimp only; rw [h1])

/-- A name that is not a variable of the dataset raises KeyError. -/
theorem C71_unknown_name (ds : Dataset) (names : Names) (un vn : String) (h1 : varMap ds names "u" = some un)
    (h2 : varMap ds names "v" = some vn) (h : ds.var un = none ∨ ds.var vn = none) : source ds names = .error .keyError := by
  unfold source
  rw [h1, h2]
  dsimp only
  rcases h with h | h
  · rw [h]
  · rw [h]
    cases ds.var un <;> rfl

/-- Missing coordinates, and (after the coordinates have been accepted) missing fields, raise ValueError. -/
theorem C71_missing (sph : ∀ g : Grid ℝ, g.Sph) (ds : Dataset) (names : Names) (rs om : ℝ) (nt : Option ℕ) (tf : PyTime) :
    (varMap (squeeze ds) names "lon" = none → fromDataset sph ds names rs om nt tf = .error .valueError) ∧
    (∀ lonName lon dlon latName lat g,
      horizontalCoord (squeeze ds) (varMap (squeeze ds) names "lon") = .ok (lonName, lon) → checkLon lon = .ok dlon →
      horizontalCoord (squeeze ds) (varMap (squeeze ds) names "lat") = .ok (latName, lat) → checkLat lon.length dlon lat = .ok () →
      Grid.make dlon rs om nt = .ok g → source (squeeze ds) names = .error .valueError →
      fromDataset sph ds names rs om nt tf = .error .valueError) ∧
    (∀ lonName lon dlon, horizontalCoord (squeeze ds) (varMap (squeeze ds) names "lon") = .ok (lonName, lon) →
      checkLon lon = .ok dlon → varMap (squeeze ds) names "lat" = none → fromDataset sph ds names rs om nt tf = .error .valueError) := by
  refine ⟨fun h => ?_, fun lonName lon dlon latName lat g h1 h2 h3 h4 h5 h6 => ?_, fun lonName lon dlon h1 h2 h3 => ?_⟩
  · unfold fromDataset
    dsimp only
    rw [h]
    rfl
  · unfold fromDataset
    dsimp only
    rw [h1]
    dsimp only
    rw [h2]
    dsimp only
    rw [h3]
    dsimp only
    rw [h4]
    dsimp only
    rw [h5]
    dsimp only
    rw [h6]
  · unfold fromDataset
    dsimp only
    rw [h1]
    dsimp only
    rw [h2]
    dsimp only
    rw [h3]
    rfl

/-- The parameter `override` of `_select_var` (not used by `from_dataset`) never works. -/
theorem C71_select_var_override (ds : Dataset) (l : List String) (o : String) : selectVar ds l (some o) = .error .nameError ∧
    selectVar ds l none = .ok (l.find? ds.contains) := ⟨rfl, rfl⟩

/-- Non-vacuity: `vo` is used although `pv` and one wind component are there as well. -/
example : let v : XVar ℝ := ⟨[], [], [1]⟩
    source ⟨[], [("u", v), ("pv", v), ("relv", ⟨[], [], [2]⟩)]⟩ (fun _ => none) = .ok (.vorticity ⟨[], [], [2]⟩) := by
  intro v
  apply (C71_priority _ _).2.1 (Or.inr (by decide)) "relv" _ (by decide)
  rfl

/-! ## C72 -/

theorem block_eq (g : Grid ℝ) (v : XVar ℝ) (lead idx : List ℕ) (hs : v.shape = lead ++ [g.nlat, g.nlon]) (hi : InShape lead idx) :
    block g v (ravel lead idx) = fun (j : Fin g.nlat) (i : Fin g.nlon) => v.at (idx ++ [(j : ℕ), (i : ℕ)]) := by
  funext j i
  unfold block XVar.at
  rw [hs, cOrder_append _ _ _ _ hi, ravel_eq_cOrder]
  simp [cOrder]

/-- One state for every index of the leading dimensions, in C order, constructed from the fields at this index (of both components
of the wind) and the time of this index. -/
theorem C72_fields (sph : ∀ g : Grid ℝ, g.Sph) (ds : Dataset) (hc : ds.Consistent) (names : Names) (rs om : ℝ) (nt : Option ℕ)
    (tf : PyTime) (g : Grid ℝ) (states : List (St PyTime g)) (h : fromDataset sph ds names rs om nt tf = .ok ⟨g, states⟩) :
    ∃ src, source (squeeze ds) names = .ok src ∧ ∃ lead a b, src.data.shape = lead ++ [a, b] ∧ states.length = lead.prod ∧
      ∀ idx, InShape lead idx → (a = g.nlat ∧ b = g.nlon) ∧ ∃ t, fieldTime (squeeze ds) names src.data idx tf = .ok t ∧
        states[cOrder lead idx]? = some (src.state (sph g) t idx) := by
  obtain ⟨lonName, lon, latName, lat, dlon, src, h1, h2, h3, h4, h5, h6, h7, h8, h9⟩ := fromDataset_ok h
  have hcs := hc.squeeze
  obtain ⟨⟨n, hn⟩, hw⟩ := source_mem h6
  have hlen : src.data.shape.length = src.data.dims.length := by
    obtain ⟨⟨size, -, hv⟩, -⟩ := hcs
    rw [(hv _ hn).1, List.length_map]
  have hll := labels_length hcs hn (src.data.dims.length - 2)
  generalize hL : (((src.data.dims.take (src.data.dims.length - 2)).zip src.data.shape).map fun p => dimLabels (squeeze ds) p.1 p.2) =
    labels at *
  rw [← hlen] at hll
  have hf := (mapM_forall₂ _ _ _).mp h9
  obtain ⟨a, b, hab⟩ : ∃ a b, src.data.shape.drop (src.data.shape.length - 2) = [a, b] := by
    have : (src.data.shape.drop (src.data.shape.length - 2)).length = 2 := by rw [List.length_drop]; omega
    exact List.length_eq_two.mp this
  refine ⟨src, h6, src.data.shape.take (src.data.shape.length - 2), a, b, ?_, ?_, fun idx hi => ?_⟩
  · rw [← hab, List.take_append_drop]
  · rw [← hf.length_eq, product_length, hll]
  · rw [← hll] at hi
    obtain ⟨sel, hsel⟩ := pick_some labels idx hi
    have hget := product_get labels idx sel hsel
    rw [hll] at hi hget
    have hk : cOrder (src.data.shape.take (src.data.shape.length - 2)) idx < states.length := by
      rw [← hf.length_eq, product_length, hll]; exact cOrder_lt hi
    have hbody := List.Forall₂.get hf (i := cOrder (src.data.shape.take (src.data.shape.length - 2)) idx)
      (by rw [hf.length_eq]; exact hk) hk
    rw [List.getElem?_eq_some_iff] at hget
    obtain ⟨hk', hget⟩ := hget
    have hbody' : loopBody (sph g) (squeeze ds) names src labels tf sel =
        .ok states[cOrder (src.data.shape.take (src.data.shape.length - 2)) idx] := by
      rw [← hget]; exact hbody
    rw [List.getElem?_eq_getElem hk]
    generalize states[cOrder (src.data.shape.take (src.data.shape.length - 2)) idx] = st at *
    unfold loopBody at hbody'
    cases hp : positions labels sel with
    | error e => rw [hp] at hbody'; cases hbody'
    | ok idx' =>
      have := positions_unique labels idx idx' sel hsel hp
      subst this
      rw [hp] at hbody'
      dsimp only at hbody'
      cases ht : fieldTime (squeeze ds) names src.data idx' tf with
      | error e => rw [ht] at hbody'; cases hbody'
      | ok t =>
        rw [ht] at hbody'
        dsimp only at hbody'
        unfold asState at hbody'
        dsimp only at hbody'
        split_ifs at hbody' with hsh
        have hab' : a = g.nlat ∧ b = g.nlon := by
          rw [hab] at hsh
          simpa using hsh
        refine ⟨hab', t, rfl, ?_⟩
        have hshape : src.data.shape = src.data.shape.take (src.data.shape.length - 2) ++ [g.nlat, g.nlon] := by
          rw [← hsh, List.take_append_drop]
        have hu := block_eq g src.data _ idx' hshape hi
        cases src with
        | wind u v =>
          obtain ⟨hdims, m, hm⟩ := hw u v rfl
          have hvs : v.shape = u.shape := by
            obtain ⟨⟨size, -, hv⟩, -⟩ := hcs
            have e1 : v.shape = v.dims.map size := (hv _ hm).1
            have e2 : u.shape = u.dims.map size := (hv _ hn).1
            rw [e1, e2, hdims]
          have hv := block_eq g v _ idx' (hvs.trans hshape) hi
          dsimp only [Source.data] at *
          rw [hu, hv] at hbody'
          cases hbody'
          rfl
        | vorticity vo =>
          dsimp only [Source.data] at *
          rw [hu] at hbody'
          cases hbody'
          rfl
        | pv avo =>
          dsimp only [Source.data] at *
          rw [hu] at hbody'
          cases hbody'
          rfl

/-- C order numbers the valid indices without gaps and repetitions. -/
theorem C72_order (s : List ℕ) : (∀ idx, InShape s idx → cOrder s idx < s.prod) ∧
    (∀ k < s.prod, ∃! idx, InShape s idx ∧ cOrder s idx = k) ∧
    (∀ n idx i i', InShape (n :: s) (i :: idx) → InShape (n :: s) (i' :: idx) → i < i' →
      cOrder (n :: s) (i :: idx) < cOrder (n :: s) (i' :: idx)) := by
  refine ⟨fun idx h => cOrder_lt h, fun k hk => ?_, fun n idx i i' h h' hi => ?_⟩
  · obtain ⟨idx, h1, h2⟩ := cOrder_surj s k hk
    exact ⟨idx, ⟨h1, h2⟩, fun y hy => cOrder_inj hy.1 h1 (hy.2.trans h2.symm)⟩
  · simp only [cOrder]
    have : InShape s idx := by cases h with | cons _ h => exact h
    have hlt := cOrder_lt this
    have h2 : i * s.prod < i' * s.prod := Nat.mul_lt_mul_of_pos_right hi (by omega)
    omega

/-- The time of a state: from a one-dimensional coordinate along one of the leading dimensions or a scalar coordinate, else
`time_fill`. -/
theorem C72_time (ds : Dataset) (names : Names) (data : XVar ℝ) (idx : List ℕ) (tf : PyTime) :
    (∀ n c pre d post dlat dlon k, varMap ds names "time" = some n → ds.coord n = some c → data.dims = pre ++ d :: post ++ [dlat, dlon] →
      d ∉ pre → c.dims = [d] → c.shape = [k] → idx.getD pre.length 0 < c.data.length → ∀ l, c.data[idx.getD pre.length 0]? = some l →
      fieldTime ds names data idx tf = labelTime l) ∧
    (∀ n c l, varMap ds names "time" = some n → ds.coord n = some c → c.dims = [] → c.data = [l] →
      fieldTime ds names data idx tf = labelTime l) ∧
    (varMap ds names "time" = none → fieldTime ds names data idx tf = .ok tf) ∧
    (∀ n, varMap ds names "time" = some n → ds.coord n = none → fieldTime ds names data idx tf = .ok tf) ∧
    (∀ n c, varMap ds names "time" = some n → ds.coord n = some c → (∃ d ∈ c.dims, d ∉ data.dims) →
      fieldTime ds names data idx tf = .ok tf) := by
  refine ⟨fun n c pre d post dlat dlon k h1 h2 h3 h4 h5 h6 h7 l h8 => ?_, fun n c l h1 h2 h3 h4 => ?_, fun h => ?_, fun n h1 h2 => ?_,
    fun n c h1 h2 h3 => ?_⟩
  · unfold fieldTime
    have hlead : data.dims.take (data.dims.length - 2) = pre ++ d :: post := by
      rw [h3, List.length_append]
      exact List.take_left' (by simp)
    have hidx : (pre ++ d :: post).idxOf d = pre.length := by
      rw [List.idxOf_append_of_notMem h4]
      simp
    dsimp only
    rw [h1, hlead, Option.bind_some, h2]
    dsimp only
    rw [if_pos (by rw [h5, h3]; simp), if_pos (by rw [h5]; simp), h5, h6]
    simp only [List.map_cons, List.map_nil, hidx, ravel, List.prod_nil, mul_one, add_zero]
    rw [h8]
  · unfold fieldTime
    dsimp only
    rw [h1, Option.bind_some, h2]
    dsimp only
    rw [if_pos (by rw [h3]; simp), if_pos (by rw [h3]; simp), h3, h4]
    cases c.shape <;> simp [ravel]
  · unfold fieldTime
    dsimp only
    rw [h]
    rfl
  · unfold fieldTime
    dsimp only
    rw [h1, Option.bind_some, h2]
  · unfold fieldTime
    dsimp only
    rw [h1, Option.bind_some, h2]
    dsimp only
    obtain ⟨d, hd, hd'⟩ := h3
    rw [if_neg fun h => hd' (h d hd)]

theorem pyRound_int (n : ℤ) : pyRound (n : ℝ) = n := by
  have h := (pyRound_spec (n : ℝ)).1
  have h2 : |((n - pyRound (n : ℝ) : ℤ) : ℝ)| < 1 := by push_cast; linarith
  rw [← Int.cast_abs] at h2
  have h3 : |n - pyRound (n : ℝ)| < 1 := by exact_mod_cast h2
  have h4 := Int.abs_lt_one_iff.mp h3
  omega

/-- Coordinate values become times unchanged, datetimes up to 0.5 microseconds (exactly for multiples of a microsecond). -/
theorem C72_label_time : (∀ x, labelTime (.num x) = .ok (.num x)) ∧
    (∀ ns, ∃ us : ℤ, labelTime (.dt64 ns) = .ok (.datetime us) ∧ |(us : ℝ) - ns / 1000| ≤ 1 / 2) ∧
    (∀ us : ℤ, labelTime (.dt64 (1000 * us)) = .ok (.datetime us)) ∧ ∀ t, labelTime (timeLabel t) = .ok t := by
  have h3 : ∀ us : ℤ, labelTime (.dt64 (1000 * us)) = .ok (.datetime us) := by
    intro us
    have : ((1000 * us : ℤ) / 1000 : ℝ) = (us : ℝ) := by push_cast; field_simp
    unfold labelTime
    dsimp only
    rw [this, pyRound_int]
  refine ⟨fun x => rfl, fun ns => ⟨_, rfl, ?_⟩, h3, fun t => ?_⟩
  · rw [abs_sub_comm]; exact (pyRound_spec _).1
  · cases t with
    | num x => rfl
    | datetime us => exact h3 us

/-- A dataset with accepted coordinates whose field has the shape of the grid and unique labels along the leading dimensions is
converted without an exception. -/
theorem C72_success (sph : ∀ g : Grid ℝ, g.Sph) (ds : Dataset) (hc : ds.Consistent) (names : Names) (rs om : ℝ) (nt : Option ℕ)
    (tf : PyTime) (g : Grid ℝ) (lonName latName : String) (lon lat : List ℝ) (dlon : ℝ) (src : Source) (lead : List String)
    (h1 : horizontalCoord (squeeze ds) (varMap (squeeze ds) names "lon") = .ok (lonName, lon)) (h2 : checkLon lon = .ok dlon)
    (h3 : horizontalCoord (squeeze ds) (varMap (squeeze ds) names "lat") = .ok (latName, lat))
    (h4 : checkLat lon.length dlon lat = .ok ()) (h5 : Grid.make dlon rs om nt = .ok g)
    (h6 : source (squeeze ds) names = .ok src) (h7 : src.data.dims = lead ++ [latName, lonName])
    (h8 : src.data.shape.drop lead.length = [g.nlat, g.nlon])
    (h9 : ∀ d ∈ lead, ∃ c, (squeeze ds).coord d = some c ∧ c.data.Nodup)
    (h10 : ∀ idx, InShape (src.data.shape.take lead.length) idx → ∃ t, fieldTime (squeeze ds) names src.data idx tf = .ok t) :
    ∃ states, fromDataset sph ds names rs om nt tf = .ok ⟨g, states⟩ := by
  have hcs := hc.squeeze
  obtain ⟨⟨n, hn⟩, hw⟩ := source_mem h6
  have hlen : src.data.shape.length = src.data.dims.length := by
    obtain ⟨⟨size, -, hv⟩, -⟩ := hcs
    rw [(hv _ hn).1, List.length_map]
  have hdl : src.data.dims.length = lead.length + 2 := by rw [h7]; simp
  have hl2 : src.data.dims.length - 2 = lead.length := by omega
  have htake : src.data.dims.take (src.data.dims.length - 2) = lead := by rw [hl2, h7]; simp
  have hdrop : src.data.dims.drop (src.data.dims.length - 2) = [latName, lonName] := by rw [hl2, h7]; simp
  have hll := labels_length hcs hn lead.length
  unfold fromDataset
  dsimp only
  rw [h1]
  dsimp only
  rw [h2]
  dsimp only
  rw [h3]
  dsimp only
  rw [h4]
  dsimp only
  rw [h5]
  dsimp only
  rw [h6]
  dsimp only
  rw [if_neg (by omega), if_pos hdrop, htake]
  rw [show src.data.dims.take lead.length = lead by rw [h7]; simp] at hll
  have hnd : ∀ ls ∈ ((lead.zip src.data.shape).map fun p => dimLabels (squeeze ds) p.1 p.2), ls.Nodup := by
    intro ls hls
    obtain ⟨p, hp, rfl⟩ := List.mem_map.mp hls
    obtain ⟨c, hc1, hc2⟩ := h9 p.1 (List.of_mem_zip hp).1
    unfold dimLabels
    rw [hc1]
    exact hc2
  have hmc : missingCoord (squeeze ds) src lead = false := by
    unfold missingCoord
    split
    · rw [List.any_eq_false]
      intro d hd
      obtain ⟨c, hc1, -⟩ := h9 d hd
      rw [hc1]; simp
    · rfl
  rw [hmc, if_neg (by simp)]
  generalize ((lead.zip src.data.shape).map fun p => dimLabels (squeeze ds) p.1 p.2) = labels at *
  obtain ⟨states, hst⟩ : ∃ states, (product labels).mapM (loopBody (sph g) (squeeze ds) names src labels tf) = .ok states := by
    have : ∀ sel ∈ product labels, ∃ st, loopBody (sph g) (squeeze ds) names src labels tf sel = .ok st := by
      intro sel hsel
      obtain ⟨k, hk, hk2⟩ := List.mem_iff_getElem.mp hsel
      rw [product_length, hll] at hk
      obtain ⟨idx, hi1, hi2⟩ := cOrder_surj _ k hk
      obtain ⟨sel', hsel'⟩ := pick_some labels idx (by rw [hll]; exact hi1)
      have hg := product_get labels idx sel' hsel'
      rw [hll, hi2, List.getElem?_eq_some_iff] at hg
      obtain ⟨hkk, hg⟩ := hg
      obtain rfl : sel = sel' := by rw [← hk2, ← hg]
      have hp := positions_of_nodup labels hnd idx sel hsel'
      obtain ⟨t, ht⟩ := h10 idx hi1
      unfold loopBody
      rw [hp]
      dsimp only
      rw [ht]
      dsimp only
      unfold asState
      dsimp only
      rw [show src.data.shape.length - 2 = lead.length by omega, if_pos h8]
      cases src <;> exact ⟨_, rfl⟩
    have h2 : ∃ r, List.Forall₂ (fun a b => loopBody (sph g) (squeeze ds) names src labels tf a = .ok b) (product labels) r := by
      generalize product labels = l at this
      induction l with
      | nil => exact ⟨[], .nil⟩
      | cons a l ih =>
        obtain ⟨b, hb⟩ := this a List.mem_cons_self
        obtain ⟨r, hr⟩ := ih fun s hs => this s (List.mem_cons_of_mem _ hs)
        exact ⟨b :: r, .cons hb hr⟩
    obtain ⟨r, hr⟩ := h2
    exact ⟨r, (mapM_forall₂ _ _ _).mpr hr⟩
  rw [hst]
  exact ⟨states, rfl⟩

/-- Labels that occur more than once (e.g. two ensemble members with the same number, repeated times) are not supported: if a
nonempty list is returned, the labels along every leading dimension are different. -/
theorem C72_duplicates_refuted (sph : ∀ g : Grid ℝ, g.Sph) (ds : Dataset) (hc : ds.Consistent) (names : Names) (rs om : ℝ)
    (nt : Option ℕ) (tf : PyTime) (g : Grid ℝ) (states : List (St PyTime g))
    (h : fromDataset sph ds names rs om nt tf = .ok ⟨g, states⟩) (hne : states ≠ []) (src : Source)
    (hs : source (squeeze ds) names = .ok src) (d : String) (c : XVar Label)
    (hd : d ∈ src.data.dims.take (src.data.dims.length - 2)) (hcd : (squeeze ds).coord d = some c) : c.data.Nodup := by
  obtain ⟨lonName, lon, latName, lat, dlon, src', h1, h2, h3, h4, h5, h6, h7, h8, h9⟩ := fromDataset_ok h
  rw [hs] at h6
  cases h6
  have hcs := hc.squeeze
  obtain ⟨⟨n, hn⟩, hw⟩ := source_mem hs
  have hlen : src.data.shape.length = src.data.dims.length := by
    obtain ⟨⟨size, -, hv⟩, -⟩ := hcs
    rw [(hv _ hn).1, List.length_map]
  obtain ⟨k, hk, hkd⟩ := List.mem_iff_getElem.mp hd
  have hk2 : k < src.data.shape.length := by rw [List.length_take] at hk; omega
  have hmem : dimLabels (squeeze ds) d src.data.shape[k] ∈
      (((src.data.dims.take (src.data.dims.length - 2)).zip src.data.shape).map fun p => dimLabels (squeeze ds) p.1 p.2) := by
    apply List.mem_map.mpr
    refine ⟨(d, src.data.shape[k]), ?_, rfl⟩
    rw [List.mem_iff_getElem]
    refine ⟨k, by rw [List.length_zip]; omega, ?_⟩
    rw [List.getElem_zip, hkd]
  have hdim : dimLabels (squeeze ds) d src.data.shape[k] = c.data := by unfold dimLabels; rw [hcd]
  rw [hdim] at hmem
  generalize (((src.data.dims.take (src.data.dims.length - 2)).zip src.data.shape).map fun p => dimLabels (squeeze ds) p.1 p.2) = labels at *
  have hf := (mapM_forall₂ _ _ _).mp h9
  have hpos : ∀ sel ∈ product labels, ∃ ks, positions labels sel = .ok ks := by
    intro sel hsel
    obtain ⟨st, hst⟩ := forall₂_exists_left hf hsel
    unfold loopBody at hst
    cases hp : positions labels sel with
    | error e => rw [hp] at hst; cases hst
    | ok ks => exact ⟨ks, rfl⟩
  have hnp : product labels ≠ [] := by
    intro hp
    rw [hp] at hf
    cases hf
    exact hne rfl
  exact nodup_of_positions labels hpos hnp _ hmem

/-- The error is ValueError: if one of the selected labels occurs more than once along its dimension, the iteration of the loop
fails with it. -/
theorem C72_duplicate_error {g : Grid ℝ} (S : g.Sph) (ds : Dataset) (names : Names) (src : Source) (labels : List (List Label))
    (tf : PyTime) (sel : List Label) (hs : sel ∈ product labels) (ls : List Label) (l : Label) (hl : (ls, l) ∈ labels.zip sel)
    (hd : ∃ i j : ℕ, i ≠ j ∧ ls[i]? = some l ∧ ls[j]? = some l) : loopBody S ds names src labels tf sel = .error .valueError := by
  classical
  have hp : positions labels sel = .error .valueError := by
    induction labels generalizing sel with
    | nil => simp at hl
    | cons l0 labels ih =>
      simp only [product, List.mem_flatMap, List.mem_map] at hs
      obtain ⟨x, hx, sel', hsel, rfl⟩ := hs
      rw [List.zip_cons_cons, List.mem_cons] at hl
      unfold positions position
      rw [if_pos hx]
      by_cases hc : l0.count x = 1
      · rw [if_pos hc]
        rcases hl with hl | hl
        · obtain ⟨rfl, rfl⟩ := Prod.mk.inj hl
          obtain ⟨i, j, hij, hi, hj⟩ := hd
          have h2 : ls.Duplicate l := by
            obtain ⟨hi1, hi2⟩ := List.getElem?_eq_some_iff.mp hi
            obtain ⟨hj1, hj2⟩ := List.getElem?_eq_some_iff.mp hj
            rw [List.duplicate_iff_exists_distinct_get]
            rcases Nat.lt_or_gt_of_ne hij with h | h
            · exact ⟨⟨i, hi1⟩, ⟨j, hj1⟩, h, by simpa using hi2.symm, by simpa using hj2.symm⟩
            · exact ⟨⟨j, hj1⟩, ⟨i, hi1⟩, h, by simpa using hj2.symm, by simpa using hi2.symm⟩
          have h3 := List.duplicate_iff_two_le_count.mp h2
          omega
        · dsimp only
          rw [ih sel' hsel hl]
      · rw [if_neg hc]
  unfold loopBody
  rw [hp]

/-- Fields that do not have the shape of the grid raise ValueError, all others result in a state at the given time. -/
theorem C72_shape_error {g : Grid ℝ} (S : g.Sph) (src : Source) (idx : List ℕ) (t : PyTime) (lead : List ℕ) (a b : ℕ)
    (hs : src.data.shape = lead ++ [a, b]) :
    (¬ (a = g.nlat ∧ b = g.nlon) → asState S src idx t = .error .valueError) ∧
    (a = g.nlat → b = g.nlon → ∃ s : St PyTime g, asState S src idx t = .ok s ∧ s.time = t) := by
  have h1 : src.data.shape.drop (src.data.shape.length - 2) = [a, b] := by rw [hs]; simp
  unfold asState
  rw [h1]
  constructor
  · intro h
    rw [if_neg (by simpa using h)]
  · rintro rfl rfl
    rw [if_pos rfl]
    cases src <;> exact ⟨_, rfl, rfl⟩

end Barotropic
