import Verif.Model.StateList
import Verif.Model.Filter

/-!
# Export and import of xarray datasets  (io.py)

Datasets are modelled by their named, labelled variables. What xarray does is modelled as far as io.py uses it: selection by
label, removal of dimensions of size 1, the consistency checks of the `Dataset` constructor.
-/

namespace Barotropic

/-- Values of coordinates: numbers, datetimes (`datetime64[ns]`) or other objects -/
inductive Label
  | num (x : ℝ)
  | dt64 (ns : ℤ)
  | obj (tag : ℕ)

/-- A variable of a dataset: names of dimensions, shape, values in C order -/
structure XVar (α : Type) where
  dims : List String
  shape : List ℕ
  data : List α

/-- `xarray.Dataset`. Variables and coordinates have different names. -/
structure Dataset where
  coords : List (String × XVar Label)
  vars : List (String × XVar ℝ)

namespace Dataset

/-- `ds.coords[name]`, `none` if missing -/
def coord (ds : Dataset) (name : String) : Option (XVar Label) := (ds.coords.find? (·.1 = name)).map Prod.snd

/-- `ds[name]` for data variables, `none` if missing -/
def var (ds : Dataset) (name : String) : Option (XVar ℝ) := (ds.vars.find? (·.1 = name)).map Prod.snd

/-- `name in ds` -/
def contains (ds : Dataset) (name : String) : Bool := (ds.coord name).isSome || (ds.var name).isSome

end Dataset

namespace Io
variable {H : GridHeap}

/-! ## as_dataset (io.py:11-123) -/

/-- The first argument: a list, tuple or StateList (`False` if empty), an iterator, or a State -/
inductive StatesArg (H : GridHeap)
  | sized (xs : List (PyObj PyTime H))
  | iterator (xs : List (PyObj PyTime H))
  | single (s : AnySt PyTime H)

/-- A field to extract: name of an attribute or a function -/
inductive Getter (H : GridHeap)
  | attr (name : String)
  | callable (f : AnySt PyTime H → Except PyErr (PyObj PyTime H))

/-- The argument `fields` -/
inductive FieldsArg (H : GridHeap)
  | name (s : String)
  | names (l : List String)
  | mapping (l : List (String × Getter H))

/-- `fields` as mapping (io.py:95-99), repeated names occur once. -/
def FieldsArg.items : FieldsArg H → List (String × Getter H)
  | name s => [(s, .attr s)]
  | names l => l.dedup.map fun s => (s, .attr s)
  | mapping l => l

/-- Time of a state as xarray coordinate value -/
def timeLabel : PyTime → Label
  | .num x => .num x
  | .datetime us => .dt64 (1000 * us)

/-- Object in a container as coordinate value -/
def objLabel : PyObj PyTime H → Label
  | .number x => .num x
  | .other t => .obj t
  | _ => .obj 0

/-- The additional coordinate (io.py:88-94); `none` if xarray cannot convert it to a coordinate, which becomes apparent only when the
dataset is assembled. -/
noncomputable def concatCoord {α : Type} (C : SList.StateCls PyTime H α) (l : SList PyTime H) (concatDim : String) :
    Except PyErr (Option (XVar Label)) :=
  match l.getattr C concatDim with
  | .error .attributeError =>
    .ok (some ⟨[concatDim], [l.states.length], (List.range l.states.length).map fun k : ℕ => .num (k : ℝ)⟩)
  | .error e => .error e
  | .ok (.bound _) => .ok none
  | .ok (.value (.ndarray ⟨[n], d⟩)) => .ok (some ⟨[concatDim], [n], d.map .num⟩)
  | .ok (.value (.ndarray _)) => .ok none
  | .ok (.value (.list xs)) => .ok (some ⟨[concatDim], [xs.length], xs.map objLabel⟩)
  | .ok (.value (.stateList xs)) => .ok (some ⟨[concatDim], [xs.states.length], xs.states.map fun _ => .obj 0⟩)

/-- Values of a field (io.py:104); a method of State that is not called has no attribute `ndim`, neither do lists. -/
noncomputable def fieldValues {α : Type} (C : SList.StateCls PyTime H α) (l : SList PyTime H) :
    Getter H → Except PyErr NdArr
  | .callable f =>
    match l.map f with
    | .error e => .error e
    | .ok (.ndarray a) => .ok a
    | .ok _ => .error .attributeError
  | .attr name =>
    match l.getattr C name with
    | .error e => .error e
    | .ok (.value (.ndarray a)) => .ok a
    | .ok _ => .error .attributeError

/-- Names of dimensions (io.py:105-118) -/
noncomputable def fieldDims (g : Grid ℝ) (concatDim : String) (shape : List ℕ) : Except PyErr (List String) :=
  if shape.length = 3 then .ok [concatDim, "latitude", "longitude"]
  else if shape.length = 2 ∧ shape.getD 1 0 = g.nlat then .ok [concatDim, "latitude"]
  else if shape.length = 2 ∧ shape.getD 1 0 = g.nlon then .ok [concatDim, "longitude"]
  else if shape.length = 1 then .ok [concatDim]
  else .error .notImplementedError

/-- A data variable (io.py:102-119) -/
noncomputable def fieldVar {α : Type} (C : SList.StateCls PyTime H α) (l : SList PyTime H) (g : Grid ℝ) (concatDim : String)
    (getter : Getter H) : Except PyErr (XVar ℝ) :=
  match fieldValues C l getter with
  | .error e => .error e
  | .ok a =>
    match fieldDims g concatDim a.shape with
    | .error e => .error e
    | .ok dims => .ok ⟨dims, a.shape, a.data⟩

/-- Loop over the fields (io.py:101-119) -/
noncomputable def fieldVars {α : Type} (C : SList.StateCls PyTime H α) (l : SList PyTime H) (g : Grid ℝ) (concatDim : String) :
    List (String × Getter H) → Except PyErr (List (String × XVar ℝ))
  | [] => .ok []
  | (name, getter) :: rest =>
    match fieldVar C l g concatDim getter with
    | .error e => .error e
    | .ok v =>
      match fieldVars C l g concatDim rest with
      | .error e => .error e
      | .ok vs => .ok ((name, v) :: vs)

/-- `xr.Dataset(data_vars, coords)`: ValueError if a name is used for a variable and a coordinate or a dimension has several
sizes. `coords` is nonempty. -/
def mkDataset (vars : List (String × XVar ℝ)) (coords : List (String × XVar Label)) : Except PyErr Dataset :=
  let sizes := (coords.map fun c => c.2.dims.zip c.2.shape).flatten ++ (vars.map fun c => c.2.dims.zip c.2.shape).flatten
  if (∃ v ∈ vars, ∃ c ∈ coords, v.1 = c.1) ∨ ∃ a ∈ sizes, ∃ b ∈ sizes, a.1 = b.1 ∧ a.2 ≠ b.2 then .error .valueError
  else .ok ⟨coords, vars⟩

/-- `coords[name] = value` for the entries of `extra` (io.py:94): an entry of the same name is replaced, in particular latitudes or
longitudes if `concat_dim` is "latitude" or "longitude". -/
def updateCoords (coords extra : List (String × XVar Label)) : List (String × XVar Label) :=
  coords.map (fun c => (extra.find? (·.1 = c.1)).getD c) ++ extra.filter (fun e => e.1 ∉ coords.map Prod.fst)

/-- Nonempty collections (io.py:72-123). Repeated names of dimensions (`concat_dim` "latitude" or "longitude" with fields that also
have this dimension) pass if the sizes agree, xarray warns about them. -/
noncomputable def exportList {α : Type} (C : SList.StateCls PyTime H α) (xs : List (PyObj PyTime H)) (fields : FieldsArg H)
    (concatDim : String) : Except PyErr Dataset :=
  match SList.make xs with
  | .error e => .error e
  | .ok l =>
    match l.grid with
    | none => .error .attributeError
    | some i =>
      let g := H.grid i
      let coords := [("latitude", ⟨["latitude"], [g.nlat], (List.range g.nlat).map fun j => .num (g.lat j)⟩),
        ("longitude", ⟨["longitude"], [g.nlon], (List.range g.nlon).map fun i => .num (g.lon i)⟩),
        ("time", ⟨["time"], [l.states.length], l.states.map fun s => timeLabel s.2.time⟩)]
      match (if concatDim = "time" then .ok (some []) else
        match concatCoord C l concatDim with
        | .error e => .error e
        | .ok c => .ok (c.map fun c => [(concatDim, c)]) : Except PyErr (Option (List (String × XVar Label)))) with
      | .error e => .error e
      | .ok extra =>
        match fieldVars C l g concatDim fields.items with
        | .error e => .error e
        | .ok vars =>
          match extra with
          | none => .error .valueError
          | some extra => mkDataset vars (updateCoords coords extra)

/-- `as_dataset` (io.py:11-123) -/
noncomputable def asDataset {α : Type} (C : SList.StateCls PyTime H α) (states : StatesArg H) (fields : FieldsArg H)
    (concatDim : String) : Except PyErr Dataset :=
  match states with
  | .sized [] => .ok ⟨[], []⟩
  | .sized xs => exportList C xs fields concatDim
  | .iterator xs => exportList C xs fields concatDim
  | .single s => exportList C [.state s] fields concatDim

/-! ## from_dataset (io.py:126-347) -/

/-- `_VAR_NAMES` (io.py:126-135) -/
def varNames : String → List String
  | "lon" => ["longitude", "lon"]
  | "lat" => ["latitude", "lat"]
  | "time" => ["time"]
  | "u" => ["u", "ugrd", "eastward_wind"]
  | "v" => ["v", "vgrd", "northward_wind"]
  | "vo" => ["vo", "relv", "vorticity", "relative_vorticity"]
  | "avo" => ["avo", "absv", "absolute_vorticity", "pv"]
  | _ => []

/-- `_select_var(ds, names, override)` (io.py:137-143): `name` is not defined if there is an override. -/
def selectVar (ds : Dataset) (names : List String) (override : Option String) : Except PyErr (Option String) :=
  match override with
  | some _ => .error .nameError
  | none => .ok (names.find? ds.contains)

/-- The argument `names`: the value for a reference name, which can be missing (`none`) or `None` (`some none`). -/
abbrev Names := String → Option (Option String)

/-- `var_map[ref]` (io.py:254-259) -/
def varMap (ds : Dataset) (names : Names) (ref : String) : Option String :=
  match names ref with
  | some r => r
  | none => (varNames ref).find? ds.contains

/-- `squeeze` of one variable: dimensions of size 1 are removed. -/
def squeezeVar {α : Type} (v : XVar α) : XVar α :=
  let keep := (v.dims.zip v.shape).filter fun p => p.2 ≠ 1
  ⟨keep.map Prod.fst, keep.map Prod.snd, v.data⟩

/-- `ds.squeeze()` (io.py:251) -/
def squeeze (ds : Dataset) : Dataset :=
  ⟨ds.coords.map fun c => (c.1, squeezeVar c.2), ds.vars.map fun c => (c.1, squeezeVar c.2)⟩

/-- Values of a coordinate as numbers, `none` if there is another one. -/
def numbers : List Label → Option (List ℝ)
  | [] => some []
  | .num x :: l => (numbers l).map (x :: ·)
  | _ :: _ => none

end Io

section Coordinates
variable {K : Type*} [Field K] [LinearOrder K] [IsStrictOrderedRing K] [FloorRing K]

namespace Io

/-- `np.diff` -/
def diff (l : List K) : List K := List.zipWith (fun a b => b - a) l l.tail

/-- Checks of longitude, returns `dlon` (io.py:265-271). -/
def checkLon (lon : List K) : Except PyErr K :=
  match lon with
  | [] => .error .assertionError
  | [_] => .error .indexError
  | a :: b :: rest =>
    let dlon := b - a
    if (∀ d ∈ diff lon, isclose dlon d) ∧ 0 < dlon ∧ isclose ((b :: rest).getLast (by simp) - a) (360 - dlon) then .ok dlon
    else .error .assertionError

/-- Checks of latitude (io.py:277-284). For a single latitude `dlats[0]` does not exist. -/
def checkLat (nlon : ℕ) (dlon : K) (lat : List K) : Except PyErr Unit :=
  match lat with
  | [] => .error .assertionError
  | [_] => if 0 = nlon / 2 then .error .indexError else .error .assertionError
  | a :: b :: _ =>
    let dlat := b - a
    if lat.length - 1 = nlon / 2 ∧ (∀ d ∈ diff lat, isclose dlat d) ∧ dlat < 0 ∧ isclose dlat (-dlon) then .ok ()
    else .error .assertionError

/-- Verification of the coordinates and construction of the grid (io.py:261-288), for one-dimensional coordinates -/
def gridFromCoords (lon lat : List K) (rsphere omega : K) (ntrunc : Option ℕ) : Except PyErr (Grid K) :=
  match checkLon lon with
  | .error e => .error e
  | .ok dlon =>
    match checkLat lon.length dlon lat with
    | .error e => .error e
    | .ok () => Grid.make dlon rsphere omega ntrunc

end Io
end Coordinates

namespace Io

/-- A coordinate used for longitude or latitude: name, number of dimensions and values (io.py:262-264, 274-276). The values of
a coordinate that contains datetimes or objects are not compared with numbers (TypeError). -/
noncomputable def horizontalCoord (ds : Dataset) (name : Option String) : Except PyErr (String × List ℝ) :=
  match name with
  | none => .error .valueError
  | some n =>
    match ds.coord n with
    | none => .error .keyError
    | some c =>
      if c.dims.length = 1 then
        match numbers c.data with
        | none => .error .typeError
        | some l => .ok (n, l)
      else .error .assertionError

/-- The fields that states are constructed from (io.py:290-315) -/
inductive Source
  | wind (u v : XVar ℝ)
  | vorticity (vo : XVar ℝ)
  | pv (avo : XVar ℝ)

/-- The data array that determines dimensions (io.py:295, 305, 309) -/
def Source.data : Source → XVar ℝ
  | wind u _ => u
  | vorticity vo => vo
  | pv avo => avo

/-- Choice of the fields (io.py:290-315) -/
def source (ds : Dataset) (names : Names) : Except PyErr Source :=
  match varMap ds names "u", varMap ds names "v" with
  | some u, some v =>
    match ds.var u, ds.var v with
    | some u, some v => if u.dims = v.dims then .ok (.wind u v) else .error .assertionError
    | _, _ => .error .keyError
  | _, _ =>
    match varMap ds names "vo" with
    | some vo => match ds.var vo with
      | some vo => .ok (.vorticity vo)
      | none => .error .keyError
    | none =>
      match varMap ds names "avo" with
      | some avo => match ds.var avo with
        | some avo => .ok (.pv avo)
        | none => .error .keyError
      | none => .error .valueError

/-- `itertools.product(*lists)` -/
def product {α : Type} : List (List α) → List (List α)
  | [] => [[]]
  | l :: ls => l.flatMap fun x => (product ls).map (x :: ·)

/-- Position of an entry in C order -/
def ravel : List ℕ → List ℕ → ℕ
  | _ :: s, i :: idx => i * s.prod + ravel s idx
  | _, _ => 0

open Classical in
/-- Position of a label; if it occurs more than once the selection has an additional dimension and the construction of the state
raises ValueError. -/
noncomputable def position (labels : List Label) (l : Label) : Except PyErr ℕ :=
  if l ∈ labels then if labels.count l = 1 then .ok (labels.idxOf l) else .error .valueError else .error .keyError

/-- Values along a dimension (io.py:323), positions if there is no coordinate -/
def dimLabels (ds : Dataset) (dim : String) (n : ℕ) : List Label :=
  match ds.coord dim with
  | some c => c.data
  | none => (List.range n).map fun k : ℕ => .num (k : ℝ)

/-- Positions of the selected labels (`data.sel`, io.py:331) -/
noncomputable def positions : List (List Label) → List Label → Except PyErr (List ℕ)
  | ls :: lss, l :: sel =>
    match position ls l with
    | .error e => .error e
    | .ok k =>
      match positions lss sel with
      | .error e => .error e
      | .ok ks => .ok (k :: ks)
  | _, _ => .ok []

/-- The conversion of coordinate values to times (io.py:336-343). `fromtimestamp` rounds to microseconds. -/
noncomputable def labelTime : Label → Except PyErr PyTime
  | .num x => .ok (.num x)
  | .dt64 ns => .ok (.datetime (pyRound (ns / 1000 : ℝ)))
  | .obj _ => .error .typeError

/-- Time of the field at the given positions (io.py:334-343). Time coordinates that depend on latitude or longitude are not
modelled. -/
noncomputable def fieldTime (ds : Dataset) (names : Names) (data : XVar ℝ) (idx : List ℕ) (timeFill : PyTime) : Except PyErr PyTime :=
  let lead := data.dims.take (data.dims.length - 2)
  match (varMap ds names "time").bind ds.coord with
  | none => .ok timeFill
  | some c =>
    if ∀ d ∈ c.dims, d ∈ data.dims then
      if ∀ d ∈ c.dims, d ∈ lead then
        match c.data[ravel c.shape (c.dims.map fun d => idx.getD (lead.idxOf d) 0)]? with
        | some l => labelTime l
        | none => .error .indexError
      else .error .notImplementedError
    else .ok timeFill

/-- The horizontal field number `k` of a variable -/
noncomputable def block (g : Grid ℝ) (v : XVar ℝ) (k : ℕ) : g.Fld :=
  fun j i => v.data.getD (k * (g.nlat * g.nlon) + (j * g.nlon + i)) 0

/-- `as_state` (io.py:298-310) at the given positions; arrays whose shape is not that of the grid raise ValueError (numpy, spharm). -/
noncomputable def asState {g : Grid ℝ} (S : g.Sph) (src : Source) (idx : List ℕ) (t : PyTime) : Except PyErr (St PyTime g) :=
  let lead := src.data.shape.take (src.data.shape.length - 2)
  if src.data.shape.drop (src.data.shape.length - 2) = [g.nlat, g.nlon] then
    let k := ravel lead idx
    match src with
    | .wind u v => .ok (.fromWind S t (block g u k) (block g v k))
    | .vorticity vo => .ok (.fromVorticity S t (block g vo k))
    | .pv avo => .ok (.ofPv S t (block g avo k))
  else .error .valueError

/-- One iteration of the loop (io.py:329-345) -/
noncomputable def loopBody {g : Grid ℝ} (S : g.Sph) (ds : Dataset) (names : Names) (src : Source) (labels : List (List Label))
    (timeFill : PyTime) (sel : List Label) : Except PyErr (St PyTime g) :=
  match positions labels sel with
  | .error e => .error e
  | .ok idx =>
    match fieldTime ds names src.data idx timeFill with
    | .error e => .error e
    | .ok t => asState S src idx t

/-- A dimension without coordinate: in the case of wind, `da.coords[dim]` raises KeyError after the selection (io.py:301). -/
def missingCoord (ds : Dataset) (src : Source) (dims : List String) : Bool :=
  match src with
  | .wind _ _ => dims.any fun d => (ds.coord d).isNone
  | _ => false

/-- `from_dataset` (io.py:145-347), after the conversion of DataArray to Dataset. `sph` is the transform of each grid; the result
is a StateList, here the grid and the states. -/
noncomputable def fromDataset (sph : ∀ g : Grid ℝ, g.Sph) (ds : Dataset) (names : Names) (rsphere omega : ℝ) (ntrunc : Option ℕ)
    (timeFill : PyTime) : Except PyErr (Σ g : Grid ℝ, List (St PyTime g)) :=
  let ds := squeeze ds
  match horizontalCoord ds (varMap ds names "lon") with
  | .error e => .error e
  | .ok (lonName, lon) =>
    match checkLon lon with
    | .error e => .error e
    | .ok dlon =>
      match horizontalCoord ds (varMap ds names "lat") with
      | .error e => .error e
      | .ok (latName, lat) =>
        match checkLat lon.length dlon lat with
        | .error e => .error e
        | .ok () =>
          match Grid.make dlon rsphere omega ntrunc with
          | .error e => .error e
          | .ok g =>
            match source ds names with
            | .error e => .error e
            | .ok src =>
              let dims := src.data.dims
              if dims.length < 2 then .error .indexError
              else if dims.drop (dims.length - 2) = [latName, lonName] then
                let lead := dims.take (dims.length - 2)
                let labels := (lead.zip src.data.shape).map fun p => dimLabels ds p.1 p.2
                let sels := product labels
                if sels ≠ [] ∧ missingCoord ds src lead then .error .keyError
                else
                  match sels.mapM (loopBody (sph g) ds names src labels timeFill) with
                  | .error e => .error e
                  | .ok states => .ok ⟨g, states⟩
              else .error .assertionError

end Io
end Barotropic
