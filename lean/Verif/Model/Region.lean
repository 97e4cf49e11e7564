import Verif.Model.Grid

/-!
# Region selection  (grid.py:778-1000)
-/

namespace Barotropic

variable {K : Type*} [Field K] [LinearOrder K] [IsStrictOrderedRing K] [FloorRing K]

/-- A `start`/`stop` entry of a Python slice: `None`, a (real) number, or anything else. -/
inductive Bound (K : Type*)
  | none
  | num (x : K)
  | other
  deriving DecidableEq

/-- One component of a region selection: a (real) number, a string, a slice (the flag says whether `step` is
given), or any other object. Simplification: complex numbers and NaN are not modelled. -/
inductive Sel (K : Type*)
  | num (x : K)
  | str (s : String)
  | slice (start stop : Bound K) (hasStep : Bool)
  | other

/-- The argument of `grid.region[...]`: a tuple or a single object. -/
inductive Selection (K : Type*)
  | single (s : Sel K)
  | tuple (l : List (Sel K))

/-- `GridRegion` (grid.py:882-887): index arrays into the latitude and longitude dimension. Index arrays made by
the indexer are sub-arrays of `np.arange`, hence in range, so they are lists of `Fin`. -/
structure Region (g : Grid K) where
  latIndices : List (Fin g.nlat)
  lonIndices : List (Fin g.nlon)

namespace Grid

/-- The slice part of `_get_lat_indices` (grid.py:818-830). -/
def latSlice (g : Grid K) (lo hi : Option K) : List (Fin g.nlat) :=
  let indices := List.finRange g.nlat
  match lo, hi with
  | none, none => indices
  | none, some hi => indices.filter fun j : Fin g.nlat => g.lat j ≤ hi
  | some lo, none => indices.filter fun j : Fin g.nlat => lo ≤ g.lat j
  | some lo, some hi => indices.filter fun j => min lo hi ≤ g.lat j ∧ g.lat j ≤ max lo hi

/-- The slice part of `_get_lon_indices` (grid.py:848-863). -/
def lonSlice (g : Grid K) (lo hi : Option K) : List (Fin g.nlon) :=
  let indices := List.finRange g.nlon
  match lo, hi with
  | none, none => indices
  | none, some hi => indices.filter fun i => g.lon i ≤ hi
  | some lo, none => indices.filter fun i => lo ≤ g.lon i
  | some lo, some hi =>
    if hi < lo then
      npRoll (indices.filter fun i => g.lon i ≤ hi ∨ lo ≤ g.lon i)
        (indices.countP fun i : Fin g.nlon => lo ≤ g.lon i)
    else indices.filter fun i => lo ≤ g.lon i ∧ g.lon i ≤ hi

/-- Slice validation (grid.py:810-817, 840-847): step-less slices with numeric or None bounds only. -/
def checkSlice : Sel K → Except PyErr (Option K × Option K)
  | .slice start stop hasStep =>
    match start with
    | .other => .error .indexError
    | start =>
      match stop with
      | .other => .error .indexError
      | stop =>
        if hasStep then .error .indexError
        else
          let toOpt : Bound K → Option K := fun b => match b with
            | .num x => some x
            | _ => Option.none
          .ok (toOpt start, toOpt stop)
  | _ => .error .indexError

/-- `GridRegionIndexer._get_lat_indices` (grid.py:797-830) -/
def getLatIndices (g : Grid K) (s : Sel K) : Except PyErr (List (Fin g.nlat)) :=
  match s with
  | .num x =>
    let idx := (List.finRange g.nlat).filter fun j : Fin g.nlat => isclose (g.lat j) x
    if idx.length ≠ 1 then .error .indexError else .ok idx
  | s =>
    let s : Sel K := match s with
      | .str "N" => .slice (.num 0) (.num 90) false
      | .str "S" => .slice (.num (-90)) (.num 0) false
      | s => s
    match checkSlice s with
    | .error e => .error e
    | .ok (lo, hi) => .ok (g.latSlice lo hi)

/-- `GridRegionIndexer._get_lon_indices` (grid.py:832-863) -/
def getLonIndices (g : Grid K) (s : Sel K) : Except PyErr (List (Fin g.nlon)) :=
  match s with
  | .num x =>
    let idx := (List.finRange g.nlon).filter fun i : Fin g.nlon => isclose (g.lon i) x
    if idx.length ≠ 1 then .error .indexError else .ok idx
  | s =>
    match checkSlice s with
    | .error e => .error e
    | .ok (lo, hi) => .ok (g.lonSlice lo hi)

/-- `GridRegion.__init__` (grid.py:882-887): the assertions on the sizes of the index arrays. -/
def mkRegion (g : Grid K) (lat : List (Fin g.nlat)) (lon : List (Fin g.nlon)) : Except PyErr (Region g) :=
  if lat.length ≤ g.nlat then
    if lon.length ≤ g.nlon then .ok ⟨lat, lon⟩ else .error .assertionError
  else .error .assertionError

/-- `GridRegionIndexer.__getitem__` (grid.py:783-795). Longitude is looked up before latitude. -/
def region (g : Grid K) (sel : Selection K) : Except PyErr (Region g) :=
  let l : List (Sel K) := match sel with
    | .single s => [s, .slice .none .none false]
    | .tuple l => l
  match l with
  | [s0, s1] =>
    match g.getLonIndices s0 with
    | .error e => .error e
    | .ok lon =>
      match g.getLatIndices s1 with
      | .error e => .error e
      | .ok lat => g.mkRegion lat lon
  | _ => .error .indexError

end Grid

namespace Region
variable {g : Grid K}

/-- `GridRegion.shape` (grid.py:962-964) -/
def shape (r : Region g) : ℕ × ℕ := (r.latIndices.length, r.lonIndices.length)

/-- `GridRegion.lat` (grid.py:967-969) -/
def lat (r : Region g) : List K := r.latIndices.map fun j : Fin g.nlat => g.lat j

/-- `GridRegion.lon` (grid.py:972-980) -/
def lon (r : Region g) : List K := r.lonIndices.map fun i : Fin g.nlon => g.lon i

/-- `np.argwhere(np.diff(lon) < 0)`: positions `k` with `lon[k+1] - lon[k] < 0` (grid.py:996). -/
def jumps (l : List K) : List ℕ :=
  (List.range (l.length - 1)).filter fun k => l.getD (k + 1) 0 - l.getD k 0 < 0

/-- `GridRegion.lon_mono` (grid.py:995-1000). `self.lon` is a fresh array (fancy indexing copies), so subtracting
360 in place does not affect the grid. -/
def lonMono (r : Region g) : Except PyErr (List K) :=
  let lon := r.lon
  match jumps lon with
  | [] => .ok lon
  | [k] => .ok (lon.mapIdx fun i x => if i < k + 1 then x - 360 else x)
  | _ => .error .assertionError

/-- `GridRegion.mask` (grid.py:955-959) -/
def mask (r : Region g) : Fin g.nlat → Fin g.nlon → Bool :=
  fun j i => decide (j ∈ r.latIndices) && decide (i ∈ r.lonIndices)

/-- `field[self._lat_indices]` (grid.py:895) -/
def takeLat {α : Type*} (r : Region g) (f : Fin g.nlat → α) : Fin r.latIndices.length → α :=
  fun k => f (r.latIndices.get k)

/-- `field[self._lon_indices]` (grid.py:898) -/
def takeLon {α : Type*} (r : Region g) (f : Fin g.nlon → α) : Fin r.lonIndices.length → α :=
  fun k => f (r.lonIndices.get k)

/-- `field[np.ix_(self._lat_indices, self._lon_indices)]` (grid.py:902) -/
def take2 {α : Type*} (r : Region g) (f : Fin g.nlat → Fin g.nlon → α) :
    Fin r.latIndices.length → Fin r.lonIndices.length → α :=
  fun k l => f (r.latIndices.get k) (r.lonIndices.get l)

/-- `GridRegion._extract_one` (grid.py:892-904) -/
def extractOne {α : Type*} (r : Region g) : Arr α → Except PyErr (Arr α)
  | .d1 n v =>
    if h : n = g.nlat then .ok (.d1 _ (r.takeLat (h ▸ v)))
    else if h : n = g.nlon then .ok (.d1 _ (r.takeLon (h ▸ v)))
    else .error .valueError
  | .d2 h w v =>
    if hs : h = g.nlat ∧ w = g.nlon then .ok (.d2 _ _ (r.take2 (hs.1 ▸ hs.2 ▸ v)))
    else .error .valueError
  | _ => .error .valueError

/-- `GridRegion.extract` (grid.py:906-952): one array for one argument, a tuple of arrays for several; here
always a list. -/
def extract {α : Type*} (r : Region g) (fields : List (Arr α)) : Except PyErr (List (Arr α)) :=
  match fields with
  | [] => .error .valueError
  | fs => fs.mapM r.extractOne

end Region
end Barotropic
