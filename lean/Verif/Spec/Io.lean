import Verif.Model.Io
import Verif.Spec.StateList

/-!
# Vocabulary for statements about datasets
-/

set_option linter.unusedSectionVars false

namespace Barotropic
variable {K : Type*} [Field K] [LinearOrder K] [IsStrictOrderedRing K] [FloorRing K]

/-- All spacings are close to the first one, `d`. -/
structure Regular (x : List K) (d : K) : Prop where
  two : 2 ≤ x.length
  first : d = x.getD 1 0 - x.getD 0 0
  spacing : ∀ i, i + 1 < x.length → |d - (x.getD (i + 1) 0 - x.getD i 0)| ≤ 1 / 10 ^ 8 + 1 / 10 ^ 5 * |x.getD (i + 1) 0 - x.getD i 0|

/-- Regular, increasing, and the last spacing (across the periodic boundary) is close to the first one. -/
structure LonOk (lon : List K) (d : K) : Prop extends Regular lon d where
  pos : 0 < d
  global : |(lon.getD (lon.length - 1) 0 - lon.getD 0 0) - (360 - d)| ≤ 1 / 10 ^ 8 + 1 / 10 ^ 5 * |360 - d|

/-- Regular, decreasing, with the spacing `-d` (approximately) and the right number of values for `n` longitudes. -/
structure LatOk (lat : List K) (n : ℕ) (d : K) : Prop where
  regular : Regular lat (lat.getD 1 0 - lat.getD 0 0)
  number : lat.length = n / 2 + 1
  neg : lat.getD 1 0 - lat.getD 0 0 < 0
  same : |(lat.getD 1 0 - lat.getD 0 0) - -d| ≤ 1 / 10 ^ 8 + 1 / 10 ^ 5 * |-d|

/-- Position of an entry of an array in C order: the last index varies fastest. -/
def cOrder : List ℕ → List ℕ → ℕ
  | _ :: s, i :: idx => i * s.prod + cOrder s idx
  | _, _ => 0

/-- A valid index of an array of this shape -/
def InShape (shape idx : List ℕ) : Prop := List.Forall₂ (· < ·) idx shape

/-- Entry of a variable -/
noncomputable def XVar.at (v : XVar ℝ) (idx : List ℕ) : ℝ := v.data.getD (cOrder v.shape idx) 0

/-- The documented names (docstring of `from_dataset`, io.py:164-210), by reference name -/
def documented : List (String × List String) :=
  [("lon", ["longitude", "lon"]), ("lat", ["latitude", "lat"]), ("time", ["time"]), ("u", ["u", "ugrd", "eastward_wind"]),
    ("v", ["v", "vgrd", "northward_wind"]), ("vo", ["vo", "relv", "vorticity", "relative_vorticity"]),
    ("avo", ["avo", "absv", "absolute_vorticity", "pv"])]

/-- Every variable has as many sizes as dimensions and the right number of values, and a dimension has the same size everywhere;
a coordinate with the name of a dimension is the one-dimensional coordinate along this dimension. -/
structure Dataset.Consistent (ds : Dataset) : Prop where
  size : ∃ size : String → ℕ, (∀ c ∈ ds.coords, c.2.shape = c.2.dims.map size ∧ c.2.data.length = c.2.shape.prod) ∧
    (∀ v ∈ ds.vars, v.2.shape = v.2.dims.map size ∧ v.2.data.length = v.2.shape.prod)
  index : ∀ c ∈ ds.coords, ∀ v ∈ ds.vars, c.1 ∈ v.2.dims → c.2.dims = [c.1]

/-- A field as array of the shape (nlat, nlon) -/
noncomputable def Grid.Fld.toNd {g : Grid ℝ} (f : g.Fld) : NdArr :=
  ⟨[g.nlat, g.nlon], (List.finRange g.nlat).flatMap fun j => (List.finRange g.nlon).map fun i => f j i⟩

/-- What is extracted from a single state -/
def Io.Getter.value {H : GridHeap} {α : Type} (C : SList.StateCls PyTime H α) : Io.Getter H → AnySt PyTime H → Except PyErr (PyObj PyTime H)
  | .attr name => C.attr name
  | .callable f => f

/-- The object `y` is the entry number `k` of the variable: number or array. -/
def XVar.EntryIs {H : GridHeap} (v : XVar ℝ) (k : ℕ) : PyObj PyTime H → Prop
  | .number x => v.shape.length = 1 ∧ v.at [k] = x
  | .ndarray a => v.shape.tail = a.shape ∧ ∀ idx, InShape a.shape idx → v.at (k :: idx) = a.data.getD (cOrder a.shape idx) 0
  | _ => False

/-- The states given to `as_dataset` -/
def Io.StatesArg.list {H : GridHeap} : Io.StatesArg H → List (PyObj PyTime H)
  | .sized xs => xs
  | .iterator xs => xs
  | .single s => [.state s]

/-- Sizes of the dimensions of an exported dataset of `n` states -/
noncomputable def exportSize (g : Grid ℝ) (n : ℕ) (dim : String) : ℕ :=
  if dim = "latitude" then g.nlat else if dim = "longitude" then g.nlon else n

/-- The state that the fields at index `idx` of the leading dimensions describe -/
noncomputable def Io.Source.state {g : Grid ℝ} (S : g.Sph) (t : PyTime) (idx : List ℕ) : Io.Source → St PyTime g
  | .wind u v => .fromWind S t (fun j i => u.at (idx ++ [(j : ℕ), (i : ℕ)])) (fun j i => v.at (idx ++ [(j : ℕ), (i : ℕ)]))
  | .vorticity vo => .fromVorticity S t fun j i => vo.at (idx ++ [(j : ℕ), (i : ℕ)])
  | .pv avo => .ofPv S t fun j i => avo.at (idx ++ [(j : ℕ), (i : ℕ)])

end Barotropic
