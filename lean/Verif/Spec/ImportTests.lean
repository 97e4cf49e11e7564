import Verif.Spec.Io

/-!
# C144: datasets like those of tests/test_io.py

Fields on the coordinates of a grid, with any leading dimensions and any scalar coordinates.
-/

namespace Barotropic

/-- Coordinates: the labels along each leading dimension, scalar coordinates, latitude and longitude -/
noncomputable def gridCoords (g : Grid ℝ) (lead : List (String × List Label)) (scal : List (String × Label)) : List (String × XVar Label) :=
  (lead.map fun p => (p.1, ⟨[p.1], [p.2.length], p.2⟩)) ++ (scal.map fun p => (p.1, ⟨[], [], [p.2]⟩)) ++
    [("latitude", ⟨["latitude"], [g.nlat], (List.range g.nlat).map fun j => .num (g.lat j)⟩),
      ("longitude", ⟨["longitude"], [g.nlon], (List.range g.nlon).map fun i => .num (g.lon i)⟩)]

/-- Sizes of the leading dimensions -/
def leadShape (lead : List (String × List Label)) : List ℕ := lead.map fun p => p.2.length

/-- A variable on all dimensions with the given values in C order -/
noncomputable def gridVar (g : Grid ℝ) (lead : List (String × List Label)) (data : List ℝ) : XVar ℝ :=
  ⟨lead.map Prod.fst ++ ["latitude", "longitude"], leadShape lead ++ [g.nlat, g.nlon], data⟩

/-- The dataset of variables with the given names and values -/
noncomputable def gridDataset (g : Grid ℝ) (lead : List (String × List Label)) (scal : List (String × Label)) (vars : List (String × List ℝ)) :
    Dataset :=
  ⟨gridCoords g lead scal, vars.map fun p => (p.1, gridVar g lead p.2)⟩

/-- Different names, which are not those of fields, and different labels; no leading dimension of size 1 (these are removed) -/
structure GoodCoords (lead : List (String × List Label)) (scal : List (String × Label)) : Prop where
  names : (lead.map Prod.fst ++ scal.map Prod.fst ++ ["latitude", "longitude"]).Nodup
  fields : ∀ n ∈ lead.map Prod.fst ++ scal.map Prod.fst, n ∉ ["u", "ugrd", "eastward_wind", "v", "vgrd", "northward_wind", "vo", "relv",
    "vorticity", "relative_vorticity", "avo", "absv", "absolute_vorticity", "pv"]
  labels : ∀ p ∈ lead, p.2.Nodup
  sizes : ∀ p ∈ lead, p.2.length ≠ 1

/-- Values of the variable with the given name -/
def valuesOf (vars : List (String × List ℝ)) (n : String) : Option (List ℝ) := (vars.find? (·.1 = n)).map Prod.snd

/-- The fields that states are made of: both components of the wind, else vorticity, else absolute vorticity -/
noncomputable def chosenFields (g : Grid ℝ) (lead : List (String × List Label)) (vars : List (String × List ℝ)) : Option Io.Source :=
  match valuesOf vars "u", valuesOf vars "v", valuesOf vars "vo", valuesOf vars "avo" with
  | some u, some v, _, _ => some (.wind (gridVar g lead u) (gridVar g lead v))
  | _, _, some vo, _ => some (.vorticity (gridVar g lead vo))
  | _, _, _, some avo => some (.pv (gridVar g lead avo))
  | _, _, _, _ => none

/-- The time that a label stands for: a number or a datetime with microseconds -/
inductive Label.IsTime : Label → PyTime → Prop
  | num (x : ℝ) : IsTime (.num x) (.num x)
  | datetime (us : ℤ) : IsTime (.dt64 (1000 * us)) (.datetime us)

/-- The time of the fields at an index of the leading dimensions: from the labels along `time`, from the scalar coordinate `time`, or the given
value -/
def TimeAt (lead : List (String × List Label)) (scal : List (String × Label)) (fill : PyTime) (idx : List ℕ) (t : PyTime) : Prop :=
  (∃ pre ls post l, lead = pre ++ ("time", ls) :: post ∧ ls[idx.getD pre.length 0]? = some l ∧ l.IsTime t) ∨
  (∃ l, ("time", l) ∈ scal ∧ l.IsTime t) ∨
  ("time" ∉ lead.map Prod.fst ++ scal.map Prod.fst ∧ t = fill)

/-- The fields of an atmosphere at rest -/
def Io.Source.AtRest (g : Grid ℝ) (shape : List ℕ) : Io.Source → Prop
  | .wind u v => ∀ idx, InShape shape idx → ∀ (j : Fin g.nlat) (i : Fin g.nlon), u.at (idx ++ [(j : ℕ), (i : ℕ)]) = 0 ∧ v.at (idx ++ [(j : ℕ), (i : ℕ)]) = 0
  | .vorticity vo => ∀ idx, InShape shape idx → ∀ (j : Fin g.nlat) (i : Fin g.nlon), vo.at (idx ++ [(j : ℕ), (i : ℕ)]) = 0
  | .pv avo => ∀ idx, InShape shape idx → ∀ (j : Fin g.nlat) (i : Fin g.nlon), avo.at (idx ++ [(j : ℕ), (i : ℕ)]) = g.fcor2 j i

end Barotropic
