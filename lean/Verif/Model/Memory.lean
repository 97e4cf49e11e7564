import Verif.Model.State
import Verif.Model.Zonalize
import Verif.Model.Run

/-!
# Arrays as references to memory

In the other modules arrays are values. In Python they are objects that refer to a memory buffer: basic slices are views
of the same buffer, assignments like `a[...] = b` and `a[...] *= b` write into the buffer and are seen through every
array that refers to it. Here all places of the code that write into arrays are modelled with explicit memory:
diagnostics.py:27-28, 299, 303, grid.py:323-340, 382, 428-431, 550, 558, 594-595, 958, 999, model.py:156 (the others
that a search for item assignments and augmented assignments finds, in formatting.py, io.py and plot.py, concern lists,
dictionaries and matplotlib objects).

Elementwise arithmetic, numpy functions, `copy`, boolean and integer array indexing and the spherical harmonic
transforms allocate a new buffer for their result and do not write into their arguments.
-/

namespace Barotropic

/-- One element of an array of any of the data types that occur. -/
inductive Cell
  | re (x : ℝ)
  | cx (z : ℂ)
  | fx (x : FloatX)
  | bl (b : Bool)

/-- Types of array elements -/
class Stored (α : Type) where
  toCell : α → Cell
  ofCell : Cell → α
  ofCell_toCell : ∀ a, ofCell (toCell a) = a

noncomputable instance : Stored ℝ := ⟨.re, fun | .re x => x | _ => 0, fun _ => rfl⟩
noncomputable instance : Stored ℂ := ⟨.cx, fun | .cx z => z | _ => 0, fun _ => rfl⟩
instance : Stored FloatX := ⟨.fx, fun | .fx x => x | _ => .nan, fun _ => rfl⟩
instance : Stored Bool := ⟨.bl, fun | .bl b => b | _ => false, fun _ => rfl⟩

/-- Memory: the buffers `0, …, next - 1` are in use. -/
structure Mem where
  next : ℕ
  cell : ℕ → ℕ → Cell

/-- An array object with elements of type `α`: its element with index `i : ι` is at position `pos i` of the buffer. -/
structure Nd (ι : Type) (α : Type) where
  buf : ℕ
  pos : ι → ℕ

/-- Index sets of new arrays and the order of the elements in memory -/
class Flat (ι : Type) where
  flat : ι → ℕ
  flat_injective : Function.Injective flat

instance (n : ℕ) : Flat (Fin n) := ⟨Fin.val, Fin.val_injective⟩

/-- C order -/
instance (h w : ℕ) : Flat (Fin h × Fin w) :=
  ⟨fun p => finProdFinEquiv p, Fin.val_injective.comp finProdFinEquiv.injective⟩

namespace Mem
variable {ι κ α : Type} [Stored α]

/-- The contents of an array -/
def read (m : Mem) (a : Nd ι α) : ι → α := fun i => Stored.ofCell (m.cell a.buf (a.pos i))

/-- Memory after the allocation of a buffer with the given contents -/
noncomputable def alloc [Flat ι] (m : Mem) (v : ι → α) : Mem :=
  ⟨m.next + 1, Function.update m.cell m.next
    (Function.extend Flat.flat (fun i => Stored.toCell (v i)) fun _ => Cell.bl false)⟩

/-- Memory after an assignment to all elements of an array (of a view) -/
noncomputable def store (m : Mem) (a : Nd ι α) (v : ι → α) : Mem :=
  ⟨m.next, Function.update m.cell a.buf
    (Function.extend a.pos (fun i => Stored.toCell (v i)) (m.cell a.buf))⟩

end Mem

/-- `a[...]` with slices, and `a[mask]` or `a[indices]` as the target of an assignment: the elements `e k` of the same
buffer -/
def Nd.sub {ι κ α : Type} (a : Nd ι α) (e : κ → ι) : Nd κ α := ⟨a.buf, a.pos ∘ e⟩

/-- Programs: may write into memory and may raise exceptions (what was written before stays). -/
def Mp (α : Type) := Mem → Except PyErr α × Mem

instance : Monad Mp where
  pure a := fun m => (.ok a, m)
  bind p f := fun m => match p m with
    | (.ok a, m') => f a m'
    | (.error e, m') => (.error e, m')

namespace Mp
variable {ι κ α : Type} [Stored α]

/-- use the contents of an array -/
def load (a : Nd ι α) : Mp (ι → α) := fun m => (.ok (m.read a), m)

/-- a new array -/
noncomputable def new [Flat ι] (v : ι → α) : Mp (Nd ι α) := fun m => (.ok ⟨m.next, Flat.flat⟩, m.alloc v)

/-- assignment to the elements of an array -/
noncomputable def assign (a : Nd ι α) (v : ι → α) : Mp Unit := fun m => (.ok (), m.store a v)

/-- raise an exception -/
def raise {β : Type} (e : PyErr) : Mp β := fun m => (.error e, m)

end Mp

open Mp

namespace Grid
variable (g : Grid ℝ)

/-- `Grid.equivalent_latitude` (grid.py:591-597) for an array of any shape -/
noncomputable def equivalentLatitudeM {ι : Type} [Flat ι] (area : Nd ι ℝ) : Mp (Nd ι ℝ) := do
  let a ← load area
  let sine ← new fun i => 1 - 1 / 2 * a i / Real.pi / g.rsphere ^ 2
  let s ← load sine
  assign (sine.sub fun k : {i // 1 ≤ s i} => k.val) fun _ => (1 : ℝ)
  let s ← load sine
  assign (sine.sub fun k : {i // s i ≤ -1} => k.val) fun _ => (-1 : ℝ)
  let s ← load sine
  new fun i => rad2deg (Real.arcsin (s i))

/-- `Grid.gridpoint_area` (grid.py:424-432); `phi` is the array `self.phi`. -/
noncomputable def gridpointAreaM (phi : Nd (Fin g.nlat) ℝ) : Mp (Nd (Fin g.nlat) ℝ) := do
  let x ← load phi
  -- mid_phi, a new array of length nlat - 1, is not modified
  let mid : ℕ → ℝ := fun k => 1 / 2 * (col x (k + 1) + col x k)
  let area ← new fun _ : Fin g.nlat => g.rsphere * g.rsphere * g.dlam
  let inner := area.sub fun k : {j : Fin g.nlat // 0 < j.val ∧ j.val < g.nlat - 1} => k.val
  let a ← load inner
  assign inner fun k => a k * (Real.sin (mid (k.val.val - 1)) - Real.sin (mid k.val.val))
  let first := area.sub fun k : {j : Fin g.nlat // j.val = 0} => k.val
  let a ← load first
  assign first fun k => a k * (1 - Real.sin (mid 0))
  let last := area.sub fun k : {j : Fin g.nlat // j.val = g.nlat - 1} => k.val
  let a ← load last
  assign last fun k => a k * (1 + Real.sin (mid (g.nlat - 2)))
  return area

/-- The rows of a 2-dimensional array that satisfy a condition -/
def rows {h : ℕ} {κ α : Type} (a : Nd (Fin h × κ) α) (p : Fin h → Prop) : Nd ({j // p j} × κ) α :=
  a.sub fun k => (k.1.val, k.2)

/-- `Grid.derivative_meridional` with `order=2` (grid.py:316-328) for a 2-dimensional array (`poles`) or a profile (one
column, not `poles`); number of rows and `nlat` at least 3. -/
noncomputable def derivative2M {h : ℕ} {κ : Type} [Flat (Fin h × κ)] (poles : Bool) (f : Nd (Fin h × κ) ℝ) :
    Mp (Nd (Fin h × κ) ℝ) := do
  let out ← new fun _ : Fin h × κ => (0 : ℝ)
  let a ← load f
  let c : κ → ℕ → ℝ := fun i => col fun j => a (j, i)
  assign (rows out fun j => 0 < j.val ∧ j.val < h - 1) fun k => c k.2 (k.1.val.val + 1) - c k.2 (k.1.val.val - 1)
  if poles then
    let a ← load f
    let c : κ → ℕ → ℝ := fun i => col fun j => a (j, i)
    assign (rows out fun j => j.val = 0) fun k => -3 * c k.2 0 + 4 * c k.2 1 - c k.2 2
    let a ← load f
    let c : κ → ℕ → ℝ := fun i => col fun j => a (j, i)
    assign (rows out fun j => j.val = h - 1) fun k => c k.2 (h - 3) - 4 * c k.2 (h - 2) + 3 * c k.2 (h - 1)
    let o ← load out
    new fun p => o p / 2 / g.dphi
  else
    let o ← load out
    new fun p => o p / 2 / g.dphi

/-- `Grid.derivative_meridional` with `order=4` (grid.py:329-342); at least 5 rows -/
noncomputable def derivative4M {h : ℕ} {κ : Type} [Flat (Fin h × κ)] (poles : Bool) (f : Nd (Fin h × κ) ℝ) :
    Mp (Nd (Fin h × κ) ℝ) := do
  let out ← new fun _ : Fin h × κ => (0 : ℝ)
  let a ← load f
  let c : κ → ℕ → ℝ := fun i => col fun j => a (j, i)
  assign (rows out fun j => j.val = 1) fun k =>
    -3 * c k.2 0 - 10 * c k.2 1 + 18 * c k.2 2 - 6 * c k.2 3 + c k.2 4
  let a ← load f
  let c : κ → ℕ → ℝ := fun i => col fun j => a (j, i)
  assign (rows out fun j => 2 ≤ j.val ∧ j.val < h - 2) fun k =>
    c k.2 (k.1.val.val - 2) - 8 * c k.2 (k.1.val.val - 1) + 8 * c k.2 (k.1.val.val + 1) - c k.2 (k.1.val.val + 2)
  let a ← load f
  let c : κ → ℕ → ℝ := fun i => col fun j => a (j, i)
  assign (rows out fun j => j.val = h - 2) fun k =>
    -c k.2 (h - 5) + 6 * c k.2 (h - 4) - 18 * c k.2 (h - 3) + 10 * c k.2 (h - 2) + 3 * c k.2 (h - 1)
  if poles then
    let a ← load f
    let c : κ → ℕ → ℝ := fun i => col fun j => a (j, i)
    assign (rows out fun j => j.val = 0) fun k =>
      -25 * c k.2 0 + 48 * c k.2 1 - 36 * c k.2 2 + 16 * c k.2 3 - 3 * c k.2 4
    let a ← load f
    let c : κ → ℕ → ℝ := fun i => col fun j => a (j, i)
    assign (rows out fun j => j.val = h - 1) fun k =>
      3 * c k.2 (h - 5) - 16 * c k.2 (h - 4) + 36 * c k.2 (h - 3) - 48 * c k.2 (h - 2) + 25 * c k.2 (h - 1)
    let o ← load out
    new fun p => o p / 12 / g.dphi
  else
    let o ← load out
    new fun p => o p / 12 / g.dphi

/-- The spherical trapezoidal rule of `Grid.quad_meridional` (grid.py:524-570); `phi2` is the array `self.phi2` of the
grid. `x`, `x[js]` and `x[je]` are views of `phi2`; `xs` and `xe` are copies. At most `nlon` columns. -/
noncomputable def sptrapzM {w : ℕ} (hw : w ≤ g.nlon) (phi2 : Nd (Fin g.nlat × Fin g.nlon) ℝ)
    (y z : Nd (Fin g.nlat × Fin w) ℝ) : Mp (Nd (Fin w) ℝ) := do
  let x := phi2.sub fun p : Fin g.nlat × Fin w => (p.1, p.2.castLE hw)
  let js : Fin (g.nlat - 1) × Fin w → Fin g.nlat × Fin w := fun p => (p.1.castLE (Nat.sub_le _ _), p.2)
  let je : Fin (g.nlat - 1) × Fin w → Fin g.nlat × Fin w := fun p => (⟨p.1.val + 1, by omega⟩, p.2)
  let xv ← load x
  let yv ← load y
  let zv ← load z
  let dx := fun p => xv (je p) - xv (js p)
  let dy := fun p => yv (je p) - yv (js p)
  let aa := fun p => dy p / dx p
  let bb := fun p => yv (js p) - aa p * xv (js p)
  let v ← load (x.sub js)
  let xs ← new v
  let start := xs.sub fun k : {p // ¬ 0 ≤ zv (js p) ∧ 0 ≤ zv (je p)} => k.val
  let s ← load start
  assign start fun k => s k - zv (js k.val) / (zv (je k.val) - zv (js k.val)) * dx k.val
  let v ← load (x.sub je)
  let xe ← new v
  let stop := xe.sub fun k : {p // 0 ≤ zv (js p) ∧ ¬ 0 ≤ zv (je p)} => k.val
  let s ← load stop
  assign stop fun k => s k - zv (je k.val) / (zv (je k.val) - zv (js k.val)) * dx k.val
  let xs ← load xs
  let xe ← load xe
  let trapz := fun p => g.rsphere * (aa p * (Real.cos (xs p) - Real.cos (xe p))
    + (aa p * xs p + bb p) * Real.sin (xs p) - (aa p * xe p + bb p) * Real.sin (xe p))
  new fun i => ∑ j, if 0 ≤ zv (js (j, i)) ∨ 0 ≤ zv (je (j, i)) then trapz (j, i) else 0

/-- `Grid.solve_poisson_spectral` (grid.py:381-383) -/
noncomputable def solvePoissonSpectralM (rhs : Nd (Fin (nspec g.ntrunc)) ℂ) (opAdd : ℝ) :
    Mp (Nd (Fin (nspec g.ntrunc)) ℂ) := do
  let solution ← new fun _ : Fin (nspec g.ntrunc) => (0 : ℂ)
  let r ← load rhs
  assign (solution.sub fun k : {k : Fin (nspec g.ntrunc) // 1 ≤ k.val} => k.val) fun k =>
    -r k.val / ((g.eig k.val + opAdd : ℝ) : ℂ)
  return solution

end Grid

/-- `_restrict_fourier_zonal` (diagnostics.py:26-29), at least 2 columns -/
noncomputable def restrictFourierZonalM {h w : ℕ} (field : Nd (Fin h × Fin w) ℝ) (kmin kmax : ℕ) :
    Mp (Nd (Fin h × Fin (2 * (w / 2))) ℝ) := do
  let f ← load field
  let xfft ← new fun p : Fin h × Fin (w / 2 + 1) => dft (fun i => f (p.1, i)) p.2.val
  assign (xfft.sub fun k : {p : Fin h × Fin (w / 2 + 1) // p.2.val < kmin} => k.val) fun _ => (0 : ℂ)
  assign (xfft.sub fun k : {p : Fin h × Fin (w / 2 + 1) // kmax + 1 ≤ p.2.val} => k.val) fun _ => (0 : ℂ)
  let x ← load xfft
  new fun p : Fin h × Fin (2 * (w / 2)) =>
    irfft (w / 2) (fun k => if hk : k < w / 2 + 1 then x (p.1, ⟨k, hk⟩) else 0) p.2.val

/-- `ks2` of `stationary_wavenumber` (diagnostics.py:296-303) from the arrays of the derivative of zonal-mean PV and of
the zonal-mean wind (which is the array given by the caller if that is a profile) -/
noncomputable def ksSquaredM (g : Grid ℝ) (dpv u : Nd (Fin g.nlat) ℝ) (minU : ℝ) : Mp (Nd (Fin g.nlat) FloatX) := do
  let d ← load dpv
  let ks2 ← new fun j : Fin g.nlat => FloatX.fin (Real.cos (g.phi j) ^ 2 * g.rsphere * d j)
  let uv ← load u
  let big := ks2.sub fun k : {j // ¬ |uv j| ≤ minU} => k.val
  let a ← load big
  assign big fun k => (a k).div (FloatX.fin (uv k.val))
  let k2 ← load ks2
  let small := ks2.sub fun k : {j // |uv j| ≤ minU ∧ k2 j ≠ FloatX.fin 0} => k.val
  let a ← load small
  assign small fun k => (a k).mul FloatX.pinf
  return ks2

namespace Region
variable {g : Grid ℝ} (r : Region g)

/-- `GridRegion.lon` (grid.py:980): indexing with an array of integers copies. -/
noncomputable def lonM (lon : Nd (Fin g.nlon) ℝ) : Mp (Nd (Fin r.lonIndices.length) ℝ) := do
  let v ← load lon
  new fun k => v (r.lonIndices.get k)

/-- `GridRegion.lon_mono` (grid.py:995-1000); `lon` is the array `self._grid.lon`. -/
noncomputable def lonMonoM (lon : Nd (Fin g.nlon) ℝ) : Mp (Nd (Fin r.lonIndices.length) ℝ) := do
  let l ← r.lonM lon
  let v ← load l
  match jumps (List.ofFn v) with
  | [] => return l
  | [k] =>
    let part := l.sub fun i : {i : Fin r.lonIndices.length // i.val < k + 1} => i.val
    let p ← load part
    assign part fun i => p i - 360
    return l
  | _ => raise .assertionError

/-- `GridRegion.mask` (grid.py:957-959) -/
noncomputable def maskM : Mp (Nd (Fin g.nlat × Fin g.nlon) Bool) := do
  let mask ← new fun _ : Fin g.nlat × Fin g.nlon => false
  assign (mask.sub fun k : {p : Fin g.nlat × Fin g.nlon // p.1 ∈ r.latIndices ∧ p.2 ∈ r.lonIndices} => k.val)
    fun _ => true
  return mask

/-- `GridRegion.extract` of a 2-dimensional field (grid.py:902) -/
noncomputable def extractM (field : Nd (Fin g.nlat × Fin g.nlon) ℝ) :
    Mp (Nd (Fin r.latIndices.length × Fin r.lonIndices.length) ℝ) := do
  let v ← load field
  new fun p => v (r.latIndices.get p.1, r.lonIndices.get p.2)

end Region

/-! ## States -/

/-- Arrays of gridded and spectral fields -/
abbrev Grid.FldRef (g : Grid ℝ) := Nd (Fin g.nlat × Fin g.nlon) ℝ
abbrev Grid.SpcRef (g : Grid ℝ) := Nd (Fin (nspec g.ntrunc)) ℂ

/-- A `State` object that was created with PV: the arrays it refers to (state.py:49-59) -/
structure StateRef (g : Grid ℝ) where
  time : PyTime
  pvSpectral : g.SpcRef
  pv : Option g.FldRef := none
  u : Option g.FldRef := none
  v : Option g.FldRef := none
  streamfunction : Option g.FldRef := none

namespace StateRef
variable {g : Grid ℝ} (S : g.Sph)

/-- the contents of a gridded field -/
noncomputable def fld (m : Mem) (a : g.FldRef) : g.Fld := fun j i => m.read a (j, i)

/-- a new array with a gridded field -/
noncomputable def newFld (f : g.Fld) : Mp g.FldRef := new fun p : Fin g.nlat × Fin g.nlon => f p.1 p.2

/-- use the contents of a gridded field -/
noncomputable def loadFld (a : g.FldRef) : Mp g.Fld := fun m => (.ok (fld m a), m)

/-- `State(grid, time, pv=pv)` (state.py:54): the transformation creates a new array. -/
noncomputable def ofPv (time : PyTime) (pv : g.FldRef) : Mp (StateRef g) := do
  let f ← loadFld pv
  let q ← new (Grid.toSpectral S f)
  return { time := time, pvSpectral := q }

/-- `State(grid, time, pv_spectral=q)` (state.py:54): the array itself is kept. -/
def ofSpectral (time : PyTime) (q : g.SpcRef) : StateRef g := { time := time, pvSpectral := q }

/-- `State.from_wind` (state.py:77-78); `fcor2` is the array of the grid. -/
noncomputable def fromWind (fcor2 : g.FldRef) (time : PyTime) (u v : g.FldRef) : Mp (StateRef g) := do
  let uf ← loadFld u
  let vf ← loadFld v
  let f ← loadFld fcor2
  let pv ← newFld (f + Grid.vorticity S uf vf)
  ofPv S time pv

/-- `State.pv` (state.py:141-145): the array returned is the one that is kept. -/
noncomputable def getPv (s : StateRef g) : Mp (g.FldRef × StateRef g) :=
  match s.pv with
  | some a => return (a, s)
  | none => do
    let q ← load s.pvSpectral
    let a ← newFld (Grid.toGrid S q)
    return (a, { s with pv := some a })

/-- `State.vorticity_spectral` (state.py:210); `f2s` is the array `self.grid.fcor2_spectral`. -/
noncomputable def getVorticitySpectral (f2s : g.SpcRef) (s : StateRef g) : Mp g.SpcRef := do
  let q ← load s.pvSpectral
  let f ← load f2s
  new (q - f)

/-- `State._invert_pv` (state.py:176-180) -/
noncomputable def invert (f2s : g.SpcRef) (s : StateRef g) : Mp (g.FldRef × g.FldRef × StateRef g) := do
  let vo ← getVorticitySpectral f2s s
  let w ← load vo
  let zero ← new fun _ : Fin (nspec g.ntrunc) => (0 : ℂ)
  let z ← load zero
  let uv := Grid.wind S (.inr w) (.inr z)
  let u ← newFld uv.1
  let v ← newFld uv.2
  return (u, v, { s with u := some u, v := some v })

/-- `State.u` (state.py:163-167) -/
noncomputable def getU (f2s : g.SpcRef) (s : StateRef g) : Mp (g.FldRef × StateRef g) :=
  match s.u with
  | some a => return (a, s)
  | none => do
    let (u, _, s) ← invert S f2s s
    return (u, s)

/-- `State.v` (state.py:170-174) -/
noncomputable def getV (f2s : g.SpcRef) (s : StateRef g) : Mp (g.FldRef × StateRef g) :=
  match s.v with
  | some a => return (a, s)
  | none => do
    let (_, v, s) ← invert S f2s s
    return (v, s)

/-- `State.streamfunction` (state.py:183-188) -/
noncomputable def getStreamfunction (f2s : g.SpcRef) (s : StateRef g) : Mp (g.FldRef × StateRef g) :=
  match s.streamfunction with
  | some a => return (a, s)
  | none => do
    let vo ← getVorticitySpectral f2s s
    let psi ← g.solvePoissonSpectralM vo 0
    let p ← load psi
    let a ← newFld (Grid.toGrid S p)
    return (a, { s with streamfunction := some a })

/-- `State.pv_flux_spectral` (state.py:193) -/
noncomputable def getPvFlux (f2s : g.SpcRef) (s : StateRef g) : Mp (g.SpcRef × StateRef g) := do
  let (q1, s) ← getPv S s
  let (u, s) ← getU S f2s s
  let q1 ← loadFld q1
  let u ← loadFld u
  let qu ← newFld (q1 * u)
  let (q2, s) ← getPv S s
  let (v, s) ← getV S f2s s
  let q2 ← loadFld q2
  let v ← loadFld v
  let qv ← newFld (q2 * v)
  let qu ← loadFld qu
  let qv ← loadFld qv
  let d ← new (Grid.divergenceSpectral S qu qv)
  return (d, s)

/-- The arrays that `State.as_hn2016` gives to falwa (state.py:338-343): `lon` and `lat` are those of the grid;
`np.flip` and `np.flipud` return views. -/
noncomputable def asHn2016M (lon : Nd (Fin g.nlon) ℝ) (lat : Nd (Fin g.nlat) ℝ) (s : StateRef g) :
    Mp ((Nd (Fin g.nlon) ℝ × Nd (Fin g.nlat) ℝ × g.FldRef) × StateRef g) := do
  let (_, s) ← getPv S s
  let (pv, s) ← getPv S s
  return ((lon, lat.sub Fin.rev, pv.sub fun p => (p.1.rev, p.2)), s)

end StateRef

/-- `zonalize(field, levels, interpolate=False, quad)` with an array of levels (grid.py:645-660): the array of levels
itself is returned. `quad` gives the integral over the area where its argument is not negative. -/
noncomputable def Grid.zonalizeM (g : Grid ℝ) {n w : ℕ} (quad : (Fin g.nlat × Fin w → ℝ) → ℝ)
    (field : Nd (Fin g.nlat × Fin w) ℝ) (levels : Nd (Fin n) ℝ) : Mp (Nd (Fin n) ℝ × Nd (Fin n) ℝ) := do
  let f ← load field
  let q ← load levels
  let area ← new fun k => quad (fun p => f p - q k) * (g.nlon / w)
  let y ← g.equivalentLatitudeM area
  return (levels, y)

/-! ## Time steps -/

/-- `BarotropicModel`: the forcing is given the state object and returns an array. -/
structure ModelRef (g : Grid ℝ) where
  rhs : Option (StateRef g → Mp (g.FldRef × StateRef g))
  diffusionOrder : ℕ
  diffusionCoeff : ℝ
  diffusionBg : Option g.FldRef

namespace ModelRef
variable {g : Grid ℝ} (S : g.Sph) (M : ModelRef g) (f2s : g.SpcRef)

/-- `_pv_tendency_spectral` (model.py:152-157) -/
noncomputable def tendencyM (s : StateRef g) : Mp (g.SpcRef × StateRef g) := do
  let (flux, s) ← s.getPvFlux S f2s
  let f ← load flux
  let tendency ← new (-f)
  match M.rhs with
  | none => return (tendency, s)
  | some rhs =>
    let (r, s) ← rhs s
    let r ← StateRef.loadFld r
    let rs ← new (Grid.toSpectral S r)
    let t ← load tendency
    let r ← load rs
    assign tendency (t + r)
    return (tendency, s)

/-- `_apply_diffusion` (model.py:159-175) -/
noncomputable def diffusionM (dt : ℝ) (q : g.SpcRef) : Mp g.SpcRef :=
  match M.diffusionBg with
  | none => do
    let q ← load q
    new (Grid.solveDiffusionSpectral q M.diffusionCoeff dt M.diffusionOrder)
  | some bg => do
    let b ← StateRef.loadFld bg
    let background ← new (Grid.toSpectral S b)
    let q ← load q
    let b ← load background
    let anomaly ← new (q - b)
    let a ← load anomaly
    let a ← new (Grid.solveDiffusionSpectral a M.diffusionCoeff dt M.diffusionOrder)
    let a ← load a
    let b ← load background
    new (a + b)

/-- `euler` (model.py:101-109): the new state, and the given one (whose fields have been read) -/
noncomputable def eulerM (s : StateRef g) (dt : PyDelta) : Mp (StateRef g × StateRef g) := do
  let dts := toSeconds dt
  let (tend, s) ← M.tendencyM S f2s s
  let q ← load s.pvSpectral
  let t ← load tend
  let qnew ← new (q + (dts : ℂ) • t)
  let qnew ← M.diffusionM S dts qnew
  match s.time.add dt with
  | .error e => raise e
  | .ok t => return (.ofSpectral t qnew, s)

/-- `leapfrog` (model.py:127-150): the filtered state, the new state, and the given current one (whose fields have been
read) -/
noncomputable def leapfrogM (old now : StateRef g) (filter : ℝ) : Mp (StateRef g × StateRef g × StateRef g) := do
  match now.time.sub old.time with
  | .error e => raise e
  | .ok dt =>
    let dts := toSeconds dt
    let (tend, now) ← M.tendencyM S f2s now
    let qo ← load old.pvSpectral
    let t ← load tend
    let qnew ← new (qo + ((2 * dts : ℝ) : ℂ) • t)
    let qnew ← M.diffusionM S (2 * dts) qnew
    match now.time.add dt with
    | .error e => raise e
    | .ok t =>
      let qn ← load now.pvSpectral
      let qo ← load old.pvSpectral
      let qw ← load qnew
      let qnow ← new (((1 - 2 * filter : ℝ) : ℂ) • qn + (filter : ℂ) • (qo + qw))
      return (.ofSpectral now.time qnow, .ofSpectral t qnew, now)

/-- What `run` returns, see `BModel.Outcome` -/
inductive Outcome (g : Grid ℝ)
  | outOfFuel
  | early (s : StateRef g) (states : List (StateRef g))
  | done (s : StateRef g) (states : List (StateRef g))

/-- `while state.time < tend: …` (model.py:84-88). Simplification: the fields that are read later from a state object that
is already in the list are not added to that entry of the list (they are determined by its spectral PV). -/
noncomputable def loopM (tend : PyTime) (saveEvery : ℝ) :
    ℕ → StateRef g → StateRef g → List (StateRef g) → ℝ → Mp (Outcome g)
  | 0, _, _, _, _ => return .outOfFuel
  | fuel + 1, state, stateNew, states, tSave =>
    match state.time.lt tend with
    | .error e => raise e
    | .ok false => return .done state states
    | .ok true => do
      let (state, stateNew, _) ← M.leapfrogM S f2s state stateNew (2 / 10)
      if saveEvery > 0 then
        match state.time.ge (.num tSave) with
        | .error e => raise e
        | .ok true => loopM tend saveEvery fuel state stateNew (states ++ [state]) (tSave + saveEvery)
        | .ok false => loopM tend saveEvery fuel state stateNew states tSave
      else loopM tend saveEvery fuel state stateNew states tSave

/-- `run` (model.py:73-89) -/
noncomputable def runM (s : StateRef g) (dt : PyDelta) (tend : PyTime) (saveEvery : ℝ) (fuel : ℕ) : Mp (Outcome g) :=
  match tend.lt s.time with
  | .error e => raise e
  | .ok true => return .early s [s]
  | .ok false => do
    let (s1, s) ← M.eulerM S f2s s dt
    M.loopM S f2s tend saveEvery fuel s s1 [s] saveEvery

end ModelRef
end Barotropic
