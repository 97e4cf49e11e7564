import Verif.Model.Io

/-!
# Data processing for plots  (plot.py, formatting.py)

Calls of matplotlib are not modelled, only the data and labels handed over to it. Floats are exact numbers, NaN does not occur.
-/

namespace Barotropic
namespace Plot

section Generic
variable {K : Type*} [Field K] [LinearOrder K] [IsStrictOrderedRing K] [FloorRing K]

/-- `x % m` for `m > 0` -/
def pyMod (x m : K) : K := x - m * ⌊x / m⌋

/-- `np.argmin` of `p 0, …, p (n-1)`, `n > 0`: position of the first minimum -/
def argmin (p : ℕ → K) : ℕ → ℕ
  | 0 => 0
  | 1 => 0
  | n + 1 => if p n < p (argmin p n) then n else argmin p n

/-- `np.min` and `np.max` of an array with at least one entry -/
def range? : List K → Option (K × K)
  | [] => none
  | a :: l => some (l.foldl min a, l.foldl max a)

/-! ## reduce_vectors (plot.py:17-33) -/

/-- Positions selected by `slice(start, None, step)`, `step > 0`, from `n` positions -/
def sliceIdx (start step n : ℕ) : List ℕ := (List.range ((n - start + (step - 1)) / step)).map fun k => start + k * step

/-- `spacing` (plot.py:31), `nlat` is the number of rows of `y`. -/
def spacing (nlat : ℕ) (ny : ℤ) : ℕ := (max (Int.fdiv nlat ny) 1).toNat

/-- `a[slicer]` of an array of shape (h, w) as list of rows (plot.py:32-33) -/
def thin {α : Type*} (s h w : ℕ) (a : ℕ → ℕ → α) : List (List α) :=
  (sliceIdx (s / 2) s h).map fun j => (sliceIdx (s / 2) s w).map fun i => a j i

/-- `reduce_vectors` (plot.py:17-33) for arrays of shape (h, w) and integer `ny` -/
def reduceVectors {α : Type*} (h w : ℕ) (x y u v : ℕ → ℕ → α) (ny : ℤ) :
    Except PyErr (List (List α) × List (List α) × List (List α) × List (List α)) :=
  if ny = 0 then .error .zeroDivisionError
  else
    let s := spacing h ny
    .ok (thin s h w x, thin s h w y, thin s h w u, thin s h w v)

/-! ## roll_lon (plot.py:63-80), configure_lon_x (plot.py:103-112) -/

/-- `shift` (plot.py:76-79) for `n > 0` longitudes -/
def rollShift (n : ℕ) (lon : ℕ → K) (center : K) : ℤ :=
  (n / 2 : ℕ) - (argmin (fun i => |lon i - pyMod center 360|) n : ℕ)

/-- `roll_lon` (plot.py:63-80): the shift and the offset. `lon[shift]` counts from the end if the shift is negative. -/
def rollLon (n : ℕ) (lon : ℕ → K) (center : K) : Except PyErr (ℤ × K) :=
  if n = 0 then .error .valueError
  else
    let shift := rollShift n lon center
    if 0 ≤ shift ∧ shift < n then .ok (shift, lon shift.toNat)
    else if shift < 0 ∧ -(n : ℤ) ≤ shift then .ok (shift, lon (n + shift).toNat)
    else .error .indexError

/-- `np.roll(field, shift, axis=ZONAL)` -/
def roll {α : Type*} {h w : ℕ} (shift : ℤ) (f : Fin h → Fin w → α) : Fin h → Fin w → α := fun j k =>
  f j ⟨((k - shift) % (w : ℤ)).toNat, by
    have hw : (0 : ℤ) < w := by have := k.2; omega
    have h1 := Int.emod_nonneg ((k : ℤ) - shift) hw.ne'
    have h2 := Int.emod_lt_of_pos ((k : ℤ) - shift) hw
    omega⟩

/-- The longitude that labels the position `x` on the axis (plot.py:112), before it is rounded -/
def lonLabel (offset x : K) : K := pyMod (x - offset) 360

/-- Tick positions and labels, rounded to integers (plot.py:111-112) -/
def lonTicks (offset : K) : List (K × ℤ) :=
  (List.range 12).map fun k : ℕ => ((30 * (k : K)), pyRound (lonLabel offset (30 * (k : K))))

/-- `configure_lat_y` (plot.py:115-124): limits of the axis -/
def latLimits (hemisphere : String) : K × K :=
  (if hemisphere = "N" then 0 else -90, if hemisphere = "S" then 0 else 90)

/-! ## symmetric_levels (plot.py:85-100) -/

/-- `symmetric_levels`. `np.min` of an empty array raises ValueError. -/
def symmetricLevels (x : List K) (n : ℕ) (ext : Option K) : Except PyErr (List K) :=
  let ext : Except PyErr K := match ext with
    | some e => .ok e
    | none => match range? x with
      | none => .error .valueError
      | some (lo, hi) => .ok (max |lo| |hi|)
  match ext with
  | .error e => .error e
  | .ok ext => if ext = 0 then .ok [-1, 1] else .ok ((List.range n).map fun i => linspace (-ext) ext n i)

/-! ## summary (plot.py:130-204): what is drawn in the panel with PV and wind vectors -/

/-- The panel: PV at the gridpoints of the axis, vectors (position, wind), offset of the labels of the x-axis -/
structure SummaryPanel (g : Grid K) where
  pv : Fin g.nlat → Fin g.nlon → K
  x : List (List K)
  y : List (List K)
  u : List (List K)
  v : List (List K)
  offset : K

/-- plot.py:152, 154, 176-181. `u`, `v` as functions of row and column. Simplification: no vectors are drawn if the wind is zero
everywhere (line 179), here these are vectors of length zero. -/
def summaryPanel (g : Grid K) (pv : Fin g.nlat → Fin g.nlon → K) (u v : ℕ → ℕ → K) (hemisphere : String) (center : K) :
    Except PyErr (SummaryPanel g) :=
  match rollLon g.nlon g.lon center with
  | .error e => .error e
  | .ok (shift, offset) =>
    match reduceVectors g.nlat g.nlon (fun _ i => g.lon i) (fun j _ => g.lat j) u v (if hemisphere = "both" then 13 else 21) with
    | .error e => .error e
    | .ok (x, y, u, v) => .ok ⟨roll shift fun j i => 10000 * pv j i, x, y, u, v, offset⟩

/-! ## Contour levels of wave_activity and rwp_diagnostics -/

/-- `np.linspace(np.min(pv), np.max(pv), n)[1:-1]` (plot.py:243, 316), `n ≥ 2` -/
def pvLevels (x : List K) (n : ℕ) : Except PyErr (List K) :=
  match range? x with
  | none => .error .valueError
  | some (lo, hi) => .ok ((List.range (n - 2)).map fun i => linspace lo hi n (i + 1))

/-- `rwp_levels` (plot.py:300-302) -/
def rwpLevels (env ffalwa : List K) (rwpMax : Option K) : Except PyErr (List K) :=
  let m : Except PyErr K := match rwpMax with
    | some m => .ok m
    | none => match range? env, range? ffalwa with
      | some a, some b => .ok (max a.2 b.2)
      | _, _ => .error .valueError
  match m with
  | .error e => .error e
  | .ok m => .ok ((List.range 6).map fun i => linspace 0 m 6 i)

/-! ## waveguides (plot.py:327-385): the line that shows waveguides -/

/-- `wg_coords` (plot.py:359-361): y-coordinates of the line, `none` is NaN. -/
def waveguideLine {α : Type*} (wgs : List (α × α)) : List (Option α) := wgs.foldl (fun acc w => acc ++ [none, some w.1, some w.2]) []

/-- Both coordinates: `[k]*len(wg_coords), wg_coords` (plot.py:363) -/
def waveguidePoints {α : Type*} (k : α) (wgs : List (α × α)) : List (α × Option α) :=
  (List.replicate (waveguideLine wgs).length k).zip (waveguideLine wgs)

/-! ## waveguides (plot.py:327-385): ticks of the wavenumber axis -/

/-- Ticks (plot.py:370-379): `xlim` are the limits chosen by matplotlib. If the step is 0 the ticks are NaN and the call raises
ValueError (`np.arange`). -/
def wavenumberTicks (xlim bounds : K × K) : Except PyErr (List ℤ) :=
  let xmin := ⌈max bounds.1 xlim.1⌉
  let xmax := ⌈min bounds.2 xlim.2⌉
  let step := ⌈((xmax - xmin : ℤ) : K) / 10⌉
  if step = 0 then .error .valueError
  else
    let start := xmin + Int.fmod xmin step
    .ok ((List.range ⌈((xmax - start : ℤ) : K) / step⌉.toNat).map fun k : ℕ => start + (k : ℤ) * step)

/-! ## format_time (formatting.py:14-27) -/

/-- Number and unit that are shown, before the number is rounded to one decimal -/
def timeUnit (time : K) : K × String :=
  let p : K × String := (time, "s")
  let p := if 120 < p.1 then (p.1 / 60, "min") else p
  let p := if 120 < p.1 then (p.1 / 60, "h") else p
  if 240 < p.1 then (p.1 / 24, "d") else p

/-- `"{:.1f}".format(x)`: the number of tenths that is shown -/
def tenths (x : K) : ℤ := pyRound (10 * x)

/-- Objects that occur as `State.time`: numbers, zero-dimensional arrays (`DataArray.values`, io.py:336), datetimes -/
inductive TimeObj (K : Type*)
  | number (x : K)
  | array0 (x : K)
  | datetime (us : ℤ)

/-- What `format_time` returns: tenths and unit, or the ISO format of a datetime. Arrays are not instances of `Number` and have
no method `isoformat`. -/
inductive TimeText
  | numeric (tenths : ℤ) (unit : String)
  | iso (us : ℤ)
  deriving DecidableEq

/-- `format_time` (formatting.py:14-27) -/
def formatTime : TimeObj K → Except PyErr TimeText
  | .number x => .ok (.numeric (tenths (timeUnit x).1) (timeUnit x).2)
  | .datetime us => .ok (.iso us)
  | .array0 _ => .error .attributeError

/-! ## grid_region_repr (formatting.py:43-59): the map -/

/-- `np.histogram(x, np.linspace(lo, hi, n + 1))[0] > 0`: entry `k`. Bins contain their left edge, the last one both. -/
def histPos (x : List K) (lo hi : K) (n k : ℕ) : Bool :=
  x.any fun a => decide (linspace lo hi (n + 1) k ≤ a ∧ (a < linspace lo hi (n + 1) (k + 1) ∨ (k + 1 = n ∧ a = hi)))

/-- The map: 9 rows with 36 characters (formatting.py:45-48). `true` is "X". -/
def regionMap {g : Grid K} (r : Region g) : List (List Bool) :=
  ((List.range 9).map fun k => histPos r.lat (-90) 90 9 k).reverse.map fun a =>
    ((List.range 36).map fun k => histPos r.lon 0 360 36 k).map fun b => a && b

/-- The bounds in the header (formatting.py:54-55): latitudes from south to north, longitudes -/
def regionBounds {g : Grid K} (r : Region g) : Except PyErr ((K × K) × (K × K)) :=
  match r.lat.getLast?, r.lat.head?, r.lon.head?, r.lon.getLast? with
  | some a, some b, some c, some d => .ok ((a, b), (c, d))
  | _, _, _, _ => .error .indexError

end Generic

/-! ## hovmoellerify (plot.py:36-60) -/

/-- `a.T`: the order of the dimensions is reversed. -/
noncomputable def transpose (a : NdArr) : NdArr :=
  ⟨a.shape.reverse, (Io.product (a.shape.reverse.map List.range)).map fun idx => a.data.getD (Io.ravel a.shape idx.reverse) 0⟩

/-- The result: x-coordinates, y-coordinates, field -/
inductive Hovmoeller
  | zonal (lon : List ℝ) (times : List PyTime) (field : NdArr)
  | meridional (times : List PyTime) (lat : List ℝ) (field : NdArr)

/-- `hovmoellerify` (plot.py:36-60), `f` returns arrays. -/
noncomputable def hovmoellerify {H : GridHeap} (states : List (AnySt PyTime H)) (f : AnySt PyTime H → Except PyErr NdArr) :
    Except PyErr Hovmoeller :=
  match states with
  | [] => .error .valueError
  | s :: _ =>
    let g := H.grid s.1
    let times := states.map fun s => s.2.time
    match states.mapM f with
    | .error e => .error e
    | .ok fields =>
      match fields with
      | [] => .error .indexError
      | a :: _ =>
        if a.data.length = g.nlon then
          match SList.stack fields with
          | .error e => .error e
          | .ok b => .ok (.zonal ((List.range g.nlon).map fun i => g.lon i) times b)
        else if a.data.length = g.nlat then
          match SList.stack fields with
          | .error e => .error e
          | .ok b => .ok (.meridional times ((List.range g.nlat).map fun i => g.lat i) (transpose b))
        else .error .valueError

end Plot
end Barotropic
