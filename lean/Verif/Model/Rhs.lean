import Verif.Model.Run
import Verif.Model.Zonalize
import Mathlib.Analysis.SpecialFunctions.Exp

/-!
# Forcing terms  (rhs.py)
-/

namespace Barotropic

/-- `a <= b`; numbers and datetimes do not compare. -/
noncomputable def PyTime.le : PyTime → PyTime → Except PyErr Bool
  | .num a, .num b => .ok (decide (a ≤ b))
  | .datetime a, .datetime b => .ok (decide (a ≤ b))
  | _, _ => .error .typeError

/-! ## Values -/

/-- What a forcing term returns: a number or an array of the shape of the grid. (Arrays of other shapes that would
broadcast, like columns, are not modelled; no class of rhs.py returns such.) -/
inductive RVal (g : Grid ℝ)
  | num (x : ℝ)
  | fld (f : g.Fld)

namespace RVal
variable {g : Grid ℝ}

/-- numpy addition of numbers and arrays -/
noncomputable def add : RVal g → RVal g → RVal g
  | num x, num y => num (x + y)
  | num x, fld f => fld fun j i => x + f j i
  | fld f, num x => fld fun j i => f j i + x
  | fld f, fld f' => fld fun j i => f j i + f' j i

/-- numpy subtraction of numbers and arrays -/
noncomputable def sub : RVal g → RVal g → RVal g
  | num x, num y => num (x - y)
  | num x, fld f => fld fun j i => x - f j i
  | fld f, num x => fld fun j i => f j i - x
  | fld f, fld f' => fld fun j i => f j i - f' j i

/-- numpy multiplication of numbers and arrays -/
noncomputable def mul : RVal g → RVal g → RVal g
  | num x, num y => num (x * y)
  | num x, fld f => fld fun j i => x * f j i
  | fld f, num x => fld fun j i => f j i * x
  | fld f, fld f' => fld fun j i => f j i * f' j i

end RVal

/-! ## Terms and operators -/

/-- Python objects that appear in sums and products of forcing terms: numbers, plain functions, instances of `RHS`
subclasses (given by their `__call__`), `_RHSSum` and `_RHSProduct` objects. -/
inductive Term (g : Grid ℝ)
  | number (x : ℝ)
  | func (f : St PyTime g → Except PyErr (RVal g))
  | rhs (f : St PyTime g → Except PyErr (RVal g))
  | sum (a b : Term g)
  | prod (a b : Term g)

namespace Term
variable {g : Grid ℝ}

/-- `isinstance(t, RHS)` -/
def isRhs : Term g → Bool
  | rhs _ | sum _ _ | prod _ _ => true
  | _ => false

/-- `t(state)`; `_RHSSum.__call__`, `_RHSProduct.__call__` (rhs.py:35-36, 48-49). Calling a number raises TypeError. -/
noncomputable def call : Term g → St PyTime g → Except PyErr (RVal g)
  | number _, _ => .error .typeError
  | func f, s => f s
  | rhs f, s => f s
  | sum a b, s => do
    let x ← a.call s
    let y ← b.call s
    return x.add y
  | prod a b, s => do
    let x ← a.call s
    let y ← b.call s
    return x.mul y

/-- `a + b`: `RHS.__add__` (rhs.py:16-17), else `RHS.__radd__` (rhs.py:19-20), else Python's own addition. -/
noncomputable def pyAdd (a b : Term g) : Except PyErr (Term g) :=
  if a.isRhs then .ok (sum a b)
  else if b.isRhs then .ok (sum a b)
  else match a, b with
    | number x, number y => .ok (number (x + y))
    | _, _ => .error .typeError

/-- `a * b`: `RHS.__mul__` (rhs.py:22-23), else `RHS.__rmul__` (rhs.py:25-26), else Python's own multiplication. -/
noncomputable def pyMul (a b : Term g) : Except PyErr (Term g) :=
  if a.isRhs then .ok (prod a b)
  else if b.isRhs then .ok (prod a b)
  else match a, b with
    | number x, number y => .ok (number (x * y))
    | _, _ => .error .typeError

/-- The term as `rhs` of a model: `_pv_tendency_spectral` calls it and transforms the result (model.py:156).
`to_spectral` of a Python number raises AttributeError (no `shape`). -/
noncomputable def toRhs (t : Term g) (s : St PyTime g) : Except PyErr g.Fld :=
  match t.call s with
  | .error e => .error e
  | .ok (.num _) => .error .attributeError
  | .ok (.fld f) => .ok f

/-- `TimedOffSwitch` (rhs.py:67-71) -/
noncomputable def timedOffSwitch (tend : PyTime) : Term g := rhs fun s =>
  match s.time.le tend with
  | .error e => .error e
  | .ok true => .ok (.num 1)
  | .ok false => .ok (.num 0)

/-- `LinearRelaxation` (rhs.py:85-91); the reference is an array (or a number). -/
noncomputable def linearRelaxation (S : g.Sph) (rate : ℝ) (reference : RVal g) : Term g := rhs fun s =>
  .ok ((RVal.num rate).mul (reference.sub (.fld (s.pv S))))

end Term

/-! ## Orography -/

/-- `np.interp(x, xp, fp)` for increasing `xp` and equally long, non-empty `xp`, `fp`: the first value left of the first
point, the last value right of the last point, linear in between. -/
noncomputable def interp {n : ℕ} (xp fp : Fin n → ℝ) (x : ℝ) : ℝ :=
  match List.finRange n with
  | [] => 0
  | a :: l => if x < xp a then fp a else npInterp lerp (xp a, fp a) (l.map fun k => (xp k, fp k)) x

/-- The three classes of orography. Simplification: a standard deviation of zero gives NaN in numpy and a division by
zero (= 0) here. -/
inductive OrogKind
  /-- `Orography(lon, lat, orography)` (rhs.py:134-137): two one-dimensional arrays and a two-dimensional one -/
  | gridded (nlon nlat h w : ℕ) (lon : Fin nlon → ℝ) (lat : Fin nlat → ℝ) (orography : Fin h → Fin w → ℝ)
  /-- `GaussianMountain` (rhs.py:202-210) -/
  | gaussian (height centerLon centerLat stdevLon stdevLat : ℝ)
  /-- `ZonalSineMountains` (rhs.py:233-239); the wavenumber is an integer -/
  | sine (height centerLat stdevLat : ℝ) (wavenumber : ℤ)

namespace OrogKind

/-- `Orography.orography` (rhs.py:151-166). `np.interp` raises ValueError for sample points of different or zero length;
`apply_along_axis` raises ValueError if there is no column. -/
noncomputable def griddedOrography (g : Grid ℝ) {nlon nlat h w : ℕ} (lon : Fin nlon → ℝ) (lat : Fin nlat → ℝ)
    (orography : Fin h → Fin w → ℝ) : Except PyErr g.Fld :=
  if w = 0 ∨ h = 0 then .error .valueError
  else if e : nlat = h then
    if e' : nlon = w then
      let latInterp (x : Fin nlat → ℝ) (j : Fin g.nlat) : ℝ := interp (fun k => -lat k) x (-g.lat j)
      let lonInterp (x : Fin nlon → ℝ) (i : Fin g.nlon) : ℝ := interp lon x (g.lon i)
      let orog (j : Fin g.nlat) (i' : Fin nlon) : ℝ := latInterp (fun j' => orography (Fin.cast e j') (Fin.cast e' i')) j
      .ok fun j i => lonInterp (orog j) i
    else .error .valueError
  else .error .valueError

/-- `GaussianMountain.orography` at one point (rhs.py:212-217) -/
noncomputable def gaussianHeight (height clon clat slon slat lon lat : ℝ) : ℝ :=
  height * Real.exp (-(1 / 2) * (lon - clon) ^ 2 / slon ^ 2) * Real.exp (-(1 / 2) * (lat - clat) ^ 2 / slat ^ 2)

/-- `ZonalSineMountains.orography` at one point (rhs.py:241-246) -/
noncomputable def sineHeight (height clat slat : ℝ) (k : ℤ) (lam lat : ℝ) : ℝ :=
  height * (1 / 2 * (1 + Real.cos (k * lam))) * Real.exp (-(1 / 2) * (lat - clat) ^ 2 / slat ^ 2)

/-- `self.orography(grid)` -/
noncomputable def orography (g : Grid ℝ) : OrogKind → Except PyErr g.Fld
  | gridded _ _ _ _ lon lat o => griddedOrography g lon lat o
  | gaussian height clon clat slon slat => .ok fun j i => gaussianHeight height clon clat slon slat (g.lon2 j i) (g.lat2 j i)
  | sine height clat slat k => .ok fun j i => sineHeight height clat slat k (g.lam i) (g.lat2 j i)

end OrogKind

/-- The argument `stdev` of `GaussianMountain`: a number or a pair -/
inductive Stdev
  | one (x : ℝ)
  | two (x y : ℝ)

/-- `GaussianMountain.__init__` (rhs.py:202-210) -/
def OrogKind.mkGaussian (height : ℝ) (center : ℝ × ℝ) : Stdev → OrogKind
  | .one x => .gaussian height center.1 center.2 x x
  | .two x y => .gaussian height center.1 center.2 x y

/-- The selected wind -/
inductive WindKind
  | act (fact : ℝ)
  | zon (fact : ℝ)
  | sbr (fact : ℝ)

/-- rhs.py:141-149 -/
def WindKind.parse (wind : String × ℝ) : Except PyErr WindKind :=
  if wind.1 = "act" then .ok (.act wind.2)
  else if wind.1 = "zon" then .ok (.zon wind.2)
  else if wind.1 = "sbr" then .ok (.sbr wind.2)
  else .error .valueError

/-- An `Orography` object (rhs.py:134-149) -/
structure Orog where
  kind : OrogKind
  scaleHeight : ℝ
  wind : WindKind
  fcorRef : Option ℝ

namespace Orog

/-- The common part of the constructors (rhs.py:134-149) -/
def make (kind : OrogKind) (scaleHeight : ℝ) (wind : String × ℝ) (fcorRef : Option ℝ) : Except PyErr Orog :=
  match WindKind.parse wind with
  | .error e => .error e
  | .ok w => .ok ⟨kind, scaleHeight, w, fcorRef⟩

variable {g : Grid ℝ} (S : g.Sph)

/-- `self._get_wind(state)` (rhs.py:143, 145, 147), both components broadcast to the grid -/
noncomputable def getWind (o : Orog) (s : St PyTime g) : g.Fld × g.Fld :=
  match o.wind with
  | .act f => (fun j i => f * s.u S j i, fun j i => f * s.v S j i)
  | .zon f => (fun j _ => f * ((∑ i', s.u S j i') / g.nlon), fun _ _ => 0)
  | .sbr f => (fun j _ => f * Real.cos (g.phi j), fun _ _ => 0)

/-- `Orography._orography_gradient` (rhs.py:168-175) without its cache -/
noncomputable def gradient (o : Orog) : Except PyErr (g.Fld × g.Fld) :=
  match o.kind.orography g with
  | .error e => .error e
  | .ok h => .ok (Grid.gradient S h)

/-- `-fcor / self._scale_height * (u * gradx + v * grady)` (rhs.py:181, 186).
Simplification: a scale height of zero gives inf/NaN or ZeroDivisionError in Python. -/
noncomputable def combine (o : Orog) (uv grad : g.Fld × g.Fld) : g.Fld := fun j i =>
  -(match o.fcorRef with
    | none => g.fcor2 j i
    | some f => f) / o.scaleHeight * (uv.1 j i * grad.1 j i + uv.2 j i * grad.2 j i)

/-- `Orography.__call__` (rhs.py:177-186), gradient evaluated afresh -/
noncomputable def force (o : Orog) (s : St PyTime g) : Except PyErr g.Fld :=
  match o.gradient S with
  | .error e => .error e
  | .ok grad => .ok (o.combine (o.getWind S s) grad)

/-- An orographic forcing in a sum or product of terms -/
noncomputable def term (o : Orog) : Term g := .rhs fun s => (o.force S s).map .fld

end Orog

/-! ## The cache of the orography gradient -/

/-- Objects that exist: grids and orographic forcing terms by address. An object that is referred to by the cache is kept
alive by it (the keys hold references), so the address of a cached object always stands for the same object. -/
structure RhsHeap extends GridHeap where
  orog : ℕ → Orog

/-- Entry of `functools.lru_cache`: key `(self, grid)` and value. -/
structure CacheEntry where
  term : ℕ
  grid : ℕ
  value : Arr ℝ × Arr ℝ

/-- Cache (most recently used entry last) and the number of evaluations of the wrapped method so far. The cache is an
attribute of the class, it is shared by all terms (rhs.py:168). -/
structure LruCache where
  entries : List CacheEntry
  misses : ℕ

namespace RhsHeap
variable (H : RhsHeap)

/-- The hash function on the tuple `(self, grid)`: identity hash of `self`, `Grid.__hash__` of the grid. -/
abbrev KeyHash := ℕ → (ℕ × ℕ) × ℝ × ℝ × ℕ → ℕ

/-- Two keys are the same for the dictionary of the cache: equal hashes, the same term object (`RHS` does not define
`__eq__`) and the same or equal grids (`stored == new`, Grid.__eq__). -/
def KeyMatch (hash : KeyHash) (stored new : ℕ × ℕ) : Prop :=
  hash stored.1 (H.grid stored.2).hashKey = hash new.1 (H.grid new.2).hashKey ∧
  stored.1 = new.1 ∧ (stored.2 = new.2 ∨ (H.grid stored.2).eq (H.grid new.2))

noncomputable instance (hash : KeyHash) (a b : ℕ × ℕ) : Decidable (H.KeyMatch hash a b) := by
  unfold KeyMatch; infer_instance

/-- Evaluation of the wrapped method: `grid.gradient(self.orography(grid))` (rhs.py:175), as arrays with shape. -/
noncomputable def fresh (key : ℕ × ℕ) : Except PyErr (Arr ℝ × Arr ℝ) :=
  match (H.orog key.1).gradient (H.sph key.2) with
  | .error e => .error e
  | .ok (x, y) => .ok (.d2 _ _ x, .d2 _ _ y)

/-- Call of the cached method. If several stored keys match (only possible with colliding hashes), the dictionary finds
one of them, here the least recently used. Exceptions are not cached; a full cache drops its oldest entry. -/
noncomputable def cachedGradient (hash : KeyHash) (key : ℕ × ℕ) (c : LruCache) : Except PyErr (Arr ℝ × Arr ℝ) × LruCache :=
  match c.entries.find? fun e => decide (H.KeyMatch hash (e.term, e.grid) key) with
  | some e =>
    (.ok e.value, ⟨c.entries.eraseP (fun e => decide (H.KeyMatch hash (e.term, e.grid) key)) ++ [e], c.misses⟩)
  | none =>
    match H.fresh key with
    | .error err => (.error err, ⟨c.entries, c.misses + 1⟩)
    | .ok v =>
      (.ok v, ⟨(if 8 ≤ c.entries.length then c.entries.drop 1 else c.entries) ++ [⟨key.1, key.2, v⟩], c.misses + 1⟩)

/-- Any sequence of calls -/
noncomputable def calls (hash : KeyHash) : List (ℕ × ℕ) → LruCache → List (Except PyErr (Arr ℝ × Arr ℝ)) × LruCache
  | [], c => ([], c)
  | k :: ks, c =>
    let r := H.cachedGradient hash k c
    let rest := calls hash ks r.2
    (r.1 :: rest.1, rest.2)

end RhsHeap
end Barotropic
