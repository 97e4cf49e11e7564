import Verif.Model.Basic

/-!
# Grid construction, equality, hash  (grid.py:44-100)
-/

namespace Barotropic

variable {K : Type*} [Field K] [LinearOrder K] [IsStrictOrderedRing K] [FloorRing K]

/-- The parameters a constructed `Grid` object keeps: `resolution` (= `dlon`), `rsphere`, `omega`, `_ntrunc`
(grid.py:47-48, 58-59, 69). `legfunc` (a performance option of spharm) is not modelled. -/
structure Grid (K : Type*) where
  resolution : K
  rsphere : K
  omega : K
  ntrunc : ℕ

namespace Grid

/-- `int(360. / resolution)` for positive resolution (grid.py:52). -/
def nlonOf (resolution : K) : ℕ := ⌊360 / resolution⌋₊

/-- `int(180. / resolution) + 1` for positive resolution (grid.py:53). -/
def nlatOf (resolution : K) : ℕ := ⌊180 / resolution⌋₊ + 1

/-- grid.py:52 -/
def nlon (g : Grid K) : ℕ := nlonOf g.resolution

/-- grid.py:53 -/
def nlat (g : Grid K) : ℕ := nlatOf g.resolution

/-- `Grid.__init__` (grid.py:44-81), as far as it can raise. A zero resolution raises ZeroDivisionError at
line 52. A negative resolution makes `np.linspace` (line 54) or spharm (line 68) raise ValueError.
`spharm.Spharmt` (line 68) rejects `rsphere <= 0`, `nlon < 4` and `nlat < 3` with ValueError, and
`grdtospec` (called through line 81) rejects `ntrunc > nlat - 1` with ValueError.
Simplification: `ntrunc` is a natural number or `None`. -/
def make (resolution rsphere omega : K) (ntrunc : Option ℕ) : Except PyErr (Grid K) :=
  if resolution = 0 then .error .zeroDivisionError
  else if resolution < 0 then .error .valueError
  else if rsphere ≤ 0 ∨ nlonOf resolution < 4 ∨ nlatOf resolution < 3 then .error .valueError
  else
    let nt := ntrunc.getD (nlatOf resolution - 1)
    if nlatOf resolution - 1 < nt then .error .valueError
    else .ok { resolution := resolution, rsphere := rsphere, omega := omega, ntrunc := nt }

/-- `self.shape` (grid.py:98-100) -/
def shape (g : Grid K) : ℕ × ℕ := (g.nlat, g.nlon)

/-- `self.lon[i] = np.linspace(0., 360., nlon, endpoint=False)[i]` (grid.py:54) -/
def lon (g : Grid K) (i : ℕ) : K := linspaceOpen 0 360 g.nlon i

/-- `self.lat[j] = np.linspace(90., -90., nlat, endpoint=True)[j]` (grid.py:55) -/
def lat (g : Grid K) (j : ℕ) : K := linspace 90 (-90) g.nlat j

/-- grid.py:58 -/
def dlon (g : Grid K) : K := g.resolution

/-- grid.py:59 -/
def dlat (g : Grid K) : K := -g.resolution

/-- `Grid.__eq__` (grid.py:86-92): shape and truncation equal, radius and angular velocity `np.isclose`. -/
def eq (g h : Grid K) : Prop :=
  g.shape = h.shape ∧ isclose g.rsphere h.rsphere ∧ isclose g.omega h.omega ∧ g.ntrunc = h.ntrunc

instance (g h : Grid K) : Decidable (g.eq h) := by unfold eq; infer_instance

/-- The tuple that `Grid.__hash__` hashes (grid.py:94-95). -/
def hashKey (g : Grid K) : (ℕ × ℕ) × K × K × ℕ := (g.shape, g.rsphere, g.omega, g.ntrunc)

/-- `Grid.__hash__` for a given hash function on the tuple (CPython's tuple/float hash is a parameter). -/
def hash (hashFn : (ℕ × ℕ) × K × K × ℕ → ℕ) (g : Grid K) : ℕ := hashFn g.hashKey

end Grid
end Barotropic
