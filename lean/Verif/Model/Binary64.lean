import Verif.Model.Filter
import Mathlib.Data.Int.Log

/-!
# Grid sizes, coordinates, times and filter widths in double precision

(grid.py:52-55, model.py:84-150, diagnostics.py:201-206)

The rest of the model uses exact numbers. Here every operation is rounded as on a computer.
-/

namespace Barotropic
namespace Binary64

variable {K : Type*} [Field K] [LinearOrder K] [IsStrictOrderedRing K] [FloorRing K]

/-- Exponent of the last bit of numbers of the size of `x` -/
def lastBit (x : K) : ℤ := Int.log 2 |x| - 52

/-- The result of an operation whose exact result is `x`: rounded to 53 bits, ties to even. Simplification: exponents are not
limited, there is no overflow or underflow. -/
def rnd (x : K) : K := pyRound (x / 2 ^ lastBit x) * 2 ^ lastBit x

/-- `int(360. / resolution)` (grid.py:52) -/
def nlonOf (resolution : K) : ℕ := ⌊rnd (360 / resolution)⌋₊

/-- `int(180. / resolution) + 1` (grid.py:53) -/
def nlatOf (resolution : K) : ℕ := ⌊rnd (180 / resolution)⌋₊ + 1

/-- `np.linspace(start, stop, n, endpoint=False)[i]`: `np.arange(0, n) * step + start` -/
def linspaceOpen (start stop : K) (n i : ℕ) : K := rnd (rnd (i * rnd (rnd (stop - start) / n)) + start)

/-- `np.linspace(start, stop, n, endpoint=True)[i]`, `n > 1`; the last entry is set to `stop`. -/
def linspace (start stop : K) (n i : ℕ) : K :=
  if i = n - 1 then stop else rnd (rnd (i * rnd (rnd (stop - start) / (n - 1 : ℕ))) + start)

/-- `Grid.lon` of a grid with `n` longitudes (grid.py:54) -/
def lon (n i : ℕ) : K := linspaceOpen 0 360 n i

/-- `Grid.lat` of a grid with `n` latitudes (grid.py:55) -/
def lat (n j : ℕ) : K := linspace 90 (-90) n j

/-- Times of the two states that `run` keeps after `k` iterations, for numbers as times: the Euler step adds `dt`
(model.py:106), leapfrog steps add the difference of both times (model.py:128, 137). -/
def pair (t0 dt : K) : ℕ → K × K
  | 0 => (t0, rnd (t0 + dt))
  | k + 1 => ((pair t0 dt k).2, rnd ((pair t0 dt k).2 + rnd ((pair t0 dt k).2 - (pair t0 dt k).1)))

/-- A boxcar window of `w` gridpoints applied to a field of equal values `k` (grid.py:715-718, 738-741): products with the weights are
added up one after the other. (Assumes that products are rounded before they are added.) -/
def smoothConst (w : ℕ) (k : K) : K := (fun acc => rnd (acc + rnd (k * rnd (1 / (w : K)))))^[w] 0

/-- `hann_width` of `filter_by_wavenumber` (diagnostics.py:201-206) for a wavenumber `k`. `//` is exact. -/
def hannWidth (nlon : ℕ) (k : K) : ℕ := ⌊(nlon : K) / min (max k 1) (nlon / 2)⌋₊ * 2 + 1

end Binary64
end Barotropic
