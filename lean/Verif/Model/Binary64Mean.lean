import Verif.Model.Binary64Zonalize

/-!
# Means and filters in double precision

(grid.py:457-465, 701-774) Every operation is rounded as on a computer. Sums are taken in the order of a tree.
-/

namespace Barotropic
namespace Binary64

variable {K : Type*} [Field K] [LinearOrder K] [IsStrictOrderedRing K] [FloorRing K]

/-- `(field * area).sum() / area.sum() / field.shape[1]` (grid.py:461) of a field of width `w`; term `k` of the first sum is the value in
row `k / w` and column `k % w`. -/
def meanAll (t s : SumTree) (a : ℕ → K) (w : ℕ) (f : ℕ → ℕ → K) : K :=
  rnd (rnd (t.eval (fun k => rnd (f (k / w) (k % w) * a (k / w))) / s.eval a) / w)

/-- One column of `(field * area).sum(axis=0) / area.sum(axis=0)` (grid.py:463) -/
def meanMeridional (t s : SumTree) (a f : ℕ → K) : K := rnd (t.eval (fun j => rnd (f j * a j)) / s.eval a)

/-- One row of `field.mean(axis=1)` (grid.py:465) -/
def meanZonal (t : SumTree) (w : ℕ) (f : ℕ → K) : K := rnd (t.eval f / w)

/-- One weight of `window / np.sum(window)` (grid.py:719) -/
def windowWeight (s : SumTree) (win : ℕ → K) (k : ℕ) : K := rnd (win k / s.eval win)

/-- One value of `scipy.ndimage.convolve(field, window)` (grid.py:741, 744, 769, 772): `f k` is the value of the (reflected or periodic)
field that meets weight `k`. Simplification: scipy skips weights below `2⁻⁵²`. -/
def convolveAt (t : SumTree) (weight f : ℕ → K) : K := t.eval (fun k => rnd (f k * weight k))

end Binary64
end Barotropic
