import Verif.Model.Rhs
import Verif.Spec.Spharm

/-!
# Vocabulary for statements about orography
-/

namespace Barotropic

/-- The spharm object of a grid depends on the number of gridpoints, the truncation and the radius only (these are its
constructor arguments, grid.py:68). -/
def GridHeap.Standard (H : GridHeap) : Prop :=
  ∃ mk : (nlat nlon T : ℕ) → ℝ → Spharm nlat nlon T,
    ∀ i, H.sph i = mk (H.grid i).nlat (H.grid i).nlon (H.grid i).ntrunc (H.grid i).rsphere

/-- Grids that compare equal and have different hash keys have different hashes, for all grids that exist. (CPython's hash
is 64 bit wide: this is a property of the values in use, not of all possible values.) -/
def RhsHeap.NoCollision (H : RhsHeap) (hash : RhsHeap.KeyHash) : Prop :=
  ∀ t i j, (H.grid i).eq (H.grid j) → hash t (H.grid i).hashKey = hash t (H.grid j).hashKey →
    (H.grid i).hashKey = (H.grid j).hashKey

/-- Bilinear interpolation in a box given by its corner values -/
noncomputable def bilinear (x0 x1 y0 y1 x y f00 f01 f10 f11 : ℝ) : ℝ :=
  ((x1 - x) * (y1 - y) * f00 + (x - x0) * (y1 - y) * f01 + (x1 - x) * (y - y0) * f10 + (x - x0) * (y - y0) * f11) /
    ((x1 - x0) * (y1 - y0))

end Barotropic
