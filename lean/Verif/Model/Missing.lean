import Mathlib.Algebra.Order.Field.Basic
import Mathlib.Data.Option.NAry
import Mathlib.Data.List.Sort
import Mathlib.Algebra.BigOperators.Intervals

/-!
# Missing values

(grid.py:461-465, 471-570, 626-697, diagnostics.py:74-96) Fields in which some values are NaN. A floating-point number is
`some x` or `none` for NaN. Simplifications: no rounding; infinite values are not distinguished from NaN.
-/

namespace Barotropic
namespace Missing

variable {K : Type*} [Field K] [LinearOrder K]

/-- Arithmetic: the result is NaN as soon as one operand is. -/
def add (x y : Option K) : Option K := Option.map₂ (· + ·) x y
@[inherit_doc add] def sub (x y : Option K) : Option K := Option.map₂ (· - ·) x y
@[inherit_doc add] def mul (x y : Option K) : Option K := Option.map₂ (· * ·) x y

/-- Division; NaN or infinite for a divisor of zero -/
def div : Option K → Option K → Option K
  | some x, some y => if y = 0 then none else some (x / y)
  | _, _ => none

/-- `x >= 0`, false for NaN -/
def nonneg : Option K → Bool
  | some x => decide (0 ≤ x)
  | none => false

/-- `np.sum(…, where=mask)` of `n` terms -/
def sumWhere (n : ℕ) (mask : ℕ → Bool) (f : ℕ → Option K) : Option K :=
  (List.range n).foldl (fun acc j => if mask j then add acc (f j) else acc) (some 0)

/-- `np.sum` of `n` terms -/
def sum (n : ℕ) (f : ℕ → Option K) : Option K := sumWhere n (fun _ => true) f

/-- `np.max` (`np.min` likewise) of the values of a field of `h × w`: NaN if one of them is -/
def extremum (pick : K → K → K) (h w : ℕ) (f : ℕ → ℕ → Option K) : Option K :=
  (List.range h).foldl (fun acc j => (List.range w).foldl (fun acc i => Option.map₂ pick acc (f j i)) acc) (f 0 0)

/-- What is known about the grid: numbers of gridpoints, radius, `dlam`, latitudes in degrees and radians, `gridpoint_area` -/
structure Geometry (K : Type*) where
  nlat : ℕ
  nlon : ℕ
  rsphere : K
  dlam : K
  lat : ℕ → K
  phi : ℕ → K
  area : ℕ → K

/-- Functions of the mathematical library and `equivalent_latitude` (for finite areas) -/
structure Library (K : Type*) where
  sin : K → K
  cos : K → K
  equivalentLatitude : K → K
  cosd : K → K

variable (G : Geometry K) (L : Library K)

/-- A column of `quad_meridional(y, z, method="boxcount")` (grid.py:516-522) -/
def boxColumn (y z : ℕ → Option K) : Option K :=
  div (div (sumWhere G.nlat (fun j => nonneg (z j)) fun j => mul (some (G.area j)) (y j)) (some G.rsphere)) (some G.dlam)

/-- One interval of `quad_meridional(y, z, method="sptrapz")` (grid.py:535-568) -/
def trapzInterval (x0 x1 : K) (y0 y1 z0 z1 : Option K) : Option K :=
  let aa := div (sub y1 y0) (some (x1 - x0))
  let bb := sub y0 (mul aa (some x0))
  let xs := if !nonneg z0 && nonneg z1 then sub (some x0) (mul (div z0 (sub z1 z0)) (some (x1 - x0))) else some x0
  let xe := if nonneg z0 && !nonneg z1 then sub (some x1) (mul (div z1 (sub z1 z0)) (some (x1 - x0))) else some x1
  mul (some G.rsphere) (sub (add (mul aa (sub (xs.map L.cos) (xe.map L.cos))) (mul (add (mul aa xs) bb) (xs.map L.sin)))
    (mul (add (mul aa xe) bb) (xe.map L.sin)))

/-- A column of `quad_meridional(y, z, method="sptrapz")` (grid.py:570) -/
def trapzColumn (y z : ℕ → Option K) : Option K :=
  sumWhere (G.nlat - 1) (fun j => nonneg (z j) || nonneg (z (j + 1))) fun j =>
    trapzInterval G L (G.phi j) (G.phi (j + 1)) (y j) (y (j + 1)) (z j) (z (j + 1))

/-- A column of `quad_meridional` for both methods (grid.py:516-570) -/
def column (boxcount : Bool) (y z : ℕ → Option K) : Option K := if boxcount then boxColumn G y z else trapzColumn G L y z

/-- `quad(y, z, method)` of a field of `w` columns (grid.py:484) -/
def quad (boxcount : Bool) (w : ℕ) (y z : ℕ → ℕ → Option K) : Option K :=
  mul (some (G.rsphere * G.dlam)) (sum w fun i => column G L boxcount (fun j => y j i) fun j => z j i)

/-- Area of the region in which a threshold is exceeded (grid.py:648-649) -/
def contourArea (boxcount : Bool) (w : ℕ) (f : ℕ → ℕ → Option K) (q : Option K) : Option K :=
  quad G L boxcount w (fun _ _ => some 1) fun j i => sub (f j i) q

/-- Automatic contour values (grid.py:640-642), `s k` are the values of the sine -/
def autoLevels (w n : ℕ) (s : ℕ → K) (f : ℕ → ℕ → Option K) : List (Option K) :=
  let lo := extremum min G.nlat w f
  let hi := extremum max G.nlat w f
  (List.range n).map fun k => mul (some (1 / 2)) (add (add (mul (sub hi lo) (some (s k))) lo) hi)

/-- `zonalize(field, levels, interpolate=False)` (grid.py:626-660): contour values with their equivalent latitudes -/
def contours (boxcount : Bool) (w : ℕ) (f : ℕ → ℕ → Option K) (levels : List (Option K)) : List (Option K × Option K) :=
  levels.map fun q => (q, (mul (contourArea G L boxcount w f q) (some ((G.nlon : K) / w))).map L.equivalentLatitude)

/-- The line through two knots as `interp1d` evaluates it -/
def line (a b : K × Option K) (x : K) : Option K := add (mul (div (sub b.2 a.2) (some (b.1 - a.1))) (some (x - a.1))) a.2

/-- `scipy.interpolate.interp1d` of one-dimensional values, i.e. `np.interp`: the last knot that is not above `x` and the next one; the value of
a knot that is hit exactly. Knots from south to north. Simplification: `np.interp` has a second attempt from the right if the result is NaN for finite values. -/
def interp1 (x : K) : K × Option K → List (K × Option K) → Option K
  | a, [] => a.2
  | a, b :: l => if b.1 ≤ x then interp1 x b l else if a.1 = x then a.2 else line a b x

/-- `scipy.interpolate.interp1d` of two-dimensional values (`_call_linear`): `searchsorted(x, x_new)` (left), clipped -/
def interp2 (x : K) : K × Option K → K × Option K → List (K × Option K) → Option K
  | a, b, [] => line a b x
  | a, b, c :: l => if x ≤ b.1 then line a b x else interp2 x b c l

/-- Knots of `interp1d_meridional(values, latitudes, pole_values)` (grid.py:687-689), sorted by `interp1d`. Contours without a latitude (NaN)
are not modelled and left out. -/
def knots (ks : List (Option K × Option K)) (north south : Option K) : List (K × Option K) :=
  ((90, north) :: (ks.filterMap (fun k : Option K × Option K => k.2.map fun y => (y, k.1)) ++ [(-90, south)])).insertionSort
    fun a b : K × Option K => a.1 ≤ b.1

/-- `interpolate_meridional` (grid.py:697) of one-dimensional values at the latitude `x` -/
def interpProfile (ks : List (Option K × Option K)) (north south : Option K) (x : K) : Option K :=
  match knots ks north south with
  | a :: l => interp1 x a l
  | [] => none

/-- `interpolate_meridional` (grid.py:697) of one column of two-dimensional values at the latitude `x` -/
def interpColumn (ks : List (Option K × Option K)) (north south : Option K) (x : K) : Option K :=
  match knots ks north south with
  | a :: b :: l => interp2 x a b l
  | _ => none

/-- `zonalize(field, levels)` (grid.py:662) in row `j` -/
def zonalize (boxcount : Bool) (w : ℕ) (f : ℕ → ℕ → Option K) (levels : List (Option K)) (j : ℕ) : Option K :=
  interpProfile (contours G L boxcount w f levels) (extremum max G.nlat w f) (extremum min G.nlat w f) (G.lat j)

/-- One value of `falwa(…, interpolate=False)` (diagnostics.py:86-90) on the contour `q` with latitude `y` -/
def falwaAt (boxcount : Bool) (f : ℕ → ℕ → Option K) (q y : Option K) (i : ℕ) : Option K :=
  div (sub (column G L boxcount (fun j => sub (f j i) q) fun j => sub (f j i) q)
    (column G L boxcount (fun j => sub (f j i) q) fun j => sub (some (G.lat j)) y)) (y.map L.cosd)

/-- Contour values and latitudes that `falwa` uses (diagnostics.py:76-83): with boxcounting on the latitudes between the gridpoints -/
def falwaContours (boxcount : Bool) (w : ℕ) (f : ℕ → ℕ → Option K) (levels : List (Option K)) : List (Option K × Option K) :=
  let cs := contours G L boxcount w f levels
  if boxcount then
    (List.range (G.nlat - 1)).map fun j =>
      let y := 1 / 2 * (G.lat j + G.lat (j + 1))
      (interpProfile cs (extremum max G.nlat w f) (extremum min G.nlat w f) y, some y)
  else cs

/-- `falwa(…, interpolate=False)` (diagnostics.py:74-94) in column `i` -/
def falwa (boxcount : Bool) (w : ℕ) (f : ℕ → ℕ → Option K) (levels : List (Option K)) (i : ℕ) : List (Option K) :=
  (falwaContours G L boxcount w f levels).map fun c => falwaAt G L boxcount f c.1 c.2 i

/-- `falwa(…)` (diagnostics.py:96) in row `j` and column `i` -/
def falwaGridded (boxcount : Bool) (w : ℕ) (f : ℕ → ℕ → Option K) (levels : List (Option K)) (j i : ℕ) : Option K :=
  interpColumn ((falwaContours G L boxcount w f levels).map fun c => (falwaAt G L boxcount f c.1 c.2 i, c.2)) (some 0) (some 0) (G.lat j)

/-- `mean(field)` (grid.py:461) of `w` columns -/
def meanAll (w : ℕ) (f : ℕ → ℕ → Option K) : Option K :=
  div (div (sum G.nlat fun j => sum w fun i => mul (f j i) (some (G.area j))) (some (∑ j ∈ Finset.range G.nlat, G.area j))) (some (w : K))

/-- `mean(field, axis="meridional")` (grid.py:463) -/
def meanMeridional (f : ℕ → Option K) : Option K :=
  div (sum G.nlat fun j => mul (f j) (some (G.area j))) (some (∑ j ∈ Finset.range G.nlat, G.area j))

/-- `mean(field, axis="zonal")` (grid.py:465) -/
def meanZonal (w : ℕ) (f : ℕ → Option K) : Option K := div (sum w f) (some (w : K))

end Missing
end Barotropic
