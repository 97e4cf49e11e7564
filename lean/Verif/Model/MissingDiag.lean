import Verif.Model.Missing
import Verif.Model.Waveguide
import Verif.Model.Fourier

/-!
# Missing values in derivatives, stationary and dominant wavenumber, wave envelope

(grid.py:316-342, diagnostics.py:20-29, 114-121, 245-248, 285-312) Fields and profiles in which some values are NaN (`none`).
Numbers are real numbers (an ordered field for the derivative). Simplifications: the fields have no infinite values; only the
shapes of the grid.
-/

namespace Barotropic
namespace Missing

section Derivative

variable {K : Type*} [Field K] [LinearOrder K]

/-- `c * x` for a number `c` -/
def times (c : K) (x : Option K) : Option K := mul (some c) x

/-- `x / c` for a number `c` that is not zero in floating point arithmetic (`cos(±π/2)` is not); here `x / 0 = 0` -/
def over (x : Option K) (c : K) : Option K := x.map (· / c)

/-- Entry `j` of the numerator of the 3-point stencil along one column `a` with `h` rows (grid.py:319, 323-327) -/
def stencil2 (poles : Bool) (h : ℕ) (a : ℕ → Option K) (j : ℕ) : Option K :=
  if j = 0 then if poles then sub (add (times (-3) (a 0)) (times 4 (a 1))) (a 2) else some 0
  else if j = h - 1 then
    if poles then add (sub (a (h - 3)) (times 4 (a (h - 2)))) (times 3 (a (h - 1))) else some 0
  else sub (a (j + 1)) (a (j - 1))

/-- Entry `j` of the numerator of the 5-point stencil (grid.py:319, 331-340) -/
def stencil4 (poles : Bool) (h : ℕ) (a : ℕ → Option K) (j : ℕ) : Option K :=
  if j = 0 then
    if poles then
      sub (add (sub (add (times (-25) (a 0)) (times 48 (a 1))) (times 36 (a 2))) (times 16 (a 3))) (times 3 (a 4))
    else some 0
  else if j = h - 1 then
    if poles then
      add (sub (add (sub (times 3 (a (h - 5))) (times 16 (a (h - 4)))) (times 36 (a (h - 3)))) (times 48 (a (h - 2))))
        (times 25 (a (h - 1)))
    else some 0
  else if j = 1 then
    add (sub (add (sub (times (-3) (a 0)) (times 10 (a 1))) (times 18 (a 2))) (times 6 (a 3))) (a 4)
  else if j = h - 2 then
    add (add (sub (add (times (-1) (a (h - 5))) (times 6 (a (h - 4)))) (times 18 (a (h - 3)))) (times 10 (a (h - 2))))
      (times 3 (a (h - 1)))
  else sub (add (sub (a (j - 2)) (times 8 (a (j - 1)))) (times 8 (a (j + 1)))) (a (j + 2))

/-- `derivative_meridional` (grid.py:316-342) at row `j` of one column with enough rows; `four` is `order == 4` and `poles`
is `f.ndim != 1` -/
def derivative (four poles : Bool) (h : ℕ) (dphi : K) (a : ℕ → Option K) (j : ℕ) : Option K :=
  over (if four then over (stencil4 poles h a j) 12 else over (stencil2 poles h a j) 2) dphi

end Derivative

open FloatX

/-- A value as floating point number with infinities -/
def toX : Option ℝ → FloatX
  | some x => fin x
  | none => nan

/-- `np.mean(a, axis=_ZONAL)` in one row (diagnostics.py:286-287, 293-294) -/
noncomputable def rowMean (w : ℕ) (a : ℕ → Option ℝ) : Option ℝ := over (sum w a) w

/-- Zonal-mean PV from zonal-mean zonal wind (diagnostics.py:289-291) -/
noncomputable def pvFromWind (g : Grid ℝ) (four : Bool) (u : ℕ → Option ℝ) (j : ℕ) : Option ℝ :=
  add (some (g.fcor j))
    (over (over (times (-1) (derivative four false g.nlat g.dphi (fun r => mul (u r) (some (Real.cos (g.phi r)))) j)) g.rsphere)
      (Real.cos (g.phi j)))

/-- `np.isclose(u, 0., atol=min_u)` (diagnostics.py:298) -/
def smallWind (u : Option ℝ) (minU : ℝ) : Prop :=
  match u with
  | some x => |x| ≤ minU
  | none => False

open Classical in
/-- `ks2` (diagnostics.py:296-303) at a latitude with PV gradient times cosine squared and radius `beta`, and wind `u` -/
noncomputable def ksSquared (beta u : Option ℝ) (minU : ℝ) : FloatX :=
  if smallWind u minU then (if beta ≠ some 0 then (toX beta).mul pinf else toX beta) else (toX beta).div (toX u)

/-- `stationary_wavenumber` (diagnostics.py:285-303), `kind="squared"`, at row `j`, as function of zonal-mean wind and
zonal-mean PV -/
noncomputable def stationarySquared (g : Grid ℝ) (four : Bool) (minU : ℝ) (u pv : ℕ → Option ℝ) (j : ℕ) : FloatX :=
  ksSquared (times (Real.cos (g.phi j) ^ 2 * g.rsphere) (derivative four false g.nlat g.dphi pv j)) (u j) minU

open Classical in
/-- Entry `k` of `np.fft.rfft` of one row (diagnostics.py:26, 118), as for `scipy.fft.fft`: a sum of all values with finite
factors, NaN if one of them is -/
noncomputable def fourier {n : ℕ} (f : Fin n → Option ℝ) (k : ℕ) : Option ℂ :=
  if ∃ i, f i = none then none else some (dft (fun i => (f i).getD 0) k)

/-- `np.abs(np.fft.rfft(field, axis=_ZONAL)) ** 2` (diagnostics.py:118) in one row -/
noncomputable def power {n : ℕ} (f : Fin n → Option ℝ) (k : ℕ) : Option ℝ := (fourier f k).map fun z => ‖z‖ ^ 2

open Classical in
/-- `np.argmax` of `p 0, …, p (n-1)`, `n > 0`: position of the first NaN if there is one, else of the first maximum -/
noncomputable def argmax (p : ℕ → Option ℝ) : ℕ → ℕ
  | 0 => 0
  | n + 1 =>
    match p (argmax p n), p n with
    | none, _ => argmax p n
    | some _, none => n
    | some x, some y => if x < y then n else argmax p n

/-- `dominant_wavenumber_fourier` without smoothing (diagnostics.py:118-119) in one row, if the slice is not empty -/
noncomputable def dominant {w : ℕ} (f : Fin w → Option ℝ) (kmin kmax : ℕ) : ℕ :=
  argmax (fun k => power f (kmin + k)) (min (kmax + 1) (w / 2 + 1) - kmin)

open Classical in
/-- `_restrict_fourier_zonal` (diagnostics.py:26-29) in one row: coefficients out of range are set to zero, the others keep
NaN; the inverse transform is NaN if one of its `w//2 + 1` coefficients is -/
noncomputable def restrictRow {w : ℕ} (f : Fin w → Option ℝ) (kmin kmax : ℕ) (i : ℕ) : Option ℝ :=
  let X : ℕ → Option ℂ := fun k => if k < kmin then some 0 else if kmax + 1 ≤ k then some 0 else fourier f k
  if ∃ k ≤ w / 2, X k = none then none else some (irfft (w / 2) (fun k => (X k).getD 0) i)

open Classical in
/-- `np.abs(scipy.signal.hilbert(x))` (diagnostics.py:248) in one row -/
noncomputable def envelopeRow {n : ℕ} (x : Fin n → Option ℝ) (i : ℕ) : Option ℝ :=
  if ∃ i, x i = none then none else some ‖hilbert (fun i => (x i).getD 0) i‖

end Missing
end Barotropic
