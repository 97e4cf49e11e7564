import Verif.Spec.Spharm
import Mathlib.Algebra.Polynomial.Derivative
import Mathlib.Analysis.Calculus.Deriv.Polynomial
import Mathlib.Analysis.SpecialFunctions.Trigonometric.Deriv

/-!
# Spherical harmonics

Independent of the model. Longitude `lam`, latitude `phi` in radians.
-/

namespace Barotropic
open Polynomial

/-- Rodrigues' formula: `d^(n+m)/dx^(n+m) (x² - 1)^n` -/
noncomputable def rodrigues (n m : ℕ) : ℝ[X] := derivative^[n + m] ((X ^ 2 - 1) ^ n)

/-- Associated Legendre function of `sin φ` (degree `n`, order `m`), up to a constant factor -/
noncomputable def legendre (n m : ℕ) (phi : ℝ) : ℝ := Real.cos phi ^ m * (rodrigues n m).eval (Real.sin phi)

/-- `m / cos φ` times the associated Legendre function, continuous at the poles -/
noncomputable def legendreOverCos (n m : ℕ) (phi : ℝ) : ℝ :=
  m * Real.cos phi ^ (m - 1) * (rodrigues n m).eval (Real.sin phi)

variable {T : ℕ}

/-- Sum over all modes, with latitude dependence `P n m φ` and normalisation `N n m` -/
noncomputable def modeSum (N : ℕ → ℕ → ℝ) (P : ℕ → ℕ → ℝ → ℝ) (s : SpecField T) (lam phi : ℝ) : ℝ :=
  ∑ k, N (specN k) (specM k) * P (specN k) (specM k) phi * (s k * Complex.exp (Complex.I * (specM k * lam : ℝ))).re

/-- The function on the sphere with spectral coefficients `s` -/
noncomputable def harmonicSum (N : ℕ → ℕ → ℝ) (s : SpecField T) : ℝ → ℝ → ℝ := modeSum N legendre s

/-- Multiplication of all coefficients by `i` -/
noncomputable def timesI (s : SpecField T) : SpecField T := fun k => Complex.I * s k

/-- Coefficients of `(1 / cos φ) ∂/∂λ` of the field: `harmonicSum` with `im / cos φ` -/
noncomputable def lamDeriv (N : ℕ → ℕ → ℝ) (s : SpecField T) : ℝ → ℝ → ℝ := modeSum N legendreOverCos (timesI s)

/-- `∂/∂φ` of the field -/
noncomputable def phiDeriv (N : ℕ → ℕ → ℝ) (s : SpecField T) : ℝ → ℝ → ℝ := modeSum N (fun n m => deriv (legendre n m)) s

/-- Zonal modes are real. -/
def RealZonal (s : SpecField T) : Prop := ∀ k, specM k = 0 → (s k).im = 0

/-- Modes of degree greater than `B` are zero. -/
def BandLimited (B : ℕ) (s : SpecField T) : Prop := ∀ k, B < specN k → s k = 0

/-- Inverse Laplacian on a sphere of radius `r`; the mean is removed. -/
noncomputable def invLaplace (r : ℝ) (s : SpecField T) : SpecField T :=
  degMul (fun n => if n = 0 then 0 else -(r ^ 2 / (n * (n + 1)))) s

/-- Values of a function on the sphere at the gridpoints -/
noncomputable def Grid.sample (g : Grid ℝ) (F : ℝ → ℝ → ℝ) : g.Fld := fun j i => F (g.lam i) (g.phi j)

/-- `S` is a spherical harmonic transform of fields on the grid `g`, with normalisation `N` of the harmonics.
Synthesis evaluates the harmonics at the gridpoints. The wind has streamfunction `Δ⁻¹ vrt` and velocity potential `Δ⁻¹ div`.
Analysis is linear, treats all longitudes alike and inverts synthesis of harmonics up to degree `B`. (What analysis does with other
fields is left open.) -/
structure Spharm.Exact {g : Grid ℝ} (N : ℕ → ℕ → ℝ) (B : ℕ) (S : g.Sph) : Prop where
  norm_ne : ∀ n m, N n m ≠ 0
  synthesis : ∀ s, S.spectogrd s = g.sample (harmonicSum N s)
  gradient : ∀ s, S.getgrad s = (g.sample fun x y => lamDeriv N s x y / g.rsphere, g.sample fun x y => phiDeriv N s x y / g.rsphere)
  wind : ∀ a b, S.getuv a b =
    (g.sample fun x y => (-phiDeriv N (invLaplace g.rsphere a) x y + lamDeriv N (invLaplace g.rsphere b) x y) / g.rsphere,
     g.sample fun x y => (lamDeriv N (invLaplace g.rsphere a) x y + phiDeriv N (invLaplace g.rsphere b) x y) / g.rsphere)
  analysis_real : ∀ f, RealZonal (S.grdtospec f)
  analysis : ∀ s, RealZonal s → BandLimited B s → S.grdtospec (S.spectogrd s) = s
  analysis_add : ∀ f f', S.grdtospec (f + f') = S.grdtospec f + S.grdtospec f'
  analysis_smul : ∀ (c : ℝ) f, S.grdtospec (c • f) = c • S.grdtospec f
  analysis_rotate : ∀ d f, S.grdtospec (rotate d f) = phaseShift g.nlon d (S.grdtospec f)
  vrtdiv : ∀ a b, RealZonal a → RealZonal b → BandLimited B a → BandLimited B b →
    S.getvrtdivspec (S.getuv a b).1 (S.getuv a b).2 = (dropMean a, dropMean b)
  vrtdiv_add : ∀ u u' v v', S.getvrtdivspec (u + u') (v + v') = S.getvrtdivspec u v + S.getvrtdivspec u' v'
  vrtdiv_smul : ∀ (c : ℝ) u v, S.getvrtdivspec (c • u) (c • v) = c • S.getvrtdivspec u v
  vrtdiv_rotate : ∀ d u v, S.getvrtdivspec (rotate d u) (rotate d v) =
    (phaseShift g.nlon d (S.getvrtdivspec u v).1, phaseShift g.nlon d (S.getvrtdivspec u v).2)
  vrtdiv_mean : ∀ u v k, specN k = 0 → (S.getvrtdivspec u v).1 k = 0 ∧ (S.getvrtdivspec u v).2 k = 0
  vrtdiv_zonal : ∀ u, ZonallySymmetric u → (S.getvrtdivspec u 0).2 = 0

end Barotropic
