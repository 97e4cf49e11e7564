import Verif.Model.Spectral
import Mathlib.Analysis.SpecialFunctions.Complex.CircleAddChar

/-!
# Mathematical laws of exact spherical harmonic transforms

Theorems that depend on the behaviour of `spharm` take (some of) these laws as hypotheses.
`Lemmas/SpharmZonal.lean` and `Lemmas/SpharmWave.lean` construct transforms that satisfy all of them, so they are consistent.
They are the laws of the exact (infinite precision) transforms on a regular grid with triangular truncation
`T ≤ nlat - 2` (derived from the definition of spherical harmonics in `Props/Harmonics.lean`); at the Nyquist zonal wavenumber `2 m = nlon` the grid cannot represent the sine part. For `T = nlat - 1`
(the default of the code) they are an idealisation: harmonics of degree `nlat - 1` and odd order have a part proportional to
`sin((nlat - 1) θ)`, which is zero at all latitudes of the grid, so that they cannot be told apart from lower degrees.
-/

namespace Barotropic

variable {nlat nlon T : ℕ}

/-- Multiplication of every coefficient by a real number that depends on the degree only. -/
noncomputable def degMul (c : ℕ → ℝ) (s : SpecField T) : SpecField T := fun k => (c (specN k) : ℂ) * s k

/-- Removal of the constant mode (degree 0). -/
def dropMean (s : SpecField T) : SpecField T := fun k => if specN k = 0 then 0 else s k

/-- A spectral field made of the constant mode only. -/
def IsMeanMode (s : SpecField T) : Prop := ∀ k, specN k ≠ 0 → s k = 0

/-- A gridded field that is constant along every latitude circle. -/
def ZonallySymmetric (f : GridField nlat nlon) : Prop := ∀ j i i', f j i = f j i'

/-- The field shifted westward by `d` grid columns (periodic). -/
def rotate (d : ℕ) (f : GridField nlat nlon) : GridField nlat nlon :=
  fun j i => f j ⟨(i.val + d) % nlon, Nat.mod_lt _ i.pos⟩

/-- The corresponding phase shift of spectral coefficients: `exp(2πi·m·d/nlon)`. -/
noncomputable def phaseShift (nlon d : ℕ) (s : SpecField T) : SpecField T :=
  fun k => Complex.exp (2 * Real.pi * Complex.I * (specM k * d / nlon)) * s k

namespace Spharm

/-- `s` survives synthesis followed by analysis. (Excludes imaginary parts at m = 0 etc.) -/
def Adm (S : Spharm nlat nlon T) (s : SpecField T) : Prop := S.grdtospec (S.spectogrd s) = s

/-- `s` survives and has no Nyquist component. -/
def Resolved (S : Spharm nlat nlon T) (s : SpecField T) : Prop :=
  S.Adm s ∧ ∀ k, 2 * specM k = nlon → s k = 0

/-- All transforms are real-linear. -/
structure IsLinear (S : Spharm nlat nlon T) : Prop where
  grdtospec_add : ∀ f f', S.grdtospec (f + f') = S.grdtospec f + S.grdtospec f'
  grdtospec_smul : ∀ (c : ℝ) f, S.grdtospec (c • f) = c • S.grdtospec f
  spectogrd_add : ∀ s s', S.spectogrd (s + s') = S.spectogrd s + S.spectogrd s'
  spectogrd_smul : ∀ (c : ℝ) s, S.spectogrd (c • s) = c • S.spectogrd s
  getuv_add : ∀ a a' b b', S.getuv (a + a') (b + b') = S.getuv a b + S.getuv a' b'
  getuv_smul : ∀ (c : ℝ) a b, S.getuv (c • a) (c • b) = c • S.getuv a b
  getvrtdiv_add : ∀ u u' v v', S.getvrtdivspec (u + u') (v + v') = S.getvrtdivspec u v + S.getvrtdivspec u' v'
  getvrtdiv_smul : ∀ (c : ℝ) u v, S.getvrtdivspec (c • u) (c • v) = c • S.getvrtdivspec u v
  getgrad_add : ∀ s s', S.getgrad (s + s') = S.getgrad s + S.getgrad s'
  getgrad_smul : ∀ (c : ℝ) s, S.getgrad (c • s) = c • S.getgrad s

/-- Analysis recovers what synthesis produced from an analysed field, also after degree-wise real multiplication;
synthesised fields are band-limited. -/
structure RoundTrips (S : Spharm nlat nlon T) : Prop where
  adm_analysis : ∀ f, S.Adm (S.grdtospec f)
  synth_again : ∀ s, S.spectogrd (S.grdtospec (S.spectogrd s)) = S.spectogrd s
  adm_degMul : ∀ (c : ℕ → ℝ) s, S.Adm s → S.Adm (degMul c s)

/-- The constant mode is the constant field and has no gradient. -/
structure ConstMode (S : Spharm nlat nlon T) : Prop where
  synth_const : ∀ s, IsMeanMode s → ∃ c : ℝ, S.spectogrd s = fun _ _ => c
  analysis_const : ∀ c : ℝ, IsMeanMode (S.grdtospec fun _ _ => c) ∧ S.spectogrd (S.grdtospec fun _ _ => c) = fun _ _ => c
  grad_const : ∀ s, IsMeanMode s → S.getgrad s = 0

/-- Vorticity/divergence and wind are inverse up to the constant mode; vorticity and divergence of a wind field have
no constant mode. -/
structure WindInverse (S : Spharm nlat nlon T) : Prop where
  vrtdiv_uv : ∀ a b, S.Resolved a → S.Resolved b →
    S.getvrtdivspec (S.getuv a b).1 (S.getuv a b).2 = (dropMean a, dropMean b)
  uv_dropMean : ∀ a b, S.getuv (dropMean a) (dropMean b) = S.getuv a b
  vrt_mean : ∀ u v k, specN k = 0 → (S.getvrtdivspec u v).1 k = 0
  div_mean : ∀ u v k, specN k = 0 → (S.getvrtdivspec u v).2 k = 0

/-- Everything commutes with rotations about the polar axis by whole grid columns; zonally symmetric vorticity has a
purely zonal wind and zonally symmetric zonal flow has no divergence. -/
structure Rotations (S : Spharm nlat nlon T) : Prop where
  grdtospec_rotate : ∀ d f, S.grdtospec (rotate d f) = phaseShift nlon d (S.grdtospec f)
  spectogrd_phase : ∀ d s, S.spectogrd (phaseShift nlon d s) = rotate d (S.spectogrd s)
  getuv_phase : ∀ d a b, S.getuv (phaseShift nlon d a) (phaseShift nlon d b) =
    (rotate d (S.getuv a b).1, rotate d (S.getuv a b).2)
  getvrtdiv_rotate : ∀ d u v, S.getvrtdivspec (rotate d u) (rotate d v) =
    (phaseShift nlon d (S.getvrtdivspec u v).1, phaseShift nlon d (S.getvrtdivspec u v).2)
  getgrad_phase : ∀ d s, S.getgrad (phaseShift nlon d s) =
    (rotate d (S.getgrad s).1, rotate d (S.getgrad s).2)
  zonal_v : ∀ a, (∀ k, specM k ≠ 0 → a k = 0) → (S.getuv a 0).2 = 0
  zonal_div : ∀ u, ZonallySymmetric u → (S.getvrtdivspec u 0).2 = 0

/-- All laws, and the band limit of the sine of latitude (T ≥ 1) for the Coriolis field of grid `g`. -/
structure Lawful {g : Grid ℝ} (S : g.Sph) : Prop where
  lin : S.IsLinear
  rt : S.RoundTrips
  const : S.ConstMode
  wind : S.WindInverse
  rot : S.Rotations
  /-- The Coriolis field is resolved (degree 1, order 0). -/
  coriolis : S.spectogrd (S.grdtospec g.fcor2) = g.fcor2
  coriolis_modes : ∀ k : Fin (nspec g.ntrunc), ¬ (specM k = 0 ∧ specN k = 1) → S.grdtospec g.fcor2 k = 0

end Spharm
end Barotropic
