import Verif.Spec.Spharm
import Verif.Spec.Rhs

/-!
# Vocabulary for symmetries of the model
-/

namespace Barotropic
variable {g g' : Grid ℝ}

/-- The state shifted westward by `d` grid columns. -/
noncomputable def St.rotated {τ : Type} (d : ℕ) (s : St τ g) : St τ g := ⟨s.time, phaseShift g.nlon d s.q⟩

/-- The value of a forcing term shifted westward by `d` grid columns; numbers have no position. -/
noncomputable def RVal.rotated (d : ℕ) : RVal g → RVal g
  | .num x => .num x
  | .fld f => .fld (rotate d f)

/-- Applying a function to everything an outcome of a run contains. -/
def BModel.Outcome.map (f : St PyTime g → St PyTime g') : BModel.Outcome g → BModel.Outcome g'
  | .outOfFuel => .outOfFuel
  | .raised e => .raised e
  | .early s l => .early (f s) (l.map f)
  | .done s l => .done (f s) (l.map f)

/-- `t'` is the forcing `t` shifted westward by `d` grid columns: in shifted states it has the shifted values. -/
def Term.Rotates (d : ℕ) (t t' : Term g) : Prop := ∀ s, t'.call (s.rotated d) = (t.call s).map (RVal.rotated d)

/-- `M'` is the model `M` shifted westward by `d` grid columns. -/
structure BModel.Rotates (d : ℕ) (M M' : BModel g) : Prop where
  order : M'.diffusionOrder = M.diffusionOrder
  coeff : M'.diffusionCoeff = M.diffusionCoeff
  bg : M'.diffusionBg = M.diffusionBg.map (rotate d)
  none : M.rhs = none → M'.rhs = none
  rhs : ∀ f, M.rhs = some f → ∃ f', M'.rhs = some f' ∧ ∀ s, f' (s.rotated d) = (f s).map (rotate d)

/-! ## Mirror image at the equator -/

/-- The field reflected at the equator. -/
def mirror {h w : ℕ} (f : GridField h w) : GridField h w := fun j => f j.rev

/-- The corresponding operation on spectral coefficients: harmonics of odd `n - m` are antisymmetric. -/
def parity {T : ℕ} (s : SpecField T) : SpecField T := fun k => (-1) ^ (specN k - specM k) * s k

/-- Reflection at the equator for transforms: scalars are reflected, the meridional component of vectors also changes its sign,
vorticity is a pseudoscalar. -/
structure Spharm.Mirrors {nlat nlon T : ℕ} (S : Spharm nlat nlon T) : Prop where
  grdtospec_mirror : ∀ f, S.grdtospec (mirror f) = parity (S.grdtospec f)
  spectogrd_parity : ∀ s, S.spectogrd (parity s) = mirror (S.spectogrd s)
  getuv_parity : ∀ a b, S.getuv (-parity a) (parity b) = (mirror (S.getuv a b).1, -mirror (S.getuv a b).2)
  getvrtdiv_mirror : ∀ u v, S.getvrtdivspec (mirror u) (-mirror v) =
    (-parity (S.getvrtdivspec u v).1, parity (S.getvrtdivspec u v).2)
  getgrad_parity : ∀ s, S.getgrad (parity s) = (mirror (S.getgrad s).1, -mirror (S.getgrad s).2)

/-- The mirror image of a state: PV changes its sign. -/
noncomputable def St.mirrored {τ : Type} (s : St τ g) : St τ g := ⟨s.time, -parity s.q⟩

/-- The mirror image of the value of a term that changes its sign (`e = -1`) or does not (`e = 1`). -/
noncomputable def RVal.mirrored (e : ℝ) : RVal g → RVal g
  | .num x => .num (e * x)
  | .fld f => .fld (e • mirror f)

/-- `t'` is the mirror image of the term `t` (up to the sign `e`): it has the mirrored values in mirrored states. -/
def Term.Mirrors (e : ℝ) (t t' : Term g) : Prop := ∀ s, t'.call s.mirrored = (t.call s).map (RVal.mirrored e)

/-- `M'` is the mirror image of the model `M`. -/
structure BModel.Mirrors (M M' : BModel g) : Prop where
  order : M'.diffusionOrder = M.diffusionOrder
  coeff : M'.diffusionCoeff = M.diffusionCoeff
  bg : M'.diffusionBg = M.diffusionBg.map fun b => -mirror b
  none : M.rhs = none → M'.rhs = none
  rhs : ∀ f, M.rhs = some f → ∃ f', M'.rhs = some f' ∧ ∀ s, f' s.mirrored = (f s).map fun r => -mirror r

/-! ## Other origins of the time axis -/

/-- The time later by `d` (which has no effect on times of the other kind). -/
noncomputable def PyTime.shifted : PyDelta → PyTime → PyTime
  | .num c, .num x => .num (x + c)
  | .timedelta c, .datetime x => .datetime (x + c)
  | _, t => t

/-- The same flow at a later time. -/
noncomputable def St.shifted (d : PyDelta) (s : St PyTime g) : St PyTime g := ⟨s.time.shifted d, s.q⟩

/-- `t'` does at the later time what `t` does now. -/
def Term.Shifts (d : PyDelta) (t t' : Term g) : Prop := ∀ s, t'.call (s.shifted d) = t.call s

/-- `M'` is the model `M` with a later forcing. -/
structure BModel.Shifts (d : PyDelta) (M M' : BModel g) : Prop where
  order : M'.diffusionOrder = M.diffusionOrder
  coeff : M'.diffusionCoeff = M.diffusionCoeff
  bg : M'.diffusionBg = M.diffusionBg
  none : M.rhs = none → M'.rhs = none
  rhs : ∀ f, M.rhs = some f → ∃ f', M'.rhs = some f' ∧ ∀ s, f' (s.shifted d) = f s

/-! ## Other units of time and length -/

/-- The same planet in units in which times are `a` times and lengths `c` times as large numbers. -/
noncomputable def Grid.rescaled (a c : ℝ) (g : Grid ℝ) : Grid ℝ := { g with rsphere := c * g.rsphere, omega := g.omega / a }

/-- The transforms for a sphere of `c` times the radius: wind has a length in it, derivatives an inverse length. -/
noncomputable def Spharm.rescaled {nlat nlon T : ℕ} (c : ℝ) (S : Spharm nlat nlon T) : Spharm nlat nlon T where
  grdtospec := S.grdtospec
  spectogrd := S.spectogrd
  getuv vrt div := c • S.getuv vrt div
  getvrtdivspec u v := c⁻¹ • S.getvrtdivspec u v
  getgrad s := c⁻¹ • S.getgrad s

/-- The transforms for the grid in other units. -/
noncomputable abbrev Spharm.inUnits (a c : ℝ) (S : g.Sph) : (g.rescaled a c).Sph := Spharm.rescaled c S

/-- A time in units in which times are `a` times as large numbers (which has no effect on datetimes). -/
noncomputable def PyTime.rescaled (a : ℝ) : PyTime → PyTime
  | .num x => .num (a * x)
  | .datetime us => .datetime us

/-- A time step in these units. -/
noncomputable def PyDelta.rescaled (a : ℝ) : PyDelta → PyDelta
  | .num x => .num (a * x)
  | .timedelta us => .timedelta us

/-- The same flow in other units: PV is an inverse time. -/
noncomputable def St.rescaled (a c : ℝ) (s : St PyTime g) : St PyTime (g.rescaled a c) := ⟨s.time.rescaled a, a⁻¹ • s.q⟩

/-- A value in units in which it is `e` times as large. -/
noncomputable def RVal.rescaled (a c e : ℝ) : RVal g → RVal (g.rescaled a c)
  | .num x => .num (e * x)
  | .fld f => .fld (e • f)

/-- A profile or field in units in which it is `e` times as large. -/
noncomputable def ProfileOrField.rescaled (a c e : ℝ) : ProfileOrField g → ProfileOrField (g.rescaled a c)
  | .profile x => .profile (e • x)
  | .field x => .field (e • x)

/-- `t'` is the term `t` in other units, in which its values are `e` times as large. Times are numbers. -/
def Term.Rescales (a c e : ℝ) (t : Term g) (t' : Term (g.rescaled a c)) : Prop :=
  ∀ s : St PyTime g, (∃ x, s.time = .num x) → t'.call (s.rescaled a c) = (t.call s).map (RVal.rescaled a c e)

/-- `M'` is the model `M` in other units: a diffusion coefficient is a length to the power 2·order per time, PV is an inverse time
and forcing an inverse time squared. -/
structure BModel.Rescales (a c : ℝ) (M : BModel g) (M' : BModel (g.rescaled a c)) : Prop where
  order : M'.diffusionOrder = M.diffusionOrder
  coeff : M'.diffusionCoeff = c ^ (2 * M.diffusionOrder) / a * M.diffusionCoeff
  bg : M'.diffusionBg = M.diffusionBg.map fun b => a⁻¹ • b
  none : M.rhs = none → M'.rhs = none
  rhs : ∀ f, M.rhs = some f → ∃ f', M'.rhs = some f' ∧
    ∀ s : St PyTime g, (∃ x, s.time = .num x) → f' (s.rescaled a c) = (f s).map fun r => (a ^ 2)⁻¹ • r

end Barotropic
