import Verif.Spec.Equation
import Mathlib.Analysis.Calculus.Deriv.Basic
import Mathlib.Analysis.Complex.Basic

/-!
# The truncated equation in continuous time

The equation of `Spec/Equation.lean` without discretisation in time: an ordinary differential equation for the spectral coefficients of PV.
-/

namespace Barotropic
variable {g : Grid ℝ}

/-- Forcing minus divergence of the flux of PV for coefficients `q` at time `t`; `R` is the forcing -/
noncomputable def galerkinRate (S : g.Sph) (R : ℝ → g.Spc → g.Fld) (t : ℝ) (q : g.Spc) : g.Spc :=
  let s : St ℝ g := ⟨t, q⟩
  pvBudget S (s.pv S) (s.u S) (s.v S) (R t q)

/-- `-ν (-∇²)^order (q - q_bg)` -/
noncomputable def BModel.damping (S : g.Sph) (M : BModel g) (q : g.Spc) : g.Spc :=
  fun k => -(M.diffusionCoeff * ((specN k : ℂ) * (specN k + 1) / (g.rsphere : ℂ) ^ 2) ^ M.diffusionOrder * (q k - M.background S k))

/-- `Y` solves the equation between the times `t0` and `t1`. -/
def BModel.Solution (S : g.Sph) (M : BModel g) (R : ℝ → g.Spc → g.Fld) (t0 t1 : ℝ) (Y : ℝ → g.Spc) : Prop :=
  ∀ t ∈ Set.Icc t0 t1, HasDerivWithinAt Y (galerkinRate S R t (Y t) + M.damping S (Y t)) (Set.Icc t0 t1) t

/-- The forcing of the model is the function `R` of time (in seconds) and PV. -/
def BModel.ForcedBy (M : BModel g) (R : ℝ → g.Spc → g.Fld) : Prop :=
  (M.rhs = none ∧ R = 0) ∨ ∃ f, M.rhs = some f ∧ ∀ s, f s = .ok (R s.time.sec s.q)

/-- The forcing is Lipschitz continuous for bounded PV. -/
def LipschitzForcing (R : ℝ → g.Spc → g.Fld) (t0 t1 : ℝ) : Prop :=
  ∀ B, ∃ L, ∀ t ∈ Set.Icc t0 t1, ∀ t' ∈ Set.Icc t0 t1, ∀ q q', ‖q‖ ≤ B → ‖q'‖ ≤ B → ‖R t q - R t' q'‖ ≤ L * (|t - t'| + ‖q - q'‖)

/-- The forcing grows at most linearly with PV. -/
def LinearGrowth (R : ℝ → g.Spc → g.Fld) (t0 t1 : ℝ) : Prop :=
  ∃ A, ∀ t ∈ Set.Icc t0 t1, ∀ q, ‖R t q‖ ≤ A * (1 + ‖q‖)

/-- Forcing and diffusion -/
noncomputable def BModel.source (S : g.Sph) (M : BModel g) (R : ℝ → g.Spc → g.Fld) (t : ℝ) (q : g.Spc) : g.Spc :=
  S.grdtospec (R t q) + M.damping S q

/-- The model diffuses PV (`diffusionBg = none`) or relative vorticity (`diffusionBg = fcor2`). -/
def BModel.DiffusesAround (M : BModel g) (W : ℝ) : Prop := (M.diffusionBg = none ∧ W = 0) ∨ (M.diffusionBg = some g.fcor2 ∧ W = g.omega)

end Barotropic
