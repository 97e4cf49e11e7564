import Verif.Spec.Run
import Verif.Spec.Spharm

/-!
# The equation that is solved

`∂q/∂t + ∇·(q u) = F - ν (-∇²)^order (q - q_bg)`, where `u` is the non-divergent wind with absolute vorticity `q`. It is discretised
with an Euler forward step followed by leapfrog steps of length `2 Δt` with a Robert-Asselin filter. Diffusion is implicit.
-/

namespace Barotropic
variable {g : Grid ℝ}

/-- `F` is the value of the forcing in state `s`; without forcing it is zero. -/
def BModel.Forced (M : BModel g) (s : St PyTime g) (F : g.Fld) : Prop :=
  (M.rhs = none ∧ F = 0) ∨ ∃ f, M.rhs = some f ∧ f s = .ok F

/-- Forcing minus divergence of the flux of PV, for given wind -/
noncomputable def pvBudget (S : g.Sph) (q u v F : g.Fld) : g.Spc :=
  fun k => S.grdtospec F k - (S.getvrtdivspec (fun j i => q j i * u j i) (fun j i => q j i * v j i)).2 k

/-- Spectral coefficients of the field towards which diffusion acts; zero if there is none -/
noncomputable def BModel.background (S : g.Sph) (M : BModel g) : g.Spc :=
  match M.diffusionBg with
  | none => 0
  | some b => S.grdtospec b

/-- `new = old + τ (rate - ν (n(n+1)/r²)^order (new - background))`: a step of length `τ` with implicit diffusion -/
def BModel.ImplicitStep (S : g.Sph) (M : BModel g) (τ : ℝ) (old rate new : g.Spc) : Prop :=
  ∀ k, new k = old k + τ * (rate k -
    M.diffusionCoeff * ((specN k : ℂ) * (specN k + 1) / (g.rsphere : ℂ) ^ 2) ^ M.diffusionOrder * (new k - M.background S k))

/-- The integration: `x k` is the filtered state of step `k`, `y k` the unfiltered state of step `k+1`. -/
structure BModel.Scheme (S : g.Sph) (M : BModel g) (s : St PyTime g) (dt : PyDelta) (n : ℕ) (x y : ℕ → St PyTime g) : Prop where
  start : x 0 = s
  times : ∀ k ≤ n, (x k).time = stepTime s.time dt k ∧ (y k).time = stepTime s.time dt (k + 1)
  euler : ∃ F, M.Forced s F ∧ M.ImplicitStep S (toSeconds dt) s.q (pvBudget S (s.pv S) (s.u S) (s.v S) F) (y 0).q
  leapfrog : ∀ k < n, ∃ F, M.Forced (y k) F ∧
    M.ImplicitStep S (2 * toSeconds dt) (x k).q (pvBudget S ((y k).pv S) ((y k).u S) ((y k).v S) F) (y (k + 1)).q
  filter : ∀ k < n, ∀ m, (x (k + 1)).q m = (y k).q m + 2 / 10 * ((x k).q m - 2 * (y k).q m + (y (k + 1)).q m)

end Barotropic
