import Verif.Spec.Galerkin

/-!
# C150: response to weak perturbations

The scheme of `Spec/Equation.lean`, linearised about a given integration.
-/

namespace Barotropic
variable {g : Grid ℝ}

/-- The change of the budget of PV when PV changes from `q` by a small `p` and the forcing by a small `F`: PV `q` is advected by the wind that `p` induces and
`p` by the wind of `q`. -/
noncomputable def tangentRate (S : g.Sph) (q p : g.Spc) (F : g.Fld) : g.Spc := fun k =>
  let w := S.getuv (q - S.grdtospec g.fcor2) 0
  let w' := S.getuv p 0
  S.grdtospec F k - (S.getvrtdivspec (fun j i => S.spectogrd q j i * w'.1 j i + S.spectogrd p j i * w.1 j i)
    (fun j i => S.spectogrd q j i * w'.2 j i + S.spectogrd p j i * w.2 j i)).2 k

/-- A step of length `τ` with implicit diffusion -/
def BModel.TangentStep (M : BModel g) (τ : ℝ) (old rate new : g.Spc) : Prop :=
  ∀ k, new k = old k + τ * (rate k - M.diffusionCoeff * ((specN k : ℂ) * (specN k + 1) / (g.rsphere : ℂ) ^ 2) ^ M.diffusionOrder * new k)

/-- The linearised integration about the one with states `x`, `y` (see `BModel.Scheme`), from the initial perturbation `p`. `R' t q p` is the change of the forcing. -/
structure BModel.TangentScheme (S : g.Sph) (M : BModel g) (R' : ℝ → g.Spc → g.Spc → g.Fld) (dt : PyDelta) (n : ℕ) (x y : ℕ → St PyTime g) (p : g.Spc)
    (ξ η : ℕ → g.Spc) : Prop where
  start : ξ 0 = p
  euler : M.TangentStep (toSeconds dt) (ξ 0) (tangentRate S (x 0).q (ξ 0) (R' (x 0).time.sec (x 0).q (ξ 0))) (η 0)
  leapfrog : ∀ k < n, M.TangentStep (2 * toSeconds dt) (ξ k) (tangentRate S (y k).q (η k) (R' (y k).time.sec (y k).q (η k))) (η (k + 1))
  filter : ∀ k < n, ∀ m, ξ (k + 1) m = η k m + 2 / 10 * (ξ k m - 2 * η k m + η (k + 1) m)

/-- The forcing `R ε` changes by `ε R'`, up to second order, if its parameter changes from 0 to `ε` and PV by `ε p`, up to second order. -/
def ForcingExpands (R : ℝ → ℝ → g.Spc → g.Fld) (R' : ℝ → g.Spc → g.Spc → g.Fld) : Prop :=
  ∀ t q p B, ∃ C, ∀ ε, |ε| ≤ 1 → ∀ q', ‖q' - q - ε • p‖ ≤ B * ε ^ 2 → ‖R ε t q' - R 0 t q - ε • R' t q p‖ ≤ C * ε ^ 2

end Barotropic
