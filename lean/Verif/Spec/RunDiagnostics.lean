import Verif.Spec.Accuracy
import Verif.Spec.Run
import Verif.Spec.Galerkin
import Verif.Spec.Dealias
import Verif.Spec.Conservation
import Verif.Lemmas.Grid

/-!
# Statements about all states of runs that start close to a smooth solution
-/

namespace Barotropic

/-- `Pr` holds for the initial, the final and the saved states of every run without forcing, if the truncation is sufficiently high, the initial state is
sufficiently close to the smooth solution `Ψ` at time `t0`, the time step is sufficiently small and the run ends at or before the time `t2`. Such initial
states exist for every truncation. The longitudes of the grid are spaced by the resolution and its transform is exact for products. -/
def RunsSatisfy (r Ω ν : ℝ) (order : ℕ) (W t0 t2 : ℝ) (Ψ : ℝ → ℝ → ℝ → ℝ) (Pr : (g : Grid ℝ) → g.Sph → List (St PyTime g) → Prop) : Prop :=
  ∃ T0 : ℕ, ∃ ε > 0, ∀ (g : Grid ℝ) (N : ℕ → ℕ → ℝ) (S : g.Sph) (M : BModel g), g.Valid → g.rsphere = r → g.omega = Ω → g.resolution * g.nlon = 360 →
    T0 ≤ g.ntrunc → 2 * g.ntrunc + 1 ≤ g.nlat → Spharm.Dealiased N S → M.diffusionCoeff = ν → M.diffusionOrder = order → M.DiffusesAround W → M.rhs = none →
    (∃ q : g.Spc, ((g.ntrunc : ℝ) + 1) ^ 4 * sqDist r (harmonicSum N q) (absVort r Ω (Ψ t0)) ≤ ε) ∧
    ∀ s : St PyTime g, s.time.sec = t0 → ((g.ntrunc : ℝ) + 1) ^ 4 * sqDist r (s.pvFn N) (absVort r Ω (Ψ t0)) ≤ ε → ∃ δ > 0,
      ∀ (dt : PyDelta) (tend : PyTime) (se : ℝ), s.time.Compatible dt → s.time.SameKind tend → 0 < toSeconds dt → toSeconds dt < δ →
      t0 ≤ tend.sec → tend.sec ≤ t2 → (se ≤ 0 ∨ ∃ x, s.time = .num x) →
      ∃ sf saved, M.Returns S s dt tend se sf saved ∧ tend.sec ≤ sf.time.sec ∧ Pr g S (s :: sf :: saved)

/-- Mean over the gridpoints of each circle of latitude (`np.mean(…, axis=LON)`) -/
noncomputable def gridMean {g : Grid ℝ} (u : g.Fld) (j : Fin g.nlat) : ℝ := (∑ i, u j i) / g.nlon

end Barotropic
