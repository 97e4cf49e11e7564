import Verif.Spec.Harmonics

/-!
# Transforms with a truncation below the resolution of the grid

`Spharm.Exact` leaves open what analysis makes of fields with degrees above the truncation. SPHEREPACK analyses all degrees that the grid
resolves and drops those above the truncation.
-/

namespace Barotropic

variable {T : ℕ}

/-- The coefficient of order `m` and degree `n` (zero if there is none) -/
noncomputable def coeffAt (s : SpecField T) (m n : ℕ) : ℂ := ∑ k, if specM k = m ∧ specN k = n then s k else 0

/-- The field with another truncation: coefficients are dropped or zeros are added. -/
noncomputable def retrunc (T' : ℕ) (s : SpecField T) : SpecField T' := fun k => coeffAt s (specM k) (specN k)

/-- The same grid with another truncation -/
abbrev Grid.withTrunc (g : Grid ℝ) (T : ℕ) : Grid ℝ := { g with ntrunc := T }

/-- The transform with another truncation -/
noncomputable def Spharm.withTrunc {nlat nlon T' : ℕ} (S : Spharm nlat nlon T') (T : ℕ) : Spharm nlat nlon T where
  grdtospec f := retrunc T (S.grdtospec f)
  spectogrd s := S.spectogrd (retrunc T' s)
  getuv a b := S.getuv (retrunc T' a) (retrunc T' b)
  getvrtdivspec u v := (retrunc T (S.getvrtdivspec u v).1, retrunc T (S.getvrtdivspec u v).2)
  getgrad s := S.getgrad (retrunc T' s)

/-- `S` is the truncation of a transform that is exact for twice the degree. -/
def Spharm.Dealiased {g : Grid ℝ} (N : ℕ → ℕ → ℝ) (S : g.Sph) : Prop :=
  ∃ S' : (g.withTrunc (2 * g.ntrunc)).Sph, Spharm.Exact N (2 * g.ntrunc) S' ∧ S = S'.withTrunc g.ntrunc

end Barotropic
