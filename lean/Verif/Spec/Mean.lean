import Verif.Model.Mean

/-!
# Specification vocabulary for means
-/

namespace Barotropic

/-- The gridpoint `(j, i)` belongs to the region (`None` = the whole globe). -/
def inRegion {g : Grid ℝ} (reg : Option (Region g)) (j : Fin g.nlat) (i : Fin g.nlon) : Prop :=
  match reg with
  | none => True
  | some r => r.mask j i = true

noncomputable instance {g : Grid ℝ} (reg : Option (Region g)) (j i) : Decidable (inRegion reg j i) := by
  cases reg <;> unfold inRegion <;> infer_instance

/-- The region argument is `None` or was made with `grid.region[...]`. -/
def FromSelection {g : Grid ℝ} (reg : Option (Region g)) : Prop :=
  ∀ r, reg = some r → ∃ sel, g.region sel = .ok r

/-- Axis arguments that `mean` understands. -/
def Axis.IsMeridional (a : Axis) : Prop := a = .int 0 ∨ a = .int (-2) ∨ a = .str "meridional"

def Axis.IsZonal (a : Axis) : Prop := a = .int 1 ∨ a = .int (-1) ∨ a = .str "zonal"

end Barotropic
