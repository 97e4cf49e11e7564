import Verif.Model.Figures

/-!
# Vocabulary for statements about figures
-/

namespace Barotropic

/-- Column number `k` of the map shows the numbers in column `col k` of the field. -/
def Plot.MapItem.Shows {g : Grid ℝ} (m : Plot.MapItem g) (col : Fin g.nlon → Fin g.nlon) (f : Fin g.nlat → Fin g.nlon → ℝ) : Prop :=
  ∀ j k, m.field j k = some (f j (col k))

/-- matplotlib accepts the levels of a map: they are increasing. -/
def Plot.MapItem.Drawable {g : Grid ℝ} (m : Plot.MapItem g) : Prop := ∀ l, m.levels = some l → l.Pairwise (· < ·)

/-- All fields of a panel can be drawn. -/
def Plot.MapPanel.Drawable {g : Grid ℝ} (p : Plot.MapPanel g) : Prop := p.filled.Drawable ∧ ∀ m, p.lines = some m → m.Drawable

/-- `x` is the mean of a row of numbers (without NaN). -/
def MeanOf {w : ℕ} (row : Fin w → Option ℝ) (x : ℝ) : Prop := ∃ r : Fin w → ℝ, (∀ k, row k = some (r k)) ∧ x * w = ∑ k, r k

/-- The labels of a panel: position `grid.lon[k]` is labelled with the longitude of column `col k`, the latitude axis shows the requested
hemisphere. -/
def Plot.MapPanel.Labelled {g : Grid ℝ} (p : Plot.MapPanel g) (col : Fin g.nlon → Fin g.nlon) (hemisphere : String) : Prop :=
  (∀ k : Fin g.nlon, Plot.lonLabel p.offset (g.lon k) = g.lon (col k)) ∧ p.limits = Plot.latLimits hemisphere

end Barotropic
