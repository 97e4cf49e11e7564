import Verif.Spec.Filter

/-! # Zonal rotation of arrays -/

namespace Barotropic

/-- Rows of a 2-dimensional array rotated, other arrays unchanged -/
def Arr.rotateRows {α : Type*} (d : ℕ) : Arr α → Arr α
  | .d2 h w f => .d2 h w fun j => rotated d (f j)
  | a => a

end Barotropic
