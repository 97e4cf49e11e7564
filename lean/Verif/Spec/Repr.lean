import Verif.Model.Repr

/-!
# How representations are read
-/

namespace Barotropic
namespace Repr

/-- Unicode: superscript digits -/
def supDigit (c : Char) : Option ℕ :=
  match c.toNat with
  | 0x2070 => some 0
  | 0xB9 => some 1
  | 0xB2 => some 2
  | 0xB3 => some 3
  | 0x2074 => some 4
  | 0x2075 => some 5
  | 0x2076 => some 6
  | 0x2077 => some 7
  | 0x2078 => some 8
  | 0x2079 => some 9
  | _ => none

/-- Unicode: subscript digits -/
def subDigit (c : Char) : Option ℕ :=
  if 0x2080 ≤ c.toNat ∧ c.toNat ≤ 0x2089 then some (c.toNat - 0x2080) else none

/-- A decimal number, read from left to right with the given digits -/
def readNumber (digit : Char → Option ℕ) (s : String) : Option ℕ :=
  s.toList.foldl (fun acc c => acc.bind fun a => (digit c).map fun d => 10 * a + d) (some 0)

/-- The eigenvalue of the diffusion term in the equation `∂q/∂t = … - κ∇ᵉq`, for a spherical harmonic on which the Laplacian
`∇²` acts as multiplication with `-eig`, and even exponent `e`: `∇ᵉ = (∇²)^(e/2)`. -/
noncomputable def shownDiffusion (kappa eig : ℝ) (e : ℕ) : ℝ := -kappa * (-eig) ^ (e / 2)

end Repr
end Barotropic
