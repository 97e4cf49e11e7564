import Verif.Model.Run

/-!
# Vocabulary for statements about runs
-/

namespace Barotropic

/-- Seconds of a time (since the epoch for datetimes). -/
noncomputable def PyTime.sec : PyTime → ℝ
  | .num x => x
  | .datetime us => us / 10 ^ 6

/-- Both numeric or both datetime. -/
def PyTime.SameKind : PyTime → PyTime → Prop
  | .num _, .num _ => True
  | .datetime _, .datetime _ => True
  | _, _ => False

/-- A number of seconds for a numeric time, a timedelta for a datetime. -/
def PyTime.Compatible : PyTime → PyDelta → Prop
  | .num _, .num _ => True
  | .datetime _, .timedelta _ => True
  | _, _ => False

/-- `t0 + k*dt` -/
noncomputable def stepTime (t0 : PyTime) (dt : PyDelta) (k : ℕ) : PyTime :=
  match t0, dt with
  | .num a, .num d => .num (a + k * d)
  | .datetime a, .timedelta d => .datetime (a + k * d)
  | t0, _ => t0

variable {g : Grid ℝ}

/-- The integration itself: Euler step followed by leapfrog steps. `pairAt k` is the pair (filtered state at step `k`,
new state at step `k+1`), or the exception raised on the way. -/
noncomputable def BModel.pairAt (S : g.Sph) (M : BModel g) (s : St PyTime g) (dt : PyDelta) :
    ℕ → Except PyErr (St PyTime g × St PyTime g)
  | 0 => (M.euler S s dt).map fun s1 => (s, s1)
  | k + 1 =>
    match BModel.pairAt S M s dt k with
    | .error e => .error e
    | .ok p => M.leapfrog S p.1 p.2 (2 / 10)

/-- The call returns the final state `sf` and the saved states `saved` (after the integration loop). -/
def BModel.Returns (S : g.Sph) (M : BModel g) (s : St PyTime g) (dt : PyDelta) (tend : PyTime) (saveEvery : ℝ)
    (sf : St PyTime g) (saved : List (St PyTime g)) : Prop :=
  ∃ fuel, M.run S s dt tend saveEvery fuel = .done sf saved

/-- The forcing never raises. -/
def BModel.Total (M : BModel g) : Prop := ∀ f, M.rhs = some f → ∀ s, ∃ r, f s = .ok r

end Barotropic
