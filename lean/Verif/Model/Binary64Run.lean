import Verif.Model.Binary64

/-!
# The loop of a model run in double precision  (model.py:73-89)

Only the times are modelled here, because they decide when the loop ends and what is saved.
-/

namespace Barotropic
namespace Binary64

variable {K : Type*} [Field K] [LinearOrder K] [IsStrictOrderedRing K] [FloorRing K]

/-- `t_save` after `m` states have been saved (model.py:81, 88) -/
def tSave (saveEvery : K) : ℕ → K
  | 0 => saveEvery
  | m + 1 => rnd (tSave saveEvery m + saveEvery)

/-- The loop of `run` (model.py:84-88) for times `t k` of the state after `k` iterations and values `ts m` of `t_save`: from
iteration `k` on, with `m` states saved. Returned are the number of iterations and the iterations after which a state is
saved; `none` if there are more than `fuel` iterations. -/
def loop (t ts : ℕ → K) (tend saveEvery : K) : ℕ → ℕ → ℕ → Option (ℕ × List ℕ)
  | 0, _, _ => none
  | fuel + 1, k, m =>
    if t k < tend then
      if saveEvery > 0 ∧ ts m ≤ t (k + 1) then
        (loop t ts tend saveEvery fuel (k + 1) (m + 1)).map fun r => (r.1, (k + 1) :: r.2)
      else loop t ts tend saveEvery fuel (k + 1) m
    else some (k, [])

/-- `run` (model.py:73-89): number of iterations and the iterations whose states are returned, the initial state first -/
def run (t0 dt tend saveEvery : K) (fuel : ℕ) : Option (ℕ × List ℕ) :=
  if tend < t0 then some (0, [0])
  else (loop (fun k => (pair t0 dt k).1) (tSave saveEvery) tend saveEvery fuel 0 0).map fun r => (r.1, 0 :: r.2)

end Binary64
end Barotropic
