import Verif.Core.Rounding
import Verif.Core.TimeStepping

/-!
Model of `core/time_stepping.py` in floating point arithmetic: each arithmetic operation is followed by a rounding.
Comparisons and `min` are exact.  With exact arithmetic this is the model of `Core/TimeStepping.lean`
(`nextFl_exact`).
-/

set_option linter.unusedSectionVars false

namespace Verif.TimeStepping

open Verif.Rounding

variable {K : Type*} [Field K] [LinearOrder K] [IsStrictOrderedRing K]

/-- The literal `1e-12` (lines 132, 146, 154): the rounded number. -/
def tiny (R : Rounding K) : K := R.fl (tol K)

/-- `TimeStepGenerator.__call__`, lines 64-68, 74-75. -/
def Generator.callFl (R : Rounding K) (g : Generator K) (n : ℕ) : K :=
  R.fl ((if g.adaptive then g.raw n else g.raw 0) * g.cfl)

/-- `TimeStepping.__next__`, lines 117-121, 136-156. -/
def nextFl (R : Rounding K) (c : Config K) (s : State K) : State K × Outcome K :=
  if s.stop then (s, .stopIteration)
  else
    let dt := min (c.gen.callFl R s.calls) (R.fl (c.endTime - s.time))
    if dt < tiny R then ({ s with calls := s.calls + 1 }, .tooSmall)
    else
      let time := R.fl (s.time + dt)
      if R.fl (c.endTime - time) < tiny R then
        ({ time := c.endTime, number := s.number + 1, stop := true, calls := s.calls + 1 }, .yield dt)
      else
        ({ time := time, number := s.number + 1, stop := false, calls := s.calls + 1 }, .yield dt)

/-- One call of `__next__` by a `for`-loop. -/
def Run.stepFl (R : Rounding K) (c : Config K) (r : Run K) : Run K :=
  match r.status with
  | .running =>
    match nextFl R c r.st with
    | (s, .stopIteration) => { r with st := s, status := .finished }
    | (s, .tooSmall) => { r with st := s, status := .failed }
    | (s, .yield dt) => { r with st := s, trace := r.trace ++ [⟨dt, s.time⟩] }
  | _ => r

/-- The loop after `n` calls of `__next__`. -/
def Run.afterFl (R : Rounding K) (c : Config K) (s : State K) : ℕ → Run K
  | 0 => Run.start c s
  | n + 1 => (Run.afterFl R c s n).stepFl R c

/-- The time of a `DiscreteSolution` after the given steps: `self._time += time_step` in `update`
(`core/discrete_solution.py` line 57), the same as the time of the integrator (`core/ode_solver.py` line 93). -/
def solutionTime (R : Rounding K) (start : K) (steps : List K) : K :=
  steps.foldl (fun t dt => R.fl (t + dt)) start

theorem nextFl_exact (c : Config K) (s : State K) : nextFl (exact K) c s = next c s := by
  have h : c.gen.callFl (exact K) s.calls = c.gen.call s.calls := by
    unfold Generator.callFl Generator.call exact
    split <;> rfl
  unfold nextFl next
  rw [h]
  rfl

end Verif.TimeStepping
