import Mathlib.Algebra.Order.Field.Basic
import Mathlib.Algebra.Order.Floor.Ring
import Mathlib.Tactic.Linarith
import Mathlib.Tactic.Positivity
import Mathlib.Tactic.Ring

/-!
Model of `core/time_stepping.py`.

Numbers are elements of a linearly ordered field `K` (exact arithmetic instead of floats).
-/

namespace Verif.TimeStepping

variable {K : Type*} [Field K] [LinearOrder K] [IsStrictOrderedRing K]

/-- The constant `1e-12` of `core/time_stepping.py` lines 132, 146, 154. -/
def tol (K : Type*) [Field K] : K := 1 / 10 ^ 12

/-- `TimeStepGenerator`, lines 49-75.  `raw n` is the value `time_step_function()` returns when
it is evaluated for the `n`-th time; it is arbitrary, because the function may read the current
solution (`DiscreteSolutionDependentTimeStep`, lines 18-33). -/
structure Generator (K : Type*) where
  raw : ℕ → K
  cfl : K
  adaptive : Bool

/-- `TimeStepGenerator.__call__` for the `n`-th time (lines 64-68, 74-75): an adaptive generator
evaluates the function at each call, a non-adaptive one uses the value computed once in
`__init__` (line 67). -/
def Generator.call (g : Generator K) (n : ℕ) : K :=
  if g.adaptive then g.raw n * g.cfl else g.raw 0 * g.cfl

/-- Constructor arguments of `TimeStepping` (lines 96-109). -/
structure Config (K : Type*) where
  startTime : K
  endTime : K
  gen : Generator K

/-- Mutable attributes of `TimeStepping` (lines 88-94) plus the number of generator calls made so
far (`calls`), which lives in the generator's closure. -/
structure State (K : Type*) where
  time : K
  number : ℕ
  stop : Bool
  calls : ℕ

/-- What a call of `__next__` does: raise `StopIteration`, raise `TimeStepTooSmallError`, or
return a time step. -/
inductive Outcome (K : Type*) where
  | stopIteration : Outcome K
  | tooSmall : Outcome K
  | yield : K → Outcome K

/-- `TimeStepping.__iter__`, lines 111-115.  The call counter of the generator is not reset. -/
def iter (c : Config K) (s : State K) : State K :=
  { time := c.startTime, number := 0, stop := false, calls := s.calls }

/-- `TimeStepping.__next__` with `_build_time_step`, `_check_too_small_time_step`, `_update_time`,
`_check_end_reached` (lines 117-121, 136-156). -/
def next (c : Config K) (s : State K) : State K × Outcome K :=
  if s.stop then (s, .stopIteration)
  else
    let dt := min (c.gen.call s.calls) (c.endTime - s.time)
    if dt < tol K then ({ s with calls := s.calls + 1 }, .tooSmall)
    else
      let time := s.time + dt
      if c.endTime - time < tol K then
        ({ time := c.endTime, number := s.number + 1, stop := true, calls := s.calls + 1 },
          .yield dt)
      else
        ({ time := time, number := s.number + 1, stop := false, calls := s.calls + 1 },
          .yield dt)

/-- How a `for`-loop over the time stepping stands. -/
inductive Status where
  | running | finished | failed
  deriving DecidableEq

/-- One pass of the loop body: the yielded step and the value of `time` seen in the body. -/
structure Tick (K : Type*) where
  dt : K
  time : K

/-- A `for dt in time_stepping` loop (as in `core/solver.py` lines 53-60). -/
structure Run (K : Type*) where
  st : State K
  trace : List (Tick K)
  status : Status

/-- One call of `__next__` by the `for`-loop.  After `StopIteration` or an exception the loop is
over. -/
def Run.step (c : Config K) (r : Run K) : Run K :=
  match r.status with
  | .running =>
    match next c r.st with
    | (s, .stopIteration) => { r with st := s, status := .finished }
    | (s, .tooSmall) => { r with st := s, status := .failed }
    | (s, .yield dt) => { r with st := s, trace := r.trace ++ [⟨dt, s.time⟩] }
  | _ => r

/-- Beginning of a `for`-loop on an object in state `s`: `__iter__` is called. -/
def Run.start (c : Config K) (s : State K) : Run K :=
  { st := iter c s, trace := [], status := .running }

/-- The loop after `n` calls of `__next__`. -/
def Run.after (c : Config K) (s : State K) : ℕ → Run K
  | 0 => Run.start c s
  | n + 1 => (Run.after c s n).step c

/-- The steps yielded so far. -/
def Run.steps (r : Run K) : List K := r.trace.map Tick.dt

/-- The times seen in the loop body so far. -/
def Run.times (r : Run K) : List K := r.trace.map Tick.time

/-- Exceptions of `__len__`. -/
inductive LenError where
  | zeroDivision
  | negative
  deriving DecidableEq

/-- `TimeStepping.__len__`, lines 123-134.  `duration // time_step` is the floor of the quotient;
python's `//` raises `ZeroDivisionError` for a zero step and `len()` raises `ValueError` for a
negative result. -/
def len [FloorRing K] (c : Config K) (s : State K) : Except LenError ℕ :=
  if c.gen.adaptive then .ok 0
  else
    let timeStep := c.gen.call s.calls
    let duration := c.endTime - c.startTime
    if timeStep = 0 then .error .zeroDivision
    else
      let n : ℤ := ⌊duration / timeStep⌋
      let n' : ℤ := n + (if timeStep * n < duration - tol K then 1 else 0)
      if n' < 0 then .error .negative else .ok n'.toNat

/-! ### The CFL checker -/

/-- Exceptions of `CFLChecker.__call__`. -/
inductive CFLError where
  | violated
  | indexError
  deriving DecidableEq

/-- `CFLChecker.__call__`, lines 42-46: loop over the stage vectors, reading `time_nodes[i]`. -/
def cflCheck {V : Type*} (opt : K → V → K) (dt : K) : List K → List V → Except CFLError Unit
  | _, [] => .ok ()
  | [], _ :: _ => .error .indexError
  | t :: ts, u :: us => if dt > opt t u then .error .violated else cflCheck opt dt ts us

/-! ### Helper lemmas -/

theorem tol_pos : 0 < tol K := by unfold tol; positivity

/-- The invariant of the loop. -/
structure Inv (c : Config K) (s0 : State K) (r : Run K) : Prop where
  /-- calls = number of yields, unless failed -/
  calls : r.status ≠ .failed → r.st.calls = s0.calls + r.trace.length
  number : r.st.number = r.trace.length
  notStop : r.st.stop = false → r.st.time = c.startTime + r.steps.sum
  stopped : r.st.stop = true → r.st.time = c.endTime ∧
    c.startTime + r.steps.sum ≤ c.endTime ∧ c.endTime - (c.startTime + r.steps.sum) < tol K
  gap : r.st.stop = false → r.trace ≠ [] → tol K ≤ c.endTime - r.st.time
  incr : (c.startTime :: r.times).Pairwise (· < ·)
  le_time : ∀ t ∈ c.startTime :: r.times, t ≤ r.st.time
  bound : ∀ t ∈ r.times, t ≤ c.endTime
  lower : ∀ d ∈ r.steps, tol K ≤ d
  upper : ∀ (k : ℕ) (hk : k < r.steps.length), r.steps[k] ≤ c.gen.call (s0.calls + k)
  fin : r.status = .finished → r.st.stop = true
  failedNotStop : r.status = .failed → r.st.stop = false
  stop_ne : r.st.stop = true → r.trace ≠ []

omit [IsStrictOrderedRing K] in
theorem inv_start (c : Config K) (s0 : State K) : Inv c s0 (Run.start c s0) := by
  constructor <;> simp [Run.start, iter, Run.steps, Run.times]

theorem inv_step (c : Config K) (s0 : State K) (r : Run K) (h : Inv c s0 r) :
    Inv c s0 (r.step c) := by
  unfold Run.step
  cases hs : r.status with
  | finished => simpa [hs] using h
  | failed => simpa [hs] using h
  | running =>
    have hcalls := h.calls (by simp [hs])
    simp only [next]
    cases hstop : r.st.stop with
    | true =>
      simp only [if_true]
      exact { h with
        calls := fun _ => hcalls
        fin := fun _ => hstop
        failedNotStop := by simp }
    | false =>
      simp only [Bool.false_eq_true, if_false]
      set dt := min (c.gen.call r.st.calls) (c.endTime - r.st.time) with hdt
      have htime := h.notStop hstop
      by_cases hsmall : dt < tol K
      · simp only [hsmall, if_true]
        exact { h with
          calls := by simp
          notStop := fun _ => htime
          stopped := by simp
          gap := fun _ => h.gap hstop
          fin := by simp
          failedNotStop := fun _ => rfl
          stop_ne := by simp }
      · simp only [hsmall, if_false]
        have hsmall' : tol K ≤ dt := not_lt.mp hsmall
        have hpos : 0 < dt := lt_of_lt_of_le tol_pos hsmall'
        have hle1 : dt ≤ c.gen.call r.st.calls := min_le_left _ _
        have hle2 : dt ≤ c.endTime - r.st.time := min_le_right _ _
        have hsum : c.startTime + (r.steps.sum + dt) = r.st.time + dt := by rw [htime]; ring
        have hupper : ∀ (k : ℕ) (hk : k < (r.steps ++ [dt]).length),
            (r.steps ++ [dt])[k] ≤ c.gen.call (s0.calls + k) := by
          intro k hk
          by_cases hkl : k < r.steps.length
          · rw [List.getElem_append_left hkl]; exact h.upper k hkl
          · have hk' : k = r.steps.length := by simp at hk; omega
            subst hk'
            have hlen : r.steps.length = r.trace.length := by simp [Run.steps]
            simp only [List.getElem_append_right le_rfl, Nat.sub_self, List.getElem_singleton]
            rw [hlen, ← hcalls]; exact hle1
        have hlower : ∀ d ∈ r.steps ++ [dt], tol K ≤ d := by
          intro d hd
          rcases List.mem_append.mp hd with hd | hd
          · exact h.lower d hd
          · rw [List.mem_singleton] at hd; subst hd; exact hsmall'
        have hincr : ∀ T, r.st.time < T →
            (c.startTime :: (r.times ++ [T])).Pairwise (· < ·) := by
          intro T hT
          rw [← List.cons_append, List.pairwise_append]
          refine ⟨h.incr, by simp, ?_⟩
          intro a ha b hb
          rw [List.mem_singleton] at hb; subst hb
          exact lt_of_le_of_lt (h.le_time a ha) hT
        have hletime : ∀ T, r.st.time < T →
            ∀ t ∈ c.startTime :: (r.times ++ [T]), t ≤ T := by
          intro T hT t ht
          rw [← List.cons_append, List.mem_append] at ht
          rcases ht with ht | ht
          · exact (lt_of_le_of_lt (h.le_time t ht) hT).le
          · rw [List.mem_singleton] at ht; exact ht.le
        have hbound : ∀ T, T ≤ c.endTime → ∀ t ∈ r.times ++ [T], t ≤ c.endTime := by
          intro T hT t ht
          rcases List.mem_append.mp ht with ht | ht
          · exact h.bound t ht
          · rw [List.mem_singleton] at ht; rw [ht]; exact hT
        by_cases hend : c.endTime - (r.st.time + dt) < tol K
        · simp only [hend, if_true]
          constructor <;>
            simp only [Run.steps, Run.times, List.map_append, List.map_cons, List.map_nil,
              List.length_append, List.length_singleton]
          · intro _; rw [hcalls]; ring
          · rw [h.number]
          · simp
          · intro _
            refine ⟨trivial, ?_, ?_⟩
            · rw [List.sum_append, List.sum_singleton]; change c.startTime + (r.steps.sum + dt) ≤ _
              rw [hsum]; linarith
            · rw [List.sum_append, List.sum_singleton]
              change c.endTime - (c.startTime + (r.steps.sum + dt)) < _
              rw [hsum]; exact hend
          · simp
          · exact hincr _ (by linarith)
          · exact hletime _ (by linarith)
          · exact hbound _ le_rfl
          · exact hlower
          · have := hupper; simpa [Run.steps] using this
          · simp
          · simp
          · simp
        · simp only [hend, if_false]
          constructor <;>
            simp only [Run.steps, Run.times, List.map_append, List.map_cons, List.map_nil,
              List.length_append, List.length_singleton]
          · intro _; rw [hcalls]; ring
          · rw [h.number]
          · intro _
            rw [List.sum_append, List.sum_singleton]
            change _ = c.startTime + (r.steps.sum + dt)
            rw [hsum]
          · simp
          · intro _ _; exact not_lt.mp hend
          · exact hincr _ (by linarith)
          · exact hletime _ (by linarith)
          · exact hbound _ (by linarith)
          · exact hlower
          · have := hupper; simpa [Run.steps] using this
          · simp
          · simp
          · simp

theorem inv_after (c : Config K) (s0 : State K) (n : ℕ) : Inv c s0 (Run.after c s0 n) := by
  induction n with
  | zero => exact inv_start c s0
  | succ n ih => exact inv_step c s0 _ ih

end Verif.TimeStepping
