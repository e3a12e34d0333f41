import Verif.Core.Coarsen
import Verif.Core.ODESolver

/-!
Model of `core/discrete_solution.py` (time dependent solutions, with and without history, coarse
variants) and of the loop in `core/solver.py`.

`finite v` stands for `np.isfinite(v).all()`.  Methods that may raise return the state of the object
after the call together with an optional exception, since python keeps the attributes already
assigned when an exception propagates.
-/

set_option linter.unusedSectionVars false

namespace Verif.Solution

variable {K : Type*} [Field K] [LinearOrder K] [IsStrictOrderedRing K]

/-- `ValueError("Solution is not finite.")` (line 55) and the coarsener's `ValueError`. -/
inductive Error where
  | notFinite
  | notDivisible
  deriving DecidableEq

/-- `DiscreteSolution` (lines 11-67), value semantics. -/
structure Sol (K V : Type*) where
  time : K
  value : V

section Plain
variable {V : Type*}

/-- `DiscreteSolution.update`, lines 53-58. -/
def Sol.update (finite : V → Bool) (s : Sol K V) (dt : K) (v : V) : Sol K V × Option Error :=
  if finite v then ({ time := s.time + dt, value := v }, none) else (s, some .notFinite)

/-- `DiscreteSolution.set_value`, lines 60-61. -/
def Sol.setValue (finite : V → Bool) (s : Sol K V) (v : V) (t : K) : Sol K V × Option Error :=
  s.update finite (t - s.time) v

/-- `DiscreteSolutionWithHistory` (lines 70-117). -/
structure Hist (K V : Type*) where
  sol : Sol K V
  times : List K
  values : List V

/-- `DiscreteSolutionWithHistory.__init__`, lines 76-79. -/
def Hist.init (s : Sol K V) : Hist K V := ⟨s, [s.time], [s.value]⟩

/-- `DiscreteSolutionWithHistory.update`, lines 105-110. -/
def Hist.update (finite : V → Bool) (h : Hist K V) (dt : K) (v : V) : Hist K V × Option Error :=
  match h.sol.update finite dt v with
  | (_, some e) => (h, some e)
  | (s, none) => ({ sol := s, times := h.times ++ [s.time], values := h.values ++ [v] }, none)

/-- Selection by a boolean mask, `values[mask]` with `mask = times < t` (lines 113-115). -/
def selectPast {α : Type*} (times : List K) (xs : List α) (t : K) : List α :=
  ((times.zip xs).filter (fun p => decide (p.1 < t))).map Prod.snd

/-- `DiscreteSolutionWithHistory.set_value`, lines 112-117: the histories are cut before the
(possibly raising) update is called. -/
def Hist.setValue (finite : V → Bool) (h : Hist K V) (v : V) (t : K) : Hist K V × Option Error :=
  let cut : Hist K V :=
    { sol := h.sol
      times := h.times.filter (fun s => decide (s < t))
      values := selectPast h.times h.values t }
  cut.update finite (t - cut.sol.time) v

/-- Calls on a solution object. -/
inductive Op (K V : Type*) where
  | update (dt : K) (v : V)
  | setValue (v : V) (t : K)

def Op.value {V : Type*} : Op K V → V
  | .update _ v => v
  | .setValue v _ => v

/-- One call on a solution with history. -/
def Hist.call (finite : V → Bool) (h : Hist K V) : Op K V → Hist K V × Option Error
  | .update dt v => h.update finite dt v
  | .setValue v t => h.setValue finite v t

/-- A sequence of calls (exceptions are caught by the caller, who goes on). -/
def Hist.calls (finite : V → Bool) (h : Hist K V) (ops : List (Op K V)) : Hist K V :=
  ops.foldl (fun h op => (h.call finite op).1) h

end Plain

/-! ### Coarse solutions -/

section Coarse
variable {W : Type*} [AddCommGroup W] [Module K W]

/-- `CoarseSolution.value`, lines 131-133. -/
def coarseValue (k : ℕ) (s : Sol K (List W)) : Except Coarsen.Error (List W) :=
  Coarsen.coarsen K k s.value

/-- `CoarseSolutionWithHistory` (lines 146-164): `sol` is the wrapped fine solution. -/
structure CHist (K W : Type*) where
  sol : Sol K (List W)
  times : List K
  values : List (List W)

/-- `CoarseSolutionWithHistory.__init__`, lines 147-149 with lines 76-79. -/
def CHist.init (k : ℕ) (s : Sol K (List W)) : Except Coarsen.Error (CHist K W) :=
  match Coarsen.coarsen K k s.value with
  | .ok u => .ok ⟨s, [s.time], [u]⟩
  | .error e => .error e

/-- `CoarseSolutionWithHistory.update`, lines 159-164.  If the coarsener raises, the wrapped
solution and the time history have already been updated. -/
def CHist.update (finite : List W → Bool) (k : ℕ) (h : CHist K W) (dt : K) (v : List W) :
    CHist K W × Option Error :=
  match h.sol.update finite dt v with
  | (_, some e) => (h, some e)
  | (s, none) =>
    match Coarsen.coarsen K k v with
    | .error _ => ({ sol := s, times := h.times ++ [s.time], values := h.values },
        some .notDivisible)
    | .ok u => ({ sol := s, times := h.times ++ [s.time], values := h.values ++ [u] }, none)

/-- `set_value`, inherited from `DiscreteSolutionWithHistory` (lines 112-117). -/
def CHist.setValue (finite : List W → Bool) (k : ℕ) (h : CHist K W) (v : List W) (t : K) :
    CHist K W × Option Error :=
  let cut : CHist K W :=
    { sol := h.sol
      times := h.times.filter (fun s => decide (s < t))
      values := selectPast h.times h.values t }
  cut.update finite k (t - cut.sol.time) v

def CHist.call (finite : List W → Bool) (k : ℕ) (h : CHist K W) :
    Op K (List W) → CHist K W × Option Error
  | .update dt v => h.update finite k dt v
  | .setValue v t => h.setValue finite k v t

def CHist.calls (finite : List W → Bool) (k : ℕ) (h : CHist K W) (ops : List (Op K (List W))) :
    CHist K W :=
  ops.foldl (fun h op => (h.call finite k op).1) h

end Coarse

/-! ### Solver loop with references

`Solver._update` (`core/solver.py` lines 66-69) passes the array of the ODE solver itself to
`solution.update`, and the ODE solver modifies this array in place (`core/ode_solver.py` line 89).
The model has a heap of arrays; the solution and the ODE solver hold references (addresses). The
history stores copies (`value.copy()`, line 109), i.e. plain values. -/

section Heap
variable {E : Type*} [AddCommGroup E] [Module K E]

structure Machine (K E : Type*) where
  heap : ℕ → E
  /-- address of `solution._value` -/
  solRef : ℕ
  solTime : K
  /-- `_time_history`, `_value_history` -/
  times : List K
  values : List E
  /-- address of `ode_solver._solution` -/
  odeRef : ℕ
  odeTime : K

/-- `Solver.__init__` (`core/solver.py` lines 27-47): the ODE solver gets a copy of the solution's
value (`DiscreteSolution.value` copies, and `_get_initial_value` copies again), i.e. an array with
its own address. -/
def Machine.init (u : E) (t : K) : Machine K E where
  heap := fun _ => u
  solRef := 0
  solTime := t
  times := [t]
  values := [u]
  odeRef := 1
  odeTime := t

/-- `solution.value` as seen by a user. -/
def Machine.value (m : Machine K E) : E := m.heap m.solRef

/-- `ode_solver.solution` as seen by a user. -/
def Machine.odeValue (m : Machine K E) : E := m.heap m.odeRef

/-- `ode_solver.execute(dt)`: the array at `odeRef` is overwritten. -/
def Machine.execute (T : ODE.Tableau K) (f : K → E → E) (m : Machine K E) (dt : K) :
    Machine K E :=
  let s := (ODE.Solver.init (m.heap m.odeRef) m.odeTime).execute T f dt
  { m with
    heap := Function.update m.heap m.odeRef s.solution
    odeTime := s.time }

/-- `solution.update(dt, ode_solver.solution)`: the reference is stored, a copy is appended to the
history; raises if the value is not finite. -/
def Machine.updateSolution (finite : E → Bool) (m : Machine K E) (dt : K) :
    Machine K E × Option Error :=
  if finite (m.heap m.odeRef) then
    ({ m with
       solRef := m.odeRef
       solTime := m.solTime + dt
       times := m.times ++ [m.solTime + dt]
       values := m.values ++ [m.heap m.odeRef] }, none)
  else (m, some .notFinite)

/-- `Solver._update`, lines 66-69 (the CFL check in between only prints a warning). -/
def Machine.step (T : ODE.Tableau K) (f : K → E → E) (finite : E → Bool) (m : Machine K E)
    (dt : K) : Machine K E × Option Error :=
  (m.execute T f dt).updateSolution finite dt

/-- The loop of `Solver.solve`, lines 53-61: stops at the first exception. -/
def Machine.solve (T : ODE.Tableau K) (f : K → E → E) (finite : E → Bool) (m : Machine K E) :
    List K → Machine K E × Option Error
  | [] => (m, none)
  | dt :: dts =>
    match m.step T f finite dt with
    | (m', none) => m'.solve T f finite dts
    | (m', some e) => (m', some e)

end Heap

end Verif.Solution
