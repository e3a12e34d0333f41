import Verif.Core.TimeStepping
import Verif.Core.ODEExcept
import Verif.Core.Solution

/-!
Model of whole solver objects: `core/solver.py` lines 18-90 together with the time stepping
(`core/time_stepping.py`), the integrator (`core/ode_solver.py`), the solution
(`core/discrete_solution.py`) and `reinitialize` (`finite_volume/solver.py` lines 72-77,
`finite_element/solver.py` lines 7-14, `finite_volume/shallow_water/solver/coarse.py` lines 30-37).

`V` is the space of vectors of degrees of freedom.  The progress bar (`tqdm`) is not modelled.
-/

set_option linter.unusedSectionVars false

namespace Verif.Solver

open Verif.TimeStepping Verif.Solution

variable {K : Type*} [Field K] [LinearOrder K] [IsStrictOrderedRing K]
variable {V : Type*} [AddCommGroup V] [Module K V]

/-- What is fixed when a solver is constructed (`core/solver.py` lines 27-47): the integrator, the
right-hand side, the optimal time step (a function of the solution, or the constant `step_length` of
`get_mesh_dependent_time_stepping`, `core/time_stepping.py` lines 166-174), the CFL number, start and
end time of the benchmark, and the optional CFL checker. -/
structure Params (K V : Type*) where
  tab : ODE.Tableau K
  rhs : K → V → Except Py.Error V
  finite : V → Bool
  optimal : K → V → K
  cfl : K
  adaptive : Bool
  startTime : K
  endTime : K
  checker : Option (K → V → K)

/-- Mutable state of a solver.  `first` is the attribute `_time_step` of a non-adaptive time step
generator (`core/time_stepping.py` line 67), `warnings` the times in the printed warnings.  `shared`
tells whether `solution._value` and `ode_solver._solution` are the same array (`core/solver.py` line
69), which the integrator modifies in place (`core/ode_solver.py` line 89). -/
structure Obj (K V : Type*) where
  sol : Hist K V
  ode : ODE.Solver K V
  first : K
  ts : State K
  shared : Bool
  warnings : List K

/-- Exceptions that leave `solve`. -/
inductive Exn where
  | rhs (e : Py.Error)
  | solution (e : Solution.Error)
  deriving DecidableEq

/-- The part of a benchmark that `reinitialize` and the constructor read: the interpolated initial data,
start time and end time. -/
structure Bench (K V : Type*) where
  initial : V
  startTime : K
  endTime : K

/-- Construction (`core/solver.py` lines 27-47).  The attributes of the time stepping object do not
exist before `__iter__`, which sets all of them. -/
def Obj.make (p : Params K V) (b : Bench K V) : Obj K V where
  sol := Hist.init ⟨b.startTime, b.initial⟩
  ode := ODE.Solver.init b.initial b.startTime
  first := p.optimal b.startTime b.initial
  ts := { time := p.startTime, number := 0, stop := false, calls := 0 }
  shared := false
  warnings := []

/-- The generator as it would answer now (`core/time_stepping.py` lines 18-33 and 64-68). -/
def Obj.config (p : Params K V) (o : Obj K V) : Config K where
  startTime := p.startTime
  endTime := p.endTime
  gen := { raw := fun _ => if p.adaptive then p.optimal o.sol.sol.time o.sol.sol.value else o.first
           cfl := p.cfl
           adaptive := p.adaptive }

/-- `_check_cfl_condition` (`core/solver.py` lines 71-83): a violation is only reported. -/
def Obj.check (p : Params K V) (o : Obj K V) (dt : K) : Obj K V × Option Exn :=
  match p.checker with
  | none => (o, none)
  | some opt =>
    match cflCheck opt dt o.ode.timeNodes o.ode.stageValues with
    | .ok _ => (o, none)
    | .error .violated => ({ o with warnings := o.warnings ++ [o.ts.time] }, none)
    | .error .indexError => (o, some (.rhs .indexError))

/-- `self.solution.update(time_step, self._ode_solver.solution)` (`core/solver.py` line 69).  The
solution keeps the array itself; if the update raises and the array was shared before, the solution
already shows the new values. -/
def Obj.updateSolution (p : Params K V) (o : Obj K V) (dt : K) : Obj K V × Option Exn :=
  match o.sol.update p.finite dt o.ode.solution with
  | (s, none) => ({ o with sol := s, shared := true }, none)
  | (s, some e) =>
    ({ o with
        sol := if o.shared then { s with sol := { s.sol with value := o.ode.solution } } else s },
      some (.solution e))

/-- `_update` (`core/solver.py` lines 66-69). -/
def Obj.update (p : Params K V) (o : Obj K V) (dt : K) : Obj K V × Option Exn :=
  match o.ode.executeE p.tab p.rhs dt with
  | .error e => (o, some (.rhs e))
  | .ok ode =>
    match Obj.check p { o with ode := ode } dt with
    | (o', some e) => (o', some e)
    | (o', none) => o'.updateSolution p dt

/-- How the loop of `solve` stands. -/
inductive Status where
  | running
  | finished
  | interrupted
  | raised (e : Exn)
  deriving DecidableEq

/-- One call of `__next__` by the loop of `solve` (`core/solver.py` lines 53-64) and the loop body. -/
def pass (p : Params K V) (l : Obj K V × Status) : Obj K V × Status :=
  match l.2 with
  | .running =>
    match next (l.1.config p) l.1.ts with
    | (ts, .stopIteration) => ({ l.1 with ts := ts }, .finished)
    | (ts, .tooSmall) => ({ l.1 with ts := ts }, .interrupted)
    | (ts, .yield dt) =>
      match Obj.update p { l.1 with ts := ts } dt with
      | (o, none) => (o, .running)
      | (o, some e) => (o, .raised e)
  | _ => l

/-- `solve` (`core/solver.py` lines 53-64) after `n` calls of `__next__`. -/
def solve (p : Params K V) (o : Obj K V) : ℕ → Obj K V × Status
  | 0 => ({ o with ts := iter (o.config p) o.ts }, .running)
  | n + 1 => pass p (solve p o n)

/-- `reinitialize` (`finite_volume/solver.py` lines 72-77, `finite_element/solver.py` lines 7-14): new
values for the solution and the integrator.  A non-finite initial value raises before the integrator
is touched. -/
def Obj.reinitialize (p : Params K V) (o : Obj K V) (b : Bench K V) : Obj K V × Option Exn :=
  match o.sol.setValue p.finite b.initial b.startTime with
  | (s, some e) => ({ o with sol := s }, some (.solution e))
  | (s, none) =>
    ({ o with
        sol := s
        ode := { o.ode with time := b.startTime, solution := b.initial }
        shared := false }, none)

/-! ### Lemmas -/

/-- Two solvers whose further course is the same. -/
structure Sim (p : Params K V) (w : List K) (o o' : Obj K V) : Prop where
  sol : o.sol = o'.sol
  time : o.ode.time = o'.ode.time
  solution : o.ode.solution = o'.ode.solution
  first : p.adaptive = false → o.first = o'.first
  tsTime : o.ts.time = o'.ts.time
  number : o.ts.number = o'.ts.number
  stop : o.ts.stop = o'.ts.stop
  shared : o.shared = o'.shared
  warnings : o.warnings = w ++ o'.warnings

theorem executeE_congr {ε : Type*} (T : ODE.Tableau K) (f : K → V → Except ε V) (s s' : ODE.Solver K V)
    (h1 : s.time = s'.time) (h2 : s.solution = s'.solution) (dt : K) :
    s.executeE T f dt = s'.executeE T f dt := by
  unfold ODE.Solver.executeE
  rw [h1, h2]

theorem config_call (p : Params K V) {w : List K} {o o' : Obj K V} (h : Sim p w o o') (n m : ℕ) :
    (o.config p).gen.call n = (o'.config p).gen.call m := by
  unfold Generator.call Obj.config
  cases hp : p.adaptive with
  | true => simp [h.sol]
  | false => simp [h.first hp]

theorem next_sim (p : Params K V) {w : List K} {o o' : Obj K V} (h : Sim p w o o') :
    (next (o.config p) o.ts).2 = (next (o'.config p) o'.ts).2 ∧
    (next (o.config p) o.ts).1.time = (next (o'.config p) o'.ts).1.time ∧
    (next (o.config p) o.ts).1.number = (next (o'.config p) o'.ts).1.number ∧
    (next (o.config p) o.ts).1.stop = (next (o'.config p) o'.ts).1.stop := by
  unfold next
  rw [h.stop]
  have hc := config_call p h o.ts.calls o'.ts.calls
  cases o'.ts.stop with
  | true => simp [h.tsTime, h.number, h.stop]
  | false =>
    simp only [hc, h.tsTime, h.number]
    have he : (o.config p).endTime = (o'.config p).endTime := rfl
    rw [he]
    simp only [Bool.false_eq_true, if_false]
    split
    · simp [h.tsTime, h.number, h.stop]
    · split <;> simp

theorem check_sim (p : Params K V) {w : List K} {o o' : Obj K V} (h : Sim p w o o')
    (hn : o.ode.timeNodes = o'.ode.timeNodes) (hv : o.ode.stageValues = o'.ode.stageValues) (dt : K) :
    Sim p w (o.check p dt).1 (o'.check p dt).1 ∧ (o.check p dt).2 = (o'.check p dt).2 := by
  unfold Obj.check
  cases p.checker with
  | none => exact ⟨h, rfl⟩
  | some opt =>
    simp only [hn, hv]
    split
    · exact ⟨h, rfl⟩
    · refine ⟨⟨h.sol, h.time, h.solution, h.first, h.tsTime, h.number, h.stop, h.shared, ?_⟩, rfl⟩
      simp [h.warnings, h.tsTime]
    · exact ⟨h, rfl⟩

theorem updateSolution_sim (p : Params K V) {w : List K} {o o' : Obj K V} (h : Sim p w o o') (dt : K) :
    Sim p w (o.updateSolution p dt).1 (o'.updateSolution p dt).1 ∧
      (o.updateSolution p dt).2 = (o'.updateSolution p dt).2 := by
  unfold Obj.updateSolution
  rw [h.sol, h.solution, h.shared]
  split
  · exact ⟨⟨rfl, h.time, h.solution, h.first, h.tsTime, h.number, h.stop, rfl, h.warnings⟩, rfl⟩
  · exact ⟨⟨rfl, h.time, h.solution, h.first, h.tsTime, h.number, h.stop, rfl, h.warnings⟩, rfl⟩

theorem update_sim (p : Params K V) {w : List K} {o o' : Obj K V} (h : Sim p w o o') (dt : K) :
    Sim p w (o.update p dt).1 (o'.update p dt).1 ∧ (o.update p dt).2 = (o'.update p dt).2 := by
  unfold Obj.update
  rw [executeE_congr p.tab p.rhs o.ode o'.ode h.time h.solution]
  cases o'.ode.executeE p.tab p.rhs dt with
  | error e => exact ⟨h, rfl⟩
  | ok s =>
    have h1 : Sim p w { o with ode := s } { o' with ode := s } :=
      ⟨h.sol, rfl, rfl, h.first, h.tsTime, h.number, h.stop, h.shared, h.warnings⟩
    obtain ⟨h2, h3⟩ := check_sim p h1 rfl rfl dt
    rcases hc : Obj.check p { o with ode := s } dt with ⟨a, ea⟩
    rcases hc' : Obj.check p { o' with ode := s } dt with ⟨b, eb⟩
    rw [hc, hc'] at h2 h3
    simp only at h2 h3
    subst h3
    simp only [hc, hc']
    cases ea with
    | some e => exact ⟨h2, rfl⟩
    | none => exact updateSolution_sim p h2 dt

theorem pass_sim (p : Params K V) {w : List K} {l l' : Obj K V × Status} (h : Sim p w l.1 l'.1)
    (hs : l.2 = l'.2) : Sim p w (pass p l).1 (pass p l').1 ∧ (pass p l).2 = (pass p l').2 := by
  unfold pass
  rw [hs]
  cases hl : l'.2 with
  | running =>
    obtain ⟨h1, h2, h3, h4⟩ := next_sim p h
    rcases ha : next (l.1.config p) l.1.ts with ⟨ts, a⟩
    rcases hb : next (l'.1.config p) l'.1.ts with ⟨ts', b⟩
    rw [ha, hb] at h1 h2 h3 h4
    simp only at h1 h2 h3 h4
    subst h1
    have h5 : Sim p w { l.1 with ts := ts } { l'.1 with ts := ts' } :=
      ⟨h.sol, h.time, h.solution, h.first, h2, h3, h4, h.shared, h.warnings⟩
    cases a with
    | stopIteration => exact ⟨h5, rfl⟩
    | tooSmall => exact ⟨h5, rfl⟩
    | yield dt =>
      obtain ⟨h6, h7⟩ := update_sim p h5 dt
      rcases hc : Obj.update p { l.1 with ts := ts } dt with ⟨x, ex⟩
      rcases hc' : Obj.update p { l'.1 with ts := ts' } dt with ⟨y, ey⟩
      rw [hc, hc'] at h6 h7
      simp only at h6 h7
      subst h7
      simp only [hc, hc']
      cases ex with
      | none => exact ⟨h6, rfl⟩
      | some e => exact ⟨h6, rfl⟩
  | finished => exact ⟨h, hs⟩
  | interrupted => exact ⟨h, hs⟩
  | raised e => exact ⟨h, hs⟩

theorem solve_sim (p : Params K V) (w : List K) (o o' : Obj K V) (h1 : o.sol = o'.sol)
    (h2 : o.ode.time = o'.ode.time) (h3 : o.ode.solution = o'.ode.solution)
    (h4 : p.adaptive = false → o.first = o'.first) (h5 : o.shared = o'.shared)
    (h6 : o.warnings = w ++ o'.warnings) (n : ℕ) :
    Sim p w (solve p o n).1 (solve p o' n).1 ∧ (solve p o n).2 = (solve p o' n).2 := by
  induction n with
  | zero => exact ⟨⟨h1, h2, h3, h4, rfl, rfl, rfl, h5, h6⟩, rfl⟩
  | succ n ih => exact pass_sim p ih.1 ih.2

end Verif.Solver
