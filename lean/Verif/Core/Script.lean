import Verif.Core.Cli
import Verif.Core.BenchmarkSWE
import Verif.Core.TimeStepping

/-!
# The main script

The functions of the script `cls1` with what they print, and the decorator `profile` of `profiler.py`.  Objects are
modelled as far as `_get_deep_dict` distinguishes them.
-/

set_option linter.unusedSectionVars false

namespace Verif.Script

open Verif.Py Verif.Cli

/-! ### Printing of the arguments -/

/-- An object: with a method `as_dict`, a list, or something else, which is printed by `repr`. -/
inductive Obj where
  | plain (text : String)
  | list (items : List Obj)
  | described (entries : List (String × Obj))

/-- What `_get_deep_dict` makes of an object: a dictionary, a list, or the object itself. -/
inductive Shown where
  | same (o : Obj)
  | seq (items : List Shown)
  | dict (entries : List (String × Shown))

mutual

/-- `_get_deep_dict`, script `cls1` lines 30-51. -/
def deepDict : List (String × Obj) → List (String × Shown)
  | [] => []
  | (key, value) :: rest =>
    (key, match value with
      | .described entries => .dict (deepDict entries)
      | .list items => .seq (deepList items)
      | .plain text => .same (.plain text)) :: deepDict rest

/-- The loop over a list, lines 37-46: lists in lists are left as they are. -/
def deepList : List Obj → List Shown
  | [] => []
  | x :: rest =>
    (match x with
      | .described entries => .dict (deepDict entries)
      | .list items => .same (.list items)
      | .plain text => .same (.plain text)) :: deepList rest

end

/-! ### What objects say about themselves -/

/-- How numbers are printed: `repr`, and the format `.1e`. -/
structure Printer (K : Type*) where
  repr : K → String
  short : K → String

variable {K : Type*} [Field K] [LinearOrder K] [IsStrictOrderedRing K]

/-- `TimeStepGenerator.as_dict`, `core/time_stepping.py` lines 77-82: the time step is not stored when it is computed
adaptively (lines 50 and 66-70), then it is `nan`. -/
def describeGenerator (p : Printer K) (g : TimeStepping.Generator K) : Obj :=
  .described [("time_step", .plain (if g.adaptive then "'nan'" else p.short (g.raw 0))),
    ("cfl", .plain (p.repr g.cfl)), ("adaptive", .plain (if g.adaptive then "True" else "False"))]

/-- `TimeStepping.as_dict`, lines 158-163. -/
def describeStepping (p : Printer K) (c : TimeStepping.Config K) : Obj :=
  .described [("start_time", .plain (p.repr c.startTime)), ("end_time", .plain (p.repr c.endTime)),
    ("time_step_generator", describeGenerator p c.gen)]

/-- `Solver.as_dict`, `core/solver.py` lines 84-90.  The right-hand side has a method `as_dict` if it is one of the
finite volumes (`finite_volume/numerical_flux.py` lines 188-189). -/
def describeSolver (p : Printer K) (kind : String) (rightHandSide : Obj) (ode : String) (c : TimeStepping.Config K) :
    Obj :=
  .described [("name", .plain kind), ("right_hand_side", rightHandSide), ("ode_solver", .plain ode),
    ("time_stepping", describeStepping p c)]

/-- `NumericalFluxDependentRightHandSide.as_dict`. -/
def describeFlux (flux : String) : Obj := .described [("numerical_flux", .plain flux)]

/-- `Benchmark.as_dict`, `core/benchmark.py` lines 45-51. -/
def benchmarkEntries (p : Printer ℝ) (kind domain : String) (start endTime : ℝ) : List (String × Obj) :=
  [("name", .plain kind), ("domain", .plain domain), ("start_time", .plain (p.repr start)),
    ("end_time", .plain (p.repr endTime))]

/-- `OscillationNoTopographyBenchmark.as_dict`, `benchmark/shallow_water.py` lines 210-220. -/
def oscillationEntries (p : Printer ℝ) (kind domain : String) (o : Bench.Oscillation) : List (String × Obj) :=
  benchmarkEntries p kind domain 0 o.endTime ++
    [("h0", .plain (p.repr o.heightAverage)), ("Ah", .plain (p.repr o.heightAmplitude)),
     ("ph", .plain (p.repr o.heightPhaseShift)), ("kh", .plain (p.repr o.heightWaveNumber)),
     ("v0", .plain (p.repr o.velocityAverage)), ("Av", .plain (p.repr o.velocityAmplitude)),
     ("pv", .plain (p.repr o.velocityPhaseShift)), ("kv", .plain (p.repr o.velocityWaveNumber))]

/-- `RandomOscillationNoTopographyBenchmark.as_dict`, lines 257-258. -/
def randomEntries (p : Printer ℝ) (domain : String) (seed : ℤ) (o : Bench.Oscillation) : List (String × Obj) :=
  oscillationEntries p "RandomOscillationNoTopographyBenchmark" domain o ++ [("seed", .plain (toString seed))]

/-! ### The script -/

/-- What is written: a line, the dictionary of the arguments, a profile with so many lines, or something written by a
command. -/
inductive Event (β : Type) where
  | line (text : String)
  | arguments (d : List (String × Shown))
  | profile (lines : ℤ)
  | output (x : β)

variable {α β : Type}

/-- Values as the script sees them. -/
structure View (α : Type) where
  obj : α → Obj
  toInt : α → ℤ

/-- `print_arguments` without the `del`, lines 18-25.  The key `command` has become the class of the command. -/
def printArguments (w : World α) (v : View α) (c : Cmd) (ns : Namespace α) : Except Error (List (Event β)) :=
  match get ns "args" with
  | .error e => .error e
  | .ok a =>
    if w.truthy a then
      .ok [.line "ARGUMENTS:", .line "----------",
        .arguments (deepDict (set (ns.map fun e => (e.1, v.obj e.2)) "command" (.plain (signature c).1))), .line "",
        .line "COMMAND OUTPUT", .line "--------------"]
    else .ok []

/-- `print_profile`, lines 54-57: the new value of `PRINT_PROFILE` (0 in the beginning, `profiler.py` line 9) and the
namespace. -/
def printProfile (v : View α) (ns : Namespace α) : Except Error (ℤ × Namespace α) :=
  match ns.lookup "profile" with
  | some n => (del ns "profile").map fun ns => (v.toInt n, ns)
  | none => .ok (0, ns)

/-- `execute_command`, lines 60-64: what is written, and how it ends. -/
def executeCommand (execute : String → Namespace α → List (Event β) × Except Error Unit) (c : Cmd)
    (ns : Namespace α) : List (Event β) × Except Error Unit :=
  match del ns "command" with
  | .error e => ([], .error e)
  | .ok kw =>
    match call (signature c).2 kw with
    | .error e => ([], .error e)
    | .ok kw => execute (signature c).1 kw

/-- `main`, lines 67-74, as decorated by `profile` (`profiler.py` lines 12-27): the profile is printed after `main` has
returned; an exception leaves both.  `parsing` is what `parse_arguments` writes (`eoc` calculates its solutions there,
`command/error.py` lines 279-309), `execute` the constructor and the method `execute` of the commands. -/
def script (w : World α) (v : View α) (parsing : List (Event β))
    (execute : String → Namespace α → List (Event β) × Except Error Unit) (c : Cmd) (value : String → α) :
    List (Event β) × Except Error Unit :=
  match postprocess w c (parsed c value) with
  | .error e => (parsing, .error e)
  | .ok ns =>
    match printArguments w v c ns with
    | .error e => (parsing, .error e)
    | .ok shown =>
      match del ns "args" with
      | .error e => (parsing ++ shown, .error e)
      | .ok ns =>
        match printProfile v ns with
        | .error e => (parsing ++ shown, .error e)
        | .ok (lines, ns) =>
          match executeCommand execute c ns with
          | (out, .error e) => (parsing ++ shown ++ out, .error e)
          | (out, .ok _) => (parsing ++ shown ++ out ++ (if 0 < lines then [.profile lines] else []), .ok ())

end Verif.Script
