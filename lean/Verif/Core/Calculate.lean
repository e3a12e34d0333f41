import Verif.Core.Registry
import Verif.Core.Options
import Verif.Props.EndToEnd

/-!
Model of a whole command for a scalar problem: the options `-b`, `-T` and `-s` (`command/calculate.py` lines 97-129,
195-216), the construction of the finite volume solvers from the parsed options (`finite_volume/solver.py` lines 22-70)
and their runs (`core/solver.py` lines 53-64).

Simplifications: the end time given by `-T` is a finite number; the number of evaluations of the initial data in a cell
enters through the quadrature rule `points` (two points, `finite_volume/space.py` line 64); the initial data of the
benchmarks for scalar problems never raise (C102).  The solvers `cg`, `cg-low` and `mcl-fem` are parsed and constructed
as far as their options go, their runs are not part of this file.
-/

set_option linter.unusedSectionVars false

namespace Verif.Calculate

open Verif.Py Verif.Boundary Verif.FV Verif.ODE Verif.Scalar Verif.Solver Verif.Interpolate Verif.Quadrature Verif.Bench
open Verif.Registry Verif.Options Verif.Utilities EndToEnd
open Verif.Mesh hiding Error

/-- `BENCHMARKS` of the problem. -/
noncomputable def table : Problem → List (String × Except Error (Benchmark ℝ))
  | .advection => advectionTable
  | .burgers => burgersTable

/-- `BENCHMARK_DEFAULTS` (`benchmark/advection.py` lines 76-81, `benchmark/burgers.py` lines 64-69), by the key of the
benchmark chosen, for the commands `eoc` (`eoc = true`) and `calculate`, `plot`, `animate`. -/
def defaultBenchmark : Problem → Bool → String
  | .advection, false => "two-hills"
  | .advection, true => "cos"
  | .burgers, false => "shock"
  | .burgers, true => "smooth"

/-- The dictionaries of parsers (`SCALAR_SOLVER_PARSER`, `command/calculate.py` line 13, and `SOLVER_PARSER` of
`finite_volume/shallow_water/solver/__init__.py`), with the solvers in `keys`. -/
noncomputable def parsers (c : Conversions ℝ) (keys : List Key) :
    List (String × (List String → Except Error (Key × Cli.Namespace (Val ℝ)))) :=
  keys.map fun k => (prog k, fun words => (parseSolver c k words).map fun ns => (k, ns))

/-- How a command line can be refused: a message about the usage, `quit()`, or an exception. -/
inductive Exit where
  | usage
  | quit
  | raised (e : Error)

/-- The option `-s` and the construction of the solvers named in it; `history` tells whether the command saves the
history (`_add_save_history_argument`, `command/calculate.py` lines 213-216). -/
noncomputable def solvers (c : Conversions ℝ) (keys : List Key) (history : Bool) (words : List String) :
    Except Exit (List (Key × Settings ℝ)) :=
  match action (parsers c keys) words with
  | .quit => .error .quit
  | .raised e => .error (.raised e)
  | .namespaces l =>
    match l.mapM (fun x => (construct x.1 (withHistory history x.2)).map fun s => (x.1, s)) with
    | .ok l => .ok l
    | .error e => .error (.raised e)

/-- The options `-b`, `-T` and `-s` of the problem `p`.  The benchmark and the constructed solvers.  The order in which
two errors of the same command line are found is not modelled. -/
noncomputable def commandLine (c : Conversions ℝ) (p : Problem) (eoc : Bool) (benchmark : Option String)
    (endTime : Option ℝ) (history : Bool) (words : List String) :
    Except Exit (Benchmark ℝ × List (Key × Settings ℝ)) :=
  match parseBenchmark (table p) (benchmark.getD (defaultBenchmark p eoc)) with
  | .usage => .error .usage
  | .raised e => .error (.raised e)
  | .value b =>
    match solvers c scalarKeys history words with
    | .error e => .error e
    | .ok l => .ok (adjustEndTime endTime b, l)

/-- A constructed finite volume solver: its mesh, what is fixed at construction, and the initial values. -/
structure Job where
  n : ℕ
  mesh : UMesh ℝ
  params : Params ℝ (Fin n → ℝ)
  bench : Bench ℝ (Fin n → ℝ)

/-- `solver.solve()` after `k` calls of `__next__`. -/
noncomputable def Job.run (j : Job) (k : ℕ) : Obj ℝ (Fin j.n → ℝ) × Status :=
  solve j.params (Obj.make j.params j.bench) k

/-- The integrators of `core/ode_solver.py`. -/
noncomputable def tableau : OdeSolver → Tableau ℝ
  | .euler => forwardEuler ℝ
  | .heun => heun ℝ
  | .ssp3 => ssp3 ℝ

/-- The flux getters of the finite volume solvers for scalar problems: `finite_volume/scalar/solver/lax_friedrichs.py`
lines 6-11, `central.py` lines 6-10, `mcl.py` lines 86-94. -/
noncomputable def flux (p : Problem) (b : Benchmark ℝ) (n : ℕ) : Key → Except Error (NumFlux ℝ)
  | .llf => .ok (laxFriedrichs p.riemann)
  | .central => .ok (central ℝ p.riemann.flux)
  | .mclFv => mclOf p n (decide (b.boundary.conditions = ["periodic"]))
  | _ => .error .typeError

/-- What a CFL number makes of the time stepping (`core/time_stepping.py` lines 123-141).  With an infinite number
`min(inf, end_time - time)` is always the time left: this is the same as one step of the length of the whole duration.
With `nan` the call of `len` by the progress bar raises `ValueError` (`int(nan)`, line 130; `tqdm` only catches
`TypeError` and `AttributeError`).  Minus infinity is refused by the parser. -/
noncomputable def cflNumber (dx duration : ℝ) : PyFloat ℝ → Except Error ℝ
  | .fin x => .ok x
  | .posInf => .ok (duration / dx)
  | .negInf => .error .valueError
  | .nan => .error .valueError

/-- The initial data, which never raise. -/
noncomputable def initialData (b : Benchmark ℝ) (x : ℝ) : ℝ :=
  match b.initial x with
  | .ok u => u
  | .error _ => 0

/-- `finite_volume.Solver.__init__` (`finite_volume/solver.py` lines 22-70, `finite_volume/space.py` lines 59-77,
`core/time_stepping.py` lines 166-174) and the start of `solve`; the start time is zero (`core/benchmark.py`
line 14). -/
noncomputable def job (p : Problem) (points : List (ℝ × ℝ)) (b : Benchmark ℝ) (k : Key) (s : Settings ℝ) :
    Except Error Job :=
  match s.meshSize, s.cfl, s.integrator with
  | .int m, .num x, .given (.ode o) =>
    match uniformMesh b.domain m.toNat with
    | .error _ => .error .valueError
    | .ok mesh =>
      match mesh.step with
      | none => .error .nonFinite
      | some dx => do
        let F ← flux p b m.toNat k
        let bc ← build none b.boundary.conditions (F.dim / 2) b.inflowLeft b.inflowRight
        let cfl ← cflNumber dx b.endTime x
        .ok ⟨m.toNat, mesh, fvParams m.toNat (tableau o) (rhs F dx bc) dx cfl 0 b.endTime,
          ⟨fun i => (cellAverages points mesh (initialData b)).getD i 0, 0, b.endTime⟩⟩
  | _, _, _ => .error .typeError

end Verif.Calculate
