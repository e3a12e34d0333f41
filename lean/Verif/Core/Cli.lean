import Verif.Core.Py
import Verif.Core.Commands

/-!
From the command line to the command: the main script `cls1`, `parser.py`, and the methods
`_add_arguments` and `postprocess` of the parsers in `command/`.

A namespace of `argparse` is a list of keys with values.  What `argparse` itself does (splitting the command line,
converting values, usage errors) is not modelled: the parsed namespace has the keys of the options, with
arbitrary values.  What the values mean is left to a `World`.
-/

set_option linter.unusedSectionVars false

namespace Verif.Cli

open Verif.Py

variable {α : Type}

/-- A namespace, or the keyword arguments of a call. -/
abbrev Namespace (α : Type) := List (String × α)

/-- `arguments.key`. -/
def get (ns : Namespace α) (key : String) : Except Error α :=
  match ns.lookup key with
  | some v => .ok v
  | none => .error .attributeError

/-- `arguments.key = value`. -/
def set (ns : Namespace α) (key : String) (value : α) : Namespace α :=
  match ns with
  | [] => [(key, value)]
  | (k, v) :: rest => if k = key then (key, value) :: rest else (k, v) :: set rest key value

/-- `del arguments.key`. -/
def del (ns : Namespace α) (key : String) : Except Error (Namespace α) :=
  match ns with
  | [] => .error .attributeError
  | (k, v) :: rest =>
    if k = key then .ok rest
    else
      match del rest key with
      | .ok rest' => .ok ((k, v) :: rest')
      | .error e => .error e

/-- Several `del`. -/
def dels (ns : Namespace α) : List String → Except Error (Namespace α)
  | [] => .ok ns
  | key :: keys =>
    match del ns key with
    | .ok ns' => dels ns' keys
    | .error e => .error e

/-- What is done with values.  `build benchmark options` constructs all solvers of the list (`_build_solver`,
`command/calculate.py` lines 200-212), `eoc` runs the solvers of the `eoc` command (C115). -/
structure World (α : Type) where
  none : α
  emptyList : α
  isNone : α → Bool
  truthy : α → Bool
  not : α → α
  length : α → ℕ
  index : α → ℕ → α
  setEndTime : α → α → α
  withHistory : α → α
  build : α → α → Except Error α
  eoc : α → α → α → α → Except Error (α × α)
  oscillation : α
  directory : α → Except Error α
  plotData : α → α
  plotter : α → Namespace α → α
  animator : α → Namespace α → α
  variations : α → Except Error α
  trainable : α → α
  untrained : α → α
  load : α → Except Error α
  setParams : α → α → Except Error α

/-- The commands of `command/__init__.py` lines 17-32. -/
inductive Cmd where
  | analyzeCurvature | analyzeData | animate | calculate | deleteCurvature | eoc | generateData | help
  | parameterVariationTest | plot | plotErrorEvolution | printNetwork | test | trainNetwork
  deriving DecidableEq

/-- `--profile` and `--args`, `command/command.py` lines 27-40. -/
def general : List String := ["profile", "args"]

/-- Options of the problems, `command/calculate.py` lines 80-171 (`-b` and `-r` have the same destination). -/
def problem : List String := ["problem", "benchmark", "end_time", "solver"]

/-- The destinations of all options of a command, in the order of `add_argument`. -/
def dests : Cmd → List String
  | .analyzeCurvature => ["command", "hide", "save"] ++ general
  | .analyzeData => ["command", "data_path", "histogram"] ++ general
  | .animate => "command" :: problem ++
      ["mesh_size", "initial", "save", "show", "time_steps", "start_time", "duration"] ++ general
  | .calculate => "command" :: problem ++ general
  | .deleteCurvature => ["command", "data_path", "target_path", "step_length", "curvature_height_threshold",
      "curvature_discharge_threshold"] ++ general
  | .eoc => "command" :: problem ++ ["mesh_size", "refine"] ++ general
  | .generateData => ["command", "directory", "end_time", "coarsening_degree", "solver", "solution_number", "seed",
      "input_radius", "node_index", "append"] ++ general
  | .help => ["command", "parser"] ++ general
  | .parameterVariationTest => ["command", "solver", "end_time", "directory", "references", "references_prefix",
      "variations", "initial_data_number", "seed", "save_plot", "save_animation"] ++ general
  | .plot => "command" :: problem ++ ["mesh_size", "initial", "save_plot", "save_data", "show"] ++ general
  | .plotErrorEvolution => ["command", "benchmark", "end_time", "solver", "save", "show"] ++ general
  | .printNetwork => ["command", "network"] ++ general
  | .test => ["command", "file"] ++ general
  | .trainNetwork => ["command", "network", "parameter", "epochs", "skip", "seed", "resume_training", "confirm",
      "plot_loss"] ++ general

/-- The namespace `argparse` returns. -/
def parsed (c : Cmd) (value : String → α) : Namespace α := (dests c).map fun d => (d, value d)

/-- `_adjust_end_time`, `command/calculate.py` lines 195-198. -/
def adjustEndTime (w : World α) (ns : Namespace α) : Except Error (Namespace α) := do
  let t ← get ns "end_time"
  if w.truthy t then
    let b ← get ns "benchmark"
    del (set ns "benchmark" (w.setEndTime b t)) "end_time"
  else del ns "end_time"

/-- `_build_solver`, lines 200-212. -/
def buildSolver (w : World α) (ns : Namespace α) : Except Error (Namespace α) := do
  let s ← get ns "solver"
  if w.isNone s then .ok ns
  else
    let b ← get ns "benchmark"
    let solvers ← w.build b s
    .ok (set ns "solver" solvers)

/-- `_add_save_history_argument`, lines 214-216: a loop over `None` without `-s`. -/
def addSaveHistory (w : World α) (ns : Namespace α) : Except Error (Namespace α) := do
  let s ← get ns "solver"
  if w.isNone s then .error .typeError else .ok (set ns "solver" (w.withHistory s))

/-- `_assert_one_solver` and `_assert_two_solver` (`command/generate_data.py` lines 485-489,
`command/error_evolution.py` lines 380-384, `command/parameter_variation_test.py` lines 263-267). -/
def assertSolvers (w : World α) (n : ℕ) (ns : Namespace α) : Except Error Unit := do
  let s ← get ns "solver"
  if (if w.isNone s then 0 else w.length s) = n then .ok () else .error .assertionError

/-- `_build_save_data`, `command/plot.py` lines 427-433: where the data of a plot are saved. -/
def buildSaveData (w : World α) (ns : Namespace α) : Except Error (Namespace α) := do
  let d ← get ns "save_data"
  let s ← get ns "save_plot"
  if w.isNone d then .ok (set ns "save_data" (w.plotData s)) else .ok ns

/-- The entries of some keys. -/
def select (ns : Namespace α) : List String → Except Error (Namespace α)
  | [] => .ok []
  | key :: keys =>
    match get ns key, select ns keys with
    | .ok v, .ok r => .ok ((key, v) :: r)
    | .error e, _ => .error e
    | _, .error e => .error e

/-- The methods `postprocess`.  The key `command` stays (its new value, the class, is the second component of
`signature`). -/
def postprocess (w : World α) (c : Cmd) (ns : Namespace α) : Except Error (Namespace α) := do
  match c with
  | .analyzeCurvature => -- analyze_curvature.py lines 152-156
    let h ← get ns "hide"
    del (set ns "show" (w.not h)) "hide"
  | .analyzeData => -- analyze_data.py lines 45-49
    let d ← get ns "data_path"
    del (set ns "data_paths" d) "data_path"
  | .animate => -- animate.py lines 502-533
    let ns ← adjustEndTime w ns
    let ns ← addSaveHistory w ns
    let ns ← buildSolver w ns
    let p ← get ns "problem"
    let args ← select ns ["benchmark", "mesh_size", "time_steps", "save", "start_time", "duration", "show"]
    dels (set ns "animator" (w.animator p args))
      ["mesh_size", "time_steps", "save", "start_time", "duration", "show", "problem"]
  | .calculate => -- calculate.py lines 187-193
    let ns ← adjustEndTime w ns
    let ns ← buildSolver w ns
    dels ns ["problem", "benchmark"]
  | .deleteCurvature => .ok ns -- delete_curvature.py lines 96-97
  | .eoc => -- error.py lines 271-309
    let ns ← adjustEndTime w ns
    let b ← get ns "benchmark"
    let s ← get ns "solver"
    let m ← get ns "mesh_size"
    let r ← get ns "refine"
    let result ← w.eoc b s m r
    dels (set (set ns "solvers" result.1) "solver_spaces" result.2) ["refine", "mesh_size", "solver", "problem"]
  | .generateData => -- generate_data.py lines 472-493
    assertSolvers w 1 ns
    let d ← get ns "directory"
    let s ← get ns "solver"
    let ns ← if w.isNone d then (w.directory s).map (set ns "directory") else .ok ns
    let a ← get ns "append"
    let ns := set (set ns "overwrite" (w.not a)) "benchmark" w.oscillation
    let ns ← buildSolver w ns
    let s ← get ns "solver"
    dels (set ns "solver" (w.index s 0)) ["append", "benchmark"]
  | .help => .ok ns -- help.py lines 40-41
  | .parameterVariationTest => -- parameter_variation_test.py lines 251-286
    assertSolvers w 2 ns
    let ns ← addSaveHistory w ns
    let ns := set ns "benchmark" w.oscillation
    let ns ← adjustEndTime w ns
    let ns ← buildSolver w ns
    let s ← get ns "solver"
    let ns ← del (set (set ns "solver_approximation" (w.index s 0)) "solver_exact" (w.index s 1)) "solver"
    let v ← get ns "variations"
    let vs ← if w.isNone v then .ok w.emptyList else w.variations v
    dels (set ns "parameter_variations" vs) ["variations", "benchmark"]
  | .plot => -- plot.py lines 418-453
    let ns ← adjustEndTime w ns
    let ns ← buildSolver w ns
    let ns ← buildSaveData w ns
    let p ← get ns "problem"
    let args ← select ns ["benchmark", "mesh_size", "save_plot", "save_data", "show"]
    dels (set ns "plotter" (w.plotter p args)) ["mesh_size", "save_plot", "save_data", "show", "problem"]
  | .plotErrorEvolution => -- error_evolution.py lines 371-378
    assertSolvers w 2 ns
    let ns ← adjustEndTime w ns
    let ns ← addSaveHistory w ns
    let ns ← buildSolver w ns
    del ns "benchmark"
  | .printNetwork => -- print_network.py lines 35-37
    let n ← get ns "network"
    .ok (set ns "network" (w.untrained n))
  | .test => .ok ns -- test.py lines 33-34
  | .trainNetwork => -- train_network.py lines 186-205
    let n ← get ns "network"
    let r ← get ns "resume_training"
    let net ← if w.truthy r then w.load (w.trainable n) else .ok (w.trainable n)
    let ns ← del ns "resume_training"
    let p ← get ns "parameter"
    let ns ← del ns "parameter"
    let net ← w.setParams net p
    .ok (set ns "network" net)

/-- A constructor: parameters without and with a default value, and whether there is a `**kwargs`. -/
structure Signature where
  required : List String
  optional : List String
  kwargs : Bool

/-- The classes of the commands with their constructors. -/
def signature : Cmd → String × Signature
  | .analyzeCurvature => ("PlotCurvatureAgainstSubgridFlux", ⟨[], ["show", "save"], false⟩)
  | .analyzeData => ("AnalyzeData", ⟨["data_paths"], ["histogram"], false⟩)
  | .animate => ("Animate", ⟨["benchmark", "solver", "animator"],
      ["initial", "solver_executed", "write_warnings"], false⟩)
  | .calculate => ("Calculate", ⟨["solver"], [], true⟩)
  | .deleteCurvature => ("DeleteCurvature", ⟨["data_path", "target_path"],
      ["step_length", "curvature_height_threshold", "curvature_discharge_threshold"], false⟩)
  | .eoc => ("CalculateEOC", ⟨["benchmark", "solvers", "solver_spaces"], [], false⟩)
  | .generateData => ("GenerateData", ⟨["solver", "directory"], ["solution_number", "end_time", "seed",
      "coarsening_degree", "input_radius", "node_index", "overwrite", "print_output"], false⟩)
  | .help => ("Help", ⟨["parser"], [], false⟩)
  | .parameterVariationTest => ("ParameterVariationTest", ⟨["solver_approximation", "solver_exact", "directory"],
      ["initial_data_number", "seed", "end_time", "references", "references_prefix", "parameter_variations",
        "save_plot", "save_animation"], false⟩)
  | .plot => ("Plot", ⟨["benchmark", "solver", "plotter"], ["initial", "solver_executed", "write_warnings"], false⟩)
  | .plotErrorEvolution => ("PlotShallowWaterErrorEvolution",
      ⟨["solver"], ["suptitle", "show", "save", "solver_executed"], false⟩)
  | .printNetwork => ("PrintNetwork", ⟨["network"], [], false⟩)
  | .test => ("Test", ⟨[], ["file"], false⟩)
  | .trainNetwork => ("TrainNetwork", ⟨["network"], ["epochs", "skip", "seed", "plot_loss", "confirm"], false⟩)

/-- A call with keyword arguments: `TypeError` for an unknown or a missing one. -/
def call (s : Signature) (kw : Namespace α) : Except Error (Namespace α) :=
  if !s.kwargs && kw.any (fun p => !(s.required ++ s.optional).contains p.1) then .error .typeError
  else if s.required.any (fun r => (kw.lookup r).isNone) then .error .typeError
  else .ok kw

/-- `main` of the script `cls1`, lines 53-77, up to the call of `execute`: the command constructed and its
keyword arguments. -/
def main (w : World α) (c : Cmd) (value : String → α) : Except Error (String × Namespace α) := do
  let ns ← postprocess w c (parsed c value)
  let ns ← del ns "args"
  let ns ← if (ns.lookup "profile").isSome then del ns "profile" else .ok ns
  let kw ← del ns "command"
  let kw ← call (signature c).2 kw
  .ok ((signature c).1, kw)

/-! ### Attributes of `core` -/

/-- The attributes of the package `core` (`core/__init__.py`): the public names of its modules, which include what the
modules import, and the modules. -/
def coreNames : List String :=
  ["ABC", "abstractmethod", "Callable", "Generic", "List", "Literal", "Optional", "Tuple", "TypeVar", "np", "SIDE", "T",
   "GhostCell", "CopyCell", "InflowCell", "BoundaryConditions", "BoundaryConditionsBuilder",
   "get_boundary_conditions", -- boundary
   "SolverSpace", "VectorCoarsener", "DiscreteSolution", "DiscreteSolutionWithHistory", "CoarseSolution",
   "CoarseSolutionWithHistory", -- discrete_solution
   "maximum", "minimum", "minmod", -- function
   "Set", "IndexMapping", "NeighbourIndicesMapping", "FineGridIndicesMapping", -- index_mapping
   "product", "Sequence", "Mesh", "GaussianQuadrature", "Interpolator", "CellAverageInterpolator",
   "NodeValuesInterpolator", "TemporalInterpolator", "SpatialInterpolator", -- interpolate
   "core", "LocalMaximum", "LocalMinimum", -- local_bounds
   "Iterator", "Interval", "UniformMesh", "AffineTransformation", -- mesh
   "LocalElementQuadrature", "Norm", "IntegralNorm", "L2Norm", "L1Norm", "solver_spaces", -- norm
   "sqrt", "ExplicitRungeKuttaMethod", "ForwardEuler", "Heun", "StrongStabilityPreservingRungeKutta3",
   "RungeKutta8", -- ode_solver
   "Quadrature", "SpecificGaussianQuadrature", -- quadrature
   "Any", "FLUX", "WAVE_SPEED", "RiemannSolver", -- riemann_solver
   "argparse", "Dict", "Type", "defaults", "tqdm", "Benchmark", "RightHandSide", "Solver", "SolverParser",
   "SolverAction", -- solver
   "FastFunction", "CellDependentFunction", "EmptySpace", -- space
   "csr_matrix", "lil_matrix", "spmatrix", "SuperLU", "splu", "spsolve", "VectorEntryCalculator",
   "SystemMatrixEntryCalculator", "QuadratureBasedVectorEntryCalculator", "SystemMatrix", -- system
   "TimeStepTooSmallError", "CFLConditionViolatedError", "DiscreteSolutionDependentTimeStep", "CFLChecker",
   "TimeStepGenerator", "TimeStepping", "get_mesh_dependent_time_stepping", "get_adaptive_time_stepping", -- time_stepping
   "positive_float", "positive_int", "non_negative_int", "percent_number", -- type
   "benchmark", "boundary", "discrete_solution", "function", "index_mapping", "interpolate", "local_bounds", "mesh",
   "norm", "ode_solver", "quadrature", "riemann_solver", "solver", "space", "system", "time_stepping", "type",
   "vector_coarsener"]

/-- Files by path, with the rows of a table. -/
abbrev Disk := String → Option (List (List ℝ))

/-- What `core.load_data` and `core.save_data` would be: reading and writing a table. -/
structure DataFunctions where
  load : Disk → String → Except Error (List (List ℝ))
  save : Disk → String → List (List ℝ) → Disk

/-- `core.name(...)`: the attribute is looked up before anything is called. -/
def lookupAttribute (names : List String) (name : String) : Except Error Unit :=
  if name ∈ names then .ok () else .error .attributeError

/-- `DeleteCurvature.execute`, `command/delete_curvature.py` lines 31-42, for an arbitrary package `core`: the disk
afterwards, and the exception if there is one. -/
noncomputable def deleteCurvature (names : List String) (f : DataFunctions) (disk : Disk) (data target : String)
    (step kh kq : Option ℝ) : Disk × Option Error :=
  match lookupAttribute names "load_data" with
  | .error e => (disk, some e)
  | .ok () =>
    match f.load disk data with
    | .error e => (disk, some e)
    | .ok rows =>
      match lookupAttribute names "save_data" with
      | .error e => (disk, some e)
      | .ok () => (f.save disk target (Commands.deleteCurvature step kh kq rows), none)

/-- `AnalyzeData.execute`, `command/analyze_data.py` lines 18-29: the tables described, and the exception if there is
one. -/
def analyzeData (names : List String) (f : DataFunctions) (disk : Disk) :
    List String → List (String × List (List ℝ)) × Option Error
  | [] => ([], none)
  | path :: paths =>
    match lookupAttribute names "load_data" with
    | .error e => ([], some e)
    | .ok () =>
      match f.load disk path with
      | .error e => ([], some e)
      | .ok rows =>
        let rest := analyzeData names f disk paths
        ((path, rows) :: rest.1, rest.2)

/-- `PlotCurvatureAgainstSubgridFlux.execute`, `command/analyze_curvature.py` lines 103-105: the two tables it starts
with.  The scatter plots after that are not modelled. -/
def analyzeCurvature (names : List String) (f : DataFunctions) (disk : Disk) :
    Except Error (List (List ℝ) × List (List ℝ)) :=
  match lookupAttribute names "load_data" with
  | .error e => .error e
  | .ok () =>
    match f.load disk "data/reduced-llf/data.csv", f.load disk "data/reduced-es1/data.csv" with
    | .ok llf, .ok es1 => .ok (llf, es1)
    | .error e, _ => .error e
    | _, .error e => .error e

end Verif.Cli
