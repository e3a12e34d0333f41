import Verif.Core.Cli
import Verif.Props.Commands

/-!
C116: from the command line to the command; C80: the filter of `delete-curvature` cannot be reached.
-/

set_option linter.unusedSectionVars false

namespace Verif.Cli

open Verif.Py

variable {α : Type}

/-- The benchmark with the end time of option `-T`, if given. -/
def timed (w : World α) (benchmark endTime : α) : α :=
  if w.truthy endTime then w.setEndTime benchmark endTime else benchmark

/-- The solvers for the options after `-s`, `None` without. -/
def solversFor (w : World α) (benchmark options : α) : Except Error α :=
  if w.isNone options then .ok options else w.build benchmark options

/-- The number of solvers after `-s`. -/
def solverCount (w : World α) (options : α) : ℕ := if w.isNone options then 0 else w.length options

/-- Asking for the history leaves a list a list. -/
def KeepsList (w : World α) : Prop := ∀ s, w.isNone s = false → w.isNone (w.withHistory s) = false

/-- Evaluates `main` for a given command. -/
local macro "evaluate" "[" hs:Lean.Parser.Tactic.simpLemma,* "]" : tactic =>
  `(tactic| simp [main, postprocess, parsed, dests, problem, general, adjustEndTime, buildSolver, addSaveHistory,
      assertSolvers, buildSaveData, select, get, set, del, dels, List.lookup, call, signature, bind, Except.bind, Except.map,
      $hs,*])

/-- C116.  `calculate`: the solvers for the benchmark with the end time of `-T`. -/
theorem C116_calculate (w : World α) (value : String → α) :
    main w .calculate value =
      (solversFor w (timed w (value "benchmark") (value "end_time")) (value "solver")).map
        fun s => ("Calculate", [("solver", s)]) := by
  unfold solversFor timed
  cases h1 : w.truthy (value "end_time") <;> cases h2 : w.isNone (value "solver") <;>
    cases h3 : w.build (timed w (value "benchmark") (value "end_time")) (value "solver") <;>
    simp [timed, h1] at h3 <;> evaluate [h1, h2, h3]

/-- C116.  `plot`: the data of the plot are saved in the file of `--save-data`, or in one derived from that of
`--save`. -/
theorem C116_plot (w : World α) (value : String → α) :
    let b := timed w (value "benchmark") (value "end_time")
    let d := if w.isNone (value "save_data") then w.plotData (value "save_plot") else value "save_data"
    main w .plot value = (solversFor w b (value "solver")).map fun s =>
      ("Plot", [("benchmark", b), ("solver", s), ("initial", value "initial"),
        ("plotter", w.plotter (value "problem") [("benchmark", b), ("mesh_size", value "mesh_size"),
          ("save_plot", value "save_plot"), ("save_data", d), ("show", value "show")])]) := by
  intro b d
  simp only [b, d]
  unfold solversFor timed
  cases h1 : w.truthy (value "end_time") <;> cases h2 : w.isNone (value "solver") <;>
    cases h4 : w.isNone (value "save_data") <;>
    cases h3 : w.build (timed w (value "benchmark") (value "end_time")) (value "solver") <;>
    simp [timed, h1] at h3 <;> evaluate [h1, h2, h3, h4]

/-- C116.  `animate`: all solvers record their history; without `-s` a `TypeError`. -/
theorem C116_animate (w : World α) (hw : KeepsList w) (value : String → α) :
    let b := timed w (value "benchmark") (value "end_time")
    main w .animate value =
      if w.isNone (value "solver") then .error .typeError
      else (w.build b (w.withHistory (value "solver"))).map fun s =>
        ("Animate", [("benchmark", b), ("solver", s), ("initial", value "initial"),
          ("animator", w.animator (value "problem") [("benchmark", b), ("mesh_size", value "mesh_size"),
            ("time_steps", value "time_steps"), ("save", value "save"), ("start_time", value "start_time"),
            ("duration", value "duration"), ("show", value "show")])]) := by
  intro b
  simp only [b]
  unfold timed
  cases h1 : w.truthy (value "end_time") <;> cases h2 : w.isNone (value "solver") <;>
    cases h3 : w.build (timed w (value "benchmark") (value "end_time")) (w.withHistory (value "solver")) <;>
    simp [timed, h1] at h3 <;> first | evaluate [h1, h2, h3, hw _ h2] | evaluate [h1, h2, h3]

/-- C116.  `plot-error-evolution`: exactly two solvers, with their histories. -/
theorem C116_plot_error_evolution (w : World α) (hw : KeepsList w) (value : String → α) :
    main w .plotErrorEvolution value =
      if solverCount w (value "solver") = 2 then
        (w.build (timed w (value "benchmark") (value "end_time")) (w.withHistory (value "solver"))).map fun s =>
          ("PlotShallowWaterErrorEvolution", [("solver", s), ("save", value "save"), ("show", value "show")])
      else .error .assertionError := by
  unfold solverCount timed
  cases h1 : w.truthy (value "end_time") <;> cases h2 : w.isNone (value "solver") <;>
    by_cases h4 : w.length (value "solver") = 2 <;>
    cases h3 : w.build (timed w (value "benchmark") (value "end_time")) (w.withHistory (value "solver")) <;>
    simp [timed, h1] at h3 <;> first | evaluate [h1, h2, h3, h4, hw _ h2] | evaluate [h1, h2, h3, h4]

/-- C116.  `eoc` (C115 says what `w.eoc` is). -/
theorem C116_eoc (w : World α) (value : String → α) :
    let b := timed w (value "benchmark") (value "end_time")
    main w .eoc value = (w.eoc b (value "solver") (value "mesh_size") (value "refine")).map fun r =>
      ("CalculateEOC", [("benchmark", b), ("solvers", r.1), ("solver_spaces", r.2)]) := by
  intro b
  simp only [b]
  unfold timed
  cases h1 : w.truthy (value "end_time") <;>
    cases h3 : w.eoc (timed w (value "benchmark") (value "end_time")) (value "solver") (value "mesh_size")
      (value "refine") <;>
    simp [timed, h1] at h3 <;> evaluate [h1, h3]

/-- C116.  `generate-data`: exactly one solver; it is built for the same benchmark whatever the end time of `-T`
is, which only the random benchmarks get. -/
theorem C116_generate_data (w : World α) (value : String → α) :
    main w .generateData value =
      if solverCount w (value "solver") = 1 then
        (if w.isNone (value "directory") then w.directory (value "solver") else .ok (value "directory")).bind fun d =>
          (w.build w.oscillation (value "solver")).map fun s =>
            ("GenerateData", [("directory", d), ("end_time", value "end_time"),
              ("coarsening_degree", value "coarsening_degree"), ("solver", w.index s 0),
              ("solution_number", value "solution_number"), ("seed", value "seed"),
              ("input_radius", value "input_radius"), ("node_index", value "node_index"),
              ("overwrite", w.not (value "append"))])
      else .error .assertionError := by
  unfold solverCount
  cases h1 : w.isNone (value "directory") <;> cases h2 : w.isNone (value "solver") <;>
    by_cases h4 : w.length (value "solver") = 1 <;>
    cases h5 : w.directory (value "solver") <;>
    cases h3 : w.build w.oscillation (value "solver") <;> evaluate [h1, h2, h3, h4, h5]

/-- C116.  `parameter-variation-test`: exactly two solvers, the second one the reference; the end time of `-T` is that
of the solvers. -/
theorem C116_parameter_variation_test (w : World α) (hw : KeepsList w) (value : String → α) :
    main w .parameterVariationTest value =
      if solverCount w (value "solver") = 2 then
        (w.build (timed w w.oscillation (value "end_time")) (w.withHistory (value "solver"))).bind fun s =>
          (if w.isNone (value "variations") then .ok w.emptyList else w.variations (value "variations")).map fun v =>
            ("ParameterVariationTest", [("directory", value "directory"), ("references", value "references"),
              ("references_prefix", value "references_prefix"),
              ("initial_data_number", value "initial_data_number"), ("seed", value "seed"),
              ("save_plot", value "save_plot"), ("save_animation", value "save_animation"),
              ("solver_approximation", w.index s 0), ("solver_exact", w.index s 1), ("parameter_variations", v)])
      else .error .assertionError := by
  unfold solverCount timed
  cases h1 : w.truthy (value "end_time") <;> cases h2 : w.isNone (value "solver") <;>
    by_cases h4 : w.length (value "solver") = 2 <;> cases h5 : w.isNone (value "variations") <;>
    cases h6 : w.variations (value "variations") <;>
    cases h3 : w.build (timed w w.oscillation (value "end_time")) (w.withHistory (value "solver")) <;>
    simp [timed, h1] at h3 <;> first | evaluate [h1, h2, h3, h4, h5, h6, hw _ h2] | evaluate [h1, h2, h3, h4, h5, h6]

/-- C116.  `train-network` and `print-network`. -/
theorem C116_networks (w : World α) (value : String → α) :
    (main w .trainNetwork value =
      ((if w.truthy (value "resume_training") then w.load (w.trainable (value "network"))
        else .ok (w.trainable (value "network"))).bind fun n => w.setParams n (value "parameter")).map fun n =>
        ("TrainNetwork", [("network", n), ("epochs", value "epochs"), ("skip", value "skip"), ("seed", value "seed"),
          ("confirm", value "confirm"), ("plot_loss", value "plot_loss")])) ∧
    main w .printNetwork value = .ok ("PrintNetwork", [("network", w.untrained (value "network"))]) := by
  constructor
  · cases h1 : w.truthy (value "resume_training")
    · cases h2 : w.setParams (w.trainable (value "network")) (value "parameter") <;> evaluate [h1, h2]
    · cases h3 : w.load (w.trainable (value "network")) with
      | error e => evaluate [h1, h3]
      | ok n => cases h2 : w.setParams n (value "parameter") <;> evaluate [h1, h2, h3]
  · evaluate []

/-- C116.  The commands whose options are the arguments, apart from the negated `--hide`. -/
theorem C116_plain (w : World α) (value : String → α) :
    main w .analyzeCurvature value = .ok ("PlotCurvatureAgainstSubgridFlux",
      [("save", value "save"), ("show", w.not (value "hide"))]) ∧
    main w .analyzeData value = .ok ("AnalyzeData",
      [("histogram", value "histogram"), ("data_paths", value "data_path")]) ∧
    main w .deleteCurvature value = .ok ("DeleteCurvature", [("data_path", value "data_path"),
      ("target_path", value "target_path"), ("step_length", value "step_length"),
      ("curvature_height_threshold", value "curvature_height_threshold"),
      ("curvature_discharge_threshold", value "curvature_discharge_threshold")]) ∧
    main w .help value = .ok ("Help", [("parser", value "parser")]) ∧
    main w .test value = .ok ("Test", [("file", value "file")]) := by
  refine ⟨?_, ?_, ?_, ?_, ?_⟩ <;> evaluate []

/-- C116.  No command is called with an argument it does not know or without one it needs: an exception before
`execute` is one of `postprocess`, that is, of building what the options ask for. -/
theorem C116_accepted (w : World α) (c : Cmd) (value : String → α) (e : Error) (h : main w c value = .error e) :
    postprocess w c (parsed c value) = .error e := by
  cases c
  case analyzeCurvature => rw [(C116_plain w value).1] at h; cases h
  case analyzeData => rw [(C116_plain w value).2.1] at h; cases h
  case deleteCurvature => rw [(C116_plain w value).2.2.1] at h; cases h
  case help => rw [(C116_plain w value).2.2.2.1] at h; cases h
  case test => rw [(C116_plain w value).2.2.2.2] at h; cases h
  case printNetwork => rw [(C116_networks w value).2] at h; cases h
  case calculate =>
    revert h
    cases h1 : w.truthy (value "end_time") <;> cases h2 : w.isNone (value "solver") <;>
      cases h3 : w.build (timed w (value "benchmark") (value "end_time")) (value "solver") <;>
      simp [timed, h1] at h3 <;> evaluate [h1, h2, h3]
  case plot =>
    revert h
    cases h1 : w.truthy (value "end_time") <;> cases h2 : w.isNone (value "solver") <;>
      cases h4 : w.isNone (value "save_data") <;>
      cases h3 : w.build (timed w (value "benchmark") (value "end_time")) (value "solver") <;>
      simp [timed, h1] at h3 <;> evaluate [h1, h2, h3, h4]
  case animate =>
    revert h
    cases h1 : w.truthy (value "end_time") <;> cases h2 : w.isNone (value "solver") <;>
      cases h4 : w.isNone (w.withHistory (value "solver")) <;>
      cases h3 : w.build (timed w (value "benchmark") (value "end_time")) (w.withHistory (value "solver")) <;>
      simp [timed, h1] at h3 <;> evaluate [h1, h2, h3, h4]
  case plotErrorEvolution =>
    revert h
    cases h1 : w.truthy (value "end_time") <;> cases h2 : w.isNone (value "solver") <;>
      cases h5 : w.isNone (w.withHistory (value "solver")) <;>
      by_cases h4 : w.length (value "solver") = 2 <;>
      cases h3 : w.build (timed w (value "benchmark") (value "end_time")) (w.withHistory (value "solver")) <;>
      simp [timed, h1] at h3 <;> evaluate [h1, h2, h3, h4, h5]
  case eoc =>
    revert h
    cases h1 : w.truthy (value "end_time") <;>
      cases h3 : w.eoc (timed w (value "benchmark") (value "end_time")) (value "solver") (value "mesh_size")
        (value "refine") <;>
      simp [timed, h1] at h3 <;> evaluate [h1, h3]
  case generateData =>
    revert h
    cases h1 : w.isNone (value "directory") <;> cases h2 : w.isNone (value "solver") <;>
      by_cases h4 : w.length (value "solver") = 1 <;> cases h5 : w.directory (value "solver") <;>
      cases h3 : w.build w.oscillation (value "solver") <;> evaluate [h1, h2, h3, h4, h5]
  case parameterVariationTest =>
    revert h
    cases h1 : w.truthy (value "end_time") <;> cases h2 : w.isNone (value "solver") <;>
      cases h7 : w.isNone (w.withHistory (value "solver")) <;>
      by_cases h4 : w.length (value "solver") = 2 <;> cases h5 : w.isNone (value "variations") <;>
      cases h6 : w.variations (value "variations") <;>
      cases h3 : w.build (timed w w.oscillation (value "end_time")) (w.withHistory (value "solver")) <;>
      simp [timed, h1] at h3 <;> evaluate [h1, h2, h3, h4, h5, h6, h7]
  case trainNetwork =>
    revert h
    cases h1 : w.truthy (value "resume_training")
    · cases h2 : w.setParams (w.trainable (value "network")) (value "parameter") <;> evaluate [h1, h2]
    · cases h3 : w.load (w.trainable (value "network")) with
      | error e => evaluate [h1, h3]
      | ok n => cases h2 : w.setParams n (value "parameter") <;> evaluate [h1, h2, h3]

/-- C116.  The end time of `-T` does not reach the solver of `generate-data`: with another one nothing but the
argument `end_time` changes (C93: a solver ignores the end time of the benchmarks it is reinitialised with). -/
theorem C116_generate_data_end_time (w : World α) (value : String → α) (t : α) :
    let other := fun d => if d = "end_time" then t else value d
    main w .generateData other = (main w .generateData value).map fun r => (r.1, set r.2 "end_time" t) := by
  intro other
  rw [C116_generate_data, C116_generate_data]
  simp only [other]
  cases h1 : w.isNone (value "directory") <;> by_cases h2 : solverCount w (value "solver") = 1 <;>
    cases h5 : w.directory (value "solver") <;>
    cases h3 : w.build w.oscillation (value "solver") <;> simp [h1, h2, h3, h5, Except.bind, Except.map, set]

/-- C116.  `analyze-data` and `analyze-curvature` use a function that `core` does not have: whatever the files are,
they end with `AttributeError` and show nothing. -/
theorem C116_data (f : DataFunctions) (disk : Disk) (path : String) (paths : List String) :
    analyzeData coreNames f disk (path :: paths) = ([], some .attributeError) ∧
    analyzeCurvature coreNames f disk = .error .attributeError := by
  have : "load_data" ∉ coreNames := by decide +kernel
  simp [analyzeData, analyzeCurvature, lookupAttribute, this]

/-- C80 is false of the program: `delete-curvature` ends with `AttributeError`, whatever the data and thresholds
are, and leaves all files as they are. -/
theorem C80_counterexample (f : DataFunctions) (disk : Disk) (data target : String) (step kh kq : Option ℝ) :
    deleteCurvature coreNames f disk data target step kh kq = (disk, some .attributeError) := by
  have : "load_data" ∉ coreNames := by decide +kernel
  simp [deleteCurvature, lookupAttribute, this]

/-- C80, what remains: with functions `load_data` and `save_data` in `core` the command would write the rows left by
the filter to the target.  Missing: the two functions. -/
theorem C80_command_partial (names : List String) (h1 : "load_data" ∈ names) (h2 : "save_data" ∈ names)
    (f : DataFunctions) (disk : Disk) (data target : String) (step kh kq : Option ℝ) (rows : List (List ℝ))
    (hr : f.load disk data = .ok rows) :
    deleteCurvature names f disk data target step kh kq =
      (f.save disk target (Commands.deleteCurvature step kh kq rows), none) := by
  simp [deleteCurvature, lookupAttribute, h1, h2, hr]

/-! ### Concrete cases -/

/-- Values: `None`, booleans, numbers, names and lists; a constructed solver is the pair of benchmark and options. -/
inductive Val where
  | none
  | bool (b : Bool)
  | num (n : ℕ)
  | name (s : String)
  | list (l : List Val)
  | benchmark (s : String) (endTime : ℕ)
  | history (v : Val)
  | solver (b v : Val)
  | shown (v : Val)

/-- A world with these values. -/
def exampleWorld : World Val where
  none := .none
  emptyList := .list []
  isNone := fun | .none => true | _ => false
  truthy := fun | .none => false | .bool b => b | .num n => n != 0 | _ => true
  not := fun | .bool b => .bool (!b) | v => v
  length := fun | .list l => l.length | .history (.list l) => l.length | _ => 0
  index := fun v i => match v with
    | .list l => l.getD i .none
    | _ => .none
  setEndTime := fun b t => match b, t with
    | .benchmark s _, .num n => .benchmark s n
    | b, _ => b
  withHistory := .history
  build := fun b v => match v with
    | .list l => .ok (.list (l.map (.solver b)))
    | .history (.list l) => .ok (.list (l.map fun x => .solver b (.history x)))
    | _ => .error .typeError
  eoc := fun _ _ _ _ => .error .typeError
  oscillation := .benchmark "oscillation" 40
  directory := fun _ => .error .keyError
  plotData := fun _ => .name "data.pkl"
  plotter := fun p _ => .shown p
  animator := fun p _ => .shown p
  variations := fun _ => .error .keyError
  trainable := id
  untrained := id
  load := .ok
  setParams := fun n _ => .ok n

example : KeepsList exampleWorld := fun _ _ => rfl

/-- `animate` with `-T 7` and two solvers. -/
example : main exampleWorld .animate (fun d =>
      if d = "solver" then .list [.name "llf", .name "mcl"] else if d = "end_time" then .num 7
      else if d = "benchmark" then .benchmark "default" 1 else .name d) =
    .ok ("Animate", [("benchmark", .benchmark "default" 7),
      ("solver", .list [.solver (.benchmark "default" 7) (.history (.name "llf")),
        .solver (.benchmark "default" 7) (.history (.name "mcl"))]),
      ("initial", .name "initial"), ("animator", .shown (.name "problem"))]) := by
  rw [C116_animate _ (fun _ _ => rfl)]
  rfl

/-- `plot-error-evolution` with one solver. -/
example : main exampleWorld .plotErrorEvolution (fun d => if d = "solver" then .list [.name "llf"] else .none) =
    .error .assertionError := by
  rw [C116_plot_error_evolution _ (fun _ _ => rfl)]
  rfl

/-- The hypotheses of `C80_command_partial` for a disk with one file. -/
example : ∃ (names : List String) (f : DataFunctions) (disk : Disk), "load_data" ∈ names ∧ "save_data" ∈ names ∧
    f.load disk "a" = .ok [[0, 0, 1, 0, 0, 0, 1, 0]] ∧ disk "b" = none ∧
    f.save disk "b" [] "b" = some [] :=
  ⟨["load_data", "save_data"],
    ⟨fun disk p => match disk p with
      | some rows => .ok rows
      | none => .error .runtimeError, fun disk p rows q => if q = p then some rows else disk q⟩,
    fun p => if p = "a" then some [[0, 0, 1, 0, 0, 0, 1, 0]] else none, by simp, by simp, by simp, by simp, by simp⟩

end Verif.Cli
