import Verif.Core.Options

/-!
The command line of the script `cls1`: `CustomArgumentParser` (`parser.py` lines 8-38), the methods `add_parser` and
`_add_arguments` of all commands in `command/`, and the part of `argparse` they use.

Of `argparse` (python 3.10) the methods `_parse_optional`, `_get_option_tuples`, `_parse_known_args`, `_get_values` and
`_SubParsersAction.__call__` are modelled, for options without an argument, with one, with an optional one (`nargs="?"`),
with at least one (`"+"`), with any number (`"*"`) and with two; for positional arguments with one word, with at
least one and with any number; for a group of mutually exclusive options; and for negative numbers, which are no
options.

Simplifications: the word `--` is not treated specially.  `-h` with letters attached to it (`-hx`) is a usage error here,
in `argparse` it can also show the help text: both leave the program.  An option before the name of the command or of
the problem is the request for help or a usage error here; `argparse` goes on with the command and gives the usage error
at the end.  The conversions `float` and `int` of strings and the construction of benchmarks are parameters.
-/

set_option linter.unusedSectionVars false

namespace Verif.Argv

open Verif.Py Verif.Utilities Verif.Cli
open Verif.Options hiding Opt Word actions optionTuples parseOptional convert consume initial parseArgs

/-- How the program ends without running a command: a message about the usage, the help text, `quit()`, or an
exception. -/
inductive Exit where
  | usage
  | help
  | quit
  | raised (e : Error)
  deriving DecidableEq, Repr

/-! ### argparse -/

section Argparse

variable {V : Type}

/-- The parameter `nargs` of `add_argument`; `zero` is for actions like `store_true`. -/
inductive Nargs where
  | zero | one | optional | plus | star | two
  deriving DecidableEq, Repr

/-- An option.  `run` is `_get_values` followed by the action: the new value of the destination from its present value
and the words given; `exclusive` says whether it belongs to the group of mutually exclusive options. -/
structure Opt (V : Type) where
  strings : List String
  dest : String
  nargs : Nargs
  run : V → List String → Except Exit V
  default : V
  exclusive : Bool := false

/-- A positional argument; `many` is for `nargs="+"` and `nargs="*"`, `required` is false for `nargs="*"`. -/
structure Pos (V : Type) where
  dest : String
  many : Bool
  required : Bool
  run : List String → Except Exit V
  default : V

/-- A parser. -/
structure Spec (V : Type) where
  opts : List (Opt V)
  positionals : List (Pos V)

/-- How a word of the command line is understood (`_parse_optional`). -/
inductive Word (V : Type) where
  /-- not an option -/
  | argument
  /-- an option, possibly with its argument in the same word -/
  | option (o : Opt V) (explicit : Option String)
  /-- looks like an option, but there is no such -/
  | unknown

/-- The pairs of the dictionary `_option_string_actions`. -/
def actions (opts : List (Opt V)) : List (String × Opt V) :=
  opts.flatMap fun o => o.strings.map fun s => (s, o)

/-- `_get_option_tuples`, for a word of at least two characters that begins with `-`. -/
def optionTuples (opts : List (Opt V)) (word : String) : List (Opt V × Option String) :=
  if (word.toList.drop 1).head? = some '-' then
    -- long options may be abbreviated
    (actions opts).filterMap fun p =>
      if startsWith p.1 (partition word).1 then some (p.2, (partition word).2) else none
  else
    -- short options may have their argument attached
    (actions opts).filterMap fun p =>
      if p.1 = String.ofList (word.toList.take 2) then some (p.2, some (String.ofList (word.toList.drop 2)))
      else if startsWith p.1 word then some (p.2, none)
      else none

/-- `_negative_number_matcher`, the regular expression `^-\d+$|^-\d*\.\d+$`. -/
def isNegativeNumber (word : String) : Bool :=
  match word.toList with
  | '-' :: rest =>
    (!rest.isEmpty && rest.all Char.isDigit) ||
      match rest.span (fun ch => ch.isDigit) with
      | (_, '.' :: frac) => !frac.isEmpty && frac.all Char.isDigit
      | _ => false
  | _ => false

/-- `_parse_optional` with `prefix_chars="-"`.  The error is an ambiguous abbreviation, for which the program
exits. -/
def parseOptional (opts : List (Opt V)) (word : String) : Except Exit (Word V) :=
  if word.toList.head? ≠ some '-' then .ok .argument
  else
    match (actions opts).lookup word with
    | some o => .ok (.option o none)
    | none =>
      if word.toList.length = 1 then .ok .argument
      else
        match (partition word).2, (actions opts).lookup (partition word).1 with
        | some e, some o => .ok (.option o (some e))
        | _, _ =>
          match optionTuples opts word with
          | [(o, e)] => .ok (.option o e)
          | _ :: _ :: _ => .error .usage
          | [] =>
            if isNegativeNumber word then .ok .argument
            else if ' ' ∈ word.toList then .ok .argument
            else .ok .unknown

/-- A word that looks like an option, with the words up to the next one; `none` for an option that does not exist. -/
structure Segment (V : Type) where
  option : Option (Opt V × Option String)
  args : List String

/-- The words before the first option, and the segments. -/
def segments : List (String × Word V) → List String × List (Segment V)
  | [] => ([], [])
  | (w, .argument) :: rest => (w :: (segments rest).1, (segments rest).2)
  | (_, .option o e) :: rest => ([], ⟨some (o, e), (segments rest).1⟩ :: (segments rest).2)
  | (_, .unknown) :: rest => ([], ⟨none, (segments rest).1⟩ :: (segments rest).2)

/-- The variables of `_parse_known_args`: the namespace, the positional arguments left, the exclusive options seen (by
their first names), and whether there are extra arguments. -/
structure State (V : Type) where
  ns : String → V
  left : List (Pos V)
  seen : List String
  extras : Bool

/-- `setattr(namespace, dest, value)`. -/
def update (ns : String → V) (dest : String) (v : V) : String → V := fun d => if d = dest then v else ns d

/-- `consume_positionals`: the positional arguments take words as long as there are some. -/
def give (st : State V) : List String → Except Exit (State V)
  | [] => .ok st
  | w :: ws =>
    match st.left with
    | [] => .ok { st with extras := true }
    | p :: ps =>
      if p.many then
        match p.run (w :: ws) with
        | .ok v => .ok { st with ns := update st.ns p.dest v, left := ps }
        | .error e => .error e
      else
        match p.run [w] with
        | .ok v => give { st with ns := update st.ns p.dest v, left := ps } ws
        | .error e => .error e

/-- `_match_argument`: how many of the words an option takes; `none` when there are not enough. -/
def count : Nargs → ℕ → Option ℕ
  | .zero, _ => some 0
  | .one, n => if 1 ≤ n then some 1 else none
  | .optional, n => some (min 1 n)
  | .plus, n => if 1 ≤ n then some n else none
  | .star, n => some n
  | .two, n => if 2 ≤ n then some 2 else none

/-- `take_action`: the values are converted, then conflicts are looked for, then the value is set. -/
def take (st : State V) (o : Opt V) (args : List String) : Except Exit (State V) :=
  match o.run (st.ns o.dest) args with
  | .error e => .error e
  | .ok v =>
    if o.exclusive && st.seen.any (fun s => s != o.strings.headD "") then .error .usage
    else .ok { st with
      ns := update st.ns o.dest v
      seen := if o.exclusive then o.strings.headD "" :: st.seen else st.seen }

/-- `consume_optional`, and `consume_positionals` for the words that remain. -/
def step (st : State V) (s : Segment V) : Except Exit (State V) :=
  match s.option with
  | none => give { st with extras := true } s.args
  | some (o, some e) =>
    match count o.nargs 1 with
    | some 1 => (take st o [e]).bind fun st => give st s.args
    | _ => .error .usage
  | some (o, none) =>
    match count o.nargs s.args.length with
    | none => .error .usage
    | some k => (take st o (s.args.take k)).bind fun st => give st (s.args.drop k)

/-- The end of `_parse_known_args`: a positional argument with `nargs="*"` is set even without words, the other ones are
required. -/
def finish (st : State V) : Except Exit (State V) :=
  match st.left with
  | [] => .ok st
  | [p] =>
    if p.required then .error .usage
    else
      match p.run [] with
      | .ok v => .ok { st with ns := update st.ns p.dest v, left := [] }
      | .error e => .error e
  | _ => .error .usage

/-- The defaults; the first of two arguments with the same destination counts. -/
def initial (spec : Spec V) (none : V) (dest : String) : V :=
  (((spec.opts.map fun o => (o.dest, o.default)) ++ spec.positionals.map fun p => (p.dest, p.default)).lookup
    dest).getD none

/-- `parse_args`: the namespace, as a function of the destinations. -/
def parseArgs (spec : Spec V) (none : V) (words : List String) : Except Exit (String → V) := do
  let classes ← words.mapM (parseOptional spec.opts)
  let st ← give ⟨initial spec none, spec.positionals, [], false⟩ (segments (words.zip classes)).1
  let st ← (segments (words.zip classes)).2.foldlM step st
  let st ← finish st
  if st.extras then .error .usage else .ok st.ns

end Argparse

/-! ### The commands -/

section Commands

/-- The equations to choose from, `command/calculate.py` lines 51-57. -/
inductive Prob where
  | advection | burgers | swe
  deriving DecidableEq, Repr

/-- The values of options. -/
inductive Arg (K : Type) where
  | none
  | str (s : String)
  | int (n : ℤ)
  | num (x : PyFloat K)
  | bool (b : Bool)
  | strs (l : List String)
  | pairs (l : List (List String))
  /-- a benchmark, by its key -/
  | benchmark (p : Prob) (key : String)
  /-- a random benchmark with a seed, or with one that is drawn when the parser is built -/
  | random (seed : Option ℤ)
  /-- the namespaces of solvers -/
  | solvers (l : List (Key × Namespace (Val K)))

variable {K : Type} [Field K] [LinearOrder K] [IsStrictOrderedRing K]

/-- What is not modelled here: the conversions of strings and whether `benchmarks[key]()` succeeds (C102). -/
structure Env (K : Type) where
  conv : Conversions K
  bench : Prob → String → Except Error Unit

/-- `_get_value`: `ValueError` and `TypeError` of the conversion make the program exit, other exceptions are not
caught. -/
def convert (type : String → Except Error (Arg K)) (word : String) : Except Exit (Arg K) :=
  match type word with
  | .ok v => .ok v
  | .error .valueError => .error .usage
  | .error .typeError => .error .usage
  | .error e => .error (.raised e)

/-- `_get_values` for `nargs=None`. -/
def single (type : String → Except Error (Arg K)) : Arg K → List String → Except Exit (Arg K)
  | _, [w] => convert type w
  | _, _ => .error .usage

/-- `_get_values` for `nargs="?"` with the parameter `const`. -/
def optionally (const : Arg K) (type : String → Except Error (Arg K)) : Arg K → List String → Except Exit (Arg K)
  | _, [] => .ok const
  | _, [w] => convert type w
  | _, _ => .error .usage

/-- The action `store_const`. -/
def constant (v : Arg K) : Arg K → List String → Except Exit (Arg K) := fun _ _ => .ok v

/-- No conversion. -/
def text (w : String) : Except Error (Arg K) := .ok (.str w)

variable (E : Env K)

/-- `int`. -/
def integer (w : String) : Except Error (Arg K) :=
  match E.conv.int w with
  | some n => .ok (.int n)
  | none => .error .valueError

/-- `core.positive_int`. -/
def posInt (w : String) : Except Error (Arg K) := (positiveInt E.conv.int w).map .int

/-- `core.positive_float`. -/
def posFloat (w : String) : Except Error (Arg K) := (positiveFloat E.conv.float w).map .num

/-- `-h`, `--help`. -/
def helpOption : Opt (Arg K) := ⟨["-h", "--help"], "help", .zero, fun _ _ => .error .help, .none, false⟩

/-- A flag with `action="store_true"`. -/
def flag (string dest : String) : Opt (Arg K) := ⟨[string], dest, .zero, constant (.bool true), .bool false, false⟩

/-- An option with one argument. -/
def store (strings : List String) (dest : String) (type : String → Except Error (Arg K)) (default : Arg K) :
    Opt (Arg K) := ⟨strings, dest, .one, single type, default, false⟩

/-- `command/command.py` lines 28-40. -/
def generalOptions : List (Opt (Arg K)) :=
  [⟨["--profile"], "profile", .optional, optionally (.int 30) (integer E), .int 0, false⟩, flag "--args" "args"]

/-- `type=lambda input: benchmarks[input]()`. -/
def benchmarkType (p : Prob) (w : String) : Except Error (Arg K) := (E.bench p w).map fun _ => .benchmark p w

/-- `_add_benchmark`, `command/calculate.py` lines 98-107, with the key of the default benchmark. -/
def benchmarkOption (p : Prob) (default : String) : Opt (Arg K) :=
  store ["-b", "--benchmark"] "benchmark" (benchmarkType E p) (.benchmark p default)

/-- `RandomOscillationNoTopographyBenchmark(seed=int(input))`: a generator with a negative seed is refused with a
`ValueError`. -/
def randomType (w : String) : Except Error (Arg K) :=
  match E.conv.int w with
  | some n => if n < 0 then .error .valueError else .ok (.random (some n))
  | none => .error .valueError

/-- `_add_random_benchmark`, lines 170-185. -/
def randomOption : Opt (Arg K) :=
  ⟨["-r", "--random-benchmark"], "benchmark", .optional, optionally (.random none) (randomType E), .none, false⟩

/-- `add_mutually_exclusive_group`. -/
def exclusively (o : Opt (Arg K)) : Opt (Arg K) := { o with exclusive := true }

/-- `_add_end_time`, lines 109-116. -/
def endTimeOption : Opt (Arg K) := store ["-T", "--end-time"] "end_time" (posFloat E) .none

/-- The dictionaries of parsers. -/
def solverParsers (keys : List Key) : List (String × (List String → Except Error (Key × Namespace (Val K)))) :=
  keys.map fun k => (prog k, fun words => (parseSolver E.conv k words).map fun ns => (k, ns))

/-- `SolverAction` (`core/solver.py` lines 195-242, C74): the exit of a solver's own parser is also one of the
program. -/
def solverRun (keys : List Key) : Arg K → List String → Except Exit (Arg K) := fun _ words =>
  match action (solverParsers E keys) words with
  | .namespaces l => .ok (.solvers l)
  | .quit => .error .quit
  | .raised .runtimeError => .error .usage
  | .raised e => .error (.raised e)

/-- `_add_solver`, lines 121-130. -/
def solverOption (keys : List Key) : Opt (Arg K) := ⟨["-s", "--solver"], "solver", .plus, solverRun E keys, .none, false⟩

/-- Whether a command chooses the defaults named `eoc` of `BENCHMARK_DEFAULTS` (`benchmark/advection.py` lines 76-81,
`benchmark/burgers.py` lines 64-69, `benchmark/shallow_water.py` lines 444-449); the defaults `plot`, `animate` and
`calculate` are the same. -/
def defaultKey (eoc : Bool) : Prob → String
  | .advection => if eoc then "cos" else "two-hills"
  | .burgers => if eoc then "smooth" else "shock"
  | .swe => "oscillation"

/-- `_add_advection_parser`, `_add_burgers_parser`, `_add_shallow_water_parser`, lines 84-168. -/
def problemOptions (eoc : Bool) : Prob → List (Opt (Arg K))
  | .swe => [exclusively (benchmarkOption E .swe (defaultKey eoc .swe)), exclusively (randomOption E), endTimeOption E,
      solverOption E sweKeys]
  | p => [benchmarkOption E p (defaultKey eoc p), endTimeOption E, solverOption E scalarKeys]

/-- `_add_hide`, `command/plot.py` lines 410-416 (`action="store_false"`). -/
def hideOption : Opt (Arg K) := ⟨["--hide"], "show", .zero, constant (.bool false), .bool true, false⟩

/-- `--save` with `nargs="?"`. -/
def saveOption (dest const : String) : Opt (Arg K) :=
  ⟨["--save"], dest, .optional, optionally (.str const) text, .none, false⟩

/-- `-m`, `--mesh-size`. -/
def meshSizeOption (default : ℤ) : Opt (Arg K) := store ["-m", "--mesh-size"] "mesh_size" (posInt E) (.int default)

/-- `command/plot.py` lines 372-416. -/
def plotOptions : List (Opt (Arg K)) :=
  [meshSizeOption E 200, flag "--initial" "initial", saveOption "save_plot" "data/plot.png",
   ⟨["--save-data"], "save_data", .optional, optionally .none text, .none, false⟩, hideOption]

/-- `command/animate.py` lines 457-500. -/
def animateOptions : List (Opt (Arg K)) :=
  [meshSizeOption E 200, flag "--initial" "initial", saveOption "save" "data/animation.mp4", hideOption,
   store ["--time_steps"] "time_steps" (posInt E) (.int 100),
   store ["-t", "--start-time"] "start_time" (posFloat E) .none,
   store ["--duration"] "duration" (posFloat E) (.int 20)]

/-- `command/error.py` lines 246-269. -/
def eocOptions : List (Opt (Arg K)) :=
  [meshSizeOption E 8, store ["-r", "--refine"] "refine" (posInt E) (.int 4)]

/-- `command/error_evolution.py` lines 350-369. -/
def errorEvolutionOptions : List (Opt (Arg K)) :=
  [exclusively (benchmarkOption E .swe "oscillation"), exclusively (randomOption E), endTimeOption E,
   solverOption E sweKeys, saveOption "save" "data/error.png", hideOption]

/-- `command/generate_data.py` lines 397-470. -/
def generateDataOptions : List (Opt (Arg K)) :=
  [store ["-d", "--directory"] "directory" text .none, endTimeOption E,
   store ["-c", "--coarsening-degree"] "coarsening_degree" (posInt E) (.int 8), solverOption E sweKeys,
   store ["-n", "--solution-number"] "solution_number" (posInt E) (.int 100),
   store ["--seed"] "seed" (posInt E) (.int 1),
   store ["-i", "--input-radius"] "input_radius" (posInt E) (.int 2),
   store ["--node-index"] "node_index" (posInt E) (.int 2), flag "--append" "append"]

/-- `command/parameter_variation_test.py` lines 175-249. -/
def variationOptions : List (Opt (Arg K)) :=
  [solverOption E sweKeys, endTimeOption E,
   ⟨["--references"], "references", .optional, optionally (.str "references") text, .none, false⟩,
   store ["--references-prefix"] "references_prefix" text (.str "error"),
   ⟨["-v", "--variations"], "variations", .star, fun _ ws => .ok (.strs ws), .none, false⟩,
   store ["-n", "--initial-data-number"] "initial_data_number" (posInt E) (.int 20),
   store ["--seed"] "seed" (posInt E) (.int 1), flag "--save-plot" "save_plot",
   flag "--save-animation" "save_animation"]

/-- `command/delete_curvature.py` lines 54-94. -/
def deleteCurvatureOptions : List (Opt (Arg K)) :=
  [store ["-s", "--step-length"] "step_length" (posFloat E) .none,
   store ["--kh"] "curvature_height_threshold" (posFloat E) .none,
   store ["--kq"] "curvature_discharge_threshold" (posFloat E) .none]

/-- `action="append"` with `nargs=2`. -/
def appendPair : Arg K → List String → Except Exit (Arg K)
  | .pairs l, ws => .ok (.pairs (l ++ [ws]))
  | _, _ => .error (.raised .typeError)

/-- `command/train_network.py` lines 109-184. -/
def trainOptions : List (Opt (Arg K)) :=
  [⟨["-p", "--parameter"], "parameter", .two, appendPair, .pairs [], false⟩,
   store ["-e", "--epochs"] "epochs" (posInt E) (.int 500), store ["--skip"] "skip" (posInt E) (.int 1),
   store ["--seed"] "seed" (posInt E) .none, flag "--resume" "resume_training", flag "--confirm" "confirm",
   flag "--plot-loss" "plot_loss"]

/-- A positional argument of one word. -/
def positional (dest : String) (type : String → Except Exit (Arg K)) : Pos (Arg K) :=
  ⟨dest, false, true, fun ws => match ws with | [w] => type w | _ => .error .usage, .none⟩

/-- `choices=NETWORK_TYPES.keys()` (`finite_volume/shallow_water/solver/__init__.py` lines 23-26). -/
def networkType (w : String) : Except Exit (Arg K) :=
  if w ∈ ["llf", "llf2"] then .ok (.str w) else .error .usage

/-- `type=lambda input: self._solver_parsers[input]`, `command/help.py` line 36, where the dictionary has the keys of
all solvers. -/
def pageType (w : String) : Except Exit (Arg K) :=
  if w ∈ (scalarKeys ++ sweKeys).map prog then .ok (.str w) else .error (.raised .keyError)

/-- The parser of a command that does not ask for a problem, without `-h`. -/
def direct : Cmd → List (Opt (Arg K)) × List (Pos (Arg K))
  | .analyzeCurvature => ([flag "--hide" "hide", flag "--save" "save"], [])
  | .analyzeData => ([flag "--histogram" "histogram"], [⟨"data_path", true, true, fun ws => .ok (.strs ws), .none⟩])
  | .deleteCurvature => (deleteCurvatureOptions E,
      [positional "data_path" fun w => .ok (.str w), positional "target_path" fun w => .ok (.str w)])
  | .generateData => (generateDataOptions E, [])
  | .help => ([], [positional "parser" pageType])
  | .parameterVariationTest => (variationOptions E, [positional "directory" fun w => .ok (.str w)])
  | .plotErrorEvolution => (errorEvolutionOptions E, [])
  | .printNetwork => ([], [positional "network" networkType])
  | .test => ([], [⟨"file", true, false, fun ws => .ok (.strs ws), .none⟩])
  | .trainNetwork => (trainOptions E, [positional "network" networkType])
  | _ => ([], [])

/-- Whether a command asks for a problem, and its own options then. -/
def withProblem : Cmd → Option (List Prob × Bool × List (Opt (Arg K)))
  | .animate => some ([.advection, .burgers, .swe], false, animateOptions E)
  | .calculate => some ([.advection, .burgers, .swe], false, [])
  | .eoc => some ([.advection, .burgers], true, eocOptions E)
  | .plot => some ([.advection, .burgers, .swe], false, plotOptions E)
  | _ => none

/-- The parser of a command (`p = none`) or of a problem of it. -/
def spec (c : Cmd) (p : Option Prob) : Spec (Arg K) :=
  match withProblem E c, p with
  | some (_, eoc, own), some p => ⟨helpOption :: problemOptions E eoc p ++ own ++ generalOptions E, []⟩
  | _, _ => ⟨helpOption :: (direct E c).1 ++ generalOptions E, (direct E c).2⟩

/-- The names of the commands, `command/__init__.py` lines 17-32. -/
def names : List (String × Cmd) :=
  [("analyze-curvature", .analyzeCurvature), ("analyze-data", .analyzeData), ("animate", .animate),
   ("calculate", .calculate), ("delete-curvature", .deleteCurvature), ("eoc", .eoc), ("generate-data", .generateData),
   ("help", .help), ("parameter-variation-test", .parameterVariationTest), ("plot", .plot),
   ("plot-error-evolution", .plotErrorEvolution), ("print-network", .printNetwork), ("test", .test),
   ("train-network", .trainNetwork)]

/-- The names of the problems. -/
def problemNames : List (String × Prob) := [("advection", .advection), ("burgers", .burgers), ("swe", .swe)]

/-- A word in the place of the name of a command or of a problem which is none. -/
def noName (w : String) : Exit := if w ∈ ["-h", "--help", "--h", "--he", "--hel"] then .help else .usage

/-- `parse_args` of the whole program: the command and the namespace. -/
def program (words : List String) : Except Exit (Cmd × (String → Arg K)) :=
  match words with
  | [] => .error .usage
  | w :: words =>
    match names.lookup w with
    | none => .error (noName w)
    | some c =>
      match withProblem E c with
      | none => (parseArgs (spec E c none) .none words).map fun ns => (c, update ns "command" (.str w))
      | some (problems, _, _) =>
        match words with
        | [] => .error .usage
        | w' :: words =>
          match problemNames.lookup w' with
          | none => .error (noName w')
          | some p =>
            if p ∈ problems then
              (parseArgs (spec E c (some p)) .none words).map fun ns =>
                (c, update (update ns "problem" (.str w')) "command" (.str w))
            else .error .usage

/-- `parse_arguments` and the construction of the command (`parser.py` lines 34-38, `cls1` lines 53-77).  The
second kind of error is an exception of `main` after parsing. -/
def run (world : World (Arg K)) (words : List String) : Except (Exit ⊕ Error) (String × Namespace (Arg K)) :=
  match program E words with
  | .error e => .error (.inl e)
  | .ok (c, ns) =>
    match main world c ns with
    | .ok r => .ok r
    | .error e => .error (.inr e)

end Commands

end Verif.Argv
