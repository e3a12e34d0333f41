import Verif.Core.Py
import Verif.Core.Utilities
import Verif.Core.Cli

/-!
The options of the solvers: the parsers derived from `core.SolverParser`, the part of `argparse` they use, and what the
constructors of the solvers make of the parsed options (`solver(arguments.benchmark, **vars(solver_arguments))`,
`command/calculate.py` lines 200-216).

Of `argparse` (python 3.10) the methods `_parse_optional`, `_get_option_tuples` and `_parse_known_args` are modelled
for a parser without positional arguments whose options either take one argument or none; options without an argument
have only long names.  The argument `--` is treated like any other word that is no option (the outer parser removes
it).  The conversions `float` and `int` of strings are parameters.
-/

set_option linter.unusedSectionVars false

namespace Verif.Options

open Verif.Py Verif.Utilities Verif.Cli

/-! ### argparse -/

section Argparse

variable {V : Type}

/-- An argument of a parser: whether it takes an argument, which is converted, or stores a value. -/
inductive Kind (V : Type) where
  /-- `action="store"` with the conversion `type` -/
  | store (type : String → Except Error V)
  /-- `action="store_true"` -/
  | flag (value : V)

/-- An option, as given to `add_argument`. -/
structure Opt (V : Type) where
  /-- the option strings -/
  strings : List String
  dest : String
  kind : Kind V
  default : V

/-- How a word of the command line is understood (`_parse_optional`). -/
inductive Word (V : Type) where
  /-- not an option -/
  | argument
  /-- an option, possibly with its argument in the same word -/
  | option (o : Opt V) (explicit : Option String)
  /-- looks like an option, but there is no such -/
  | unknown

/-- The pairs of the dictionary `_option_string_actions`. -/
def actions (opts : List (Opt V)) : List (String × Opt V) :=
  opts.flatMap fun o => o.strings.map fun s => (s, o)

/-- Both parts of `string.partition("=")`; `none` for the second when there is no `=`. -/
def partition (s : String) : String × Option String :=
  match s.toList.span (fun c => c != '=') with
  | (a, []) => (String.ofList a, none)
  | (a, _ :: b) => (String.ofList a, some (String.ofList b))

/-- `s.startswith(p)`. -/
def startsWith (s p : String) : Bool := p.toList.isPrefixOf s.toList

/-- `_get_option_tuples`, for a word of at least two characters that begins with `+`. -/
def optionTuples (opts : List (Opt V)) (word : String) : List (Opt V × Option String) :=
  if (word.toList.drop 1).head? = some '+' then
    -- long options may be abbreviated
    (actions opts).filterMap fun p =>
      if startsWith p.1 (partition word).1 then some (p.2, (partition word).2) else none
  else
    -- short options may have their argument attached
    (actions opts).filterMap fun p =>
      if p.1 = String.ofList (word.toList.take 2) then some (p.2, some (String.ofList (word.toList.drop 2)))
      else if startsWith p.1 word then some (p.2, none)
      else none

/-- `_parse_optional` with `prefix_chars="+"`.  The error is an ambiguous abbreviation, for which the program
exits. -/
def parseOptional (opts : List (Opt V)) (word : String) : Except Error (Word V) :=
  if word.toList.head? ≠ some '+' then .ok .argument
  else
    match (actions opts).lookup word with
    | some o => .ok (.option o none)
    | none =>
      if word.toList.length = 1 then .ok .argument
      else
        match (partition word).2, (actions opts).lookup (partition word).1 with
        | some e, some o => .ok (.option o (some e))
        | _, _ =>
          match optionTuples opts word with
          | [(o, e)] => .ok (.option o e)
          | _ :: _ :: _ => .error .runtimeError
          | [] => if ' ' ∈ word.toList then .ok .argument else .ok .unknown

/-- `_get_value`: a `KeyError` of the conversion is not caught, a `ValueError` makes the program exit (here, as
everywhere in this file, `runtimeError` is the exit). -/
def convert (type : String → Except Error V) (word : String) : Except Error V :=
  match type word with
  | .ok v => .ok v
  | .error .keyError => .error .keyError
  | .error _ => .error .runtimeError

/-- The loop of `_parse_known_args` with `consume_optional`: the namespace, and whether there were extra arguments. -/
def consume : List (String × Word V) → Namespace V → Bool → Except Error (Namespace V × Bool)
  | [], ns, extras => .ok (ns, extras)
  | (_, .argument) :: rest, ns, _ => consume rest ns true
  | (_, .unknown) :: rest, ns, _ => consume rest ns true
  | (_, .option o explicit) :: rest, ns, extras =>
    match o.kind, explicit, rest with
    | .flag v, none, rest => consume rest (set ns o.dest v) extras
    | .flag _, some _, _ => .error .runtimeError
    | .store type, some word, rest =>
      match convert type word with
      | .ok v => consume rest (set ns o.dest v) extras
      | .error e => .error e
    | .store type, none, (word, .argument) :: rest =>
      match convert type word with
      | .ok v => consume rest (set ns o.dest v) extras
      | .error e => .error e
    | .store _, none, _ => .error .runtimeError

/-- The values before parsing. -/
def initial (opts : List (Opt V)) : Namespace V := opts.map fun o => (o.dest, o.default)

/-- `parse_args`. -/
def parseArgs (opts : List (Opt V)) (words : List String) : Except Error (Namespace V) := do
  let classes ← words.mapM (parseOptional opts)
  let (ns, extras) ← consume (words.zip classes) (initial opts) false
  if extras then .error .runtimeError else .ok ns

end Argparse

/-! ### The parsers of the solvers -/

section Parsers

/-- The ODE solvers to choose from. -/
inductive OdeSolver
  | euler | heun | ssp3
  deriving DecidableEq, Repr

/-- Values of options. -/
inductive Val (K : Type) where
  | none
  | str (s : String)
  | int (n : ℤ)
  | num (x : PyFloat K)
  | bool (b : Bool)
  | ode (o : OdeSolver)
  /-- a flux getter, given by its key -/
  | flux (key : String)
  deriving DecidableEq, Repr

/-- The solvers that can be named on the command line: `finite_element/scalar/solver/__init__.py` line 5,
`finite_volume/scalar/solver/__init__.py` lines 5-9, `finite_volume/shallow_water/solver/__init__.py` lines 27-39. -/
inductive Key
  | cg | cgLow | mclFem | llf | central | mclFv
  | sweLlf | sweLw | sweLowOrder | sweCentral | sweEs | sweEs1 | sweMcl | sweReduced | sweReduced2 | sweAntidiffusion
  | sweCoarse
  deriving DecidableEq, Repr

/-- All solvers for scalar equations and for the shallow water equations. -/
def scalarKeys : List Key := [.cg, .cgLow, .mclFem, .llf, .central, .mclFv]

@[inherit_doc scalarKeys]
def sweKeys : List Key := [.sweLlf, .sweLw, .sweLowOrder, .sweCentral, .sweEs, .sweEs1, .sweMcl, .sweReduced,
  .sweReduced2, .sweAntidiffusion, .sweCoarse]

/-- The keys of the dictionaries, which are also the attributes `prog` of the parsers. -/
def prog : Key → String
  | .cg => "cg" | .cgLow => "cg-low" | .mclFem => "mcl-fem"
  | .llf => "llf" | .central => "central" | .mclFv => "mcl-fv"
  | .sweLlf => "llf" | .sweLw => "lw" | .sweLowOrder => "low-order" | .sweCentral => "central" | .sweEs => "es"
  | .sweEs1 => "es1" | .sweMcl => "mcl" | .sweReduced => "reduced-llf" | .sweReduced2 => "reduced-llf-2"
  | .sweAntidiffusion => "antidiffusion" | .sweCoarse => "coarse"

/-- The attributes `name` of the parsers. -/
def title : Key → String
  | .cg => "Continuous Galerkin" | .cgLow => "Low order Continuous Galerkin"
  | .mclFem => "Finite Element MCL Solver"
  | .llf => "Lax-Friedrichs finite volume scheme" | .central => "Central scheme"
  | .mclFv => "Finite Volume MCL Solver"
  | .sweLlf => "Lax-Friedrichs finite volume scheme" | .sweLw => "Lax-Wendroff finite volume scheme"
  | .sweLowOrder => "Low order finite volume scheme" | .sweCentral => "Central scheme"
  | .sweEs => "Energy stable finite volume scheme"
  | .sweEs1 => "Energy stable finite volume scheme with first order diffusion"
  | .sweMcl => "MCL Solver" | .sweReduced => "Reduced Lax Friedrichs Solver"
  | .sweReduced2 => "Second Reduced Lax Friedrichs Solver" | .sweAntidiffusion => "Solver with antidiffusion."
  | .sweCoarse => "Coarsened Solver."

/-- `_mesh_size_default`: `defaults.CALCULATE_MESH_SIZE` (`core/solver.py` line 98), and 50 for the reduced models
(`finite_volume/shallow_water/solver/reduced_llf.py` line 49, `reduced_llf_2.py` line 51). -/
def meshDefault : Key → ℤ
  | .sweReduced | .sweReduced2 => 50
  | _ => 400

variable {K : Type} [Field K] [LinearOrder K] [IsStrictOrderedRing K]

/-- `_cfl_default`: `finite_element/solver.py` line 18, `finite_volume/solver.py` line 82,
`finite_element/scalar/solver/cg_low.py` line 130, `finite_element/scalar/solver/mcl.py` line 164,
`reduced_llf.py` line 50, `reduced_llf_2.py` line 52. -/
def cflDefault : Key → K
  | .cgLow | .mclFem => 1
  | .sweReduced => 1 / 10 / 8
  | .sweReduced2 => 1 / 10 / 40
  | _ => 1 / 10

/-- Python's conversions of strings. -/
structure Conversions (K : Type) where
  float : String → Option (PyFloat K)
  int : String → Option ℤ

variable (c : Conversions K)

/-- `_add_name` and `_add_short`, `core/solver.py` lines 122-138. -/
def nameOption (k : Key) : Opt (Val K) := ⟨["+n", "++name"], "name", .store (fun s => .ok (.str s)), .str (title k)⟩

@[inherit_doc nameOption]
def shortOption (k : Key) : Opt (Val K) := ⟨["+s", "++short"], "short", .store (fun s => .ok (.str s)), .str (prog k)⟩

/-- `_add_mesh_size`, `core/solver.py` lines 140-148. -/
def meshOption (k : Key) : Opt (Val K) :=
  ⟨["+m", "++mesh-size"], "mesh_size", .store (fun s => (positiveInt c.int s).map .int), .int (meshDefault k)⟩

/-- `_add_cfl`, `core/solver.py` lines 150-158. -/
def cflOption (k : Key) : Opt (Val K) :=
  ⟨["++cfl"], "cfl_number", .store (fun s => (positiveFloat c.float s).map .num), .num (.fin (cflDefault k))⟩

/-- `_add_adaptive_time_stepping`, `core/solver.py` lines 160-165. -/
def adaptiveOption : Opt (Val K) := ⟨["++adaptive"], "adaptive", .flag (.bool true), .bool false⟩

/-- The dictionary of the ODE solvers, `core/solver.py` lines 168-172. -/
def odeSolvers : List (String × OdeSolver) := [("euler", .euler), ("heun", .heun), ("ssp3", .ssp3)]

/-- A conversion `lambda input: dictionary[input]`. -/
def fromDict {α : Type} (d : List (String × α)) (f : α → Val K) (s : String) : Except Error (Val K) :=
  match d.lookup s with
  | some v => .ok (f v)
  | none => .error .keyError

/-- `_add_ode_solver`, `core/solver.py` lines 167-183, with `defaults.ODE_SOLVER` as the default. -/
def odeOption : Opt (Val K) :=
  ⟨["+o", "++ode-solver"], "ode_solver_type", .store (fromDict odeSolvers .ode), .ode .heun⟩

/-- `SHALLOW_WATER_FLUX_GETTER`, `finite_volume/shallow_water/solver/__init__.py` lines 13-21. -/
def fluxGetters : List (String × String) :=
  ["central", "es", "es1", "llf", "low-order", "reduced-llf", "reduced-llf-2"].map fun s => (s, s)

/-- `_add_flux`, `finite_volume/solver.py` lines 88-99. -/
def fluxOption : Opt (Val K) := ⟨["+f", "++flux"], "flux_getter", .store (fromDict fluxGetters .flux), .none⟩

/-- `CGParser._add_arguments`, `finite_element/scalar/solver/cg.py` lines 93-96. -/
def exactFluxOption : Opt (Val K) := ⟨["++exact-flux"], "exact_flux", .flag (.bool true), .bool false⟩

/-- `_add_gamma`, `finite_volume/shallow_water/solver/antidiffusion.py` lines 50-58, with the conversion `float`. -/
def gammaOption : Opt (Val K) :=
  ⟨["+g", "++gamma"], "gamma",
    .store (fun s => match c.float s with | some v => .ok (.num v) | none => .error .valueError), .num (.fin (1 / 10))⟩

/-- `_add_coarsening_degree`, `finite_volume/shallow_water/solver/coarse.py` lines 50-58. -/
def coarseningOption : Opt (Val K) :=
  ⟨["+c", "++coarsening-degree"], "coarsening_degree", .store (fun s => (positiveInt c.int s).map .int), .int 8⟩

/-- The methods `_add_arguments` of the parsers.  `finite_element.SolverParser._add_arguments`
(`finite_element/solver.py` lines 20-28), which adds `+p`, is overridden by all parsers derived from it. -/
def ownOptions : Key → List (Opt (Val K))
  | .cg => [exactFluxOption] -- finite_element/scalar/solver/cg.py lines 93-96
  | .cgLow | .mclFem => [adaptiveOption, odeOption] -- cg_low.py lines 132-134, mcl.py lines 166-168
  | .llf | .central => [] -- finite_volume/scalar/solver/lax_friedrichs.py, central.py
  | .mclFv => [odeOption] -- finite_volume/scalar/solver/mcl.py lines 108-109
  | .sweLw | .sweCentral => [] -- lax_wendroff.py lines 113-116, central.py lines 19-22
  | .sweLlf | .sweLowOrder | .sweEs | .sweEs1 | .sweReduced | .sweReduced2 => [odeOption]
  | .sweMcl => [fluxOption, odeOption] -- mcl.py lines 232-234
  | .sweAntidiffusion => [fluxOption, gammaOption c, odeOption] -- antidiffusion.py lines 45-48
  | .sweCoarse => [fluxOption, coarseningOption c, odeOption] -- coarse.py lines 45-48

/-- `SolverParser.__init__` with `_add_standard_arguments`, `core/solver.py` lines 100-117. -/
def options (k : Key) : List (Opt (Val K)) :=
  [nameOption k, shortOption k, meshOption c k, cflOption c k] ++ ownOptions c k

/-- `parse_arguments` of a solver's parser, `core/solver.py` lines 185-189; the attribute `solver`, removed again before
the call of the constructor, is not kept. -/
def parseSolver (k : Key) (words : List String) : Except Error (Namespace (Val K)) := parseArgs (options c k) words

/-- `_add_save_history_argument`, `command/calculate.py` lines 214-216 (only for some commands). -/
def withHistory (history : Bool) (ns : Namespace (Val K)) : Namespace (Val K) :=
  if history then set ns "save_history" (.bool true) else ns

end Parsers

/-! ### The constructors -/

section Constructors

variable {K : Type} [Field K] [LinearOrder K] [IsStrictOrderedRing K]

/-- `bool(value)`. -/
def truthy : Val K → Bool
  | .none => false
  | .str s => s != ""
  | .int n => n != 0
  | .num (.fin x) => decide (x ≠ 0)
  | .num _ => true
  | .bool b => b
  | .ode _ => true
  | .flux _ => true

/-- `value or default`. -/
def orElse (v d : Val K) : Val K := if truthy v then v else d

/-- A parameter of a call with its default value. -/
def param (kw : Namespace (Val K)) (key : String) (default : Val K) : Val K := (kw.lookup key).getD default

/-- Keyword arguments without some keys: the rest `**kwargs` of a call. -/
def rest (keys : List String) (kw : Namespace (Val K)) : Namespace (Val K) := kw.filter fun p => !keys.contains p.1

/-- The ODE solver of a constructed solver: one of the choices, or the one chosen by the degree
(`build_optimal_ode_solver`). -/
inductive Integrator (K : Type) where
  | given (v : Val K)
  | byDegree

/-- What a constructed solver is made of, as far as options determine it. -/
structure Settings (K : Type) where
  name : Val K
  short : Val K
  meshSize : Val K
  /-- finite elements only -/
  degree : Val K := .none
  cfl : Val K
  integrator : Integrator K
  adaptive : Val K := .bool false
  exactFlux : Val K := .none
  /-- the flux getter that can be chosen -/
  flux : Val K := .none
  gamma : Val K := .none
  coarsening : Val K := .none
  /-- whether the solution keeps its history -/
  history : Val K

/-- `finite_volume.Solver._get_solver_args` and `core.Solver.__init__`, `finite_volume/solver.py` lines 26-70,
`finite_volume/space.py` lines 59-74, `core/solver.py` lines 27-48. -/
def finiteVolume (kw : Namespace (Val K)) : Except Error (Settings K) := do
  let kw ← call ⟨[], ["name", "short", "mesh_size", "cfl_number", "ode_solver_type", "save_history"], false⟩ kw
  .ok {
    name := orElse (param kw "name" .none) (.str "Solver")
    short := orElse (param kw "short" .none) (.str "")
    meshSize := orElse (param kw "mesh_size" .none) (.int 400)
    cfl := orElse (param kw "cfl_number" .none) (.num (.fin (1 / 10)))
    integrator := .given (orElse (param kw "ode_solver_type" .none) (.ode .heun))
    history := param kw "save_history" (.bool false) }

/-- The finite element solvers share `get_finite_element_solution` (`finite_element/space.py` lines 336-354). -/
def finiteElement (kw : Namespace (Val K)) (name short : String) : Settings K :=
  { name := orElse (orElse (param kw "name" .none) (.str name)) (.str "Solver")
    short := orElse (orElse (param kw "short" .none) (.str short)) (.str "")
    meshSize := orElse (param kw "mesh_size" .none) (.int 400)
    degree := orElse (param kw "polynomial_degree" .none) (.int 1)
    cfl := orElse (param kw "cfl_number" .none) (.num (.fin (1 / 10)))
    integrator := .byDegree
    history := param kw "save_history" (.bool false) }

/-- The constructors, called with keyword arguments. -/
def construct (k : Key) (kw : Namespace (Val K)) : Except Error (Settings K) :=
  match k with
  | .cg => do -- finite_element/scalar/solver/cg.py lines 46-85
    let kw ← call ⟨[], ["name", "short", "mesh_size", "polynomial_degree", "cfl_number", "exact_flux", "save_history"],
      false⟩ kw
    .ok { finiteElement kw "Continuous Galerkin" "cg" with exactFlux := param kw "exact_flux" (.bool false) }
  | .cgLow => do -- finite_element/scalar/solver/cg_low.py lines 78-123
    let kw ← call ⟨[], ["name", "short", "mesh_size", "polynomial_degree", "cfl_number", "ode_solver_type", "adaptive",
      "save_history"], false⟩ kw
    .ok { finiteElement kw "Low order Continuous Galerkin" "cg_low" with
      integrator := .given (orElse (param kw "ode_solver_type" .none) (.ode .heun))
      adaptive := param kw "adaptive" (.bool false) }
  | .mclFem => do -- finite_element/scalar/solver/mcl.py lines 113-157
    let kw ← call ⟨[], ["name", "short", "mesh_size", "polynomial_degree", "cfl_number", "ode_solver_type", "adaptive",
      "save_history"], false⟩ kw
    .ok { finiteElement kw "MCL Solver" "mcl" with
      integrator := .given (orElse (param kw "ode_solver_type" .none) (.ode .heun))
      adaptive := param kw "adaptive" (.bool false) }
  | .sweLw => do -- finite_volume/shallow_water/solver/lax_wendroff.py lines 75-94
    let kw ← call ⟨[], ["name", "short", "mesh_size", "cfl_number", "save_history"], false⟩ kw
    finiteVolume [("name", param kw "name" .none), ("short", param kw "short" .none),
      ("mesh_size", param kw "mesh_size" .none), ("cfl_number", param kw "cfl_number" .none),
      ("ode_solver_type", .ode .euler), ("save_history", param kw "save_history" (.bool false))]
  | .sweMcl => do -- finite_volume/shallow_water/solver/mcl.py lines 192-193, 220-224
    let s ← finiteVolume (rest ["flux_getter"] kw)
    .ok { s with flux := orElse (param kw "flux_getter" .none) (.flux "central") }
  | .sweAntidiffusion => do -- finite_volume/shallow_water/solver/antidiffusion.py lines 14-24
    let s ← finiteVolume (rest ["gamma", "flux_getter"] kw)
    .ok { s with
      gamma := orElse (param kw "gamma" .none) (.num (.fin (1 / 10)))
      flux := orElse (param kw "flux_getter" .none) (.flux "llf") }
  | .sweCoarse => do -- finite_volume/shallow_water/solver/coarse.py lines 12-28
    let s ← finiteVolume (("save_history", .bool false) :: rest ["save_history", "coarsening_degree", "flux_getter"] kw)
    .ok { s with
      coarsening := orElse (param kw "coarsening_degree" .none) (.int 8)
      flux := orElse (param kw "flux_getter" .none) (.flux "llf")
      history := param kw "save_history" (.bool false) }
  | _ => finiteVolume kw -- the other constructors pass their keyword arguments on

end Constructors

end Verif.Options
