import Verif.Core.ErrorTable
import Verif.Core.Solver

/-!
The `eoc` command as a whole (`command/error.py` lines 45-118 and 177-309, with `Calculate` of
`command/calculate.py` lines 27-45): which solvers are run on which meshes, what is printed, and what
becomes of exceptions.

A run is described by `start options n`: construction of the solver for the options with `mesh_size=n` and
the call of `solve`, ending with the solver or with an exception.  `measure` gives the number of degrees of
freedom and the errors of a solver in the three norms (`errorRow` for finite volumes) or the exception of the
exact solution.  Not modelled: progress bars, the header written before the runs (lines 282-286), the formatting of
the numbers.
-/

set_option linter.unusedSectionVars false

namespace Verif.Commands

open Verif.Py

variable {A S E : Type*}

/-- The options of one solver in the list after `-s`: those that do not matter here, and the mesh size
option of the solver. -/
structure SolverOptions (A : Type*) where
  rest : A
  meshSize : Option ℕ

/-- The loop over the refinements, lines 295-302: `mesh_size` is overwritten, and the solver is
constructed and run. -/
def eocRefine (start : SolverOptions A → Except E S) (meshSize refine : ℕ) (a : SolverOptions A) :
    Except E (List S) :=
  (List.range refine).mapM fun i => start { a with meshSize := some (2 ^ i * meshSize) }

/-- `CalculateEOCParser._build_eoc_solutions`, lines 278-309: without `-s` the loop is over `None`. -/
def eocSolutions (start : SolverOptions A → Except E S) (typeError : E) (meshSize refine : ℕ) :
    Option (List (SolverOptions A)) → Except E (List (List S))
  | none => .error typeError
  | some as => as.mapM (eocRefine start meshSize refine)

/-- A row of a printed table: degrees of freedom, errors and orders in the three norms (`none`: not a
finite number). -/
structure EocRow where
  dofs : ℕ
  errors : List ℝ
  orders : List (Option ℝ)

/-- `EOCCalculator.__call__`, lines 52-69, with the orders of lines 107-118: the table of one solver. -/
noncomputable def eocTable (measure : S → Except Error (ℕ × List ℝ)) (solvers : List S) :
    Except Error (List EocRow) :=
  match solvers.mapM measure with
  | .error e => .error e
  | .ok table =>
    .ok ((List.range table.length).map fun i =>
      { dofs := (table.getD i (0, [])).1
        errors := (table.getD i (0, [])).2
        orders := (List.range 3).map fun norm => eoc (errorColumn table norm) i })

/-- What the command prints. -/
inductive Printed where
  | warning
  | error (e : Error)
  | tables (ts : List (String × List EocRow))

/-- The loop of `CalculateEOC._print_eocs`, lines 203-219: title and table of each solver. -/
noncomputable def eocTables (name : S → String) (measure : S → Except Error (ℕ × List ℝ)) :
    List (List S) → Except Error (List (String × List EocRow))
  | [] => .ok []
  | solvers :: rest =>
    match solvers with
    | [] => .error .indexError
    | s :: _ =>
      match eocTable measure solvers with
      | .error e => .error e
      | .ok t =>
        match eocTables name measure rest with
        | .error e => .error e
        | .ok ts => .ok ((name s, t) :: ts)

/-- `CalculateEOC.execute`, lines 192-225: all tables are computed before the first one is printed, and every
exception becomes a message. -/
noncomputable def eocExecute (name : S → String) (measure : S → Except Error (ℕ × List ℝ))
    (solvers : List (List S)) : Printed :=
  if solvers.length = 0 then .warning
  else
    match eocTables name measure solvers with
    | .error e => .error e
    | .ok ts => .tables ts

/-- The whole command: `postprocess` (lines 271-276) runs the solvers, `execute` prints. -/
noncomputable def eocCommand (start : SolverOptions A → Except E S) (typeError : E) (name : S → String)
    (measure : S → Except Error (ℕ × List ℝ)) (meshSize refine : ℕ)
    (solvers : Option (List (SolverOptions A))) : Except E Printed :=
  match eocSolutions start typeError meshSize refine solvers with
  | .error e => .error e
  | .ok ss => .ok (eocExecute name measure ss)

end Verif.Commands

namespace Verif.Solver

variable {K : Type*} [Field K] [LinearOrder K] [IsStrictOrderedRing K]
variable {V : Type*} [AddCommGroup V] [Module K V]

open Classical in
/-- The call `solve()`: the loop until it ends; `none` if it runs forever. -/
noncomputable def complete (p : Params K V) (o : Obj K V) : Option (Obj K V × Status) :=
  if h : ∃ n, (solve p o n).2 ≠ .running then some (solve p o (Nat.find h)) else none

end Verif.Solver
