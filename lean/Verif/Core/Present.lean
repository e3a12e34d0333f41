import Verif.Core.Interpolate
import Verif.Core.SWE
import Mathlib.Data.List.Sort
import Mathlib.Data.List.Dedup
import Mathlib.Algebra.Order.Floor.Ring
import Mathlib.Algebra.Order.Floor.Defs

/-!
Model of the commands that run solvers and show their results: `command/calculate.py`,
`command/plot.py`, `command/animate.py`.

A solver is an element of an arbitrary type with a function `solve` that returns the solver after the
call and the exception that ended it, if any (`Core/Solver.lean` models these for the solvers of the
project).  Figures are lists of curves; drawing, progress bars and file formats are not modelled.
-/

set_option linter.unusedSectionVars false

namespace Verif.Present

open Verif.Py

/-! ### Running solvers -/

section Solve
variable {S E : Type*}

/-- The argument `solver` of `Calculate.__init__` (`command/calculate.py` lines 32-34): one solver, a
sequence, or `None` if the option `-s` is missing (lines 200-212). -/
inductive Arg (S : Type*) where
  | one (s : S)
  | many (ss : List S)
  | none

/-- The loop in `Calculate.execute`, lines 42-45. -/
def runLoop (solve : S → S × Option E) : List S → List S × Option E
  | [] => ([], .none)
  | s :: ss =>
    match solve s with
    | (s', some e) => (s' :: ss, some e)
    | (s', .none) => (s' :: (runLoop solve ss).1, (runLoop solve ss).2)

/-- `Calculate.execute`, lines 36-45; `len(None)` is a `TypeError`. -/
def calculate (solve : S → S × Option Error) : Arg S → Arg S × Option Error
  | .one s => (.one (solve s).1, (solve s).2)
  | .none => (.none, some .typeError)
  | .many [s] => (.many [(solve s).1], (solve s).2)
  | .many ss => (.many (runLoop solve ss).1, (runLoop solve ss).2)

/-- `Plot._calculate_solutions`, `command/plot.py` lines 318-326, and `Animate._calculate_solutions`,
`command/animate.py` lines 415-423: every exception becomes a warning (the solver after the call, whose
time is printed, and the exception). -/
def runCatching (solve : S → S × Option E) : List S → List S × List (S × E)
  | [] => ([], [])
  | s :: ss =>
    ((solve s).1 :: (runCatching solve ss).1,
      (match (solve s).2 with
        | some e => [((solve s).1, e)]
        | .none => []) ++ (runCatching solve ss).2)

/-- `CalculateParser._build_solver` with `_adjust_end_time`, `command/calculate.py` lines 195-212:
`build endTime a` constructs the solver for the arguments `a` and the benchmark whose end time was
replaced if `-T` was given.  The first exception ends the program. -/
def buildSolvers {A K : Type*} (build : K → A → Except E S) (benchmarkEnd : K) (option : Option K)
    (args : Option (List A)) : Except E (Option (List S)) :=
  match args with
  | .none => .ok .none
  | some as =>
    match as.mapM (build (option.getD benchmarkEnd)) with
    | .ok ss => .ok (some ss)
    | .error e => .error e

end Solve

/-! ### Plots -/

section Plot
variable {K : Type*}

/-- One line of a figure. -/
structure Curve (K : Type*) where
  label : String
  xs : List K
  ys : List K
  deriving DecidableEq

/-- What a solver contributes to a plot: `short`, `solution.grid`, `solution.value`. -/
structure Result (K V : Type*) where
  short : String
  grid : List K
  value : List V

/-- The functions of a benchmark that are drawn; `exact` raises an `AttributeError` if the benchmark has
no exact solution (`core/benchmark.py` lines 39-43). -/
structure Shown (K V : Type*) where
  initial : K → V
  exactEnd : K → Except Error V

/-- `add_function_values` of a plotter appends to each of its figures. -/
abbrev Add (K V F : Type*) := F → List K → List V → List String → F

/-- `ScalarPlotter.add_function_values`, `command/plot.py` lines 120-124. -/
def addScalar : Add K K (List (Curve K)) := fun fig grid values label =>
  fig ++ [⟨label.headD "", grid, values⟩]

/-- The three figures of the shallow water plotter. -/
structure Figures (K : Type*) where
  height : List (Curve K) := []
  discharge : List (Curve K) := []
  velocity : List (Curve K) := []

/-- `ShallowWaterPlotter.add_function_values` with `add_height`, `add_discharge`, `add_velocity`, lines
196-223. -/
def addShallowWater [Field K] [LinearOrder K] (P : SWE.Params K) (bathymetry : K → K) :
    Add K (SWE.State K) (Figures K) := fun fig grid values label =>
  let labels := if label.length = 1 then List.replicate 3 (label.headD "") else label
  { height := fig.height ++ [⟨labels.getD 0 "", grid,
      List.zipWith (fun u x => u.1 + bathymetry x) values grid⟩]
    discharge := fig.discharge ++ [⟨labels.getD 1 "", grid, values.map Prod.snd⟩]
    velocity := fig.velocity ++ [⟨labels.getD 2 "", grid, values.map (SWE.velocity P)⟩] }

/-- The state of a plotter: its figures, and `_plot_available`. -/
structure Plotter (F : Type*) where
  fig : F
  available : Bool := false

/-- `add_function`, lines 116-118 and 192-194: all values are computed before anything is drawn. -/
def Plotter.addFunction {V F : Type*} (add : Add K V F) (grid : List K) (p : Plotter F)
    (f : K → Except Error V) (label : List String) : Except Error (Plotter F) :=
  match grid.mapM f with
  | .ok values => .ok ⟨add p.fig grid values label, true⟩
  | .error e => .error e

/-- The loop of `_add_discrete_solutions`, lines 352-357. -/
def Plotter.addResults {V F : Type*} (add : Add K V F) (p : Plotter F) :
    List (Result K V) → Plotter F
  | [] => p
  | r :: rs => Plotter.addResults add ⟨add p.fig r.grid r.value [r.short], true⟩ rs

/-- What `Plot.execute` leaves behind: the solvers, the figures shown (none if there is nothing to
plot), and the warnings. -/
structure Output (S F : Type*) where
  solvers : Option (List S)
  shown : Option F
  failed : List (S × Error)
  noExact : Option Error

/-- The first lines of `Plot.execute`, 306-308. -/
def runSolvers {S : Type*} (solve : S → S × Option Error) (executed : Bool) :
    Option (List S) → Option (List S) × List (S × Error)
  | .none => (.none, [])
  | some ss => if executed then (some ss, []) else
      (some (runCatching solve ss).1, (runCatching solve ss).2)

/-- `Plot.execute`, lines 306-357.  The bathymetry that `_setup` (lines 231-233) adds to the height figure
of the shallow water plotter is left out. -/
def plot {S V F : Type*} (solve : S → S × Option Error) (read : S → Result K V) (add : Add K V F)
    (empty : F) (grid : List K) (b : Shown K V) (exactLabel initialLabel : List String)
    (solvers : Option (List S)) (executed initial : Bool) : Output S F :=
  let ran := runSolvers solve executed solvers
  let p0 : Plotter F := ⟨empty, false⟩
  let exact : Plotter F × Option Error :=
    match p0.addFunction add grid b.exactEnd exactLabel with
    | .ok p => (p, .none)
    | .error e => (p0, some e)
  let p1 := match ran.1 with
    | .none => exact.1
    | some ss => exact.1.addResults add (ss.map read)
  let p2 := if initial then
      ⟨add p1.fig grid (grid.map b.initial) initialLabel, true⟩
    else p1
  ⟨ran.1, if p2.available then some p2.fig else .none, ran.2, exact.2⟩

/-- Assignment to a key of a python dictionary: an existing key keeps its place. -/
def dictSet {A B : Type*} [DecidableEq A] : List (A × B) → A → B → List (A × B)
  | [], k, v => [(k, v)]
  | (k', v') :: d, k, v => if k' = k then (k', v) :: d else (k', v') :: dictSet d k v

/-- `_save_results`/`_save_result`, lines 135-148 and 266-275: the dictionary that is written. -/
def saveData (curves : List (Curve K)) : List (String × List K × List K) :=
  curves.foldl (fun d c => dictSet d c.label (c.xs, c.ys)) []

/-- `PlotParser._build_save_data`, lines 427-433; `splitext` is `os.path.splitext`, the default is
`defaults.PLOT_DATA_TARGET`. -/
def saveDataPath (splitext : String → String × String) (saveData savePlot : Option String) : String :=
  match saveData with
  | some p => p
  | .none =>
    match savePlot with
    | some q => if q = "" then "data/plot.pkl" else (splitext q).1 ++ ".pkl"
    | .none => "data/plot.pkl"

end Plot

/-! ### Animations -/

section Animate
variable {K : Type*} [Field K] [LinearOrder K] [IsStrictOrderedRing K] [FloorRing K]

/-- `Animator.add_animatable`, `command/animate.py` lines 100-113: a solution with history on a grid of
`n` points, or a function of space and time.  The labels are left out. -/
inductive Animatable (K V : Type*) where
  | history (n : ℕ) (grid : List K) (times : List K) (values : List (Fin n → V))
  | function (f : K → K → Except Error V)

/-- The entry of `_temporal_grids`, lines 108-113. -/
def Animatable.times {V : Type*} (temporalGrid : List K) : Animatable K V → List K
  | .history _ _ ts _ => ts
  | .function _ => temporalGrid

/-- The entry of `_spatial_grids`, lines 108-113. -/
def Animatable.grid {V : Type*} (spatialGrid : List K) : Animatable K V → List K
  | .history _ g _ _ => g
  | .function _ => spatialGrid

/-- `np.union1d`: the sorted distinct entries. -/
def union1d (a b : List K) : List K := ((a ++ b).dedup).insertionSort (· ≤ ·)

/-- `reduce(np.union1d, self._temporal_grids)`, line 130: a single grid is left as it is. -/
def unionAll : List (List K) → Except Error (List K)
  | [] => .error .typeError
  | g :: gs => .ok (gs.foldl union1d g)

/-- `_adjust_values`, lines 135-156, for one animatable: rows are times. -/
def Animatable.values {V : Type*} [AddCommGroup V] [Module K V] (spatialGrid frames : List K) :
    Animatable K V → Except Error (List (List V))
  | .history _ _ ts vs =>
    match Interpolate.temporal ts vs frames with
    | .ok rows => .ok (rows.map List.ofFn)
    | .error e => .error e
  | .function f => frames.mapM fun t => spatialGrid.mapM fun x => f x t

/-- `start_index`, lines 77-79. -/
def startIndex (start : K) (frames : List K) : Except Error ℕ :=
  match frames.findIdx? (fun t => decide (start ≤ t)) with
  | some i => .ok i
  | .none => .error .indexError

/-- What the animation shows: the times of the frames, for every animatable its grid and for every
frame its values, the delay between two frames in milliseconds, and the frames per second of a saved
animation. -/
structure Clip (K V : Type*) where
  times : List K
  lines : List (List K × List (List V))
  interval : ℤ
  fps : ℤ
  deriving DecidableEq

/-- `value or default` for numbers. -/
def orElse (value : Option K) (default : K) : K :=
  match value with
  | some v => if v = 0 then default else v
  | .none => default

/-- `Animator.show` with `__init__`, `_setup`, `_build_animation`, `frames_per_second`, lines 44-83 and
115-167; the default duration is `defaults.DURATION`.  `none`: nothing to animate. -/
def animate {V : Type*} [AddCommGroup V] [Module K V] (spatialGrid temporalGrid : List K)
    (benchmarkStart : K) (start duration : Option K) (as : List (Animatable K V)) :
    Except Error (Option (Clip K V)) :=
  match as with
  | [] => .ok .none
  | as =>
    match unionAll (as.map (Animatable.times temporalGrid)) with
    | .error e => .error e
    | .ok grid =>
      match as.mapM (Animatable.values spatialGrid grid) with
      | .error e => .error e
      | .ok values =>
        match startIndex (orElse start benchmarkStart) grid with
        | .error e => .error e
        | .ok first =>
          .ok (some
            { times := grid.drop first
              lines := List.zipWith (fun a v => (a.grid spatialGrid, v.drop first)) as values
              interval := ⌊orElse duration 20 / ((grid.length - first : ℕ) : K) * 1000⌋
              fps := ⌊((grid.length - first : ℕ) : K) / orElse duration 20⌋ })

end Animate

end Verif.Present
