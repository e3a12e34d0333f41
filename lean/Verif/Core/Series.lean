import Verif.Core.BenchmarkSWE
import Verif.Core.Commands
import Verif.Core.Present
import Verif.Core.Solver

/-!
Model of the error series of `command/error_evolution.py` and of
`command/parameter_variation_test.py`.

A solver is any type with `reinitialize`, `solve` (solver after the call and the exception, if any) and
the solution that is read from it.
-/

set_option linter.unusedSectionVars false

namespace Verif.Series

open Verif.Py

/-- What the series need of a solver. -/
structure Machine (S B O X : Type*) where
  reinitialize : S → B → S × Option X
  solve : S → S × Option X
  view : S → O

/-- The exceptions a series can end with: of a solver, or of the command itself. -/
inductive Exn (X : Type*) where
  | solver (x : X)
  | command (e : Error)
  deriving DecidableEq

/-- The state of `GenerateShallowWaterErrorEvolutionSeries`: the two solvers, the collected results
(`times` and `errors`), the warnings, and the exception that ended `execute`. -/
structure State (S T B R X : Type*) where
  approximation : S
  exact : T
  results : List R := []
  warnings : List (B × X) := []
  raised : Option (Exn X) := none

variable {S T B O Q R X : Type*}

/-- The body of the loop in `GenerateShallowWaterErrorEvolutionSeries.execute`,
`command/error_evolution.py` lines 224-242; what is drawn is not modelled.  `Calculate` runs the exact
solver first, then the approximation unless the exact one raised (C96).  `_save` with `save_plot` passes the unknown argument
`save` to the plotter (lines 261-263): `TypeError`. -/
def step (A : Machine S B O X) (E : Machine T B Q X) (evolution : O → Q → Except Error R)
    (savePlot : Bool) (s : State S T B R X) (b : B) : State S T B R X :=
  match s.raised with
  | some _ => s
  | none =>
    match A.reinitialize s.approximation b with
    | (a, some x) => { s with approximation := a, raised := some (.solver x) }
    | (a, none) =>
      match E.reinitialize s.exact b with
      | (e, some x) => { s with approximation := a, exact := e, raised := some (.solver x) }
      | (e, none) =>
        match E.solve e with
        | (e', some x) => { s with approximation := a, exact := e', warnings := s.warnings ++ [(b, x)] }
        | (e', none) =>
          match A.solve a with
          | (a', some x) =>
            { s with approximation := a', exact := e', warnings := s.warnings ++ [(b, x)] }
          | (a', none) =>
            match evolution (A.view a') (E.view e') with
            | .error err => { s with approximation := a', exact := e', raised := some (.command err) }
            | .ok r =>
              { s with
                approximation := a'
                exact := e'
                results := s.results ++ [r]
                raised := if savePlot then some (.command .typeError) else none }

/-- `execute`, lines 217-242, for the benchmarks drawn. -/
def series (A : Machine S B O X) (E : Machine T B Q X) (evolution : O → Q → Except Error R)
    (savePlot : Bool) (approximation : S) (exact : T) (bs : List B) : State S T B R X :=
  bs.foldl (step A E evolution savePlot) { approximation := approximation, exact := exact }

/-- `ParameterVariationTest.execute`, `command/parameter_variation_test.py` lines 93-160, as a list of
series on the same two solvers, one for the reference and one for each value of each parameter, each
followed by the average of its results; the average of no results raises `ValueError` (`np.argmin` of an
empty list, `command/error_evolution.py` line 335). -/
def tests (A : Machine S B O X) (E : Machine T B Q X) (evolution : O → Q → Except Error R)
    (savePlot : Bool) : S → T → List (List B) → List (List R) × Option (Exn X)
  | _, _, [] => ([], none)
  | a, e, bs :: rest =>
    let s := series A E evolution savePlot a e bs
    match s.raised with
    | some x => ([], some x)
    | none =>
      if s.results.isEmpty then ([], some (.command .valueError))
      else
        ((s.results :: (tests A E evolution savePlot s.approximation s.exact rest).1),
          (tests A E evolution savePlot s.approximation s.exact rest).2)

/-- A parameter variation, lines 19-54: the argument of the benchmark that is varied, its values, and
the fixed arguments. -/
structure Variation where
  key : String
  values : List ℝ
  args : ℝ → Bench.OscillationArgs

/-- `HeightAverageVariation`, `WaveNumberVariation`, `AmplitudeVariation`, lines 27-46, with
`HEIGHT_AVERAGE = 2`. -/
noncomputable def heightAverageVariation : Variation :=
  ⟨"height-average", [8 / 10 * 2, 12 / 10 * 2],
    fun v => { heightAverage := some v, heightWaveNumber := some 2 }⟩
noncomputable def waveNumberVariation : Variation :=
  ⟨"wave-number", [10, 15], fun v => { heightWaveNumber := some v }⟩
noncomputable def amplitudeVariation : Variation :=
  ⟨"amplitude", [8 / 10, 1, 15 / 10], fun v => { heightAmplitude := some v }⟩

/-- `PARAMETER_VARIATIONS`, lines 49-53. -/
noncomputable def parameterVariations : List Variation :=
  [heightAverageVariation, waveNumberVariation, amplitudeVariation]

/-- `_build_variations`, lines 276-286. -/
def buildVariations {A : Type*} (table : List (String × A)) (option : Option (List String)) :
    Except Error (List A) :=
  match option with
  | none => .ok []
  | some keys =>
    if "all" ∈ keys then .ok (table.map Prod.snd)
    else keys.mapM fun k =>
      match table.lookup k with
      | some v => .ok v
      | none => .error .keyError

/-- The benchmarks of one series: `n` calls of a fresh generator, lines 203-205 and 224 of
`command/error_evolution.py`. -/
noncomputable def benchmarks {σ : Type*} (r : Bench.Rng σ) (seed : ℤ) (endTime : Option ℝ)
    (args : Bench.OscillationArgs) (n : ℕ) : List (ℤ × Bench.Oscillation) :=
  (Bench.RandomGenerator.make r seed endTime args).calls r (List.replicate n none)

/-- The solver objects of `Core/Solver.lean` as a machine: `n` bounds the number of loop passes. -/
def objMachine {K V : Type*} [Field K] [LinearOrder K] [IsStrictOrderedRing K] [AddCommGroup V]
    [Module K V] (p : Solver.Params K V) (n : ℕ) :
    Machine (Solver.Obj K V) (Solver.Bench K V) (Solution.Hist K V) Solver.Exn where
  reinitialize o b := o.reinitialize p b
  solve o := ((Solver.solve p o n).1,
    match (Solver.solve p o n).2 with
    | .raised e => some e
    | _ => none)
  view o := o.sol

end Verif.Series
