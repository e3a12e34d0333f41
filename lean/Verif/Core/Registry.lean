import Verif.Core.BenchmarkSWE
import Verif.Core.SWE
import Verif.Core.Boundary

/-!
Model of the tables `BENCHMARKS` (`benchmark/advection.py` lines 69-75, `benchmark/burgers.py` lines
60-63, `benchmark/shallow_water.py` lines 426-443), of the benchmarks in `benchmark/shallow_water.py`
lines 384-423, and of the options `-b` and `-T` (`command/calculate.py` lines 97-116, 195-198).

`scipy.optimize.newton` is a parameter of the model.  The methods `inflow_left` and `inflow_right` of the
base class raise (`core/benchmark.py` lines 33-37); a benchmark without inflow is modelled by `none`.  The
builder of the boundary conditions receives the raising method, so that for such a benchmark the
condition "inflow" would be rejected by the model and fail in the first step in python.
-/

namespace Verif.Registry

open Verif.Py Verif.Bench
open Verif.Mesh hiding Error

/-- `CylindricalDammBreakWithOutflowBenchmark.initial_data`, lines 395-398; `Interval.__contains__` is
closed at both ends (`core/mesh.py` lines 34-35). -/
noncomputable def cylinderInitial (x : ℝ) : ℝ × ℝ :=
  if x ≥ -1 / 2 ∧ x ≤ 1 / 2 then (2, 0) else (1, 0)

/-- `domain`, line 385. -/
def cylinderDomain : Interval ℝ := ⟨-1, 1⟩

/-- `SinusInflowBenchmark.inflow_left`, lines 414-415. -/
noncomputable def sinusInflow (t : ℝ) : ℝ × ℝ := (2 + 2 / 10 * Real.sin t, 0)

/-- `SinusInflowBenchmark.initial_data`, lines 420-423. -/
def sinusInitial (_x : ℝ) : ℝ × ℝ := (2, 0)

/-- What a solver reads of a benchmark. -/
structure Benchmark (V : Type*) where
  domain : Interval ℝ
  boundary : BoundarySpec
  inflowLeft : Option (ℝ → V)
  inflowRight : Option (ℝ → V)
  endTime : ℝ
  initial : ℝ → Except Error V

/-- A benchmark without inflow whose initial data never raise. -/
def Benchmark.closed {V : Type*} (d : Interval ℝ) (b : BoundarySpec) (endTime : ℝ) (f : ℝ → V) :
    Benchmark V :=
  ⟨d, b, none, none, endTime, fun x => .ok (f x)⟩

/-- `benchmark/advection.py` lines 69-75; end time line 11, boundary lines 20, 34, 46, 56, 63. -/
noncomputable def advectionTable : List (String × Except Error (Benchmark ℝ)) :=
  [("three-hills", .threeHills), ("two-hills", .twoHills), ("one-hill", .oneHill), ("cos", .cosine),
    ("gauss", Advection.gaussianBell)].map fun (p : String × Advection) =>
      (p.1, .ok (.closed p.2.domain (.single "periodic") 1 p.2.initial))

/-- `benchmark/burgers.py` lines 60-63; end time line 14, boundary lines 36 and 49. -/
noncomputable def burgersTable : List (String × Except Error (Benchmark ℝ)) :=
  [("shock", .shock), ("smooth", Burgers.smooth)].map fun (p : String × Burgers) =>
    (p.1, .ok (.closed p.2.domain (.single "periodic") (1 / 2) p.2.initial))

/-- `OscillationNoTopographyBenchmark` and its variants: domain line 140, boundary line 150. -/
noncomputable def oscillation (b : Oscillation) (endTime : ℝ) : Benchmark (ℝ × ℝ) :=
  .closed oscillationDomain (.single "periodic") endTime b.initial

/-- `MovingWaterBumpBathymetryBenchmark`, lines 101-133, with `defaults.GRAVITATIONAL_ACCELERATION`. -/
noncomputable def movingBump (newton : (ℝ → ℝ) → ℝ → Except Error ℝ) : Benchmark (ℝ × ℝ) :=
  ⟨⟨-2, 2⟩, .single "periodic", none, none, 100, MovingBump.initial newton ⟨9812 / 1000, 1, 25⟩⟩

/-- `DammBreakBenchmark()`, lines 319-345: boundary line 324, defaults line 330. -/
noncomputable def damBreak (newton : (ℝ → ℝ) → ℝ → Except Error ℝ) : Except Error (Benchmark (ℝ × ℝ)) :=
  match DamBreak.make newton 1 (1 / 10) (1 / 2) 1 with
  | .ok b => .ok (.closed ⟨0, 1⟩ (.pair "outflow" "outflow") (3 / 10) b.initial)
  | .error e => .error e

/-- `benchmark/shallow_water.py` lines 426-443, with the default end times.  The class for "random" has
the required argument `seed` (line 229), so that a call without arguments raises `TypeError`. -/
noncomputable def shallowWaterTable (newton : (ℝ → ℝ) → ℝ → Except Error ℝ) :
    List (String × Except Error (Benchmark (ℝ × ℝ))) :=
  let lake (b : Lake) (t : ℝ) := Except.ok (Benchmark.closed b.domain b.boundary t b.initial)
  [("lake-at-rest-no-bathymetry", lake .noBathymetry 100),
   ("lake-at-rest", lake .bump 100),
   ("lake-at-rest-perturbation", lake .perturbed 2),
   ("moving-water-no-bathymetry", lake .moving 1),
   ("moving-water-bump-bathymetry", .ok (movingBump newton)),
   ("oscillation", .ok (oscillation (Named.make .default 40) 40)),
   ("random", .error .typeError),
   ("damm-break", damBreak newton),
   ("cylindrical-damm-break",
     .ok (.closed cylinderDomain (.pair "outflow" "outflow") (2 / 10) cylinderInitial)),
   ("cylindrical-damm-break-with-wall",
     .ok (.closed cylinderDomain (.pair "wall" "wall") (2 / 10) cylinderInitial)),
   ("sinus-inflow",
     .ok ⟨⟨0, 100⟩, .pair "inflow" "wall", some sinusInflow, none, 40, fun x => .ok (sinusInitial x)⟩),
   ("b1", .ok (oscillation (Named.make .first 40) 40)),
   ("b2", .ok (oscillation (Named.make .second 40) 40)),
   ("b3", .ok (oscillation (Named.make .third 40) 40)),
   ("b4", .ok (oscillation (Named.make .fourth 40) 40)),
   ("b5", .ok (oscillation (Named.make .fifth 40) 40))]

/-- What `argparse` makes of an option with a `type` function: the value, an error message about the
usage of the command (for `TypeError` and `ValueError`, `ArgumentParser._get_value`), or an exception that
is not caught. -/
inductive Parsed (V : Type*) where
  | value (v : V)
  | usage
  | raised (e : Error)

/-- The option `-b`: `type=lambda input: benchmarks[input]()`, `command/calculate.py` line 104. -/
def parseBenchmark {V : Type*} (table : List (String × Except Error (Benchmark V))) (input : String) :
    Parsed (Benchmark V) :=
  match table.lookup input with
  | none => .raised .keyError
  | some (.ok b) => .value b
  | some (.error .typeError) => .usage
  | some (.error .valueError) => .usage
  | some (.error e) => .raised e

/-- The option `-T`: `_adjust_end_time`, `command/calculate.py` lines 195-198. -/
noncomputable def adjustEndTime {V : Type*} (endTime : Option ℝ) (b : Benchmark V) : Benchmark V :=
  match endTime with
  | none => b
  | some t => if t = 0 then b else { b with endTime := t }

end Verif.Registry
