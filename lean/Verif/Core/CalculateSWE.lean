import Verif.Core.Calculate
import Verif.Core.SWELemmas
import Verif.Props.SteadyStates

/-!
Model of a whole command for the shallow water equations: the options `-b`, `-T` and `-s` (`command/calculate.py` lines
97-129, 195-216), the construction of the finite volume solvers from the parsed options (`finite_volume/solver.py` lines
22-70, `finite_volume/shallow_water/numerical_flux.py` lines 71-96) and their runs (`core/solver.py` lines 53-64).

Simplifications: the end time given by `-T` is a finite number; the quadrature rule with two points, with which initial
data and bathymetry are averaged, is a parameter (`points`), as is `scipy.optimize.newton`.  Of the solvers `lw`,
`reduced-llf`, `reduced-llf-2`, `antidiffusion` and `coarse`, and of the limited solver with a trained network as target,
only the options are part of this file.
-/

set_option linter.unusedSectionVars false

namespace Verif.CalculateSWE

open Verif.Py Verif.Boundary Verif.FV Verif.ODE Verif.Solver Verif.Interpolate Verif.Quadrature Verif.Bench Verif.SWE
open Verif.Registry Verif.Options Verif.Utilities EndToEnd Verif.Calculate
open Verif.Mesh hiding Error

/-- What a solver reads of a benchmark for the shallow water equations: in addition the bathymetry and the gravitational
acceleration. -/
structure Water where
  bench : Benchmark (ℝ × ℝ)
  bottom : ℝ → ℝ
  gravity : ℝ

/-- The methods `bathymetry` of the classes in `BENCHMARKS` (`benchmark/shallow_water.py` lines 40, 57, 74, 91, 120, 195,
356, 392, 417). -/
noncomputable def bottomOf (name : String) : ℝ → ℝ :=
  if name = "lake-at-rest" then Lake.bathymetry .bump
  else if name = "lake-at-rest-perturbation" then Lake.bathymetry .perturbed
  else if name = "moving-water-bump-bathymetry" then MovingBump.bathymetry ⟨9812 / 1000, 1, 25⟩
  else fun _ => 0

/-- The attributes `gravitational_acceleration` (lines 27, 330, 336, 386). -/
noncomputable def gravityOf (name : String) : ℝ :=
  if name ∈ ["damm-break", "cylindrical-damm-break", "cylindrical-damm-break-with-wall"] then 1 else 9812 / 1000

/-- `BENCHMARK_DEFAULTS`, lines 444-449: the key of the default benchmark. -/
def defaultWater : String := "oscillation"

/-- The options `-b`, `-T` and `-s`.  The benchmark and the constructed solvers.  The order in which two errors of the
same command line are found is not modelled. -/
noncomputable def commandLine (c : Conversions ℝ) (newton : (ℝ → ℝ) → ℝ → Except Error ℝ) (benchmark : Option String)
    (endTime : Option ℝ) (history : Bool) (words : List String) : Except Exit (Water × List (Key × Settings ℝ)) :=
  let name := benchmark.getD defaultWater
  match parseBenchmark (shallowWaterTable newton) name with
  | .usage => .error .usage
  | .raised e => .error (.raised e)
  | .value b =>
    match solvers c sweKeys history words with
    | .error e => .error e
    | .ok l => .ok (⟨adjustEndTime endTime b, bottomOf name, gravityOf name⟩, l)

/-- The points at which a function is evaluated for its cell averages. -/
noncomputable def sites (points : List (ℝ × ℝ)) (mesh : UMesh ℝ) : List ℝ :=
  mesh.cells.flatMap fun c => (gaussian points c).nodes

/-- `interpolator.interpolate(benchmark.initial_data)`, `core/interpolate.py` lines 13-23, 43-55: the evaluation at zero
tells the number of components, then the averages of each component are computed. -/
noncomputable def initialValues (points : List (ℝ × ℝ)) (mesh : UMesh ℝ) (f : ℝ → Except Error (ℝ × ℝ)) :
    Except Error (List (State ℝ)) :=
  match f 0 with
  | .error e => .error e
  | .ok _ =>
    match (sites points mesh).mapM f with
    | .error e => .error e
    | .ok _ => .ok (discretize points mesh fun x => match f x with | .ok u => u | .error _ => 0)

/-- `defaults.EPSILON`, `defaults.py` line 76, and the gravitational acceleration of the benchmark. -/
noncomputable def params (g : ℝ) : SWE.Params ℝ := realParams g (1 / 10 ^ 15) (by positivity)

/-- `SHALLOW_WATER_FLUX_GETTER` (`finite_volume/shallow_water/solver/__init__.py` lines 13-21), without the networks. -/
noncomputable def getter (P : SWE.Params ℝ) (B : Bathymetry ℝ) (key : String) : Except Error (NumFlux (State ℝ)) :=
  if key = "central" then .ok (centralFlux P B)
  else if key = "es" then .ok (energyStableFlux P B)
  else if key = "es1" then .ok (diffusiveFlux P B)
  else if key = "llf" then .ok (lfFlux P B)
  else if key = "low-order" then .ok (lowOrder P B)
  else .error .typeError

/-- The flux getters of the solvers: `finite_volume/shallow_water/solver/lax_friedrichs.py` lines 5-16, `low_order.py`
lines 115-135, `central.py` lines 5-16, `energy_stable.py` lines 127-158, `mcl.py` lines 189-224; `bc` are the boundary
conditions with one ghost cell at each end. -/
noncomputable def fluxOf (P : SWE.Params ℝ) (B : Bathymetry ℝ) (bc : BC ℝ (State ℝ)) (k : Key) (target : Val ℝ) :
    Except Error (NumFlux (State ℝ)) :=
  match k, target with
  | .sweLlf, _ => getter P B "llf"
  | .sweLowOrder, _ => getter P B "low-order"
  | .sweCentral, _ => getter P B "central"
  | .sweEs, _ => getter P B "es"
  | .sweEs1, _ => getter P B "es1"
  | .sweMcl, .flux key => (getter P B key).map (mcl P B bc)
  | _, _ => .error .typeError

/-- A constructed solver. -/
structure WaterJob where
  n : ℕ
  mesh : UMesh ℝ
  /-- `mesh.step_length` -/
  dx : ℝ
  cfl : ℝ
  tableau : Tableau ℝ
  flux : NumFlux (State ℝ)
  boundary : BC ℝ (State ℝ)
  endTime : ℝ
  initial : Fin n → State ℝ

/-- What is fixed at construction. -/
noncomputable def WaterJob.params (j : WaterJob) : Solver.Params ℝ (Fin j.n → State ℝ) :=
  fvParams j.n j.tableau (rhs j.flux j.dx j.boundary) j.dx j.cfl 0 j.endTime

/-- `solver.solve()` after `k` calls of `__next__`. -/
noncomputable def WaterJob.run (j : WaterJob) (k : ℕ) : Obj ℝ (Fin j.n → State ℝ) × Status :=
  solve j.params (Obj.make j.params ⟨j.initial, 0, j.endTime⟩) k

/-- `finite_volume.Solver.__init__` (`finite_volume/solver.py` lines 22-70, `finite_volume/space.py` lines 59-77,
`finite_volume/shallow_water/numerical_flux.py` lines 29-45, 71-96, `finite_volume/shallow_water/core.py` lines 69-74,
`core/time_stepping.py` lines 166-174) and the start of `solve`; the start time is zero (`core/benchmark.py` line 14). -/
noncomputable def job (points : List (ℝ × ℝ)) (w : Water) (k : Key) (s : Settings ℝ) : Except Error WaterJob :=
  match s.meshSize, s.cfl, s.integrator with
  | .int m, .num x, .given (.ode o) =>
    match uniformMesh w.bench.domain m.toNat with
    | .error _ => .error .valueError
    | .ok mesh =>
      match mesh.step with
      | none => .error .nonFinite
      | some dx => do
        let v ← initialValues points mesh w.bench.initial
        let P := params w.gravity
        let B ← buildBathymetry P (some (cellAverages points mesh w.bottom))
        let bc1 ← build (some reflect) w.bench.boundary.conditions 1 w.bench.inflowLeft w.bench.inflowRight
        let F ← fluxOf P B bc1 k s.flux
        let bc ← build (some reflect) w.bench.boundary.conditions (F.dim / 2) w.bench.inflowLeft w.bench.inflowRight
        let cfl ← cflNumber dx w.bench.endTime x
        .ok ⟨m.toNat, mesh, dx, cfl, Calculate.tableau o, F, bc, w.bench.endTime, fun i => v.getD i 0⟩
  | _, _, _ => .error .typeError

end Verif.CalculateSWE
