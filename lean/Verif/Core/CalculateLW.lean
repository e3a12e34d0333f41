import Verif.Core.CalculateSWE
import Verif.Core.SWEReduced

/-!
Model of the solver `lw` of `calculate swe`: its construction from the parsed options and its run
(`finite_volume/shallow_water/solver/lax_wendroff.py`, `finite_volume/solver.py`, `core/solver.py`).  Simplifications as
in `Core/CalculateSWE`.
-/

set_option linter.unusedSectionVars false

namespace Verif.CalculateSWE

open Verif.Py Verif.Boundary Verif.FV Verif.ODE Verif.Solver Verif.Interpolate Verif.Quadrature Verif.Bench Verif.SWE
open Verif.Registry Verif.Options Verif.Utilities EndToEnd Verif.Calculate
open Verif.TimeStepping (next Config)
open Verif.Mesh hiding Error

/-- A constructed `LaxWendroffSolver`. -/
structure WendroffJob where
  n : ℕ
  mesh : UMesh ℝ
  /-- `mesh.step_length` -/
  dx : ℝ
  cfl : ℝ
  physics : SWE.Params ℝ
  boundary : BC ℝ (State ℝ)
  endTime : ℝ
  initial : Fin n → State ℝ

/-- What is fixed at construction, with the time step `dt` in the flux (`LaxWendroffFlux.set_time_step`,
`lax_wendroff.py` lines 24-25; right-hand side and integrator lines 84-108). -/
noncomputable def WendroffJob.params (j : WendroffJob) (dt : ℝ) : Solver.Params ℝ (Fin j.n → State ℝ) :=
  fvParams j.n (forwardEuler ℝ) (rhs (laxWendroff j.physics dt j.dx) j.dx j.boundary) j.dx j.cfl 0 j.endTime

/-- The step the loop of `solve` takes next. -/
noncomputable def stepOf {V : Type*} (p : Solver.Params ℝ V) (l : Obj ℝ V × Status) : ℝ :=
  match next (l.1.config p) l.1.ts with
  | (_, .yield dt) => dt
  | _ => 0

/-- `solver.solve()` after `k` calls of `__next__`; `_update` passes the time step to the flux before each update
(`lax_wendroff.py` lines 110-112, `core/solver.py` lines 53-69). -/
noncomputable def WendroffJob.run (j : WendroffJob) : ℕ → Obj ℝ (Fin j.n → State ℝ) × Status
  | 0 => solve (j.params 0) (Obj.make (j.params 0) ⟨j.initial, 0, j.endTime⟩) 0
  | k + 1 => pass (j.params (stepOf (j.params 0) (j.run k))) (j.run k)

/-- `LaxWendroffSolver._get_solver_args`, `lax_wendroff.py` lines 75-108, with `finite_volume/solver.py` lines 36-70 for
`flux_getter = None`: no bathymetry is built, the integrator is forward Euler, the boundary conditions have one ghost cell
at each end.  The start time is zero. -/
noncomputable def wendroffJob (points : List (ℝ × ℝ)) (w : Water) (s : Settings ℝ) : Except Error WendroffJob :=
  match s.meshSize, s.cfl with
  | .int m, .num x =>
    match uniformMesh w.bench.domain m.toNat with
    | .error _ => .error .valueError
    | .ok mesh =>
      match mesh.step with
      | none => .error .nonFinite
      | some dx => do
        let v ← initialValues points mesh w.bench.initial
        let bc ← build (some reflect) w.bench.boundary.conditions 1 w.bench.inflowLeft w.bench.inflowRight
        let cfl ← cflNumber dx w.bench.endTime x
        .ok ⟨m.toNat, mesh, dx, cfl, params w.gravity, bc, w.bench.endTime, fun i => v.getD i 0⟩
  | _, _ => .error .typeError

end Verif.CalculateSWE
