import Verif.Core.CalculateSWE
import Verif.Core.SWEReduced

/-!
Model of the solver `antidiffusion` of the command for the shallow water equations
(`finite_volume/shallow_water/solver/antidiffusion.py`): its construction from the parsed options.  Its run is that of the
other finite volume solvers (`WaterJob.run`).

Simplifications: as in `Verif.Core.CalculateSWE`.  A parameter `gamma` that is infinite or `nan` and a trained network as
flux are not part of the model (`.nonFinite`, `.typeError`).
-/

set_option linter.unusedSectionVars false

namespace Verif.CalculateSWE

open Verif.Py Verif.Boundary Verif.FV Verif.ODE Verif.Solver Verif.Interpolate Verif.Quadrature Verif.Bench Verif.SWE
open Verif.Registry Verif.Options Verif.Utilities EndToEnd Verif.Calculate
open Verif.Mesh hiding Error

/-- `LinearAntidiffusiveSolver.flux_getter`, `antidiffusion.py` lines 26-37, for a mesh with the step length `dx`. -/
noncomputable def sharpened (P : SWE.Params ℝ) (B : Bathymetry ℝ) (dx : ℝ) (gamma flux : Val ℝ) :
    Except Error (NumFlux (State ℝ)) :=
  match gamma, flux with
  | .num (.fin γ), .flux key => (getter P B key).map (antidiffusive γ dx)
  | .num _, .flux _ => .error .nonFinite
  | _, _ => .error .typeError

/-- `LinearAntidiffusiveSolver._get_solver_args`, `antidiffusion.py` lines 14-24, with `finite_volume/solver.py` lines
22-70 and the other lines cited at `job`; the start time is zero. -/
noncomputable def sharpJob (points : List (ℝ × ℝ)) (w : Water) (s : Settings ℝ) : Except Error WaterJob :=
  match s.meshSize, s.cfl, s.integrator with
  | .int m, .num x, .given (.ode o) =>
    match uniformMesh w.bench.domain m.toNat with
    | .error _ => .error .valueError
    | .ok mesh =>
      match mesh.step with
      | none => .error .nonFinite
      | some dx => do
        let v ← initialValues points mesh w.bench.initial
        let P := params w.gravity
        let B ← buildBathymetry P (some (cellAverages points mesh w.bottom))
        let F ← sharpened P B dx s.gamma s.flux
        let bc ← build (some reflect) w.bench.boundary.conditions (F.dim / 2) w.bench.inflowLeft w.bench.inflowRight
        let cfl ← cflNumber dx w.bench.endTime x
        .ok ⟨m.toNat, mesh, dx, cfl, Calculate.tableau o, F, bc, w.bench.endTime, fun i => v.getD i 0⟩
  | _, _, _ => .error .typeError

end Verif.CalculateSWE
