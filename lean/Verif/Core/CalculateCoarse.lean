import Verif.Core.CalculateSWE
import Verif.Core.CoarseSolver

/-!
Model of the solver `coarse` of the command for the shallow water equations
(`finite_volume/shallow_water/solver/coarse.py`): its construction from the parsed options and its run.  The solution on
the fine mesh, its coarsening and the loop are those of `Verif.Core.CoarseSolver`.

Simplifications: as in `Verif.Core.CalculateSWE`; a trained network as flux is not part of the model (`.typeError`).  An
exception of the coarsener during construction is Python's `ValueError` (`core/vector_coarsener.py` lines 26-30).
-/

set_option linter.unusedSectionVars false

namespace Verif.CalculateSWE

open Verif.Py Verif.Boundary Verif.FV Verif.ODE Verif.Solver Verif.Interpolate Verif.Quadrature Verif.Bench Verif.SWE
open Verif.Registry Verif.Options Verif.Utilities EndToEnd Verif.Calculate
open Verif.Mesh hiding Error

/-- The call of `super().__init__` in `CoarseSolver.__init__`, `coarse.py` lines 20-22, with `self.flux_getter` chosen
before; the other lines are cited at `job`. -/
noncomputable def fineJob (points : List (ℝ × ℝ)) (w : Water) (s : Settings ℝ) : Except Error WaterJob :=
  match s.meshSize, s.cfl, s.integrator, s.flux with
  | .int m, .num x, .given (.ode o), .flux key =>
    match uniformMesh w.bench.domain m.toNat with
    | .error _ => .error .valueError
    | .ok mesh =>
      match mesh.step with
      | none => .error .nonFinite
      | some dx => do
        let v ← initialValues points mesh w.bench.initial
        let P := params w.gravity
        let B ← buildBathymetry P (some (cellAverages points mesh w.bottom))
        let F ← getter P B key
        let bc ← build (some reflect) w.bench.boundary.conditions (F.dim / 2) w.bench.inflowLeft w.bench.inflowRight
        let cfl ← cflNumber dx w.bench.endTime x
        .ok ⟨m.toNat, mesh, dx, cfl, Calculate.tableau o, F, bc, w.bench.endTime, fun i => v.getD i 0⟩
  | _, _, _, _ => .error .typeError

/-- A constructed `CoarseSolver`. -/
structure CoarseJob where
  fine : WaterJob
  degree : ℕ
  object : CoarseSolver.CObj ℝ (State ℝ) fine.n

/-- `solver.solve()` after `k` calls of `__next__`. -/
noncomputable def CoarseJob.run (j : CoarseJob) (k : ℕ) : CoarseSolver.CObj ℝ (State ℝ) j.fine.n × Status :=
  CoarseSolver.csolve j.fine.params j.degree j.object k

/-- `CoarseSolver.__init__`, `coarse.py` lines 12-28: the solver on the fine mesh is constructed first, then its solution
is wrapped. -/
noncomputable def coarseJob (points : List (ℝ × ℝ)) (w : Water) (s : Settings ℝ) : Except Error CoarseJob :=
  match s.coarsening, s.history with
  | .int d, .bool save =>
    match fineJob points w s with
    | .error e => .error e
    | .ok j =>
      match CoarseSolver.CObj.make j.params (some d.toNat) save ⟨j.initial, 0, j.endTime⟩ with
      | .error _ => .error .valueError
      | .ok o => .ok ⟨j, CoarseSolver.degree (some d.toNat), o⟩
  | _, _ => .error .typeError

end Verif.CalculateSWE
