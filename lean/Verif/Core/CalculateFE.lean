import Verif.Core.Calculate
import Verif.Core.RK8
import Verif.Props.CGConvergence
import Verif.Props.FELowRuns

/-!
Model of the construction of the finite element solvers `cg`, `cg-low` and `mcl-fem` from parsed options
(`finite_element/scalar/solver/cg.py` lines 46-86, `cg_low.py` lines 78-127, `mcl.py` lines 113-158), of their initial
values (`finite_element/space.py` lines 336-354) and of their runs (`core/solver.py` lines 53-64).

Simplifications: as in `Core/Calculate.lean`; which of several errors of one construction is found first is not
modelled; an infinite CFL number for `cg-low` and `mcl-fem`, and `nan` together with `++adaptive`, are not modelled
(reported as `nonFinite`).
-/

set_option linter.unusedSectionVars false

namespace Verif.CalculateFE

open Verif.Py Verif.ODE Verif.Scalar Verif.Solver Verif.Bench Verif.FE
open Verif.Registry Verif.Options Verif.Utilities Verif.Calculate EndToEnd
open Verif.Mesh hiding Error

/-- A constructed finite element solver: its space, what is fixed at construction, and the initial values. -/
structure Job where
  n : ℕ
  space : Space ℝ
  params : Params ℝ (Fin n → ℝ)
  bench : Bench ℝ (Fin n → ℝ)

/-- `solver.solve()` after `k` calls of `__next__`. -/
noncomputable def Job.run (j : Job) (k : ℕ) : Obj ℝ (Fin j.n → ℝ) × Status :=
  solve j.params (Obj.make j.params j.bench) k

/-- A job with `n` values that start as `values` at time zero. -/
def Job.of (space : Space ℝ) (params : (n : ℕ) → Params ℝ (Fin n → ℝ)) (values : List ℝ) (endTime : ℝ) (n : ℕ) : Job :=
  ⟨n, space, params n, ⟨fun i => values.getD i 0, 0, endTime⟩⟩

/-- `ode_solver_type`, or `build_optimal_ode_solver` (`finite_element/ode_solver.py` lines 8-22). -/
noncomputable def integrator : Integrator ℝ → ℕ → Except Error (Tableau ℝ)
  | .given (.ode o), _ => .ok (tableau o)
  | .byDegree, 1 => .ok (heun ℝ)
  | .byDegree, 2 => .ok (ssp3 ℝ)
  | .byDegree, 3 => .ok rk8
  | .byDegree, 4 => .ok rk8
  | .byDegree, 5 => .ok rk8
  | .byDegree, 6 => .ok rk8
  | .byDegree, 7 => .ok rk8
  | .byDegree, _ => .error .keyError
  | _, _ => .error .typeError

/-- What a CFL number makes of `get_adaptive_time_stepping` (`core/time_stepping.py` lines 54-68, 123-141): with `nan`
and without `adaptive`, `len` raises `ValueError`. -/
def cflOf (adaptive : Bool) : PyFloat ℝ → Except Error ℝ
  | .fin x => .ok x
  | .nan => if adaptive then .error .nonFinite else .error .valueError
  | _ => .error .nonFinite

/-- The initial values: `get_finite_element_solution` (`finite_element/space.py` lines 336-349); `empty n` is an
uninitialised array with `n` entries. -/
noncomputable def initialValues (empty : ℕ → List ℝ) (b : Benchmark ℝ) (s : Space ℝ) : Except Error (List ℝ) :=
  match s.basisNodes (empty s.dimension) with
  | .error e => .error e
  | .ok nodes => .ok (nodes.map (initialData b))

/-- The right-hand sides and the time steps of the three solvers. -/
noncomputable def parameters (solver : SysMatrix ℝ → List ℝ → Except Error (List ℝ)) (gauss : ℕ → List (ℝ × ℝ))
    (p : Problem) (b : Benchmark ℝ) (k : Key) (s : Settings ℝ) (dx : ℝ) (x : PyFloat ℝ) (T : Tableau ℝ) (V : Space ℝ) :
    Except Error ((n : ℕ) → Params ℝ (Fin n → ℝ)) := do
  let C ← discreteGradient gauss V
  let M ← massMatrix gauss V
  let m ← lumpedMass gauss V
  match k, s.exactFlux, s.adaptive with
  | .cg, .bool exact, _ => do
    let cfl ← cflNumber dx b.endTime x
    .ok fun n => cgParams n T (cgRhs solver gauss V M C p exact) dx cfl 0 b.endTime
  | .cgLow, _, .bool adaptive => do
    let cfl ← cflOf adaptive x
    .ok fun n => feParams n T (lowRhs p m C) p m C cfl adaptive 0 b.endTime
  | .mclFem, _, .bool adaptive => do
    let cfl ← cflOf adaptive x
    let nb ← dofNeighbours V.map
    .ok fun n => feParams n T (mclRhs V.map p m M C nb) p m C cfl adaptive 0 b.endTime
  | _, _, _ => .error .typeError

/-- The constructors of the three solvers and the start of `solve`. -/
noncomputable def job (solver : SysMatrix ℝ → List ℝ → Except Error (List ℝ)) (gauss : ℕ → List (ℝ × ℝ))
    (empty : ℕ → List ℝ) (p : Problem) (b : Benchmark ℝ) (k : Key) (s : Settings ℝ) : Except Error Job :=
  match s.meshSize, s.degree, s.cfl with
  | .int m, .int q, .num x =>
    match uniformMesh b.domain m.toNat with
    | .error _ => .error .valueError
    | .ok mesh =>
      match mesh.step with
      | none => .error .nonFinite
      | some dx => do
        let V ← Space.make b.domain m.toNat q.toNat
        let values ← initialValues empty b V
        let T ← integrator s.integrator V.degree
        let params ← parameters solver gauss p b k s dx x T V
        .ok (.of V params values b.endTime V.dimension)
  | _, _, _ => .error .typeError

end Verif.CalculateFE
