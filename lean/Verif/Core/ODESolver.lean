import Mathlib.Algebra.Module.BigOperators
import Mathlib.Algebra.Module.LinearMap.Defs
import Mathlib.Algebra.Order.Field.Basic
import Mathlib.Algebra.BigOperators.Group.List.Basic
import Mathlib.Tactic.Module
import Mathlib.Tactic.Linarith
import Mathlib.Tactic.Ring
import Mathlib.Tactic.NormNum

/-!
Model of `core/ode_solver.py`: explicit Runge-Kutta methods.

The state space `E` is any module over the field `K` of numbers; numpy arrays with `n` entries are
`Fin n → V`.  `self._solution += ...` (in place) is modelled by returning the new value; the
aliasing this creates is the subject of `Verif/Core/Solution.lean`.
-/

set_option linter.unusedSectionVars false

namespace Verif.ODE

variable {K : Type*} [Field K]
variable {E : Type*} [AddCommGroup E] [Module K E]

/-- Class attributes `_runge_kutta_matrix`, `_weights`, `_nodes` (lines 18-20); `size` is
`len(self._weights)` (line 71).  Entries outside of the arrays are never read. -/
structure Tableau (K : Type*) where
  size : ℕ
  A : ℕ → ℕ → K
  b : ℕ → K
  c : ℕ → K

/-- Matrix entry access for a literal table. -/
def table (rows : List (List K)) (i j : ℕ) : K := (rows.getD i []).getD j 0

/-- `ForwardEuler`, lines 99-104. -/
def forwardEuler (K : Type*) [Field K] : Tableau K where
  size := 1
  A := table [[0]]
  b := fun i => [1].getD i 0
  c := fun i => [0].getD i 0

/-- `Heun`, lines 107-112. -/
def heun (K : Type*) [Field K] : Tableau K where
  size := 2
  A := table [[0, 0], [1, 0]]
  b := fun i => [1 / 2, 1 / 2].getD i 0
  c := fun i => [0, 1].getD i 0

/-- `StrongStabilityPreservingRungeKutta3`, lines 115-120. -/
def ssp3 (K : Type*) [Field K] : Tableau K where
  size := 3
  A := table [[0, 0, 0], [1, 0, 0], [1 / 4, 1 / 4, 0]]
  b := fun i => [1 / 6, 1 / 6, 2 / 3].getD i 0
  c := fun i => [0, 1, 1 / 2].getD i 0

/-- `stage_value`, lines 75-83: `u + dt * sum_{j<i} A[i,j] * stages[j]`. -/
def stageValue (T : Tableau K) (dt : K) (u : E) (stages : List E) (i : ℕ) : E :=
  u + dt • ((List.range i).map (fun j => T.A i j • stages.getD j 0)).sum

/-- `time_node`, line 74. -/
def timeNode (T : Tableau K) (t dt : K) (i : ℕ) : K := t + T.c i * dt

/-- `stages` after `n` passes of the loop in lines 73-87. -/
def stages (T : Tableau K) (f : K → E → E) (t dt : K) (u : E) : ℕ → List E
  | 0 => []
  | n + 1 =>
    let ks := stages T f t dt u n
    ks ++ [f (timeNode T t dt n) (stageValue T dt u ks n)]

/-- Attributes of an `ExplicitRungeKuttaMethod` object (lines 15-23). -/
structure Solver (K E : Type*) where
  time : K
  solution : E
  timeNodes : List K
  stageValues : List E

/-- `__init__`/`reinitialize` (lines 25-42, 60-61). -/
def Solver.init (u : E) (t : K) : Solver K E := ⟨t, u, [], []⟩

/-- `execute`, lines 63-93. -/
def Solver.execute (T : Tableau K) (f : K → E → E) (s : Solver K E) (dt : K) : Solver K E :=
  let ks := stages T f s.time dt s.solution T.size
  { time := s.time + dt
    solution := s.solution + dt • ((List.range T.size).map (fun i => T.b i • ks.getD i 0)).sum
    timeNodes := (List.range T.size).map (timeNode T s.time dt)
    stageValues := (List.range T.size).map (stageValue T dt s.solution ks) }

/-- A run: one `execute` for each time step. -/
def Solver.run (T : Tableau K) (f : K → E → E) (s : Solver K E) (steps : List K) : Solver K E :=
  steps.foldl (Solver.execute T f) s

/-! ### Helper lemmas -/

theorem stages_length (T : Tableau K) (f : K → E → E) (t dt : K) (u : E) (n : ℕ) :
    (stages T f t dt u n).length = n := by
  induction n with
  | zero => rfl
  | succ n ih => simp [stages, ih]

theorem stages_prefix (T : Tableau K) (f : K → E → E) (t dt : K) (u : E) (n m : ℕ) (h : n ≤ m)
    (j : ℕ) (hj : j < n) :
    (stages T f t dt u m).getD j 0 = (stages T f t dt u n).getD j 0 := by
  induction m, h using Nat.le_induction with
  | base => rfl
  | succ m hm ih =>
    rw [← ih]
    simp only [stages]
    rw [List.getD_eq_getElem?_getD, List.getElem?_append_left (by rw [stages_length]; omega),
      ← List.getD_eq_getElem?_getD]

/-- The `i`-th stage is the right-hand side at the `i`-th node and stage value. -/
theorem stages_getD (T : Tableau K) (f : K → E → E) (t dt : K) (u : E) (m i : ℕ) (hi : i < m) :
    (stages T f t dt u m).getD i 0 =
      f (timeNode T t dt i) (stageValue T dt u (stages T f t dt u m) i) := by
  rw [stages_prefix T f t dt u (i + 1) m hi i (Nat.lt_succ_self i)]
  simp only [stages]
  rw [List.getD_eq_getElem?_getD, List.getElem?_append_right (by rw [stages_length])]
  simp only [stages_length, Nat.sub_self, List.getElem?_cons_zero, Option.getD_some]
  congr 1
  unfold stageValue
  congr 3
  apply List.map_congr_left
  intro j hj
  rw [List.mem_range] at hj
  rw [stages_prefix T f t dt u i m hi.le j hj]

theorem execute_forwardEuler (f : K → E → E) (s : Solver K E) (dt : K) :
    (s.execute (forwardEuler K) f dt).solution = s.solution + dt • f s.time s.solution := by
  simp [Solver.execute, forwardEuler, stages, stageValue, timeNode, List.range_succ]

theorem execute_heun (f : K → E → E) (s : Solver K E) (dt : K) :
    (s.execute (heun K) f dt).solution = s.solution + dt • (((1 : K) / 2) • f s.time s.solution +
      ((1 : K) / 2) • f (s.time + dt) (s.solution + dt • f s.time s.solution)) := by
  simp [Solver.execute, heun, stages, stageValue, timeNode, List.range_succ, table]

theorem execute_ssp3 (f : K → E → E) (s : Solver K E) (dt : K) :
    let k0 := f s.time s.solution
    let k1 := f (s.time + dt) (s.solution + dt • k0)
    let k2 := f (s.time + 1 / 2 * dt) (s.solution + dt • (((1 : K) / 4) • k0 + ((1 : K) / 4) • k1))
    (s.execute (ssp3 K) f dt).solution =
      s.solution + dt • (((1 : K) / 6) • k0 + (((1 : K) / 6) • k1 + ((2 : K) / 3) • k2)) := by
  simp [Solver.execute, ssp3, stages, stageValue, timeNode, List.range_succ, table]

end Verif.ODE
