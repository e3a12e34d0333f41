import Mathlib.Analysis.SpecialFunctions.Log.Base
import Mathlib.Analysis.SpecialFunctions.Pow.Real
import Verif.Core.Coarsen
import Verif.Core.FV
import Verif.Core.Interpolate
import Verif.Core.Solution

/-!
Model of the numerical parts of the commands: experimental order of convergence (`command/error.py`),
error evolution (`command/error_evolution.py`), filtering of data (`command/delete_curvature.py`) and
generation of training data (`command/generate_data.py`).  Plotting, progress bars and the pandas
layout of tables are not modelled.
-/

set_option linter.unusedSectionVars false

namespace Verif.Commands

open Verif.Py

/-! ### `command/error.py` -/

/-- `EOCCalculator._calculate_eoc`, lines 107-118, for one norm: `None` stands for a value that is not
a finite number (`nan` for the first mesh, `log2` of zero, division by zero). -/
noncomputable def eoc (errors : List ℝ) (index : ℕ) : Option ℝ :=
  if index = 0 then none
  else
    let old := errors.getD (index - 1) 0
    let new := errors.getD index 0
    if new = 0 then none
    else if old / new ≤ 0 then none
    else some (Real.logb 2 (old / new))

/-- The row of `eocs` of one norm, lines 58-68. -/
noncomputable def eocs (errors : List ℝ) : List (Option ℝ) :=
  (List.range errors.length).map (eoc errors)

/-- Mesh sizes of the solvers, lines 295-298. -/
def eocMeshSizes (meshSize refine : ℕ) : List ℕ :=
  (List.range refine).map (fun i => 2 ^ i * meshSize)

/-! ### `command/error_evolution.py` -/

/-- Time and value history of one component of a solution. -/
structure History (V : Type*) where
  times : List ℝ
  values : List V

/-- `ErrorEvolutionCalculator._adjust_time`, lines 87-109: the shorter history is interpolated to the
times of the longer one (for equal lengths to those of the exact solution). -/
noncomputable def adjustTime {V : Type*} [AddCommGroup V] [Module ℝ V] (sol exact : History V) :
    Except Error (List ℝ × List V × List V) :=
  if sol.times.length > exact.times.length then
    match Interpolate.temporal exact.times exact.values sol.times with
    | .ok e => .ok (sol.times, sol.values, e)
    | .error e => .error e
  else
    match Interpolate.temporal sol.times sol.values exact.times with
    | .ok s => .ok (exact.times, s, exact.values)
    | .error e => .error e

/-- Lines 40-43 for one time: division of arrays, `none` is `inf` or `nan`. -/
noncomputable def relativeError {V : Type*} [AddCommGroup V] (norm : V → ℝ) (s e : V) : Option ℝ :=
  if norm e = 0 then none else some (norm (s - e) / norm e)

/-- `ErrorEvolutionCalculator.__call__`, lines 21-43.  Vectors of the same length are guaranteed by
the type (the assertion in lines 45-52). -/
noncomputable def errorEvolution {V : Type*} [AddCommGroup V] [Module ℝ V] (norm : V → ℝ)
    (sol exact : History V) : Except Error (List ℝ × List (Option ℝ)) :=
  match adjustTime sol exact with
  | .ok (t, s, e) => .ok (t, List.zipWith (relativeError norm) s e)
  | .error e => .error e

/-- The norm used by default, line 35: L2 norm of the finite volume element
(`finite_volume/space.py` lines 47-53). -/
noncomputable def fvNorm (points : List (ℝ × ℝ)) (mesh : Mesh.UMesh ℝ) (n : ℕ) (dof : Fin n → ℝ) : ℝ :=
  Interpolate.l2 points mesh (fun i _ => if h : i < n then dof ⟨i, h⟩ else 0)

/-- `np.argmin`: the first index with the smallest entry. -/
def argmin : List ℕ → ℕ
  | [] => 0
  | x :: xs => if xs.all (fun y => decide (x ≤ y)) then 0 else argmin xs + 1

/-- `PlotShallowWaterAverageErrorEvolution._get_minimum_time` and `_adjust_errors`, lines 321-335. -/
noncomputable def adjustErrors (times : List (List ℝ)) (errors : List (List ℝ)) :
    Except Error (List ℝ × List (List ℝ)) :=
  let minimum := times.getD (argmin (times.map List.length)) []
  match (times.zip errors).mapM (fun p => Interpolate.temporal p.1 p.2 minimum) with
  | .ok adjusted => .ok (minimum, adjusted)
  | .error e => .error e

/-! ### `command/delete_curvature.py` -/

/-- `Curvature._calculate_curvature`, `reduced_model.py` lines 143-148. -/
noncomputable def curvature3 (step a b c : ℝ) : ℝ :=
  |a - 2 * b + c| * step / (step ^ 2 + (0.25 : ℝ) * (a - c) ^ 2) ^ ((3 : ℝ) / 2)

/-- Column `j` (0: height, 1: discharge) of `Curvature.transform(X)[:, 8:]`, lines 130-141.  Rows have
at least eight columns `h0 q0 h1 q1 h2 q2 h3 q3`. -/
noncomputable def curvature (step : ℝ) (row : List ℝ) (j : ℕ) : ℝ :=
  (curvature3 step (row.getD j 0) (row.getD (2 + j) 0) (row.getD (4 + j) 0) +
    curvature3 step (row.getD (2 + j) 0) (row.getD (4 + j) 0) (row.getD (6 + j) 0)) / 2

/-- `value or default`. -/
noncomputable def orDefault (value : Option ℝ) (default : ℝ) : ℝ :=
  match value with
  | none => default
  | some x => if x = 0 then default else x

/-- `DeleteCurvature.execute`, lines 27-40. -/
noncomputable def deleteCurvature (step kh kq : Option ℝ) (rows : List (List ℝ)) : List (List ℝ) := by
  classical
  exact rows.filter (fun row =>
    decide (curvature (orDefault step 2) row 0 < orDefault kh (1 / 4)) &&
    decide (curvature (orDefault step 2) row 1 < orDefault kq (1 / 2)))

/-! ### `command/generate_data.py` -/

section Data
variable {K : Type*} [Field K] [LinearOrder K] [IsStrictOrderedRing K]
variable {V : Type*} [AddCommGroup V] [Module K V]

/-- Parameters of `DiscreteSolutionWithInputData`, lines 35-51. -/
structure Window where
  node : ℕ
  radius : ℕ
  k : ℕ
  fineRadius : ℕ

/-- `coarse_node_neighbours`, lines 45-49 and 69-74. -/
def coarseNeighbours (K : Type*) [Field K] {V : Type*} [AddCommGroup V] [Module K V] (w : Window)
    (value : List V) : Except Coarsen.Error (List V) :=
  Coarsen.coarsen K w.k
    (slice value ((w.node * w.k : ℤ) - w.radius * w.k) ((w.node * w.k : ℤ) + w.radius * w.k))

/-- `fine_node_neighbours`, lines 50-51 and 65-67. -/
def fineNeighbours {V : Type*} (w : Window) (value : List V) : List V :=
  slice value ((w.node * w.k : ℤ) - w.fineRadius) ((w.node * w.k : ℤ) + w.fineRadius)

/-- `DiscreteSolutionWithInputData`, lines 26-33. -/
structure InputData (K V : Type*) where
  sol : Solution.Sol K (List V)
  times : List K
  coarse : List (List V)
  fine : List (List V)

/-- `__init__`, lines 43-55. -/
def InputData.init (w : Window) (s : Solution.Sol K (List V)) :
    Except Coarsen.Error (InputData K V) :=
  match coarseNeighbours K w s.value with
  | .ok c => .ok ⟨s, [s.time], [c], [fineNeighbours w s.value]⟩
  | .error e => .error e

/-- `update`, lines 96-108, for finite values. -/
def InputData.update (w : Window) (d : InputData K V) (dt : K) (value : List V) :
    Except Coarsen.Error (InputData K V) :=
  let s : Solution.Sol K (List V) := ⟨d.sol.time + dt, value⟩
  match coarseNeighbours K w value with
  | .ok c => .ok ⟨s, d.times ++ [s.time], d.coarse ++ [c], d.fine ++ [fineNeighbours w value]⟩
  | .error e => .error e

/-- `set_value`, lines 110-120. -/
def InputData.setValue (w : Window) (d : InputData K V) (value : List V) (t : K) :
    Except Coarsen.Error (InputData K V) :=
  InputData.update w
    { d with
      times := d.times.filter (fun s => decide (s < t))
      coarse := Solution.selectPast d.times d.coarse t
      fine := Solution.selectPast d.times d.fine t }
    (t - d.sol.time) value

/-- `np.moveaxis(history, 1, 0)`: array `i` holds neighbour `i` at all times. -/
def moveaxis (width : ℕ) (history : List (List V)) : List (List V) :=
  (List.range width).map (fun i => history.map (fun row => row.getD i 0))

/-- `SubgridFluxDataBuilder.__call__`, lines 165-189: inputs are the coarse values, the target is the
difference of the right fluxes. -/
def subgridData (fine coarse : FV.NumFlux V) (w : Window) (d : InputData K V) :
    Except Error (List (List V) × List V) :=
  let coarseValues := moveaxis (2 * w.radius) d.coarse
  match fine.call (moveaxis (2 * w.fineRadius) d.fine), coarse.arbitraryInput.call coarseValues with
  | .ok (_, f), .ok (_, c) => .ok (coarseValues, List.zipWith (· - ·) f c)
  | .error e, _ => .error e
  | _, .error e => .error e

end Data

/-- `DataFrame.to_csv(path, mode="w" if overwrite else "a", header=overwrite)`, lines 379-384: a file
is a list of lines. -/
def toCsv {L : Type*} (header : L) (file rows : List L) (overwrite : Bool) : List L :=
  if overwrite then header :: rows else file ++ rows

/-- `GenerateData.execute`, lines 343-359: `data i` are the rows of the `i`-th solution. -/
def generate {L : Type*} (header : L) (file : List L) (data : ℕ → List L) (number : ℕ)
    (overwrite : Bool) : List L :=
  if number = 1 then toCsv header file (data 0) overwrite
  else (List.range number).foldl
    (fun f i => toCsv header f (data i) (if i = 0 then overwrite else false)) file

end Verif.Commands
