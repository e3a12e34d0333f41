import Verif.Core.Py
import Verif.Core.Scalar
import Verif.Core.Quadrature

/-!
Model of `core/interpolate.py` and `core/norm.py`.
-/

set_option linter.unusedSectionVars false

namespace Verif.Interpolate

open Verif.Py
open Verif.Mesh hiding Error
open Verif.Quadrature

variable {K : Type*} [Field K] [LinearOrder K] [IsStrictOrderedRing K]

/-- `CellAverageInterpolator._cell_average`, lines 51-55.  `points` are the pairs of nodes and weights
of the reference rule. -/
def cellAverage (points : List (K × K)) (f : K → K) (c : Interval K) : K :=
  (gaussian points c).integrate f / c.length

/-- `CellAverageInterpolator._interpolate_scalar`, lines 43-49. -/
def cellAverages (points : List (K × K)) (mesh : UMesh K) (f : K → K) : List K :=
  (List.range mesh.cells.length).map (fun i => cellAverage points f (mesh.cells.getD i ⟨0, 0⟩))

/-- `NodeValuesInterpolator._interpolate_scalar`, lines 66-67. -/
def nodeValues (nodes : List K) (f : K → K) : List K := nodes.map f

/-- `Interpolator.interpolate` for vector valued functions, lines 18-23: one scalar interpolation for
each component of `function(0)`, then the transposed array (rows are degrees of freedom).  `n` is the
number of degrees of freedom.  The function returns arrays of the same length at all points. -/
def interpolateVector (scalar : (K → K) → List K) (n : ℕ) (f : K → List K) : List (List K) :=
  let columns := (List.range (f 0).length).map (fun j => scalar (fun x => (f x).getD j 0))
  (List.range n).map (fun i => columns.map (fun col => col.getD i 0))

section Interp
variable {V : Type*} [AddCommGroup V] [Module K V]

/-- `np.interp` for one point and increasing sample points: constant outside, at sample points the
sample value, linear in between.  An array valued `fp` is interpolated component by component, which
is what the loops in lines 78-84 do. -/
def interp : List (K × V) → K → Option V
  | [], _ => none
  | [p], _ => some p.2
  | p :: q :: rest, x =>
    if x ≤ p.1 then some p.2
    else if x < q.1 then some (((x - p.1) / (q.1 - p.1)) • (q.2 - p.2) + p.2)
    else interp (q :: rest) x

/-- `np.interp` for an array of points.  No or unequally many samples are a `ValueError`. -/
def interpAll (xp : List K) (fp : List V) (xs : List K) : Except Error (List V) :=
  if xp.length = fp.length ∧ xp ≠ [] then
    xs.mapM (fun x =>
      match interp (xp.zip fp) x with
      | some v => .ok v
      | none => .error .valueError)
  else .error .valueError

/-- `TemporalInterpolator.__call__`, lines 73-86.  `values[0]` of an empty array is an `IndexError`;
only the first `len(old_time)` values are read. -/
def temporal (oldTime : List K) (values : List V) (newTime : List K) : Except Error (List V) :=
  if values = [] then .error .indexError
  else interpAll oldTime (values.take oldTime.length) newTime

/-- `SpatialInterpolator.__call__`, lines 92-123: the same along the second axis, for each time. -/
def spatial (oldGrid : List K) (values : List (List V)) (newGrid : List K) :
    Except Error (List (List V)) :=
  values.mapM (fun row => interpAll oldGrid (row.take oldGrid.length) newGrid)

end Interp

/-! ### Norms -/

/-- `_calculate_norm_on_cell` of `L1Norm` and `L2Norm` (`core/norm.py` lines 47-65 and 80-98) with
`g` the modulus or the square: nodes of the local rule are mapped to the cell. -/
def normOnCell (points : List (K × K)) (g : K → K) (c : Interval K) (f : K → K) : K :=
  affineDerivative c *
    (List.zipWith (fun w value => w * value) (localElement points).weights
      ((localElement points).nodes.map (fun x => g (f (affine x c))))).sum

/-- Sum over the cells (lines 39-45, 72-78). -/
def sumCells (points : List (K × K)) (g : K → K) (mesh : UMesh K) (f : ℕ → K → K) : K :=
  ((List.range mesh.cells.length).map (fun i =>
    normOnCell points g (mesh.cells.getD i ⟨0, 0⟩) (f i))).sum

/-- `L1Norm.__call__`, lines 71-78.  Functions get the cell index and the point. -/
def l1 (points : List (K × K)) (mesh : UMesh K) (f : ℕ → K → K) : K :=
  sumCells points (fun y => |y|) mesh f

/-- Square of `L2Norm.__call__`. -/
def l2sq (points : List (K × K)) (mesh : UMesh K) (f : ℕ → K → K) : K :=
  sumCells points (fun y => y ^ 2) mesh f

/-- `L2Norm.__call__`, lines 38-45. -/
noncomputable def l2 (points : List (ℝ × ℝ)) (mesh : UMesh ℝ) (f : ℕ → ℝ → ℝ) : ℝ :=
  Real.sqrt (l2sq points mesh f)

/-- The points of a cell, line 127: `np.linspace(cell.a, cell.b, points_per_cell)`. -/
def cellPoints (c : Interval K) (m : ℕ) : List K :=
  if m = 0 then [] else (linspace c.a c.b (m - 1)).1

/-- `_calculate_norm_on_cell`, lines 119-131; `np.amax` of an empty array is a `ValueError`. -/
def linfOnCell (m : ℕ) (c : Interval K) (f : K → K) : Except Error K :=
  Scalar.amax ((cellPoints c m).map (fun x => |f x|))

/-- `solver_spaces.__call__` (the Linf norm), lines 106-117.  `m` is `points_per_cell or 10`. -/
def linf (m : ℕ) (mesh : UMesh K) (f : ℕ → K → K) : Except Error K :=
  match (List.range mesh.cells.length).mapM (fun i =>
      linfOnCell m (mesh.cells.getD i ⟨0, 0⟩) (f i)) with
  | .ok vs => Scalar.amax vs
  | .error e => .error e

end Verif.Interpolate
