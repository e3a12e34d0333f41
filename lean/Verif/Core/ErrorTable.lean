import Verif.Core.Commands
import Verif.Core.Interpolate

/-!
The table of errors of the `eoc` command for finite volume solutions of scalar problems
(`command/error.py`, `finite_volume/space.py`).

Not modelled: the formatting of the numbers (`EOCDataFrame`), progress bars, finite element solutions,
exact solutions that raise.  `points` is the rule `leggauss` returns for the norms; the L1 and L2 norms of
finite volume spaces get `quadrature_degree=None` (line 92), hence degree 1 (`core/norm.py` line 31).
-/

namespace Verif.Commands

open Verif.Py Verif.Interpolate
open Verif.Mesh hiding Error

/-- `FiniteVolumeElement.__call__`, `finite_volume/space.py` lines 52-53. -/
def element (values : List ℝ) (i : ℕ) (_x : ℝ) : ℝ := values.getD i 0

/-- `EOCCalculator._calculate_error`, lines 71-83 with 17-42 and 85-105: the errors in the L1, the L2 and
the Linf norm. -/
noncomputable def errorRow (points : List (ℝ × ℝ)) (mesh : UMesh ℝ) (exact : ℝ → ℝ) (values : List ℝ) :
    Except Error (List ℝ) :=
  let error := fun (i : ℕ) (x : ℝ) => exact x - element values i x
  match linf 10 mesh error with
  | .ok e => .ok [l1 points mesh error, l2 points mesh error, e]
  | .error e => .error e

/-- `EOCCalculator.__call__`, lines 52-69: the degrees of freedom and the errors of the solutions, one
row for each refinement. -/
noncomputable def errorTable (points : List (ℝ × ℝ)) (exact : ℝ → ℝ) (solutions : List (UMesh ℝ × List ℝ)) :
    Except Error (List (ℕ × List ℝ)) :=
  solutions.mapM fun s =>
    match errorRow points s.1 exact s.2 with
    | .ok row => .ok (s.1.cells.length, row)
    | .error e => .error e

/-- The errors in one norm, `errors[norm]`. -/
noncomputable def errorColumn (table : List (ℕ × List ℝ)) (norm : ℕ) : List ℝ :=
  table.map fun row => row.2.getD norm 0

end Verif.Commands
