import Verif.Core.FV

/-!
Model of the scalar finite volume solvers: `finite_volume/scalar/core.py` (fluxes, wave speeds),
`finite_volume/scalar/solver/mcl.py` (monolithic convex limiting), `finite_volume/index_mapping.py`,
`core/index_mapping.py` and `core/local_bounds.py`.
-/

set_option linter.unusedSectionVars false

namespace Verif.Scalar

open Verif.Py Verif.Boundary Verif.FV

variable {K : Type*} [Field K] [LinearOrder K] [IsStrictOrderedRing K]

/-- The two scalar problems. -/
inductive Problem where
  | advection
  | burgers
  deriving DecidableEq

/-- `problem` strings: anything else is a `ValueError` (`core.py` lines 14 and 37). -/
def Problem.parse (name : String) : Except Error Problem :=
  if name = "advection" then .ok .advection
  else if name = "burgers" then .ok .burgers
  else .error .valueError

/-- `get_flux`, lines 8-14. -/
def Problem.flux : Problem → K → K
  | .advection, u => u
  | .burgers, u => 1 / 2 * u ^ 2

/-- `flux_prime` in `get_wave_speed`, lines 31-39. -/
def Problem.fluxPrime : Problem → K → K
  | .advection, _ => 1
  | .burgers, u => u

/-- `WaveSpeed.__call__`, lines 23-28. -/
def Problem.waveSpeed (p : Problem) (uL uR : K) : K × K :=
  let w := max (p.fluxPrime uL) (p.fluxPrime uR)
  (-w, w)

/-- `get_riemann_solver`, lines 42-43. -/
def Problem.riemann (p : Problem) : Riemann K K where
  flux := fun u => .ok (p.flux u)
  waveSpeed := fun uL uR => .ok (p.waveSpeed uL uR)

/-- One node of `limit` (`solver/mcl.py` lines 9-33): `maxL, maxR, minL, minR` are the bounds of the
cells left and right of the node. -/
def limitNode (f w barL barR maxL maxR minL minR : K) : K :=
  let flux_maximum := w * min (maxR - barR) (barL - minL)
  let flux_minimum := w * max (minR - barR) (barL - maxL)
  max flux_minimum (min flux_maximum f)

/-- `limit`, lines 9-33, on arrays (`local_maximum`, `local_minimum` have one entry more). -/
def limit (f w barL barR localMax localMin : List K) : List K × List K :=
  let limited := (List.range f.length).map (fun i =>
    limitNode (f.getD i 0) (w.getD i 0) (barL.getD i 0) (barR.getD i 0) (localMax.getD i 0)
      (localMax.getD (i + 1) 0) (localMin.getD i 0) (localMin.getD (i + 1) 0))
  (limited.map (fun x => -x), limited)

/-- `NeighbourIndicesMapping._build_neighbours` (`finite_volume/index_mapping.py` lines 22-31): the
set of neighbours of index `i`, as a list without duplicates.  `-1` and `n` are removed from the
first and last set, the periodic partners are added. -/
def neighbourSet (n : ℕ) (periodic : Bool) (i : ℕ) : List ℤ :=
  let s : List ℤ := [(i : ℤ) - 1, i, i + 1]
  let s := if i = 0 then s.filter (· ≠ -1) else s
  let s := if i + 1 = n then s.filter (· ≠ (n : ℤ)) else s
  let s := if periodic && i = 0 then s.insert ((n : ℤ) - 1) else s
  if periodic && i + 1 = n then s.insert 0 else s

/-- `_build_neighbours_array` (`core/index_mapping.py` lines 26-42): shorter rows are filled with the
own index.  Building the mapping for an empty mesh is an `IndexError` (line 24 of
`finite_volume/index_mapping.py`). -/
def neighbourArray (n : ℕ) (periodic : Bool) : Except Error (List (List ℤ)) :=
  if n = 0 then .error .indexError
  else
    let rows := (List.range n).map (neighbourSet n periodic)
    let m := (rows.map List.length).foldl max 0
    .ok ((List.range n).map (fun i =>
      let row := neighbourSet n periodic i
      row ++ List.replicate (m - row.length) (i : ℤ)))

/-- `np.amax` of a row; an empty row is a `ValueError`. -/
def amax : List K → Except Error K
  | [] => .error .valueError
  | x :: xs => .ok (xs.foldl max x)

/-- `np.amin` of a row. -/
def amin : List K → Except Error K
  | [] => .error .valueError
  | x :: xs => .ok (xs.foldl min x)

/-- Values of a vector at a row of indices (`dof_vector[indices]`). -/
def gather (u : List K) (row : List ℤ) : Except Error (List K) := row.mapM (Py.get u)

/-- `np.amax(dof_vector[indices])` for one row. -/
def rowMax (u : List K) (row : List ℤ) : Except Error K :=
  match gather u row with
  | .ok xs => amax xs
  | .error e => .error e

/-- `np.amin(dof_vector[indices])` for one row. -/
def rowMin (u : List K) (row : List ℤ) : Except Error K :=
  match gather u row with
  | .ok xs => amin xs
  | .error e => .error e

/-- `LocalMaximum.__call__`, `core/local_bounds.py` lines 18-22. -/
def localMaximum (nb : List (List ℤ)) (u : List K) : Except Error (List K) :=
  nb.mapM (rowMax u)

/-- `LocalMinimum.__call__`, `core/local_bounds.py` lines 38-42. -/
def localMinimum (nb : List (List ℤ)) (u : List K) : Except Error (List K) :=
  nb.mapM (rowMin u)

/-- `MCLFlux.__call__`, `solver/mcl.py` lines 60-83.  `high` is the right flux of
`self._high_order_flux` on the two arrays. -/
def mcl (R : Riemann K K) (high : List K → List K → Except Error (List K)) (nb : List (List ℤ)) :
    NumFlux K where
  dim := 2
  call := fun
    | [l, r] =>
      match zipE R.solve l r with
      | .error e => .error e
      | .ok rs =>
        match high l r, dofVector [l, r] with
        | .error e, _ => .error e
        | _, .error e => .error e
        | .ok hs, .ok u =>
          match localMaximum nb u, localMinimum nb u with
          | .error e, _ => .error e
          | _, .error e => .error e
          | .ok maxs, .ok mins =>
            let low := rs.map (·.flux)
            let bar := rs.map (·.state)
            let anti := List.zipWith (· - ·) hs low
            let lim := limit anti (rs.map (·.speedRight)) bar bar maxs mins
            .ok (List.zipWith (· + ·) (low.map (fun x => -x)) lim.1,
              List.zipWith (· + ·) low lim.2)
    | _ => .error .typeError

/-- `MCLFluxGetter.__call__`, lines 86-94: the neighbour mapping is built for `len(mesh) + 2`
indices, the target flux is central (line 48). -/
def mclOf (p : Problem) (meshSize : ℕ) (periodic : Bool) : Except Error (NumFlux K) :=
  match neighbourArray (meshSize + 2) periodic with
  | .error e => .error e
  | .ok nb => .ok (mcl p.riemann (fun l r => zipE (centralNode K p.riemann.flux) l r) nb)

end Verif.Scalar
