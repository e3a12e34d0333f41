import Verif.Core.FELemmas
import Verif.Core.Scalar

/-!
Model of the finite element solvers for scalar equations (`finite_element/scalar/solver/cg_low.py`,
`mcl.py`, `cg.py`) and of the flux gradients (`finite_element/flux_gradient.py`).

The group finite element flux approximation is `f(u)`; its cache is the subject of C71.  The vectors
passed to a right-hand side are the stage values of a Runge-Kutta method, which are new arrays.
-/

set_option linter.unusedSectionVars false

namespace Verif.FE

open Verif.Py
open Verif.Mesh hiding Error
open Verif.Quadrature
open Verif.Scalar

variable {K : Type} [Field K] [LinearOrder K] [IsStrictOrderedRing K]

/-- Division of arrays, entry by entry; division by zero gives `inf` or `nan`. -/
def divVec (a m : List K) : Except Error (List K) :=
  if a.length ≠ m.length then .error .valueError
  else if ∀ x ∈ m, x ≠ 0 then .ok (List.zipWith (· / ·) a m) else .error .nonFinite

/-- `build_artificial_diffusion` (finite_element/artificial_diffusion.py 66-73) and `assemble`: nothing
to be done for the advection equation (core/system.py 62-63), lines 54-63 for Burgers' equation. -/
def diffusion (p : Problem) (C : SysMatrix K) (u : List K) : Except Error (SysMatrix K) :=
  match p with
  | .advection => .ok (upwind C)
  | .burgers => burgersDiffusion C u

/-- `AdvectionFluxGradient.__call__`, `ApproximatedFluxGradient.__call__`
(finite_element/flux_gradient.py 89-90 and 115-116). -/
def fluxGradient (p : Problem) (C : SysMatrix K) (u : List K) : Except Error (List K) :=
  match C.dot (u.map p.flux) with
  | .error e => .error e
  | .ok w => .ok (w.map fun x => -x)

/-- `LowOrderCGRightHandSide.__call__` (cg_low.py 56-60). -/
def lowRhs (p : Problem) (m : List K) (C : SysMatrix K) (u : List K) : Except Error (List K) :=
  match diffusion p C u with
  | .error e => .error e
  | .ok D =>
    match D.dot u with
    | .error e => .error e
    | .ok a =>
      match fluxGradient p C u with
      | .error e => .error e
      | .ok b => divVec (List.zipWith (· + ·) a b) m

/-- The minimum of two steps, `none` is `inf`. -/
def stepMin : Option K → Option K → Option K
  | none, b => b
  | a, none => a
  | some a, some b => some (min a b)

/-- One entry of `lumped_mass / (2 * abs(diagonal))` (cg_low.py 26-29): `inf` for a zero diagonal
and a positive mass; other divisions by zero are reported as an error. -/
def stepEntry (mass diagonal : K) : Except Error (Option K) :=
  if diagonal ≠ 0 then .ok (some (mass / (2 * |diagonal|)))
  else if 0 < mass then .ok none else .error .nonFinite

/-- `OptimalTimeStep.__call__` (cg_low.py 23-29). -/
def optimalStep (p : Problem) (m : List K) (C : SysMatrix K) (u : List K) :
    Except Error (Option K) :=
  match diffusion p C u with
  | .error e => .error e
  | .ok D =>
    if m.length ≠ D.dimension then .error .valueError
    else
      match (List.range D.dimension).mapM fun i => stepEntry (m.getD i 0) (D.lil i i) with
      | .error e => .error e
      | .ok [] => .error .valueError
      | .ok (x :: xs) => .ok (xs.foldl stepMin x)

/-- `combinations(range(n), 2)`. -/
def combinations (n : ℕ) : List (ℕ × ℕ) :=
  (List.range n).flatMap fun l => ((List.range n).filter fun l' => l < l').map fun l' => (l, l')

/-- The limited flux (mcl.py 88-93). -/
def limitedFlux (mij dij cij ui uj fi fj dudt_i dudt_j umax_i umax_j umin_i umin_j : K) : K :=
  let fij := mij * (dudt_i - dudt_j) + dij * (ui - uj)
  let wij := dij * (uj + ui) + (fi - fj) * cij
  let fmin_ij := max (2 * dij * umin_i - wij) (wij - 2 * dij * umax_j)
  let fmax_ij := min (2 * dij * umax_i - wij) (wij - 2 * dij * umin_j)
  max fmin_ij (min fmax_ij fij)

/-- One pass of the loop body (mcl.py 70-96). -/
def correctPair (g : IndexMap) (M D C : SysMatrix K) (u f r umax umin : List K) (corr : List K)
    (c : ℕ) (q : ℕ × ℕ) : Except Error (List K) := do
  let i ← g.call c q.1
  let j ← g.call c q.2
  let mij ← M.get i j
  let dij ← D.get i j
  let cij ← C.get i j
  let ui ← Py.get u i
  let uj ← Py.get u j
  let fi ← Py.get f i
  let fj ← Py.get f j
  let dudt_i ← Py.get r i
  let dudt_j ← Py.get r j
  let umax_i ← Py.get umax i
  let umax_j ← Py.get umax j
  let umin_i ← Py.get umin i
  let umin_j ← Py.get umin j
  let fstar := limitedFlux mij dij cij ui uj fi fj dudt_i dudt_j umax_i umax_j umin_i umin_j
  let corr ← addAt corr i fstar
  addAt corr j (-fstar)

/-- `MCLRightHandSide.__call__` (mcl.py 60-98).  `M` is the mass matrix, `m` the lumped mass, `C` the
discrete gradient, `nb` the array of neighbour indices. -/
def mclRhs (g : IndexMap) (p : Problem) (m : List K) (M C : SysMatrix K) (nb : List (List ℤ))
    (u : List K) : Except Error (List K) := do
  let f := u.map p.flux
  let r ← lowRhs p m C u
  let D ← diffusion p C u
  let umax ← localMaximum nb u
  let umin ← localMinimum nb u
  let corr ← ((List.range g.meshSize).flatMap fun c =>
      (combinations (g.degree + 1)).map fun q => (c, q)).foldlM
    (fun corr x => correctPair g M D C u f r umax umin corr x.1 x.2) (List.replicate u.length 0)
  let w ← divVec corr m
  .ok (List.zipWith (· + ·) r w)

end Verif.FE
