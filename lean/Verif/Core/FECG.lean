import Verif.Core.FESolver

/-!
Model of the continuous Galerkin solver (`finite_element/scalar/solver/cg.py`), of the vectors of `L²`
products with basis functions (`finite_element/discrete_l2_product.py`) and of the exact flux gradient
(`finite_element/flux_gradient.py`).

`scipy.sparse.linalg.spsolve` is a parameter `solve` of the model; what is assumed of it is `Solves`.
-/

set_option linter.unusedSectionVars false

namespace Verif.FE

open Polynomial
open Verif.Py
open Verif.Mesh hiding Error
open Verif.Quadrature
open Verif.Scalar

variable {K : Type} [Field K] [LinearOrder K] [IsStrictOrderedRing K]

/-- `LocallyAssembledVector.__call__` (finite_element/system.py 34-43) with an entry calculator that may
raise; the global index is computed first (line 39). -/
def assembleVectorE (g : IndexMap) (entry : ℕ → ℕ → Except Error K) : Except Error (List K) :=
  g.locals.foldlM (fun v q => do
    let i ← g.call q.1 q.2
    let x ← entry q.1 q.2
    addAt v i x) (List.replicate g.dimension 0)

/-- `BasisL2ProductEntryCalculator.__call__` (finite_element/discrete_l2_product.py 35-47), with a
quadrature with `N` nodes; `left` is called with the cell and the index of the node. -/
noncomputable def l2Entry (gauss : ℕ → List (K × K)) (N : ℕ) (s : Space K)
    (left : ℕ → ℕ → Except Error K) (c l : ℕ) : Except Error K := do
  let Q := localElement (gauss N)
  let values ← (List.range Q.nodes.length).mapM fun i => do
    let f ← left c i
    .ok ((s.cell c).length * f * (basis s.degree l).eval (Q.nodes.getD i 0))
  .ok (dot Q.weights values)

/-- `BasisGradientL2ProductEntryCalculator.__call__` (finite_element/discrete_l2_product.py 66-80). -/
noncomputable def l2GradientEntry (gauss : ℕ → List (K × K)) (N : ℕ) (s : Space K)
    (left : ℕ → ℕ → Except Error K) (c l : ℕ) : Except Error K := do
  let Q := localElement (gauss N)
  let values ← (List.range Q.nodes.length).mapM fun i => do
    let f ← left c i
    .ok (f * (basis s.degree l).derivative.eval (Q.nodes.getD i 0))
  .ok (dot Q.weights values)

/-- `FluxGradient.__call__` (finite_element/flux_gradient.py 68-70) with the entries of
`FluxGradientEntryCalculator` (lines 11-40), whose quadrature has `2**polynomial_degree` nodes
(line 23). -/
noncomputable def exactFluxGradient (gauss : ℕ → List (K × K)) (s : Space K) (flux : K → K)
    (u : List K) : Except Error (List K) :=
  let N := 2 ^ s.degree
  assembleVectorE s.map (l2GradientEntry gauss N s fun c i => do
    let v ← s.fastValue (localElement (gauss N)).nodes u c i
    .ok (flux v))

/-- `build_flux_gradient` (lines 139-145), `build_exact_flux_gradient` (lines 119-126),
`build_flux_gradient_approximation` (lines 129-136); `C` is the discrete gradient that the operators
build themselves. -/
noncomputable def buildFluxGradient (gauss : ℕ → List (K × K)) (s : Space K) (C : SysMatrix K)
    (problem : Problem) (exact : Bool) (u : List K) : Except Error (List K) :=
  match exact, problem with
  | true, .burgers => exactFluxGradient gauss s (Problem.burgers.flux) u
  | _, p => fluxGradient p C u

/-- `CGRightHandSide.__call__` (cg.py 29-30), with the operators of `get_cg_right_hand_side`
(lines 33-43).  `solve` is `SystemMatrix.inverse` (core/system.py 56 and 73-75). -/
noncomputable def cgRhs (solve : SysMatrix K → List K → Except Error (List K))
    (gauss : ℕ → List (K × K)) (s : Space K) (M C : SysMatrix K) (problem : Problem) (exact : Bool)
    (u : List K) : Except Error (List K) :=
  match buildFluxGradient gauss s C problem exact u with
  | .error e => .error e
  | .ok a => solve M a

end Verif.FE
