import Mathlib.Algebra.BigOperators.Intervals
import Mathlib.Algebra.Polynomial.Derivative
import Mathlib.LinearAlgebra.Lagrange
import Verif.Core.FEIndex
import Verif.Core.Quadrature

/-!
Model of the finite element space (`finite_element/space.py`), of system matrices and their assembly
(`core/system.py`, `finite_element/system.py`), and of the matrices of `finite_element/mass.py`,
`lumped_mass.py`, `discrete_gradient.py`, `artificial_diffusion.py`, `flux_gradient.py`.

Matrices are functions of two indices together with their dimension; only entries within the
dimension are meaningful.
-/

set_option linter.unusedSectionVars false

namespace Verif.FE

open Verif.Py Polynomial
open Verif.Mesh hiding Error
open Verif.Quadrature

variable {K : Type} [Field K] [LinearOrder K] [IsStrictOrderedRing K]

/-! ### `core/system.py` -/

/-- `SystemMatrix` (core/system.py 46-110).  `lil` is `_lil_values`, `csr` is `_csr_values`, which does
not exist before `update_csr_values` is called. -/
structure SysMatrix (K : Type) where
  dimension : ℕ
  lil : ℕ → ℕ → K
  csr : Option (ℕ → ℕ → K)

/-- `SystemMatrix.__init__` (lines 53-57). -/
def SysMatrix.init (n : ℕ) : SysMatrix K := ⟨n, fun _ _ => 0, none⟩

/-- `update_csr_values` (lines 77-78). -/
def SysMatrix.updateCsr (A : SysMatrix K) : SysMatrix K := { A with csr := some A.lil }

/-- `__getitem__` (lines 80-81); negative indices do not occur and are reported as an error. -/
def SysMatrix.get (A : SysMatrix K) (i j : ℤ) : Except Error K :=
  if 0 ≤ i ∧ i < A.dimension ∧ 0 ≤ j ∧ j < A.dimension then .ok (A.lil i.toNat j.toNat)
  else .error .indexError

/-- `__setitem__` (lines 83-84). -/
def SysMatrix.set (A : SysMatrix K) (i j : ℤ) (x : K) : Except Error (SysMatrix K) :=
  if 0 ≤ i ∧ i < A.dimension ∧ 0 ≤ j ∧ j < A.dimension then
    .ok { A with lil := fun a b => if a = i.toNat ∧ b = j.toNat then x else A.lil a b }
  else .error .indexError

/-- Product of a matrix with a vector. -/
def mulVec (n : ℕ) (a : ℕ → ℕ → K) (v : List K) : List K :=
  (List.range n).map fun i => ∑ j ∈ Finset.range n, a i j * v.getD j 0

/-- `dot` (lines 95-96); the vector needs the dimension of the matrix. -/
def SysMatrix.dot (A : SysMatrix K) (v : List K) : Except Error (List K) :=
  match A.csr with
  | none => .error .attributeError
  | some a => if v.length = A.dimension then .ok (mulVec A.dimension a v) else .error .valueError

/-! ### `finite_element/system.py` -/

/-- `vector[i] += x`. -/
def addAt (v : List K) (i : ℤ) (x : K) : Except Error (List K) :=
  if 0 ≤ i ∧ i < v.length then .ok (v.modify i.toNat (· + x)) else .error .indexError

/-- `LocallyAssembledVector.__call__` (finite_element/system.py 34-43). -/
def assembleVector (g : IndexMap) (entry : ℕ → ℕ → K) : Except Error (List K) :=
  g.locals.foldlM (fun v q => do
    let i ← g.call q.1 q.2
    addAt v i (entry q.1 q.2)) (List.replicate g.dimension 0)

/-- `LocallyAssembledSystemMatrix.__init__`, `assemble` (finite_element/system.py 58-83). -/
def assembleMatrix (g : IndexMap) (entry : ℕ → ℕ → ℕ → K) : Except Error (SysMatrix K) := do
  let A ← g.pairs.foldlM (fun A q => do
    let i ← g.call q.1 q.2.1
    let j ← g.call q.1 q.2.2
    let old ← A.get i j
    A.set i j (old + entry q.1 q.2.1 q.2.2)) (SysMatrix.init g.dimension)
  .ok A.updateCsr

/-! ### `finite_element/space.py` -/

/-- `LocalLagrangeBasis._build_nodes` (finite_element/space.py 48-50). -/
def localNodes (p : ℕ) : List K := (List.range (p + 1)).map fun i : ℕ => (i : K) / p

/-- `scipy.interpolate.lagrange`: the sum over `j` of `w[j]` times the product over the other `k` of
`(X - x[k]) / (x[j] - x[k])`. -/
noncomputable def lagrange (x w : List K) : K[X] :=
  ∑ j ∈ Finset.range x.length, C (w.getD j 0) *
    ∏ k ∈ (Finset.range x.length).erase j,
      (X - C (x.getD k 0)) * C (1 / (x.getD j 0 - x.getD k 0))

/-- `_build_unit_vector` (lines 65-69). -/
def unitVector (n i : ℕ) : List K := (List.range n).map fun j => if j = i then 1 else 0

/-- `_create_local_finite_element` (lines 57-63): the basis polynomial; its derivative is
`interpolation.deriv()`. -/
noncomputable def basis (p i : ℕ) : K[X] := lagrange (localNodes p) (unitVector (p + 1) i)

/-- `LagrangeSpace` (lines 84-141) on the given cells; `domain.a` is used for the first node. -/
structure Space (K : Type) where
  domain : Interval K
  cells : List (Interval K)
  degree : ℕ

/-- `LagrangeSpace.__init__` (lines 91-96), the index mapping: always periodic. -/
def Space.map (s : Space K) : IndexMap := ⟨s.cells.length, s.degree, true⟩

/-- `LagrangeSpace.dimension` (lines 118-121). -/
def Space.dimension (s : Space K) : ℕ := s.cells.length * s.degree

/-- The cell with a given number. -/
def Space.cell (s : Space K) (c : ℕ) : Interval K := s.cells.getD c ⟨0, 0⟩

/-- `vector[i] = x`. -/
def setAt (v : List K) (i : ℤ) (x : K) : Except Error (List K) :=
  if 0 ≤ i ∧ i < v.length then .ok (v.set i.toNat x) else .error .indexError

/-- `_build_basis_nodes`, `_adjust_basis_nodes` (lines 98-116).  `np.empty` is uninitialised memory. -/
def Space.basisNodes (s : Space K) (empty : List K) : Except Error (List K) := do
  let v ← s.map.locals.foldlM (fun v q => do
    let i ← s.map.call q.1 q.2
    setAt v i (affine ((localNodes s.degree).getD q.2 0) (s.cell q.1))) empty
  setAt v 0 s.domain.a

/-- `LagrangeSpace(UniformMesh(domain, n), degree)`, as in `get_finite_element_solution`
(lines 336-343). -/
def Space.make (d : Interval K) (n : ℕ) (p : ℕ) : Except Error (Space K) :=
  match uniformMesh d n with
  | .error _ => .error .assertionError
  | .ok mesh => if 0 < p then .ok ⟨d, mesh.cells, p⟩ else .error .assertionError

/-- `LagrangeFiniteElement.__call__` (lines 165-175). -/
noncomputable def Space.value (s : Space K) (dofs : List K) (c : ℕ) (x : K) : Except Error K :=
  (List.range (s.degree + 1)).foldlM (fun v (l : ℕ) => do
    let i ← s.map.call c l
    let u ← Py.get dofs i
    .ok (v + u * (basis s.degree l).eval (affineInverse x (s.cell c)))) 0

/-- `LagrangeFiniteElement.derivative` (lines 177-190). -/
noncomputable def Space.derivative (s : Space K) (dofs : List K) (c : ℕ) (x : K) : Except Error K := do
  let v ← (List.range (s.degree + 1)).foldlM (fun v (l : ℕ) => do
    let i ← s.map.call c l
    let u ← Py.get dofs i
    .ok (v + u * (basis s.degree l).derivative.eval (affineInverse x (s.cell c)))) 0
  .ok (affineInverseDerivative (s.cell c) * v)

/-- `FastFiniteElement._build_local_dof_vector` (lines 271-278). -/
def Space.localDofs (s : Space K) (dofs : List K) (c : ℕ) : Except Error (List K) :=
  (List.range (s.degree + 1)).mapM fun l : ℕ => do
    let i ← s.map.call c l
    Py.get dofs i

/-- `FastFiniteElement.__call__` (lines 264-269) with the values that `set_values` (lines 256-258,
210-211) has stored for the given local points. -/
noncomputable def Space.fastValue (s : Space K) (points : List K) (dofs : List K) (c i : ℕ) :
    Except Error K := do
  let u ← s.localDofs dofs c
  let values ← (List.range (s.degree + 1)).mapM fun l : ℕ =>
    Py.get (points.map fun x => (basis s.degree l).eval x) i
  .ok (dot u values)

/-- `FastFiniteElement.derivative` (lines 280-289), with the stored derivatives (lines 260-262,
213-216). -/
noncomputable def Space.fastDerivative (s : Space K) (points : List K) (dofs : List K) (c i : ℕ) :
    Except Error K := do
  let u ← s.localDofs dofs c
  let values ← (List.range (s.degree + 1)).mapM fun l : ℕ =>
    Py.get (points.map fun x => (basis s.degree l).derivative.eval x) i
  .ok (affineInverseDerivative (s.cell c) * dot u values)

/-! ### Matrices

`gauss n` are the pairs of nodes and weights on `[-1, 1]` of the quadrature with `n` nodes. -/

/-- `MassEntryCalculator` (finite_element/mass.py 8-30). -/
noncomputable def massEntry (gauss : ℕ → List (K × K)) (s : Space K) (c i j : ℕ) : K :=
  let Q := localElement (gauss (s.degree + 1))
  dot Q.weights (Q.nodes.map fun x =>
    (s.cell c).length * (basis s.degree i).eval x * (basis s.degree j).eval x)

/-- `MassMatrix` (finite_element/mass.py 33-41). -/
noncomputable def massMatrix (gauss : ℕ → List (K × K)) (s : Space K) : Except Error (SysMatrix K) :=
  assembleMatrix s.map (massEntry gauss s)

/-- `LumpedMassVector` (finite_element/lumped_mass.py 7-21): the row sums. -/
noncomputable def lumpedMass (gauss : ℕ → List (K × K)) (s : Space K) : Except Error (List K) := do
  let M ← massMatrix gauss s
  .ok ((List.range M.dimension).map fun i => ∑ j ∈ Finset.range M.dimension, M.lil i j)

/-- `DiscreteGradientEntryCalculator` (finite_element/discrete_gradient.py 5-25). -/
noncomputable def gradientEntry (gauss : ℕ → List (K × K)) (s : Space K) (_c i j : ℕ) : K :=
  let Q := localElement (gauss s.degree)
  dot Q.weights (Q.nodes.map fun x =>
    (basis s.degree i).eval x * (basis s.degree j).derivative.eval x)

/-- `DiscreteGradient` (finite_element/discrete_gradient.py 28-38). -/
noncomputable def discreteGradient (gauss : ℕ → List (K × K)) (s : Space K) :
    Except Error (SysMatrix K) :=
  assembleMatrix s.map (gradientEntry gauss s)

/-- `tolil`, `setdiag(-values.sum(axis=1))`, `update_csr_values`
(finite_element/artificial_diffusion.py 28-32 and 59-63). -/
def withDiagonal (n : ℕ) (values : ℕ → ℕ → K) : SysMatrix K :=
  SysMatrix.updateCsr ⟨n, fun i j => if i = j then -∑ k ∈ Finset.range n, values i k else values i j,
    none⟩

/-- `DiscreteUpwind._build_values` (finite_element/artificial_diffusion.py 26-32). -/
def upwind (G : SysMatrix K) : SysMatrix K := withDiagonal G.dimension fun i j => |G.lil i j|

/-- `BurgersArtificialDiffusion.assemble` (finite_element/artificial_diffusion.py 54-63); the vector
needs the dimension of the matrix. -/
def burgersDiffusion (G : SysMatrix K) (u : List K) : Except Error (SysMatrix K) :=
  if u.length = G.dimension then
    let values := fun i j => |G.lil i j * u.getD j 0|
    .ok (withDiagonal G.dimension fun i j => max (values i j) (values j i))
  else .error .valueError

end Verif.FE
