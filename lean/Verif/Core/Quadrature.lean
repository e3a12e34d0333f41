import Mathlib.Analysis.SpecialFunctions.Pow.Real
import Mathlib.Data.List.Sort
import Verif.Core.Mesh

/-!
Model of `core/quadrature.py`: Gauss quadrature by the Golub-Welsch algorithm and its transformation
to other intervals.
-/

set_option linter.unusedSectionVars false

namespace Verif.Quadrature

open Verif.Mesh

variable {K : Type*} [Field K] [LinearOrder K] [IsStrictOrderedRing K]

/-- Attributes of a `Quadrature` (lines 8-27): domain, and the pairs of nodes and weights, which are
lists of the same length in python. -/
structure Rule (K : Type*) where
  domain : Interval K
  points : List (K × K)

/-- `nodes`. -/
def Rule.nodes (Q : Rule K) : List K := Q.points.map Prod.fst

/-- `weights`. -/
def Rule.weights (Q : Rule K) : List K := Q.points.map Prod.snd

/-- `degree`, lines 25-27. -/
def Rule.degree (Q : Rule K) : ℕ := Q.nodes.length

/-- `np.dot` of two vectors of the same length. -/
def dot (a b : List K) : K := (List.zipWith (· * ·) a b).sum

/-- `integrate`, lines 75-78. -/
def Rule.integrate (Q : Rule K) (f : K → K) : K := dot Q.weights (Q.nodes.map f)

/-- The matrix `t` of lines 47-53: `beta[i]` next to the diagonal. -/
noncomputable def beta (i : ℕ) : ℝ := 1 / 2 * (1 - ((2 * ((i : ℝ) + 1)) ^ 2)⁻¹) ^ (-(1 / 2) : ℝ)

/-- The matrix `t` of lines 47-53. -/
noncomputable def jacobi (n : ℕ) : Matrix (Fin n) (Fin n) ℝ := fun i j =>
  if i.val + 1 = j.val then beta i else if j.val + 1 = i.val then beta j else 0

/-- Lines 56-61: weights `2 * v[0, i] ** 2`, sorted pairs.  `nodes` and `v` are the result of
`np.linalg.eig(t)`.  (`n = 0` is excluded by the assertion in line 42.) -/
noncomputable def nodesWeights (n : ℕ) (nodes : Fin (n + 1) → ℝ)
    (v : Matrix (Fin (n + 1)) (Fin (n + 1)) ℝ) : List (ℝ × ℝ) :=
  (List.ofFn (fun i => (nodes i, 2 * v 0 i ^ 2))).mergeSort
    (fun a b => decide (a.1 < b.1 ∨ (a.1 = b.1 ∧ a.2 ≤ b.2)))

/-- `SpecificGaussianQuadrature`, lines 34-78, with the pairs computed above. -/
def specific (points : List (K × K)) : Rule K := ⟨⟨-1, 1⟩, points⟩

/-- `GaussianQuadrature.__init__`, lines 87-115. -/
def gaussian (points : List (K × K)) (interval : Interval K) : Rule K :=
  if (⟨-1, 1⟩ : Interval K) = interval then ⟨interval, points⟩
  else
    let factor := (interval.b - interval.a) / 2
    let shift := (interval.a + interval.b) / 2
    ⟨interval, points.map (fun p => (factor * p.1 + shift, factor * p.2))⟩

/-- `LocalElementQuadrature`, lines 118-123. -/
def localElement (points : List (K × K)) : Rule K := gaussian points ⟨0, 1⟩

/-! ### Lemmas -/

theorem integrate_eq (Q : Rule K) (f : K → K) :
    Q.integrate f = (Q.points.map (fun p => p.2 * f p.1)).sum := by
  unfold Rule.integrate dot Rule.weights Rule.nodes
  rw [List.map_map, List.zipWith_map, List.zipWith_self]
  rfl

/-- The rule on another interval, in one formula. -/
theorem gaussian_eq (points : List (K × K)) (c : Interval K) :
    gaussian points c = ⟨c, points.map (fun p =>
      ((c.b - c.a) / 2 * p.1 + (c.a + c.b) / 2, (c.b - c.a) / 2 * p.2))⟩ := by
  unfold gaussian
  split
  · rename_i h
    subst h
    congr 1
    conv_lhs => rw [← List.map_id points]
    apply List.map_congr_left
    rintro ⟨x, w⟩ _
    simp only [id]
    ext <;> simp <;> ring
  · rfl

theorem gaussian_integrate (points : List (K × K)) (c : Interval K) (f : K → K) :
    (gaussian points c).integrate f = (c.b - c.a) / 2 *
      (specific points).integrate (fun x => f ((c.b - c.a) / 2 * x + (c.a + c.b) / 2)) := by
  rw [integrate_eq, integrate_eq, gaussian_eq, List.map_map]
  unfold specific
  simp only
  rw [← List.sum_map_mul_left]
  congr 1
  apply List.map_congr_left
  intro p _
  simp only [Function.comp]
  ring

end Verif.Quadrature
