import Verif.Core.FECG
import Verif.Props.FELow

/-!
Lemmas about the vectors of `L²` products and the continuous Galerkin right-hand side.
-/

set_option linter.unusedSectionVars false

namespace Verif.FE

open Verif.Py Polynomial
open Verif.Mesh hiding Error
open Verif.Quadrature
open Verif.Scalar

/-- Assembly with entries that do not raise. -/
theorem assembleVectorE_ok (g : IndexMap) (entry : ℕ → ℕ → Except Error ℝ) (e : ℕ → ℕ → ℝ)
    (h : ∀ c < g.meshSize, ∀ l ≤ g.degree, entry c l = .ok (e c l)) :
    assembleVectorE g entry = assembleVector g e := by
  have hL : ∀ q ∈ g.locals, q.1 < g.meshSize ∧ q.2 ≤ g.degree := by
    intro q hq
    unfold IndexMap.locals at hq
    simp only [List.mem_flatMap, List.mem_map, List.mem_range] at hq
    obtain ⟨c, hc, l, hl, rfl⟩ := hq
    exact ⟨hc, Nat.lt_succ_iff.mp hl⟩
  unfold assembleVectorE assembleVector
  generalize List.replicate g.dimension (0 : ℝ) = v0
  revert hL v0
  generalize g.locals = L
  induction L with
  | nil => intro _ v0; rfl
  | cons q L ih =>
    intro hL v0
    have hq := hL q (by simp)
    simp only [List.foldlM_cons, h q.1 hq.1 q.2 hq.2, bind, Except.bind]
    cases g.call q.1 q.2 with
    | error e => rfl
    | ok i =>
      simp only
      cases addAt v0 i (e q.1 q.2) with
      | error e => rfl
      | ok v1 => exact ih (fun q hq => hL q (by simp [hq])) v1

/-- Sum of the products of an assembled vector with another vector. -/
theorem assembled_product (g : IndexMap) (hp : 0 < g.degree) (e : ℕ → ℕ → ℝ) (w : ℕ → ℝ)
    (hw : ∀ k < g.dimension, w k = ∑ c ∈ Finset.range g.meshSize,
        ∑ l ∈ Finset.range (g.degree + 1), if g.idx c l = k then e c l else 0)
    (v : ℕ → ℝ) :
    ∑ k ∈ Finset.range g.dimension, w k * v k = ∑ c ∈ Finset.range g.meshSize,
      ∑ l ∈ Finset.range (g.degree + 1), e c l * v (g.idx c l) := by
  rw [Finset.sum_congr rfl fun k hk => by rw [hw k (Finset.mem_range.mp hk)]]
  simp only [Finset.sum_mul]
  rw [Finset.sum_comm]
  apply Finset.sum_congr rfl
  intro c hc
  rw [Finset.sum_comm]
  apply Finset.sum_congr rfl
  intro l hl
  exact sum_indicator _ v _ (idx_lt g c l (Finset.mem_range.mp hc)
    (Nat.lt_succ_iff.mp (Finset.mem_range.mp hl)) hp) _

theorem map_range_getD (L : List ℝ) (f : ℝ → ℝ) :
    ((List.range L.length).map fun i => f (L.getD i 0)) = L.map f := by
  apply List.ext_getElem
  · simp
  · intro i h1 h2
    have : i < L.length := by simpa using h2
    simp [List.getElem?_eq_getElem this]

/-- An entry for a polynomial left function. -/
theorem l2Entry_eq (gauss : ℕ → List (ℝ × ℝ)) (hg : IsGauss gauss) (N : ℕ) (hN : 0 < N) (s : Space ℝ)
    (hp : 0 < s.degree) (left : ℕ → ℕ → Except Error ℝ) (c l : ℕ) (hl : l ≤ s.degree) (q : ℝ[X])
    (hq : q.natDegree + s.degree ≤ 2 * N - 1)
    (hleft : ∀ i < (localElement (gauss N)).nodes.length,
      left c i = .ok (q.eval ((localElement (gauss N)).nodes.getD i 0))) :
    l2Entry gauss N s left c l =
      .ok ((s.cell c).length * ∫ x in (0 : ℝ)..1, (q * basis s.degree l).eval x) := by
  unfold l2Entry
  simp only
  rw [mapM_ok' _ (fun i => (s.cell c).length * q.eval ((localElement (gauss N)).nodes.getD i 0) *
    (basis s.degree l).eval ((localElement (gauss N)).nodes.getD i 0)) _ (by
      intro i hi
      simp only [hleft i (List.mem_range.mp hi), bind, Except.bind])]
  simp only [bind, Except.bind]
  rw [map_range_getD _ fun x => (s.cell c).length * q.eval x * (basis s.degree l).eval x]
  have h1 := integrate_exact gauss hg N hN (C (s.cell c).length * (q * basis s.degree l)) (by
    refine (natDegree_C_mul_le _ _).trans (natDegree_mul_le.trans ?_)
    have := natDegree_basis (K := ℝ) s.degree hp l hl
    omega)
  simp only [eval_mul, eval_C] at h1 ⊢
  simp only [mul_assoc]
  rw [h1, intervalIntegral.integral_const_mul]

/-- An entry with the derivative, for a polynomial left function. -/
theorem l2GradientEntry_eq (gauss : ℕ → List (ℝ × ℝ)) (hg : IsGauss gauss) (N : ℕ) (hN : 0 < N)
    (s : Space ℝ) (hp : 0 < s.degree) (left : ℕ → ℕ → Except Error ℝ) (c l : ℕ) (hl : l ≤ s.degree)
    (q : ℝ[X]) (hq : q.natDegree + (s.degree - 1) ≤ 2 * N - 1)
    (hleft : ∀ i < (localElement (gauss N)).nodes.length,
      left c i = .ok (q.eval ((localElement (gauss N)).nodes.getD i 0))) :
    l2GradientEntry gauss N s left c l =
      .ok (∫ x in (0 : ℝ)..1, (q * (basis s.degree l).derivative).eval x) := by
  unfold l2GradientEntry
  simp only
  rw [mapM_ok' _ (fun i => q.eval ((localElement (gauss N)).nodes.getD i 0) *
    (basis s.degree l).derivative.eval ((localElement (gauss N)).nodes.getD i 0)) _ (by
      intro i hi
      simp only [hleft i (List.mem_range.mp hi), bind, Except.bind])]
  simp only [bind, Except.bind]
  rw [map_range_getD _ fun x => q.eval x * (basis s.degree l).derivative.eval x]
  have h1 := integrate_exact gauss hg N hN (q * (basis s.degree l).derivative) (by
    refine natDegree_mul_le.trans ?_
    have := natDegree_basis (K := ℝ) s.degree hp l hl
    have := natDegree_derivative_le (basis (K := ℝ) s.degree l)
    omega)
  simp only [eval_mul] at h1 ⊢
  rw [h1]

theorem sum_poly_integral (p : ℕ) (v : ℕ → ℝ) (q : ℝ[X]) (D : ℕ → ℝ[X]) :
    ∑ l ∈ Finset.range (p + 1), (∫ x in (0 : ℝ)..1, (q * D l).eval x) * v l =
      ∫ x in (0 : ℝ)..1, (q * ∑ l ∈ Finset.range (p + 1), C (v l) * D l).eval x := by
  have h1 : ∀ x : ℝ, (q * ∑ l ∈ Finset.range (p + 1), C (v l) * D l).eval x =
      ∑ l ∈ Finset.range (p + 1), v l * (q * D l).eval x := by
    intro x
    rw [Finset.mul_sum, eval_finset_sum]
    apply Finset.sum_congr rfl
    intro l _
    simp only [eval_mul, eval_C]
    ring
  simp only [h1]
  rw [intervalIntegral.integral_finset_sum]
  · apply Finset.sum_congr rfl
    intro l _
    rw [intervalIntegral.integral_const_mul, mul_comm]
  · intro l _
    exact (intervalIntegrable_poly _ _ _).const_mul _

/-- Values in terms of the local polynomials. -/
theorem values_eq (s : Space ℝ) (hp : 0 < s.degree) {u : List ℝ} {U : ℕ → ℝ → ℝ} (hu : Values s u U)
    (c : ℕ) (hc : c < s.cells.length) (x : ℝ) :
    U c x = (s.poly u c).eval (affineInverse x (s.cell c)) := by
  have := hu.2 c hc x
  rw [value_eq s hp u hu.1 c hc] at this
  exact (Except.ok.inj this).symm

theorem derivatives_eq (s : Space ℝ) (hp : 0 < s.degree) {u : List ℝ} {U : ℕ → ℝ → ℝ}
    (hu : Derivatives s u U) (c : ℕ) (hc : c < s.cells.length) (x : ℝ) :
    U c x = affineInverseDerivative (s.cell c) *
      (s.poly u c).derivative.eval (affineInverse x (s.cell c)) := by
  have := hu.2 c hc x
  rw [derivative_eq s hp u hu.1 c hc] at this
  exact (Except.ok.inj this).symm

theorem derivatives_poly (s : Space ℝ) (hp : 0 < s.degree) (u : List ℝ)
    (hu : u.length = s.dimension) :
    Derivatives s u (fun c x => affineInverseDerivative (s.cell c) *
      (s.poly u c).derivative.eval (affineInverse x (s.cell c))) :=
  ⟨hu, fun c hc x => derivative_eq s hp u hu c hc x⟩

/-- Integral over a cell of a product with a derivative. -/
theorem integral_cell_derivative (I : Interval ℝ) (hI : I.a < I.b) (f g : ℝ → ℝ) :
    ∫ x in I.a..I.b, f (affineInverse x I) * (affineInverseDerivative I * g (affineInverse x I)) =
      ∫ x in (0 : ℝ)..1, f x * g x := by
  have hne : I.length ≠ 0 := by unfold Interval.length; intro h; linarith
  rw [integral_affineInverse I hI fun x => f x * (affineInverseDerivative I * g x)]
  have : ∀ x, f x * (affineInverseDerivative I * g x) = affineInverseDerivative I * (f x * g x) := by
    intro x; ring
  simp only [this]
  rw [intervalIntegral.integral_const_mul, ← mul_assoc]
  unfold affineInverseDerivative
  rw [mul_one_div_cancel hne, one_mul]

theorem affineInverse_affine (I : Interval ℝ) (hI : I.a < I.b) (x : ℝ) :
    affineInverse (affine x I) I = x := by
  have hne : I.length ≠ 0 := by unfold Interval.length; intro h; linarith
  unfold affine affineInverse
  field_simp
  ring

theorem natDegree_poly (s : Space ℝ) (hp : 0 < s.degree) (u : List ℝ) (c : ℕ) :
    (s.poly u c).natDegree ≤ s.degree := by
  unfold Space.poly
  apply natDegree_sum_le_of_forall_le
  intro l hl
  refine (natDegree_C_mul_le _ _).trans (natDegree_basis s.degree hp l ?_).le
  exact Nat.lt_succ_iff.mp (Finset.mem_range.mp hl)

theorem poly_derivative (s : Space ℝ) (u : List ℝ) (c : ℕ) :
    (s.poly u c).derivative = ∑ l ∈ Finset.range (s.degree + 1),
      C (u.getD (s.map.idx c l) 0) * (basis s.degree l).derivative := by
  unfold Space.poly
  rw [derivative_sum]
  simp

end Verif.FE
