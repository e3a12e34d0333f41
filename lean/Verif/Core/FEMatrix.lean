import Mathlib.Analysis.Calculus.Deriv.Polynomial
import Mathlib.MeasureTheory.Integral.IntervalIntegral.FundThmCalculus
import Verif.Core.FELemmas
import Verif.Props.Quadrature

/-!
Lemmas about the local integrals behind the finite element matrices.
-/

set_option linter.unusedSectionVars false

namespace Verif.FE

open Verif.Py Polynomial
open Verif.Mesh hiding Error
open Verif.Quadrature

/-- `gauss (n + 1)` are the nodes and weights that `LocalElementQuadrature` computes from an
eigendecomposition (core/quadrature.py), see C57. -/
def IsGauss (gauss : ℕ → List (ℝ × ℝ)) : Prop :=
  ∀ n, ∃ nodes v, EigResult (jacobi (n + 1)) nodes v ∧ gauss (n + 1) = nodesWeights n nodes v

/-- There is such a family of rules. -/
theorem exists_isGauss : ∃ gauss, IsGauss gauss := by
  have h : ∀ n, ∃ l : List (ℝ × ℝ), ∃ nodes v, EigResult (jacobi (n + 1)) nodes v ∧
      l = nodesWeights n nodes v := by
    intro n
    obtain ⟨nodes, v, h⟩ := C57_satisfiable (n + 1)
    exact ⟨_, nodes, v, h, rfl⟩
  choose f hf using h
  exact ⟨fun m => f (m - 1), fun n => by simpa using hf n⟩

theorem integrate_exact (gauss : ℕ → List (ℝ × ℝ)) (hg : IsGauss gauss) (m : ℕ) (hm : 0 < m)
    (q : ℝ[X]) (hq : q.natDegree ≤ 2 * m - 1) :
    dot (localElement (gauss m)).weights ((localElement (gauss m)).nodes.map fun x => q.eval x) =
      ∫ x in (0 : ℝ)..1, q.eval x := by
  obtain ⟨n, rfl⟩ : ∃ n, m = n + 1 := ⟨m - 1, by omega⟩
  obtain ⟨nodes, v, h1, h2⟩ := hg n
  have h3 := C56_exact _ _ (C57_gauss n nodes v h1).2.1 ⟨0, 1⟩ (by norm_num) q (by omega)
  rw [gaussian_eq] at h3
  rw [h2]
  unfold localElement
  rw [gaussian_eq]
  exact h3

theorem integral_affineInverse (I : Interval ℝ) (hI : I.a < I.b) (f : ℝ → ℝ) :
    ∫ x in I.a..I.b, f (affineInverse x I) = I.length * ∫ x in (0 : ℝ)..1, f x := by
  have hne : I.length ≠ 0 := by unfold Interval.length; intro h; linarith
  have h1 : ∀ x, affineInverse x I = x / I.length - I.a / I.length := by
    intro x; unfold affineInverse; rw [sub_div]
  simp only [h1]
  rw [intervalIntegral.integral_comp_div_sub f hne]
  have h2 : I.a / I.length - I.a / I.length = 0 := sub_self _
  have h3 : I.b / I.length - I.a / I.length = 1 := by
    rw [← sub_div]
    unfold Interval.length at hne ⊢
    exact div_self hne
  rw [h2, h3, smul_eq_mul]

theorem intervalIntegrable_poly (q : ℝ[X]) (a b : ℝ) :
    IntervalIntegrable (fun x => q.eval x) MeasureTheory.volume a b :=
  q.continuous.intervalIntegrable a b

theorem integral_derivative (q : ℝ[X]) : ∫ x in (0 : ℝ)..1, q.derivative.eval x =
    q.eval 1 - q.eval 0 :=
  intervalIntegral.integral_eq_sub_of_hasDerivAt (fun x _ => q.hasDerivAt x)
    (intervalIntegrable_poly _ 0 1)

/-- The local mass entry in terms of an integral over the reference cell. -/
theorem massEntry_eq (gauss : ℕ → List (ℝ × ℝ)) (hg : IsGauss gauss) (s : Space ℝ)
    (hp : 0 < s.degree) (c i j : ℕ) (hi : i ≤ s.degree) (hj : j ≤ s.degree) :
    massEntry gauss s c i j =
      (s.cell c).length * ∫ x in (0 : ℝ)..1, (basis s.degree i * basis s.degree j).eval x := by
  unfold massEntry
  simp only
  have h := integrate_exact gauss hg (s.degree + 1) (by omega)
    (C (s.cell c).length * (basis s.degree i * basis s.degree j)) (by
      refine le_trans (natDegree_C_mul_le _ _) (le_trans natDegree_mul_le ?_)
      rw [natDegree_basis _ hp i hi, natDegree_basis _ hp j hj]
      omega)
  simp only [eval_mul, eval_C] at h ⊢
  rw [intervalIntegral.integral_const_mul] at h
  rw [← h]
  simp only [mul_assoc]

/-- The local entry of the discrete gradient in terms of an integral over the reference cell. -/
theorem gradientEntry_eq (gauss : ℕ → List (ℝ × ℝ)) (hg : IsGauss gauss) (s : Space ℝ)
    (hp : 0 < s.degree) (c i j : ℕ) (hi : i ≤ s.degree) (hj : j ≤ s.degree) :
    gradientEntry gauss s c i j =
      ∫ x in (0 : ℝ)..1, (basis s.degree i * (basis s.degree j).derivative).eval x := by
  unfold gradientEntry
  simp only
  have h := integrate_exact gauss hg s.degree hp (basis s.degree i * (basis s.degree j).derivative)
    (by
      have h1 := natDegree_derivative_le (basis (K := ℝ) s.degree j)
      rw [natDegree_basis _ hp j hj] at h1
      refine le_trans natDegree_mul_le ?_
      rw [natDegree_basis _ hp i hi]
      omega)
  rw [← h]
  simp only [eval_mul]

theorem eval_basis_zero (p : ℕ) (hp : 0 < p) (i : ℕ) (hi : i ≤ p) :
    (basis (K := ℝ) p i).eval 0 = if i = 0 then 1 else 0 := by
  have := eval_basis (K := ℝ) p hp i 0 hi (Nat.zero_le _)
  simp only [Nat.cast_zero, zero_div] at this
  rw [this]
  simp [eq_comm]

theorem eval_basis_one (p : ℕ) (hp : 0 < p) (i : ℕ) (hi : i ≤ p) :
    (basis (K := ℝ) p i).eval 1 = if i = p then 1 else 0 := by
  have := eval_basis (K := ℝ) p hp i p hi le_rfl
  rw [div_self (Nat.cast_ne_zero.mpr hp.ne')] at this
  rw [this]
  simp [eq_comm]

/-- Integration by parts on the reference cell. -/
theorem gradientEntry_add (gauss : ℕ → List (ℝ × ℝ)) (hg : IsGauss gauss) (s : Space ℝ)
    (hp : 0 < s.degree) (c i j : ℕ) (hi : i ≤ s.degree) (hj : j ≤ s.degree) :
    gradientEntry gauss s c i j + gradientEntry gauss s c j i =
      (if i = s.degree ∧ j = s.degree then 1 else 0) - (if i = 0 ∧ j = 0 then 1 else 0) := by
  rw [gradientEntry_eq gauss hg s hp c i j hi hj, gradientEntry_eq gauss hg s hp c j i hj hi,
    ← intervalIntegral.integral_add (intervalIntegrable_poly _ 0 1) (intervalIntegrable_poly _ 0 1)]
  have : ∀ x : ℝ, (basis s.degree i * (basis s.degree j).derivative).eval x +
      (basis s.degree j * (basis s.degree i).derivative).eval x =
      (basis s.degree i * basis s.degree j).derivative.eval x := by
    intro x
    rw [derivative_mul]
    simp only [eval_add, eval_mul]
    ring
  simp only [this]
  rw [integral_derivative]
  simp only [eval_mul, eval_basis_zero _ hp i hi, eval_basis_zero _ hp j hj,
    eval_basis_one _ hp i hi, eval_basis_one _ hp j hj]
  by_cases h1 : i = s.degree <;> by_cases h2 : j = s.degree <;> by_cases h3 : i = 0 <;>
    by_cases h4 : j = 0 <;> simp [h1, h2, h3, h4]

theorem idx_right (g : IndexMap) (hp : 0 < g.degree) (hper : g.periodic = true) (c : ℕ) :
    g.idx c g.degree = if c + 1 = g.meshSize then 0 else g.idx (c + 1) 0 := by
  unfold IndexMap.idx
  by_cases h : c + 1 = g.meshSize
  · rw [if_pos h, if_pos (by simp [h, hper])]
  · rw [if_neg h, if_neg (by tauto), if_neg (by omega)]
    ring

theorem idx_zero_zero (g : IndexMap) (hp : 0 < g.degree) : g.idx 0 0 = 0 := by
  unfold IndexMap.idx
  rw [if_neg (by omega)]
  omega

/-- On a periodic mesh the right ends of the cells are the left ends of the cells. -/
theorem sum_ends (g : IndexMap) (hp : 0 < g.degree) (hper : g.periodic = true) (f : ℕ → ℝ) :
    ∑ c ∈ Finset.range g.meshSize, f (g.idx c g.degree) =
      ∑ c ∈ Finset.range g.meshSize, f (g.idx c 0) := by
  rcases Nat.eq_zero_or_pos g.meshSize with h0 | h0
  · rw [h0]; simp
  obtain ⟨n, hn⟩ : ∃ n, g.meshSize = n + 1 := ⟨g.meshSize - 1, by omega⟩
  rw [hn, Finset.sum_range_succ, Finset.sum_range_succ' (fun c => f (g.idx c 0)), idx_right g hp hper n,
    if_pos (by omega), idx_zero_zero g hp]
  congr 1
  apply Finset.sum_congr rfl
  intro c hc
  rw [idx_right g hp hper c, if_neg (by have := Finset.mem_range.mp hc; omega)]

/-- Sum of the indicators of the two ends over the local index pairs. -/
theorem sum_pair_indicator (p a : ℕ) (ha : a ≤ p) (f : ℕ → ℕ → ℝ) :
    ∑ l ∈ Finset.range (p + 1), ∑ l' ∈ Finset.range (p + 1),
      (if l = a ∧ l' = a then f l l' else 0) = f a a := by
  have h : ∀ l ∈ Finset.range (p + 1), ∑ l' ∈ Finset.range (p + 1),
      (if l = a ∧ l' = a then f l l' else 0) = if l = a then f a a else 0 := by
    intro l _
    by_cases hl : l = a
    · simp only [hl, true_and, if_true]
      rw [Finset.sum_ite_eq' (Finset.range (p + 1)) a]
      simp [Nat.lt_succ_of_le ha]
    · simp [hl]
  rw [Finset.sum_congr rfl h, Finset.sum_ite_eq' (Finset.range (p + 1)) a]
  simp [Nat.lt_succ_of_le ha]

theorem mass_spec (gauss : ℕ → List (ℝ × ℝ)) (s : Space ℝ) (hp : 0 < s.degree) :
    ∃ M, massMatrix gauss s = .ok M ∧ M.dimension = s.dimension ∧ M.csr = some M.lil ∧
      ∀ i j, M.lil i j = ∑ c ∈ Finset.range s.cells.length, ∑ l ∈ Finset.range (s.degree + 1),
        ∑ l' ∈ Finset.range (s.degree + 1),
          if s.map.idx c l = i ∧ s.map.idx c l' = j then massEntry gauss s c l l' else 0 := by
  obtain ⟨A, h1, h2, h3, h4⟩ := assembleMatrix_spec s.map hp (massEntry gauss s)
  exact ⟨A, h1, by rw [h2, map_dimension], h3, h4⟩

theorem gradient_spec (gauss : ℕ → List (ℝ × ℝ)) (s : Space ℝ) (hp : 0 < s.degree) :
    ∃ A, discreteGradient gauss s = .ok A ∧ A.dimension = s.dimension ∧ A.csr = some A.lil ∧
      ∀ i j, A.lil i j = ∑ c ∈ Finset.range s.cells.length, ∑ l ∈ Finset.range (s.degree + 1),
        ∑ l' ∈ Finset.range (s.degree + 1),
          if s.map.idx c l = i ∧ s.map.idx c l' = j then gradientEntry gauss s c l l' else 0 := by
  obtain ⟨A, h1, h2, h3, h4⟩ := assembleMatrix_spec s.map hp (gradientEntry gauss s)
  exact ⟨A, h1, by rw [h2, map_dimension], h3, h4⟩

theorem gradient_antisymm (gauss : ℕ → List (ℝ × ℝ)) (hg : IsGauss gauss) (s : Space ℝ)
    (hp : 0 < s.degree) (A : SysMatrix ℝ) (hA : discreteGradient gauss s = .ok A) (i j : ℕ) :
    A.lil j i = -A.lil i j := by
  obtain ⟨A', h1, -, -, h4⟩ := gradient_spec gauss s hp
  obtain rfl : A' = A := Except.ok.inj (h1.symm.trans hA)
  rw [eq_neg_iff_add_eq_zero, add_comm, h4 i j, h4 j i, ← Finset.sum_add_distrib]
  have hcell : ∀ c ∈ Finset.range s.cells.length,
      ((∑ l ∈ Finset.range (s.degree + 1), ∑ l' ∈ Finset.range (s.degree + 1),
          if s.map.idx c l = i ∧ s.map.idx c l' = j then gradientEntry gauss s c l l' else 0) +
        ∑ l ∈ Finset.range (s.degree + 1), ∑ l' ∈ Finset.range (s.degree + 1),
          if s.map.idx c l = j ∧ s.map.idx c l' = i then gradientEntry gauss s c l l' else 0) =
      (fun k => if k = i ∧ k = j then (1 : ℝ) else 0) (s.map.idx c s.degree) -
        (fun k => if k = i ∧ k = j then (1 : ℝ) else 0) (s.map.idx c 0) := by
    intro c _
    rw [Finset.sum_comm (f := fun l l' => if s.map.idx c l = j ∧ s.map.idx c l' = i then
      gradientEntry gauss s c l l' else 0), ← Finset.sum_add_distrib]
    have h5 : ∀ l ∈ Finset.range (s.degree + 1),
        ((∑ l' ∈ Finset.range (s.degree + 1),
          if s.map.idx c l = i ∧ s.map.idx c l' = j then gradientEntry gauss s c l l' else 0) +
        ∑ l' ∈ Finset.range (s.degree + 1),
          if s.map.idx c l' = j ∧ s.map.idx c l = i then gradientEntry gauss s c l' l else 0) =
        (∑ l' ∈ Finset.range (s.degree + 1), if l = s.degree ∧ l' = s.degree then
          (if s.map.idx c l = i ∧ s.map.idx c l' = j then (1 : ℝ) else 0) else 0) -
        ∑ l' ∈ Finset.range (s.degree + 1), if l = 0 ∧ l' = 0 then
          (if s.map.idx c l = i ∧ s.map.idx c l' = j then (1 : ℝ) else 0) else 0 := by
      intro l hl
      rw [← Finset.sum_add_distrib, ← Finset.sum_sub_distrib]
      apply Finset.sum_congr rfl
      intro l' hl'
      have e := gradientEntry_add gauss hg s hp c l l'
        (Nat.lt_succ_iff.mp (Finset.mem_range.mp hl)) (Nat.lt_succ_iff.mp (Finset.mem_range.mp hl'))
      by_cases hij : s.map.idx c l = i ∧ s.map.idx c l' = j
      · rw [if_pos hij, if_pos ⟨hij.2, hij.1⟩, if_pos hij, e]
      · rw [if_neg hij, if_neg (fun h => hij ⟨h.2, h.1⟩), if_neg hij]
        simp
    rw [Finset.sum_congr rfl h5, Finset.sum_sub_distrib,
      sum_pair_indicator s.degree s.degree le_rfl
        (fun l l' => if s.map.idx c l = i ∧ s.map.idx c l' = j then (1 : ℝ) else 0),
      sum_pair_indicator s.degree 0 (Nat.zero_le _)
        (fun l l' => if s.map.idx c l = i ∧ s.map.idx c l' = j then (1 : ℝ) else 0)]
  rw [Finset.sum_congr rfl hcell, Finset.sum_sub_distrib]
  have := sum_ends s.map hp rfl (fun k => if k = i ∧ k = j then (1 : ℝ) else 0)
  exact sub_eq_zero.mpr this

/-- Rows of an assembled matrix. -/
theorem assembled_row (g : IndexMap) (hp : 0 < g.degree) (entry : ℕ → ℕ → ℕ → ℝ) (A : ℕ → ℕ → ℝ)
    (hA : ∀ i j, A i j = ∑ c ∈ Finset.range g.meshSize, ∑ l ∈ Finset.range (g.degree + 1),
        ∑ l' ∈ Finset.range (g.degree + 1),
          if g.idx c l = i ∧ g.idx c l' = j then entry c l l' else 0) (v : ℕ → ℝ) (i : ℕ) :
    ∑ j ∈ Finset.range g.dimension, A i j * v j =
      ∑ c ∈ Finset.range g.meshSize, ∑ l ∈ Finset.range (g.degree + 1), if g.idx c l = i then
        ∑ l' ∈ Finset.range (g.degree + 1), entry c l l' * v (g.idx c l') else 0 := by
  simp only [hA, Finset.sum_mul]
  rw [Finset.sum_comm]
  apply Finset.sum_congr rfl
  intro c hc
  rw [Finset.sum_comm]
  apply Finset.sum_congr rfl
  intro l _
  rw [Finset.sum_comm]
  by_cases hi : g.idx c l = i
  · rw [if_pos hi]
    apply Finset.sum_congr rfl
    intro l' hl'
    have hlt := idx_lt g c l' (Finset.mem_range.mp hc)
      (Nat.lt_succ_iff.mp (Finset.mem_range.mp hl')) hp
    simp only [hi, true_and]
    exact sum_indicator g.dimension v (g.idx c l') hlt (entry c l l')
  · simp [hi]

/-- The local bilinear form of polynomials expanded in the basis. -/
theorem sum_basis_integral (p : ℕ) (u v : ℕ → ℝ) (D : ℕ → ℝ[X]) (E : ℕ → ℝ[X]) :
    ∑ l ∈ Finset.range (p + 1), ∑ l' ∈ Finset.range (p + 1),
      u l * (∫ x in (0 : ℝ)..1, (D l * E l').eval x) * v l' =
    ∫ x in (0 : ℝ)..1, ((∑ l ∈ Finset.range (p + 1), C (u l) * D l) *
      ∑ l' ∈ Finset.range (p + 1), C (v l') * E l').eval x := by
  have h1 : ∀ x : ℝ, ((∑ l ∈ Finset.range (p + 1), C (u l) * D l) *
      ∑ l' ∈ Finset.range (p + 1), C (v l') * E l').eval x =
      ∑ l ∈ Finset.range (p + 1), ∑ l' ∈ Finset.range (p + 1),
        u l * v l' * (D l * E l').eval x := by
    intro x
    rw [Finset.sum_mul_sum, eval_finset_sum]
    apply Finset.sum_congr rfl
    intro l _
    rw [eval_finset_sum]
    apply Finset.sum_congr rfl
    intro l' _
    simp only [eval_mul, eval_C]
    ring
  simp only [h1]
  rw [intervalIntegral.integral_finset_sum]
  · apply Finset.sum_congr rfl
    intro l _
    rw [intervalIntegral.integral_finset_sum]
    · apply Finset.sum_congr rfl
      intro l' _
      rw [intervalIntegral.integral_const_mul]
      ring
    · intro l' _
      exact (intervalIntegrable_poly _ 0 1).const_mul _
  · intro l _
    apply Continuous.intervalIntegrable
    fun_prop

end Verif.FE
