import Mathlib.Analysis.SpecialFunctions.Integrals.Basic
import Mathlib.Data.Rat.BigOperators
import Verif.Core.FEMatrix

/-!
Integrals of the local Lagrange basis: the weights of the closed Newton-Cotes rules.
-/

set_option linter.unusedSectionVars false

namespace Verif.FE

open Polynomial

/-- The weights integrate the monomials up to degree `p` exactly over `[0, 1]`. -/
def Integrates (p : ℕ) (w : List ℚ) : Prop :=
  ∀ m ∈ Finset.range (p + 1),
    ∑ k ∈ Finset.range (p + 1), w.getD k 0 * ((k : ℚ) / p) ^ m = 1 / ((m : ℚ) + 1)

instance (p : ℕ) (w : List ℚ) : Decidable (Integrates p w) := by unfold Integrates; infer_instance

/-- Weights that integrate the monomials are the integrals of the basis polynomials. -/
theorem integral_basis (p : ℕ) (hp : 0 < p) (w : List ℚ) (hw : Integrates p w) (i : ℕ) (hi : i ≤ p) :
    ∫ x in (0 : ℝ)..1, (basis p i).eval x = ((w.getD i 0 : ℚ) : ℝ) := by
  have hint : ∀ q : ℝ[X], q.natDegree ≤ p → ∫ x in (0 : ℝ)..1, q.eval x =
      ∑ k ∈ Finset.range (p + 1), ((w.getD k 0 : ℚ) : ℝ) * q.eval ((k : ℝ) / p) := by
    intro q hq
    have hq' : ∀ x : ℝ, q.eval x = ∑ m ∈ Finset.range (p + 1), q.coeff m * x ^ m := fun x =>
      eval_eq_sum_range' (Nat.lt_succ_of_le hq) x
    simp only [hq']
    rw [intervalIntegral.integral_finset_sum
      (fun m _ => (Continuous.intervalIntegrable (by fun_prop) 0 1))]
    simp only [Finset.mul_sum]
    rw [Finset.sum_comm]
    apply Finset.sum_congr rfl
    intro m hm
    rw [intervalIntegral.integral_const_mul, integral_pow]
    have h1 : ((∑ k ∈ Finset.range (p + 1), w.getD k 0 * ((k : ℚ) / p) ^ m : ℚ) : ℝ) =
        ((1 / ((m : ℚ) + 1) : ℚ) : ℝ) := by rw [hw m hm]
    push_cast at h1
    have h2 : ∑ k ∈ Finset.range (p + 1), ((w.getD k 0 : ℚ) : ℝ) *
        (q.coeff m * ((k : ℝ) / p) ^ m) = q.coeff m * (1 / ((m : ℝ) + 1)) := by
      rw [← h1, Finset.mul_sum]
      apply Finset.sum_congr rfl
      intro k _
      ring
    rw [h2]
    simp
  rw [hint _ (natDegree_basis p hp i hi).le, Finset.sum_eq_single i]
  · rw [eval_basis p hp i i hi hi]; simp
  · intro k hk hki
    rw [eval_basis p hp i k hi (Nat.lt_succ_iff.mp (Finset.mem_range.mp hk)), if_neg hki, mul_zero]
  · intro h; exact absurd (Finset.mem_range.mpr (by omega)) h

/-- The weights for the degrees one to nine. -/
def newtonCotes : ℕ → List ℚ
  | 1 => [1/2, 1/2]
  | 2 => [1/6, 2/3, 1/6]
  | 3 => [1/8, 3/8, 3/8, 1/8]
  | 4 => [7/90, 16/45, 2/15, 16/45, 7/90]
  | 5 => [19/288, 25/96, 25/144, 25/144, 25/96, 19/288]
  | 6 => [41/840, 9/35, 9/280, 34/105, 9/280, 9/35, 41/840]
  | 7 => [751/17280, 3577/17280, 49/640, 2989/17280, 2989/17280, 49/640, 3577/17280, 751/17280]
  | 8 => [989/28350, 2944/14175, -464/14175, 5248/14175, -454/2835, 5248/14175, -464/14175,
      2944/14175, 989/28350]
  | 9 => [2857/89600, 15741/89600, 27/2240, 1209/5600, 2889/44800, 2889/44800, 1209/5600, 27/2240,
      15741/89600, 2857/89600]
  | _ => []

theorem newtonCotes_integrates (p : ℕ) (hp : 0 < p) (hp' : p ≤ 9) : Integrates p (newtonCotes p) := by
  have h : ∀ q ∈ Finset.Icc 1 9, Integrates q (newtonCotes q) := by decide +kernel
  exact h p (Finset.mem_Icc.mpr ⟨hp, hp'⟩)

theorem integral_basis_pos (p : ℕ) (hp : 0 < p) (hp' : p ≤ 7 ∨ p = 9) (i : ℕ) (hi : i ≤ p) :
    0 < ∫ x in (0 : ℝ)..1, (basis p i).eval x := by
  rw [integral_basis p hp _ (newtonCotes_integrates p hp (by omega)) i hi]
  have h : ∀ q ∈ Finset.Icc 1 9, q ≠ 8 → ∀ k ∈ Finset.range (q + 1), 0 < (newtonCotes q).getD k 0 := by
    decide +kernel
  exact_mod_cast h p (Finset.mem_Icc.mpr ⟨hp, by omega⟩) (by omega) i (Finset.mem_range.mpr (by omega))

theorem integral_basis_eight : ∫ x in (0 : ℝ)..1, (basis 8 2).eval x = -464 / 14175 := by
  rw [integral_basis 8 (by norm_num) _ (newtonCotes_integrates 8 (by norm_num) (by norm_num)) 2
    (by norm_num)]
  norm_num [newtonCotes]

end Verif.FE
