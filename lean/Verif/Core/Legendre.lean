import Mathlib.Analysis.SpecialFunctions.Integrals.Basic
import Mathlib.Topology.Algebra.Polynomial
import Mathlib.Algebra.Polynomial.Div
import Mathlib.Tactic.FieldSimp
import Mathlib.Tactic.Ring

/-!
Monic Legendre polynomials by their three term recursion, their moments and orthogonality.  Helper
lemmas for the correctness of the Golub-Welsch algorithm.
-/

namespace Verif.Legendre

open Polynomial

/-- Mean value of a polynomial over `[-1, 1]`. -/
noncomputable def mean (p : ℝ[X]) : ℝ := (1 / 2) * ∫ x in (-1 : ℝ)..1, p.eval x

theorem intervalIntegrable (p : ℝ[X]) (a b : ℝ) :
    IntervalIntegrable (fun x => p.eval x) MeasureTheory.volume a b :=
  p.continuous.intervalIntegrable a b

theorem mean_add (p q : ℝ[X]) : mean (p + q) = mean p + mean q := by
  unfold mean
  simp only [eval_add]
  rw [intervalIntegral.integral_add (intervalIntegrable p _ _) (intervalIntegrable q _ _)]
  ring

theorem mean_sub (p q : ℝ[X]) : mean (p - q) = mean p - mean q := by
  unfold mean
  simp only [eval_sub]
  rw [intervalIntegral.integral_sub (intervalIntegrable p _ _) (intervalIntegrable q _ _)]
  ring

theorem mean_C_mul (c : ℝ) (p : ℝ[X]) : mean (C c * p) = c * mean p := by
  unfold mean
  simp only [eval_mul, eval_C]
  rw [intervalIntegral.integral_const_mul]
  ring

theorem mean_sum {ι : Type*} (s : Finset ι) (f : ι → ℝ[X]) :
    mean (∑ i ∈ s, f i) = ∑ i ∈ s, mean (f i) := by
  classical
  induction s using Finset.induction_on with
  | empty => simp [mean]
  | insert a s ha ih => rw [Finset.sum_insert ha, Finset.sum_insert ha, mean_add, ih]

theorem mean_X_pow (k : ℕ) : mean (X ^ k) = (1 - (-1) ^ (k + 1)) / (2 * (k + 1)) := by
  unfold mean
  simp only [eval_pow, eval_X]
  rw [integral_pow]
  have : (k : ℝ) + 1 ≠ 0 := by positivity
  field_simp
  ring

theorem mean_even (j : ℕ) : mean (X ^ (2 * j)) = 1 / (2 * j + 1) := by
  rw [mean_X_pow, pow_succ, pow_mul]
  have : (2 * (j : ℝ) + 1) ≠ 0 := by positivity
  push_cast
  field_simp
  norm_num

theorem mean_odd (j : ℕ) : mean (X ^ (2 * j + 1)) = 0 := by
  rw [mean_X_pow, show 2 * j + 1 + 1 = 2 * (j + 1) by ring, pow_mul]
  simp

/-- Squares of the recursion coefficients. -/
noncomputable def b (k : ℕ) : ℝ := (k : ℝ) ^ 2 / (4 * (k : ℝ) ^ 2 - 1)

/-- Monic Legendre polynomials. -/
noncomputable def mono : ℕ → ℝ[X]
  | 0 => 1
  | 1 => X
  | n + 2 => X * mono (n + 1) - C (b (n + 1)) * mono n

theorem mono_succ_succ (n : ℕ) : mono (n + 2) = X * mono (n + 1) - C (b (n + 1)) * mono n := rfl

/-- Closed form of the moments `mean (mono n * X ^ (n + 2 j))`. -/
noncomputable def moment (n j : ℕ) : ℝ :=
  4 ^ n * (n.factorial : ℝ) ^ 2 * (n + 2 * j).factorial * (n + j).factorial /
    ((2 * n).factorial * j.factorial * (2 * n + 2 * j + 1).factorial)

theorem moment_zero (j : ℕ) : moment 0 j = 1 / (2 * j + 1) := by
  unfold moment
  have h1 : ((2 * 0 + 2 * j + 1).factorial : ℝ) = (2 * j + 1) * (2 * j).factorial := by
    rw [show 2 * 0 + 2 * j + 1 = 2 * j + 1 by ring, Nat.factorial_succ]; push_cast; ring
  have h2 : (j.factorial : ℝ) ≠ 0 := by positivity
  have h3 : ((2 * j).factorial : ℝ) ≠ 0 := by positivity
  have h4 : (2 * (j : ℝ) + 1) ≠ 0 := by positivity
  rw [h1, Nat.zero_add, Nat.zero_add]
  simp only [pow_zero, Nat.factorial_zero, Nat.mul_zero, Nat.cast_one, one_pow, one_mul]
  field_simp

theorem moment_one (j : ℕ) : moment 1 j = 1 / (2 * j + 3) := by
  unfold moment
  have h1 : ((2 * 1 + 2 * j + 1).factorial : ℝ) =
      (2 * j + 3) * ((2 * j + 2) * (2 * j + 1).factorial) := by
    rw [show 2 * 1 + 2 * j + 1 = (2 * j + 1) + 1 + 1 by ring, Nat.factorial_succ, Nat.factorial_succ]
    push_cast; ring
  have h5 : ((1 + j).factorial : ℝ) = (j + 1) * j.factorial := by
    rw [show 1 + j = j + 1 by ring, Nat.factorial_succ]; push_cast; ring
  have h6 : ((1 + 2 * j).factorial : ℝ) = (2 * j + 1).factorial := by
    rw [show 1 + 2 * j = 2 * j + 1 by ring]
  have h2 : (j.factorial : ℝ) ≠ 0 := by positivity
  have h3 : ((2 * j + 1).factorial : ℝ) ≠ 0 := by positivity
  have h4 : (2 * (j : ℝ) + 3) ≠ 0 := by positivity
  have h7 : ((j : ℝ) + 1) ≠ 0 := by positivity
  have h8 : (2 * (j : ℝ) + 2) ≠ 0 := by positivity
  rw [h1, h5, h6]
  have h9 : ((2 * 1 : ℕ).factorial : ℝ) = 2 := by norm_num [Nat.factorial]
  rw [h9]
  simp only [Nat.factorial_one, Nat.cast_one, pow_one]
  field_simp
  ring

theorem b_succ (n : ℕ) : b (n + 1) = ((n : ℝ) + 1) ^ 2 / ((2 * n + 1) * (2 * n + 3)) := by
  unfold b
  push_cast
  congr 1
  ring

theorem moment_succ_succ (n j : ℕ) :
    moment (n + 2) j = moment (n + 1) (j + 1) - b (n + 1) * moment n (j + 1) := by
  rw [b_succ]
  unfold moment
  have e1 : ((n + 2).factorial : ℝ) = (n + 2) * ((n + 1) * n.factorial) := by
    rw [Nat.factorial_succ, Nat.factorial_succ]; push_cast; ring
  have e2 : ((n + 1).factorial : ℝ) = (n + 1) * n.factorial := by
    rw [Nat.factorial_succ]; push_cast; ring
  have e3 : ((2 * (n + 2)).factorial : ℝ) =
      (2 * n + 4) * ((2 * n + 3) * ((2 * n + 2) * ((2 * n + 1) * (2 * n).factorial))) := by
    rw [show 2 * (n + 2) = 2 * n + 1 + 1 + 1 + 1 by ring, Nat.factorial_succ, Nat.factorial_succ,
      Nat.factorial_succ, Nat.factorial_succ]
    push_cast; ring
  have e4 : ((2 * (n + 1)).factorial : ℝ) = (2 * n + 2) * ((2 * n + 1) * (2 * n).factorial) := by
    rw [show 2 * (n + 1) = 2 * n + 1 + 1 by ring, Nat.factorial_succ, Nat.factorial_succ]
    push_cast; ring
  have e5 : ((j + 1).factorial : ℝ) = (j + 1) * j.factorial := by
    rw [Nat.factorial_succ]; push_cast; ring
  have e6 : ((n + 1 + 2 * (j + 1)).factorial : ℝ) = (n + 2 * j + 3) * (n + 2 + 2 * j).factorial := by
    rw [show n + 1 + 2 * (j + 1) = (n + 2 + 2 * j) + 1 by ring, Nat.factorial_succ]; push_cast; ring
  have e7 : ((n + 2 * (j + 1)).factorial : ℝ) = (n + 2 + 2 * j).factorial := by
    rw [show n + 2 * (j + 1) = n + 2 + 2 * j by ring]
  have e8 : ((n + 2 + j).factorial : ℝ) = (n + j + 2) * (n + (j + 1)).factorial := by
    rw [show n + 2 + j = (n + (j + 1)) + 1 by ring, Nat.factorial_succ]; push_cast; ring
  have e9 : ((n + 1 + (j + 1)).factorial : ℝ) = (n + j + 2) * (n + (j + 1)).factorial := by
    rw [show n + 1 + (j + 1) = (n + (j + 1)) + 1 by ring, Nat.factorial_succ]; push_cast; ring
  have e10 : ((2 * (n + 2) + 2 * j + 1).factorial : ℝ) =
      (2 * n + 2 * j + 5) * ((2 * n + 2 * j + 4) * (2 * n + 2 * (j + 1) + 1).factorial) := by
    rw [show 2 * (n + 2) + 2 * j + 1 = (2 * n + 2 * (j + 1) + 1) + 1 + 1 by ring, Nat.factorial_succ,
      Nat.factorial_succ]
    push_cast; ring
  have e11 : ((2 * (n + 1) + 2 * (j + 1) + 1).factorial : ℝ) =
      (2 * n + 2 * j + 5) * ((2 * n + 2 * j + 4) * (2 * n + 2 * (j + 1) + 1).factorial) := by
    rw [show 2 * (n + 1) + 2 * (j + 1) + 1 = (2 * n + 2 * (j + 1) + 1) + 1 + 1 by ring,
      Nat.factorial_succ, Nat.factorial_succ]
    push_cast; ring
  rw [e1, e2, e3, e4, e5, e6, e7, e8, e9, e10, e11]
  have p1 : (n.factorial : ℝ) ≠ 0 := by positivity
  have p2 : ((2 * n).factorial : ℝ) ≠ 0 := by positivity
  have p3 : (j.factorial : ℝ) ≠ 0 := by positivity
  have p4 : ((n + 2 + 2 * j).factorial : ℝ) ≠ 0 := by positivity
  have p5 : ((n + (j + 1)).factorial : ℝ) ≠ 0 := by positivity
  have p6 : ((2 * n + 2 * (j + 1) + 1).factorial : ℝ) ≠ 0 := by positivity
  generalize (n.factorial : ℝ) = F1 at *
  generalize ((2 * n).factorial : ℝ) = F2 at *
  generalize (j.factorial : ℝ) = F3 at *
  generalize ((n + 2 + 2 * j).factorial : ℝ) = F4 at *
  generalize ((n + (j + 1)).factorial : ℝ) = F5 at *
  generalize ((2 * n + 2 * (j + 1) + 1).factorial : ℝ) = F6 at *
  have q1 : (2 * (n : ℝ) + 1) ≠ 0 := by positivity
  have q2 : (2 * (n : ℝ) + 2) ≠ 0 := by positivity
  have q3 : (2 * (n : ℝ) + 3) ≠ 0 := by positivity
  have q4 : (2 * (n : ℝ) + 4) ≠ 0 := by positivity
  have q5 : ((j : ℝ) + 1) ≠ 0 := by positivity
  have q6 : (2 * (n : ℝ) + 2 * j + 4) ≠ 0 := by positivity
  have q7 : (2 * (n : ℝ) + 2 * j + 5) ≠ 0 := by positivity
  field_simp
  ring

theorem moment_balance (n : ℕ) : moment (n + 1) 0 = b (n + 1) * moment n 0 := by
  rw [b_succ]
  unfold moment
  have e2 : ((n + 1).factorial : ℝ) = (n + 1) * n.factorial := by
    rw [Nat.factorial_succ]; push_cast; ring
  have e4 : ((2 * (n + 1)).factorial : ℝ) = (2 * n + 2) * ((2 * n + 1) * (2 * n).factorial) := by
    rw [show 2 * (n + 1) = 2 * n + 1 + 1 by ring, Nat.factorial_succ, Nat.factorial_succ]
    push_cast; ring
  have e5 : ((2 * (n + 1) + 2 * 0 + 1).factorial : ℝ) =
      (2 * n + 3) * ((2 * n + 2) * (2 * n + 2 * 0 + 1).factorial) := by
    rw [show 2 * (n + 1) + 2 * 0 + 1 = (2 * n + 2 * 0 + 1) + 1 + 1 by ring, Nat.factorial_succ,
      Nat.factorial_succ]
    push_cast; ring
  simp only [Nat.mul_zero, Nat.add_zero] at *
  rw [e2, e4, e5]
  have p1 : (n.factorial : ℝ) ≠ 0 := by positivity
  have p2 : ((2 * n).factorial : ℝ) ≠ 0 := by positivity
  have p3 : ((2 * n + 1).factorial : ℝ) ≠ 0 := by positivity
  generalize (n.factorial : ℝ) = F1 at *
  generalize ((2 * n).factorial : ℝ) = F2 at *
  generalize ((2 * n + 1).factorial : ℝ) = F3 at *
  have q1 : (2 * (n : ℝ) + 1) ≠ 0 := by positivity
  have q2 : (2 * (n : ℝ) + 2) ≠ 0 := by positivity
  have q3 : (2 * (n : ℝ) + 3) ≠ 0 := by positivity
  field_simp
  ring

theorem mean_step (n k : ℕ) : mean (mono (n + 2) * X ^ k) =
    mean (mono (n + 1) * X ^ (k + 1)) - b (n + 1) * mean (mono n * X ^ k) := by
  rw [mono_succ_succ, sub_mul, mean_sub, mul_assoc, mul_assoc, mean_C_mul]
  congr 2
  rw [pow_succ]; ring

/-- The moments of the monic Legendre polynomials. -/
theorem mean_mono (n : ℕ) : (∀ j, mean (mono n * X ^ (n + 2 * j)) = moment n j) ∧
    (∀ k, k < n → mean (mono n * X ^ k) = 0) ∧
    (∀ k, (n + k) % 2 = 1 → mean (mono n * X ^ k) = 0) := by
  induction n using Nat.strong_induction_on with
  | _ n ih =>
    match n, ih with
    | 0, _ =>
      refine ⟨?_, ?_, ?_⟩
      · intro j; rw [moment_zero, mono, one_mul, Nat.zero_add, mean_even]
      · intro k hk; omega
      · intro k hk
        rw [mono, one_mul, show k = 2 * (k / 2) + 1 by omega, mean_odd]
    | 1, _ =>
      refine ⟨?_, ?_, ?_⟩
      · intro j
        rw [moment_one, mono, ← pow_succ', show 1 + 2 * j + 1 = 2 * (j + 1) by ring, mean_even]
        push_cast; congr 1; ring
      · intro k hk
        have : k = 0 := by omega
        subst this
        rw [mono, pow_zero, mul_one]
        have := mean_odd 0
        simpa using this
      · intro k hk
        rw [mono, ← pow_succ', show k + 1 = 2 * (k / 2) + 1 by omega, mean_odd]
    | n + 2, ih =>
      obtain ⟨a1, b1, c1⟩ := ih (n + 1) (by omega)
      obtain ⟨a0, b0, c0⟩ := ih n (by omega)
      refine ⟨?_, ?_, ?_⟩
      · intro j
        rw [mean_step, moment_succ_succ, ← a1, ← a0,
          show n + 2 + 2 * j + 1 = n + 1 + 2 * (j + 1) by ring,
          show n + 2 + 2 * j = n + 2 * (j + 1) by ring]
      · intro k hk
        rw [mean_step]
        by_cases h1 : k < n
        · rw [b1 _ (by omega), b0 _ h1]; ring
        · by_cases h2 : k = n
          · subst h2
            have e1 := a1 0
            have e0 := a0 0
            rw [Nat.mul_zero, Nat.add_zero] at e1 e0
            rw [e1, e0, moment_balance, sub_self]
          · have : k = n + 1 := by omega
            subst this
            rw [c1 _ (by omega), c0 _ (by omega)]; ring
      · intro k hk
        rw [mean_step, c1 _ (by omega), c0 _ (by omega)]; ring

theorem mono_monic_degree (n : ℕ) : (mono n).Monic ∧ (mono n).natDegree = n := by
  induction n using Nat.strong_induction_on with
  | _ n ih =>
    match n, ih with
    | 0, _ => simp [mono]
    | 1, _ => exact ⟨monic_X, natDegree_X⟩
    | n + 2, ih =>
      obtain ⟨m1, d1⟩ := ih (n + 1) (by omega)
      obtain ⟨m0, d0⟩ := ih n (by omega)
      have hX : (X * mono (n + 1)).Monic := monic_X.mul m1
      have hd : (X * mono (n + 1)).natDegree = n + 2 := by
        rw [monic_X.natDegree_mul m1, natDegree_X, d1]; ring
      have hlt : (C (b (n + 1)) * mono n).degree < (X * mono (n + 1)).degree := by
        rw [degree_eq_natDegree hX.ne_zero, hd]
        refine lt_of_le_of_lt (degree_mul_le _ _) ?_
        have hc : (C (b (n + 1))).degree ≤ 0 := degree_C_le
        refine lt_of_le_of_lt (add_le_add_left hc _) ?_
        rw [zero_add, degree_eq_natDegree m0.ne_zero, d0]
        exact_mod_cast (by omega : n < n + 2)
      rw [mono_succ_succ]
      refine ⟨hX.sub_of_left hlt, ?_⟩
      rw [natDegree_sub_eq_left_of_natDegree_lt, hd]
      rw [hd]
      refine lt_of_le_of_lt (natDegree_C_mul_le _ _) ?_
      rw [d0]; omega

/-- Orthogonality. -/
theorem mean_mono_mul (n : ℕ) (q : ℝ[X]) (hq : q.natDegree < n) : mean (mono n * q) = 0 := by
  rw [q.as_sum_range_C_mul_X_pow, Finset.mul_sum, mean_sum]
  apply Finset.sum_eq_zero
  intro k hk
  rw [Finset.mem_range] at hk
  rw [← mul_assoc, mul_comm (mono n), mul_assoc, mean_C_mul, (mean_mono n).2.1 k (by omega), mul_zero]

/-- Each polynomial of degree below `n` is a combination of the first `n` of them. -/
theorem expand (n : ℕ) (p : ℝ[X]) (hp : p.degree < n) :
    ∃ c : ℕ → ℝ, p = ∑ k ∈ Finset.range n, C (c k) * mono k := by
  induction n generalizing p with
  | zero =>
    refine ⟨fun _ => 0, ?_⟩
    have : p = 0 := by
      rw [← degree_eq_bot]
      by_contra h
      have := natDegree_lt_iff_degree_lt (n := 0) (p := p) (by rintro rfl; simp at h)
      have := this.mpr (by exact_mod_cast hp)
      omega
    simp [this]
  | succ n ih =>
    obtain ⟨m, d⟩ := mono_monic_degree n
    set q := p - C (p.coeff n) * mono n with hq
    have hdeg : q.degree < n := by
      rw [degree_lt_iff_coeff_zero]
      intro k hk
      rw [hq, coeff_sub, coeff_C_mul]
      rcases Nat.eq_or_lt_of_le hk with h | h
      · subst h
        have : (mono n).coeff n = 1 := by
          have := m.coeff_natDegree; rwa [d] at this
        rw [this]; ring
      · rw [(degree_lt_iff_coeff_zero p (n + 1)).mp hp k h,
          coeff_eq_zero_of_natDegree_lt (p := mono n) (by rw [d]; exact h)]
        ring
    obtain ⟨c, hc⟩ := ih q hdeg
    refine ⟨fun k => if k = n then p.coeff n else c k, ?_⟩
    rw [Finset.sum_range_succ]
    beta_reduce
    rw [if_pos rfl]
    have : ∑ k ∈ Finset.range n, C (if k = n then p.coeff n else c k) * mono k = q := by
      rw [hc]
      apply Finset.sum_congr rfl
      intro k hk
      rw [Finset.mem_range] at hk
      rw [if_neg (by omega)]
    rw [this, hq]; ring

theorem mean_one : mean 1 = 1 := by
  have := mean_even 0
  simpa using this

end Verif.Legendre
