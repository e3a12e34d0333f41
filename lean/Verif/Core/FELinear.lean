import Verif.Props.FEMCL

/-!
Matrices of linear elements on periodic uniform meshes: lumped mass and discrete gradient
(`finite_element/lumped_mass.py`, `finite_element/discrete_gradient.py` for polynomial degree one).
-/

set_option linter.unusedSectionVars false

namespace Verif.FE

open Verif.Py Polynomial
open Verif.Mesh hiding Error
open Verif.Quadrature
open Verif.Scalar
open Verif.ODE

theorem basis_one_zero : basis (K := ℝ) 1 0 = 1 - X := by
  have h := eq_sum_basis (K := ℝ) 1 one_pos (1 - X) (by
    refine (natDegree_sub_le _ _).trans ?_
    simp)
  rw [h]
  simp [Finset.sum_range_succ]

theorem basis_one_one : basis (K := ℝ) 1 1 = X := by
  have h := eq_sum_basis (K := ℝ) 1 one_pos X (by simp)
  conv_rhs => rw [h]
  simp [Finset.sum_range_succ]

theorem linear_entries (gauss : ℕ → List (ℝ × ℝ)) (hg : IsGauss gauss) (s : Space ℝ)
    (hs : s.degree = 1) (c : ℕ) :
    gradientEntry gauss s c 0 0 = -1 / 2 ∧ gradientEntry gauss s c 0 1 = 1 / 2 ∧
    gradientEntry gauss s c 1 0 = -1 / 2 ∧ gradientEntry gauss s c 1 1 = 1 / 2 := by
  have hp : 0 < s.degree := by omega
  have i1 : ∫ x in (0 : ℝ)..1, (1 - x) = 1 / 2 := by
    rw [intervalIntegral.integral_sub (by simp) (by simp)]
    simp; norm_num
  refine ⟨?_, ?_, ?_, ?_⟩ <;> rw [gradientEntry_eq gauss hg s hp c _ _ (by omega) (by omega), hs]
  · rw [basis_one_zero]
    simp only [derivative_sub, derivative_one, derivative_X, zero_sub, eval_mul, eval_sub, eval_one,
      eval_X, eval_neg, mul_neg, mul_one, intervalIntegral.integral_neg, i1]
    norm_num
  · rw [basis_one_zero, basis_one_one]
    simp only [derivative_X, eval_mul, eval_sub, eval_one, eval_X, mul_one, i1]
  · rw [basis_one_zero, basis_one_one]
    simp only [derivative_sub, derivative_one, derivative_X, zero_sub, eval_mul, eval_one,
      eval_X, eval_neg, mul_neg, mul_one]
    rw [intervalIntegral.integral_neg, integral_id]
    norm_num
  · rw [basis_one_one]
    simp

theorem linear_integrals (l : ℕ) (hl : l ≤ 1) : ∫ x in (0 : ℝ)..1, (basis 1 l).eval x = 1 / 2 := by
  have : l = 0 ∨ l = 1 := by omega
  rcases this with rfl | rfl
  · rw [basis_one_zero]
    simp only [eval_sub, eval_one, eval_X]
    rw [intervalIntegral.integral_sub (by simp) (by simp)]
    simp; norm_num
  · rw [basis_one_one]
    simp

/-- The nodes of a cell of linear elements. -/
theorem linear_idx (s : Space ℝ) (hs : s.degree = 1) (c : ℕ) (hc : c < s.cells.length) :
    s.map.idx c 0 = c ∧ s.map.idx c 1 = (c + 1) % s.cells.length := by
  unfold IndexMap.idx
  simp only [Space.map, hs]
  constructor
  · simp
  · by_cases h : c + 1 = s.cells.length
    · simp [h]
    · rw [if_neg (by tauto), Nat.mod_eq_of_lt (by omega)]
      simp

/-- The left neighbour on the periodic mesh. -/
theorem succ_mod_eq (n i : ℕ) (hi : i < n) (c : ℕ) (hc : c < n) :
    (c + 1) % n = i ↔ c = (i + n - 1) % n := by
  by_cases h : c + 1 = n
  · subst h
    rw [Nat.mod_self]
    constructor
    · rintro rfl
      rw [Nat.mod_eq_of_lt (by omega)]; omega
    · intro h
      by_contra h0
      have : i + (c + 1) - 1 = (i - 1) + (c + 1) := by omega
      rw [this, Nat.add_mod_right, Nat.mod_eq_of_lt (by omega)] at h
      omega
  · rw [Nat.mod_eq_of_lt (by omega)]
    constructor
    · rintro rfl
      have : c + 1 + n - 1 = c + n := by omega
      rw [this, Nat.add_mod_right, Nat.mod_eq_of_lt hc]
    · intro h
      rcases Nat.eq_zero_or_pos i with h0 | h0
      · subst h0
        rw [Nat.mod_eq_of_lt (by omega)] at h
        omega
      · have : i + n - 1 = (i - 1) + n := by omega
        rw [this, Nat.add_mod_right, Nat.mod_eq_of_lt (by omega)] at h
        omega

/-- The lumped masses of linear elements are the cell length. -/
theorem linear_mass {gauss d n s m C} (h : Setup gauss d n 1 s m C) (i : ℕ) (hi : i < n) :
    m.getD i 0 = (d.b - d.a) / n := by
  obtain ⟨s1, s2, s3, -⟩ := setup_facts h
  obtain ⟨-, -, -, -, s4⟩ := make_spec d h.domain n 1 h.meshSize s h.space
  have hn : (n : ℝ) ≠ 0 := by have := h.meshSize; positivity
  obtain ⟨-, h2⟩ := lumped_spec gauss h.isGauss s (by omega) m h.mass
  rw [h2 i (by omega), s1, s2]
  have hcell : ∀ c < n, (s.cell c).length = (d.b - d.a) / n := by
    intro c hc
    rw [s4 c hc]
    simp only [Interval.length, node]
    push_cast
    field_simp
    ring
  have e : ∀ c ∈ Finset.range n, ∑ l ∈ Finset.range (1 + 1), (if s.map.idx c l = i then
      (s.cell c).length * ∫ x in (0 : ℝ)..1, (basis 1 l).eval x else 0) =
      (if c = i then (d.b - d.a) / n * (1 / 2) else 0) +
        (if c = (i + n - 1) % n then (d.b - d.a) / n * (1 / 2) else 0) := by
    intro c hc
    have hc' := Finset.mem_range.mp hc
    obtain ⟨i0, i1⟩ := linear_idx s s1 c (by omega)
    rw [Finset.sum_range_succ, Finset.sum_range_one, i0, i1, s2, hcell c hc',
      linear_integrals 0 (by omega), linear_integrals 1 le_rfl]
    congr 1
    by_cases hq : (c + 1) % n = i
    · rw [if_pos hq, if_pos ((succ_mod_eq n i hi c hc').mp hq)]
    · rw [if_neg hq, if_neg (fun hh => hq ((succ_mod_eq n i hi c hc').mpr hh))]
  rw [Finset.sum_congr rfl e, Finset.sum_add_distrib, Finset.sum_ite_eq', Finset.sum_ite_eq',
    if_pos (Finset.mem_range.mpr hi), if_pos (Finset.mem_range.mpr (Nat.mod_lt _ h.meshSize))]
  ring

/-- The discrete gradient of linear elements is the central difference. -/
theorem linear_gradient {gauss d n s m C} (h : Setup gauss d n 1 s m C) (i j : ℕ) (hi : i < n)
    (hj : j < n) : C.lil i j =
      (if (i + 1) % n = j then 1 / 2 else 0) - (if (j + 1) % n = i then 1 / 2 else 0) := by
  obtain ⟨s1, s2, s3, -⟩ := setup_facts h
  obtain ⟨A, g1, -, -, g4⟩ := gradient_spec gauss s (by omega)
  obtain rfl : A = C := Except.ok.inj (g1.symm.trans h.gradient)
  rw [g4, s1, s2]
  have e : ∀ c ∈ Finset.range n, ∑ l ∈ Finset.range (1 + 1), ∑ l' ∈ Finset.range (1 + 1),
      (if s.map.idx c l = i ∧ s.map.idx c l' = j then gradientEntry gauss s c l l' else 0) =
      (if c = i then (if i = j then -1 / 2 else 0) + (if (i + 1) % n = j then 1 / 2 else 0) else 0) +
        (if c = j then (if (j + 1) % n = i then -1 / 2 else 0) else 0) +
        (if c = (i + n - 1) % n then (if i = j then 1 / 2 else 0) else 0) := by
    intro c hc
    have hc' := Finset.mem_range.mp hc
    obtain ⟨i0, i1⟩ := linear_idx s s1 c (by omega)
    obtain ⟨e1, e2, e3, e4⟩ := linear_entries gauss h.isGauss s s1 c
    simp only [Finset.sum_range_succ, Finset.sum_range_zero, zero_add, i0, i1, e1, e2, e3, e4, s2]
    have k1 : (c + 1) % n = i ↔ c = (i + n - 1) % n := succ_mod_eq n i hi c hc'
    by_cases a1 : c = i
    · subst a1
      by_cases a2 : c = j
      · subst a2
        simp only [and_self, if_true, true_and, and_true]
        by_cases a3 : (c + 1) % n = c
        · rw [if_pos (k1.mp a3)]
          simp only [a3, if_true, and_self]; ring
        · simp only [a3, if_false, and_self, fun hh => a3 (k1.mpr hh)]
          rw [if_neg (fun hh => a3 (k1.mpr hh))]
          ring
      · have a3 : ¬ (c = j) := a2
        simp only [a2, and_false, if_false, true_and, and_self]
        by_cases a4 : (c + 1) % n = c
        · simp only [a4, true_and]
          simp [a2]
        · simp [a4]
    · by_cases a2 : c = j
      · subst a2
        have a3 : ¬ (i = c) := fun hh => a1 hh.symm
        simp only [a1, a3, false_and, and_true, if_false, if_true, ite_self, add_zero, zero_add]
        by_cases a4 : (c + 1) % n = i
        · have : ¬ ((c + 1) % n = c) := fun hh => a1 (hh.symm.trans a4)
          rw [if_pos a4, if_neg (by tauto)]
          ring
        · simp [a4]
      · simp only [a1, a2, false_and, and_false, if_false, add_zero, zero_add]
        by_cases a4 : (c + 1) % n = i
        · rw [if_pos (k1.mp a4)]
          by_cases a5 : i = j
          · subst a5; simp [a4]
          · simp [a4, a5]
        · rw [if_neg (fun hh => a4 (k1.mpr hh)), if_neg (by tauto)]
  rw [Finset.sum_congr rfl e, Finset.sum_add_distrib, Finset.sum_add_distrib, Finset.sum_ite_eq',
    Finset.sum_ite_eq', Finset.sum_ite_eq', if_pos (Finset.mem_range.mpr hi),
    if_pos (Finset.mem_range.mpr hj), if_pos (Finset.mem_range.mpr (Nat.mod_lt _ h.meshSize))]
  split_ifs <;> norm_num

/-- The sum of the absolute values in a row of the discrete gradient. -/
noncomputable def rowSize (C : SysMatrix ℝ) (N i : ℕ) : ℝ :=
  ∑ j ∈ (Finset.range N).erase i, |C.lil i j|

theorem linear_rows {gauss d n s m C} (h : Setup gauss d n 1 s m C) (i : ℕ) (hi : i < n) :
    rowSize C n i = if 3 ≤ n then 1 else 0 := by
  unfold rowSize
  have hdiag : C.lil i i = 0 := conv_diag (setup_conv h) i
  have e1 : ∑ j ∈ (Finset.range n).erase i, |C.lil i j| = ∑ j ∈ Finset.range n, |C.lil i j| := by
    rw [← Finset.add_sum_erase _ _ (Finset.mem_range.mpr hi), hdiag]; simp
  rw [e1]
  split_ifs with h3
  · have e : ∀ j ∈ Finset.range n, |C.lil i j| = (if (i + 1) % n = j then 1 / 2 else 0) +
        (if j = (i + n - 1) % n then 1 / 2 else 0) := by
      intro j hj
      have hj' := Finset.mem_range.mp hj
      rw [linear_gradient h i j hi hj']
      have k := succ_mod_eq n i hi j hj'
      by_cases a : (i + 1) % n = j
      · have b : ¬ ((j + 1) % n = i) := by
          intro b
          rw [← a, Nat.mod_add_mod] at b
          by_cases c : i + 1 + 1 < n
          · rw [Nat.mod_eq_of_lt c] at b; omega
          · obtain ⟨r, hr⟩ : ∃ r, i + 1 + 1 = r + n := ⟨i + 1 + 1 - n, by omega⟩
            rw [hr, Nat.add_mod_right, Nat.mod_eq_of_lt (by omega)] at b
            omega
        rw [if_pos a, if_neg b, if_neg (fun hh => b (k.mpr hh))]
        norm_num
      · rw [if_neg a]
        by_cases b : (j + 1) % n = i
        · rw [if_pos b, if_pos (k.mp b)]; norm_num
        · rw [if_neg b, if_neg (fun hh => b (k.mpr hh))]; norm_num
    rw [Finset.sum_congr rfl e, Finset.sum_add_distrib, Finset.sum_ite_eq, Finset.sum_ite_eq',
      if_pos (Finset.mem_range.mpr (Nat.mod_lt _ h.meshSize)),
      if_pos (Finset.mem_range.mpr (Nat.mod_lt _ h.meshSize))]
    norm_num
  · refine Finset.sum_eq_zero fun j hj => ?_
    have hj' := Finset.mem_range.mp hj
    rw [linear_gradient h i j hi hj', abs_eq_zero]
    have : (i + 1) % n = j ↔ (j + 1) % n = i := by
      have hn : n = 1 ∨ n = 2 := by omega
      rcases hn with rfl | rfl <;> omega
    by_cases a : (i + 1) % n = j
    · rw [if_pos a, if_pos (this.mp a), sub_self]
    · rw [if_neg a, if_neg (fun hh => a (this.mpr hh)), sub_self]

end Verif.FE
