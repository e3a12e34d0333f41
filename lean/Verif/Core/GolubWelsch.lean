import Mathlib.LinearAlgebra.Matrix.NonsingularInverse
import Mathlib.LinearAlgebra.LinearIndependent.Defs
import Verif.Core.Quadrature
import Verif.Core.Legendre

/-!
Helper lemmas: eigenvectors of the Golub-Welsch matrix and Legendre polynomials.
-/

namespace Verif.Quadrature

open Verif.Legendre Polynomial

theorem beta_base_pos (i : ℕ) : 0 < 1 - ((2 * ((i : ℝ) + 1)) ^ 2)⁻¹ := by
  have h : 1 < (2 * ((i : ℝ) + 1)) ^ 2 := by
    have : (0 : ℝ) ≤ i := Nat.cast_nonneg i
    nlinarith
  have := inv_lt_one_of_one_lt₀ h
  linarith

theorem beta_pos (i : ℕ) : 0 < beta i := by
  unfold beta
  have := Real.rpow_pos_of_pos (beta_base_pos i) (-(1 / 2))
  linarith

theorem beta_sq (i : ℕ) : beta i ^ 2 = b (i + 1) := by
  unfold beta
  have hx := beta_base_pos i
  have hsq : ((1 - ((2 * ((i : ℝ) + 1)) ^ 2)⁻¹) ^ (-(1 / 2) : ℝ)) ^ 2 =
      (1 - ((2 * ((i : ℝ) + 1)) ^ 2)⁻¹)⁻¹ := by
    rw [← Real.rpow_natCast, ← Real.rpow_mul hx.le]
    have : -(1 / 2) * ((2 : ℕ) : ℝ) = -1 := by push_cast; ring
    rw [this, Real.rpow_neg_one]
  rw [mul_pow, hsq, b_succ]
  have hi : (0 : ℝ) ≤ i := Nat.cast_nonneg i
  have h1 : (2 * ((i : ℝ) + 1)) ^ 2 ≠ 0 := by positivity
  have h2 : (2 * (i : ℝ) + 1) ≠ 0 := by positivity
  have h3 : (2 * (i : ℝ) + 3) ≠ 0 := by positivity
  have h4 : 1 - ((2 * ((i : ℝ) + 1)) ^ 2)⁻¹ =
      ((2 * (i : ℝ) + 1) * (2 * i + 3)) / (2 * ((i : ℝ) + 1)) ^ 2 := by
    field_simp
    ring
  rw [h4, inv_div]
  field_simp

/-- What `np.linalg.eig(T)` returns, in exact arithmetic: unit eigenvectors in the columns of `v`,
which are linearly independent. -/
structure EigResult {m : ℕ} (T : Matrix (Fin m) (Fin m) ℝ) (nodes : Fin m → ℝ)
    (v : Matrix (Fin m) (Fin m) ℝ) : Prop where
  eigen : ∀ i j, ∑ k, T j k * v k i = nodes i * v j i
  unit : ∀ i, ∑ k, v k i ^ 2 = 1
  indep : LinearIndependent ℝ (fun i k => v k i)

section
variable {m : ℕ} (u : ℕ → ℝ) (l : ℝ)

/-- Rows of the eigenvalue equation, with `u` zero from `m` on. -/
theorem jacobi_row (hz : ∀ k, m ≤ k → u k = 0) (j : ℕ) (hj : j < m) :
    ∑ k : Fin m, jacobi m ⟨j, hj⟩ k * u k =
      (if j = 0 then 0 else beta (j - 1) * u (j - 1)) + beta j * u (j + 1) := by
  have e : ∀ k : Fin m, jacobi m ⟨j, hj⟩ k * u k =
      (fun k : ℕ => (if j = k + 1 then beta k * u k else 0) +
        (if j + 1 = k then beta j * u (j + 1) else 0)) k := by
    intro k
    simp only [jacobi]
    by_cases h1 : j + 1 = k.val
    · rw [if_pos h1, if_pos h1, if_neg (by omega), h1, zero_add]
    · rw [if_neg h1, if_neg h1, add_zero]
      by_cases h2 : k.val + 1 = j
      · rw [if_pos h2, if_pos h2.symm]
      · rw [if_neg h2, if_neg (fun h => h2 h.symm), zero_mul]
  rw [Finset.sum_congr rfl (fun k _ => e k), Fin.sum_univ_eq_sum_range
    (fun k : ℕ => (if j = k + 1 then beta k * u k else 0) +
        (if j + 1 = k then beta j * u (j + 1) else 0)) m, Finset.sum_add_distrib]
  congr 1
  · by_cases h0 : j = 0
    · rw [if_pos h0]
      apply Finset.sum_eq_zero
      intro k _
      rw [if_neg (by omega)]
    · rw [if_neg h0, Finset.sum_eq_single (j - 1)]
      · rw [if_pos (by omega)]
      · intro k _ hk
        rw [if_neg (by omega)]
      · intro hk
        exact absurd (Finset.mem_range.mpr (by omega)) hk
  · by_cases hm : j + 1 < m
    · rw [Finset.sum_ite_eq (Finset.range m) (j + 1), if_pos (Finset.mem_range.mpr hm)]
    · rw [hz (j + 1) (by omega), mul_zero]
      apply Finset.sum_eq_zero
      intro k _
      split <;> rfl

/-- Components of an eigenvector are multiples of the Legendre polynomials at the eigenvalue. -/
theorem component (hrow : ∀ j < m, (if j = 0 then 0 else beta (j - 1) * u (j - 1)) +
      beta j * u (j + 1) = l * u j) (k : ℕ) (hk : k ≤ m) :
    (mono k).eval l * u 0 = (∏ i ∈ Finset.range k, beta i) * u k := by
  induction k using Nat.strong_induction_on with
  | _ k ih =>
    match k, ih, hk with
    | 0, _, _ => simp [mono]
    | 1, _, hk =>
      have h := hrow 0 (by omega)
      rw [if_pos rfl, zero_add] at h
      simp only [mono, eval_X, Finset.prod_range_one]
      rw [← h]
    | k + 2, ih, hk =>
      have h1 := ih (k + 1) (by omega) (by omega)
      have h0 := ih k (by omega) (by omega)
      have h := hrow (k + 1) (by omega)
      rw [if_neg (by omega), Nat.add_sub_cancel] at h
      rw [mono_succ_succ, eval_sub, eval_mul, eval_mul, eval_X, eval_C, sub_mul, mul_assoc, mul_assoc,
        h1, h0, ← beta_sq, Finset.prod_range_succ _ (k + 1), Finset.prod_range_succ _ k]
      linear_combination (-(∏ i ∈ Finset.range k, beta i) * beta k) * h

end

section
variable {n : ℕ} {nodes : Fin (n + 1) → ℝ} {v : Matrix (Fin (n + 1)) (Fin (n + 1)) ℝ}

/-- Column `i` as a function on the natural numbers. -/
noncomputable def column (v : Matrix (Fin (n + 1)) (Fin (n + 1)) ℝ) (i : Fin (n + 1)) (k : ℕ) : ℝ :=
  if h : k < n + 1 then v ⟨k, h⟩ i else 0

theorem column_row (h : EigResult (jacobi (n + 1)) nodes v) (i : Fin (n + 1)) (j : ℕ) (hj : j < n + 1) :
    (if j = 0 then 0 else beta (j - 1) * column v i (j - 1)) + beta j * column v i (j + 1) =
      nodes i * column v i j := by
  rw [← jacobi_row (column v i) (fun k hk => by unfold column; rw [dif_neg (by omega)]) j hj]
  have := h.eigen i ⟨j, hj⟩
  rw [column, dif_pos hj, ← this]
  apply Finset.sum_congr rfl
  intro k _
  rw [column, dif_pos k.isLt]

theorem column_component (h : EigResult (jacobi (n + 1)) nodes v) (i : Fin (n + 1)) (k : ℕ)
    (hk : k ≤ n + 1) :
    (mono k).eval (nodes i) * v 0 i = (∏ j ∈ Finset.range k, beta j) * column v i k := by
  have := component (column v i) (nodes i) (column_row h i) k hk
  rwa [show column v i 0 = v 0 i by unfold column; rw [dif_pos (by omega)]; rfl] at this

theorem prod_beta_pos (k : ℕ) : 0 < ∏ j ∈ Finset.range k, beta j :=
  Finset.prod_pos (fun j _ => beta_pos j)

theorem first_ne_zero (h : EigResult (jacobi (n + 1)) nodes v) (i : Fin (n + 1)) : v 0 i ≠ 0 := by
  intro h0
  have hz : ∀ k : Fin (n + 1), v k i = 0 := by
    intro k
    have := column_component h i k (by omega)
    rw [h0, mul_zero, column, dif_pos k.isLt] at this
    exact ((mul_eq_zero.mp this.symm).resolve_left (prod_beta_pos _).ne')
  have := h.unit i
  simp [hz] at this

theorem node_root (h : EigResult (jacobi (n + 1)) nodes v) (i : Fin (n + 1)) :
    (mono (n + 1)).eval (nodes i) = 0 := by
  have := column_component h i (n + 1) le_rfl
  rw [column, dif_neg (by omega), mul_zero] at this
  exact (mul_eq_zero.mp this).resolve_right (first_ne_zero h i)

theorem nodes_injective (h : EigResult (jacobi (n + 1)) nodes v) : Function.Injective nodes := by
  intro i j hij
  by_contra hne
  have hprop : ∀ k : Fin (n + 1), v 0 j * v k i = v 0 i * v k j := by
    intro k
    have h1 := column_component h i k (by omega)
    have h2 := column_component h j k (by omega)
    rw [column, dif_pos k.isLt] at h1 h2
    rw [hij] at h1
    have hB := (prod_beta_pos k).ne'
    apply mul_left_cancel₀ hB
    simp only [Fin.eta] at h1 h2
    linear_combination (-(v 0 j)) * h1 + v 0 i * h2
  have hpair : LinearIndependent ℝ ![(fun k => v k i), (fun k => v k j)] := by
    have := h.indep.comp ![i, j] (by
      intro a b hab
      fin_cases a <;> fin_cases b <;> simp_all)
    convert this using 1
    ext a k
    fin_cases a <;> rfl
  rw [LinearIndependent.pair_iff] at hpair
  have := hpair (v 0 j) (-(v 0 i)) (by
    ext k
    simp only [Pi.add_apply, Pi.smul_apply, smul_eq_mul, Pi.zero_apply]
    linear_combination hprop k)
  exact first_ne_zero h j this.1

theorem jacobi_symm (m : ℕ) (i j : Fin m) : jacobi m i j = jacobi m j i := by
  unfold jacobi
  by_cases h1 : i.val + 1 = j.val
  · rw [if_pos h1, if_neg (by omega), if_pos h1]
  · rw [if_neg h1]
    by_cases h2 : j.val + 1 = i.val
    · rw [if_pos h2, if_pos h2]
    · rw [if_neg h2, if_neg h2, if_neg h1]

theorem columns_orthogonal (h : EigResult (jacobi (n + 1)) nodes v) (i j : Fin (n + 1)) (hij : i ≠ j) :
    ∑ k, v k i * v k j = 0 := by
  have e : nodes i * ∑ k, v k i * v k j = nodes j * ∑ k, v k i * v k j := by
    have l : nodes i * ∑ k, v k i * v k j = ∑ k, ∑ r, jacobi (n + 1) k r * v r i * v k j := by
      rw [Finset.mul_sum]
      apply Finset.sum_congr rfl
      intro k _
      rw [← Finset.sum_mul, h.eigen i k]; ring
    have r : nodes j * ∑ k, v k i * v k j = ∑ r, ∑ k, jacobi (n + 1) r k * v k j * v r i := by
      rw [Finset.mul_sum]
      apply Finset.sum_congr rfl
      intro k _
      rw [← Finset.sum_mul, h.eigen j k]; ring
    rw [l, r, Finset.sum_comm]
    apply Finset.sum_congr rfl
    intro a _
    apply Finset.sum_congr rfl
    intro c _
    rw [jacobi_symm]; ring
  have hne : nodes i ≠ nodes j := fun hc => hij (nodes_injective h hc)
  have : (nodes i - nodes j) * ∑ k, v k i * v k j = 0 := by rw [sub_mul, e, sub_self]
  exact (mul_eq_zero.mp this).resolve_left (sub_ne_zero.mpr hne)

theorem rows_orthonormal (h : EigResult (jacobi (n + 1)) nodes v) (a c : Fin (n + 1)) :
    ∑ i, v a i * v c i = if a = c then 1 else 0 := by
  have h1 : v.transpose * v = 1 := by
    ext i j
    rw [Matrix.mul_apply, Matrix.one_apply]
    simp only [Matrix.transpose_apply]
    split
    · rename_i hij
      subst hij
      rw [← h.unit i]
      apply Finset.sum_congr rfl
      intro k _; ring
    · rename_i hij
      exact columns_orthogonal h i j hij
  have h2 : v * v.transpose = 1 := mul_eq_one_comm.mp h1
  have := congrFun (congrFun h2 a) c
  rw [Matrix.mul_apply, Matrix.one_apply] at this
  simpa only [Matrix.transpose_apply] using this

/-- The rule applied to the Legendre polynomials. -/
theorem rule_mono (h : EigResult (jacobi (n + 1)) nodes v) (k : ℕ) (hk : k ≤ n) :
    ∑ i, 2 * v 0 i ^ 2 * (mono k).eval (nodes i) = if k = 0 then 2 else 0 := by
  have e : ∀ i, 2 * v 0 i ^ 2 * (mono k).eval (nodes i) =
      2 * (∏ j ∈ Finset.range k, beta j) * (v 0 i * v ⟨k, by omega⟩ i) := by
    intro i
    have := column_component h i k (by omega)
    rw [column, dif_pos (by omega)] at this
    linear_combination (2 * v 0 i) * this
  rw [Finset.sum_congr rfl (fun i _ => e i), ← Finset.mul_sum, rows_orthonormal h]
  by_cases h0 : k = 0
  · subst h0; simp
  · rw [if_neg h0, if_neg, mul_zero]
    intro hc
    have := congrArg Fin.val hc
    simp at this
    omega

/-- Exactness up to degree `2 n + 1` with `n + 1` nodes. -/
theorem rule_exact (h : EigResult (jacobi (n + 1)) nodes v) (p : ℝ[X]) (hp : p.natDegree ≤ 2 * n + 1) :
    ∑ i, 2 * v 0 i ^ 2 * p.eval (nodes i) = 2 * mean p := by
  obtain ⟨hm, hd⟩ := mono_monic_degree (n + 1)
  have hdiv := modByMonic_add_div p (mono (n + 1))
  set q := p /ₘ mono (n + 1) with hq
  set r := p %ₘ mono (n + 1) with hr
  have hrdeg : r.degree < ((n + 1 : ℕ) : WithBot ℕ) := by
    have := degree_modByMonic_lt p hm
    rwa [degree_eq_natDegree hm.ne_zero, hd] at this
  have hqdeg : q.natDegree < n + 1 := by
    rw [hq, natDegree_divByMonic p hm, hd]; omega
  obtain ⟨c, hc⟩ := expand (n + 1) r hrdeg
  have e1 : ∑ i, 2 * v 0 i ^ 2 * p.eval (nodes i) = ∑ i, 2 * v 0 i ^ 2 * r.eval (nodes i) := by
    apply Finset.sum_congr rfl
    intro i _
    rw [← hdiv, eval_add, eval_mul, node_root h i, zero_mul, add_zero]
  have e2 : mean p = mean r := by
    rw [← hdiv, mean_add, mean_mono_mul _ _ hqdeg, add_zero]
  have e3 : ∑ i, 2 * v 0 i ^ 2 * r.eval (nodes i) = 2 * c 0 := by
    have : ∀ i, 2 * v 0 i ^ 2 * r.eval (nodes i) =
        ∑ k ∈ Finset.range (n + 1), c k * (2 * v 0 i ^ 2 * (mono k).eval (nodes i)) := by
      intro i
      conv_lhs => rw [hc]
      rw [eval_finset_sum, Finset.mul_sum]
      apply Finset.sum_congr rfl
      intro k _
      rw [eval_mul, eval_C]; ring
    rw [Finset.sum_congr rfl (fun i _ => this i), Finset.sum_comm, Finset.sum_eq_single 0]
    · rw [← Finset.mul_sum, rule_mono h 0 (by omega), if_pos rfl]; ring
    · intro k hk hk0
      rw [Finset.mem_range] at hk
      rw [← Finset.mul_sum, rule_mono h k (by omega), if_neg hk0, mul_zero]
    · simp
  have e4 : mean r = c 0 := by
    rw [hc, mean_sum, Finset.sum_eq_single 0]
    · rw [mean_C_mul, mono, mean_one, mul_one]
    · intro k _ hk0
      rw [mean_C_mul]
      have := mean_mono_mul k 1 (by simp; omega)
      rw [mul_one] at this
      rw [this, mul_zero]
    · simp
  rw [e1, e2, e3, e4]

end

end Verif.Quadrature
