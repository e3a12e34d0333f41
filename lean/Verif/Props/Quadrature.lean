import Mathlib.Analysis.Matrix.Spectrum
import Mathlib.Data.List.NodupEquivFin
import Verif.Core.GolubWelsch

/-!
Properties C56 (transformation of quadrature rules) and C57 (Golub-Welsch).
-/

set_option linter.unusedSectionVars false

namespace Verif.Quadrature

open Verif.Mesh Verif.Legendre Polynomial

/-! ### Specification -/

/-- The rule integrates all polynomials of degree at most `m` exactly over its domain. -/
def Exact (Q : Rule ℝ) (m : ℕ) : Prop :=
  ∀ p : ℝ[X], p.natDegree ≤ m →
    Q.integrate (fun x => p.eval x) = ∫ x in Q.domain.a..Q.domain.b, p.eval x

/-! ### C56 -/

/-- C56.  Exactness carries over to every interval. -/
theorem C56_exact (points : List (ℝ × ℝ)) (m : ℕ) (h : Exact (specific points) m) (c : Interval ℝ)
    (hc : c.a < c.b) : Exact (gaussian points c) m := by
  intro p hp
  rw [gaussian_integrate]
  set q : ℝ[X] := p.comp (C ((c.b - c.a) / 2) * X + C ((c.a + c.b) / 2)) with hq
  have hqe : ∀ x, q.eval x = p.eval ((c.b - c.a) / 2 * x + (c.a + c.b) / 2) := by
    intro x; simp [hq]
  have hqd : q.natDegree ≤ m := by
    have h1 : q.natDegree ≤ p.natDegree * 1 := by
      rw [hq]
      refine le_trans natDegree_comp_le (Nat.mul_le_mul_left _ ?_)
      exact natDegree_linear_le
    omega
  have := h q hqd
  simp only [hqe] at this
  rw [this]
  have hne : (c.b - c.a) / 2 ≠ 0 := by
    intro h0; linarith
  have hdom : (gaussian points c).domain = c := by rw [gaussian_eq]
  rw [hdom]
  have hs : ∫ x in (specific points).domain.a..(specific points).domain.b,
      p.eval ((c.b - c.a) / 2 * x + (c.a + c.b) / 2) =
      ((c.b - c.a) / 2)⁻¹ • ∫ x in c.a..c.b, p.eval x := by
    rw [intervalIntegral.integral_comp_mul_add (fun x => p.eval x) hne]
    congr 2
    · simp only [specific]; ring
    · simp only [specific]; ring
  rw [hs, smul_eq_mul, ← mul_assoc, mul_inv_cancel₀ hne, one_mul]

/-- C56.  Positive weights stay positive, and weights that sum to two sum to the length of the
interval. -/
theorem C56_weights {K : Type*} [Field K] [LinearOrder K] [IsStrictOrderedRing K]
    (points : List (K × K)) (c : Interval K) (hc : c.a < c.b) :
    ((∀ w ∈ (specific points).weights, 0 < w) → ∀ w ∈ (gaussian points c).weights, 0 < w) ∧
    ((specific points).weights.sum = 2 → (gaussian points c).weights.sum = c.b - c.a) := by
  have hw : (gaussian points c).weights =
      ((specific points).weights).map (fun w => (c.b - c.a) / 2 * w) := by
    rw [gaussian_eq]
    simp [Rule.weights, specific]
  rw [hw]
  constructor
  · intro h w hw'
    obtain ⟨w0, h0, rfl⟩ := List.mem_map.mp hw'
    exact mul_pos (by linarith) (h w0 h0)
  · intro h
    rw [List.sum_map_mul_left, List.map_id', h]
    ring

/-- C56.  Nodes in the reference interval are mapped into the cell, in the same order, and their
number stays the same. -/
theorem C56_nodes {K : Type*} [Field K] [LinearOrder K] [IsStrictOrderedRing K]
    (points : List (K × K)) (c : Interval K) (hc : c.a < c.b) :
    (gaussian points c).degree = (specific points).degree ∧
    ((∀ x ∈ (specific points).nodes, -1 < x ∧ x < 1) →
      ∀ x ∈ (gaussian points c).nodes, c.a < x ∧ x < c.b) ∧
    ((specific points).nodes.Pairwise (· < ·) → (gaussian points c).nodes.Pairwise (· < ·)) := by
  have hn : (gaussian points c).nodes =
      ((specific points).nodes).map (fun x => (c.b - c.a) / 2 * x + (c.a + c.b) / 2) := by
    rw [gaussian_eq]
    simp [Rule.nodes, specific]
  refine ⟨?_, ?_, ?_⟩
  · unfold Rule.degree; rw [hn, List.length_map]
  · intro h x hx
    rw [hn] at hx
    obtain ⟨x0, h0, rfl⟩ := List.mem_map.mp hx
    obtain ⟨h1, h2⟩ := h x0 h0
    constructor <;> nlinarith
  · intro h
    rw [hn, List.pairwise_map]
    refine h.imp ?_
    intro a b hab
    nlinarith

/-! ### C57 -/

theorem mem_nodesWeights {n : ℕ} {nodes : Fin (n + 1) → ℝ}
    {v : Matrix (Fin (n + 1)) (Fin (n + 1)) ℝ} (p : ℝ × ℝ) :
    p ∈ nodesWeights n nodes v ↔ ∃ i, (nodes i, 2 * v 0 i ^ 2) = p := by
  unfold nodesWeights
  rw [(List.mergeSort_perm _ _).mem_iff, List.mem_ofFn]

theorem integrate_nodesWeights {n : ℕ} (nodes : Fin (n + 1) → ℝ)
    (v : Matrix (Fin (n + 1)) (Fin (n + 1)) ℝ) (f : ℝ → ℝ) :
    (specific (nodesWeights n nodes v)).integrate f = ∑ i, 2 * v 0 i ^ 2 * f (nodes i) := by
  rw [integrate_eq]
  unfold specific nodesWeights
  simp only
  rw [((List.mergeSort_perm _ _).map _).sum_eq, List.map_ofFn, List.sum_ofFn]
  rfl

theorem pairwise_nodesWeights {n : ℕ} (nodes : Fin (n + 1) → ℝ)
    (v : Matrix (Fin (n + 1)) (Fin (n + 1)) ℝ) :
    (nodesWeights n nodes v).Pairwise (fun a b => a.1 < b.1 ∨ (a.1 = b.1 ∧ a.2 ≤ b.2)) := by
  have h := List.pairwise_mergeSort (α := ℝ × ℝ)
    (le := fun a b => decide (a.1 < b.1 ∨ (a.1 = b.1 ∧ a.2 ≤ b.2)))
    (by
      intro a b c h1 h2
      simp only [decide_eq_true_eq] at *
      rcases h1 with h1 | ⟨h1, h1'⟩ <;> rcases h2 with h2 | ⟨h2, h2'⟩
      · exact Or.inl (h1.trans h2)
      · exact Or.inl (h2 ▸ h1)
      · exact Or.inl (h1 ▸ h2)
      · exact Or.inr ⟨h1.trans h2, h1'.trans h2'⟩)
    (by
      intro a b
      simp only [Bool.or_eq_true, decide_eq_true_eq]
      rcases lt_trichotomy a.1 b.1 with h | h | h
      · exact Or.inl (Or.inl h)
      · rcases le_total a.2 b.2 with h' | h'
        · exact Or.inl (Or.inr ⟨h, h'⟩)
        · exact Or.inr (Or.inr ⟨h.symm, h'⟩)
      · exact Or.inr (Or.inl h))
    (List.ofFn (fun i => (nodes i, 2 * v 0 i ^ 2)))
  refine h.imp ?_
  intro a b hab
  simpa using hab

/-- C57.  The pairs of nodes and weights form the Gauss rule with `n + 1` nodes. -/
theorem C57_gauss (n : ℕ) (nodes : Fin (n + 1) → ℝ) (v : Matrix (Fin (n + 1)) (Fin (n + 1)) ℝ)
    (h : EigResult (jacobi (n + 1)) nodes v) :
    (specific (nodesWeights n nodes v)).degree = n + 1 ∧
    Exact (specific (nodesWeights n nodes v)) (2 * n + 1) ∧
    (∀ w ∈ (specific (nodesWeights n nodes v)).weights, 0 < w) ∧
    (specific (nodesWeights n nodes v)).weights.sum = 2 := by
  have hex : Exact (specific (nodesWeights n nodes v)) (2 * n + 1) := by
    intro p hp
    rw [integrate_nodesWeights, rule_exact h p hp]
    unfold mean specific
    ring
  refine ⟨?_, hex, ?_, ?_⟩
  · simp [Rule.degree, Rule.nodes, specific, nodesWeights]
  · intro w hw
    obtain ⟨p, hp, rfl⟩ := List.mem_map.mp hw
    obtain ⟨i, rfl⟩ := (mem_nodesWeights p).mp hp
    have := first_ne_zero h i
    positivity
  · have h1 := hex 1 (by simp)
    rw [integrate_eq] at h1
    simp only [eval_one, mul_one, specific, intervalIntegral.integral_const, smul_eq_mul] at h1
    unfold Rule.weights specific
    rw [h1]; norm_num

theorem integral_poly_pos (p : ℝ[X]) (hp : p ≠ 0) (h : ∀ x ∈ Set.Ioo (-1 : ℝ) 1, 0 ≤ p.eval x) :
    0 < ∫ x in (-1 : ℝ)..1, p.eval x := by
  have hge : ∀ x ∈ Set.Icc (-1 : ℝ) 1, 0 ≤ p.eval x := by
    have hcl : closure (Set.Ioo (-1 : ℝ) 1) = Set.Icc (-1) 1 := closure_Ioo (by norm_num)
    intro x hx
    rw [← hcl] at hx
    have hc : IsClosed {x : ℝ | 0 ≤ p.eval x} := isClosed_le continuous_const p.continuous
    exact (closure_minimal h hc) hx
  obtain ⟨c, hc, hroot⟩ := (Set.Ioo_infinite (show (-1 : ℝ) < 1 by norm_num)).exists_notMem_finset
    p.roots.toFinset
  have hne : p.eval c ≠ 0 := by
    intro h0
    apply hroot
    rw [Multiset.mem_toFinset, mem_roots hp]
    exact h0
  exact intervalIntegral.integral_pos (by norm_num) p.continuous.continuousOn
    (fun x hx => hge x ⟨hx.1.le, hx.2⟩)
    ⟨c, ⟨hc.1.le, hc.2.le⟩, lt_of_le_of_ne (h c hc) (Ne.symm hne)⟩

/-- C57.  The nodes are strictly increasing and lie inside of the interval. -/
theorem C57_nodes (n : ℕ) (nodes : Fin (n + 1) → ℝ) (v : Matrix (Fin (n + 1)) (Fin (n + 1)) ℝ)
    (h : EigResult (jacobi (n + 1)) nodes v) :
    (specific (nodesWeights n nodes v)).nodes.Pairwise (· < ·) ∧
    ∀ x ∈ (specific (nodesWeights n nodes v)).nodes, -1 < x ∧ x < 1 := by
  constructor
  · unfold Rule.nodes specific
    simp only
    rw [List.pairwise_map]
    have hnd : (nodesWeights n nodes v).Nodup := by
      unfold nodesWeights
      rw [(List.mergeSort_perm _ _).nodup_iff, List.nodup_ofFn]
      intro i j hij
      exact nodes_injective h (congrArg Prod.fst hij)
    have hand := (pairwise_nodesWeights nodes v).and hnd
    rw [List.Pairwise.iff_of_mem (S := fun a b : ℝ × ℝ => a.1 < b.1)] at hand
    · exact hand
    · intro a b ha hb
      constructor
      · rintro ⟨hlt | ⟨heq, _⟩, hne⟩
        · exact hlt
        · exfalso
          obtain ⟨i, rfl⟩ := (mem_nodesWeights a).mp ha
          obtain ⟨j, rfl⟩ := (mem_nodesWeights b).mp hb
          have := nodes_injective h heq
          subst this
          exact hne rfl
      · intro hlt
        exact ⟨Or.inl hlt, fun hab => by rw [hab] at hlt; exact lt_irrefl _ hlt⟩
  · intro x hx
    obtain ⟨p, hp, rfl⟩ := List.mem_map.mp hx
    obtain ⟨i, rfl⟩ := (mem_nodesWeights p).mp hp
    simp only
    classical
    set f : ℝ[X] := ∏ j ∈ Finset.univ.erase i, (X - C (nodes j)) ^ 2 with hf
    have hfm : f.Monic := monic_prod_of_monic _ _ (fun j _ => (monic_X_sub_C _).pow 2)
    have hfd : f.natDegree = 2 * n := by
      rw [hf, natDegree_prod_of_monic _ _ (fun j _ => (monic_X_sub_C _).pow 2)]
      have : ∀ j ∈ Finset.univ.erase i, ((X - C (nodes j)) ^ 2 : ℝ[X]).natDegree = 2 := by
        intro j _
        rw [(monic_X_sub_C _).natDegree_pow, natDegree_X_sub_C]
      rw [Finset.sum_congr rfl this, Finset.sum_const, Finset.card_erase_of_mem (Finset.mem_univ _)]
      simp; ring
    have hfe : ∀ x, f.eval x = ∏ j ∈ Finset.univ.erase i, (x - nodes j) ^ 2 := by
      intro x; rw [hf, eval_prod]; simp
    have hfnn : ∀ x, 0 ≤ f.eval x := by
      intro x; rw [hfe]; exact Finset.prod_nonneg (fun j _ => sq_nonneg _)
    have key : ∀ g : ℝ[X], g ≠ 0 → g.natDegree ≤ 1 → (∀ x ∈ Set.Ioo (-1 : ℝ) 1, 0 ≤ g.eval x) →
        0 < g.eval (nodes i) := by
      intro g hg0 hgd hg
      have hpos := integral_poly_pos (g * f) (mul_ne_zero hg0 hfm.ne_zero) (by
        intro x hx; rw [eval_mul]; exact mul_nonneg (hg x hx) (hfnn x))
      have hex := (C57_gauss n nodes v h).2.1 (g * f) (by
        refine le_trans natDegree_mul_le ?_
        omega)
      simp only [specific] at hex
      rw [← hex] at hpos
      have hsum := integrate_nodesWeights nodes v (fun x => (g * f).eval x)
      simp only [specific] at hsum
      rw [hsum, Finset.sum_eq_single i] at hpos
      · rw [eval_mul] at hpos
        by_contra hc
        push Not at hc
        have : 2 * v 0 i ^ 2 * (g.eval (nodes i) * f.eval (nodes i)) ≤ 0 := by
          apply mul_nonpos_of_nonneg_of_nonpos (by positivity)
          exact mul_nonpos_of_nonpos_of_nonneg hc (hfnn _)
        linarith
      · intro j _ hj
        rw [eval_mul, hfe, Finset.prod_eq_zero (Finset.mem_erase.mpr ⟨hj, Finset.mem_univ _⟩)]
        · ring
        · rw [sub_self]; ring
      · intro hc; exact absurd (Finset.mem_univ _) hc
    constructor
    · have := key (X - C (-1)) (X_sub_C_ne_zero _) (by rw [natDegree_X_sub_C]) (by
        intro x hx; simp; linarith [hx.1])
      simp at this; linarith
    · have := key (C 1 - X) (by
          intro h0
          have := congrArg (eval 0) h0
          simp at this) (by
          refine le_trans (natDegree_sub_le _ _) ?_
          simp) (by
          intro x hx; simp; linarith [hx.2])
      simp at this; linarith

/-- C57.  The degree of exactness is optimal: it is not `2 n + 2`. -/
theorem C57_sharp (n : ℕ) (nodes : Fin (n + 1) → ℝ) (v : Matrix (Fin (n + 1)) (Fin (n + 1)) ℝ)
    (h : EigResult (jacobi (n + 1)) nodes v) :
    ¬ Exact (specific (nodesWeights n nodes v)) (2 * n + 2) := by
  intro hex
  obtain ⟨hm, hd⟩ := mono_monic_degree (n + 1)
  have h1 := hex (mono (n + 1) ^ 2) (by rw [hm.natDegree_pow, hd]; omega)
  rw [integrate_nodesWeights, Finset.sum_eq_zero (by
    intro i _; rw [eval_pow, node_root h i]; ring)] at h1
  have h2 := integral_poly_pos (mono (n + 1) ^ 2) (hm.pow 2).ne_zero (by
    intro x _; rw [eval_pow]; exact sq_nonneg _)
  simp only [specific] at h1
  linarith

/-- C57.  The rule does not depend on which eigendecomposition is returned. -/
theorem C57_unique (n : ℕ) (nodes nodes' : Fin (n + 1) → ℝ)
    (v v' : Matrix (Fin (n + 1)) (Fin (n + 1)) ℝ) (h : EigResult (jacobi (n + 1)) nodes v)
    (h' : EigResult (jacobi (n + 1)) nodes' v') :
    nodesWeights n nodes v = nodesWeights n nodes' v' := by
  classical
  obtain ⟨hm, hd⟩ := mono_monic_degree (n + 1)
  -- the weight belonging to a node
  have weight : ∀ {nodes : Fin (n + 1) → ℝ} {v : Matrix (Fin (n + 1)) (Fin (n + 1)) ℝ}
      (_ : EigResult (jacobi (n + 1)) nodes v) (i : Fin (n + 1)),
      v 0 i ^ 2 * ∑ k : Fin (n + 1), ((mono k).eval (nodes i) / ∏ j ∈ Finset.range k, beta j) ^ 2 = 1 := by
    intro nodes v h i
    rw [← h.unit i, Finset.mul_sum]
    apply Finset.sum_congr rfl
    intro k _
    have := column_component h i k (by omega)
    rw [column, dif_pos k.isLt] at this
    have hB := (prod_beta_pos k).ne'
    have e : v k i = (mono k).eval (nodes i) / (∏ j ∈ Finset.range k, beta j) * v 0 i := by
      rw [div_mul_eq_mul_div, this, mul_div_cancel_left₀ _ hB]
    rw [e]; ring
  -- the nodes are the roots of the Legendre polynomial
  have root : ∀ {nodes : Fin (n + 1) → ℝ} {v : Matrix (Fin (n + 1)) (Fin (n + 1)) ℝ}
      (_ : EigResult (jacobi (n + 1)) nodes v),
      Finset.univ.image nodes = (mono (n + 1)).roots.toFinset := by
    intro nodes v h
    apply Finset.eq_of_subset_of_card_le
    · intro x hx
      obtain ⟨i, _, rfl⟩ := Finset.mem_image.mp hx
      rw [Multiset.mem_toFinset, mem_roots hm.ne_zero]
      exact node_root h i
    · rw [Finset.card_image_of_injective _ (nodes_injective h), Finset.card_univ, Fintype.card_fin]
      calc (mono (n + 1)).roots.toFinset.card ≤ Multiset.card (mono (n + 1)).roots :=
            Multiset.toFinset_card_le _
        _ ≤ (mono (n + 1)).natDegree := card_roots' _
        _ = n + 1 := hd
  have nodup : ∀ {nodes : Fin (n + 1) → ℝ} {v : Matrix (Fin (n + 1)) (Fin (n + 1)) ℝ}
      (_ : EigResult (jacobi (n + 1)) nodes v), (nodesWeights n nodes v).Nodup := by
    intro nodes v h
    unfold nodesWeights
    rw [(List.mergeSort_perm _ _).nodup_iff, List.nodup_ofFn]
    intro i j hij
    exact nodes_injective h (congrArg Prod.fst hij)
  have sub : ∀ {nodes nodes' : Fin (n + 1) → ℝ} {v v' : Matrix (Fin (n + 1)) (Fin (n + 1)) ℝ}
      (_ : EigResult (jacobi (n + 1)) nodes v) (_ : EigResult (jacobi (n + 1)) nodes' v') (p : ℝ × ℝ),
      p ∈ nodesWeights n nodes v → p ∈ nodesWeights n nodes' v' := by
    intro nodes nodes' v v' h h' p hp
    obtain ⟨i, rfl⟩ := (mem_nodesWeights p).mp hp
    have : nodes i ∈ Finset.univ.image nodes' := by
      rw [root h', ← root h]; exact Finset.mem_image_of_mem _ (Finset.mem_univ i)
    obtain ⟨j, _, hj⟩ := Finset.mem_image.mp this
    rw [mem_nodesWeights]
    refine ⟨j, ?_⟩
    have w1 := weight h i
    have w2 := weight h' j
    rw [hj] at w2
    have hne : ∑ k : Fin (n + 1), ((mono k).eval (nodes i) / ∏ j ∈ Finset.range k, beta j) ^ 2 ≠ 0 := by
      intro h0; rw [h0, mul_zero] at w1; exact zero_ne_one w1
    have : v 0 i ^ 2 = v' 0 j ^ 2 := mul_right_cancel₀ hne (w1.trans w2.symm)
    rw [hj, this]
  have hperm : (nodesWeights n nodes v).Perm (nodesWeights n nodes' v') :=
    (List.perm_ext_iff_of_nodup (nodup h) (nodup h')).mpr (fun p => ⟨sub h h' p, sub h' h p⟩)
  refine List.Perm.eq_of_pairwise ?_ (pairwise_nodesWeights nodes v) (pairwise_nodesWeights nodes' v')
    hperm
  rintro ⟨a1, a2⟩ ⟨b1, b2⟩ _ _ h1 h2
  simp only at h1 h2
  rcases h1 with h1 | ⟨h1, h1'⟩ <;> rcases h2 with h2 | ⟨h2, h2'⟩
  · exact absurd (h1.trans h2) (lt_irrefl _)
  · exact absurd h1 (by rw [h2]; exact lt_irrefl _)
  · exact absurd h2 (by rw [h1]; exact lt_irrefl _)
  · rw [h1, le_antisymm h1' h2']

/-- C57, non-vacuity for every size: the matrix has such an eigendecomposition. -/
theorem C57_satisfiable (m : ℕ) : ∃ nodes v, EigResult (jacobi m) nodes v := by
  have hH : (jacobi m).IsHermitian := by
    ext i j
    simp only [Matrix.conjTranspose_apply, star_trivial]
    exact jacobi_symm m j i
  refine ⟨hH.eigenvalues, fun k i => hH.eigenvectorBasis i k, ?_, ?_, ?_⟩
  · intro i j
    have := congrFun (hH.mulVec_eigenvectorBasis i) j
    simpa [Matrix.mulVec, dotProduct] using this
  · intro i
    have h1 := hH.eigenvectorBasis.orthonormal.1 i
    have h2 := EuclideanSpace.norm_sq_eq (hH.eigenvectorBasis i)
    rw [h1] at h2
    simpa using h2.symm
  · have h1 := hH.eigenvectorBasis.orthonormal.linearIndependent
    have h2 := h1.map' (WithLp.linearEquiv 2 ℝ (Fin m → ℝ)).toLinearMap (LinearEquiv.ker _)
    exact h2

/-- C56 and C57 together: on every interval the rule with `n + 1` nodes is the Gauss rule. -/
theorem C57_interval (n : ℕ) (nodes : Fin (n + 1) → ℝ) (v : Matrix (Fin (n + 1)) (Fin (n + 1)) ℝ)
    (h : EigResult (jacobi (n + 1)) nodes v) (c : Interval ℝ) (hc : c.a < c.b) :
    Exact (gaussian (nodesWeights n nodes v) c) (2 * n + 1) ∧
    (∀ w ∈ (gaussian (nodesWeights n nodes v) c).weights, 0 < w) ∧
    (gaussian (nodesWeights n nodes v) c).weights.sum = c.b - c.a ∧
    (∀ x ∈ (gaussian (nodesWeights n nodes v) c).nodes, c.a < x ∧ x < c.b) ∧
    (gaussian (nodesWeights n nodes v) c).nodes.Pairwise (· < ·) := by
  obtain ⟨_, h2, h3, h4⟩ := C57_gauss n nodes v h
  obtain ⟨h5, h6⟩ := C57_nodes n nodes v h
  exact ⟨C56_exact _ _ h2 c hc, (C56_weights _ c hc).1 h3, (C56_weights _ c hc).2 h4,
    (C56_nodes _ c hc).2.1 h6, (C56_nodes _ c hc).2.2 h5⟩

/-- Non-vacuity of C56: the midpoint rule is exact to degree one. -/
example : Exact (gaussian [((0 : ℝ), 2)] ⟨3, 5⟩) 1 := by
  apply C56_exact _ _ _ _ (by norm_num)
  obtain ⟨nodes, v, h⟩ := C57_satisfiable 1
  have : nodesWeights 0 nodes v = [((0 : ℝ), 2)] := by
    have h0 := h.eigen 0 0
    have h1 := h.unit 0
    simp [jacobi] at h0 h1
    have hv : v 0 0 ≠ 0 := by intro hz; rw [hz] at h1; norm_num at h1
    have hn : nodes 0 = 0 := h0.resolve_right hv
    have hw : v 0 0 ^ 2 = 1 := by rcases h1 with h1 | h1 <;> rw [h1] <;> norm_num
    simp [nodesWeights, hn, hw]
  rw [← this]
  exact (C57_gauss 0 nodes v h).2.1

end Verif.Quadrature
