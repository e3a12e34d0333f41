import Verif.Core.OrderConditions

/-!
Property C52: the Runge-Kutta methods have their advertised order.

The specification (`Tree`, `order`, `density`, `weight`, `OrderCondition`) is Butcher's theory: a
method has order `p` iff `Σ b_i Φ_i(t) = 1/γ(t)` for all rooted trees with at most `p` vertices
(given that the nodes are the row sums).  That these algebraic conditions are equivalent to a local
error `O(dt^(p+1))` for smooth right-hand sides is classical and not proved here.
-/

namespace Verif.ODE

/-- A Runge-Kutta method of order `p`: explicit, nodes are row sums, all order conditions hold. -/
def HasOrder {K : Type*} [Field K] (T : Tableau K) (p : ℕ) : Prop :=
  (∀ i < T.size, T.c i = ((List.range T.size).map (fun j => T.A i j)).sum) ∧
  (∀ i < T.size, ∀ j, i ≤ j → T.A i j = 0) ∧
  ∀ t : Tree, t.order ≤ p → OrderCondition T t

theorem tree_le_three (t : Tree) (ht : t.order ≤ 3) :
    t = .leaf ∨ t = .graft .leaf .leaf ∨ t = .graft .leaf (.graft .leaf .leaf) ∨
      t = .graft (.graft .leaf .leaf) .leaf := by
  have pos := Table.order_pos
  cases t with
  | leaf => simp
  | graft t s =>
    cases t with
    | leaf =>
      cases s with
      | leaf => simp
      | graft s1 s2 =>
        cases s1 with
        | leaf =>
          cases s2 with
          | leaf => simp
          | graft a b => have := pos a; have := pos b; simp [Tree.order] at ht; omega
        | graft a b => have := pos a; have := pos b; have := pos s2; simp [Tree.order] at ht; omega
    | graft t1 t2 =>
      cases s with
      | graft a b =>
        have := pos a; have := pos b; have := pos t1; have := pos t2; simp [Tree.order] at ht; omega
      | leaf =>
        cases t1 with
        | graft a b => have := pos a; have := pos b; have := pos t2; simp [Tree.order] at ht; omega
        | leaf =>
          cases t2 with
          | leaf => simp
          | graft a b => have := pos a; have := pos b; simp [Tree.order] at ht; omega

/-- C52.  Forward Euler has order 1, Heun order 2, SSP3 order 3, RK8 order 8. -/
theorem C52_orders :
    HasOrder (forwardEuler ℝ) 1 ∧ HasOrder (heun ℝ) 2 ∧ HasOrder (ssp3 ℝ) 3 ∧ HasOrder rk8 8 := by
  refine ⟨⟨?_, ?_, ?_⟩, ⟨?_, ?_, ?_⟩, ⟨?_, ?_, ?_⟩, ⟨?_, ?_, ?_⟩⟩
  · intro i hi
    have : i = 0 := by simp [forwardEuler] at hi; omega
    subst this; simp [forwardEuler, table]
  · intro i hi j hj
    have : i = 0 := by simp [forwardEuler] at hi; omega
    subst this
    match j with
    | 0 => simp [forwardEuler, table]
    | j + 1 => simp [forwardEuler, table]
  · intro t ht
    have h3 := tree_le_three t (by omega)
    rcases h3 with rfl | rfl | rfl | rfl <;>
      simp [Tree.order] at ht <;>
      norm_num [OrderCondition, forwardEuler, Tree.weight, Tree.density, Tree.order,
        Tree.branchDensity, table, List.range_succ]
  · intro i hi
    have : i = 0 ∨ i = 1 := by simp [heun] at hi; omega
    rcases this with rfl | rfl <;> simp [heun, table, List.range_succ]
  · intro i hi j hj
    have : i = 0 ∨ i = 1 := by simp [heun] at hi; omega
    match j with
    | 0 => rcases this with rfl | rfl <;> simp [heun, table] at hj ⊢
    | 1 => rcases this with rfl | rfl <;> simp [heun, table] at hj ⊢
    | j + 2 => rcases this with rfl | rfl <;> simp [heun, table]
  · intro t ht
    have h3 := tree_le_three t (by omega)
    rcases h3 with rfl | rfl | rfl | rfl <;>
      simp [Tree.order] at ht <;>
      norm_num [OrderCondition, heun, Tree.weight, Tree.density, Tree.order,
        Tree.branchDensity, table, List.range_succ]
  · intro i hi
    have : i = 0 ∨ i = 1 ∨ i = 2 := by simp [ssp3] at hi; omega
    rcases this with rfl | rfl | rfl <;> norm_num [ssp3, table, List.range_succ]
  · intro i hi j hj
    have : i = 0 ∨ i = 1 ∨ i = 2 := by simp [ssp3] at hi; omega
    match j with
    | 0 => rcases this with rfl | rfl | rfl <;> simp [ssp3, table] at hj ⊢
    | 1 => rcases this with rfl | rfl | rfl <;> simp [ssp3, table] at hj ⊢
    | 2 => rcases this with rfl | rfl | rfl <;> simp [ssp3, table] at hj ⊢
    | j + 3 => rcases this with rfl | rfl | rfl <;> simp [ssp3, table]
  · intro t ht
    have h3 := tree_le_three t (by omega)
    rcases h3 with rfl | rfl | rfl | rfl <;>
      norm_num [OrderCondition, ssp3, Tree.weight, Tree.density, Tree.order,
        Tree.branchDensity, table, List.range_succ]
  · intro i _; rfl
  · intro i hi j hj
    change table (rk8Matrix √21) i j = 0
    unfold table
    rw [List.getD_eq_getElem?_getD, List.getElem?_eq_none]
    · rfl
    · have hi' : i < 11 := hi
      have : ((rk8Matrix √21).getD i []).length ≤ i := by
        interval_cases i <;> simp [rk8Matrix]
      omega
  · intro t ht
    exact Table.rk8_order _ (Real.mul_self_sqrt (by norm_num)) t ht

/-- The orders are sharp: none of the first three methods has a higher order. -/
theorem C52_sharp :
    ¬ HasOrder (forwardEuler ℝ) 2 ∧ ¬ HasOrder (heun ℝ) 3 ∧ ¬ HasOrder (ssp3 ℝ) 4 := by
  refine ⟨?_, ?_, ?_⟩
  · rintro ⟨_, _, h⟩
    have := h (.graft .leaf .leaf) (by simp [Tree.order])
    norm_num [OrderCondition, forwardEuler, Tree.weight, Tree.density, Tree.order,
        Tree.branchDensity, table, List.range_succ] at this
  · rintro ⟨_, _, h⟩
    have := h (.graft .leaf (.graft .leaf .leaf)) (by simp [Tree.order])
    norm_num [OrderCondition, heun, Tree.weight, Tree.density, Tree.order,
        Tree.branchDensity, table, List.range_succ] at this
  · rintro ⟨_, _, h⟩
    have := h (.graft .leaf (.graft .leaf (.graft .leaf .leaf))) (by simp [Tree.order])
    norm_num [OrderCondition, ssp3, Tree.weight, Tree.density, Tree.order,
        Tree.branchDensity, table, List.range_succ] at this

/-- Non-vacuity: a tree with eight vertices. -/
example : (Tree.graft (.graft .leaf (.graft .leaf .leaf)) (.graft (.graft .leaf .leaf)
    (.graft (.graft .leaf .leaf) .leaf))).order = 8 := by decide

end Verif.ODE
