import Verif.Core.FESystem

/-!
Lemmas about the assembly of vectors and matrices and about the local Lagrange basis.
-/

set_option linter.unusedSectionVars false

namespace Verif.FE

open Verif.Py Polynomial
open Verif.Mesh hiding Error
open Verif.Quadrature

variable {K : Type} [Field K] [LinearOrder K] [IsStrictOrderedRing K]

/-! ### Sums over the loop indices -/

theorem sum_flatMap_range {α : Type*} (n : ℕ) (f : ℕ → List α) (w : α → K) :
    (((List.range n).flatMap f).map w).sum = ∑ c ∈ Finset.range n, ((f c).map w).sum := by
  induction n with
  | zero => simp
  | succ n ih =>
    rw [List.range_succ, List.flatMap_append, List.map_append, List.sum_append, ih,
      Finset.sum_range_succ]
    simp

theorem sum_map_range {α : Type*} (n : ℕ) (f : ℕ → α) (w : α → K) :
    (((List.range n).map f).map w).sum = ∑ l ∈ Finset.range n, w (f l) := by
  induction n with
  | zero => simp
  | succ n ih => rw [List.range_succ, Finset.sum_range_succ, ← ih]; simp

theorem sum_locals (g : IndexMap) (w : ℕ × ℕ → K) :
    (g.locals.map w).sum =
      ∑ c ∈ Finset.range g.meshSize, ∑ l ∈ Finset.range (g.degree + 1), w (c, l) := by
  unfold IndexMap.locals
  rw [sum_flatMap_range]
  apply Finset.sum_congr rfl
  intro c _
  rw [sum_map_range]
  rfl

theorem sum_pairs (g : IndexMap) (w : ℕ × ℕ × ℕ → K) :
    (g.pairs.map w).sum = ∑ c ∈ Finset.range g.meshSize, ∑ l ∈ Finset.range (g.degree + 1),
      ∑ l' ∈ Finset.range (g.degree + 1), w (c, l, l') := by
  unfold IndexMap.pairs
  rw [sum_flatMap_range]
  apply Finset.sum_congr rfl
  intro c _
  rw [sum_flatMap_range]
  apply Finset.sum_congr rfl
  intro l _
  rw [sum_map_range]
  rfl

/-! ### Assembly -/

theorem getD_modify (v : List K) (i k : ℕ) (x : K) (hi : i < v.length) :
    (v.modify i (· + x)).getD k 0 = v.getD k 0 + if i = k then x else 0 := by
  by_cases hk : k < v.length
  · rw [List.getD_eq_getElem _ _ (by simpa using hk), List.getD_eq_getElem _ _ hk,
      List.getElem_modify]
    split <;> simp
  · rw [List.getD_eq_default _ _ (by simpa using hk), List.getD_eq_default _ _ (by simpa using hk),
      if_neg (by omega)]
    simp

theorem assembleVector_spec (g : IndexMap) (hp : 0 < g.degree) (entry : ℕ → ℕ → K) :
    ∃ v, assembleVector g entry = .ok v ∧ v.length = g.dimension ∧
      ∀ k < g.dimension, v.getD k 0 = ∑ c ∈ Finset.range g.meshSize,
        ∑ l ∈ Finset.range (g.degree + 1), if g.idx c l = k then entry c l else 0 := by
  have key : ∀ (L : List (ℕ × ℕ)) (v0 : List K), v0.length = g.dimension →
      (∀ q ∈ L, q.1 < g.meshSize ∧ q.2 ≤ g.degree) →
      ∃ v, L.foldlM (fun v q => do
          let i ← g.call (q.1 : ℕ) (q.2 : ℕ)
          addAt v i (entry q.1 q.2)) v0 = .ok v ∧ v.length = g.dimension ∧
        ∀ k, v.getD k 0 = v0.getD k 0 +
          (L.map fun q => if g.idx q.1 q.2 = k then entry q.1 q.2 else 0).sum := by
    intro L
    induction L with
    | nil => intro v0 h0 _; exact ⟨v0, rfl, h0, fun k => by simp⟩
    | cons q L ih =>
      intro v0 h0 hL
      obtain ⟨h1, h2⟩ := hL q (by simp)
      have hlt := idx_lt g q.1 q.2 h1 h2 hp
      obtain ⟨v, e1, e2, e3⟩ := ih (v0.modify (g.idx q.1 q.2) (· + entry q.1 q.2))
        (by rw [List.length_modify]; exact h0) (fun q' hq' => hL q' (by simp [hq']))
      refine ⟨v, ?_, e2, ?_⟩
      · rw [List.foldlM_cons]
        simp only [call_nat g _ _ h2, bind, Except.bind, addAt]
        rw [if_pos ⟨by omega, by omega⟩]
        exact e1
      · intro k
        rw [e3 k, getD_modify _ _ _ _ (by omega), List.map_cons, List.sum_cons, add_assoc]
  obtain ⟨v, e1, e2, e3⟩ := key g.locals (List.replicate g.dimension 0) (by simp)
    (fun q hq => (mem_locals g q).mp hq)
  refine ⟨v, e1, e2, ?_⟩
  intro k hk
  rw [e3 k, sum_locals, List.getD_eq_getElem _ _ (by simpa using hk)]
  simp

theorem assembleMatrix_spec (g : IndexMap) (hp : 0 < g.degree) (entry : ℕ → ℕ → ℕ → K) :
    ∃ A, assembleMatrix g entry = .ok A ∧ A.dimension = g.dimension ∧ A.csr = some A.lil ∧
      ∀ i j, A.lil i j = ∑ c ∈ Finset.range g.meshSize, ∑ l ∈ Finset.range (g.degree + 1),
        ∑ l' ∈ Finset.range (g.degree + 1),
          if g.idx c l = i ∧ g.idx c l' = j then entry c l l' else 0 := by
  have key : ∀ (L : List (ℕ × ℕ × ℕ)) (A0 : SysMatrix K), A0.dimension = g.dimension →
      (∀ q ∈ L, q.1 < g.meshSize ∧ q.2.1 ≤ g.degree ∧ q.2.2 ≤ g.degree) →
      ∃ A, L.foldlM (fun A q => do
          let i ← g.call (q.1 : ℕ) (q.2.1 : ℕ)
          let j ← g.call (q.1 : ℕ) (q.2.2 : ℕ)
          let old ← A.get i j
          A.set i j (old + entry q.1 q.2.1 q.2.2)) A0 = .ok A ∧ A.dimension = g.dimension ∧
        ∀ i j, A.lil i j = A0.lil i j + (L.map fun q =>
          if g.idx q.1 q.2.1 = i ∧ g.idx q.1 q.2.2 = j then entry q.1 q.2.1 q.2.2 else 0).sum := by
    intro L
    induction L with
    | nil => intro A0 h0 _; exact ⟨A0, rfl, h0, fun i j => by simp⟩
    | cons q L ih =>
      intro A0 h0 hL
      obtain ⟨h1, h2, h3⟩ := hL q (by simp)
      have hlt := idx_lt g q.1 q.2.1 h1 h2 hp
      have hlt' := idx_lt g q.1 q.2.2 h1 h3 hp
      obtain ⟨A, e1, e2, e3⟩ := ih
        { A0 with lil := fun a b => if a = g.idx q.1 q.2.1 ∧ b = g.idx q.1 q.2.2 then
            A0.lil (g.idx q.1 q.2.1) (g.idx q.1 q.2.2) + entry q.1 q.2.1 q.2.2 else A0.lil a b }
        h0 (fun q' hq' => hL q' (by simp [hq']))
      refine ⟨A, ?_, e2, ?_⟩
      · rw [List.foldlM_cons]
        simp only [call_nat g _ _ h2, call_nat g _ _ h3, bind, Except.bind, SysMatrix.get,
          SysMatrix.set]
        rw [if_pos ⟨by omega, by omega, by omega, by omega⟩]
        simp only [if_pos (show (0 : ℤ) ≤ (g.idx q.1 q.2.1 : ℤ) ∧
          (g.idx q.1 q.2.1 : ℤ) < A0.dimension ∧ (0 : ℤ) ≤ (g.idx q.1 q.2.2 : ℤ) ∧
          (g.idx q.1 q.2.2 : ℤ) < A0.dimension from ⟨by omega, by omega, by omega, by omega⟩),
          Int.toNat_natCast]
        exact e1
      · intro i j
        rw [e3 i j, List.map_cons, List.sum_cons]
        simp only
        by_cases hij : g.idx q.1 q.2.1 = i ∧ g.idx q.1 q.2.2 = j
        · rw [if_pos ⟨hij.1.symm, hij.2.symm⟩, if_pos hij, hij.1, hij.2, add_assoc]
        · rw [if_neg (fun h => hij ⟨h.1.symm, h.2.symm⟩), if_neg hij, zero_add]
  obtain ⟨A, e1, e2, e3⟩ := key g.pairs (SysMatrix.init g.dimension) rfl
    (fun q hq => (mem_pairs g q).mp hq)
  refine ⟨A.updateCsr, ?_, e2, rfl, ?_⟩
  · unfold assembleMatrix
    rw [e1]
    rfl
  · intro i j
    change A.lil i j = _
    rw [e3 i j, sum_pairs]
    simp [SysMatrix.init]

/-- Summing an assembled vector against another one. -/
theorem sum_indicator (n : ℕ) (f : ℕ → K) (k : ℕ) (hk : k < n) (x : K) :
    ∑ i ∈ Finset.range n, (if k = i then x else 0) * f i = x * f k := by
  rw [Finset.sum_eq_single k]
  · simp
  · intro i _ hi; rw [if_neg (fun h => hi h.symm), zero_mul]
  · intro h; exact absurd (Finset.mem_range.mpr hk) h

/-- The bilinear form of an assembled matrix is the sum of the local bilinear forms. -/
theorem assembled_bilinear (g : IndexMap) (hp : 0 < g.degree) (entry : ℕ → ℕ → ℕ → K)
    (A : ℕ → ℕ → K)
    (hA : ∀ i j, A i j = ∑ c ∈ Finset.range g.meshSize, ∑ l ∈ Finset.range (g.degree + 1),
        ∑ l' ∈ Finset.range (g.degree + 1),
          if g.idx c l = i ∧ g.idx c l' = j then entry c l l' else 0) (u v : ℕ → K) :
    ∑ i ∈ Finset.range g.dimension, ∑ j ∈ Finset.range g.dimension, u i * A i j * v j =
      ∑ c ∈ Finset.range g.meshSize, ∑ l ∈ Finset.range (g.degree + 1),
        ∑ l' ∈ Finset.range (g.degree + 1), u (g.idx c l) * entry c l l' * v (g.idx c l') := by
  simp only [hA, Finset.mul_sum, Finset.sum_mul]
  -- move the sums over the cells outside
  have step : ∀ i ∈ Finset.range g.dimension, ∑ j ∈ Finset.range g.dimension,
      ∑ c ∈ Finset.range g.meshSize, ∑ l ∈ Finset.range (g.degree + 1),
        ∑ l' ∈ Finset.range (g.degree + 1),
          u i * (if g.idx c l = i ∧ g.idx c l' = j then entry c l l' else 0) * v j =
      ∑ c ∈ Finset.range g.meshSize, ∑ l ∈ Finset.range (g.degree + 1),
        ∑ l' ∈ Finset.range (g.degree + 1),
          (if g.idx c l = i then entry c l l' * v (g.idx c l') else 0) * u i := by
    intro i _
    rw [Finset.sum_comm]
    apply Finset.sum_congr rfl
    intro c hc
    rw [Finset.sum_comm]
    apply Finset.sum_congr rfl
    intro l _
    rw [Finset.sum_comm]
    apply Finset.sum_congr rfl
    intro l' hl'
    have hlt := idx_lt g c l' (Finset.mem_range.mp hc)
      (Nat.lt_succ_iff.mp (Finset.mem_range.mp hl')) hp
    rw [Finset.sum_eq_single (g.idx c l')]
    · by_cases h : g.idx c l = i
      · simp [h]; ring
      · simp [h]
    · intro j _ hj
      rw [if_neg (fun h => hj h.2.symm)]
      ring
    · intro h; exact absurd (Finset.mem_range.mpr hlt) h
  rw [Finset.sum_congr rfl step, Finset.sum_comm]
  apply Finset.sum_congr rfl
  intro c hc
  rw [Finset.sum_comm]
  apply Finset.sum_congr rfl
  intro l hl
  rw [Finset.sum_comm]
  apply Finset.sum_congr rfl
  intro l' _
  have hlt := idx_lt g c l (Finset.mem_range.mp hc)
    (Nat.lt_succ_iff.mp (Finset.mem_range.mp hl)) hp
  rw [sum_indicator g.dimension u _ hlt]
  ring

/-! ### The local basis -/

theorem getD_localNodes (p k : ℕ) (hk : k ≤ p) : (localNodes p : List K).getD k 0 = (k : K) / p := by
  unfold localNodes
  rw [List.getD_eq_getElem _ _ (by simp; omega)]
  simp

theorem length_localNodes (p : ℕ) : (localNodes p : List K).length = p + 1 := by simp [localNodes]

/-- The basis polynomials are the Lagrange polynomials of the nodes `k / p`. -/
theorem basis_eq (p i : ℕ) (hi : i ≤ p) :
    basis (K := K) p i = Lagrange.basis (Finset.range (p + 1)) (fun k : ℕ => (k : K) / p) i := by
  unfold basis lagrange
  rw [length_localNodes, Finset.sum_eq_single i]
  · have : (unitVector (K := K) (p + 1) i).getD i 0 = 1 := by
      unfold unitVector
      rw [List.getD_eq_getElem _ _ (by simp; omega)]
      simp
    rw [this, C_1, one_mul]
    unfold Lagrange.basis Lagrange.basisDivisor
    apply Finset.prod_congr rfl
    intro k hk
    have hk' : k < p + 1 := Finset.mem_range.mp (Finset.mem_of_mem_erase hk)
    rw [getD_localNodes p k (by omega), getD_localNodes p i hi, one_div, mul_comm]
  · intro j hj hji
    have : (unitVector (K := K) (p + 1) i).getD j 0 = 0 := by
      unfold unitVector
      rw [List.getD_eq_getElem _ _ (by simpa using hj)]
      simp [hji]
    rw [this, C_0, zero_mul]
  · intro h; exact absurd (Finset.mem_range.mpr (by omega)) h

theorem nodes_injective (p : ℕ) (hp : 0 < p) (s : Set ℕ) :
    Set.InjOn (fun k : ℕ => (k : K) / p) s := by
  intro a _ b _ h
  have hp' : (p : K) ≠ 0 := Nat.cast_ne_zero.mpr hp.ne'
  simp only at h
  rw [div_left_inj' hp'] at h
  exact_mod_cast h

theorem eval_basis (p : ℕ) (hp : 0 < p) (i k : ℕ) (hi : i ≤ p) (hk : k ≤ p) :
    (basis (K := K) p i).eval ((k : K) / p) = if k = i then 1 else 0 := by
  rw [basis_eq p i hi]
  by_cases h : k = i
  · subst h
    rw [if_pos rfl]
    exact Lagrange.eval_basis_self (nodes_injective p hp _) (Finset.mem_range.mpr (by omega))
  · rw [if_neg h]
    exact Lagrange.eval_basis_of_ne (v := fun k : ℕ => (k : K) / p) (fun e => h e.symm)
      (Finset.mem_range.mpr (by omega))

theorem sum_basis (p : ℕ) (hp : 0 < p) : ∑ i ∈ Finset.range (p + 1), basis (K := K) p i = 1 := by
  rw [← Lagrange.sum_basis (nodes_injective (K := K) p hp (Finset.range (p + 1)))
    (Finset.nonempty_range_iff.mpr (by omega))]
  apply Finset.sum_congr rfl
  intro i hi
  exact basis_eq p i (by have := Finset.mem_range.mp hi; omega)

theorem natDegree_basis (p : ℕ) (hp : 0 < p) (i : ℕ) (hi : i ≤ p) :
    (basis (K := K) p i).natDegree = p := by
  rw [basis_eq p i hi]
  have := Lagrange.degree_basis (nodes_injective (K := K) p hp (Finset.range (p + 1)))
    (Finset.mem_range.mpr (show i < p + 1 by omega))
  rw [Finset.card_range, Nat.add_sub_cancel] at this
  exact natDegree_eq_of_degree_eq_some this

/-- Every polynomial of degree at most `p` is the combination of the basis with its node values. -/
theorem eq_sum_basis (p : ℕ) (hp : 0 < p) (q : K[X]) (hq : q.natDegree ≤ p) :
    q = ∑ i ∈ Finset.range (p + 1), C (q.eval ((i : K) / p)) * basis p i := by
  have h := Lagrange.eq_interpolate (s := Finset.range (p + 1)) (f := q)
    (nodes_injective (K := K) p hp (Finset.range (p + 1))) (by
      rw [Finset.card_range]
      exact lt_of_le_of_lt degree_le_natDegree (by exact_mod_cast Nat.lt_succ_of_le hq))
  conv_lhs => rw [h]
  rw [Lagrange.interpolate_apply]
  apply Finset.sum_congr rfl
  intro i hi
  rw [basis_eq p i (by have := Finset.mem_range.mp hi; omega)]

/-! ### Finite element functions -/

theorem foldlM_add_ok {α : Type} (L : List α) (f : α → Except Error K) (g : α → K) (v0 : K)
    (h : ∀ x ∈ L, f x = .ok (g x)) :
    L.foldlM (fun v x => do let y ← f x; .ok (v + y)) v0 = (.ok (v0 + (L.map g).sum) : Except Error K) := by
  induction L generalizing v0 with
  | nil => simp [pure, Except.pure]
  | cons x L ih =>
    rw [List.foldlM_cons, h x (by simp)]
    simp only [bind, Except.bind]
    have := ih (v0 + g x) (fun y hy => h y (by simp [hy]))
    simp only [bind, Except.bind] at this
    rw [this, List.map_cons, List.sum_cons, add_assoc]

theorem get_dof (s : Space K) (hp : 0 < s.degree) (dofs : List K) (hd : dofs.length = s.dimension)
    (c l : ℕ) (hc : c < s.cells.length) (hl : l ≤ s.degree) :
    Py.get dofs (s.map.idx c l : ℤ) = .ok (dofs.getD (s.map.idx c l) 0) := by
  have hlt := idx_lt s.map c l hc hl hp
  have e : s.map.dimension = s.dimension := by
    simp [IndexMap.dimension, Space.map, Space.dimension, Nat.mul_comm]
  rw [get_nat dofs (by omega), List.getD_eq_getElem _ _ (by omega)]

theorem map_dimension (s : Space K) : s.map.dimension = s.dimension := by
  simp [IndexMap.dimension, Space.map, Space.dimension, Nat.mul_comm]

/-- The finite element function on a cell, as a polynomial on the reference cell. -/
noncomputable def Space.poly (s : Space K) (dofs : List K) (c : ℕ) : K[X] :=
  ∑ l ∈ Finset.range (s.degree + 1), C (dofs.getD (s.map.idx c l) 0) * basis s.degree l

theorem value_eq (s : Space K) (hp : 0 < s.degree) (dofs : List K) (hd : dofs.length = s.dimension)
    (c : ℕ) (hc : c < s.cells.length) (x : K) :
    s.value dofs c x = .ok ((s.poly dofs c).eval (affineInverse x (s.cell c))) := by
  have h : s.value dofs c x = (List.range (s.degree + 1)).foldlM (fun v (l : ℕ) => do
      let y ← (do
        let i ← s.map.call c l
        let u ← Py.get dofs i
        .ok (u * (basis s.degree l).eval (affineInverse x (s.cell c))) : Except Error K)
      .ok (v + y)) 0 := by
    unfold Space.value
    congr 1
    funext v l
    cases h1 : s.map.call c l with
    | error e => rfl
    | ok i =>
      cases h2 : Py.get dofs i with
      | error e => simp [h2, bind, Except.bind]
      | ok u => simp [h2, bind, Except.bind]
  rw [h, foldlM_add_ok _ _ (fun l => dofs.getD (s.map.idx c l) 0 *
    (basis s.degree l).eval (affineInverse x (s.cell c)))]
  · rw [zero_add]
    congr 1
    unfold Space.poly
    rw [eval_finset_sum]
    have := sum_map_range (s.degree + 1) id (fun l => dofs.getD (s.map.idx c l) 0 *
      (basis s.degree l).eval (affineInverse x (s.cell c)))
    rw [List.map_id] at this
    rw [this]
    apply Finset.sum_congr rfl
    intro l _
    simp
  · intro l hl
    have hl' : l ≤ s.degree := by have := List.mem_range.mp hl; omega
    simp only [call_nat s.map c l hl', bind, Except.bind, get_dof s hp dofs hd c l hc hl']

theorem derivative_eq (s : Space K) (hp : 0 < s.degree) (dofs : List K)
    (hd : dofs.length = s.dimension) (c : ℕ) (hc : c < s.cells.length) (x : K) :
    s.derivative dofs c x = .ok (affineInverseDerivative (s.cell c) *
      (s.poly dofs c).derivative.eval (affineInverse x (s.cell c))) := by
  have h : s.derivative dofs c x = (do
      let v ← (List.range (s.degree + 1)).foldlM (fun v (l : ℕ) => do
        let y ← (do
          let i ← s.map.call c l
          let u ← Py.get dofs i
          .ok (u * (basis s.degree l).derivative.eval (affineInverse x (s.cell c))) :
            Except Error K)
        .ok (v + y)) 0
      .ok (affineInverseDerivative (s.cell c) * v)) := by
    unfold Space.derivative
    congr 2
    funext v l
    cases h1 : s.map.call c l with
    | error e => rfl
    | ok i =>
      cases h2 : Py.get dofs i with
      | error e => simp [h2, bind, Except.bind]
      | ok u => simp [h2, bind, Except.bind]
  rw [h, foldlM_add_ok _ _ (fun l => dofs.getD (s.map.idx c l) 0 *
    (basis s.degree l).derivative.eval (affineInverse x (s.cell c)))]
  · simp only [bind, Except.bind, zero_add]
    congr 2
    unfold Space.poly
    rw [derivative_sum, eval_finset_sum]
    have := sum_map_range (s.degree + 1) id (fun l => dofs.getD (s.map.idx c l) 0 *
      (basis s.degree l).derivative.eval (affineInverse x (s.cell c)))
    rw [List.map_id] at this
    rw [this]
    apply Finset.sum_congr rfl
    intro l _
    simp
  · intro l hl
    have hl' : l ≤ s.degree := by have := List.mem_range.mp hl; omega
    simp only [call_nat s.map c l hl', bind, Except.bind, get_dof s hp dofs hd c l hc hl']

end Verif.FE
