import Verif.Props.FELow
import Verif.Props.FEIndex

/-!
Lemmas for the monolithic convex limiting of the finite element solver (property C69).
-/

set_option linter.unusedSectionVars false

namespace Verif.FE

open Verif.Py Polynomial
open Verif.Mesh hiding Error
open Verif.Quadrature
open Verif.Scalar
open Verif.ODE

/-! ### The loop -/

theorem sum_combinations (n : ℕ) (w : ℕ × ℕ → ℝ) :
    ((combinations n).map w).sum =
      ∑ l ∈ Finset.range n, ∑ l' ∈ Finset.range n, if l < l' then w (l, l') else 0 := by
  unfold combinations
  rw [sum_flatMap_range]
  apply Finset.sum_congr rfl
  intro l _
  have key : ∀ L : List ℕ, (((L.filter fun l' => l < l').map fun l' => (l, l')).map w).sum =
      (L.map fun l' => if l < l' then w (l, l') else 0).sum := by
    intro L
    induction L with
    | nil => rfl
    | cons a L ih =>
      by_cases h : l < a
      · simp [h, ← ih]
      · simp [h, ← ih]
  rw [key]
  have := sum_map_range n id (fun l' => if l < l' then w (l, l') else 0)
  simpa using this

theorem mem_combinations (n : ℕ) (q : ℕ × ℕ) (h : q ∈ combinations n) : q.1 < q.2 ∧ q.2 < n := by
  unfold combinations at h
  simp only [List.mem_flatMap, List.mem_map, List.mem_filter, List.mem_range,
    decide_eq_true_eq] at h
  obtain ⟨l, _, l', ⟨h2, h3⟩, rfl⟩ := h
  exact ⟨h3, h2⟩

/-- The limited flux between two degrees of freedom. -/
noncomputable def fluxAt (M D C : SysMatrix ℝ) (u f r umax umin : List ℝ) (i j : ℕ) : ℝ :=
  limitedFlux (M.lil i j) (D.lil i j) (C.lil i j) (u.getD i 0) (u.getD j 0) (f.getD i 0)
    (f.getD j 0) (r.getD i 0) (r.getD j 0) (umax.getD i 0) (umax.getD j 0) (umin.getD i 0)
    (umin.getD j 0)

theorem matrix_get (A : SysMatrix ℝ) (i j : ℕ) (hi : i < A.dimension) (hj : j < A.dimension) :
    A.get (i : ℤ) (j : ℤ) = .ok (A.lil i j) := by
  unfold SysMatrix.get
  rw [if_pos ⟨by omega, by omega, by omega, by omega⟩]
  rfl

theorem list_get (u : List ℝ) (i : ℕ) (hi : i < u.length) :
    Py.get u (i : ℤ) = .ok (u.getD i 0) := by
  rw [get_nat u hi, List.getD_eq_getElem _ _ hi]

theorem addAt_nat (v : List ℝ) (i : ℕ) (x : ℝ) (hi : i < v.length) :
    addAt v (i : ℤ) x = .ok (v.modify i (· + x)) := by
  unfold addAt
  rw [if_pos ⟨by omega, by omega⟩]
  rfl

theorem correctPair_spec (g : IndexMap) (hp : 0 < g.degree) (M D C : SysMatrix ℝ)
    (u f r umax umin corr : List ℝ) (N : ℕ) (hN : g.dimension = N) (hM : M.dimension = N)
    (hD : D.dimension = N) (hC : C.dimension = N) (hu : u.length = N) (hf : f.length = N)
    (hr : r.length = N) (hmax : umax.length = N) (hmin : umin.length = N) (hcorr : corr.length = N)
    (c : ℕ) (q : ℕ × ℕ) (hc : c < g.meshSize) (h1 : q.1 ≤ g.degree) (h2 : q.2 ≤ g.degree) :
    ∃ corr', correctPair g M D C u f r umax umin corr c q = .ok corr' ∧ corr'.length = N ∧
      ∀ k, corr'.getD k 0 = corr.getD k 0 +
        ((if g.idx c q.1 = k then fluxAt M D C u f r umax umin (g.idx c q.1) (g.idx c q.2) else 0) -
        (if g.idx c q.2 = k then fluxAt M D C u f r umax umin (g.idx c q.1) (g.idx c q.2) else 0)) := by
  have l1 := idx_lt g c q.1 hc h1 hp
  have l2 := idx_lt g c q.2 hc h2 hp
  rw [hN] at l1 l2
  refine ⟨(corr.modify (g.idx c q.1)
    (· + fluxAt M D C u f r umax umin (g.idx c q.1) (g.idx c q.2))).modify (g.idx c q.2)
    (· + -fluxAt M D C u f r umax umin (g.idx c q.1) (g.idx c q.2)), ?_, ?_, ?_⟩
  · unfold correctPair
    simp only [call_nat g _ _ h1, call_nat g _ _ h2, bind, Except.bind]
    rw [matrix_get M _ _ (by omega) (by omega), matrix_get D _ _ (by omega) (by omega),
      matrix_get C _ _ (by omega) (by omega)]
    simp only [list_get u _ (show g.idx c q.1 < u.length by omega),
      list_get u _ (show g.idx c q.2 < u.length by omega),
      list_get f _ (show g.idx c q.1 < f.length by omega),
      list_get f _ (show g.idx c q.2 < f.length by omega),
      list_get r _ (show g.idx c q.1 < r.length by omega),
      list_get r _ (show g.idx c q.2 < r.length by omega),
      list_get umax _ (show g.idx c q.1 < umax.length by omega),
      list_get umax _ (show g.idx c q.2 < umax.length by omega),
      list_get umin _ (show g.idx c q.1 < umin.length by omega),
      list_get umin _ (show g.idx c q.2 < umin.length by omega)]
    rw [addAt_nat _ _ _ (by omega)]
    simp only
    rw [addAt_nat _ _ _ (by rw [List.length_modify]; omega)]
    rfl
  · simp [hcorr]
  · intro k
    rw [getD_modify _ _ _ _ (by rw [List.length_modify]; omega), getD_modify _ _ _ _ (by omega)]
    split <;> split <;> ring

/-- The loop indices. -/
def mclLoop (g : IndexMap) : List (ℕ × ℕ × ℕ) :=
  (List.range g.meshSize).flatMap fun c => (combinations (g.degree + 1)).map fun q => (c, q)

theorem sum_mclLoop (g : IndexMap) (w : ℕ × ℕ × ℕ → ℝ) :
    ((mclLoop g).map w).sum = ∑ c ∈ Finset.range g.meshSize, ∑ l ∈ Finset.range (g.degree + 1),
      ∑ l' ∈ Finset.range (g.degree + 1), if l < l' then w (c, l, l') else 0 := by
  unfold mclLoop
  rw [sum_flatMap_range]
  apply Finset.sum_congr rfl
  intro c _
  rw [List.map_map, sum_combinations]
  rfl

theorem mem_mclLoop (g : IndexMap) (x : ℕ × ℕ × ℕ) (h : x ∈ mclLoop g) :
    x.1 < g.meshSize ∧ x.2.1 < x.2.2 ∧ x.2.2 ≤ g.degree := by
  unfold mclLoop at h
  simp only [List.mem_flatMap, List.mem_map, List.mem_range] at h
  obtain ⟨c, hc, q, hq, rfl⟩ := h
  obtain ⟨h1, h2⟩ := mem_combinations _ _ hq
  exact ⟨hc, h1, Nat.lt_succ_iff.mp h2⟩

/-- What the loop adds up for one degree of freedom. -/
noncomputable def correction (g : IndexMap) (G : ℕ → ℕ → ℝ) (k : ℕ) : ℝ :=
  ∑ c ∈ Finset.range g.meshSize, ∑ l ∈ Finset.range (g.degree + 1),
    ∑ l' ∈ Finset.range (g.degree + 1), if l < l' then
      (if g.idx c l = k then G (g.idx c l) (g.idx c l') else 0) -
      (if g.idx c l' = k then G (g.idx c l) (g.idx c l') else 0) else 0

theorem loop_spec (g : IndexMap) (hp : 0 < g.degree) (M D C : SysMatrix ℝ)
    (u f r umax umin : List ℝ) (N : ℕ) (hN : g.dimension = N) (hM : M.dimension = N)
    (hD : D.dimension = N) (hC : C.dimension = N) (hu : u.length = N) (hf : f.length = N)
    (hr : r.length = N) (hmax : umax.length = N) (hmin : umin.length = N) :
    ∃ corr, (mclLoop g).foldlM
        (fun corr x => correctPair g M D C u f r umax umin corr x.1 x.2)
        (List.replicate u.length 0) = .ok corr ∧ corr.length = N ∧
      ∀ k, corr.getD k 0 = correction g (fluxAt M D C u f r umax umin) k := by
  have key : ∀ (L : List (ℕ × ℕ × ℕ)) (v0 : List ℝ), v0.length = N →
      (∀ x ∈ L, x.1 < g.meshSize ∧ x.2.1 < x.2.2 ∧ x.2.2 ≤ g.degree) →
      ∃ v, L.foldlM (fun corr x => correctPair g M D C u f r umax umin corr x.1 x.2) v0 = .ok v ∧
        v.length = N ∧ ∀ k, v.getD k 0 = v0.getD k 0 + (L.map fun x : ℕ × ℕ × ℕ =>
          (if g.idx x.1 x.2.1 = k then
            fluxAt M D C u f r umax umin (g.idx x.1 x.2.1) (g.idx x.1 x.2.2) else 0) -
          (if g.idx x.1 x.2.2 = k then
            fluxAt M D C u f r umax umin (g.idx x.1 x.2.1) (g.idx x.1 x.2.2) else 0)).sum := by
    intro L
    induction L with
    | nil => intro v0 h0 _; exact ⟨v0, rfl, h0, fun k => by simp⟩
    | cons x L ih =>
      intro v0 h0 hL
      obtain ⟨h1, h2, h3⟩ := hL x (by simp)
      obtain ⟨v1, a1, a2, a3⟩ := correctPair_spec g hp M D C u f r umax umin v0 N hN hM hD hC hu hf
        hr hmax hmin h0 x.1 x.2 h1 (by omega) h3
      obtain ⟨v, e1, e2, e3⟩ := ih v1 a2 (fun q' hq' => hL q' (by simp [hq']))
      refine ⟨v, ?_, e2, ?_⟩
      · rw [List.foldlM_cons, a1]
        exact e1
      · intro k
        rw [e3 k, a3 k, List.map_cons, List.sum_cons, add_assoc]
  obtain ⟨v, e1, e2, e3⟩ := key (mclLoop g) (List.replicate u.length 0) (by simp [hu])
    (fun x hx => mem_mclLoop g x hx)
  refine ⟨v, e1, e2, ?_⟩
  intro k
  rw [e3 k, sum_mclLoop]
  have : (List.replicate u.length (0 : ℝ)).getD k 0 = 0 := by
    by_cases hk : k < u.length
    · rw [List.getD_eq_getElem _ _ (by simpa using hk)]; simp
    · rw [List.getD_eq_default _ _ (by simpa using hk)]
  rw [this, zero_add]
  rfl

/-- The corrections cancel in pairs. -/
theorem sum_correction (g : IndexMap) (hp : 0 < g.degree) (G : ℕ → ℕ → ℝ) :
    ∑ k ∈ Finset.range g.dimension, correction g G k = 0 := by
  unfold correction
  rw [Finset.sum_comm]
  refine Finset.sum_eq_zero fun c hc => ?_
  rw [Finset.sum_comm]
  refine Finset.sum_eq_zero fun l hl => ?_
  rw [Finset.sum_comm]
  refine Finset.sum_eq_zero fun l' hl' => ?_
  have h1 := idx_lt g c l (Finset.mem_range.mp hc) (Nat.lt_succ_iff.mp (Finset.mem_range.mp hl)) hp
  have h2 := idx_lt g c l' (Finset.mem_range.mp hc) (Nat.lt_succ_iff.mp (Finset.mem_range.mp hl')) hp
  by_cases h : l < l'
  · simp only [h, if_true]
    rw [Finset.sum_sub_distrib, Finset.sum_ite_eq, Finset.sum_ite_eq,
      if_pos (Finset.mem_range.mpr h1), if_pos (Finset.mem_range.mpr h2), sub_self]
  · simp [h]

/-! ### Pairs of degrees of freedom that occur twice -/

/-- On at least two cells a pair of degrees of freedom belongs to one cell only, except for the pair
of end points of the cells of a mesh with two cells. -/
theorem pair_unique (g : IndexMap) (hper : g.periodic = true) (hp : 0 < g.degree)
    (hn : 2 ≤ g.meshSize) (k j : ℕ) (hkj : k ≠ j) (c l l' c₂ m m' : ℕ) (hc : c < g.meshSize)
    (hl : l ≤ g.degree) (hl' : l' ≤ g.degree) (hc₂ : c₂ < g.meshSize) (hm : m ≤ g.degree)
    (hm' : m' ≤ g.degree) (e1 : g.idx c l = k) (e2 : g.idx c l' = j) (e3 : g.idx c₂ m = k)
    (e4 : g.idx c₂ m' = j) :
    (c = c₂ ∧ l = m ∧ l' = m') ∨
      (g.meshSize = 2 ∧ (k = 0 ∧ j = g.degree ∨ k = g.degree ∧ j = 0)) := by
  have key : ∀ c l, c < g.meshSize → l ≤ g.degree → ∀ a, g.idx c l = a →
      (c * g.degree + l = a ∧ a < g.meshSize * g.degree) ∨
      (c * g.degree + l = g.meshSize * g.degree ∧ a = 0 ∧ c + 1 = g.meshSize ∧ l = g.degree) := by
    intro c l hc hl a h
    have h1 : (c + 1) * g.degree ≤ g.meshSize * g.degree := Nat.mul_le_mul_right _ hc
    have h3 : (c + 1) * g.degree = c * g.degree + g.degree := by ring
    have hlt := idx_lt g c l hc hl hp
    have hd : g.dimension = g.meshSize * g.degree := by
      unfold IndexMap.dimension; rw [if_pos hper, Nat.mul_comm]
    rw [hd] at hlt
    unfold IndexMap.idx at h hlt
    split at h
    · rename_i hh
      right
      obtain ⟨a1, a2, -⟩ := hh
      rw [← a1] at *
      omega
    · left
      rename_i hh
      rw [if_neg hh] at hlt
      omega
  have p1 : c < c₂ → c * g.degree + g.degree ≤ c₂ * g.degree := by
    intro h
    have h1 : (c + 1) * g.degree ≤ c₂ * g.degree := Nat.mul_le_mul_right _ h
    have h3 : (c + 1) * g.degree = c * g.degree + g.degree := by ring
    omega
  have p2 : c₂ < c → c₂ * g.degree + g.degree ≤ c * g.degree := by
    intro h
    have h1 : (c₂ + 1) * g.degree ≤ c * g.degree := Nat.mul_le_mul_right _ h
    have h3 : (c₂ + 1) * g.degree = c₂ * g.degree + g.degree := by ring
    omega
  have q1 : c * g.degree + g.degree ≤ g.meshSize * g.degree := by
    have h1 : (c + 1) * g.degree ≤ g.meshSize * g.degree := Nat.mul_le_mul_right _ hc
    have h3 : (c + 1) * g.degree = c * g.degree + g.degree := by ring
    omega
  have q2 : c₂ * g.degree + g.degree ≤ g.meshSize * g.degree := by
    have h1 : (c₂ + 1) * g.degree ≤ g.meshSize * g.degree := Nat.mul_le_mul_right _ hc₂
    have h3 : (c₂ + 1) * g.degree = c₂ * g.degree + g.degree := by ring
    omega
  have q3 : 2 * g.degree ≤ g.meshSize * g.degree := Nat.mul_le_mul_right _ hn
  have q4 : g.meshSize * g.degree = 2 * g.degree → g.meshSize = 2 := fun h =>
    Nat.eq_of_mul_eq_mul_right hp h
  have k1 := key c l hc hl k e1
  have k2 := key c l' hc hl' j e2
  have k3 := key c₂ m hc₂ hm k e3
  have k4 := key c₂ m' hc₂ hm' j e4
  rcases Nat.lt_trichotomy c c₂ with h | h | h
  · have := p1 h
    right
    by_cases h2 : g.meshSize * g.degree = 2 * g.degree
    · exact ⟨q4 h2, by omega⟩
    · exfalso; omega
  · subst h
    left
    omega
  · have := p2 h
    right
    by_cases h2 : g.meshSize * g.degree = 2 * g.degree
    · exact ⟨q4 h2, by omega⟩
    · exfalso; omega

/-- The local indices of a cell belong to different degrees of freedom. -/
theorem idx_ne (g : IndexMap) (hp : 0 < g.degree) (hn : 2 ≤ g.meshSize) (c l l' : ℕ)
    (hc : c < g.meshSize) (hll : l ≠ l') : g.idx c l ≠ g.idx c l' := by
  unfold IndexMap.idx
  have h3 : 1 < g.meshSize := by omega
  split <;> split <;> rename_i h1 h2
  · omega
  · have : 0 < c := by omega
    have := Nat.mul_pos this hp
    omega
  · have : 0 < c := by omega
    have := Nat.mul_pos this hp
    omega
  · omega

/-- The number of cells that contain two degrees of freedom. -/
noncomputable def count (g : IndexMap) (i j : ℕ) : ℝ :=
  ∑ c ∈ Finset.range g.meshSize, ∑ l ∈ Finset.range (g.degree + 1),
    ∑ l' ∈ Finset.range (g.degree + 1), if g.idx c l = i ∧ g.idx c l' = j then 1 else 0

theorem count_le (g : IndexMap) (hper : g.periodic = true) (hp : 0 < g.degree)
    (hn : 2 ≤ g.meshSize) (k j : ℕ) (hkj : k ≠ j)
    (hex : ¬(g.meshSize = 2 ∧ (k = 0 ∧ j = g.degree ∨ k = g.degree ∧ j = 0))) :
    0 ≤ count g k j ∧ count g k j ≤ 1 := by
  have e : count g k j = ((((Finset.range g.meshSize) ×ˢ ((Finset.range (g.degree + 1)) ×ˢ
      (Finset.range (g.degree + 1)))).filter fun t => g.idx t.1 t.2.1 = k ∧ g.idx t.1 t.2.2 = j).card
      : ℝ) := by
    unfold count
    rw [Finset.card_filter]
    push_cast
    rw [Finset.sum_product]
    apply Finset.sum_congr rfl
    intro c _
    rw [Finset.sum_product]
  rw [e]
  refine ⟨by positivity, ?_⟩
  have : (((Finset.range g.meshSize) ×ˢ ((Finset.range (g.degree + 1)) ×ˢ
      (Finset.range (g.degree + 1)))).filter fun t => g.idx t.1 t.2.1 = k ∧ g.idx t.1 t.2.2 = j).card
      ≤ 1 := by
    rw [Finset.card_le_one]
    rintro ⟨c, l, l'⟩ h1 ⟨c₂, m, m'⟩ h2
    simp only [Finset.mem_filter, Finset.mem_product, Finset.mem_range] at h1 h2
    rcases pair_unique g hper hp hn k j hkj c l l' c₂ m m' h1.1.1 (by omega) (by omega) h2.1.1
      (by omega) (by omega) h1.2.1 h1.2.2 h2.2.1 h2.2.2 with h | h
    · obtain ⟨rfl, rfl, rfl⟩ := h; rfl
    · exact absurd h hex
  exact_mod_cast this

/-- The correction of a degree of freedom is bounded by the sum of the bounds of its neighbours. -/
theorem correction_le (g : IndexMap) (hper : g.periodic = true) (hp : 0 < g.degree)
    (hn : 2 ≤ g.meshSize) (G B : ℕ → ℕ → ℝ)
    (h1 : ∀ i j, i < g.dimension → j < g.dimension → i ≠ j → G i j ≤ B i j ∧ -G i j ≤ B j i)
    (h0 : ∀ i j, i < g.dimension → j < g.dimension → i ≠ j → 0 ≤ B i j)
    (hex : ∀ i j, i ≠ j →
      g.meshSize = 2 ∧ (i = 0 ∧ j = g.degree ∨ i = g.degree ∧ j = 0) → B i j = 0)
    (k : ℕ) (hk : k < g.dimension) :
    correction g G k ≤ ∑ j ∈ (Finset.range g.dimension).erase k, B k j := by
  -- first step: bounds of the limited fluxes
  have s1 : correction g G k ≤ ∑ c ∈ Finset.range g.meshSize, ∑ l ∈ Finset.range (g.degree + 1),
      ∑ l' ∈ Finset.range (g.degree + 1), ((if l < l' then
        (if g.idx c l = k then B k (g.idx c l') else 0) else 0) + (if l < l' then
        (if g.idx c l' = k then B k (g.idx c l) else 0) else 0)) := by
    unfold correction
    refine Finset.sum_le_sum fun c hc => Finset.sum_le_sum fun l hl => Finset.sum_le_sum fun l' hl' => ?_
    have i1 := idx_lt g c l (Finset.mem_range.mp hc) (Nat.lt_succ_iff.mp (Finset.mem_range.mp hl)) hp
    have i2 := idx_lt g c l' (Finset.mem_range.mp hc)
      (Nat.lt_succ_iff.mp (Finset.mem_range.mp hl')) hp
    by_cases h : l < l'
    · have hne := idx_ne g hp hn c l l' (Finset.mem_range.mp hc) (by omega)
      obtain ⟨b1, b2⟩ := h1 _ _ i1 i2 hne
      simp only [h, if_true]
      by_cases e1 : g.idx c l = k
      · have e2 : g.idx c l' ≠ k := fun e => hne (e1.trans e.symm)
        rw [if_pos e1, if_neg e2, if_pos e1, if_neg e2]
        rw [e1] at b1 ⊢
        linarith
      · rw [if_neg e1, if_neg e1]
        by_cases e2 : g.idx c l' = k
        · rw [if_pos e2, if_pos e2]
          rw [e2] at b2 ⊢
          linarith
        · rw [if_neg e2, if_neg e2]; simp
    · simp [h]
  -- second step: both halves are one sum over ordered pairs
  have s2 : ∀ c ∈ Finset.range g.meshSize, ∑ l ∈ Finset.range (g.degree + 1),
      ∑ l' ∈ Finset.range (g.degree + 1), ((if l < l' then
        (if g.idx c l = k then B k (g.idx c l') else 0) else 0) + (if l < l' then
        (if g.idx c l' = k then B k (g.idx c l) else 0) else 0)) =
      ∑ l ∈ Finset.range (g.degree + 1), if g.idx c l = k then
        ∑ l' ∈ Finset.range (g.degree + 1),
          1 * (if g.idx c l' = k then 0 else B k (g.idx c l')) else 0 := by
    intro c hc
    simp only [Finset.sum_add_distrib]
    rw [Finset.sum_comm (f := fun l l' => if l < l' then
      (if g.idx c l' = k then B k (g.idx c l) else 0) else 0), ← Finset.sum_add_distrib]
    apply Finset.sum_congr rfl
    intro l _
    rw [← Finset.sum_add_distrib]
    by_cases e1 : g.idx c l = k
    · rw [if_pos e1]
      apply Finset.sum_congr rfl
      intro l' _
      by_cases hll : l = l'
      · subst hll
        simp [e1]
      · have e2 : g.idx c l' ≠ k := fun e =>
          idx_ne g hp hn c l l' (Finset.mem_range.mp hc) hll (e1.trans e.symm)
        simp only [e1, if_true, if_neg e2, one_mul]
        rcases Nat.lt_or_gt_of_ne hll with h | h
        · rw [if_pos h, if_neg (by omega), add_zero]
        · rw [if_neg (by omega), if_pos h, zero_add]
    · simp [e1]
  rw [Finset.sum_congr rfl s2, ← assembled_row g hp (fun _ _ _ => 1) (count g) (fun _ _ => rfl)
    (fun j => if j = k then 0 else B k j) k] at s1
  refine s1.trans ?_
  rw [← Finset.add_sum_erase _ _ (Finset.mem_range.mpr hk)]
  simp only [if_true, mul_zero, zero_add]
  refine Finset.sum_le_sum fun j hj => ?_
  have hjk := Finset.ne_of_mem_erase hj
  have hj' := Finset.mem_range.mp (Finset.mem_of_mem_erase hj)
  rw [if_neg hjk]
  by_cases he : g.meshSize = 2 ∧ (k = 0 ∧ j = g.degree ∨ k = g.degree ∧ j = 0)
  · rw [hex k j hjk.symm he, mul_zero]
  · obtain ⟨c0, c1⟩ := count_le g hper hp hn k j hjk.symm he
    have := h0 k j hk hj' hjk.symm
    nlinarith

/-- The discrete gradient between the end points of the cells of a mesh with two cells vanishes. -/
theorem gradient_exceptional (gauss : ℕ → List (ℝ × ℝ)) (hg : IsGauss gauss) (s : Space ℝ)
    (hp : 0 < s.degree) (A : SysMatrix ℝ) (hA : discreteGradient gauss s = .ok A)
    (hn : s.cells.length = 2) (i j : ℕ) (hij : i = 0 ∧ j = s.degree ∨ i = s.degree ∧ j = 0) :
    A.lil i j = 0 := by
  obtain ⟨A', g1, -, -, g4⟩ := gradient_spec gauss s hp
  obtain rfl : A' = A := Except.ok.inj (g1.symm.trans hA)
  have h0 : A'.lil 0 s.degree = 0 := by
    have i0 : ∀ l, l ≤ s.degree → s.map.idx 0 l = l := by
      intro l hl
      unfold IndexMap.idx
      simp only [Space.map, hn]
      simp
    have i1 : ∀ l, l < s.degree → s.map.idx 1 l = s.degree + l := by
      intro l hl
      unfold IndexMap.idx
      simp only [Space.map]
      rw [if_neg (by omega), one_mul]
    have i2 : s.map.idx 1 s.degree = 0 := by
      unfold IndexMap.idx
      simp only [Space.map, hn]
      simp
    rw [g4, hn, Finset.sum_range_succ, Finset.sum_range_one]
    have a1 : ∑ l ∈ Finset.range (s.degree + 1), ∑ l' ∈ Finset.range (s.degree + 1),
        (if s.map.idx 0 l = 0 ∧ s.map.idx 0 l' = s.degree then gradientEntry gauss s 0 l l' else 0) =
        gradientEntry gauss s 0 0 s.degree := by
      rw [Finset.sum_eq_single 0, Finset.sum_eq_single s.degree]
      · rw [if_pos ⟨i0 0 (by omega), i0 _ le_rfl⟩]
      · intro l' hl' hne
        rw [if_neg]
        rintro ⟨-, e⟩
        rw [i0 l' (Nat.lt_succ_iff.mp (Finset.mem_range.mp hl'))] at e
        exact hne e
      · intro h; exact absurd (Finset.mem_range.mpr (Nat.lt_succ_self _)) h
      · intro l hl hne
        refine Finset.sum_eq_zero fun l' _ => ?_
        rw [if_neg]
        rintro ⟨e, -⟩
        rw [i0 l (Nat.lt_succ_iff.mp (Finset.mem_range.mp hl))] at e
        exact hne e
      · intro h; exact absurd (Finset.mem_range.mpr (Nat.succ_pos _)) h
    have a2 : ∑ l ∈ Finset.range (s.degree + 1), ∑ l' ∈ Finset.range (s.degree + 1),
        (if s.map.idx 1 l = 0 ∧ s.map.idx 1 l' = s.degree then gradientEntry gauss s 1 l l' else 0) =
        gradientEntry gauss s 0 s.degree 0 := by
      rw [Finset.sum_eq_single s.degree, Finset.sum_eq_single 0]
      · rw [if_pos ⟨i2, by rw [i1 0 hp, add_zero]⟩]
        rfl
      · intro l' hl' hne
        rw [if_neg]
        rintro ⟨-, e⟩
        rcases Nat.lt_or_eq_of_le (Nat.lt_succ_iff.mp (Finset.mem_range.mp hl')) with h | h
        · rw [i1 l' h] at e; omega
        · rw [h, i2] at e; omega
      · intro h; exact absurd (Finset.mem_range.mpr (Nat.succ_pos _)) h
      · intro l hl hne
        refine Finset.sum_eq_zero fun l' _ => ?_
        rw [if_neg]
        rintro ⟨e, -⟩
        rcases Nat.lt_or_eq_of_le (Nat.lt_succ_iff.mp (Finset.mem_range.mp hl)) with h | h
        · rw [i1 l h] at e; omega
        · exact hne h
      · intro h; exact absurd (Finset.mem_range.mpr (Nat.lt_succ_self _)) h
    rw [a1, a2, gradientEntry_add gauss hg s hp 0 0 s.degree (by omega) le_rfl,
      if_neg (by omega), if_neg (by omega), sub_zero]
  rcases hij with ⟨rfl, rfl⟩ | ⟨rfl, rfl⟩
  · exact h0
  · rw [gradient_antisymm gauss hg s hp A' hA 0 s.degree, h0, neg_zero]

/-! ### The limited flux -/

/-- Bounds of the limited flux.  `w` is the common value of both bar states times `2 d`. -/
theorem limitedFlux_bounds (mij dij cij ui uj fi fj ri rj Mi Mj mi mj : ℝ)
    (h1 : dij * (uj + ui) + (fi - fj) * cij ≤ 2 * dij * Mi)
    (h2 : dij * (uj + ui) + (fi - fj) * cij ≤ 2 * dij * Mj)
    (h3 : 2 * dij * mi ≤ dij * (uj + ui) + (fi - fj) * cij)
    (h4 : 2 * dij * mj ≤ dij * (uj + ui) + (fi - fj) * cij) :
    let w := dij * (uj + ui) + (fi - fj) * cij
    let F := limitedFlux mij dij cij ui uj fi fj ri rj Mi Mj mi mj
    F ≤ 2 * dij * Mi - w ∧ -F ≤ 2 * dij * Mj - w ∧ -F ≤ w - 2 * dij * mi ∧ F ≤ w - 2 * dij * mj := by
  intro w F
  have e : F = max (max (2 * dij * mi - w) (w - 2 * dij * Mj))
      (min (min (2 * dij * Mi - w) (w - 2 * dij * mj)) (mij * (ri - rj) + dij * (ui - uj))) := rfl
  have hmax1 : max (2 * dij * mi - w) (w - 2 * dij * Mj) ≤ 0 :=
    max_le (by linarith) (by linarith)
  have hmin0 : 0 ≤ min (2 * dij * Mi - w) (w - 2 * dij * mj) :=
    le_min (by linarith) (by linarith)
  have hup : F ≤ min (2 * dij * Mi - w) (w - 2 * dij * mj) := by
    rw [e]
    exact max_le (hmax1.trans hmin0) (min_le_left _ _)
  have hlow : max (2 * dij * mi - w) (w - 2 * dij * Mj) ≤ F := by
    rw [e]; exact le_max_left _ _
  have a1 := hup.trans (min_le_left _ _)
  have a2 := hup.trans (min_le_right _ _)
  have a3 := (le_max_left _ _).trans hlow
  have a4 := (le_max_right _ _).trans hlow
  exact ⟨a1, by linarith, by linarith, a2⟩

end Verif.FE
