import Mathlib.Tactic.FieldSimp
import Verif.Core.FEIndex
import Verif.Core.Mesh
import Verif.Props.Mesh

/-!
Properties C61 (global indices), C62 (neighbour indices) and C63 (local bounds).
-/

set_option linter.unusedSectionVars false

namespace Verif.FE

open Verif.Py
open Verif.Mesh hiding Error
open Verif.Scalar

/-! ### C61 -/

/-- C61.  Only positive degrees are accepted. -/
theorem C61_degree (n : ℕ) (p : ℤ) (periodic : Bool) :
    (∃ g, IndexMap.make n p periodic = .ok g) ↔ 0 < p := by
  unfold IndexMap.make
  by_cases h : p > 0
  · simp [h]
  · simp [h]

/-- C61.  Local indices are rejected exactly if they are larger than the degree (negative ones are
not). -/
theorem C61_rejects (n p : ℕ) (hp : 0 < p) (periodic : Bool) (cell loc : ℤ) :
    ∃ g, IndexMap.make n p periodic = .ok g ∧
      (g.call cell loc = .error .assertionError ↔ (p : ℤ) < loc) := by
  refine ⟨⟨n, p, periodic⟩, by simp [IndexMap.make, hp], ?_⟩
  unfold IndexMap.call IndexMap.indicesPerCell
  by_cases h : loc + 1 ≤ ((p + 1 : ℕ) : ℤ)
  · rw [if_pos h]
    split
    · simp; push_cast at h; omega
    · simp; push_cast at h; omega
  · rw [if_neg h]; simp; push_cast at h; omega

/-- C61.  The indices of the local nodes of all cells are exactly the numbers of the degrees of
freedom. -/
theorem C61_onto (n p : ℕ) (hn : 0 < n) (hp : 0 < p) (periodic : Bool) :
    ∃ g, IndexMap.make n p periodic = .ok g ∧
      (g.dimension = if periodic then p * n else p * n + 1) ∧
      ∀ i : ℤ, (∃ c l : ℕ, c < n ∧ l ≤ p ∧ g.call c l = .ok i) ↔ 0 ≤ i ∧ i < g.dimension := by
  refine ⟨⟨n, p, periodic⟩, by simp [IndexMap.make, hp], rfl, ?_⟩
  intro i
  constructor
  · rintro ⟨c, l, hc, hl, h⟩
    rw [call_nat _ _ _ hl] at h
    have := idx_lt ⟨n, p, periodic⟩ c l hc hl hp
    simp only [Except.ok.injEq] at h
    omega
  · rintro ⟨h0, h1⟩
    obtain ⟨c, l, hc, hl, h⟩ := idx_onto ⟨n, p, periodic⟩ hp hn i.toNat (by omega)
    refine ⟨c, l, hc, hl, ?_⟩
    rw [call_nat _ _ _ hl, h, Int.toNat_of_nonneg h0]

section Points

variable {K : Type*} [Field K] [LinearOrder K] [IsStrictOrderedRing K]

/-- The local node `l` of cell `c`, as a point of the domain. -/
def point (mesh : UMesh K) (p c l : ℕ) : K := affine ((l : K) / p) (mesh.cells.getD c ⟨0, 0⟩)

theorem point_eq (d : Interval K) (hd : d.a < d.b) (n p : ℕ) (hn : 0 < n) (hp : 0 < p)
    (mesh : UMesh K) (hm : uniformMesh d n = .ok mesh) (c l : ℕ) (hc : c < n) :
    point mesh p c l = node d (n * p) (c * p + l) := by
  rw [uniformMesh_eq d hd hn] at hm
  simp only [Except.ok.injEq] at hm
  subst hm
  have hn' : (n : K) ≠ 0 := Nat.cast_ne_zero.mpr hn.ne'
  have hp' : (p : K) ≠ 0 := Nat.cast_ne_zero.mpr hp.ne'
  unfold point affine node
  rw [List.getD_eq_getElem _ _ (by simpa using hc)]
  simp only [List.getElem_map, List.getElem_range, Interval.length, node]
  push_cast
  field_simp
  ring

/-- C61.  Two local nodes get the same index if and only if they are the same point of the domain, or
the two ends of the domain on a periodic mesh. -/
theorem C61_same_point (d : Interval K) (hd : d.a < d.b) (n p : ℕ) (hn : 0 < n) (hp : 0 < p)
    (periodic : Bool) (mesh : UMesh K) (hm : uniformMesh d n = .ok mesh) :
    ∃ g, IndexMap.make n p periodic = .ok g ∧
      ∀ c l c' l' : ℕ, c < n → l ≤ p → c' < n → l' ≤ p →
        (g.call c l = g.call c' l' ↔
          point mesh p c l = point mesh p c' l' ∨
          periodic = true ∧ (point mesh p c l = d.a ∧ point mesh p c' l' = d.b ∨
            point mesh p c l = d.b ∧ point mesh p c' l' = d.a)) := by
  refine ⟨⟨n, p, periodic⟩, by simp [IndexMap.make, hp], ?_⟩
  intro c l c' l' hc hl hc' hl'
  have hnp : 0 < n * p := Nat.mul_pos hn hp
  rw [point_eq d hd n p hn hp mesh hm c l hc, point_eq d hd n p hn hp mesh hm c' l' hc',
    call_nat _ _ _ hl, call_nat _ _ _ hl']
  have inj : ∀ i j : ℕ, node d (n * p) i = node d (n * p) j ↔ i = j := by
    intro i j
    constructor
    · intro h
      exact le_antisymm ((node_le_iff d hd hnp).mp h.le) ((node_le_iff d hd hnp).mp h.ge)
    · rintro rfl; rfl
  have e0 : d.a = node d (n * p) 0 := (node_zero d _).symm
  have e1 : d.b = node d (n * p) (n * p) := (node_last d hnp).symm
  rw [e0, e1]
  simp only [inj, Except.ok.injEq, Nat.cast_inj]
  have hend : ∀ a b : ℕ, a < n → b ≤ p → (a + 1 = n ∧ b = p ↔ a * p + b = n * p) := by
    intro a b ha hb
    constructor
    · rintro ⟨rfl, rfl⟩; ring
    · intro h
      have h1 : (a + 1) * p ≤ n * p := Nat.mul_le_mul_right _ ha
      have h2 : (a + 1) * p = a * p + p := by ring
      have h3 : b = p := by omega
      refine ⟨?_, h3⟩
      have : (a + 1) * p = n * p := by omega
      exact Nat.eq_of_mul_eq_mul_right hp this
  unfold IndexMap.idx
  simp only
  cases periodic with
  | false => simp
  | true =>
    have a1 := hend c l hc hl
    have a2 := hend c' l' hc' hl'
    simp only [and_true, true_and]
    by_cases b1 : c + 1 = n ∧ l = p
    · have := a1.mp b1
      rw [if_pos b1]
      by_cases b2 : c' + 1 = n ∧ l' = p
      · have := a2.mp b2
        rw [if_pos b2]; omega
      · rw [if_neg b2]
        have : c' * p + l' ≠ n * p := fun h => b2 (a2.mpr h)
        omega
    · rw [if_neg b1]
      have : c * p + l ≠ n * p := fun h => b1 (a1.mpr h)
      by_cases b2 : c' + 1 = n ∧ l' = p
      · have := a2.mp b2
        rw [if_pos b2]; omega
      · rw [if_neg b2]
        have : c' * p + l' ≠ n * p := fun h => b2 (a2.mpr h)
        omega

end Points

/-- Three cells, degree two, periodic: the seam. -/
example : (⟨3, 2, true⟩ : IndexMap).call 2 2 = .ok 0 ∧ (⟨3, 2, true⟩ : IndexMap).call 0 0 = .ok 0 ∧
    (⟨3, 2, true⟩ : IndexMap).call 1 0 = (⟨3, 2, true⟩ : IndexMap).call 0 2 ∧
    (⟨3, 2, false⟩ : IndexMap).call 2 2 = .ok 6 := by decide +kernel

/-! ### C62 -/

/-- A family of index sets for the indices below `n`: valid, reflexive and symmetric. -/
structure NeighbourStructure (n : ℕ) (nb : List (List ℤ)) : Prop where
  length : nb.length = n
  valid : ∀ i (hi : i < nb.length), ∀ k ∈ nb[i], 0 ≤ k ∧ k < n
  self : ∀ i (hi : i < nb.length), (i : ℤ) ∈ nb[i]
  symm : ∀ i j (hi : i < nb.length) (hj : j < nb.length), (j : ℤ) ∈ nb[i] → (i : ℤ) ∈ nb[j]

/-- C62.  Finite elements: the neighbours are exactly the degrees of freedom that share a cell. -/
theorem C62_finite_elements (n p : ℕ) (hn : 0 < n) (hp : 0 < p) (periodic : Bool) :
    ∃ g nb, IndexMap.make n p periodic = .ok g ∧ dofNeighbours g = .ok nb ∧
      NeighbourStructure g.dimension nb ∧
      ∀ i (hi : i < nb.length) (k : ℤ), k ∈ nb[i] ↔
        ∃ c l l' : ℕ, c < n ∧ l ≤ p ∧ l' ≤ p ∧ g.call c l = .ok (i : ℤ) ∧ g.call c l' = .ok k := by
  set g : IndexMap := ⟨n, p, periodic⟩ with hg
  obtain ⟨nb0, e1, e2, e3⟩ := buildNeighbours_spec g hp
  have hdim : 0 < g.dimension := by
    unfold IndexMap.dimension
    have := Nat.mul_pos hp hn
    simp only [hg]
    split <;> omega
  have hself : ∀ i (hi : i < nb0.length), (i : ℤ) ∈ nb0[i] := by
    intro i hi
    rw [e3 i hi]
    obtain ⟨c, l, hc, hl, h⟩ := idx_onto g hp hn i (by omega)
    exact ⟨c, l, l, hc, hl, hl, h, by rw [h]⟩
  obtain ⟨nb, f1, f2, f3⟩ := fillRows_spec nb0 (by rw [← List.length_pos_iff]; omega) hself
  have f4 : ∀ i (hi : i < nb.length) (k : ℤ), k ∈ nb[i] ↔
      ∃ c l l', c < g.meshSize ∧ l ≤ g.degree ∧ l' ≤ g.degree ∧ g.idx c l = i ∧
          (g.idx c l' : ℤ) = k := by
    intro i hi k
    rw [f3 i hi (by omega), e3 i (by omega)]
  refine ⟨g, nb, by simp [IndexMap.make, hp, hg], ?_, ⟨by omega, ?_, ?_, ?_⟩, ?_⟩
  · simp [dofNeighbours, e1, bind, Except.bind, f1]
  · intro i hi k hk
    obtain ⟨c, l, l', hc, hl, hl', h1, h2⟩ := (f4 i hi k).mp hk
    have := idx_lt g c l' hc hl' hp
    omega
  · intro i hi
    rw [f3 i hi (by omega)]
    exact hself i (by omega)
  · intro i j hi hj h
    obtain ⟨c, l, l', hc, hl, hl', h1, h2⟩ := (f4 i hi j).mp h
    exact (f4 j hj i).mpr ⟨c, l', l, hc, hl', hl, by omega, by omega⟩
  · intro i hi k
    rw [f4 i hi k]
    constructor
    · rintro ⟨c, l, l', hc, hl, hl', h1, h2⟩
      exact ⟨c, l, l', hc, hl, hl', by rw [call_nat _ _ _ hl, h1], by rw [call_nat _ _ _ hl', h2]⟩
    · rintro ⟨c, l, l', hc, hl, hl', h1, h2⟩
      rw [call_nat _ _ _ hl] at h1
      rw [call_nat _ _ _ hl'] at h2
      simp only [Except.ok.injEq] at h1 h2
      exact ⟨c, l, l', hc, hl, hl', by omega, h2⟩

/-- C62.  Finite volumes: the neighbours are the cell and its adjacent cells. -/
theorem C62_finite_volumes (n : ℕ) (hn : 0 < n) (periodic : Bool) :
    ∃ nb, neighbourArray n periodic = .ok nb ∧ NeighbourStructure n nb ∧
      ∀ i (hi : i < nb.length) (j : ℕ), (j : ℤ) ∈ nb[i] ↔
        j < n ∧ (j = i ∨ j = i + 1 ∨ i = j + 1 ∨
          periodic = true ∧ (i = 0 ∧ j + 1 = n ∨ j = 0 ∧ i + 1 = n)) := by
  obtain ⟨nb, h⟩ := neighbourArray_ok n hn periodic
  obtain ⟨h1, h2⟩ := mem_neighbourArray n periodic nb h
  have h3 : ∀ i (hi : i < nb.length) (k : ℤ), k ∈ nb[i] ↔ _ := fun i hi k =>
    (h2 i hi k).trans (mem_neighbourSet n periodic i (h1 ▸ hi) k)
  refine ⟨nb, h, ⟨h1, ?_, ?_, ?_⟩, ?_⟩
  · intro i hi k hk
    rw [h3 i hi] at hk
    omega
  · intro i hi
    rw [h3 i hi]
    omega
  · intro i j hi hj hij
    rw [h3 i hi] at hij
    rw [h3 j hj]
    rcases hij with hij | ⟨a, b, c⟩ | ⟨a, b, c⟩
    · exact Or.inl (by omega)
    · exact Or.inr (Or.inr ⟨a, by omega, by omega⟩)
    · exact Or.inr (Or.inl ⟨a, by omega, by omega⟩)
  · intro i hi j
    rw [h3 i hi]
    constructor
    · rintro (hij | ⟨a, b, c⟩ | ⟨a, b, c⟩)
      · omega
      · exact ⟨by omega, Or.inr (Or.inr (Or.inr ⟨a, Or.inl ⟨b, by omega⟩⟩))⟩
      · exact ⟨by omega, Or.inr (Or.inr (Or.inr ⟨a, Or.inr ⟨by omega, b⟩⟩))⟩
    · rintro ⟨hj, hij | hij | hij | ⟨a, hij | hij⟩⟩
      · exact Or.inl (by omega)
      · exact Or.inl (by omega)
      · exact Or.inl (by omega)
      · exact Or.inr (Or.inl ⟨a, hij.1, by omega⟩)
      · exact Or.inr (Or.inr ⟨a, hij.2, by omega⟩)

/-- Two periodic cells of degree two: the vertices see everything, the midpoints their own cell. -/
example : dofNeighbours ⟨2, 2, true⟩ =
    .ok [[3, 2, 1, 0], [2, 1, 0, 1], [3, 2, 1, 0], [0, 3, 2, 3]] := by decide +kernel

/-! ### C63 -/

section Bounds

variable {K : Type*} [Field K] [LinearOrder K] [IsStrictOrderedRing K]

/-- `M` is the largest value of `u` at the indices `s`. -/
def IsMaxOver (u : List K) (s : List ℤ) (M : K) : Prop :=
  (∀ k ∈ s, u.getD k.toNat 0 ≤ M) ∧ ∃ k ∈ s, M = u.getD k.toNat 0

/-- `m` is the smallest value of `u` at the indices `s`. -/
def IsMinOver (u : List K) (s : List ℤ) (m : K) : Prop :=
  (∀ k ∈ s, m ≤ u.getD k.toNat 0) ∧ ∃ k ∈ s, m = u.getD k.toNat 0

/-- C63.  For every neighbour structure the local bounds are the extrema over the neighbours. -/
theorem C63_local_bounds (n : ℕ) (nb : List (List ℤ)) (h : NeighbourStructure n nb) (u : List K)
    (hu : u.length = n) :
    ∃ M m, localMaximum nb u = .ok M ∧ localMinimum nb u = .ok m ∧ M.length = n ∧ m.length = n ∧
      ∀ i (hi : i < nb.length), IsMaxOver u nb[i] (M.getD i 0) ∧ IsMinOver u nb[i] (m.getD i 0) := by
  have hnb : ∀ row ∈ nb, row ≠ [] ∧ ∀ k ∈ row, 0 ≤ k ∧ k < u.length := by
    intro row hrow
    obtain ⟨i, hi, rfl⟩ := List.getElem_of_mem hrow
    refine ⟨List.ne_nil_of_mem (h.self i hi), fun k hk => ?_⟩
    rw [hu]
    exact h.valid i hi k hk
  obtain ⟨M, a1, a2, a3⟩ := localMaximum_spec nb u hnb
  obtain ⟨m, b1, b2, b3⟩ := localMinimum_spec nb u hnb
  exact ⟨M, m, a1, b1, a2.trans h.length, b2.trans h.length, fun i hi => ⟨a3 i hi, b3 i hi⟩⟩

/-- C63.  In particular each value lies between its local bounds. -/
theorem C63_contains (n : ℕ) (nb : List (List ℤ)) (h : NeighbourStructure n nb) (u : List K)
    (hu : u.length = n) (M m : List K) (hM : localMaximum nb u = .ok M)
    (hm : localMinimum nb u = .ok m) (i : ℕ) (hi : i < n) :
    m.getD i 0 ≤ u.getD i 0 ∧ u.getD i 0 ≤ M.getD i 0 := by
  obtain ⟨M', m', e1, e2, -, -, e3⟩ := C63_local_bounds n nb h u hu
  obtain rfl : M' = M := Except.ok.inj (e1.symm.trans hM)
  obtain rfl : m' = m := Except.ok.inj (e2.symm.trans hm)
  have hi' : i < nb.length := by rw [h.length]; exact hi
  obtain ⟨⟨f1, -⟩, ⟨f2, -⟩⟩ := e3 i hi'
  have hs := h.self i hi'
  exact ⟨by simpa using f2 _ hs, by simpa using f1 _ hs⟩

example : ∃ nb, neighbourArray 4 true = .ok nb ∧
    localMaximum nb [1, 5, 2, (3 : ℚ)] = .ok [5, 5, 5, 3] ∧
    localMinimum nb [1, 5, 2, (3 : ℚ)] = .ok [1, 1, 2, 1] := by
  refine ⟨_, rfl, ?_, ?_⟩ <;> decide +kernel

end Bounds

end Verif.FE
