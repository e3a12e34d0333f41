import Mathlib.Tactic.Linarith
import Mathlib.Tactic.Ring
import Verif.Core.Scalar
import Verif.Core.ScalarLemmas

/-!
Model of `finite_element/index_mapping.py` and of the padded index arrays of
`core/index_mapping.py`.
-/

set_option linter.unusedSectionVars false

namespace Verif.FE

open Verif.Py

/-- `GlobalIndexMapping` (finite_element/index_mapping.py 6-54). -/
structure IndexMap where
  meshSize : ℕ
  degree : ℕ
  periodic : Bool
  deriving DecidableEq, Repr

/-- `GlobalIndexMapping.__init__` (lines 15-22): the degree has to be positive. -/
def IndexMap.make (meshSize : ℕ) (degree : ℤ) (periodic : Bool) : Except Error IndexMap :=
  if degree > 0 then .ok ⟨meshSize, degree.toNat, periodic⟩ else .error .assertionError

/-- `indices_per_cell` (lines 32-34). -/
def IndexMap.indicesPerCell (g : IndexMap) : ℕ := g.degree + 1

/-- `dimension` (lines 40-43). -/
def IndexMap.dimension (g : IndexMap) : ℕ :=
  let nodes := g.degree * g.meshSize
  if g.periodic then nodes else nodes + 1

/-- `__call__` (lines 45-54). -/
def IndexMap.call (g : IndexMap) (cell loc : ℤ) : Except Error ℤ :=
  if loc + 1 ≤ (g.indicesPerCell : ℤ) then
    if cell = (g.meshSize : ℤ) - 1 ∧ loc + 1 = (g.indicesPerCell : ℤ) ∧ g.periodic = true then .ok 0
    else .ok (cell * g.degree + loc)
  else .error .assertionError

/-- The loop indices of a loop over all cells and all local indices. -/
def IndexMap.locals (g : IndexMap) : List (ℕ × ℕ) :=
  (List.range g.meshSize).flatMap fun c => (List.range g.indicesPerCell).map fun l => (c, l)

/-- The loop indices of a loop over all cells and all pairs of local indices. -/
def IndexMap.pairs (g : IndexMap) : List (ℕ × ℕ × ℕ) :=
  (List.range g.meshSize).flatMap fun c => (List.range g.indicesPerCell).flatMap fun l =>
    (List.range g.indicesPerCell).map fun l' => (c, l, l')

/-- `neighbour_indices[i] |= {j}` (line 78).  Sets are lists without duplicates; negative positions do
not occur and are reported as an error. -/
def addNeighbour (nb : List (List ℤ)) (i j : ℤ) : Except Error (List (List ℤ)) :=
  if 0 ≤ i ∧ i < nb.length then .ok (nb.modify i.toNat (List.insert j)) else .error .indexError

/-- `_build_neighbours` (lines 70-80). -/
def buildNeighbours (g : IndexMap) : Except Error (List (List ℤ)) :=
  g.pairs.foldlM (fun nb q => do
    let i ← g.call q.1 q.2.1
    let j ← g.call q.1 q.2.2
    addNeighbour nb i j) (List.replicate g.dimension [])

/-- `_build_neighbours_array` (core/index_mapping.py 26-42): rows are filled up with the own index.
`max` of no rows is a `ValueError`.  (The order of the elements of a row is arbitrary.) -/
def fillRows (nb : List (List ℤ)) : Except Error (List (List ℤ)) :=
  match nb with
  | [] => .error .valueError
  | _ =>
    let m := (nb.map List.length).foldl max 0
    .ok (nb.mapIdx fun i row => row ++ List.replicate (m - row.length) (i : ℤ))

/-- `NeighbourIndicesMapping.__init__` and `array` (finite_element/index_mapping.py 65-68,
core/index_mapping.py 47-49). -/
def dofNeighbours (g : IndexMap) : Except Error (List (List ℤ)) := do
  let nb ← buildNeighbours g
  fillRows nb

/-! ### Lemmas -/

/-- The index as a natural number, for loops within range. -/
def IndexMap.idx (g : IndexMap) (c l : ℕ) : ℕ :=
  if c + 1 = g.meshSize ∧ l = g.degree ∧ g.periodic = true then 0 else c * g.degree + l

theorem call_nat (g : IndexMap) (c l : ℕ) (hl : l ≤ g.degree) :
    g.call c l = .ok (g.idx c l : ℤ) := by
  unfold IndexMap.call IndexMap.idx IndexMap.indicesPerCell
  have h1 : (l : ℤ) + 1 ≤ ((g.degree + 1 : ℕ) : ℤ) := by push_cast; omega
  rw [if_pos h1]
  by_cases h : c + 1 = g.meshSize ∧ l = g.degree ∧ g.periodic = true
  · rw [if_pos h, if_pos ⟨by omega, by push_cast; omega, h.2.2⟩]
    rfl
  · rw [if_neg h, if_neg]
    · push_cast; rfl
    · rintro ⟨h1, h2, h3⟩
      exact h ⟨by omega, by push_cast at h2; omega, h3⟩

theorem idx_lt (g : IndexMap) (c l : ℕ) (hc : c < g.meshSize) (hl : l ≤ g.degree)
    (hp : 0 < g.degree) : g.idx c l < g.dimension := by
  have h1 : (c + 1) * g.degree ≤ g.meshSize * g.degree := Nat.mul_le_mul_right _ hc
  have h2 : 0 < g.degree * g.meshSize := Nat.mul_pos hp (by omega)
  have h3 : (c + 1) * g.degree = c * g.degree + g.degree := by ring
  have h4 : g.degree * g.meshSize = g.meshSize * g.degree := Nat.mul_comm _ _
  unfold IndexMap.idx IndexMap.dimension
  by_cases h : c + 1 = g.meshSize ∧ l = g.degree ∧ g.periodic = true
  · rw [if_pos h, if_pos h.2.2]; exact h2
  · rw [if_neg h]
    by_cases hper : g.periodic = true
    · rw [if_pos hper]
      by_cases hcc : c + 1 = g.meshSize
      · have : l ≠ g.degree := fun e => h ⟨hcc, e, hper⟩
        omega
      · have h5 : (c + 1 + 1) * g.degree ≤ g.meshSize * g.degree :=
          Nat.mul_le_mul_right _ (by omega)
        have h6 : (c + 1 + 1) * g.degree = c * g.degree + g.degree + g.degree := by ring
        omega
    · rw [if_neg hper]; omega

theorem mem_locals (g : IndexMap) (q : ℕ × ℕ) :
    q ∈ g.locals ↔ q.1 < g.meshSize ∧ q.2 ≤ g.degree := by
  obtain ⟨c, l⟩ := q
  simp only [IndexMap.locals, IndexMap.indicesPerCell, List.mem_flatMap, List.mem_range,
    List.mem_map, Prod.mk.injEq]
  constructor
  · rintro ⟨c', hc, l', hl, rfl, rfl⟩; exact ⟨hc, by omega⟩
  · rintro ⟨hc, hl⟩; exact ⟨c, hc, l, by omega, rfl, rfl⟩

theorem mem_pairs (g : IndexMap) (q : ℕ × ℕ × ℕ) :
    q ∈ g.pairs ↔ q.1 < g.meshSize ∧ q.2.1 ≤ g.degree ∧ q.2.2 ≤ g.degree := by
  obtain ⟨c, l, l'⟩ := q
  simp only [IndexMap.pairs, IndexMap.indicesPerCell, List.mem_flatMap, List.mem_range,
    List.mem_map, Prod.mk.injEq]
  constructor
  · rintro ⟨c', hc, l', hl, m, hm, rfl, rfl, rfl⟩; exact ⟨hc, by omega, by omega⟩
  · rintro ⟨hc, hl, hl'⟩; exact ⟨c, hc, l, by omega, l', by omega, rfl, rfl, rfl⟩

theorem buildNeighbours_spec (g : IndexMap) (hp : 0 < g.degree) :
    ∃ nb, buildNeighbours g = .ok nb ∧ nb.length = g.dimension ∧
      ∀ i (hi : i < nb.length) (k : ℤ), k ∈ nb[i] ↔
        ∃ c l l', c < g.meshSize ∧ l ≤ g.degree ∧ l' ≤ g.degree ∧ g.idx c l = i ∧
          (g.idx c l' : ℤ) = k := by
  have key : ∀ (L : List (ℕ × ℕ × ℕ)) (nb0 : List (List ℤ)), nb0.length = g.dimension →
      (∀ q ∈ L, q.1 < g.meshSize ∧ q.2.1 ≤ g.degree ∧ q.2.2 ≤ g.degree) →
      ∃ nb, L.foldlM (fun nb q => do
          let i ← g.call (q.1 : ℕ) (q.2.1 : ℕ)
          let j ← g.call (q.1 : ℕ) (q.2.2 : ℕ)
          addNeighbour nb i j) nb0 = .ok nb ∧ nb.length = g.dimension ∧
        ∀ i (hi : i < nb.length) (hi0 : i < nb0.length) (k : ℤ), k ∈ nb[i] ↔
          k ∈ nb0[i] ∨ ∃ q ∈ L, g.idx q.1 q.2.1 = i ∧ (g.idx q.1 q.2.2 : ℤ) = k := by
    intro L
    induction L with
    | nil =>
      intro nb0 h0 _
      exact ⟨nb0, rfl, h0, fun i hi hi0 k => by simp⟩
    | cons q L ih =>
      intro nb0 h0 hL
      obtain ⟨h1, h2, h3⟩ := hL q (by simp)
      have hlt := idx_lt g q.1 q.2.1 h1 h2 hp
      obtain ⟨nb, e1, e2, e3⟩ := ih
        (nb0.modify (g.idx q.1 q.2.1) (List.insert (g.idx q.1 q.2.2 : ℤ)))
        (by rw [List.length_modify]; exact h0) (fun q' hq' => hL q' (by simp [hq']))
      refine ⟨nb, ?_, e2, ?_⟩
      · rw [List.foldlM_cons]
        simp only [call_nat g _ _ h2, call_nat g _ _ h3, bind, Except.bind, addNeighbour]
        rw [if_pos ⟨by omega, by omega⟩]
        exact e1
      · intro i hi hi0 k
        rw [e3 i hi (by rw [List.length_modify]; exact hi0), List.getElem_modify]
        simp only [List.mem_cons, exists_eq_or_imp]
        by_cases hqi : g.idx q.1 q.2.1 = i
        · rw [if_pos hqi, List.mem_insert_iff]
          simp only [hqi, true_and]
          rw [eq_comm (a := k)]
          tauto
        · rw [if_neg hqi]
          simp only [hqi, false_and, false_or]
  obtain ⟨nb, e1, e2, e3⟩ := key g.pairs (List.replicate g.dimension []) (by simp)
    (fun q hq => (mem_pairs g q).mp hq)
  refine ⟨nb, e1, e2, ?_⟩
  intro i hi k
  rw [e3 i hi (by simpa using e2 ▸ hi) k]
  simp only [List.getElem_replicate, List.not_mem_nil, false_or]
  constructor
  · rintro ⟨q, hq, h1, h2⟩
    obtain ⟨a1, a2, a3⟩ := (mem_pairs g q).mp hq
    exact ⟨q.1, q.2.1, q.2.2, a1, a2, a3, h1, h2⟩
  · rintro ⟨c, l, l', h1, h2, h3, h4, h5⟩
    exact ⟨(c, l, l'), (mem_pairs g _).mpr ⟨h1, h2, h3⟩, h4, h5⟩

theorem fillRows_spec (nb : List (List ℤ)) (hne : nb ≠ [])
    (hself : ∀ i (hi : i < nb.length), (i : ℤ) ∈ nb[i]) :
    ∃ rows, fillRows nb = .ok rows ∧ rows.length = nb.length ∧
      ∀ i (hi : i < rows.length) (hi' : i < nb.length) (k : ℤ), k ∈ rows[i] ↔ k ∈ nb[i] := by
  unfold fillRows
  cases nb with
  | nil => exact absurd rfl hne
  | cons r rs =>
    refine ⟨_, rfl, by simp, ?_⟩
    intro i hi hi' k
    rw [List.getElem_mapIdx, List.mem_append, List.mem_replicate]
    constructor
    · rintro (h | ⟨_, rfl⟩)
      · exact h
      · exact hself i hi'
    · exact Or.inl

theorem idx_onto (g : IndexMap) (hp : 0 < g.degree) (hn : 0 < g.meshSize) (i : ℕ)
    (hi : i < g.dimension) : ∃ c l, c < g.meshSize ∧ l ≤ g.degree ∧ g.idx c l = i := by
  unfold IndexMap.dimension at hi
  by_cases hlast : i = g.degree * g.meshSize
  · -- right end of a mesh that is not periodic
    have hper : ¬ g.periodic = true := by
      intro h; rw [if_pos h] at hi; omega
    refine ⟨g.meshSize - 1, g.degree, by omega, le_rfl, ?_⟩
    unfold IndexMap.idx
    rw [if_neg (fun h => hper h.2.2), hlast]
    obtain ⟨m, hm⟩ : ∃ m, g.meshSize = m + 1 := ⟨g.meshSize - 1, by omega⟩
    rw [hm]
    simp only [Nat.add_sub_cancel]
    ring
  · have hi' : i < g.degree * g.meshSize := by
      by_cases hper : g.periodic = true
      · rwa [if_pos hper] at hi
      · rw [if_neg hper] at hi; omega
    refine ⟨i / g.degree, i % g.degree, (Nat.div_lt_iff_lt_mul hp).mpr (by rwa [Nat.mul_comm]),
      (Nat.mod_lt _ hp).le, ?_⟩
    unfold IndexMap.idx
    have := Nat.mod_lt i hp
    rw [if_neg (by omega), Nat.div_add_mod']

end Verif.FE
