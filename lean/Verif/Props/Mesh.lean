import Verif.Core.Mesh
import Mathlib.Data.Rat.Defs
import Mathlib.Algebra.Order.Ring.Rat

/-!
Properties C16-C18: uniform meshes and affine transformations.
-/

set_option linter.unusedSectionVars false

namespace Verif.Mesh

variable {K : Type*} [Field K] [LinearOrder K] [IsStrictOrderedRing K]

/-! ### C16 -/

/-- The cells tile the interval from `a` to `b`: chained end to end, starting at `a`, ending at `b`. -/
def Tiles : K → List (Interval K) → K → Prop
  | a, [], b => a = b
  | a, c :: cs, b => c.a = a ∧ c.a < c.b ∧ Tiles c.b cs b

theorem tiles_range (d : Interval K) (hd : d.a < d.b) {n : ℕ} (hn : 0 < n) (len start : ℕ) :
    Tiles (node d n start)
      ((List.range len).map fun i => (⟨node d n (start + i), node d n (start + i + 1)⟩ : Interval K))
      (node d n (start + len)) := by
  induction len generalizing start with
  | zero => simp [Tiles]
  | succ len ih =>
    rw [List.range_succ_eq_map, List.map_cons, List.map_map]
    refine ⟨rfl, node_lt d hd hn (Nat.lt_succ_self _), ?_⟩
    have := ih (start + 1)
    simp only [Nat.add_zero]
    have e1 : start + 1 + len = start + (len + 1) := by omega
    rw [e1] at this
    convert this using 3
    simp only [Function.comp]
    rename_i i
    rw [show start + i.succ = start + 1 + i by omega]

/-- C16, tiling.  `UniformMesh(domain, n)` can be built, has `n` cells of equal length
`step_length = domain.length / n` that tile the domain. -/
theorem C16_tiling (d : Interval K) (hd : d.a < d.b) (n : ℕ) (hn : 0 < n) :
    ∃ m, uniformMesh d n = .ok m ∧ m.cells.length = n ∧ m.domain = d ∧
      m.step = some (d.length / n) ∧ Tiles d.a m.cells d.b ∧
      (∀ c ∈ m.cells, c.length = d.length / n) ∧
      m.spaceSteps = List.replicate n (some (d.length / n)) := by
  refine ⟨_, uniformMesh_eq d hd hn, by simp, rfl, rfl, ?_, ?_, by simp [UMesh.spaceSteps,
    Interval.length]⟩
  · have := tiles_range d hd hn n 0
    simp only [Nat.zero_add, node_zero, node_last d hn] at this
    exact this
  · intro c hc
    simp only [List.mem_map] at hc
    obtain ⟨i, _, rfl⟩ := hc
    simp only [Interval.length, node]
    push_cast
    ring

theorem index_cell (d : Interval K) (hd : d.a < d.b) {n : ℕ} (hn : 0 < n) {i : ℕ} (hi : i < n) :
    (⟨d, (List.range n).map (fun i => ⟨node d n i, node d n (i + 1)⟩),
      some ((d.b - d.a) / n)⟩ : UMesh K).index ⟨node d n i, node d n (i + 1)⟩ = i := by
  unfold UMesh.index
  rw [List.findIdx_eq (by simpa using hi)]
  refine ⟨by simp, ?_⟩
  intro j hj
  have := node_lt d hd hn hj
  simp [this.ne]

/-- Filtering a range by a predicate satisfied by `i` only, or by `i` and `i + 1` only. -/
theorem filter_range_one {n i : ℕ} (p : ℕ → Bool) (hi : i < n) (h : ∀ j < n, p j = true ↔ j = i) :
    (List.range n).filter p = [i] := by
  apply List.Pairwise.eq_of_mem_iff (r := (· < ·))
  · exact List.Pairwise.filter _ List.pairwise_lt_range
  · simp
  · intro j
    simp only [List.mem_filter, List.mem_range, List.mem_singleton]
    constructor
    · rintro ⟨h1, h2⟩; exact (h j h1).mp h2
    · rintro rfl; exact ⟨hi, (h j hi).mpr rfl⟩

theorem filter_range_two {n i : ℕ} (p : ℕ → Bool) (hi : i + 1 < n)
    (h : ∀ j < n, p j = true ↔ j = i ∨ j = i + 1) :
    (List.range n).filter p = [i, i + 1] := by
  apply List.Pairwise.eq_of_mem_iff (r := (· < ·))
  · exact List.Pairwise.filter _ List.pairwise_lt_range
  · simp
  · intro j
    simp only [List.mem_filter, List.mem_range, List.mem_cons, List.not_mem_nil, or_false]
    constructor
    · rintro ⟨h1, h2⟩; exact (h j h1).mp h2
    · rintro (rfl | rfl)
      · exact ⟨by omega, (h _ (by omega)).mpr (Or.inl rfl)⟩
      · exact ⟨hi, (h _ hi).mpr (Or.inr rfl)⟩

/-- C16, point location.  `find_cell_indices(x)` lists, in increasing order, exactly the indices of
the cells containing `x`; `find_cells(x)` the cells themselves.  A point outside the domain is in no
cell; a point of the domain is in one cell, or in two adjacent cells `i` and `i + 1` if it is their
common node. -/
theorem C16_find_cells (d : Interval K) (hd : d.a < d.b) (n : ℕ) (hn : 0 < n) (x : K) :
    ∃ m, uniformMesh d n = .ok m ∧
      m.findCellIndices x =
        (List.range n).filter (fun i => ((m.cells[i]?).map (fun c => c.contains x)).getD false) ∧
      m.findCells x = m.cells.filter (fun c => c.contains x) ∧
      (d.contains x = false → m.findCells x = []) ∧
      (d.contains x = true →
        (∃ i < n, m.findCellIndices x = [i]) ∨
        (∃ i, i + 1 < n ∧ m.findCellIndices x = [i, i + 1] ∧
          (m.cells[i]?).map Interval.b = some x ∧ (m.cells[i + 1]?).map Interval.a = some x)) := by
  refine ⟨_, uniformMesh_eq d hd hn, ?_⟩
  set m : UMesh K := ⟨d, (List.range n).map (fun i => ⟨node d n i, node d n (i + 1)⟩),
      some ((d.b - d.a) / n)⟩ with hm
  let p : ℕ → Bool := fun i => decide (node d n i ≤ x) && decide (x ≤ node d n (i + 1))
  have hcont : ∀ i, Interval.contains (⟨node d n i, node d n (i + 1)⟩ : Interval K) x = p i :=
    fun i => rfl
  have hidx : m.findCellIndices x = (List.range n).filter p := by
    unfold UMesh.findCellIndices
    simp only [hm]
    rw [List.filter_map, List.map_map]
    have : List.filter ((fun c => Interval.contains c x) ∘
        fun i => (⟨node d n i, node d n (i + 1)⟩ : Interval K)) (List.range n) =
        (List.range n).filter p := by
      apply List.filter_congr; intro i _; rfl
    rw [this]
    have h2 : ∀ i ∈ (List.range n).filter p, (m.index ∘
        fun i => (⟨node d n i, node d n (i + 1)⟩ : Interval K)) i = id i := by
      intro i hi
      have := (List.mem_filter.mp hi).1
      rw [List.mem_range] at this
      exact index_cell d hd hn this
    rw [List.map_congr_left h2, List.map_id]
  have hcells : m.findCells x = m.cells.filter (fun c => c.contains x) := by
    unfold UMesh.findCells
    rw [hidx]
    simp only [hm]
    rw [List.filter_map]
    have : List.filter ((fun c => Interval.contains c x) ∘
        fun i => (⟨node d n i, node d n (i + 1)⟩ : Interval K)) (List.range n) =
        (List.range n).filter p := by
      apply List.filter_congr; intro i _; rfl
    rw [this]
    apply List.map_congr_left
    intro i hi
    have := (List.mem_filter.mp hi).1
    rw [List.mem_range] at this
    rw [List.getD_eq_getElem _ _ (by simpa using this)]
    simp
  refine ⟨?_, hcells, ?_, ?_⟩
  · rw [hidx]
    apply List.filter_congr
    intro i hi
    rw [List.mem_range] at hi
    simp [hm, hi, hcont]
  · intro hx
    rw [hcells, List.filter_eq_nil_iff]
    intro c hc
    simp only [hm, List.mem_map, List.mem_range] at hc
    obtain ⟨i, hi, rfl⟩ := hc
    rw [hcont]
    simp only [p, Bool.and_eq_true, decide_eq_true_eq, not_and, not_le]
    intro h1
    by_contra h2
    have h2' := not_lt.mp h2
    have e1 : d.a ≤ x := by
      rw [← node_zero d n]; exact ((node_le_iff d hd hn).mpr (Nat.zero_le i)).trans h1
    have e2 : x ≤ d.b := by
      rw [← node_last d hn]; exact h2'.trans ((node_le_iff d hd hn).mpr hi)
    simp [Interval.contains, e1, e2] at hx
  · intro hx
    simp only [Interval.contains, ge_iff_le, Bool.and_eq_true, decide_eq_true_eq] at hx
    obtain ⟨hxa, hxb⟩ := hx
    have hex : ∃ i, x ≤ node d n (i + 1) := ⟨n - 1, by
      rw [show n - 1 + 1 = n by omega, node_last d hn]; exact hxb⟩
    classical
    let i := Nat.find hex
    have hi1 : x ≤ node d n (i + 1) := Nat.find_spec hex
    have hi0 : node d n i ≤ x := by
      rcases Nat.eq_zero_or_pos i with h | h
      · rw [h, node_zero]; exact hxa
      · have := Nat.find_min hex (m := i - 1) (by omega)
        rw [show i - 1 + 1 = i by omega] at this
        exact (not_le.mp this).le
    have hin : i < n := by
      have : i ≤ n - 1 := Nat.find_min' hex (by
        rw [show n - 1 + 1 = n by omega, node_last d hn]; exact hxb)
      omega
    have hbefore : ∀ j, j < i → p j = false := by
      intro j hj
      have := Nat.find_min hex hj
      simp only [p, Bool.and_eq_false_iff, decide_eq_false_iff_not]
      exact Or.inr this
    by_cases hxx : x = node d n (i + 1) ∧ i + 1 < n
    · right
      refine ⟨i, hxx.2, ?_, ?_, ?_⟩
      · rw [hidx]
        apply filter_range_two p hxx.2
        intro j hj
        rw [show p j = true ↔ node d n j ≤ x ∧ x ≤ node d n (j + 1) by simp [p], hxx.1,
          node_le_iff d hd hn, node_le_iff d hd hn]
        omega
      · simp [hm, hin, hxx.1]
      · simp [hm, hxx.2, hxx.1]
    · left
      refine ⟨i, hin, ?_⟩
      rw [hidx]
      apply filter_range_one p hin
      intro j hj
      constructor
      · intro hp
        by_contra hne
        rcases Nat.lt_or_gt_of_ne hne with h | h
        · rw [hbefore j h] at hp; exact Bool.noConfusion hp
        · rw [show p j = true ↔ node d n j ≤ x ∧ x ≤ node d n (j + 1) by simp [p]] at hp
          have h1 : node d n (i + 1) ≤ node d n j := (node_le_iff d hd hn).mpr h
          exact hxx ⟨le_antisymm hi1 (h1.trans hp.1), by omega⟩
      · rintro rfl
        simp [p, hi0, hi1]

/-- Non-vacuity of C16: point 1 is the common node of cells 1 and 2 of four cells on `[0, 2]`. -/
example : (uniformMesh (⟨0, 2⟩ : Interval ℚ) 4).map (fun m => m.findCellIndices 1) = .ok [1, 2] := by
  decide +kernel

/-- A degenerate domain is rejected at construction. -/
theorem C16_interval_validated (a b : K) :
    (∃ c, Interval.make a b = .ok c ∧ c.a = a ∧ c.b = b) ↔ a < b := by
  unfold Interval.make
  split <;> simp_all

/-! ### C17 -/

/-- C17.  Refining and coarsening with the same degree gives back the mesh; coarsening succeeds iff
the degree divides the number of cells; the `k` fine cells with the fine-grid indices
`k I, ..., k I + k - 1` tile coarse cell `I`. -/
theorem C17_refine_coarsen (d : Interval K) (hd : d.a < d.b) (n k : ℕ) (hn : 0 < n) (hk : 0 < k) :
    ∃ m, uniformMesh d n = .ok m ∧
      (∃ fine, m.refine k = .ok fine ∧ fine.cells.length = k * n ∧
        fine.coarsen k = .ok m ∧
        ∀ I (hI : I < m.cells.length),
          Tiles (m.cells[I]).a ((Coarsen.fineIndices k I).map (fun i => fine.cells.getD i ⟨0, 0⟩))
            (m.cells[I]).b) ∧
      ((∃ coarse, m.coarsen k = .ok coarse) ↔ k ∣ n) ∧
      (¬ k ∣ n → m.coarsen k = .error .notDivisible) ∧
      (∀ coarse, m.coarsen k = .ok coarse → coarse.refine k = .ok m ∧ m.eq m = true) := by
  refine ⟨_, uniformMesh_eq d hd hn, ⟨_, uniformMesh_eq d hd
      (by simpa using ⟨hk, hn⟩), ?_, ?_, ?_⟩,
    ?_, ?_, ?_⟩
  · simp
  · simp only [UMesh.coarsen, List.length_map, List.length_range, if_neg hk.ne',
      Nat.mul_mod_right, if_true, Nat.mul_div_cancel_left n hk]
    rw [uniformMesh_eq d hd hn]
  · intro I hI
    simp only [List.length_map, List.length_range] at hI
    simp only [List.getElem_map, List.getElem_range, List.length_map, List.length_range]
    have hkn : 0 < k * n := Nat.mul_pos hk hn
    have hnode : ∀ j : ℕ, node d n j = node d (k * n) (k * j) := by
      intro j
      unfold node
      have h1 : (k : K) ≠ 0 := Nat.cast_ne_zero.mpr hk.ne'
      have h2 : (n : K) ≠ 0 := Nat.cast_ne_zero.mpr hn.ne'
      push_cast
      field_simp
    rw [hnode I, hnode (I + 1), show k * (I + 1) = k * I + k by ring]
    have := tiles_range d hd hkn k (k * I)
    convert this using 1
    unfold Coarsen.fineIndices
    rw [List.map_map]
    apply List.map_congr_left
    intro i hi
    rw [List.mem_range] at hi
    have hlt : k * I + i < k * n := by
      have : k * (I + 1) ≤ k * n := Nat.mul_le_mul_left k hI
      nlinarith
    simp only [Function.comp]
    rw [List.getD_eq_getElem _ _ (by simpa using hlt)]
    simp
  · simp only [UMesh.coarsen, List.length_map, List.length_range, if_neg hk.ne']
    constructor
    · rintro ⟨c, hc⟩
      split at hc
      · rename_i h; exact Nat.dvd_of_mod_eq_zero h
      · simp at hc
    · intro h
      rw [if_pos (Nat.mod_eq_zero_of_dvd h)]
      exact ⟨_, uniformMesh_eq d hd (Nat.div_pos (Nat.le_of_dvd hn h) hk)⟩
  · intro h
    simp only [UMesh.coarsen, List.length_map, List.length_range, if_neg hk.ne']
    rw [if_neg (fun hc => h (Nat.dvd_of_mod_eq_zero hc))]
  · intro c hc
    simp only [UMesh.coarsen, List.length_map, List.length_range, if_neg hk.ne'] at hc
    split at hc
    · rename_i h
      have hdvd := Nat.dvd_of_mod_eq_zero h
      rw [uniformMesh_eq d hd (Nat.div_pos (Nat.le_of_dvd hn hdvd) hk)] at hc
      cases hc
      constructor
      · simp only [UMesh.refine, List.length_map, List.length_range, Nat.mul_div_cancel' hdvd]
        rw [uniformMesh_eq d hd hn]
      · simp [UMesh.eq]
    · simp at hc

/-- Two uniform meshes are equal for `==` iff they have the same domain and number of cells. -/
theorem C17_eq_iff (d d' : Interval K) (hd : d.a < d.b) (hd' : d'.a < d'.b) (n n' : ℕ) (hn : 0 < n)
    (hn' : 0 < n') :
    ∃ m m', uniformMesh d n = .ok m ∧ uniformMesh d' n' = .ok m' ∧
      (m.eq m' = true ↔ d = d' ∧ n = n') := by
  refine ⟨_, _, uniformMesh_eq d hd hn, uniformMesh_eq d' hd' hn', ?_⟩
  simp only [UMesh.eq, Bool.and_eq_true, decide_eq_true_eq]
  have h1 : (n : K) ≠ 0 := Nat.cast_ne_zero.mpr hn.ne'
  have h2 : (n' : K) ≠ 0 := Nat.cast_ne_zero.mpr hn'.ne'
  constructor
  · rintro ⟨h, rfl⟩
    refine ⟨rfl, ?_⟩
    have h3 : d.b - d.a ≠ 0 := sub_ne_zero.mpr hd.ne'
    field_simp at h
    exact_mod_cast h.symm
  · rintro ⟨rfl, rfl⟩
    exact ⟨rfl, rfl⟩

/-- Non-vacuity of C17. -/
example : ((uniformMesh (⟨0, 2⟩ : Interval ℚ) 3).bind (fun m => m.refine 4)).map
    (fun m => m.cells.length) = .ok 12 := by decide +kernel

/-! ### C18 -/

/-- C18.  The affine transformation maps `[0, 1]` one-to-one onto the cell, the inverse undoes it
both ways, end points go to end points and the derivatives are inverse to each other. -/
theorem C18_affine_bijection (c : Interval K) (hc : c.a < c.b) :
    (∀ x, affineInverse (affine x c) c = x) ∧
    (∀ y, affine (affineInverse y c) c = y) ∧
    (∀ x, (0 ≤ x ∧ x ≤ 1) ↔ c.contains (affine x c) = true) ∧
    affine 0 c = c.a ∧ affine 1 c = c.b ∧ affine (1 / 2) c = c.center ∧
    affineDerivative c * affineInverseDerivative c = 1 ∧
    (∀ x y, affine x c - affine y c = affineDerivative c * (x - y)) := by
  have hl : 0 < c.length := by unfold Interval.length; linarith
  have hne := hl.ne'
  refine ⟨?_, ?_, ?_, ?_, ?_, ?_, ?_, ?_⟩
  · intro x; unfold affineInverse affine; field_simp; ring
  · intro y; unfold affineInverse affine; field_simp; ring
  · intro x
    simp only [Interval.contains, ge_iff_le, Bool.and_eq_true, decide_eq_true_eq]
    unfold affine
    have hb : c.b = c.length + c.a := by unfold Interval.length; ring
    rw [hb]
    constructor
    · rintro ⟨h0, h1⟩; constructor <;> nlinarith
    · rintro ⟨h0, h1⟩
      constructor
      · by_contra h; push Not at h; nlinarith
      · by_contra h; push Not at h; nlinarith
  · simp [affine]
  · simp [affine, Interval.length]
  · simp only [affine, Interval.length, Interval.center]; ring
  · simp only [affineDerivative, affineInverseDerivative]; field_simp
  · intro x y; simp only [affine, affineDerivative]; ring

/-- C18.  The map takes the inner points of the reference cell to the inner points of the cell and the two end points
to its boundary; a point of the cell is exactly one of inner point and boundary point, other points are neither. -/
theorem C18_inner (c : Interval K) (hc : c.a < c.b) :
    (∀ x, (0 < x ∧ x < 1) ↔ c.isInInner (affine x c) = true) ∧
    (∀ x, (x = 0 ∨ x = 1) ↔ c.isInBoundary (affine x c) = true) ∧
    ∀ y, (c.contains y = xor (c.isInInner y) (c.isInBoundary y)) ∧
      (c.contains y = false → c.isInInner y = false ∧ c.isInBoundary y = false) := by
  have hl : 0 < c.b - c.a := by linarith
  have hb : ∀ x, affine x c = (c.b - c.a) * x + c.a := fun x => by simp [affine, Interval.length]
  refine ⟨fun x => ?_, fun x => ?_, fun y => ⟨?_, fun h => ?_⟩⟩
  · simp only [Interval.isInInner, gt_iff_lt, Bool.and_eq_true, decide_eq_true_eq, hb]
    constructor
    · rintro ⟨h0, h1⟩; constructor <;> nlinarith
    · rintro ⟨h0, h1⟩
      constructor
      · by_contra h; push Not at h; nlinarith
      · by_contra h; push Not at h; nlinarith
  · simp only [Interval.isInBoundary, Bool.or_eq_true, decide_eq_true_eq, hb]
    have h1 : (c.b - c.a) * x + c.a = c.b ↔ x = 1 := by
      constructor
      · intro h
        have : (c.b - c.a) * (x - 1) = 0 := by linarith
        rcases mul_eq_zero.1 this with h | h <;> linarith
      · rintro rfl; ring
    have h0 : (c.b - c.a) * x + c.a = c.a ↔ x = 0 := by
      constructor
      · intro h
        have : (c.b - c.a) * x = 0 := by linarith
        rcases mul_eq_zero.1 this with h | h <;> linarith
      · rintro rfl; ring
    rw [h0, h1]
  · simp only [Interval.contains, Interval.isInInner, Interval.isInBoundary, ge_iff_le, gt_iff_lt]
    rcases lt_trichotomy y c.a with h | h | h
    · simp [not_le.2 h, not_lt.2 h.le, h.ne, (h.trans hc).ne]
    · subst h; simp [hc.le]
    · rcases lt_trichotomy y c.b with g | g | g
      · simp [h, h.le, g, g.le, h.ne', g.ne]
      · subst g; simp [h.le]
      · simp [not_le.2 g, not_lt.2 g.le, h.ne', g.ne']
  · simp only [Interval.contains, ge_iff_le, Bool.and_eq_false_iff, decide_eq_false_iff_not, not_le] at h
    simp only [Interval.isInInner, Interval.isInBoundary, gt_iff_lt, Bool.and_eq_false_iff, Bool.or_eq_false_iff,
      decide_eq_false_iff_not, not_lt]
    rcases h with h | h
    · exact ⟨Or.inl h.le, h.ne, (h.trans hc).ne⟩
    · exact ⟨Or.inr h.le, (hc.trans h).ne', h.ne'⟩

/-- Non-vacuity of C18: an inner point and a boundary point. -/
example : (⟨1, 3⟩ : Interval ℚ).isInInner 2 = true ∧ (⟨1, 3⟩ : Interval ℚ).isInInner 1 = false ∧
    (⟨1, 3⟩ : Interval ℚ).isInBoundary 1 = true := by decide +kernel

/-- Non-vacuity of C18. -/
example : affine (1 / 4) (⟨1, 3⟩ : Interval ℚ) = 3 / 2 := by decide +kernel

end Verif.Mesh
