import Verif.Core.Boundary
import Mathlib.Data.Rat.Defs
import Mathlib.Algebra.Order.Ring.Rat
import Mathlib.Data.Int.ModEq

/-!
Properties C19-C22: neighbours of nodes and cells, periodic ghost cells, validation of boundary
specifications.
-/

set_option linter.unusedSectionVars false

namespace Verif.Boundary

open Verif.Py

variable {K V : Type*}

/-! ### C19 -/

/-- Value of the cell with (possibly negative) index `j`, given the values of the ghost cells: cells
`-B, ..., -1` lie left, cells `N, ..., N + B - 1` right of the domain. -/
def cellAt (gl v gr : List V) (j : ℤ) : Option V :=
  if j < 0 then (if -(gl.length : ℤ) ≤ j then gl[((gl.length : ℤ) + j).toNat]? else none)
  else if j < v.length then v[j.toNat]?
  else gr[(j - v.length).toNat]?

theorem append_getElem? (gl v gr : List V) (i : ℕ) :
    (gl ++ v ++ gr)[i]? = cellAt gl v gr ((i : ℤ) - gl.length) := by
  unfold cellAt
  split
  · rename_i h
    rw [if_pos (by omega)]
    rw [List.append_assoc, List.getElem?_append_left (by omega)]
    congr 1; omega
  · rename_i h
    split
    · rename_i h2
      rw [List.append_assoc, List.getElem?_append_right (by omega),
        List.getElem?_append_left (by omega)]
      congr 1; omega
    · rename_i h2
      rw [List.getElem?_append_right (by simp; omega)]
      congr 1; simp; omega

/-- C19.  With `B` ghost cells on each side whose values are `gl` and `gr`, and radius `r >= 1` such
that the stencil fits, `get_node_neighbours` returns `2 r` arrays of equal length
`len(v) + 2 B - 2 r + 1` (that is `len(v) + 1` for `B = r`); entry `i` of the `k`-th one is the value
of cell `i - B + k`. -/
theorem C19_node_neighbours (b : BC K V) (v gl gr : List V) (time : Option K) (r : ℕ) (hr : 0 < r)
    (hl : b.left.mapM (fun c => c.eval v time) = .ok gl)
    (hg : b.right.mapM (fun c => c.eval v time) = .ok gr)
    (hB : b.left.length = b.right.length) (hfit : 2 * r ≤ v.length + 2 * b.number + 1) :
    ∃ L, b.nodeNeighbours v r time = .ok L ∧ L.length = 2 * r ∧
      (∀ a ∈ L, a.length + 2 * r = v.length + 2 * b.number + 1) ∧
      ∀ k (hk : k < L.length), ∀ i (hi : i < (L[k]).length),
        cellAt gl v gr ((i : ℤ) - b.number + k) = some (L[k])[i] := by
  have h1 := mapM_eq_ok_length _ _ _ hl
  have h2 := mapM_eq_ok_length _ _ _ hg
  have hlen : (gl ++ v ++ gr).length = v.length + 2 * b.number := by
    simp [BC.number, h1, h2, ← hB]; omega
  refine ⟨nodeSlices (gl ++ v ++ gr) r, by simp [BC.nodeNeighbours, BC.extend, hl, hg],
    nodeSlices_length _ hr, ?_, ?_⟩
  · intro a ha
    obtain ⟨k, hk, rfl⟩ := List.getElem_of_mem ha
    rw [nodeSlices_length _ hr] at hk
    rw [nodeSlices_getElem _ hr (by rw [hlen]; omega) k hk]
    rw [List.length_take, List.length_drop, hlen]
    omega
  · intro k hk i hi
    rw [nodeSlices_length _ hr] at hk
    have e := nodeSlices_getElem (gl ++ v ++ gr) hr (by rw [hlen]; omega) k hk
    have hi' : i < ((gl ++ v ++ gr).drop k |>.take ((gl ++ v ++ gr).length + 1 - 2 * r)).length := by
      rw [← e]; exact hi
    have e2 : ((nodeSlices (gl ++ v ++ gr) r)[k])[i] =
        ((gl ++ v ++ gr).drop k |>.take ((gl ++ v ++ gr).length + 1 - 2 * r))[i] := by
      simp only [e]
    rw [e2]
    rw [List.getElem_take, List.getElem_drop, ← List.getElem?_eq_getElem, append_getElem?]
    congr 1
    rw [h1, BC.number]
    push_cast
    omega

/-- Non-vacuity of C19: radius two, inflow left, outflow right. -/
example : (⟨[.inflow (fun t => t), .inflow (fun t => t)], [.copy (-1), .copy (-1)], false⟩ :
    BC ℚ ℚ).nodeNeighbours [1, 2, 3] 2 (some 7) =
    .ok [[7, 7, 1, 2], [7, 1, 2, 3], [1, 2, 3, 3], [2, 3, 3, 3]] := by decide +kernel

/-- C19, error branch: an inflow ghost cell needs the time; without it an `AssertionError` is
raised. -/
theorem C19_inflow_needs_time (g : K → V) (v : List V) (t : K) :
    (Ghost.inflow g).eval v none = .error .assertionError ∧
    (Ghost.inflow g : Ghost K V).eval v (some t) = .ok (g t) := ⟨rfl, rfl⟩

/-! ### C20 -/

/-- The value of the cyclically wrapped cell index. -/
def wrap (v : List V) (j : ℤ) : Option V := v[(j % v.length).toNat]?

theorem build_periodic (wall : Option (V → V)) (r : ℕ) (il ir : Option (K → V)) :
    build wall ["periodic"] r il ir =
      .ok ⟨(List.range r).map (fun i => .copy (-((r - 1 - i : ℕ) : ℤ) - 1)),
        (List.range r).map (fun i : ℕ => .copy i), true⟩ := by
  have h1 : (List.range r).mapM (fun i => buildLeft wall "periodic" (r - 1 - i) il) =
      .ok ((List.range r).map (fun i => (.copy (-((r - 1 - i : ℕ) : ℤ) - 1) : Ghost K V))) := by
    apply mapM_ok
    intro i _
    cases wall <;> simp [buildLeft]
  have h2 : (List.range r).mapM (fun i => buildRight wall "periodic" i ir) =
      .ok ((List.range r).map (fun i : ℕ => (.copy i : Ghost K V))) := by
    apply mapM_ok
    intro i _
    cases wall <;> simp [buildRight]
  simp only [build, List.headD_nil, h1, h2]
  rw [make_append _ _ (by simp)]
  simp

/-- Ghost values for periodic conditions. -/
theorem periodic_left (v : List V) (r : ℕ) (h : r ≤ v.length) (time : Option K) :
    ((List.range r).map (fun i => (.copy (-((r - 1 - i : ℕ) : ℤ) - 1) : Ghost K V))).mapM
      (fun c => c.eval v time) = .ok (v.drop (v.length - r)) := by
  rw [List.mapM_map]
  have hl : (v.drop (v.length - r)).length = r := by simp; omega
  have := mapM_range (v.drop (v.length - r)) ((fun c : Ghost K V => c.eval v time) ∘
      (fun i => (.copy (-((r - 1 - i : ℕ) : ℤ) - 1) : Ghost K V))) (by
    intro i hi
    rw [hl] at hi
    simp only [Function.comp, Ghost.eval]
    rw [get_neg v (by omega), List.getElem_drop]
    congr 2
    omega)
  rw [hl] at this
  exact this

theorem periodic_right (v : List V) (r : ℕ) (h : r ≤ v.length) (time : Option K) :
    ((List.range r).map (fun i : ℕ => (.copy i : Ghost K V))).mapM
      (fun c => c.eval v time) = .ok (v.take r) := by
  rw [List.mapM_map]
  have hl : (v.take r).length = r := by simp; omega
  have := mapM_range (v.take r) ((fun c : Ghost K V => c.eval v time) ∘
      (fun i : ℕ => (.copy i : Ghost K V))) (by
    intro i hi
    rw [hl] at hi
    simp only [Function.comp, Ghost.eval]
    rw [get_nat v (by omega), List.getElem_take])
  rw [hl] at this
  exact this

theorem cellAt_periodic (v : List V) (r : ℕ) (h : r ≤ v.length) (hv : 0 < v.length) (j : ℤ)
    (h1 : -(r : ℤ) ≤ j) (h2 : j < v.length + r) :
    cellAt (v.drop (v.length - r)) v (v.take r) j = wrap v j := by
  unfold cellAt wrap
  have hl : (v.drop (v.length - r)).length = r := by simp; omega
  rw [hl, if_pos h1]
  split
  · rename_i hj
    rw [List.getElem?_drop]
    have : j % v.length = j + v.length := by
      rw [← Int.add_emod_right]
      exact Int.emod_eq_of_lt (by omega) (by omega)
    rw [this]
    congr 1
    omega
  · rename_i hj
    split
    · rename_i hj2
      rw [Int.emod_eq_of_lt (by omega) hj2]
    · rename_i hj2
      have : j % v.length = j - v.length := by
        rw [← Int.sub_emod_right]
        exact Int.emod_eq_of_lt (by omega) (by omega)
      rw [this, List.getElem?_take_of_lt (by omega)]

/-- C20.  With periodic conditions of radius `r >= 1` on a mesh of at least `r` cells,
`get_node_neighbours` returns at node `i` the values of the cyclically wrapped cells
`i - r, ..., i + r - 1`; on a mesh of fewer cells an `IndexError` is raised. -/
theorem C20_periodic_wrap (wall : Option (V → V)) (r : ℕ) (hr : 0 < r) (il ir : Option (K → V))
    (v : List V) (time : Option K) :
    ∃ b, build wall ["periodic"] r il ir = .ok b ∧
      (r ≤ v.length → ∃ L, b.nodeNeighbours v r time = .ok L ∧ L.length = 2 * r ∧
        (∀ a ∈ L, a.length = v.length + 1) ∧
        ∀ k (hk : k < L.length), ∀ i (hi : i < (L[k]).length),
          wrap v ((i : ℤ) - r + k) = some (L[k])[i]) ∧
      (v.length < r → b.nodeNeighbours v r time = .error .indexError) := by
  refine ⟨_, build_periodic wall r il ir, ?_, ?_⟩
  · intro h
    obtain ⟨L, h1, h2, h3, h4⟩ := C19_node_neighbours ⟨_, _, true⟩ v _ _ time r hr
      (periodic_left (K := K) v r h time) (periodic_right v r h time)
      (by simp) (by simp [BC.number]; omega)
    refine ⟨L, h1, h2, ?_, ?_⟩
    · intro a ha
      have := h3 a ha
      simp [BC.number] at this
      omega
    · intro k hk i hi
      have := h4 k hk i hi
      have ha := h3 _ (List.getElem_mem hk)
      simp only [BC.number, List.length_map, List.length_range] at this ha
      rw [← this, cellAt_periodic v r h (by omega) _ (by omega) (by omega)]
  · intro h
    have : (((List.range r).map (fun i => (.copy (-((r - 1 - i : ℕ) : ℤ) - 1) : Ghost K V))).mapM
      (fun c => c.eval v time)) = .error .indexError := by
      apply mapM_error_eq
      · intro c hc e he
        simp only [List.mem_map] at hc
        obtain ⟨i, _, rfl⟩ := hc
        simp only [Ghost.eval] at he
        by_cases hlt : r - 1 - i < v.length
        · rw [get_neg v hlt] at he; cases he
        · rw [get_neg_error v (not_lt.mp hlt)] at he; cases he; rfl
      · refine ⟨.copy (-((r - 1 - 0 : ℕ) : ℤ) - 1), ?_, .indexError, ?_⟩
        · exact List.mem_map.mpr ⟨0, List.mem_range.mpr hr, rfl⟩
        · exact get_neg_error v (by omega)
    simp [BC.nodeNeighbours, BC.extend, this]

/-- Non-vacuity of C20: radius two on three cells, and an error on one cell. -/
example : ((build none ["periodic"] 2 none none : Except Error (BC ℚ ℚ)).bind
    (fun b => b.nodeNeighbours [1, 2, 3] 2 none)) =
    .ok [[2, 3, 1, 2], [3, 1, 2, 3], [1, 2, 3, 1], [2, 3, 1, 2]] := by decide +kernel

example : ((build none ["periodic"] 2 none none : Except Error (BC ℚ ℚ)).bind
    (fun b => b.nodeNeighbours [1] 2 none)) = .error .indexError := by decide +kernel

/-- C20, other conditions: outflow ghost cells repeat the boundary cell, for every radius. -/
theorem C20_outflow (wall : Option (V → V)) (r : ℕ) (il ir : Option (K → V)) (v : List V)
    (hv : v ≠ []) (time : Option K) :
    ∃ b, build wall ["outflow"] r il ir = .ok b ∧
      b.extend v time =
        .ok (List.replicate r (v.head hv) ++ v ++ List.replicate r (v.getLast hv)) := by
  have hpos : 0 < v.length := List.length_pos_iff.mpr hv
  have h1 : (List.range r).mapM (fun i => buildLeft wall "outflow" (r - 1 - i) il) =
      .ok ((List.range r).map (fun _ => (.copy 0 : Ghost K V))) := by
    apply mapM_ok
    intro i _
    cases wall <;> simp [buildLeft]
  have h2 : (List.range r).mapM (fun i => buildRight wall "outflow" i ir) =
      .ok ((List.range r).map (fun _ => (.copy (-1) : Ghost K V))) := by
    apply mapM_ok
    intro i _
    cases wall <;> simp [buildRight]
  refine ⟨⟨(List.range r).map (fun _ => (.copy 0 : Ghost K V)),
    (List.range r).map (fun _ => (.copy (-1) : Ghost K V)), false⟩, ?_, ?_⟩
  · simp only [build, List.headD_nil, h1, h2]
    rw [make_append _ _ (by simp)]
    simp
  · have e1 : ((List.range r).map (fun _ => (.copy 0 : Ghost K V))).mapM (fun c => c.eval v time) =
        .ok (List.replicate r (v.head hv)) := by
      rw [mapM_ok _ (fun _ => v.head hv)]
      · simp [List.map_const']
      · intro c hc
        simp only [List.mem_map] at hc
        obtain ⟨i, _, rfl⟩ := hc
        have := get_nat v hpos
        simp only [Ghost.eval]
        rw [List.head_eq_getElem]
        exact this
    have e2 : ((List.range r).map (fun _ => (.copy (-1) : Ghost K V))).mapM
        (fun c => c.eval v time) = .ok (List.replicate r (v.getLast hv)) := by
      rw [mapM_ok _ (fun _ => v.getLast hv)]
      · simp [List.map_const']
      · intro c hc
        simp only [List.mem_map] at hc
        obtain ⟨i, _, rfl⟩ := hc
        have := get_neg v hpos
        simp only [Ghost.eval]
        rw [List.getLast_eq_getElem]
        exact this
    simp [BC.extend, e1, e2]

/-! ### C21 -/

/-- C21.  Let `l`, `r` be quantities on the nodes `-(B-1), ..., N + B - 1` of a mesh extended by `B`
ghost cells on each side, continued `N`-periodically to all nodes.  With periodic conditions
`get_cell_neighbours` gives for each extended cell `c = -B, ..., N + B - 1` the value of `r` at its
left node `c` and of `l` at its right node `c + 1`. -/
theorem C21_cell_neighbours_periodic (nan : V) (bc : BC K V) (hp : bc.periodic = true) (N : ℕ)
    (hN : 0 < N) (hB : 0 < bc.number) (l r : ℤ → V) (hl : ∀ j, l (j + N) = l j)
    (hr : ∀ j, r (j + N) = r j) :
    let nodes : List ℤ := (List.range (N + 2 * bc.number - 1)).map
      (fun i : ℕ => (i : ℤ) - bc.number + 1)
    let cells : List ℤ := (List.range (N + 2 * bc.number)).map (fun i : ℕ => (i : ℤ) - bc.number)
    bc.cellNeighbours nan (nodes.map l) (some (nodes.map r)) =
      .ok (cells.map r, cells.map (fun c => l (c + 1))) ∧
    bc.cellNeighbours nan (nodes.map l) none =
      .ok (cells.map l, cells.map (fun c => l (c + 1))) := by
  generalize hBdef : bc.number = B at *
  intro nodes cells
  have hlen : nodes.length = N + 2 * B - 1 := by simp [nodes]
  have key : ∀ r : ℤ → V, (∀ j, r (j + N) = r j) →
      Py.get (nodes.map r) (-2 * (B : ℤ)) = .ok (r (-(B : ℤ))) := by
    intro r hr
    have := get_neg (nodes.map r) (i := 2 * B - 1) (by rw [List.length_map, hlen]; omega)
    rw [show (-((2 * B - 1 : ℕ) : ℤ) - 1) = -2 * (B : ℤ) by omega] at this
    rw [this]
    congr 1
    rw [List.getElem_map]
    simp only [nodes, List.getElem_map, List.getElem_range, List.length_map, List.length_range]
    rw [← hr (-(B : ℤ))]
    congr 1
    omega
  have key2 : Py.get (nodes.map l) (2 * (B : ℤ) - 1) = .ok (l (N + B)) := by
    have := get_nat (nodes.map l) (i := 2 * B - 1) (by rw [List.length_map, hlen]; omega)
    rw [show ((2 * B - 1 : ℕ) : ℤ) = 2 * (B : ℤ) - 1 by omega] at this
    rw [this]
    congr 1
    rw [List.getElem_map]
    simp only [nodes, List.getElem_map, List.getElem_range]
    rw [show (N : ℤ) + B = B + N by omega, hl]
    congr 1
    omega
  have hcl : ∀ r : ℤ → V, r (-(B : ℤ)) :: nodes.map r = cells.map r := by
    intro r
    simp only [nodes, cells]
    rw [show N + 2 * B = (N + 2 * B - 1) + 1 by omega, List.range_succ_eq_map]
    simp only [List.map_cons, List.map_map, Nat.add_sub_cancel]
    congr 1
    · congr 1; simp
    · apply List.map_congr_left
      intro i _
      simp only [Function.comp]
      congr 1
      push_cast
      omega
  have hcr : nodes.map l ++ [l (N + B)] = cells.map (fun c => l (c + 1)) := by
    simp only [nodes, cells]
    rw [show N + 2 * B = (N + 2 * B - 1) + 1 by omega, List.range_succ]
    simp only [List.map_append, List.map_map, Nat.add_sub_cancel, List.map_cons, List.map_nil]
    congr 1
    · congr 2; omega
  constructor
  · simp only [BC.cellNeighbours, Option.getD_some, hp, if_true]
    rw [hBdef, key r hr, key2]
    simp only [hcl, hcr]
  · simp only [BC.cellNeighbours, Option.getD_none, hp, if_true]
    rw [hBdef, key l hl, key2]
    simp only [hcl, hcr]

/-- C21, other boundary conditions: the outermost values are `nan`, the others as above. -/
theorem C21_cell_neighbours_open (nan : V) (bc : BC K V) (hp : bc.periodic = false)
    (l r : List V) :
    bc.cellNeighbours nan l (some r) = .ok (nan :: r, l ++ [nan]) ∧
    bc.cellNeighbours nan l none = .ok (nan :: l, l ++ [nan]) := by
  simp [BC.cellNeighbours, hp]

/-- Non-vacuity of C21: three cells, one ghost cell on each side, nodes `0..3`. -/
example : ((build none ["periodic"] 1 none none : Except Error (BC ℚ ℚ)).bind
    (fun b => b.cellNeighbours 0 [10, 11, 12, 10] none)) =
    .ok ([12, 10, 11, 12, 10], [10, 11, 12, 10, 11]) := by decide +kernel

/-! ### C22 -/

/-- A side is well specified: a known name, with data if it is an inflow. -/
def SideOk (wall : Bool) (name : String) (hasData : Bool) : Prop :=
  name = "periodic" ∨ name = "outflow" ∨ (name = "inflow" ∧ hasData = true) ∨
    (name = "wall" ∧ wall = true)

theorem buildLeft_ok_iff (wall : Option (V → V)) (c : String) (i : ℕ) (il : Option (K → V)) :
    ((∃ g, buildLeft wall c i il = .ok g) ↔ SideOk wall.isSome c il.isSome) ∧
    (¬ SideOk wall.isSome c il.isSome → buildLeft wall c i il = .error .valueError) := by
  unfold buildLeft SideOk
  by_cases h1 : c = "wall"
  · subst h1
    cases wall <;> simp
  · by_cases h2 : c = "periodic"
    · subst h2; cases wall <;> simp
    · by_cases h3 : c = "outflow"
      · subst h3; cases wall <;> simp
      · by_cases h4 : c = "inflow"
        · subst h4; cases wall <;> cases il <;> simp
        · cases wall <;> simp [h1, h2, h3, h4]

theorem buildRight_ok_iff (wall : Option (V → V)) (c : String) (i : ℕ) (ir : Option (K → V)) :
    ((∃ g, buildRight wall c i ir = .ok g) ↔ SideOk wall.isSome c ir.isSome) ∧
    (¬ SideOk wall.isSome c ir.isSome → buildRight wall c i ir = .error .valueError) := by
  unfold buildRight SideOk
  by_cases h1 : c = "wall"
  · subst h1
    cases wall <;> simp
  · by_cases h2 : c = "periodic"
    · subst h2; cases wall <;> simp
    · by_cases h3 : c = "outflow"
      · subst h3; cases wall <;> simp
      · by_cases h4 : c = "inflow"
        · subst h4; cases wall <;> cases ir <;> simp
        · cases wall <;> simp [h1, h2, h3, h4]

theorem mapM_all_ok {α β ε : Type*} (f : α → Except ε β) (l : List α)
    (h : ∀ x ∈ l, ∃ y, f x = .ok y) : ∃ ys, l.mapM f = .ok ys := by
  induction l with
  | nil => exact ⟨[], rfl⟩
  | cons x l ih =>
    obtain ⟨y, hy⟩ := h x List.mem_cons_self
    obtain ⟨ys, hys⟩ := ih (fun z hz => h z (List.mem_cons_of_mem _ hz))
    exact ⟨y :: ys, by rw [List.mapM_cons, hy, hys]; rfl⟩

/-- C22.  For a specification with one name (used for both sides) or two names (left, right) and
radius at least one, building boundary conditions succeeds iff both sides are well specified, and
otherwise raises `ValueError`.  The result has `radius` ghost cells on each side and is marked
periodic iff the specification is exactly `("periodic",)`.  (`wall` says whether the shallow water
builder is used.) -/
theorem C22_validation (wall : Option (V → V)) (cl : String) (cr : Option String) (r : ℕ)
    (hr : 0 < r) (il ir : Option (K → V)) :
    let valid := SideOk wall.isSome cl il.isSome ∧ SideOk wall.isSome (cr.getD cl) ir.isSome
    (valid → ∃ b, build wall (cl :: cr.toList) r il ir = .ok b ∧ b.left.length = r ∧
      b.right.length = r ∧ (b.periodic = true ↔ cl = "periodic" ∧ cr = none)) ∧
    (¬ valid → build wall (cl :: cr.toList) r il ir = .error .valueError) := by
  intro valid
  have hcr : cr.toList.headD cl = cr.getD cl := by
    cases cr <;> rfl
  constructor
  · rintro ⟨h1, h2⟩
    obtain ⟨l, hl⟩ := mapM_all_ok (fun i => buildLeft wall cl (r - 1 - i) il) (List.range r)
      (fun i _ => (buildLeft_ok_iff wall cl _ il).1.mpr h1)
    obtain ⟨g, hg⟩ := mapM_all_ok (fun i => buildRight wall (cr.getD cl) i ir) (List.range r)
      (fun i _ => (buildRight_ok_iff wall _ _ ir).1.mpr h2)
    have hl' := mapM_eq_ok_length _ _ _ hl
    have hg' := mapM_eq_ok_length _ _ _ hg
    rw [List.length_range] at hl' hg'
    refine ⟨⟨l, g, decide (cl :: cr.toList = ["periodic"])⟩, ?_, hl', hg', ?_⟩
    · simp only [build, hcr, hl, hg]
      rw [make_append _ _ (by rw [hl', hg'])]
    · cases cr <;> simp
  · intro hv
    simp only [build, hcr]
    by_cases h1 : SideOk wall.isSome cl il.isSome
    · have h2 : ¬ SideOk wall.isSome (cr.getD cl) ir.isSome := fun h => hv ⟨h1, h⟩
      obtain ⟨l, hl⟩ := mapM_all_ok (fun i => buildLeft wall cl (r - 1 - i) il) (List.range r)
        (fun i _ => (buildLeft_ok_iff wall cl _ il).1.mpr h1)
      have : (List.range r).mapM (fun i => buildRight wall (cr.getD cl) i ir) =
          .error .valueError := by
        apply mapM_error_eq
        · intro i _ e he
          rw [(buildRight_ok_iff wall _ i ir).2 h2] at he
          cases he; rfl
        · exact ⟨0, List.mem_range.mpr hr, _, (buildRight_ok_iff wall _ 0 ir).2 h2⟩
      simp only [hl, this]
    · have : (List.range r).mapM (fun i => buildLeft wall cl (r - 1 - i) il) =
          .error .valueError := by
        apply mapM_error_eq
        · intro i _ e he
          rw [(buildLeft_ok_iff wall _ (r - 1 - i) il).2 h1] at he
          cases he; rfl
        · exact ⟨0, List.mem_range.mpr hr, _, (buildLeft_ok_iff wall _ _ il).2 h1⟩
      simp only [this]

/-- C22, limits: names after the second one are never looked at, an empty specification is an
`IndexError`, and with radius 0 nothing is checked. -/
theorem C22_unchecked (wall : Option (V → V)) (cl cr : String) (rest : List String) (r : ℕ)
    (il ir : Option (K → V)) :
    build wall (cl :: cr :: rest) r il ir = build wall [cl, cr] r il ir ∧
    build wall [] r il ir = .error .indexError ∧
    build wall (cl :: rest) 0 il ir = .ok ⟨[], [], decide (cl :: rest = ["periodic"])⟩ := by
  refine ⟨?_, rfl, ?_⟩
  · simp [build]
  · simp [build, pure, Except.pure, BC.make]

/-- Non-vacuity of C22. -/
example : SideOk true "wall" false := Or.inr (Or.inr (Or.inr ⟨rfl, rfl⟩))
example : ¬ SideOk false "wall" false := by simp [SideOk]

end Verif.Boundary
