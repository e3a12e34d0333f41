import Verif.Core.Py
import Mathlib.Tactic.Linarith

/-!
Model of `core/boundary.py` and `finite_volume/shallow_water/boundary.py`: ghost cells and boundary
conditions.
-/

set_option linter.unusedSectionVars false

namespace Verif.Boundary

open Verif.Py

variable {K V : Type*}

/-- `CopyCell` (lines 19-34), `InflowCell` (lines 37-45) and the reflecting cells of
`finite_volume/shallow_water/boundary.py` (lines 6-19; `f` negates the discharge). -/
inductive Ghost (K V : Type*) where
  | copy (i : ℤ)
  | inflow (g : K → V)
  | reflect (i : ℤ) (f : V → V)

/-- `GhostCell.__call__(dof_vector, time)`. -/
def Ghost.eval (c : Ghost K V) (v : List V) (time : Option K) : Except Error V :=
  match c with
  | .copy i => Py.get v i
  | .inflow g =>
    match time with
    | none => .error .assertionError
    | some t => .ok (g t)
  | .reflect i f =>
    match Py.get v i with
    | .ok x => .ok (f x)
    | .error e => .error e

/-- `BoundaryConditions`, lines 48-60.  The two lists have the same length in python, since the
cells are given as one list of even length that is split in the middle (`BC.make`). -/
structure BC (K V : Type*) where
  left : List (Ghost K V)
  right : List (Ghost K V)
  periodic : Bool

/-- `BoundaryConditions.__init__`, lines 54-60. -/
def BC.make (cells : List (Ghost K V)) (periodic : Bool) : Except Error (BC K V) :=
  if cells.length % 2 = 0 then
    .ok ⟨cells.take (cells.length / 2), cells.drop (cells.length / 2), periodic⟩
  else .error .assertionError

/-- `boundary_cells_number`. -/
def BC.number (b : BC K V) : ℕ := b.left.length

/-- `updated_dof_vector`, lines 72-78. -/
def BC.extend (b : BC K V) (v : List V) (time : Option K) : Except Error (List V) :=
  match b.left.mapM (fun c => c.eval v time), b.right.mapM (fun c => c.eval v time) with
  | .ok l, .ok r => .ok (l ++ v ++ r)
  | .error e, _ => .error e
  | _, .error e => .error e

/-- The slices of lines 80-88. -/
def nodeSlices (ext : List V) (radius : ℕ) : List (List V) :=
  (List.range (2 * radius - 1)).map (fun (i : ℕ) => slice ext i ((i : ℤ) - 2 * radius + 1)) ++
    [sliceFrom ext (2 * (radius : ℤ) - 1)]

/-- `get_node_neighbours`, lines 62-88. -/
def BC.nodeNeighbours (b : BC K V) (v : List V) (radius : ℕ) (time : Option K) :
    Except Error (List (List V)) :=
  match b.extend v time with
  | .ok ext => .ok (nodeSlices ext radius)
  | .error e => .error e

/-- `get_cell_neighbours`, lines 90-109.  `nan` is the value numpy's `nan` becomes in an array. -/
def BC.cellNeighbours (nan : V) (b : BC K V) (left : List V) (right : Option (List V)) :
    Except Error (List V × List V) :=
  let rights := right.getD left
  if b.periodic then
    match Py.get rights (-2 * (b.number : ℤ)), Py.get left (2 * (b.number : ℤ) - 1) with
    | .ok lv, .ok rv => .ok (lv :: rights, left ++ [rv])
    | .error e, _ => .error e
    | _, .error e => .error e
  else .ok (nan :: rights, left ++ [nan])

/-- `BoundaryConditionsBuilder._build_left_cell`, lines 140-152; with `wall = some f` the shallow
water variant (lines 37-43 of `finite_volume/shallow_water/boundary.py`). -/
def buildLeft (wall : Option (V → V)) (condition : String) (index : ℕ) (inflow : Option (K → V)) :
    Except Error (Ghost K V) :=
  match wall, decide (condition = "wall") with
  | some f, true => .ok (.reflect 0 f)
  | _, _ =>
    if condition = "periodic" then .ok (.copy (-(index : ℤ) - 1))
    else if condition = "outflow" then .ok (.copy 0)
    else if condition = "inflow" then
      match inflow with
      | none => .error .valueError
      | some g => .ok (.inflow g)
    else .error .valueError

/-- `_build_right_cell`, lines 154-166 (and lines 45-53 of the shallow water variant). -/
def buildRight (wall : Option (V → V)) (condition : String) (index : ℕ) (inflow : Option (K → V)) :
    Except Error (Ghost K V) :=
  match wall, decide (condition = "wall") with
  | some f, true => .ok (.reflect (-1) f)
  | _, _ =>
    if condition = "periodic" then .ok (.copy index)
    else if condition = "outflow" then .ok (.copy (-1))
    else if condition = "inflow" then
      match inflow with
      | none => .error .valueError
      | some g => .ok (.inflow g)
    else .error .valueError

/-- `BoundaryConditionsBuilder.__call__`, lines 119-138. -/
def build (wall : Option (V → V)) (conditions : List String) (radius : ℕ)
    (inflowLeft inflowRight : Option (K → V)) : Except Error (BC K V) :=
  match conditions with
  | [] => .error .indexError
  | cl :: rest =>
    let cr := rest.headD cl
    match (List.range radius).mapM (fun i => buildLeft wall cl (radius - 1 - i) inflowLeft),
      (List.range radius).mapM (fun i => buildRight wall cr i inflowRight) with
    | .ok l, .ok r => BC.make (l ++ r) (decide (conditions = ["periodic"]))
    | .error e, _ => .error e
    | _, .error e => .error e

/-! ### Lemmas -/

theorem make_append (l r : List (Ghost K V)) (h : l.length = r.length) (p : Bool) :
    BC.make (l ++ r) p = .ok ⟨l, r, p⟩ := by
  have h1 : (l ++ r).length % 2 = 0 := by simp; omega
  have h2 : (l ++ r).length / 2 = l.length := by simp; omega
  unfold BC.make
  rw [if_pos h1, h2]
  simp

theorem nodeSlices_length (ext : List V) {radius : ℕ} (hr : 0 < radius) :
    (nodeSlices ext radius).length = 2 * radius := by
  simp [nodeSlices]; omega

/-- Slice `k` of the extended vector, as `drop`/`take`. -/
theorem nodeSlices_getElem (ext : List V) {radius : ℕ} (hr : 0 < radius)
    (hlen : 2 * radius ≤ ext.length + 1) (k : ℕ) (hk : k < 2 * radius) :
    (nodeSlices ext radius)[k]'(by rw [nodeSlices_length ext hr]; exact hk) =
      (ext.drop k).take (ext.length + 1 - 2 * radius) := by
  unfold nodeSlices
  by_cases h : k < 2 * radius - 1
  · rw [List.getElem_append_left (by simpa using h)]
    simp only [List.getElem_map, List.getElem_range, slice]
    have h1 : bound ext.length ((k : ℤ) - 2 * radius + 1) = ext.length + k + 1 - 2 * radius := by
      unfold bound; rw [if_pos (by omega)]; omega
    have h2 : bound ext.length (k : ℤ) = k := by
      unfold bound; rw [if_neg (by omega)]; simp; omega
    rw [h1, h2, List.drop_take]
    congr 1
    omega
  · have hk' : k = 2 * radius - 1 := by omega
    subst hk'
    rw [List.getElem_append_right (by simp)]
    simp only [List.length_map, List.length_range, Nat.sub_self, List.getElem_cons_zero, sliceFrom]
    have h2 : bound ext.length (2 * (radius : ℤ) - 1) = 2 * radius - 1 := by
      unfold bound; rw [if_neg (by omega)]; omega
    rw [h2, List.take_of_length_le]
    simp; omega

end Verif.Boundary
