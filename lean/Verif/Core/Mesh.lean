import Verif.Core.Coarsen
import Mathlib.Algebra.Order.Field.Basic
import Mathlib.Tactic.FieldSimp
import Mathlib.Tactic.Ring
import Mathlib.Tactic.Linarith
import Mathlib.Tactic.Positivity
import Mathlib.Data.List.Sort
import Mathlib.Data.List.GetD

/-!
Model of `core/mesh.py`: intervals, uniform meshes, affine transformations.
-/

set_option linter.unusedSectionVars false

namespace Verif.Mesh

variable {K : Type*} [Field K] [LinearOrder K] [IsStrictOrderedRing K]

inductive Error where
  /-- `AssertionError` of `Interval.__init__`, line 15 -/
  | emptyInterval
  /-- `AssertionError` of `UniformMesh.coarsen`, lines 143-145 -/
  | notDivisible
  /-- `ZeroDivisionError` of `len(self) % 0` -/
  | zeroDivision
  deriving DecidableEq

/-- `Interval`, lines 7-41.  Only values built by `Interval.make` occur in python. -/
structure Interval (K : Type*) where
  a : K
  b : K
  deriving DecidableEq

/-- `Interval.__init__`, lines 11-15. -/
def Interval.make (a b : K) : Except Error (Interval K) :=
  if a < b then .ok ⟨a, b⟩ else .error .emptyInterval

/-- lines 20-22 -/
def Interval.length (c : Interval K) : K := c.b - c.a

/-- lines 24-26 -/
def Interval.center (c : Interval K) : K := (c.b + c.a) / 2

/-- lines 34-35 -/
def Interval.contains (c : Interval K) (x : K) : Bool := decide (x ≥ c.a) && decide (x ≤ c.b)

/-- lines 37-38 -/
def Interval.isInInner (c : Interval K) (x : K) : Bool := decide (x > c.a) && decide (x < c.b)

/-- lines 40-41 -/
def Interval.isInBoundary (c : Interval K) (x : K) : Bool := decide (x = c.a) || decide (x = c.b)

/-- `UniformMesh`, lines 99-152.  `step = none` stands for the `nan` that `np.linspace` reports when
only one node is asked for. -/
structure UMesh (K : Type*) where
  domain : Interval K
  cells : List (Interval K)
  step : Option K

/-- `np.linspace(a, b, n + 1, retstep=True)`: equispaced nodes `i * step + a`, where the last one is
overwritten by `b` if there is more than one node. -/
def linspace (a b : K) (n : ℕ) : List K × Option K :=
  if n = 0 then ([a], none)
  else
    ((List.range (n + 1)).map (fun i => if i = n then b else (i : K) * ((b - a) / n) + a),
      some ((b - a) / n))

/-- `UniformMesh._build_cells`, lines 119-123. -/
def buildCells (grid : List K) : Except Error (List (Interval K)) :=
  (List.range (grid.length - 1)).mapM fun i => Interval.make (grid.getD i 0) (grid.getD (i + 1) 0)

/-- `UniformMesh.__init__`, lines 103-126. -/
def uniformMesh (d : Interval K) (n : ℕ) : Except Error (UMesh K) :=
  match buildCells (linspace d.a d.b n).1 with
  | .ok cells => .ok ⟨d, cells, (linspace d.a d.b n).2⟩
  | .error e => .error e

/-- `UniformMesh.space_steps`, lines 125-126. -/
def UMesh.spaceSteps (m : UMesh K) : List (Option K) := List.replicate m.cells.length m.step

/-- `Mesh.index`, lines 76-77 (`list.index`: first equal element). -/
def UMesh.index (m : UMesh K) (c : Interval K) : ℕ := m.cells.findIdx (fun d => decide (d = c))

/-- `Mesh.find_cell_indices`, lines 79-85. -/
def UMesh.findCellIndices (m : UMesh K) (x : K) : List ℕ :=
  (m.cells.filter (fun c => c.contains x)).map m.index

/-- `Mesh.find_cells`, lines 87-88. -/
def UMesh.findCells (m : UMesh K) (x : K) : List (Interval K) :=
  (m.findCellIndices x).map (fun i => m.cells.getD i ⟨0, 0⟩)

/-- `UniformMesh.__eq__`, lines 136-137 (`nan` differs from everything). -/
def UMesh.eq (m m' : UMesh K) : Bool :=
  match m.step, m'.step with
  | some s, some s' => decide (s = s') && decide (m.domain = m'.domain)
  | _, _ => false

/-- `UniformMesh.refine`, lines 139-140. -/
def UMesh.refine (m : UMesh K) (k : ℕ) : Except Error (UMesh K) :=
  uniformMesh m.domain (k * m.cells.length)

/-- `UniformMesh.coarsen`, lines 142-147. -/
def UMesh.coarsen (m : UMesh K) (k : ℕ) : Except Error (UMesh K) :=
  if k = 0 then .error .zeroDivision
  else if m.cells.length % k = 0 then uniformMesh m.domain (m.cells.length / k)
  else .error .notDivisible

/-- `AffineTransformation.__call__`, lines 158-159. -/
def affine (x : K) (c : Interval K) : K := c.length * x + c.a

/-- `AffineTransformation.inverse`, lines 161-162. -/
def affineInverse (y : K) (c : Interval K) : K := (y - c.a) / c.length

/-- `AffineTransformation.derivative`, lines 164-165. -/
def affineDerivative (c : Interval K) : K := c.length

/-- `AffineTransformation.inverse_derivative`, lines 167-168. -/
def affineInverseDerivative (c : Interval K) : K := 1 / c.length

/-! ### Lemmas -/

/-- Node `i` of the uniform grid with `n` cells. -/
def node (d : Interval K) (n i : ℕ) : K := d.a + i * ((d.b - d.a) / n)

theorem mapM_ok {α β ε : Type*} (f : α → Except ε β) (g : α → β) (l : List α)
    (h : ∀ x ∈ l, f x = .ok (g x)) : l.mapM f = .ok (l.map g) := by
  induction l with
  | nil => rfl
  | cons x l ih =>
    rw [List.mapM_cons, h x List.mem_cons_self, ih (fun y hy => h y (List.mem_cons_of_mem _ hy))]
    rfl

theorem node_zero (d : Interval K) (n : ℕ) : node d n 0 = d.a := by simp [node]

theorem node_last (d : Interval K) {n : ℕ} (hn : 0 < n) : node d n n = d.b := by
  have : (n : K) ≠ 0 := Nat.cast_ne_zero.mpr hn.ne'
  unfold node; field_simp; ring

theorem node_lt (d : Interval K) (hd : d.a < d.b) {n : ℕ} (hn : 0 < n) {i j : ℕ} (h : i < j) :
    node d n i < node d n j := by
  unfold node
  have h1 : (0 : K) < (d.b - d.a) / n := div_pos (by linarith) (by exact_mod_cast hn)
  have h2 : (i : K) < j := by exact_mod_cast h
  nlinarith

theorem node_le_iff (d : Interval K) (hd : d.a < d.b) {n : ℕ} (hn : 0 < n) {i j : ℕ} :
    node d n i ≤ node d n j ↔ i ≤ j := by
  constructor
  · intro h
    by_contra hc
    exact absurd (node_lt d hd hn (Nat.lt_of_not_le hc)) (not_lt.mpr h)
  · intro h
    rcases Nat.lt_or_eq_of_le h with h | h
    · exact (node_lt d hd hn h).le
    · rw [h]

theorem linspace_eq (d : Interval K) {n : ℕ} (hn : 0 < n) :
    linspace d.a d.b n = ((List.range (n + 1)).map (node d n), some ((d.b - d.a) / n)) := by
  unfold linspace
  rw [if_neg hn.ne']
  congr 1
  apply List.map_congr_left
  intro i hi
  split
  · rename_i h; rw [h, node_last d hn]
  · unfold node; ring

/-- A uniform mesh with at least one cell, in closed form. -/
theorem uniformMesh_eq (d : Interval K) (hd : d.a < d.b) {n : ℕ} (hn : 0 < n) :
    uniformMesh d n = .ok ⟨d, (List.range n).map (fun i => ⟨node d n i, node d n (i + 1)⟩),
      some ((d.b - d.a) / n)⟩ := by
  unfold uniformMesh
  rw [linspace_eq d hn]
  have : buildCells ((List.range (n + 1)).map (node d n)) =
      .ok ((List.range n).map (fun i => ⟨node d n i, node d n (i + 1)⟩)) := by
    unfold buildCells
    have hl : ((List.range (n + 1)).map (node d n)).length - 1 = n := by simp
    rw [hl]
    apply mapM_ok
    intro i hi
    rw [List.mem_range] at hi
    have e1 : ((List.range (n + 1)).map (node d n)).getD i 0 = node d n i := by
      rw [List.getD_eq_getElem _ _ (by simp; omega)]; simp
    have e2 : ((List.range (n + 1)).map (node d n)).getD (i + 1) 0 = node d n (i + 1) := by
      rw [List.getD_eq_getElem _ _ (by simp; omega)]; simp
    rw [e1, e2, Interval.make, if_pos (node_lt d hd hn (Nat.lt_succ_self i))]
  simp only [this]

end Verif.Mesh
