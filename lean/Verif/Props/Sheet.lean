import Verif.Core.Registry
import Verif.Core.Interpolate

/-!
Interpolation by values at nodes (C58) and the data of the named benchmarks (C102).
-/

set_option linter.unusedSectionVars false

namespace Verif.Sheet

open Verif.Py Verif.Bench Verif.Registry
open Verif.Interpolate
open Verif.Mesh hiding Error

variable {K : Type*} [Field K] [LinearOrder K] [IsStrictOrderedRing K]

/-! ### C58 -/

/-- C58.  Interpolation by values at nodes: one value for each node, in the order of the nodes, for systems
component by component. -/
theorem C58_nodes (nodes : List K) (f : K → K) (g : K → List K) (i j : ℕ) (hi : i < nodes.length)
    (hj : j < (g 0).length) :
    (nodeValues nodes f).length = nodes.length ∧ (nodeValues nodes f).getD i 0 = f nodes[i] ∧
    (interpolateVector (nodeValues nodes) nodes.length g).length = nodes.length ∧
    ((interpolateVector (nodeValues nodes) nodes.length g).getD i []).length = (g 0).length ∧
    ((interpolateVector (nodeValues nodes) nodes.length g).getD i []).getD j 0 = (g nodes[i]).getD j 0 := by
  unfold interpolateVector nodeValues
  refine ⟨by simp, ?_, by simp, ?_, ?_⟩
  · rw [List.getD_eq_getElem (d := (0 : K)) _ (by simpa using hi), List.getElem_map]
  · rw [List.getD_eq_getElem _ _ (by simpa using hi)]
    simp
  · rw [List.getD_eq_getElem (d := []) _ (by simpa using hi), List.getElem_map, List.getElem_range,
      List.getD_eq_getElem (d := (0 : K)) _ (by simpa using hj), List.getElem_map, List.getElem_map,
      List.getElem_range, List.getD_eq_getElem (d := (0 : K)) _ (by simpa using hi), List.getElem_map]

/-- The nodes `0`, `1` and `3`. -/
example : nodeValues [(0 : ℚ), 1, 3] (fun x => 2 * x + 1) = [1, 3, 7] ∧
    interpolateVector (nodeValues [(0 : ℚ), 1, 3]) 3 (fun x => [x, x * x]) = [[0, 0], [1, 1], [3, 9]] := by
  decide +kernel

/-! ### C102 -/

/-- A row of the sheet of benchmarks: name, ends of the domain, boundary conditions, end time. -/
structure Row where
  name : String
  left : ℝ
  right : ℝ
  conditions : List String
  time : ℝ

/-- The benchmarks of linear advection. -/
noncomputable def advectionSheet : List Row :=
  [⟨"three-hills", 0, 1, ["periodic"], 1⟩, ⟨"two-hills", 0, 1, ["periodic"], 1⟩,
   ⟨"one-hill", 0, 1, ["periodic"], 1⟩, ⟨"cos", 0, 1, ["periodic"], 1⟩,
   ⟨"gauss", 0, 1, ["periodic"], 1⟩]

/-- The benchmarks of Burgers' equation. -/
noncomputable def burgersSheet : List Row :=
  [⟨"shock", 0, 1, ["periodic"], 1 / 2⟩,
   ⟨"smooth", 0, 2 * Real.pi, ["periodic"], 1 / 2⟩]

/-- The benchmarks of the shallow water equations. -/
noncomputable def shallowWaterSheet : List Row :=
  [⟨"lake-at-rest-no-bathymetry", 0, 20, ["periodic"], 100⟩,
   ⟨"lake-at-rest", 0, 20, ["outflow", "outflow"], 100⟩,
   ⟨"lake-at-rest-perturbation", 0, 20, ["outflow", "outflow"], 2⟩,
   ⟨"moving-water-no-bathymetry", 0, 100, ["periodic"], 1⟩,
   ⟨"moving-water-bump-bathymetry", -2, 2, ["periodic"], 100⟩,
   ⟨"oscillation", 0, 100, ["periodic"], 40⟩,
   ⟨"damm-break", 0, 1, ["outflow", "outflow"], 3 / 10⟩,
   ⟨"cylindrical-damm-break", -1, 1, ["outflow", "outflow"], 1 / 5⟩,
   ⟨"cylindrical-damm-break-with-wall", -1, 1, ["wall", "wall"], 1 / 5⟩,
   ⟨"sinus-inflow", 0, 100, ["inflow", "wall"], 40⟩,
   ⟨"b1", 0, 100, ["periodic"], 40⟩, ⟨"b2", 0, 100, ["periodic"], 40⟩,
   ⟨"b3", 0, 100, ["periodic"], 40⟩, ⟨"b4", 0, 100, ["periodic"], 40⟩,
   ⟨"b5", 0, 100, ["periodic"], 40⟩]

/-- The benchmark has the data of the row. -/
def Row.Describes {V : Type*} (r : Row) (b : Benchmark V) : Prop :=
  b.domain.a = r.left ∧ b.domain.b = r.right ∧ b.boundary.conditions = r.conditions ∧
  b.endTime = r.time

theorem lookup_sheet {V : Type*} (l : List (String × Except Error (Benchmark V))) (rows : List Row)
    (h : ∀ p ∈ l, ∀ b, p.2 = .ok b → ∃ r ∈ rows, r.name = p.1 ∧ r.Describes b) (name : String)
    (b : Benchmark V) (hb : parseBenchmark l name = .value b) :
    ∃ r ∈ rows, r.name = name ∧ r.Describes b := by
  have hl : l.lookup name = some (.ok b) := by
    unfold parseBenchmark at hb
    split at hb <;> simp_all
  clear hb
  induction l with
  | nil => simp at hl
  | cons p l ih =>
    obtain ⟨q, x⟩ := p
    by_cases hq : name = q
    · subst hq
      simp at hl
      exact h (name, x) (List.mem_cons_self ..) b hl
    · refine ih (fun p hp => h p (List.mem_cons_of_mem _ hp)) ?_
      rw [List.lookup_cons] at hl
      simpa [beq_false_of_ne hq] using hl

theorem describes_closed {V : Type*} (name : String) (d : Interval ℝ) (c : BoundarySpec) (t : ℝ) (f : ℝ → V)
    (rows : List Row) (h : (⟨name, d.a, d.b, c.conditions, t⟩ : Row) ∈ rows) (b : Benchmark V)
    (hb : (Except.ok (Benchmark.closed d c t f) : Except Error (Benchmark V)) = .ok b) :
    ∃ r ∈ rows, r.name = name ∧ r.Describes b := by
  cases hb
  exact ⟨_, h, rfl, rfl, rfl, rfl, rfl⟩

/-- C102.  Domains, boundary conditions and end times of all named benchmarks are those of the sheets. -/
theorem C102_sheet (newton : (ℝ → ℝ) → ℝ → Except Error ℝ) (name : String) :
    (∀ b, parseBenchmark advectionTable name = .value b →
      ∃ r ∈ advectionSheet, r.name = name ∧ r.Describes b) ∧
    (∀ b, parseBenchmark burgersTable name = .value b →
      ∃ r ∈ burgersSheet, r.name = name ∧ r.Describes b) ∧
    (∀ b, parseBenchmark (shallowWaterTable newton) name = .value b →
      ∃ r ∈ shallowWaterSheet, r.name = name ∧ r.Describes b) := by
  refine ⟨lookup_sheet _ _ ?_ name, lookup_sheet _ _ ?_ name, lookup_sheet _ _ ?_ name⟩
  · intro p hp
    simp only [advectionTable, List.map_cons, List.map_nil, List.mem_cons, List.not_mem_nil, or_false] at hp
    rcases hp with rfl | rfl | rfl | rfl | rfl <;> refine describes_closed _ _ _ _ _ _ ?_ <;>
      simp [advectionSheet, Advection.domain, BoundarySpec.conditions]
  · intro p hp
    simp only [burgersTable, List.map_cons, List.map_nil, List.mem_cons, List.not_mem_nil, or_false] at hp
    rcases hp with rfl | rfl <;> refine describes_closed _ _ _ _ _ _ ?_ <;>
      simp [burgersSheet, Burgers.domain, BoundarySpec.conditions]
  · intro p hp
    simp only [shallowWaterTable, List.mem_cons, List.not_mem_nil, or_false] at hp
    have e : (2 / 10 : ℝ) = 1 / 5 := by norm_num
    rcases hp with rfl | rfl | rfl | rfl | rfl | rfl | rfl | rfl | rfl | rfl | rfl | rfl | rfl | rfl | rfl |
      rfl
    case inr.inr.inr.inr.inl =>
      rintro b ⟨⟩
      exact ⟨⟨_, -2, 2, ["periodic"], 100⟩, by simp [shallowWaterSheet], rfl, rfl, rfl, rfl, rfl⟩
    case inr.inr.inr.inr.inr.inr.inl => rintro b ⟨⟩
    case inr.inr.inr.inr.inr.inr.inr.inl =>
      intro b hb
      simp only [damBreak] at hb
      split at hb
      · exact describes_closed _ _ _ _ _ _ (by simp [shallowWaterSheet, BoundarySpec.conditions]) b hb
      · cases hb
    case inr.inr.inr.inr.inr.inr.inr.inr.inr.inr.inl =>
      rintro b ⟨⟩
      exact ⟨⟨_, 0, 100, ["inflow", "wall"], 40⟩, by simp [shallowWaterSheet], rfl, rfl, rfl, rfl, rfl⟩
    all_goals
      refine describes_closed _ _ _ _ _ _ ?_
      simp [shallowWaterSheet, Lake.domain, Lake.boundary, oscillationDomain, cylinderDomain,
        BoundarySpec.conditions, e]

/-- The names of the sheets are names of benchmarks. -/
example (newton : (ℝ → ℝ) → ℝ → Except Error ℝ) :
    (∃ b, parseBenchmark (shallowWaterTable newton) "sinus-inflow" = .value b) ∧
    (∃ b, parseBenchmark burgersTable "smooth" = .value b) ∧
    (∃ b, parseBenchmark advectionTable "gauss" = .value b) := by
  refine ⟨?_, ?_, ?_⟩
  · simp [parseBenchmark, shallowWaterTable, List.lookup]
  · simp [parseBenchmark, burgersTable, List.lookup]
  · simp [parseBenchmark, advectionTable, List.lookup]

end Verif.Sheet
