import Verif.Core.Registry
import Verif.Props.Symmetry
import Verif.Props.SteadyStates
import Verif.Props.Oscillations
import Verif.Props.SWEPositivity
import Verif.Props.SWEConservation

/-!
C102: the benchmarks that can be chosen by name, and runs of the cylindrical dam breaks.
-/

set_option linter.unusedSectionVars false

namespace Verif.Registry

open Verif.Py Verif.Bench Verif.Boundary
open Verif.Mesh hiding Error

/-- A benchmark with which every solver can be set up: a domain, a positive end time, and boundary
conditions that can be built for every stencil radius and supply all ghost cells at all times on every
mesh with at least `radius` cells, where the ghost cells have the property `good` if the cells have it. -/
structure Sound {V : Type*} (wall : Option (V → V)) (good : V → Prop) (b : Benchmark V) : Prop where
  domain : b.domain.a < b.domain.b
  endTime : 0 < b.endTime
  ghosts : ∀ radius, ∃ bc, build wall b.boundary.conditions radius b.inflowLeft b.inflowRight = .ok bc ∧
    (bc.periodic = true ↔ b.boundary.conditions = ["periodic"]) ∧
    ∀ (v : List V) (t : ℝ), 0 < v.length → radius ≤ v.length → ∃ l r : List V,
      bc.extend v (some t) = .ok (l ++ v ++ r) ∧ l.length = radius ∧ r.length = radius ∧
      ((∀ x ∈ v, good x) → ∀ x ∈ l ++ r, good x)
  initial : ∀ x v, b.initial x = .ok v → b.domain.a ≤ x → x ≤ b.domain.b → good v

theorem mapM_list {α β ε : Type*} (f : α → Except ε β) (l : List α) (Q : β → Prop)
    (h : ∀ a ∈ l, ∃ x, f a = .ok x ∧ Q x) :
    ∃ r, l.mapM f = .ok r ∧ r.length = l.length ∧ ∀ x ∈ r, Q x := by
  induction l with
  | nil => exact ⟨[], rfl, rfl, by simp⟩
  | cons a l ih =>
    obtain ⟨x, h1, h2⟩ := h a List.mem_cons_self
    obtain ⟨r, h3, h4, h5⟩ := ih fun b hb => h b (List.mem_cons_of_mem _ hb)
    refine ⟨x :: r, ?_, by simp [h4], ?_⟩
    · rw [List.mapM_cons, h1, h3]; rfl
    · intro y hy
      rcases List.mem_cons.mp hy with rfl | hy
      · exact h2
      · exact h5 y hy

theorem mapM_range {α ε : Type*} (f : ℕ → Except ε α) (n : ℕ) (h : ∀ i < n, ∃ x, f i = .ok x) :
    ∃ l, (List.range n).mapM f = .ok l ∧ l.length = n ∧ ∀ x ∈ l, ∃ i < n, f i = .ok x := by
  obtain ⟨r, h1, h2, h3⟩ := mapM_list f (List.range n) (fun x => ∃ i < n, f i = .ok x) (by
    intro i hi
    obtain ⟨x, hx⟩ := h i (List.mem_range.mp hi)
    exact ⟨x, hx, i, List.mem_range.mp hi, hx⟩)
  exact ⟨r, h1, by simpa using h2, h3⟩

theorem get_ok {V : Type*} (v : List V) (i : ℤ) (h1 : -(v.length : ℤ) ≤ i) (h2 : i < v.length) :
    ∃ x, Py.get v i = .ok x ∧ x ∈ v := by
  have key : ∃ j : ℕ, j < v.length ∧ (if i < 0 then (v.length : ℤ) + i else i) = j := by
    split
    · exact ⟨((v.length : ℤ) + i).toNat, by omega, by omega⟩
    · exact ⟨i.toNat, by omega, by omega⟩
  obtain ⟨j, hj, e⟩ := key
  refine ⟨v[j], ?_, List.getElem_mem hj⟩
  unfold Py.get
  simp only [e]
  rw [if_neg (by omega)]
  simp [hj]

/-- When a condition can be used at an end: it is one of the names, walls and inflows being available. -/
def Usable {V : Type*} (wall : Option (V → V)) (good : V → Prop) (inflow : Option (ℝ → V)) (c : String) :
    Prop :=
  c = "periodic" ∨ c = "outflow" ∨ (c = "inflow" ∧ ∃ g, inflow = some g ∧ ∀ t, good (g t)) ∨
    (c = "wall" ∧ ∃ f, wall = some f ∧ ∀ x, good x → good (f x))

/-- A ghost cell that never raises on meshes with at least `radius` cells. -/
def Supplies {V : Type*} (good : V → Prop) (radius : ℕ) (c : Ghost ℝ V) : Prop :=
  ∀ (v : List V) (t : ℝ), 0 < v.length → radius ≤ v.length →
    ∃ x, c.eval v (some t) = .ok x ∧ ((∀ y ∈ v, good y) → good x)

theorem supplies_copy {V : Type*} (good : V → Prop) (radius : ℕ) (i : ℤ)
    (h1 : -(max 1 radius : ℤ) ≤ i) (h2 : i < max 1 radius) :
    Supplies good radius (.copy i) := by
  intro v t h0 hr
  obtain ⟨x, e, hx⟩ := get_ok v i (by omega) (by omega)
  exact ⟨x, e, fun h => h x hx⟩

theorem supplies_reflect {V : Type*} (good : V → Prop) (radius : ℕ) (i : ℤ)
    (h1 : -1 ≤ i) (h2 : i < 1) (f : V → V) (hf : ∀ x, good x → good (f x)) :
    Supplies good radius (.reflect i f) := by
  intro v t h0 hr
  obtain ⟨x, e, hx⟩ := get_ok v i (by omega) (by omega)
  refine ⟨f x, ?_, fun h => hf x (h x hx)⟩
  unfold Ghost.eval
  simp only [e]

theorem buildLeft_usable {V : Type*} (wall : Option (V → V)) (good : V → Prop) (inflow : Option (ℝ → V))
    (c : String) (h : Usable wall good inflow c) (radius i : ℕ) (hi : i < radius) :
    ∃ g, buildLeft wall c i inflow = .ok g ∧ Supplies good radius g := by
  rcases h with rfl | rfl | ⟨rfl, g, rfl, hg⟩ | ⟨rfl, f, rfl, hf⟩
  · refine ⟨.copy (-(i : ℤ) - 1), ?_, supplies_copy _ _ _ (by omega) (by omega)⟩
    cases wall <;> simp [buildLeft]
  · refine ⟨.copy 0, ?_, supplies_copy _ _ _ (by omega) (by omega)⟩
    cases wall <;> simp [buildLeft]
  · refine ⟨.inflow g, ?_, fun v t _ _ => ⟨g t, rfl, fun _ => hg t⟩⟩
    cases wall <;> simp [buildLeft]
  · exact ⟨.reflect 0 f, by simp [buildLeft], supplies_reflect _ _ _ (by omega) (by omega) f hf⟩

theorem buildRight_usable {V : Type*} (wall : Option (V → V)) (good : V → Prop) (inflow : Option (ℝ → V))
    (c : String) (h : Usable wall good inflow c) (radius i : ℕ) (hi : i < radius) :
    ∃ g, buildRight wall c i inflow = .ok g ∧ Supplies good radius g := by
  rcases h with rfl | rfl | ⟨rfl, g, rfl, hg⟩ | ⟨rfl, f, rfl, hf⟩
  · refine ⟨.copy i, ?_, supplies_copy _ _ _ (by omega) (by omega)⟩
    cases wall <;> simp [buildRight]
  · refine ⟨.copy (-1), ?_, supplies_copy _ _ _ (by omega) (by omega)⟩
    cases wall <;> simp [buildRight]
  · refine ⟨.inflow g, ?_, fun v t _ _ => ⟨g t, rfl, fun _ => hg t⟩⟩
    cases wall <;> simp [buildRight]
  · exact ⟨.reflect (-1) f, by simp [buildRight], supplies_reflect _ _ _ (by omega) (by omega) f hf⟩

theorem ghosts_of {V : Type*} (wall : Option (V → V)) (good : V → Prop) (cl : String) (rest : List String)
    (il ir : Option (ℝ → V)) (hl : Usable wall good il cl) (hr : Usable wall good ir (rest.headD cl))
    (radius : ℕ) : ∃ bc, build wall (cl :: rest) radius il ir = .ok bc ∧
    (bc.periodic = true ↔ cl :: rest = ["periodic"]) ∧
    ∀ (v : List V) (t : ℝ), 0 < v.length → radius ≤ v.length → ∃ l r : List V,
      bc.extend v (some t) = .ok (l ++ v ++ r) ∧ l.length = radius ∧ r.length = radius ∧
      ((∀ x ∈ v, good x) → ∀ x ∈ l ++ r, good x) := by
  obtain ⟨l, l1, l2, l3⟩ := mapM_range (fun i => buildLeft wall cl (radius - 1 - i) il) radius
    fun i hi => by
      obtain ⟨g, h, -⟩ := buildLeft_usable wall good il cl hl radius (radius - 1 - i) (by omega)
      exact ⟨g, h⟩
  obtain ⟨r, r1, r2, r3⟩ := mapM_range (fun i => buildRight wall (rest.headD cl) i ir) radius
    fun i hi => by
      obtain ⟨g, h, -⟩ := buildRight_usable wall good ir _ hr radius i hi
      exact ⟨g, h⟩
  have sl : ∀ c ∈ l, Supplies good radius c := by
    intro c hc
    obtain ⟨i, hi, e⟩ := l3 c hc
    obtain ⟨g, h, hs⟩ := buildLeft_usable wall good il cl hl radius (radius - 1 - i) (by omega)
    cases e.symm.trans h
    exact hs
  have sr : ∀ c ∈ r, Supplies good radius c := by
    intro c hc
    obtain ⟨i, hi, e⟩ := r3 c hc
    obtain ⟨g, h, hs⟩ := buildRight_usable wall good ir _ hr radius i hi
    cases e.symm.trans h
    exact hs
  refine ⟨⟨l, r, decide (cl :: rest = ["periodic"])⟩, ?_, by simp, ?_⟩
  · unfold build
    simp only [l1, r1]
    exact make_append l r (l2.trans r2.symm) _
  · intro v t h0 hv
    obtain ⟨x, x1, x2, x3⟩ := mapM_list (fun c => Ghost.eval c v (some t)) l
      (fun x => (∀ y ∈ v, good y) → good x) (fun c hc => sl c hc v t h0 hv)
    obtain ⟨y, y1, y2, y3⟩ := mapM_list (fun c => Ghost.eval c v (some t)) r
      (fun x => (∀ y ∈ v, good y) → good x) (fun c hc => sr c hc v t h0 hv)
    refine ⟨x, y, ?_, x2.trans l2, y2.trans r2, ?_⟩
    · unfold BC.extend
      simp only [x1, y1]
    · intro hg z hz
      rcases List.mem_append.mp hz with hz | hz
      · exact x3 z hz hg
      · exact y3 z hz hg

/-- C102.  Each name in the tables of the scalar problems gives a benchmark with which every solver can
be set up; every other name raises `KeyError` (which is not turned into a message). -/
theorem C102_scalar (table : List (String × Except Error (Benchmark ℝ)))
    (ht : table = advectionTable ∨ table = burgersTable) (name : String) :
    (name ∈ table.map Prod.fst → ∃ b, parseBenchmark table name = .value b ∧
      Sound none (fun _ => True) b ∧ ∀ x, ∃ u, b.initial x = .ok u) ∧
    (name ∉ table.map Prod.fst → parseBenchmark table name = .raised .keyError) := by
  have hs : ∀ (d : Interval ℝ) (t : ℝ) (f : ℝ → ℝ), d.a < d.b → 0 < t →
      Sound none (fun _ => True) (Benchmark.closed d (.single "periodic") t f) := by
    intro d t f hd h0
    exact ⟨hd, h0, ghosts_of none _ _ [] none none (Or.inl rfl) (Or.inl rfl), fun _ _ _ _ _ => trivial⟩
  constructor
  · intro h
    rcases ht with rfl | rfl
    · have : ∃ a : Advection, parseBenchmark advectionTable name =
          .value (.closed a.domain (.single "periodic") 1 a.initial) := by
        simp only [advectionTable, List.map_cons, List.map_nil, List.mem_cons, List.not_mem_nil,
          or_false] at h
        rcases h with rfl | rfl | rfl | rfl | rfl <;> exact ⟨_, rfl⟩
      obtain ⟨a, ha⟩ := this
      exact ⟨_, ha, hs _ _ _ (by norm_num [Advection.domain]) one_pos, fun x => ⟨_, rfl⟩⟩
    · have : ∃ a : Burgers, parseBenchmark burgersTable name =
          .value (.closed a.domain (.single "periodic") (1 / 2) a.initial) := by
        simp only [burgersTable, List.map_cons, List.map_nil, List.mem_cons, List.not_mem_nil,
          or_false] at h
        rcases h with rfl | rfl <;> exact ⟨_, rfl⟩
      obtain ⟨a, ha⟩ := this
      refine ⟨_, ha, hs _ _ _ ?_ (by norm_num), fun x => ⟨_, rfl⟩⟩
      cases a
      · norm_num [Burgers.domain]
      · simp only [Burgers.domain]; positivity
  · intro h
    unfold parseBenchmark
    rw [List.lookup_eq_none_iff.mpr]
    intro p hp
    simp only [beq_eq_false_iff_ne, ne_eq, bne_iff_ne]
    rintro rfl
    exact h (List.mem_map_of_mem hp)


theorem oscillation_wet (n : Named) (x : ℝ) : 0 < ((n.make 40).initial x).1 := (C84_named n 40).wet x

theorem reflect_wet : ∀ x : ℝ × ℝ, 0 < x.1 → 0 < (SWE.reflect x).1 := fun _ h => h

theorem sinusInflow_range (t : ℝ) : 9 / 5 ≤ (sinusInflow t).1 ∧ (sinusInflow t).1 ≤ 11 / 5 := by
  have h1 := Real.neg_one_le_sin t
  have h2 := Real.sin_le_one t
  constructor <;> simp only [sinusInflow] <;> linarith

theorem cylinder_range (x : ℝ) :
    cylinderInitial x = (2, 0) ∨ cylinderInitial x = (1, 0) := by
  unfold cylinderInitial
  split
  · exact Or.inl rfl
  · exact Or.inr rfl

/-- C102.  The names in the table of the shallow water benchmarks.  "random" is refused although it is
listed; "damm-break" gives a benchmark exactly if Newton's method finds a middle state that is not the
right one; every other name gives a benchmark, and names that are not in the table raise `KeyError`.
Every benchmark obtained can be set up with every solver and has positive water heights, also in the ghost
cells (for the moving water over a bump, if the roots returned by Newton's method are positive). -/
theorem C102_shallow_water (newton : (ℝ → ℝ) → ℝ → Except Error ℝ) (name : String) :
    (name = "random" → name ∈ (shallowWaterTable newton).map Prod.fst ∧
      parseBenchmark (shallowWaterTable newton) name = .usage) ∧
    (name = "damm-break" → ((∃ b, parseBenchmark (shallowWaterTable newton) name = .value b) ↔
      ∃ c, newton (damPolynomial 1 (Real.sqrt (1 / 10))) ((1 + Real.sqrt (1 / 10)) / 2) = .ok c ∧
        c ^ 2 ≠ 1 / 10)) ∧
    (name ∈ (shallowWaterTable newton).map Prod.fst → name ≠ "random" → name ≠ "damm-break" →
      ∃ b, parseBenchmark (shallowWaterTable newton) name = .value b) ∧
    (name ∉ (shallowWaterTable newton).map Prod.fst →
      parseBenchmark (shallowWaterTable newton) name = .raised .keyError) ∧
    ∀ b, parseBenchmark (shallowWaterTable newton) name = .value b →
      (name = "moving-water-bump-bathymetry" → ∀ f h, newton f (25 / 10) = .ok h → 0 < h) →
      Sound (some SWE.reflect) (fun u => 0 < u.1) b := by
  have lookup : name ∉ (shallowWaterTable newton).map Prod.fst →
      parseBenchmark (shallowWaterTable newton) name = .raised .keyError := by
    intro h
    unfold parseBenchmark
    rw [List.lookup_eq_none_iff.mpr]
    intro p hp
    simp only [bne_iff_ne]
    rintro rfl
    exact h (List.mem_map_of_mem hp)
  refine ⟨?_, ?_, ?_, lookup, ?_⟩
  · rintro rfl
    exact ⟨by simp [shallowWaterTable], rfl⟩
  · rintro rfl
    have e : parseBenchmark (shallowWaterTable newton) "damm-break" = match damBreak newton with
        | .ok b => .value b
        | .error .typeError => .usage
        | .error .valueError => .usage
        | .error e => .raised e := by
      unfold parseBenchmark
      have : (shallowWaterTable newton).lookup "damm-break" = some (damBreak newton) := rfl
      rw [this]
      rcases damBreak newton with e | b
      · cases e <;> rfl
      · rfl
    have e2 : (∃ b, damBreak newton = .ok b) ↔
      ∃ c, newton (damPolynomial 1 (Real.sqrt (1 / 10))) ((1 + Real.sqrt (1 / 10)) / 2) = .ok c ∧
        c ^ 2 ≠ 1 / 10 := by
      unfold damBreak DamBreak.make
      rw [if_pos (by norm_num), if_pos (by norm_num)]
      simp only [one_mul, Real.sqrt_one]
      cases newton (damPolynomial 1 (Real.sqrt (1 / 10))) ((1 + Real.sqrt (1 / 10)) / 2) with
      | error e => simp
      | ok c =>
        simp only [one_ne_zero, false_or, div_one, Except.ok.injEq, exists_eq_left']
        by_cases hc : c ^ 2 - 1 / 10 = 0
        · rw [if_pos hc]
          simp only [reduceCtorEq, exists_false, false_iff, not_not]
          linarith
        · rw [if_neg hc]
          simp only [Except.ok.injEq, exists_eq', true_iff]
          intro h; exact hc (by linarith)
    rw [e, ← e2]
    constructor
    · rintro ⟨b, hb⟩
      cases hd : damBreak newton with
      | ok b => exact ⟨b, rfl⟩
      | error e => rw [hd] at hb; cases e <;> cases hb
    · rintro ⟨b, hb⟩
      exact ⟨b, by rw [hb]⟩
  · intro h h1 h2
    simp only [shallowWaterTable, List.map_cons, List.map_nil, List.mem_cons, List.not_mem_nil,
      or_false] at h
    rcases h with rfl | rfl | rfl | rfl | rfl | rfl | rfl | rfl | rfl | rfl | rfl | rfl | rfl | rfl |
      rfl | rfl
    all_goals first | exact ⟨_, rfl⟩ | exact absurd rfl h1 | exact absurd rfl h2
  · intro b hb hbump
    by_cases h : name ∈ (shallowWaterTable newton).map Prod.fst
    swap
    · rw [lookup h] at hb; cases hb
    have per : ∀ (d : Interval ℝ) (t : ℝ) (f : ℝ → Except Error (ℝ × ℝ)), d.a < d.b → 0 < t →
        (∀ x v, f x = .ok v → 0 < v.1) →
        Sound (some SWE.reflect) (fun u : ℝ × ℝ => 0 < u.1)
          (⟨d, .single "periodic", none, none, t, f⟩ : Benchmark (ℝ × ℝ)) := fun d t f hd ht hf =>
      ⟨hd, ht, ghosts_of _ _ _ [] none none (Or.inl rfl) (Or.inl rfl), fun x v h _ _ => hf x v h⟩
    have out : ∀ (d : Interval ℝ) (t : ℝ) (f : ℝ → ℝ × ℝ), d.a < d.b → 0 < t → (∀ x, 0 < (f x).1) →
        Sound (some SWE.reflect) (fun u : ℝ × ℝ => 0 < u.1)
          (Benchmark.closed d (.pair "outflow" "outflow") t f) := fun d t f hd ht hf =>
      ⟨hd, ht, ghosts_of _ _ _ ["outflow"] none none (Or.inr (Or.inl rfl)) (Or.inr (Or.inl rfl)),
        fun x v h _ _ => by cases h; exact hf x⟩
    have osc : ∀ n : Named, Sound (some SWE.reflect) (fun u : ℝ × ℝ => 0 < u.1)
        (oscillation (n.make 40) 40) := fun n =>
      per _ _ _ (by norm_num [oscillationDomain]) (by norm_num) (by
        intro x v h; cases h; exact oscillation_wet n x)
    have cyl : ∀ x, 0 < (cylinderInitial x).1 := by
      intro x
      rcases cylinder_range x with h | h <;> rw [h] <;> norm_num
    simp only [shallowWaterTable, List.map_cons, List.map_nil, List.mem_cons, List.not_mem_nil,
      or_false] at h
    rcases h with rfl | rfl | rfl | rfl | rfl | rfl | rfl | rfl | rfl | rfl | rfl | rfl | rfl | rfl |
      rfl | rfl
    · cases hb
      exact per _ _ _ (by norm_num [Lake.domain]) (by norm_num) (by
        intro x v h; cases h; norm_num [Lake.initial])
    · cases hb
      exact out _ _ _ (by norm_num [Lake.domain]) (by norm_num) fun x => by
        linarith [(C86_lake x 0).2.2.1]
    · cases hb
      exact out _ _ _ (by norm_num [Lake.domain]) (by norm_num) fun x => by
        linarith [(C86_perturbed x 0).2.2.1]
    · cases hb
      exact per _ _ _ (by norm_num [Lake.domain]) (by norm_num) (by
        intro x v h; cases h; norm_num [Lake.initial])
    · cases hb
      refine per _ _ _ (by norm_num) (by norm_num) ?_
      intro x v h
      unfold MovingBump.initial at h
      split at h
      · cases h
      · rename_i y hy
        cases h
        exact hbump rfl _ _ hy
    · cases hb; exact osc .default
    · cases hb
    · have e : ∃ d : DamBreak, d.hLeft = 1 ∧ d.hRight = 1 / 10 ∧
          b = .closed ⟨0, 1⟩ (.pair "outflow" "outflow") (3 / 10) d.initial := by
        unfold parseBenchmark at hb
        have : (shallowWaterTable newton).lookup "damm-break" = some (damBreak newton) := rfl
        rw [this] at hb
        cases hd : damBreak newton with
        | error e => rw [hd] at hb; cases e <;> cases hb
        | ok c =>
          rw [hd] at hb
          cases hb
          unfold damBreak at hd
          split at hd
          · rename_i d h
            cases hd
            refine ⟨d, ?_, ?_, rfl⟩
            all_goals
              unfold DamBreak.make at h
              rw [if_pos (by norm_num), if_pos (by norm_num)] at h
              simp only at h
              split at h
              · cases h
              · split at h
                · cases h
                · cases h; rfl
          · cases hd
      obtain ⟨d, h1, h2, rfl⟩ := e
      refine out _ _ _ (by norm_num) (by norm_num) fun x => ?_
      simp only [DamBreak.initial, h1, h2]
      split <;> norm_num
    · cases hb
      exact out _ _ _ (by norm_num [cylinderDomain]) (by norm_num) cyl
    · cases hb
      refine ⟨by norm_num [Benchmark.closed, cylinderDomain], by norm_num [Benchmark.closed],
        ghosts_of _ _ _ ["wall"] none none ?_ ?_, fun x v h _ _ => by cases h; exact cyl x⟩
      · exact Or.inr (Or.inr (Or.inr ⟨rfl, _, rfl, reflect_wet⟩))
      · exact Or.inr (Or.inr (Or.inr ⟨rfl, _, rfl, reflect_wet⟩))
    · cases hb
      refine ⟨by norm_num, by norm_num, ghosts_of _ _ _ ["wall"] (some sinusInflow) none ?_ ?_,
        fun x v h _ _ => by cases h; norm_num [sinusInitial]⟩
      · refine Or.inr (Or.inr (Or.inl ⟨rfl, _, rfl, fun t => ?_⟩))
        linarith [(sinusInflow_range t).1]
      · exact Or.inr (Or.inr (Or.inr ⟨rfl, _, rfl, reflect_wet⟩))
    · cases hb; exact osc .first
    · cases hb; exact osc .second
    · cases hb; exact osc .third
    · cases hb; exact osc .fourth
    · cases hb; exact osc .fifth

/-- C102.  The option `-T` replaces the end time of the benchmark and nothing else; zero would be ignored. -/
theorem C102_end_time {V : Type*} (b : Benchmark V) (t : ℝ) (ht : t ≠ 0) :
    adjustEndTime none b = b ∧ adjustEndTime (some 0) b = b ∧ (adjustEndTime (some t) b).endTime = t ∧
    { adjustEndTime (some t) b with endTime := b.endTime } = b := by
  refine ⟨rfl, ?_, ?_, ?_⟩ <;> simp [adjustEndTime, ht]


/-! ### The cylindrical dam breaks -/

section Cylinder

open Verif.Quadrature Verif.Interpolate Verif.SWE Verif.FV Verif.ODE

/-- A rule that is symmetric about the origin. -/
def Symmetric (points : List (ℝ × ℝ)) : Prop := (points.map fun p => (-p.1, p.2)).Perm points

/-- C57.  The Gauss rules are symmetric. -/
theorem C57_symmetric (n : ℕ) (nodes : Fin (n + 1) → ℝ) (v : Matrix (Fin (n + 1)) (Fin (n + 1)) ℝ)
    (h : EigResult (jacobi (n + 1)) nodes v) : Symmetric (nodesWeights n nodes v) := by
  have sq : ∀ k : ℕ, ((-1 : ℝ) ^ k) * (-1) ^ k = 1 := fun k => by
    rw [← mul_pow]; norm_num
  let L : (Fin (n + 1) → ℝ) →ₗ[ℝ] (Fin (n + 1) → ℝ) :=
    LinearMap.pi fun k => ((-1 : ℝ) ^ (k : ℕ)) • LinearMap.proj k
  have h' : EigResult (jacobi (n + 1)) (fun i => -nodes i) (fun k i => (-1) ^ (k : ℕ) * v k i) := by
    refine ⟨?_, ?_, ?_⟩
    · intro i j
      have := congrArg (fun x => -(-1) ^ (j : ℕ) * x) (h.eigen i j)
      simp only [Finset.mul_sum] at this
      rw [show -nodes i * ((-1) ^ (j : ℕ) * v j i) = -(-1) ^ (j : ℕ) * (nodes i * v j i) by ring, ← this]
      apply Finset.sum_congr rfl
      intro k _
      unfold jacobi
      by_cases h1 : j.val + 1 = k.val
      · rw [if_pos h1, ← h1, pow_succ]; ring
      · rw [if_neg h1]
        by_cases h2 : k.val + 1 = j.val
        · rw [if_pos h2, ← h2, pow_succ]; ring
        · rw [if_neg h2]; ring
    · intro i
      refine Eq.trans ?_ (h.unit i)
      apply Finset.sum_congr rfl
      intro k _
      rw [mul_pow, pow_two ((-1 : ℝ) ^ (k : ℕ)), sq, one_mul]
    · have := h.indep.map' L (by
        rw [LinearMap.ker_eq_bot]
        intro x y hxy
        funext k
        have := congrFun hxy k
        simp only [L, LinearMap.pi_apply, LinearMap.smul_apply, LinearMap.proj_apply, smul_eq_mul] at this
        exact mul_left_cancel₀ (pow_ne_zero _ (by norm_num)) this)
      exact this
  have e := C57_unique n _ _ _ _ h' h
  have p1 : (nodesWeights n nodes v).Perm (List.ofFn fun i => (nodes i, 2 * v 0 i ^ 2)) := by
    unfold nodesWeights; exact List.mergeSort_perm _ _
  have p2 : (nodesWeights n (fun i => -nodes i) (fun k i => (-1) ^ (k : ℕ) * v k i)).Perm
      (List.ofFn fun i => (-nodes i, 2 * v 0 i ^ 2)) := by
    unfold nodesWeights
    simpa using List.mergeSort_perm _ _
  rw [e] at p2
  refine (p1.map _).trans ?_
  rw [List.map_ofFn]
  exact p2.symm

theorem cellAverage_even (points : List (ℝ × ℝ)) (hs : Symmetric points) (f : ℝ → ℝ)
    (hf : ∀ x, f (-x) = f x) (c c' : Interval ℝ) (hc : c.a < c.b) (h1 : c'.a = -c.b) (h2 : c'.b = -c.a) :
    cellAverage points f c' = cellAverage points f c := by
  rw [cellAverage_eq points f c hc, cellAverage_eq points f c' (by rw [h1, h2]; linarith)]
  congr 1
  rw [← (hs.map _).sum_eq, List.map_map]
  congr 1
  apply List.map_congr_left
  intro p _
  simp only [Function.comp_apply, h1, h2]
  rw [← hf]
  congr 2
  ring

/-- The initial values of the cylindrical dam break on `n` cells. -/
noncomputable def cylinderState (points : List (ℝ × ℝ)) (mesh : UMesh ℝ) (n : ℕ) : Fin n → State ℝ :=
  fun i => (discretize points mesh cylinderInitial).getD i 0

theorem cylinder_even (x : ℝ) : cylinderInitial (-x) = cylinderInitial x := by
  unfold cylinderInitial
  by_cases h : x ≥ -1 / 2 ∧ x ≤ 1 / 2
  · rw [if_pos h, if_pos ⟨by linarith [h.2], by linarith [h.1]⟩]
  · rw [if_neg h, if_neg]
    intro h'
    exact h ⟨by linarith [h'.2], by linarith [h'.1]⟩

theorem discretize_getD (points : List (ℝ × ℝ)) (mesh : UMesh ℝ) (f : ℝ → ℝ × ℝ) (i : ℕ)
    (hi : i < mesh.cells.length) : (discretize points mesh f).getD i 0 =
      (cellAverage points (fun x => (f x).1) mesh.cells[i],
       cellAverage points (fun x => (f x).2) mesh.cells[i]) := by
  unfold discretize cellAverages
  rw [List.getD_eq_getElem _ _ (by simpa using hi)]
  simp [hi]

/-- C102.  The initial values of the cylindrical dam breaks on any mesh: water at rest, between 1 and 2
deep, symmetric about the middle. -/
theorem C102_cylinder_initial (points : List (ℝ × ℝ)) (hp : AveragingRule points)
    (hs : Symmetric points) (n : ℕ) (hn : 0 < n) (mesh : UMesh ℝ)
    (hmesh : uniformMesh cylinderDomain n = .ok mesh) (i : Fin n) :
    1 ≤ (cylinderState points mesh n i).1 ∧ (cylinderState points mesh n i).1 ≤ 2 ∧
    (cylinderState points mesh n i).2 = 0 ∧
    (cylinderState points mesh n i.rev).1 = (cylinderState points mesh n i).1 := by
  have hd : cylinderDomain.a < cylinderDomain.b := by norm_num [cylinderDomain]
  obtain ⟨hlen, hlt, hcell⟩ := uniform_cells hd hn hmesh
  have hi : (i : ℕ) < mesh.cells.length := by rw [hlen]; exact i.2
  have hr : (i.rev : ℕ) < mesh.cells.length := by rw [hlen]; exact i.rev.2
  have g1 := discretize_getD points mesh cylinderInitial i hi
  have g2 := discretize_getD points mesh cylinderInitial i.rev hr
  have b3 := (C58_basic points mesh hlt hp.sum hp.pos hp.inside (fun x => (cylinderInitial x).1)).2.2.1
    i hi 1 2 (by
      intro x _ _
      rcases cylinder_range x with h | h <;> rw [h] <;> norm_num)
  have b2 := (C58_basic points mesh hlt hp.sum hp.pos hp.inside (fun x => (cylinderInitial x).2)).2.2.1
    i hi 0 0 (by
      intro x _ _
      rcases cylinder_range x with h | h <;> rw [h] <;> norm_num)
  have e : ∀ f : ℝ → ℝ, (cellAverages points mesh f).getD i 0 = cellAverage points f mesh.cells[(i : ℕ)] := by
    intro f
    unfold cellAverages
    rw [List.getD_eq_getElem _ _ (by simpa using hi)]
    simp [hi]
  rw [e] at b2 b3
  unfold cylinderState
  rw [g1, g2]
  refine ⟨b3.1, b3.2, le_antisymm b2.2 b2.1, ?_⟩
  have hn0 : (n : ℝ) ≠ 0 := by exact_mod_cast hn.ne'
  have hrev : ((i.rev : ℕ) : ℝ) = n - 1 - i := by
    have : (i.rev : ℕ) + i + 1 = n := by simp only [Fin.val_rev]; omega
    have : ((i.rev : ℕ) : ℝ) + i + 1 = n := by exact_mod_cast this
    linarith
  refine cellAverage_even points hs _ (fun x => by rw [cylinder_even]) _ _ (hlt _ (List.getElem_mem hi))
    ?_ ?_
  · rw [(hcell _ hr).1, (hcell _ hi).2]
    simp only [node, cylinderDomain, hrev]
    push_cast
    field_simp
    ring
  · rw [(hcell _ hr).2, (hcell _ hi).1]
    simp only [node, cylinderDomain]
    push_cast
    rw [hrev]
    field_simp
    ring

theorem build_pair {K V : Type*} (wall : Option (V → V)) (c : String) (hc : c ≠ "periodic") (r : ℕ)
    (il ir : Option (K → V)) : build wall [c, c] r il ir = build wall [c] r il ir := by
  unfold build
  simp [hc]

/-- C102.  Runs of the cylindrical dam breaks (boundary conditions outflow or wall at both ends, no
bathymetry) with the Lax-Friedrichs, central, energy stable or low-order solver, or the first two with
antidiffusion, any Runge-Kutta method and any steps: if nothing is raised, the water stays symmetric, and
on meshes with a middle cell the water in it does not move.  Between walls no water is lost with
Lax-Friedrichs, central, energy stable and low-order solver. -/
theorem C102_cylinder_run (points : List (ℝ × ℝ)) (hp : AveragingRule points)
    (hs : Symmetric points) (n : ℕ) (hn : 0 < n) (mesh : UMesh ℝ)
    (hmesh : uniformMesh cylinderDomain n = .ok mesh) (P : Params ℝ) (hP : P.Good)
    (condition : String) (hc : condition = "outflow" ∨ condition = "wall") (bc : BC ℝ (State ℝ))
    (hbc : build (some reflect) (BoundarySpec.pair condition condition).conditions 1 none none = .ok bc)
    (B : Bathymetry ℝ) (hB : buildBathymetry P (some (cellAverages points mesh fun _ => 0)) = .ok B)
    (γ dx : ℝ) (S : Bathymetry ℝ → NumFlux (State ℝ)) (hS : S ∈ symmetricSchemes P γ dx)
    (T : Tableau ℝ) (t : ℝ) (steps : List ℝ) (s' : Solver ℝ (Fin n → State ℝ))
    (h : (Solver.init (cylinderState points mesh n) t).runE T (vecRhs n (rhs (S B) dx bc)) steps =
      .ok s') :
    (∀ i : Fin n, (s'.solution i.rev).1 = (s'.solution i).1 ∧
      (s'.solution i.rev).2 = -(s'.solution i).2) ∧
    (∀ i : Fin n, 2 * (i : ℕ) + 1 = n → (s'.solution i).2 = 0) ∧
    (condition = "wall" → S B ∈ plainFluxes P B →
      totalHeight (List.ofFn s'.solution) = totalHeight (List.ofFn (cylinderState points mesh n))) := by
  have hd : cylinderDomain.a < cylinderDomain.b := by norm_num [cylinderDomain]
  obtain ⟨hlen, hlt, -⟩ := uniform_cells hd hn hmesh
  have hne : condition ≠ "periodic" := by rcases hc with rfl | rfl <;> decide
  have hbc' : build (some reflect) [condition] 1 none none = .ok bc := by
    rw [← build_pair _ _ hne]; exact hbc
  have hz := (C58_basic points mesh hlt hp.sum hp.pos hp.inside (fun _ => (0 : ℝ))).2.1 0
  rw [hz] at hB
  have hsym := C88_symmetric_flow P hP _ B hB (by simp) condition bc hbc' γ dx S hS dx t n T
    (cylinderState points mesh n) (by
      intro i
      obtain ⟨-, -, h0, h1⟩ := C102_cylinder_initial points hp hs n hn mesh hmesh i
      obtain ⟨-, -, h2, -⟩ := C102_cylinder_initial points hp hs n hn mesh hmesh i.rev
      exact ⟨h1, by rw [h0, h2, neg_zero]⟩) s' steps h
  refine ⟨hsym, ?_, ?_⟩
  · intro i hi
    have e : i.rev = i := by ext; simp only [Fin.val_rev]; omega
    have := (hsym i).2
    rw [e] at this
    linarith
  · intro hw hF
    subst hw
    exact C23_water_between_walls P hP _ B hB n hn none none bc hbc' dx (S B)
      (List.mem_append_left _ hF) T _ s' steps h

/-- C102.  If the number of cells is a multiple of 4, the edges of the dam are nodes of the mesh, and the
volume of the water is exactly 3. -/
theorem C102_cylinder_volume (points : List (ℝ × ℝ)) (hp : AveragingRule points)
    (m : ℕ) (hm : 0 < m) (mesh : UMesh ℝ)
    (hmesh : uniformMesh cylinderDomain (4 * m) = .ok mesh) :
    cylinderDomain.length / (4 * m : ℕ) *
      totalHeight (List.ofFn (cylinderState points mesh (4 * m))) = 3 := by
  have hd : cylinderDomain.a < cylinderDomain.b := by norm_num [cylinderDomain]
  obtain ⟨hlen, hlt, hcell⟩ := uniform_cells hd (by omega) hmesh
  have hm0 : (0 : ℝ) < m := by exact_mod_cast hm
  have val : ∀ i : Fin (4 * m), (cylinderState points mesh (4 * m) i).1 =
      if m ≤ (i : ℕ) ∧ (i : ℕ) < 3 * m then 2 else 1 := by
    intro i
    have hi : (i : ℕ) < mesh.cells.length := by rw [hlen]; exact i.2
    have key : ∀ a : ℝ, (∀ x, mesh.cells[(i : ℕ)].a < x → x < mesh.cells[(i : ℕ)].b →
        (cylinderInitial x).1 = a) → (cylinderState points mesh (4 * m) i).1 = a := by
      intro a ha
      have b3 := (C58_basic points mesh hlt hp.sum hp.pos hp.inside
        (fun x => (cylinderInitial x).1)).2.2.1 i hi a a (by
          intro x h1 h2
          rw [ha x h1 h2]; exact ⟨le_rfl, le_rfl⟩)
      have e : (cellAverages points mesh fun x => (cylinderInitial x).1).getD i 0 =
          (cylinderState points mesh (4 * m) i).1 := by
        unfold cylinderState
        rw [discretize_getD points mesh cylinderInitial i hi]
        unfold cellAverages
        rw [List.getD_eq_getElem _ _ (by simpa using hi)]
        simp [hi]
      rw [← e]
      exact le_antisymm b3.2 b3.1
    obtain ⟨e1, e2⟩ := hcell _ hi
    have n1 : mesh.cells[(i : ℕ)].a * (2 * m) = -(2 * m) + i := by
      rw [e1]; simp only [node, cylinderDomain]; push_cast; field_simp; ring
    have n2 : mesh.cells[(i : ℕ)].b * (2 * m) = -(2 * m) + i + 1 := by
      rw [e2]; simp only [node, cylinderDomain]; push_cast; field_simp; ring
    apply key
    intro x h1 h2
    have h1' : -(2 * m) + i < x * (2 * m) := by rw [← n1]; nlinarith
    have h2' : x * (2 * m) < -(2 * m) + i + 1 := by rw [← n2]; nlinarith
    unfold cylinderInitial
    by_cases hc : m ≤ (i : ℕ) ∧ (i : ℕ) < 3 * m
    · have c1 : (m : ℝ) ≤ (i : ℕ) := by exact_mod_cast hc.1
      have c2 : ((i : ℕ) : ℝ) + 1 ≤ 3 * m := by exact_mod_cast hc.2
      rw [if_pos hc, if_pos]
      constructor
      · by_contra hx; push Not at hx; nlinarith
      · by_contra hx; push Not at hx; nlinarith
    · rw [if_neg hc, if_neg]
      rintro ⟨x1, x2⟩
      rcases not_and_or.mp hc with hc | hc
      · have c1 : ((i : ℕ) : ℝ) + 1 ≤ m := by exact_mod_cast (by omega : (i : ℕ) + 1 ≤ m)
        nlinarith
      · have c1 : (3 : ℝ) * m ≤ (i : ℕ) := by exact_mod_cast (by omega : 3 * m ≤ (i : ℕ))
        nlinarith
  have total : totalHeight (List.ofFn (cylinderState points mesh (4 * m))) = 6 * m := by
    unfold totalHeight
    rw [List.map_ofFn, List.sum_ofFn]
    simp only [Function.comp_apply, val]
    rw [Fin.sum_univ_eq_sum_range (fun i => if m ≤ i ∧ i < 3 * m then (2 : ℝ) else 1) (4 * m)]
    have e : ∀ i : ℕ, (if m ≤ i ∧ i < 3 * m then (2 : ℝ) else 1) =
        1 + if i ∈ Finset.Ico m (3 * m) then 1 else 0 := by
      intro i
      simp only [Finset.mem_Ico]
      split <;> norm_num
    simp only [e]
    rw [Finset.sum_add_distrib, Finset.sum_ite_mem, Finset.inter_eq_right.mpr]
    · simp only [Finset.sum_const, Finset.card_range, Nat.card_Ico, nsmul_eq_mul, mul_one]
      rw [Nat.cast_sub (by omega)]
      push_cast; ring
    · intro i hi
      simp only [Finset.mem_Ico, Finset.mem_range] at hi ⊢
      omega
  rw [total]
  simp only [cylinderDomain, Interval.length]
  push_cast
  field_simp
  norm_num

/-- C102.  Runs of the benchmark with inflow (Lax-Friedrichs or low-order solver, forward Euler, Heun or
SSP3): as long as the steps respect the speeds nothing is raised and no height becomes negative. -/
theorem C102_inflow_run (P : Params ℝ) (hP : P.Good) (n : ℕ) (hn : 0 < n) (B : Bathymetry ℝ)
    (hB : buildBathymetry P (some (List.replicate n 0)) = .ok B) (bc : BC ℝ (State ℝ))
    (hbc : build (some reflect) (BoundarySpec.pair "inflow" "wall").conditions 1 (some sinusInflow) none =
      .ok bc) (dx : ℝ) (hdx : 0 < dx) (T : Tableau ℝ)
    (hT : T = forwardEuler ℝ ∨ T = heun ℝ ∨ T = ssp3 ℝ) (F : NumFlux (State ℝ))
    (hF : F = lfFlux P B ∨ F = lowOrder P B) (t : ℝ) (steps : List ℝ) (hsteps : ∀ dt ∈ steps, 0 ≤ dt) :
    let s : Solver ℝ (Fin n → State ℝ) := Solver.init (fun _ => sinusInitial 0) t
    let f := vecRhs n (rhs F dx bc)
    s.runChecked T (StepCondition P bc n dx) f steps = .error none ∨
    ∃ s', s.runE T f steps = .ok s' ∧ ∀ i, 0 ≤ (s'.solution i).1 := by
  intro s f
  have h0 : ∀ i, 0 ≤ (s.solution i).1 := fun i => by
    change (0 : ℝ) ≤ 2; norm_num
  have hi : ∀ g, some sinusInflow = some g → ∀ t, 0 ≤ (g t).1 := by
    intro g hg t
    cases hg
    linarith [(sinusInflow_range t).1]
  have hr : ∀ g, (none : Option (ℝ → State ℝ)) = some g → ∀ t, 0 ≤ (g t).1 := by
    intro g hg; cases hg
  have hb : ∀ l, some (List.replicate n (0 : ℝ)) = some l → l.length = n := by
    intro l hl; cases hl; simp
  rcases hF with rfl | rfl
  · rcases C41_run P hP _ n hn hb B hB _ (some sinusInflow) none hi hr bc hbc dx hdx T hT s h0 steps hsteps
      with h | ⟨s', -, h1, h2⟩
    · exact Or.inl h
    · exact Or.inr ⟨s', h1, h2⟩
  · rcases C42_run P hP _ n hn hb B hB _ (some sinusInflow) none hi hr bc hbc dx hdx T hT s h0 steps hsteps
      with h | ⟨s', -, h1, h2⟩
    · exact Or.inl h
    · exact Or.inr ⟨s', h1, h2⟩

/-- C102.  With every benchmark of the shallow water table (and every other benchmark with positive
heights whose ghost cells have positive heights) calculations can be started: the first forward Euler step
of the Lax-Friedrichs and low-order solver succeeds if it is short enough, and leaves no negative
height. -/
theorem C102_first_step (P : Params ℝ) (hP : P.Good) (b : Benchmark (ℝ × ℝ))
    (hb : Sound (some reflect) (fun u => 0 < u.1) b)
    (hin : (∀ g, b.inflowLeft = some g → ∀ t, 0 ≤ (g t).1) ∧ ∀ g, b.inflowRight = some g → ∀ t, 0 ≤ (g t).1)
    (n : ℕ) (hn : 0 < n)
    (bottom : Option (List ℝ)) (hbottom : ∀ l, bottom = some l → l.length = n) (B : Bathymetry ℝ)
    (hB : buildBathymetry P bottom = .ok B) (dx : ℝ) (hdx : 0 < dx) (t : ℝ) (u : Fin n → State ℝ)
    (hu : ∀ i, 0 < (u i).1) :
    ∃ bc, build (some reflect) b.boundary.conditions 1 b.inflowLeft b.inflowRight = .ok bc ∧
    ∃ dt₀ : ℝ, 0 < dt₀ ∧ ∀ F, (F = lfFlux P B ∨ F = lowOrder P B) → ∀ dt, 0 ≤ dt → dt ≤ dt₀ →
      ∃ s', (Solver.init u t).runE (forwardEuler ℝ) (vecRhs n (rhs F dx bc)) [dt] = .ok s' ∧
        ∀ i, 0 ≤ (s'.solution i).1 := by
  obtain ⟨bc, hbc, -, hext⟩ := hb.ghosts 1
  obtain ⟨l, r, he, hl, hr, hpos⟩ := hext (List.ofFn u) t (by simpa using hn)
    (by simpa using Nat.succ_le_of_lt hn)
  have hpos' := hpos (by
    intro x hx
    obtain ⟨i, rfl⟩ := List.mem_ofFn.mp hx
    exact hu i)
  set ext := l ++ List.ofFn u ++ r with hE
  have hlen : ext.length = n + 2 := by simp [hE, hl, hr]; omega
  have wet : ∀ j < n + 2, 0 < (ext.getD j 0).1 := by
    intro j hj
    rw [List.getD_eq_getElem _ _ (by omega)]
    have hm : ext[j]'(by omega) ∈ ext := List.getElem_mem _
    generalize ext[j]'(by omega) = x at hm
    rw [hE, List.mem_append, List.mem_append] at hm
    rcases hm with (h | h) | h
    · exact hpos' _ (List.mem_append_left _ h)
    · obtain ⟨i, rfl⟩ := List.mem_ofFn.mp h
      exact hu i
    · exact hpos' _ (List.mem_append_right _ h)
  let M := ∑ i ∈ Finset.range n, |speedAt P ext i + speedAt P ext (i + 1)|
  have hM : 0 ≤ M := Finset.sum_nonneg fun _ _ => abs_nonneg _
  refine ⟨bc, hbc, dx / (M + 1), by positivity, ?_⟩
  intro F hF dt h0 h1
  have hcond : StepCondition P bc n dx dt t u := by
    intro ext' he'
    have : ext' = ext := by
      have := he'.symm.trans he
      exact Except.ok.inj this
    subst this
    refine ⟨fun j hj => Or.inl (wet j (by omega)), fun i hi => ?_⟩
    have h2 : speedAt P ext i + speedAt P ext (i + 1) ≤ M :=
      (le_abs_self _).trans (Finset.single_le_sum
        (f := fun i => |speedAt P ext i + speedAt P ext (i + 1)|) (fun _ _ => abs_nonneg _)
        (Finset.mem_range.mpr hi))
    have h3 : dt * (M + 1) ≤ dx := by
      rwa [le_div_iff₀ (by positivity)] at h1
    nlinarith
  have hu0 : ∀ i, 0 ≤ ((Solver.init u t : Solver ℝ (Fin n → State ℝ)).solution i).1 :=
    fun i => (hu i).le
  have no : (Solver.init u t : Solver ℝ (Fin n → State ℝ)).runChecked (forwardEuler ℝ)
      (StepCondition P bc n dx) (vecRhs n (rhs F dx bc)) [dt] ≠ .error none := by
    have e1 : timeNode (forwardEuler ℝ) t dt 0 = t := by simp [timeNode, forwardEuler]
    have e2 : stageValue (forwardEuler ℝ) dt u [] 0 = u := by simp [stageValue]
    have e3 : stagesE (forwardEuler ℝ) (checked (StepCondition P bc n dx dt) (vecRhs n (rhs F dx bc)))
        t dt u 1 ≠ .error none := by
      have e4 : checked (StepCondition P bc n dx dt) (vecRhs n (rhs F dx bc))
          (timeNode (forwardEuler ℝ) t dt 0) (stageValue (forwardEuler ℝ) dt u [] 0) =
          (vecRhs n (rhs F dx bc) t u).mapError some := by
        rw [e1, e2]; unfold checked; rw [if_pos hcond]
      simp only [stagesE, e4]
      cases vecRhs n (rhs F dx bc) t u <;> simp [Except.mapError]
    intro h
    simp only [Solver.runChecked, Solver.executeE] at h
    cases h2 : stagesE (forwardEuler ℝ)
      (checked (StepCondition P bc n dx dt) (vecRhs n (rhs F dx bc)))
      (Solver.init u t : Solver ℝ (Fin n → State ℝ)).time dt
      (Solver.init u t : Solver ℝ (Fin n → State ℝ)).solution (forwardEuler ℝ).size with
    | error e => rw [h2] at h; cases h; exact e3 h2
    | ok ks => rw [h2] at h; cases h
  rcases hF with rfl | rfl
  · rcases C41_run P hP _ n hn hbottom B hB _ _ _ hin.1 hin.2 bc hbc dx hdx _ (Or.inl rfl) _ hu0 [dt]
      (by simpa using h0) with h | ⟨s', -, h2, h3⟩
    · exact absurd h no
    · exact ⟨s', h2, h3⟩
  · rcases C42_run P hP _ n hn hbottom B hB _ _ _ hin.1 hin.2 bc hbc dx hdx _ (Or.inl rfl) _ hu0 [dt]
      (by simpa using h0) with h | ⟨s', -, h2, h3⟩
    · exact absurd h no
    · exact ⟨s', h2, h3⟩

/-! Concrete cases. -/

/-- The midpoint rule is symmetric. -/
example : Symmetric [((0 : ℝ), (2 : ℝ))] := by
  unfold Symmetric; simp

/-- Gauss' rule with two nodes: the eigenvectors of the Jacobi matrix exist. -/
example (nodes : Fin 2 → ℝ) (v : Matrix (Fin 2) (Fin 2) ℝ) (h : EigResult (jacobi 2) nodes v) :
    Symmetric (nodesWeights 1 nodes v) := C57_symmetric 1 nodes v h

example : cylinderInitial (1 / 4) = (2, 0) ∧ cylinderInitial (-3 / 4) = (1, 0) := by
  constructor <;> norm_num [cylinderInitial]

/-- The dam break between walls on four cells: short first steps succeed. -/
example (B : Bathymetry ℝ) (hB : buildBathymetry (realParams 1 1 one_pos) (some [0, 0, 0, 0]) = .ok B)
    (mesh : UMesh ℝ) (hmesh : uniformMesh cylinderDomain 4 = .ok mesh) :
    ∃ (bc : BC ℝ (State ℝ)) (dt : ℝ) (s' : Solver ℝ (Fin 4 → State ℝ)), 0 < dt ∧
    build (some reflect) (BoundarySpec.pair "wall" "wall").conditions 1 none none = .ok bc ∧
    (Solver.init (cylinderState [(0, 2)] mesh 4) 0).runE (forwardEuler ℝ)
      (vecRhs 4 (rhs (lfFlux (realParams 1 1 one_pos) B) (1 / 2) bc)) [dt] = .ok s' := by
  have hr : AveragingRule [((0 : ℝ), (2 : ℝ))] :=
    ⟨by norm_num [specific, Rule.weights], by norm_num [specific, Rule.weights], by norm_num [specific, Rule.nodes]⟩
  have sym : Symmetric [((0 : ℝ), (2 : ℝ))] := by unfold Symmetric; simp
  have hsound := (C102_shallow_water (fun _ _ => .ok 1) "cylindrical-damm-break-with-wall").2.2.2.2 _ rfl
    (by intro h; exact absurd h (by decide))
  obtain ⟨bc, hbc, dt, hdt, key⟩ := C102_first_step (realParams 1 1 one_pos)
    (realParams_good 1 1 one_pos one_pos) _ hsound ⟨by rintro g ⟨⟩, by rintro g ⟨⟩⟩ 4 (by norm_num) (some [0, 0, 0, 0])
    (by intro l hl; cases hl; rfl) B hB (1 / 2) (by norm_num) 0 (cylinderState [(0, 2)] mesh 4) (by
      intro i
      linarith [(C102_cylinder_initial _ hr sym 4 (by norm_num) mesh hmesh i).1])
  obtain ⟨s', h, -⟩ := key _ (Or.inl rfl) dt hdt.le le_rfl
  exact ⟨bc, dt, s', hdt, hbc, h⟩

end Cylinder

end Verif.Registry
