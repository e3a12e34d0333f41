import Verif.Core.CalculateFE
import Verif.Props.Calculate

/-!
C126: from the words of a command line to the computed values, for the finite element solvers and for both scalar
equations.
-/

set_option linter.unusedSectionVars false

namespace Verif.CalculateFE

open Verif.Py Verif.ODE Verif.Scalar Verif.Solver Verif.Bench Verif.FE Verif.Interpolate Verif.Quadrature
open Verif.Registry Verif.Options Verif.Utilities Verif.Calculate EndToEnd Verif.Convergence Verif.Commands
open Verif.Mesh hiding Error
open Verif.Boundary

/-! ### Specification -/

/-- The benchmarks for scalar equations. -/
inductive Data where
  | advection (a : Advection)
  | burgers (b : Burgers)

/-- Their names. -/
def names : List (String × Data) :=
  [("three-hills", .advection .threeHills), ("two-hills", .advection .twoHills), ("one-hill", .advection .oneHill),
    ("cos", .advection .cosine), ("gauss", .advection .gaussianBell), ("shock", .burgers .shock),
    ("smooth", .burgers .smooth)]

/-- The benchmark used when none is named. -/
def fallback : Problem → Bool → String
  | .advection, true => "cos"
  | .advection, false => "two-hills"
  | .burgers, true => "smooth"
  | .burgers, false => "shock"

def Data.problem : Data → Problem
  | .advection _ => .advection
  | .burgers _ => .burgers

noncomputable def Data.domain : Data → Interval ℝ
  | .advection a => a.domain
  | .burgers b => b.domain

noncomputable def Data.initial : Data → ℝ → ℝ
  | .advection a => a.initial
  | .burgers b => b.initial

/-- The least value of the initial data. -/
noncomputable def Data.low : Data → ℝ
  | .advection .cosine => -1
  | .advection _ => 0
  | .burgers .shock => -1
  | .burgers .smooth => -1 / 2

/-- The largest value of the initial data. -/
noncomputable def Data.high : Data → ℝ
  | .advection _ => 1
  | .burgers .shock => 1
  | .burgers .smooth => 3 / 2

/-- The largest speed of the waves. -/
noncomputable def Data.speed : Data → ℝ
  | .advection _ => 1
  | .burgers .shock => 1
  | .burgers .smooth => 3 / 2

/-- The end time meant by the option `-T`: without it (or with zero) one for advection, one half for Burgers'
equation. -/
noncomputable def meantEnd (endTime : Option ℝ) (p : Problem) : ℝ :=
  let default : ℝ := match p with
    | .advection => 1
    | .burgers => 1 / 2
  match endTime with
  | none => default
  | some t => if t = 0 then default else t

/-- The length of a cell. -/
noncomputable def Data.cell (e : Data) (m : ℕ) : ℝ := (e.domain.b - e.domain.a) / m

/-- What a finite element solver with linear elements computes for the benchmark `e` on `m` cells up to the time `T` with
CFL number `y`: the run starts with the initial data at the nodes, it is neither interrupted nor ended by an
exception, it ends, and at the end time; all values of the history have the same total; for `cg-low` and `mcl-fem` they
are between the bounds of the initial data and no warning is printed.  For linear advection the energy of `cg` never
decreases, and grows at most exponentially; the errors of `cg-low` are of order one (cosine) and one half, those of `cg`
for the cosine of order two. -/
structure Elements (k : Key) (e : Data) (m : ℕ) (y T : ℝ) (j : Job) : Prop where
  space : Space.make e.domain m 1 = .ok j.space
  start : (j.run 0).1.sol.values = [fun i : Fin j.n => e.initial (e.domain.a + i * e.cell m)]
  ends : ∀ i : ℕ, T ≤ i * (y * e.cell m / if k = .cg then 1 else 2 * e.speed) → (j.run (i + 1)).2 = .finished
  status : ∀ i, (j.run i).2 = .running ∨ (j.run i).2 = .finished
  time : ∀ i, (j.run i).2 = .finished → T - 1 / 10 ^ 12 < (j.run i).1.sol.sol.time ∧ (j.run i).1.sol.sol.time ≤ T
  total : ∀ i, ∀ v ∈ (j.run i).1.sol.values,
    (List.ofFn v).sum = (List.ofFn fun i : Fin j.n => e.initial (e.domain.a + i * e.cell m)).sum
  range : k ≠ .cg → ∀ i, ∀ v ∈ (j.run i).1.sol.values, ∀ c, e.low ≤ v c ∧ v c ≤ e.high
  quiet : k ≠ .cg → ∀ i, (j.run i).1.warnings = []
  energy : k = .cg → e.problem = .advection → ∀ (i p q : ℕ) v w t t' V W, p ≤ q →
    (j.run i).1.sol.values[p]? = some v → (j.run i).1.sol.values[q]? = some w →
    (j.run i).1.sol.times[p]? = some t → (j.run i).1.sol.times[q]? = some t' →
    Values j.space (List.ofFn v) V → Values j.space (List.ofFn w) W →
    integral j.space (fun c x => V c x ^ 2) ≤ integral j.space (fun c x => W c x ^ 2) ∧
    integral j.space (fun c x => W c x ^ 2) ≤ Real.exp (9 / 4 * y ^ 3 * (t' - t) / e.cell m) *
      integral j.space (fun c x => V c x ^ 2)
  first_order : k = .cgLow → ∀ a, e = .advection a → 3 ≤ m → ∀ quad, AveragingRule quad → ∀ mesh,
    uniformMesh e.domain m = .ok mesh → ∀ i, (j.run i).2 = .finished →
    ∃ U, Values j.space (List.ofFn (j.run i).1.sol.sol.value) U ∧
      (a = .cosine → ∃ e3, linf 10 mesh (fun c x => a.exact x T - U c x) = .ok e3 ∧
        ∀ r ∈ [l1 quad mesh (fun c x => a.exact x T - U c x), l2 quad mesh (fun c x => a.exact x T - U c x), e3],
          r ≤ 2 * Real.pi ^ 2 * T / m + Real.pi ^ 2 / 2 / m ^ 2 + 2 * Real.pi / 10 ^ 12) ∧
      (a = .gaussianBell → ∃ e3, linf 10 mesh (fun c x => a.exact x T - U c x) = .ok e3 ∧
        ∀ r ∈ [l1 quad mesh (fun c x => a.exact x T - U c x), l2 quad mesh (fun c x => a.exact x T - U c x), e3],
          r ≤ 10 * (1 / (2 * m) + Real.sqrt (T / m) + 1 / 10 ^ 12)) ∧
      ∀ q : ℕ, hills a = some q → l1 quad mesh (fun c x => a.exact x T - U c x) ≤
        2 * q * (2 * Real.sqrt (T / m) + 2 / 10 ^ 12 + 3 / m)
  second_order : k = .cg → e = .advection .cosine → 2 ≤ m → ∀ quad, AveragingRule quad → ∀ mesh,
    uniformMesh e.domain m = .ok mesh → ∀ i, (j.run i).2 = .finished →
    ∃ U, Values j.space (List.ofFn (j.run i).1.sol.sol.value) U ∧
      ∃ e3, linf 10 mesh (fun c x => Advection.cosine.exact x T - U c x) = .ok e3 ∧
        ∀ r ∈ [l1 quad mesh (fun c x => Advection.cosine.exact x T - U c x),
            l2 quad mesh (fun c x => Advection.cosine.exact x T - U c x), e3],
          r ≤ Real.exp (2 * Real.pi ^ 4 * y ^ 3 * T / m ^ 3) *
              (T * (4 * Real.pi ^ 3 * y ^ 2 / (3 * m ^ 2) + 8 * Real.pi ^ 5 / (15 * m ^ 4))) +
            Real.pi ^ 2 / (2 * m ^ 2) + 2 * Real.pi / 10 ^ 12

/-! ### The data -/

theorem Data.length_pos (e : Data) : e.domain.a < e.domain.b := by
  rcases e with a | (_ | _)
  · norm_num [Data.domain, Advection.domain]
  · norm_num [Data.domain, Burgers.domain]
  · simp [Data.domain, Burgers.domain, Real.pi_pos]

theorem Data.bounds (e : Data) (x : ℝ) : e.low ≤ e.initial x ∧ e.initial x ≤ e.high := by
  rcases e with a | (_ | _)
  · obtain ⟨h1, h2, h3⟩ := C72_advection_range a x
    cases a <;> simp only [Data.low, Data.high, Data.initial] <;>
      first
        | exact ⟨h1, h2⟩
        | exact ⟨h3 (by simp), h2⟩
  · exact ⟨Real.neg_one_le_sin _, Real.sin_le_one _⟩
  · simp only [Data.low, Data.high, Data.initial, Burgers.initial]
    have := Real.neg_one_le_sin x
    have := Real.sin_le_one x
    constructor <;> linarith

theorem Data.speed_pos (e : Data) : 0 < e.speed := by
  rcases e with a | (_ | _) <;> norm_num [Data.speed]

theorem Data.bounded (e : Data) (x : ℝ) : |e.initial x| ≤ e.speed := by
  obtain ⟨h1, h2⟩ := e.bounds x
  rw [abs_le]
  rcases e with (_ | _ | _ | _ | _) | (_ | _) <;> simp only [Data.low, Data.high, Data.speed] at * <;>
    constructor <;> linarith

/-! ### What is accepted -/

theorem parse_named (p : Problem) (name : String) (b : Benchmark ℝ) (h : parseBenchmark (Calculate.table p) name = .value b) :
    ∃ e, (name, e) ∈ names ∧ e.problem = p ∧
      b = .closed e.domain (.single "periodic") (meantEnd none p) e.initial := by
  by_cases hn : name ∈ (Calculate.table p).map Prod.fst
  · cases p with
    | advection =>
      simp only [Calculate.table, advectionTable, List.map_cons, List.map_nil, List.mem_cons, List.not_mem_nil, or_false] at hn
      obtain ⟨a, ha, e⟩ := advection_parse name b h
      refine ⟨.advection a, ?_, rfl, e⟩
      simp only [named, List.mem_cons, Prod.mk.injEq, List.not_mem_nil, or_false] at ha
      rcases ha with ⟨rfl, rfl⟩ | ⟨rfl, rfl⟩ | ⟨rfl, rfl⟩ | ⟨rfl, rfl⟩ | ⟨rfl, rfl⟩ <;> simp [names]
    | burgers =>
      simp only [Calculate.table, burgersTable, List.map_cons, List.map_nil, List.mem_cons, List.not_mem_nil, or_false] at hn
      rcases hn with rfl | rfl
      · refine ⟨.burgers .shock, by simp [names], rfl, ?_⟩
        have : parseBenchmark (Calculate.table .burgers) "shock" =
          .value (.closed Burgers.shock.domain (.single "periodic") (1 / 2) Burgers.shock.initial) := rfl
        rw [this] at h
        exact (Parsed.value.inj h).symm
      · refine ⟨.burgers .smooth, by simp [names], rfl, ?_⟩
        have : parseBenchmark (Calculate.table .burgers) "smooth" =
          .value (.closed Burgers.smooth.domain (.single "periodic") (1 / 2) Burgers.smooth.initial) := rfl
        rw [this] at h
        exact (Parsed.value.inj h).symm
  · have := (C102_scalar (Calculate.table p) (by cases p <;> simp [Calculate.table]) name).2 hn
    rw [this] at h
    cases h

theorem adjust_end (endTime : Option ℝ) (p : Problem) (d : Interval ℝ) (s : BoundarySpec) (f : ℝ → ℝ) :
    adjustEndTime endTime (.closed d s (meantEnd none p) f) = Benchmark.closed d s (meantEnd endTime p) f := by
  unfold adjustEndTime meantEnd
  cases endTime with
  | none => rfl
  | some t =>
    simp only
    split <;> rfl

/-- C126.  A command line for a scalar equation that is accepted: the benchmark is the one named, or the default, with the
end time meant; every finite element solver in it has a positive number of cells, linear elements, a CFL number that is
positive, infinite or `nan`, and its flags are set or not. -/
theorem C126_accepted (c : Conversions ℝ) (p : Problem) (eoc : Bool) (name : Option String) (endTime : Option ℝ)
    (history : Bool) (words : List String) (b : Benchmark ℝ) (l : List (Key × Settings ℝ))
    (h : commandLine c p eoc name endTime history words = .ok (b, l)) :
    (∃ e, (name.getD (fallback p eoc), e) ∈ names ∧ e.problem = p ∧
      b = .closed e.domain (.single "periodic") (meantEnd endTime p) e.initial) ∧
    ∀ k s, (k, s) ∈ l → k ∈ [Key.cg, .cgLow, .mclFem] →
      (∃ m : ℤ, 0 < m ∧ s.meshSize = .int m) ∧ s.degree = .int 1 ∧
      (∃ x : PyFloat ℝ, (x = .nan ∨ x = .posInf ∨ ∃ y, 0 < y ∧ x = .fin y) ∧ s.cfl = .num x) ∧
      s.history = .bool history ∧
      (∃ a, s.adaptive = .bool a ∧ (k = .cg → a = false)) ∧ (k = .cg → ∃ a, s.exactFlux = .bool a) ∧
      (k = .cg → s.integrator = .byDegree) ∧ (k ≠ .cg → ∃ o, s.integrator = .given (.ode o)) := by
  unfold commandLine at h
  have hdef : defaultBenchmark p eoc = fallback p eoc := by cases p <;> cases eoc <;> rfl
  rw [hdef] at h
  cases hb : parseBenchmark (Calculate.table p) (name.getD (fallback p eoc)) with
  | usage => rw [hb] at h; cases h
  | raised e => rw [hb] at h; cases h
  | value b0 =>
    rw [hb] at h
    simp only at h
    obtain ⟨e, he, hp, rfl⟩ := parse_named _ _ _ hb
    cases hm : solvers c scalarKeys history words with
    | error e => rw [hm] at h; cases h
    | ok l' =>
      rw [hm] at h
      simp only [Except.ok.injEq, Prod.mk.injEq] at h
      obtain ⟨h1, rfl⟩ := h
      refine ⟨⟨e, he, hp, by rw [← h1, adjust_end]⟩, fun k s hks hk => ?_⟩
      obtain ⟨-, args, ns, hp, -, heff⟩ := solvers_accepted c scalarKeys history words l' hm k s hks
      obtain ⟨hkeys, hv⟩ := C117_values c k args ns hp
      obtain ⟨m, hm0, hm1⟩ := (hv _ _ heff.mesh).2.2.1 rfl
      obtain ⟨y, hy0, hy1⟩ := (hv _ _ heff.cfl).2.2.2.1 rfl
      refine ⟨⟨m, hm0, hm1⟩, heff.degree hk, ⟨y, hy0, hy1⟩, heff.history, ?_, ?_, ?_, ?_⟩
      · rw [heff.adaptive]
        cases hl : ns.lookup "adaptive" with
        | none => exact ⟨false, rfl, fun _ => rfl⟩
        | some v =>
          obtain ⟨a, rfl⟩ := (hv _ _ hl).2.2.2.2.1 rfl
          refine ⟨a, rfl, ?_⟩
          rintro rfl
          have : "adaptive" ∈ ns.map Prod.fst := List.mem_map.2 ⟨_, Options.mem_of_lookup _ _ _ hl, rfl⟩
          rw [hkeys] at this
          simp [optionNames] at this
      · rintro rfl
        exact (hv _ _ (heff.exact rfl)).2.2.2.2.2.1 rfl
      · rintro rfl
        exact heff.no_ode (by simp [optionNames])
      · intro hcg
        have ho : "ode_solver_type" ∈ optionNames k := by
          simp only [List.mem_cons, List.not_mem_nil, or_false] at hk
          rcases hk with rfl | rfl | rfl
          · exact absurd rfl hcg
          · simp [optionNames]
          · simp [optionNames]
        obtain ⟨v, hv1, hv2⟩ := heff.ode ho
        obtain ⟨o, rfl⟩ := (hv _ _ hv1).2.2.2.2.2.2.1 rfl
        exact ⟨o, hv2⟩

/-! ### What is computed -/

/-- The values at the nodes. -/
theorem initial_values (e : Data) (m : ℕ) (hm : 0 < m) (T : ℝ) (empty : ℕ → List ℝ) (he : ∀ n, (empty n).length = n)
    (V : Space ℝ) (hV : Space.make e.domain m 1 = .ok V) :
    ∃ values, initialValues empty (.closed e.domain (.single "periodic") T e.initial) V = .ok values ∧
      V.dimension = m ∧ V.degree = 1 ∧
      (fun i : Fin m => values.getD i 0) = fun i : Fin m => e.initial (e.domain.a + i * e.cell m) := by
  obtain ⟨V', grid, g1, g2, g3, g4, g5⟩ := C70_grid e.domain e.length_pos m 1 hm one_pos (empty V.dimension) (by
    rw [he]
    obtain ⟨-, s1, s2, s3, -⟩ := make_spec e.domain e.length_pos m 1 hm V hV
    simp [Space.dimension, s1, s3])
  obtain rfl : V' = V := Except.ok.inj (g1.symm.trans hV)
  obtain ⟨-, s1, -⟩ := make_spec e.domain e.length_pos m 1 hm V' hV
  refine ⟨_, by unfold initialValues; rw [g3], by omega, s1, ?_⟩
  funext i
  have hi : (i : ℕ) < grid.length := by have := i.2; omega
  have h5 := g5 i (by have := i.2; omega)
  rw [List.getD_eq_getElem _ _ hi] at h5
  rw [List.getD_eq_getElem _ _ (by simpa using hi), List.getElem_map, h5]
  simp [initialData, Benchmark.closed, Data.cell]

/-- Right-hand sides that are always defined. -/
theorem total_run {N : ℕ} (T : Tableau ℝ) (f : ℝ → List ℝ → Except Error (List ℝ))
    (hf : ∀ (t : ℝ) u, ∃ w, vecRhs N f t u = .ok w) (dx cfl t0 t1 : ℝ)
    (hstep : 1 / 10 ^ 12 ≤ dx * cfl) (hdur : 1 / 10 ^ 12 ≤ t1 - t0) (u : Fin N → ℝ) :
    let P := fvParams N T f dx cfl t0 t1
    let run := solve P (Obj.make P ⟨u, t0, t1⟩)
    (∀ k : ℕ, t1 - t0 ≤ k * (dx * cfl) → (run (k + 1)).2 = .finished) ∧
    (∀ k, (run k).2 = .running ∨ (run k).2 = .finished) ∧
    (∀ k, (run k).2 = .finished →
      t1 - 1 / 10 ^ 12 < (run k).1.sol.sol.time ∧ (run k).1.sol.sol.time ≤ t1) := by
  intro P run
  have safe : ∀ k e, (run k).2 ≠ .raised e := fun k =>
    ((C94_safe P (Obj.make P ⟨u, t0, t1⟩) (make_sync _ _) (fun _ => True)
    trivial rfl (fun _ _ => rfl) (fun s dt _ _ _ => ⟨_, executeE_ok T _ s dt fun i _ => hf _ _, trivial⟩)) k).1
  exact ⟨fun k hk => fixed_ends N T f dx cfl t0 t1 u hstep hdur k hk (safe _),
    fun k => fixed_status N T f dx cfl t0 t1 u hstep hdur k (safe k),
    fun k hk => C94_end_time P ⟨u, t0, t1⟩ rfl k hk⟩

/-- A single step over the whole duration. -/
theorem whole_step (n : ℕ) (tab : Tableau ℝ) (f : ℝ → List ℝ → Except Error (List ℝ))
    (hf : ∀ (t : ℝ) (u : Fin n → ℝ), ∃ w, vecRhs n f t u = .ok w) (dx T : ℝ) (hdx : 0 < dx)
    (hT : 1 / 10 ^ 12 ≤ T) (u : Fin n → ℝ) :
    let P := fvParams n tab f dx (T / dx) 0 T
    (solve P (Obj.make P ⟨u, 0, T⟩) 2).2 = .finished ∧ (solve P (Obj.make P ⟨u, 0, T⟩) 2).1.sol.values.length = 2 ∧
      (solve P (Obj.make P ⟨u, 0, T⟩) 2).1.sol.sol.time = T := by
  intro P
  have e : dx * (T / dx) = T := by field_simp
  obtain ⟨r1, r2, r3⟩ := total_run tab f hf dx (T / dx) 0 T (by rw [e]; exact hT) (by simpa using hT) u
  have hfin := r1 1 (by rw [e]; simp)
  have hnr : ∀ x, (solve P (Obj.make P ⟨u, 0, T⟩) 2).2 ≠ .raised x := by
    intro x hx; rw [hfin] at hx; cases hx
  obtain ⟨steps, -, -, g3, g4, ⟨tl, vl, -, g5, -, g6, -⟩, -, g7, -⟩ := C94_solve P (Obj.make P ⟨u, 0, T⟩) (make_sync _ _) 2 hnr
  obtain ⟨-, hne⟩ := g7 hfin
  have hlen : 0 < steps.length := List.length_pos_iff.2 hne
  have h0 : steps[0] = T := by
    obtain ⟨S, -, h, -⟩ := g4 0 hlen
    have e0 : (if P.adaptive then P.optimal S.time S.solution else (Obj.make P ⟨u, 0, T⟩).first) * P.cfl = T := e
    rw [h, e0]
    change min T (T - (0 + (steps.take 0).sum)) = T
    simp
  have hone : steps.length = 1 := by
    by_contra hc
    obtain ⟨S, -, h, h'⟩ := g4 1 (by omega)
    have e1 : (steps.take 1).sum = T := by
      rw [List.take_one, List.head?_eq_getElem?, List.getElem?_eq_getElem hlen, h0]; simp
    have e2 : P.endTime - (P.startTime + (steps.take 1).sum) = 0 := by
      rw [e1]; change T - (0 + T) = 0; ring
    rw [e2] at h
    have := min_le_right ((if P.adaptive then P.optimal S.time S.solution else (Obj.make P ⟨u, 0, T⟩).first) * P.cfl) 0
    rw [← h] at this
    have : (0 : ℝ) < 1 / 10 ^ 12 := by positivity
    linarith
  obtain ⟨d, hd⟩ := List.length_eq_one_iff.1 hone
  refine ⟨hfin, ?_, ?_⟩
  · rw [g5, List.length_append, g6, hone]; rfl
  · rw [g3, hd]
    subst hd
    simp only [List.getElem_cons_zero] at h0
    rw [h0]
    change 0 + [T].sum = T
    simp

/-- The total of the values follows from the total mass. -/
theorem sum_of_mass {gauss d n s m C} (h : Setup gauss d n 1 s m C) (u v : Fin n → ℝ)
    (huv : totalMass m (List.ofFn v) = totalMass m (List.ofFn u)) : (List.ofFn v).sum = (List.ofFn u).sum := by
  obtain ⟨s1, s2, s3, -⟩ := setup_facts h
  have hm : m.length = n := by
    obtain ⟨h1, -⟩ := lumped_spec gauss h.isGauss s (by omega) m h.mass
    omega
  have hn : (0 : ℝ) < n := by exact_mod_cast h.meshSize
  have hd : 0 < (d.b - d.a) / (n : ℝ) := div_pos (by linarith [h.domain]) hn
  have key : ∀ w : Fin n → ℝ, totalMass m (List.ofFn w) = (d.b - d.a) / n * (List.ofFn w).sum := by
    intro w
    rw [totalMass_eq m _ n hm (by simp), List.sum_ofFn, Finset.mul_sum, Finset.sum_range]
    refine Finset.sum_congr rfl fun i _ => ?_
    rw [linear_mass h i i.2, List.getD_eq_getElem _ _ (by simp), List.getElem_ofFn]
  rw [key, key] at huv
  exact mul_left_cancel₀ hd.ne' huv

/-- The set-up of a job. -/
theorem setup_of (e : Data) (m : ℕ) (hm : 0 < m) (gauss : ℕ → List (ℝ × ℝ)) (hg : IsGauss gauss) :
    ∃ V mass M C nb, Setup gauss e.domain m 1 V mass C ∧ massMatrix gauss V = .ok M ∧
      dofNeighbours V.map = .ok nb := by
  obtain ⟨V, M, mass, h1, h2, h3, -⟩ := C65_lumped gauss hg e.domain e.length_pos m 1 hm one_pos
  obtain ⟨-, s1, s2, s3, -⟩ := make_spec e.domain e.length_pos m 1 hm V h1
  obtain ⟨C, h4, -⟩ := conv_gradient gauss hg V (by omega)
  obtain ⟨g, nb, g1, g2, -, -⟩ := C62_finite_elements m 1 hm one_pos true
  have e : g = V.map := by
    unfold IndexMap.make at g1
    rw [if_pos (by omega)] at g1
    have := Except.ok.inj g1
    rw [← this]
    simp [Space.map, s1, s3]
  subst e
  exact ⟨V, mass, M, C, nb, ⟨hg, e.length_pos, hm, one_pos, h1, h3, h4⟩, h2, g2⟩

/-- The construction. -/
theorem job_eq (solver : SysMatrix ℝ → List ℝ → Except Error (List ℝ)) (gauss : ℕ → List (ℝ × ℝ)) (empty : ℕ → List ℝ)
    (e : Data) (m : ℕ) (hm : 0 < m) (T : ℝ) (p : Problem) (k : Key) (s : Settings ℝ) (x : PyFloat ℝ) (tab : Tableau ℝ)
    (hs : s.meshSize = .int m) (hq : s.degree = .int 1) (hx : s.cfl = .num x) (ht : integrator s.integrator 1 = .ok tab)
    (V : Space ℝ) (hV : Space.make e.domain m 1 = .ok V) (values : List ℝ)
    (hv : initialValues empty (.closed e.domain (.single "periodic") T e.initial) V = .ok values)
    (hdim : V.dimension = m) (hdeg : V.degree = 1) :
    job solver gauss empty p (.closed e.domain (.single "periodic") T e.initial) k s =
      (parameters solver gauss p (.closed e.domain (.single "periodic") T e.initial) k s (e.cell m) x tab V).map
        fun params => Job.of V params values T m := by
  have hmesh := uniformMesh_eq e.domain e.length_pos hm
  unfold job
  rw [hs, hq, hx]
  have h1 : (Benchmark.closed e.domain (.single "periodic") T e.initial).domain = e.domain := rfl
  have h2 : (Benchmark.closed e.domain (.single "periodic") T e.initial).endTime = T := rfl
  have h3 : (1 : ℤ).toNat = 1 := rfl
  simp only [Int.toNat_natCast, h1, h2, h3, hmesh, hV, hv, hdeg, ht, hdim, bind, Except.bind]
  rw [show (e.domain.b - e.domain.a) / (m : ℝ) = e.cell m from rfl]
  cases parameters solver gauss p (.closed e.domain (.single "periodic") T e.initial) k s (e.cell m) x tab V <;> rfl

/-- The run of a solver with limited or low order right-hand side. -/
theorem run_elements {gauss : ℕ → List (ℝ × ℝ)} {V : Space ℝ} {mass : List ℝ} {C : SysMatrix ℝ} (e : Data) (m : ℕ)
    (h : Setup gauss e.domain m 1 V mass C) (k : Key) (hk : k ≠ .cg)
    (f : List ℝ → Except Error (List ℝ)) (tab : Tableau ℝ) (y T : ℝ) (adaptive : Bool) (values : List ℝ)
    (hdim : V.dimension = m)
    (hval : (fun i : Fin m => values.getD i 0) = fun i : Fin m => e.initial (e.domain.a + i * e.cell m))
    (hrun : ∀ u : Fin V.dimension → ℝ, (∀ i, |u i| ≤ e.speed) →
      RunOk mass (feParams V.dimension tab f e.problem mass C y adaptive 0 T) u 0 T
        (y * ((e.domain.b - e.domain.a) / (2 * m * e.speed))))
    (hfirst : k = .cgLow → f = lowRhs e.problem mass C)
    (htab : tab = forwardEuler ℝ ∨ tab = heun ℝ ∨ tab = ssp3 ℝ) (hy : 0 < y) (hy1 : y ≤ 1)
    (hstep : 1 / 10 ^ 12 ≤ y * e.cell m / (2 * e.speed)) (hT : 1 / 10 ^ 12 ≤ T) :
    Elements k e m y T (Job.of V (fun n => feParams n tab f e.problem mass C y adaptive 0 T) values T m) := by
  have hok : RunOk mass (feParams m tab f e.problem mass C y adaptive 0 T)
      (fun i : Fin m => e.initial (e.domain.a + i * e.cell m)) 0 T
        (y * ((e.domain.b - e.domain.a) / (2 * m * e.speed))) := by
    have : ∀ N, N = V.dimension → ∀ u : Fin N → ℝ, (∀ i, |u i| ≤ e.speed) →
        RunOk mass (feParams N tab f e.problem mass C y adaptive 0 T) u 0 T
          (y * ((e.domain.b - e.domain.a) / (2 * m * e.speed))) := by
      rintro N rfl u hu
      exact hrun u hu
    exact this m hdim.symm _ fun i => e.bounded _
  have hm0 : (0 : ℝ) < m := by exact_mod_cast h.meshSize
  have hδ : y * ((e.domain.b - e.domain.a) / (2 * m * e.speed)) = y * e.cell m / (2 * e.speed) := by
    have := e.speed_pos
    unfold Data.cell
    field_simp
  unfold Job.of
  rw [hval]
  refine
    { space := h.space
      start := rfl
      ends := fun i hi => hok.ends i (by rw [hδ, sub_zero]; rwa [if_neg hk] at hi)
      status := hok.status
      time := hok.reached
      total := fun i v hv => sum_of_mass h _ _ (hok.mass i v hv)
      range := fun _ i v hv => hok.bounds i v hv e.low e.high fun c => e.bounds _
      quiet := fun _ => hok.quiet
      energy := fun h => absurd h hk
      first_order := ?_
      second_order := fun h => absurd h hk }
  rintro rfl a rfl h3 quad hq mesh hmesh i hi
  obtain rfl := hfirst rfl
  have e1 : (fun i : Fin m => (Data.advection a).initial ((Data.advection a).domain.a + i * (Data.advection a).cell m)) =
      fun i : Fin m => a.initial (i / m) := by
    funext i
    simp [Data.initial, Data.domain, Data.cell, Advection.domain, div_eq_mul_inv]
  have e2 : y * (Data.advection a).cell m / (2 * (Data.advection a).speed) = y * (1 / (2 * m)) := by
    simp [Data.cell, Data.domain, Advection.domain, Data.speed]
    field_simp
  simp only [Job.run] at hi ⊢
  rw [e1] at hi ⊢
  exact C113_errors a h h3 tab htab y T hy hy1 adaptive (by rw [← e2]; exact hstep) hT quad hq mesh hmesh i hi

/-- The Galerkin right-hand side is always defined. -/
theorem cg_total {gauss : ℕ → List (ℝ × ℝ)} {d : Interval ℝ} {n : ℕ} {V : Space ℝ} {mass : List ℝ} {C : SysMatrix ℝ}
    (h : Setup gauss d n 1 V mass C) (solver : SysMatrix ℝ → List ℝ → Except Error (List ℝ)) (hsolver : Solves solver)
    (M : SysMatrix ℝ) (hM : massMatrix gauss V = .ok M) (p : Problem) (exact : Bool) (t : ℝ) (u : Fin n → ℝ) :
    ∃ w, vecRhs n (fun _ => cgRhs solver gauss V M C p exact) t u = .ok w := by
  obtain ⟨-, -, s3, -⟩ := setup_facts h
  obtain ⟨w, hw, hl⟩ := C87_defined h solver hsolver M hM p exact (List.ofFn u) (by simp [s3])
  refine ⟨fun i => w[(i : ℕ)]'(by have := i.2; omega), ?_⟩
  unfold vecRhs
  beta_reduce
  rw [hw]
  simp only
  rw [dif_pos (by omega)]

/-- The run of the Galerkin solver. -/
theorem run_galerkin {gauss : ℕ → List (ℝ × ℝ)} {V : Space ℝ} {mass : List ℝ} {C : SysMatrix ℝ} (e : Data) (m : ℕ)
    (h : Setup gauss e.domain m 1 V mass C) (solver : SysMatrix ℝ → List ℝ → Except Error (List ℝ))
    (hsolver : Solves solver) (M : SysMatrix ℝ) (hM : massMatrix gauss V = .ok M) (exact : Bool) (y T : ℝ)
    (values : List ℝ) (hdim : V.dimension = m)
    (hval : (fun i : Fin m => values.getD i 0) = fun i : Fin m => e.initial (e.domain.a + i * e.cell m))
    (hstep : 1 / 10 ^ 12 ≤ y * e.cell m) (hT : 1 / 10 ^ 12 ≤ T) :
    Elements .cg e m y T (Job.of V (fun n => cgParams n (heun ℝ) (cgRhs solver gauss V M C e.problem exact) (e.cell m)
      y 0 T) values T m) := by
  have hm0 : (0 : ℝ) < m := by exact_mod_cast h.meshSize
  obtain ⟨q1, q2, q3⟩ := total_run (heun ℝ) (fun _ => cgRhs solver gauss V M C e.problem exact)
    (cg_total h solver hsolver M hM e.problem exact) (e.cell m) y 0 T (by rwa [mul_comm]) (by simpa using hT)
    (fun i : Fin m => e.initial (e.domain.a + i * e.cell m))
  unfold Job.of
  rw [hval]
  refine
    { space := h.space
      start := rfl
      ends := fun i hi => q1 i (by rw [sub_zero, mul_comm (e.cell m)]; rwa [if_pos rfl, div_one] at hi)
      status := q2
      time := q3
      total := ?_
      range := by simp
      quiet := by simp
      energy := ?_
      first_order := by simp
      second_order := ?_ }
  · intro i v hv
    obtain ⟨steps, -, g1, -, g3⟩ := recorded _ ⟨fun i : Fin m => e.initial (e.domain.a + i * e.cell m), 0, T⟩ i
      fun err he => by rcases q2 i with hq | hq <;> rw [hq] at he <;> cases he
    obtain ⟨q, hq, rfl⟩ := List.getElem_of_mem hv
    obtain ⟨S, e1, e2, -⟩ := g3 q (Nat.lt_succ_iff.1 (lt_of_lt_of_eq hq g1))
    have hval : _ = S.solution := Option.some.inj ((List.getElem?_eq_getElem hq).symm.trans e2)
    rw [hval]
    apply sum_of_mass h
    have : ∀ N, N = V.dimension → ∀ (S0 S : Solver ℝ (Fin N → ℝ)) steps,
        S0.runE (heun ℝ) (vecRhs N fun _ => cgRhs solver gauss V M C e.problem exact) steps = .ok S →
        totalMass mass (List.ofFn S.solution) = totalMass mass (List.ofFn S0.solution) := by
      rintro N rfl S0 S steps hrun
      have hdeg : 0 < V.degree := by rw [(setup_facts h).1]; exact one_pos
      have v1 := values_poly V hdeg (List.ofFn S0.solution) (by simp)
      have v2 := values_poly V hdeg (List.ofFn S.solution) (by simp)
      rw [integral_eq_mass h _ _ v1, integral_eq_mass h _ _ v2]
      exact C87_mass_run h solver hsolver M hM e.problem exact (heun ℝ) S0 S steps hrun _ _ v1 v2
    exact this m hdim.symm _ S _ e1
  · intro _ hp i p q v w t t' W1 W2 hpq hv hw ht ht' hV hW
    rcases e with a | b
    · exact (C118_solve h solver hsolver M hM exact y 0 T (by rwa [mul_comm]) (by simpa using hT) _).2.2.2 i p q v w t t' W1 W2
        hpq hv hw ht ht' hV hW
    · cases hp
  · rintro - rfl h2 quad hq mesh hmesh i hi
    have e1 : (fun i : Fin m => (Data.advection .cosine).initial
        ((Data.advection .cosine).domain.a + i * (Data.advection .cosine).cell m)) =
        fun i : Fin m => Advection.cosine.initial (i / m) := by
      funext i
      simp [Data.initial, Data.domain, Data.cell, Advection.domain, div_eq_mul_inv]
    have e2 : (Data.advection .cosine).cell m = 1 / m := by
      simp [Data.cell, Data.domain, Advection.domain]
    simp only [Job.run] at hi ⊢
    rw [e1, e2] at hi
    rw [e1, e2]
    exact C119_errors h solver hsolver M hM exact h2 y T (by rw [e2, mul_one_div] at hstep; exact hstep) hT quad hq mesh
      hmesh i hi

/-- C126.  The finite element solvers of an accepted command line for a scalar equation: with `nan` as CFL number, and
without `++adaptive`, `solve` raises `ValueError`; with a finite one (at most one for `cg-low` and `mcl-fem`, with at
least two cells for `mcl-fem`, and not so small that a time step is refused) the solver computes what it is meant to; with
an infinite one the run of `cg` ends after one step, exactly at the end time. -/
theorem C126_run (c : Conversions ℝ) (p : Problem) (eoc : Bool) (name : Option String) (endTime : Option ℝ)
    (history : Bool) (words : List String) (b : Benchmark ℝ) (l : List (Key × Settings ℝ))
    (h : commandLine c p eoc name endTime history words = .ok (b, l))
    (solver : SysMatrix ℝ → List ℝ → Except Error (List ℝ)) (hsolver : Solves solver) (gauss : ℕ → List (ℝ × ℝ))
    (hg : IsGauss gauss) (empty : ℕ → List ℝ) (hempty : ∀ n, (empty n).length = n) (k : Key) (s : Settings ℝ)
    (hks : (k, s) ∈ l) (hk : k ∈ [Key.cg, .cgLow, .mclFem]) :
    ∃ (e : Data) (m : ℕ) (x : PyFloat ℝ),
      (name.getD (fallback p eoc), e) ∈ names ∧ e.problem = p ∧ 0 < m ∧ s.meshSize = .int m ∧ s.cfl = .num x ∧
      (x = .nan → s.adaptive = .bool false → job solver gauss empty p b k s = .error .valueError) ∧
      (∀ y, x = .fin y → ∃ j, job solver gauss empty p b k s = .ok j ∧ j.n = m ∧
        ((k ≠ .cg → y ≤ 1) → (k = .mclFem → 2 ≤ m) →
          1 / 10 ^ 12 ≤ y * e.cell m / (if k = .cg then 1 else 2 * e.speed) → 1 / 10 ^ 12 ≤ meantEnd endTime p →
          Elements k e m y (meantEnd endTime p) j)) ∧
      (x = .posInf → k = .cg → ∃ j, job solver gauss empty p b k s = .ok j ∧ j.n = m ∧
        (1 / 10 ^ 12 ≤ meantEnd endTime p → (j.run 2).2 = .finished ∧
          (j.run 2).1.sol.values.length = 2 ∧ (j.run 2).1.sol.sol.time = meantEnd endTime p)) := by
  obtain ⟨⟨e, he, rfl, rfl⟩, hl⟩ := C126_accepted c p eoc name endTime history words b l h
  obtain ⟨⟨z, hz, hs⟩, hq, ⟨x, hx0, hx⟩, -, ⟨a, ha, hacg⟩, hex, hi1, hi2⟩ := hl k s hks hk
  obtain ⟨m, rfl⟩ : ∃ m : ℕ, z = m := ⟨z.toNat, by omega⟩
  have hm : 0 < m := by exact_mod_cast hz
  have hm0 : (0 : ℝ) < m := by exact_mod_cast hm
  have hcell : 0 < e.cell m := div_pos (by linarith [e.length_pos]) hm0
  set T := meantEnd endTime e.problem with hTdef
  refine ⟨e, m, x, he, rfl, hm, hs, hx, ?_⟩
  obtain ⟨V, mass, M, C, nb, hset, hM, hnb⟩ := setup_of e m hm gauss hg
  obtain ⟨values, hv, hdim, hdeg, hval⟩ := initial_values e m hm T empty hempty V hset.space
  have hint : ∃ tab, integrator s.integrator 1 = .ok tab ∧ (tab = forwardEuler ℝ ∨ tab = heun ℝ ∨ tab = ssp3 ℝ) ∧
      (k = .cg → tab = heun ℝ) := by
    by_cases hcg : k = .cg
    · exact ⟨heun ℝ, by rw [hi1 hcg]; rfl, Or.inr (Or.inl rfl), fun _ => rfl⟩
    · obtain ⟨o, ho⟩ := hi2 hcg
      exact ⟨tableau o, by rw [ho]; rfl, tableau_cases o, fun h => absurd h hcg⟩
  obtain ⟨tab, htab, htabs, htab1⟩ := hint
  have hjob := job_eq solver gauss empty e m hm T e.problem k s x tab hs hq hx htab V hset.space values hv hdim hdeg
  rw [hjob]
  unfold parameters
  simp only [hset.gradient, hM, hset.mass, ha, bind, Except.bind]
  simp only [List.mem_cons, List.not_mem_nil, or_false] at hk
  rcases hk with rfl | rfl | rfl
  · obtain ⟨exact, hexact⟩ := hex rfl
    obtain rfl := htab1 rfl
    simp only [hexact]
    refine ⟨?_, ?_, ?_⟩
    · rintro rfl _
      rfl
    · rintro y rfl
      refine ⟨_, rfl, rfl, fun _ _ hstep hT => ?_⟩
      rw [if_pos trivial, div_one] at hstep
      exact run_galerkin e m hset solver hsolver M hM exact y T values hdim hval hstep hT
    · rintro rfl _
      refine ⟨_, rfl, rfl, fun hT => ?_⟩
      exact whole_step m (heun ℝ) _ (cg_total hset solver hsolver M hM e.problem exact) (e.cell m) T hcell hT _
  · refine ⟨?_, ?_, by simp⟩
    · rintro rfl h0
      obtain rfl : a = false := by simpa using h0
      rfl
    · rintro y rfl
      refine ⟨_, rfl, rfl, fun hy1 _ hstep hT => ?_⟩
      rw [if_neg (by simp)] at hstep
      have hy : 0 < y := by
        rcases hx0 with h | h | ⟨y', h0, h⟩
        · cases h
        · cases h
        · rw [PyFloat.fin.inj h]; exact h0
      refine run_elements e m hset .cgLow (by simp) _ tab y T a values hdim hval ?_ (fun _ => rfl) htabs hy (hy1 (by simp))
        hstep hT
      intro u hu
      refine C111_linear_low hset e.problem tab htabs y hy (hy1 (by simp)) a 0 T (by simpa using hT) u e.speed e.speed_pos
        ?_ hu (hstep.trans (le_of_eq ?_))
      · intro hp
        rcases e with e | e
        · exact le_rfl
        · cases hp
      · have := e.speed_pos
        unfold Data.cell
        field_simp
  · simp only [hnb]
    refine ⟨?_, ?_, by simp⟩
    · rintro rfl h0
      obtain rfl : a = false := by simpa using h0
      rfl
    · rintro y rfl
      refine ⟨_, rfl, rfl, fun hy1 h2 hstep hT => ?_⟩
      rw [if_neg (by simp)] at hstep
      have hy : 0 < y := by
        rcases hx0 with h | h | ⟨y', h0, h⟩
        · cases h
        · cases h
        · rw [PyFloat.fin.inj h]; exact h0
      refine run_elements e m hset .mclFem (by simp) _ tab y T a values hdim hval ?_ (by simp) htabs hy (hy1 (by simp))
        hstep hT
      intro u hu
      refine C111_linear_mcl ⟨hset, h2 trivial, hM, hnb⟩ e.problem tab htabs y hy (hy1 (by simp)) a 0 T (by simpa using hT) u e.speed e.speed_pos
        ?_ hu (hstep.trans (le_of_eq ?_))
      · intro hp
        rcases e with e | e
        · exact le_rfl
        · cases hp
      · have := e.speed_pos
        unfold Data.cell
        field_simp

/-! ### An example -/

/-- The words `mcl-fem cg` for Burgers' equation: the limited scheme on 400 cells with the CFL number 1 and Heun's method,
and the Galerkin scheme on 400 cells with the CFL number 1/10, both for the benchmark with a shock up to the time
1/2. -/
example : ∃ b s s' solver gauss empty, Solves solver ∧ IsGauss gauss ∧
    commandLine exampleConversions .burgers false none none true ["mcl-fem", "cg"] = .ok (b, [(.mclFem, s), (.cg, s')]) ∧
    (∃ j, job solver gauss empty .burgers b .mclFem s = .ok j ∧ j.n = 400 ∧
      Elements .mclFem (.burgers .shock) 400 1 (1 / 2) j) ∧
    ∃ j, job solver gauss empty .burgers b .cg s' = .ok j ∧ j.n = 400 ∧
      Elements .cg (.burgers .shock) 400 (1 / 10) (1 / 2) j := by
  obtain ⟨solver, hsolver⟩ := exists_solves
  obtain ⟨gauss, hg⟩ := exists_isGauss
  obtain ⟨b, l, h, hf⟩ := C122_words exampleConversions .burgers false none
    (by simp [defaultBenchmark, Calculate.table, burgersTable]) none true [(.mclFem, []), (.cg, [])]
    (by simp [scalarKeys]) (by simp) (by
      intro g hg
      simp only [List.mem_cons, List.not_mem_nil, or_false] at hg
      rcases hg with rfl | rfl <;> exact ⟨[], rfl⟩)
    ["mcl-fem", "cg"]
    { join := by simp [prog]
      nonempty := by simp
      inside := by simp [prog, Cut]
      between := by simp [prog, Cut] }
  cases hf with
  | @cons _ e1 _ l1 h1 hf =>
  cases hf with
  | @cons _ e2 _ l2 h2 hf =>
  cases hf
  obtain ⟨k1, s1⟩ := e1
  obtain ⟨k2, s2⟩ := e2
  obtain ⟨rfl, h1⟩ := h1
  obtain ⟨rfl, h2⟩ := h2
  obtain ⟨m1, c1, -⟩ := h1 [] rfl
  obtain ⟨m2, c2, -⟩ := h2 [] rfl
  simp [meant, lastValue] at m1 c1
  simp [meant, lastValue] at m2 c2
  refine ⟨b, s1, s2, solver, gauss, fun n => List.replicate n 0, hsolver, hg, h, ?_, ?_⟩
  · obtain ⟨e, m, x, r1, r2, -, r3, r4, -, r5, -⟩ := C126_run _ _ _ _ _ _ _ _ _ h solver hsolver gauss hg
      (fun n => List.replicate n 0) (fun n => List.length_replicate) .mclFem s1 (by simp) (by simp)
    obtain rfl : e = .burgers .shock := by simpa [names, fallback] using r1
    obtain rfl : m = 400 := by rw [m1] at r3; simp at r3; omega
    rw [c1] at r4
    obtain ⟨j, g1, g2, g3⟩ := r5 1 (by simpa using (Val.num.inj r4).symm)
    exact ⟨j, g1, g2, g3 (fun _ => le_rfl) (fun _ => by norm_num)
      (by rw [if_neg (by simp)]; norm_num [Data.cell, Data.domain, Burgers.domain, Data.speed]) (by norm_num [meantEnd])⟩
  · obtain ⟨e, m, x, r1, r2, -, r3, r4, -, r5, -⟩ := C126_run _ _ _ _ _ _ _ _ _ h solver hsolver gauss hg
      (fun n => List.replicate n 0) (fun n => List.length_replicate) .cg s2 (by simp) (by simp)
    obtain rfl : e = .burgers .shock := by simpa [names, fallback] using r1
    obtain rfl : m = 400 := by rw [m2] at r3; simp at r3; omega
    rw [c2] at r4
    obtain ⟨j, g1, g2, g3⟩ := r5 (1 / 10) (by simpa using (Val.num.inj r4).symm)
    exact ⟨j, g1, g2, g3 (by simp) (by simp)
      (by rw [if_pos rfl]; norm_num [Data.cell, Data.domain, Burgers.domain, Data.speed]) (by norm_num [meantEnd])⟩

end Verif.CalculateFE
