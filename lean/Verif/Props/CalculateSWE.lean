import Verif.Core.CalculateSWE
import Verif.Props.Calculate
import Verif.Props.SWEUniform

/-!
C124: from the words of a command line for the shallow water equations to the computed values.
-/

set_option linter.unusedSectionVars false

namespace Verif.CalculateSWE

open Verif.Py Verif.Boundary Verif.FV Verif.ODE Verif.Solver Verif.Interpolate Verif.Quadrature Verif.Bench Verif.SWE
open Verif.Registry Verif.Options Verif.Utilities EndToEnd Verif.Calculate
open Verif.Commands
open Verif.Mesh hiding Error

/-! ### Specification -/

/-- What the documentation says of a benchmark. -/
structure Entry where
  name : String
  domain : Interval ℝ
  conditions : List String
  endTime : ℝ
  gravity : ℝ
  bottom : ℝ → ℝ

/-- A parabolic bump of height 1/5 between 8 and 12. -/
noncomputable def parabola (x : ℝ) : ℝ := if 8 ≤ x ∧ x < 12 then (4 - (x - 10) ^ 2) / 20 else 0

/-- A bump of height 1/2 in the middle. -/
noncomputable def cosineBump (x : ℝ) : ℝ :=
  if |x| ≤ 1 / 10 then (Real.cos (10 * Real.pi * (x + 1)) + 1) / 4 else 0

/-- The benchmarks that can be chosen. -/
noncomputable def catalogue : List Entry :=
  [⟨"lake-at-rest-no-bathymetry", ⟨0, 20⟩, ["periodic"], 100, 9.812, 0⟩,
   ⟨"lake-at-rest", ⟨0, 20⟩, ["outflow", "outflow"], 100, 9.812, parabola⟩,
   ⟨"lake-at-rest-perturbation", ⟨0, 20⟩, ["outflow", "outflow"], 2, 9.812, parabola⟩,
   ⟨"moving-water-no-bathymetry", ⟨0, 100⟩, ["periodic"], 1, 9.812, 0⟩,
   ⟨"moving-water-bump-bathymetry", ⟨-2, 2⟩, ["periodic"], 100, 9.812, cosineBump⟩,
   ⟨"oscillation", ⟨0, 100⟩, ["periodic"], 40, 9.812, 0⟩,
   ⟨"damm-break", ⟨0, 1⟩, ["outflow", "outflow"], 0.3, 1, 0⟩,
   ⟨"cylindrical-damm-break", ⟨-1, 1⟩, ["outflow", "outflow"], 0.2, 1, 0⟩,
   ⟨"cylindrical-damm-break-with-wall", ⟨-1, 1⟩, ["wall", "wall"], 0.2, 1, 0⟩,
   ⟨"sinus-inflow", ⟨0, 100⟩, ["inflow", "wall"], 40, 9.812, 0⟩,
   ⟨"b1", ⟨0, 100⟩, ["periodic"], 40, 9.812, 0⟩,
   ⟨"b2", ⟨0, 100⟩, ["periodic"], 40, 9.812, 0⟩,
   ⟨"b3", ⟨0, 100⟩, ["periodic"], 40, 9.812, 0⟩,
   ⟨"b4", ⟨0, 100⟩, ["periodic"], 40, 9.812, 0⟩,
   ⟨"b5", ⟨0, 100⟩, ["periodic"], 40, 9.812, 0⟩]

/-- The end time meant by the option `-T`: without it (or with zero) that of the benchmark. -/
noncomputable def meantEnd (endTime : Option ℝ) (e : Entry) : ℝ :=
  match endTime with
  | none => e.endTime
  | some t => if t = 0 then e.endTime else t

/-! ### What is accepted -/

theorem dam_shape (newton : (ℝ → ℝ) → ℝ → Except Error ℝ) (b : Benchmark (ℝ × ℝ))
    (h : parseBenchmark (shallowWaterTable newton) "damm-break" = .value b) :
    ∃ d : DamBreak, b = .closed ⟨0, 1⟩ (.pair "outflow" "outflow") (3 / 10) d.initial := by
  unfold parseBenchmark at h
  have : (shallowWaterTable newton).lookup "damm-break" = some (damBreak newton) := rfl
  rw [this] at h
  cases hd : damBreak newton with
  | error e => rw [hd] at h; cases e <;> cases h
  | ok c =>
    rw [hd] at h
    cases h
    unfold damBreak at hd
    split at hd
    · cases hd; exact ⟨_, rfl⟩
    · cases hd

theorem adjust_fields {V : Type*} (endTime : Option ℝ) (b : Benchmark V) :
    (adjustEndTime endTime b).domain = b.domain ∧ (adjustEndTime endTime b).boundary = b.boundary ∧
    (adjustEndTime endTime b).inflowLeft = b.inflowLeft ∧ (adjustEndTime endTime b).inflowRight = b.inflowRight ∧
    (adjustEndTime endTime b).initial = b.initial ∧
    (adjustEndTime endTime b).endTime = (match endTime with | none => b.endTime | some t => if t = 0 then b.endTime else t) := by
  unfold adjustEndTime
  cases endTime with
  | none => exact ⟨rfl, rfl, rfl, rfl, rfl, rfl⟩
  | some t =>
    simp only
    split <;> exact ⟨rfl, rfl, rfl, rfl, rfl, rfl⟩

/-- The benchmark named in an accepted command line. -/
theorem parsed_entry (newton : (ℝ → ℝ) → ℝ → Except Error ℝ) (name : String) (b : Benchmark (ℝ × ℝ))
    (h : parseBenchmark (shallowWaterTable newton) name = .value b) :
    (∃ e ∈ catalogue, e.name = name ∧ b.domain = e.domain ∧ b.boundary.conditions = e.conditions ∧
      b.endTime = e.endTime ∧ gravityOf name = e.gravity ∧ bottomOf name = e.bottom) ∧
    (∀ g, b.inflowLeft = some g → ∀ t, 0 < (g t).1) ∧ (∀ g, b.inflowRight = some g → ∀ t, 0 < (g t).1) ∧
    (name ≠ "moving-water-bump-bathymetry" → ∃ f : ℝ → ℝ × ℝ, b.initial = fun x => .ok (f x)) ∧
    (name = "lake-at-rest-no-bathymetry" → b.inflowLeft = none ∧ b.inflowRight = none ∧
      b.initial = fun _ => .ok (1, 0)) ∧
    (name = "moving-water-no-bathymetry" → b.inflowLeft = none ∧ b.inflowRight = none ∧
      b.initial = fun _ => .ok (2, 1)) ∧
    (name = "lake-at-rest" → b.inflowLeft = none ∧ b.inflowRight = none ∧
      b.initial = fun x => .ok (Lake.initial .bump x)) ∧
    (name = "cylindrical-damm-break" ∨ name = "cylindrical-damm-break-with-wall" →
      b.inflowLeft = none ∧ b.inflowRight = none ∧ b.initial = fun x => .ok (cylinderInitial x)) := by
  by_cases hn : name ∈ (shallowWaterTable newton).map Prod.fst
  swap
  · rw [(C102_shallow_water newton name).2.2.2.1 hn] at h; cases h
  have hbump : Lake.bathymetry .bump = parabola := rfl
  have hpert : Lake.bathymetry .perturbed = parabola := rfl
  have hcos : MovingBump.bathymetry ⟨9812 / 1000, 1, 25⟩ = cosineBump := by
    funext x
    unfold MovingBump.bathymetry cosineBump
    simp only [abs_le]
  simp only [shallowWaterTable, List.map_cons, List.map_nil, List.mem_cons, List.not_mem_nil, or_false] at hn
  rcases hn with rfl | rfl | rfl | rfl | rfl | rfl | rfl | rfl | rfl | rfl | rfl | rfl | rfl | rfl | rfl | rfl
  case inr.inr.inr.inr.inr.inr.inl => cases h
  case inr.inr.inr.inr.inr.inr.inr.inl =>
    obtain ⟨d, rfl⟩ := dam_shape newton b h
    refine ⟨⟨⟨"damm-break", ⟨0, 1⟩, ["outflow", "outflow"], 0.3, 1, 0⟩, by simp [catalogue], rfl, rfl, rfl, ?_, ?_, ?_⟩,
      by simp [Benchmark.closed], by simp [Benchmark.closed], fun _ => ⟨_, rfl⟩, by simp, by simp, by simp, by simp⟩
    · norm_num [Benchmark.closed]
    · simp [gravityOf]
    · funext x; simp [bottomOf]
  case inr.inr.inr.inr.inr.inr.inr.inr.inr.inr.inl =>
    cases h
    refine ⟨⟨⟨"sinus-inflow", ⟨0, 100⟩, ["inflow", "wall"], 40, 9.812, 0⟩, by simp [catalogue], rfl, rfl, rfl, rfl, ?_, ?_⟩,
      ?_, by simp, fun _ => ⟨_, rfl⟩, by simp, by simp, by simp, by simp⟩
    · simp [gravityOf]; norm_num
    · funext x; simp [bottomOf]
    · intro g hg t
      cases hg
      linarith [(sinusInflow_range t).1]
  all_goals
    cases h
    refine ⟨?_, by simp [Benchmark.closed, oscillation, movingBump], by simp [Benchmark.closed, oscillation, movingBump],
      fun hne => ?_, ?_⟩
    · simp only [catalogue, List.mem_cons, List.not_mem_nil, or_false]
      simp [Benchmark.closed, oscillation, movingBump, Lake.domain, Lake.boundary, BoundarySpec.conditions,
        oscillationDomain, cylinderDomain, gravityOf, bottomOf, hbump, hpert, hcos]
      try norm_num
      try rfl
    · first
        | exact ⟨_, rfl⟩
        | exact absurd rfl hne
    · refine ⟨?_, ?_, ?_, ?_⟩ <;> first
        | exact fun _ => ⟨rfl, rfl, rfl⟩
        | (intro h; simp at h)

/-- C124.  A command line for the shallow water equations that is accepted: the benchmark is the one named (or the
oscillation), with its domain, boundary conditions, bathymetry and gravitational acceleration and the end time meant,
and every solver in it has a positive number of cells, a CFL number that is positive, infinite or `nan`, and one of the
three integrators, which is Heun's method for the central scheme and Euler's method for the Lax-Wendroff scheme; the
limited solver has one of the seven fluxes as target. -/
theorem C124_accepted (c : Conversions ℝ) (newton : (ℝ → ℝ) → ℝ → Except Error ℝ) (name : Option String)
    (endTime : Option ℝ) (history : Bool) (words : List String) (w : Water) (l : List (Key × Settings ℝ))
    (h : commandLine c newton name endTime history words = .ok (w, l)) :
    (∃ e ∈ catalogue, e.name = name.getD "oscillation" ∧ w.bench.domain = e.domain ∧
      w.bench.boundary.conditions = e.conditions ∧ w.bench.endTime = meantEnd endTime e ∧ w.gravity = e.gravity ∧
      w.bottom = e.bottom) ∧
    ∀ k s, (k, s) ∈ l → k ∈ sweKeys ∧ (∃ m : ℤ, 0 < m ∧ s.meshSize = .int m) ∧
      (∃ x : PyFloat ℝ, (x = .nan ∨ x = .posInf ∨ ∃ y, 0 < y ∧ x = .fin y) ∧ s.cfl = .num x) ∧
      s.history = .bool history ∧
      (∃ o : OdeSolver, s.integrator = .given (.ode o) ∧ (k = .sweCentral → o = .heun) ∧ (k = .sweLw → o = .euler)) ∧
      (k = .sweMcl → ∃ key ∈ ["central", "es", "es1", "llf", "low-order", "reduced-llf", "reduced-llf-2"],
        s.flux = .flux key) := by
  unfold commandLine at h
  simp only [defaultWater] at h
  cases hb : parseBenchmark (shallowWaterTable newton) (name.getD "oscillation") with
  | usage => rw [hb] at h; cases h
  | raised e => rw [hb] at h; cases h
  | value b =>
    rw [hb] at h
    simp only at h
    obtain ⟨⟨e, he, e1, e2, e3, e4, e5, e6⟩, -⟩ := parsed_entry newton _ b hb
    cases hm : solvers c sweKeys history words with
    | error e => rw [hm] at h; cases h
    | ok l' =>
      rw [hm] at h
      simp only [Except.ok.injEq, Prod.mk.injEq] at h
      obtain ⟨rfl, rfl⟩ := h
      obtain ⟨a1, a2, a3, a4, a5, a6⟩ := adjust_fields endTime b
      refine ⟨⟨e, he, e1, by rw [← e2]; exact a1, by rw [← e3]; exact congrArg _ a2, ?_, e5, e6⟩, fun k s hks => ?_⟩
      · refine a6.trans ?_
        unfold meantEnd
        cases endTime with
        | none => exact e4
        | some t => simp only [e4]
      · obtain ⟨hk, args, ns, hp, -, heff⟩ := solvers_accepted c sweKeys history words l' hm k s hks
        obtain ⟨-, hv⟩ := C117_values c k args ns hp
        obtain ⟨m, hm0, hm1⟩ := (hv _ _ heff.mesh).2.2.1 rfl
        obtain ⟨y, hy0, hy1⟩ := (hv _ _ heff.cfl).2.2.2.1 rfl
        refine ⟨hk, ⟨m, hm0, hm1⟩, ⟨y, hy0, hy1⟩, heff.history, ?_, ?_⟩
        · by_cases ho : "ode_solver_type" ∈ optionNames k
          · obtain ⟨v, hv1, hv2⟩ := heff.ode ho
            obtain ⟨o, rfl⟩ := (hv _ _ hv1).2.2.2.2.2.2.1 rfl
            refine ⟨o, hv2, ?_, ?_⟩ <;> rintro rfl <;> simp [optionNames] at ho
          · have := heff.no_ode ho
            simp only [sweKeys, List.mem_cons, List.not_mem_nil, or_false] at hk
            rcases hk with rfl | rfl | rfl | rfl | rfl | rfl | rfl | rfl | rfl | rfl | rfl
            all_goals first
              | exact ⟨.heun, this, fun _ => rfl, by simp⟩
              | exact ⟨.euler, this, by simp, fun _ => rfl⟩
              | exact absurd (by simp [optionNames]) ho
        · rintro rfl
          rcases heff.flux (by simp [optionNames]) with ⟨-, h2⟩ | ⟨h1, h2⟩
          · exact ⟨"central", by simp, h2⟩
          · rcases (hv _ _ h2).2.2.2.2.2.2.2.1 rfl with h3 | h3
            · exact absurd h3 h1
            · exact h3

theorem default_options (c : Conversions ℝ) (k : Key) (hk : k ∈ sweKeys) :
    ((options c k).map fun o => (o.dest, o.default)).lookup "mesh_size" =
      some (.int (if k = .sweReduced ∨ k = .sweReduced2 then 50 else 400)) ∧
    ((options c k).map fun o => (o.dest, o.default)).lookup "cfl_number" =
      some (.num (.fin (if k = .sweReduced then 1 / 80 else if k = .sweReduced2 then 1 / 400 else 1 / 10))) ∧
    ("ode_solver_type" ∈ optionNames k →
      ((options c k).map fun o => (o.dest, o.default)).lookup "ode_solver_type" = some (.ode .heun)) ∧
    (k = .sweMcl → ((options c k).map fun o => (o.dest, o.default)).lookup "flux_getter" = some .none) := by
  simp only [sweKeys, List.mem_cons, List.not_mem_nil, or_false] at hk
  rcases hk with rfl | rfl | rfl | rfl | rfl | rfl | rfl | rfl | rfl | rfl | rfl <;>
    simp [options, ownOptions, nameOption, shortOption, meshOption, cflOption, odeOption, fluxOption, gammaOption,
      coarseningOption, List.lookup, meshDefault, cflDefault, optionNames] <;> norm_num

/-- C124.  A command line written as a sequence of groups, each the name of a solver and options of this solver, with
arguments that can be converted, cut at the names of solvers as it is meant: it is accepted, and each solver is
constructed with the number of cells, the CFL number, the integrator and the target flux written last in its own group,
or the defaults. -/
theorem C124_words (c : Conversions ℝ) (newton : (ℝ → ℝ) → ℝ → Except Error ℝ) (name : Option String)
    (hname : ∃ e ∈ catalogue, e.name = name.getD "oscillation") (hdam : name ≠ some "damm-break") (endTime : Option ℝ)
    (history : Bool) (groups : List (Key × List (Assignment (Val ℝ)))) (hk : ∀ g ∈ groups, g.1 ∈ sweKeys)
    (hv : ∀ g ∈ groups, ∀ a ∈ g.2, a.Valid (options c g.1))
    (hc : ∀ g ∈ groups, ∃ vs, g.2.mapM Assignment.value = .ok vs) (words : List String)
    (hcut : CutInto ["llf", "lw", "low-order", "central", "es", "es1", "mcl", "reduced-llf", "reduced-llf-2",
      "antidiffusion", "coarse"] words (groups.map fun g => prog g.1 :: g.2.flatMap Assignment.words)) :
    ∃ w l, commandLine c newton name endTime history words = .ok (w, l) ∧
      List.Forall₂ (fun g e => e.1 = g.1 ∧ ∀ vs, g.2.mapM Assignment.value = .ok vs →
        e.2.meshSize = meant "mesh_size" g.2 vs (.int (if g.1 = .sweReduced ∨ g.1 = .sweReduced2 then 50 else 400)) ∧
        e.2.cfl = meant "cfl_number" g.2 vs
          (.num (.fin (if g.1 = .sweReduced then 1 / 80 else if g.1 = .sweReduced2 then 1 / 400 else 1 / 10))) ∧
        ("ode_solver_type" ∈ optionNames g.1 →
          e.2.integrator = .given (meant "ode_solver_type" g.2 vs (.ode .heun))) ∧
        (g.1 = .sweMcl → e.2.flux = (match meant "flux_getter" g.2 vs .none with
          | .none => .flux "central"
          | v => v))) groups l := by
  obtain ⟨b, hb⟩ : ∃ b, parseBenchmark (shallowWaterTable newton) (name.getD "oscillation") = .value b := by
    obtain ⟨e, he, h1⟩ := hname
    refine (C102_shallow_water newton _).2.2.1 ?_ ?_ ?_
    · rw [← h1]
      simp only [catalogue, List.mem_cons, List.not_mem_nil, or_false] at he
      rcases he with rfl | rfl | rfl | rfl | rfl | rfl | rfl | rfl | rfl | rfl | rfl | rfl | rfl | rfl | rfl <;>
        simp [shallowWaterTable]
    · rw [← h1]
      simp only [catalogue, List.mem_cons, List.not_mem_nil, or_false] at he
      rcases he with rfl | rfl | rfl | rfl | rfl | rfl | rfl | rfl | rfl | rfl | rfl | rfl | rfl | rfl | rfl <;>
        simp
    · intro h
      cases name with
      | none => simp at h
      | some n => exact hdam (by simpa using h)
  obtain ⟨l, hl, hf⟩ := solvers_words c sweKeys (by simp [sweKeys, prog]) history groups hk hv hc words
    (by simpa [sweKeys, prog] using hcut)
  refine ⟨⟨adjustEndTime endTime b, bottomOf (name.getD "oscillation"), gravityOf (name.getD "oscillation")⟩, l,
    by unfold commandLine; simp only [defaultWater, hb, hl], ?_⟩
  have hf2 : List.Forall₂ (fun (g : Key × List (Assignment (Val ℝ))) (e : Key × Settings ℝ) => g.1 ∈ sweKeys ∧ e.1 = g.1 ∧
      ∃ ns, Effective g.1 ns history e.2 ∧ ∀ vs, g.2.mapM Assignment.value = .ok vs →
        ∀ d v w, ns.lookup d = some v → ((options c g.1).map fun o => (o.dest, o.default)).lookup d = some w →
          v = meant d g.2 vs w) groups l := forall_left _ _ _ _ hk hf
  refine hf2.imp fun g e he => ?_
  obtain ⟨hg, e1, ns, h5, key⟩ := he
  obtain ⟨d1, d2, d3, d4⟩ := default_options c g.1 hg
  refine ⟨e1, fun vs hvs => ⟨key vs hvs _ _ _ h5.mesh d1, key vs hvs _ _ _ h5.cfl d2, fun ho => ?_, fun hm => ?_⟩⟩
  · obtain ⟨v, e1, e2⟩ := h5.ode ho
    rw [e2, key vs hvs _ _ _ e1 (d3 ho)]
  · rcases h5.flux (by rw [hm]; simp [optionNames]) with ⟨h1, h2⟩ | ⟨h1, h2⟩
    · rw [← key vs hvs _ _ _ h1 (d4 hm), h2, hm]
      rfl
    · rw [← key vs hvs _ _ _ h2 (d4 hm)]
      split
      · rename_i hn; exact absurd hn h1
      · rfl

/-! ### What is computed -/

/-- What a solver promises for the benchmark `name`.

* The mesh divides the domain into cells of the same width, all cells are wet in the beginning.
* `safe`: for `llf`, `low-order` and the limited solver: as long as the right-hand side is not evaluated for a state with
  waves too fast for the CFL number, nothing is raised, all cells of the history are wet, and the run ends, at the end
  time, when the passes of the loop are enough.
* `water`: with periodic boundaries and between walls a run without an exception keeps the amount of water.
* `still`: lakes at rest and uniform flow are kept, without any condition on the time step.
* `mirror`: for the cylindrical dam breaks a run without an exception stays symmetric. -/
structure Promises (name : String) (w : Water) (k : Key) (points : List (ℝ × ℝ)) (j : WaterJob) : Prop where
  mesh : uniformMesh w.bench.domain j.n = .ok j.mesh
  dx : j.dx = (w.bench.domain.b - w.bench.domain.a) / j.n
  endTime : j.endTime = w.bench.endTime
  start : (j.run 0).1.sol.values = [j.initial]
  initial : ∀ f : ℝ → ℝ × ℝ, (∀ x, w.bench.initial x = .ok (f x)) →
    List.ofFn j.initial = List.zip (cellAverages points j.mesh fun x => (f x).1) (cellAverages points j.mesh fun x => (f x).2)
  wet : ∀ i, 0 < (j.initial i).1
  safe : k ∈ [Key.sweLlf, .sweLowOrder, .sweMcl] → 1 / 10 ^ 12 ≤ j.dx * j.cfl → 1 / 10 ^ 12 ≤ j.endTime → ∀ q,
    (∀ p < q, ¬ MeetsFast (realParams w.gravity 1e-15 (by norm_num)) j.boundary j.n j.tableau (rhs j.flux j.dx j.boundary)
      j.dx j.cfl (j.run p).1.ode) →
    ((j.run q).2 = .running ∨ (j.run q).2 = .finished) ∧
    (j.endTime ≤ ((q - 1 : ℕ) : ℝ) * (j.dx * j.cfl) → 0 < q → (j.run q).2 = .finished) ∧
    ((j.run q).2 = .finished →
      j.endTime - 1 / 10 ^ 12 < (j.run q).1.sol.sol.time ∧ (j.run q).1.sol.sol.time ≤ j.endTime) ∧
    ∀ v ∈ (j.run q).1.sol.values, ∀ i, 0 < (v i).1
  water : w.bench.boundary.conditions = ["periodic"] ∨ w.bench.boundary.conditions = ["wall", "wall"] → ∀ q,
    (∀ e, (j.run q).2 ≠ .raised e) → ∀ v ∈ (j.run q).1.sol.values,
      totalHeight (List.ofFn v) = totalHeight (List.ofFn j.initial)
  still : (name = "lake-at-rest-no-bathymetry" ∨ name = "moving-water-no-bathymetry" ∨
      (name = "lake-at-rest" ∧ k ∈ [Key.sweLowOrder, .sweCentral, .sweMcl] ∧ 20 ≤ j.n)) →
    1 / 10 ^ 12 ≤ j.dx * j.cfl → 1 / 10 ^ 12 ≤ j.endTime →
    Unchanged j.params j.initial (j.dx * j.cfl) 0 j.endTime
  mirror : (name = "cylindrical-damm-break" ∨ name = "cylindrical-damm-break-with-wall") → k ≠ .sweMcl →
    Symmetric points → ∀ q, (∀ e, (j.run q).2 ≠ .raised e) → ∀ v ∈ (j.run q).1.sol.values, ∀ i : Fin j.n,
      (v i.rev).1 = (v i).1 ∧ (v i.rev).2 = -(v i).2

/-- An average of positive values is positive. -/
theorem average_pos (points : List (ℝ × ℝ)) (hp : AveragingRule points) (c : Interval ℝ) (hc : c.a < c.b) (f : ℝ → ℝ)
    (hf : ∀ x ∈ (gaussian points c).nodes, 0 < f x) : 0 < cellAverage points f c := by
  have hlen : 0 < c.length := by simpa [Interval.length] using hc
  unfold cellAverage
  refine div_pos ?_ hlen
  rw [integrate_eq]
  have hne : points ≠ [] := by
    rintro rfl
    have := hp.sum
    simp [specific, Rule.weights] at this
  apply List.sum_pos
  · intro x hx
    obtain ⟨p, hp', rfl⟩ := List.mem_map.1 hx
    refine mul_pos ?_ (hf _ (List.mem_map_of_mem hp'))
    rw [gaussian_eq] at hp'
    obtain ⟨r, hr, rfl⟩ := List.mem_map.1 hp'
    have := hp.pos _ (List.mem_map_of_mem hr)
    have h2 : 0 < (c.b - c.a) / 2 := by linarith
    exact mul_pos h2 this
  · rw [gaussian_eq]
    simpa using hne

theorem mapM_each {α β ε : Type*} (f : α → Except ε β) (l : List α) (ys : List β) (h : l.mapM f = .ok ys) :
    ∀ a ∈ l, ∃ b, f a = .ok b := by
  have hf := mapM_forall f l ys h
  clear h
  induction hf with
  | nil => simp
  | cons h1 _ ih =>
    intro a ha
    rcases List.mem_cons.1 ha with rfl | ha
    · exact ⟨_, h1⟩
    · exact ih a ha

/-- The initial values of a benchmark with wet initial data are wet. -/
theorem initial_wet (points : List (ℝ × ℝ)) (hp : AveragingRule points) (d : Interval ℝ) (hd : d.a < d.b) (m : ℕ)
    (hm : 0 < m) (mesh : UMesh ℝ) (hmesh : uniformMesh d m = .ok mesh) (f : ℝ → Except Error (ℝ × ℝ))
    (hf : ∀ x v, f x = .ok v → d.a ≤ x → x ≤ d.b → 0 < v.1) (v : List (State ℝ))
    (hv : initialValues points mesh f = .ok v) (i : Fin m) : 0 < (v.getD i 0).1 := by
  obtain ⟨hlen, hlt, hcell⟩ := uniform_cells hd hm hmesh
  unfold initialValues at hv
  cases h0 : f 0 with
  | error e => rw [h0] at hv; cases hv
  | ok u0 =>
    rw [h0] at hv
    cases hs : (sites points mesh).mapM f with
    | error e => rw [hs] at hv; cases hv
    | ok ys =>
      rw [hs] at hv
      cases hv
      have hi : (i : ℕ) < mesh.cells.length := by rw [hlen]; exact i.2
      rw [discretize_getD points mesh _ i hi]
      refine average_pos points hp _ (hlt _ (List.getElem_mem hi)) _ ?_
      intro x hx
      have hmem : x ∈ sites points mesh := List.mem_flatMap.2 ⟨_, List.getElem_mem hi, hx⟩
      obtain ⟨u, hu⟩ := mapM_each f _ ys hs x hmem
      simp only [hu]
      obtain ⟨e1, e2⟩ := hcell _ hi
      rw [gaussian_eq] at hx
      obtain ⟨p, hp1, hp2⟩ := List.mem_map.1 hx
      obtain ⟨r, hr, rfl⟩ := List.mem_map.1 hp1
      have hin := hp.inside r.1 (List.mem_map_of_mem hr)
      have hc := hlt _ (List.getElem_mem hi)
      have l1 : d.a ≤ mesh.cells[(i : ℕ)].a := by
        rw [e1]
        simp only [node]
        have : 0 ≤ ((i : ℕ) : ℝ) * ((d.b - d.a) / m) :=
          mul_nonneg (Nat.cast_nonneg _) (div_nonneg (by linarith) (Nat.cast_nonneg _))
        linarith
      have l2 : mesh.cells[(i : ℕ)].b ≤ d.b := by
        rw [e2]
        simp only [node]
        have h1 : (((i : ℕ) + 1 : ℕ) : ℝ) ≤ m := by exact_mod_cast i.2
        have h2 : (m : ℝ) * ((d.b - d.a) / m) = d.b - d.a := by field_simp
        have h3 : 0 ≤ (d.b - d.a) / (m : ℝ) := div_nonneg (by linarith) (Nat.cast_nonneg _)
        nlinarith
      subst hp2
      refine hf _ u hu ?_ ?_ <;> nlinarith

/-- The flux of a solver. -/
theorem flux_cases (P : SWE.Params ℝ) (B : Bathymetry ℝ) (bc : BC ℝ (State ℝ)) (dx : ℝ) (k : Key)
    (hk : k ∈ [Key.sweLlf, .sweLowOrder, .sweCentral, .sweEs, .sweEs1, .sweMcl]) (target : Val ℝ)
    (ht : k = .sweMcl → ∃ key ∈ ["central", "es", "es1", "llf", "low-order"], target = .flux key) :
    ∃ F, fluxOf P B bc k target = .ok F ∧ F ∈ plainFluxes P B ++ (plainFluxes P B).map (mcl P B bc) ∧ F.dim = 2 ∧
      (k ∈ [Key.sweLlf, .sweLowOrder, .sweMcl] → F ∈ wetSchemes P B bc) ∧ (k = .sweLowOrder → F = lowOrder P B) ∧
      (k = .sweCentral → F = centralFlux P B) ∧ (k = .sweMcl → ∃ G ∈ plainFluxes P B, F = mcl P B bc G) ∧
      (k ≠ .sweMcl → ∃ S ∈ symmetricSchemes P 0 dx, F = S B) := by
  simp only [List.mem_cons, List.not_mem_nil, or_false] at hk
  rcases hk with rfl | rfl | rfl | rfl | rfl | rfl
  · exact ⟨lfFlux P B, by simp [fluxOf, getter], by simp [plainFluxes], rfl, fun _ => by simp [wetSchemes], by simp,
      by simp, by simp, fun _ => ⟨lfFlux P, by simp [symmetricSchemes], rfl⟩⟩
  · exact ⟨lowOrder P B, by simp [fluxOf, getter], by simp [plainFluxes], rfl, fun _ => by simp [wetSchemes], fun _ => rfl,
      by simp, by simp, fun _ => ⟨lowOrder P, by simp [symmetricSchemes], rfl⟩⟩
  · exact ⟨centralFlux P B, by simp [fluxOf, getter], by simp [plainFluxes], rfl, by simp, by simp, fun _ => rfl,
      by simp, fun _ => ⟨centralFlux P, by simp [symmetricSchemes], rfl⟩⟩
  · exact ⟨energyStableFlux P B, by simp [fluxOf, getter], by simp [plainFluxes], rfl, by simp, by simp, by simp,
      by simp, fun _ => ⟨energyStableFlux P, by simp [symmetricSchemes], rfl⟩⟩
  · exact ⟨diffusiveFlux P B, by simp [fluxOf, getter], by simp [plainFluxes], rfl, by simp, by simp, by simp,
      by simp, fun _ => ⟨diffusiveFlux P, by simp [symmetricSchemes], rfl⟩⟩
  · obtain ⟨key, hkey, rfl⟩ := ht rfl
    have main : ∃ G ∈ plainFluxes P B, getter P B key = .ok G ∧ G.dim = 2 := by
      simp only [List.mem_cons, List.not_mem_nil, or_false] at hkey
      rcases hkey with rfl | rfl | rfl | rfl | rfl
      · exact ⟨centralFlux P B, by simp [plainFluxes], by simp [getter], rfl⟩
      · exact ⟨energyStableFlux P B, by simp [plainFluxes], by simp [getter], rfl⟩
      · exact ⟨diffusiveFlux P B, by simp [plainFluxes], by simp [getter], rfl⟩
      · exact ⟨lfFlux P B, by simp [plainFluxes], by simp [getter], rfl⟩
      · exact ⟨lowOrder P B, by simp [plainFluxes], by simp [getter], rfl⟩
    obtain ⟨G, hG, h1, h2⟩ := main
    refine ⟨mcl P B bc G, by simp [fluxOf, h1, Except.map], List.mem_append_right _ (List.mem_map_of_mem hG), h2,
      fun _ => List.mem_cons_of_mem _ (List.mem_cons_of_mem _ (List.mem_map_of_mem hG)), by simp, by simp,
      fun _ => ⟨G, hG, rfl⟩, by simp⟩

/-- What is computed does not change the lake at rest. -/
theorem lake_still (points : List (ℝ × ℝ)) (hp : AveragingRule points) (n : ℕ) (hn : 20 ≤ n) (mesh : UMesh ℝ)
    (hmesh : uniformMesh (Lake.domain .bump) n = .ok mesh) (P : SWE.Params ℝ) (hP : P.Good) (heps : P.eps ≤ 3 / 20)
    (B : Bathymetry ℝ) (hB : buildBathymetry P (some (cellAverages points mesh (Lake.bathymetry .bump))) = .ok B)
    (bc : BC ℝ (State ℝ)) (hbc : build (K := ℝ) (some reflect) ["outflow", "outflow"] 1 none none = .ok bc) (dx : ℝ)
    (hdx : dx ≠ 0) (F : NumFlux (State ℝ))
    (hF : F = lowOrder P B ∨ F = centralFlux P B ∨ ∃ G ∈ plainFluxes P B, F = mcl P B bc G) (T : Tableau ℝ)
    (cfl t1 : ℝ) (hstep : 1 / 10 ^ 12 ≤ dx * cfl) (hdur : 1 / 10 ^ 12 ≤ t1) :
    Unchanged (fvParams n T (rhs F dx bc) dx cfl 0 t1)
      (fun i : Fin n => (discretize points mesh (Lake.initial .bump)).getD i 0) (dx * cfl) 0 t1 := by
  obtain ⟨hlen, ha, -⟩ := lake_admissible points hp n hn mesh hmesh P heps
  have hd : (Lake.domain .bump).a < (Lake.domain .bump).b := by norm_num [Lake.domain]
  have hu : discretize points mesh (Lake.initial .bump) =
      lake 2 (cellAverages points mesh (Lake.bathymetry .bump)) :=
    discretize_lake points hp mesh (uniform_cells hd (by omega) hmesh).2.1 2 _ _ fun x => rfl
  rw [hu]
  generalize cellAverages points mesh (Lake.bathymetry .bump) = b at *
  subst hlen
  have hne : b ≠ [] := by rintro rfl; simp at hn
  have hcl : Closed ["outflow", "outflow"] := ⟨_, _, rfl, Or.inl rfl, Or.inl rfl⟩
  have hz : ∀ t, rhs F dx bc t (lake 2 b) = .ok (List.replicate b.length 0) := by
    rcases hF with rfl | rfl | ⟨G, hG, rfl⟩
    · exact (C43_low_order P hP 2 b hne ha B hB _ hcl none none bc hbc dx hdx).1
    · exact (C44_central P 2 b hne ha B hB _ hcl none none bc hbc dx hdx).1
    · obtain ⟨t1, t2⟩ := C49_targets P hP (some b) b.length (by omega) (by simp) B hB G (by
        simp only [plainFluxes, List.mem_cons, List.not_mem_nil, or_false] at hG ⊢
        tauto)
      refine (C43_mcl P hP 2 b hne ha B hB _ hcl none none bc hbc dx hdx G (by rw [t2]) ?_).1
      intro ext hl hwet
      obtain ⟨tl, high, h⟩ := t1 ext hl (fun x hx => P.eps_pos.le.trans (hwet x hx)) (by
        intro j hj
        left
        rw [List.getD_eq_getElem _ _ (by omega)]
        exact P.eps_pos.trans_le (hwet _ (List.getElem_mem _)))
      exact ⟨tl, _, h, by simp⟩
  refine unchanged_of_zero T _ _ (fun t => ?_) dx cfl 0 t1 hstep (by simpa using hdur)
  have hof : List.ofFn (fun i : Fin b.length => (lake 2 b).getD i 0) = lake 2 b := by
    apply List.ext_getElem
    · simp [lake]
    · intro i h1 h2
      simp only [List.getElem_ofFn]
      rw [List.getD_eq_getElem _ _ h2]
  unfold vecRhs
  rw [hof, hz t]
  simp only [List.length_replicate, dif_pos]
  congr 1
  funext i
  simp

/-- Uniform data over flat ground. -/
theorem uniform_still (points : List (ℝ × ℝ)) (hp : AveragingRule points) (d : Interval ℝ) (hd : d.a < d.b) (n : ℕ)
    (hn : 0 < n) (mesh : UMesh ℝ) (hmesh : uniformMesh d n = .ok mesh) (P : SWE.Params ℝ) (hP : P.Good)
    (B : Bathymetry ℝ) (hB : buildBathymetry P (some (cellAverages points mesh fun _ => 0)) = .ok B)
    (bc : BC ℝ (State ℝ)) (hbc : build (K := ℝ) (some reflect) ["periodic"] 1 none none = .ok bc) (dx : ℝ)
    (hdx : dx ≠ 0) (F : NumFlux (State ℝ)) (hF : F ∈ plainFluxes P B ++ (plainFluxes P B).map (mcl P B bc))
    (T : Tableau ℝ) (c : ℝ × ℝ) (hc : 0 < c.1)
    (cfl t1 : ℝ) (hstep : 1 / 10 ^ 12 ≤ dx * cfl) (hdur : 1 / 10 ^ 12 ≤ t1) :
    Unchanged (fvParams n T (rhs F dx bc) dx cfl 0 t1)
      (fun i : Fin n => (discretize points mesh fun _ => c).getD i 0) (dx * cfl) 0 t1 := by
  obtain ⟨hlen, hlt, -⟩ := uniform_cells hd hn hmesh
  have hconst : ∀ a : ℝ, cellAverages points mesh (fun _ => a) = List.replicate n a := by
    intro a
    rw [← hlen]
    exact (C58_basic points mesh hlt hp.sum hp.pos hp.inside (fun _ => (0 : ℝ))).2.1 a
  have hu : (fun i : Fin n => (discretize points mesh fun _ => c).getD i 0) = fun _ => c := by
    funext i
    unfold discretize
    rw [hconst, hconst, List.zip_replicate, min_self, List.getD_eq_getElem _ _ (by simp)]
    simp
  rw [hu]
  rw [hconst] at hB
  refine (C123_uniform P hP _ (Or.inr ⟨0, List.replicate (n - 1) 0, ?_, ?_⟩) B hB c hc ["periodic"] none none
    (Or.inl rfl) bc hbc n hn F hF dx hdx).2 T cfl 0 t1 hstep (by simpa using hdur)
  · rw [← List.replicate_succ, Nat.sub_add_cancel hn]
  · intro y hy
    rw [(List.mem_replicate.1 hy).2]
    simpa using P.eps_pos

/-- What holds at the end of every run that is not ended by an exception holds for its whole history. -/
theorem history_of_runs (n : ℕ) (Q : Solver.Params ℝ (Fin n → State ℝ)) (b : Bench ℝ (Fin n → State ℝ))
    (R : (Fin n → State ℝ) → Prop)
    (hR : ∀ steps s', (ODE.Solver.init b.initial b.startTime).runE Q.tab Q.rhs steps = .ok s' → R s'.solution) (q : ℕ)
    (hq : ∀ e, (solve Q (Obj.make Q b) q).2 ≠ .raised e) : ∀ v ∈ (solve Q (Obj.make Q b) q).1.sol.values, R v := by
  intro v hv
  obtain ⟨steps, -, g1, -, g3⟩ := recorded Q b q hq
  obtain ⟨r, hr, rfl⟩ := List.getElem_of_mem hv
  obtain ⟨S, e1, e2, -⟩ := g3 r (Nat.lt_succ_iff.1 (lt_of_lt_of_eq hr g1))
  have hval : _ = S.solution := Option.some.inj ((List.getElem?_eq_getElem hr).symm.trans e2)
  rw [hval]
  exact hR _ _ e1

theorem bottom_built (P : SWE.Params ℝ) (points : List (ℝ × ℝ)) (mesh : UMesh ℝ) (h : 0 < mesh.cells.length)
    (f : ℝ → ℝ) : ∃ B, buildBathymetry P (some (cellAverages points mesh f)) = .ok B := by
  have hlen : (cellAverages points mesh f).length = mesh.cells.length := by simp [cellAverages]
  generalize cellAverages points mesh f = b at *
  cases b with
  | nil => simp at hlen; omega
  | cons x l =>
    by_cases hx : ∀ y ∈ l, -P.eps < y - x ∧ y - x < P.eps
    · exact ⟨_, ((C48_bottom P x l).1 hx).2⟩
    · push Not at hx
      obtain ⟨y, hy, h1⟩ := hx
      refine ⟨_, ((C48_bottom P x l).2.1 ⟨y, hy, ?_⟩).2⟩
      by_cases h2 : -P.eps < y - x
      · right; linarith [h1 h2]
      · left; linarith

theorem fluxes_cases (P : SWE.Params ℝ) (B : Bathymetry ℝ) (bc : BC ℝ (State ℝ)) (F : NumFlux (State ℝ))
    (h : F ∈ plainFluxes P B ++ (plainFluxes P B).map (mcl P B bc)) :
    F ∈ twoPointSchemes P B ∨ F ∈ limitedSchemes P B bc := by
  rcases List.mem_append.1 h with h | h
  · simp only [plainFluxes, List.mem_cons, List.not_mem_nil, or_false] at h
    rcases h with rfl | rfl | rfl | rfl | rfl <;> simp [twoPointSchemes, limitedSchemes]
  · exact Or.inr (List.mem_cons_of_mem _ h)

/-- The construction of a solver. -/
theorem job_eq (points : List (ℝ × ℝ)) (w : Water) (k : Key) (s : Settings ℝ) (m : ℕ) (x : PyFloat ℝ) (o : OdeSolver)
    (hs : s.meshSize = .int m) (hx : s.cfl = .num x) (ho : s.integrator = .given (.ode o)) (mesh : UMesh ℝ) (dx : ℝ)
    (hmesh : uniformMesh w.bench.domain m = .ok mesh) (hstep : mesh.step = some dx) :
    (∀ e, initialValues points mesh w.bench.initial = .error e → job points w k s = .error e) ∧
    ∀ v B bc F, initialValues points mesh w.bench.initial = .ok v →
      buildBathymetry (params w.gravity) (some (cellAverages points mesh w.bottom)) = .ok B →
      build (some reflect) w.bench.boundary.conditions 1 w.bench.inflowLeft w.bench.inflowRight = .ok bc →
      fluxOf (params w.gravity) B bc k s.flux = .ok F → F.dim = 2 →
      job points w k s = (cflNumber dx w.bench.endTime x).map fun cfl =>
        ⟨m, mesh, dx, cfl, Calculate.tableau o, F, bc, w.bench.endTime, fun i => v.getD i 0⟩ := by
  constructor
  · intro e he
    unfold job
    rw [hs, hx, ho]
    simp only [Int.toNat_natCast, hmesh, hstep, he, bind, Except.bind]
  · intro v B bc F hv hB hbc hF hdim
    unfold job
    rw [hs, hx, ho]
    simp only [Int.toNat_natCast, hmesh, hstep, hv, hB, hbc, hF, hdim, bind, Except.bind]
    cases cflNumber dx w.bench.endTime x <;> rfl

theorem params_eq (g : ℝ) : params g = realParams g 1e-15 (by norm_num) := by
  unfold params realParams
  congr 1
  norm_num

theorem entry_facts (e : Entry) (he : e ∈ catalogue) :
    (e.name = "lake-at-rest-no-bathymetry" → e.conditions = ["periodic"] ∧ e.bottom = fun _ => 0) ∧
    (e.name = "moving-water-no-bathymetry" → e.conditions = ["periodic"] ∧ e.bottom = fun _ => 0) ∧
    (e.name = "lake-at-rest" → e.conditions = ["outflow", "outflow"] ∧ e.bottom = Lake.bathymetry .bump ∧
      e.domain = Lake.domain .bump) ∧
    (e.name = "cylindrical-damm-break" → e.conditions = ["outflow", "outflow"] ∧ e.bottom = (fun _ => 0) ∧
      e.domain = cylinderDomain) ∧
    (e.name = "cylindrical-damm-break-with-wall" → e.conditions = ["wall", "wall"] ∧ e.bottom = (fun _ => 0) ∧
      e.domain = cylinderDomain) ∧ 0 < e.gravity := by
  simp only [catalogue, List.mem_cons, List.not_mem_nil, or_false] at he
  rcases he with rfl | rfl | rfl | rfl | rfl | rfl | rfl | rfl | rfl | rfl | rfl | rfl | rfl | rfl | rfl <;>
    refine ⟨?_, ?_, ?_, ?_, ?_, by norm_num⟩ <;> intro h <;>
    first | exact ⟨rfl, rfl, rfl⟩ | exact ⟨rfl, rfl⟩ | simp at h

theorem initialValues_ok (points : List (ℝ × ℝ)) (mesh : UMesh ℝ) (f : ℝ → ℝ × ℝ) :
    initialValues points mesh (fun x => .ok (f x)) = .ok (discretize points mesh f) := by
  unfold initialValues
  have : (sites points mesh).mapM (fun x => (.ok (f x) : Except Error (ℝ × ℝ))) = .ok ((sites points mesh).map f) := by
    induction sites points mesh with
    | nil => rfl
    | cons a l ih => rw [List.mapM_cons, ih]; rfl
  simp only [this]

/-- The solvers for given settings and the benchmark of an accepted command line. -/
theorem job_run (c : Conversions ℝ) (newton : (ℝ → ℝ) → ℝ → Except Error ℝ) (name : Option String)
    (endTime : Option ℝ) (history : Bool) (words : List String) (w : Water) (l : List (Key × Settings ℝ))
    (h : commandLine c newton name endTime history words = .ok (w, l)) (points : List (ℝ × ℝ))
    (hp : AveragingRule points)
    (hbump : name = some "moving-water-bump-bathymetry" → ∀ f h, newton f (25 / 10) = .ok h → 0 < h)
    (k : Key) (s : Settings ℝ) (m : ℕ) (x : PyFloat ℝ) (o : OdeSolver) (hm : 0 < m) (hs : s.meshSize = .int m)
    (hx : s.cfl = .num x) (ho : s.integrator = .given (.ode o))
    (hk : k ∈ [Key.sweLlf, .sweLowOrder, .sweCentral, .sweEs, .sweEs1, .sweMcl])
    (ht : k = .sweMcl → ∃ key ∈ ["central", "es", "es1", "llf", "low-order"], s.flux = .flux key) :
    ∃ mesh, uniformMesh w.bench.domain m = .ok mesh ∧
      (∀ e, initialValues points mesh w.bench.initial = .error e → job points w k s = .error e) ∧
      (name ≠ some "moving-water-bump-bathymetry" → ∃ v, initialValues points mesh w.bench.initial = .ok v) ∧
      ∀ v, initialValues points mesh w.bench.initial = .ok v →
        (x = .nan → job points w k s = .error .valueError) ∧
        ∀ y, (x = .fin y ∨ (x = .posInf ∧ y = w.bench.endTime / ((w.bench.domain.b - w.bench.domain.a) / m))) →
          ∃ j, job points w k s = .ok j ∧ j.n = m ∧ j.cfl = y ∧
            Promises (name.getD "oscillation") w k points j := by
  obtain ⟨⟨e, he, en, e1, e2, e3, e4, e5⟩, -⟩ := C124_accepted c newton name endTime history words w l h
  have hm0 : (0 : ℝ) < m := by exact_mod_cast hm
  unfold commandLine at h
  simp only [defaultWater] at h
  cases hb : parseBenchmark (shallowWaterTable newton) (name.getD "oscillation") with
  | usage => rw [hb] at h; cases h
  | raised e => rw [hb] at h; cases h
  | value b =>
  rw [hb] at h
  simp only at h
  cases hso : solvers c sweKeys history words with
  | error e => rw [hso] at h; cases h
  | ok l' =>
  rw [hso] at h
  simp only [Except.ok.injEq, Prod.mk.injEq] at h
  obtain ⟨hw, rfl⟩ := h
  obtain ⟨a1, a2, a3, a4, a5, a6⟩ := adjust_fields endTime b
  obtain ⟨-, p1, p2, p3, p4, p5, p6, p7⟩ := parsed_entry newton _ b hb
  have hname : ∀ t : String, t ≠ "oscillation" → name.getD "oscillation" = t → name = some t := by
    intro t ht h
    cases name with
    | none => exact absurd h.symm ht
    | some n => simpa using h
  obtain ⟨hd, -, hghost, hinit⟩ := (C102_shallow_water newton _).2.2.2.2 b hb fun h => hbump (hname _ (by decide) h)
  have w1 : w.bench.domain = b.domain := by rw [← hw]; exact a1
  have w2 : w.bench.boundary = b.boundary := by rw [← hw]; exact a2
  have w3 : w.bench.inflowLeft = b.inflowLeft := by rw [← hw]; exact a3
  have w4 : w.bench.inflowRight = b.inflowRight := by rw [← hw]; exact a4
  have w5 : w.bench.initial = b.initial := by rw [← hw]; exact a5
  clear hw a1 a2 a3 a4 a5 a6 hb
  rw [← w1] at hd hinit
  rw [← w2, ← w3, ← w4] at hghost
  rw [← w3] at p1
  rw [← w4] at p2
  rw [← w5] at p3 hinit
  simp only [← w3, ← w4, ← w5] at p4 p5 p6 p7
  clear w1 w2 w3 w4 w5
  have hmesh := uniformMesh_eq w.bench.domain hd hm
  set D := w.bench.domain.b - w.bench.domain.a with hD
  have hdx : 0 < D / m := div_pos (by rw [hD]; linarith) hm0
  obtain ⟨mesh, hmesh, hstep⟩ : ∃ mesh, uniformMesh w.bench.domain m = .ok mesh ∧ mesh.step = some (D / m) :=
    ⟨_, hmesh, rfl⟩
  obtain ⟨hcells, hlt, -⟩ := uniform_cells hd hm hmesh
  obtain ⟨hj1, hj2⟩ := job_eq points w k s m x o hs hx ho mesh _ hmesh hstep
  refine ⟨mesh, hmesh, hj1, ?_, ?_⟩
  · intro hne
    obtain ⟨f, hf⟩ := p3 fun h => hne (hname _ (by decide) h)
    exact ⟨_, by rw [hf]; exact initialValues_ok points mesh f⟩
  intro v hv
  obtain ⟨B, hB⟩ := bottom_built (params w.gravity) points mesh (by omega) w.bottom
  obtain ⟨bc, hbc, -⟩ := hghost 1
  obtain ⟨F, hF, f1, f2, f3, f4, f5, f6, f7⟩ := flux_cases (params w.gravity) B bc (D / m) k hk s.flux ht
  have hjob := hj2 v B bc F hv hB hbc hF f2
  rw [hjob]
  refine ⟨fun hnan => by rw [hnan]; rfl, fun y hy => ⟨⟨m, mesh, D / m, y, Calculate.tableau o, F, bc, w.bench.endTime,
    fun i => v.getD i 0⟩, ?_, rfl, rfl, ?_⟩⟩
  · rcases hy with rfl | ⟨rfl, rfl⟩ <;> rfl
  obtain ⟨c1, c2, c3, c4, c5, hg⟩ := entry_facts e he
  have hP : (params w.gravity).Good := realParams_good _ _ (by rw [e4]; exact hg) _
  have hwet := initial_wet points hp w.bench.domain hd m hm mesh hmesh w.bench.initial hinit v hv
  have hdisc : ∀ f : ℝ → ℝ × ℝ, w.bench.initial = (fun x => .ok (f x)) → v = discretize points mesh f := by
    intro f hf
    rw [hf, initialValues_ok] at hv
    exact (Except.ok.inj hv).symm
  refine ⟨hmesh, rfl, rfl, rfl, ?_, hwet, ?_, ?_, ?_, ?_⟩
  · intro f hf
    rw [hdisc f (funext hf)]
    change List.ofFn (fun i : Fin m => (discretize points mesh f).getD i 0) = discretize points mesh f
    have hlen : (discretize points mesh f).length = m := by simp [discretize, cellAverages, hcells]
    apply List.ext_getElem
    · simp [hlen]
    · intro i h1 h2
      simp only [List.getElem_ofFn]
      rw [List.getD_eq_getElem _ _ h2]
  · intro hk' hy1 hT q hslow
    rw [← params_eq] at hslow
    obtain ⟨r1, r2, r3, r4, -⟩ := C114_run (params w.gravity) hP (some (cellAverages points mesh w.bottom)) m hm
      (by rintro l' h; cases h; simp [cellAverages, hcells]) B hB _ _ _ p1 p2 bc hbc F (f3 hk') (Calculate.tableau o)
      (tableau_cases o) (D / m) y 0 w.bench.endTime hdx hy1 (by simpa using hT) (fun i : Fin m => v.getD i 0) hwet q hslow
    exact ⟨r1, fun hq => r2 (by simpa using hq), r3, r4⟩
  · intro hcond q hq
    refine history_of_runs m _ _ (fun u => totalHeight (List.ofFn u) = _) ?_ q hq
    intro steps s' hrun
    rcases hcond with hcond | hcond <;> rw [hcond] at hbc
    · refine C48_water (params w.gravity) hP _ B hB m hm _ _ bc hbc (D / m) F
        (fluxes_cases _ B bc F f1) _ _ s' steps hrun
    · rw [build_pair _ _ (by decide)] at hbc
      exact C23_water_between_walls (params w.gravity) hP _ B hB m hm _ _ bc hbc (D / m) F f1 _ _ s' steps hrun
  · intro hcase hy1 hT
    change Unchanged (fvParams m (Calculate.tableau o) (rhs F (D / m) bc) (D / m) y 0 w.bench.endTime)
      (fun i : Fin m => v.getD i 0) (D / m * y) 0 w.bench.endTime
    rcases hcase with hcase | hcase | ⟨hcase, hkl, hn⟩
    · obtain ⟨q1, q2, q3⟩ := p4 hcase
      obtain ⟨g1, g2⟩ := c1 (en.trans hcase)
      rw [e2, g1, q1, q2] at hbc
      rw [e5, g2] at hB
      rw [hdisc _ q3]
      exact uniform_still points hp _ hd m hm mesh hmesh _ hP B hB bc hbc _ hdx.ne' F f1 _ (1, 0) (by norm_num) y _ hy1 hT
    · obtain ⟨q1, q2, q3⟩ := p5 hcase
      obtain ⟨g1, g2⟩ := c2 (en.trans hcase)
      rw [e2, g1, q1, q2] at hbc
      rw [e5, g2] at hB
      rw [hdisc _ q3]
      exact uniform_still points hp _ hd m hm mesh hmesh _ hP B hB bc hbc _ hdx.ne' F f1 _ (2, 1) (by norm_num) y _ hy1 hT
    · obtain ⟨q1, q2, q3⟩ := p6 hcase
      obtain ⟨g1, g2, g3⟩ := c3 (en.trans hcase)
      rw [e2, g1, q1, q2] at hbc
      rw [e5, g2] at hB
      rw [e1, g3] at hmesh
      rw [hdisc _ q3]
      refine lake_still points hp m hn mesh hmesh _ hP (by norm_num [params, realParams]) B hB bc hbc _ hdx.ne' F ?_ _ y _
        hy1 hT
      simp only [List.mem_cons, List.not_mem_nil, or_false] at hkl
      rcases hkl with hkl | hkl | hkl
      · exact Or.inl (f4 hkl)
      · exact Or.inr (Or.inl (f5 hkl))
      · exact Or.inr (Or.inr (f6 hkl))
  · intro hcase hkm hsym q hq
    obtain ⟨q1, q2, q3⟩ := p7 hcase
    obtain ⟨S, hS, rfl⟩ := f7 hkm
    refine history_of_runs m _ _ (fun u => ∀ i : Fin m, (u i.rev).1 = (u i).1 ∧ (u i.rev).2 = -(u i).2) ?_ q hq
    intro steps s' hrun
    rw [q1, q2] at hbc
    have hv' := hdisc _ q3
    subst hv'
    have hcyl : ∃ cond : String, (cond = "outflow" ∨ cond = "wall") ∧ e.conditions = [cond, cond] ∧
        e.bottom = (fun _ => 0) ∧ e.domain = cylinderDomain := by
      rcases hcase with hcase | hcase
      · exact ⟨"outflow", Or.inl rfl, c4 (en.trans hcase)⟩
      · exact ⟨"wall", Or.inr rfl, c5 (en.trans hcase)⟩
    obtain ⟨cond, g0, g1, g2, g3⟩ := hcyl
    rw [e2, g1] at hbc
    rw [e5, g2] at hB
    rw [e1, g3] at hmesh
    exact (C102_cylinder_run points hp hsym m hm mesh hmesh _ hP cond g0 bc hbc B hB 0 (D / m) S hS _ 0 steps s' hrun).1

/-- C124.  The solvers of an accepted command line for the shallow water equations.  Construction fails if, and with the
exception with which, the initial data cannot be evaluated, which is only possible for the flow over a bump.  Otherwise
`solve` raises `ValueError` for the CFL number `nan`; for a finite number, and for infinity, which means one step over the
whole duration, the run keeps the promises of the solver for the benchmark. -/
theorem C124_run (c : Conversions ℝ) (newton : (ℝ → ℝ) → ℝ → Except Error ℝ) (name : Option String)
    (endTime : Option ℝ) (history : Bool) (words : List String) (w : Water) (l : List (Key × Settings ℝ))
    (h : commandLine c newton name endTime history words = .ok (w, l)) (points : List (ℝ × ℝ))
    (hp : AveragingRule points)
    (hbump : name = some "moving-water-bump-bathymetry" → ∀ f h, newton f (25 / 10) = .ok h → 0 < h)
    (k : Key) (s : Settings ℝ) (hks : (k, s) ∈ l)
    (hk : k ∈ [Key.sweLlf, .sweLowOrder, .sweCentral, .sweEs, .sweEs1, .sweMcl])
    (ht : k = .sweMcl → s.flux ≠ .flux "reduced-llf" ∧ s.flux ≠ .flux "reduced-llf-2") :
    ∃ (m : ℕ) (x : PyFloat ℝ), 0 < m ∧ s.meshSize = .int m ∧ s.cfl = .num x ∧ ∃ mesh,
      uniformMesh w.bench.domain m = .ok mesh ∧
      (∀ e, initialValues points mesh w.bench.initial = .error e → job points w k s = .error e) ∧
      (name ≠ some "moving-water-bump-bathymetry" → ∃ v, initialValues points mesh w.bench.initial = .ok v) ∧
      ∀ v, initialValues points mesh w.bench.initial = .ok v →
        (x = .nan → job points w k s = .error .valueError) ∧
        ∀ y, (x = .fin y ∨ (x = .posInf ∧ y = w.bench.endTime / ((w.bench.domain.b - w.bench.domain.a) / m))) →
          ∃ j, job points w k s = .ok j ∧ j.n = m ∧ j.cfl = y ∧
            Promises (name.getD "oscillation") w k points j := by
  obtain ⟨-, ⟨z, hz, hs⟩, ⟨x, -, hx⟩, -, ⟨o, ho, -⟩, hflux⟩ :=
    (C124_accepted c newton name endTime history words w l h).2 k s hks
  obtain ⟨m, rfl⟩ : ∃ m : ℕ, z = m := ⟨z.toNat, by omega⟩
  have hm : 0 < m := by exact_mod_cast hz
  refine ⟨m, x, hm, hs, hx, job_run c newton name endTime history words w l h points hp hbump k s m x o hm hs hx ho hk
    fun hmcl => ?_⟩
  obtain ⟨key, k1, k2⟩ := hflux hmcl
  obtain ⟨t1, t2⟩ := ht hmcl
  refine ⟨key, ?_, k2⟩
  simp only [List.mem_cons, List.not_mem_nil, or_false] at k1 ⊢
  rcases k1 with rfl | rfl | rfl | rfl | rfl | rfl | rfl
  · simp
  · simp
  · simp
  · simp
  · simp
  · exact absurd k2 t1
  · exact absurd k2 t2

/-! ### An example -/

theorem example_low : ([⟨cflOption Calculate.exampleConversions .sweLowOrder, "++cfl", "0.5", .separate⟩] :
    List (Assignment (Val ℝ))).mapM Assignment.value = .ok [.num (.fin (1 / 2))] := by
  have : (PyFloat.fin (1 / 2 : ℝ)).le 0 = false := by simp [PyFloat.le]
  simp [Assignment.value, cflOption, positiveFloat, Calculate.exampleConversions] at this ⊢
  simp [this, Except.map, Functor.map]

theorem example_limited : ([⟨meshOption Calculate.exampleConversions .sweMcl, "+m", "100", .separate⟩] :
    List (Assignment (Val ℝ))).mapM Assignment.value = .ok [.int 100] := by
  simp [Assignment.value, meshOption, positiveInt, Calculate.exampleConversions, Except.map, Functor.map]
  rfl

/-- The words `low-order ++cfl 0.5 mcl +m 100` for the lake at rest over a bump: the low-order scheme on 400 cells with the
CFL number 1/2, and the limited scheme with the central flux as target on 100 cells with the CFL number 1/10; both keep
the initial values up to the time 100. -/
example (newton : (ℝ → ℝ) → ℝ → Except Error ℝ) (points : List (ℝ × ℝ)) (hp : AveragingRule points) :
    ∃ w s s', commandLine Calculate.exampleConversions newton (some "lake-at-rest") none true
        ["low-order", "++cfl", "0.5", "mcl", "+m", "100"] = .ok (w, [(.sweLowOrder, s), (.sweMcl, s')]) ∧
      (∃ j, job points w .sweLowOrder s = .ok j ∧ j.n = 400 ∧ Promises "lake-at-rest" w .sweLowOrder points j ∧
        (j.run 4001).2 = .finished ∧ ∀ v ∈ (j.run 4001).1.sol.values, v = j.initial) ∧
      ∃ j, job points w .sweMcl s' = .ok j ∧ j.n = 100 ∧ Promises "lake-at-rest" w .sweMcl points j ∧
        (j.run 5001).2 = .finished ∧ ∀ v ∈ (j.run 5001).1.sol.values, v = j.initial := by
  obtain ⟨w, l, h, hf⟩ := C124_words Calculate.exampleConversions newton (some "lake-at-rest")
    ⟨⟨"lake-at-rest", ⟨0, 20⟩, ["outflow", "outflow"], 100, 9.812, parabola⟩, by simp [catalogue], rfl⟩ (by simp) none true
    [(.sweLowOrder, [⟨cflOption Calculate.exampleConversions .sweLowOrder, "++cfl", "0.5", .separate⟩]),
      (.sweMcl, [⟨meshOption Calculate.exampleConversions .sweMcl, "+m", "100", .separate⟩])]
    (by simp [sweKeys])
    (by
      intro g hg a ha
      simp only [List.mem_cons, List.not_mem_nil, or_false] at hg
      rcases hg with rfl | rfl <;> simp only [List.mem_cons, List.not_mem_nil, or_false] at ha <;> subst ha
      · exact ⟨by simp [options], by simp [cflOption], by simp, by simp⟩
      · exact ⟨by simp [options], by simp [meshOption], by simp, by simp⟩)
    (by
      intro g hg
      simp only [List.mem_cons, List.not_mem_nil, or_false] at hg
      rcases hg with rfl | rfl
      · exact ⟨_, example_low⟩
      · exact ⟨_, example_limited⟩)
    ["low-order", "++cfl", "0.5", "mcl", "+m", "100"]
    { join := by simp [Assignment.words, cflOption, meshOption, prog]
      nonempty := by simp
      inside := by
        simp [Assignment.words, cflOption, meshOption, prog, Cut]
      between := by
        simp [Assignment.words, cflOption, meshOption, prog, Cut] }
  cases hf with
  | @cons _ e1 _ l1 h1 hf =>
  cases hf with
  | @cons _ e2 _ l2 h2 hf =>
  cases hf
  obtain ⟨k1, s1⟩ := e1
  obtain ⟨k2, s2⟩ := e2
  obtain ⟨rfl, h1⟩ := h1
  obtain ⟨rfl, h2⟩ := h2
  obtain ⟨m1, c1, -⟩ := h1 _ example_low
  obtain ⟨m2, c2, -, t2⟩ := h2 _ example_limited
  simp [meant, lastValue, cflOption, List.lookup] at m1 c1
  simp [meant, lastValue, meshOption, List.lookup] at m2 c2 t2
  obtain ⟨⟨e, he, en, d1, -, d3, -⟩, -⟩ := C124_accepted _ _ _ _ _ _ _ _ h
  obtain rfl : e = ⟨"lake-at-rest", ⟨0, 20⟩, ["outflow", "outflow"], 100, 9.812, parabola⟩ := by
    simp only [Option.getD_some] at en
    simp only [catalogue, List.mem_cons, List.not_mem_nil, or_false] at he
    rcases he with rfl | rfl | rfl | rfl | rfl | rfl | rfl | rfl | rfl | rfl | rfl | rfl | rfl | rfl | rfl <;>
      first | rfl | simp at en
  simp only [meantEnd] at d3
  refine ⟨w, s1, s2, h, ?_, ?_⟩
  · obtain ⟨m, x, -, r3, r4, mesh, -, -, r5, r6⟩ := C124_run _ _ _ _ _ _ _ _ h points hp (by simp) .sweLowOrder s1 (by simp)
      (by simp) (by simp)
    obtain rfl : m = 400 := by rw [m1] at r3; simp at r3; omega
    rw [c1] at r4
    obtain ⟨v, hv⟩ := r5 (by simp)
    obtain ⟨j, g1, g2, g3, g4⟩ := (r6 v hv).2 (1 / 2) (Or.inl (by simpa using (Val.num.inj r4).symm))
    have hdx : j.dx = 1 / 20 := by rw [g4.dx, d1, g2]; norm_num
    have hend : j.endTime = 100 := g4.endTime.trans d3
    have hs := g4.still (Or.inr (Or.inr ⟨rfl, by simp, by rw [g2]; norm_num⟩)) (by rw [hdx, g3]; norm_num)
      (by rw [hend]; norm_num)
    have hends : ∀ q : ℕ, j.endTime - 0 ≤ q * (j.dx * j.cfl) → (j.run (q + 1)).2 = .finished := hs.ends
    have hvalues : ∀ q, ∀ v ∈ (j.run q).1.sol.values, v = j.initial := hs.values
    exact ⟨j, g1, g2, g4, hends 4000 (by rw [hdx, g3, hend]; norm_num), hvalues 4001⟩
  · obtain ⟨m, x, -, r3, r4, mesh, -, -, r5, r6⟩ := C124_run _ _ _ _ _ _ _ _ h points hp (by simp) .sweMcl s2 (by simp)
      (by simp) (by rw [t2]; simp)
    obtain rfl : m = 100 := by rw [m2] at r3; simp at r3; omega
    rw [c2] at r4
    obtain ⟨v, hv⟩ := r5 (by simp)
    obtain ⟨j, g1, g2, g3, g4⟩ := (r6 v hv).2 (1 / 10) (Or.inl (by simpa using (Val.num.inj r4).symm))
    have hdx : j.dx = 1 / 5 := by rw [g4.dx, d1, g2]; norm_num
    have hend : j.endTime = 100 := g4.endTime.trans d3
    have hs := g4.still (Or.inr (Or.inr ⟨rfl, by simp, by rw [g2]; norm_num⟩)) (by rw [hdx, g3]; norm_num)
      (by rw [hend]; norm_num)
    have hends : ∀ q : ℕ, j.endTime - 0 ≤ q * (j.dx * j.cfl) → (j.run (q + 1)).2 = .finished := hs.ends
    have hvalues : ∀ q, ∀ v ∈ (j.run q).1.sol.values, v = j.initial := hs.values
    exact ⟨j, g1, g2, g4, hends 5000 (by rw [hdx, g3, hend]; norm_num), hvalues 5001⟩

end Verif.CalculateSWE
