import Verif.Core.Calculate
import Verif.Props.Options
import Verif.Props.Utilities
import Verif.Props.Registry
import Verif.Props.EOC
import Verif.Props.SWERuns
import Verif.Props.CentralScheme

/-!
C122: from the words of a command line for linear advection to the computed values.
-/

set_option linter.unusedSectionVars false

namespace Verif.Calculate

open Verif.Py Verif.Boundary Verif.FV Verif.ODE Verif.Scalar Verif.Solver Verif.Interpolate Verif.Quadrature Verif.Bench
open Verif.Registry Verif.Options Verif.Utilities EndToEnd Verif.Convergence
open Verif.Commands
open Verif.Mesh hiding Error

/-! ### Specification -/

/-- The benchmarks for linear advection by their names. -/
def named : List (String × Advection) :=
  [("three-hills", .threeHills), ("two-hills", .twoHills), ("one-hill", .oneHill), ("cos", .cosine),
    ("gauss", .gaussianBell)]

/-- The end time meant by the option `-T`: without it (or with zero) one. -/
noncomputable def meantEndTime (endTime : Option ℝ) : ℝ :=
  match endTime with
  | none => 1
  | some t => if t = 0 then 1 else t

/-- The value of an option in a group of written options: the last one written, or the default. -/
def meant {V : Type} (d : String) (l : List (Assignment V)) (vs : List V) (default : V) : V :=
  (lastValue d ((l.map fun a => a.opt.dest).zip vs)).getD default

/-! ### What is accepted -/

theorem parsers_keys (c : Conversions ℝ) (keys : List Key) : (parsers c keys).map Prod.fst = keys.map prog := by
  simp [parsers]

theorem lookup_of_nodup {α : Type*} (l : List (String × α)) (h : (l.map Prod.fst).Nodup) (x : String × α) (hx : x ∈ l) :
    l.lookup x.1 = some x.2 := by
  induction l with
  | nil => simp at hx
  | cons y l ih =>
    obtain ⟨a, b⟩ := y
    rw [List.map_cons, List.nodup_cons] at h
    rcases List.mem_cons.1 hx with rfl | hx
    · simp [List.lookup]
    · have hne : x.1 ≠ a := fun e => h.1 (e ▸ List.mem_map.2 ⟨x, hx, rfl⟩)
      rw [List.lookup, beq_false_of_ne hne]
      exact ih h.2 hx

theorem parsers_lookup (c : Conversions ℝ) (keys : List Key) (hn : (keys.map prog).Nodup) (k : Key) (hk : k ∈ keys) :
    (parsers c keys).lookup (prog k) = some fun words => (parseSolver c k words).map fun ns => (k, ns) :=
  lookup_of_nodup _ (by rw [parsers_keys]; exact hn) (prog k, _) (List.mem_map.2 ⟨k, hk, rfl⟩)

theorem lookup_parsers (c : Conversions ℝ) (keys : List Key) (key : String)
    (parse : List String → Except Error (Key × Cli.Namespace (Val ℝ))) (h : (parsers c keys).lookup key = some parse) :
    ∃ k ∈ keys, key = prog k ∧ parse = fun words => (parseSolver c k words).map fun ns => (k, ns) := by
  have := Options.mem_of_lookup _ _ _ h
  simp only [parsers, List.mem_map, Prod.mk.injEq] at this
  obtain ⟨k, hk, h1, h2⟩ := this
  exact ⟨k, hk, h1.symm, h2.symm⟩

theorem parse_advection (name : String) (a : Advection) (h : (name, a) ∈ named) :
    parseBenchmark (table .advection) name = .value (.closed a.domain (.single "periodic") 1 a.initial) := by
  simp only [named, List.mem_cons, Prod.mk.injEq, List.not_mem_nil, or_false] at h
  rcases h with ⟨rfl, rfl⟩ | ⟨rfl, rfl⟩ | ⟨rfl, rfl⟩ | ⟨rfl, rfl⟩ | ⟨rfl, rfl⟩ <;> rfl

theorem advection_parse (name : String) (b : Benchmark ℝ) (h : parseBenchmark (table .advection) name = .value b) :
    ∃ a, (name, a) ∈ named ∧ b = .closed a.domain (.single "periodic") 1 a.initial := by
  by_cases hn : name ∈ advectionTable.map Prod.fst
  · simp only [advectionTable, List.map_cons, List.map_nil, List.mem_cons, List.not_mem_nil, or_false] at hn
    have : ∃ a, (name, a) ∈ named := by
      rcases hn with rfl | rfl | rfl | rfl | rfl <;> simp [named]
    obtain ⟨a, ha⟩ := this
    refine ⟨a, ha, ?_⟩
    rw [parse_advection name a ha] at h
    simp only [Parsed.value.injEq] at h
    exact h.symm
  · have := (C102_scalar advectionTable (Or.inl rfl) name).2 hn
    change parseBenchmark advectionTable name = _ at h
    rw [this] at h
    cases h

theorem adjust_closed (endTime : Option ℝ) (d : Interval ℝ) (s : BoundarySpec) (f : ℝ → ℝ) :
    adjustEndTime endTime (.closed d s 1 f) = Benchmark.closed d s (meantEndTime endTime) f := by
  unfold adjustEndTime meantEndTime
  cases endTime with
  | none => rfl
  | some t =>
    simp only
    split <;> rfl

theorem mapM_forall {α β ε : Type*} (f : α → Except ε β) (l : List α) (l' : List β) (h : l.mapM f = .ok l') :
    List.Forall₂ (fun a b => f a = .ok b) l l' := by
  induction l generalizing l' with
  | nil =>
    simp only [List.mapM_nil, pure, Except.pure, Except.ok.injEq] at h
    subst h; exact .nil
  | cons a l ih =>
    rw [List.mapM_cons] at h
    cases ha : f a with
    | error e => rw [ha] at h; cases h
    | ok b =>
      rw [ha] at h
      cases hl : l.mapM f with
      | error e => rw [hl] at h; cases h
      | ok bs =>
        rw [hl] at h
        simp only [bind, Except.bind, pure, Except.pure, Except.ok.injEq] at h
        subst h
        exact .cons ha (ih bs hl)

theorem forall_mapM {α β ε : Type*} (f : α → Except ε β) (l : List α) (l' : List β)
    (h : List.Forall₂ (fun a b => f a = .ok b) l l') : l.mapM f = .ok l' := by
  induction h with
  | nil => rfl
  | cons h1 _ ih =>
    rw [List.mapM_cons, h1, ih]
    rfl

/-- The solvers of an accepted command line: each is in the dictionary and constructed from parsed options. -/
theorem solvers_accepted (c : Conversions ℝ) (keys : List Key) (history : Bool) (words : List String)
    (l : List (Key × Settings ℝ)) (h : solvers c keys history words = .ok l) (k : Key) (s : Settings ℝ)
    (hks : (k, s) ∈ l) :
    k ∈ keys ∧ ∃ args ns, parseSolver c k args = .ok ns ∧ construct k (withHistory history ns) = .ok s ∧
      Effective k ns history s := by
  unfold solvers at h
  cases hact : action (parsers c keys) words with
  | quit => rw [hact] at h; cases h
  | raised e => rw [hact] at h; cases h
  | namespaces ns =>
    rw [hact] at h
    simp only at h
    cases hm : ns.mapM (fun x => (construct x.1 (withHistory history x.2)).map fun s => (x.1, s)) with
    | error e => rw [hm] at h; cases h
    | ok l' =>
      rw [hm] at h
      simp only [Except.ok.injEq] at h
      subst h
      obtain ⟨x, hx, hxs⟩ : ∃ x ∈ ns, (construct x.1 (withHistory history x.2)).map (fun s => (x.1, s)) = .ok (k, s) := by
        have hf := mapM_forall _ _ _ hm
        clear hm hact
        induction hf with
        | nil => simp at hks
        | cons h1 _ ih =>
          rcases List.mem_cons.1 hks with e | hks
          · exact ⟨_, List.mem_cons_self, by rw [h1, e]⟩
          · obtain ⟨x, hx, hx'⟩ := ih hks
            exact ⟨x, List.mem_cons_of_mem _ hx, hx'⟩
      have hact' := C74_action (parsers c keys) words ns hact
      obtain ⟨k', hk', args, hp⟩ : ∃ k' ∈ keys, ∃ args, parseSolver c k' args = .ok x.2 ∧ x.1 = k' := by
        clear hm hact hks
        generalize split ((parsers c keys).map Prod.fst) words = cs at hact'
        induction hact' with
        | nil => simp at hx
        | cons h1 _ ih =>
          rcases List.mem_cons.1 hx with e | hx
          · obtain ⟨key, args, parse, -, e2, e3⟩ := h1
            obtain ⟨k', hk', -, rfl⟩ := lookup_parsers c keys _ _ e2
            subst e
            refine ⟨k', hk', args, ?_⟩
            beta_reduce at e3
            cases hps : parseSolver c k' args with
            | error e => rw [hps] at e3; cases e3
            | ok n =>
              rw [hps] at e3
              simp only [Except.map, Except.ok.injEq] at e3
              rw [← e3]
              exact ⟨rfl, rfl⟩
          · exact ih hx
      obtain ⟨hp, hp2⟩ := hp
      obtain ⟨s', hs', heff⟩ := C117_constructed c k' args x.2 hp history
      rw [hp2, hs'] at hxs
      simp only [Except.map, Except.ok.injEq, Prod.mk.injEq] at hxs
      obtain ⟨rfl, rfl⟩ := hxs
      exact ⟨hk', args, x.2, hp, hs', heff⟩

theorem forall_exists {α β : Type*} (R : α → β → Prop) (l : List α) (h : ∀ a ∈ l, ∃ b, R a b) :
    ∃ l', List.Forall₂ R l l' := by
  induction l with
  | nil => exact ⟨[], .nil⟩
  | cons a l ih =>
    obtain ⟨b, hb⟩ := h a List.mem_cons_self
    obtain ⟨l', hl'⟩ := ih fun a ha => h a (List.mem_cons_of_mem _ ha)
    exact ⟨b :: l', .cons hb hl'⟩

/-- Groups of written options are accepted, and the solvers are constructed from the options written. -/
theorem solvers_words (c : Conversions ℝ) (keys : List Key) (hn : (keys.map prog).Nodup) (history : Bool)
    (groups : List (Key × List (Assignment (Val ℝ)))) (hk : ∀ g ∈ groups, g.1 ∈ keys)
    (hv : ∀ g ∈ groups, ∀ a ∈ g.2, a.Valid (options c g.1))
    (hc : ∀ g ∈ groups, ∃ vs, g.2.mapM Assignment.value = .ok vs) (words : List String)
    (hcut : CutInto (keys.map prog) words (groups.map fun g => prog g.1 :: g.2.flatMap Assignment.words)) :
    ∃ l, solvers c keys history words = .ok l ∧
      List.Forall₂ (fun g e => e.1 = g.1 ∧ ∃ ns, Effective g.1 ns history e.2 ∧ ∀ vs, g.2.mapM Assignment.value = .ok vs →
        ∀ d v w, ns.lookup d = some v → ((options c g.1).map fun o => (o.dest, o.default)).lookup d = some w →
          v = meant d g.2 vs w) groups l := by
  have hsplit := C74_unique _ _ _ hcut
  -- the namespaces and settings of the groups
  obtain ⟨ys, hys⟩ := forall_exists
    (fun (g : Key × List (Assignment (Val ℝ))) (y : Cli.Namespace (Val ℝ) × Settings ℝ) =>
      parseSolver c g.1 (g.2.flatMap Assignment.words) = .ok y.1 ∧
      construct g.1 (withHistory history y.1) = .ok y.2 ∧ Effective g.1 y.1 history y.2 ∧
      ∀ vs, g.2.mapM Assignment.value = .ok vs →
        ∀ d v w, y.1.lookup d = some v → ((options c g.1).map fun o => (o.dest, o.default)).lookup d = some w →
          v = meant d g.2 vs w) groups (by
      intro g hg
      obtain ⟨vs, hvs⟩ := hc g hg
      obtain ⟨ns, h1, -, h3⟩ := (C117_written (options c g.1) (C117_options c g.1).1 g.2 (hv g hg)).2 vs hvs
      obtain ⟨s, h4, h5⟩ := C117_constructed c g.1 _ ns h1 history
      refine ⟨(ns, s), h1, h4, h5, fun vs' hvs' => ?_⟩
      rw [hvs] at hvs'
      simp only [Except.ok.injEq] at hvs'
      subst hvs'
      intro d v w hd hw
      rw [h3, hw] at hd
      unfold meant
      cases hl : lastValue d ((g.2.map fun a => a.opt.dest).zip vs) with
      | none => rw [hl] at hd; simpa using hd.symm
      | some z => rw [hl] at hd; simpa using hd.symm)
  have ha : action (parsers c keys) words = .namespaces ((groups.zip ys).map fun z => (z.1.1, z.2.1)) := by
    unfold action
    rw [parsers_keys, ← hsplit]
    have : (groups.map fun g => prog g.1 :: g.2.flatMap Assignment.words).mapM (solverNamespace (parsers c keys)) =
        .ok ((groups.zip ys).map fun z => (z.1.1, z.2.1)) := by
      apply forall_mapM
      clear hsplit hcut hc hv
      induction hys with
      | nil => exact .nil
      | @cons g y gs ys h1 _ ih =>
        refine .cons ?_ (ih fun g hg => hk g (List.mem_cons_of_mem _ hg))
        rw [solverNamespace]
        simp only [parsers_lookup c keys hn g.1 (hk g List.mem_cons_self), h1.1, Except.map]
    rw [this]
  refine ⟨(groups.zip ys).map fun z => (z.1.1, z.2.2), ?_, ?_⟩
  · unfold solvers
    simp only [ha]
    have : ((groups.zip ys).map fun z => (z.1.1, z.2.1)).mapM
        (fun x => (construct x.1 (withHistory history x.2)).map fun s => (x.1, s)) =
        .ok ((groups.zip ys).map fun z => (z.1.1, z.2.2)) := by
      apply forall_mapM
      clear hsplit hcut hc hv hk ha
      induction hys with
      | nil => exact .nil
      | @cons g y gs ys h1 _ ih =>
        refine .cons ?_ ih
        rw [h1.2.1]
        rfl
    rw [this]
  · clear hsplit hcut hc hv hk ha
    induction hys with
    | nil => exact .nil
    | cons h1 _ ih => exact .cons ⟨rfl, _, h1.2.2.1, h1.2.2.2⟩ ih

theorem forall_left {α β : Type*} (Q : α → Prop) (R : α → β → Prop) (l : List α) (l' : List β) (h : ∀ a ∈ l, Q a)
    (hf : List.Forall₂ R l l') : List.Forall₂ (fun a b => Q a ∧ R a b) l l' := by
  induction hf with
  | nil => exact .nil
  | cons h1 _ ih => exact .cons ⟨h _ List.mem_cons_self, h1⟩ (ih fun a ha => h a (List.mem_cons_of_mem _ ha))

/-- C122.  A command line for linear advection that is accepted: the benchmark is the one named (or the default) with
the end time meant, and every solver in it has a positive number of cells, a CFL number that is positive, infinite or
`nan`, and one of the three integrators, which is Heun's method for the solvers without such an option. -/
theorem C122_accepted (c : Conversions ℝ) (eoc : Bool) (name : Option String) (endTime : Option ℝ) (history : Bool)
    (words : List String) (b : Benchmark ℝ) (l : List (Key × Settings ℝ))
    (h : commandLine c .advection eoc name endTime history words = .ok (b, l)) :
    (∃ a, (name.getD (if eoc then "cos" else "two-hills"), a) ∈ named ∧
      b = .closed a.domain (.single "periodic") (meantEndTime endTime) a.initial) ∧
    ∀ k s, (k, s) ∈ l → k ∈ scalarKeys ∧ (∃ m : ℤ, 0 < m ∧ s.meshSize = .int m) ∧
      (∃ x : PyFloat ℝ, (x = .nan ∨ x = .posInf ∨ ∃ y, 0 < y ∧ x = .fin y) ∧ s.cfl = .num x) ∧
      s.history = .bool history ∧
      (k ≠ .cg → ∃ o : OdeSolver, s.integrator = .given (.ode o) ∧ (k = .llf ∨ k = .central → o = .heun)) := by
  unfold commandLine at h
  have hdef : defaultBenchmark .advection eoc = if eoc then "cos" else "two-hills" := by cases eoc <;> rfl
  rw [hdef] at h
  cases hb : parseBenchmark (table .advection) (name.getD (if eoc then "cos" else "two-hills")) with
  | usage => rw [hb] at h; cases h
  | raised e => rw [hb] at h; cases h
  | value b0 =>
    rw [hb] at h
    simp only at h
    obtain ⟨a, ha, rfl⟩ := advection_parse _ _ hb
    cases hm : solvers c scalarKeys history words with
    | error e => rw [hm] at h; cases h
    | ok l' =>
      rw [hm] at h
      simp only [Except.ok.injEq, Prod.mk.injEq] at h
      obtain ⟨h1, rfl⟩ := h
      refine ⟨⟨a, ha, by rw [← h1, adjust_closed]⟩, fun k s hks => ?_⟩
      obtain ⟨hk, args, ns, hp, -, heff⟩ := solvers_accepted c scalarKeys history words l' hm k s hks
      obtain ⟨-, hv⟩ := C117_values c k args ns hp
      obtain ⟨m, hm0, hm1⟩ := (hv _ _ heff.mesh).2.2.1 rfl
      obtain ⟨y, hy0, hy1⟩ := (hv _ _ heff.cfl).2.2.2.1 rfl
      refine ⟨hk, ⟨m, hm0, hm1⟩, ⟨y, hy0, hy1⟩, heff.history, fun hcg => ?_⟩
      by_cases ho : "ode_solver_type" ∈ optionNames k
      · obtain ⟨v, hv1, hv2⟩ := heff.ode ho
        obtain ⟨o, rfl⟩ := (hv _ _ hv1).2.2.2.2.2.2.1 rfl
        refine ⟨o, hv2, ?_⟩
        rintro (rfl | rfl) <;> simp [optionNames] at ho
      · have := heff.no_ode ho
        simp only [scalarKeys, List.mem_cons, List.not_mem_nil, or_false] at hk
        rcases hk with rfl | rfl | rfl | rfl | rfl | rfl
        · exact absurd rfl hcg
        all_goals first
          | exact ⟨.heun, this, fun _ => rfl⟩
          | exact absurd (by simp [optionNames]) ho

theorem default_mesh (c : Conversions ℝ) (k : Key) (hk : k ∈ scalarKeys) :
    ((options c k).map fun o => (o.dest, o.default)).lookup "mesh_size" = some (.int 400) ∧
    ((options c k).map fun o => (o.dest, o.default)).lookup "cfl_number" =
      some (.num (.fin (if k = .cgLow ∨ k = .mclFem then 1 else 1 / 10))) ∧
    ("ode_solver_type" ∈ optionNames k →
      ((options c k).map fun o => (o.dest, o.default)).lookup "ode_solver_type" = some (.ode .heun)) := by
  simp only [scalarKeys, List.mem_cons, List.not_mem_nil, or_false] at hk
  rcases hk with rfl | rfl | rfl | rfl | rfl | rfl <;>
    simp [options, ownOptions, nameOption, shortOption, meshOption, cflOption, adaptiveOption, odeOption,
      exactFluxOption, List.lookup, meshDefault, cflDefault, optionNames]

/-- C122.  A command line written as a sequence of groups, each the name of a solver and options of this solver, with
arguments that can be converted, cut at the names of solvers as it is meant: it is accepted, and each solver is
constructed with the number of cells, the CFL number and the integrator written last in its own group, or the
defaults. -/
theorem C122_words (c : Conversions ℝ) (p : Problem) (eoc : Bool) (name : Option String)
    (hname : name.getD (defaultBenchmark p eoc) ∈ (table p).map Prod.fst) (endTime : Option ℝ) (history : Bool)
    (groups : List (Key × List (Assignment (Val ℝ)))) (hk : ∀ g ∈ groups, g.1 ∈ scalarKeys)
    (hv : ∀ g ∈ groups, ∀ a ∈ g.2, a.Valid (options c g.1))
    (hc : ∀ g ∈ groups, ∃ vs, g.2.mapM Assignment.value = .ok vs) (words : List String)
    (hcut : CutInto ["cg", "cg-low", "mcl-fem", "llf", "central", "mcl-fv"] words
      (groups.map fun g => prog g.1 :: g.2.flatMap Assignment.words)) :
    ∃ b l, commandLine c p eoc name endTime history words = .ok (b, l) ∧
      List.Forall₂ (fun g e => e.1 = g.1 ∧ ∀ vs, g.2.mapM Assignment.value = .ok vs →
        e.2.meshSize = meant "mesh_size" g.2 vs (.int 400) ∧
        e.2.cfl = meant "cfl_number" g.2 vs
          (.num (.fin (if g.1 = .cgLow ∨ g.1 = .mclFem then 1 else 1 / 10))) ∧
        ("ode_solver_type" ∈ optionNames g.1 →
          e.2.integrator = .given (meant "ode_solver_type" g.2 vs (.ode .heun)))) groups l := by
  obtain ⟨b, hb, -⟩ := (C102_scalar (table p) (by cases p <;> simp [table]) _).1 hname
  obtain ⟨l, hl, hf⟩ := solvers_words c scalarKeys (by simp [scalarKeys, prog]) history groups hk hv hc words
    (by simpa [scalarKeys, prog] using hcut)
  refine ⟨adjustEndTime endTime b, l, by unfold commandLine; rw [hb]; simp only [hl], ?_⟩
  have hf2 : List.Forall₂ (fun (g : Key × List (Assignment (Val ℝ))) (e : Key × Settings ℝ) => g.1 ∈ scalarKeys ∧ e.1 = g.1 ∧
      ∃ ns, Effective g.1 ns history e.2 ∧ ∀ vs, g.2.mapM Assignment.value = .ok vs →
        ∀ d v w, ns.lookup d = some v → ((options c g.1).map fun o => (o.dest, o.default)).lookup d = some w →
          v = meant d g.2 vs w) groups l := forall_left _ _ _ _ hk hf
  refine hf2.imp fun g e he => ?_
  obtain ⟨hg, e1, ns, h5, key⟩ := he
  obtain ⟨d1, d2, d3⟩ := default_mesh c g.1 hg
  refine ⟨e1, fun vs hvs => ⟨key vs hvs _ _ _ h5.mesh d1, key vs hvs _ _ _ h5.cfl d2, fun ho => ?_⟩⟩
  obtain ⟨v, e1, e2⟩ := h5.ode ho
  rw [e2, key vs hvs _ _ _ e1 (d3 ho)]

/-! ### What is computed -/

/-- CFL numbers for which the schemes keep the range of the data. -/
def Limit (k : Key) (y : ℝ) : Prop := (k = .llf → y ≤ 1) ∧ (k = .mclFv → 2 * y ≤ 1)

/-- What a finite volume solver computes for the benchmark `a` up to the time `T` with CFL number `y`: the run is
neither interrupted nor ended by an exception, it ends, and at the end time; except for the central scheme all values
of the history are between -1 and 1, for data that are not negative between 0 and 1; except for the limited scheme all
have the same total; the energy of the central scheme never decreases; the errors of the Lax-Friedrichs scheme are of
order one (cosine) and one half. -/
structure Computes (k : Key) (a : Advection) (points : List (ℝ × ℝ)) (y T : ℝ) (j : Job) : Prop where
  mesh : uniformMesh ⟨0, 1⟩ j.n = .ok j.mesh
  start : (j.run 0).1.sol.values = [fun i : Fin j.n => (cellAverages points j.mesh a.initial).getD i 0]
  ends : ∀ i : ℕ, T ≤ i * (y / j.n) → (j.run (i + 1)).2 = .finished
  status : ∀ i, (j.run i).2 = .running ∨ (j.run i).2 = .finished
  time : ∀ i, (j.run i).2 = .finished → T - 1 / 10 ^ 12 < (j.run i).1.sol.sol.time ∧ (j.run i).1.sol.sol.time ≤ T
  range : k ≠ .central → ∀ i, ∀ v ∈ (j.run i).1.sol.values, ∀ c, -1 ≤ v c ∧ v c ≤ 1 ∧ (a ≠ .cosine → 0 ≤ v c)
  total : k ≠ .mclFv → ∀ i, ∀ v ∈ (j.run i).1.sol.values,
    (List.ofFn v).sum = (List.ofFn fun i : Fin j.n => (cellAverages points j.mesh a.initial).getD i 0).sum
  energy : k = .central → ∀ (i p q : ℕ) v w, p ≤ q → (j.run i).1.sol.values[p]? = some v →
    (j.run i).1.sol.values[q]? = some w → ∑ c, v c ^ 2 ≤ ∑ c, w c ^ 2
  errors : k = .llf → ∀ quad, AveragingRule quad → ∀ i, (j.run i).2 = .finished →
    ∃ e1 e2 e3, errorRow quad j.mesh (fun x => a.exact x T) (List.ofFn (j.run i).1.sol.sol.value) = .ok [e1, e2, e3] ∧
      (a = .cosine → ∀ e ∈ [e1, e2, e3], e ≤ (4 * Real.pi + 2 * Real.pi ^ 2 * T) / j.n) ∧
      (a = .gaussianBell → ∀ e ∈ [e1, e2, e3], e ≤ 10 * (2 / j.n + Real.sqrt (T / j.n))) ∧
      ∀ m : ℕ, hills a = some m → e1 ≤ 2 * m * (3 / j.n + Real.sqrt (T / j.n))

theorem job_eq (a : Advection) (points : List (ℝ × ℝ)) (T : ℝ) (k : Key) (s : Settings ℝ) (m : ℕ) (hm : 0 < m)
    (x : PyFloat ℝ) (o : OdeSolver) (hs : s.meshSize = .int m) (hx : s.cfl = .num x)
    (ho : s.integrator = .given (.ode o)) (F : NumFlux ℝ)
    (hF : flux .advection (.closed a.domain (.single "periodic") T a.initial) m k = .ok F) (hdim : F.dim = 2) :
    ∃ mesh bc, uniformMesh a.domain m = .ok mesh ∧ build (K := ℝ) (V := ℝ) none ["periodic"] 1 none none = .ok bc ∧
      job .advection points (.closed a.domain (.single "periodic") T a.initial) k s =
        (cflNumber (1 / m) T x).map fun cfl =>
          ⟨m, mesh, fvParams m (tableau o) (rhs F (1 / m) bc) (1 / m) cfl 0 T,
            ⟨fun i => (cellAverages points mesh a.initial).getD i 0, 0, T⟩⟩ := by
  have hd : a.domain.a < a.domain.b := by norm_num [Advection.domain]
  have hstep : (a.domain.b - a.domain.a) / (m : ℝ) = 1 / m := by norm_num [Advection.domain]
  have hmesh := uniformMesh_eq a.domain hd hm
  rw [hstep] at hmesh
  refine ⟨_, _, hmesh, build_periodic none 1 none none, ?_⟩
  unfold job
  rw [hs, hx, ho]
  have h1 : (Benchmark.closed a.domain (.single "periodic") T a.initial).domain = a.domain := rfl
  have h2 : (Benchmark.closed a.domain (.single "periodic") T a.initial).boundary.conditions = ["periodic"] := rfl
  have h3 : (Benchmark.closed a.domain (.single "periodic") T a.initial).inflowLeft = none := rfl
  have h4 : (Benchmark.closed a.domain (.single "periodic") T a.initial).inflowRight = none := rfl
  have h5 : (Benchmark.closed a.domain (.single "periodic") T a.initial).endTime = T := rfl
  have h6 : initialData (Benchmark.closed a.domain (.single "periodic") T a.initial) = a.initial := rfl
  simp only [Int.toNat_natCast, h1, hmesh, hF, h2, h3, h4, h5, h6, hdim, build_periodic, bind, Except.bind]
  cases cflNumber (1 / (m : ℝ)) T x <;> rfl

/-- The upwind differences are a linear map. -/
noncomputable def upwindMap (n : ℕ) (dx : ℝ) : (Fin n → ℝ) →ₗ[ℝ] (Fin n → ℝ) where
  toFun := upwind dx
  map_add' u v := by
    funext i
    simp only [upwind, Pi.add_apply]
    have : around (u + v) ((i : ℤ) - 1) = around u ((i : ℤ) - 1) + around v ((i : ℤ) - 1) := by
      unfold around; split <;> simp
    rw [this]; ring
  map_smul' c u := by
    funext i
    simp only [upwind, Pi.smul_apply, smul_eq_mul, RingHom.id_apply]
    have : around (c • u) ((i : ℤ) - 1) = c * around u ((i : ℤ) - 1) := by
      unfold around; split <;> simp
    rw [this]; ring

theorem tableau_cases (o : OdeSolver) :
    tableau o = forwardEuler ℝ ∨ tableau o = heun ℝ ∨ tableau o = ssp3 ℝ := by
  cases o <;> simp [tableau]

theorem make_values (n : ℕ) (P : Params ℝ (Fin n → ℝ)) (b : Bench ℝ (Fin n → ℝ)) :
    (solve P (Obj.make P b) 0).1.sol.values = [b.initial] := rfl

/-- The least value of the initial data. -/
def lower : Advection → ℝ
  | .cosine => -1
  | _ => 0

theorem lower_cosine (a : Advection) : (a = .cosine ∧ lower a = -1) ∨ (a ≠ .cosine ∧ lower a = 0) := by
  cases a <;> simp [lower]

/-- The initial values are between the bounds of the initial data. -/
theorem average_range (a : Advection) (points : List (ℝ × ℝ)) (hp : AveragingRule points) (m : ℕ) (hm : 0 < m)
    (mesh : UMesh ℝ) (hmesh : uniformMesh a.domain m = .ok mesh) (i : Fin m) :
    lower a ≤ (cellAverages points mesh a.initial).getD i 0 ∧
      (cellAverages points mesh a.initial).getD i 0 ≤ 1 := by
  obtain ⟨hcells, hlt, -⟩ := uniform_cells (by norm_num [Advection.domain]) hm hmesh
  refine (C58_basic points mesh hlt hp.sum hp.pos hp.inside a.initial).2.2.1 i (by rw [hcells]; exact i.2) _ 1 ?_
  intro x _ _
  obtain ⟨h1, h2, h3⟩ := C72_advection_range a x
  rcases lower_cosine a with ⟨-, e⟩ | ⟨h, e⟩ <;> rw [e]
  · exact ⟨h1, h2⟩
  · exact ⟨h3 h, h2⟩

/-- A single step over the whole duration. -/
theorem single_step (n : ℕ) (tab : Tableau ℝ) (f : ℝ → List ℝ → Except Error (List ℝ))
    (A : (Fin n → ℝ) →ₗ[ℝ] (Fin n → ℝ)) (hf : ∀ (t : ℝ) u, vecRhs n f t u = .ok (A u)) (dx T : ℝ) (hdx : 0 < dx)
    (hT : 1 / 10 ^ 12 ≤ T) (u : Fin n → ℝ) :
    let P := fvParams n tab f dx (T / dx) 0 T
    (solve P (Obj.make P ⟨u, 0, T⟩) 2).2 = .finished ∧ (solve P (Obj.make P ⟨u, 0, T⟩) 2).1.sol.values.length = 2 ∧
      (solve P (Obj.make P ⟨u, 0, T⟩) 2).1.sol.sol.time = T := by
  intro P
  have e : dx * (T / dx) = T := by field_simp
  obtain ⟨r1, r2, r3⟩ := FE.linear_run tab f A hf dx (T / dx) 0 T (by rw [e]; exact hT) (by simpa using hT) u
  have hfin := r1 1 (by rw [e]; simp)
  have hnr : ∀ x, (solve P (Obj.make P ⟨u, 0, T⟩) 2).2 ≠ .raised x := by
    intro x hx; rw [hfin] at hx; cases hx
  obtain ⟨steps, -, -, g3, g4, ⟨tl, vl, -, g5, -, g6, -⟩, -, g7, -⟩ := C94_solve P (Obj.make P ⟨u, 0, T⟩) (make_sync _ _) 2 hnr
  obtain ⟨-, hne⟩ := g7 hfin
  have hlen : 0 < steps.length := List.length_pos_iff.2 hne
  have h0 : steps[0] = T := by
    obtain ⟨S, -, h, -⟩ := g4 0 hlen
    have e0 : (if P.adaptive then P.optimal S.time S.solution else (Obj.make P ⟨u, 0, T⟩).first) * P.cfl = T := e
    rw [h, e0]
    change min T (T - (0 + (steps.take 0).sum)) = T
    simp
  have hone : steps.length = 1 := by
    by_contra hc
    obtain ⟨S, -, h, h'⟩ := g4 1 (by omega)
    have e1 : (steps.take 1).sum = T := by
      rw [List.take_one, List.head?_eq_getElem?, List.getElem?_eq_getElem hlen, h0]; simp
    have e2 : P.endTime - (P.startTime + (steps.take 1).sum) = 0 := by
      rw [e1]; change T - (0 + T) = 0; ring
    rw [e2] at h
    have := min_le_right ((if P.adaptive then P.optimal S.time S.solution else (Obj.make P ⟨u, 0, T⟩).first) * P.cfl) 0
    rw [← h] at this
    have : (0 : ℝ) < 1 / 10 ^ 12 := by positivity
    linarith
  obtain ⟨d, hd⟩ := List.length_eq_one_iff.1 hone
  refine ⟨hfin, ?_, ?_⟩
  · rw [g5, List.length_append, g6, hone]; rfl
  · rw [g3, hd]
    subst hd
    simp only [List.getElem_cons_zero] at h0
    rw [h0]
    change 0 + [T].sum = T
    simp

/-- C122.  The solvers of an accepted command line for linear advection with finite volumes: with `nan` as CFL number
`solve` raises `ValueError`; with a finite one it computes what it is meant to; with an infinite one the run of the
Lax-Friedrichs and of the central scheme ends after one step, exactly at the end time. -/
theorem C122_run (c : Conversions ℝ) (eoc : Bool) (name : Option String) (endTime : Option ℝ) (history : Bool)
    (words : List String) (b : Benchmark ℝ) (l : List (Key × Settings ℝ))
    (h : commandLine c .advection eoc name endTime history words = .ok (b, l)) (points : List (ℝ × ℝ))
    (hp : AveragingRule points) (k : Key) (s : Settings ℝ) (hks : (k, s) ∈ l) (hk : k ∈ [Key.llf, .central, .mclFv]) :
    ∃ (a : Advection) (m : ℕ) (x : PyFloat ℝ),
      (name.getD (if eoc then "cos" else "two-hills"), a) ∈ named ∧ 0 < m ∧ s.meshSize = .int m ∧ s.cfl = .num x ∧
      (x = .nan → job .advection points b k s = .error .valueError) ∧
      (∀ y, x = .fin y → ∃ j, job .advection points b k s = .ok j ∧ j.n = m ∧
        (Limit k y → 1 / 10 ^ 12 ≤ y / m → 1 / 10 ^ 12 ≤ meantEndTime endTime →
          Computes k a points y (meantEndTime endTime) j)) ∧
      (x = .posInf → ∃ j, job .advection points b k s = .ok j ∧ j.n = m ∧
        (k ≠ .mclFv → 1 / 10 ^ 12 ≤ meantEndTime endTime → (j.run 2).2 = .finished ∧
          (j.run 2).1.sol.values.length = 2 ∧ (j.run 2).1.sol.sol.time = meantEndTime endTime)) := by
  obtain ⟨⟨a, ha, rfl⟩, hl⟩ := C122_accepted c eoc name endTime history words b l h
  obtain ⟨-, ⟨z, hz, hs⟩, ⟨x, -, hx⟩, -, ho⟩ := hl k s hks
  obtain ⟨m, rfl⟩ : ∃ m : ℕ, z = m := ⟨z.toNat, by omega⟩
  have hm : 0 < m := by exact_mod_cast hz
  have hm0 : (0 : ℝ) < m := by exact_mod_cast hm
  have hdx : (0 : ℝ) < 1 / m := by positivity
  obtain ⟨o, ho, hheun⟩ := ho (by rintro rfl; simp at hk)
  set T := meantEndTime endTime with hTdef
  refine ⟨a, m, x, ha, hm, hs, hx, ?_⟩
  have hF : ∃ F, flux .advection (.closed a.domain (.single "periodic") T a.initial) m k = .ok F ∧ F.dim = 2 ∧
      (k = .llf → F = laxFriedrichs Problem.advection.riemann) ∧
      (k = .central → F = central ℝ Problem.advection.riemann.flux) ∧
      (k = .mclFv → mclOf .advection m true = .ok F) := by
    simp only [List.mem_cons, List.not_mem_nil, or_false] at hk
    rcases hk with rfl | rfl | rfl
    · exact ⟨_, rfl, rfl, fun _ => rfl, by simp, by simp⟩
    · exact ⟨_, rfl, rfl, by simp, fun _ => rfl, by simp⟩
    · obtain ⟨nb, hnb⟩ := neighbourArray_ok (m + 2) (by omega) true
      have : mclOf (K := ℝ) .advection m true = .ok (mcl Problem.advection.riemann
          (fun l r => zipE (centralNode ℝ Problem.advection.riemann.flux) l r) nb) := by unfold mclOf; rw [hnb]
      exact ⟨_, this, rfl, by simp, by simp, fun _ => this⟩
  obtain ⟨F, hF, hdim, F1, F2, F3⟩ := hF
  obtain ⟨mesh, bc, hmesh, hbc, hjob⟩ := job_eq a points T k s m hm x o hs hx ho F hF hdim
  rw [hjob]
  set u : Fin m → ℝ := fun i => (cellAverages points mesh a.initial).getD i 0 with hu
  have hrange := average_range a points hp m hm mesh hmesh
  refine ⟨fun hnan => by rw [hnan]; rfl, ?_, ?_⟩
  · rintro y rfl
    refine ⟨_, rfl, rfl, ?_⟩
    intro hlim hy hT
    have hstep : 1 / 10 ^ 12 ≤ 1 / (m : ℝ) * y := by rw [one_div_mul_eq_div]; exact hy
    have hdur : 1 / 10 ^ 12 ≤ T - 0 := by simpa using hT
    have hym : ∀ i : ℕ, T ≤ i * (y / m) → T - 0 ≤ i * (1 / (m : ℝ) * y) := by
      intro i hi; rw [one_div_mul_eq_div]; simpa using hi
    have hr : ∀ v : Fin m → ℝ, (∀ c, lower a ≤ v c ∧ v c ≤ 1) → ∀ c,
        -1 ≤ v c ∧ v c ≤ 1 ∧ (a ≠ .cosine → 0 ≤ v c) := by
      intro v hv c
      obtain ⟨h1, h2⟩ := hv c
      rcases lower_cosine a with ⟨h, e⟩ | ⟨h, e⟩ <;> rw [e] at h1
      · exact ⟨h1, h2, fun h' => absurd h h'⟩
      · exact ⟨by linarith, h2, fun _ => h1⟩
    simp only [List.mem_cons, List.not_mem_nil, or_false] at hk
    rcases hk with rfl | rfl | rfl
    · obtain rfl := F1 rfl
      obtain ⟨q1, q2, q3, q4, -⟩ := C95_lax_friedrichs (K := ℝ) .advection m hm none none bc "periodic" (Or.inl rfl) hbc
        (tableau o) (tableau_cases o) (1 / m) y 0 T hdx hstep hdur _ 1 (fun _ => hlim.1 rfl) (by simp) u hrange
      exact
        { mesh := hmesh
          start := rfl
          ends := fun i hi => q1 i (hym i hi)
          status := q2
          time := q3
          range := fun _ i v hv => hr v (q4 i v hv).1
          total := fun _ i v hv => (q4 i v hv).2 rfl
          energy := by simp
          errors := fun _ quad hq i hi =>
            C103_errors a points quad hp hq hm bc hbc (tableau o) (tableau_cases o) y T (hlim.1 rfl) hstep hT
              (mesh, _) ⟨hmesh, i, hi, rfl⟩ }
    · obtain rfl := F2 rfl
      obtain rfl := hheun (Or.inr rfl)
      obtain ⟨q1, q2, q3, q4⟩ := FE.C120_solve hm none none none bc hbc (1 / m) hdx FE.WaveGrowth.heun y 0 T hstep hdur u
      exact
        { mesh := hmesh
          start := rfl
          ends := fun i hi => q1 i (hym i hi)
          status := q2
          time := q3
          range := by simp
          total := by
            intro _ i v hv
            obtain ⟨steps, -, g1, -, g3⟩ := recorded _ ⟨u, 0, T⟩ i fun e he => by
              rcases q2 i with hq | hq <;> rw [hq] at he <;> cases he
            obtain ⟨q, hq, rfl⟩ := List.getElem_of_mem hv
            obtain ⟨S, e1, e2, -⟩ := g3 q (Nat.lt_succ_iff.1 (lt_of_lt_of_eq hq g1))
            have hval : _ = S.solution := Option.some.inj ((List.getElem?_eq_getElem hq).symm.trans e2)
            rw [hval]
            exact C24_two_point_schemes _ (1 / (m : ℝ)) none none none bc hbc m (tableau .heun) _ S _ e1
          energy := fun _ i p q v w hpq hv hw => (q4 i p q v w hpq hv hw).1 (by
            intro hc
            have := congrArg (fun T : Tableau ℝ => T.size) hc
            simp [tableau, heun, ssp3] at this)
          errors := by simp }
    · obtain ⟨F', hF', q1, q2, q3, q4⟩ := C95_mcl (K := ℝ) .advection m hm true none none bc "periodic" (Or.inl rfl) hbc
        (tableau o) (tableau_cases o) (1 / m) y 0 T hdx hstep hdur _ 1 (fun _ => hlim.2 rfl) (by simp) u hrange
      obtain rfl : F' = F := Except.ok.inj (hF'.symm.trans (F3 rfl))
      exact
        { mesh := hmesh
          start := rfl
          ends := fun i hi => q1 i (hym i hi)
          status := q2
          time := q3
          range := fun _ i v hv => hr v (q4 i v hv)
          total := by simp
          energy := by simp
          errors := by simp }
  · rintro rfl
    refine ⟨_, rfl, rfl, ?_⟩
    intro hnk hT
    simp only [List.mem_cons, List.not_mem_nil, or_false] at hk
    rcases hk with rfl | rfl | rfl
    · obtain rfl := F1 rfl
      exact single_step m _ _ (upwindMap m (1 / m)) (rhs_upwind hm none none none bc hbc (1 / m) hdx.ne') _ T hdx hT u
    · obtain rfl := F2 rfl
      exact single_step m _ _ (FE.centralOp (1 / (m : ℝ))) (FE.rhs_central hm none none none bc hbc (1 / m) hdx.ne') _ T
        hdx hT u
    · exact absurd rfl hnk

/-! ### An example -/

/-- Conversions of two strings. -/
noncomputable def exampleConversions : Conversions ℝ where
  float s := if s = "0.5" then some (.fin (1 / 2)) else none
  int s := if s = "100" then some 100 else none

theorem example_cfl : ([⟨cflOption exampleConversions .llf, "++cfl", "0.5", .separate⟩] :
    List (Assignment (Val ℝ))).mapM Assignment.value = .ok [.num (.fin (1 / 2))] := by
  have : (PyFloat.fin (1 / 2 : ℝ)).le 0 = false := by simp [PyFloat.le]
  simp [Assignment.value, cflOption, positiveFloat, exampleConversions] at this ⊢
  simp [this, Except.map, Functor.map]

theorem example_mesh : ([⟨meshOption exampleConversions .mclFv, "+m", "100", .separate⟩] :
    List (Assignment (Val ℝ))).mapM Assignment.value = .ok [.int 100] := by
  simp [Assignment.value, meshOption, positiveInt, exampleConversions, Except.map, Functor.map]
  rfl

/-- The words `llf ++cfl 0.5 mcl-fv +m 100` for the default benchmark: the Lax-Friedrichs scheme on 400 cells with the CFL
number 1/2, and the limited scheme on 100 cells with the CFL number 1/10, both up to the time 1. -/
example (points : List (ℝ × ℝ)) (hp : AveragingRule points) :
    ∃ b s s', commandLine exampleConversions .advection false none none true
        ["llf", "++cfl", "0.5", "mcl-fv", "+m", "100"] = .ok (b, [(.llf, s), (.mclFv, s')]) ∧
      (∃ j, job .advection points b .llf s = .ok j ∧ j.n = 400 ∧ Computes .llf .twoHills points (1 / 2) 1 j) ∧
      ∃ j, job .advection points b .mclFv s' = .ok j ∧ j.n = 100 ∧ Computes .mclFv .twoHills points (1 / 10) 1 j := by
  obtain ⟨b, l, h, hf⟩ := C122_words exampleConversions .advection false none (by simp [defaultBenchmark, table, advectionTable]) none true
    [(.llf, [⟨cflOption exampleConversions .llf, "++cfl", "0.5", .separate⟩]),
      (.mclFv, [⟨meshOption exampleConversions .mclFv, "+m", "100", .separate⟩])]
    (by simp [scalarKeys])
    (by
      intro g hg a ha
      simp only [List.mem_cons, List.not_mem_nil, or_false] at hg
      rcases hg with rfl | rfl <;> simp only [List.mem_cons, List.not_mem_nil, or_false] at ha <;> subst ha
      · exact ⟨by simp [options], by simp [cflOption], by simp, by simp⟩
      · exact ⟨by simp [options], by simp [meshOption], by simp, by simp⟩)
    (by
      intro g hg
      simp only [List.mem_cons, List.not_mem_nil, or_false] at hg
      rcases hg with rfl | rfl
      · exact ⟨_, example_cfl⟩
      · exact ⟨_, example_mesh⟩)
    ["llf", "++cfl", "0.5", "mcl-fv", "+m", "100"]
    { join := by simp [Assignment.words, cflOption, meshOption, prog]
      nonempty := by simp
      inside := by
        simp [Assignment.words, cflOption, meshOption, prog, Cut]
      between := by
        simp [Assignment.words, cflOption, meshOption, prog, Cut] }
  cases hf with
  | @cons _ e1 _ l1 h1 hf =>
  cases hf with
  | @cons _ e2 _ l2 h2 hf =>
  cases hf
  obtain ⟨k1, s1⟩ := e1
  obtain ⟨k2, s2⟩ := e2
  obtain ⟨rfl, h1⟩ := h1
  obtain ⟨rfl, h2⟩ := h2
  obtain ⟨m1, c1, -⟩ := h1 _ example_cfl
  obtain ⟨m2, c2, -⟩ := h2 _ example_mesh
  simp [meant, lastValue, cflOption, List.lookup] at m1 c1
  simp [meant, lastValue, meshOption, List.lookup] at m2 c2
  refine ⟨b, s1, s2, h, ?_, ?_⟩
  · obtain ⟨a, m, x, r1, -, r3, r4, -, r5, -⟩ := C122_run _ _ _ _ _ _ _ _ h points hp .llf s1 (by simp) (by simp)
    obtain rfl : a = .twoHills := by simpa [named] using r1
    obtain rfl : m = 400 := by rw [m1] at r3; simp at r3; omega
    rw [c1] at r4
    obtain ⟨j, g1, g2, g3⟩ := r5 (1 / 2) (by simpa using (Val.num.inj r4).symm)
    exact ⟨j, g1, g2, g3 ⟨fun _ => by norm_num, by simp⟩ (by norm_num) (by norm_num [meantEndTime])⟩
  · obtain ⟨a, m, x, r1, -, r3, r4, -, r5, -⟩ := C122_run _ _ _ _ _ _ _ _ h points hp .mclFv s2 (by simp) (by simp)
    obtain rfl : a = .twoHills := by simpa [named] using r1
    obtain rfl : m = 100 := by rw [m2] at r3; simp at r3; omega
    rw [c2] at r4
    obtain ⟨j, g1, g2, g3⟩ := r5 (1 / 10) (by simpa using (Val.num.inj r4).symm)
    exact ⟨j, g1, g2, g3 ⟨by simp, fun _ => by norm_num⟩ (by norm_num) (by norm_num [meantEndTime])⟩

end Verif.Calculate
