import Verif.Props.ScriptCases
import Verif.Props.PyNumberCommands

/-!
C138: what `--args` and `--profile` show, and that they change nothing else.
-/

set_option linter.unusedSectionVars false

namespace Verif.Script

open Verif.Py Verif.Cli

variable {α β : Type}

/-! ### What is shown -/

/-- The object at the end of a path of attributes. -/
def follow : List String → List (String × Obj) → Option Obj
  | [], _ => none
  | [k], es => es.lookup k
  | k :: ks, es =>
    match es.lookup k with
    | some (.described es') => follow ks es'
    | _ => none

/-- What is shown at the end of a path of keys. -/
def followShown : List String → List (String × Shown) → Option Shown
  | [], _ => none
  | [k], es => es.lookup k
  | k :: ks, es =>
    match es.lookup k with
    | some (.dict es') => followShown ks es'
    | _ => none

/-- An object is shown in full: a description as dictionary with the same keys, a list item by item, everything else as
it is.  Items of a list which are lists themselves are not looked into. -/
def ShownAs : Obj → Shown → Prop
  | .plain t, s => s = .same (.plain t)
  | .described es, s => ∃ d, s = .dict d ∧ d.map Prod.fst = es.map Prod.fst
  | .list l, s => ∃ items, s = .seq items ∧ items.length = l.length ∧ ∀ i : ℕ,
      (∀ t, l[i]? = some (.plain t) → items[i]? = some (.same (.plain t))) ∧
      (∀ l', l[i]? = some (.list l') → items[i]? = some (.same (.list l'))) ∧
      ∀ es, l[i]? = some (.described es) → ∃ d, items[i]? = some (.dict d) ∧ d.map Prod.fst = es.map Prod.fst

theorem deep_keys (es : List (String × Obj)) : (deepDict es).map Prod.fst = es.map Prod.fst := by
  induction es with
  | nil => rw [deepDict]; rfl
  | cons e es ih =>
    obtain ⟨k, v⟩ := e
    cases v <;> rw [deepDict, List.map_cons, List.map_cons, ih]

/-- What becomes of one object. -/
def one : Obj → Shown
  | .described entries => .dict (deepDict entries)
  | .list items => .seq (deepList items)
  | .plain text => .same (.plain text)

theorem deep_cons (k : String) (v : Obj) (es : List (String × Obj)) : deepDict ((k, v) :: es) = (k, one v) :: deepDict es := by
  cases v <;> rw [deepDict] <;> rfl

theorem deep_lookup (es : List (String × Obj)) (k : String) : (deepDict es).lookup k = (es.lookup k).map one := by
  induction es with
  | nil => rw [deepDict]; rfl
  | cons e es ih =>
    obtain ⟨k', v⟩ := e
    rw [deep_cons, List.lookup_cons, List.lookup_cons]
    cases k == k' <;> simp [ih]

/-- What becomes of an item of a list. -/
def item : Obj → Shown
  | .described entries => .dict (deepDict entries)
  | o => .same o

theorem deepList_eq (l : List Obj) : deepList l = l.map item := by
  induction l with
  | nil => rw [deepList]; rfl
  | cons x l ih => cases x <;> rw [deepList, List.map_cons, ih] <;> rfl

theorem shown_one (o : Obj) : ShownAs o (one o) := by
  cases o with
  | plain t => exact rfl
  | described es => exact ⟨_, rfl, deep_keys es⟩
  | list l =>
    refine ⟨_, rfl, ?_, fun i => ⟨?_, ?_, ?_⟩⟩
    · rw [deepList_eq, List.length_map]
    · intro t h; rw [deepList_eq, List.getElem?_map, h]; rfl
    · intro t h; rw [deepList_eq, List.getElem?_map, h]; rfl
    · intro es h; exact ⟨_, by rw [deepList_eq, List.getElem?_map, h]; rfl, deep_keys es⟩

theorem follow_shown (ks : List String) (es : List (String × Obj)) :
    followShown ks (deepDict es) = (follow ks es).map one := by
  induction ks generalizing es with
  | nil => rfl
  | cons k ks ih =>
    cases ks with
    | nil => exact deep_lookup es k
    | cons k' ks =>
      rw [followShown, follow, deep_lookup]
      · cases h : es.lookup k with
        | none => rfl
        | some o =>
          cases o with
          | plain t => rfl
          | list l => rfl
          | described es' => exact ih es'
      · simp
      · simp

/-- C138.  Everything that can be reached from the arguments by descriptions of objects is shown, at the same place;
nothing else is. -/
theorem C138_paths (es : List (String × Obj)) (ks : List String) :
    (∀ o, follow ks es = some o → ∃ s, followShown ks (deepDict es) = some s ∧ ShownAs o s) ∧
    (follow ks es = none → followShown ks (deepDict es) = none) := by
  rw [follow_shown]
  refine ⟨fun o h => ⟨one o, by rw [h]; rfl, shown_one o⟩, fun h => by rw [h]; rfl⟩

/-- C138.  Also behind the items of a list. -/
theorem C138_items (es es' : List (String × Obj)) (ks ks' : List String) (l : List Obj) (i : ℕ)
    (h : follow ks es = some (.list l)) (hi : l[i]? = some (.described es')) :
    ∃ items d, followShown ks (deepDict es) = some (.seq items) ∧ items[i]? = some (.dict d) ∧
      (∀ o, follow ks' es' = some o → ∃ s, followShown ks' d = some s ∧ ShownAs o s) := by
  refine ⟨deepList l, deepDict es', by rw [follow_shown, h]; rfl, ?_, fun o ho => (C138_paths es' ks').1 o ho⟩
  rw [deepList_eq, List.getElem?_map, hi]
  rfl

/-! ### The whole script -/

theorem lookup_del (ns ns' : Namespace α) (k k' : String) (h : del ns k = .ok ns') (hk : k' ≠ k) :
    ns'.lookup k' = ns.lookup k' := by
  induction ns generalizing ns' with
  | nil => simp [del] at h
  | cons e ns ih =>
    obtain ⟨q, v⟩ := e
    rw [del] at h
    split at h
    · rename_i hq
      cases h
      rw [List.lookup_cons, beq_eq_false_iff_ne.2 (by rw [hq]; exact hk)]
    · cases hd : del ns k with
      | error e => rw [hd] at h; cases h
      | ok r =>
        rw [hd] at h
        cases h
        rw [List.lookup_cons, List.lookup_cons, ih r hd]

theorem del_ok (ns : Namespace α) (k : String) (h : (ns.lookup k).isSome) : ∃ r, del ns k = .ok r := by
  induction ns with
  | nil => simp at h
  | cons e ns ih =>
    obtain ⟨q, v⟩ := e
    by_cases hq : q = k
    · exact ⟨ns, by rw [del, if_pos hq]⟩
    · rw [List.lookup_cons, beq_eq_false_iff_ne.2 (Ne.symm hq)] at h
      obtain ⟨r, hr⟩ := ih h
      exact ⟨_, by rw [del, if_neg hq, hr]⟩

theorem lookup_set (ns : Namespace α) (k k' : String) (v : α) :
    (Cli.set ns k v).lookup k' = if k' = k then some v else ns.lookup k' := by
  induction ns with
  | nil =>
    rw [Cli.set, List.lookup_cons]
    by_cases h : k' = k
    · rw [if_pos h, beq_iff_eq.2 h]
    · rw [if_neg h, beq_eq_false_iff_ne.2 h]
  | cons e ns ih =>
    obtain ⟨q, x⟩ := e
    rw [Cli.set]
    by_cases hq : q = k
    · rw [if_pos hq, List.lookup_cons, List.lookup_cons]
      by_cases h : k' = k
      · rw [if_pos h, beq_iff_eq.2 h]
      · rw [if_neg h, beq_eq_false_iff_ne.2 h, beq_eq_false_iff_ne.2 (by rw [hq]; exact h)]
    · rw [if_neg hq, List.lookup_cons, List.lookup_cons, ih]
      by_cases h : k' = q
      · subst h; simp [hq]
      · rw [beq_eq_false_iff_ne.2 h]

theorem lookup_map (ns : Namespace α) (f : α → Obj) (k : String) :
    (ns.map fun e => (e.1, f e.2)).lookup k = (ns.lookup k).map f := by
  induction ns with
  | nil => rfl
  | cons e ns ih =>
    rw [List.map_cons, List.lookup_cons, List.lookup_cons]
    cases k == e.1 <;> simp [ih]

/-- The lines around the dictionary. -/
def block (d : List (String × Shown)) : List (Event β) :=
  [.line "ARGUMENTS:", .line "----------", .arguments d, .line "", .line "COMMAND OUTPUT", .line "--------------"]

/-- The dictionary shows a command with its arguments and the two options, and nothing else. -/
def ShowsCommand (v : View α) (name : String) (kw : Namespace α) (args profile : α) (d : List (String × Shown)) : Prop :=
  d.lookup "command" = some (.same (.plain name)) ∧
  (∃ s, d.lookup "args" = some s ∧ ShownAs (v.obj args) s) ∧
  (∃ s, d.lookup "profile" = some s ∧ ShownAs (v.obj profile) s) ∧
  ∀ k, k ≠ "command" → k ≠ "args" → k ≠ "profile" →
    (∀ x, kw.lookup k = some x → ∃ s, d.lookup k = some s ∧ ShownAs (v.obj x) s) ∧
    (kw.lookup k = none → d.lookup k = none)

/-- C138.  A run of the script: an exception in `main` before the command is called leaves the script, and neither
arguments nor profile are shown.  Otherwise the command is constructed with its arguments and executed; before, with
`--args`, exactly these arguments are shown; afterwards, with a positive number for `--profile` and if there is no
exception, so many lines of the profile. -/
theorem C138_run (w : World α) (v : View α) (parsing : List (Event β))
    (execute : String → Namespace α → List (Event β) × Except Error Unit) (c : Cmd) (value : String → α) :
    (∀ e, main w c value = .error e → script w v parsing execute c value = (parsing, .error e)) ∧
    ∀ name kw, main w c value = .ok (name, kw) → ∃ d, ShowsCommand v name kw (value "args") (value "profile") d ∧
      script w v parsing execute c value =
        (parsing ++ (if w.truthy (value "args") then block d else []) ++ (execute name kw).1 ++
          (if (∃ u, (execute name kw).2 = .ok u) ∧ 0 < v.toInt (value "profile") then
            [.profile (v.toInt (value "profile"))] else []), (execute name kw).2) := by
  classical
  constructor
  · intro e h
    have := C116_accepted w c value e h
    rw [script, this]
  · intro name kw h
    have hk := kept w value c
    cases hp : postprocess w c (parsed c value) with
    | error e => rw [main, hp] at h; cases h
    | ok ns =>
      rw [hp] at hk
      simp only [Except.map, Except.ok.injEq, Prod.mk.injEq] at hk
      obtain ⟨h1, h2, h3⟩ := hk
      obtain ⟨r1, d1⟩ := del_ok ns "args" (by rw [h1]; rfl)
      have l1 : r1.lookup "profile" = some (value "profile") := by rw [lookup_del _ _ _ _ d1 (by decide), h2]
      obtain ⟨r2, d2⟩ := del_ok r1 "profile" (by rw [l1]; rfl)
      obtain ⟨r3, d3⟩ := del_ok r2 "command" (by
        rw [lookup_del _ _ _ _ d2 (by decide), lookup_del _ _ _ _ d1 (by decide)]; exact h3)
      have hm : main w c value = (call (signature c).2 r3).bind fun kw => .ok ((signature c).1, kw) := by
        simp only [main, hp, bind, Except.bind, d1, l1, Option.isSome_some, if_true, d2, d3]
      rw [hm] at h
      have hcall : call (signature c).2 r3 = .ok r3 := by
        unfold call at h ⊢
        split_ifs at h ⊢ <;> first | rfl | cases h
      rw [hcall] at h
      cases h
      refine ⟨deepDict (Cli.set (ns.map fun e => (e.1, v.obj e.2)) "command" (.plain (signature c).1)),
        ⟨?_, ?_, ?_, ?_⟩, ?_⟩
      · rw [deep_lookup, lookup_set, if_pos rfl]; rfl
      · rw [deep_lookup, lookup_set, if_neg (by decide), lookup_map, h1]
        exact ⟨_, rfl, shown_one _⟩
      · rw [deep_lookup, lookup_set, if_neg (by decide), lookup_map, h2]
        exact ⟨_, rfl, shown_one _⟩
      · intro k k1 k2 k3
        rw [deep_lookup, lookup_set, if_neg k1, lookup_map]
        have : kw.lookup k = ns.lookup k := by
          rw [lookup_del _ _ _ _ d3 k1, lookup_del _ _ _ _ d2 k3, lookup_del _ _ _ _ d1 k2]
        rw [this]
        refine ⟨fun x hx => ?_, fun hx => ?_⟩
        · rw [hx]; exact ⟨_, rfl, shown_one _⟩
        · rw [hx]; rfl
      · have hshown : printArguments (β := β) w v c ns = .ok (if w.truthy (value "args") then
            block (deepDict (Cli.set (ns.map fun e => (e.1, v.obj e.2)) "command" (.plain (signature c).1))) else []) := by
          simp only [printArguments, Cli.get, h1]
          split_ifs <;> rfl
        have hprof : printProfile v r1 = .ok (v.toInt (value "profile"), r2) := by
          simp only [printProfile, l1, d2, Except.map]
        simp only [script, hp, hshown, d1, hprof, executeCommand, d3, hcall]
        rcases execute (signature c).1 kw with ⟨out, e | u⟩
        · simp
        · simp

/-- C138.  The options `--args` and `--profile` change neither the outcome nor what the command writes. -/
theorem C138_same (w : World α) (v : View α) (parsing : List (Event β))
    (execute : String → Namespace α → List (Event β) × Except Error Unit) (c : Cmd) (value : String → α)
    (args profile : α) (ha : w.truthy args = false) (hp : v.toInt profile ≤ 0) :
    ∃ before after, (before = [] ∨ ∃ d, before = block d) ∧ (after = [] ∨ ∃ n, 0 < n ∧ after = [.profile n]) ∧
      ∃ out, (script w v parsing execute c (altered value args profile)).1 = parsing ++ out ∧
        script w v parsing execute c value = (parsing ++ before ++ out ++ after,
          (script w v parsing execute c (altered value args profile)).2) := by
  classical
  obtain ⟨e1, o1⟩ := C138_run w v parsing execute c value
  obtain ⟨e2, o2⟩ := C138_run w v parsing execute c (altered value args profile)
  have hi := C138_independent w value args profile c
  cases hm : main w c value with
  | error e =>
    rw [hm] at hi
    exact ⟨[], [], .inl rfl, .inl rfl, [], by rw [e2 e hi]; simp, by rw [e1 e hm, e2 e hi]; simp⟩
  | ok r =>
    obtain ⟨name, kw⟩ := r
    rw [hm] at hi
    obtain ⟨d, -, h1⟩ := o1 name kw hm
    obtain ⟨d', -, h2⟩ := o2 name kw hi
    have ha' : altered value args profile "args" = args := rfl
    have hp' : altered value args profile "profile" = profile := rfl
    rw [ha', hp', ha, if_neg (by simp), if_neg (by rintro ⟨-, h⟩; exact absurd h (not_lt.2 hp))] at h2
    refine ⟨if w.truthy (value "args") then block d else [],
      if (∃ u, (execute name kw).2 = .ok u) ∧ 0 < v.toInt (value "profile") then
            [.profile (v.toInt (value "profile"))] else [], ?_, ?_, (execute name kw).1, ?_, ?_⟩
    · split_ifs
      · exact .inr ⟨d, rfl⟩
      · exact .inl rfl
    · split_ifs with h
      · exact .inr ⟨_, h.2, rfl⟩
      · exact .inl rfl
    · rw [h2]; simp
    · rw [h1, h2]

/-- C138.  The benchmark is shown by `animate`, `plot` and `eoc` only: the other commands have deleted it, so that
the seed drawn for `calculate swe -r` is not shown. -/
theorem C138_benchmark (w : World α) (v : View α) (c : Cmd) (value : String → α) (name : String) (kw : Namespace α)
    (h : main w c value = .ok (name, kw)) (d : List (String × Shown))
    (hd : ShowsCommand v name kw (value "args") (value "profile") d) :
    (d.lookup "benchmark").isSome ↔ c = .animate ∨ c = .plot ∨ c = .eoc := by
  have hb := benchmark_given w value c
  rw [h] at hb
  simp only [Except.map, Except.ok.injEq] at hb
  have := hd.2.2.2 "benchmark" (by decide) (by decide) (by decide)
  have hg : givesBenchmark c = true ↔ c = .animate ∨ c = .plot ∨ c = .eoc := by
    simp [givesBenchmark, or_assoc]
  rw [← hg, ← hb]
  cases hk : kw.lookup "benchmark" with
  | none => rw [this.2 hk]; simp
  | some x =>
    obtain ⟨s, hs, -⟩ := this.1 x hk
    rw [hs]; simp

/-! ### What the descriptions tell -/

/-- C138.  The description of a random benchmark shows its seed in a way in which `-r` reads it (`K` are the numbers of
the parser): the number shown, given to `-r`, leads to the benchmark with this seed, which is the same one. -/
theorem C138_seed {K : Type} [Field K] [LinearOrder K] [IsStrictOrderedRing K] {σ : Type*} (r : Bench.Rng σ)
    (p : Printer ℝ) (domain : String) (seed : ℕ) (T : ℝ) (bench : Argv.Prob → String → Except Error Unit) :
    ∃ text, follow ["seed"] (randomEntries p domain seed (Bench.Oscillation.random r seed T {})) = some (.plain text) ∧
      ∃ s : ℤ, Argv.randomType (K := K) ⟨PyNumber.conversions, bench⟩ text = .ok (.random (some s)) ∧
        Bench.Oscillation.random r s T {} = Bench.Oscillation.random r seed T {} := by
  refine ⟨toString (seed : ℤ), ?_, seed, ?_, rfl⟩
  · simp [follow, randomEntries, oscillationEntries, benchmarkEntries, List.lookup]
  · have : (PyNumber.conversions (K := K)).int (toString (seed : ℤ)) = some (seed : ℤ) := PyNumber.C130_printed seed
    simp only [Argv.randomType, this]
    rw [if_neg (by omega)]

/-- C138.  If numbers are printed differently when they are different, then the description of an oscillation
determines it. -/
theorem C138_oscillation (p : Printer ℝ) (hp : Function.Injective p.repr) (kind domain : String)
    (o o' : Bench.Oscillation) (h : oscillationEntries p kind domain o = oscillationEntries p kind domain o') :
    o = o' := by
  simp only [oscillationEntries, benchmarkEntries, List.cons_append, List.nil_append, List.cons.injEq, Prod.mk.injEq,
    Obj.plain.injEq, true_and, hp.eq_iff, and_true] at h
  obtain ⟨h0, h1, h2, h3, h4, h5, h6, h7, h8⟩ := h
  cases o; cases o'
  simp_all

/-- C138.  The time step in the description of a solver is the one before the multiplication by the CFL number: the
first step of a run is the smaller one of their product and the duration.  For adaptive time steps it is always
`nan`; whether they are adaptive is shown as well. -/
theorem C138_time_step {K : Type*} [Field K] [LinearOrder K] [IsStrictOrderedRing K] (p : Printer K) (kind ode : String)
    (rhs : Obj) (c : TimeStepping.Config K) (entries : List (String × Obj))
    (h : describeSolver p kind rhs ode c = .described entries) :
    (c.gen.adaptive = false → ∃ dt, follow ["time_stepping", "time_step_generator", "time_step"] entries =
        some (.plain (p.short dt)) ∧ ∀ s s' x, TimeStepping.next c (TimeStepping.iter c s) = (s', .yield x) →
          x = min (dt * c.gen.cfl) (c.endTime - c.startTime)) ∧
    (c.gen.adaptive = true → follow ["time_stepping", "time_step_generator", "time_step"] entries =
        some (.plain "'nan'")) ∧
    (∃ b, follow ["time_stepping", "time_step_generator", "adaptive"] entries = some (.plain b) ∧
      (b = "True" ↔ c.gen.adaptive = true) ∧ (b = "False" ↔ c.gen.adaptive = false)) ∧
    follow ["time_stepping", "time_step_generator", "cfl"] entries = some (.plain (p.repr c.gen.cfl)) ∧
    follow ["time_stepping", "start_time"] entries = some (.plain (p.repr c.startTime)) ∧
    follow ["time_stepping", "end_time"] entries = some (.plain (p.repr c.endTime)) := by
  cases h
  refine ⟨fun ha => ⟨c.gen.raw 0, ?_, ?_⟩, fun ha => ?_, ⟨if c.gen.adaptive then "True" else "False", ?_, ?_, ?_⟩, ?_, ?_, ?_⟩
  · simp [follow, describeStepping, describeGenerator, List.lookup, ha]
  · intro s s' x hx
    unfold TimeStepping.next at hx
    simp only [TimeStepping.iter, TimeStepping.Generator.call, ha] at hx
    split_ifs at hx <;> simp_all
  · simp [follow, describeStepping, describeGenerator, List.lookup, ha]
  · simp [follow, describeStepping, describeGenerator, List.lookup]
  · cases c.gen.adaptive <;> simp
  · cases c.gen.adaptive <;> simp
  · simp [follow, describeStepping, describeGenerator, List.lookup]
  · simp [follow, describeStepping, List.lookup]
  · simp [follow, describeStepping, List.lookup]

/-- C138.  A solver is described by its name, its integrator and its right-hand side; a finite volume right-hand side by
the name of its numerical flux. -/
theorem C138_solver {K : Type*} [Field K] [LinearOrder K] [IsStrictOrderedRing K] (p : Printer K)
    (kind ode flux : String) (rhs : Obj) (c : TimeStepping.Config K) (entries : List (String × Obj))
    (h : describeSolver p kind rhs ode c = .described entries) :
    follow ["name"] entries = some (.plain kind) ∧ follow ["ode_solver"] entries = some (.plain ode) ∧
    follow ["right_hand_side"] entries = some rhs ∧
    (rhs = describeFlux flux → follow ["right_hand_side", "numerical_flux"] entries = some (.plain flux)) := by
  cases h
  refine ⟨rfl, by simp [follow, List.lookup], by simp [follow, List.lookup], ?_⟩
  rintro rfl
  simp [follow, describeFlux, List.lookup]

/-- C138.  An oscillation is described by its name, its domain, its times and its parameters, each under its own key. -/
theorem C138_parameters (p : Printer ℝ) (kind domain : String) (o : Bench.Oscillation) (k : String) (x : ℝ)
    (h : (k, x) ∈ [("start_time", 0), ("end_time", o.endTime), ("h0", o.heightAverage), ("Ah", o.heightAmplitude),
      ("ph", o.heightPhaseShift), ("kh", o.heightWaveNumber), ("v0", o.velocityAverage), ("Av", o.velocityAmplitude),
      ("pv", o.velocityPhaseShift), ("kv", o.velocityWaveNumber)]) :
    follow [k] (oscillationEntries p kind domain o) = some (.plain (p.repr x)) ∧
    follow ["name"] (oscillationEntries p kind domain o) = some (.plain kind) ∧
    follow ["domain"] (oscillationEntries p kind domain o) = some (.plain domain) := by
  refine ⟨?_, rfl, by simp [follow, oscillationEntries, benchmarkEntries, List.lookup]⟩
  simp only [List.mem_cons, Prod.mk.injEq, List.not_mem_nil, or_false] at h
  rcases h with ⟨rfl, rfl⟩ | ⟨rfl, rfl⟩ | ⟨rfl, rfl⟩ | ⟨rfl, rfl⟩ | ⟨rfl, rfl⟩ | ⟨rfl, rfl⟩ | ⟨rfl, rfl⟩ | ⟨rfl, rfl⟩ |
    ⟨rfl, rfl⟩ | ⟨rfl, rfl⟩ <;> simp [follow, oscillationEntries, benchmarkEntries, List.lookup]

/-- C138.  Any benchmark is described by its name, its domain and its times. -/
theorem C138_times (p : Printer ℝ) (kind domain : String) (start endTime : ℝ) :
    follow ["name"] (benchmarkEntries p kind domain start endTime) = some (.plain kind) ∧
    follow ["domain"] (benchmarkEntries p kind domain start endTime) = some (.plain domain) ∧
    follow ["start_time"] (benchmarkEntries p kind domain start endTime) = some (.plain (p.repr start)) ∧
    follow ["end_time"] (benchmarkEntries p kind domain start endTime) = some (.plain (p.repr endTime)) := by
  simp [follow, benchmarkEntries, List.lookup]

/-! ### From the words of the command line -/

section Words

open Verif.Argv Verif.Utilities

variable {V : Type}

theorem segments_snoc (l : List (String × Word V)) (s : String) (o : Opt V) :
    segments (l ++ [(s, .option o none)]) =
      ((segments l).1, (segments l).2 ++ [⟨some (o, none), []⟩]) := by
  induction l with
  | nil => rfl
  | cons x l ih =>
    obtain ⟨w, k⟩ := x
    cases k <;> rw [List.cons_append, segments, segments, ih] <;> rfl

theorem give_left (ws : List String) (st st' : Argv.State V) (h : give st ws = .ok st') :
    ∀ q ∈ st'.left, q ∈ st.left := by
  induction ws generalizing st with
  | nil => rw [give] at h; cases h; exact fun q hq => hq
  | cons w ws ih =>
    rw [give] at h
    split at h
    · cases h; exact fun q hq => hq
    · rename_i p ps hl
      rw [hl]
      split at h
      · split at h
        · cases h; exact fun q hq => List.mem_cons_of_mem _ hq
        · cases h
      · split at h
        · exact fun q hq => List.mem_cons_of_mem _ (ih _ h q hq)
        · cases h

theorem take_left (st st' : Argv.State V) (o : Opt V) (args : List String) (h : take st o args = .ok st') :
    st'.left = st.left := by
  rw [take] at h
  split at h
  · cases h
  · split at h
    · cases h
    · cases h; rfl

theorem step_left (st st' : Argv.State V) (s : Segment V) (h : Argv.step st s = .ok st') :
    ∀ q ∈ st'.left, q ∈ st.left := by
  rw [Argv.step] at h
  split at h
  · have := give_left _ _ _ h
    exact this
  · split at h
    · rename_i o e _ _ _
      cases ht : take st o [e] with
      | error e => rw [ht] at h; cases h
      | ok t =>
        rw [ht] at h
        rw [← take_left _ _ _ _ ht]
        exact give_left _ _ _ h
    · cases h
  · split at h
    · cases h
    · rename_i o _ _ k _
      cases ht : take st o (s.args.take k) with
      | error e => rw [ht] at h; cases h
      | ok t =>
        rw [ht] at h
        rw [← take_left _ _ _ _ ht]
        exact give_left _ _ _ h

theorem steps_left (l : List (Segment V)) (st st' : Argv.State V) (h : l.foldlM Argv.step st = .ok st') :
    ∀ q ∈ st'.left, q ∈ st.left := by
  induction l generalizing st with
  | nil => rw [List.foldlM_nil] at h; cases h; exact fun q hq => hq
  | cons s l ih =>
    rw [List.foldlM_cons] at h
    cases hs : Argv.step st s with
    | error e => rw [hs] at h; cases h
    | ok t =>
      rw [hs] at h
      exact fun q hq => step_left _ _ _ hs q (ih t h q hq)

theorem update_comm (ns : String → V) (d d' : String) (v v' : V) (h : d ≠ d') :
    Argv.update (Argv.update ns d v) d' v' = Argv.update (Argv.update ns d' v') d v := by
  funext k
  unfold Argv.update
  by_cases h1 : k = d
  · by_cases h2 : k = d'
    · exact absurd (h1.symm.trans h2) h
    · simp [h1, h]
  · rw [if_neg h1, if_neg h1]

theorem mapM_length {A B ε : Type} {f : A → Except ε B} (l : List A) (r : List B) (h : l.mapM f = .ok r) :
    r.length = l.length := by
  induction l generalizing r with
  | nil => rw [List.mapM_nil] at h; cases h; rfl
  | cons x l ih =>
    rw [List.mapM_cons] at h
    cases hx : f x with
    | error e => rw [hx] at h; cases h
    | ok y =>
      cases hl : l.mapM f with
      | error e => rw [hx, hl] at h; cases h
      | ok ys => rw [hx, hl] at h; cases h; simp [ih ys hl]

/-- An option without arguments, written after all other words, sets its value and does nothing else. -/
theorem parse_snoc (spec : Spec V) (none : V) (hs : Sound spec.opts) (o : Opt V) (ho : o ∈ spec.opts) (s : String)
    (hso : s ∈ o.strings) (hn : o.nargs = .zero ∨ o.nargs = .optional) (hx : o.exclusive = false) (v : V)
    (hv : ∀ x, o.run x [] = .ok v) (hp : ∀ q ∈ spec.positionals, q.dest ≠ o.dest) (words : List String) :
    parseArgs spec none (words ++ [s]) = (parseArgs spec none words).map fun ns => Argv.update ns o.dest v := by
  have hc : parseOptional spec.opts s = .ok (.option o Option.none) := by
    rw [parseOptional, if_neg (by rw [hs.dash o ho s hso]; simp), lookup_string spec.opts hs o ho s hso]
  unfold parseArgs
  rw [List.mapM_append]
  cases hm : words.mapM (parseOptional spec.opts) with
  | error e => rfl
  | ok classes =>
    have hlen : words.length = classes.length := by
      exact (mapM_length words classes hm).symm
    have h1 : [s].mapM (parseOptional spec.opts) = .ok [.option o Option.none] := by
      simp [List.mapM_cons, hc, bind, Except.bind, pure, Except.pure]
    simp only [bind, Except.bind, h1, pure, Except.pure]
    rw [List.zip_append hlen, List.zip_cons_cons, List.zip_nil_left, segments_snoc]
    dsimp only
    cases hg : give ⟨initial spec none, spec.positionals, [], false⟩ (segments (words.zip classes)).1 with
    | error e => rfl
    | ok st0 =>
      dsimp only
      rw [List.foldlM_append]
      simp only [bind, Except.bind]
      cases hf : (segments (words.zip classes)).2.foldlM Argv.step st0 with
      | error e => rfl
      | ok st =>
        dsimp only
        have hleft : ∀ q ∈ st.left, q.dest ≠ o.dest := fun q hq =>
          hp q (give_left _ _ _ hg q (steps_left _ _ _ hf q hq))
        have hstep : [(⟨some (o, Option.none), []⟩ : Segment V)].foldlM Argv.step st =
            .ok { st with ns := Argv.update st.ns o.dest v } := by
          have hcount : count o.nargs 0 = some 0 := by rcases hn with h | h <;> rw [h] <;> rfl
          simp [List.foldlM_cons, Argv.step, hcount, take, hv, hx, give, Except.bind, bind, pure, Except.pure]
        rw [hstep]
        dsimp only
        unfold finish
        dsimp only
        cases hl : st.left with
        | nil => dsimp only; split_ifs <;> rfl
        | cons q qs =>
          cases qs with
          | cons a b => rfl
          | nil =>
            dsimp only
            split_ifs
            · rfl
            · cases hr : q.run [] with
              | error e => rfl
              | ok x =>
                dsimp only
                rw [update_comm _ _ _ _ _ (hleft q (by rw [hl]; simp)).symm]
                split_ifs <;> rfl

variable {K : Type} [Field K] [LinearOrder K] [IsStrictOrderedRing K] (E : Env K)

theorem program_snoc (s : String) (v : Arg K) (d : String) (hd1 : d ≠ "command") (hd2 : d ≠ "problem")
    (hs1 : names.lookup s = none) (hs2 : problemNames.lookup s = none) (hs3 : noName s = .usage)
    (h : ∀ c p, Allowed c p → ∀ words, parseArgs (spec E c p) .none (words ++ [s]) =
      (parseArgs (spec E c p) .none words).map fun ns => Argv.update ns d v) (words : List String) :
    program E (words ++ [s]) = (program E words).map fun r => (r.1, Argv.update r.2 d v) := by
  cases words with
  | nil => simp [program, hs1, hs3, Except.map]
  | cons w words =>
    rw [List.cons_append]
    unfold program
    dsimp only
    cases hl : names.lookup w with
    | none => rfl
    | some c =>
      dsimp only
      cases hw : withProblem E c with
      | none =>
        have ha : Allowed c none := by
          cases c <;> first | (simp [withProblem] at hw; done) | decide
        dsimp only
        rw [h c none ha]
        cases parseArgs (spec E c none) .none words with
        | error e => rfl
        | ok ns => simp only [Except.map]; rw [update_comm _ _ _ _ _ hd1]
      | some t =>
        obtain ⟨problems, eoc, own⟩ := t
        cases words with
        | nil => simp [hs2, hs3, Except.map]
        | cons w' words =>
          dsimp only [List.cons_append]
          cases hq : problemNames.lookup w' with
          | none => rfl
          | some p =>
            dsimp only
            split_ifs with hmem
            · have ha : Allowed c (some p) := by
                cases c <;> simp [withProblem] at hw <;> obtain ⟨rfl, -⟩ := hw <;> revert hmem <;> cases p <;> decide
              rw [h c (some p) ha]
              cases parseArgs (spec E c (some p)) .none words with
              | error e => rfl
              | ok ns =>
                simp only [Except.map]
                rw [update_comm _ _ _ _ _ hd2, update_comm _ _ _ _ _ hd1]
            · rfl

theorem no_general (c : Cmd) (p : Option Prob) (q : Pos (Arg K)) (hq : q ∈ (spec E c p).positionals) :
    q.dest ≠ "args" ∧ q.dest ≠ "profile" := by
  have : q ∈ (direct E c).2 := by
    unfold spec at hq
    split at hq
    · simp at hq
    · exact hq
  cases c <;> simp [direct, positional] at this <;> rcases this with rfl | rfl <;> exact ⟨by simp, by simp⟩

theorem general_mem (c : Cmd) (p : Option Prob) (o : Opt (Arg K)) (h : o ∈ generalOptions E) :
    o ∈ (spec E c p).opts := by
  unfold spec
  split <;> simp [h]

/-- C138.  `--args` after any other words: the command line is accepted, refused or asks for help as without it, and
all arguments but this one are the same. -/
theorem C138_args_word (words : List String) :
    program E (words ++ ["--args"]) = (program E words).map fun r => (r.1, Argv.update r.2 "args" (.bool true)) := by
  apply program_snoc E "--args" (.bool true) "args" (by decide) (by decide) (by decide) (by decide) (by decide)
  intro c p hcp words
  exact parse_snoc (spec E c p) .none (C125_sound E c p hcp) (flag "--args" "args")
    (general_mem E c p _ (by simp [generalOptions])) "--args" (by simp [flag]) (.inl rfl) rfl _ (fun _ => rfl)
    (fun q hq => (no_general E c p q hq).1) words

/-- C138.  `--profile` without a number asks for 30 lines. -/
theorem C138_profile_word (words : List String) :
    program E (words ++ ["--profile"]) = (program E words).map fun r => (r.1, Argv.update r.2 "profile" (.int 30)) := by
  apply program_snoc E "--profile" (.int 30) "profile" (by decide) (by decide) (by decide) (by decide) (by decide)
  intro c p hcp words
  exact parse_snoc (spec E c p) .none (C125_sound E c p hcp)
    ⟨["--profile"], "profile", .optional, optionally (.int 30) (integer E), .int 0, false⟩
    (general_mem E c p _ (by simp [generalOptions])) "--profile" (by simp) (.inr rfl) rfl _ (fun _ => rfl)
    (fun q hq => (no_general E c p q hq).2) words

/-- C138.  From the words to what is written: with `--args` behind any accepted command line the same command runs with
the same arguments, and these are shown before. -/
theorem C138_command_line (w : World (Arg K)) (ht : w.truthy (.bool true) = true) (v : View (Arg K))
    (parsing : List (Event β)) (execute : String → Namespace (Arg K) → List (Event β) × Except Error Unit)
    (words : List String) (c : Cmd) (ns : String → Arg K) (h : program E words = .ok (c, ns)) (name : String)
    (kw : Namespace (Arg K)) (hm : main w c ns = .ok (name, kw)) :
    ∃ ns' d after, program E (words ++ ["--args"]) = .ok (c, ns') ∧ main w c ns' = .ok (name, kw) ∧
      ShowsCommand v name kw (.bool true) (ns "profile") d ∧
      script w v parsing execute c ns' = (parsing ++ block d ++ (execute name kw).1 ++ after, (execute name kw).2) ∧
      (v.toInt (ns "profile") ≤ 0 → after = []) := by
  classical
  have hu : Argv.update ns "args" (.bool true) = altered ns (.bool true) (ns "profile") := by
    funext d
    unfold Argv.update altered
    split_ifs with h1 h2
    · rfl
    · rw [h2]
    · rfl
  have hm' : main w c (Argv.update ns "args" (.bool true)) = .ok (name, kw) := by rw [hu, C138_independent, hm]
  obtain ⟨d, hd, hs⟩ := (C138_run w v parsing execute c (Argv.update ns "args" (.bool true))).2 name kw hm'
  have e1 : Argv.update ns "args" (.bool true) "args" = .bool true := by simp [Argv.update]
  have e2 : Argv.update ns "args" (.bool true) "profile" = ns "profile" := by simp [Argv.update]
  rw [e1, e2, ht, if_pos rfl] at hs
  rw [e1, e2] at hd
  refine ⟨_, d, _, by rw [C138_args_word, h]; rfl, hm', hd, hs, fun hn => if_neg (fun h => absurd h.2 (not_lt.2 hn))⟩

end Words

/-! ### Concrete cases -/

/-- How the values of `exampleWorld` look like. -/
def exampleView : View Val where
  obj := fun
    | .solver (.benchmark b t) (.name s) => .described [("name", .plain s), ("right_hand_side", describeFlux b),
        ("time_stepping", .described [("end_time", .plain (toString t))])]
    | .benchmark b t => .described (("name", .plain b) :: [("end_time", .plain (toString t))])
    | .list [.solver (.benchmark b t) (.name s)] => .list [.described [("name", .plain s),
        ("right_hand_side", describeFlux b), ("time_stepping", .described [("end_time", .plain (toString t))])]]
    | _ => .plain "?"
  toInt := fun
    | .num n => n
    | _ => 0

/-- `plot -T 7 -s llf --args --profile 5`. -/
def exampleValues (d : String) : Val :=
  if d = "benchmark" then .benchmark "cos" 2 else if d = "end_time" then .num 7
  else if d = "solver" then .list [.name "llf"] else if d = "args" then .bool true
  else if d = "profile" then .num 5 else .none

example : ∃ name kw, main exampleWorld .plot exampleValues = .ok (name, kw) ∧
    exampleWorld.truthy (exampleValues "args") = true ∧ 0 < exampleView.toInt (exampleValues "profile") ∧
    ∃ es, exampleView.obj (.benchmark "cos" 7) = .described es ∧ kw.lookup "benchmark" = some (.benchmark "cos" 7) ∧
      follow ["end_time"] es = some (.plain "7") :=
  ⟨_, _, rfl, rfl, by decide, _, rfl, rfl, rfl⟩

/-- Solvers in a list of lists, as of `eoc`, are not looked into. -/
example (es : List (String × Obj)) :
    deepDict [("solvers", .list [.list [.described es]])] = [("solvers", .seq [.same (.list [.described es])])] := by
  simp [deepDict, deepList]

example : ∃ e, main exampleWorld .animate (fun _ => .none) = .error e := ⟨_, rfl⟩

open Verif.Argv in
example : program exampleEnv ["test", "a", "--args"] =
    (program exampleEnv ["test", "a"]).map (fun r => (r.1, Argv.update r.2 "args" (.bool true))) ∧
    ∃ r, program exampleEnv ["test", "a"] = .ok r :=
  ⟨C138_args_word exampleEnv ["test", "a"], _, rfl⟩

end Verif.Script
