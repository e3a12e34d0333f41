import Verif.Props.ArgvPrograms
import Verif.Props.CalculateSWE

/-!
C125: the options `-b`, `-T` and `-s`, from the words of the whole command line to the benchmark and the solvers of C122
and C124.
-/

set_option linter.unusedSectionVars false

namespace Verif.Argv

open Verif.Py Verif.Utilities Verif.Cli Verif.Registry
open Verif.Options (Style Conversions Key Val prog scalarKeys sweKeys parseSolver construct withHistory Settings)

section General

variable {K : Type} [Field K] [LinearOrder K] [IsStrictOrderedRing K] (E : Env K)

/-- The words of the options; `-b` and `-T` can be missing. -/
def lineWords (key t : Option String) (ws : List String) : List String :=
  key.elim [] (fun k => ["-b", k]) ++ t.elim [] (fun w => ["-T", w]) ++ "-s" :: ws

/-- The solvers of a problem. -/
def solverKeys : Prob → List Key
  | .swe => sweKeys
  | _ => scalarKeys

theorem update_self {V : Type} (ns : String → V) (d : String) : update ns d (ns d) = ns := by
  funext x
  unfold update
  split
  · rename_i h; rw [h]
  · rfl

/-- Whether a command chooses the defaults of `eoc`. -/
def isEoc : Cmd → Bool
  | .eoc => true
  | _ => false

theorem line_options (c : Cmd) (p : Prob) (h : Allowed c (some p)) :
    ∃ o, o ∈ (spec E c (some p)).opts ∧ endTimeOption E ∈ (spec E c (some p)).opts ∧
      solverOption E (solverKeys p) ∈ (spec E c (some p)).opts ∧ "-b" ∈ o.strings ∧ o.nargs = .one ∧
      o.dest = "benchmark" ∧ o.run = single (benchmarkType E p) ∧
      initial (spec E c (some p)) .none "benchmark" = .benchmark p (defaultKey (isEoc c) p) ∧
      initial (spec E c (some p)) .none "end_time" = .none ∧ initial (spec E c (some p)) .none "solver" = .none ∧
      (spec E c (some p)).positionals = [] := by
  refine ⟨if p = .swe then exclusively (benchmarkOption E p (defaultKey (isEoc c) p)) else
    benchmarkOption E p (defaultKey (isEoc c) p), ?_⟩
  cases c <;> cases p <;> first
    | exact absurd h (by decide)
    | (refine ⟨?_, ?_, ?_, ?_, rfl, rfl, rfl, rfl, rfl, rfl, rfl⟩ <;>
        simp [spec, withProblem, problemOptions, isEoc, solverKeys, exclusively, benchmarkOption, store])

/-- C125.  The options `-b`, `-T` and `-s` of a problem: what the program makes of them. -/
theorem C125_line (c : Cmd) (nm : String) (hn : (nm, c) ∈ names) (p : Prob) (h : Allowed c (some p))
    (key t : Option String) (hkey : ∀ w ∈ key, Plain w) (ht : ∀ w ∈ t, Plain w) (ws : List String)
    (hws : ∀ w ∈ ws, Plain w) (hne : ws ≠ []) :
    program E (nm :: problemWords (some p) ++ lineWords key t ws) = (do
      let b ← key.elim (.ok (.benchmark p (defaultKey (isEoc c) p))) (convert (benchmarkType E p))
      let T ← t.elim (.ok .none) (convert (posFloat E))
      let s ← solverRun E (solverKeys p) .none ws
      .ok (c, named nm (some p) (update (update (update (initial (spec E c (some p)) .none) "benchmark" b) "end_time" T)
        "solver" s))) := by
  obtain ⟨o, m1, m2, m3, s1, s2, s3, s4, i1, i2, i3, hpos⟩ := line_options E c p h
  have v3 : (Item.option (solverOption E (solverKeys p)) "-s" ws .separate).Valid (spec E c (some p)).opts :=
    valid_separate _ _ m3 _ (by simp [solverOption]) _ (List.length_pos_iff.2 hne) hws
  have v1 : ∀ w, Plain w → (Item.option o "-b" [w] .separate).Valid (spec E c (some p)).opts := fun w hw =>
    valid_separate _ _ m1 _ s1 _ (by simp [s2, Fits]) (by simpa using hw)
  have v2 : ∀ w, Plain w → (Item.option (endTimeOption E) "-T" [w] .separate).Valid (spec E c (some p)).opts :=
    fun w hw => valid_separate _ _ m2 _ (by simp [endTimeOption, store]) _ (by simp [endTimeOption, store, Fits])
      (by simpa using hw)
  have hl := C125_program E c nm hn (some p) h
    (key.elim [] (fun k => [.option o "-b" [k] .separate]) ++
      t.elim [] (fun w => [.option (endTimeOption E) "-T" [w] .separate]) ++
      [.option (solverOption E (solverKeys p)) "-s" ws .separate]) (by
      intro a ha
      rcases List.mem_append.1 ha with ha | ha
      · rcases List.mem_append.1 ha with ha | ha
        · cases key with
          | none => cases ha
          | some k => rw [List.mem_singleton.1 ha]; exact v1 k (hkey k rfl)
        · cases t with
          | none => cases ha
          | some w => rw [List.mem_singleton.1 ha]; exact v2 w (ht w rfl)
      · rw [List.mem_singleton.1 ha]; exact v3) (by
      cases key <;> cases t <;> simp [Readable, Item.isWords])
    (key.elim [] (fun k => [(o.dest, fun v => o.run v [k])]) ++
      t.elim [] (fun w => [("end_time", fun v => (endTimeOption E).run v [w])]) ++
      [("solver", fun v => solverRun E (solverKeys p) v ws)]) (by
      rw [hpos]
      cases key <;> cases t <;> rfl) (by
      cases key <;> cases t <;> cases ho : o.exclusive <;>
        simp [Same, exclusives, endTimeOption, store, solverOption, ho])
  have hw : (key.elim [] (fun k => [Item.option o "-b" [k] .separate]) ++
      t.elim [] (fun w => [Item.option (endTimeOption E) "-T" [w] .separate]) ++
      [Item.option (solverOption E (solverKeys p)) "-s" ws .separate]).flatMap Item.written = lineWords key t ws := by
    cases key <;> cases t <;> simp [lineWords, Item.written]
  rw [hw] at hl
  rw [hl]
  have e2 : ∀ v w, (endTimeOption E).run v [w] = convert (posFloat E) w := fun _ _ => rfl
  obtain ⟨r, e3⟩ : ∃ r, ∀ v, solverRun E (solverKeys p) v ws = r := ⟨_, fun _ => rfl⟩
  simp only [e3]
  have u1 : update (initial (spec E c (some p)) .none) "benchmark" (.benchmark p (defaultKey (isEoc c) p)) =
      initial (spec E c (some p)) .none := by rw [← i1, update_self]
  have u2 : ∀ b, update (update (initial (spec E c (some p)) .none) "benchmark" b) "end_time" .none =
      update (initial (spec E c (some p)) .none) "benchmark" b := by
    intro b
    conv_rhs => rw [← update_self (update (initial (spec E c (some p)) .none) "benchmark" b) "end_time"]
    rw [show update (initial (spec E c (some p)) .none) "benchmark" b "end_time" = .none from i2]
  cases key with
  | none =>
    cases t with
    | none =>
      simp only [settle, Option.elim, List.nil_append, List.foldlM_cons, List.foldlM_nil]
      cases r with
      | error e => rfl
      | ok s =>
        have := u2 (.benchmark p (defaultKey (isEoc c) p))
        rw [u1] at this
        simp only [Except.map, bind, Except.bind, pure, Except.pure, u1, this]
    | some w =>
      simp only [settle, Option.elim, List.nil_append, List.foldlM_cons, List.foldlM_nil, e2, List.cons_append]
      cases convert (posFloat E) w with
      | error e => rfl
      | ok T =>
        cases r with
        | error e => rfl
        | ok s => simp only [Except.map, bind, Except.bind, pure, Except.pure, u1]
  | some k =>
    have e1 : ∀ v, o.run v [k] = convert (benchmarkType E p) k := fun _ => by rw [s4]; rfl
    cases t with
    | none =>
      simp only [settle, Option.elim, List.nil_append, List.foldlM_cons, List.foldlM_nil, e1, s3, List.cons_append]
      cases convert (benchmarkType E p) k with
      | error e => rfl
      | ok b =>
        cases r with
        | error e => rfl
        | ok s => simp only [Except.map, bind, Except.bind, pure, Except.pure, u2]
    | some w =>
      simp only [settle, Option.elim, List.nil_append, List.foldlM_cons, List.foldlM_nil, e1, e2, s3, List.cons_append]
      cases convert (benchmarkType E p) k with
      | error e => rfl
      | ok b =>
        simp only [Except.map, bind, Except.bind]
        cases convert (posFloat E) w with
        | error e => rfl
        | ok T =>
          cases r with
          | error e => rfl
          | ok s => simp only [pure, Except.pure]

theorem convert_benchmark (p : Prob) (k : String) (v : Arg K) :
    convert (benchmarkType E p) k = .ok v ↔ E.bench p k = .ok () ∧ v = .benchmark p k := by
  unfold convert benchmarkType
  cases hb : E.bench p k with
  | ok u => simp [Except.map, eq_comm]
  | error e => cases e <;> simp [Except.map]

theorem convert_float (w : String) (v : Arg K) :
    convert (posFloat E) w = .ok v ↔ ∃ T, positiveFloat E.conv.float w = .ok T ∧ v = .num T := by
  unfold convert posFloat
  cases hb : positiveFloat E.conv.float w with
  | ok u => simp [Except.map, eq_comm]
  | error e => cases e <;> simp [Except.map]

theorem solver_run (keys : List Key) (ws : List String) (v v' : Arg K) :
    solverRun E keys v ws = .ok v' ↔ ∃ l, action (solverParsers E keys) ws = .namespaces l ∧ v' = .solvers l := by
  unfold solverRun
  cases action (solverParsers E keys) ws with
  | namespaces l => simp [eq_comm]
  | quit => simp
  | raised e => cases e <;> simp

/-- C125.  Which command lines with the options `-b`, `-T` and `-s` are accepted, and what the command gets. -/
theorem C125_line_ok (c : Cmd) (nm : String) (hn : (nm, c) ∈ names) (p : Prob) (h : Allowed c (some p))
    (key t : Option String) (hkey : ∀ w ∈ key, Plain w) (ht : ∀ w ∈ t, Plain w) (ws : List String)
    (hws : ∀ w ∈ ws, Plain w) (hne : ws ≠ []) :
    ((∀ k, key = some k → E.bench p k = .ok ()) → (∀ w, t = some w → ∃ T, positiveFloat E.conv.float w = .ok T) →
      (∃ l, action (solverParsers E (solverKeys p)) ws = .namespaces l) →
      ∃ ns, program E (nm :: problemWords (some p) ++ lineWords key t ws) = .ok (c, ns)) ∧
    ∀ c' ns, program E (nm :: problemWords (some p) ++ lineWords key t ws) = .ok (c', ns) →
      c' = c ∧ ns "benchmark" = .benchmark p (key.getD (defaultKey (isEoc c) p)) ∧
      (∀ k, key = some k → E.bench p k = .ok ()) ∧ (t = none → ns "end_time" = .none) ∧
      (∀ w, t = some w → ∃ T, positiveFloat E.conv.float w = .ok T ∧ ns "end_time" = .num T) ∧
      ∃ l, action (solverParsers E (solverKeys p)) ws = .namespaces l ∧ ns "solver" = .solvers l := by
  rw [C125_line E c nm hn p h key t hkey ht ws hws hne]
  constructor
  · rintro hb hT ⟨l, hl⟩
    have h1 : key.elim (.ok (.benchmark p (defaultKey (isEoc c) p))) (convert (benchmarkType E p)) =
        .ok (.benchmark p (key.getD (defaultKey (isEoc c) p))) := by
      cases key with
      | none => rfl
      | some k => exact (convert_benchmark E p k _).2 ⟨hb k rfl, rfl⟩
    have h3 := (solver_run E (solverKeys p) ws .none (.solvers l)).2 ⟨l, hl, rfl⟩
    rw [h1, h3]
    cases t with
    | none => exact ⟨_, rfl⟩
    | some w =>
      obtain ⟨T, hT⟩ := hT w rfl
      have h2 := (convert_float E w (.num T)).2 ⟨T, hT, rfl⟩
      simp only [Option.elim, h2]
      exact ⟨_, rfl⟩
  · intro c' ns hp
    cases h1 : key.elim (.ok (.benchmark p (defaultKey (isEoc c) p))) (convert (benchmarkType E p)) with
    | error e => rw [h1] at hp; cases hp
    | ok b =>
      cases h2 : t.elim (.ok .none) (convert (posFloat E)) with
      | error e => rw [h1, h2] at hp; cases hp
      | ok T =>
        cases h3 : solverRun E (solverKeys p) .none ws with
        | error e => rw [h1, h2, h3] at hp; cases hp
        | ok s =>
          rw [h1, h2, h3] at hp
          cases hp
          obtain ⟨l, hl, rfl⟩ := (solver_run E (solverKeys p) ws .none s).1 h3
          have hb : b = .benchmark p (key.getD (defaultKey (isEoc c) p)) ∧ ∀ k, key = some k → E.bench p k = .ok () := by
            cases key with
            | none => cases h1; exact ⟨rfl, fun k hk => by cases hk⟩
            | some k =>
              obtain ⟨h4, rfl⟩ := (convert_benchmark E p k b).1 h1
              exact ⟨rfl, fun k' hk => by cases hk; exact h4⟩
          refine ⟨rfl, ?_, hb.2, ?_, ?_, l, hl, ?_⟩
          · simp [named, update, hb.1]
          · rintro rfl
            cases h2
            simp [named, update]
          · rintro w rfl
            obtain ⟨x, hx, rfl⟩ := (convert_float E w T).1 h2
            exact ⟨x, hx, by simp [named, update]⟩
          · simp [named, update]

end General

/-! ### The tables of benchmarks -/

/-- `benchmarks[key]()`. -/
def called {V : Type} (table : List (String × Except Error (Benchmark V))) (key : String) : Except Error Unit :=
  match table.lookup key with
  | none => .error .keyError
  | some r => r.map fun _ => ()

/-- The program with its benchmarks. -/
noncomputable def realEnv (cv : Conversions ℝ) (newton : (ℝ → ℝ) → ℝ → Except Error ℝ) : Env ℝ where
  conv := cv
  bench
    | .advection => called advectionTable
    | .burgers => called burgersTable
    | .swe => called (shallowWaterTable newton)

theorem called_ok {V : Type} (table : List (String × Except Error (Benchmark V))) (key : String) :
    called table key = .ok () ↔ ∃ b, parseBenchmark table key = .value b := by
  unfold called parseBenchmark
  cases table.lookup key with
  | none => simp
  | some r =>
    cases r with
    | ok b => simp [Except.map]
    | error e => cases e <;> simp [Except.map]

/-- The same problem. -/
def prob : Scalar.Problem → Prob
  | .advection => .advection
  | .burgers => .burgers

/-- The end time which a word stands for. -/
def Ends (cv : Conversions ℝ) (t : Option String) (T : Option ℝ) : Prop :=
  (t = none ∧ T = none) ∨ ∃ w x, t = some w ∧ T = some x ∧ cv.float w = some (.fin x) ∧ 0 < x

theorem ends_positive (cv : Conversions ℝ) (t : Option String) (T : Option ℝ) (h : Ends cv t T) (w : String)
    (hw : t = some w) : ∃ x, T = some x ∧ positiveFloat cv.float w = .ok (.fin x) := by
  rcases h with ⟨rfl, -⟩ | ⟨w', x, rfl, rfl, hf, hx⟩
  · cases hw
  · cases hw
    exact ⟨x, rfl, by simp [positiveFloat, hf, PyFloat.le, not_le.2 hx]⟩

/-- C125.  The words of the whole command line and the solvers of C122: what the program accepts and hands to the
command, and what the command constructs from it. -/
theorem C125_scalar (cv : Conversions ℝ) (newton : (ℝ → ℝ) → ℝ → Except Error ℝ) (c : Cmd) (nm : String)
    (hn : (nm, c) ∈ names) (p : Scalar.Problem) (h : Allowed c (some (prob p))) (key t : Option String)
    (hkey : ∀ w ∈ key, Plain w) (ht : ∀ w ∈ t, Plain w) (ws : List String) (hws : ∀ w ∈ ws, Plain w) (hne : ws ≠ [])
    (T : Option ℝ) (hT : Ends cv t T) (history : Bool) (b : Benchmark ℝ) (l : List (Key × Settings ℝ)) :
    Calculate.commandLine cv p (isEoc c) key T history ws = .ok (b, l) ↔
    ∃ ns namespaces b', program (realEnv cv newton) (nm :: problemWords (some (prob p)) ++ lineWords key t ws) =
        .ok (c, ns) ∧
      ns "benchmark" = .benchmark (prob p) (key.getD (Calculate.defaultBenchmark p (isEoc c))) ∧
      ns "end_time" = T.elim .none (fun x => .num (.fin x)) ∧ ns "solver" = .solvers namespaces ∧
      parseBenchmark (Calculate.table p) (key.getD (Calculate.defaultBenchmark p (isEoc c))) = .value b' ∧
      b = adjustEndTime T b' ∧
      namespaces.mapM (fun x => (construct x.1 (withHistory history x.2)).map fun s => (x.1, s)) = .ok l := by
  have hd : defaultKey (isEoc c) (prob p) = Calculate.defaultBenchmark p (isEoc c) := by
    cases p <;> cases c <;> rfl
  have hk : solverKeys (prob p) = scalarKeys := by cases p <;> rfl
  have hbench : (realEnv cv newton).bench (prob p) = called (Calculate.table p) := by cases p <;> rfl
  have hline := C125_line_ok (realEnv cv newton) c nm hn (prob p) h key t hkey ht ws hws hne
  rw [hk, hd, hbench] at hline
  have hact : action (Calculate.parsers cv scalarKeys) ws = action (solverParsers (realEnv cv newton) scalarKeys) ws := rfl
  constructor
  · intro hc
    unfold Calculate.commandLine Calculate.solvers at hc
    cases hb : parseBenchmark (Calculate.table p) (key.getD (Calculate.defaultBenchmark p (isEoc c))) with
    | usage => rw [hb] at hc; cases hc
    | raised e => rw [hb] at hc; cases hc
    | value b' =>
      rw [hb, hact] at hc
      cases ha : action (solverParsers (realEnv cv newton) scalarKeys) ws with
      | quit => rw [ha] at hc; cases hc
      | raised e => rw [ha] at hc; cases hc
      | namespaces l' =>
        rw [ha] at hc
        dsimp only at hc
        cases hm : l'.mapM (fun x => (construct x.1 (withHistory history x.2)).map fun s => (x.1, s)) with
        | error e => rw [hm] at hc; cases hc
        | ok l'' =>
          rw [hm] at hc
          cases hc
          obtain ⟨ns, h1⟩ := hline.1 (by
            intro k hk
            subst hk
            exact (called_ok _ _).2 ⟨b', hb⟩) (fun w hw => by
              obtain ⟨x, -, hx⟩ := ends_positive cv t T hT w hw
              exact ⟨_, hx⟩) ⟨l', ha⟩
          obtain ⟨-, h2, -, h3, h4, l3, h5, h6⟩ := hline.2 c ns h1
          rw [ha] at h5
          cases h5
          refine ⟨ns, l', b', h1, h2, ?_, h6, rfl, rfl, hm⟩
          rcases hT with ⟨rfl, rfl⟩ | ⟨w, x, rfl, rfl, hf, hx⟩
          · exact h3 rfl
          · obtain ⟨T', hT', he⟩ := h4 w rfl
            obtain ⟨x', hx', hx''⟩ := ends_positive cv (some w) (some x) (Or.inr ⟨w, x, rfl, rfl, hf, hx⟩) w rfl
            cases hx'
            change positiveFloat cv.float w = .ok T' at hT'
            rw [hx''] at hT'
            cases hT'
            exact he
  · rintro ⟨ns, l', b', h1, -, -, h4, h5, rfl, h7⟩
    obtain ⟨-, -, -, -, -, l3, h8, h9⟩ := hline.2 c ns h1
    rw [h4] at h9
    cases h9
    unfold Calculate.commandLine Calculate.solvers
    rw [h5, hact, h8]
    dsimp only
    rw [h7]

/-- C125.  The words of the whole command line and the solvers of C124: what the program accepts and hands to the
command, and what the command constructs from it. -/
theorem C125_swe (cv : Conversions ℝ) (newton : (ℝ → ℝ) → ℝ → Except Error ℝ) (c : Cmd) (nm : String)
    (hn : (nm, c) ∈ names) (h : Allowed c (some .swe)) (key t : Option String)
    (hkey : ∀ w ∈ key, Plain w) (ht : ∀ w ∈ t, Plain w) (ws : List String) (hws : ∀ w ∈ ws, Plain w) (hne : ws ≠ [])
    (T : Option ℝ) (hT : Ends cv t T) (history : Bool) (w : CalculateSWE.Water) (l : List (Key × Settings ℝ)) :
    CalculateSWE.commandLine cv newton key T history ws = .ok (w, l) ↔
    ∃ ns namespaces b', program (realEnv cv newton) (nm :: problemWords (some .swe) ++ lineWords key t ws) =
        .ok (c, ns) ∧
      ns "benchmark" = .benchmark .swe (key.getD (CalculateSWE.defaultWater)) ∧
      ns "end_time" = T.elim .none (fun x => .num (.fin x)) ∧ ns "solver" = .solvers namespaces ∧
      parseBenchmark (shallowWaterTable newton) (key.getD (CalculateSWE.defaultWater)) = .value b' ∧
      w = ⟨adjustEndTime T b', CalculateSWE.bottomOf (key.getD CalculateSWE.defaultWater),
        CalculateSWE.gravityOf (key.getD CalculateSWE.defaultWater)⟩ ∧
      namespaces.mapM (fun x => (construct x.1 (withHistory history x.2)).map fun s => (x.1, s)) = .ok l := by
  have hd : defaultKey (isEoc c) .swe = CalculateSWE.defaultWater := rfl
  have hk : solverKeys .swe = sweKeys := rfl
  have hbench : (realEnv cv newton).bench .swe = called (shallowWaterTable newton) := rfl
  have hline := C125_line_ok (realEnv cv newton) c nm hn .swe h key t hkey ht ws hws hne
  rw [hk, hd, hbench] at hline
  have hact : action (Calculate.parsers cv sweKeys) ws = action (solverParsers (realEnv cv newton) sweKeys) ws := rfl
  constructor
  · intro hc
    unfold CalculateSWE.commandLine Calculate.solvers at hc
    dsimp only at hc
    cases hb : parseBenchmark (shallowWaterTable newton) (key.getD (CalculateSWE.defaultWater)) with
    | usage => rw [hb] at hc; cases hc
    | raised e => rw [hb] at hc; cases hc
    | value b' =>
      rw [hb, hact] at hc
      cases ha : action (solverParsers (realEnv cv newton) sweKeys) ws with
      | quit => rw [ha] at hc; cases hc
      | raised e => rw [ha] at hc; cases hc
      | namespaces l' =>
        rw [ha] at hc
        dsimp only at hc
        cases hm : l'.mapM (fun x => (construct x.1 (withHistory history x.2)).map fun s => (x.1, s)) with
        | error e => rw [hm] at hc; cases hc
        | ok l'' =>
          rw [hm] at hc
          cases hc
          obtain ⟨ns, h1⟩ := hline.1 (by
            intro k hk
            subst hk
            exact (called_ok _ _).2 ⟨b', hb⟩) (fun w hw => by
              obtain ⟨x, -, hx⟩ := ends_positive cv t T hT w hw
              exact ⟨_, hx⟩) ⟨l', ha⟩
          obtain ⟨-, h2, -, h3, h4, l3, h5, h6⟩ := hline.2 c ns h1
          rw [ha] at h5
          cases h5
          refine ⟨ns, l', b', h1, h2, ?_, h6, rfl, rfl, hm⟩
          rcases hT with ⟨rfl, rfl⟩ | ⟨w, x, rfl, rfl, hf, hx⟩
          · exact h3 rfl
          · obtain ⟨T', hT', he⟩ := h4 w rfl
            obtain ⟨x', hx', hx''⟩ := ends_positive cv (some w) (some x) (Or.inr ⟨w, x, rfl, rfl, hf, hx⟩) w rfl
            cases hx'
            change positiveFloat cv.float w = .ok T' at hT'
            rw [hx''] at hT'
            cases hT'
            exact he
  · rintro ⟨ns, l', b', h1, -, -, h4, h5, rfl, h7⟩
    obtain ⟨-, -, -, -, -, l3, h8, h9⟩ := hline.2 c ns h1
    rw [h4] at h9
    cases h9
    unfold CalculateSWE.commandLine Calculate.solvers
    dsimp only
    rw [h5, hact, h8]
    dsimp only
    rw [h7]


/-- `cls1 plot burgers -T 0.5 -s central`: the hypotheses are met, and the command gets what was written. -/
example (newton : (ℝ → ℝ) → ℝ → Except Error ℝ) :
    ∃ ns l, program (realEnv Calculate.exampleConversions newton) ["plot", "burgers", "-T", "0.5", "-s", "central"] =
      .ok (.plot, ns) ∧ ns "benchmark" = .benchmark .burgers "shock" ∧ ns "end_time" = .num (.fin (1 / 2)) ∧
      ns "solver" = .solvers l ∧ l.map Prod.fst = [.central] := by
  obtain ⟨b, l, hc, hf⟩ := Calculate.C122_words Calculate.exampleConversions .burgers false none
    (by simp [Calculate.defaultBenchmark, Calculate.table, burgersTable]) (some (1 / 2)) true [(.central, [])]
    (by simp [scalarKeys]) (by simp) (by
      intro g hg
      rw [List.mem_singleton.1 hg]
      exact ⟨[], rfl⟩) ["central"]
    { join := by simp [prog]
      nonempty := by simp
      inside := by simp
      between := by simp }
  obtain ⟨ns, l', b', h1, h2, h3, h4, -, -, h5⟩ := (C125_scalar Calculate.exampleConversions newton .plot "plot" (by decide)
    .burgers (by decide) none (some "0.5") (by simp) (by simp [Plain]) ["central"] (by simp [Plain]) (by simp)
    (some (1 / 2)) (Or.inr ⟨"0.5", 1 / 2, rfl, rfl, by simp [Calculate.exampleConversions], by norm_num⟩) true b l).1 hc
  refine ⟨ns, l', h1, h2, h3, h4, ?_⟩
  cases hf with
  | @cons _ e _ _ he hf =>
  cases hf
  match l', h5 with
  | [], h5 => cases h5
  | [x], h5 =>
    simp only [List.mapM_cons, List.mapM_nil] at h5
    cases hx : construct x.1 (withHistory true x.2) with
    | error e => rw [hx] at h5; cases h5
    | ok s =>
      rw [hx] at h5
      cases h5
      simpa using he.1
  | x :: y :: r, h5 =>
    have := (Calculate.mapM_forall _ _ _ h5).length_eq
    simp at this

end Verif.Argv
