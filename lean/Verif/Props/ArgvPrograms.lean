import Verif.Props.ArgvCommands
import Verif.Core.CalculateSWE
import Verif.Props.Cli

/-!
C125: the whole program, from the words of the command line.
-/

set_option linter.unusedSectionVars false

namespace Verif.Argv

open Verif.Py Verif.Utilities Verif.Cli
open Verif.Options (Style Conversions Key Val prog scalarKeys sweKeys parseSolver)

variable {K : Type} [Field K] [LinearOrder K] [IsStrictOrderedRing K] (E : Env K)

/-- The words for a problem. -/
def problemWords : Option Prob → List String
  | none => []
  | some .advection => ["advection"]
  | some .burgers => ["burgers"]
  | some .swe => ["swe"]

/-- The namespace with the names of the command and the problem. -/
def named (nm : String) (p : Option Prob) (ns : String → Arg K) (d : String) : Arg K :=
  if d = "command" then .str nm
  else if d = "problem" ∧ p.isSome then .str ((problemWords p).headD "")
  else ns d

theorem program_eq (c : Cmd) (nm : String) (hn : (nm, c) ∈ names) (p : Option Prob) (h : Allowed c p)
    (words : List String) : program E (nm :: problemWords p ++ words) =
      (parseArgs (spec E c p) .none words).map fun ns => (c, named nm p ns) := by
  have hl : names.lookup nm = some c := by
    apply Options.lookup_of_mem _ _ _ _ hn
    decide
  rw [List.cons_append, program, hl]
  have fin : ∀ f g : (String → Arg K) → Cmd × (String → Arg K), (∀ ns, f ns = g ns) →
      (parseArgs (spec E c p) .none words).map f = (parseArgs (spec E c p) .none words).map g := by
    intro f g hfg
    rw [funext hfg]
  cases c <;> rcases p with _ | _ | _ | _ <;>
    first
    | exact absurd h (by decide)
    | (simp only [withProblem, problemWords, List.nil_append]
       apply fin
       intro ns
       congr 1
       funext d
       simp [named, update, problemWords]
       done)
    | (simp only [withProblem, problemWords, List.cons_append, List.nil_append]
       have hp : ∀ s q, (s, q) ∈ problemNames → problemNames.lookup s = some q := fun s q hm =>
         Options.lookup_of_mem _ (by decide) _ _ hm
       first
       | rw [hp "advection" .advection (by decide)]
       | rw [hp "burgers" .burgers (by decide)]
       | rw [hp "swe" .swe (by decide)]
       simp only [List.mem_cons, reduceCtorEq, true_or, or_true, false_or, or_false, if_true, List.not_mem_nil]
       apply fin
       intro ns
       congr 1
       funext d
       simp [named, update, problemWords])

theorem problem_name (s : String) (q : Prob) (h : problemNames.lookup s = some q) : problemWords (some q) = [s] := by
  have := Options.mem_of_lookup _ _ _ h
  simp only [problemNames, List.mem_cons, Prod.mk.injEq, List.not_mem_nil, or_false] at this
  rcases this with ⟨rfl, rfl⟩ | ⟨rfl, rfl⟩ | ⟨rfl, rfl⟩ <;> rfl

/-- The problems of a command, as in the model. -/
theorem problems_eq (c : Cmd) : problemsOf c = (withProblem E c).map fun r => r.1 := by cases c <;> rfl

/-- Every accepted command line begins with the name of a command, followed by the name of a problem if the command asks
for one. -/
theorem program_ok (words : List String) (c : Cmd) (ns : String → Arg K) (h : program E words = .ok (c, ns)) :
    ∃ nm p rest ns', (nm, c) ∈ names ∧ Allowed c p ∧ words = nm :: problemWords p ++ rest ∧
      parseArgs (spec E c p) .none rest = .ok ns' ∧ ns = named nm p ns' := by
  have key : ∀ nm c' p rest, (nm, c') ∈ names → Allowed c' p → words = nm :: problemWords p ++ rest →
      ∃ nm p rest ns', (nm, c) ∈ names ∧ Allowed c p ∧ words = nm :: problemWords p ++ rest ∧
      parseArgs (spec E c p) .none rest = .ok ns' ∧ ns = named nm p ns' := by
    intro nm c' p rest hn ha hw
    rw [hw, program_eq E c' nm hn p ha] at h
    cases hp : parseArgs (spec E c' p) .none rest with
    | error e => rw [hp] at h; cases h
    | ok ns' =>
      rw [hp] at h
      cases h
      exact ⟨nm, p, rest, ns', hn, ha, hw, hp, rfl⟩
  have h' := h
  unfold program at h'
  split at h'
  · cases h'
  · rename_i w ws
    split at h'
    · cases h'
    · rename_i c' hl
      have hn := Options.mem_of_lookup _ _ _ hl
      have hpr := problems_eq E c'
      split at h'
      · rename_i hnone
        rw [hnone] at hpr
        refine key w c' none ws hn ?_ rfl
        unfold Allowed
        rw [hpr]
        rfl
      · rename_i problems _ _ hsome
        rw [hsome] at hpr
        split at h'
        · cases h'
        · rename_i w' ws'
          split at h'
          · cases h'
          · rename_i q hq
            split at h'
            · rename_i hmem
              refine key w c' (some q) ws' hn ?_ (by rw [problem_name w' q hq]; rfl)
              unfold Allowed
              rw [hpr]
              exact ⟨q, hmem, rfl⟩
            · cases h'

/-- The positional arguments of the commands. -/
def positionalDests : Cmd → List String
  | .analyzeData => ["data_path"]
  | .deleteCurvature => ["data_path", "target_path"]
  | .help => ["parser"]
  | .parameterVariationTest => ["directory"]
  | .printNetwork => ["network"]
  | .test => ["file"]
  | .trainNetwork => ["network"]
  | _ => []

theorem positional_spec (c : Cmd) (p : Option Prob) :
    (spec E c p).positionals.map Pos.dest = positionalDests c := by
  cases c <;> rcases p with _ | _ | _ | _ <;> rfl

/-- C125.  Whatever the words of the command line: if they are accepted, every argument of the command holds a value as
it should be. -/
theorem C125_values (words : List String) (c : Cmd) (ns : String → Arg K) (h : program E words = .ok (c, ns)) :
    ∃ nm p rest, (nm, c) ∈ names ∧ Allowed c p ∧ words = nm :: problemWords p ++ rest ∧
      ns "command" = .str nm ∧ (∀ q, p = some q → ns "problem" = .str ((problemWords p).headD "")) ∧
      ∀ d ∈ dests c, d ≠ "command" → d ≠ "problem" →
        if d ∈ positionalDests c then positionalType c d (ns d) else typeOf E c p d (ns d) := by
  obtain ⟨nm, p, rest, ns', hn, ha, hw, hp, rfl⟩ := program_ok E words c ns h
  refine ⟨nm, p, rest, hn, ha, hw, by simp [named], ?_, ?_⟩
  · intro q hq
    subst hq
    simp [named]
  · intro d hd h1 h2
    have hd' : named nm p ns' d = ns' d := by simp [named, h1, h2]
    rw [hd']
    have hpos := parse_positionals (spec E c p) (positionalType c) (ok_positionals E c p) (disjoint_spec E c p ha) .none
      rest ns' hp
    split
    · rename_i hm
      rw [← positional_spec E c p] at hm
      obtain ⟨q, hq, rfl⟩ := List.mem_map.1 hm
      exact hpos q hq
    · rename_i hm
      rw [← positional_spec E c p] at hm
      have hkept : Kept (spec E c p) fun d v => d ∈ (spec E c p).opts.map Opt.dest → typeOf E c p d v := by
        refine ⟨fun o ho v ws v' hf hv hr hmem => ok_options E c p ha o ho v ws v' hf (hv hmem) hr, ?_⟩
        intro q hq ws v _ _ hmem
        obtain ⟨o, ho, he⟩ := List.mem_map.1 hmem
        exact absurd he.symm (disjoint_spec E c p ha o ho q hq)
      refine parse_kept (spec E c p) _ hkept .none (initial_ok E c p ha) rest ns' hp d ?_
      rcases (C125_dests E c p ha d).1 hd with h' | ⟨h', -⟩ | ⟨h', -⟩
      · exact absurd h' h1
      · exact absurd h' h2
      · rcases List.mem_append.1 h' with h' | h'
        · exact h'
        · exact absurd h' hm

/-- C125.  A command line of correctly written parts, for every command. -/
theorem C125_program (c : Cmd) (nm : String) (hn : (nm, c) ∈ names) (p : Option Prob) (h : Allowed c p)
    (l : List (Item (Arg K))) (hl : ∀ a ∈ l, a.Valid (spec E c p).opts) (hr : Readable l) (gs : List (Given (Arg K)))
    (hg : givens (spec E c p).positionals l = some gs) (he : Same (exclusives l)) :
    program E (nm :: problemWords p ++ l.flatMap Item.written) =
      (settle (initial (spec E c p) .none) gs).map fun ns => (c, named nm p ns) := by
  rw [program_eq E c nm hn p h, C125_written (spec E c p) .none (C125_sound E c p h) l hl hr gs hg he]

/-- C125.  It is refused if the number of words is wrong or two exclusive options are used. -/
theorem C125_program_refused (c : Cmd) (nm : String) (hn : (nm, c) ∈ names) (p : Option Prob) (h : Allowed c p)
    (l : List (Item (Arg K))) (hl : ∀ a ∈ l, a.Valid (spec E c p).opts) (hr : Readable l)
    (hg : givens (spec E c p).positionals l = none ∨ ¬ Same (exclusives l)) (r : Cmd × (String → Arg K)) :
    program E (nm :: problemWords p ++ l.flatMap Item.written) ≠ .ok r := by
  rw [program_eq E c nm hn p h]
  cases hp : parseArgs (spec E c p) .none (l.flatMap Item.written) with
  | error e => simp [Except.map]
  | ok ns => exact absurd hp (C125_refused (spec E c p) .none (C125_sound E c p h) l hl hr hg ns)

/-! ### Particular command lines -/

theorem valid_separate {V : Type} (opts : List (Opt V)) (o : Opt V) (ho : o ∈ opts) (s : String) (hs : s ∈ o.strings)
    (args : List String) (hf : Fits o.nargs args.length) (hp : ∀ w ∈ args, Plain w) :
    (Item.option o s args .separate).Valid opts :=
  ⟨ho, Or.inl hs, hf, fun _ => hp, fun h => absurd rfl h, fun h => by cases h⟩

/-- A word whose first character is another one than `-`. -/
theorem plain_of (w : String) (h : w.toList.head? ≠ some '-') : Plain w := Or.inl h

/-- C125.  The options `-b` and `-r` cannot be used together. -/
theorem C125_exclusive (c : Cmd) (nm : String) (hn : (nm, c) ∈ names) (p : Option Prob) (h : Allowed c p)
    (l : List (Item (Arg K))) (hl : ∀ a ∈ l, a.Valid (spec E c p).opts) (hr : Readable l)
    (o o' : Opt (Arg K)) (s s' : String) (args args' : List String) (style style' : Style)
    (hb : Item.option o s args style ∈ l) (hb' : o.dest = "benchmark") (ho : "-b" ∈ o.strings)
    (hr' : Item.option o' s' args' style' ∈ l) (hd' : o'.dest = "benchmark") (ho' : "-r" ∈ o'.strings)
    (r : Cmd × (String → Arg K)) : program E (nm :: problemWords p ++ l.flatMap Item.written) ≠ .ok r := by
  refine C125_program_refused E c nm hn p h l hl hr (Or.inr ?_) r
  have hm := (hl _ hb).1
  have hm' := (hl _ hr').1
  have snd := C125_sound E c p h
  have key : ∀ x ∈ (spec E c p).opts, ∀ y ∈ (spec E c p).opts, x.dest = "benchmark" → y.dest = "benchmark" →
      "-b" ∈ x.strings → "-r" ∈ y.strings → (x.exclusive = true ∧ x.strings.headD "" = "-b") ∧
        (y.exclusive = true ∧ y.strings.headD "" = "-r") := by
    clear hl hr hb hr' hm hm' ho ho' hb' hd' hn snd
    cases c <;> rcases p with _ | _ | _ | _ <;>
      first
      | exact absurd h (by decide)
      | (clear h
         simp [spec, withProblem, direct, problemOptions, animateOptions, plotOptions, eocOptions, errorEvolutionOptions,
           generateDataOptions, variationOptions, deleteCurvatureOptions, trainOptions, generalOptions, helpOption,
           benchmarkOption, randomOption, exclusively, endTimeOption, solverOption, hideOption, saveOption,
           meshSizeOption, flag, store])
  obtain ⟨⟨e1, n1⟩, e2, n2⟩ := key o hm o' hm' hb' hd' ho ho'
  intro hsame
  have m1 : "-b" ∈ exclusives l := by
    rw [exclusives, List.mem_filterMap]
    exact ⟨_, hb, by simp only [e1, if_true, n1]⟩
  have m2 : "-r" ∈ exclusives l := by
    rw [exclusives, List.mem_filterMap]
    exact ⟨_, hr', by simp only [e2, if_true, n2]⟩
  exact absurd (hsame _ m1 _ m2) (by decide)

/-- C125.  `cls1 parameter-variation-test ... -s <solvers> <directory>`: the directory would be read as a word of `-s`,
so it is missing and the command line is refused. -/
theorem C125_directory (words : List String) (dir : String) (hw : ∀ w ∈ words, Plain w) (hd : Plain dir)
    (r : Cmd × (String → Arg K)) :
    program E ("parameter-variation-test" :: "-s" :: words ++ [dir]) ≠ .ok r := by
  have := C125_program_refused E .parameterVariationTest "parameter-variation-test" (by decide) none rfl
    [.option (solverOption E sweKeys) "-s" (words ++ [dir]) .separate] (by
      simp only [List.forall_mem_cons, List.not_mem_nil, false_imp_iff, implies_true, and_true]
      apply valid_separate
      · simp [spec, withProblem, direct, variationOptions]
      · simp [solverOption]
      · simp [solverOption, Fits]
      · intro w hm
        rcases List.mem_append.1 hm with hm | hm
        · exact hw w hm
        · rw [List.mem_singleton.1 hm]; exact hd) trivial (Or.inl rfl) r
  simpa [problemWords, Item.written] using this

/-- C125.  The command line of `scripts/gen_solver_1`, where the space before `-s` is missing, is refused: `-s` belongs
to the name of the directory, and there is no place for the word `llf`. -/
theorem C125_gen_solver_1 : program E ["generate-data", "-d", "data/reduced-llf/-s", "llf"] = .error .usage := by
  have h := program_eq E .generateData "generate-data" (by decide) none rfl ["-d", "data/reduced-llf/-s", "llf"]
  have hp := parse_eq (spec E .generateData none) .none (C125_sound E .generateData none rfl)
    [.option (store ["-d", "--directory"] "directory" text .none) "-d" ["data/reduced-llf/-s"] .separate,
      .words ["llf"]] (by
      simp only [List.forall_mem_cons, List.not_mem_nil, false_imp_iff, implies_true, and_true]
      refine ⟨?_, by simp, ?_⟩
      · apply valid_separate
        · simp [spec, withProblem, direct, generateDataOptions]
        · simp [store]
        · simp [store, Fits]
        · simp [Plain]
      · simp [Plain]) (by simp [Readable, Item.isOpen, store])
  change program E ["generate-data", "-d", "data/reduced-llf/-s", "llf"] = _ at h
  rw [h]
  change parseArgs (spec E .generateData none) .none ["-d", "data/reduced-llf/-s", "llf"] = _ at hp
  rw [hp]
  rfl

/-- C125.  The command line of `scripts/gen_solver_2`, for all names of directories, solvers and numbers: it is accepted
exactly when the solvers and the number are, and then all arguments are as written. -/
theorem C125_gen_solver_2 (dir degree : String) (words : List String) (hd : Plain dir) (hg : Plain degree)
    (hw : ∀ w ∈ words, Plain w) (hne : words ≠ []) (l : List (Key × Namespace (Val K)))
    (hs : action (solverParsers E sweKeys) words = .namespaces l) (n : ℤ) (hn : E.conv.int degree = some n)
    (hpos : 0 < n) :
    ∃ ns, program E ("generate-data" :: "-d" :: dir :: "-s" :: words ++ ["-c", degree]) = .ok (.generateData, ns) ∧
      ns "directory" = .str dir ∧ ns "solver" = .solvers l ∧ ns "coarsening_degree" = .int n ∧ ns "end_time" = .none ∧
      ns "solution_number" = .int 100 ∧ ns "seed" = .int 1 ∧ ns "input_radius" = .int 2 ∧ ns "node_index" = .int 2 ∧
      ns "append" = .bool false ∧ ns "profile" = .int 0 ∧ ns "args" = .bool false := by
  have h := C125_program E .generateData "generate-data" (by decide) none rfl
    [.option (store ["-d", "--directory"] "directory" text .none) "-d" [dir] .separate,
      .option (solverOption E sweKeys) "-s" words .separate,
      .option (store ["-c", "--coarsening-degree"] "coarsening_degree" (posInt E) (.int 8)) "-c" [degree] .separate] (by
      simp only [List.forall_mem_cons, List.not_mem_nil, false_imp_iff, implies_true, and_true]
      refine ⟨?_, ?_, ?_⟩
      · apply valid_separate
        · simp [spec, withProblem, direct, generateDataOptions]
        · simp [store]
        · simp [store, Fits]
        · simpa using hd
      · apply valid_separate
        · simp [spec, withProblem, direct, generateDataOptions]
        · simp [solverOption]
        · exact List.length_pos_iff.2 hne
        · exact hw
      · apply valid_separate
        · simp [spec, withProblem, direct, generateDataOptions]
        · simp [store]
        · simp [store, Fits]
        · simpa using hg) (by simp [Readable, Item.isWords]) _ rfl (by simp [Same, exclusives, store, solverOption])
  have e1 : convert (posInt E) degree = .ok (.int n) := by
    simp [convert, posInt, positiveInt, hn, not_le.2 hpos, Except.map]
  have e0 : convert (K := K) text dir = .ok (.str dir) := rfl
  have e2 : ∀ v, solverRun E sweKeys v words = .ok (.solvers l) := by
    intro v
    simp [solverRun, hs]
  have hw' : ("generate-data" :: problemWords none ++ ([.option (store ["-d", "--directory"] "directory" text .none) "-d"
      [dir] .separate, .option (solverOption E sweKeys) "-s" words .separate,
      .option (store ["-c", "--coarsening-degree"] "coarsening_degree" (posInt E) (.int 8)) "-c" [degree]
        .separate] : List (Item (Arg K))).flatMap Item.written) =
      "generate-data" :: "-d" :: dir :: "-s" :: words ++ ["-c", degree] := by
    simp [problemWords, Item.written]
  rw [hw'] at h
  rw [h]
  simp only [settle, List.foldlM_cons, List.foldlM_nil, store, single, solverOption, e0, e1, e2, Except.map]
  refine ⟨_, rfl, ?_⟩
  refine ⟨rfl, rfl, rfl, rfl, rfl, rfl, rfl, rfl, rfl, rfl, rfl⟩

/-- C125.  The command lines of `scripts/gen_solver_1` and `gen_solver_2` for the training of a network: all arguments
are as written, and the pair after `-p` is appended to the empty list. -/
theorem C125_train (network e seed key value : String) (hnet : network ∈ ["llf", "llf2"]) (he : Plain e)
    (hs : Plain seed) (hk : Plain key) (hv : Plain value) (n k : ℤ) (hn : E.conv.int e = some n) (hn' : 0 < n)
    (hk' : E.conv.int seed = some k) (hpos : 0 < k) :
    ∃ ns, program E ["train-network", network, "-e", e, "--seed", seed, "--resume", "-p", key, value] =
        .ok (.trainNetwork, ns) ∧
      ns "network" = .str network ∧ ns "epochs" = .int n ∧ ns "seed" = .int k ∧ ns "resume_training" = .bool true ∧
      ns "parameter" = .pairs [[key, value]] ∧ ns "skip" = .int 1 ∧ ns "confirm" = .bool false ∧
      ns "plot_loss" = .bool false := by
  have hnp : Plain network := by
    simp only [List.mem_cons, List.not_mem_nil, or_false] at hnet
    rcases hnet with rfl | rfl <;> simp [Plain]
  have h := C125_program E .trainNetwork "train-network" (by decide) none rfl
    [.words [network], .option (store ["-e", "--epochs"] "epochs" (posInt E) (.int 500)) "-e" [e] .separate,
      .option (store ["--seed"] "seed" (posInt E) .none) "--seed" [seed] .separate,
      .option (flag "--resume" "resume_training") "--resume" [] .separate,
      .option ⟨["-p", "--parameter"], "parameter", .two, appendPair, .pairs [], false⟩ "-p" [key, value] .separate] (by
      simp only [List.forall_mem_cons, List.not_mem_nil, false_imp_iff, implies_true, and_true]
      refine ⟨⟨by simp, by simpa using hnp⟩, ?_, ?_, ?_, ?_⟩
      · apply valid_separate
        · simp [spec, withProblem, direct, trainOptions]
        · simp [store]
        · simp [store, Fits]
        · simpa using he
      · apply valid_separate
        · simp [spec, withProblem, direct, trainOptions]
        · simp [store]
        · simp [store, Fits]
        · simpa using hs
      · apply valid_separate
        · simp [spec, withProblem, direct, trainOptions]
        · simp [flag]
        · simp [flag, Fits]
        · simp
      · apply valid_separate
        · simp [spec, withProblem, direct, trainOptions]
        · simp
        · simp [Fits]
        · simpa using ⟨hk, hv⟩) (by simp [Readable, Item.isWords]) _ rfl (by simp [Same, exclusives, store, flag])
  have e1 : convert (posInt E) e = .ok (.int n) := by
    simp [convert, posInt, positiveInt, hn, not_le.2 hn', Except.map]
  have e2 : convert (posInt E) seed = .ok (.int k) := by
    simp [convert, posInt, positiveInt, hk', not_le.2 hpos, Except.map]
  have e3 : networkType (K := K) network = .ok (.str network) := by simp [networkType, hnet]
  simp only [problemWords, Item.written, List.flatMap_cons, List.flatMap_nil, List.cons_append, List.nil_append,
    List.append_nil] at h
  rw [h]
  simp only [settle, List.foldlM_cons, List.foldlM_nil, store, single, flag, constant, positional, e1, e2, e3, Except.map]
  exact ⟨_, rfl, rfl, rfl, rfl, rfl, rfl, rfl, rfl, rfl⟩

/-- C125.  The command lines of `scripts/gen_results` for the initial data. -/
theorem C125_plot_initial (key path : String) (hk : Plain key) (hp : Plain path) (hb : E.bench .swe key = .ok ()) :
    ∃ ns, program E ["plot", "swe", "-b", key, "--initial", "--hide", "--save", path] = .ok (.plot, ns) ∧
      ns "benchmark" = .benchmark .swe key ∧ ns "initial" = .bool true ∧ ns "show" = .bool false ∧
      ns "save_plot" = .str path ∧ ns "solver" = .none ∧ ns "end_time" = .none ∧ ns "mesh_size" = .int 200 ∧
      ns "save_data" = .none ∧ ns "problem" = .str "swe" := by
  have h := C125_program E .plot "plot" (by decide) (some .swe) (by decide)
    [.option (exclusively (benchmarkOption E .swe "oscillation")) "-b" [key] .separate,
      .option (flag "--initial" "initial") "--initial" [] .separate, .option hideOption "--hide" [] .separate,
      .option (saveOption "save_plot" "data/plot.png") "--save" [path] .separate] (by
      simp only [List.forall_mem_cons, List.not_mem_nil, false_imp_iff, implies_true, and_true]
      refine ⟨?_, ?_, ?_, ?_⟩ <;> apply valid_separate
      · simp [spec, withProblem, problemOptions, defaultKey]
      · simp [exclusively, benchmarkOption, store]
      · simp [exclusively, benchmarkOption, store, Fits]
      · simpa using hk
      · simp [spec, withProblem, plotOptions]
      · simp [flag]
      · simp [flag, Fits]
      · simp
      · simp [spec, withProblem, plotOptions]
      · simp [hideOption]
      · simp [hideOption, Fits]
      · simp
      · simp [spec, withProblem, plotOptions]
      · simp [saveOption]
      · simp [saveOption, Fits]
      · simpa using hp) (by simp [Readable, Item.isWords]) _ rfl
    (by simp [Same, exclusives, exclusively, benchmarkOption, store, flag, hideOption, saveOption])
  have e1 : convert (benchmarkType E .swe) key = .ok (.benchmark .swe key) := by
    simp [convert, benchmarkType, hb, Except.map]
  have e2 : convert (K := K) text path = .ok (.str path) := rfl
  simp only [problemWords, Item.written, List.flatMap_cons, List.flatMap_nil, List.cons_append, List.nil_append,
    List.append_nil] at h
  rw [h]
  simp only [settle, List.foldlM_cons, List.foldlM_nil, exclusively, benchmarkOption, store, single, flag, constant,
    hideOption, saveOption, optionally, e1, e2, Except.map]
  exact ⟨_, rfl, rfl, rfl, rfl, rfl, rfl, rfl, rfl, rfl, rfl⟩

/-- C125.  The command lines of `scripts/gen_results` for the variation of parameters: the directory comes first, and
`--references`, followed by another option, stands for the directory `references`. -/
theorem C125_variation (dir seed : String) (words : List String) (hd : Plain dir) (hs : Plain seed)
    (hw : ∀ w ∈ words, Plain w) (hne : words ≠ []) (l : List (Key × Namespace (Val K)))
    (hl : action (solverParsers E sweKeys) words = .namespaces l) (k : ℤ) (hk : E.conv.int seed = some k) (hpos : 0 < k) :
    ∃ ns, program E ("parameter-variation-test" :: dir :: "--save-plot" :: "--references" :: "-v" :: "all" :: "--seed" ::
        seed :: "-s" :: words) = .ok (.parameterVariationTest, ns) ∧
      ns "directory" = .str dir ∧ ns "save_plot" = .bool true ∧ ns "references" = .str "references" ∧
      ns "references_prefix" = .str "error" ∧ ns "variations" = .strs ["all"] ∧ ns "seed" = .int k ∧
      ns "solver" = .solvers l ∧ ns "initial_data_number" = .int 20 ∧ ns "end_time" = .none ∧
      ns "save_animation" = .bool false := by
  have h := C125_program E .parameterVariationTest "parameter-variation-test" (by decide) none rfl
    [.words [dir], .option (flag "--save-plot" "save_plot") "--save-plot" [] .separate,
      .option ⟨["--references"], "references", .optional, optionally (.str "references") text, .none, false⟩
        "--references" [] .separate,
      .option ⟨["-v", "--variations"], "variations", .star, fun _ ws => .ok (.strs ws), .none, false⟩ "-v" ["all"]
        .separate,
      .option (store ["--seed"] "seed" (posInt E) (.int 1)) "--seed" [seed] .separate,
      .option (solverOption E sweKeys) "-s" words .separate] (by
      simp only [List.forall_mem_cons, List.not_mem_nil, false_imp_iff, implies_true, and_true]
      refine ⟨⟨by simp, by simpa using hd⟩, ?_, ?_, ?_, ?_, ?_⟩ <;> apply valid_separate
      · simp [spec, withProblem, direct, variationOptions]
      · simp [flag]
      · simp [flag, Fits]
      · simp
      · simp [spec, withProblem, direct, variationOptions]
      · simp
      · simp [Fits]
      · simp
      · simp [spec, withProblem, direct, variationOptions]
      · simp
      · simp [Fits]
      · simp [Plain]
      · simp [spec, withProblem, direct, variationOptions]
      · simp [store]
      · simp [store, Fits]
      · simpa using hs
      · simp [spec, withProblem, direct, variationOptions]
      · simp [solverOption]
      · exact List.length_pos_iff.2 hne
      · exact hw) (by simp [Readable, Item.isWords]) _ rfl
    (by simp [Same, exclusives, store, flag, solverOption])
  have e1 : convert (posInt E) seed = .ok (.int k) := by
    simp [convert, posInt, positiveInt, hk, not_le.2 hpos, Except.map]
  have e2 : ∀ v, solverRun E sweKeys v words = .ok (.solvers l) := by
    intro v
    simp [solverRun, hl]
  simp only [problemWords, Item.written, List.flatMap_cons, List.flatMap_nil, List.cons_append, List.nil_append,
    List.append_nil] at h
  rw [h]
  simp only [settle, List.foldlM_cons, List.foldlM_nil, store, single, flag, constant, positional, solverOption,
    optionally, e1, e2, Except.map]
  exact ⟨_, rfl, rfl, rfl, rfl, rfl, rfl, rfl, rfl, rfl, rfl, rfl⟩

/-- C125.  Which commands need `-s` although the parser does not ask for it: the words alone are accepted, and then the
program raises. -/
theorem C125_missing_solver (world : World (Arg K)) (hw : KeepsList world) (hn : world.isNone .none = true) :
    (∀ p, run E world ("animate" :: problemWords (some p)) = .error (.inr .typeError)) ∧
    run E world ["plot-error-evolution"] = .error (.inr .assertionError) ∧
    run E world ["generate-data"] = .error (.inr .assertionError) ∧
    ∀ dir, Plain dir → run E world ["parameter-variation-test", dir] = .error (.inr .assertionError) := by
  have hc : solverCount world .none = 0 := by simp [solverCount, hn]
  refine ⟨fun p => ?_, ?_, ?_, fun dir hd => ?_⟩
  · have h := C125_program E .animate "animate" (by decide) (some p) (by cases p <;> decide) [] (by simp) trivial []
      (by cases p <;> rfl) (by simp [Same, exclusives])
    simp only [List.flatMap_nil, List.append_nil] at h
    unfold run
    rw [h]
    have hs : named "animate" (some p) (initial (spec E .animate (some p)) .none) "solver" = .none := by
      cases p <;> rfl
    simp only [settle, List.foldlM_nil, pure, Except.pure, Except.map]
    rw [C116_animate world hw]
    simp only [hs, hn, if_true]
  · have h := C125_program E .plotErrorEvolution "plot-error-evolution" (by decide) none rfl [] (by simp) trivial [] rfl
      (by simp [Same, exclusives])
    change program E ["plot-error-evolution"] = _ at h
    unfold run
    rw [h]
    have hs : named "plot-error-evolution" none (initial (spec E .plotErrorEvolution none) .none) "solver" = .none := rfl
    simp only [settle, List.foldlM_nil, pure, Except.pure, Except.map]
    rw [C116_plot_error_evolution world hw]
    simp [hs, hc]
  · have h := C125_program E .generateData "generate-data" (by decide) none rfl [] (by simp) trivial [] rfl
      (by simp [Same, exclusives])
    change program E ["generate-data"] = _ at h
    unfold run
    rw [h]
    have hs : named "generate-data" none (initial (spec E .generateData none) .none) "solver" = .none := rfl
    simp only [settle, List.foldlM_nil, pure, Except.pure, Except.map]
    rw [C116_generate_data world]
    simp [hs, hc]
  · have h := C125_program E .parameterVariationTest "parameter-variation-test" (by decide) none rfl [.words [dir]]
      (by simpa [Item.Valid] using hd) (by simp [Readable]) _ rfl (by simp [Same, exclusives])
    change program E ["parameter-variation-test", dir] = _ at h
    unfold run
    rw [h]
    have hs : named "parameter-variation-test" none (update (initial (spec E .parameterVariationTest none) .none)
      "directory" (.str dir)) "solver" = .none := rfl
    simp only [settle, List.foldlM_cons, List.foldlM_nil, pure, Except.pure, Except.map, positional, bind, Except.bind,
      List.append_nil]
    rw [C116_parameter_variation_test world hw]
    simp [hs, hc]

/-- Negative numbers are arguments, but not if they are written with an exponent. -/
example : Plain "-0.5" ∧ Plain "-3" ∧ ¬ Plain "-1e-3" ∧ ¬ Plain "-s" := by
  refine ⟨Or.inr (by decide +kernel), Or.inr (by decide +kernel), ?_, ?_⟩ <;>
    · rintro (h | h)
      · exact h (by decide +kernel)
      · exact absurd h (by decide +kernel)

/-- `cls1 plot swe --bench=b1 --hide`: an abbreviated option with its value in the same word. -/
example : ∃ ns, program exampleEnv ["plot", "swe", "--bench=b1", "--hide"] = .ok (.plot, ns) ∧
    ns "benchmark" = .benchmark .swe "b1" ∧ ns "show" = .bool false := by
  have h := C125_program exampleEnv .plot "plot" (by decide) (some .swe) (by decide)
    [.option (exclusively (benchmarkOption exampleEnv .swe "oscillation")) "--bench" ["b1"] .equals,
      .option hideOption "--hide" [] .separate] (by
      simp only [List.forall_mem_cons, List.not_mem_nil, false_imp_iff, implies_true, and_true]
      refine ⟨⟨by simp [spec, withProblem, problemOptions, defaultKey], Or.inr ?_, by
        simp [exclusively, benchmarkOption, store, Fits], fun h => (by cases h), fun _ => rfl, fun h => (by cases h)⟩, ?_⟩
      · refine ⟨by decide, by decide +kernel, by decide, "--benchmark", by simp [exclusively, benchmarkOption, store],
          by decide +kernel, ?_⟩
        have : (strings (spec exampleEnv .plot (some .swe)).opts).all
            (fun t => decide ("--bench".toList <+: t.toList → t = "--benchmark")) = true := by decide +kernel
        intro o' ho' t' ht' hp
        have := List.all_eq_true.1 this t' (List.mem_flatMap.2 ⟨o', ho', ht'⟩)
        exact of_decide_eq_true this hp
      · apply valid_separate
        · simp [spec, withProblem, plotOptions]
        · simp [hideOption]
        · simp [hideOption, Fits]
        · simp) (by simp [Readable, Item.isWords]) _ rfl
    (by simp [Same, exclusives, exclusively, benchmarkOption, store, hideOption])
  have hw : ("plot" :: problemWords (some Prob.swe) ++ ([.option (exclusively (benchmarkOption exampleEnv .swe
      "oscillation")) "--bench" ["b1"] .equals, .option hideOption "--hide" [] .separate] :
      List (Item (Arg ℚ))).flatMap Item.written) = ["plot", "swe", "--bench=b1", "--hide"] := by
    simp [problemWords, Item.written]
  rw [hw] at h
  rw [h]
  exact ⟨_, rfl, rfl, rfl⟩

end Verif.Argv
