import Verif.Props.ArgvCalculate
import Verif.Props.ArgvManual

/-!
C125: what makes the whole command line fail, whatever else is written on it: an option that does not exist, an option
with too few words, an option without argument that is given one, and words that cannot be converted.
-/

set_option linter.unusedSectionVars false

namespace Verif.Argv

open Verif.Py Verif.Utilities Verif.Cli Verif.Registry
open Verif.Options (Style Conversions Key Val prog scalarKeys sweKeys parseSolver construct withHistory Settings partition
  partition_fst startsWith startsWith_iff mem_of_lookup)

section Errors

variable {V : Type}

/-- A word that looks like an option and is none: it begins with `-`, is no negative number and has no space; after
`--` the part before the equals sign begins no option, otherwise its first two characters are no option. -/
def Foreign (opts : List (Opt V)) (w : String) : Prop :=
  w.toList.head? = some '-' ∧ 2 ≤ w.toList.length ∧ ' ' ∉ w.toList ∧ isNegativeNumber w = false ∧
    (((w.toList.drop 1).head? = some '-' ∧
        ∀ o ∈ opts, ∀ s ∈ o.strings, ¬ w.toList.takeWhile (fun c => c != '=') <+: s.toList) ∨
      ((w.toList.drop 1).head? ≠ some '-' ∧ ∀ o ∈ opts, ∀ s ∈ o.strings, s.toList ≠ w.toList.take 2))

/-- The smallest number of words of an option. -/
def least : Nargs → ℕ
  | .zero => 0
  | .one => 1
  | .optional => 0
  | .plus => 1
  | .star => 0
  | .two => 2

theorem prefix_second (l m : List Char) (h : l <+: m) (h2 : 2 ≤ l.length) : (m.drop 1).head? = (l.drop 1).head? := by
  obtain ⟨r, rfl⟩ := h
  match l, h2 with
  | a :: b :: l, _ => rfl

theorem parse_foreign (opts : List (Opt V)) (hs : Sound opts) (w : String) (h : Foreign opts w) :
    parseOptional opts w = .ok .unknown := by
  obtain ⟨h1, h2, h3, h4, h5⟩ := h
  have hlk : ∀ x : String, x.toList <+: w.toList → (x = w ∨ x = (partition w).1) → (actions opts).lookup x = none := by
    intro x hx hx'
    apply Options.lookup_none'
    intro hm
    obtain ⟨⟨s, o⟩, hp, rfl⟩ := List.mem_map.1 hm
    obtain ⟨ho, hso⟩ := (mem_actions opts s o).1 hp
    dsimp only at hx hx'
    have h2s : 2 ≤ s.toList.length := by rcases hs.form o ho s hso with h | h <;> omega
    rcases h5 with ⟨h5, h6⟩ | ⟨h5, h6⟩
    · apply h6 o ho s hso
      rcases hx' with rfl | rfl
      · exact List.takeWhile_prefix _
      · rw [partition_fst]
    · have hsec := prefix_second _ _ hx h2s
      rcases hs.form o ho s hso with ⟨g1, g2⟩ | ⟨g1, g2⟩
      · apply h6 o ho s hso
        rw [List.prefix_iff_eq_take] at hx
        rw [hx, g1]
      · exact h5 (hsec.trans g2)
  rw [parseOptional, if_neg (by rw [not_not]; exact h1), hlk w (List.prefix_refl _) (Or.inl rfl)]
  simp only
  rw [if_neg (by omega)]
  have ht : optionTuples opts w = [] := by
    unfold optionTuples
    split
    · rename_i hd
      rcases h5 with ⟨-, h6⟩ | ⟨h5, -⟩
      · rw [List.filterMap_eq_nil_iff]
        rintro ⟨s, o⟩ hp
        obtain ⟨ho, hso⟩ := (mem_actions opts s o).1 hp
        have : startsWith s (partition w).1 = false := by
          rw [Bool.eq_false_iff, ne_eq, startsWith_iff, partition_fst]
          exact h6 o ho s hso
        simp [this]
      · exact absurd hd h5
    · rename_i hd
      rcases h5 with ⟨h5, -⟩ | ⟨-, h6⟩
      · exact absurd h5 hd
      · rw [List.filterMap_eq_nil_iff]
        rintro ⟨s, o⟩ hp
        obtain ⟨ho, hso⟩ := (mem_actions opts s o).1 hp
        have n1 : s ≠ String.ofList (w.toList.take 2) := by
          intro he
          exact h6 o ho s hso (by rw [he]; simp)
        have n2 : startsWith s w = false := by
          rw [Bool.eq_false_iff, ne_eq, startsWith_iff]
          intro hpre
          have hsec := prefix_second _ _ hpre h2
          rcases hs.form o ho s hso with ⟨g1, g2⟩ | ⟨g1, g2⟩
          · apply h6 o ho s hso
            have := hpre.length_le
            rw [← hpre.eq_of_length (by omega), List.take_of_length_le (by rw [hpre.eq_of_length (by omega), g1])]
          · exact hd (hsec.symm.trans g2)
        simp [n1, n2]
  rw [hlk (partition w).1 (by rw [partition_fst]; exact List.takeWhile_prefix _) (Or.inr rfl), ht]
  simp only [h4, h3, if_false, Bool.false_eq_true]
  cases (partition w).2 <;> rfl

theorem step_extras (st st' : State V) (s : Segment V) (h : step st s = .ok st') (hx : st.extras = true) :
    st'.extras = true := by
  unfold step at h
  split at h
  · exact give_extras _ _ _ h rfl
  · split at h
    · rename_i o e _ _ _
      cases ht : take st o [e] with
      | error e => rw [ht] at h; cases h
      | ok st1 =>
        rw [ht] at h
        exact give_extras _ _ _ h (by rw [take_extras _ _ _ _ ht, hx])
    · cases h
  · split at h
    · cases h
    · rename_i o _ _ k _
      cases ht : take st o (s.args.take k) with
      | error e => rw [ht] at h; cases h
      | ok st1 =>
        rw [ht] at h
        exact give_extras _ _ _ h (by rw [take_extras _ _ _ _ ht, hx])

theorem steps_extras (l : List (Segment V)) (st st' : State V) (h : l.foldlM step st = .ok st')
    (hx : st.extras = true) : st'.extras = true := by
  induction l generalizing st with
  | nil => cases h; exact hx
  | cons s l ih =>
    rw [List.foldlM_cons] at h
    cases hst : step st s with
    | error e => rw [hst] at h; cases h
    | ok st1 => rw [hst] at h; exact ih st1 h (step_extras _ _ _ hst hx)

/-- What is true of the segments of an accepted command line. -/
def Fine (s : Segment V) : Prop :=
  ∃ o e, s.option = some (o, e) ∧ (e = none → least o.nargs ≤ s.args.length) ∧ (e ≠ none → Fits o.nargs 1)

theorem step_fine (st st' : State V) (s : Segment V) (h : step st s = .ok st') (hx : st'.extras = false) : Fine s := by
  unfold step at h
  split at h
  · have := give_extras _ _ _ h rfl
    rw [hx] at this; cases this
  · rename_i o e heq
    refine ⟨o, some e, heq, nofun, fun _ => ?_⟩
    split at h
    · rename_i hc
      revert hc
      cases o.nargs <;> simp [count, Fits]
    · cases h
  · rename_i o heq
    refine ⟨o, none, heq, fun _ => ?_, fun h => absurd rfl h⟩
    split at h
    · cases h
    · rename_i k hc
      revert hc
      cases o.nargs <;> simp only [count, least] <;> first | omega | (split <;> simp <;> omega)

theorem steps_fine (l : List (Segment V)) (st st' : State V) (h : l.foldlM step st = .ok st')
    (hx : st'.extras = false) : ∀ s ∈ l, Fine s := by
  induction l generalizing st with
  | nil => intro s hs; cases hs
  | cons s l ih =>
    rw [List.foldlM_cons] at h
    cases hst : step st s with
    | error e => rw [hst] at h; cases h
    | ok st1 =>
      rw [hst] at h
      intro a ha
      rcases List.mem_cons.1 ha with rfl | ha
      · apply step_fine _ _ _ hst
        rw [Bool.eq_false_iff]
        intro h1
        have := steps_extras l st1 st' h h1
        rw [hx] at this; cases this
      · exact ih st1 h a ha

theorem parse_fine (spec : Spec V) (none : V) (words : List String) (ns : String → V)
    (h : parseArgs spec none words = .ok ns) :
    ∃ classes, words.mapM (parseOptional spec.opts) = .ok classes ∧
      ∀ s ∈ (segments (words.zip classes)).2, Fine s := by
  unfold parseArgs at h
  cases hc : words.mapM (parseOptional spec.opts) with
  | error e => rw [hc] at h; cases h
  | ok classes =>
    refine ⟨classes, rfl, ?_⟩
    rw [hc] at h
    change (give _ _).bind _ = _ at h
    cases hg : give ⟨initial spec none, spec.positionals, [], false⟩ (segments (words.zip classes)).1 with
    | error e => rw [hg] at h; cases h
    | ok st =>
      rw [hg] at h
      change (List.foldlM step st _).bind stop = _ at h
      cases hf : (segments (words.zip classes)).2.foldlM step st with
      | error e => rw [hf] at h; cases h
      | ok st' =>
        rw [hf] at h
        apply steps_fine _ _ _ hf
        rw [Bool.eq_false_iff]
        intro hx
        exact not_stop st' hx ns h

theorem mapM_split {α β ε : Type*} (f : α → Except ε β) (l l' : List α) (r : List β) (h : (l ++ l').mapM f = .ok r) :
    ∃ a b, l.mapM f = .ok a ∧ l'.mapM f = .ok b ∧ r = a ++ b ∧ a.length = l.length := by
  rw [List.mapM_append] at h
  cases h1 : l.mapM f with
  | error e => rw [h1] at h; cases h
  | ok a =>
    cases h2 : l'.mapM f with
    | error e => rw [h1, h2] at h; cases h
    | ok b =>
      rw [h1, h2] at h
      cases h
      exact ⟨a, b, rfl, rfl, rfl, (Calculate.mapM_forall _ _ _ h1).length_eq.symm⟩

theorem mapM_head {α β ε : Type*} (f : α → Except ε β) (x : α) (l : List α) (y : β) (r : List β) (hx : f x = .ok y)
    (h : (x :: l).mapM f = .ok r) : ∃ b, l.mapM f = .ok b ∧ r = y :: b := by
  rw [List.mapM_cons, hx] at h
  cases h2 : l.mapM f with
  | error e => rw [h2] at h; cases h
  | ok b => rw [h2] at h; cases h; exact ⟨b, rfl, rfl⟩

theorem segments_mem (l l' : List (String × Word V)) (s : Segment V) (h : s ∈ (segments l').2) :
    s ∈ (segments (l ++ l')).2 := by
  induction l with
  | nil => exact h
  | cons a l ih =>
    obtain ⟨w, c⟩ := a
    cases c <;> simp [segments, ih]

/-- The segment that begins with a word somewhere on an accepted line is a correct one. -/
theorem line_fine (spec : Spec V) (none : V) (pre post : List String) (w : String) (c : Word V)
    (hc : parseOptional spec.opts w = .ok c) (ns : String → V)
    (h : parseArgs spec none (pre ++ w :: post) = .ok ns) :
    ∃ classes, post.mapM (parseOptional spec.opts) = .ok classes ∧
      ∀ s ∈ (segments ((w, c) :: post.zip classes)).2, Fine s := by
  obtain ⟨classes, hm, hfine⟩ := parse_fine spec none _ ns h
  obtain ⟨a, b, h1, h2, rfl, hl⟩ := mapM_split _ _ _ _ hm
  obtain ⟨b', h3, rfl⟩ := mapM_head _ _ _ _ _ hc h2
  refine ⟨b', h3, fun s hs => hfine s ?_⟩
  rw [List.zip_append hl.symm]
  exact segments_mem _ _ _ hs

/-- C125.  A word that looks like an option and is none makes the parser refuse the line, wherever it is written. -/
theorem C125_unknown (spec : Spec V) (none : V) (hs : Sound spec.opts) (words : List String) (w : String)
    (hw : w ∈ words) (h : Foreign spec.opts w) (ns : String → V) : parseArgs spec none words ≠ .ok ns := by
  intro hok
  obtain ⟨pre, post, rfl⟩ := List.append_of_mem hw
  obtain ⟨classes, -, hf⟩ := line_fine spec none pre post w _ (parse_foreign spec.opts hs w h) ns hok
  obtain ⟨o, e, ho, -⟩ := hf ⟨Option.none, (segments (post.zip classes)).1⟩ (by simp [segments])
  cases ho

/-- C125.  An option followed by fewer words than it needs makes the parser refuse the line. -/
theorem C125_too_few (spec : Spec V) (none : V) (hs : Sound spec.opts) (o : Opt V) (ho : o ∈ spec.opts) (s : String)
    (hso : s ∈ o.strings ∨ Abbreviates spec.opts s o) (pre ws post : List String) (hws : ∀ w ∈ ws, Plain w)
    (hpost : ∀ t, post.head? = some t → ∃ o' ∈ spec.opts, t ∈ o'.strings) (hl : ws.length < least o.nargs)
    (ns : String → V) : parseArgs spec none (pre ++ s :: ws ++ post) ≠ .ok ns := by
  intro hok
  rw [List.append_assoc, List.cons_append] at hok
  have hc : parseOptional spec.opts s = .ok (.option o Option.none) :=
    hso.elim (parse_exact spec.opts hs o ho s) (parse_abbreviated spec.opts hs o ho s)
  obtain ⟨classes, hm, hf⟩ := line_fine spec none pre _ s _ hc ns hok
  obtain ⟨a, b, h1, h2, rfl, hlen⟩ := mapM_split _ _ _ _ hm
  rw [mapM_plain spec.opts hs ws hws] at h1
  cases h1
  rw [List.zip_append (by simp)] at hf
  have hb : (segments (post.zip b)).1 = [] := by
    cases post with
    | nil => rfl
    | cons t post =>
      obtain ⟨o', ho', ht⟩ := hpost t rfl
      obtain ⟨b', -, rfl⟩ := mapM_head _ _ _ _ _ (parse_exact spec.opts hs o' ho' t ht) h2
      simp [segments]
  obtain ⟨o1, e, h3, h4, -⟩ := hf ⟨some (o, Option.none), ws⟩ (by
    rw [segments, segments_plain, hb, List.append_nil]
    exact List.mem_cons_self ..)
  cases h3
  exact absurd (h4 rfl) (not_le.2 hl)

/-- C125.  An equals sign after an option which has no argument, or two, makes the parser refuse the line. -/
theorem C125_flag_argument (spec : Spec V) (none : V) (hs : Sound spec.opts) (o : Opt V) (ho : o ∈ spec.opts)
    (s r : String) (hso : s ∈ o.strings ∨ Abbreviates spec.opts s o) (hf : ¬ Fits o.nargs 1) (words : List String)
    (hw : s ++ "=" ++ r ∈ words) (ns : String → V) : parseArgs spec none words ≠ .ok ns := by
  intro hok
  obtain ⟨pre, post, rfl⟩ := List.append_of_mem hw
  obtain ⟨classes, -, hfine⟩ := line_fine spec none pre post _ _ (parse_equals spec.opts hs o ho s r hso) ns hok
  obtain ⟨o1, e, h1, -, h2⟩ := hfine ⟨some (o, some r), (segments (post.zip classes)).1⟩ (by simp [segments])
  cases h1
  exact hf (h2 (by simp))

end Errors

section Programs

variable {K : Type} [Field K] [LinearOrder K] [IsStrictOrderedRing K] (E : Env K)

theorem program_refused (c : Cmd) (nm : String) (hn : (nm, c) ∈ names) (p : Option Prob) (h : Allowed c p)
    (words : List String) (hw : ∀ ns, parseArgs (spec E c p) .none words ≠ .ok ns) (r : Cmd × (String → Arg K)) :
    program E (nm :: problemWords p ++ words) ≠ .ok r := by
  rw [program_eq E c nm hn p h]
  cases hp : parseArgs (spec E c p) .none words with
  | error e => simp [Except.map]
  | ok ns => exact absurd hp (hw ns)

/-- C125.  No command runs with an option it does not have. -/
theorem C125_program_unknown (c : Cmd) (nm : String) (hn : (nm, c) ∈ names) (p : Option Prob) (h : Allowed c p)
    (words : List String) (w : String) (hw : w ∈ words) (hf : Foreign (spec E c p).opts w)
    (r : Cmd × (String → Arg K)) : program E (nm :: problemWords p ++ words) ≠ .ok r :=
  program_refused E c nm hn p h words (C125_unknown _ _ (C125_sound E c p h) words w hw hf) r

/-- C125.  A word that cannot be converted ends the program: with a message about the usage for `ValueError` and
`TypeError`, with the exception itself otherwise. -/
theorem C125_benchmark_error (c : Cmd) (nm : String) (hn : (nm, c) ∈ names) (p : Prob) (h : Allowed c (some p))
    (key : String) (t : Option String) (hkey : Plain key) (ht : ∀ w ∈ t, Plain w) (ws : List String)
    (hws : ∀ w ∈ ws, Plain w) (hne : ws ≠ []) (e : Error) (he : E.bench p key = .error e) :
    program E (nm :: problemWords (some p) ++ lineWords (some key) t ws) =
      .error (if e = .valueError ∨ e = .typeError then .usage else .raised e) := by
  rw [C125_line E c nm hn p h (some key) t (by simpa using hkey) ht ws hws hne]
  have hb : benchmarkType E p key = .error e := by rw [benchmarkType, he]; rfl
  cases e <;> simp [convert, hb] <;> rfl

/-- C125.  The same for the end time. -/
theorem C125_end_time_error (c : Cmd) (nm : String) (hn : (nm, c) ∈ names) (p : Prob) (h : Allowed c (some p))
    (t : String) (ht : Plain t) (ws : List String) (hws : ∀ w ∈ ws, Plain w) (hne : ws ≠ [])
    (he : E.conv.float t = none) :
    program E (nm :: problemWords (some p) ++ lineWords none (some t) ws) = .error .usage := by
  rw [C125_line E c nm hn p h none (some t) (by simp) (by simpa using ht) ws hws hne]
  have hb : posFloat E t = .error .valueError := by
    rw [posFloat]; simp [positiveFloat, he, Except.map]
  simp [convert, hb]
  rfl

/-- C125.  An unknown benchmark raises `KeyError`, there is no message about the usage. -/
theorem C125_unknown_benchmark (cv : Conversions ℝ) (newton : (ℝ → ℝ) → ℝ → Except Error ℝ) (c : Cmd) (nm : String)
    (hn : (nm, c) ∈ names) (h : Allowed c (some .burgers)) (key : String) (hkey : Plain key)
    (hun : key ∉ burgersTable.map Prod.fst) (ws : List String) (hws : ∀ w ∈ ws, Plain w) (hne : ws ≠ []) :
    program (realEnv cv newton) (nm :: problemWords (some .burgers) ++ lineWords (some key) none ws) =
      .error (.raised .keyError) := by
  rw [C125_benchmark_error (realEnv cv newton) c nm hn .burgers h key none hkey (by simp) ws hws hne .keyError
    (by change called burgersTable key = _; rw [called, Options.lookup_none' _ _ hun])]
  simp

/-- C125.  If a solver cannot be read, the program ends: with `quit()`, that is as if nothing were wrong, or with the message of
the solver's own parser about the usage (in the model `RuntimeError`), or with the exception. -/
theorem C125_solver_error (c : Cmd) (nm : String) (hn : (nm, c) ∈ names) (p : Prob) (h : Allowed c (some p))
    (ws : List String) (hws : ∀ w ∈ ws, Plain w) (hne : ws ≠ []) :
    (action (solverParsers E (solverKeys p)) ws = .quit →
      program E (nm :: problemWords (some p) ++ lineWords none none ws) = .error .quit) ∧
    ∀ e, action (solverParsers E (solverKeys p)) ws = .raised e →
      program E (nm :: problemWords (some p) ++ lineWords none none ws) =
        .error (if e = .runtimeError then .usage else .raised e) := by
  rw [C125_line E c nm hn p h none none (by simp) (by simp) ws hws hne]
  constructor
  · intro ha
    simp only [solverRun, ha]
    rfl
  · intro e ha
    simp only [solverRun, ha]
    cases e <;> rfl

/-- C125.  An unknown name of a solver ends the program with `quit()`. -/
theorem C125_unknown_solver (c : Cmd) (nm : String) (hn : (nm, c) ∈ names) (p : Prob) (h : Allowed c (some p))
    (w : String) (ws : List String) (hws : ∀ x ∈ w :: ws, Plain x) (hw : ∀ k ∈ solverKeys p, w ≠ prog k) :
    program E (nm :: problemWords (some p) ++ lineWords none none (w :: ws)) = .error .quit := by
  refine (C125_solver_error E c nm hn p h (w :: ws) hws (by simp)).1 ?_
  apply C74_unknown
  intro hm
  simp only [solverParsers, List.map_map, List.mem_map, Function.comp_apply] at hm
  obtain ⟨k, hk, e⟩ := hm
  exact hw k hk e.symm

/-- C125.  A first word that is the name of no command ends the program: with the help for `-h` and the beginnings of `--help`
from `--h` on, with a message about the usage otherwise.  The same for the name of a problem after a command that needs
one. -/
theorem C125_no_command (w : String) (hw : ∀ c, w ≠ nameOf c) (rest : List String) :
    program E (w :: rest) = .error (if w = "-h" ∨ ("--h".toList <+: w.toList ∧ w.toList <+: "--help".toList) then .help
      else .usage) ∧ program E [] = .error .usage := by
  refine ⟨?_, rfl⟩
  have hl : names.lookup w = none := by
    apply Options.lookup_none'
    intro hm
    obtain ⟨⟨s, c⟩, hp, rfl⟩ := List.mem_map.1 hm
    exact hw c ((C125_names s c).1 hp)
  have e : w ∈ ["-h", "--help", "--h", "--he", "--hel"] ↔
      w = "-h" ∨ ("--h".toList <+: w.toList ∧ w.toList <+: "--help".toList) := by
    constructor
    · intro hm
      simp only [List.mem_cons, List.not_mem_nil, or_false] at hm
      rcases hm with rfl | rfl | rfl | rfl | rfl
      · exact Or.inl rfl
      all_goals exact Or.inr ⟨by decide +kernel, by decide +kernel⟩
    · rintro (rfl | ⟨h1, h2⟩)
      · simp
      · have h3 := h2.length_le
        have h4 := h1.length_le
        rw [List.prefix_iff_eq_take] at h2
        have h5 : w = String.ofList ("--help".toList.take w.toList.length) := by rw [← h2]; simp
        generalize w.toList.length = m at *
        have h6 : "--help".toList.length = 6 := by decide +kernel
        have h7 : "--h".toList.length = 3 := by decide +kernel
        rw [h6] at h3
        rw [h7] at h4
        rw [h5]
        interval_cases m <;> decide +kernel
  rw [program]
  simp only [hl, noName, e]

/-- `--foo`, `--foo=1` and `-x` are no options of `plot advection`. -/
example : Foreign (spec exampleEnv .plot (some .advection)).opts "--foo" ∧
    Foreign (spec exampleEnv .plot (some .advection)).opts "--foo=1" ∧
    Foreign (spec exampleEnv .plot (some .advection)).opts "-x" := by
  refine ⟨?_, ?_, ?_⟩ <;> unfold Foreign <;> decide +kernel

/-- `cls1 plot advection --foo -s llf`. -/
example (r) : program exampleEnv ("plot" :: problemWords (some .advection) ++ ["--foo", "-s", "llf"]) ≠ .ok r :=
  C125_program_unknown exampleEnv .plot "plot" (by decide) (some .advection) (by decide) _ "--foo" (by simp)
    (by unfold Foreign; decide +kernel) r

/-- `cls1 plot advection --hide=1`. -/
example (ns) : parseArgs (spec exampleEnv .plot (some .advection)) .none ["--hide=1"] ≠ .ok ns :=
  C125_flag_argument _ _ (C125_sound exampleEnv .plot (some .advection) (by decide)) (hideOption) (by
    simp [spec, withProblem, plotOptions]) "--hide" "1" (Or.inl (by simp [hideOption])) (by simp [hideOption, Fits]) _
    (by decide) ns

/-- `cls1 plot advection -T -s llf`: no end time. -/
example (ns) : parseArgs (spec exampleEnv .plot (some .advection)) .none ["-T", "-s", "llf"] ≠ .ok ns :=
  C125_too_few _ _ (C125_sound exampleEnv .plot (some .advection) (by decide)) (endTimeOption exampleEnv) (by
    simp [spec, withProblem, problemOptions]) "-T" (Or.inl (by simp [endTimeOption, store])) [] [] ["-s", "llf"] (by simp)
    (by
      rintro t ⟨rfl⟩
      exact ⟨solverOption exampleEnv scalarKeys, by simp [spec, withProblem, problemOptions], by simp [solverOption]⟩)
    (by simp [endTimeOption, store, least]) ns

/-- `cls1 plot burgers -s lff`. -/
example : program exampleEnv ["plot", "burgers", "-s", "lff"] = .error .quit :=
  C125_unknown_solver exampleEnv .plot "plot" (by decide) .burgers (by decide) "lff" [] (by simp [Plain])
    (by intro k _; cases k <;> decide)

/-- `cls1 --he`, `cls1 polt burgers`. -/
example : program exampleEnv ["--he"] = .error .help ∧ program exampleEnv ["polt", "burgers"] = .error .usage := by
  refine ⟨(C125_no_command exampleEnv "--he" (by intro c; cases c <;> decide) []).1.trans ?_,
    (C125_no_command exampleEnv "polt" (by intro c; cases c <;> decide) _).1.trans ?_⟩
  · rw [if_pos (by decide +kernel)]
  · rw [if_neg (by decide +kernel)]

/-- `cls1 plot burgers -b nothing -s llf`. -/
example (newton : (ℝ → ℝ) → ℝ → Except Error ℝ) :
    program (realEnv Calculate.exampleConversions newton) ["plot", "burgers", "-b", "nothing", "-s", "llf"] =
      .error (.raised .keyError) :=
  C125_unknown_benchmark Calculate.exampleConversions newton .plot "plot" (by decide) (by decide) "nothing"
    (by simp [Plain]) (by simp [burgersTable]) ["llf"] (by simp [Plain]) (by simp)

end Programs

end Verif.Argv
