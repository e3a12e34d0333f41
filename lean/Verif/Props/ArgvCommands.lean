import Verif.Props.Argv

/-!
C125: the commands of the program.
-/

set_option linter.unusedSectionVars false

namespace Verif.Argv

open Verif.Py Verif.Utilities Verif.Cli
open Verif.Options (Style Conversions Key Val prog scalarKeys sweKeys parseSolver)

/-! ### What an accepted command line guarantees -/

section Invariant

variable {V : Type}

theorem mem_of_option (opts : List (Opt V)) (w : String) (o : Opt V) (e : Option String)
    (h : parseOptional opts w = .ok (.option o e)) : o ∈ opts := by
  have look : ∀ s o, (actions opts).lookup s = some o → o ∈ opts := fun s o hl =>
    ((mem_actions opts s o).1 (Options.mem_of_lookup _ _ _ hl)).1
  have tup : ∀ q ∈ optionTuples opts w, q.1 ∈ opts := by
    intro q hq
    unfold optionTuples at hq
    split at hq
    · obtain ⟨⟨t, o'⟩, hm, hf⟩ := List.mem_filterMap.1 hq
      simp only at hf
      split at hf
      · rw [Option.some.injEq] at hf
        rw [← hf]
        exact ((mem_actions opts _ _).1 hm).1
      · cases hf
    · obtain ⟨⟨t, o'⟩, hm, hf⟩ := List.mem_filterMap.1 hq
      simp only at hf
      split at hf
      · rw [Option.some.injEq] at hf
        rw [← hf]
        exact ((mem_actions opts _ _).1 hm).1
      · split at hf
        · rw [Option.some.injEq] at hf
          rw [← hf]
          exact ((mem_actions opts _ _).1 hm).1
        · cases hf
  unfold parseOptional at h
  split at h
  · cases h
  · split at h
    · rename_i o' hl
      cases h
      exact look _ _ hl
    · split at h
      · cases h
      · split at h
        · rename_i o' _ hl
          cases h
          exact look _ _ hl
        · split at h
          · rename_i o' e' ht
            cases h
            exact tup _ (by rw [ht]; exact List.mem_cons_self ..)
          · cases h
          · split at h
            · cases h
            · split at h <;> cases h

/-- All options come from the table. -/
def From (opts : List (Opt V)) (s : Segment V) : Prop := ∀ o e, s.option = some (o, e) → o ∈ opts

theorem segments_from (opts : List (Opt V)) (l : List (String × Word V))
    (h : ∀ w o e, (w, Word.option o e) ∈ l → o ∈ opts) : ∀ s ∈ (segments l).2, From opts s := by
  induction l with
  | nil => intro s hs; cases hs
  | cons q l ih =>
    obtain ⟨w, c⟩ := q
    have ih := ih fun w o e hm => h w o e (List.mem_cons_of_mem _ hm)
    cases c with
    | argument => exact ih
    | unknown =>
      intro s hs
      rcases List.mem_cons.1 hs with rfl | hs
      · intro o e he; cases he
      · exact ih s hs
    | option o e =>
      intro s hs
      rcases List.mem_cons.1 hs with rfl | hs
      · intro o' e' he
        cases he
        exact h w o e (List.mem_cons_self ..)
      · exact ih s hs

theorem mem_mapM {α β ε : Type*} (f : α → Except ε β) (l : List α) (r : List β) (h : l.mapM f = .ok r) :
    ∀ a b, (a, b) ∈ l.zip r → f a = .ok b := by
  induction l generalizing r with
  | nil => intro a b hm; simp at hm
  | cons x l ih =>
    rw [List.mapM_cons] at h
    cases hx : f x with
    | error e => rw [hx] at h; cases h
    | ok y =>
      rw [hx] at h
      cases hl : l.mapM f with
      | error e => rw [hl] at h; cases h
      | ok ys =>
        rw [hl] at h
        cases h
        intro a b hm
        rw [List.zip_cons_cons] at hm
        rcases List.mem_cons.1 hm with hm | hm
        · cases hm; exact hx
        · exact ih ys hl a b hm

/-- A property of destinations and values, kept by all that is done. -/
structure Kept (spec : Spec V) (P : String → V → Prop) : Prop where
  option : ∀ o ∈ spec.opts, ∀ v ws v', Fits o.nargs ws.length → P o.dest v → o.run v ws = .ok v' → P o.dest v'
  positional : ∀ p ∈ spec.positionals, ∀ ws v, (p.required = true → ws ≠ []) → p.run ws = .ok v → P p.dest v

/-- The positional arguments that remain are ones of the parser. -/
def Good (spec : Spec V) (P : String → V → Prop) (st : State V) : Prop :=
  (∀ d, P d (st.ns d)) ∧ ∀ p ∈ st.left, p ∈ spec.positionals

theorem update_kept (P : String → V → Prop) (ns : String → V) (h : ∀ d, P d (ns d)) (d : String) (v : V) (hv : P d v) :
    ∀ d', P d' (update ns d v d') := by
  intro d'
  unfold update
  by_cases hd : d' = d
  · rw [if_pos hd, hd]; exact hv
  · rw [if_neg hd]; exact h d'

theorem fits_count (n : Nargs) (m k : ℕ) (h : count n m = some k) : Fits n k ∧ k ≤ m := by
  cases n <;> simp only [count, Option.some.injEq] at h <;> (try split at h) <;>
    simp only [Fits, Option.some.injEq, reduceCtorEq, true_and] at * <;> omega

variable (spec : Spec V) (P : String → V → Prop) (hk : Kept spec P)
include hk

theorem give_good (ws : List String) (st st' : State V) (h : Good spec P st) (hg : give st ws = .ok st') :
    Good spec P st' := by
  induction ws generalizing st with
  | nil => rw [give, Except.ok.injEq] at hg; rw [← hg]; exact h
  | cons w ws ih =>
    unfold give at hg
    split at hg
    · rw [Except.ok.injEq] at hg; rw [← hg]; exact h
    · rename_i p ps hl
      have hp : p ∈ spec.positionals := h.2 p (by rw [hl]; exact List.mem_cons_self ..)
      have hps : ∀ q ∈ ps, q ∈ spec.positionals := fun q hq => h.2 q (by rw [hl]; exact List.mem_cons_of_mem _ hq)
      split at hg
      · split at hg
        · rename_i v hv
          rw [Except.ok.injEq] at hg
          rw [← hg]
          exact ⟨update_kept P _ h.1 _ _ (hk.positional p hp _ _ (fun _ => by simp) hv), hps⟩
        · cases hg
      · split at hg
        · rename_i v hv
          exact ih _ ⟨update_kept P _ h.1 _ _ (hk.positional p hp _ _ (fun _ => by simp) hv), hps⟩ hg
        · cases hg

theorem take_good (st st' : State V) (h : Good spec P st) (o : Opt V) (ho : o ∈ spec.opts) (args : List String)
    (ha : Fits o.nargs args.length) (hg : take st o args = .ok st') : Good spec P st' := by
  unfold take at hg
  split at hg
  · cases hg
  · rename_i v hv
    split at hg
    · cases hg
    · rw [Except.ok.injEq] at hg
      rw [← hg]
      exact ⟨update_kept P _ h.1 _ _ (hk.option o ho _ _ _ ha (h.1 _) hv), h.2⟩

theorem step_good (st st' : State V) (h : Good spec P st) (s : Segment V) (hs : From spec.opts s)
    (hg : step st s = .ok st') : Good spec P st' := by
  unfold step at hg
  split at hg
  · exact give_good spec P hk s.args { st with extras := true } st' ⟨h.1, h.2⟩ hg
  · rename_i o e ho
    split at hg
    · rename_i hc
      cases ht : take st o [e] with
      | error x => rw [ht] at hg; cases hg
      | ok st1 =>
        rw [ht] at hg
        exact give_good spec P hk _ _ _ (take_good spec P hk st st1 h o (hs o _ ho) [e] (fits_count _ _ _ hc).1 ht) hg
    · cases hg
  · rename_i o ho
    split at hg
    · cases hg
    · rename_i k hc
      obtain ⟨hf, hle⟩ := fits_count _ _ _ hc
      cases ht : take st o (s.args.take k) with
      | error x => rw [ht] at hg; cases hg
      | ok st1 =>
        rw [ht] at hg
        exact give_good spec P hk _ _ _ (take_good spec P hk st st1 h o (hs o _ ho) _
          (by rw [List.length_take, min_eq_left hle]; exact hf) ht) hg

theorem steps_good (l : List (Segment V)) (st st' : State V) (h : Good spec P st) (hs : ∀ s ∈ l, From spec.opts s)
    (hg : l.foldlM step st = .ok st') : Good spec P st' := by
  induction l generalizing st with
  | nil => cases hg; exact h
  | cons s l ih =>
    rw [List.foldlM_cons] at hg
    cases ht : step st s with
    | error x => rw [ht] at hg; cases hg
    | ok st1 =>
      rw [ht] at hg
      exact ih st1 (step_good spec P hk st st1 h s (hs s (List.mem_cons_self ..)) ht)
        (fun s hs' => hs s (List.mem_cons_of_mem _ hs')) hg

theorem finish_good (st st' : State V) (h : Good spec P st) (hg : finish st = .ok st') : Good spec P st' := by
  unfold finish at hg
  split at hg
  · rw [Except.ok.injEq] at hg; rw [← hg]; exact h
  · rename_i p hl
    split at hg
    · cases hg
    · split at hg
      · rename_i v hv
        rw [Except.ok.injEq] at hg
        rw [← hg]
        exact ⟨update_kept P _ h.1 _ _ (hk.positional p (h.2 p (by rw [hl]; exact List.mem_cons_self ..)) _ _
          (fun hreq => absurd hreq ‹_›) hv),
          fun q hq => by cases hq⟩
      · cases hg
  · cases hg

theorem parse_kept (none : V) (hi : ∀ d, P d (initial spec none d)) (words : List String) (ns : String → V)
    (h : parseArgs spec none words = .ok ns) : ∀ d, P d (ns d) := by
  unfold parseArgs at h
  cases hc : words.mapM (parseOptional spec.opts) with
  | error e => rw [hc] at h; cases h
  | ok classes =>
    rw [hc] at h
    change ((give _ (segments (words.zip classes)).1).bind fun st => _) = _ at h
    cases h1 : give ⟨initial spec none, spec.positionals, [], false⟩ (segments (words.zip classes)).1 with
    | error e => rw [h1] at h; cases h
    | ok st1 =>
      rw [h1] at h
      change (((segments (words.zip classes)).2.foldlM step st1).bind fun st => _) = _ at h
      cases h2 : (segments (words.zip classes)).2.foldlM step st1 with
      | error e => rw [h2] at h; cases h
      | ok st2 =>
        rw [h2] at h
        change ((finish st2).bind fun st => _) = _ at h
        cases h3 : finish st2 with
        | error e => rw [h3] at h; cases h
        | ok st3 =>
          rw [h3] at h
          change (if st3.extras then Except.error Exit.usage else .ok st3.ns) = _ at h
          split at h
          · cases h
          · rw [Except.ok.injEq] at h
            rw [← h]
            have g1 := give_good spec P hk _ _ _ ⟨hi, fun p hp => hp⟩ h1
            have g2 := steps_good spec P hk _ _ _ g1 (segments_from spec.opts _ fun w o e hm =>
              mem_of_option spec.opts w o e (mem_mapM _ _ _ hc _ _ hm)) h2
            exact (finish_good spec P hk _ _ g2 h3).1

end Invariant

section Rest

variable {V : Type} (spec : Spec V) (Q : String → V → Prop)

/-- Every positional argument is still to come or has a value as it should be. -/
def Rest (st : State V) : Prop :=
  (∀ p ∈ st.left, p ∈ spec.positionals) ∧ ∀ p ∈ spec.positionals, p ∈ st.left ∨ Q p.dest (st.ns p.dest)

variable (hQ : ∀ p ∈ spec.positionals, ∀ ws v, (p.required = true → ws ≠ []) → p.run ws = .ok v → Q p.dest v)
include hQ

theorem rest_next (st : State V) (h : Rest spec Q st) (p : Pos V) (ps : List (Pos V)) (hl : st.left = p :: ps)
    (v : V) (hv : Q p.dest v) : Rest spec Q { st with ns := update st.ns p.dest v, left := ps } := by
  refine ⟨fun q hq => h.1 q (by rw [hl]; exact List.mem_cons_of_mem _ hq), fun q hq => ?_⟩
  by_cases hd : q.dest = p.dest
  · right
    simp only [update, hd, if_true]
    exact hv
  · rcases h.2 q hq with h' | h'
    · rw [hl] at h'
      rcases List.mem_cons.1 h' with rfl | h'
      · exact absurd rfl hd
      · exact Or.inl h'
    · right
      simp only [update, if_neg hd]
      exact h'

theorem give_rest (ws : List String) (st st' : State V) (h : Rest spec Q st) (hg : give st ws = .ok st') :
    Rest spec Q st' := by
  induction ws generalizing st with
  | nil => rw [give, Except.ok.injEq] at hg; rw [← hg]; exact h
  | cons w ws ih =>
    unfold give at hg
    split at hg
    · rw [Except.ok.injEq] at hg; rw [← hg]; exact h
    · rename_i p ps hl
      have hp : p ∈ spec.positionals := h.1 p (by rw [hl]; exact List.mem_cons_self ..)
      split at hg
      · split at hg
        · rename_i v hv
          rw [Except.ok.injEq] at hg
          rw [← hg]
          exact rest_next spec Q hQ st h p ps hl v (hQ p hp _ _ (fun _ => by simp) hv)
        · cases hg
      · split at hg
        · rename_i v hv
          exact ih _ (rest_next spec Q hQ st h p ps hl v (hQ p hp _ _ (fun _ => by simp) hv)) hg
        · cases hg

variable (hd : ∀ o ∈ spec.opts, ∀ p ∈ spec.positionals, p.dest ≠ o.dest)
include hd

theorem take_rest (st st' : State V) (h : Rest spec Q st) (o : Opt V) (ho : o ∈ spec.opts) (args : List String)
    (hg : take st o args = .ok st') : Rest spec Q st' := by
  unfold take at hg
  split at hg
  · cases hg
  · split at hg
    · cases hg
    · rw [Except.ok.injEq] at hg
      rw [← hg]
      refine ⟨h.1, fun p hp => (h.2 p hp).imp id fun hq => ?_⟩
      simp only [update, if_neg (hd o ho p hp)]
      exact hq

theorem step_rest (st st' : State V) (h : Rest spec Q st) (s : Segment V) (hs : From spec.opts s)
    (hg : step st s = .ok st') : Rest spec Q st' := by
  unfold step at hg
  split at hg
  · exact give_rest spec Q hQ s.args { st with extras := true } st' ⟨h.1, h.2⟩ hg
  · rename_i o e ho
    split at hg
    · cases ht : take st o [e] with
      | error x => rw [ht] at hg; cases hg
      | ok st1 =>
        rw [ht] at hg
        exact give_rest spec Q hQ _ _ _ (take_rest spec Q hQ hd st st1 h o (hs o _ ho) _ ht) hg
    · cases hg
  · rename_i o ho
    split at hg
    · cases hg
    · rename_i k _
      cases ht : take st o (s.args.take k) with
      | error x => rw [ht] at hg; cases hg
      | ok st1 =>
        rw [ht] at hg
        exact give_rest spec Q hQ _ _ _ (take_rest spec Q hQ hd st st1 h o (hs o _ ho) _ ht) hg

theorem steps_rest (l : List (Segment V)) (st st' : State V) (h : Rest spec Q st) (hs : ∀ s ∈ l, From spec.opts s)
    (hg : l.foldlM step st = .ok st') : Rest spec Q st' := by
  induction l generalizing st with
  | nil => cases hg; exact h
  | cons s l ih =>
    rw [List.foldlM_cons] at hg
    cases ht : step st s with
    | error x => rw [ht] at hg; cases hg
    | ok st1 =>
      rw [ht] at hg
      exact ih st1 (step_rest spec Q hQ hd st st1 h s (hs s (List.mem_cons_self ..)) ht)
        (fun s hs' => hs s (List.mem_cons_of_mem _ hs')) hg

theorem finish_rest (st st' : State V) (h : Rest spec Q st) (hg : finish st = .ok st') :
    ∀ p ∈ spec.positionals, Q p.dest (st'.ns p.dest) := by
  unfold finish at hg
  split at hg
  · rename_i hl
    rw [Except.ok.injEq] at hg
    rw [← hg]
    intro p hp
    rcases h.2 p hp with h' | h'
    · rw [hl] at h'; cases h'
    · exact h'
  · rename_i q hl
    split at hg
    · cases hg
    · rename_i hreq
      split at hg
      · rename_i v hv
        rw [Except.ok.injEq] at hg
        rw [← hg]
        have hq := h.1 q (by rw [hl]; exact List.mem_cons_self ..)
        have := rest_next spec Q hQ st h q [] hl v (hQ q hq _ _ (fun hr => absurd hr hreq) hv)
        intro p hp
        rcases this.2 p hp with h' | h'
        · cases h'
        · exact h'
      · cases hg
  · cases hg

theorem parse_positionals (none : V) (words : List String) (ns : String → V)
    (h : parseArgs spec none words = .ok ns) : ∀ p ∈ spec.positionals, Q p.dest (ns p.dest) := by
  unfold parseArgs at h
  cases hc : words.mapM (parseOptional spec.opts) with
  | error e => rw [hc] at h; cases h
  | ok classes =>
    rw [hc] at h
    change ((give _ (segments (words.zip classes)).1).bind fun st => _) = _ at h
    cases h1 : give ⟨initial spec none, spec.positionals, [], false⟩ (segments (words.zip classes)).1 with
    | error e => rw [h1] at h; cases h
    | ok st1 =>
      rw [h1] at h
      change (((segments (words.zip classes)).2.foldlM step st1).bind fun st => _) = _ at h
      cases h2 : (segments (words.zip classes)).2.foldlM step st1 with
      | error e => rw [h2] at h; cases h
      | ok st2 =>
        rw [h2] at h
        change ((finish st2).bind fun st => _) = _ at h
        cases h3 : finish st2 with
        | error e => rw [h3] at h; cases h
        | ok st3 =>
          rw [h3] at h
          change (if st3.extras then Except.error Exit.usage else .ok st3.ns) = _ at h
          split at h
          · cases h
          · rw [Except.ok.injEq] at h
            rw [← h]
            have g1 := give_rest spec Q hQ _ _ _ ⟨fun p hp => hp, fun p hp => Or.inl hp⟩ h1
            have g2 := steps_rest spec Q hQ hd _ _ _ g1 (segments_from spec.opts _ fun w o e hm =>
              mem_of_option spec.opts w o e (mem_mapM _ _ _ hc _ _ hm)) h2
            exact finish_rest spec Q hQ hd _ _ g2 h3

end Rest

/-! ### The commands -/

section Commands

variable {K : Type} [Field K] [LinearOrder K] [IsStrictOrderedRing K] (E : Env K)

/-- A sound string. -/
def checkString (s : String) : Bool :=
  decide (s.toList.head? = some '-') &&
  ((decide (s.toList.length = 2) && decide ((s.toList.drop 1).head? ≠ some '-')) ||
    (decide (2 < s.toList.length) && decide ((s.toList.drop 1).head? = some '-'))) &&
  decide ('=' ∉ s.toList) &&
  match (s.toList.drop 1).head? with
  | some ch => !ch.isDigit && ch != '.'
  | none => true

/-- All strings of options. -/
def strings {V : Type} (opts : List (Opt V)) : List String := opts.flatMap Opt.strings

theorem strings_actions {V : Type} (opts : List (Opt V)) : (actions opts).map Prod.fst = strings opts := by
  unfold actions strings
  rw [List.map_flatMap]
  congr 1
  funext o
  simp [Function.comp_def]

theorem sound_of_check {V : Type} (opts : List (Opt V)) (h1 : (strings opts).Nodup)
    (h2 : (strings opts).all checkString = true) : Sound opts := by
  have h : ∀ o ∈ opts, ∀ s ∈ o.strings, checkString s = true := fun o ho s hs =>
    List.all_eq_true.1 h2 s (List.mem_flatMap.2 ⟨o, ho, hs⟩)
  refine ⟨by rw [strings_actions]; exact h1, ?_, ?_, ?_, ?_⟩
  all_goals intro o ho s hs
  all_goals have := h o ho s hs
  all_goals simp only [checkString, Bool.and_eq_true, Bool.or_eq_true, decide_eq_true_eq] at this
  · exact this.1.1.1
  · exact this.1.1.2
  · exact this.1.2
  · intro ch hch
    rw [hch] at this
    simpa using this.2

/-- An environment to compute with. -/
def exampleEnv : Env ℚ := ⟨⟨fun _ => none, fun _ => none⟩, fun _ _ => .ok ()⟩

theorem strings_spec (c : Cmd) (p : Option Prob) : strings (spec E c p).opts = strings (spec exampleEnv c p).opts := by
  cases c <;> rcases p with _ | _ | _ | _ <;> rfl

/-- The problems of the commands which ask for one. -/
def problemsOf : Cmd → Option (List Prob)
  | .animate | .calculate | .plot => some [.advection, .burgers, .swe]
  | .eoc => some [.advection, .burgers]
  | _ => none

/-- A command with a problem, or without if it does not ask for one. -/
def Allowed (c : Cmd) (p : Option Prob) : Prop :=
  match problemsOf c with
  | some l => ∃ q ∈ l, p = some q
  | none => p = none

instance (c : Cmd) (p : Option Prob) : Decidable (Allowed c p) := by
  unfold Allowed
  split <;> infer_instance

theorem nodup_spec (c : Cmd) (p : Option Prob) (h : Allowed c p) : (strings (spec exampleEnv c p).opts).Nodup ∧
    (strings (spec exampleEnv c p).opts).all checkString = true := by
  revert h
  cases c <;> rcases p with _ | _ | _ | _ <;> decide +kernel

/-- C125.  The option strings of every command are different and well formed. -/
theorem C125_sound (c : Cmd) (p : Option Prob) (h : Allowed c p) : Sound (spec E c p).opts := by
  obtain ⟨h1, h2⟩ := nodup_spec c p h
  rw [← strings_spec E] at h1 h2
  exact sound_of_check _ h1 h2

/-- The destinations of a parser. -/
def specDests {V : Type} (s : Spec V) : List String := s.opts.map Opt.dest ++ s.positionals.map Pos.dest

theorem dests_spec (c : Cmd) (p : Option Prob) : specDests (spec E c p) = specDests (spec exampleEnv c p) := by
  cases c <;> rcases p with _ | _ | _ | _ <;> rfl

theorem dests_subset (c : Cmd) (p : Option Prob) (h : Allowed c p) :
    ("command" :: (if p.isSome then ["problem"] else []) ++
      (specDests (spec exampleEnv c p)).filter (fun d => d ≠ "help")) ⊆ dests c ∧
    dests c ⊆ ("command" :: (if p.isSome then ["problem"] else []) ++
      (specDests (spec exampleEnv c p)).filter (fun d => d ≠ "help")) := by
  revert h
  cases c <;> rcases p with _ | _ | _ | _ <;> decide +kernel

/-- C125.  The destinations of the options, with the names of the command and of the problem, are those from which C116
starts. -/
theorem C125_dests (c : Cmd) (p : Option Prob) (h : Allowed c p) (d : String) :
    d ∈ dests c ↔ d = "command" ∨ (d = "problem" ∧ p.isSome = true) ∨ (d ∈ specDests (spec E c p) ∧ d ≠ "help") := by
  obtain ⟨h1, h2⟩ := dests_subset c p h
  have : d ∈ dests c ↔ d ∈ "command" :: (if p.isSome then ["problem"] else []) ++
      (specDests (spec exampleEnv c p)).filter (fun d => d ≠ "help") := ⟨fun hd => h2 hd, fun hd => h1 hd⟩
  rw [this, dests_spec E, List.mem_append, List.mem_cons, List.mem_filter, or_assoc]
  cases p <;> simp

/-! ### Values -/

/-- A positive integer. -/
def PosInt (v : Arg K) : Prop := ∃ n : ℤ, 0 < n ∧ v = .int n

/-- A number which is not zero or negative (it may be infinite or `nan`). -/
def PosNum (v : Arg K) : Prop := ∃ x : PyFloat K, x.le 0 = false ∧ v = .num x

/-- A word. -/
def Text (v : Arg K) : Prop := ∃ s, v = .str s

/-- A truth value. -/
def Flag (v : Arg K) : Prop := ∃ b, v = .bool b

/-- The solvers for a problem; the commands that do not ask for one are about the shallow water equations. -/
def keysOf : Option Prob → List Key
  | some .advection | some .burgers => scalarKeys
  | _ => sweKeys

/-- The namespaces of at least one solver of the list: the words after `-s` are cut at the names of solvers (C74), and
each piece is parsed by the parser of its solver (C117). -/
def Solvers (keys : List Key) (v : Arg K) : Prop :=
  ∃ words l, words ≠ [] ∧ action (solverParsers E keys) words = .namespaces l ∧ v = .solvers l

/-- A benchmark of the problem: the default, one whose construction succeeded, or a random one for the shallow water
equations, whose seed is not negative. -/
def IsBenchmark (eoc : Bool) (p : Prob) (v : Arg K) : Prop :=
  v = .benchmark p (defaultKey eoc p) ∨ (∃ key, E.bench p key = .ok () ∧ v = .benchmark p key) ∨
    (p = .swe ∧ ∃ seed : Option ℤ, (∀ n, seed = some n → 0 ≤ n) ∧ v = .random seed)

/-- What the destinations can hold. -/
def typeOf (c : Cmd) (p : Option Prob) (d : String) (v : Arg K) : Prop :=
  if d ∈ ["mesh_size", "time_steps", "refine", "coarsening_degree", "solution_number", "input_radius", "node_index",
    "initial_data_number", "epochs", "skip"] then PosInt v
  else if d ∈ ["end_time", "start_time", "step_length", "curvature_height_threshold", "curvature_discharge_threshold"]
    then v = .none ∨ PosNum v
  else if d = "duration" then v = .int 20 ∨ PosNum v
  else if d = "seed" then (c = .trainNetwork ∧ v = .none) ∨ PosInt v
  else if d = "profile" then ∃ n, v = .int n
  else if d ∈ ["args", "hide", "histogram", "initial", "show", "append", "save_animation", "resume_training", "confirm",
    "plot_loss"] then Flag v
  else if d = "save" ∧ c = .analyzeCurvature then Flag v
  else if d = "save_plot" ∧ c = .parameterVariationTest then Flag v
  else if d ∈ ["save", "save_plot", "save_data", "references"] then v = .none ∨ Text v
  else if d = "directory" then (c = .generateData ∧ v = .none) ∨ Text v
  else if d ∈ ["references_prefix"] then Text v
  else if d = "variations" then v = .none ∨ ∃ l, v = .strs l
  else if d = "parameter" then ∃ l, (∀ x ∈ l, x.length = 2) ∧ v = .pairs l
  else if d = "solver" then v = .none ∨ Solvers E (keysOf p) v
  else if d = "benchmark" then IsBenchmark E (decide (c = .eoc)) (p.getD .swe) v
  else True

theorem of_convert (type : String → Except Error (Arg K)) (w : String) (v : Arg K) (h : convert type w = .ok v) :
    type w = .ok v := by
  unfold convert at h
  split at h <;> first | cases h; assumption | cases h

theorem of_posInt (w : String) (v : Arg K) (h : posInt E w = .ok v) : PosInt v := by
  unfold posInt positiveInt at h
  split at h
  · cases h
  · rename_i n _
    split at h
    · cases h
    · cases h
      exact ⟨n, by omega, rfl⟩

theorem of_posFloat (w : String) (v : Arg K) (h : posFloat E w = .ok v) : PosNum v := by
  unfold posFloat positiveFloat at h
  split at h
  · cases h
  · rename_i x _
    split at h
    · cases h
    · cases h
      rename_i hx
      exact ⟨x, by simpa using hx, rfl⟩

theorem of_single (type : String → Except Error (Arg K)) (v : Arg K) (ws : List String) (v' : Arg K)
    (h : single type v ws = .ok v') : ∃ w, type w = .ok v' := by
  unfold single at h
  split at h
  · exact ⟨_, of_convert _ _ _ h⟩
  · cases h

theorem of_optionally (const : Arg K) (type : String → Except Error (Arg K)) (v : Arg K) (ws : List String) (v' : Arg K)
    (h : optionally const type v ws = .ok v') : v' = const ∨ ∃ w, type w = .ok v' := by
  unfold optionally at h
  split at h
  · cases h; exact Or.inl rfl
  · exact Or.inr ⟨_, of_convert _ _ _ h⟩
  · cases h

/-- An option keeps what its destination can hold. -/
def OptOk (c : Cmd) (p : Option Prob) (o : Opt (Arg K)) : Prop :=
  ∀ v ws v', Fits o.nargs ws.length → typeOf E c p o.dest v → o.run v ws = .ok v' → typeOf E c p o.dest v'

variable (c : Cmd) (p : Option Prob)

theorem ok_store (strings : List String) (dest : String) (type : String → Except Error (Arg K)) (default : Arg K)
    (h : ∀ w v, type w = .ok v → typeOf E c p dest v) : OptOk E c p (store strings dest type default) := by
  intro v ws v' _ _ hr
  obtain ⟨w, hw⟩ := of_single type v ws v' hr
  exact h w v' hw

theorem ok_constant (strings : List String) (dest : String) (x default : Arg K) (ex : Bool)
    (h : typeOf E c p dest x) : OptOk E c p ⟨strings, dest, .zero, constant x, default, ex⟩ := by
  intro v ws v' _ _ hr
  cases hr
  exact h

theorem ok_optionally (strings : List String) (dest : String) (const : Arg K) (type : String → Except Error (Arg K))
    (default : Arg K) (ex : Bool) (h0 : typeOf E c p dest const) (h : ∀ w v, type w = .ok v → typeOf E c p dest v) :
    OptOk E c p ⟨strings, dest, .optional, optionally const type, default, ex⟩ := by
  intro v ws v' _ _ hr
  rcases of_optionally const type v ws v' hr with rfl | ⟨w, hw⟩
  · exact h0
  · exact h w v' hw

theorem ok_help : OptOk E c p helpOption := by
  intro v ws v' _ _ hr
  cases hr

theorem ok_general : ∀ o ∈ generalOptions E, OptOk E c p o := by
  simp only [generalOptions, List.forall_mem_cons, List.not_mem_nil, false_imp_iff, implies_true, and_true]
  refine ⟨ok_optionally E c p _ _ _ _ _ _ (by simp [typeOf]) ?_, ok_constant E c p _ _ _ _ _ (by simp [typeOf, Flag])⟩
  intro w v hv
  unfold integer at hv
  split at hv
  · cases hv; simp [typeOf]
  · cases hv

theorem ok_end_time : OptOk E c p (endTimeOption E) :=
  ok_store E c p _ _ _ _ fun w v hv => by simpa [typeOf] using Or.inr (of_posFloat E w v hv)

theorem ok_solver : OptOk E c p (solverOption E (keysOf p)) := by
  intro v ws v' hf _ hr
  have hr : solverRun E (keysOf p) v ws = .ok v' := hr
  have hf : 1 ≤ ws.length := hf
  unfold solverRun at hr
  split at hr <;> cases hr
  rename_i l hl
  have : Solvers E (keysOf p) (.solvers l) := ⟨ws, l, by rintro rfl; simp at hf, hl, rfl⟩
  simpa [typeOf, solverOption] using this

theorem ok_benchmark (q : Prob) (hq : p.getD .swe = q) (default : String) (ex : Bool) :
    OptOk E c p { benchmarkOption E q default with exclusive := ex } := by
  intro v ws v' _ _ hr
  obtain ⟨w, hw⟩ := of_single _ v ws v' hr
  unfold benchmarkType at hw
  cases hb : E.bench q w with
  | error e => rw [hb] at hw; cases hw
  | ok u =>
    rw [hb] at hw
    cases hw
    have : IsBenchmark E (decide (c = .eoc)) (p.getD .swe) (.benchmark q w) := by
      rw [hq]
      exact Or.inr (Or.inl ⟨w, hb, rfl⟩)
    simpa [typeOf, benchmarkOption, store] using this

theorem ok_random (hq : p.getD .swe = .swe) (ex : Bool) :
    OptOk E c p { randomOption E with exclusive := ex } := by
  have key : ∀ seed : Option ℤ, (∀ n, seed = some n → 0 ≤ n) → typeOf E c p "benchmark" (.random seed) := by
    intro seed hseed
    have : IsBenchmark E (decide (c = .eoc)) (p.getD .swe) (.random seed) := by
      rw [hq]
      exact Or.inr (Or.inr ⟨rfl, seed, hseed, rfl⟩)
    simpa [typeOf] using this
  refine ok_optionally E c p _ _ _ _ _ _ (key none (by simp)) ?_
  intro w v hv
  unfold randomType at hv
  split at hv
  · split at hv
    · cases hv
    · cases hv
      refine key _ ?_
      intro n hn
      cases hn
      omega
  · cases hv

theorem ok_posInt (strings : List String) (dest : String) (default : Arg K)
    (h : ∀ v, PosInt v → typeOf E c p dest v) : OptOk E c p (store strings dest (posInt E) default) :=
  ok_store E c p _ _ _ _ fun w v hv => h v (of_posInt E w v hv)

theorem ok_posFloat (strings : List String) (dest : String) (default : Arg K)
    (h : ∀ v, PosNum v → typeOf E c p dest v) : OptOk E c p (store strings dest (posFloat E) default) :=
  ok_store E c p _ _ _ _ fun w v hv => h v (of_posFloat E w v hv)

theorem ok_text (strings : List String) (dest : String) (default : Arg K)
    (h : ∀ s, typeOf E c p dest (.str s)) : OptOk E c p (store strings dest text default) :=
  ok_store E c p _ _ _ _ fun w v hv => by cases hv; exact h w

theorem ok_save (dest const : String) (h : ∀ s, typeOf E c p dest (.str s)) :
    OptOk E c p (saveOption dest const) :=
  ok_optionally E c p _ _ _ _ _ _ (h _) fun w v hv => by cases hv; exact h w

theorem ok_hide : OptOk E c p hideOption := ok_constant E c p _ _ _ _ _ (by simp [typeOf, Flag])

theorem ok_flag (string dest : String) (h : typeOf E c p dest (.bool true)) : OptOk E c p (flag string dest) :=
  ok_constant E c p _ _ _ _ _ h

theorem ok_problem (eoc : Bool) (q : Prob) (hq : p = some q) : ∀ o ∈ problemOptions E eoc q, OptOk E c p o := by
  subst hq
  cases q with
  | advection =>
    simp only [problemOptions, List.forall_mem_cons, List.not_mem_nil, false_imp_iff, implies_true, and_true]
    exact ⟨ok_benchmark E c _ _ rfl _ false, ok_end_time E c _, ok_solver E c (some .advection)⟩
  | burgers =>
    simp only [problemOptions, List.forall_mem_cons, List.not_mem_nil, false_imp_iff, implies_true, and_true]
    exact ⟨ok_benchmark E c _ _ rfl _ false, ok_end_time E c _, ok_solver E c (some .burgers)⟩
  | swe =>
    simp only [problemOptions, List.forall_mem_cons, List.not_mem_nil, false_imp_iff, implies_true, and_true]
    exact ⟨ok_benchmark E c _ _ rfl _ true, ok_random E c _ rfl true, ok_end_time E c _, ok_solver E c (some .swe)⟩

theorem ok_plot (h : c ≠ .parameterVariationTest) : ∀ o ∈ plotOptions E, OptOk E c p o := by
  simp only [plotOptions, List.forall_mem_cons, List.not_mem_nil, false_imp_iff, implies_true, and_true]
  refine ⟨ok_posInt E c p _ _ _ (by simp [typeOf]), ok_flag E c p _ _ (by simp [typeOf, Flag]),
    ok_save E c p _ _ (by simp [typeOf, Text, h]), ok_optionally E c p _ _ _ _ _ _ (by simp [typeOf]) ?_, ok_hide E c p⟩
  intro w v hv
  cases hv
  simp [typeOf, Text]

theorem ok_animate (h : c ≠ .analyzeCurvature) : ∀ o ∈ animateOptions E, OptOk E c p o := by
  simp only [animateOptions, List.forall_mem_cons, List.not_mem_nil, false_imp_iff, implies_true, and_true]
  exact ⟨ok_posInt E c p _ _ _ (by simp [typeOf]), ok_flag E c p _ _ (by simp [typeOf, Flag]),
    ok_save E c p _ _ (by simp [typeOf, Text, h]), ok_hide E c p, ok_posInt E c p _ _ _ (by simp [typeOf]),
    ok_posFloat E c p _ _ _ (by simp +contextual [typeOf]), ok_posFloat E c p _ _ _ (by simp +contextual [typeOf])⟩

theorem ok_eoc : ∀ o ∈ eocOptions E, OptOk E c p o := by
  simp only [eocOptions, List.forall_mem_cons, List.not_mem_nil, false_imp_iff, implies_true, and_true]
  exact ⟨ok_posInt E c p _ _ _ (by simp [typeOf]), ok_posInt E c p _ _ _ (by simp [typeOf])⟩

theorem ok_error (h : c ≠ .analyzeCurvature) : ∀ o ∈ errorEvolutionOptions E, OptOk E c none o := by
  simp only [errorEvolutionOptions, List.forall_mem_cons, List.not_mem_nil, false_imp_iff, implies_true, and_true]
  exact ⟨ok_benchmark E c _ _ rfl _ true, ok_random E c _ rfl true, ok_end_time E c _, ok_solver E c none,
    ok_save E c _ _ _ (by simp [typeOf, Text, h]), ok_hide E c _⟩

theorem ok_generate : ∀ o ∈ generateDataOptions E, OptOk E c none o := by
  simp only [generateDataOptions, List.forall_mem_cons, List.not_mem_nil, false_imp_iff, implies_true, and_true]
  exact ⟨ok_text E c _ _ _ _ (by simp [typeOf, Text]), ok_end_time E c _, ok_posInt E c _ _ _ _ (by simp [typeOf]),
    ok_solver E c none, ok_posInt E c _ _ _ _ (by simp [typeOf]), ok_posInt E c _ _ _ _ (by simp +contextual [typeOf]),
    ok_posInt E c _ _ _ _ (by simp [typeOf]), ok_posInt E c _ _ _ _ (by simp [typeOf]),
    ok_flag E c _ _ _ (by simp [typeOf, Flag])⟩

theorem ok_variation : ∀ o ∈ variationOptions E, OptOk E .parameterVariationTest none o := by
  simp only [variationOptions, List.forall_mem_cons, List.not_mem_nil, false_imp_iff, implies_true, and_true]
  refine ⟨ok_solver E _ none, ok_end_time E _ _, ok_optionally E _ _ _ _ _ _ _ _ (by simp [typeOf, Text]) ?_,
    ok_text E _ _ _ _ _ (by simp [typeOf, Text]), ?_, ok_posInt E _ _ _ _ _ (by simp [typeOf]),
    ok_posInt E _ _ _ _ _ (by simp +contextual [typeOf]), ok_flag E _ _ _ _ (by simp [typeOf, Flag]),
    ok_flag E _ _ _ _ (by simp [typeOf, Flag])⟩
  · intro w v hv
    cases hv
    simp [typeOf, Text]
  · intro v ws v' _ _ hr
    cases hr
    simp [typeOf]

theorem ok_delete : ∀ o ∈ deleteCurvatureOptions E, OptOk E c p o := by
  simp only [deleteCurvatureOptions, List.forall_mem_cons, List.not_mem_nil, false_imp_iff, implies_true, and_true]
  exact ⟨ok_posFloat E c p _ _ _ (by simp +contextual [typeOf]), ok_posFloat E c p _ _ _ (by simp +contextual [typeOf]),
    ok_posFloat E c p _ _ _ (by simp +contextual [typeOf])⟩

theorem ok_train : ∀ o ∈ trainOptions E, OptOk E c p o := by
  simp only [trainOptions, List.forall_mem_cons, List.not_mem_nil, false_imp_iff, implies_true, and_true]
  refine ⟨?_, ok_posInt E c p _ _ _ (by simp [typeOf]), ok_posInt E c p _ _ _ (by simp [typeOf]),
    ok_posInt E c p _ _ _ (by simp +contextual [typeOf]), ok_flag E c p _ _ (by simp [typeOf, Flag]),
    ok_flag E c p _ _ (by simp [typeOf, Flag]), ok_flag E c p _ _ (by simp [typeOf, Flag])⟩
  intro v ws v' hf hv hr
  have hf : ws.length = 2 := hf
  obtain ⟨l, hl, rfl⟩ : ∃ l, (∀ x ∈ l, x.length = 2) ∧ v = .pairs l := by simpa [typeOf] using hv
  cases hr
  have : ∃ l', (∀ x ∈ l', x.length = 2) ∧ (Arg.pairs (l ++ [ws]) : Arg K) = .pairs l' := by
    refine ⟨_, ?_, rfl⟩
    intro x hx
    rcases List.mem_append.1 hx with hx | hx
    · exact hl x hx
    · rw [List.mem_singleton.1 hx]; exact hf
  simpa [typeOf] using this

/-- What the positional arguments hold. -/
def positionalType (c : Cmd) (d : String) (v : Arg K) : Prop :=
  if d = "file" then ∃ l, v = .strs l
  else if d = "data_path" ∧ c = .analyzeData then ∃ l, l ≠ [] ∧ v = .strs l
  else if d ∈ ["data_path", "target_path", "directory"] then Text v
  else if d = "network" then v = .str "llf" ∨ v = .str "llf2"
  else if d = "parser" then ∃ k, v = .str (prog k)
  else False

theorem ok_options (h : Allowed c p) : ∀ o ∈ (spec E c p).opts, OptOk E c p o := by
  have build : ∀ l l' : List (Opt (Arg K)), (∀ o ∈ l, OptOk E c p o) → (∀ o ∈ l', OptOk E c p o) →
      ∀ o ∈ helpOption :: l ++ l' ++ generalOptions E, OptOk E c p o := by
    intro l l' h1 h2 o ho
    rcases List.mem_append.1 ho with ho | ho
    · rcases List.mem_append.1 ho with ho | ho
      · rcases List.mem_cons.1 ho with rfl | ho
        · exact ok_help E c p
        · exact h1 o ho
      · exact h2 o ho
    · exact ok_general E c p o ho
  have build' : ∀ l : List (Opt (Arg K)), (∀ o ∈ l, OptOk E c p o) →
      ∀ o ∈ helpOption :: l ++ generalOptions E, OptOk E c p o := by
    intro l h1 o ho
    apply build l [] h1 (by simp) o
    simpa using ho
  cases c with
  | animate =>
    obtain ⟨q, -, rfl⟩ := h
    exact build _ _ (ok_problem E _ _ false q rfl) (ok_animate E _ _ (by simp))
  | calculate =>
    obtain ⟨q, -, rfl⟩ := h
    exact build _ _ (ok_problem E _ _ false q rfl) (by simp)
  | plot =>
    obtain ⟨q, -, rfl⟩ := h
    exact build _ _ (ok_problem E _ _ false q rfl) (ok_plot E _ _ (by simp))
  | eoc =>
    obtain ⟨q, -, rfl⟩ := h
    exact build _ _ (ok_problem E _ _ true q rfl) (ok_eoc E _ _)
  | analyzeCurvature =>
    cases h
    refine build' _ ?_
    simp only [direct, List.forall_mem_cons, List.not_mem_nil, false_imp_iff, implies_true, and_true]
    exact ⟨ok_flag E _ _ _ _ (by simp [typeOf, Flag]), ok_flag E _ _ _ _ (by simp [typeOf, Flag])⟩
  | analyzeData =>
    cases h
    refine build' _ ?_
    simp only [direct, List.forall_mem_cons, List.not_mem_nil, false_imp_iff, implies_true, and_true]
    exact ok_flag E _ _ _ _ (by simp [typeOf, Flag])
  | deleteCurvature => cases h; exact build' _ (ok_delete E _ _)
  | generateData => cases h; exact build' _ (ok_generate E _)
  | help => cases h; exact build' _ (by simp [direct])
  | parameterVariationTest => cases h; exact build' _ (ok_variation E)
  | plotErrorEvolution => cases h; exact build' _ (ok_error E _ (by simp))
  | printNetwork => cases h; exact build' _ (by simp [direct])
  | test => cases h; exact build' _ (by simp [direct])
  | trainNetwork => cases h; exact build' _ (ok_train E _ _)

theorem ok_positionals : ∀ q ∈ (spec E c p).positionals, ∀ ws v, (q.required = true → ws ≠ []) → q.run ws = .ok v →
    positionalType c q.dest v := by
  have one : ∀ (d : String) (t : String → Except Exit (Arg K)) (ws : List String) (v : Arg K),
      (positional d t).run ws = .ok v → ∃ w, t w = .ok v := by
    intro d t ws v hv
    simp only [positional] at hv
    split at hv
    · exact ⟨_, hv⟩
    · cases hv
  have none' : ∀ x : Option Prob, withProblem E c = none → (spec E c x).positionals = (direct E c).2 := by
    intro x hx
    unfold spec
    rw [hx]
  cases c with
  | deleteCurvature =>
    rw [none' p rfl]
    simp only [direct, List.forall_mem_cons, List.not_mem_nil, false_imp_iff, implies_true, and_true]
    refine ⟨fun ws v _ hv => ?_, fun ws v _ hv => ?_⟩ <;>
    · obtain ⟨w, hw⟩ := one _ _ ws v hv
      cases hw
      simp [positionalType, positional, Text]
  | parameterVariationTest =>
    rw [none' p rfl]
    simp only [direct, List.forall_mem_cons, List.not_mem_nil, false_imp_iff, implies_true, and_true]
    intro ws v _ hv
    obtain ⟨w, hw⟩ := one _ _ ws v hv
    cases hw
    simp [positionalType, positional, Text]
  | help =>
    rw [none' p rfl]
    simp only [direct, List.forall_mem_cons, List.not_mem_nil, false_imp_iff, implies_true, and_true]
    intro ws v _ hv
    obtain ⟨w, hw⟩ := one _ _ ws v hv
    unfold pageType at hw
    split at hw
    · rename_i hm
      cases hw
      obtain ⟨k, -, rfl⟩ := List.mem_map.1 hm
      simp [positionalType, positional]
    · cases hw
  | printNetwork =>
    rw [none' p rfl]
    simp only [direct, List.forall_mem_cons, List.not_mem_nil, false_imp_iff, implies_true, and_true]
    intro ws v _ hv
    obtain ⟨w, hw⟩ := one _ _ ws v hv
    unfold networkType at hw
    split at hw
    · rename_i hm
      cases hw
      simpa [positionalType, positional] using hm
    · cases hw
  | trainNetwork =>
    rw [none' p rfl]
    simp only [direct, List.forall_mem_cons, List.not_mem_nil, false_imp_iff, implies_true, and_true]
    intro ws v _ hv
    obtain ⟨w, hw⟩ := one _ _ ws v hv
    unfold networkType at hw
    split at hw
    · rename_i hm
      cases hw
      simpa [positionalType, positional] using hm
    · cases hw
  | analyzeData =>
    rw [none' p rfl]
    simp only [direct, List.forall_mem_cons, List.not_mem_nil, false_imp_iff, implies_true, and_true]
    intro ws v hne hv
    cases hv
    simpa [positionalType] using hne
  | test =>
    rw [none' p rfl]
    simp only [direct, List.forall_mem_cons, List.not_mem_nil, false_imp_iff, implies_true, and_true]
    intro ws v hne hv
    cases hv
    simp [positionalType]
  | analyzeCurvature => rw [none' p rfl]; simp [direct]
  | generateData => rw [none' p rfl]; simp [direct]
  | plotErrorEvolution => rw [none' p rfl]; simp [direct]
  | animate => cases p <;> simp [spec, withProblem, direct]
  | calculate => cases p <;> simp [spec, withProblem, direct]
  | plot => cases p <;> simp [spec, withProblem, direct]
  | eoc => cases p <;> simp [spec, withProblem, direct]

theorem disjoint_example (h : Allowed c p) : ∀ d ∈ (spec exampleEnv c p).opts.map Opt.dest,
    d ∉ (spec exampleEnv c p).positionals.map Pos.dest := by
  revert h
  cases c <;> rcases p with _ | _ | _ | _ <;> decide +kernel

theorem opts_dests : (spec E c p).opts.map Opt.dest = (spec exampleEnv c p).opts.map Opt.dest := by
  cases c <;> rcases p with _ | _ | _ | _ <;> rfl

theorem positional_dests : (spec E c p).positionals.map Pos.dest = (spec exampleEnv c p).positionals.map Pos.dest := by
  cases c <;> rcases p with _ | _ | _ | _ <;> rfl

theorem disjoint_spec (h : Allowed c p) : ∀ o ∈ (spec E c p).opts, ∀ q ∈ (spec E c p).positionals, q.dest ≠ o.dest := by
  intro o ho q hq he
  apply disjoint_example c p h o.dest
  · rw [← opts_dests E]
    exact List.mem_map.2 ⟨o, ho, rfl⟩
  · rw [← positional_dests E, ← he]
    exact List.mem_map.2 ⟨q, hq, rfl⟩

set_option maxHeartbeats 3000000 in
theorem initial_ok (h : Allowed c p) : ∀ d ∈ (spec E c p).opts.map Opt.dest,
    typeOf E c p d (initial (spec E c p) .none d) := by
  cases c <;> rcases p with _ | _ | _ | _ <;>
    first
    | exact absurd h (by decide)
    | (clear h
       simp [spec, withProblem, direct, problemOptions, animateOptions, plotOptions, eocOptions, errorEvolutionOptions,
         generateDataOptions, variationOptions, deleteCurvatureOptions, trainOptions, generalOptions, helpOption,
         benchmarkOption, randomOption, exclusively, endTimeOption, solverOption, hideOption, saveOption,
         meshSizeOption, flag, store, positional, initial, List.lookup, typeOf, Flag, PosInt, Text, IsBenchmark, defaultKey])

end Commands

end Verif.Argv
