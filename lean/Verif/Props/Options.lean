import Verif.Core.Options

/-!
The options of the solvers (C117).

* `C117_written`: what a parser makes of options written out as separate words;
* `C117_values`: whatever is written, a parsed namespace has exactly the options of the solver with values in range;
* `C117_constructed`: every parsed namespace, with or without history, is accepted by the constructor of the solver,
  and the options take effect;
* `C117_degree`: the polynomial degree cannot be chosen on the command line.
-/

set_option linter.unusedSectionVars false

namespace Verif.Options

open Verif.Py Verif.Utilities Verif.Cli

/-! ### Namespaces -/

section Namespaces

variable {V : Type}

theorem lookup_set (ns : Namespace V) (key : String) (v : V) (d : String) :
    (set ns key v).lookup d = if d = key then some v else ns.lookup d := by
  induction ns with
  | nil =>
    by_cases h : d = key
    · subst h; simp [Cli.set]
    · simp [Cli.set, h]
  | cons p ns ih =>
    obtain ⟨k, w⟩ := p
    by_cases hk : k = key
    · subst hk
      by_cases h : d = k
      · subst h; simp [Cli.set]
      · have : (d == k) = false := by simpa using h
        simp [Cli.set, h, List.lookup_cons, this]
    · by_cases h : d = k
      · subst h
        simp [Cli.set, hk]
      · have : (d == k) = false := by simpa using h
        simp only [Cli.set, hk, if_false, List.lookup_cons, this, ih]

theorem keys_set (ns : Namespace V) (key : String) (v : V) (h : key ∈ ns.map Prod.fst) :
    (set ns key v).map Prod.fst = ns.map Prod.fst := by
  induction ns with
  | nil => simp at h
  | cons p ns ih =>
    obtain ⟨k, w⟩ := p
    by_cases hk : k = key
    · simp [Cli.set, hk]
    · have : key ∈ ns.map Prod.fst := by
        rcases List.mem_cons.1 h with h | h
        · exact absurd h.symm hk
        · exact h
      simp [Cli.set, hk, ih this]

theorem mem_set (ns : Namespace V) (key : String) (v : V) (p : String × V) (h : p ∈ set ns key v) :
    p = (key, v) ∨ p ∈ ns := by
  induction ns with
  | nil => left; simpa [Cli.set] using h
  | cons q ns ih =>
    obtain ⟨k, w⟩ := q
    by_cases hk : k = key
    · simp only [Cli.set, hk, if_true, List.mem_cons] at h
      rcases h with h | h
      · exact Or.inl h
      · exact Or.inr (List.mem_cons_of_mem _ h)
    · simp only [Cli.set, hk, if_false, List.mem_cons] at h
      rcases h with h | h
      · right; rw [h]; exact List.mem_cons_self ..
      · rcases ih h with h | h
        · exact Or.inl h
        · exact Or.inr (List.mem_cons_of_mem _ h)

end Namespaces

/-! ### Options as users write them -/

section Written

variable {V : Type}

/-- How an argument is attached to its option: as the next word, after an equals sign, or directly. -/
inductive Style
  | separate | equals | attached
  deriving DecidableEq

/-- An option as a user writes it: the option, the string used for it, and its argument (not used for flags). -/
structure Assignment (V : Type) where
  opt : Opt V
  string : String
  raw : String
  style : Style := .separate

/-- The words written. -/
def Assignment.words (a : Assignment V) : List String :=
  match a.opt.kind, a.style with
  | .flag _, _ => [a.string]
  | .store _, .separate => [a.string, a.raw]
  | .store _, .equals => [a.string ++ "=" ++ a.raw]
  | .store _, .attached => [a.string ++ a.raw]

/-- The value meant: an unknown key leaves the program as `KeyError`, any other argument that cannot be converted is
refused. -/
def Assignment.value (a : Assignment V) : Except Error V :=
  match a.opt.kind with
  | .flag v => .ok v
  | .store type =>
    match type a.raw with
    | .ok v => .ok v
    | .error e => .error (if e = .keyError then .keyError else .runtimeError)

/-- The string is the beginning of one long option string only, which is one of the option `o`. -/
def Abbreviates (opts : List (Opt V)) (s : String) (o : Opt V) : Prop :=
  ['+', '+'] <+: s.toList ∧ '=' ∉ s.toList ∧ ∃ t ∈ o.strings, s.toList <+: t.toList ∧
    ∀ o' ∈ opts, ∀ t' ∈ o'.strings, s.toList <+: t'.toList → t' = t

/-- The assignment uses an option of the parser, by one of its strings or an abbreviation.  An argument written as
the next word does not begin with `+`; one written directly after the option is not empty and does not begin with
`+` or `=`, and the option is a short one. -/
structure Assignment.Valid (opts : List (Opt V)) (a : Assignment V) : Prop where
  mem : a.opt ∈ opts
  string : a.string ∈ a.opt.strings ∨ (a.style ≠ .attached ∧ Abbreviates opts a.string a.opt)
  raw : a.style = .separate → a.raw.toList.head? ≠ some '+'
  attached : a.style = .attached → a.string.toList.length = 2 ∧ a.raw ≠ "" ∧ a.raw.toList.head? ≠ some '+' ∧
    a.raw.toList.head? ≠ some '='

/-- The last of the values written for a key. -/
def lastValue (d : String) (l : List (String × V)) : Option V := l.reverse.lookup d

/-- A table of options is sound: all option strings are different; they are `+` with another character, or begin with
`++` and are longer; there is no equals sign. -/
structure Sound (opts : List (Opt V)) : Prop where
  nodup : ((actions opts).map Prod.fst).Nodup
  plus : ∀ o ∈ opts, ∀ s ∈ o.strings, s.toList.head? = some '+'
  form : ∀ o ∈ opts, ∀ s ∈ o.strings, (s.toList.length = 2 ∧ (s.toList.drop 1).head? ≠ some '+') ∨
    (2 < s.toList.length ∧ (s.toList.drop 1).head? = some '+')
  equals : ∀ o ∈ opts, ∀ s ∈ o.strings, '=' ∉ s.toList

theorem lookup_of_mem {α β : Type*} [BEq α] [LawfulBEq α] (l : List (α × β)) (h : (l.map Prod.fst).Nodup) (a : α)
    (b : β) (hm : (a, b) ∈ l) : l.lookup a = some b := by
  induction l with
  | nil => simp at hm
  | cons p l ih =>
    obtain ⟨x, y⟩ := p
    rw [List.map_cons, List.nodup_cons] at h
    rcases List.mem_cons.1 hm with hm | hm'
    · simp only [Prod.mk.injEq] at hm
      rw [hm.1, hm.2]
      simp
    · have hne : (a == x) = false := by
        rw [beq_eq_false_iff_ne]
        intro hax
        subst hax
        exact h.1 (List.mem_map.2 ⟨(a, b), hm', rfl⟩)
      rw [List.lookup_cons, hne]
      exact ih h.2 hm'

theorem mem_of_lookup {α β : Type*} [BEq α] [LawfulBEq α] (l : List (α × β)) (a : α) (b : β)
    (h : l.lookup a = some b) : (a, b) ∈ l := by
  induction l with
  | nil => simp at h
  | cons p l ih =>
    obtain ⟨x, y⟩ := p
    rw [List.lookup_cons] at h
    cases hax : (a == x) with
    | true =>
      rw [hax] at h
      simp only [Option.some.injEq] at h
      rw [beq_iff_eq] at hax
      rw [hax, h]
      exact List.mem_cons_self ..
    | false =>
      rw [hax] at h
      exact List.mem_cons_of_mem _ (ih h)

theorem mem_actions (opts : List (Opt V)) (s : String) (o : Opt V) :
    (s, o) ∈ actions opts ↔ o ∈ opts ∧ s ∈ o.strings := by
  rw [actions, List.mem_flatMap]
  constructor
  · rintro ⟨o', ho', h⟩
    obtain ⟨s', hs', h⟩ := List.mem_map.1 h
    simp only [Prod.mk.injEq] at h
    obtain ⟨rfl, rfl⟩ := h
    exact ⟨ho', hs'⟩
  · rintro ⟨h1, h2⟩
    exact ⟨o, h1, List.mem_map.2 ⟨s, h2, rfl⟩⟩

theorem filterMap_unique {α β γ : Type*} (l : List (α × β)) (h : (l.map Prod.fst).Nodup) (f : α × β → Option γ)
    (p : α × β) (hp : p ∈ l) (c : γ) (hc : f p = some c) (hn : ∀ q ∈ l, q.1 ≠ p.1 → f q = none) :
    l.filterMap f = [c] := by
  induction l with
  | nil => simp at hp
  | cons q l ih =>
    rw [List.map_cons, List.nodup_cons] at h
    rcases List.mem_cons.1 hp with rfl | hp
    · rw [List.filterMap_cons, hc]
      have : l.filterMap f = [] := by
        rw [List.filterMap_eq_nil_iff]
        intro r hr
        apply hn r (List.mem_cons_of_mem _ hr)
        intro he
        exact h.1 (List.mem_map.2 ⟨r, hr, he⟩)
      rw [this]
    · have hq : f q = none := by
        apply hn q (List.mem_cons_self ..)
        intro he
        exact h.1 (List.mem_map.2 ⟨p, hp, he.symm⟩)
      rw [List.filterMap_cons, hq]
      exact ih h.2 hp (fun r hr => hn r (List.mem_cons_of_mem _ hr))

theorem takeWhile_all (l : List Char) (h : '=' ∉ l) (r : List Char) :
    (l ++ r).takeWhile (fun c => c != '=') = l ++ r.takeWhile (fun c => c != '=') ∧
    (l ++ r).dropWhile (fun c => c != '=') = r.dropWhile (fun c => c != '=') := by
  induction l with
  | nil => simp
  | cons x l ih =>
    rw [List.mem_cons, not_or] at h
    obtain ⟨i1, i2⟩ := ih h.2
    have hx : (x != '=') = true := by simpa using fun e => h.1 e.symm
    simp [hx, i1, i2]

theorem lookup_none' {α β : Type*} [BEq α] [LawfulBEq α] (l : List (α × β)) (a : α) (h : a ∉ l.map Prod.fst) :
    l.lookup a = none := by
  cases hl : l.lookup a with
  | none => rfl
  | some b => exact absurd (List.mem_map.2 ⟨_, mem_of_lookup l a b hl, rfl⟩) h

theorem partition_fst (s : String) : (partition s).1.toList = s.toList.takeWhile (fun c => c != '=') := by
  unfold partition
  rw [List.span_eq_takeWhile_dropWhile]
  cases s.toList.dropWhile (fun c => c != '=') <;> simp

theorem partition_none (s : String) (h : '=' ∉ s.toList) : partition s = (s, none) := by
  unfold partition
  obtain ⟨h1, h2⟩ := takeWhile_all s.toList h []
  rw [List.append_nil] at h1 h2
  rw [List.span_eq_takeWhile_dropWhile, h1, h2]
  simp

theorem partition_some (s r : String) (h : '=' ∉ s.toList) : partition (s ++ "=" ++ r) = (s, some r) := by
  unfold partition
  have e : (s ++ "=" ++ r).toList = s.toList ++ '=' :: r.toList := by simp
  obtain ⟨h1, h2⟩ := takeWhile_all s.toList h ('=' :: r.toList)
  rw [List.span_eq_takeWhile_dropWhile, e, h1, h2]
  simp

theorem startsWith_iff (s p : String) : startsWith s p = true ↔ p.toList <+: s.toList := by
  rw [startsWith, List.isPrefixOf_iff_prefix]

section Classes

variable (opts : List (Opt V)) (hs : Sound opts)
include hs

theorem lookup_string (o : Opt V) (ho : o ∈ opts) (s : String) (h : s ∈ o.strings) :
    (actions opts).lookup s = some o :=
  lookup_of_mem _ hs.nodup _ _ ((mem_actions opts s o).2 ⟨ho, h⟩)

theorem lookup_equals (s : String) (h : '=' ∈ s.toList) : (actions opts).lookup s = none := by
  cases hl : (actions opts).lookup s with
  | none => rfl
  | some o =>
    obtain ⟨h1, h2⟩ := (mem_actions opts s o).1 (mem_of_lookup _ _ _ hl)
    exact absurd h (hs.equals o h1 s h2)

theorem parse_exact (o : Opt V) (ho : o ∈ opts) (s : String) (h : s ∈ o.strings) :
    parseOptional opts s = .ok (.option o none) := by
  rw [parseOptional, if_neg (by rw [not_not]; exact hs.plus _ ho _ h), lookup_string opts hs o ho s h]

omit hs in
theorem parse_raw (w : String) (h : w.toList.head? ≠ some '+') :
    parseOptional opts w = .ok .argument := by rw [parseOptional, if_pos h]

theorem head_append (s r : String) (c : Char) (h : s.toList.head? = some c) : (s ++ r).toList.head? = some c := by
  rw [String.toList_append]
  cases hl : s.toList with
  | nil => rw [hl] at h; simp at h
  | cons x l => rw [hl] at h; simpa using h

omit hs in
theorem long_word (s : String) (h : ['+', '+'] <+: s.toList) : ∃ l, s.toList = '+' :: '+' :: l := by
  obtain ⟨l, hl⟩ := h
  exact ⟨l, by rw [← hl]; rfl⟩

theorem tuples_abbreviated (o : Opt V) (ho : o ∈ opts) (s : String) (h : Abbreviates opts s o) (w : String)
    (hw : (w.toList.drop 1).head? = some '+') (e : Option String) (hp : partition w = (s, e)) :
    optionTuples opts w = [(o, e)] := by
  obtain ⟨-, -, t, ht, h3, h4⟩ := h
  rw [optionTuples, if_pos hw, hp]
  apply filterMap_unique _ hs.nodup _ (t, o) ((mem_actions opts t o).2 ⟨ho, ht⟩)
  · simp only [(startsWith_iff t s).2 h3, if_true]
  · rintro ⟨t', o'⟩ hq hne
    obtain ⟨q1, q2⟩ := (mem_actions opts t' o').1 hq
    have : startsWith t' s = false := by
      rw [Bool.eq_false_iff, ne_eq, startsWith_iff]
      exact fun hpre => hne (h4 o' q1 t' q2 hpre)
    simp only [this, Bool.false_eq_true, if_false]

theorem parse_abbreviated (o : Opt V) (ho : o ∈ opts) (s : String) (h : Abbreviates opts s o) :
    parseOptional opts s = .ok (.option o none) := by
  obtain ⟨l, hl⟩ := long_word s h.1
  rw [parseOptional, if_neg (by rw [hl]; simp)]
  cases hlk : (actions opts).lookup s with
  | some o' =>
    obtain ⟨h1, h2⟩ := (mem_actions opts s o').1 (mem_of_lookup _ _ _ hlk)
    obtain ⟨-, -, t, ht, -, h4⟩ := h
    have : s = t := h4 o' h1 s h2 (List.prefix_refl _)
    rw [this, lookup_string opts hs o ho t ht] at hlk
    rw [← Option.some.inj hlk]
  | none =>
    simp only
    rw [if_neg (by rw [hl]; simp), partition_none s h.2.1,
      tuples_abbreviated opts hs o ho s h s (by rw [hl]; rfl) none (partition_none s h.2.1)]

theorem parse_equals (o : Opt V) (ho : o ∈ opts) (s r : String) (h : s ∈ o.strings ∨ Abbreviates opts s o) :
    parseOptional opts (s ++ "=" ++ r) = .ok (.option o (some r)) := by
  have hno : '=' ∉ s.toList := h.elim (hs.equals o ho s) (fun h => h.2.1)
  have hhead : s.toList.head? = some '+' := by
    rcases h with h | h
    · exact hs.plus o ho s h
    · obtain ⟨l, hl⟩ := long_word s h.1
      rw [hl]; rfl
  have hlen : (s ++ "=" ++ r).toList.length ≠ 1 := by
    cases hl : s.toList with
    | nil => rw [hl] at hhead; simp at hhead
    | cons x l => simp [hl]
  rw [parseOptional, if_neg (by rw [not_not]; simpa using head_append opts hs s ("=" ++ r) '+' hhead),
    lookup_equals opts hs _ (by simp)]
  simp only
  rw [if_neg hlen, partition_some s r hno]
  cases hlk : (actions opts).lookup s with
  | some o' =>
    simp only
    rcases h with h | h
    · rw [lookup_string opts hs o ho s h] at hlk
      rw [← Option.some.inj hlk]
    · obtain ⟨h1, h2⟩ := (mem_actions opts s o').1 (mem_of_lookup _ _ _ hlk)
      obtain ⟨-, -, t, ht, -, h4⟩ := h
      have : s = t := h4 o' h1 s h2 (List.prefix_refl _)
      rw [this, lookup_string opts hs o ho t ht] at hlk
      rw [← Option.some.inj hlk]
  | none =>
    rcases h with h | h
    · rw [lookup_string opts hs o ho s h] at hlk
      cases hlk
    · simp only
      obtain ⟨l, hl⟩ := long_word s h.1
      rw [tuples_abbreviated opts hs o ho s h _ (by simp [hl]) (some r) (partition_some s r hno)]

theorem parse_attached (o : Opt V) (ho : o ∈ opts) (s r : String) (h : s ∈ o.strings) (hlen : s.toList.length = 2)
    (hr : r ≠ "") (hr1 : r.toList.head? ≠ some '+') (hr2 : r.toList.head? ≠ some '=') :
    parseOptional opts (s ++ r) = .ok (.option o (some r)) := by
  obtain ⟨x, hx⟩ : ∃ x, s.toList = ['+', x] := by
    have h1 := hs.plus o ho s h
    match hl : s.toList, hlen with
    | [a, b], _ => rw [hl] at h1; simp only [List.head?_cons, Option.some.injEq] at h1; exact ⟨b, by rw [h1]⟩
  have hxp : x ≠ '+' := by
    rcases hs.form o ho s h with ⟨-, h2⟩ | ⟨h1, -⟩
    · rw [hx] at h2; simpa using h2
    · omega
  have hxe : x ≠ '=' := by
    have := hs.equals o ho s h
    rw [hx] at this
    simp only [List.mem_cons, List.not_mem_nil, or_false, not_or] at this
    exact fun he => this.2 he.symm
  obtain ⟨y, l, hy⟩ : ∃ y l, r.toList = y :: l := by
    cases hl : r.toList with
    | nil => exact absurd (by simpa using hl) hr
    | cons y l => exact ⟨y, l, rfl⟩
  have hyp : y ≠ '+' := by rw [hy] at hr1; simpa using hr1
  have hye : y ≠ '=' := by rw [hy] at hr2; simpa using hr2
  have hw : (s ++ r).toList = '+' :: x :: y :: l := by rw [String.toList_append, hx, hy]; rfl
  have nolong : ∀ o' ∈ opts, ∀ t ∈ o'.strings, ¬ (s ++ r).toList <+: t.toList := by
    intro o' ho' t ht hpre
    obtain ⟨z, hz⟩ := hpre
    rw [hw] at hz
    rcases hs.form o' ho' t ht with ⟨h1, -⟩ | ⟨-, h2⟩
    · rw [← hz] at h1
      simp at h1
    · rw [← hz] at h2
      simp only [List.cons_append, List.drop_succ_cons, List.drop_zero, List.head?_cons, Option.some.injEq] at h2
      exact hxp h2
  have none1 : (actions opts).lookup (s ++ r) = none := by
    cases hlk : (actions opts).lookup (s ++ r) with
    | none => rfl
    | some o' =>
      obtain ⟨h1, h2⟩ := (mem_actions opts _ o').1 (mem_of_lookup _ _ _ hlk)
      exact absurd (List.prefix_refl _) (nolong o' h1 _ h2)
  have none2 : ∀ e, (partition (s ++ r)).2 = some e → (actions opts).lookup (partition (s ++ r)).1 = none := by
    intro e he
    have hp : ['+', x, y] <+: (partition (s ++ r)).1.toList := by
      rw [partition_fst, hw]
      have hplus : ('+' != '=') = true := by decide
      have hx' : (x != '=') = true := by simpa using hxe
      have hy' : (y != '=') = true := by simpa using hye
      simp [hplus, hx', hy']
    cases hlk : (actions opts).lookup (partition (s ++ r)).1 with
    | none => rfl
    | some o' =>
      exfalso
      obtain ⟨h1, h2⟩ := (mem_actions opts _ o').1 (mem_of_lookup _ _ _ hlk)
      obtain ⟨z, hz⟩ := hp
      rcases hs.form o' h1 _ h2 with ⟨h3, -⟩ | ⟨-, h3⟩
      · rw [← hz] at h3
        simp at h3
      · rw [← hz] at h3
        simp only [List.cons_append, List.drop_succ_cons, List.drop_zero, List.head?_cons, Option.some.injEq] at h3
        exact hxp h3
  have tup : optionTuples opts (s ++ r) = [(o, some r)] := by
    rw [optionTuples, if_neg (by rw [hw]; simpa using hxp)]
    have htake : String.ofList ((s ++ r).toList.take 2) = s := by
      rw [hw, ← String.toList_inj]; simpa using hx.symm
    have hdrop : String.ofList ((s ++ r).toList.drop 2) = r := by
      rw [hw, ← String.toList_inj]; simpa using hy.symm
    apply filterMap_unique _ hs.nodup _ (s, o) ((mem_actions opts s o).2 ⟨ho, h⟩)
    · simp only [htake, hdrop, if_true]
    · rintro ⟨t, o'⟩ hq hne
      obtain ⟨q1, q2⟩ := (mem_actions opts t o').1 hq
      have : startsWith t (s ++ r) = false := by
        rw [Bool.eq_false_iff, ne_eq, startsWith_iff]
        exact nolong o' q1 t q2
      simp only [htake, this]
      rw [if_neg hne]
      simp
  rw [parseOptional, if_neg (by rw [hw]; simp), none1]
  simp only
  rw [if_neg (by rw [hw]; simp)]
  cases he : (partition (s ++ r)).2 with
  | none => simp only [tup]
  | some e => simp only [none2 e he, tup]

end Classes

/-- How the words of an assignment are understood. -/
def Assignment.classes (a : Assignment V) : List (Word V) :=
  match a.opt.kind, a.style with
  | .flag _, _ => [.option a.opt none]
  | .store _, .separate => [.option a.opt none, .argument]
  | .store _, _ => [.option a.opt (some a.raw)]

theorem parse_string (opts : List (Opt V)) (hs : Sound opts) (a : Assignment V) (ha : a.Valid opts) :
    parseOptional opts a.string = .ok (.option a.opt none) :=
  ha.string.elim (parse_exact opts hs _ ha.mem _) (fun h => parse_abbreviated opts hs _ ha.mem _ h.2)

theorem classes_eq (opts : List (Opt V)) (hs : Sound opts) (l : List (Assignment V))
    (hl : ∀ a ∈ l, a.Valid opts) :
    (l.flatMap Assignment.words).mapM (parseOptional opts) = .ok (l.flatMap Assignment.classes) := by
  induction l with
  | nil => rfl
  | cons a l ih =>
    have ha := hl a (List.mem_cons_self ..)
    have ih := ih (fun b hb => hl b (List.mem_cons_of_mem _ hb))
    rw [List.flatMap_cons, List.flatMap_cons]
    unfold Assignment.words Assignment.classes
    unfold Assignment.words Assignment.classes at ih
    cases hk : a.opt.kind with
    | flag v =>
      simp only [List.cons_append, List.nil_append]
      rw [List.mapM_cons, parse_string opts hs a ha]
      erw [ih]
      rfl
    | store t =>
      cases hst : a.style with
      | separate =>
        simp only [List.cons_append, List.nil_append]
        rw [List.mapM_cons, parse_string opts hs a ha, List.mapM_cons, parse_raw opts _ (ha.raw hst)]
        erw [ih]
        rfl
      | equals =>
        simp only [List.cons_append, List.nil_append]
        rw [List.mapM_cons, parse_equals opts hs _ ha.mem _ _ (ha.string.imp id (fun h => h.2))]
        erw [ih]
        rfl
      | attached =>
        obtain ⟨h1, h2, h3, h4⟩ := ha.attached hst
        simp only [List.cons_append, List.nil_append]
        rw [List.mapM_cons, parse_attached opts hs _ ha.mem _ _
          (ha.string.elim id (fun h => absurd hst h.1)) h1 h2 h3 h4]
        erw [ih]
        rfl

/-- All the values set, one after the other. -/
def assign (ns : Namespace V) : List (String × V) → Namespace V
  | [] => ns
  | (d, v) :: l => assign (set ns d v) l

theorem convert_eq (t : String → Except Error V) (w : String) : convert t w =
    match t w with
    | .ok v => .ok v
    | .error e => .error (if e = .keyError then .keyError else .runtimeError) := by
  unfold convert
  cases t w with
  | ok v => rfl
  | error e => cases e <;> rfl

theorem consume_flag (w : String) (o : Opt V) (v : V) (hk : o.kind = .flag v) (rest : List (String × Word V))
    (ns : Namespace V) (x : Bool) :
    consume ((w, .option o none) :: rest) ns x = consume rest (set ns o.dest v) x := by
  conv_lhs => unfold consume
  simp only [hk]

theorem consume_store (w w' : String) (o : Opt V) (t : String → Except Error V) (hk : o.kind = .store t)
    (rest : List (String × Word V)) (ns : Namespace V) (x : Bool) :
    consume ((w, .option o none) :: (w', .argument) :: rest) ns x =
      match convert t w' with
      | .ok v => consume rest (set ns o.dest v) x
      | .error e => .error e := by
  conv_lhs => unfold consume
  simp only [hk]
  cases convert t w' <;> rfl

theorem consume_explicit (w w' : String) (o : Opt V) (t : String → Except Error V) (hk : o.kind = .store t)
    (rest : List (String × Word V)) (ns : Namespace V) (x : Bool) :
    consume ((w, .option o (some w')) :: rest) ns x =
      match convert t w' with
      | .ok v => consume rest (set ns o.dest v) x
      | .error e => .error e := by
  conv_lhs => unfold consume
  simp only [hk]
  cases convert t w' <;> rfl

theorem consume_eq (l : List (Assignment V)) (ns : Namespace V) :
    consume ((l.flatMap Assignment.words).zip (l.flatMap Assignment.classes)) ns false =
      (l.mapM Assignment.value).map (fun vs => (assign ns ((l.map fun a => a.opt.dest).zip vs), false)) := by
  induction l generalizing ns with
  | nil => rfl
  | cons a l ih =>
    rw [List.flatMap_cons, List.flatMap_cons, List.mapM_cons]
    have hv : a.value = match a.opt.kind with
      | .flag v => .ok v
      | .store type => convert type a.raw := by
      unfold Assignment.value
      cases a.opt.kind with
      | flag v => rfl
      | store t => simp only [convert_eq]
    have hw : a.words = match a.opt.kind, a.style with
      | .flag _, _ => [a.string]
      | .store _, .separate => [a.string, a.raw]
      | .store _, .equals => [a.string ++ "=" ++ a.raw]
      | .store _, .attached => [a.string ++ a.raw] := rfl
    have hc : a.classes = match a.opt.kind, a.style with
      | .flag _, _ => [.option a.opt none]
      | .store _, .separate => [.option a.opt none, .argument]
      | .store _, _ => [.option a.opt (some a.raw)] := rfl
    rw [hv, hw, hc]
    cases hk : a.opt.kind with
    | flag v =>
      simp only [List.cons_append, List.nil_append, List.zip_cons_cons]
      rw [consume_flag _ _ _ hk, ih]
      cases l.mapM Assignment.value <;> rfl
    | store t =>
      cases a.style with
      | separate =>
        simp only [List.cons_append, List.nil_append, List.zip_cons_cons]
        rw [consume_store _ _ _ _ hk]
        cases hcv : convert t a.raw with
        | error e => rfl
        | ok v =>
          simp only
          rw [ih]
          cases l.mapM Assignment.value <;> rfl
      | equals =>
        simp only [List.cons_append, List.nil_append, List.zip_cons_cons]
        rw [consume_explicit _ _ _ _ hk]
        cases hcv : convert t a.raw with
        | error e => rfl
        | ok v =>
          simp only
          rw [ih]
          cases l.mapM Assignment.value <;> rfl
      | attached =>
        simp only [List.cons_append, List.nil_append, List.zip_cons_cons]
        rw [consume_explicit _ _ _ _ hk]
        cases hcv : convert t a.raw with
        | error e => rfl
        | ok v =>
          simp only
          rw [ih]
          cases l.mapM Assignment.value <;> rfl

theorem lookup_assign (l : List (String × V)) (ns : Namespace V) (d : String) :
    (assign ns l).lookup d = (lastValue d l).or (ns.lookup d) := by
  induction l generalizing ns with
  | nil => simp [assign, lastValue]
  | cons p l ih =>
    obtain ⟨k, v⟩ := p
    rw [assign, ih, lookup_set]
    have : lastValue d ((k, v) :: l) = (lastValue d l).or (if d = k then some v else none) := by
      unfold lastValue
      rw [List.reverse_cons, List.lookup_append]
      by_cases h : d = k
      · subst h; simp
      · have : (d == k) = false := by simpa using h
        simp [h, List.lookup_cons, this]
    rw [this]
    cases lastValue d l with
    | some _ => rfl
    | none =>
      by_cases h : d = k <;> simp [h]

theorem keys_assign (l : List (String × V)) (ns : Namespace V) (h : ∀ p ∈ l, p.1 ∈ ns.map Prod.fst) :
    (assign ns l).map Prod.fst = ns.map Prod.fst := by
  induction l generalizing ns with
  | nil => rfl
  | cons p l ih =>
    obtain ⟨k, v⟩ := p
    have hk := keys_set ns k v (h _ (List.mem_cons_self ..))
    rw [assign, ih, hk]
    intro q hq
    rw [hk]
    exact h q (List.mem_cons_of_mem _ hq)

/-- C117.  Options written as separate words: the parser fails with the first argument that cannot be converted, or
it returns all options of the solver, each with the value written last or, if it is not written, its default.  In
particular the order of different options does not matter. -/
theorem C117_written (opts : List (Opt V)) (hs : Sound opts) (l : List (Assignment V)) (hl : ∀ a ∈ l, a.Valid opts) :
    (∀ e, l.mapM Assignment.value = .error e → parseArgs opts (l.flatMap Assignment.words) = .error e) ∧
    ∀ vs, l.mapM Assignment.value = .ok vs → ∃ ns, parseArgs opts (l.flatMap Assignment.words) = .ok ns ∧
      ns.map Prod.fst = opts.map Opt.dest ∧
      ∀ d, ns.lookup d =
        (lastValue d ((l.map fun a => a.opt.dest).zip vs)).or ((opts.map fun o => (o.dest, o.default)).lookup d) := by
  have heq : parseArgs opts (l.flatMap Assignment.words) =
      (l.mapM Assignment.value).map (fun vs => assign (initial opts) ((l.map fun a => a.opt.dest).zip vs)) := by
    rw [parseArgs]
    rw [classes_eq opts hs l hl]
    change (do
      let (ns, extras) ← consume ((l.flatMap Assignment.words).zip (l.flatMap Assignment.classes)) (initial opts) false
      if extras then Except.error Error.runtimeError else .ok ns) = _
    rw [consume_eq]
    cases l.mapM Assignment.value <;> rfl
  refine ⟨fun e he => by rw [heq, he]; rfl, fun vs hvs => ?_⟩
  refine ⟨assign (initial opts) ((l.map fun a => a.opt.dest).zip vs), by rw [heq, hvs]; rfl, ?_, fun d => ?_⟩
  · rw [keys_assign]
    · simp [initial, Function.comp_def]
    · intro p hp
      have h1 := (List.of_mem_zip hp).1
      rw [List.mem_map] at h1
      obtain ⟨a, ha, hd⟩ := h1
      rw [← hd, initial, List.map_map, List.mem_map]
      exact ⟨a.opt, (hl a ha).mem, rfl⟩
  · rw [lookup_assign]
    rfl

end Written

/-! ### Any words -/

section Any

variable {V : Type}

theorem actions_mem (opts : List (Opt V)) (s : String) (o : Opt V) (h : (s, o) ∈ actions opts) : o ∈ opts := by
  rw [actions, List.mem_flatMap] at h
  obtain ⟨o', ho', h⟩ := h
  rw [List.mem_map] at h
  obtain ⟨s', _, h⟩ := h
  simp only [Prod.mk.injEq] at h
  rw [← h.2]; exact ho'

theorem parse_option_mem (opts : List (Opt V)) (w : String) (o : Opt V) (e : Option String)
    (h : parseOptional opts w = .ok (.option o e)) : o ∈ opts := by
  unfold parseOptional at h
  split at h
  · simp at h
  · split at h
    · rename_i o' ho'
      simp only [Except.ok.injEq, Word.option.injEq] at h
      rw [← h.1]
      exact actions_mem opts _ _ (mem_of_lookup _ _ _ ho')
    · split at h
      · simp at h
      · split at h
        · rename_i e' o' _ ho'
          simp only [Except.ok.injEq, Word.option.injEq] at h
          rw [← h.1]
          exact actions_mem opts _ _ (mem_of_lookup _ _ _ ho')
        · split at h
          · rename_i o' e' ht
            simp only [Except.ok.injEq, Word.option.injEq] at h
            have hm : (o', e') ∈ optionTuples opts w := by rw [ht]; exact List.mem_cons_self ..
            rw [← h.1]
            unfold optionTuples at hm
            split at hm
            · rw [List.mem_filterMap] at hm
              obtain ⟨⟨s, o''⟩, hp, hm⟩ := hm
              split at hm
              · simp only [Option.some.injEq, Prod.mk.injEq] at hm
                rw [← hm.1]; exact actions_mem opts _ _ hp
              · simp at hm
            · rw [List.mem_filterMap] at hm
              obtain ⟨⟨s, o''⟩, hp, hm⟩ := hm
              split at hm
              · simp only [Option.some.injEq, Prod.mk.injEq] at hm
                rw [← hm.1]; exact actions_mem opts _ _ hp
              · split at hm
                · simp only [Option.some.injEq, Prod.mk.injEq] at hm
                  rw [← hm.1]; exact actions_mem opts _ _ hp
                · simp at hm
          · simp at h
          · split at h <;> simp at h

/-- The values an option can have. -/
def Opt.Can (o : Opt V) (v : V) : Prop :=
  match o.kind with
  | .flag w => v = w
  | .store type => ∃ s, type s = .ok v

theorem convert_ok (type : String → Except Error V) (w : String) (v : V) (h : convert type w = .ok v) :
    type w = .ok v := by
  unfold convert at h
  split at h <;> simp_all

/-- What holds of a namespace whatever is consumed. -/
theorem consume_invariant (opts : List (Opt V)) (P : Namespace V → Prop)
    (hP : ∀ ns o v, o ∈ opts → o.Can v → P ns → P (set ns o.dest v)) (n : ℕ) (l : List (String × Word V))
    (hn : l.length ≤ n) (hl : ∀ p ∈ l, ∀ o e, p.2 = .option o e → o ∈ opts) (ns : Namespace V) (hns : P ns)
    (extras : Bool) (r : Namespace V × Bool) (h : consume l ns extras = .ok r) :
    P r.1 ∧ (extras = true → r.2 = true) ∧ ∀ p ∈ l, (∃ w, p = (w, .unknown)) → r.2 = true := by
  induction n generalizing l ns extras with
  | zero =>
    have : l = [] := List.eq_nil_of_length_eq_zero (by omega)
    subst this
    simp only [consume, Except.ok.injEq] at h
    subst h
    exact ⟨hns, fun h => h, fun p hp => by simp at hp⟩
  | succ n ih =>
    cases l with
    | nil =>
      simp only [consume, Except.ok.injEq] at h
      subst h
      exact ⟨hns, fun h => h, fun p hp => by simp at hp⟩
    | cons p l =>
      obtain ⟨w, cl⟩ := p
      have hl' : ∀ p ∈ l, ∀ o e, p.2 = .option o e → o ∈ opts := fun p hp => hl p (List.mem_cons_of_mem _ hp)
      have hn' : l.length ≤ n := by simp at hn; omega
      cases cl with
      | argument =>
        rw [consume] at h
        obtain ⟨h1, h2, h3⟩ := ih l hn' hl' ns hns true h
        refine ⟨h1, fun _ => h2 rfl, fun p hp hw => h2 rfl⟩
      | unknown =>
        rw [consume] at h
        obtain ⟨h1, h2, h3⟩ := ih l hn' hl' ns hns true h
        exact ⟨h1, fun _ => h2 rfl, fun p hp hw => h2 rfl⟩
      | option o e =>
        have ho : o ∈ opts := hl (w, .option o e) (List.mem_cons_self ..) o e rfl
        unfold consume at h
        cases hk : o.kind with
        | flag v =>
          cases e with
          | some e => simp [hk] at h
          | none =>
            simp only [hk] at h
            have hc : o.Can v := by simp [Opt.Can, hk]
            obtain ⟨h1, h2, h3⟩ := ih l hn' hl' _ (hP _ _ _ ho hc hns) extras h
            refine ⟨h1, h2, fun p hp hw => ?_⟩
            rcases List.mem_cons.1 hp with hp | hp
            · obtain ⟨w', hw⟩ := hw
              rw [hp] at hw; simp at hw
            · exact h3 p hp hw
        | store type =>
          cases e with
          | some e =>
            simp only [hk] at h
            cases hcv : convert type e with
            | error e' => rw [hcv] at h; simp at h
            | ok v =>
              rw [hcv] at h
              have hc : o.Can v := by simp only [Opt.Can, hk]; exact ⟨e, convert_ok _ _ _ hcv⟩
              obtain ⟨h1, h2, h3⟩ := ih l hn' hl' _ (hP _ _ _ ho hc hns) extras h
              refine ⟨h1, h2, fun p hp hw => ?_⟩
              rcases List.mem_cons.1 hp with hp | hp
              · obtain ⟨w', hw⟩ := hw
                rw [hp] at hw; simp at hw
              · exact h3 p hp hw
          | none =>
            simp only [hk] at h
            cases l with
            | nil => simp at h
            | cons q l =>
              obtain ⟨w', cl'⟩ := q
              cases cl' with
              | option _ _ => simp at h
              | unknown => simp at h
              | argument =>
                simp only at h
                cases hcv : convert type w' with
                | error e' => rw [hcv] at h; simp at h
                | ok v =>
                  rw [hcv] at h
                  have hc : o.Can v := by simp only [Opt.Can, hk]; exact ⟨w', convert_ok _ _ _ hcv⟩
                  obtain ⟨h1, h2, h3⟩ := ih l (by simp at hn'; omega)
                    (fun p hp => hl' p (List.mem_cons_of_mem _ hp)) _ (hP _ _ _ ho hc hns) extras h
                  refine ⟨h1, h2, fun p hp hw => ?_⟩
                  rcases List.mem_cons.1 hp with hp | hp
                  · obtain ⟨w'', hw⟩ := hw
                    rw [hp] at hw; simp at hw
                  · rcases List.mem_cons.1 hp with hp | hp
                    · obtain ⟨w'', hw⟩ := hw
                      rw [hp] at hw; simp at hw
                    · exact h3 p hp hw

theorem parseArgs_ok (opts : List (Opt V)) (words : List String) (ns : Namespace V)
    (h : parseArgs opts words = .ok ns) : ∃ classes, words.mapM (parseOptional opts) = .ok classes ∧
      consume (words.zip classes) (initial opts) false = .ok (ns, false) := by
  unfold parseArgs at h
  cases hc : words.mapM (parseOptional opts) with
  | error e => rw [hc] at h; cases h
  | ok classes =>
    rw [hc] at h
    refine ⟨classes, rfl, ?_⟩
    cases hr : consume (words.zip classes) (initial opts) false with
    | error e =>
      have h : (consume (words.zip classes) (initial opts) false >>= fun x =>
        if x.2 then Except.error Error.runtimeError else .ok x.1) = .ok ns := h
      rw [hr] at h; cases h
    | ok r =>
      have h : (consume (words.zip classes) (initial opts) false >>= fun x =>
        if x.2 then Except.error Error.runtimeError else .ok x.1) = .ok ns := h
      rw [hr] at h
      obtain ⟨n, b⟩ := r
      cases b with
      | true => cases h
      | false =>
        have h : Except.ok (ε := Error) n = .ok ns := h
        simp only [Except.ok.injEq] at h
        rw [h]

theorem classes_mem (opts : List (Opt V)) (words : List String) (classes : List (Word V))
    (h : words.mapM (parseOptional opts) = .ok classes) :
    (∀ p ∈ words.zip classes, parseOptional opts p.1 = .ok p.2) ∧
    ∀ w ∈ words, ∃ cl, (w, cl) ∈ words.zip classes := by
  induction words generalizing classes with
  | nil => exact ⟨by simp, by simp⟩
  | cons w words ih =>
    rw [List.mapM_cons] at h
    cases hw : parseOptional opts w with
    | error e => rw [hw] at h; cases h
    | ok cl =>
      rw [hw] at h
      cases hr : words.mapM (parseOptional opts) with
      | error e =>
        have h : (words.mapM (parseOptional opts) >>= fun r => Except.ok (cl :: r)) = .ok classes := h
        rw [hr] at h; cases h
      | ok r =>
        have h : (words.mapM (parseOptional opts) >>= fun r => Except.ok (cl :: r)) = .ok classes := h
        rw [hr] at h
        have h : Except.ok (ε := Error) (cl :: r) = .ok classes := h
        simp only [Except.ok.injEq] at h
        subst h
        obtain ⟨i1, i2⟩ := ih r hr
        refine ⟨fun p hp => ?_, fun x hx => ?_⟩
        · rw [List.zip_cons_cons] at hp
          rcases List.mem_cons.1 hp with hp | hp
          · rw [hp]; exact hw
          · exact i1 p hp
        · rw [List.zip_cons_cons]
          rcases List.mem_cons.1 hx with hx | hx
          · exact ⟨cl, by rw [hx]; exact List.mem_cons_self ..⟩
          · obtain ⟨cl', h'⟩ := i2 x hx
            exact ⟨cl', List.mem_cons_of_mem _ h'⟩

/-- Whatever is written: if parsing succeeds, the keys are those of the options, in order, all values are defaults or
converted, and no word is an unknown option. -/
theorem parseArgs_invariant (opts : List (Opt V)) (words : List String) (ns : Namespace V)
    (h : parseArgs opts words = .ok ns) :
    ns.map Prod.fst = opts.map Opt.dest ∧
    (∀ p ∈ ns, ∃ o ∈ opts, o.dest = p.1 ∧ (p.2 = o.default ∨ o.Can p.2)) ∧
    ∀ w ∈ words, parseOptional opts w ≠ .ok .unknown := by
  obtain ⟨classes, hc, hr⟩ := parseArgs_ok opts words ns h
  obtain ⟨c1, c2⟩ := classes_mem opts words classes hc
  have key := consume_invariant opts
    (fun ns => ns.map Prod.fst = opts.map Opt.dest ∧
      ∀ p ∈ ns, ∃ o ∈ opts, o.dest = p.1 ∧ (p.2 = o.default ∨ o.Can p.2)) ?_ _ _ le_rfl ?_ (initial opts) ?_ false _ hr
  · obtain ⟨⟨k1, k2⟩, -, k3⟩ := key
    refine ⟨k1, k2, fun w hw hu => ?_⟩
    obtain ⟨cl, hcl⟩ := c2 w hw
    have := c1 _ hcl
    rw [hu] at this
    simp only [Except.ok.injEq] at this
    have := k3 _ hcl ⟨w, by rw [this]⟩
    simp at this
  · rintro ns o v ho hcan ⟨h1, h2⟩
    refine ⟨?_, fun p hp => ?_⟩
    · rw [keys_set _ _ _ (by rw [h1]; exact List.mem_map.2 ⟨o, ho, rfl⟩), h1]
    · rcases mem_set _ _ _ _ hp with hp | hp
      · exact ⟨o, ho, by rw [hp], Or.inr (by rw [hp]; exact hcan)⟩
      · exact h2 p hp
  · intro p hp o e hpe
    exact parse_option_mem opts p.1 o e (by rw [c1 p hp, hpe])
  · refine ⟨by simp [initial, Function.comp_def], fun p hp => ?_⟩
    rw [initial, List.mem_map] at hp
    obtain ⟨o, ho, hp⟩ := hp
    exact ⟨o, ho, by rw [← hp], Or.inl (by rw [← hp])⟩

end Any

/-! ### The solvers -/

section Solvers

variable {K : Type} [Field K] [LinearOrder K] [IsStrictOrderedRing K] (c : Conversions K)

/-- The names an option can be given by. -/
def optionStrings : String → List String
  | "name" => ["+n", "++name"]
  | "short" => ["+s", "++short"]
  | "mesh_size" => ["+m", "++mesh-size"]
  | "cfl_number" => ["++cfl"]
  | "adaptive" => ["++adaptive"]
  | "exact_flux" => ["++exact-flux"]
  | "ode_solver_type" => ["+o", "++ode-solver"]
  | "flux_getter" => ["+f", "++flux"]
  | "gamma" => ["+g", "++gamma"]
  | "coarsening_degree" => ["+c", "++coarsening-degree"]
  | _ => []

/-- What a word means as the argument of an option: a string, a positive integer, a number that is not `≤ 0`, a
number, one of the keys of a dictionary; flags have no argument. -/
def meaning (d w : String) : Except Error (Val K) :=
  if d = "name" ∨ d = "short" then .ok (.str w)
  else if d = "mesh_size" ∨ d = "coarsening_degree" then
    match c.int w with
    | some n => if 0 < n then .ok (.int n) else .error .runtimeError
    | none => .error .runtimeError
  else if d = "cfl_number" then
    match c.float w with
    | some (.fin x) => if 0 < x then .ok (.num (.fin x)) else .error .runtimeError
    | some .posInf => .ok (.num .posInf)
    | some .nan => .ok (.num .nan)
    | _ => .error .runtimeError
  else if d = "gamma" then
    match c.float w with
    | some x => .ok (.num x)
    | none => .error .runtimeError
  else if d = "ode_solver_type" then
    if w = "euler" then .ok (.ode .euler) else if w = "heun" then .ok (.ode .heun)
    else if w = "ssp3" then .ok (.ode .ssp3) else .error .keyError
  else if d = "flux_getter" then
    if w ∈ ["central", "es", "es1", "llf", "low-order", "reduced-llf", "reduced-llf-2"] then .ok (.flux w)
    else .error .keyError
  else .ok (.bool true)

set_option maxHeartbeats 2000000 in
/-- C117.  The options of each solver can be given by the documented strings, all tables of options are sound, and
the arguments have the documented meaning. -/
theorem C117_options (k : Key) : Sound (options c k) ∧
    (∀ o ∈ options c k, o.strings = optionStrings o.dest) ∧
    ∀ a : Assignment (Val K), a.opt ∈ options c k → a.value = meaning c a.opt.dest a.raw := by
  refine ⟨⟨?_, ?_, ?_, ?_⟩, ?_, ?_⟩
  · cases k <;> simp [options, ownOptions, actions, nameOption, shortOption, meshOption, cflOption, adaptiveOption,
      odeOption, fluxOption, exactFluxOption, gammaOption, coarseningOption]
  · cases k <;> simp [options, ownOptions, nameOption, shortOption, meshOption, cflOption, adaptiveOption,
      odeOption, fluxOption, exactFluxOption, gammaOption, coarseningOption]
  · cases k <;> simp [options, ownOptions, nameOption, shortOption, meshOption, cflOption, adaptiveOption,
      odeOption, fluxOption, exactFluxOption, gammaOption, coarseningOption]
  · cases k <;> simp [options, ownOptions, nameOption, shortOption, meshOption, cflOption, adaptiveOption,
      odeOption, fluxOption, exactFluxOption, gammaOption, coarseningOption]
  · cases k <;> simp [options, ownOptions, nameOption, shortOption, meshOption, cflOption, adaptiveOption,
      odeOption, fluxOption, exactFluxOption, gammaOption, coarseningOption, optionStrings]
  · rintro ⟨o, string, raw, style⟩ ho
    simp only at ho
    have all : o ∈ [nameOption k, shortOption k, meshOption c k, cflOption c k, exactFluxOption, adaptiveOption,
        odeOption, fluxOption, gammaOption c, coarseningOption c] := by
      revert ho
      cases k <;> simp only [options, ownOptions, List.mem_append, List.mem_cons, List.not_mem_nil, or_false] <;> tauto
    simp only [List.mem_cons, List.not_mem_nil, or_false] at all
    rcases all with rfl | rfl | rfl | rfl | rfl | rfl | rfl | rfl | rfl | rfl
    · simp [Assignment.value, nameOption, meaning]
    · simp [Assignment.value, shortOption, meaning]
    · simp only [Assignment.value, meshOption, meaning, positiveInt]
      cases c.int raw with
      | none => simp [Except.map]
      | some n => by_cases h : 0 < n <;> simp [Except.map, h, not_le.2, not_lt.1]
    · simp only [Assignment.value, cflOption, meaning, positiveFloat]
      cases c.float raw with
      | none => simp [Except.map]
      | some x =>
        cases x with
        | fin x => by_cases h : 0 < x <;> simp [Except.map, PyFloat.le, h, not_le.2, not_lt.1]
        | _ => simp [Except.map, PyFloat.le]
    · simp [Assignment.value, exactFluxOption, meaning]
    · simp [Assignment.value, adaptiveOption, meaning]
    · simp only [Assignment.value, odeOption, meaning, fromDict, odeSolvers]
      by_cases h1 : raw = "euler"
      · subst h1; simp
      by_cases h2 : raw = "heun"
      · subst h2; simp [List.lookup]
      by_cases h3 : raw = "ssp3"
      · subst h3; simp [List.lookup]
      simp [List.lookup, h1, h2, h3, beq_eq_false_iff_ne.2 h1, beq_eq_false_iff_ne.2 h2, beq_eq_false_iff_ne.2 h3]
    · simp only [Assignment.value, fluxOption, meaning, fromDict]
      by_cases h : raw ∈ ["central", "es", "es1", "llf", "low-order", "reduced-llf", "reduced-llf-2"]
      · simp only [List.mem_cons, List.not_mem_nil, or_false] at h
        rcases h with rfl | rfl | rfl | rfl | rfl | rfl | rfl <;> simp [fluxGetters, List.lookup]
      · have : fluxGetters.lookup raw = none := by
          apply lookup_none'
          simpa [fluxGetters] using h
        rw [this, if_neg (by decide), if_neg (by decide), if_neg (by decide), if_neg (by decide), if_neg (by decide),
          if_pos trivial, if_neg h]
        rfl
    · simp only [Assignment.value, gammaOption, meaning]
      cases c.float raw <;> simp
    · simp only [Assignment.value, coarseningOption, meaning, positiveInt]
      cases c.int raw with
      | none => simp [Except.map]
      | some n => by_cases h : 0 < n <;> simp [Except.map, h, not_le.2, not_lt.1]

/-- The names of the options of a solver, as documented. -/
def optionNames : Key → List String
  | .cg => ["name", "short", "mesh_size", "cfl_number", "exact_flux"]
  | .cgLow | .mclFem => ["name", "short", "mesh_size", "cfl_number", "adaptive", "ode_solver_type"]
  | .llf | .central | .sweLw | .sweCentral => ["name", "short", "mesh_size", "cfl_number"]
  | .sweMcl => ["name", "short", "mesh_size", "cfl_number", "flux_getter", "ode_solver_type"]
  | .sweAntidiffusion => ["name", "short", "mesh_size", "cfl_number", "flux_getter", "gamma", "ode_solver_type"]
  | .sweCoarse => ["name", "short", "mesh_size", "cfl_number", "flux_getter", "coarsening_degree", "ode_solver_type"]
  | _ => ["name", "short", "mesh_size", "cfl_number", "ode_solver_type"]

theorem options_names (k : Key) : (options c k).map Opt.dest = optionNames k := by
  cases k <;> rfl

/-- The range of the values of an option: a name is a string, a mesh size or coarsening degree a positive integer, a CFL
number is not `≤ 0` (it may be infinite or not a number), and so on. -/
def InRange (d : String) (v : Val K) : Prop :=
  (d = "name" → ∃ s, v = .str s) ∧ (d = "short" → ∃ s, v = .str s) ∧
  (d = "mesh_size" → ∃ m, 0 < m ∧ v = .int m) ∧
  (d = "cfl_number" → ∃ x, (x = .nan ∨ x = .posInf ∨ ∃ y, 0 < y ∧ x = .fin y) ∧ v = .num x) ∧
  (d = "adaptive" → ∃ b, v = .bool b) ∧ (d = "exact_flux" → ∃ b, v = .bool b) ∧
  (d = "ode_solver_type" → ∃ o, v = .ode o) ∧
  (d = "flux_getter" → v = .none ∨ ∃ key ∈ ["central", "es", "es1", "llf", "low-order", "reduced-llf",
    "reduced-llf-2"], v = .flux key) ∧
  (d = "gamma" → ∃ x, v = .num x) ∧ (d = "coarsening_degree" → ∃ m, 0 < m ∧ v = .int m)

theorem positiveInt_pos (int : String → Option ℤ) (s : String) (n : ℤ) (h : positiveInt int s = .ok n) : 0 < n := by
  unfold positiveInt at h
  split at h
  · simp at h
  · split at h
    · simp at h
    · simp only [Except.ok.injEq] at h; omega

theorem positiveFloat_pos (float : String → Option (PyFloat K)) (s : String) (x : PyFloat K)
    (h : positiveFloat float s = .ok x) : x = .nan ∨ x = .posInf ∨ ∃ y, 0 < y ∧ x = .fin y := by
  unfold positiveFloat at h
  split at h
  · simp at h
  · rename_i v _
    split at h
    · simp at h
    · rename_i hv
      simp only [Except.ok.injEq] at h
      subst h
      cases v with
      | nan => exact Or.inl rfl
      | posInf => exact Or.inr (Or.inl rfl)
      | negInf => simp [PyFloat.le] at hv
      | fin y => exact Or.inr (Or.inr ⟨y, by simpa [PyFloat.le] using hv, rfl⟩)

theorem map_ok {α β : Type} (f : α → β) (x : Except Error α) (b : β) (h : x.map f = .ok b) :
    ∃ a, x = .ok a ∧ b = f a := by
  cases x with
  | error e => simp [Except.map] at h
  | ok a => exact ⟨a, rfl, by simpa [Except.map] using h.symm⟩

theorem fromDict_ok {α : Type} (d : List (String × α)) (f : α → Val K) (s : String) (v : Val K)
    (h : fromDict d f s = .ok v) : ∃ p ∈ d, v = f p.2 := by
  unfold fromDict at h
  split at h
  · rename_i w hw
    exact ⟨_, mem_of_lookup _ _ _ hw, by simpa using h.symm⟩
  · simp at h

theorem cflDefault_pos (k : Key) : (0 : K) < cflDefault k := by
  cases k <;> simp [cflDefault] <;> norm_num

theorem meshDefault_pos (k : Key) : 0 < meshDefault k := by cases k <;> simp [meshDefault]

theorem inRange_name (k : Key) (v : Val K) (h : v = (nameOption k).default ∨ (nameOption k).Can v) :
    InRange "name" v := by
  have : ∃ s, v = .str s := by
    rcases h with rfl | h
    · exact ⟨_, rfl⟩
    · obtain ⟨s, hs⟩ := h
      exact ⟨s, by simpa using hs.symm⟩
  simpa [InRange] using this

theorem inRange_short (k : Key) (v : Val K) (h : v = (shortOption k).default ∨ (shortOption k).Can v) :
    InRange "short" v := by
  have : ∃ s, v = .str s := by
    rcases h with rfl | h
    · exact ⟨_, rfl⟩
    · obtain ⟨s, hs⟩ := h
      exact ⟨s, by simpa using hs.symm⟩
  simpa [InRange] using this

theorem inRange_mesh (k : Key) (v : Val K) (h : v = (meshOption c k).default ∨ (meshOption c k).Can v) :
    InRange "mesh_size" v := by
  have : ∃ m, 0 < m ∧ v = .int m := by
    rcases h with rfl | h
    · exact ⟨_, meshDefault_pos k, rfl⟩
    · obtain ⟨s, hs⟩ := h
      obtain ⟨n, hn, hv⟩ := map_ok _ _ _ hs
      exact ⟨n, positiveInt_pos _ _ _ hn, hv⟩
  simpa [InRange] using this

theorem inRange_cfl (k : Key) (v : Val K) (h : v = (cflOption c k).default ∨ (cflOption c k).Can v) :
    InRange "cfl_number" v := by
  have : ∃ x, (x = .nan ∨ x = .posInf ∨ ∃ y, 0 < y ∧ x = .fin y) ∧ v = .num x := by
    rcases h with rfl | h
    · exact ⟨_, Or.inr (Or.inr ⟨_, cflDefault_pos k, rfl⟩), rfl⟩
    · obtain ⟨s, hs⟩ := h
      obtain ⟨n, hn, hv⟩ := map_ok _ _ _ hs
      exact ⟨n, positiveFloat_pos _ _ _ hn, hv⟩
  simpa [InRange] using this

theorem inRange_adaptive (v : Val K) (h : v = adaptiveOption.default ∨ adaptiveOption.Can v) :
    InRange "adaptive" v := by
  have : ∃ b, v = .bool b := by
    rcases h with rfl | h
    · exact ⟨_, rfl⟩
    · exact ⟨_, h⟩
  simpa [InRange] using this

theorem inRange_exact (v : Val K) (h : v = exactFluxOption.default ∨ exactFluxOption.Can v) :
    InRange "exact_flux" v := by
  have : ∃ b, v = .bool b := by
    rcases h with rfl | h
    · exact ⟨_, rfl⟩
    · exact ⟨_, h⟩
  simpa [InRange] using this

theorem inRange_ode (v : Val K) (h : v = odeOption.default ∨ odeOption.Can v) : InRange "ode_solver_type" v := by
  have : ∃ o, v = .ode o := by
    rcases h with rfl | h
    · exact ⟨_, rfl⟩
    · obtain ⟨s, hs⟩ := h
      obtain ⟨p, _, hv⟩ := fromDict_ok _ _ _ _ hs
      exact ⟨_, hv⟩
  simpa [InRange] using this

theorem inRange_flux (v : Val K) (h : v = fluxOption.default ∨ fluxOption.Can v) : InRange "flux_getter" v := by
  have : v = .none ∨ ∃ key ∈ ["central", "es", "es1", "llf", "low-order", "reduced-llf", "reduced-llf-2"],
      v = .flux key := by
    rcases h with rfl | h
    · exact Or.inl rfl
    · obtain ⟨s, hs⟩ := h
      obtain ⟨p, hp, hv⟩ := fromDict_ok _ _ _ _ hs
      rw [fluxGetters, List.mem_map] at hp
      obtain ⟨key, hkey, hp⟩ := hp
      exact Or.inr ⟨key, hkey, by rw [hv, ← hp]⟩
  simpa [InRange] using this

theorem inRange_gamma (v : Val K) (h : v = (gammaOption c).default ∨ (gammaOption c).Can v) : InRange "gamma" v := by
  have : ∃ x, v = .num x := by
    rcases h with rfl | h
    · exact ⟨_, rfl⟩
    · obtain ⟨s, hs⟩ := h
      beta_reduce at hs
      split at hs
      · exact ⟨_, by simpa using hs.symm⟩
      · simp at hs
  simpa [InRange] using this

theorem inRange_coarsening (v : Val K) (h : v = (coarseningOption c).default ∨ (coarseningOption c).Can v) :
    InRange "coarsening_degree" v := by
  have : ∃ m, 0 < m ∧ v = .int m := by
    rcases h with rfl | h
    · exact ⟨8, by norm_num, rfl⟩
    · obtain ⟨s, hs⟩ := h
      obtain ⟨n, hn, hv⟩ := map_ok _ _ _ hs
      exact ⟨n, positiveInt_pos _ _ _ hn, hv⟩
  simpa [InRange] using this

theorem inRange_option (k : Key) (o : Opt (Val K)) (ho : o ∈ options c k) (v : Val K)
    (h : v = o.default ∨ o.Can v) : InRange o.dest v := by
  have hall : o ∈ [nameOption k, shortOption k, meshOption c k, cflOption c k, adaptiveOption, odeOption, fluxOption,
      exactFluxOption, gammaOption c, coarseningOption c] := by
    rw [options, List.mem_append] at ho
    rcases ho with ho | ho
    · simp only [List.mem_cons, List.not_mem_nil, or_false] at ho ⊢
      tauto
    · cases k <;> simp only [ownOptions, List.mem_cons, List.not_mem_nil, or_false] at ho ⊢ <;> tauto
  simp only [List.mem_cons, List.not_mem_nil, or_false] at hall
  rcases hall with rfl | rfl | rfl | rfl | rfl | rfl | rfl | rfl | rfl | rfl
  · exact inRange_name k v h
  · exact inRange_short k v h
  · exact inRange_mesh c k v h
  · exact inRange_cfl c k v h
  · exact inRange_adaptive v h
  · exact inRange_ode v h
  · exact inRange_flux v h
  · exact inRange_exact v h
  · exact inRange_gamma c v h
  · exact inRange_coarsening c v h

/-- C117.  Whatever words follow the name of a solver: if the parser accepts them, the result has exactly the options of
the solver, in order, and all values are in range. -/
theorem C117_values (k : Key) (words : List String) (ns : Namespace (Val K)) (h : parseSolver c k words = .ok ns) :
    ns.map Prod.fst = optionNames k ∧ ∀ d v, ns.lookup d = some v → InRange d v := by
  obtain ⟨h1, h2, -⟩ := parseArgs_invariant _ _ _ h
  refine ⟨by rw [h1, options_names], fun d v hd => ?_⟩
  obtain ⟨o, ho, hod, hv⟩ := h2 _ (mem_of_lookup _ _ _ hd)
  have := inRange_option c k o ho v hv
  rw [hod] at this
  exact this

/-! ### Constructors -/

theorem call_ok (allowed : List String) (kw : Namespace (Val K)) (h : ∀ key ∈ kw.map Prod.fst, key ∈ allowed) :
    call ⟨[], allowed, false⟩ kw = .ok kw := by
  unfold call
  have h1 : kw.any (fun p => !(([] : List String) ++ allowed).contains p.1) = false := by
    rw [List.any_eq_false]
    intro p hp
    have := h p.1 (List.mem_map.2 ⟨p, hp, rfl⟩)
    simpa using this
  rw [h1]
  rfl

theorem finiteVolume_ok (kw : Namespace (Val K)) (h : ∀ key ∈ kw.map Prod.fst,
    key ∈ ["name", "short", "mesh_size", "cfl_number", "ode_solver_type", "save_history"]) :
    finiteVolume kw = .ok {
      name := orElse (param kw "name" .none) (.str "Solver")
      short := orElse (param kw "short" .none) (.str "")
      meshSize := orElse (param kw "mesh_size" .none) (.int 400)
      cfl := orElse (param kw "cfl_number" .none) (.num (.fin (1 / 10)))
      integrator := .given (orElse (param kw "ode_solver_type" .none) (.ode .heun))
      history := param kw "save_history" (.bool false) } := by
  unfold finiteVolume
  rw [call_ok _ _ h]
  rfl

theorem lookup_rest (keys : List String) (kw : Namespace (Val K)) (d : String) :
    (rest keys kw).lookup d = if d ∈ keys then none else kw.lookup d := by
  induction kw with
  | nil => simp [rest]
  | cons p kw ih =>
    obtain ⟨k, v⟩ := p
    unfold rest at ih ⊢
    by_cases hk : k ∈ keys
    · have : (!keys.contains k) = false := by simpa using hk
      rw [List.filter_cons, this]
      simp only [Bool.false_eq_true, if_false]
      rw [ih]
      by_cases hd : d ∈ keys
      · simp [hd]
      · have : (d == k) = false := by
          rw [beq_eq_false_iff_ne]; rintro rfl; exact hd hk
        simp [hd, List.lookup_cons, this]
    · have : (!keys.contains k) = true := by simpa using hk
      rw [List.filter_cons, this]
      simp only [if_true, List.lookup_cons]
      by_cases hdk : d = k
      · subst hdk; simp [hk]
      · have : (d == k) = false := by simpa using hdk
        simp only [this, ih]

theorem lookup_none (ns : Namespace (Val K)) (d : String) (h : d ∉ ns.map Prod.fst) : ns.lookup d = none := by
  cases hl : ns.lookup d with
  | none => rfl
  | some v => exact absurd (List.mem_map.2 ⟨_, mem_of_lookup _ _ _ hl, rfl⟩) h

theorem lookup_some (ns : Namespace (Val K)) (d : String) (h : d ∈ ns.map Prod.fst) : ∃ v, ns.lookup d = some v := by
  cases hl : ns.lookup d with
  | some v => exact ⟨v, rfl⟩
  | none =>
    rw [List.lookup_eq_none_iff] at hl
    obtain ⟨p, hp, hd⟩ := List.mem_map.1 h
    exact absurd hd.symm (by simpa using hl p hp)

/-- The integrator of solvers without the option `++ode-solver`. -/
def fixedIntegrator : Key → Integrator K
  | .cg => .byDegree
  | .sweLw => .given (.ode .euler)
  | _ => .given (.ode .heun)

/-- The flux used when `++flux` is not given. -/
def defaultFlux : Key → Val K
  | .sweMcl => .flux "central"
  | _ => .flux "llf"

/-- The settings of a solver are those of its options: of `s`, constructed by the solver `k`, and the parsed options
`ns`.  Exceptions: an empty name is not used, and of the parameter `gamma` the value zero is not used. -/
structure Effective (k : Key) (ns : Namespace (Val K)) (history : Bool) (s : Settings K) : Prop where
  name : ∀ n, n ≠ "" → ns.lookup "name" = some (.str n) → s.name = .str n
  short : ∀ n, n ≠ "" → ns.lookup "short" = some (.str n) → s.short = .str n
  mesh : ns.lookup "mesh_size" = some s.meshSize
  cfl : ns.lookup "cfl_number" = some s.cfl
  history : s.history = .bool history
  ode : "ode_solver_type" ∈ optionNames k → ∃ v, ns.lookup "ode_solver_type" = some v ∧ s.integrator = .given v
  no_ode : "ode_solver_type" ∉ optionNames k → s.integrator = fixedIntegrator k
  adaptive : s.adaptive = (ns.lookup "adaptive").getD (.bool false)
  exact : k = .cg → ns.lookup "exact_flux" = some s.exactFlux
  flux : "flux_getter" ∈ optionNames k →
    (ns.lookup "flux_getter" = some .none ∧ s.flux = defaultFlux k) ∨
    (s.flux ≠ .none ∧ ns.lookup "flux_getter" = some s.flux)
  gamma : k = .sweAntidiffusion → ∃ v, ns.lookup "gamma" = some v ∧
    s.gamma = if v = .num (.fin 0) then .num (.fin (1 / 10)) else v
  coarsening : k = .sweCoarse → ns.lookup "coarsening_degree" = some s.coarsening
  /-- the polynomial degree is one -/
  degree : k ∈ [Key.cg, .cgLow, .mclFem] → s.degree = .int 1

/-- Facts on the lookups in the options and in the keyword arguments. -/
structure Facts (k : Key) (ns kw : Namespace (Val K)) (history : Bool) : Prop where
  keys : ∀ key ∈ kw.map Prod.fst, key ∈ optionNames k ∨ key = "save_history"
  history : param kw "save_history" (.bool false) = .bool history
  same : ∀ d, d ≠ "save_history" → kw.lookup d = ns.lookup d
  range : ∀ d ∈ optionNames k, ∃ v, ns.lookup d = some v ∧ InRange d v
  other : ∀ d, d ∉ optionNames k → ns.lookup d = none

theorem facts (k : Key) (words : List String) (ns : Namespace (Val K)) (h : parseSolver c k words = .ok ns)
    (history : Bool) : Facts k ns (withHistory history ns) history := by
  obtain ⟨h1, h2⟩ := C117_values c k words ns h
  have hs : ns.lookup "save_history" = none := lookup_none _ _ (by rw [h1]; cases k <;> simp [optionNames])
  refine ⟨fun key hkey => ?_, ?_, fun d hd => ?_, fun d hd => ?_, fun d hd => ?_⟩
  · cases history with
    | false => left; rw [← h1]; exact hkey
    | true =>
      obtain ⟨p, hp, rfl⟩ := List.mem_map.1 hkey
      rcases mem_set _ _ _ _ hp with hp | hp
      · right; rw [hp]
      · left; rw [← h1]; exact List.mem_map.2 ⟨p, hp, rfl⟩
  · cases history with
    | false => simp [withHistory, param, hs]
    | true => simp [withHistory, param, lookup_set]
  · cases history with
    | false => rfl
    | true => simp [withHistory, lookup_set, hd]
  · obtain ⟨v, hv⟩ := lookup_some ns d (by rw [h1]; exact hd)
    exact ⟨v, hv, h2 d v hv⟩
  · exact lookup_none _ _ (by rw [h1]; exact hd)

set_option maxHeartbeats 4000000 in
/-- C117.  Every parsed list of options, with or without a history, is accepted by the constructor of the solver, and
the options take effect. -/
theorem C117_constructed (k : Key) (words : List String) (ns : Namespace (Val K)) (h : parseSolver c k words = .ok ns)
    (history : Bool) : ∃ s, construct k (withHistory history ns) = .ok s ∧ Effective k ns history s := by
  have f := facts c k words ns h history
  generalize withHistory history ns = kw at f
  obtain ⟨fk, fh, fs, fr, fo⟩ := f
  have fk' : ∀ key ∈ kw.map Prod.fst, key ∈ optionNames k ++ ["save_history"] := fun key hkey => by
    rcases fk key hkey with h | h
    · exact List.mem_append_left _ h
    · exact List.mem_append_right _ (by rw [h]; exact List.mem_cons_self ..)
  have hp : ∀ d v e, d ≠ "save_history" → ns.lookup d = some v → param kw d e = v := by
    intro d v e hd hv
    simp [param, fs d hd, hv]
  have hp' : ∀ d e, d ≠ "save_history" → ns.lookup d = none → param kw d e = e := by
    intro d e hd hv
    simp [param, fs d hd, hv]
  obtain ⟨vn, hn, rn⟩ := fr "name" (by cases k <;> simp [optionNames])
  obtain ⟨vs, hs, rs⟩ := fr "short" (by cases k <;> simp [optionNames])
  obtain ⟨vm, hm, rm⟩ := fr "mesh_size" (by cases k <;> simp [optionNames])
  obtain ⟨vc, hc, rc⟩ := fr "cfl_number" (by cases k <;> simp [optionNames])
  have pn := hp _ _ (.none) (by simp) hn
  have ps := hp _ _ (.none) (by simp) hs
  have pm := hp _ _ (.none) (by simp) hm
  have pc := hp _ _ (.none) (by simp) hc
  have om : orElse vm (.int 400) = vm := by
    obtain ⟨m, hm, rfl⟩ := rm.2.2.1 rfl
    have : m ≠ 0 := by omega
    simp [orElse, truthy, this]
  have oc : orElse vc (.num (.fin (1 / 10))) = vc := by
    obtain ⟨x, hx, rfl⟩ := rc.2.2.2.1 rfl
    rcases hx with rfl | rfl | ⟨y, hy, rfl⟩
    · rfl
    · rfl
    · simp [orElse, truthy, hy.ne']
  have on : ∀ n a, n ≠ "" → orElse (.str n) a = (.str n : Val K) := fun n a hn => by simp [orElse, truthy, hn]
  have nn : ∀ n, n ≠ "" → ns.lookup "name" = some (.str n) → vn = .str n := fun n _ h => by
    rw [hn] at h; simpa using h
  have ss : ∀ n, n ≠ "" → ns.lookup "short" = some (.str n) → vs = .str n := fun n _ h => by
    rw [hs] at h; simpa using h
  have ode : "ode_solver_type" ∈ optionNames k → ∃ o, ns.lookup "ode_solver_type" = some (.ode o) ∧
      param kw "ode_solver_type" .none = .ode o := by
    intro hmem
    obtain ⟨v, hv, rv⟩ := fr _ hmem
    obtain ⟨o, rfl⟩ := rv.2.2.2.2.2.2.1 rfl
    exact ⟨o, hv, hp _ _ _ (by simp) hv⟩
  have oo : ∀ o a, orElse (.ode o) a = (.ode o : Val K) := fun o a => rfl
  have no : "ode_solver_type" ∉ optionNames k → param kw "ode_solver_type" .none = .none :=
    fun h => hp' _ _ (by simp) (fo _ h)
  have pr : ∀ keys d e, d ∉ keys → param (rest keys kw) d e = param kw d e := by
    intro keys d e hd
    simp [param, lookup_rest, hd]
  have kr : ∀ keys key, key ∈ (rest keys kw).map Prod.fst → key ∉ keys ∧ key ∈ kw.map Prod.fst := by
    intro keys key hkey
    obtain ⟨p, hp, rfl⟩ := List.mem_map.1 hkey
    rw [rest, List.mem_filter] at hp
    exact ⟨by simpa using hp.2, List.mem_map.2 ⟨p, hp.1, rfl⟩⟩
  have oe : ∀ a : Val K, orElse .none a = a := fun a => rfl
  have flux : "flux_getter" ∈ optionNames k → ∀ a, a ≠ .none →
      (ns.lookup "flux_getter" = some .none ∧ orElse (param kw "flux_getter" .none) a = a) ∨
      (orElse (param kw "flux_getter" .none) a ≠ .none ∧
        ns.lookup "flux_getter" = some (orElse (param kw "flux_getter" .none) a)) := by
    intro hmem a ha
    obtain ⟨v, hv, rv⟩ := fr _ hmem
    rw [hp _ _ _ (by simp) hv]
    rcases rv.2.2.2.2.2.2.2.1 rfl with rfl | ⟨key, -, rfl⟩
    · exact Or.inl ⟨hv, rfl⟩
    · exact Or.inr ⟨by simp [orElse, truthy], hv⟩
  cases k
  case cg =>
    have hkeys : ∀ key ∈ kw.map Prod.fst, key ∈ ["name", "short", "mesh_size", "polynomial_degree", "cfl_number", "exact_flux",
        "save_history"] := by
      intro key hkey
      exact (by decide : ∀ x ∈ optionNames .cg ++ ["save_history"], x ∈ _) key (fk' key hkey)
    refine ⟨_, by unfold construct; simp only; rw [call_ok _ _ hkeys]; rfl, ?_⟩
    have pd : param kw "polynomial_degree" .none = .none := hp' _ _ (by simp) (fo _ (by simp [optionNames]))
    unfold finiteElement
    have ha := fo "adaptive" (by simp [optionNames])
    obtain ⟨v, hv, -⟩ := fr "exact_flux" (by simp [optionNames])
    refine ⟨?_, ?_, ?_, ?_, fh, ?_, fun _ => rfl, ?_, fun _ => ?_, ?_, ?_, ?_, fun _ => ?_⟩
    · intro n h0 h1; simp only [pn, nn n h0 h1, on n _ h0]
    · intro n h0 h1; simp only [ps, ss n h0 h1, on n _ h0]
    · simp only [pm, om, hm]
    · simp only [pc, oc, hc]
    · simp [optionNames]
    · simp [ha]
    · simp only [hp _ _ _ (by simp) hv, hv]
    · simp [optionNames]
    · simp
    · simp
    · simp only [pd, oe]
  case cgLow =>
    have hkeys : ∀ key ∈ kw.map Prod.fst, key ∈ ["name", "short", "mesh_size", "polynomial_degree", "cfl_number", "ode_solver_type",
        "adaptive", "save_history"] := by
      intro key hkey
      exact (by decide : ∀ x ∈ optionNames .cgLow ++ ["save_history"], x ∈ _) key (fk' key hkey)
    refine ⟨_, by unfold construct; simp only; rw [call_ok _ _ hkeys]; rfl, ?_⟩
    have pd : param kw "polynomial_degree" .none = .none := hp' _ _ (by simp) (fo _ (by simp [optionNames]))
    unfold finiteElement
    obtain ⟨o, ho, po⟩ := ode (by simp [optionNames])
    obtain ⟨v, hv, -⟩ := fr "adaptive" (by simp [optionNames])
    refine ⟨?_, ?_, ?_, ?_, fh, fun _ => ⟨.ode o, ho, ?_⟩, ?_, ?_, ?_, ?_, ?_, ?_, fun _ => ?_⟩
    · intro n h0 h1; simp only [pn, nn n h0 h1, on n _ h0]
    · intro n h0 h1; simp only [ps, ss n h0 h1, on n _ h0]
    · simp only [pm, om, hm]
    · simp only [pc, oc, hc]
    · simp only [po, oo]
    · simp [optionNames]
    · simp only [hp _ _ _ (by simp) hv, hv, Option.getD_some]
    · simp
    · simp [optionNames]
    · simp
    · simp
    · simp only [pd, oe]
  case mclFem =>
    have hkeys : ∀ key ∈ kw.map Prod.fst, key ∈ ["name", "short", "mesh_size", "polynomial_degree", "cfl_number", "ode_solver_type",
        "adaptive", "save_history"] := by
      intro key hkey
      exact (by decide : ∀ x ∈ optionNames .mclFem ++ ["save_history"], x ∈ _) key (fk' key hkey)
    refine ⟨_, by unfold construct; simp only; rw [call_ok _ _ hkeys]; rfl, ?_⟩
    have pd : param kw "polynomial_degree" .none = .none := hp' _ _ (by simp) (fo _ (by simp [optionNames]))
    unfold finiteElement
    obtain ⟨o, ho, po⟩ := ode (by simp [optionNames])
    obtain ⟨v, hv, -⟩ := fr "adaptive" (by simp [optionNames])
    refine ⟨?_, ?_, ?_, ?_, fh, fun _ => ⟨.ode o, ho, ?_⟩, ?_, ?_, ?_, ?_, ?_, ?_, fun _ => ?_⟩
    · intro n h0 h1; simp only [pn, nn n h0 h1, on n _ h0]
    · intro n h0 h1; simp only [ps, ss n h0 h1, on n _ h0]
    · simp only [pm, om, hm]
    · simp only [pc, oc, hc]
    · simp only [po, oo]
    · simp [optionNames]
    · simp only [hp _ _ _ (by simp) hv, hv, Option.getD_some]
    · simp
    · simp [optionNames]
    · simp
    · simp
    · simp only [pd, oe]
  case llf =>
    have hkeys : ∀ key ∈ kw.map Prod.fst,
        key ∈ ["name", "short", "mesh_size", "cfl_number", "ode_solver_type", "save_history"] := by
      intro key hkey
      exact (by decide : ∀ x ∈ optionNames .llf ++ ["save_history"], x ∈ _) key (fk' key hkey)
    refine ⟨_, finiteVolume_ok kw hkeys, ?_⟩
    have po := no (by simp [optionNames])
    have ha := fo "adaptive" (by simp [optionNames])
    refine ⟨?_, ?_, ?_, ?_, fh, ?_, fun _ => ?_, ?_, ?_, ?_, ?_, ?_, ?_⟩
    · intro n h0 h1; simp only [pn, nn n h0 h1, on n _ h0]
    · intro n h0 h1; simp only [ps, ss n h0 h1, on n _ h0]
    · simp only [pm, om, hm]
    · simp only [pc, oc, hc]
    · simp [optionNames]
    · simp only [po]; rfl
    · simp [ha]
    · simp
    · simp [optionNames]
    · simp
    · simp
    · simp
  case central =>
    have hkeys : ∀ key ∈ kw.map Prod.fst,
        key ∈ ["name", "short", "mesh_size", "cfl_number", "ode_solver_type", "save_history"] := by
      intro key hkey
      exact (by decide : ∀ x ∈ optionNames .central ++ ["save_history"], x ∈ _) key (fk' key hkey)
    refine ⟨_, finiteVolume_ok kw hkeys, ?_⟩
    have po := no (by simp [optionNames])
    have ha := fo "adaptive" (by simp [optionNames])
    refine ⟨?_, ?_, ?_, ?_, fh, ?_, fun _ => ?_, ?_, ?_, ?_, ?_, ?_, ?_⟩
    · intro n h0 h1; simp only [pn, nn n h0 h1, on n _ h0]
    · intro n h0 h1; simp only [ps, ss n h0 h1, on n _ h0]
    · simp only [pm, om, hm]
    · simp only [pc, oc, hc]
    · simp [optionNames]
    · simp only [po]; rfl
    · simp [ha]
    · simp
    · simp [optionNames]
    · simp
    · simp
    · simp
  case mclFv =>
    have hkeys : ∀ key ∈ kw.map Prod.fst,
        key ∈ ["name", "short", "mesh_size", "cfl_number", "ode_solver_type", "save_history"] := by
      intro key hkey
      exact (by decide : ∀ x ∈ optionNames .mclFv ++ ["save_history"], x ∈ _) key (fk' key hkey)
    refine ⟨_, finiteVolume_ok kw hkeys, ?_⟩
    obtain ⟨o, ho, po⟩ := ode (by simp [optionNames])
    have ha := fo "adaptive" (by simp [optionNames])
    refine ⟨?_, ?_, ?_, ?_, fh, fun _ => ⟨.ode o, ho, ?_⟩, ?_, ?_, ?_, ?_, ?_, ?_, ?_⟩
    · intro n h0 h1; simp only [pn, nn n h0 h1, on n _ h0]
    · intro n h0 h1; simp only [ps, ss n h0 h1, on n _ h0]
    · simp only [pm, om, hm]
    · simp only [pc, oc, hc]
    · simp only [po, oo]
    · simp [optionNames]
    · simp [ha]
    · simp
    · simp [optionNames]
    · simp
    · simp
    · simp
  case sweLlf =>
    have hkeys : ∀ key ∈ kw.map Prod.fst,
        key ∈ ["name", "short", "mesh_size", "cfl_number", "ode_solver_type", "save_history"] := by
      intro key hkey
      exact (by decide : ∀ x ∈ optionNames .sweLlf ++ ["save_history"], x ∈ _) key (fk' key hkey)
    refine ⟨_, finiteVolume_ok kw hkeys, ?_⟩
    obtain ⟨o, ho, po⟩ := ode (by simp [optionNames])
    have ha := fo "adaptive" (by simp [optionNames])
    refine ⟨?_, ?_, ?_, ?_, fh, fun _ => ⟨.ode o, ho, ?_⟩, ?_, ?_, ?_, ?_, ?_, ?_, ?_⟩
    · intro n h0 h1; simp only [pn, nn n h0 h1, on n _ h0]
    · intro n h0 h1; simp only [ps, ss n h0 h1, on n _ h0]
    · simp only [pm, om, hm]
    · simp only [pc, oc, hc]
    · simp only [po, oo]
    · simp [optionNames]
    · simp [ha]
    · simp
    · simp [optionNames]
    · simp
    · simp
    · simp
  case sweLw =>
    have hkeys : ∀ key ∈ kw.map Prod.fst, key ∈ ["name", "short", "mesh_size", "cfl_number", "save_history"] := by
      intro key hkey
      exact (by decide : ∀ x ∈ optionNames .sweLw ++ ["save_history"], x ∈ _) key (fk' key hkey)
    have hcon : construct .sweLw kw = finiteVolume [("name", param kw "name" .none), ("short", param kw "short" .none),
        ("mesh_size", param kw "mesh_size" .none), ("cfl_number", param kw "cfl_number" .none),
        ("ode_solver_type", .ode .euler), ("save_history", param kw "save_history" (.bool false))] := by
      unfold construct
      simp only
      rw [call_ok _ _ hkeys]
      rfl
    refine ⟨_, by rw [hcon]; exact finiteVolume_ok _ (by simp), ?_⟩
    have ha := fo "adaptive" (by simp [optionNames])
    refine ⟨?_, ?_, ?_, ?_, ?_, ?_, fun _ => ?_, ?_, ?_, ?_, ?_, ?_, ?_⟩
    · intro n h0 h1; simp [param] at pn ⊢; simp [pn, nn n h0 h1, on n _ h0]
    · intro n h0 h1; simp [param, List.lookup_cons] at ps ⊢; simp [ps, ss n h0 h1, on n _ h0]
    · simp [param, List.lookup_cons] at pm ⊢; simp [pm, om, hm]
    · simp [param, List.lookup_cons] at pc ⊢; simp only [one_div] at oc; simp [pc, oc, hc]
    · simp [param, List.lookup_cons] at fh ⊢; simp [fh]
    · simp [optionNames]
    · simp [param, List.lookup_cons, fixedIntegrator, oo]
    · simp [ha]
    · simp
    · simp [optionNames]
    · simp
    · simp
    · simp
  case sweLowOrder =>
    have hkeys : ∀ key ∈ kw.map Prod.fst,
        key ∈ ["name", "short", "mesh_size", "cfl_number", "ode_solver_type", "save_history"] := by
      intro key hkey
      exact (by decide : ∀ x ∈ optionNames .sweLowOrder ++ ["save_history"], x ∈ _) key (fk' key hkey)
    refine ⟨_, finiteVolume_ok kw hkeys, ?_⟩
    obtain ⟨o, ho, po⟩ := ode (by simp [optionNames])
    have ha := fo "adaptive" (by simp [optionNames])
    refine ⟨?_, ?_, ?_, ?_, fh, fun _ => ⟨.ode o, ho, ?_⟩, ?_, ?_, ?_, ?_, ?_, ?_, ?_⟩
    · intro n h0 h1; simp only [pn, nn n h0 h1, on n _ h0]
    · intro n h0 h1; simp only [ps, ss n h0 h1, on n _ h0]
    · simp only [pm, om, hm]
    · simp only [pc, oc, hc]
    · simp only [po, oo]
    · simp [optionNames]
    · simp [ha]
    · simp
    · simp [optionNames]
    · simp
    · simp
    · simp
  case sweCentral =>
    have hkeys : ∀ key ∈ kw.map Prod.fst,
        key ∈ ["name", "short", "mesh_size", "cfl_number", "ode_solver_type", "save_history"] := by
      intro key hkey
      exact (by decide : ∀ x ∈ optionNames .sweCentral ++ ["save_history"], x ∈ _) key (fk' key hkey)
    refine ⟨_, finiteVolume_ok kw hkeys, ?_⟩
    have po := no (by simp [optionNames])
    have ha := fo "adaptive" (by simp [optionNames])
    refine ⟨?_, ?_, ?_, ?_, fh, ?_, fun _ => ?_, ?_, ?_, ?_, ?_, ?_, ?_⟩
    · intro n h0 h1; simp only [pn, nn n h0 h1, on n _ h0]
    · intro n h0 h1; simp only [ps, ss n h0 h1, on n _ h0]
    · simp only [pm, om, hm]
    · simp only [pc, oc, hc]
    · simp [optionNames]
    · simp only [po]; rfl
    · simp [ha]
    · simp
    · simp [optionNames]
    · simp
    · simp
    · simp
  case sweEs =>
    have hkeys : ∀ key ∈ kw.map Prod.fst,
        key ∈ ["name", "short", "mesh_size", "cfl_number", "ode_solver_type", "save_history"] := by
      intro key hkey
      exact (by decide : ∀ x ∈ optionNames .sweEs ++ ["save_history"], x ∈ _) key (fk' key hkey)
    refine ⟨_, finiteVolume_ok kw hkeys, ?_⟩
    obtain ⟨o, ho, po⟩ := ode (by simp [optionNames])
    have ha := fo "adaptive" (by simp [optionNames])
    refine ⟨?_, ?_, ?_, ?_, fh, fun _ => ⟨.ode o, ho, ?_⟩, ?_, ?_, ?_, ?_, ?_, ?_, ?_⟩
    · intro n h0 h1; simp only [pn, nn n h0 h1, on n _ h0]
    · intro n h0 h1; simp only [ps, ss n h0 h1, on n _ h0]
    · simp only [pm, om, hm]
    · simp only [pc, oc, hc]
    · simp only [po, oo]
    · simp [optionNames]
    · simp [ha]
    · simp
    · simp [optionNames]
    · simp
    · simp
    · simp
  case sweEs1 =>
    have hkeys : ∀ key ∈ kw.map Prod.fst,
        key ∈ ["name", "short", "mesh_size", "cfl_number", "ode_solver_type", "save_history"] := by
      intro key hkey
      exact (by decide : ∀ x ∈ optionNames .sweEs1 ++ ["save_history"], x ∈ _) key (fk' key hkey)
    refine ⟨_, finiteVolume_ok kw hkeys, ?_⟩
    obtain ⟨o, ho, po⟩ := ode (by simp [optionNames])
    have ha := fo "adaptive" (by simp [optionNames])
    refine ⟨?_, ?_, ?_, ?_, fh, fun _ => ⟨.ode o, ho, ?_⟩, ?_, ?_, ?_, ?_, ?_, ?_, ?_⟩
    · intro n h0 h1; simp only [pn, nn n h0 h1, on n _ h0]
    · intro n h0 h1; simp only [ps, ss n h0 h1, on n _ h0]
    · simp only [pm, om, hm]
    · simp only [pc, oc, hc]
    · simp only [po, oo]
    · simp [optionNames]
    · simp [ha]
    · simp
    · simp [optionNames]
    · simp
    · simp
    · simp
  case sweMcl =>
    have hkeys : ∀ key ∈ (rest ["flux_getter"] kw).map Prod.fst,
        key ∈ ["name", "short", "mesh_size", "cfl_number", "ode_solver_type", "save_history"] := by
      intro key hkey
      obtain ⟨h1, h2⟩ := kr _ _ hkey
      exact (by decide : ∀ x ∈ optionNames .sweMcl ++ ["save_history"], x ∉ _ → x ∈ _) key (fk' key h2) h1
    refine ⟨_, by unfold construct; simp only; rw [finiteVolume_ok _ hkeys]; rfl, ?_⟩
    obtain ⟨o, ho, po⟩ := ode (by simp [optionNames])
    have ha := fo "adaptive" (by simp [optionNames])
    simp only [pr _ _ _ (show "name" ∉ ["flux_getter"] by simp), pr _ _ _ (show "short" ∉ ["flux_getter"] by simp),
      pr _ _ _ (show "mesh_size" ∉ ["flux_getter"] by simp), pr _ _ _ (show "cfl_number" ∉ ["flux_getter"] by simp),
      pr _ _ _ (show "ode_solver_type" ∉ ["flux_getter"] by simp), pr _ _ _ (show "save_history" ∉ ["flux_getter"] by simp)]
    refine ⟨?_, ?_, ?_, ?_, fh, fun _ => ⟨.ode o, ho, ?_⟩, ?_, ?_, ?_, ?_, ?_, ?_, ?_⟩
    · intro n h0 h1; simp only [pn, nn n h0 h1, on n _ h0]
    · intro n h0 h1; simp only [ps, ss n h0 h1, on n _ h0]
    · simp only [pm, om, hm]
    · simp only [pc, oc, hc]
    · simp only [po, oo]
    · simp [optionNames]
    · simp [ha]
    · simp
    · intro _
      exact flux (by simp [optionNames]) (.flux "central") (by simp)
    · simp
    · simp
    · simp
  case sweReduced =>
    have hkeys : ∀ key ∈ kw.map Prod.fst,
        key ∈ ["name", "short", "mesh_size", "cfl_number", "ode_solver_type", "save_history"] := by
      intro key hkey
      exact (by decide : ∀ x ∈ optionNames .sweReduced ++ ["save_history"], x ∈ _) key (fk' key hkey)
    refine ⟨_, finiteVolume_ok kw hkeys, ?_⟩
    obtain ⟨o, ho, po⟩ := ode (by simp [optionNames])
    have ha := fo "adaptive" (by simp [optionNames])
    refine ⟨?_, ?_, ?_, ?_, fh, fun _ => ⟨.ode o, ho, ?_⟩, ?_, ?_, ?_, ?_, ?_, ?_, ?_⟩
    · intro n h0 h1; simp only [pn, nn n h0 h1, on n _ h0]
    · intro n h0 h1; simp only [ps, ss n h0 h1, on n _ h0]
    · simp only [pm, om, hm]
    · simp only [pc, oc, hc]
    · simp only [po, oo]
    · simp [optionNames]
    · simp [ha]
    · simp
    · simp [optionNames]
    · simp
    · simp
    · simp
  case sweReduced2 =>
    have hkeys : ∀ key ∈ kw.map Prod.fst,
        key ∈ ["name", "short", "mesh_size", "cfl_number", "ode_solver_type", "save_history"] := by
      intro key hkey
      exact (by decide : ∀ x ∈ optionNames .sweReduced2 ++ ["save_history"], x ∈ _) key (fk' key hkey)
    refine ⟨_, finiteVolume_ok kw hkeys, ?_⟩
    obtain ⟨o, ho, po⟩ := ode (by simp [optionNames])
    have ha := fo "adaptive" (by simp [optionNames])
    refine ⟨?_, ?_, ?_, ?_, fh, fun _ => ⟨.ode o, ho, ?_⟩, ?_, ?_, ?_, ?_, ?_, ?_, ?_⟩
    · intro n h0 h1; simp only [pn, nn n h0 h1, on n _ h0]
    · intro n h0 h1; simp only [ps, ss n h0 h1, on n _ h0]
    · simp only [pm, om, hm]
    · simp only [pc, oc, hc]
    · simp only [po, oo]
    · simp [optionNames]
    · simp [ha]
    · simp
    · simp [optionNames]
    · simp
    · simp
    · simp
  case sweAntidiffusion =>
    have hkeys : ∀ key ∈ (rest ["gamma", "flux_getter"] kw).map Prod.fst,
        key ∈ ["name", "short", "mesh_size", "cfl_number", "ode_solver_type", "save_history"] := by
      intro key hkey
      obtain ⟨h1, h2⟩ := kr _ _ hkey
      exact (by decide : ∀ x ∈ optionNames .sweAntidiffusion ++ ["save_history"], x ∉ _ → x ∈ _) key (fk' key h2) h1
    refine ⟨_, by unfold construct; simp only; rw [finiteVolume_ok _ hkeys]; rfl, ?_⟩
    obtain ⟨o, ho, po⟩ := ode (by simp [optionNames])
    have ha := fo "adaptive" (by simp [optionNames])
    simp only [pr _ _ _ (show "name" ∉ ["gamma", "flux_getter"] by simp), pr _ _ _ (show "short" ∉ ["gamma", "flux_getter"] by simp),
      pr _ _ _ (show "mesh_size" ∉ ["gamma", "flux_getter"] by simp), pr _ _ _ (show "cfl_number" ∉ ["gamma", "flux_getter"] by simp),
      pr _ _ _ (show "ode_solver_type" ∉ ["gamma", "flux_getter"] by simp), pr _ _ _ (show "save_history" ∉ ["gamma", "flux_getter"] by simp)]
    refine ⟨?_, ?_, ?_, ?_, fh, fun _ => ⟨.ode o, ho, ?_⟩, ?_, ?_, ?_, ?_, ?_, ?_, ?_⟩
    · intro n h0 h1; simp only [pn, nn n h0 h1, on n _ h0]
    · intro n h0 h1; simp only [ps, ss n h0 h1, on n _ h0]
    · simp only [pm, om, hm]
    · simp only [pc, oc, hc]
    · simp only [po, oo]
    · simp [optionNames]
    · simp [ha]
    · simp
    · intro _
      exact flux (by simp [optionNames]) (.flux "llf") (by simp)
    · intro _
      obtain ⟨v, hv, rv⟩ := fr "gamma" (by simp [optionNames])
      refine ⟨v, hv, ?_⟩
      simp only [hp _ _ _ (by simp) hv]
      obtain ⟨x, rfl⟩ := rv.2.2.2.2.2.2.2.2.1 rfl
      cases x with
      | fin y => by_cases hy : y = 0 <;> simp [orElse, truthy, hy]
      | nan => simp [orElse, truthy]
      | posInf => simp [orElse, truthy]
      | negInf => simp [orElse, truthy]
    · simp
    · simp
  case sweCoarse =>
    have hkeys : ∀ key ∈ ((("save_history", .bool false) :: rest ["save_history", "coarsening_degree", "flux_getter"] kw : Namespace (Val K))).map Prod.fst,
        key ∈ ["name", "short", "mesh_size", "cfl_number", "ode_solver_type", "save_history"] := by
      intro key hkey
      rw [List.map_cons, List.mem_cons] at hkey
      rcases hkey with rfl | hkey
      · simp
      obtain ⟨h1, h2⟩ := kr _ _ hkey
      exact (by decide : ∀ x ∈ optionNames .sweCoarse ++ ["save_history"], x ∉ _ → x ∈ _) key (fk' key h2) h1
    have pr' : ∀ d e, d ∉ ["save_history", "coarsening_degree", "flux_getter"] →
        param (("save_history", .bool false) :: rest ["save_history", "coarsening_degree", "flux_getter"] kw) d e = param kw d e := by
      intro d e hd
      rw [← pr _ d e hd]
      have : (d == "save_history") = false := by
        rw [beq_eq_false_iff_ne]; rintro rfl; simp at hd
      simp [param, List.lookup_cons, this]
    refine ⟨_, by unfold construct; simp only; rw [finiteVolume_ok _ hkeys]; rfl, ?_⟩
    obtain ⟨o, ho, po⟩ := ode (by simp [optionNames])
    have ha := fo "adaptive" (by simp [optionNames])
    simp only [pr' "name" _ (by simp), pr' "short" _ (by simp), pr' "mesh_size" _ (by simp),
      pr' "cfl_number" _ (by simp), pr' "ode_solver_type" _ (by simp)]
    refine ⟨?_, ?_, ?_, ?_, fh, fun _ => ⟨.ode o, ho, ?_⟩, ?_, ?_, ?_, ?_, ?_, ?_, ?_⟩
    · intro n h0 h1; simp only [pn, nn n h0 h1, on n _ h0]
    · intro n h0 h1; simp only [ps, ss n h0 h1, on n _ h0]
    · simp only [pm, om, hm]
    · simp only [pc, oc, hc]
    · simp only [po, oo]
    · simp [optionNames]
    · simp [ha]
    · simp
    · intro _
      exact flux (by simp [optionNames]) (.flux "llf") (by simp)
    · simp
    · intro _
      obtain ⟨v, hv, rv⟩ := fr "coarsening_degree" (by simp [optionNames])
      simp only [hp _ _ _ (by simp) hv, hv]
      obtain ⟨m, hm, rfl⟩ := rv.2.2.2.2.2.2.2.2.2 rfl
      have : m ≠ 0 := by omega
      simp [orElse, truthy, this]
    · simp

/-- The default of an option. -/
def defaultValue (k : Key) : String → Val K
  | "name" => .str (match k with
    | .cg => "Continuous Galerkin" | .cgLow => "Low order Continuous Galerkin" | .mclFem => "Finite Element MCL Solver"
    | .llf | .sweLlf => "Lax-Friedrichs finite volume scheme" | .central | .sweCentral => "Central scheme"
    | .mclFv => "Finite Volume MCL Solver" | .sweLw => "Lax-Wendroff finite volume scheme"
    | .sweLowOrder => "Low order finite volume scheme" | .sweEs => "Energy stable finite volume scheme"
    | .sweEs1 => "Energy stable finite volume scheme with first order diffusion" | .sweMcl => "MCL Solver"
    | .sweReduced => "Reduced Lax Friedrichs Solver" | .sweReduced2 => "Second Reduced Lax Friedrichs Solver"
    | .sweAntidiffusion => "Solver with antidiffusion." | .sweCoarse => "Coarsened Solver.")
  | "short" => .str (match k with
    | .cg => "cg" | .cgLow => "cg-low" | .mclFem => "mcl-fem" | .llf | .sweLlf => "llf" | .central | .sweCentral => "central"
    | .mclFv => "mcl-fv" | .sweLw => "lw" | .sweLowOrder => "low-order" | .sweEs => "es" | .sweEs1 => "es1"
    | .sweMcl => "mcl" | .sweReduced => "reduced-llf" | .sweReduced2 => "reduced-llf-2"
    | .sweAntidiffusion => "antidiffusion" | .sweCoarse => "coarse")
  | "mesh_size" => .int (if k = .sweReduced ∨ k = .sweReduced2 then 50 else 400)
  | "cfl_number" => .num (.fin (if k = .cgLow ∨ k = .mclFem then 1 else if k = .sweReduced then 1 / 80
      else if k = .sweReduced2 then 1 / 400 else 1 / 10))
  | "ode_solver_type" => .ode .heun
  | "gamma" => .num (.fin (1 / 10))
  | "coarsening_degree" => .int 8
  | "adaptive" | "exact_flux" => .bool false
  | _ => .none

/-- C117.  Without options a solver has the documented defaults. -/
theorem C117_defaults (k : Key) :
    parseSolver c k [] = .ok ((optionNames k).map fun d => (d, defaultValue k d)) := by
  have h1 : (1 : K) / 10 / 8 = 1 / 80 := by norm_num
  have h2 : (1 : K) / 10 / 40 = 1 / 400 := by norm_num
  have : parseSolver c k [] = .ok (initial (options c k)) := rfl
  rw [this]
  cases k <;> simp [initial, options, ownOptions, nameOption, shortOption, meshOption, cflOption, adaptiveOption,
      odeOption, fluxOption, exactFluxOption, gammaOption, coarseningOption, optionNames, defaultValue, title, prog,
      meshDefault, cflDefault] <;> norm_num

/-- C117.  Solvers constructed without options: mesh of 400 cells, CFL number 0.1, Heun's method (Lax-Wendroff: Euler,
continuous Galerkin: by the degree, which is one), no history; the flux is the one of the Lax-Friedrichs scheme, for
the limited solver the central one; the parameter of the antidiffusive solver is 0.1, the coarsening degree 8. -/
theorem C117_constructor (k : Key) : ∃ s : Settings K, construct k [] = .ok s ∧ s.meshSize = .int 400 ∧
    s.cfl = .num (.fin (1 / 10)) ∧ s.history = .bool false ∧ s.adaptive = .bool false ∧
    (s.integrator = match k with
      | .cg => .byDegree
      | .sweLw => .given (.ode .euler)
      | _ => .given (.ode .heun)) ∧
    (s.degree = if k ∈ [Key.cg, .cgLow, .mclFem] then .int 1 else .none) ∧
    (s.flux = if k = .sweMcl then .flux "central"
      else if k ∈ [Key.sweAntidiffusion, .sweCoarse] then .flux "llf" else .none) ∧
    (s.gamma = if k = .sweAntidiffusion then .num (.fin (1 / 10)) else .none) ∧
    (s.coarsening = if k = .sweCoarse then .int 8 else .none) ∧
    (s.name = match k with
      | .cg => .str "Continuous Galerkin" | .cgLow => .str "Low order Continuous Galerkin" | .mclFem => .str "MCL Solver"
      | _ => .str "Solver") ∧
    (s.short = match k with
      | .cg => .str "cg" | .cgLow => .str "cg_low" | .mclFem => .str "mcl" | _ => .str "") := by
  cases k <;>
  exact ⟨_, rfl, by simp [orElse, truthy, param, finiteElement, List.lookup, rest]⟩

theorem except_bind {α β ε : Type} {x : Except ε α} {f : α → Except ε β} {b : β} (h : (x >>= f) = .ok b) :
    ∃ a, x = .ok a ∧ f a = .ok b := by
  cases x with
  | error e => cases h
  | ok a => exact ⟨a, rfl, h⟩

theorem call_eq (sig : Cli.Signature) (kw kw' : Namespace (Val K)) (h : call sig kw = .ok kw') : kw' = kw := by
  unfold call at h
  split_ifs at h
  exact (Except.ok.inj h).symm

theorem finiteVolume_name (kw : Namespace (Val K)) (s : Settings K) (h : finiteVolume kw = .ok s) :
    s.name = orElse (param kw "name" .none) (.str "Solver") ∧ s.short = orElse (param kw "short" .none) (.str "") := by
  unfold finiteVolume at h
  obtain ⟨kw', h1, h2⟩ := except_bind h
  rw [call_eq _ _ _ h1] at h2
  cases h2
  exact ⟨rfl, rfl⟩

/-- C117.  An empty name, or an empty short name, is replaced by the one of the class. -/
theorem C117_empty_name (k : Key) (kw : Namespace (Val K)) (s : Settings K) (h : construct k kw = .ok s) :
    (kw.lookup "name" = some (.str "") → s.name = match k with
      | .cg => .str "Continuous Galerkin" | .cgLow => .str "Low order Continuous Galerkin" | .mclFem => .str "MCL Solver"
      | _ => .str "Solver") ∧
    (kw.lookup "short" = some (.str "") → s.short = match k with
      | .cg => .str "cg" | .cgLow => .str "cg_low" | .mclFem => .str "mcl" | _ => .str "") := by
  have volume : ∀ kw' : Namespace (Val K), kw'.lookup "name" = kw.lookup "name" → kw'.lookup "short" = kw.lookup "short" →
      ∀ s', finiteVolume kw' = .ok s' → (kw.lookup "name" = some (.str "") → s'.name = .str "Solver") ∧
        (kw.lookup "short" = some (.str "") → s'.short = .str "") := by
    intro kw' e1 e2 s' hs'
    obtain ⟨h1, h2⟩ := finiteVolume_name kw' s' hs'
    refine ⟨fun h => ?_, fun h => ?_⟩
    · rw [h1, param, e1, h]; simp [orElse, truthy]
    · rw [h2, param, e2, h]; simp [orElse, truthy]
  cases k
  case cg =>
    obtain ⟨kw', h1, h2⟩ := except_bind h
    rw [call_eq _ _ _ h1] at h2
    cases h2
    exact ⟨fun h => by simp [finiteElement, param, h, orElse, truthy],
      fun h => by simp [finiteElement, param, h, orElse, truthy]⟩
  case cgLow =>
    obtain ⟨kw', h1, h2⟩ := except_bind h
    rw [call_eq _ _ _ h1] at h2
    cases h2
    exact ⟨fun h => by simp [finiteElement, param, h, orElse, truthy],
      fun h => by simp [finiteElement, param, h, orElse, truthy]⟩
  case mclFem =>
    obtain ⟨kw', h1, h2⟩ := except_bind h
    rw [call_eq _ _ _ h1] at h2
    cases h2
    exact ⟨fun h => by simp [finiteElement, param, h, orElse, truthy],
      fun h => by simp [finiteElement, param, h, orElse, truthy]⟩
  case sweLw =>
    obtain ⟨kw', h1, h2⟩ := except_bind h
    rw [call_eq _ _ _ h1] at h2
    obtain ⟨h3, h4⟩ := finiteVolume_name _ s h2
    refine ⟨fun h => ?_, fun h => ?_⟩
    · rw [h3]; simp [param, List.lookup, h, orElse, truthy]
    · rw [h4]; simp [param, List.lookup, h, orElse, truthy]
  case sweMcl =>
    obtain ⟨s', h1, h2⟩ := except_bind h
    cases h2
    exact volume _ (by simp [lookup_rest]) (by simp [lookup_rest]) s' h1
  case sweAntidiffusion =>
    obtain ⟨s', h1, h2⟩ := except_bind h
    cases h2
    exact volume _ (by simp [lookup_rest]) (by simp [lookup_rest]) s' h1
  case sweCoarse =>
    obtain ⟨s', h1, h2⟩ := except_bind h
    cases h2
    exact volume _ (by simp [lookup_rest, List.lookup]) (by simp [lookup_rest, List.lookup]) s' h1
  all_goals exact volume kw rfl rfl s h

/-- C117.  A word that begins with `+` is refused, wherever it is written, if `p`, the part of it before an equals sign,
is no option string and is the beginning of none of the long ones or of several, or, with one `+` only, if its first
two characters are no option and it is no beginning of an option string.  (Words with spaces that are like no option
are taken for arguments.) -/
theorem C117_refused (k : Key) (words : List String) (w p : String) (hw : w ∈ words)
    (hp : '=' ∉ p.toList) (hwp : w = p ∨ ∃ r, w = p ++ "=" ++ r) (x : Char) (l : List Char)
    (hplus : w.toList = '+' :: x :: l) (hspace : ' ' ∉ w.toList) (hexact : p ∉ (options c k).flatMap Opt.strings)
    (hlong : x = '+' → ((options c k).flatMap Opt.strings).countP (fun t => p.toList.isPrefixOf t.toList) ≠ 1)
    (hshort : x ≠ '+' → String.ofList ['+', x] ∉ (options c k).flatMap Opt.strings ∧
      ∀ t ∈ (options c k).flatMap Opt.strings, ¬ w.toList <+: t.toList)
    (ns : Namespace (Val K)) : parseSolver c k words ≠ .ok ns := by
  intro h
  obtain ⟨hs, -, -⟩ := C117_options c k
  have hpart : ∃ e, partition w = (p, e) := by
    rcases hwp with rfl | ⟨r, rfl⟩
    · exact ⟨_, partition_none _ hp⟩
    · exact ⟨_, partition_some _ _ hp⟩
  obtain ⟨e, he⟩ := hpart
  have hstr : ∀ t, t ∈ (options c k).flatMap Opt.strings ↔ ∃ o, (t, o) ∈ actions (options c k) := by
    intro t
    simp only [List.mem_flatMap, mem_actions]
  have none1 : (actions (options c k)).lookup p = none :=
    lookup_none' _ _ fun hm => by
      obtain ⟨q, hq, rfl⟩ := List.mem_map.1 hm
      exact hexact ((hstr _).2 ⟨q.2, hq⟩)
  have none2 : (actions (options c k)).lookup w = none := by
    rcases hwp with rfl | ⟨r, rfl⟩
    · exact none1
    · exact lookup_equals _ hs _ (by simp)
  have hparse : parseOptional (options c k) w =
      match optionTuples (options c k) w with
      | [(o, e)] => .ok (.option o e)
      | _ :: _ :: _ => .error .runtimeError
      | [] => .ok .unknown := by
    rw [parseOptional, if_neg (by rw [hplus]; simp), none2]
    simp only
    rw [if_neg (by rw [hplus]; simp), he, none1]
    rcases optionTuples (options c k) w with _ | ⟨⟨a, a'⟩, _ | ⟨b, t⟩⟩ <;> cases e <;> simp only [if_neg hspace]
  have hne : ∀ y, parseOptional (options c k) w = .ok y → y = .unknown := by
    intro y hy
    rw [hparse] at hy
    have hlen : (optionTuples (options c k) w).length ≠ 1 := by
      unfold optionTuples
      by_cases hx : x = '+'
      · rw [if_pos (by rw [hplus, hx]; rfl), he]
        have := hlong hx
        intro hl
        apply this
        rw [← hl]
        have : (options c k).flatMap Opt.strings = (actions (options c k)).map Prod.fst := by
          simp [actions, List.map_flatMap, Function.comp_def]
        rw [this, List.countP_map, List.countP_eq_length_filter, List.length_filterMap_eq_countP,
          List.countP_eq_length_filter]
        congr 1
        apply List.filter_congr
        intro q _
        change startsWith q.1 p = (if startsWith q.1 p = true then some (q.2, e) else none).isSome
        by_cases hpre : startsWith q.1 p = true
        · rw [if_pos hpre, hpre]; rfl
        · rw [if_neg hpre, Bool.eq_false_iff.2 hpre]; rfl
      · rw [if_neg (by rw [hplus]; simpa using hx)]
        obtain ⟨s1, s2⟩ := hshort hx
        have : (actions (options c k)).filterMap (fun q =>
            if q.1 = String.ofList (w.toList.take 2) then some (q.2, some (String.ofList (w.toList.drop 2)))
            else if startsWith q.1 w then some (q.2, none) else none) = [] := by
          rw [List.filterMap_eq_nil_iff]
          rintro ⟨t, o⟩ hq
          have ht := (hstr t).2 ⟨o, hq⟩
          rw [if_neg, if_neg]
          · rw [startsWith_iff]; exact s2 t ht
          · rw [hplus]
            rintro rfl
            exact s1 ht
        rw [this]
        simp
    match ht : optionTuples (options c k) w with
    | [] => rw [ht] at hy; exact (Except.ok.inj hy).symm
    | [a] => rw [ht] at hlen; simp at hlen
    | _ :: _ :: _ => rw [ht] at hy; cases hy
  obtain ⟨-, -, hu⟩ := parseArgs_invariant _ _ _ h
  obtain ⟨classes, hc, -⟩ := parseArgs_ok _ _ _ h
  obtain ⟨c1, c2⟩ := classes_mem _ words classes hc
  obtain ⟨cl, hcl⟩ := c2 w hw
  have := c1 _ hcl
  exact hu w hw (by rw [this, hne _ this])

/-- C117.  The polynomial degree of the finite element solvers cannot be chosen: the option `+p` of
`finite_element.SolverParser` is accepted by none of them. -/
theorem C117_degree (k : Key) (hk : k ∈ [Key.cg, .cgLow, .mclFem]) (words : List String)
    (hw : "+p" ∈ words ∨ "++polynomial-degree" ∈ words) (ns : Namespace (Val K)) : parseSolver c k words ≠ .ok ns := by
  intro h
  obtain ⟨-, -, hu⟩ := parseArgs_invariant _ _ _ h
  have h1 : parseOptional (options c k) "+p" = .ok .unknown := by
    simp only [List.mem_cons, List.not_mem_nil, or_false] at hk
    rcases hk with rfl | rfl | rfl <;>
    simp [parseOptional, options, ownOptions, actions, nameOption, shortOption, meshOption, cflOption, exactFluxOption,
      adaptiveOption, odeOption, List.lookup, partition, optionTuples, startsWith]
  have h2 : parseOptional (options c k) "++polynomial-degree" = .ok .unknown := by
    simp only [List.mem_cons, List.not_mem_nil, or_false] at hk
    rcases hk with rfl | rfl | rfl <;>
    simp [parseOptional, options, ownOptions, actions, nameOption, shortOption, meshOption, cflOption, exactFluxOption,
      adaptiveOption, odeOption, List.lookup, partition, optionTuples, startsWith]
  rcases hw with hw | hw
  · exact hu _ hw h1
  · exact hu _ hw h2

/-- The dictionary of parsers used by the option `-s` for the shallow water equations. -/
def sweParsers : List (String × (List String → Except Error (Namespace (Val K)))) :=
  sweKeys.map fun k => (prog k, parseSolver c k)

end Solvers

/-! ### Examples -/

section Examples

/-- Conversions of some strings. -/
def exampleConversions : Conversions ℚ where
  float := fun s => [("0.5", .fin (1 / 2)), ("0", .fin 0), ("-1", .fin (-1)), ("nan", .nan)].lookup s
  int := fun s => [("50", 50), ("0", 0), ("7", 7)].lookup s

/-- Options of a solver in all forms, one of them twice: the hypotheses of `C117_written` hold. -/
example : ∀ a ∈ ([⟨meshOption exampleConversions .cgLow, "+m", "7", .attached⟩,
    ⟨adaptiveOption, "++ad", "", .separate⟩, ⟨cflOption exampleConversions .cgLow, "++cfl", "0.5", .equals⟩,
    ⟨meshOption exampleConversions .cgLow, "++mesh", "50", .separate⟩] : List (Assignment (Val ℚ))),
    a.Valid (options exampleConversions .cgLow) := by
  intro a ha
  simp only [List.mem_cons, List.not_mem_nil, or_false] at ha
  rcases ha with rfl | rfl | rfl | rfl
  · exact ⟨by simp [options], by simp [meshOption], by simp, by simp⟩
  · refine ⟨by simp [options, ownOptions], Or.inr ⟨by simp, ?_⟩, by simp, by simp⟩
    refine ⟨by decide +kernel, by decide +kernel, "++adaptive", by simp [adaptiveOption], by decide +kernel, ?_⟩
    simp only [options, ownOptions, List.cons_append, List.nil_append, List.forall_mem_cons, nameOption, shortOption,
      meshOption, cflOption, adaptiveOption, odeOption]
    decide +kernel
  · exact ⟨by simp [options], by simp [cflOption], by simp, by simp⟩
  · refine ⟨by simp [options, ownOptions], Or.inr ⟨by simp, ?_⟩, by simp, by simp⟩
    refine ⟨by decide +kernel, by decide +kernel, "++mesh-size", by simp [meshOption], by decide +kernel, ?_⟩
    simp only [options, ownOptions, List.cons_append, List.nil_append, List.forall_mem_cons, nameOption, shortOption,
      meshOption, cflOption, adaptiveOption, odeOption]
    decide +kernel

/-- An unknown option with an argument is refused, and so is an ambiguous abbreviation. -/
example (ns : Namespace (Val ℚ)) : parseSolver exampleConversions .sweCoarse ["++degree=2"] ≠ .ok ns ∧
    parseSolver exampleConversions .sweCoarse ["++cf", "0.5", "++c", "7"] ≠ .ok ns := by
  have e : (options exampleConversions .sweCoarse).flatMap Opt.strings =
      ["+n", "++name", "+s", "++short", "+m", "++mesh-size", "++cfl", "+f", "++flux", "+c", "++coarsening-degree", "+o",
        "++ode-solver"] := rfl
  refine ⟨C117_refused _ _ _ "++degree=2" "++degree" (by simp) (by decide +kernel) (Or.inr ⟨"2", by decide +kernel⟩)
      '+' "degree=2".toList (by decide +kernel) (by decide +kernel) ?_ ?_ ?_ ns,
    C117_refused _ _ _ "++c" "++c" (by simp) (by decide +kernel) (Or.inl rfl)
      '+' ['c'] (by decide +kernel) (by decide +kernel) ?_ ?_ ?_ ns⟩
  all_goals rw [e]
  all_goals decide +kernel

example : okAnd (parseSolver exampleConversions .cgLow ["+m", "7", "++adaptive", "++mesh-size", "50"]) (fun ns =>
    ns == [("name", .str "Low order Continuous Galerkin"), ("short", .str "cg-low"), ("mesh_size", .int 50),
      ("cfl_number", .num (.fin 1)), ("adaptive", .bool true), ("ode_solver_type", .ode .heun)]) = true := by
  decide +kernel

/-- Abbreviations and attached arguments are understood, too. -/
example : okAnd (parseSolver exampleConversions .llf ["++mesh=50", "+snew", "++cfl=0.5"]) (fun ns =>
    ns == [("name", .str "Lax-Friedrichs finite volume scheme"), ("short", .str "new"), ("mesh_size", .int 50),
      ("cfl_number", .num (.fin (1 / 2)))]) = true := by
  decide +kernel

/-- `+g 0` does not switch the antidiffusion off. -/
example : okAnd (parseSolver exampleConversions .sweAntidiffusion ["+g", "0"] >>= construct .sweAntidiffusion) (fun s =>
    s.gamma == .num (.fin (1 / 10))) = true := by
  decide +kernel

/-- `+n ""` gives the name of the class, not an empty one. -/
example : okAnd (parseSolver exampleConversions .llf ["+n", ""] >>= construct .llf) (fun s =>
    s.name == .str "Solver") = true := by
  decide +kernel

/-- A CFL number must not be negative, but it may be no number. -/
example : okAnd (parseSolver exampleConversions .llf ["++cfl", "-1"]) (fun _ => true) = false ∧
    okAnd (parseSolver exampleConversions .llf ["++cfl", "nan"]) (fun _ => true) = true := by
  decide +kernel

/-- The flux of the limited solver can only be chosen with the short form of the option (or in one word) when it is named
like a solver; see C74. -/
example : (match action (sweParsers exampleConversions) ["mcl", "+f", "llf"] with
      | .namespaces l => l.length == 1 | _ => false) = true ∧
    (match action (sweParsers exampleConversions) ["mcl", "++flux", "llf"] with
      | .raised _ => true | _ => false) = true ∧
    (match action (sweParsers exampleConversions) ["mcl", "++flux=llf"] with
      | .namespaces l => l.length == 1 | _ => false) = true ∧
    (match action (sweParsers exampleConversions) ["mcl", "+f", "upwind"] with
      | .quit => true | _ => false) = true := by
  decide +kernel

end Examples

end Verif.Options
