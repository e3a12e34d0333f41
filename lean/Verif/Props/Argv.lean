import Verif.Core.Argv
import Verif.Props.Options

/-!
C125: the command line of the program.
-/

set_option linter.unusedSectionVars false

namespace Verif.Argv

open Verif.Py Verif.Utilities Verif.Cli
open Verif.Options (Style startsWith partition startsWith_iff partition_none partition_some partition_fst lookup_of_mem
  mem_of_lookup filterMap_unique Conversions Key Val prog scalarKeys sweKeys)

/-! ### Command lines as users write them -/

section Written

variable {V : Type}

/-- A part of a command line: an option, written with the string `string` and with the words `args`, or a block of
words for the positional arguments. -/
inductive Item (V : Type) where
  | option (o : Opt V) (string : String) (args : List String) (style : Style)
  | words (ws : List String)

/-- The words written. -/
def Item.written : Item V → List String
  | .option _ s args .separate => s :: args
  | .option _ s args .equals => [s ++ "=" ++ args.headD ""]
  | .option _ s args .attached => [s ++ args.headD ""]
  | .words ws => ws

/-- The string is the beginning of one long option string only, which is one of the option `o`. -/
def Abbreviates (opts : List (Opt V)) (s : String) (o : Opt V) : Prop :=
  ['-', '-'] <+: s.toList ∧ '=' ∉ s.toList ∧ ∃ t ∈ o.strings, s.toList <+: t.toList ∧
    ∀ o' ∈ opts, ∀ t' ∈ o'.strings, s.toList <+: t'.toList → t' = t

/-- A word that is no option: it does not begin with `-`, or it is a negative number. -/
def Plain (w : String) : Prop := w.toList.head? ≠ some '-' ∨ isNegativeNumber w = true

/-- The number of words that can be written after an option. -/
def Fits : Nargs → ℕ → Prop
  | .zero, n => n = 0
  | .one, n => n = 1
  | .optional, n => n ≤ 1
  | .plus, n => 1 ≤ n
  | .star, _ => True
  | .two, n => n = 2

/-- A part of a command line is correct: an option of the parser, written with one of its strings or an
abbreviation, with the right number of words; words with an equals sign or attached to a short option only if there
is exactly one. -/
def Item.Valid (opts : List (Opt V)) : Item V → Prop
  | .option o s args style => o ∈ opts ∧ (s ∈ o.strings ∨ (style ≠ .attached ∧ Abbreviates opts s o)) ∧
      Fits o.nargs args.length ∧ (style = .separate → ∀ w ∈ args, Plain w) ∧ (style ≠ .separate → args.length = 1) ∧
      (style = .attached → s.toList.length = 2 ∧ args.headD "" ≠ "" ∧ (args.headD "").toList.head? ≠ some '=')
  | .words ws => ws ≠ [] ∧ ∀ w ∈ ws, Plain w

/-- After such a part a word would still be taken as belonging to it. -/
def Item.isOpen : Item V → Bool
  | .option o _ args .separate => match o.nargs with
    | .plus => true
    | .star => true
    | .optional => args.isEmpty
    | _ => false
  | .option _ _ _ _ => false
  | .words _ => true

/-- Whether a part is a block of words. -/
def Item.isWords : Item V → Bool
  | .words _ => true
  | .option .. => false

/-- No block of words follows a part that would take them. -/
def Readable : List (Item V) → Prop
  | a :: b :: l => (b.isWords = true → a.isOpen = false) ∧ Readable (b :: l)
  | _ => True

/-- A table of options is sound: all option strings are different; they are `-` with another character, or begin with
`--` and are longer; there is no equals sign, and none looks like a negative number. -/
structure Sound (opts : List (Opt V)) : Prop where
  nodup : ((actions opts).map Prod.fst).Nodup
  dash : ∀ o ∈ opts, ∀ s ∈ o.strings, s.toList.head? = some '-'
  form : ∀ o ∈ opts, ∀ s ∈ o.strings, (s.toList.length = 2 ∧ (s.toList.drop 1).head? ≠ some '-') ∨
    (2 < s.toList.length ∧ (s.toList.drop 1).head? = some '-')
  equals : ∀ o ∈ opts, ∀ s ∈ o.strings, '=' ∉ s.toList
  number : ∀ o ∈ opts, ∀ s ∈ o.strings, ∀ ch, (s.toList.drop 1).head? = some ch → ch.isDigit = false ∧ ch ≠ '.'

theorem mem_actions (opts : List (Opt V)) (s : String) (o : Opt V) :
    (s, o) ∈ actions opts ↔ o ∈ opts ∧ s ∈ o.strings := by
  rw [actions, List.mem_flatMap]
  constructor
  · rintro ⟨o', ho', h⟩
    obtain ⟨s', hs', h⟩ := List.mem_map.1 h
    simp only [Prod.mk.injEq] at h
    obtain ⟨rfl, rfl⟩ := h
    exact ⟨ho', hs'⟩
  · rintro ⟨h1, h2⟩
    exact ⟨o, h1, List.mem_map.2 ⟨s, h2, rfl⟩⟩

section Classes

variable (opts : List (Opt V)) (hs : Sound opts)
include hs

theorem lookup_string (o : Opt V) (ho : o ∈ opts) (s : String) (h : s ∈ o.strings) :
    (actions opts).lookup s = some o :=
  lookup_of_mem _ hs.nodup _ _ ((mem_actions opts s o).2 ⟨ho, h⟩)

theorem lookup_equals (s : String) (h : '=' ∈ s.toList) : (actions opts).lookup s = none := by
  cases hl : (actions opts).lookup s with
  | none => rfl
  | some o =>
    obtain ⟨h1, h2⟩ := (mem_actions opts s o).1 (mem_of_lookup _ _ _ hl)
    exact absurd h (hs.equals o h1 s h2)

theorem parse_exact (o : Opt V) (ho : o ∈ opts) (s : String) (h : s ∈ o.strings) :
    parseOptional opts s = .ok (.option o none) := by
  rw [parseOptional, if_neg (by rw [not_not]; exact hs.dash _ ho _ h), lookup_string opts hs o ho s h]

omit hs in
theorem parse_raw (w : String) (h : w.toList.head? ≠ some '-') :
    parseOptional opts w = .ok .argument := by rw [parseOptional, if_pos h]

theorem head_append (s r : String) (c : Char) (h : s.toList.head? = some c) : (s ++ r).toList.head? = some c := by
  rw [String.toList_append]
  cases hl : s.toList with
  | nil => rw [hl] at h; simp at h
  | cons x l => rw [hl] at h; simpa using h

omit hs in
theorem long_word (s : String) (h : ['-', '-'] <+: s.toList) : ∃ l, s.toList = '-' :: '-' :: l := by
  obtain ⟨l, hl⟩ := h
  exact ⟨l, by rw [← hl]; rfl⟩

theorem tuples_abbreviated (o : Opt V) (ho : o ∈ opts) (s : String) (h : Abbreviates opts s o) (w : String)
    (hw : (w.toList.drop 1).head? = some '-') (e : Option String) (hp : partition w = (s, e)) :
    optionTuples opts w = [(o, e)] := by
  obtain ⟨-, -, t, ht, h3, h4⟩ := h
  rw [optionTuples, if_pos hw, hp]
  apply filterMap_unique _ hs.nodup _ (t, o) ((mem_actions opts t o).2 ⟨ho, ht⟩)
  · simp only [(startsWith_iff t s).2 h3, if_true]
  · rintro ⟨t', o'⟩ hq hne
    obtain ⟨q1, q2⟩ := (mem_actions opts t' o').1 hq
    have : startsWith t' s = false := by
      rw [Bool.eq_false_iff, ne_eq, startsWith_iff]
      exact fun hpre => hne (h4 o' q1 t' q2 hpre)
    simp only [this, Bool.false_eq_true, if_false]

theorem parse_abbreviated (o : Opt V) (ho : o ∈ opts) (s : String) (h : Abbreviates opts s o) :
    parseOptional opts s = .ok (.option o none) := by
  obtain ⟨l, hl⟩ := long_word s h.1
  rw [parseOptional, if_neg (by rw [hl]; simp)]
  cases hlk : (actions opts).lookup s with
  | some o' =>
    obtain ⟨h1, h2⟩ := (mem_actions opts s o').1 (mem_of_lookup _ _ _ hlk)
    obtain ⟨-, -, t, ht, -, h4⟩ := h
    have : s = t := h4 o' h1 s h2 (List.prefix_refl _)
    rw [this, lookup_string opts hs o ho t ht] at hlk
    rw [← Option.some.inj hlk]
  | none =>
    simp only
    rw [if_neg (by rw [hl]; simp), partition_none s h.2.1,
      tuples_abbreviated opts hs o ho s h s (by rw [hl]; rfl) none (partition_none s h.2.1)]

theorem parse_equals (o : Opt V) (ho : o ∈ opts) (s r : String) (h : s ∈ o.strings ∨ Abbreviates opts s o) :
    parseOptional opts (s ++ "=" ++ r) = .ok (.option o (some r)) := by
  have hno : '=' ∉ s.toList := h.elim (hs.equals o ho s) (fun h => h.2.1)
  have hhead : s.toList.head? = some '-' := by
    rcases h with h | h
    · exact hs.dash o ho s h
    · obtain ⟨l, hl⟩ := long_word s h.1
      rw [hl]; rfl
  have hlen : (s ++ "=" ++ r).toList.length ≠ 1 := by
    cases hl : s.toList with
    | nil => rw [hl] at hhead; simp at hhead
    | cons x l => simp [hl]
  rw [parseOptional, if_neg (by rw [not_not]; simpa using head_append opts hs s ("=" ++ r) '-' hhead),
    lookup_equals opts hs _ (by simp)]
  simp only
  rw [if_neg hlen, partition_some s r hno]
  cases hlk : (actions opts).lookup s with
  | some o' =>
    simp only
    rcases h with h | h
    · rw [lookup_string opts hs o ho s h] at hlk
      rw [← Option.some.inj hlk]
    · obtain ⟨h1, h2⟩ := (mem_actions opts s o').1 (mem_of_lookup _ _ _ hlk)
      obtain ⟨-, -, t, ht, -, h4⟩ := h
      have : s = t := h4 o' h1 s h2 (List.prefix_refl _)
      rw [this, lookup_string opts hs o ho t ht] at hlk
      rw [← Option.some.inj hlk]
  | none =>
    rcases h with h | h
    · rw [lookup_string opts hs o ho s h] at hlk
      cases hlk
    · simp only
      obtain ⟨l, hl⟩ := long_word s h.1
      rw [tuples_abbreviated opts hs o ho s h _ (by simp [hl]) (some r) (partition_some s r hno)]

theorem parse_attached (o : Opt V) (ho : o ∈ opts) (s r : String) (h : s ∈ o.strings) (hlen : s.toList.length = 2)
    (hr : r ≠ "") (hr2 : r.toList.head? ≠ some '=') :
    parseOptional opts (s ++ r) = .ok (.option o (some r)) := by
  obtain ⟨x, hx⟩ : ∃ x, s.toList = ['-', x] := by
    have h1 := hs.dash o ho s h
    match hl : s.toList, hlen with
    | [a, b], _ => rw [hl] at h1; simp only [List.head?_cons, Option.some.injEq] at h1; exact ⟨b, by rw [h1]⟩
  have hxd : x ≠ '-' := by
    rcases hs.form o ho s h with ⟨-, h2⟩ | ⟨h1, -⟩
    · rw [hx] at h2; simpa using h2
    · omega
  have hxe : x ≠ '=' := by
    have := hs.equals o ho s h
    rw [hx] at this
    simp only [List.mem_cons, List.not_mem_nil, or_false, not_or] at this
    exact fun he => this.2 he.symm
  obtain ⟨y, l, hy⟩ : ∃ y l, r.toList = y :: l := by
    cases hl : r.toList with
    | nil => exact absurd (by simpa using hl) hr
    | cons y l => exact ⟨y, l, rfl⟩
  have hye : y ≠ '=' := by rw [hy] at hr2; simpa using hr2
  have hw : (s ++ r).toList = '-' :: x :: y :: l := by rw [String.toList_append, hx, hy]; rfl
  have nolong : ∀ o' ∈ opts, ∀ t ∈ o'.strings, ¬ (s ++ r).toList <+: t.toList := by
    intro o' ho' t ht hpre
    obtain ⟨z, hz⟩ := hpre
    rw [hw] at hz
    rcases hs.form o' ho' t ht with ⟨h1, -⟩ | ⟨-, h2⟩
    · rw [← hz] at h1
      simp at h1
    · rw [← hz] at h2
      simp only [List.cons_append, List.drop_succ_cons, List.drop_zero, List.head?_cons, Option.some.injEq] at h2
      exact hxd h2
  have none1 : (actions opts).lookup (s ++ r) = none := by
    cases hlk : (actions opts).lookup (s ++ r) with
    | none => rfl
    | some o' =>
      obtain ⟨h1, h2⟩ := (mem_actions opts _ o').1 (mem_of_lookup _ _ _ hlk)
      exact absurd (List.prefix_refl _) (nolong o' h1 _ h2)
  have none2 : ∀ e, (partition (s ++ r)).2 = some e → (actions opts).lookup (partition (s ++ r)).1 = none := by
    intro e he
    have hp : ['-', x, y] <+: (partition (s ++ r)).1.toList := by
      rw [partition_fst, hw]
      have hdash : ('-' != '=') = true := by decide
      have hx' : (x != '=') = true := by simpa using hxe
      have hy' : (y != '=') = true := by simpa using hye
      simp [hdash, hx', hy']
    cases hlk : (actions opts).lookup (partition (s ++ r)).1 with
    | none => rfl
    | some o' =>
      exfalso
      obtain ⟨h1, h2⟩ := (mem_actions opts _ o').1 (mem_of_lookup _ _ _ hlk)
      obtain ⟨z, hz⟩ := hp
      rcases hs.form o' h1 _ h2 with ⟨h3, -⟩ | ⟨-, h3⟩
      · rw [← hz] at h3
        simp at h3
      · rw [← hz] at h3
        simp only [List.cons_append, List.drop_succ_cons, List.drop_zero, List.head?_cons, Option.some.injEq] at h3
        exact hxd h3
  have tup : optionTuples opts (s ++ r) = [(o, some r)] := by
    rw [optionTuples, if_neg (by rw [hw]; simpa using hxd)]
    have htake : String.ofList ((s ++ r).toList.take 2) = s := by
      rw [hw, ← String.toList_inj]; simpa using hx.symm
    have hdrop : String.ofList ((s ++ r).toList.drop 2) = r := by
      rw [hw, ← String.toList_inj]; simpa using hy.symm
    apply filterMap_unique _ hs.nodup _ (s, o) ((mem_actions opts s o).2 ⟨ho, h⟩)
    · simp only [htake, hdrop, if_true]
    · rintro ⟨t, o'⟩ hq hne
      obtain ⟨q1, q2⟩ := (mem_actions opts t o').1 hq
      have : startsWith t (s ++ r) = false := by
        rw [Bool.eq_false_iff, ne_eq, startsWith_iff]
        exact nolong o' q1 t q2
      simp only [htake, this]
      rw [if_neg hne]
      simp
  rw [parseOptional, if_neg (by rw [hw]; simp), none1]
  simp only
  rw [if_neg (by rw [hw]; simp)]
  cases he : (partition (s ++ r)).2 with
  | none => simp only [tup]
  | some e => simp only [none2 e he, tup]

end Classes

theorem parse_negative (opts : List (Opt V)) (hs : Sound opts) (w : String) (h : isNegativeNumber w = true) :
    parseOptional opts w = .ok .argument := by
  obtain ⟨x, l, hw, hx, heq⟩ : ∃ x l, w.toList = '-' :: x :: l ∧ (x.isDigit = true ∨ x = '.') ∧ '=' ∉ w.toList := by
    have noeq : ∀ l : List Char, l.all Char.isDigit = true → '=' ∉ l := by
      intro l hl hm
      exact absurd (List.all_eq_true.1 hl _ hm) (by decide)
    unfold isNegativeNumber at h
    split at h
    · rename_i rest hrest
      rw [hrest]
      rw [Bool.or_eq_true] at h
      rcases h with h | h
      · rw [Bool.and_eq_true] at h
        cases rest with
        | nil => simp at h
        | cons x l =>
          refine ⟨x, l, rfl, Or.inl (List.all_eq_true.1 h.2 x (List.mem_cons_self ..)), ?_⟩
          rw [List.mem_cons, not_or]
          exact ⟨by decide, noeq _ h.2⟩
      · split at h
        · rename_i d frac hspan
          rw [List.span_eq_takeWhile_dropWhile, Prod.mk.injEq] at hspan
          rw [Bool.and_eq_true] at h
          have hre : rest = d ++ '.' :: frac := by
            rw [← hspan.1, ← hspan.2, List.takeWhile_append_dropWhile]
          have hd : ∀ ch ∈ d, ch.isDigit = true := by
            intro ch hch
            rw [← hspan.1] at hch
            exact List.all_eq_true.1 List.all_takeWhile _ hch
          have hne : '=' ∉ ('-' :: rest) := by
            rw [List.mem_cons, not_or, hre, List.mem_append, not_or, List.mem_cons, not_or]
            exact ⟨by decide, noeq _ (List.all_eq_true.2 hd), by decide, noeq _ h.2⟩
          cases d with
          | nil => exact ⟨'.', frac, by rw [hre]; rfl, Or.inr rfl, hne⟩
          | cons x l => exact ⟨x, l ++ '.' :: frac, by rw [hre]; rfl, Or.inl (hd x (List.mem_cons_self ..)), hne⟩
        · cases h
    · cases h
  have second : ∀ o ∈ opts, ∀ s ∈ o.strings, (s.toList.drop 1).head? ≠ some x := by
    intro o ho s hs' he
    obtain ⟨h1, h2⟩ := hs.number o ho s hs' x he
    rcases hx with hx | hx
    · rw [hx] at h1; cases h1
    · exact h2 hx
  have none1 : (actions opts).lookup w = none := by
    cases hlk : (actions opts).lookup w with
    | none => rfl
    | some o' =>
      obtain ⟨h1, h2⟩ := (mem_actions opts _ o').1 (mem_of_lookup _ _ _ hlk)
      exact absurd (by rw [hw]; rfl) (second o' h1 _ h2)
  have hxd : x ≠ '-' := by
    rintro rfl
    rcases hx with hx | hx
    · exact absurd hx (by decide)
    · exact absurd hx (by decide)
  have tup : optionTuples opts w = [] := by
    rw [optionTuples, if_neg (by rw [hw]; simpa using hxd), List.filterMap_eq_nil_iff]
    rintro ⟨t, o⟩ hq
    obtain ⟨q1, q2⟩ := (mem_actions opts t o).1 hq
    have hsec := second o q1 t q2
    rw [if_neg, if_neg]
    · intro hst
      obtain ⟨z, hz⟩ := (startsWith_iff t w).1 hst
      apply hsec
      change (t.toList.drop 1).head? = _
      rw [← hz, hw]
      rfl
    · intro he
      apply hsec
      change t = _ at he
      rw [he, hw]
      simp
  rw [parseOptional, if_neg (by rw [hw]; simp), none1]
  simp only
  rw [if_neg (by rw [hw]; simp), partition_none w heq]
  simp only [tup, h, if_true]

theorem parse_plain (opts : List (Opt V)) (hs : Sound opts) (w : String) (h : Plain w) :
    parseOptional opts w = .ok .argument :=
  h.elim (parse_raw opts w) (parse_negative opts hs w)

/-- How the words of a part are understood. -/
def Item.classes : Item V → List (Word V)
  | .option o _ args .separate => .option o none :: args.map fun _ => .argument
  | .option o _ args _ => [.option o (some (args.headD ""))]
  | .words ws => ws.map fun _ => .argument

theorem mapM_plain (opts : List (Opt V)) (hs : Sound opts) (ws : List String) (h : ∀ w ∈ ws, Plain w) :
    ws.mapM (parseOptional opts) = .ok (ws.map fun _ => .argument) := by
  induction ws with
  | nil => rfl
  | cons w ws ih =>
    rw [List.mapM_cons, parse_plain opts hs w (h w (List.mem_cons_self ..)),
      ih fun w hw => h w (List.mem_cons_of_mem _ hw)]
    rfl

theorem item_classes (opts : List (Opt V)) (hs : Sound opts) (a : Item V) (ha : a.Valid opts) :
    a.written.mapM (parseOptional opts) = .ok a.classes := by
  cases a with
  | words ws => exact mapM_plain opts hs ws ha.2
  | option o s args style =>
    obtain ⟨h1, h2, h3, h4, h5, h6⟩ := ha
    cases style with
    | separate =>
      have : parseOptional opts s = .ok (.option o none) :=
        h2.elim (parse_exact opts hs o h1 s) fun h => parse_abbreviated opts hs o h1 s h.2
      rw [Item.written, Item.classes, List.mapM_cons, this, mapM_plain opts hs args (h4 rfl)]
      rfl
    | equals =>
      rw [Item.written, Item.classes, List.mapM_cons,
        parse_equals opts hs o h1 s _ (h2.imp id fun h => h.2)]
      · rfl
      · simp
    | attached =>
      obtain ⟨g1, g2, g3⟩ := h6 rfl
      rw [Item.written, Item.classes, List.mapM_cons,
        parse_attached opts hs o h1 s _ (h2.elim id fun h => absurd rfl h.1) g1 g2 g3]
      · rfl
      · simp

theorem mapM_append {α β ε : Type*} (f : α → Except ε β) (l l' : List α) (r r' : List β) (h : l.mapM f = .ok r)
    (h' : l'.mapM f = .ok r') : (l ++ l').mapM f = .ok (r ++ r') := by
  rw [List.mapM_append, h, h']
  rfl

theorem all_classes (opts : List (Opt V)) (hs : Sound opts) (l : List (Item V)) (hl : ∀ a ∈ l, a.Valid opts) :
    (l.flatMap Item.written).mapM (parseOptional opts) = .ok (l.flatMap Item.classes) := by
  induction l with
  | nil => rfl
  | cons a l ih =>
    rw [List.flatMap_cons, List.flatMap_cons]
    exact mapM_append _ _ _ _ _ (item_classes opts hs a (hl a (List.mem_cons_self ..)))
      (ih fun b hb => hl b (List.mem_cons_of_mem _ hb))

/-- The words of a list of parts, with their classes. -/
def marked (l : List (Item V)) : List (String × Word V) := (l.flatMap Item.written).zip (l.flatMap Item.classes)

theorem length_classes (a : Item V) : a.written.length = a.classes.length := by
  cases a with
  | words ws => simp [Item.written, Item.classes]
  | option o s args style => cases style <;> simp [Item.written, Item.classes]

theorem marked_cons (a : Item V) (l : List (Item V)) : marked (a :: l) = a.written.zip a.classes ++ marked l := by
  rw [marked, List.flatMap_cons, List.flatMap_cons, List.zip_append (length_classes a)]
  rfl

theorem segments_plain (ws : List String) (rest : List (String × Word V)) :
    segments (ws.zip (ws.map fun _ => Word.argument) ++ rest) = (ws ++ (segments rest).1, (segments rest).2) := by
  induction ws with
  | nil => rfl
  | cons w ws ih =>
    rw [List.map_cons, List.zip_cons_cons, List.cons_append, segments, ih]
    rfl

theorem lead_nil (l : List (Item V)) (opts : List (Opt V)) (hl : ∀ a ∈ l, a.Valid opts)
    (h : ∀ a, l.head? = some a → a.isWords = false) : (segments (marked l)).1 = [] := by
  cases l with
  | nil => rfl
  | cons a l =>
    cases a with
    | words ws => exact absurd (h _ rfl) (by simp [Item.isWords])
    | option o s args style =>
      rw [marked_cons]
      cases style <;> rfl

/-- A part does what it says. -/
def apply (st : State V) : Item V → Except Exit (State V)
  | .option o _ args _ => take st o args
  | .words ws => give st ws

theorem readable_tail (a : Item V) (l : List (Item V)) (h : Readable (a :: l)) : Readable l := by
  cases l with
  | nil => trivial
  | cons b l => exact h.2

theorem readable_open (a : Item V) (l : List (Item V)) (h : Readable (a :: l)) (ha : a.isOpen = true) :
    ∀ b, l.head? = some b → b.isWords = false := by
  cases l with
  | nil => intro b hb; cases hb
  | cons b l =>
    intro b' hb'
    rw [List.head?_cons, Option.some.injEq] at hb'
    subst hb'
    cases hw : b.isWords with
    | false => rfl
    | true => rw [h.1 hw] at ha; cases ha

theorem count_open (n : Nargs) (k m : ℕ) (h : Fits n k)
    (ho : m = 0 ∨ (n = .zero ∨ n = .one ∨ n = .two ∨ (n = .optional ∧ k ≠ 0))) : count n (k + m) = some k := by
  cases n with
  | zero => simp only [Fits] at h; subst h; rfl
  | one => simp only [Fits] at h; subst h; simp [count]
  | two => simp only [Fits] at h; subst h; simp [count]
  | optional =>
    simp only [Fits] at h
    simp only [count, Option.some.injEq]
    rcases ho with ho | ho | ho | ho | ⟨-, ho⟩
    · omega
    all_goals first | cases ho | omega
  | plus =>
    simp only [Fits] at h
    rcases ho with ho | ho | ho | ho | ⟨ho, -⟩
    · subst ho; simp [count]; omega
    all_goals cases ho
  | star =>
    rcases ho with ho | ho | ho | ho | ⟨ho, -⟩
    · subst ho; simp [count]
    all_goals cases ho

theorem count_explicit (n : Nargs) (h : Fits n 1) : count n 1 = some 1 := by
  cases n <;> simp_all [Fits, count]

theorem exec_eq (opts : List (Opt V)) (l : List (Item V)) (hl : ∀ a ∈ l, a.Valid opts) (hr : Readable l)
    (st : State V) :
    (give st (segments (marked l)).1).bind (fun st => (segments (marked l)).2.foldlM step st) = l.foldlM apply st := by
  induction l generalizing st with
  | nil => rfl
  | cons a l ih =>
    have ih := ih (fun b hb => hl b (List.mem_cons_of_mem _ hb)) (readable_tail a l hr)
    have hnil := fun ho => lead_nil l opts (fun b hb => hl b (List.mem_cons_of_mem _ hb)) (readable_open a l hr ho)
    have ha := hl a (List.mem_cons_self ..)
    rw [marked_cons, List.foldlM_cons]
    cases a with
    | words ws =>
      rw [Item.written, Item.classes, segments_plain]
      have hnil := hnil rfl
      simp only [hnil, List.append_nil]
      rw [hnil] at ih
      change _ = (give st ws).bind _
      congr 1
      funext st'
      rw [← ih st']
      rfl
    | option o s args style =>
      obtain ⟨h1, h2, h3, h4, h5, h6⟩ := ha
      have fin : ∀ st' : State V, ((give st' (segments (marked l)).1).bind fun st =>
          (segments (marked l)).2.foldlM step st) = l.foldlM apply st' := ih
      have key : ∀ seg : Segment V, step st seg = (take st o args).bind (fun st => give st (segments (marked l)).1) →
          ((give st ([] : List String)).bind fun st => (seg :: (segments (marked l)).2).foldlM step st) =
            (apply st (.option o s args style)).bind fun st => l.foldlM apply st := by
        intro seg hseg
        change ((seg :: (segments (marked l)).2).foldlM step st) = (take st o args).bind fun st => l.foldlM apply st
        rw [List.foldlM_cons, hseg]
        change ((take st o args).bind _).bind _ = _
        cases take st o args with
        | error e => rfl
        | ok st' => exact fin st'
      cases style with
      | separate =>
        rw [Item.written, Item.classes, List.zip_cons_cons, List.cons_append, segments, segments_plain]
        apply key
        have hc : count o.nargs (args.length + (segments (marked l)).1.length) = some args.length := by
          apply count_open _ _ _ h3
          cases hn : o.nargs with
          | zero => exact Or.inr (Or.inl rfl)
          | one => exact Or.inr (Or.inr (Or.inl rfl))
          | two => exact Or.inr (Or.inr (Or.inr (Or.inl rfl)))
          | plus => left; rw [hnil (by simp [Item.isOpen, hn])]; rfl
          | star => left; rw [hnil (by simp [Item.isOpen, hn])]; rfl
          | optional =>
            cases args with
            | nil => left; rw [hnil (by simp [Item.isOpen, hn])]; rfl
            | cons _ _ => exact Or.inr (Or.inr (Or.inr (Or.inr ⟨rfl, by simp⟩)))
        simp only [step, List.length_append, hc, List.take_left', List.drop_left', List.take_left, List.drop_left]
      | equals =>
        obtain ⟨e, rfl⟩ := List.length_eq_one_iff.1 (h5 (by simp))
        change ((give st ([] : List String)).bind fun st => (_ :: (segments (marked l)).2).foldlM step st) = _
        apply key
        simp only [step, List.headD_cons, count_explicit _ h3]
        rfl
      | attached =>
        obtain ⟨e, rfl⟩ := List.length_eq_one_iff.1 (h5 (by simp))
        change ((give st ([] : List String)).bind fun st => (_ :: (segments (marked l)).2).foldlM step st) = _
        apply key
        simp only [step, List.headD_cons, count_explicit _ h3]
        rfl

/-- The state at the beginning. -/
def start (spec : Spec V) (none : V) : State V := ⟨initial spec none, spec.positionals, [], false⟩

/-- What happens after the last word. -/
def stop (st : State V) : Except Exit (String → V) :=
  (finish st).bind fun st => if st.extras then .error .usage else .ok st.ns

theorem parse_eq (spec : Spec V) (none : V) (hs : Sound spec.opts) (l : List (Item V))
    (hl : ∀ a ∈ l, a.Valid spec.opts) (hr : Readable l) :
    parseArgs spec none (l.flatMap Item.written) = (l.foldlM apply (start spec none)).bind stop := by
  rw [parseArgs, all_classes spec.opts hs l hl, ← exec_eq spec.opts l hl hr]
  change ((give (start spec none) (segments (marked l)).1).bind fun st => ((segments (marked l)).2.foldlM step st).bind stop) = _
  change _ = ((give _ (segments (marked l)).1).bind _).bind stop
  cases give (start spec none) (segments (marked l)).1 <;> rfl

/-! ### What a command line means -/

/-- A destination, and what is done with its value. -/
abbrev Given (V : Type) := String × (V → Except Exit V)

/-- One after the other; the first failure counts. -/
def settle (ns : String → V) (gs : List (Given V)) : Except Exit (String → V) :=
  gs.foldlM (fun ns g => (g.2 (ns g.1)).map (update ns g.1)) ns

/-- A block of words for the positional arguments, with the ones that remain.  `none` if there are too many words. -/
def supply : List (Pos V) → List String → Option (List (Given V) × List (Pos V))
  | ps, [] => some ([], ps)
  | [], _ :: _ => none
  | p :: ps, w :: ws =>
    if p.many then some ([(p.dest, fun _ => p.run (w :: ws))], ps)
    else (supply ps ws).map fun r => ((p.dest, fun _ => p.run [w]) :: r.1, r.2)

/-- The meaning of a command line: options act on their destinations, words on the positional arguments.  `none` if there
are too many words, or too few. -/
def givens : List (Pos V) → List (Item V) → Option (List (Given V))
  | [], [] => some []
  | [p], [] => if p.required then none else some [(p.dest, fun _ => p.run [])]
  | _ :: _ :: _, [] => none
  | ps, .option o _ args _ :: l => (givens ps l).map fun gs => (o.dest, fun v => o.run v args) :: gs
  | ps, .words ws :: l => (supply ps ws).bind fun r => (givens r.2 l).map fun gs => r.1 ++ gs

/-- The options of the exclusive group that are used. -/
def exclusives (l : List (Item V)) : List String :=
  l.filterMap fun a => match a with
    | .option o _ _ _ => if o.exclusive then some (o.strings.headD "") else none
    | .words _ => none

/-- All names are the same. -/
def Same (l : List String) : Prop := ∀ a ∈ l, ∀ b ∈ l, a = b

theorem settle_append (ns : String → V) (gs gs' : List (Given V)) :
    settle ns (gs ++ gs') = (settle ns gs).bind fun ns => settle ns gs' := by
  unfold settle
  rw [List.foldlM_append]
  rfl

theorem give_supply (ws : List String) (st : State V) (gs : List (Given V)) (ps : List (Pos V))
    (h : supply st.left ws = some (gs, ps)) :
    give st ws = (settle st.ns gs).map fun ns => { st with ns := ns, left := ps } := by
  induction ws generalizing st gs with
  | nil =>
    rw [supply] at h
    simp only [Option.some.injEq, Prod.mk.injEq] at h
    obtain ⟨rfl, rfl⟩ := h
    rfl
  | cons w ws ih =>
    obtain ⟨ns, left, seen, extras⟩ := st
    cases left with
    | nil => simp [supply] at h
    | cons p left =>
      simp only [supply] at h
      simp only [give]
      by_cases hm : p.many = true
      · rw [if_pos hm] at h ⊢
        simp only [Option.some.injEq, Prod.mk.injEq] at h
        obtain ⟨rfl, rfl⟩ := h
        simp only [settle, List.foldlM_cons, List.foldlM_nil]
        cases p.run (w :: ws) <;> rfl
      · rw [if_neg hm] at h ⊢
        obtain ⟨⟨gs', ps'⟩, hr, he⟩ := Option.map_eq_some_iff.1 h
        simp only [Prod.mk.injEq] at he
        obtain ⟨rfl, rfl⟩ := he
        simp only [settle, List.foldlM_cons]
        cases hrun : p.run [w] with
        | error e => rfl
        | ok v =>
          simp only
          rw [ih ⟨update ns p.dest v, left, seen, extras⟩ gs' hr]
          rfl

theorem give_extras (ws : List String) (st st' : State V) (h : give st ws = .ok st') (hx : st.extras = true) :
    st'.extras = true := by
  induction ws generalizing st with
  | nil => rw [give, Except.ok.injEq] at h; rw [← h]; exact hx
  | cons w ws ih =>
    unfold give at h
    split at h
    · rw [Except.ok.injEq] at h; rw [← h]
    · split at h
      · split at h
        · rw [Except.ok.injEq] at h; rw [← h]; exact hx
        · cases h
      · split at h
        · exact ih _ h hx
        · cases h

theorem give_none (ws : List String) (st st' : State V) (h : supply st.left ws = none) (h' : give st ws = .ok st') :
    st'.extras = true := by
  induction ws generalizing st with
  | nil => simp [supply] at h
  | cons w ws ih =>
    obtain ⟨ns, left, seen, extras⟩ := st
    cases left with
    | nil => simp only [give, Except.ok.injEq] at h'; rw [← h']
    | cons p left =>
      simp only [supply] at h
      simp only [give] at h'
      by_cases hm : p.many = true
      · rw [if_pos hm] at h; cases h
      · rw [if_neg hm] at h h'
        cases hrun : p.run [w] with
        | error e => rw [hrun] at h'; cases h'
        | ok v =>
          rw [hrun] at h'
          exact ih _ (by simpa using h) h'

theorem take_extras (st st' : State V) (o : Opt V) (args : List String) (h : take st o args = .ok st') :
    st'.extras = st.extras := by
  unfold take at h
  split at h
  · cases h
  · split at h
    · cases h
    · rw [Except.ok.injEq] at h; rw [← h]

theorem not_stop (st : State V) (h : st.extras = true) (ns : String → V) : stop st ≠ .ok ns := by
  unfold stop finish
  split
  · simp [Except.bind, h]
  · split
    · simp [Except.bind]
    · split <;> simp [Except.bind, h]
  · simp [Except.bind]

theorem extras_run (l : List (Item V)) (st : State V) (h : st.extras = true) (ns : String → V) :
    (l.foldlM apply st).bind stop ≠ .ok ns := by
  induction l generalizing st with
  | nil => exact not_stop st h ns
  | cons a l ih =>
    rw [List.foldlM_cons]
    change ((apply st a).bind fun st => l.foldlM apply st).bind stop ≠ _
    cases ha : apply st a with
    | error e => simp [Except.bind]
    | ok st' =>
      apply ih st'
      cases a with
      | words ws => exact give_extras ws st st' ha h
      | option o s args style => rw [take_extras st st' o args ha]; exact h

theorem stop_nil (st : State V) (hx : st.extras = false) (gs : List (Given V)) (h : givens st.left [] = some gs) :
    stop st = settle st.ns gs := by
  obtain ⟨ns, left, seen, extras⟩ := st
  simp only at hx
  subst hx
  match left, h with
  | [], h =>
    simp only [givens, Option.some.injEq] at h
    subst h
    rfl
  | [p], h =>
    simp only [givens] at h
    by_cases hp : p.required = true
    · rw [if_pos hp] at h; cases h
    · rw [if_neg hp, Option.some.injEq] at h
      subst h
      simp only [stop, finish, if_neg hp, settle, List.foldlM_cons, List.foldlM_nil]
      cases p.run [] <;> rfl
  | _ :: _ :: _, h => simp [givens] at h

theorem stop_none (st : State V) (h : givens st.left [] = none) (ns : String → V) : stop st ≠ .ok ns := by
  obtain ⟨ns', left, seen, extras⟩ := st
  match left, h with
  | [], h => simp [givens] at h
  | [p], h =>
    simp only [givens] at h
    by_cases hp : p.required = true
    · simp [stop, finish, hp, Except.bind]
    · rw [if_neg hp] at h; cases h
  | _ :: _ :: _, h => simp [stop, finish, Except.bind]

theorem exclusives_option (o : Opt V) (s : String) (args : List String) (style : Style) (l : List (Item V)) :
    exclusives (.option o s args style :: l) =
      (if o.exclusive then [o.strings.headD ""] else []) ++ exclusives l := by
  unfold exclusives
  rw [List.filterMap_cons]
  by_cases h : o.exclusive = true <;> simp [h]

theorem exclusives_words (ws : List String) (l : List (Item V)) : exclusives (.words ws :: l) = exclusives l := by
  unfold exclusives
  rw [List.filterMap_cons]

theorem take_eq (st : State V) (o : Opt V) (args : List String)
    (h : o.exclusive = true → ∀ s ∈ st.seen, s = o.strings.headD "") :
    take st o args = (o.run (st.ns o.dest) args).map fun v => { st with
      ns := update st.ns o.dest v
      seen := (if o.exclusive then [o.strings.headD ""] else []) ++ st.seen } := by
  unfold take
  cases o.run (st.ns o.dest) args with
  | error e => rfl
  | ok v =>
    simp only
    rw [if_neg]
    · by_cases he : o.exclusive = true <;> simp [he, Except.map]
    · rw [Bool.and_eq_true, List.any_eq_true, not_and]
      rintro he ⟨s, hs, hne⟩
      exact absurd (h he s hs) (by simpa using hne)

theorem run_eq (l : List (Item V)) (st : State V) (hx : st.extras = false) (gs : List (Given V))
    (h : givens st.left l = some gs) (hs : Same (st.seen ++ exclusives l)) :
    (l.foldlM apply st).bind stop = settle st.ns gs := by
  induction l generalizing st gs with
  | nil => exact stop_nil st hx gs h
  | cons a l ih =>
    rw [List.foldlM_cons]
    change ((apply st a).bind fun st => l.foldlM apply st).bind stop = _
    cases a with
    | words ws =>
      rw [exclusives_words] at hs
      have h : (supply st.left ws).bind (fun r => (givens r.2 l).map fun gs => r.1 ++ gs) = some gs := by
        rw [← h]
        rcases st.left with _ | ⟨p, _ | ⟨q, left⟩⟩ <;> simp only [givens]
      obtain ⟨⟨g1, ps⟩, h1, h2⟩ := Option.bind_eq_some_iff.1 h
      obtain ⟨g2, h3, rfl⟩ := Option.map_eq_some_iff.1 h2
      rw [settle_append, apply, give_supply ws st g1 ps h1]
      cases hse : settle st.ns g1 with
      | error e => rfl
      | ok ns => exact ih { st with ns := ns, left := ps } hx g2 h3 hs
    | option o s args style =>
      rw [exclusives_option] at hs
      have h : (givens st.left l).map (fun gs => (o.dest, fun v => o.run v args) :: gs) = some gs := by
        rw [← h]
        rcases st.left with _ | ⟨p, _ | ⟨q, left⟩⟩ <;> simp only [givens]
      obtain ⟨g2, h3, rfl⟩ := Option.map_eq_some_iff.1 h
      rw [apply, take_eq st o args]
      · simp only [settle, List.foldlM_cons]
        cases hrun : o.run (st.ns o.dest) args with
        | error e => rfl
        | ok v =>
          refine ih { st with
            ns := update st.ns o.dest v
            seen := (if o.exclusive then [o.strings.headD ""] else []) ++ st.seen } hx g2 h3 ?_
          intro a ha b hb
          apply hs
          · simp only [List.mem_append] at ha ⊢; tauto
          · simp only [List.mem_append] at hb ⊢; tauto
      · intro he x hx'
        apply hs
        · exact List.mem_append_left _ hx'
        · rw [if_pos he]; simp

theorem run_ok (l : List (Item V)) (st : State V) (hseen : Same st.seen) (ns : String → V)
    (h : (l.foldlM apply st).bind stop = .ok ns) :
    (givens st.left l).isSome ∧ Same (st.seen ++ exclusives l) := by
  induction l generalizing st with
  | nil =>
    refine ⟨?_, by simpa [exclusives] using hseen⟩
    cases hg : givens st.left [] with
    | some gs => rfl
    | none => exact absurd h (stop_none st hg ns)
  | cons a l ih =>
    rw [List.foldlM_cons] at h
    change ((apply st a).bind fun st => l.foldlM apply st).bind stop = _ at h
    cases ha : apply st a with
    | error e => rw [ha] at h; cases h
    | ok st' =>
      rw [ha] at h
      change (l.foldlM apply st').bind stop = _ at h
      cases a with
      | words ws =>
        rw [exclusives_words]
        change give st ws = _ at ha
        have hg : givens st.left (.words ws :: l) =
            (supply st.left ws).bind (fun r => (givens r.2 l).map fun gs => r.1 ++ gs) := by
          rcases st.left with _ | ⟨p, _ | ⟨q, left⟩⟩ <;> simp only [givens]
        rw [hg]
        cases hsup : supply st.left ws with
        | none => exact absurd h (extras_run l st' (give_none ws st st' hsup ha) ns)
        | some r =>
          obtain ⟨g1, ps⟩ := r
          rw [give_supply ws st g1 ps hsup] at ha
          cases hse : settle st.ns g1 with
          | error e => rw [hse] at ha; cases ha
          | ok ns' =>
            rw [hse] at ha
            change Except.ok _ = _ at ha
            rw [Except.ok.injEq] at ha
            subst ha
            obtain ⟨i1, i2⟩ := ih { st with ns := ns', left := ps } hseen h
            exact ⟨by simpa using i1, i2⟩
      | option o s args style =>
        rw [exclusives_option]
        change take st o args = _ at ha
        have hg : givens st.left (.option o s args style :: l) =
            (givens st.left l).map (fun gs => (o.dest, fun v => o.run v args) :: gs) := by
          rcases st.left with _ | ⟨p, _ | ⟨q, left⟩⟩ <;> simp only [givens]
        have hex : o.exclusive = true → ∀ s ∈ st.seen, s = o.strings.headD "" := by
          intro he x hx
          unfold take at ha
          split at ha
          · cases ha
          · split at ha
            · cases ha
            · rename_i hn
              by_contra hne
              apply hn
              rw [he, Bool.true_and, List.any_eq_true]
              exact ⟨x, hx, by simpa using hne⟩
        rw [take_eq st o args hex] at ha
        rw [hg]
        cases hrun : o.run (st.ns o.dest) args with
        | error e => rw [hrun] at ha; cases ha
        | ok v =>
          rw [hrun] at ha
          change Except.ok _ = _ at ha
          rw [Except.ok.injEq] at ha
          subst ha
          obtain ⟨i1, i2⟩ := ih { st with
            ns := update st.ns o.dest v
            seen := (if o.exclusive then [o.strings.headD ""] else []) ++ st.seen } (by
            intro a ha b hb
            simp only [List.mem_append] at ha hb
            by_cases he : o.exclusive = true
            · simp only [he, if_true, List.mem_singleton] at ha hb
              have e := hex he
              rcases ha with ha | ha <;> rcases hb with hb | hb
              · rw [ha, hb]
              · rw [ha, e b hb]
              · rw [e a ha, hb]
              · exact hseen a ha b hb
            · rw [if_neg he] at ha hb
              simp only [List.not_mem_nil, false_or] at ha hb
              exact hseen a ha b hb) h
          refine ⟨by simpa using i1, ?_⟩
          intro a ha b hb
          apply i2
          · simp only [List.mem_append] at ha ⊢; tauto
          · simp only [List.mem_append] at hb ⊢; tauto

/-- C125.  A command line of correctly written parts: if the number of words for the positional arguments is right
and at most one of two exclusive options is used, then the parts act on their destinations one after the other,
beginning with the default values, and the first value that cannot be converted decides how the program ends. -/
theorem C125_written (spec : Spec V) (none : V) (hs : Sound spec.opts) (l : List (Item V))
    (hl : ∀ a ∈ l, a.Valid spec.opts) (hr : Readable l) (gs : List (Given V))
    (hg : givens spec.positionals l = some gs) (he : Same (exclusives l)) :
    parseArgs spec none (l.flatMap Item.written) = settle (initial spec none) gs := by
  rw [parse_eq spec none hs l hl hr]
  exact run_eq l (start spec none) rfl gs hg he

/-- C125.  Otherwise it is refused. -/
theorem C125_refused (spec : Spec V) (none : V) (hs : Sound spec.opts) (l : List (Item V))
    (hl : ∀ a ∈ l, a.Valid spec.opts) (hr : Readable l)
    (h : givens spec.positionals l = Option.none ∨ ¬ Same (exclusives l)) (ns : String → V) :
    parseArgs spec none (l.flatMap Item.written) ≠ .ok ns := by
  rw [parse_eq spec none hs l hl hr]
  intro hok
  obtain ⟨h1, h2⟩ := run_ok l (start spec none) (by intro a ha; cases ha) ns hok
  rcases h with h | h
  · change (givens spec.positionals l).isSome = true at h1
    rw [h] at h1; cases h1
  · exact h h2

/-- The value of one destination comes from the parts for this destination only. -/
theorem settle_dest (gs : List (Given V)) (ns ns' : String → V) (h : settle ns gs = .ok ns') (d : String) :
    (gs.filter fun g => g.1 = d).foldlM (fun v g => g.2 v) (ns d) = .ok (ns' d) := by
  induction gs generalizing ns with
  | nil => rw [settle, List.foldlM_nil] at h; cases h; rfl
  | cons g gs ih =>
    obtain ⟨k, f⟩ := g
    rw [settle, List.foldlM_cons] at h
    cases hf : f (ns k) with
    | error e => simp only [hf] at h; cases h
    | ok v =>
      simp only [hf] at h
      have ih := ih (update ns k v) h
      by_cases hk : k = d
      · subst hk
        rw [List.filter_cons_of_pos (by simp), List.foldlM_cons]
        simp only [hf]
        have hu : update ns k v k = v := by simp [update]
        rw [hu] at ih
        exact ih
      · rw [List.filter_cons_of_neg (by simpa using hk)]
        have : update ns k v d = ns d := by simp [update, Ne.symm hk]
        rw [this] at ih
        exact ih

/-- C125.  The value of a destination: all that is written for it is done one after the other, beginning with the
default; without anything written for it, it has its default value, and what is written for other destinations does not
matter. -/
theorem C125_destination (spec : Spec V) (none : V) (hs : Sound spec.opts) (l : List (Item V))
    (hl : ∀ a ∈ l, a.Valid spec.opts) (hr : Readable l) (gs : List (Given V))
    (hg : givens spec.positionals l = some gs) (ns : String → V)
    (h : parseArgs spec none (l.flatMap Item.written) = .ok ns) (d : String) :
    (gs.filter fun g => g.1 = d).foldlM (fun v g => g.2 v) (initial spec none d) = .ok (ns d) := by
  have he : Same (exclusives l) := by
    by_contra hne
    exact C125_refused spec none hs l hl hr (Or.inr hne) ns h
  rw [C125_written spec none hs l hl hr gs hg he] at h
  exact settle_dest gs _ ns h d

end Written

end Verif.Argv
