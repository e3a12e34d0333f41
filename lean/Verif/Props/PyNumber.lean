import Verif.Core.PyNumber
import Verif.Props.Utilities
import Mathlib.Data.Nat.Digits.Defs
import Mathlib.Data.List.TakeWhile
import Mathlib.Tactic.FieldSimp
import Mathlib.Tactic.Linarith
import Mathlib.Tactic.Ring

/-!
Property C130: which words of the command line are numbers, and which numbers they are.
-/

set_option linter.unusedSectionVars false

namespace Verif.PyNumber

open Verif.Utilities Verif.Options

/-! ### The grammar

The specification: how numbers are written, in the words of python's reference manual ("Integer literals" and
`floatnumber` of `float`). -/

/-- `c` is the digit `d`. -/
def Digit (d : ℕ) (c : Char) : Prop := d < 10 ∧ c.toNat = 48 + d

/-- `digit (["_"] digit)*`: digits with single underscores between some of them. -/
inductive Written : List ℕ → List Char → Prop
  | one {d c} : Digit d c → Written [d] [c]
  | next {d c ds s} : Digit d c → Written ds s → Written (d :: ds) (c :: s)
  | under {d c ds s} : Digit d c → Written ds s → Written (d :: ds) (c :: '_' :: s)

/-- `["+" | "-"]`; the first argument tells whether there is a minus. -/
inductive Sign : Bool → List Char → Prop
  | none : Sign false []
  | plus : Sign false ['+']
  | minus : Sign true ['-']

/-- White space. -/
def Blank (s : List Char) : Prop :=
  ∀ c ∈ s, c.toNat ∈ [9, 10, 11, 12, 13, 28, 29, 30, 31, 32]

/-- The number with these decimal digits. -/
def number (ds : List ℕ) : ℕ := Nat.ofDigits 10 ds.reverse

/-- A word that denotes an integer: white space, a sign, digits, white space. -/
def IntWord (z : ℤ) (s : List Char) : Prop :=
  ∃ before sg body after minus ds, Blank before ∧ Blank after ∧ Sign minus sg ∧ Written ds body ∧
    s = before ++ sg ++ body ++ after ∧ z = if minus then -(number ds : ℤ) else number ds

/-- Digits or nothing. -/
def Digits (ds : List ℕ) (s : List Char) : Prop := (ds = [] ∧ s = []) ∨ Written ds s

/-- Nothing, or a point and possibly digits. -/
def Fraction (ds : List ℕ) (s : List Char) : Prop := (ds = [] ∧ s = []) ∨ ∃ t, s = '.' :: t ∧ Digits ds t

/-- Nothing, or `e` or `E`, a sign and digits. -/
def Exponent (e : ℤ) (s : List Char) : Prop :=
  (e = 0 ∧ s = []) ∨ ∃ c minus sg ds t, (c = 'e' ∨ c = 'E') ∧ Sign minus sg ∧ Written ds t ∧ s = c :: (sg ++ t) ∧
    e = if minus then -(number ds : ℤ) else number ds

variable {K : Type} [Field K]

/-- A decimal: whole part, fraction and exponent, with at least one digit before the exponent. -/
def Decimal (x : K) (s : List Char) : Prop :=
  ∃ ds fs e whole frac ex, Digits ds whole ∧ Fraction fs frac ∧ Exponent e ex ∧ ds ++ fs ≠ [] ∧
    s = whole ++ frac ++ ex ∧ x = (number (ds ++ fs) : K) * (10 : K) ^ e / (10 : K) ^ fs.length

/-- The letters of a word in small or capital letters. -/
def Letters (word : String) (s : List Char) : Prop :=
  List.Forall₂ (fun l c => c = l ∨ c = l.toUpper) word.toList s

/-- What stands after the sign. -/
inductive Unsigned : Bool → PyFloat K → List Char → Prop
  | decimal {minus x s} : Decimal x s → Unsigned minus (.fin (if minus then -x else x)) s
  | inf {s} : Letters "inf" s ∨ Letters "infinity" s → Unsigned false .posInf s
  | negInf {s} : Letters "inf" s ∨ Letters "infinity" s → Unsigned true .negInf s
  | nan {minus s} : Letters "nan" s → Unsigned minus .nan s

/-- A word that denotes a floating point number. -/
def FloatWord (x : PyFloat K) (s : List Char) : Prop :=
  ∃ before sg body after minus, Blank before ∧ Blank after ∧ Sign minus sg ∧ Unsigned minus x body ∧
    s = before ++ sg ++ body ++ after

/-! ### White space -/

theorem isSpace_iff (c : Char) : isSpace c = true ↔ c.toNat ∈ [9, 10, 11, 12, 13, 28, 29, 30, 31, 32] := by
  simp [isSpace]; omega

theorem blank_iff (s : List Char) : Blank s ↔ ∀ c ∈ s, isSpace c = true := by
  simp only [Blank, isSpace_iff]

theorem strip_split (s : List Char) : ∃ a b, Blank a ∧ Blank b ∧ s = a ++ strip s ++ b := by
  refine ⟨s.takeWhile isSpace, ((s.dropWhile isSpace).reverse.takeWhile isSpace).reverse, ?_, ?_, ?_⟩
  · rw [blank_iff]; intro c hc; exact List.mem_takeWhile_imp hc
  · rw [blank_iff]; intro c hc; exact List.mem_takeWhile_imp (List.mem_reverse.mp hc)
  · have h := List.takeWhile_append_dropWhile (p := isSpace) (l := (s.dropWhile isSpace).reverse)
    have h' := congrArg List.reverse h
    rw [List.reverse_append, List.reverse_reverse] at h'
    unfold strip
    rw [List.append_assoc, h', List.takeWhile_append_dropWhile]

theorem dropWhile_blank (a x : List Char) (ha : ∀ c ∈ a, isSpace c = true) (hx : ∀ c ∈ x, isSpace c = false) :
    (a ++ x).dropWhile isSpace = x := by
  induction a with
  | nil =>
    cases x with
    | nil => rfl
    | cons c x => simp [List.dropWhile_cons, hx c (by simp)]
  | cons c a ih => simp [List.dropWhile_cons, ha c (by simp), ih (fun c h => ha c (by simp [h]))]

theorem strip_blank (a x b : List Char) (ha : Blank a) (hb : Blank b) (hx : ∀ c ∈ x, isSpace c = false) :
    strip (a ++ x ++ b) = x := by
  rw [blank_iff] at ha hb
  unfold strip
  cases x with
  | nil =>
    have e : (a ++ [] ++ b).dropWhile isSpace = [] := by
      rw [List.dropWhile_eq_nil_iff]
      intro c hc
      simp only [List.append_nil, List.mem_append] at hc
      exact hc.elim (ha c) (hb c)
    rw [e]; rfl
  | cons c x =>
    have e : (a ++ (c :: x) ++ b).dropWhile isSpace = (c :: x) ++ b := by
      clear hb
      induction a with
      | nil => simp [List.dropWhile_cons, hx c (by simp)]
      | cons d a ih =>
        have := ih (fun c h => ha c (by simp [h]))
        simp only [List.cons_append, List.dropWhile_cons, ha d (by simp), if_true]
        simpa using this
    rw [e, List.reverse_append, dropWhile_blank _ _ (fun c h => hb c (List.mem_reverse.mp h))
      (fun c h => hx c (List.mem_reverse.mp h)), List.reverse_reverse]

/-! ### Underscores -/

theorem isDigit_iff (c : Char) : isDigit c = true ↔ Digit (digitValue c) c := by
  simp only [isDigit, Digit, digitValue, Bool.and_eq_true, decide_eq_true_eq]; omega

theorem Digit.isDigit {d c} (h : Digit d c) : isDigit c = true ∧ digitValue c = d := by
  simp only [PyNumber.isDigit, Digit, digitValue, Bool.and_eq_true, decide_eq_true_eq] at *; omega

theorem underscore_not_digit : isDigit '_' = false := by decide

/-- The first character is not a digit. -/
def Stops (r : List Char) : Prop := ∀ c t, r = c :: t → isDigit c = false

theorem unscore_nil (b : Bool) : unscore (some b) [] = some [] := rfl

theorem unscore_cons (p : Option Bool) (c : Char) (s : List Char) : unscore p (c :: s) =
    if c = '_' then (if p = some true then unscore none s else none)
    else if p = none && !isDigit c then none
    else (unscore (some (isDigit c)) s).map (c :: ·) := by
  cases p <;> rfl

/-- After a digit the scan agrees with a fresh one unless an underscore follows. -/
theorem unscore_fresh (s : List Char) (h : ∀ t, s ≠ '_' :: t) (b : Bool) :
    unscore (some b) s = unscore (some false) s := by
  cases s with
  | nil => rfl
  | cons c s =>
    have hc : c ≠ '_' := fun e => h s (by rw [e])
    simp [unscore_cons, hc]

theorem unscore_head {s t : List Char} (h : unscore (some false) s = some t) : ∀ r, s ≠ '_' :: r := by
  rintro r rfl
  simp [unscore_cons] at h

theorem unscore_empty {s : List Char} (h : unscore (some false) s = some []) : s = [] := by
  cases s with
  | nil => rfl
  | cons c s =>
    rw [unscore_cons] at h
    split_ifs at h with h1 h2
    · simp at h2
    · simp at h

theorem unscore_char {s t : List Char} {c : Char} (hc : isDigit c = false)
    (h : unscore (some false) s = some (c :: t)) :
    ∃ s', s = c :: s' ∧ c ≠ '_' ∧ unscore (some false) s' = some t := by
  cases s with
  | nil => simp [unscore_nil] at h
  | cons d s =>
    rw [unscore_cons] at h
    split_ifs at h with h1 h2
    · simp at h2
    · simp only [Option.map_eq_some_iff, List.cons.injEq] at h
      obtain ⟨r, hr, rfl, rfl⟩ := h
      rw [hc] at hr
      exact ⟨s, rfl, h1, hr⟩

theorem unscore_char_fwd {s t : List Char} {c : Char} (hc : isDigit c = false) (hu : c ≠ '_')
    (h : unscore (some false) s = some t) : unscore (some false) (c :: s) = some (c :: t) := by
  rw [unscore_cons]
  simp [hu, hc, h]

/-- After a digit, with no digit to come, the scan goes on as a fresh one. -/
theorem unscore_after {s r : List Char} (hr : Stops r) (h : unscore (some true) s = some r) :
    unscore (some false) s = some r := by
  rw [← unscore_fresh s _ true]
  · exact h
  · rintro t rfl
    rw [unscore_cons] at h
    simp only [if_true] at h
    cases t with
    | nil => simp [unscore] at h
    | cons c t =>
      rw [unscore_cons] at h
      split_ifs at h with h1 h2 h3
      · simp at h2
      · simp only [Option.map_eq_some_iff] at h
        obtain ⟨q, _, rfl⟩ := h
        have := hr c q rfl
        simp [this] at h3

theorem unscore_run : ∀ (cs : List Char) (p : Option Bool) (s r : List Char), cs ≠ [] →
    (∀ c ∈ cs, isDigit c = true) → Stops r → p ≠ some true → unscore p s = some (cs ++ r) →
    ∃ s₁ s₂, s = s₁ ++ s₂ ∧ Written (cs.map digitValue) s₁ ∧ unscore (some false) s₂ = some r := by
  intro cs
  induction cs with
  | nil => intro p s r h; exact absurd rfl h
  | cons d cs ih =>
    intro p s r _ hd hr hp h
    cases s with
    | nil => cases p <;> simp [unscore] at h
    | cons c s =>
      rw [unscore_cons] at h
      split_ifs at h with h1 h2
      · simp only [Option.map_eq_some_iff, List.cons_append, List.cons.injEq] at h
        obtain ⟨q, hq, rfl, rfl⟩ := h
        have hc := hd c (by simp)
        rw [hc] at hq
        have hD := (isDigit_iff c).mp hc
        by_cases hcs : cs = []
        · subst hcs
          exact ⟨[c], s, rfl, .one hD, unscore_after hr hq⟩
        · by_cases hu : ∃ t, s = '_' :: t
          · obtain ⟨t, rfl⟩ := hu
            rw [unscore_cons] at hq
            simp only [if_true] at hq
            obtain ⟨s₁, s₂, e, hw, hs⟩ := ih none t r hcs (fun c h => hd c (by simp [h])) hr (by simp) hq
            exact ⟨c :: '_' :: s₁, s₂, by simp [e], .under hD hw, hs⟩
          · rw [unscore_fresh s (fun t e => hu ⟨t, e⟩)] at hq
            obtain ⟨s₁, s₂, e, hw, hs⟩ :=
              ih (some false) s r hcs (fun c h => hd c (by simp [h])) hr (by simp) hq
            exact ⟨c :: s₁, s₂, by simp [e], .next hD hw, hs⟩

theorem written_scan {ds : List ℕ} {s₁ : List Char} (hw : Written ds s₁) : ∃ cs : List Char,
    cs ≠ [] ∧ (∀ c ∈ cs, isDigit c = true) ∧ cs.map digitValue = ds ∧
    ∀ p s₂ r, p ≠ some true → unscore (some false) s₂ = some r → unscore p (s₁ ++ s₂) = some (cs ++ r) := by
  have step : ∀ (c : Char) (p : Option Bool) (s : List Char), isDigit c = true → p ≠ some true →
      unscore p (c :: s) = (unscore (some true) s).map (c :: ·) := by
    intro c p s hc hp
    have hu : c ≠ '_' := by rintro rfl; simp [underscore_not_digit] at hc
    rw [unscore_cons, if_neg hu, hc]
    simp
  induction hw with
  | @one d c h =>
    refine ⟨[c], by simp, by simpa using h.isDigit.1, by simp [h.isDigit.2], ?_⟩
    intro p s₂ r hp hs
    rw [List.singleton_append, step c p s₂ h.isDigit.1 hp, unscore_fresh s₂ (unscore_head hs), hs]
    rfl
  | @next d c ds s h hw ih =>
    obtain ⟨cs, hne, hd, hm, hs⟩ := ih
    refine ⟨c :: cs, by simp, ?_, by simp [h.isDigit.2, hm], ?_⟩
    · intro x hx
      rcases List.mem_cons.mp hx with rfl | hx
      · exact h.isDigit.1
      · exact hd x hx
    · intro p s₂ r hp h₂
      have := hs (some false) s₂ r (by simp) h₂
      rw [List.cons_append, step c p _ h.isDigit.1 hp, unscore_fresh _ (unscore_head this), this]
      rfl
  | @under d c ds s h hw ih =>
    obtain ⟨cs, hne, hd, hm, hs⟩ := ih
    refine ⟨c :: cs, by simp, ?_, by simp [h.isDigit.2, hm], ?_⟩
    · intro x hx
      rcases List.mem_cons.mp hx with rfl | hx
      · exact h.isDigit.1
      · exact hd x hx
    · intro p s₂ r hp h₂
      have := hs none s₂ r (by simp) h₂
      rw [List.cons_append, step c p _ h.isDigit.1 hp, List.cons_append, unscore_cons]
      simp [this]

/-! ### Values -/

theorem natOf_eq (s : List Char) : natOf s = number (s.map digitValue) := by
  unfold natOf number
  induction s using List.reverseRecOn with
  | nil => rfl
  | append_singleton s c ih =>
    rw [List.foldl_append, ih]
    simp [Nat.ofDigits_cons]
    ring

theorem natural_iff (s : List Char) (n : ℕ) :
    natural s = some n ↔ s ≠ [] ∧ (∀ c ∈ s, isDigit c = true) ∧ n = number (s.map digitValue) := by
  unfold natural
  by_cases h : (!s.isEmpty && s.all isDigit) = true
  · rw [if_pos h, natOf_eq]
    simp only [Bool.and_eq_true, Bool.not_eq_true', List.isEmpty_eq_false_iff, List.all_eq_true] at h
    simp only [Option.some.injEq]
    exact ⟨fun e => ⟨h.1, h.2, e.symm⟩, fun e => e.2.2.symm⟩
  · rw [if_neg h]
    simp only [Bool.and_eq_true, Bool.not_eq_true', List.isEmpty_eq_false_iff, List.all_eq_true] at h
    simp only [reduceCtorEq, false_iff]
    exact fun e => h ⟨e.1, e.2.1⟩

/-! ### Signs -/

theorem sign_split (t : List Char) : ∃ sg, Sign (sign t).1 sg ∧ t = sg ++ (sign t).2 ∧
    (sg = [] → ∀ r, t ≠ '+' :: r ∧ t ≠ '-' :: r) := by
  unfold sign
  split
  · exact ⟨['+'], .plus, rfl, by simp⟩
  · exact ⟨['-'], .minus, rfl, by simp⟩
  · rename_i h1 h2
    exact ⟨[], .none, rfl, fun _ r => ⟨fun e => h1 r e, fun e => h2 r e⟩⟩

theorem sign_of {minus : Bool} {sg t : List Char} (h : Sign minus sg) (h1 : ∀ r, t ≠ '+' :: r)
    (h2 : ∀ r, t ≠ '-' :: r) : sign (sg ++ t) = (minus, t) := by
  cases h with
  | none =>
    simp only [List.nil_append]
    unfold sign
    split
    · exact absurd rfl (h1 _)
    · exact absurd rfl (h2 _)
    · rfl
  | plus => rfl
  | minus => rfl

theorem unscore_sign {s t sg : List Char} {minus : Bool} (hs : Sign minus sg)
    (h : unscore (some false) s = some (sg ++ t)) : ∃ s', s = sg ++ s' ∧ unscore (some false) s' = some t := by
  cases hs with
  | none => exact ⟨s, rfl, h⟩
  | plus =>
    obtain ⟨s', rfl, _, h'⟩ := unscore_char (by decide) h
    exact ⟨s', rfl, h'⟩
  | minus =>
    obtain ⟨s', rfl, _, h'⟩ := unscore_char (by decide) h
    exact ⟨s', rfl, h'⟩

theorem unscore_sign_fwd {s t sg : List Char} {minus : Bool} (hs : Sign minus sg)
    (h : unscore (some false) s = some t) : unscore (some false) (sg ++ s) = some (sg ++ t) := by
  cases hs with
  | none => exact h
  | plus => exact unscore_char_fwd (by decide) (by decide) h
  | minus => exact unscore_char_fwd (by decide) (by decide) h

theorem stops_nil : Stops [] := by intro c t h; simp at h

theorem digits_no_sign {cs : List Char} (hd : ∀ c ∈ cs, isDigit c = true) (hne : cs ≠ []) (r' : List Char) :
    (∀ r, cs ++ r' ≠ '+' :: r) ∧ ∀ r, cs ++ r' ≠ '-' :: r := by
  cases cs with
  | nil => exact absurd rfl hne
  | cons c cs =>
    have hc := hd c (by simp)
    constructor
    · intro r e
      simp only [List.cons_append, List.cons.injEq] at e
      rw [e.1] at hc; exact absurd hc (by decide)
    · intro r e
      simp only [List.cons_append, List.cons.injEq] at e
      rw [e.1] at hc; exact absurd hc (by decide)

/-- A sign and digits, before and after the underscores are removed. -/
theorem signed_inv {s t : List Char} {z : ℤ} (h : unscore (some false) s = some t)
    (hz : ((natural (sign t).2).map fun n : ℕ => if (sign t).1 then -(n : ℤ) else n) = some z) :
    ∃ minus sg ds body, Sign minus sg ∧ Written ds body ∧ s = sg ++ body ∧
      z = if minus then -(number ds : ℤ) else number ds := by
  obtain ⟨sg, hsg, ht, _⟩ := sign_split t
  simp only [Option.map_eq_some_iff] at hz
  obtain ⟨n, hn, rfl⟩ := hz
  obtain ⟨hne, hd, rfl⟩ := (natural_iff _ _).mp hn
  rw [ht] at h
  obtain ⟨s', rfl, h'⟩ := unscore_sign hsg h
  obtain ⟨s₁, s₂, rfl, hw, h₂⟩ := unscore_run _ (some false) s' [] hne hd stops_nil (by simp) (by simpa using h')
  rw [unscore_empty h₂]
  exact ⟨_, sg, _, s₁, hsg, hw, by simp, rfl⟩

theorem signed_fwd {minus : Bool} {sg body : List Char} {ds : List ℕ} (hs : Sign minus sg)
    (hw : Written ds body) : ∃ t, unscore (some false) (sg ++ body) = some t ∧
      ((natural (sign t).2).map fun n : ℕ => if (sign t).1 then -(n : ℤ) else n) =
        some (if minus then -(number ds : ℤ) else number ds) := by
  obtain ⟨cs, hne, hd, hm, hscan⟩ := written_scan hw
  have h := hscan (some false) [] [] (by simp) rfl
  simp only [List.append_nil] at h
  have hn := digits_no_sign hd hne []
  simp only [List.append_nil] at hn
  refine ⟨sg ++ cs, unscore_sign_fwd hs h, ?_⟩
  rw [sign_of hs hn.1 hn.2]
  simp only
  rw [(natural_iff cs (number ds)).mpr ⟨hne, hd, by rw [hm]⟩]
  rfl

/-! ### Characters of a literal are not white space -/

theorem Digit.notSpace {d c} (h : Digit d c) : isSpace c = false := by
  rw [Bool.eq_false_iff]; intro hs
  rw [isSpace_iff] at hs
  obtain ⟨_, h2⟩ := h
  simp at hs; omega

theorem Written.notSpace {ds s} (h : Written ds s) : ∀ c ∈ s, isSpace c = false := by
  induction h with
  | one h => intro c hc; rw [List.mem_singleton.mp hc]; exact h.notSpace
  | next h _ ih =>
    intro c hc
    rcases List.mem_cons.mp hc with rfl | hc
    · exact h.notSpace
    · exact ih c hc
  | under h _ ih =>
    intro c hc
    rcases List.mem_cons.mp hc with rfl | hc
    · exact h.notSpace
    · rcases List.mem_cons.mp hc with rfl | hc
      · decide
      · exact ih c hc

theorem Sign.notSpace {b s} (h : Sign b s) : ∀ c ∈ s, isSpace c = false := by
  cases h <;> simp <;> decide

theorem notSpace_append {a b : List Char} (ha : ∀ c ∈ a, isSpace c = false) (hb : ∀ c ∈ b, isSpace c = false) :
    ∀ c ∈ a ++ b, isSpace c = false := by
  intro c hc
  exact (List.mem_append.mp hc).elim (ha c) (hb c)

/-! ### C130: integers -/

/-- C130.  `int` accepts exactly the words that denote an integer, and returns that integer. -/
theorem C130_int (w : String) (z : ℤ) : int w = some z ↔ IntWord z w.toList := by
  unfold int
  constructor
  · intro h
    simp only [Option.bind_eq_some_iff] at h
    obtain ⟨t, ht, hz⟩ := h
    obtain ⟨minus, sg, ds, body, hs, hw, e, rfl⟩ := signed_inv ht hz
    obtain ⟨a, b, ha, hb, hab⟩ := strip_split w.toList
    rw [e] at hab
    exact ⟨a, sg, body, b, minus, ds, ha, hb, hs, hw, by rw [hab]; simp, rfl⟩
  · rintro ⟨a, sg, body, b, minus, ds, ha, hb, hs, hw, e, rfl⟩
    obtain ⟨t, ht, hz⟩ := signed_fwd hs hw
    have hstrip := strip_blank a (sg ++ body) b ha hb (notSpace_append hs.notSpace hw.notSpace)
    have e' : w.toList = a ++ (sg ++ body) ++ b := by rw [e]; simp
    rw [e', hstrip, ht]
    exact hz

/-! ### Decimals -/

theorem span_spec (s : List Char) : s = (s.span isDigit).1 ++ (s.span isDigit).2 ∧
    (∀ c ∈ (s.span isDigit).1, isDigit c = true) ∧ Stops (s.span isDigit).2 := by
  rw [List.span_eq_takeWhile_dropWhile]
  refine ⟨(List.takeWhile_append_dropWhile).symm, fun c hc => List.mem_takeWhile_imp hc, ?_⟩
  intro c t h
  simp only at h
  induction s with
  | nil => simp at h
  | cons d s ih =>
    rw [List.dropWhile_cons] at h
    split_ifs at h with hd
    · exact ih h
    · simp only [List.cons.injEq] at h
      rw [← h.1]; simpa using hd

theorem span_append (cs r : List Char) (hd : ∀ c ∈ cs, isDigit c = true) (hr : Stops r) :
    (cs ++ r).span isDigit = (cs, r) := by
  rw [List.span_eq_takeWhile_dropWhile]
  induction cs with
  | nil =>
    cases r with
    | nil => rfl
    | cons c r => simp [List.takeWhile_cons, List.dropWhile_cons, hr c r rfl]
  | cons c cs ih =>
    have := ih (fun c h => hd c (by simp [h]))
    simp only [Prod.mk.injEq] at this
    simp [List.takeWhile_cons, List.dropWhile_cons, hd c (by simp), this.1, this.2]

theorem digits_inv {cs s r : List Char} (hd : ∀ c ∈ cs, isDigit c = true) (hr : Stops r)
    (h : unscore (some false) s = some (cs ++ r)) :
    ∃ s₁ s₂, s = s₁ ++ s₂ ∧ Digits (cs.map digitValue) s₁ ∧ unscore (some false) s₂ = some r := by
  by_cases hne : cs = []
  · subst hne
    exact ⟨[], s, rfl, Or.inl ⟨rfl, rfl⟩, h⟩
  · obtain ⟨s₁, s₂, e, hw, h₂⟩ := unscore_run cs _ s r hne hd hr (by simp) h
    exact ⟨s₁, s₂, e, Or.inr hw, h₂⟩

theorem digits_scan {ds : List ℕ} {s₁ : List Char} (h : Digits ds s₁) : ∃ cs : List Char,
    (∀ c ∈ cs, isDigit c = true) ∧ cs.map digitValue = ds ∧
    ∀ s₂ r, unscore (some false) s₂ = some r → unscore (some false) (s₁ ++ s₂) = some (cs ++ r) := by
  rcases h with ⟨rfl, rfl⟩ | hw
  · exact ⟨[], by simp, rfl, fun s₂ r h => h⟩
  · obtain ⟨cs, _, hd, hm, hs⟩ := written_scan hw
    exact ⟨cs, hd, hm, fun s₂ r h => hs _ s₂ r (by simp) h⟩

theorem exponent_inv {s r : List Char} {e : ℤ} (h : unscore (some false) s = some r)
    (he : exponent r = some e) : Exponent e s := by
  cases r with
  | nil =>
    rw [unscore_empty h]
    simp only [exponent, Option.some.injEq] at he
    exact Or.inl ⟨he.symm, rfl⟩
  | cons c r =>
    simp only [exponent] at he
    by_cases hc : (decide (c = 'e') || decide (c = 'E')) = true
    swap
    · rw [if_neg hc] at he
      simp at he
    rw [if_pos hc] at he
    have hc' : c = 'e' ∨ c = 'E' := by simpa using hc
    have hd : isDigit c = false := by rcases hc' with rfl | rfl <;> decide
    obtain ⟨s', rfl, _, h'⟩ := unscore_char hd h
    obtain ⟨minus, sg, ds, body, hs, hw, e', hz⟩ := signed_inv h' he
    exact Or.inr ⟨c, minus, sg, ds, body, hc', hs, hw, by rw [e'], hz⟩

theorem exponent_fwd {s : List Char} {e : ℤ} (h : Exponent e s) :
    ∃ r, unscore (some false) s = some r ∧ exponent r = some e ∧ Stops r ∧ ∀ t, r ≠ '.' :: t := by
  rcases h with ⟨rfl, rfl⟩ | ⟨c, minus, sg, ds, t, hc, hs, hw, rfl, rfl⟩
  · exact ⟨[], rfl, rfl, stops_nil, by simp⟩
  · obtain ⟨q, hq, hz⟩ := signed_fwd hs hw
    have hd : isDigit c = false := by rcases hc with rfl | rfl <;> decide
    have hu : c ≠ '_' := by rcases hc with rfl | rfl <;> decide
    refine ⟨c :: q, unscore_char_fwd hd hu hq, ?_, ?_, ?_⟩
    · have hc' : (decide (c = 'e') || decide (c = 'E')) = true := by simpa using hc
      simp only [exponent]
      rw [if_pos hc']
      exact hz
    · intro c' t' e
      simp only [List.cons.injEq] at e
      rw [← e.1]; exact hd
    · intro t' e
      simp only [List.cons.injEq] at e
      rcases hc with rfl | rfl <;> exact absurd e.1 (by decide)

theorem fraction_inv {s r : List Char} (hr : Stops r) (h : unscore (some false) s = some r) :
    ∃ s₁ s₂, s = s₁ ++ s₂ ∧ (∀ c ∈ (fraction r).1, isDigit c = true) ∧
      Fraction ((fraction r).1.map digitValue) s₁ ∧ unscore (some false) s₂ = some (fraction r).2 := by
  unfold fraction
  split
  · rename_i t
    obtain ⟨s', rfl, _, h'⟩ := unscore_char (by decide) h
    obtain ⟨e, hd, hstop⟩ := span_spec t
    rw [e] at h'
    obtain ⟨s₁, s₂, e', hw, h₂⟩ := digits_inv hd hstop h'
    exact ⟨'.' :: s₁, s₂, by rw [e']; rfl, hd, Or.inr ⟨s₁, rfl, hw⟩, h₂⟩
  · exact ⟨[], s, rfl, by simp, Or.inl ⟨rfl, rfl⟩, h⟩

theorem fraction_fwd {fs : List ℕ} {s₁ s₂ r : List Char} (hf : Fraction fs s₁) (hr : Stops r)
    (hp : ∀ t, r ≠ '.' :: t) (h : unscore (some false) s₂ = some r) :
    ∃ q cs, unscore (some false) (s₁ ++ s₂) = some q ∧ fraction q = (cs, r) ∧ cs.map digitValue = fs ∧ Stops q ∧
      (cs ≠ [] → ∃ t, q = '.' :: t) := by
  rcases hf with ⟨rfl, rfl⟩ | ⟨t, rfl, hw⟩
  · refine ⟨r, [], h, ?_, rfl, hr, fun e => absurd rfl e⟩
    unfold fraction
    split
    · exact absurd rfl (hp _)
    · rfl
  · obtain ⟨cs, hd, hm, hs⟩ := digits_scan hw
    refine ⟨'.' :: (cs ++ r), cs, unscore_char_fwd (by decide) (by decide) (hs s₂ r h), ?_, hm, ?_, fun _ => ⟨_, rfl⟩⟩
    · simp only [fraction]
      exact span_append cs r hd hr
    · intro c t' e
      simp only [List.cons.injEq] at e
      rw [← e.1]; decide

theorem ten_ne_zero [CharZero K] : (10 : K) ≠ 0 := by
  have : ((10 : ℕ) : K) ≠ 0 := Nat.cast_ne_zero.mpr (by decide)
  simpa using this

theorem decimal_inv [CharZero K] {s t : List Char} {x : K} (h : unscore (some false) s = some t)
    (hx : decimal t = some x) : Decimal x s := by
  unfold decimal at hx
  obtain ⟨e, hd, hstop⟩ := span_spec t
  simp only at hx
  split_ifs at hx with hne
  simp only [Option.map_eq_some_iff] at hx
  obtain ⟨ex, hex, rfl⟩ := hx
  rw [e] at h
  obtain ⟨s₁, s₂, rfl, hw, h₂⟩ := digits_inv hd hstop h
  obtain ⟨s₃, s₄, rfl, hfd, hf, h₄⟩ := fraction_inv hstop h₂
  refine ⟨_, _, ex, s₁, s₃, s₄, hw, hf, exponent_inv h₄ hex, ?_, by simp, ?_⟩
  · intro hnil
    simp only [List.append_eq_nil_iff, List.map_eq_nil_iff] at hnil
    exact hne (by rw [hnil.1, hnil.2]; rfl)
  · rw [natOf_eq, List.map_append, List.length_map, zpow_sub₀ ten_ne_zero, zpow_natCast, mul_div_assoc]

theorem decimal_fwd [CharZero K] {s : List Char} {x : K} (h : Decimal x s) :
    ∃ t c r, unscore (some false) s = some t ∧ decimal t = some x ∧ t = c :: r ∧ (isDigit c = true ∨ c = '.') := by
  obtain ⟨ds, fs, e, whole, frac, ex, hw, hf, he, hne, rfl, rfl⟩ := h
  obtain ⟨r, hr, hre, hstop, hp⟩ := exponent_fwd he
  obtain ⟨q, fcs, hq, hfq, hfm, hqs, hpt⟩ := fraction_fwd hf hstop hp hr
  obtain ⟨cs, hd, hm, hs⟩ := digits_scan hw
  have hall := hs _ q hq
  have hval : decimal (K := K) (cs ++ q) = some ((number (ds ++ fs) : K) * (10 : K) ^ e / (10 : K) ^ fs.length) := by
    unfold decimal
    simp only [span_append cs q hd hqs, hfq]
    rw [if_neg, hre]
    · simp only [Option.map_some, Option.some.injEq]
      rw [natOf_eq, List.map_append, hm, hfm, zpow_sub₀ ten_ne_zero, zpow_natCast, mul_div_assoc, ← hfm, List.length_map]
    · intro hnil
      simp only [Bool.and_eq_true, List.isEmpty_iff] at hnil
      apply hne
      rw [← hm, ← hfm, hnil.1, hnil.2]
      rfl
  cases cs with
  | cons c cs => exact ⟨_, c, cs ++ q, by rw [List.append_assoc]; exact hall, hval, rfl, Or.inl (hd c (by simp))⟩
  | nil =>
    have hfne : fcs ≠ [] := by
      intro e'
      apply hne
      rw [← hm, ← hfm, e']
      rfl
    obtain ⟨t, ht⟩ := hpt hfne
    exact ⟨_, '.', t, by rw [List.append_assoc]; exact hall, hval, ht, Or.inr rfl⟩

/-! ### Words -/

theorem lower_letter (c l : Char) (hl : l ∈ ['i', 'n', 'f', 't', 'y', 'a']) :
    lower c = l ↔ c = l ∨ c = l.toUpper := by
  unfold lower
  split_ifs with h
  · simp only [Bool.and_eq_true, decide_eq_true_eq] at h
    obtain ⟨h1, h2⟩ := h
    have hc : c = Char.ofNat c.toNat := (Char.ofNat_toNat c).symm
    rw [hc]
    generalize c.toNat = n at h1 h2
    simp only [List.mem_cons, List.not_mem_nil, or_false] at hl
    rcases hl with rfl | rfl | rfl | rfl | rfl | rfl <;> interval_cases n <;> decide
  · constructor
    · exact Or.inl
    · rintro (rfl | rfl)
      · rfl
      · exfalso
        apply h
        simp only [List.mem_cons, List.not_mem_nil, or_false] at hl
        rcases hl with rfl | rfl | rfl | rfl | rfl | rfl <;> decide

theorem letters_iff (w : List Char) (hw : ∀ l ∈ w, l ∈ ['i', 'n', 'f', 't', 'y', 'a']) (s : List Char) :
    s.map lower = w ↔ List.Forall₂ (fun l c => c = l ∨ c = l.toUpper) w s := by
  induction w generalizing s with
  | nil => simp
  | cons l w ih =>
    cases s with
    | nil => simp
    | cons c s =>
      rw [List.map_cons, List.cons.injEq, List.forall₂_cons, ih (fun l h => hw l (by simp [h])),
        lower_letter c l (hw l (by simp))]

theorem inf_iff (s : List Char) : s.map lower = "inf".toList ↔ Letters "inf" s :=
  letters_iff _ (by decide) s

theorem infinity_iff (s : List Char) : s.map lower = "infinity".toList ↔ Letters "infinity" s :=
  letters_iff _ (by decide) s

theorem nan_iff (s : List Char) : s.map lower = "nan".toList ↔ Letters "nan" s :=
  letters_iff _ (by decide) s

/-- The words of `float` that are not decimals consist of letters. -/
theorem letters_plain (word : String) (hw : word ∈ ["inf", "infinity", "nan"]) (s : List Char) (h : Letters word s) :
    ∀ c ∈ s, isDigit c = false ∧ c ≠ '_' ∧ isSpace c = false ∧ c ≠ '+' ∧ c ≠ '-' := by
  have hl : ∀ l ∈ word.toList, l ∈ ['i', 'n', 'f', 't', 'y', 'a'] := by
    simp only [List.mem_cons, List.not_mem_nil, or_false] at hw
    rcases hw with rfl | rfl | rfl <;> decide
  unfold Letters at h
  generalize word.toList = w at h hl
  induction h with
  | nil => simp
  | @cons l c w s hc _ ih =>
    intro d hd
    rcases List.mem_cons.mp hd with rfl | hd
    · have := hl l (by simp)
      simp only [List.mem_cons, List.not_mem_nil, or_false] at this
      rcases this with rfl | rfl | rfl | rfl | rfl | rfl <;> rcases hc with rfl | rfl <;> decide
    · exact ih (fun l h => hl l (by simp [h])) d hd

theorem unscore_plain {s : List Char} (h : ∀ c ∈ s, isDigit c = false ∧ c ≠ '_') :
    unscore (some false) s = some s := by
  induction s with
  | nil => rfl
  | cons c s ih =>
    exact unscore_char_fwd (h c (by simp)).1 (h c (by simp)).2 (ih fun d hd => h d (by simp [hd]))

theorem unscore_plain_inv {s t : List Char} (ht : ∀ c ∈ t, isDigit c = false)
    (h : unscore (some false) s = some t) : s = t := by
  induction t generalizing s with
  | nil => exact unscore_empty h
  | cons c t ih =>
    obtain ⟨s', rfl, _, h'⟩ := unscore_char (ht c (by simp)) h
    rw [ih (fun d hd => ht d (by simp [hd])) h']

theorem Digits.notSpace {ds s} (h : Digits ds s) : ∀ c ∈ s, isSpace c = false := by
  rcases h with ⟨_, rfl⟩ | h
  · simp
  · exact h.notSpace

theorem Decimal.notSpace {x : K} {s} (h : Decimal x s) : ∀ c ∈ s, isSpace c = false := by
  obtain ⟨ds, fs, e, whole, frac, ex, hw, hf, he, _, rfl, _⟩ := h
  refine notSpace_append (notSpace_append hw.notSpace ?_) ?_
  · rcases hf with ⟨_, rfl⟩ | ⟨t, rfl, ht⟩
    · simp
    · intro c hc
      rcases List.mem_cons.mp hc with rfl | hc
      · decide
      · exact ht.notSpace c hc
  · rcases he with ⟨_, rfl⟩ | ⟨c', minus, sg, ds', t, hc', hs, ht, rfl, _⟩
    · simp
    · intro c hc
      rcases List.mem_cons.mp hc with rfl | hc
      · rcases hc' with rfl | rfl <;> decide
      · exact notSpace_append hs.notSpace ht.notSpace c hc

/-! ### C130: floating point numbers -/

/-- C130.  `float` accepts exactly the words that denote a floating point number, and returns that number. -/
theorem C130_float [CharZero K] (w : String) (x : PyFloat K) : float w = some x ↔ FloatWord x w.toList := by
  unfold float
  constructor
  · intro h
    simp only [Option.bind_eq_some_iff] at h
    obtain ⟨t, ht, hx⟩ := h
    obtain ⟨a, b, ha, hb, hab⟩ := strip_split w.toList
    obtain ⟨sg, hsg, e, _⟩ := sign_split t
    obtain ⟨minus, t', hp⟩ : ∃ minus t', sign t = (minus, t') := ⟨_, _, rfl⟩
    rw [hp] at hsg e hx
    change Sign minus sg at hsg
    change t = sg ++ t' at e
    rw [e] at ht
    obtain ⟨s, hs, hu⟩ := unscore_sign hsg ht
    rw [hs] at hab
    refine ⟨a, sg, s, b, minus, ha, hb, hsg, ?_, by rw [hab]; simp⟩
    change (if _ then _ else _) = _ at hx
    by_cases h1 : (decide (t'.map lower = "inf".toList) || decide (t'.map lower = "infinity".toList)) = true
    · rw [if_pos h1] at hx
      have hl : Letters "inf" t' ∨ Letters "infinity" t' := by
        rw [Bool.or_eq_true, decide_eq_true_eq, decide_eq_true_eq, inf_iff, infinity_iff] at h1
        exact h1
      have hst : s = t' := by
        refine unscore_plain_inv (fun c hc => ?_) hu
        rcases hl with hl | hl
        · exact (letters_plain "inf" (by simp) t' hl c hc).1
        · exact (letters_plain "infinity" (by simp) t' hl c hc).1
      rw [hst, ← Option.some.inj hx]
      cases minus with
      | true => exact .negInf hl
      | false => exact .inf hl
    · rw [if_neg h1] at hx
      by_cases h3 : t'.map lower = "nan".toList
      · rw [if_pos h3] at hx
        have hl := (nan_iff t').mp h3
        have hst : s = t' := unscore_plain_inv (fun c hc => (letters_plain "nan" (by simp) t' hl c hc).1) hu
        rw [hst, ← Option.some.inj hx]
        exact .nan hl
      · rw [if_neg h3, Option.map_eq_some_iff] at hx
        obtain ⟨y, hy, rfl⟩ := hx
        exact .decimal (decimal_inv hu hy)
  · rintro ⟨a, sg, body, b, minus, ha, hb, hs, hbody, e⟩
    have words : ∀ word, word ∈ ["inf", "infinity", "nan"] → Letters word body →
        strip w.toList = sg ++ body ∧ unscore (some false) (sg ++ body) = some (sg ++ body) ∧
          sign (sg ++ body) = (minus, body) := by
      intro word hword hl
      have hp := letters_plain word hword body hl
      have hne : ∀ c r, body = c :: r → c ≠ '+' ∧ c ≠ '-' := by
        rintro c r rfl
        exact (hp c (by simp)).2.2.2
      refine ⟨?_, unscore_sign_fwd hs (unscore_plain fun c hc => ⟨(hp c hc).1, (hp c hc).2.1⟩),
        sign_of hs (fun r e => (hne _ r e).1 rfl) (fun r e => (hne _ r e).2 rfl)⟩
      rw [e, ← strip_blank a (sg ++ body) b ha hb
        (notSpace_append hs.notSpace fun c hc => (hp c hc).2.2.1)]
      simp
    cases hbody with
    | @decimal _ x _ hd =>
      obtain ⟨t, c, r, hu, hx, ht, hc⟩ := decimal_fwd hd
      have hstrip : strip w.toList = sg ++ body := by
        rw [e, ← strip_blank a (sg ++ body) b ha hb (notSpace_append hs.notSpace hd.notSpace)]
        simp
      have hfirst : ∀ l, l ∈ ['i', 'n', 'f', 't', 'y', 'a'] → lower c ≠ l := by
        intro l hl heq
        rw [lower_letter c l hl] at heq
        simp only [List.mem_cons, List.not_mem_nil, or_false] at hl
        rcases hc with hc | rfl
        · rcases hl with rfl | rfl | rfl | rfl | rfl | rfl <;> rcases heq with rfl | rfl <;>
            exact absurd hc (by decide)
        · rcases hl with rfl | rfl | rfl | rfl | rfl | rfl <;> rcases heq with heq | heq <;>
            exact absurd heq (by decide)
      have n1 : t.map lower ≠ "inf".toList := by
        rw [ht]; intro h
        exact hfirst 'i' (by simp) (List.cons.inj h).1
      have n2 : t.map lower ≠ "infinity".toList := by
        rw [ht]; intro h
        exact hfirst 'i' (by simp) (List.cons.inj h).1
      have n3 : t.map lower ≠ "nan".toList := by
        rw [ht]; intro h
        exact hfirst 'n' (by simp) (List.cons.inj h).1
      have hsign : sign (sg ++ t) = (minus, t) := by
        refine sign_of hs (fun q h => ?_) (fun q h => ?_)
        · rw [ht] at h
          have := (List.cons.inj h).1
          rcases hc with hc | rfl
          · rw [this] at hc; exact absurd hc (by decide)
          · exact absurd this (by decide)
        · rw [ht] at h
          have := (List.cons.inj h).1
          rcases hc with hc | rfl
          · rw [this] at hc; exact absurd hc (by decide)
          · exact absurd this (by decide)
      rw [hstrip, unscore_sign_fwd hs hu]
      simp only [Option.bind_some, hsign, n1, n2, n3, decide_false, Bool.or_self, Bool.false_eq_true, if_false, hx,
        Option.map_some]
    | inf hl =>
      have h : strip w.toList = sg ++ body ∧ unscore (some false) (sg ++ body) = some (sg ++ body) ∧
          sign (sg ++ body) = (false, body) := hl.elim (words "inf" (by simp)) (words "infinity" (by simp))
      rw [h.1, h.2.1]
      have : (decide (body.map lower = "inf".toList) || decide (body.map lower = "infinity".toList)) = true := by
        simp only [Bool.or_eq_true, decide_eq_true_eq, inf_iff, infinity_iff]; exact hl
      simp only [Option.bind_some, h.2.2, this, if_true]
      rfl
    | negInf hl =>
      have h : strip w.toList = sg ++ body ∧ unscore (some false) (sg ++ body) = some (sg ++ body) ∧
          sign (sg ++ body) = (true, body) := hl.elim (words "inf" (by simp)) (words "infinity" (by simp))
      rw [h.1, h.2.1]
      have : (decide (body.map lower = "inf".toList) || decide (body.map lower = "infinity".toList)) = true := by
        simp only [Bool.or_eq_true, decide_eq_true_eq, inf_iff, infinity_iff]; exact hl
      simp only [Option.bind_some, h.2.2, this, if_true]
    | nan hl =>
      have h := words "nan" (by simp) hl
      rw [h.1, h.2.1]
      have h3 := (nan_iff body).mpr hl
      have n : (decide (body.map lower = "inf".toList) || decide (body.map lower = "infinity".toList)) = false := by
        rw [h3]; decide
      simp only [Option.bind_some, h.2.2]
      rw [n, h3]
      rfl

end Verif.PyNumber
