import Verif.Props.PyNumber
import Verif.Props.ArgvManual

/-!
Property C130, second part: the numerical options of the program.
-/

set_option linter.unusedSectionVars false

namespace Verif.PyNumber

open Verif.Py Verif.Utilities Verif.Options Verif.Argv Verif.Cli

/-! ### Particular words -/

theorem written_digits (cs : List Char) (hne : cs ≠ []) (hd : ∀ c ∈ cs, isDigit c = true) :
    Written (cs.map digitValue) cs := by
  induction cs with
  | nil => exact absurd rfl hne
  | cons c cs ih =>
    have hc := (isDigit_iff c).mp (hd c (by simp))
    by_cases h : cs = []
    · subst h
      exact .one hc
    · exact .next hc (ih h fun c h => hd c (by simp [h]))

theorem blank_nil : Blank [] := by simp [Blank]

/-- An integer printed in the usual way is read back. -/
theorem C130_printed (z : ℤ) : int (toString z) = some z := by
  have key : ∀ n : ℕ, Written ((Nat.toDigits 10 n).map digitValue) (Nat.toDigits 10 n) ∧
      number ((Nat.toDigits 10 n).map digitValue) = n := by
    intro n
    refine ⟨written_digits _ Nat.toDigits_ne_nil fun c hc => ?_, ?_⟩
    · have := Nat.isDigit_of_mem_toDigits (by decide) (by decide) hc
      simp only [Char.isDigit, Bool.and_eq_true, decide_eq_true_eq, UInt32.le_iff_toNat_le] at this
      simp only [isDigit, Bool.and_eq_true, decide_eq_true_eq]
      exact this
    · rw [← natOf_eq]
      exact Nat.ofDigitChars_toDigits (b := 10) (n := n) (by decide) (by decide)
  rw [C130_int, Int.toString_eq_repr, Int.repr_eq_if]
  split_ifs with h
  · obtain ⟨hw, hn⟩ := key z.toNat
    refine ⟨[], [], _, [], false, _, blank_nil, blank_nil, .none, hw, by simp [Nat.toList_repr], ?_⟩
    rw [hn]; simp; omega
  · obtain ⟨hw, hn⟩ := key (-z).toNat
    refine ⟨[], ['-'], _, [], true, _, blank_nil, blank_nil, .minus, hw, by simp [Nat.toList_repr], ?_⟩
    rw [hn]; simp; omega

variable {K : Type} [Field K]

/-- A word that denotes an integer denotes the same number where a floating point number is expected. -/
theorem C130_int_float [CharZero K] (w : String) (z : ℤ) (h : int w = some z) :
    float w = some (.fin (z : K)) := by
  rw [C130_int] at h
  rw [C130_float]
  obtain ⟨a, sg, body, b, minus, ds, ha, hb, hs, hw, e, rfl⟩ := h
  have hne : ds ≠ [] := by cases hw <;> simp
  have hd : Decimal (K := K) (number ds : K) body :=
    ⟨ds, [], 0, body, [], [], Or.inr hw, Or.inl ⟨rfl, rfl⟩, Or.inl ⟨rfl, rfl⟩, by simpa using hne, by simp, by simp⟩
  have : (((if minus then -(number ds : ℤ) else number ds : ℤ)) : K) =
      if minus then -(number ds : K) else (number ds : K) := by
    cases minus <;> simp
  rw [this]
  exact ⟨a, sg, body, b, minus, ha, hb, hs, .decimal hd, e⟩

/-- The value of a word is unique. -/
theorem C130_unique [CharZero K] (s : List Char) :
    (∀ z z', IntWord z s → IntWord z' s → z = z') ∧
    ∀ x x' : PyFloat K, FloatWord x s → FloatWord x' s → x = x' := by
  have e : s = (String.ofList s).toList := by simp
  rw [e]
  constructor
  · intro z z' h h'
    rw [← C130_int] at h h'
    exact Option.some.inj (h.symm.trans h')
  · intro x x' h h'
    rw [← C130_float] at h h'
    exact Option.some.inj (h.symm.trans h')

variable [LinearOrder K] [IsStrictOrderedRing K]

/-! ### The types of `core/type.py` -/

/-- C130.  What the four types of options accept. -/
theorem C130_types (w : String) :
    (∀ n, positiveInt int w = .ok n ↔ IntWord n w.toList ∧ 1 ≤ n) ∧
    (∀ n, nonNegativeInt int w = .ok n ↔ IntWord n w.toList ∧ 0 ≤ n) ∧
    (∀ v : PyFloat K, positiveFloat float w = .ok v ↔
      FloatWord v w.toList ∧ (v = .nan ∨ v = .posInf ∨ ∃ x, 0 < x ∧ v = .fin x)) ∧
    ∀ v : PyFloat K, percentNumber float w = .ok v ↔
      FloatWord v w.toList ∧ (v = .nan ∨ ∃ x, 0 ≤ x ∧ x ≤ 1 ∧ v = .fin x) := by
  refine ⟨fun n => ?_, fun n => ?_, fun v => ?_, fun v => ?_⟩
  · rw [(C75_integers int w).1 n, C130_int]
  · rw [(C75_integers int w).2.1 n, C130_int]
  · rw [(C75_positive_float float w).1 v, C130_float]
  · rw [(C75_percent float w).1 v, C130_float]

/-! ### The command line -/

variable (E : Env K) (hE : E.conv = conversions)
include hE

/-- C130.  An option for a positive integer, followed by a word that is no option, is accepted if and only if the
word denotes a positive integer; the argument is then this integer and all others have their defaults. -/
theorem C130_integer_option (c : Cmd) (p : Option Prob) (h : Allowed c p) (hop : operands c = []) (line : Line K)
    (hline : line ∈ manual c p) (hk : line.kind = .posInt) (hnargs : line.nargs = .one) (s : String)
    (hs : s ∈ line.strings) (w : String) (hw : Plain w) (ns : String → Arg K) :
    program E (nameOf c :: problemWords p ++ [s, w]) = .ok (c, ns) ↔
      ∃ n : ℤ, 1 ≤ n ∧ IntWord n w.toList ∧
        ns = named (nameOf c) p fun d => if d = line.dest then .int n else defaultOf (manual c p) d := by
  rw [C125_one E c p h hop line hline s hs [w] (by simpa using hw) (by rw [hnargs]; rfl) ns, hk]
  have hone : ∀ n, (E.conv.int w = some n ↔ IntWord n w.toList) := fun n => by
    rw [hE]; exact C130_int w n
  constructor
  · rintro ⟨x, hx, rfl⟩
    rcases hx with ⟨hx, _⟩ | ⟨w', hw', n, hn, hpos, rfl⟩
    · simp at hx
    · simp only [List.cons.injEq, and_true] at hw'
      subst hw'
      exact ⟨n, hpos, (hone n).mp hn, rfl⟩
  · rintro ⟨n, hpos, hn, rfl⟩
    exact ⟨.int n, Or.inr ⟨w, rfl, n, (hone n).mpr hn, hpos, rfl⟩, rfl⟩

/-- C130.  An option for a positive number is accepted if and only if the word denotes a positive number, infinity or
not a number. -/
theorem C130_number_option (c : Cmd) (p : Option Prob) (h : Allowed c p) (hop : operands c = []) (line : Line K)
    (hline : line ∈ manual c p) (hk : line.kind = .posNumber) (hnargs : line.nargs = .one) (s : String)
    (hs : s ∈ line.strings) (w : String) (hw : Plain w) (ns : String → Arg K) :
    program E (nameOf c :: problemWords p ++ [s, w]) = .ok (c, ns) ↔
      ∃ y : PyFloat K, FloatWord y w.toList ∧ (y = .nan ∨ y = .posInf ∨ ∃ z, 0 < z ∧ y = .fin z) ∧
        ns = named (nameOf c) p fun d => if d = line.dest then .num y else defaultOf (manual c p) d := by
  rw [C125_one E c p h hop line hline s hs [w] (by simpa using hw) (by rw [hnargs]; rfl) ns, hk]
  have hone : ∀ y, (E.conv.float w = some y ↔ FloatWord y w.toList) := fun y => by
    rw [hE]; exact C130_float w y
  constructor
  · rintro ⟨x, hx, rfl⟩
    rcases hx with ⟨hx, _⟩ | ⟨w', hw', y, hy, hpos, rfl⟩
    · simp at hx
    · simp only [List.cons.injEq, and_true] at hw'
      subst hw'
      exact ⟨y, (hone y).mp hy, hpos, rfl⟩
  · rintro ⟨y, hy, hpos, rfl⟩
    exact ⟨.num y, Or.inr ⟨w, rfl, y, (hone y).mpr hy, hpos, rfl⟩, rfl⟩

omit hE

/-! ### Examples -/

/-- The conversions over the rational numbers. -/
def rationalEnv : Env ℚ := ⟨conversions, fun _ _ => .ok ()⟩

example : int "1_000" = some 1000 ∧ int " +07\n" = some 7 ∧ int "-0" = some 0 ∧ int "1e3" = none ∧
    int "1__0" = none ∧ int "_1" = none ∧ int "" = none ∧ int "0x10" = none ∧ int "4.0" = none := by decide +kernel

example : (float "1e3" : Option (PyFloat ℚ)) = some (.fin 1000) ∧ (float ".5" : Option (PyFloat ℚ)) = some (.fin (1 / 2)) ∧
    (float "2.50E-0_1" : Option (PyFloat ℚ)) = some (.fin (1 / 4)) ∧ (float "." : Option (PyFloat ℚ)) = none ∧
    (float "1." : Option (PyFloat ℚ)) = some (.fin 1) ∧ (float "-Infinity" : Option (PyFloat ℚ)) = some .negInf ∧
    (float "0,5" : Option (PyFloat ℚ)) = none ∧ (float "NaN" : Option (PyFloat ℚ)) = some .nan ∧
    (float "1e" : Option (PyFloat ℚ)) = none ∧ (float "1_.5" : Option (PyFloat ℚ)) = none := by decide +kernel

/-- `plot swe -m 1_000` is accepted, with a mesh of 1000 cells, `plot swe -m 1e3` is not. -/
example : (∃ ns, program rationalEnv ["plot", "swe", "-m", "1_000"] = .ok (.plot, ns) ∧ ns "mesh_size" = .int 1000) ∧
    ¬ ∃ ns, program rationalEnv ["plot", "swe", "-m", "1e3"] = .ok (.plot, ns) := by
  have plain : ∀ w : String, w.toList.head? ≠ some '-' → Plain w := fun w h => Or.inl h
  have h := fun w hw ns => C130_integer_option rationalEnv rfl .plot (some .swe) (by decide) rfl
    ⟨["-m", "--mesh-size"], "mesh_size", .one, .posInt, none, .int 200, false⟩ (by simp [manual]) rfl rfl
    "-m" (by simp) w hw ns
  constructor
  · refine ⟨_, (h "1_000" (plain _ (by decide)) _).2 ⟨1000, by decide, (C130_int _ _).mp (by decide +kernel), rfl⟩, ?_⟩
    simp [named]
  · rintro ⟨ns, hns⟩
    obtain ⟨n, _, hn, _⟩ := (h "1e3" (plain _ (by decide)) ns).1 hns
    rw [← C130_int] at hn
    exact absurd hn (by
      have : int "1e3" = none := by decide +kernel
      rw [this]; simp)

/-- `animate swe --duration nan` is accepted. -/
example : ∃ ns, program rationalEnv ["animate", "swe", "--duration", "nan"] = .ok (.animate, ns) ∧
    ns "duration" = .num .nan := by
  have h := fun ns => C130_number_option rationalEnv rfl .animate (some .swe) (by decide) rfl
    ⟨["--duration"], "duration", .one, .posNumber, none, .int 20, false⟩ (by simp [manual]) rfl rfl
    "--duration" (by simp) "nan" (Or.inl (by decide)) ns
  refine ⟨_, (h _).2 ⟨.nan, (C130_float _ _).mp (by decide +kernel), Or.inl rfl, rfl⟩, ?_⟩
  simp [named]

example : FloatWord (K := ℚ) (.fin (-3 / 2)) "-1.5".toList := (C130_float _ _).mp (by decide +kernel)
example : IntWord 12 "1_2".toList := (C130_int _ _).mp (by decide +kernel)
example : int (toString (-40 : ℤ)) = some (-40) := C130_printed _

end Verif.PyNumber
