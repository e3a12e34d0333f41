import Mathlib.Algebra.Field.Defs
import Mathlib.Algebra.Order.Field.Basic
import Verif.Core.Options

/-!
# How python reads numbers

Every numerical option of the program goes through `int(input)` or `float(input)` (`core/type.py` lines 2, 10, 18
and 26, `command/command.py` line 32, `finite_volume/shallow_water/solver/antidiffusion.py` line 55).  Elsewhere the
two conversions are parameters (`Options.Conversions`).  Here they are computed, for strings of ASCII characters, the
way CPython does it:

* surrounding white space is removed;
* a scan removes underscores, each of which has to stand between two digits (`_Py_string_to_number_with_underscores`,
  and the scan of `PyLong_FromString`);
* a sign may follow;
* `int` takes a non-empty row of digits; `float` takes `inf`, `infinity` or `nan` in any case or a decimal
  (`_PyOS_ascii_strtod`).

Not modelled: digits and white space outside ASCII, the limit of 4300 digits which newer versions of python have for
`int`, and rounding and overflow of `float` (the value is the exact one).
-/

namespace Verif.PyNumber

open Verif.Utilities Verif.Options

/-- White space among the ASCII characters (`Py_UNICODE_ISSPACE`). -/
def isSpace (c : Char) : Bool := (9 ≤ c.toNat && c.toNat ≤ 13) || (28 ≤ c.toNat && c.toNat ≤ 32)

/-- An ASCII digit. -/
def isDigit (c : Char) : Bool := 48 ≤ c.toNat && c.toNat ≤ 57

/-- The value of a digit. -/
def digitValue (c : Char) : ℕ := c.toNat - 48

/-- Removal of the surrounding white space, done by both conversions (`core/type.py` lines 2 and 10). -/
def strip (s : List Char) : List Char := ((s.dropWhile isSpace).reverse.dropWhile isSpace).reverse

/-- The scan for underscores; `prev` tells whether the last character was a digit (`some true`), an underscore
(`none`) or something else (`some false`).  `none` as a result is a `ValueError`. -/
def unscore : Option Bool → List Char → Option (List Char)
  | none, [] => none
  | some _, [] => some []
  | prev, c :: s =>
    if c = '_' then (if prev = some true then unscore none s else none)
    else if prev = none && !isDigit c then none
    else (unscore (some (isDigit c)) s).map (c :: ·)

/-- An optional sign; `true` for a minus. -/
def sign : List Char → Bool × List Char
  | '+' :: s => (false, s)
  | '-' :: s => (true, s)
  | s => (false, s)

/-- The number written by a row of digits. -/
def natOf (s : List Char) : ℕ := s.foldl (fun n c => 10 * n + digitValue c) 0

/-- A non-empty row of digits. -/
def natural (s : List Char) : Option ℕ := if !s.isEmpty && s.all isDigit then some (natOf s) else none

/-- `int(input)` (`core/type.py` lines 10 and 18, `command/command.py` line 32). -/
def int (input : String) : Option ℤ :=
  (unscore (some false) (strip input.toList)).bind fun s =>
    match sign s with
    | (minus, t) => (natural t).map fun n : ℕ => if minus then -(n : ℤ) else n

/-- The exponent of a decimal: nothing, or `e`, a sign and a row of digits. -/
def exponent : List Char → Option ℤ
  | [] => some 0
  | c :: s =>
    if c = 'e' || c = 'E' then
      match sign s with
      | (minus, t) => (natural t).map fun n : ℕ => if minus then -(n : ℤ) else n
    else none

/-- The digits after a point, and what follows; nothing is read when there is no point. -/
def fraction : List Char → List Char × List Char
  | '.' :: s => s.span isDigit
  | s => ([], s)

variable {K : Type} [Field K]

/-- A decimal without sign. -/
def decimal (s : List Char) : Option K :=
  let whole := s.span isDigit
  let part := fraction whole.2
  if whole.1.isEmpty && part.1.isEmpty then none
  else (exponent part.2).map fun e => (natOf (whole.1 ++ part.1) : K) * (10 : K) ^ (e - (part.1.length : ℤ))

/-- A capital letter in lower case. -/
def lower (c : Char) : Char := if 65 ≤ c.toNat && c.toNat ≤ 90 then Char.ofNat (c.toNat + 32) else c

/-- `float(input)` (`core/type.py` lines 2 and 26, `finite_volume/shallow_water/solver/antidiffusion.py` line 55). -/
def float (input : String) : Option (PyFloat K) :=
  (unscore (some false) (strip input.toList)).bind fun s =>
    match sign s with
    | (minus, t) =>
      if t.map lower = "inf".toList || t.map lower = "infinity".toList then some (if minus then .negInf else .posInf)
      else if t.map lower = "nan".toList then some .nan
      else (decimal t).map fun x => .fin (if minus then -x else x)

/-- Both conversions, in the form the parsers take them. -/
def conversions : Conversions K := ⟨float, int⟩

end Verif.PyNumber
