import Mathlib.Data.Int.Log
import Mathlib.Algebra.Order.Field.Power
import Mathlib.Algebra.Order.Floor.Ring
import Mathlib.Tactic.Linarith
import Mathlib.Tactic.Positivity
import Mathlib.Tactic.Ring
import Mathlib.Tactic.FieldSimp

/-!
Floating point arithmetic, as python and numpy use it for `float`: every operation gives the rounded exact result.

A rounding is any function with the properties of `Rounding`.  `binary p` rounds to `p` binary digits, ties to even
digits; `p = 53` is the rounding of IEEE 754 double precision, apart from the bounds of the exponent: overflow and
underflow are not modelled.
-/

set_option linter.unusedSectionVars false
set_option linter.dupNamespace false

namespace Verif.Rounding

variable {K : Type*} [Field K] [LinearOrder K] [IsStrictOrderedRing K]

/-- A rounding function with unit round-off `u`. -/
structure Rounding (K : Type*) [Field K] [LinearOrder K] [IsStrictOrderedRing K] where
  fl : K → K
  u : K
  mono : Monotone fl
  idem : ∀ x, fl (fl x) = fl x
  odd : ∀ x, fl (-x) = -fl x
  near : ∀ x, |fl x - x| ≤ u * |x|
  nonneg : 0 ≤ u

/-- Exact arithmetic. -/
def exact (K : Type*) [Field K] [LinearOrder K] [IsStrictOrderedRing K] : Rounding K where
  fl := id
  u := 0
  mono := fun _ _ h => h
  idem := fun _ => rfl
  odd := fun _ => rfl
  near := fun x => by simp
  nonneg := le_rfl

namespace Rounding

variable (R : Rounding K)

theorem zero : R.fl 0 = 0 := by
  have := R.near 0
  simp at this
  exact this

theorem fl_nonneg {x : K} (h : 0 ≤ x) : 0 ≤ R.fl x := by
  rw [← R.zero]; exact R.mono h

theorem fl_nonpos {x : K} (h : x ≤ 0) : R.fl x ≤ 0 := by
  rw [← R.zero]; exact R.mono h

theorem pos_of_fl {x : K} (h : 0 < R.fl x) : 0 < x := by
  by_contra hc
  exact absurd (R.fl_nonpos (not_lt.1 hc)) (not_le.2 h)

theorem upper (x : K) : R.fl x ≤ x + R.u * |x| := by
  have := (abs_le.1 (R.near x)).2; linarith

theorem lower (x : K) : x - R.u * |x| ≤ R.fl x := by
  have := (abs_le.1 (R.near x)).1; linarith

/-- Numbers of the form `fl x`. -/
def Rep (x : K) : Prop := R.fl x = x

end Rounding

/-! ### Rounding to binary digits -/

section Binary

variable [FloorRing K]

/-- The nearest integer, ties to even. -/
def nearest (y : K) : ℤ :=
  if y - ⌊y⌋ < 1 / 2 then ⌊y⌋
  else if 1 / 2 < y - ⌊y⌋ then ⌊y⌋ + 1
  else if ⌊y⌋ % 2 = 0 then ⌊y⌋ else ⌊y⌋ + 1

theorem nearest_near (y : K) : |(nearest y : K) - y| ≤ 1 / 2 := by
  have h0 := Int.floor_le y
  have h1 := Int.lt_floor_add_one y
  unfold nearest
  rw [abs_le]
  split_ifs <;> push_cast <;> constructor <;> linarith

theorem nearest_range (y : K) : ⌊y⌋ ≤ nearest y ∧ nearest y ≤ ⌊y⌋ + 1 := by
  unfold nearest
  split_ifs <;> omega

theorem nearest_mono : Monotone (nearest : K → ℤ) := by
  intro x y h
  rcases (Int.floor_mono h).lt_or_eq with hlt | heq
  · have := (nearest_range x).2
    have := (nearest_range y).1
    omega
  · unfold nearest
    rw [heq]
    split_ifs <;> first | omega | (exfalso; linarith)

theorem nearest_int (k : ℤ) : nearest (k : K) = k := by
  unfold nearest
  rw [Int.floor_intCast]
  simp

/-- The distance of the numbers with `p` digits near `a > 0`. -/
def spacing (p : ℕ) (a : K) : K := 2 ^ (Int.log 2 a + 1 - p)

/-- Rounding of a number that is not negative. -/
def binaryPos (p : ℕ) (a : K) : K := nearest (a / spacing p a) * spacing p a

theorem spacing_pos (p : ℕ) (a : K) : 0 < spacing p a := by unfold spacing; positivity

theorem quotient_range (p : ℕ) (hp : 0 < p) {a : K} (ha : 0 < a) :
    ((2 ^ (p - 1) : ℤ) : K) ≤ a / spacing p a ∧ a / spacing p a < ((2 ^ p : ℤ) : K) := by
  have h1 := Int.zpow_log_le_self (b := 2) (r := a) (by norm_num) ha
  have h2 : a < (2 : K) ^ (Int.log 2 a + 1) := by
    have := (Int.lt_zpow_iff_log_lt (b := 2) (by norm_num) ha (x := Int.log 2 a + 1)).2 (by omega)
    exact_mod_cast this
  have e1 : ((2 ^ (p - 1) : ℤ) : K) * spacing p a = 2 ^ Int.log 2 a := by
    unfold spacing
    push_cast
    rw [← zpow_natCast, ← zpow_add₀ two_ne_zero]
    congr 1
    omega
  have e2 : ((2 ^ p : ℤ) : K) * spacing p a = 2 ^ (Int.log 2 a + 1) := by
    unfold spacing
    push_cast
    rw [← zpow_natCast, ← zpow_add₀ two_ne_zero]
    congr 1
    omega
  rw [le_div_iff₀ (spacing_pos p a), div_lt_iff₀ (spacing_pos p a), e1, e2]
  exact ⟨by exact_mod_cast h1, h2⟩

theorem binaryPos_range (p : ℕ) (hp : 0 < p) {a : K} (ha : 0 < a) :
    (2 : K) ^ Int.log 2 a ≤ binaryPos p a ∧ binaryPos p a ≤ 2 ^ (Int.log 2 a + 1) := by
  obtain ⟨h1, h2⟩ := quotient_range p hp ha
  have g1 := nearest_mono h1
  have g2 := nearest_mono h2.le
  rw [nearest_int] at g1 g2
  have e1 : ((2 ^ (p - 1) : ℤ) : K) * spacing p a = 2 ^ Int.log 2 a := by
    unfold spacing
    push_cast
    rw [← zpow_natCast, ← zpow_add₀ two_ne_zero]
    congr 1
    omega
  have e2 : ((2 ^ p : ℤ) : K) * spacing p a = 2 ^ (Int.log 2 a + 1) := by
    unfold spacing
    push_cast
    rw [← zpow_natCast, ← zpow_add₀ two_ne_zero]
    congr 1
    omega
  unfold binaryPos
  rw [← e1, ← e2]
  exact ⟨mul_le_mul_of_nonneg_right (by exact_mod_cast g1) (spacing_pos p a).le,
    mul_le_mul_of_nonneg_right (by exact_mod_cast g2) (spacing_pos p a).le⟩

theorem binaryPos_mono (p : ℕ) (hp : 0 < p) {a b : K} (ha : 0 < a) (hab : a ≤ b) : binaryPos p a ≤ binaryPos p b := by
  have hb := ha.trans_le hab
  rcases (Int.log_mono_right ha hab (b := 2)).lt_or_eq with h | h
  · refine (binaryPos_range p hp ha).2.trans (le_trans ?_ (binaryPos_range p hp hb).1)
    exact zpow_le_zpow_right₀ (by norm_num) (by omega)
  · have hs : spacing p a = spacing p b := by unfold spacing; rw [h]
    unfold binaryPos
    rw [hs]
    refine mul_le_mul_of_nonneg_right ?_ (spacing_pos p b).le
    exact_mod_cast nearest_mono (div_le_div_of_nonneg_right hab (spacing_pos p b).le)

theorem binaryPos_near (p : ℕ) {a : K} (ha : 0 < a) : |binaryPos p a - a| ≤ 1 / 2 ^ p * a := by
  have hs := spacing_pos p a
  have h := nearest_near (a / spacing p a)
  have e : binaryPos p a - a = ((nearest (a / spacing p a) : K) - a / spacing p a) * spacing p a := by
    unfold binaryPos; field_simp
  rw [e, abs_mul, abs_of_pos hs]
  have h1 : (2 : K) ^ Int.log 2 a ≤ a := by exact_mod_cast Int.zpow_log_le_self (b := 2) (r := a) (by norm_num) ha
  have h2 : 1 / 2 * spacing p a = 1 / 2 ^ p * 2 ^ Int.log 2 a := by
    unfold spacing
    rw [show Int.log 2 a + 1 - (p : ℤ) = Int.log 2 a + (1 - p) by ring, zpow_add₀ two_ne_zero, zpow_sub₀ two_ne_zero,
      zpow_one, zpow_natCast]
    field_simp
  calc _ ≤ 1 / 2 * spacing p a := mul_le_mul_of_nonneg_right h hs.le
    _ = 1 / 2 ^ p * 2 ^ Int.log 2 a := h2
    _ ≤ _ := mul_le_mul_of_nonneg_left h1 (by positivity)

/-- Numbers with at most `p` digits are not changed. -/
theorem binaryPos_exact (p : ℕ) (hp : 0 < p) (k : ℕ) (j : ℤ) (hk0 : 0 < k) (hk : k ≤ 2 ^ p) :
    binaryPos p ((k : K) * 2 ^ j) = k * 2 ^ j := by
  set a : K := (k : K) * 2 ^ j with hadef
  have ha : 0 < a := by positivity
  obtain ⟨i, hi⟩ : ∃ i : ℤ, a / spacing p a = i := by
    rcases hk.lt_or_eq with hlt | heq
    · have h : Int.log 2 a < p + j := by
        rw [← Int.lt_zpow_iff_log_lt (b := 2) (by norm_num) ha, zpow_add₀ (by norm_num), hadef]
        refine mul_lt_mul_of_pos_right ?_ (by positivity)
        rw [zpow_natCast]
        exact_mod_cast hlt
      obtain ⟨d, hd⟩ : ∃ d : ℕ, j - (Int.log 2 a + 1 - p) = d := ⟨(j - (Int.log 2 a + 1 - p)).toNat, by omega⟩
      refine ⟨k * 2 ^ d, ?_⟩
      unfold spacing
      rw [hadef, mul_div_assoc, ← zpow_sub₀ two_ne_zero, ← hadef, hd, zpow_natCast]
      push_cast
      ring
    · have h : Int.log 2 a = p + j := by
        have : a = ((2 : ℕ) : K) ^ ((p : ℤ) + j) := by
          rw [hadef, heq, zpow_add₀ (by norm_num), zpow_natCast]; push_cast; ring
        rw [this, Int.log_zpow (by norm_num)]
      refine ⟨2 ^ (p - 1), ?_⟩
      unfold spacing
      rw [h, hadef, heq, div_eq_iff (by positivity)]
      push_cast
      rw [← zpow_natCast, ← zpow_natCast, ← zpow_add₀ two_ne_zero, ← zpow_add₀ two_ne_zero]
      congr 1
      omega
  unfold binaryPos
  rw [hi, nearest_int, ← hi, div_mul_cancel₀ _ (spacing_pos p a).ne']

theorem binaryPos_form (p : ℕ) (hp : 0 < p) {a : K} (ha : 0 < a) :
    ∃ (k : ℕ) (j : ℤ), 0 < k ∧ k ≤ 2 ^ p ∧ binaryPos p a = k * 2 ^ j := by
  obtain ⟨h1, h2⟩ := quotient_range p hp ha
  have g1 := nearest_mono h1
  have g2 := nearest_mono h2.le
  rw [nearest_int] at g1 g2
  have h0 : 0 < nearest (a / spacing p a) := lt_of_lt_of_le (by positivity) g1
  refine ⟨(nearest (a / spacing p a)).toNat, Int.log 2 a + 1 - p, by omega, ?_, ?_⟩
  · have : ((2 ^ p : ℕ) : ℤ) = 2 ^ p := by push_cast; rfl
    omega
  · have e : (((nearest (a / spacing p a)).toNat : ℤ)) = nearest (a / spacing p a) := Int.toNat_of_nonneg h0.le
    unfold binaryPos
    rw [← Int.cast_natCast (R := K), e]
    rfl

/-- Rounding to `p` binary digits. -/
def binaryFl (p : ℕ) (x : K) : K :=
  if 0 < x then binaryPos p x else if x < 0 then -binaryPos p (-x) else 0

theorem binaryFl_odd (p : ℕ) (x : K) : binaryFl p (-x) = -binaryFl p x := by
  unfold binaryFl
  rcases lt_trichotomy x 0 with h | h | h
  · simp [h, h.le, not_lt.2 h.le]
  · simp [h]
  · simp [h, not_lt.2 h.le]

theorem binaryPos_pos (p : ℕ) (hp : 0 < p) {a : K} (ha : 0 < a) : 0 < binaryPos p a :=
  lt_of_lt_of_le (by positivity) (binaryPos_range p hp ha).1

/-- Rounding to `p` binary digits, ties to even. -/
def binary (K : Type*) [Field K] [LinearOrder K] [IsStrictOrderedRing K] [FloorRing K] (p : ℕ) (hp : 0 < p) :
    Rounding K where
  fl := binaryFl p
  u := 1 / 2 ^ p
  nonneg := by positivity
  odd := binaryFl_odd p
  mono := by
    intro x y h
    unfold binaryFl
    split_ifs with h1 h2 h3 h4 h5 h6 h7 h8
    · exact binaryPos_mono p hp h1 h
    · linarith
    · linarith
    · have := binaryPos_pos p hp h5; have := binaryPos_pos p hp (a := -x) (by linarith); linarith
    · exact neg_le_neg (binaryPos_mono p hp (by linarith) (by linarith))
    · have := binaryPos_pos p hp (a := -x) (by linarith); linarith
    · exact (binaryPos_pos p hp h7).le
    · linarith
    · exact le_rfl
  idem := by
    intro x
    have key : ∀ a : K, 0 < a → binaryPos p (binaryPos p a) = binaryPos p a := by
      intro a ha
      obtain ⟨k, j, h0, h1, e⟩ := binaryPos_form p hp ha
      rw [e]
      exact binaryPos_exact p hp k j h0 h1
    rcases lt_trichotomy x 0 with h | h | h
    · have e : binaryFl p x = -binaryPos p (-x) := by unfold binaryFl; rw [if_neg (by linarith), if_pos h]
      have hp := binaryPos_pos p hp (a := -x) (by linarith)
      rw [e, binaryFl_odd]
      congr 1
      unfold binaryFl
      rw [if_pos hp, key _ (by linarith)]
    · subst h; simp [binaryFl]
    · have e : binaryFl p x = binaryPos p x := by unfold binaryFl; rw [if_pos h]
      rw [e]
      unfold binaryFl
      rw [if_pos (binaryPos_pos p hp h), key _ h]
  near := by
    intro x
    rcases lt_trichotomy x 0 with h | h | h
    · have e : binaryFl p x = -binaryPos p (-x) := by unfold binaryFl; rw [if_neg (by linarith), if_pos h]
      rw [e, abs_of_neg h, show -binaryPos p (-x) - x = -(binaryPos p (-x) - -x) by ring, abs_neg]
      exact binaryPos_near p (by linarith)
    · subst h; simp [binaryFl]
    · have e : binaryFl p x = binaryPos p x := by unfold binaryFl; rw [if_pos h]
      rw [e, abs_of_pos h]
      exact binaryPos_near p h

/-- Numbers with at most `p` digits are not changed. -/
theorem binary_exact (p : ℕ) (hp : 0 < p) (k : ℕ) (j : ℤ) (hk : k ≤ 2 ^ p) :
    (binary K p hp).fl ((k : K) * 2 ^ j) = k * 2 ^ j := by
  change binaryFl p _ = _
  rcases Nat.eq_zero_or_pos k with rfl | h0
  · simp [binaryFl]
  · unfold binaryFl
    rw [if_pos (by positivity)]
    exact binaryPos_exact p hp k j h0 hk

end Binary

/-- The rounding of double precision, without bounds for the exponent. -/
def double (K : Type*) [Field K] [LinearOrder K] [IsStrictOrderedRing K] [FloorRing K] : Rounding K :=
  binary K 53 (by norm_num)

end Verif.Rounding
