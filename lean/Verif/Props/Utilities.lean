import Mathlib.Data.List.GetD
import Mathlib.Data.List.SplitBy
import Mathlib.Tactic.Ring
import Mathlib.Tactic.Linarith
import Mathlib.Tactic.IntervalCases
import Mathlib.Data.Rat.Defs
import Mathlib.Algebra.Order.Ring.Rat
import Verif.Core.Utilities

/-!
Properties C55, C71, C74, C75, C76: small utilities.
-/

set_option linter.unusedSectionVars false

namespace Verif.Utilities

open Verif.Py (Error)

/-! ### C76 -/

section Function

variable {K : Type*} [Field K] [LinearOrder K] [IsStrictOrderedRing K]

/-- `r` is at each of the `n` positions the largest of the values of the vectors `vs`. -/
def IsPointwiseMax (vs : List (List K)) (n : ℕ) (r : List K) : Prop :=
  r.length = n ∧ ∀ i < n, (∀ v ∈ vs, v.getD i 0 ≤ r.getD i 0) ∧ ∃ v ∈ vs, v.getD i 0 = r.getD i 0

/-- `r` is at each of the `n` positions the smallest of the values of the vectors `vs`. -/
def IsPointwiseMin (vs : List (List K)) (n : ℕ) (r : List K) : Prop :=
  r.length = n ∧ ∀ i < n, (∀ v ∈ vs, r.getD i 0 ≤ v.getD i 0) ∧ ∃ v ∈ vs, v.getD i 0 = r.getD i 0

theorem getD_zipWith (f : K → K → K) (a b : List K) (h : a.length = b.length) (i : ℕ)
    (hi : i < a.length) : (List.zipWith f a b).getD i 0 = f (a.getD i 0) (b.getD i 0) := by
  have h2 : i < b.length := by omega
  have h3 : i < (List.zipWith f a b).length := by simp; omega
  rw [List.getD_eq_getElem _ _ h3, List.getD_eq_getElem _ _ hi, List.getD_eq_getElem _ _ h2,
    List.getElem_zipWith]

/-- C76.  `maximum` of at least one vector, all of the same length, is the elementwise maximum. -/
theorem C76_maximum (vs : List (List K)) (n : ℕ) (hne : vs ≠ []) (hlen : ∀ v ∈ vs, v.length = n) :
    ∃ r, maximum vs = .ok r ∧ IsPointwiseMax vs n r := by
  induction vs with
  | nil => exact absurd rfl hne
  | cons v vs ih =>
    cases vs with
    | nil =>
      refine ⟨v, rfl, hlen v (by simp), fun i _ => ⟨?_, v, by simp, rfl⟩⟩
      intro w hw
      rw [List.mem_singleton] at hw
      rw [hw]
    | cons w vs =>
      obtain ⟨r, hr, hrl, hrv⟩ := ih (by simp) (fun x hx => hlen x (List.mem_cons_of_mem _ hx))
      have hv : v.length = n := hlen v (by simp)
      have hvr : v.length = r.length := by rw [hv, hrl]
      refine ⟨List.zipWith max v r, ?_, by simp [hv, hrl], ?_⟩
      · rw [maximum, hr]
        change broadcast₂ max v r = _
        unfold broadcast₂
        rw [if_pos hvr]
      · intro i hi
        rw [getD_zipWith _ _ _ hvr i (by omega)]
        obtain ⟨h1, u, hu, hu2⟩ := hrv i hi
        refine ⟨?_, ?_⟩
        · intro x hx
          rw [List.mem_cons] at hx
          rcases hx with rfl | hx
          · exact le_max_left _ _
          · exact (h1 x hx).trans (le_max_right _ _)
        · rcases le_total (v.getD i 0) (r.getD i 0) with h | h
          · exact ⟨u, List.mem_cons_of_mem _ hu, by rw [hu2, max_eq_right h]⟩
          · exact ⟨v, by simp, by rw [max_eq_left h]⟩

/-- C76.  `minimum` of at least one vector, all of the same length, is the elementwise minimum. -/
theorem C76_minimum (vs : List (List K)) (n : ℕ) (hne : vs ≠ []) (hlen : ∀ v ∈ vs, v.length = n) :
    ∃ r, minimum vs = .ok r ∧ IsPointwiseMin vs n r := by
  induction vs with
  | nil => exact absurd rfl hne
  | cons v vs ih =>
    cases vs with
    | nil =>
      refine ⟨v, rfl, hlen v (by simp), fun i _ => ⟨?_, v, by simp, rfl⟩⟩
      intro w hw
      rw [List.mem_singleton] at hw
      rw [hw]
    | cons w vs =>
      obtain ⟨r, hr, hrl, hrv⟩ := ih (by simp) (fun x hx => hlen x (List.mem_cons_of_mem _ hx))
      have hv : v.length = n := hlen v (by simp)
      have hvr : v.length = r.length := by rw [hv, hrl]
      refine ⟨List.zipWith min v r, ?_, by simp [hv, hrl], ?_⟩
      · rw [minimum, hr]
        change broadcast₂ min v r = _
        unfold broadcast₂
        rw [if_pos hvr]
      · intro i hi
        rw [getD_zipWith _ _ _ hvr i (by omega)]
        obtain ⟨h1, u, hu, hu2⟩ := hrv i hi
        refine ⟨?_, ?_⟩
        · intro x hx
          rw [List.mem_cons] at hx
          rcases hx with rfl | hx
          · exact min_le_left _ _
          · exact (min_le_right _ _).trans (h1 x hx)
        · rcases le_total (v.getD i 0) (r.getD i 0) with h | h
          · exact ⟨v, by simp, by rw [min_eq_left h]⟩
          · exact ⟨u, List.mem_cons_of_mem _ hu, by rw [hu2, min_eq_right h]⟩

/-- C76.  Without arguments both raise. -/
theorem C76_empty : maximum ([] : List (List K)) = .error .indexError ∧
    minimum ([] : List (List K)) = .error .indexError := ⟨rfl, rfl⟩

/-- The number of least modulus if both are positive or both are negative, otherwise zero: between
zero and both of them, and as far from zero as possible. -/
def IsMinmod (x y r : K) : Prop :=
  (0 < x → 0 < y → r = min x y) ∧ (x < 0 → y < 0 → r = max x y) ∧ (x * y ≤ 0 → r = 0)

/-- C76.  `minmod`, element by element. -/
theorem C76_minmod (a b : List K) (h : a.length = b.length) :
    ∃ r, minmod a b = .ok r ∧ r.length = a.length ∧
      ∀ i < a.length, IsMinmod (a.getD i 0) (b.getD i 0) (r.getD i 0) := by
  refine ⟨_, by rw [minmod, if_pos h], by simp [h], ?_⟩
  intro i hi
  rw [getD_zipWith _ _ _ h i hi]
  generalize a.getD i 0 = x
  generalize b.getD i 0 = y
  refine ⟨?_, ?_, ?_⟩
  · intro hx hy
    simp [sgn, hx, hy, abs_of_pos]
  · intro hx hy
    have hx' : ¬ 0 < x := not_lt.mpr hx.le
    have hy' : ¬ 0 < y := not_lt.mpr hy.le
    simp only [sgn, hx, hy, hx', hy', if_true, if_false, abs_of_neg]
    rcases le_total x y with h | h
    · rw [max_eq_right h, min_eq_right (neg_le_neg h)]; ring
    · rw [max_eq_left h, min_eq_left (neg_le_neg h)]; ring
  · intro hxy
    rcases lt_trichotomy x 0 with hx | hx | hx
    · have hy : 0 ≤ y := by
        by_contra hc
        have := mul_pos_of_neg_of_neg hx (not_le.mp hc)
        linarith
      have hx' : ¬ 0 < x := not_lt.mpr hx.le
      have hy' : ¬ y < 0 := not_lt.mpr hy
      have e1 : sgn x = -1 := by simp [sgn, hx, hx']
      have e2 : sgn y ≠ -1 := by
        simp only [sgn, hy', if_false]
        split <;> norm_num
      rw [e1, if_neg (fun hc => e2 hc.symm)]
    · subst hx
      simp [sgn]
    · have hy : y ≤ 0 := by
        by_contra hc
        have := mul_pos hx (not_le.mp hc)
        linarith
      have hy' : ¬ 0 < y := not_lt.mpr hy
      have e1 : sgn x = 1 := by simp [sgn, hx]
      have e2 : sgn y ≠ 1 := by
        simp only [sgn, hy', if_false]
        split <;> norm_num
      rw [e1, if_neg (fun hc => e2 hc.symm)]

example : maximum [[1, 5], [2, 0], [0, (7 : ℚ)]] = .ok [2, 7] := by decide +kernel
example : minmod [1, -2, 3, (0 : ℚ)] [2, -1, -3, 1] = .ok [1, -1, 0, 0] := by decide +kernel

end Function

/-! ### C75 -/

section Types

variable {K : Type*} [Field K] [LinearOrder K] [IsStrictOrderedRing K]

/-- C75.  `positive_float` accepts a string exactly if it denotes a positive number, infinity or
`nan`, and then returns what it denotes; otherwise it raises a `ValueError`. -/
theorem C75_positive_float (float : String → Option (PyFloat K)) (s : String) :
    (∀ v, positiveFloat float s = .ok v ↔
      float s = some v ∧ (v = .nan ∨ v = .posInf ∨ ∃ x, 0 < x ∧ v = .fin x)) ∧
    ((∀ v, positiveFloat float s ≠ .ok v) → positiveFloat float s = .error .valueError) := by
  unfold positiveFloat
  cases hf : float s with
  | none => simp
  | some v =>
    cases v with
    | nan => simp [PyFloat.le]
    | negInf => simp [PyFloat.le]
    | posInf => simp [PyFloat.le]
    | fin x =>
      by_cases hx : x ≤ 0
      · simp only [PyFloat.le, hx, decide_true, if_true]
        refine ⟨fun v => ⟨fun h => by simp at h, ?_⟩, fun _ => trivial⟩
        rintro ⟨h, h2⟩
        simp only [Option.some.injEq] at h
        subst h
        rcases h2 with h2 | h2 | ⟨y, hy, h2⟩
        · cases h2
        · cases h2
        · cases h2; exact absurd hy (not_lt.mpr hx)
      · simp only [PyFloat.le, hx, decide_false]
        refine ⟨fun v => ⟨fun h => ?_, fun h => ?_⟩, fun h => absurd rfl (h _)⟩
        · simp at h
          subst h
          exact ⟨rfl, Or.inr (Or.inr ⟨x, not_le.mp hx, rfl⟩)⟩
        · obtain ⟨h, -⟩ := h
          simp only [Option.some.injEq] at h
          subst h
          simp

/-- C75.  `percent_number` accepts a string exactly if it denotes a number between 0 and 1 or
`nan`. -/
theorem C75_percent (float : String → Option (PyFloat K)) (s : String) :
    (∀ v, percentNumber float s = .ok v ↔
      float s = some v ∧ (v = .nan ∨ ∃ x, 0 ≤ x ∧ x ≤ 1 ∧ v = .fin x)) ∧
    ((∀ v, percentNumber float s ≠ .ok v) → percentNumber float s = .error .valueError) := by
  unfold percentNumber
  cases hf : float s with
  | none => simp
  | some v =>
    cases v with
    | nan => simp [PyFloat.lt, PyFloat.gt]
    | negInf => simp [PyFloat.lt]
    | posInf => simp [PyFloat.gt]
    | fin x =>
      by_cases hx : x < 0 ∨ 1 < x
      · have e : ((PyFloat.fin x).lt 0 || (PyFloat.fin x).gt 1) = true := by
          simpa [PyFloat.lt, PyFloat.gt] using hx
        simp only [e, if_true]
        refine ⟨fun v => ⟨fun h => by simp at h, ?_⟩, fun _ => trivial⟩
        rintro ⟨h, h2⟩
        simp only [Option.some.injEq] at h
        subst h
        rcases h2 with h2 | ⟨y, hy, hy1, h2⟩
        · cases h2
        · cases h2
          rcases hx with hx | hx
          · exact absurd hy (not_le.mpr hx)
          · exact absurd hy1 (not_le.mpr hx)
      · have e : ((PyFloat.fin x).lt 0 || (PyFloat.fin x).gt 1) = false := by
          simpa [PyFloat.lt, PyFloat.gt] using hx
        simp only [e]
        push Not at hx
        refine ⟨fun v => ⟨fun h => ?_, fun h => ?_⟩, fun h => absurd rfl (h _)⟩
        · simp at h
          subst h
          exact ⟨rfl, Or.inr ⟨x, hx.1, hx.2, rfl⟩⟩
        · obtain ⟨h, -⟩ := h
          simp only [Option.some.injEq] at h
          subst h
          simp

/-- C75.  The integer validators accept exactly the positive and the non-negative integers. -/
theorem C75_integers (int : String → Option ℤ) (s : String) :
    (∀ v, positiveInt int s = .ok v ↔ int s = some v ∧ 1 ≤ v) ∧
    (∀ v, nonNegativeInt int s = .ok v ↔ int s = some v ∧ 0 ≤ v) ∧
    ((∀ v, positiveInt int s ≠ .ok v) → positiveInt int s = .error .valueError) ∧
    ((∀ v, nonNegativeInt int s ≠ .ok v) → nonNegativeInt int s = .error .valueError) := by
  unfold positiveInt nonNegativeInt
  cases hf : int s with
  | none => simp
  | some x =>
    refine ⟨fun v => ?_, fun v => ?_, ?_, ?_⟩
    · by_cases hx : x ≤ 0
      · simp only [hx, if_true, Option.some.injEq]
        exact ⟨fun h => by simp at h, fun h => by omega⟩
      · simp only [hx, if_false, Option.some.injEq, Except.ok.injEq]
        exact ⟨fun h => ⟨h, by omega⟩, fun h => h.1⟩
    · by_cases hx : x < 0
      · simp only [hx, if_true, Option.some.injEq]
        exact ⟨fun h => by simp at h, fun h => by omega⟩
      · simp only [hx, if_false, Option.some.injEq, Except.ok.injEq]
        exact ⟨fun h => ⟨h, by omega⟩, fun h => h.1⟩
    · intro h
      by_cases hx : x ≤ 0
      · simp [hx]
      · exact absurd (by simp [hx]) (h x)
    · intro h
      by_cases hx : x < 0
      · simp [hx]
      · exact absurd (by simp [hx]) (h x)

/-- C75.  So `nan` is not rejected: it is accepted as a positive number and as a percentage. -/
theorem C75_nan (float : String → Option (PyFloat K)) (s : String) (h : float s = some .nan) :
    positiveFloat float s = .ok .nan ∧ percentNumber float s = .ok .nan :=
  ⟨((C75_positive_float float s).1 _).mpr ⟨h, Or.inl rfl⟩,
    ((C75_percent float s).1 _).mpr ⟨h, Or.inl rfl⟩⟩

/-- A toy conversion for the examples. -/
def demoFloat (s : String) : Option (PyFloat ℚ) :=
  if s = "nan" then some .nan else if s = "0.5" then some (.fin (1 / 2))
  else if s = "-1" then some (.fin (-1)) else none

example : positiveFloat demoFloat "0.5" = .ok (.fin (1 / 2)) := by decide +kernel
example : positiveFloat demoFloat "-1" = .error .valueError := by decide +kernel
example : percentNumber demoFloat "nan" = .ok .nan := by decide +kernel

end Types

/-! ### C74 -/

section Action

/-- A cut between two neighbouring arguments: the second is the name of a solver and the first is not
the option `+f`. -/
def Cut (keys : List String) (a b : String) : Prop := b ∈ keys ∧ a ≠ "+f"

instance (keys : List String) (a b : String) : Decidable (Cut keys a b) := by
  unfold Cut; infer_instance

/-- The list is divided exactly at its cuts: the pieces are not empty, put together they are the
list, there is no cut inside a piece, and a cut between any two consecutive pieces. -/
structure CutInto (keys : List String) (values : List String) (chunks : List (List String)) :
    Prop where
  join : chunks.flatten = values
  nonempty : [] ∉ chunks
  inside : ∀ c ∈ chunks, c.IsChain fun a b => ¬ Cut keys a b
  between : chunks.IsChain fun c d =>
    ∃ (hc : c ≠ []) (hd : d ≠ []), Cut keys (c.getLast hc) (d.head hd)

theorem sliceIndex_none (keys : List String) (vs : List String) (prev : String) (i : ℕ)
    (h : sliceIndex keys prev vs i = none) : (prev :: vs).IsChain fun a b => ¬ Cut keys a b := by
  induction vs generalizing prev i with
  | nil => simp
  | cons v vs ih =>
    simp only [sliceIndex] at h
    split at h
    · simp at h
    · rename_i hc
      rw [List.isChain_cons_cons]
      exact ⟨fun hcut => hc ⟨hcut.1, by simpa using hcut.2⟩, ih _ _ h⟩

theorem sliceIndex_some (keys : List String) (vs : List String) (prev : String) (i j : ℕ)
    (h : sliceIndex keys prev vs i = some j) :
    ∃ pre v post, vs = pre ++ v :: post ∧ j = i + pre.length ∧
      ((prev :: pre).IsChain fun a b => ¬ Cut keys a b) ∧
      Cut keys ((prev :: pre).getLast (by simp)) v := by
  induction vs generalizing prev i with
  | nil => simp [sliceIndex] at h
  | cons v vs ih =>
    simp only [sliceIndex] at h
    split at h
    · rename_i hc
      simp only [Option.some.injEq] at h
      exact ⟨[], v, vs, rfl, by simp [h], by simp, hc.1, by simpa using hc.2⟩
    · rename_i hc
      obtain ⟨pre, w, post, e1, e2, e3, e4⟩ := ih _ _ h
      refine ⟨v :: pre, w, post, by simp [e1], by simp; omega, ?_, ?_⟩
      · rw [List.isChain_cons_cons]
        exact ⟨fun hcut => hc ⟨hcut.1, by simpa using hcut.2⟩, e3⟩
      · simpa using e4

/-- C74.  The arguments are divided exactly at the solver names that do not follow `+f`. -/
theorem C74_split (keys values : List String) : CutInto keys values (split keys values) := by
  generalize hn : values.length = n
  induction n using Nat.strong_induction_on generalizing values with
  | _ n ih =>
    cases values with
    | nil => rw [split]; exact ⟨rfl, by simp, by simp, by simp⟩
    | cons v vs =>
      rw [split, popSolverArguments]
      cases h : sliceIndex keys v vs 1 with
      | none =>
        rw [split]
        refine ⟨by simp, by simp, ?_, by simp⟩
        intro c hc
        rw [List.mem_singleton] at hc
        rw [hc]
        exact sliceIndex_none keys vs v 1 h
      | some i =>
        obtain ⟨pre, w, post, e1, e2, e3, e4⟩ := sliceIndex_some keys vs v 1 i h
        have et : (v :: vs).take i = v :: pre := by
          rw [e1, e2, Nat.add_comm, List.take_succ_cons, List.take_left']
          rfl
        have ed : (v :: vs).drop i = w :: post := by
          rw [e1, e2, Nat.add_comm, List.drop_succ_cons, List.drop_left']
          rfl
        simp only [et, ed]
        have hlen : (w :: post).length < n := by
          rw [← hn, e1]
          simp
          omega
        obtain ⟨j1, j2, j3, j4⟩ := ih _ hlen (w :: post) rfl
        have hne : ∃ d ds, split keys (w :: post) = d :: ds ∧ ∃ hd : d ≠ [], d.head hd = w := by
          cases hs : split keys (w :: post) with
          | nil => rw [hs] at j1; simp at j1
          | cons d ds =>
            cases d with
            | nil => rw [hs] at j2; simp at j2
            | cons x xs =>
              rw [hs] at j1
              simp only [List.flatten_cons, List.cons_append, List.cons.injEq] at j1
              exact ⟨x :: xs, ds, rfl, by simp, by simp [j1.1]⟩
        obtain ⟨d, ds, hs, hd, hh⟩ := hne
        refine ⟨?_, ?_, ?_, ?_⟩
        · rw [List.flatten_cons, j1, e1]; simp
        · rw [List.mem_cons, not_or]
          exact ⟨by simp, j2⟩
        · intro c hc
          rw [List.mem_cons] at hc
          rcases hc with rfl | hc
          · exact e3
          · exact j3 c hc
        · rw [hs, List.isChain_cons_cons]
          refine ⟨⟨by simp, hd, ?_⟩, hs ▸ j4⟩
          rw [hh]
          exact e4

/-- C74.  There is only one such division. -/
theorem C74_unique (keys values : List String) (chunks : List (List String))
    (h : CutInto keys values chunks) : chunks = split keys values := by
  have key : ∀ cs, CutInto keys values cs →
      cs = values.splitBy (fun a b => decide (¬ Cut keys a b)) := by
    intro cs hcs
    rw [← hcs.join]
    symm
    apply List.splitBy_flatten hcs.nonempty
    · intro m hm
      exact (hcs.inside m hm).imp fun a b hab => by simpa using hab
    · refine hcs.between.imp ?_
      rintro a b ⟨ha, hb, hab⟩
      exact ⟨ha, hb, by simpa using hab⟩
  rw [key chunks h, key _ (C74_split keys values)]

/-- C74.  If every piece begins with the name of a registered solver and its parser accepts the
rest, the action returns the parsed options, one for each piece, in order. -/
theorem C74_action {N : Type*} (parsers : List (String × (List String → Except Error N)))
    (values : List String) (ns : List N) (h : action parsers values = .namespaces ns) :
    List.Forall₂ (fun c n => ∃ key args parse, c = key :: args ∧ parsers.lookup key = some parse ∧
      parse args = .ok n) (split (parsers.map Prod.fst) values) ns := by
  unfold action at h
  cases hm : (split (parsers.map Prod.fst) values).mapM (solverNamespace parsers) with
  | error e => rw [hm] at h; cases e <;> simp at h
  | ok l =>
    rw [hm] at h
    simp only [Outcome.namespaces.injEq] at h
    subst h
    generalize split (parsers.map Prod.fst) values = cs at hm
    induction cs generalizing l with
    | nil =>
      simp only [List.mapM_nil, pure, Except.pure, Except.ok.injEq] at hm
      subst hm
      exact .nil
    | cons c cs ih =>
      rw [List.mapM_cons] at hm
      cases hc : solverNamespace parsers c with
      | error e => rw [hc] at hm; simp [bind, Except.bind] at hm
      | ok n =>
        cases hr : cs.mapM (solverNamespace parsers) with
        | error e => rw [hc, hr] at hm; simp [bind, Except.bind] at hm
        | ok r =>
          rw [hc, hr] at hm
          simp only [bind, Except.bind, pure, Except.pure, Except.ok.injEq] at hm
          subst hm
          refine .cons ?_ (ih r hr)
          cases c with
          | nil => simp [solverNamespace] at hc
          | cons key args =>
            simp only [solverNamespace] at hc
            cases hl : parsers.lookup key with
            | none => rw [hl] at hc; simp at hc
            | some parse =>
              rw [hl] at hc
              refine ⟨key, args, parse, rfl, hl, ?_⟩
              cases hp : parse args with
              | ok m => simp only [hp] at hc; simpa using hc
              | error e => simp only [hp] at hc; cases e <;> simp at hc

/-- C74.  An unknown solver name at the beginning makes the program quit. -/
theorem C74_unknown {N : Type*} (parsers : List (String × (List String → Except Error N)))
    (key : String) (rest : List String) (h : key ∉ parsers.map Prod.fst) :
    action parsers (key :: rest) = .quit := by
  have hl : parsers.lookup key = none := by
    rw [List.lookup_eq_none_iff]
    intro p hp
    rw [bne_iff_ne]
    rintro rfl
    exact h (List.mem_map_of_mem hp)
  have hs : ∃ args cs, split (parsers.map Prod.fst) (key :: rest) = (key :: args) :: cs := by
    have hc := C74_split (parsers.map Prod.fst) (key :: rest)
    cases hs : split (parsers.map Prod.fst) (key :: rest) with
    | nil => rw [hs] at hc; have := hc.join; simp at this
    | cons d ds =>
      cases d with
      | nil => rw [hs] at hc; have := hc.nonempty; simp at this
      | cons x xs =>
        rw [hs] at hc
        have := hc.join
        simp only [List.flatten_cons, List.cons_append, List.cons.injEq] at this
        exact ⟨xs, ds, by rw [this.1]⟩
  obtain ⟨args, cs, hs⟩ := hs
  simp [action, hs, solverNamespace, hl, List.mapM_cons, bind, Except.bind]

/-- Two solvers, one of which is given the flux `lax` by its short option: two pieces. -/
example : split ["mcl", "lax"] ["mcl", "+f", "lax", "+m", "8", "lax"] =
    [["mcl", "+f", "lax", "+m", "8"], ["lax"]] := by
  symm
  apply C74_unique
  refine ⟨rfl, ?_, ?_, ?_⟩
  · decide
  · decide
  · refine List.isChain_cons_cons.mpr ⟨⟨by simp, by simp, by decide⟩, by simp⟩

/-- The long form of the same option is not protected: three pieces. -/
example : split ["mcl", "lax"] ["mcl", "++flux", "lax", "lax"] =
    [["mcl", "++flux"], ["lax"], ["lax"]] := by
  symm
  apply C74_unique
  refine ⟨rfl, ?_, ?_, ?_⟩
  · decide
  · decide
  · refine List.isChain_cons_cons.mpr ⟨⟨by simp, by simp, by decide⟩,
      List.isChain_cons_cons.mpr ⟨⟨by simp, by simp, by decide⟩, by simp⟩⟩

end Action

/-! ### C55 -/

/-- C55.  A continuous Galerkin solver can be constructed exactly for the degrees 1 and 2 (and for the
default degree, given as `None` or 0).  For the degrees 3 to 7 the registered integrator does not know
the keyword it is constructed with (`TypeError`), other degrees are not registered (`KeyError`). -/
theorem C55_degrees (degree : Option ℕ) :
    ((∃ m, cgIntegrator degree = .ok m) ↔
      degree = none ∨ degree = some 0 ∨ degree = some 1 ∨ degree = some 2) ∧
    (cgIntegrator degree = .error .typeError ↔ ∃ d, degree = some d ∧ 3 ≤ d ∧ d ≤ 7) ∧
    (cgIntegrator degree = .error .keyError ↔ ∃ d, degree = some d ∧ 8 ≤ d) := by
  cases degree with
  | none =>
    have : cgIntegrator none = .ok .heun := by decide +kernel
    simp [this]
  | some d =>
    by_cases hd : d ≤ 7
    · interval_cases d
      · have : cgIntegrator (some 0) = .ok .heun := by decide +kernel
        simp [this]
      · have : cgIntegrator (some 1) = .ok .heun := by decide +kernel
        simp [this]
      · have : cgIntegrator (some 2) = .ok .ssp3 := by decide +kernel
        simp [this]
      · have : cgIntegrator (some 3) = .error .typeError := by decide +kernel
        simp [this]
      · have : cgIntegrator (some 4) = .error .typeError := by decide +kernel
        simp [this]
      · have : cgIntegrator (some 5) = .error .typeError := by decide +kernel
        simp [this]
      · have : cgIntegrator (some 6) = .error .typeError := by decide +kernel
        simp [this]
      · have : cgIntegrator (some 7) = .error .typeError := by decide +kernel
        simp [this]
    · obtain ⟨k, rfl⟩ : ∃ k, d = k + 8 := ⟨d - 8, by omega⟩
      have : cgIntegrator (some (k + 8)) = .error .keyError := rfl
      simp only [this]
      simp

/-- C55.  The integrator is the one of the default (Heun) for degree 1 and the strong stability
preserving method of third order for degree 2. -/
theorem C55_choice : cgIntegrator none = .ok .heun ∧ cgIntegrator (some 1) = .ok .heun ∧
    cgIntegrator (some 2) = .ok .ssp3 := by
  refine ⟨?_, ?_, ?_⟩ <;> decide +kernel

/-- C55.  The low order and the limited solver can be constructed with each integrator that can be
selected (`euler`, `heun`, `ssp3`). -/
theorem C55_other_solvers (choice : Option Method) :
    (∃ m, chosenIntegrator choice = .ok m) ↔ choice ≠ some .rungeKutta8 := by
  cases choice with
  | none =>
    have : chosenIntegrator none = .ok .heun := by decide +kernel
    simp [this]
  | some m =>
    cases m
    · have : chosenIntegrator (some .forwardEuler) = .ok .forwardEuler := by decide +kernel
      simp [this]
    · have : chosenIntegrator (some .heun) = .ok .heun := by decide +kernel
      simp [this]
    · have : chosenIntegrator (some .ssp3) = .ok .ssp3 := by decide +kernel
      simp [this]
    · have : chosenIntegrator (some .rungeKutta8) = .error .typeError := by decide +kernel
      simp [this]

/-! ### C71 -/

section Cache

variable {K : Type*} [DecidableEq K]

/-- No array is written after it has been passed to the flux approximation. -/
def NotModified (ops : List (Op K)) : Prop :=
  ops.Pairwise fun o o' => ∀ a v, o = .call a → o' ≠ .write a v

theorem anyDifferent_eq (a b : List K) (h : a.length = b.length) :
    anyDifferent a b = .ok (decide (a ≠ b)) := by
  unfold anyDifferent
  rw [if_pos h]
  congr 1
  induction a generalizing b with
  | nil => cases b with
    | nil => simp
    | cons y b => simp at h
  | cons x a ih => cases b with
    | nil => simp at h
    | cons y b =>
      have := ih b (by simpa using h)
      simp only [List.zipWith_cons_cons, List.any_cons, this, id]
      by_cases hxy : x = y <;> simp [hxy]

theorem anyDifferent_garbage (u : List K) (g : K) :
    anyDifferent u [g] = .ok (u.any fun x => decide (x ≠ g)) := by
  cases u with
  | nil => rfl
  | cons x u => cases u with
    | nil => simp [anyDifferent]
    | cons y u => simp [anyDifferent]

/-- The state of a used cache: it holds the flux of the array it remembers. -/
def Valid (c : Cache K) (mem : Memory K) (N : ℕ) (b : ℕ) : Prop :=
  c.last = some b ∧ (mem b).length = N ∧ c.cached = match c.flux with
    | .fresh f => .own (f (mem b))
    | .same => .ref b

theorem Valid.read {c : Cache K} {mem : Memory K} {N b : ℕ} (h : Valid c mem N b) :
    c.read mem = some (c.flux.value (mem b)) := by
  obtain ⟨-, -, h3⟩ := h
  cases hf : c.flux <;> (rw [hf] at h3; simp [Cache.read, h3, Flux.value])

theorem call_valid (c : Cache K) (mem : Memory K) (N a b : ℕ) (h : Valid c mem N b)
    (ha : (mem a).length = N) : (c.call mem a).1 = some (c.flux.value (mem a)) ∧
      (Valid (c.call mem a).2 mem N a ∨ (c.call mem a).2 = c) ∧ (c.call mem a).2.flux = c.flux := by
  have h3 := h.read
  obtain ⟨h1, h2, -⟩ := h
  simp only [Cache.call, h1, anyDifferent_eq _ _ (ha.trans h2.symm)]
  by_cases hab : mem a = mem b
  · simp [hab, h3]
  · simp only [hab, ne_eq, not_false_eq_true, decide_true]
    refine ⟨?_, Or.inl ⟨rfl, ha, rfl⟩, trivial⟩
    cases hf : c.flux <;> simp [Cache.read, Flux.value]

theorem call_init (flux : Flux K) (g : K) (mem : Memory K) (a : ℕ) :
    (¬ (∀ x ∈ mem a, x = g) → ((Cache.init flux g).call mem a).1 = some (flux.value (mem a)) ∧
      Valid ((Cache.init flux g).call mem a).2 mem (mem a).length a ∧
      ((Cache.init flux g).call mem a).2.flux = flux) ∧
    ((∀ x ∈ mem a, x = g) → (Cache.init flux g).call mem a = (none, Cache.init flux g)) := by
  constructor
  · intro h
    have e : ((mem a).any fun x => decide (x ≠ g)) = true := by
      push Not at h
      simpa using h
    simp only [Cache.call, Cache.init, anyDifferent_garbage, e]
    refine ⟨?_, ⟨rfl, rfl, rfl⟩, trivial⟩
    cases flux <;> simp [Cache.read, Flux.value]
  · intro h
    have e : ((mem a).any fun x => decide (x ≠ g)) = false := by
      simpa using h
    simp only [Cache.call, Cache.init, anyDifferent_garbage, e]
    simp [Cache.read]

theorem run_valid (ops : List (Op K)) (c : Cache K) (mem : Memory K) (N b : ℕ)
    (h : Valid c mem N b) (hops : c.flux = .same ∨ NotModified (.call b :: ops))
    (hlen : ∀ p ∈ run c mem ops, p.1.length = N) (hsame : c.flux = .same →
      ∀ a v, .write a v ∈ ops → v.length = N) :
    ∀ p ∈ run c mem ops, p.2 = some (c.flux.value p.1) := by
  induction ops generalizing c mem b with
  | nil => simp [run]
  | cons o ops ih =>
    have hops' : c.flux = .same ∨ (∀ v, o ≠ .write b v) ∧ NotModified (o :: ops) ∧
        NotModified (.call b :: ops) := by
      rcases hops with hops | hops
      · exact Or.inl hops
      · right
        unfold NotModified at *
        rw [List.pairwise_cons] at hops
        refine ⟨fun v => hops.1 o (by simp) b v rfl, hops.2, ?_⟩
        rw [List.pairwise_cons]
        exact ⟨fun o' ho' => hops.1 o' (by simp [ho']), (List.pairwise_cons.mp hops.2).2⟩
    have hsame' : c.flux = .same → ∀ a v, .write a v ∈ ops → v.length = N :=
      fun hs a v hav => hsame hs a v (by simp [hav])
    cases o with
    | call a =>
      simp only [run, List.mem_cons, forall_eq_or_imp] at hlen ⊢
      obtain ⟨h1, h2, h3⟩ := call_valid c mem N a b h hlen.1
      refine ⟨h1, ?_⟩
      rcases h2 with h2 | h2
      · have := ih _ mem a h2 (by rw [h3]; exact hops'.imp id fun h => h.2.1) hlen.2
          (by rw [h3]; exact hsame')
        rwa [h3] at this
      · rw [h2] at hlen ⊢
        exact ih c mem b h (hops'.imp id fun h => h.2.2) hlen.2 hsame'
    | write a v =>
      simp only [run] at hlen ⊢
      refine ih c _ b ?_ (hops'.imp id fun h => h.2.2) hlen hsame'
      obtain ⟨h1, h2, h3⟩ := h
      by_cases hab : a = b
      · subst hab
        rcases hops' with hs | hs
        · rw [hs] at h3
          refine ⟨h1, ?_, by rw [hs]; exact h3⟩
          rw [Function.update_self]
          exact hsame hs a v (by simp)
        · exact absurd rfl (hs.1 v)
      · have eb : Function.update mem a v b = mem b := Function.update_of_ne (Ne.symm hab) _ _
        exact ⟨h1, by rw [eb]; exact h2, by rw [eb]; exact h3⟩

theorem run_init (ops : List (Op K)) (flux : Flux K) (g : K) (mem : Memory K) (N : ℕ)
    (hops : flux = .same ∨ NotModified ops)
    (hlen : ∀ p ∈ run (Cache.init flux g) mem ops, p.1.length = N) (hsame : flux = .same →
      ∀ a v, .write a v ∈ ops → v.length = N)
    (hfirst : ∀ p ∈ (run (Cache.init flux g) mem ops).head?, ¬ ∀ x ∈ p.1, x = g) :
    ∀ p ∈ run (Cache.init flux g) mem ops, p.2 = some (flux.value p.1) := by
  induction ops generalizing mem with
  | nil => simp [run]
  | cons o ops ih =>
    cases o with
    | call a =>
      simp only [run, List.mem_cons, forall_eq_or_imp, List.head?_cons, Option.mem_def,
        Option.some.injEq] at hlen hfirst ⊢
      have hf := hfirst _ rfl
      obtain ⟨h1, h2, h3⟩ := (call_init flux g mem a).1 hf
      refine ⟨h1, ?_⟩
      rw [hlen.1] at h2
      have := run_valid ops _ mem N a h2 (by rw [h3]; exact hops) hlen.2
        (by rw [h3]; exact fun hs a v hav => hsame hs a v (by simp [hav]))
      rwa [h3] at this
    | write a v =>
      simp only [run] at hlen hfirst ⊢
      exact ih _ (hops.imp id fun h => (List.pairwise_cons.mp h).2) hlen
        (fun hs a v hav => hsame hs a v (by simp [hav])) hfirst

/-- C71.  Every call returns the flux of the current vector, if no vector is modified after it has
been passed, all vectors have the same length and the first one is not constant with the value that
happens to be in the uninitialised class attribute. -/
theorem C71_transparent (ops : List (Op K)) (flux : Flux K) (g : K) (mem : Memory K) (N : ℕ)
    (hops : NotModified ops) (hsame : ∀ a v, .write a v ∈ ops → v.length = N)
    (hlen : ∀ p ∈ run (Cache.init flux g) mem ops, p.1.length = N)
    (hfirst : ∀ p ∈ (run (Cache.init flux g) mem ops).head?, ¬ ∀ x ∈ p.1, x = g) :
    ∀ p ∈ run (Cache.init flux g) mem ops, p.2 = some (flux.value p.1) :=
  run_init ops flux g mem N (Or.inr hops) hlen (fun _ => hsame) hfirst

/-- C71.  For linear advection (the flux function returns its argument itself) vectors may also be
modified in place. -/
theorem C71_advection (ops : List (Op K)) (g : K) (mem : Memory K) (N : ℕ)
    (hsame : ∀ a v, .write a v ∈ ops → v.length = N)
    (hlen : ∀ p ∈ run (Cache.init .same g) mem ops, p.1.length = N)
    (hfirst : ∀ p ∈ (run (Cache.init .same g) mem ops).head?, ¬ ∀ x ∈ p.1, x = g) :
    ∀ p ∈ run (Cache.init .same g) mem ops, p.2 = some p.1 :=
  run_init ops .same g mem N (Or.inl rfl) hlen (fun _ => hsame) hfirst

/-- C71.  The second condition is needed: a first vector constant with the uninitialised value makes
the call fail. -/
theorem C71_first (flux : Flux K) (g : K) (mem : Memory K) (a : ℕ) (h : ∀ x ∈ mem a, x = g) :
    run (Cache.init flux g) mem [.call a] = [(mem a, none)] := by
  simp [run, (call_init flux g mem a).2 h]

/-- C71.  The first condition is needed: after an array has been modified in place the value of the
old contents is returned. -/
theorem C71_stale (f : List K → List K) (g : K) (mem : Memory K) (a : ℕ) (v : List K)
    (h : ¬ ∀ x ∈ mem a, x = g) (hv : v.length = (mem a).length) :
    run (Cache.init (.fresh f) g) mem [.call a, .write a v, .call a] =
      [(mem a, some (f (mem a))), (v, some (f (mem a)))] := by
  obtain ⟨h1, h2, h3⟩ := (call_init (.fresh f) g mem a).1 h
  simp only [run, h1, Function.update_self]
  generalize (Cache.init (.fresh f) g).call mem a = q at h2 h3
  obtain ⟨e1, -, e3⟩ := h2
  rw [h3] at e3
  simp [Cache.call, e1, anyDifferent_eq, Cache.read, e3, Flux.value]

/-- Two calls with different vectors and a repeated one, for the flux of Burgers' equation. -/
example : run (Cache.init (.fresh fun u => u.map fun x => 1 / 2 * x ^ 2) (0 : ℚ))
    (fun _ => [0, 0]) [.write 0 [1, 2], .call 0, .write 1 [3, 4], .call 1, .call 1] =
    [([1, 2], some [1 / 2, 2]), ([3, 4], some [9 / 2, 8]), ([3, 4], some [9 / 2, 8])] := by
  decide +kernel

/-- Modified in place: the second value is wrong. -/
example : run (Cache.init (.fresh fun u => u.map fun x => 1 / 2 * x ^ 2) (0 : ℚ))
    (fun _ => [1, 2]) [.call 0, .write 0 [3, 4], .call 0] =
    [([1, 2], some [1 / 2, 2]), ([3, 4], some [1 / 2, 2])] := by
  decide +kernel

end Cache

end Verif.Utilities
