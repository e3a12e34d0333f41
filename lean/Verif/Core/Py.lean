import Mathlib.Data.List.GetD
import Mathlib.Data.List.OfFn
import Mathlib.Order.Basic

/-!
Python and numpy semantics used by the model: exceptions as values, indexing and slicing.
-/

namespace Verif.Py

/-- Python exceptions raised by the modelled code. -/
inductive Error where
  | indexError
  | valueError
  | assertionError
  | typeError
  | keyError
  | attributeError
  | zeroDivision
  | runtimeError
  /-- not a python exception: an array got a `nan` or `inf` entry (numpy does not raise); the
  solution object raises `ValueError` when it is given such a value -/
  | nonFinite
  deriving DecidableEq, Repr

/-- The call returned, and its result satisfies `p` (used in concrete examples). -/
def okAnd {ε α : Type*} (e : Except ε α) (p : α → Bool) : Bool :=
  match e with
  | .ok x => p x
  | .error _ => false

variable {V : Type*}

/-- `xs[i]` with python's meaning of negative indices. -/
def get (xs : List V) (i : ℤ) : Except Error V :=
  let j := if i < 0 then (xs.length : ℤ) + i else i
  if j < 0 then .error .indexError
  else
    match xs[j.toNat]? with
    | some v => .ok v
    | none => .error .indexError

/-- Position of a slice bound: negative bounds count from the end, bounds are clipped. -/
def bound (n : ℕ) (i : ℤ) : ℕ :=
  if i < 0 then ((n : ℤ) + i).toNat else min i.toNat n

/-- `xs[i:j]`. -/
def slice (xs : List V) (i j : ℤ) : List V :=
  (xs.take (bound xs.length j)).drop (bound xs.length i)

/-- `xs[i:]`. -/
def sliceFrom (xs : List V) (i : ℤ) : List V := xs.drop (bound xs.length i)

theorem get_nat (xs : List V) {i : ℕ} (h : i < xs.length) : get xs (i : ℤ) = .ok xs[i] := by
  have h1 : ¬ (i : ℤ) < 0 := by omega
  simp [get, h1, h]

theorem get_nat_error (xs : List V) {i : ℕ} (h : xs.length ≤ i) :
    get xs (i : ℤ) = .error .indexError := by
  have h1 : ¬ (i : ℤ) < 0 := by omega
  simp [get, h1, h]

theorem get_neg (xs : List V) {i : ℕ} (h : i < xs.length) :
    get xs (-(i : ℤ) - 1) = .ok (xs[xs.length - 1 - i]'(by omega)) := by
  have h1 : -(i : ℤ) - 1 < 0 := by omega
  have h2 : ¬ ((xs.length : ℤ) + (-(i : ℤ) - 1) < 0) := by omega
  have h3 : ((xs.length : ℤ) + (-(i : ℤ) - 1)).toNat = xs.length - 1 - i := by omega
  simp only [get, h1, if_true, h2, if_false, h3]
  rw [List.getElem?_eq_getElem (by omega)]

theorem get_neg_error (xs : List V) {i : ℕ} (h : xs.length ≤ i) :
    get xs (-(i : ℤ) - 1) = .error .indexError := by
  have h1 : -(i : ℤ) - 1 < 0 := by omega
  have h2 : ((xs.length : ℤ) + (-(i : ℤ) - 1) < 0) := by omega
  simp only [get, h1, if_true, h2]

theorem mapM_ok {α β ε : Type*} (f : α → Except ε β) (g : α → β) (l : List α)
    (h : ∀ x ∈ l, f x = .ok (g x)) : l.mapM f = .ok (l.map g) := by
  induction l with
  | nil => rfl
  | cons x l ih =>
    rw [List.mapM_cons, h x List.mem_cons_self, ih (fun y hy => h y (List.mem_cons_of_mem _ hy))]
    rfl

theorem mapM_eq_ok_length {α β ε : Type*} (f : α → Except ε β) (l : List α) (r : List β)
    (h : l.mapM f = .ok r) : r.length = l.length := by
  induction l generalizing r with
  | nil => cases h; rfl
  | cons x l ih =>
    rw [List.mapM_cons] at h
    cases hx : f x with
    | error e => rw [hx] at h; cases h
    | ok y =>
      rw [hx] at h
      cases hl : l.mapM f with
      | error e => rw [hl] at h; cases h
      | ok ys =>
        rw [hl] at h
        cases h
        simp [ih ys hl]

/-- A `mapM` that meets an error fails. -/
theorem mapM_error {α β ε : Type*} (f : α → Except ε β) (l : List α) (x : α) (hx : x ∈ l)
    (h : ∃ e, f x = .error e) : ∃ e, l.mapM f = .error e := by
  induction l with
  | nil => cases hx
  | cons y l ih =>
    rw [List.mapM_cons]
    cases hy : f y with
    | error e => exact ⟨e, rfl⟩
    | ok b =>
      rcases List.mem_cons.mp hx with rfl | hx'
      · rw [hy] at h; obtain ⟨e, he⟩ := h; cases he
      · obtain ⟨e, he⟩ := ih hx'
        exact ⟨e, by rw [he]; rfl⟩

/-- If all errors of `f` are the same one, so is the error of `mapM`. -/
theorem mapM_error_eq {α β ε : Type*} (f : α → Except ε β) (l : List α) (e : ε)
    (hall : ∀ x ∈ l, ∀ e', f x = .error e' → e' = e) (h : ∃ x ∈ l, ∃ e', f x = .error e') :
    l.mapM f = .error e := by
  induction l with
  | nil => obtain ⟨x, hx, _⟩ := h; cases hx
  | cons y l ih =>
    rw [List.mapM_cons]
    cases hy : f y with
    | error e' => rw [hall y List.mem_cons_self e' hy]; rfl
    | ok b =>
      have : l.mapM f = .error e := by
        apply ih (fun x hx => hall x (List.mem_cons_of_mem _ hx))
        obtain ⟨x, hx, e', he⟩ := h
        rcases List.mem_cons.mp hx with rfl | hx'
        · rw [hy] at he; cases he
        · exact ⟨x, hx', e', he⟩
      rw [this]; rfl

/-- `mapM` over the indices of a list. -/
theorem mapM_range {ε : Type*} (l : List V) (f : ℕ → Except ε V)
    (h : ∀ i (hi : i < l.length), f i = .ok l[i]) : (List.range l.length).mapM f = .ok l := by
  induction l generalizing f with
  | nil => rfl
  | cons x l ih =>
    rw [List.length_cons, List.range_succ_eq_map, List.mapM_cons, List.mapM_map]
    have h0 := h 0 (by simp)
    have h1 := ih (f ∘ Nat.succ) (fun i hi => by
      rw [Function.comp, h (i + 1) (by simpa using hi)]; rfl)
    rw [h0, h1]
    rfl

end Verif.Py
