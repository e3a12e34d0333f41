import Verif.Core.SWELemmas

/-!
Lemmas about the bathymetry and about monolithic convex limiting for shallow water.
-/

set_option linter.unusedSectionVars false

namespace Verif.SWE

open Verif.Py Verif.Boundary Verif.FV Verif.ODE

variable {K : Type*} [Field K] [LinearOrder K] [IsStrictOrderedRing K]

/-! ### Bathymetry -/

/-- The padded bathymetry. -/
def pad (b : List K) : List K := b.headD 0 :: b ++ [b.getLastD 0]

theorem diff_getD (l : List K) (j : ℕ) (hj : j + 1 < l.length) :
    (diff l).getD j 0 = l.getD (j + 1) 0 - l.getD j 0 := by
  have hlen : (diff l).length = l.length - 1 := by simp [diff]
  rw [List.getD_eq_getElem _ _ (by omega), List.getD_eq_getElem _ _ hj,
    List.getD_eq_getElem _ _ (by omega)]
  simp [diff]

theorem pad_length (b : List K) : (pad b).length = b.length + 2 := by simp [pad]

theorem pad_succ (b : List K) (j : ℕ) (hj : j < b.length) : (pad b).getD (j + 1) 0 = b.getD j 0 := by
  unfold pad
  rw [List.getD_eq_getElem _ _ (by simp; omega), List.getD_eq_getElem _ _ hj]
  simp [hj]

theorem pad_zero (b : List K) (hb : b ≠ []) : (pad b).getD 0 0 = b.getD 0 0 := by
  cases b with
  | nil => exact absurd rfl hb
  | cons x xs => rfl

theorem pad_last (b : List K) (hb : b ≠ []) :
    (pad b).getD (b.length + 1) 0 = b.getD (b.length - 1) 0 := by
  have hpos := List.length_pos_iff.mpr hb
  unfold pad
  rw [List.getD_eq_getElem _ _ (by simp), List.getD_eq_getElem _ _ (by omega)]
  simp only [List.cons_append, List.getElem_cons_succ]
  rw [List.getElem_append_right (le_refl _)]
  simp only [Nat.sub_self, List.getElem_cons_zero]
  rw [List.getLastD_eq_getLast?, List.getLast?_eq_getElem?, List.getElem?_eq_getElem (by omega)]
  rfl

/-- The steps of a bathymetry of a mesh with `n` cells: zero at both ends; all zero if the bathymetry
is missing or judged constant, else the differences of the padded bathymetry. -/
theorem steps_of_build (P : Params K) (b : Option (List K)) (n : ℕ) (hn : 0 < n)
    (hb : ∀ l, b = some l → l.length = n) (B : Bathymetry K) (h : buildBathymetry P b = .ok B) :
    ∃ ds, B.steps (n + 1) = .ok ds ∧ ds.length = n + 1 ∧ ds.getD 0 0 = 0 ∧ ds.getD n 0 = 0 ∧
      (B.values = none ∧ ds = List.replicate (n + 1) 0 ∨
       ∃ l, b = some l ∧ isConstant P l = .ok false ∧ B.values = some (pad l) ∧
        ∀ j < n + 1, ds.getD j 0 = (pad l).getD (j + 1) 0 - (pad l).getD j 0) := by
  have hrep : ∀ j, (List.replicate (n + 1) (0 : K)).getD j 0 = 0 := by
    intro j
    by_cases hj : j < n + 1
    · rw [List.getD_eq_getElem _ _ (by simpa using hj)]; simp
    · rw [List.getD_eq_default _ _ (by simpa using hj)]
  cases b with
  | none =>
    cases h
    exact ⟨_, rfl, by simp, hrep 0, hrep n, Or.inl ⟨rfl, rfl⟩⟩
  | some l =>
    simp only [buildBathymetry] at h
    cases hc : isConstant P l with
    | error e => rw [hc] at h; cases h
    | ok c =>
      rw [hc] at h
      cases c with
      | true =>
        cases h
        exact ⟨_, rfl, by simp, hrep 0, hrep n, Or.inl ⟨rfl, rfl⟩⟩
      | false =>
        cases h
        have hlen := hb l rfl
        have hne : l ≠ [] := by rintro rfl; simp at hlen; omega
        have hpl := pad_length l
        have hst : (⟨some (pad l)⟩ : Bathymetry K).steps (n + 1) = .ok (diff (pad l)) := by
          have : (diff (pad l)).length = n + 1 := by simp [diff, hpl]; omega
          simp only [Bathymetry.steps]
          rw [if_pos this]
        have hd : ∀ j < n + 1, (diff (pad l)).getD j 0 =
            (pad l).getD (j + 1) 0 - (pad l).getD j 0 :=
          fun j hj => diff_getD _ _ (by omega)
        refine ⟨_, hst, ?_, ?_, ?_, Or.inr ⟨l, rfl, hc, rfl, hd⟩⟩
        · simp [diff, hpl]; omega
        · rw [hd 0 (by omega), pad_zero l hne, pad_succ l 0 (by omega), sub_self]
        · rw [hd n (by omega)]
          have e1 := pad_last l hne
          rw [hlen] at e1
          have e2 := pad_succ l (n - 1) (by omega)
          rw [show n - 1 + 1 = n by omega] at e2
          rw [e1, e2, sub_self]

/-! ### Neighbours of cells -/

theorem mapM_some (xs : List K) : (xs.map some).mapM finite = .ok xs := by
  induction xs with
  | nil => rfl
  | cons x xs ih => rw [List.map_cons, List.mapM_cons, ih]; rfl

theorem replaceFirst_some (xs : List K) :
    replaceFirst (xs.map some) = (xs.map some : List (Option K)) := by
  cases xs <;> rfl

theorem replaceNans_id (xs : List K) : replaceNans (xs.map some) = .ok xs := by
  unfold replaceNans
  rw [replaceFirst_some, ← List.map_reverse, replaceFirst_some, ← List.map_reverse,
    List.reverse_reverse]
  exact mapM_some xs

theorem replaceNans_front (a : K) (xs : List K) :
    replaceNans (none :: some a :: xs.map some) = .ok (a :: a :: xs) :=
  replaceNans_id (a :: a :: xs)

theorem replaceNans_back (a : K) (xs : List K) :
    replaceNans (xs.map some ++ [some a] ++ [none]) = .ok (xs ++ [a, a]) := by
  unfold replaceNans
  have h1 : replaceFirst (xs.map some ++ [some a] ++ [none]) =
      (xs.map some ++ [some a] ++ [none] : List (Option K)) := by
    cases xs <;> rfl
  rw [h1]
  have h2 : (xs.map some ++ [some a] ++ [none] : List (Option K)).reverse =
      none :: some a :: (xs.map some).reverse := by simp
  rw [h2]
  have h3 : (replaceFirst (none :: some a :: (xs.map some).reverse)).reverse =
      (xs ++ [a, a]).map some := by
    simp [replaceFirst]
  rw [h3]
  exact mapM_some _

/-- Value of the node left of the cell with extended index `i`, on `n` cells. -/
def leftOf (per : Bool) (n : ℕ) (r : ℕ → K) (i : ℕ) : K :=
  if i = 0 then (if per then r (n - 1) else r 0) else r (i - 1)

/-- Value of the node right of the cell with extended index `i`. -/
def rightOf (per : Bool) (n : ℕ) (l : ℕ → K) (i : ℕ) : K :=
  if i = n + 1 then (if per then l 1 else l n) else l i

theorem leftOf_cons (per : Bool) (n : ℕ) (r : ℕ → K) :
    (List.range (n + 2)).map (leftOf per n r) =
      (if per then r (n - 1) else r 0) :: (List.range (n + 1)).map r := by
  rw [List.range_succ_eq_map, List.map_cons, List.map_map]
  simp [leftOf, Function.comp_def]

theorem rightOf_append (per : Bool) (n : ℕ) (l : ℕ → K) :
    (List.range (n + 2)).map (rightOf per n l) =
      (List.range (n + 1)).map l ++ [if per then l 1 else l n] := by
  rw [List.range_succ, List.map_append]
  congr 1
  · apply List.map_congr_left
    intro i hi
    have := List.mem_range.mp hi
    simp only [rightOf]
    rw [if_neg (by omega)]
  · simp [rightOf]

theorem cellNeighbours_eq (bc : BC K (State K)) (hbc : bc.left.length = 1) (n : ℕ) (hn : 0 < n)
    (l r : ℕ → K) :
    cellNeighbours bc ((List.range (n + 1)).map l) ((List.range (n + 1)).map r) =
      .ok ((List.range (n + 2)).map (leftOf bc.periodic n r),
        (List.range (n + 2)).map (rightOf bc.periodic n l)) := by
  rw [leftOf_cons, rightOf_append]
  unfold cellNeighbours BC.cellNeighbours
  simp only [BC.number, hbc, List.replicate_one, List.length_singleton, Option.getD_some]
  by_cases hp : bc.periodic = true
  · simp only [hp, if_true]
    have e1 : Py.get (((List.range (n + 1)).map r).map some) (-2 * ((1 : ℕ) : ℤ)) =
        .ok (some (r (n - 1))) := by
      have := get_neg (((List.range (n + 1)).map r).map some) (i := 1) (by simp; omega)
      rw [show (-((1 : ℕ) : ℤ) - 1) = -2 * ((1 : ℕ) : ℤ) by norm_num] at this
      rw [this]
      simp
    have e2 : Py.get (((List.range (n + 1)).map l).map some) (2 * ((1 : ℕ) : ℤ) - 1) =
        .ok (some (l 1)) := by
      have := get_nat (((List.range (n + 1)).map l).map some) (i := 1) (by simp; omega)
      rw [show (2 * ((1 : ℕ) : ℤ) - 1) = ((1 : ℕ) : ℤ) by norm_num, this]
      simp
    rw [e1, e2]
    simp only
    have f1 := replaceNans_id (r (n - 1) :: (List.range (n + 1)).map r)
    have f2 := replaceNans_id ((List.range (n + 1)).map l ++ [l 1])
    rw [List.map_cons] at f1
    rw [List.map_append, List.map_singleton] at f2
    rw [f1, f2]
  · have hp' : bc.periodic = false := by simpa using hp
    simp only [hp', Bool.false_eq_true, if_false]
    have hr : (List.range (n + 1)).map r = r 0 :: (List.range n).map (fun i => r (i + 1)) := by
      rw [List.range_succ_eq_map, List.map_cons, List.map_map]; rfl
    have hl : (List.range (n + 1)).map l = (List.range n).map l ++ [l n] := by
      rw [List.range_succ, List.map_append]; rfl
    rw [hr, hl]
    have f1 := replaceNans_front (r 0) ((List.range n).map (fun i => r (i + 1)))
    have f2 := replaceNans_back (l n) ((List.range n).map l)
    rw [List.map_cons, List.map_append, List.map_singleton, f1, f2]
    simp

/-! ### The limited flux -/

theorem zipWith_range {α β γ : Type*} (f : α → β → γ) (n : ℕ) (g : ℕ → α) (h : ℕ → β) :
    List.zipWith f ((List.range n).map g) ((List.range n).map h) =
      (List.range n).map (fun i => f (g i) (h i)) := by
  apply List.ext_getElem
  · simp
  · intro i _ _; simp

theorem zipE_range {α β γ : Type*} (f : α → β → Except Error γ) (n : ℕ) (g : ℕ → α) (h : ℕ → β)
    (k : ℕ → γ) (hk : ∀ i < n, f (g i) (h i) = .ok (k i)) :
    zipE f ((List.range n).map g) ((List.range n).map h) = .ok ((List.range n).map k) := by
  obtain ⟨fs, hfs⟩ := zipE_ok f ((List.range n).map g) ((List.range n).map h) (by
    intro i h1 h2
    have : i < n := by simpa using h1
    exact ⟨k i, by simpa using hk i this⟩)
  obtain ⟨h1, h2⟩ := zipE_ok_iff f _ _ fs hfs
  rw [hfs]
  congr 1
  have hl : fs.length = n := by rw [h1]; simp
  apply List.ext_getElem
  · simp [hl]
  · intro i hi1 hi2
    have := h2 i hi1 (by simp; omega) (by simp; omega)
    simp only [List.getElem_map, List.getElem_range] at this ⊢
    rw [hk i (by omega)] at this
    exact (Except.ok.inj this).symm

theorem mapM_range {α β : Type*} (f : α → Except Error β) (n : ℕ) (g : ℕ → α) (k : ℕ → β)
    (hk : ∀ i < n, f (g i) = .ok (k i)) :
    ((List.range n).map g).mapM f = .ok ((List.range n).map k) := by
  induction n with
  | zero => rfl
  | succ n ih =>
    rw [List.range_succ, List.map_append, List.mapM_append, ih (fun i hi => hk i (by omega))]
    simp only [List.map_cons, List.map_nil, List.mapM_cons, List.mapM_nil, hk n (Nat.lt_succ_self n),
      List.map_append]
    rfl

theorem mapM_ok_mem {α β : Type*} (f : α → Except Error β) (l : List α) (r : List β)
    (h : l.mapM f = .ok r) : ∀ x ∈ l, ∃ y, f x = .ok y := by
  induction l generalizing r with
  | nil => simp
  | cons a l ih =>
    rw [List.mapM_cons] at h
    cases ha : f a with
    | error e => rw [ha] at h; cases h
    | ok y =>
      rw [ha] at h
      cases hl : l.mapM f with
      | error e => rw [hl] at h; cases h
      | ok ys =>
        intro x hx
        rcases List.mem_cons.mp hx with rfl | hx
        · exact ⟨y, ha⟩
        · exact ih ys hl x hx

/-- Velocity bar state of a node. -/
def vbarOf (n : LowNode K) : K :=
  (n.dischargeLeft + n.dischargeRight) / (n.heightLeft + n.heightRight)

/-- Upper height bound of the cell with extended index `i`; `N` are the node values. -/
def hMax (per : Bool) (n : ℕ) (N : ℕ → LowNode K) (i : ℕ) : K :=
  max (leftOf per n (fun j => (N j).heightRight) i) (rightOf per n (fun j => (N j).heightLeft) i)

/-- Lower height bound. -/
def hMin (per : Bool) (n : ℕ) (N : ℕ → LowNode K) (i : ℕ) : K :=
  min (leftOf per n (fun j => (N j).heightRight) i) (rightOf per n (fun j => (N j).heightLeft) i)

/-- Upper velocity bound. -/
def vMax (per : Bool) (n : ℕ) (N : ℕ → LowNode K) (i : ℕ) : K :=
  max (leftOf per n (fun j => vbarOf (N j)) i) (max (rightOf per n (fun j => vbarOf (N j)) i)
    (max (leftOf per n (fun j => (N j).dischargeRight) i / leftOf per n (fun j => (N j).heightHLL) i)
      (rightOf per n (fun j => (N j).dischargeLeft) i /
        rightOf per n (fun j => (N j).heightHLL) i)))

/-- Lower velocity bound. -/
def vMin (per : Bool) (n : ℕ) (N : ℕ → LowNode K) (i : ℕ) : K :=
  min (leftOf per n (fun j => vbarOf (N j)) i) (min (rightOf per n (fun j => vbarOf (N j)) i)
    (min (leftOf per n (fun j => (N j).dischargeRight) i / leftOf per n (fun j => (N j).heightHLL) i)
      (rightOf per n (fun j => (N j).dischargeLeft) i /
        rightOf per n (fun j => (N j).heightHLL) i)))

/-- Limited flux at node `j`. -/
def limOf (per : Bool) (n : ℕ) (N : ℕ → LowNode K) (high : ℕ → State K) (j : ℕ) : State K :=
  limitedNode (N j) (vbarOf (N j)) (high j + -(N j).fluxRight) (hMax per n N j)
    (hMax per n N (j + 1)) (hMin per n N j) (hMin per n N (j + 1)) (vMax per n N j)
    (vMax per n N (j + 1)) (vMin per n N j) (vMin per n N (j + 1))

theorem heightBounds_eq (bc : BC K (State K)) (hbc : bc.left.length = 1) (n : ℕ) (hn : 0 < n)
    (N : ℕ → LowNode K) :
    heightBounds bc ((List.range (n + 1)).map N) =
      .ok ((List.range (n + 2)).map (hMax bc.periodic n N),
        (List.range (n + 2)).map (hMin bc.periodic n N)) := by
  unfold heightBounds
  simp only [List.map_map, Function.comp_def]
  rw [cellNeighbours_eq bc hbc n hn]
  simp only [zipWith_range]
  rfl

theorem leftOf_ne (per : Bool) (n : ℕ) (hn : 0 < n) (r : ℕ → K) (h : ∀ j < n + 1, r j ≠ 0) (i : ℕ)
    (hi : i < n + 2) : leftOf per n r i ≠ 0 := by
  unfold leftOf
  split_ifs <;> exact h _ (by omega)

theorem rightOf_ne (per : Bool) (n : ℕ) (hn : 0 < n) (r : ℕ → K) (h : ∀ j < n + 1, r j ≠ 0) (i : ℕ)
    (hi : i < n + 2) : rightOf per n r i ≠ 0 := by
  unfold rightOf
  split_ifs <;> exact h _ (by omega)

theorem velocityBounds_eq (bc : BC K (State K)) (hbc : bc.left.length = 1) (n : ℕ) (hn : 0 < n)
    (N : ℕ → LowNode K) (hN : ∀ j < n + 1, (N j).heightHLL ≠ 0) :
    velocityBounds bc ((List.range (n + 1)).map N)
      ((List.range (n + 1)).map (fun j => vbarOf (N j))) =
      .ok ((List.range (n + 2)).map (vMax bc.periodic n N),
        (List.range (n + 2)).map (vMin bc.periodic n N)) := by
  unfold velocityBounds
  simp only [List.map_map, Function.comp_def]
  rw [cellNeighbours_eq bc hbc n hn, cellNeighbours_eq bc hbc n hn, cellNeighbours_eq bc hbc n hn]
  simp only
  rw [zipE_range divE (n + 2) _ _ (fun i =>
      leftOf bc.periodic n (fun j => (N j).dischargeRight) i /
        leftOf bc.periodic n (fun j => (N j).heightHLL) i)
      (fun i hi => if_neg (leftOf_ne _ n hn _ hN i hi)),
    zipE_range divE (n + 2) _ _ (fun i =>
      rightOf bc.periodic n (fun j => (N j).dischargeLeft) i /
        rightOf bc.periodic n (fun j => (N j).heightHLL) i)
      (fun i hi => if_neg (rightOf_ne _ n hn _ hN i hi))]
  simp only [zipWith_range]
  rfl

theorem range_getD {α : Type*} (n : ℕ) (g : ℕ → α) (d : α) (i : ℕ) (hi : i < n) :
    ((List.range n).map g).getD i d = g i := by
  rw [List.getD_eq_getElem _ _ (by simpa using hi)]
  simp

/-- The MCL flux on an extended vector. -/
theorem mcl_call (P : Params K) (B : Bathymetry K) (bc : BC K (State K)) (hbc : bc.left.length = 1)
    (F : NumFlux (State K)) (n : ℕ) (hn : 0 < n) (ext : List (State K)) (hlen : ext.length = n + 2)
    (values : List (List (State K)))
    (hval : requiredValues 2 values = .ok [ext.dropLast, ext.tail]) (ds : List K)
    (hds : B.steps (n + 1) = .ok ds) (N : ℕ → LowNode K)
    (hN : ∀ j < n + 1, lowNode P (ext.getD j 0) (ext.getD (j + 1) 0) (ds.getD j 0) = .ok (N j))
    (hH : ∀ j < n + 1, (N j).heightHLL ≠ 0)
    (hsum : ∀ j < n + 1, (N j).heightLeft + (N j).heightRight ≠ 0)
    (hl : List (State K)) (high : ℕ → State K)
    (hF : F.call values = .ok (hl, (List.range (n + 1)).map high)) :
    (mcl P B bc F).call values =
      .ok ((List.range (n + 1)).map (fun j => (N j).fluxLeft + -limOf bc.periodic n N high j),
        (List.range (n + 1)).map (fun j => (N j).fluxRight + limOf bc.periodic n N high j)) := by
  simp only [mcl, hval, hF]
  rw [nodesE_ok B (lowNode P) n ext hlen ds hds N hN]
  simp only
  rw [heightBounds_eq bc hbc n hn N,
    mapM_range velocityBar (n + 1) N (fun j => vbarOf (N j)) (fun i hi => if_neg (hsum i hi))]
  simp only
  rw [velocityBounds_eq bc hbc n hn N hH]
  simp only [List.length_map, List.length_range, if_true]
  have hlim : (List.range (n + 1)).map (fun j =>
      limitedNode (((List.range (n + 1)).map N).getD j default)
        (((List.range (n + 1)).map (fun j => vbarOf (N j))).getD j 0)
        (((List.range (n + 1)).map high).getD j 0 +
          -(((List.range (n + 1)).map N).getD j default).fluxRight)
        (((List.range (n + 2)).map (hMax bc.periodic n N)).getD j 0)
        (((List.range (n + 2)).map (hMax bc.periodic n N)).getD (j + 1) 0)
        (((List.range (n + 2)).map (hMin bc.periodic n N)).getD j 0)
        (((List.range (n + 2)).map (hMin bc.periodic n N)).getD (j + 1) 0)
        (((List.range (n + 2)).map (vMax bc.periodic n N)).getD j 0)
        (((List.range (n + 2)).map (vMax bc.periodic n N)).getD (j + 1) 0)
        (((List.range (n + 2)).map (vMin bc.periodic n N)).getD j 0)
        (((List.range (n + 2)).map (vMin bc.periodic n N)).getD (j + 1) 0)) =
      (List.range (n + 1)).map (limOf bc.periodic n N high) := by
    apply List.map_congr_left
    intro j hj
    have hj' := List.mem_range.mp hj
    rw [range_getD _ _ _ _ hj', range_getD _ _ _ _ hj', range_getD _ _ _ _ hj',
      range_getD _ _ _ _ (by omega), range_getD _ _ _ _ (by omega), range_getD _ _ _ _ (by omega),
      range_getD _ _ _ _ (by omega), range_getD _ _ _ _ (by omega), range_getD _ _ _ _ (by omega),
      range_getD _ _ _ _ (by omega), range_getD _ _ _ _ (by omega)]
    rfl
  rw [hlim]
  simp only [List.map_map, Function.comp_def, zipWith_range]

/-- The bounds of the cells contain the bar heights of their nodes. -/
theorem hMax_left (per : Bool) (n : ℕ) (N : ℕ → LowNode K) (j : ℕ) (hj : j < n + 1) :
    hMin per n N j ≤ (N j).heightLeft ∧ (N j).heightLeft ≤ hMax per n N j := by
  have : rightOf per n (fun j => (N j).heightLeft) j = (N j).heightLeft := by
    simp only [rightOf]; rw [if_neg (by omega)]
  exact ⟨by rw [← this]; exact min_le_right _ _, by rw [← this]; exact le_max_right _ _⟩

theorem hMax_right (per : Bool) (n : ℕ) (N : ℕ → LowNode K) (j : ℕ) :
    hMin per n N (j + 1) ≤ (N j).heightRight ∧ (N j).heightRight ≤ hMax per n N (j + 1) := by
  have : leftOf per n (fun j => (N j).heightRight) (j + 1) = (N j).heightRight := by
    simp [leftOf]
  exact ⟨by rw [← this]; exact min_le_left _ _, by rw [← this]; exact le_max_left _ _⟩

theorem lowNode_inv (P : Params K) (hP : P.Good) (uL uR : State K) (step : K) (n : LowNode K)
    (h : lowNode P uL uR step = .ok n) :
    0 ≤ uL.1 ∧ 0 ≤ uR.1 ∧ 0 < maxSpeed P uL uR ∧ n = low P uL uR step := by
  cases hs : (riemann P).solve uL uR with
  | error e => simp only [lowNode, hs] at h; cases h
  | ok r =>
    obtain ⟨h1, h2, h3⟩ := solve_inv P uL uR r hs
    have hw : 0 < maxSpeed P uL uR := lt_of_le_of_ne (maxSpeed_nonneg P hP uL uR h1) (Ne.symm h3)
    refine ⟨h1, h2, hw, ?_⟩
    rw [lowNode_ok P uL uR step h1 h2 hw] at h
    exact (Except.ok.inj h).symm

/-- What is known if the low order flux does not raise. -/
theorem lowOrder_inv (P : Params K) (hP : P.Good) (B : Bathymetry K) (n : ℕ) (ext : List (State K))
    (hlen : ext.length = n + 2) (fl fr : List (State K))
    (h : (lowOrder P B).call [ext.dropLast, ext.tail] = .ok (fl, fr)) :
    ∃ ds, B.steps (n + 1) = .ok ds ∧
      (∀ j < n + 1, 0 ≤ (ext.getD j 0).1 ∧ 0 ≤ (ext.getD (j + 1) 0).1 ∧
        0 < maxSpeed P (ext.getD j 0) (ext.getD (j + 1) 0)) ∧
      fl = (List.range (n + 1)).map (fun j =>
        (low P (ext.getD j 0) (ext.getD (j + 1) 0) (ds.getD j 0)).fluxLeft) ∧
      fr = (List.range (n + 1)).map (fun j =>
        (low P (ext.getD j 0) (ext.getD (j + 1) 0) (ds.getD j 0)).fluxRight) := by
  simp only [lowOrder] at h
  cases hns : nodesE B (lowNode P) ext.dropLast ext.tail with
  | error e => rw [hns] at h; cases h
  | ok ns =>
    rw [hns] at h
    obtain ⟨ds, hds, _, hl, hj⟩ := nodesE_inv B (lowNode P) n ext hlen ns hns
    have key : ∀ j < n + 1, lowNode P (ext.getD j 0) (ext.getD (j + 1) 0) (ds.getD j 0) =
        .ok (low P (ext.getD j 0) (ext.getD (j + 1) 0) (ds.getD j 0)) := by
      intro j h1
      have := hj j (by omega)
      rw [this, (lowNode_inv P hP _ _ _ _ this).2.2.2]
    have hns' := nodesE_ok B (lowNode P) n ext hlen ds hds _ key
    rw [hns] at hns'
    have e := Except.ok.inj hns'
    cases h
    refine ⟨ds, hds, ?_, by rw [e]; simp [Function.comp_def], by rw [e]; simp [Function.comp_def]⟩
    intro j h1
    obtain ⟨a, b, c, _⟩ := lowNode_inv P hP _ _ _ _ (key j h1)
    exact ⟨a, b, c⟩

theorem low_sum (P : Params K) (uL uR : State K) (step : K) :
    (low P uL uR step).heightLeft + (low P uL uR step).heightRight =
      2 * (low P uL uR step).heightHLL := by
  simp only [low]; ring

/-- What is known if the MCL flux does not raise. -/
theorem mcl_inv (P : Params K) (hP : P.Good) (B : Bathymetry K) (bc : BC K (State K))
    (hbc : bc.left.length = 1) (F : NumFlux (State K)) (n : ℕ) (hn : 0 < n) (ext : List (State K))
    (hlen : ext.length = n + 2) (values : List (List (State K)))
    (hval : requiredValues 2 values = .ok [ext.dropLast, ext.tail]) (fl fr : List (State K))
    (h : (mcl P B bc F).call values = .ok (fl, fr)) :
    ∃ ds hl high, B.steps (n + 1) = .ok ds ∧ F.call values = .ok (hl, high) ∧
      high.length = n + 1 ∧
      (∀ j < n + 1, 0 ≤ (ext.getD j 0).1 ∧ 0 ≤ (ext.getD (j + 1) 0).1 ∧
        0 < maxSpeed P (ext.getD j 0) (ext.getD (j + 1) 0) ∧
        (barState P (ext.getD j 0) (ext.getD (j + 1) 0)).1 ≠ 0) ∧
      (let N := fun j => low P (ext.getD j 0) (ext.getD (j + 1) 0) (ds.getD j 0)
       fl = (List.range (n + 1)).map (fun j => (N j).fluxLeft +
        -limOf bc.periodic n N (fun j => high.getD j 0) j) ∧
       fr = (List.range (n + 1)).map (fun j => (N j).fluxRight +
        limOf bc.periodic n N (fun j => high.getD j 0) j)) := by
  have h' := h
  simp only [mcl, hval] at h
  cases hns : nodesE B (lowNode P) ext.dropLast ext.tail with
  | error e => rw [hns] at h; cases h
  | ok ns =>
    rw [hns] at h
    cases hF : F.call values with
    | error e => rw [hF] at h; cases h
    | ok p =>
      obtain ⟨hl, high⟩ := p
      rw [hF] at h
      simp only at h
      obtain ⟨ds, hds, _, hnl, hj⟩ := nodesE_inv B (lowNode P) n ext hlen ns hns
      have key : ∀ j < n + 1, lowNode P (ext.getD j 0) (ext.getD (j + 1) 0) (ds.getD j 0) =
          .ok (low P (ext.getD j 0) (ext.getD (j + 1) 0) (ds.getD j 0)) := by
        intro j h1
        have := hj j (by omega)
        rw [this, (lowNode_inv P hP _ _ _ _ this).2.2.2]
      have hns' := nodesE_ok B (lowNode P) n ext hlen ds hds _ key
      rw [hns] at hns'
      have e := Except.ok.inj hns'
      rw [e, heightBounds_eq bc hbc n hn] at h
      cases hm : ((List.range (n + 1)).map (fun j =>
          low P (ext.getD j 0) (ext.getD (j + 1) 0) (ds.getD j 0))).mapM velocityBar with
      | error e => rw [hm] at h; cases h
      | ok vb =>
        rw [hm] at h
        simp only at h
        have hsum : ∀ j < n + 1,
            (low P (ext.getD j 0) (ext.getD (j + 1) 0) (ds.getD j 0)).heightLeft +
            (low P (ext.getD j 0) (ext.getD (j + 1) 0) (ds.getD j 0)).heightRight ≠ 0 := by
          intro j h1 h0
          have hmem : low P (ext.getD j 0) (ext.getD (j + 1) 0) (ds.getD j 0) ∈
              (List.range (n + 1)).map (fun j =>
                low P (ext.getD j 0) (ext.getD (j + 1) 0) (ds.getD j 0)) :=
            List.mem_map.mpr ⟨j, List.mem_range.mpr h1, rfl⟩
          obtain ⟨y, hy⟩ := mapM_ok_mem velocityBar _ _ hm _ hmem
          rw [velocityBar, if_pos h0] at hy
          cases hy
        have hH : ∀ j < n + 1,
            (low P (ext.getD j 0) (ext.getD (j + 1) 0) (ds.getD j 0)).heightHLL ≠ 0 := by
          intro j h1 h0
          apply hsum j h1
          rw [low_sum, h0, mul_zero]
        have hhl : high.length = n + 1 := by
          by_contra hne
          cases hv : velocityBounds bc ((List.range (n + 1)).map (fun j =>
              low P (ext.getD j 0) (ext.getD (j + 1) 0) (ds.getD j 0))) vb with
          | error e => rw [hv] at h; cases h
          | ok q =>
            rw [hv] at h
            simp only [List.length_map, List.length_range, if_neg hne] at h
            cases h
        have hhigh : high = (List.range (n + 1)).map (fun j => high.getD j 0) := by
          apply List.ext_getElem
          · simp [hhl]
          · intro i h1 h2
            rw [List.getElem_map, List.getElem_range, List.getD_eq_getElem _ _ h1]
        have hc := mcl_call P B bc hbc F n hn ext hlen values hval ds hds _ key hH hsum hl
          (fun j => high.getD j 0) (by rw [hF, ← hhigh])
        rw [h'] at hc
        obtain ⟨e1, e2⟩ := Prod.mk.inj (Except.ok.inj hc)
        refine ⟨ds, hl, high, hds, rfl, hhl, ?_, e1, e2⟩
        intro j h1
        obtain ⟨a, b, c, _⟩ := lowNode_inv P hP _ _ _ _ (key j h1)
        exact ⟨a, b, c, hH j h1⟩

end Verif.SWE
