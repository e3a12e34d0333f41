import Verif.Core.Training
import Verif.Props.Coarsen
import Mathlib.Tactic.FieldSimp
import Mathlib.Tactic.Positivity
import Mathlib.Tactic.LinearCombination

/-!
C101: training and use of the networks of reduced models.
-/

set_option linter.unusedSectionVars false

namespace Verif.Training

open Verif.Py

variable {K : Type*} [Field K] [LinearOrder K] [IsStrictOrderedRing K] {M : Type*}

/-- A square root of nonnegative numbers. -/
def IsRoot (rt : K → K) : Prop := ∀ x, 0 ≤ x → rt x ^ 2 = x

theorem variance_nonneg (xs : List K) : 0 ≤ variance xs := by
  unfold variance meanOf
  apply div_nonneg
  · apply List.sum_nonneg
    intro x hx
    obtain ⟨y, -, rfl⟩ := List.mem_map.mp hx
    positivity
  · exact Nat.cast_nonneg _

theorem scaleOf_ne (rt : K → K) (hrt : IsRoot rt) (xs : List K) : scaleOf rt xs ≠ 0 := by
  unfold scaleOf
  split
  · exact one_ne_zero
  · rename_i h
    intro h0
    have := hrt _ (variance_nonneg xs)
    rw [h0] at this
    exact h (by rw [← this]; ring)

/-- Scalers whose scales are not zero, for tables with `width` columns. -/
structure Good (s : Scaler K) (width : ℕ) : Prop where
  mean : s.mean.length = width
  scale : s.scale.length = width
  ne : ∀ j < width, s.scale.getD j 0 ≠ 0

theorem fit_good (rt : K → K) (hrt : IsRoot rt) (width : ℕ) (rows : List (List K)) (s : Scaler K)
    (h : Scaler.fit rt width rows = .ok s) : Good s width := by
  unfold Scaler.fit at h
  split at h
  · cases h
  · cases h
    refine ⟨by simp, by simp, fun j hj => ?_⟩
    rw [List.getD_eq_getElem _ _ (by simpa using hj)]
    simpa using scaleOf_ne rt hrt _

theorem good_inverse (s : Scaler K) (width : ℕ) (h : Good s width) (row : List K)
    (hr : row.length = width) :
    ∃ x, s.transform row = .ok x ∧ x.length = width ∧ s.inverse x = .ok row := by
  refine ⟨_, by rw [Scaler.transform, if_pos (by rw [hr, h.mean])], by simp [hr], ?_⟩
  rw [Scaler.inverse, if_pos (by simp [hr, h.mean])]
  congr 1
  apply List.ext_getElem (by simp)
  intro j hj hj'
  have hne := h.ne j (by omega)
  simp only [List.getElem_map, List.getElem_range]
  rw [List.getD_eq_getElem _ _ (by simpa using hj')]
  simp only [List.getElem_map, List.getElem_range]
  rw [div_mul_cancel₀ _ hne, sub_add_cancel, List.getD_eq_getElem]

/-- C101.  Scaling is undone exactly: a scaler fitted to any table transforms every row of the same
width, also rows it was not fitted to, and the inverse transformation gives the row back. -/
theorem C101_scaler_inverse (rt : K → K) (hrt : IsRoot rt) (width : ℕ) (rows : List (List K))
    (hrows : rows ≠ []) (row : List K) (hr : row.length = width) :
    ∃ s x, Scaler.fit rt width rows = .ok s ∧ s.transform row = .ok x ∧ s.inverse x = .ok row := by
  have hfit : ∃ s, Scaler.fit rt width rows = .ok s := ⟨_, by rw [Scaler.fit, if_neg hrows]⟩
  obtain ⟨s, hs⟩ := hfit
  obtain ⟨x, h1, -, h2⟩ := good_inverse s width (fit_good rt hrt width rows s hs) row hr
  exact ⟨s, x, hs, h1, h2⟩

theorem sum_map_affine (xs : List K) (m c : K) :
    (xs.map fun x => (x - m) / c).sum = (xs.sum - xs.length * m) / c := by
  induction xs with
  | nil => simp
  | cons x xs ih => simp only [List.map_cons, List.sum_cons, ih, List.length_cons]; push_cast; ring

theorem sum_map_div (xs : List K) (f : K → K) (c : K) :
    (xs.map fun x => f x / c).sum = (xs.map f).sum / c := by
  induction xs with
  | nil => simp
  | cons x xs ih => simp only [List.map_cons, List.sum_cons, ih]; ring

/-- C101.  What the module is trained on: every column of the scaled training data has mean 0 and
variance 1, or consists of zeros if the column was constant. -/
theorem C101_scaler_standard (rt : K → K) (hrt : IsRoot rt) (xs : List K) (hxs : xs ≠ []) :
    let scaled := xs.map fun x => (x - meanOf xs) / scaleOf rt xs
    meanOf scaled = 0 ∧ variance scaled = if variance xs = 0 then 0 else 1 := by
  intro scaled
  have hlen : (xs.length : K) ≠ 0 := Nat.cast_ne_zero.mpr (by simpa using hxs)
  have hm : meanOf scaled = 0 := by
    simp only [scaled, meanOf, List.length_map]
    rw [sum_map_affine, mul_div_cancel₀ _ hlen, sub_self, zero_div, zero_div]
  refine ⟨hm, ?_⟩
  have hv : variance scaled = variance xs / scaleOf rt xs ^ 2 := by
    unfold variance
    rw [hm]
    simp only [scaled, meanOf, List.length_map, List.map_map]
    rw [show ((fun x => (x - 0) ^ 2) ∘ fun x => (x - xs.sum / ↑xs.length) / scaleOf rt xs) =
      fun x => (x - xs.sum / ↑xs.length) ^ 2 / scaleOf rt xs ^ 2 by
        funext x; simp only [Function.comp, sub_zero, div_pow], sum_map_div]
    ring
  rw [hv]
  split
  · rename_i h; rw [h, zero_div]
  · rename_i h
    unfold scaleOf
    rw [if_neg h, hrt _ (variance_nonneg xs), div_self h]

/-! ### Training data -/

theorem flatten_length (l : List (K × K)) : (flatten l).length = 2 * l.length := by
  induction l with
  | nil => rfl
  | cons u l ih =>
    simp only [flatten, List.flatMap_cons, List.length_append, List.length_cons, List.length_nil] at ih ⊢
    omega

theorem stride_spec {α : Type*} (k : ℕ) (hk : 0 < k) (v : List α) :
    (Coarsen.stride k 0 v).length = (v.length + k - 1) / k ∧
    ∀ i (h : i < (Coarsen.stride k 0 v).length) (h' : k * i < v.length),
      (Coarsen.stride k 0 v)[i] = v[k * i] := by
  have key : ∀ m, (∀ j < m, k * j < v.length) → ∀ d : α,
      (List.range m).filterMap (fun j => v[0 + j * k]?) = (List.range m).map fun j => v.getD (k * j) d := by
    intro m hm d
    rw [← List.filterMap_eq_map]
    apply List.filterMap_congr
    intro j hj
    have := hm j (List.mem_range.mp hj)
    rw [zero_add, mul_comm j, List.getElem?_eq_getElem this, Function.comp, List.getD_eq_getElem _ _ this]
  have hb : ∀ j < (v.length - 0 + k - 1) / k, k * j < v.length := by
    intro j hj
    have h1 : (j + 1) * k ≤ v.length - 0 + k - 1 := (Nat.le_div_iff_mul_le hk).mp hj
    rw [add_mul, one_mul] at h1
    rw [mul_comm]
    omega
  cases v with
  | nil =>
    have : (k - 1) / k = 0 := Nat.div_eq_of_lt (by omega)
    simp [Coarsen.stride, this]
  | cons a v =>
    have he : Coarsen.stride k 0 (a :: v) =
        (List.range (((a :: v).length - 0 + k - 1) / k)).map fun j => (a :: v).getD (k * j) a :=
      key _ hb a
    refine ⟨by rw [he]; simp, fun i h h' => ?_⟩
    simp only [he, List.getElem_map, List.getElem_range]
    rw [List.getD_eq_getElem _ _ h']

/-- C101.  With skip `k`, training uses rows `0, k, 2k, ...` of the data file, one input and one target
for each; for rows written by `generate-data` the input is the flattened coarse stencil and the target
the subgrid flux of the same row. -/
theorem C101_training_data (skip : ℕ) (hs : 0 < skip) (r : ℕ) (data : List (List (K × K) × (K × K)))
    (hd : ∀ d ∈ data, d.1.length = 2 * r) :
    let p := trainingData skip (2 * (2 * r + 1)) (data.map fun d => flatten (d.1 ++ [d.2]))
    p.1.length = (data.length + skip - 1) / skip ∧ p.2.length = p.1.length ∧
    ∀ (i : ℕ) (h : i < p.1.length) (h' : i < p.2.length) (h'' : skip * i < data.length),
      p.1[i] = flatten data[skip * i].1 ∧ p.2[i] = flatten [data[skip * i].2] := by
  intro p
  obtain ⟨h1, h2⟩ := stride_spec skip hs (data.map fun d => flatten (d.1 ++ [d.2]))
  refine ⟨?_, by simp [p, trainingData], ?_⟩
  · simp only [p, trainingData, List.length_map]
    rw [h1, List.length_map]
  · intro i h h' h''
    have hi : i < (Coarsen.stride skip 0 (data.map fun d => flatten (d.1 ++ [d.2]))).length := by
      simpa [p, trainingData] using h
    have e := h2 i hi (by simpa using h'')
    rw [List.getElem_map] at e
    have hl : (flatten data[skip * i].1).length = 2 * (2 * r + 1) - 2 := by
      rw [flatten_length, hd _ (List.getElem_mem _)]; omega
    have hf : flatten (data[skip * i].1 ++ [data[skip * i].2]) =
        flatten data[skip * i].1 ++ flatten [data[skip * i].2] := by simp [flatten]
    simp only [p, trainingData, List.getElem_map, e, hf]
    rw [← hl]
    simp

/-! ### Using a network -/

/-- C101.  A saved network is the trained network: a new object that loads the files of a network which
has been fitted predicts the same for every input. -/
theorem C101_save_load (rt : K → K) (o : Oracle K M) (n n' : Network K M) (a b : ℕ)
    (X y : List (List K)) (epochs : ℕ) (h : n.fit rt o a b X y epochs = .ok n') (initial start : M)
    (row : List K) :
    (Network.load initial ⟨start, none, none⟩ n'.save).predict o row = n'.predict o row := by
  unfold Network.fit at h
  split at h
  · cases h
  · split at h
    · cases h
    · split at h
      · cases h
      · split at h
        · cases h
        · cases h
          rfl

/-- C101.  Loading never raises.  A new network that has loaded predicts without exception only if the
parameters and both scalers were found; the untrained network announced otherwise cannot be used. -/
theorem C101_missing_files (o : Oracle K M) (initial start : M) (f : Files K M) (row : List K) :
    (∀ y, (Network.load initial ⟨start, none, none⟩ f).predict o row = .ok y →
      ∃ m si so, f = ⟨some m, some si, some so⟩ ∧ (⟨m, some si, some so⟩ : Network K M).predict o row = .ok y) ∧
    ((f.network = none ∨ f.input = none ∨ f.output = none) →
      (Network.load initial ⟨start, none, none⟩ f).predict o row = .error .valueError) := by
  obtain ⟨m, si, so⟩ := f
  have key : (m = none ∨ si = none ∨ so = none) →
      (Network.load initial ⟨start, none, none⟩ ⟨m, si, so⟩).predict o row = .error .valueError := by
    intro h
    cases m with
    | none => rfl
    | some m =>
      cases si with
      | none => rfl
      | some si =>
        cases so with
        | none =>
          simp only [Network.load, Network.predict]
          unfold Scaler.transform
          split <;> rename_i h
          · split at h <;> cases h; rfl
          · rfl
        | some so => simp at h
  refine ⟨fun y hy => ?_, key⟩
  cases m with
  | none => rw [key (by simp)] at hy; cases hy
  | some m =>
    cases si with
    | none => rw [key (by simp)] at hy; cases hy
    | some si =>
      cases so with
      | none => rw [key (by simp)] at hy; cases hy
      | some so => exact ⟨m, si, so, rfl, hy⟩

theorem mapM_get {α β ε : Type*} (f : α → Except ε β) (l : List α) (r : List β) (h : l.mapM f = .ok r) :
    l.length = r.length ∧ ∀ i (hi : i < l.length) (hi' : i < r.length), f l[i] = .ok r[i] := by
  induction l generalizing r with
  | nil => cases h; exact ⟨rfl, fun i hi => by simp at hi⟩
  | cons a l ih =>
    rw [List.mapM_cons] at h
    cases ha : f a with
    | error e => rw [ha] at h; cases h
    | ok b =>
      rw [ha] at h
      cases hl : l.mapM f with
      | error e => simp only [hl] at h; cases h
      | ok bs =>
        simp only [hl] at h
        cases h
        obtain ⟨h1, h2⟩ := ih bs hl
        refine ⟨by simp [h1], fun i hi hi' => ?_⟩
        cases i with
        | zero => exact ha
        | succ i => exact h2 i (by simpa using hi) (by simpa using hi')

/-- C101.  Scaling does not get in the way: if the trained module maps every scaled input to the scaled
target, the network predicts the targets themselves. -/
theorem C101_fit (rt : K → K) (hrt : IsRoot rt) (o : Oracle K M) (n n' : Network K M) (a b : ℕ)
    (X y : List (List K)) (epochs : ℕ) (hy : ∀ row ∈ y, row.length = b) (hlen : X.length = y.length)
    (h : n.fit rt o a b X y epochs = .ok n') (si so : Scaler K) (hsi : n'.input = some si)
    (hso : n'.output = some so)
    (hfit : ∀ (i : ℕ) (h1 : i < X.length) (h2 : i < y.length) (x t : List K),
      si.transform X[i] = .ok x → so.transform y[i] = .ok t → o.apply n'.module x = t)
    (i : ℕ) (h1 : i < X.length) (h2 : i < y.length) :
    n'.predict o X[i] = .ok y[i] := by
  unfold Network.fit at h
  split at h
  · cases h
  · rename_i si' e1
    split at h
    · cases h
    · rename_i X' e2
      split at h
      · cases h
      · rename_i so' e3
        split at h
        · cases h
        · rename_i y' e4
          cases h
          cases hsi
          cases hso
          obtain ⟨l1, t1⟩ := mapM_get _ _ _ e2
          obtain ⟨l2, t2⟩ := mapM_get _ _ _ e4
          have hx := t1 i h1 (by omega)
          have ht := t2 i h2 (by omega)
          have happ := hfit i h1 h2 _ _ hx ht
          simp only [Network.predict, hx, happ]
          obtain ⟨t, u1, -, u2⟩ := good_inverse so b (fit_good rt hrt b y so e3) y[i]
            (hy _ (List.getElem_mem _))
          rw [u1] at ht
          rw [← Except.ok.inj ht]
          exact u2

/-- C101.  From data to use: train on the rows written by `generate-data`, save without confirmation,
load into a new network.  If the trained module fits the scaled data, the network returns for every
coarse stencil used in training the subgrid flux recorded with it. -/
theorem C101_pipeline (rt : K → K) (hrt : IsRoot rt) (o : Oracle K M) (n n' : Network K M) (r : ℕ)
    (data : List (List (K × K) × (K × K))) (hd : ∀ d ∈ data, d.1.length = 2 * r)
    (epochs skip : Option ℕ) (E S : ℕ) (hS : 0 < orDefault skip S) (answers : List String)
    (files : Files K M) (saved : Option (Files K M))
    (h : execute rt o n (2 * (2 * r + 1)) (data.map fun d => flatten (d.1 ++ [d.2])) epochs skip E S false
      answers files = .ok (n', saved))
    (si so : Scaler K) (hsi : n'.input = some si) (hso : n'.output = some so)
    (hfit : ∀ d ∈ data, ∀ x t, si.transform (flatten d.1) = .ok x → so.transform (flatten [d.2]) = .ok t →
      o.apply n'.module x = t)
    (initial start : M) (i : ℕ) (hi : orDefault skip S * i < data.length) :
    ∃ f, saved = some f ∧
      (Network.load initial ⟨start, none, none⟩ f).predict o
        (flatten data[orDefault skip S * i].1) = .ok (flatten [data[orDefault skip S * i].2]) := by
  unfold execute at h
  simp only at h
  split at h
  · cases h
  · rename_i m hm
    obtain ⟨rfl, rfl⟩ := Prod.mk.inj (Except.ok.inj h)
    refine ⟨m.save, by cases answers <;> rfl, ?_⟩
    rw [C101_save_load rt o n m _ _ _ _ _ hm]
    obtain ⟨t1, t2, t3⟩ := C101_training_data (orDefault skip S) hS r data hd
    have hlt : i < (data.length + orDefault skip S - 1) / orDefault skip S := by
      rw [Nat.lt_iff_add_one_le, Nat.le_div_iff_mul_le hS, add_mul, one_mul, mul_comm i]
      omega
    have hb : ∀ j < (data.length + orDefault skip S - 1) / orDefault skip S,
        orDefault skip S * j < data.length := by
      intro j hj
      have h1 : (j + 1) * orDefault skip S ≤ _ := (Nat.le_div_iff_mul_le hS).mp hj
      rw [add_mul, one_mul] at h1
      rw [mul_comm]
      omega
    have g := C101_fit rt hrt o n m _ 2 _ _ _ (by
        intro row hrow
        obtain ⟨j, hj, rfl⟩ := List.getElem_of_mem hrow
        obtain ⟨-, e⟩ := t3 j (by omega) hj (hb j (by omega))
        rw [e]
        rfl) (by omega) hm si so hsi hso (by
        intro j h1 h2 x t hx ht
        obtain ⟨e1, e2⟩ := t3 j h1 h2 (hb j (by omega))
        rw [e1] at hx
        rw [e2] at ht
        exact hfit _ (List.getElem_mem _) x t hx ht) i (by omega) (by omega)
    obtain ⟨e1, e2⟩ := t3 i (by omega) (by omega) hi
    rw [e1, e2] at g
    exact g

/-- C101.  Without `--confirm` the parameters are saved without question; with it the first valid answer
decides, and nothing is decided if there is none. -/
theorem C101_confirm (answers : List String) :
    let yes := fun a : String => a.toLower = "y" ∨ a.toLower = "yes"
    let no := fun a : String => a.toLower = "n" ∨ a.toLower = "no"
    saveParams false answers = some true ∧
    ((∀ a ∈ answers, ¬ yes a ∧ ¬ no a) → saveParams true answers = none) ∧
    ∀ before a after, answers = before ++ a :: after → (∀ b ∈ before, ¬ yes b ∧ ¬ no b) →
      (yes a → saveParams true answers = some true) ∧ (no a → saveParams true answers = some false) := by
  intro yes no
  have skip : ∀ before rest, (∀ b ∈ before, ¬ yes b ∧ ¬ no b) →
      saveParams true (before ++ rest) = saveParams true rest := by
    intro before rest h
    induction before with
    | nil => rfl
    | cons b before ih =>
      obtain ⟨h1, h2⟩ := h b (by simp)
      simp only [List.cons_append, saveParams]
      rw [if_neg h1, if_neg h2]
      exact ih fun c hc => h c (List.mem_cons_of_mem _ hc)
  refine ⟨by cases answers <;> rfl, fun h => ?_, ?_⟩
  · have := skip answers [] h
    rw [List.append_nil] at this
    rw [this]
    rfl
  · rintro before a after rfl h
    rw [skip before _ h]
    refine ⟨fun ha => by simp only [saveParams]; rw [if_pos ha], fun ha => ?_⟩
    have hn : ¬ yes a := by
      rintro (hy | hy) <;> rcases ha with hn | hn <;> rw [hy] at hn <;> simp at hn
    simp only [saveParams]
    rw [if_neg hn, if_pos ha]

/-- The number used for an option that may be missing: the default also stands for zero. -/
def Used (option : Option ℕ) (default k : ℕ) : Prop :=
  (option = some k ∧ k ≠ 0) ∨ ((option = none ∨ option = some 0) ∧ k = default)

theorem used_eq (option : Option ℕ) (default k : ℕ) (h : Used option default k) : orDefault option default = k := by
  rcases h with ⟨rfl, hk⟩ | ⟨rfl | rfl, rfl⟩
  · cases k with
    | zero => exact absurd rfl hk
    | succ k => rfl
  · rfl
  · rfl

/-- C101.  What `train-network` does: the module is trained, for the number of epochs asked for, with the scaled rows; the
scalers are those of the data used.  The files are written with the new parameters if so decided, and are left alone
if the answer is no. -/
theorem C101_execute (rt : K → K) (o : Oracle K M) (n n' : Network K M) (columns : ℕ) (rows : List (List K))
    (epochs skip : Option ℕ) (E S e k : ℕ) (he : Used epochs E e) (hk : Used skip S k) (confirm : Bool)
    (answers : List String) (files : Files K M) (saved : Option (Files K M))
    (h : execute rt o n columns rows epochs skip E S confirm answers files = .ok (n', saved)) :
    let X := (trainingData k columns rows).1
    let y := (trainingData k columns rows).2
    (∃ si so X' y', Scaler.fit rt (columns - 2) X = .ok si ∧ Scaler.fit rt 2 y = .ok so ∧
      n' = ⟨o.train n.module X' y' e, some si, some so⟩ ∧
      (X'.length = X.length ∧ ∀ (i : ℕ) (hi : i < X.length) (hi' : i < X'.length), si.transform X[i] = .ok X'[i]) ∧
      (y'.length = y.length ∧ ∀ (i : ℕ) (hi : i < y.length) (hi' : i < y'.length), so.transform y[i] = .ok y'[i])) ∧
    (saveParams confirm answers = none → saved = none) ∧
    (saveParams confirm answers = some true → saved = some ⟨some n'.module, n'.input, n'.output⟩) ∧
    (saveParams confirm answers = some false → saved = some files) := by
  intro X y
  unfold execute at h
  simp only [used_eq _ _ _ he, used_eq _ _ _ hk] at h
  change (match n.fit rt o (columns - 2) 2 X y e with
    | .error e => Except.error e
    | .ok n' => Except.ok (n', (saveParams confirm answers).map fun (save : Bool) => if save then n'.save else files)) = _ at h
  cases hf : n.fit rt o (columns - 2) 2 X y e with
  | error e => rw [hf] at h; cases h
  | ok m =>
    rw [hf] at h
    obtain ⟨rfl, rfl⟩ := Prod.mk.inj (Except.ok.inj h)
    refine ⟨?_, fun h => by rw [h]; rfl, fun h => by rw [h]; rfl, fun h => by rw [h]; rfl⟩
    unfold Network.fit at hf
    split at hf
    · cases hf
    · rename_i si e1
      split at hf
      · cases hf
      · rename_i X' e2
        split at hf
        · cases hf
        · rename_i so e3
          split at hf
          · cases hf
          · rename_i y' e4
            cases hf
            obtain ⟨l1, t1⟩ := mapM_get _ _ _ e2
            obtain ⟨l2, t2⟩ := mapM_get _ _ _ e4
            exact ⟨si, so, X', y', e1, e3, rfl, ⟨l1.symm, t1⟩, ⟨l2.symm, t2⟩⟩

/-- C101.  Resumed training (`--resume`) starts from the saved parameters if their file exists, else from a new module;
missing scalers do not matter. -/
theorem C101_resume (rt : K → K) (o : Oracle K M) (initial start : M) (f : Files K M) (a b : ℕ) (X y : List (List K))
    (epochs : ℕ) :
    (∀ m, f.network = some m → (Network.load initial ⟨start, none, none⟩ f).fit rt o a b X y epochs =
      (⟨m, none, none⟩ : Network K M).fit rt o a b X y epochs) ∧
    (f.network = none → (Network.load initial ⟨start, none, none⟩ f).fit rt o a b X y epochs =
      (⟨initial, none, none⟩ : Network K M).fit rt o a b X y epochs) := by
  obtain ⟨m, si, so⟩ := f
  refine ⟨?_, ?_⟩
  · rintro m' h
    simp only at h
    subst h
    cases si with
    | none => rfl
    | some si =>
      cases so with
      | none => rfl
      | some so => rfl
  · rintro h
    simp only at h
    subst h
    rfl

/-- Square root on the numbers that occur below. -/
def exampleRt (x : ℚ) : ℚ := if x = 1 then 1 else if x = 4 then 2 else if x = 1 / 4 then 1 / 2 else x

/-- Two rows with a stencil of two cells; the module that maps scaled inputs to scaled targets is here
the first and last column.  Trained, saved, loaded and applied. -/
example : let o : Oracle ℚ Unit := ⟨fun _ x => [x.getD 0 0, x.getD 3 0], fun _ _ _ _ => ()⟩
    let data : List (List (ℚ × ℚ) × (ℚ × ℚ)) := [([(1, 0), (2, 3)], (5, 1)), ([(3, 0), (2, 4)], (7, 3))]
    okAnd (execute exampleRt o ⟨(), none, none⟩ 6 (data.map fun d => flatten (d.1 ++ [d.2])) none none 500 1
      false [] ⟨none, none, none⟩) (fun p => match p.2 with
        | none => false
        | some f => decide ((Network.load () ⟨(), none, none⟩ f).predict o [1, 0, 2, 3] = .ok [5, 1] ∧
          (Network.load () ⟨(), none, none⟩ f).predict o [3, 0, 2, 4] = .ok [7, 3] ∧
          (Network.load () ⟨(), none, none⟩ f).predict o [5, 0, 2, 4] = .ok [9, 3])) = true := by
  decide +kernel

/-- A non-zero number of epochs is used, zero means the default. -/
example : Used (some 7) 500 7 ∧ Used (some 0) 500 500 ∧ ¬ Used (some 0) 500 0 := by
  refine ⟨Or.inl ⟨rfl, by norm_num⟩, Or.inr ⟨Or.inr rfl, rfl⟩, ?_⟩
  rintro (⟨-, h⟩ | ⟨-, h⟩)
  · exact h rfl
  · norm_num at h

example : saveParams true ["maybe", "No", "y"] = some false := by decide +kernel

end Verif.Training
