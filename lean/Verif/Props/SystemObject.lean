import Verif.Core.SystemObject
import Mathlib.Tactic.FieldSimp

/-!
Property C109: which entries the operations of a system matrix use after any sequence of calls.

Entries are edited one by one (`A[i, j] = x`); products, sums and solutions of systems use a snapshot.
-/

set_option linter.unusedSectionVars false

namespace Verif.FE

open Verif.Py

variable {K : Type} [Field K] [LinearOrder K] [IsStrictOrderedRing K] {F : Type}

/-! ### Specification -/

/-- The calls that take a snapshot of the entries. -/
def MatrixOp.Snapshot : MatrixOp K → Prop
  | .setValues _ => True
  | .updateCsr => True
  | _ => False

/-- `x` solves the system with the entries `a`. -/
def SolvesSystem (n : ℕ) (a : ℕ → ℕ → K) (b x : List K) : Prop :=
  x.length = n ∧ ∀ i < n, ∑ j ∈ Finset.range n, a i j * x.getD j 0 = b.getD i 0

/-- What is assumed of scipy: results of `spsolve` and of `SuperLU.solve` solve the system. -/
structure Scipy.Correct (o : Scipy K F) : Prop where
  spsolve : ∀ n a b x, o.spsolve n a b = .ok x → SolvesSystem n a b x
  factor : ∀ n a f, o.splu n a = .ok f → ∀ b x, o.solve f b = .ok x → SolvesSystem n a b x

/-- The entries shown by `A()` and `A[i, j]` after a sequence of calls, starting from zero. -/
def shown (o : Scipy K F) (n : ℕ) (ops : List (MatrixOp K)) : ℕ → ℕ → K :=
  ((MatrixObj.init n : MatrixObj K F).run o ops).mat.lil

/-! ### Lemmas -/

theorem run_concat (o : Scipy K F) (m : MatrixObj K F) (ops : List (MatrixOp K)) (op : MatrixOp K) :
    m.run o (ops ++ [op]) = ((m.run o ops).apply o op).1 := by
  simp [MatrixObj.run, List.foldl_append]

theorem csr_step (o : Scipy K F) (m : MatrixObj K F) (op : MatrixOp K) (h : ¬ op.Snapshot) :
    (m.apply o op).1.mat.csr = m.mat.csr := by
  cases op with
  | set i j x =>
    simp only [MatrixObj.apply]
    split
    · rename_i A h
      exact (setItem_keeps _ _ _ _ _ h).2
    · rfl
  | setValues a => exact absurd trivial h
  | updateCsr => exact absurd trivial h
  | buildInverse =>
    simp only [MatrixObj.apply, MatrixObj.buildInverse]
    split
    · rfl
    · split <;> rfl

theorem csr_run (o : Scipy K F) (m : MatrixObj K F) (ops : List (MatrixOp K))
    (h : ∀ op ∈ ops, ¬ op.Snapshot) : (m.run o ops).mat.csr = m.mat.csr := by
  induction ops generalizing m with
  | nil => rfl
  | cons op ops ih =>
    have := ih (m.apply o op).1 (fun q hq => h q (by simp [hq]))
    rw [csr_step o m op (h op (by simp))] at this
    exact this

/-- The snapshot after the last call that takes one. -/
theorem csr_last (o : Scipy K F) (n : ℕ) (before after : List (MatrixOp K)) (s : MatrixOp K)
    (hs : s.Snapshot) (h : ∀ op ∈ after, ¬ op.Snapshot) :
    ((MatrixObj.init n : MatrixObj K F).run o (before ++ s :: after)).mat.csr =
      some (shown o n (before ++ [s])) := by
  rw [show before ++ s :: after = (before ++ [s]) ++ after by simp, run_append, csr_run o _ _ h]
  unfold shown
  rw [run_append]
  cases s with
  | set i j x => exact absurd hs id
  | buildInverse => exact absurd hs id
  | setValues a => rfl
  | updateCsr => rfl

theorem inverse_run (o : Scipy K F) (m : MatrixObj K F) (ops : List (MatrixOp K))
    (h : MatrixOp.buildInverse ∉ ops) :
    (m.run o ops).inverse = m.inverse ∧ (m.run o ops).handle = m.handle := by
  induction ops generalizing m with
  | nil => exact ⟨rfl, rfl⟩
  | cons op ops ih =>
    obtain ⟨h1, h2⟩ := ih (m.apply o op).1 (fun hq => h (by simp [hq]))
    have e : (m.apply o op).1.inverse = m.inverse ∧ (m.apply o op).1.handle = m.handle := by
      cases op with
      | set i j x =>
        simp only [MatrixObj.apply]
        split <;> exact ⟨rfl, rfl⟩
      | setValues a => exact ⟨rfl, rfl⟩
      | updateCsr => exact ⟨rfl, rfl⟩
      | buildInverse => exact absurd (by simp) h
    exact ⟨h1.trans e.1, h2.trans e.2⟩

/-! ### C109 -/

/-- C109.  Editing: an entry shows the last value written to it, negative indices counting from the end;
the other entries are not changed.  Indices outside the matrix raise and change nothing. -/
theorem C109_edit (o : Scipy K F) (n : ℕ) (ops : List (MatrixOp K)) (i j : ℤ) (x : K) :
    (-n ≤ i ∧ i < n ∧ -n ≤ j ∧ j < n →
      (∀ a b : ℕ, a < n → b < n → shown o n (ops ++ [.set i j x]) a b =
        if ((a : ℤ) = i ∨ (a : ℤ) = n + i) ∧ ((b : ℤ) = j ∨ (b : ℤ) = n + j) then x
          else shown o n ops a b)) ∧
    (¬ (-n ≤ i ∧ i < n ∧ -n ≤ j ∧ j < n) →
      (((MatrixObj.init n : MatrixObj K F).run o ops).apply o (.set i j x)).2 = some .indexError ∧
      (MatrixObj.init n : MatrixObj K F).run o (ops ++ [.set i j x]) =
        (MatrixObj.init n : MatrixObj K F).run o ops) := by
  have hd : ((MatrixObj.init n : MatrixObj K F).run o ops).mat.dimension = n :=
    run_dimension o (MatrixObj.init n : MatrixObj K F) ops
  constructor
  · intro h a b ha hb
    unfold shown
    rw [run_concat]
    have hpos : 0 ≤ (if i < 0 then i + n else i) ∧ (if i < 0 then i + n else i) < n ∧
        0 ≤ (if j < 0 then j + n else j) ∧ (if j < 0 then j + n else j) < n := by
      split_ifs <;> omega
    simp only [MatrixObj.apply, SysMatrix.setItem, SysMatrix.set, hd, if_pos hpos]
    have e : (a = (if i < 0 then i + n else i).toNat ∧ b = (if j < 0 then j + n else j).toNat) ↔
        (((a : ℤ) = i ∨ (a : ℤ) = n + i) ∧ ((b : ℤ) = j ∨ (b : ℤ) = n + j)) := by
      split_ifs <;> omega
    simp only [e]
  · intro h
    have e : ((MatrixObj.init n : MatrixObj K F).run o ops).mat.setItem i j x = .error .indexError := by
      unfold SysMatrix.setItem SysMatrix.set
      rw [hd, if_neg]
      split_ifs <;> omega
    constructor
    · simp only [MatrixObj.apply, e]
    · rw [run_concat]
      simp only [MatrixObj.apply, e]

/-- C109.  Products use the entries as they were at the last `update_csr_values` or `set_values`, whatever
was written since; without such a call they raise `AttributeError`. -/
theorem C109_dot (o : Scipy K F) (n : ℕ) (before after : List (MatrixOp K)) (s : MatrixOp K)
    (hs : s.Snapshot) (h : ∀ op ∈ after, ¬ op.Snapshot) (v : List K) (hv : v.length = n) :
    (∃ w, ((MatrixObj.init n : MatrixObj K F).run o (before ++ s :: after)).mat.dot v = .ok w ∧
      w.length = n ∧ ∀ i < n, w.getD i 0 =
        ∑ j ∈ Finset.range n, shown o n (before ++ [s]) i j * v.getD j 0) ∧
    ((MatrixObj.init n : MatrixObj K F).run o after).mat.dot v = .error .attributeError := by
  constructor
  · have hd := run_dimension o (MatrixObj.init n : MatrixObj K F) (before ++ s :: after)
    have hd' : ((MatrixObj.init n : MatrixObj K F).run o (before ++ s :: after)).mat.dimension = n := hd
    refine ⟨mulVec n (shown o n (before ++ [s])) v, ?_, by simp [mulVec], fun i hi => ?_⟩
    · unfold SysMatrix.dot
      rw [csr_last o n before after s hs h, hd']
      simp [hv]
    · unfold mulVec
      rw [List.getD_eq_getElem _ _ (by simpa using hi), List.getElem_map, List.getElem_range]
  · unfold SysMatrix.dot
    rw [csr_run o _ _ h]
    rfl

/-- C109.  Sums and differences of matrices combine the snapshots, while `multiply_row` and
`multiply_column` use the entries that are being edited. -/
theorem C109_combine (o : Scipy K F) (n : ℕ) (before after before' after' : List (MatrixOp K))
    (s s' : MatrixOp K) (hs : s.Snapshot) (hs' : s'.Snapshot) (h : ∀ op ∈ after, ¬ op.Snapshot)
    (h' : ∀ op ∈ after', ¬ op.Snapshot) (f : K → K → K) (v : ℕ → K) (i j : ℕ) :
    ((MatrixObj.init n : MatrixObj K F).run o (before ++ s :: after)).combine f
      ((MatrixObj.init n : MatrixObj K F).run o (before' ++ s' :: after')) =
        .ok (fun i j => f (shown o n (before ++ [s]) i j) (shown o n (before' ++ [s']) i j)) ∧
    ((MatrixObj.init n : MatrixObj K F).run o (before ++ s :: after)).multiplyRow v i j =
      shown o n (before ++ s :: after) i j * v j ∧
    ((MatrixObj.init n : MatrixObj K F).run o (before ++ s :: after)).multiplyColumn v i j =
      shown o n (before ++ s :: after) i j * v i := by
  refine ⟨?_, rfl, rfl⟩
  unfold MatrixObj.combine
  rw [csr_last o n before after s hs h, csr_last o n before' after' s' hs' h']

/-- C109.  Without `build_inverse`, `inverse` solves the system with the last snapshot. -/
theorem C109_inverse (o : Scipy K F) (ho : o.Correct) (n : ℕ) (before after : List (MatrixOp K))
    (s : MatrixOp K) (hs : s.Snapshot) (h : ∀ op ∈ after, ¬ op.Snapshot)
    (hb : MatrixOp.buildInverse ∉ before ++ s :: after) (b x : List K) :
    let m := (MatrixObj.init n : MatrixObj K F).run o (before ++ s :: after)
    m.handle = .spsolve ∧
    (m.call o m.handle b = .ok x → SolvesSystem n (shown o n (before ++ [s])) b x) := by
  intro m
  have hh : m.handle = .spsolve := (inverse_run o _ _ hb).2
  refine ⟨hh, fun hx => ?_⟩
  have hd : m.mat.dimension = n := run_dimension o (MatrixObj.init n : MatrixObj K F) _
  rw [hh] at hx
  simp only [MatrixObj.call, m] at hx
  rw [csr_last o n before after s hs h] at hx
  have hx' : o.spsolve m.mat.dimension (shown o n (before ++ [s])) b = .ok x := hx
  rw [hd] at hx'
  exact ho.spsolve _ _ _ _ hx'

/-- C109.  After `build_inverse`, `inverse` solves the system with the snapshot at the time of that call,
whatever is written, updated or set afterwards, until the next successful `build_inverse`; only a function
that was taken from `inverse` before follows the snapshots. -/
theorem C109_build_inverse (o : Scipy K F) (ho : o.Correct) (n : ℕ)
    (before middle after : List (MatrixOp K)) (s : MatrixOp K) (hs : s.Snapshot)
    (h : ∀ op ∈ middle, ¬ op.Snapshot) (hb : MatrixOp.buildInverse ∉ after) (f : F)
    (hf : o.splu n (shown o n (before ++ [s])) = .ok f) (b x : List K) :
    let m := (MatrixObj.init n : MatrixObj K F).run o (before ++ s :: (middle ++ .buildInverse :: after))
    m.handle = .factor ∧
    (m.call o m.handle b = .ok x → SolvesSystem n (shown o n (before ++ [s])) b x) ∧
    (∀ (a₀ a₁ : List (MatrixOp K)) (s' : MatrixOp K), after = a₀ ++ s' :: a₁ → s'.Snapshot →
      (∀ op ∈ a₁, ¬ op.Snapshot) → m.call o .spsolve b = .ok x →
      SolvesSystem n (shown o n (before ++ s :: (middle ++ .buildInverse :: (a₀ ++ [s'])))) b x) := by
  intro m
  set m1 := (MatrixObj.init n : MatrixObj K F).run o (before ++ s :: middle) with hm1
  have hcsr : m1.mat.csr = some (shown o n (before ++ [s])) := csr_last o n before middle s hs h
  have hd1 : m1.mat.dimension = n := run_dimension o (MatrixObj.init n : MatrixObj K F) _
  have hd : m.mat.dimension = n := run_dimension o (MatrixObj.init n : MatrixObj K F) _
  have hm : m = ((m1.apply o .buildInverse).1).run o after := by
    have : before ++ s :: (middle ++ .buildInverse :: after) =
        (before ++ s :: middle) ++ (.buildInverse :: after) := by simp
    show (MatrixObj.init n : MatrixObj K F).run o _ = _
    rw [this, run_append]
    rfl
  have hbuild : (m1.apply o .buildInverse).1 = { m1 with inverse := some f, handle := .factor } := by
    simp only [MatrixObj.apply, MatrixObj.buildInverse, hcsr, hd1, hf]
  obtain ⟨i1, i2⟩ := inverse_run o (m1.apply o .buildInverse).1 after hb
  rw [← hm, hbuild] at i1 i2
  refine ⟨i2, fun hx => ?_, ?_⟩
  · rw [i2] at hx
    simp only [MatrixObj.call, i1] at hx
    exact ho.factor _ _ _ hf _ _ hx
  · intro a₀ a₁ s' ha hs' h1 hx
    have e : before ++ s :: (middle ++ .buildInverse :: after) =
        (before ++ s :: (middle ++ .buildInverse :: a₀)) ++ s' :: a₁ := by simp [ha]
    have hc : m.mat.csr = some (shown o n ((before ++ s :: (middle ++ .buildInverse :: a₀)) ++ [s'])) := by
      show ((MatrixObj.init n : MatrixObj K F).run o _).mat.csr = _
      rw [e]
      exact csr_last o n _ a₁ s' hs' h1
    simp only [MatrixObj.call, hc, hd] at hx
    have := ho.spsolve _ _ _ _ hx
    simpa using this

/-- C109.  A failing `build_inverse` (no snapshot, or a factorisation that raises) changes nothing: the
exception is passed on and `inverse` is as before. -/
theorem C109_build_fails (o : Scipy K F) (n : ℕ) (ops : List (MatrixOp K)) :
    let m := (MatrixObj.init n : MatrixObj K F).run o ops
    ((∀ op ∈ ops, ¬ op.Snapshot) → m.apply o .buildInverse = (m, some .attributeError)) ∧
    (∀ (before after : List (MatrixOp K)) (s : MatrixOp K) (e : Error), ops = before ++ s :: after →
      s.Snapshot → (∀ op ∈ after, ¬ op.Snapshot) → o.splu n (shown o n (before ++ [s])) = .error e →
      m.apply o .buildInverse = (m, some e)) := by
  intro m
  have hd : m.mat.dimension = n := run_dimension o (MatrixObj.init n : MatrixObj K F) _
  constructor
  · intro h
    have : m.mat.csr = none := csr_run o _ _ h
    simp only [MatrixObj.apply, MatrixObj.buildInverse, this]
  · intro before after s e hops hs h he
    have hc : m.mat.csr = some (shown o n (before ++ [s])) := by
      show ((MatrixObj.init n : MatrixObj K F).run o ops).mat.csr = _
      rw [hops]
      exact csr_last o n before after s hs h
    simp only [MatrixObj.apply, MatrixObj.buildInverse, hc, hd, he]

/-- `k` calls of `assemble`. -/
def assembleTimes (g : IndexMap) (entry : ℕ → ℕ → ℕ → K) : ℕ → SysMatrix K → Except Error (SysMatrix K)
  | 0, A => .ok A
  | k + 1, A =>
    match assembleTimes g entry k A with
    | .error e => .error e
    | .ok A' => A'.assemble g entry

/-- C109.  Assembling is not idempotent: the constructor assembles once, and after `k` further calls of
`assemble` every entry and every product is `k + 1` times that of the assembled matrix. -/
theorem C109_assemble (g : IndexMap) (hp : 0 < g.degree) (entry : ℕ → ℕ → ℕ → K) (k : ℕ) :
    ∃ A B, assembleMatrix g entry = .ok A ∧ assembleTimes g entry k A = .ok B ∧
      (∀ i j, B.lil i j = (k + 1) * A.lil i j) ∧
      ∀ v : List K, v.length = g.dimension → ∃ w w', A.dot v = .ok w ∧ B.dot v = .ok w' ∧
        w' = w.map fun x => ((k : K) + 1) * x := by
  obtain ⟨A, h1, h2, h3, h4⟩ := assembleMatrix_spec g hp entry
  have key : ∃ B, assembleTimes g entry k A = .ok B ∧ B.dimension = g.dimension ∧ B.csr = some B.lil ∧
      ∀ i j, B.lil i j = (k + 1) * A.lil i j := by
    induction k with
    | zero => exact ⟨A, rfl, h2, h3, fun i j => by simp⟩
    | succ k ih =>
      obtain ⟨B, b1, b2, b3, b4⟩ := ih
      obtain ⟨C, c1, c2, c3, c4⟩ := assemble_spec g hp entry B b2
      refine ⟨C, by simp only [assembleTimes, b1]; exact c1, c2, c3, fun i j => ?_⟩
      rw [c4, b4, ← h4]
      push_cast
      ring
  obtain ⟨B, b1, b2, b3, b4⟩ := key
  refine ⟨A, B, h1, b1, b4, fun v hv => ?_⟩
  refine ⟨mulVec g.dimension A.lil v, mulVec g.dimension B.lil v, ?_, ?_, ?_⟩
  · simp [SysMatrix.dot, h3, h2, hv]
  · simp [SysMatrix.dot, b3, b2, hv]
  · unfold mulVec
    rw [List.map_map]
    refine List.map_congr_left fun i _ => ?_
    simp only [Function.comp, b4, Finset.mul_sum]
    exact Finset.sum_congr rfl fun j _ => by ring

/-! ### Examples -/

/-- Solvers for matrices of dimension 1. -/
def exampleScipy : Scipy ℚ ℚ where
  spsolve n a b := if n = 1 ∧ a 0 0 ≠ 0 then .ok [b.getD 0 0 / a 0 0] else .error .runtimeError
  splu n a := if n = 1 ∧ a 0 0 ≠ 0 then .ok (a 0 0) else .error .runtimeError
  solve f b := .ok [b.getD 0 0 / f]

theorem exampleScipy_correct : exampleScipy.Correct where
  spsolve n a b x h := by
    simp only [exampleScipy] at h
    split at h
    · rename_i hn
      cases h
      obtain ⟨rfl, h0⟩ := hn
      refine ⟨rfl, fun i hi => ?_⟩
      obtain rfl : i = 0 := by omega
      simp
      field_simp
    · cases h
  factor n a f h b x hx := by
    simp only [exampleScipy] at h hx
    split at h
    · rename_i hn
      cases h
      cases hx
      obtain ⟨rfl, h0⟩ := hn
      refine ⟨rfl, fun i hi => ?_⟩
      obtain rfl : i = 0 := by omega
      simp
      field_simp
    · cases h

/-- After `A[0, 0] = 2; A.update_csr_values(); A.build_inverse(); A[0, 0] = 4; A.update_csr_values()` the
inverse still divides by 2, products use 4. -/
example :
    let m := (MatrixObj.init 1 : MatrixObj ℚ ℚ).run exampleScipy
      [.set 0 0 2, .updateCsr, .buildInverse, .set 0 0 4, .updateCsr]
    m.call exampleScipy m.handle [8] = .ok [4] ∧ m.call exampleScipy .spsolve [8] = .ok [2] ∧
      m.mat.dot [1] = .ok [4] := by
  refine ⟨?_, ?_, ?_⟩ <;>
    norm_num [MatrixObj.run, MatrixObj.apply, MatrixObj.init, SysMatrix.init, SysMatrix.setItem, SysMatrix.set,
      SysMatrix.updateCsr, MatrixObj.buildInverse, MatrixObj.call, exampleScipy, SysMatrix.dot, mulVec]

/-- The hypotheses of `C109_build_inverse` are satisfiable. -/
example : exampleScipy.splu 1 (shown exampleScipy 1 ([.set 0 0 2] ++ [.updateCsr])) = .ok 2 := by
  norm_num [shown, MatrixObj.run, MatrixObj.apply, MatrixObj.init, SysMatrix.init, SysMatrix.setItem, SysMatrix.set,
      SysMatrix.updateCsr, exampleScipy]

end Verif.FE
