import Verif.Core.FELemmas

/-!
Model of `SystemMatrix` (`core/system.py` lines 46-110) as an object that is changed by its methods, with
`build_inverse`, and of a repeated `assemble` of `LocallyAssembledSystemMatrix`
(`finite_element/system.py` lines 68-83).

`scipy.sparse.linalg.spsolve` and `splu` are parameters of the model.  Values passed to `set_values` have
the dimension of the matrix.  Negative indices count from the end, as in scipy.
-/

set_option linter.unusedSectionVars false

namespace Verif.FE

open Verif.Py

variable {K : Type} [Field K] [LinearOrder K] [IsStrictOrderedRing K]

/-- The solvers of scipy: `spsolve(A, b)`, `splu(A)` with the factorisations `F`, and
`SuperLU.solve`. -/
structure Scipy (K F : Type) where
  spsolve : ℕ → (ℕ → ℕ → K) → List K → Except Error (List K)
  splu : ℕ → (ℕ → ℕ → K) → Except Error F
  solve : F → List K → Except Error (List K)

/-- The two functions that `inverse` can return: both read the attributes of the matrix when they are
called (lines 56 and 71). -/
inductive Handle where
  | spsolve
  | factor
  deriving DecidableEq

/-- A `SystemMatrix` with `_inverse` and `_inverse_function` (lines 49-57). -/
structure MatrixObj (K F : Type) where
  mat : SysMatrix K
  inverse : Option F
  handle : Handle

/-- `__init__`, lines 53-57. -/
def MatrixObj.init {F : Type} (n : ℕ) : MatrixObj K F := ⟨SysMatrix.init n, none, .spsolve⟩

/-- `set_values`, lines 65-67. -/
def SysMatrix.setValues (A : SysMatrix K) (a : ℕ → ℕ → K) : SysMatrix K :=
  { A with lil := a, csr := some a }

/-- `assemble` of `LocallyAssembledSystemMatrix`, `finite_element/system.py` lines 68-83: the entries are
added to those that are there. -/
def SysMatrix.assemble (g : IndexMap) (entry : ℕ → ℕ → ℕ → K) (A : SysMatrix K) :
    Except Error (SysMatrix K) :=
  match g.pairs.foldlM (fun A q => do
    let i ← g.call q.1 q.2.1
    let j ← g.call q.1 q.2.2
    let old ← A.get i j
    A.set i j (old + entry q.1 q.2.1 q.2.2)) A with
  | .error e => .error e
  | .ok A' => .ok A'.updateCsr

/-- `__setitem__`, lines 83-84, with the indices of scipy: `-n ≤ i < n`, negative ones count from the
end. -/
def SysMatrix.setItem (A : SysMatrix K) (i j : ℤ) (x : K) : Except Error (SysMatrix K) :=
  A.set (if i < 0 then i + A.dimension else i) (if j < 0 then j + A.dimension else j) x

/-- The methods that change the matrix. -/
inductive MatrixOp (K : Type) where
  | set (i j : ℤ) (x : K)
  | setValues (a : ℕ → ℕ → K)
  | updateCsr
  | buildInverse

/-- `build_inverse`, lines 69-71. -/
def MatrixObj.buildInverse {F : Type} (o : Scipy K F) (m : MatrixObj K F) : MatrixObj K F × Option Error :=
  match m.mat.csr with
  | none => (m, some .attributeError)
  | some a =>
    match o.splu m.mat.dimension a with
    | .error e => (m, some e)
    | .ok f => ({ m with inverse := some f, handle := .factor }, none)

/-- One call of a method. -/
def MatrixObj.apply {F : Type} (o : Scipy K F) (m : MatrixObj K F) :
    MatrixOp K → MatrixObj K F × Option Error
  | .set i j x =>
    match m.mat.setItem i j x with
    | .ok A => ({ m with mat := A }, none)
    | .error e => (m, some e)
  | .setValues a => ({ m with mat := m.mat.setValues a }, none)
  | .updateCsr => ({ m with mat := m.mat.updateCsr }, none)
  | .buildInverse => m.buildInverse o

/-- A sequence of calls; exceptions are caught by the caller. -/
def MatrixObj.run {F : Type} (o : Scipy K F) (m : MatrixObj K F) (ops : List (MatrixOp K)) : MatrixObj K F :=
  ops.foldl (fun m op => (m.apply o op).1) m

/-- A call of a function that `inverse` (lines 73-75) returned. -/
def MatrixObj.call {F : Type} (o : Scipy K F) (m : MatrixObj K F) (h : Handle) (b : List K) :
    Except Error (List K) :=
  match h with
  | .spsolve =>
    match m.mat.csr with
    | none => .error .attributeError
    | some a => o.spsolve m.mat.dimension a b
  | .factor =>
    match m.inverse with
    | none => .error .attributeError
    | some f => o.solve f b

/-- `multiply_row`, lines 98-103: the entries `m_ij v_j` of the values that are being edited. -/
def MatrixObj.multiplyRow {F : Type} (m : MatrixObj K F) (v : ℕ → K) (i j : ℕ) : K := m.mat.lil i j * v j

/-- `multiply_column`, lines 105-110: `m_ij v_i`. -/
def MatrixObj.multiplyColumn {F : Type} (m : MatrixObj K F) (v : ℕ → K) (i j : ℕ) : K :=
  m.mat.lil i j * v i

/-- `__add__` and `__sub__`, lines 89-93. -/
def MatrixObj.combine {F : Type} (f : K → K → K) (m m' : MatrixObj K F) : Except Error (ℕ → ℕ → K) :=
  match m.mat.csr, m'.mat.csr with
  | some a, some b => .ok fun i j => f (a i j) (b i j)
  | _, _ => .error .attributeError

/-! ### Lemmas -/

theorem set_keeps (A B : SysMatrix K) (i j : ℤ) (x : K) (h : A.set i j x = .ok B) :
    B.dimension = A.dimension ∧ B.csr = A.csr := by
  unfold SysMatrix.set at h
  split at h <;> cases h
  exact ⟨rfl, rfl⟩

theorem setItem_keeps (A B : SysMatrix K) (i j : ℤ) (x : K) (h : A.setItem i j x = .ok B) :
    B.dimension = A.dimension ∧ B.csr = A.csr := set_keeps A B _ _ x h

theorem run_append {F : Type} (o : Scipy K F) (m : MatrixObj K F) (a b : List (MatrixOp K)) :
    m.run o (a ++ b) = (m.run o a).run o b := by
  simp [MatrixObj.run, List.foldl_append]

theorem run_dimension {F : Type} (o : Scipy K F) (m : MatrixObj K F) (ops : List (MatrixOp K)) :
    (m.run o ops).mat.dimension = m.mat.dimension := by
  induction ops using List.reverseRecOn with
  | nil => rfl
  | append_singleton l op ih =>
    rw [run_append, ← ih]
    generalize m.run o l = w
    cases op with
    | set i j x =>
      simp only [MatrixObj.run, List.foldl_cons, List.foldl_nil, MatrixObj.apply]
      split
      · rename_i A h
        exact (setItem_keeps _ _ _ _ _ h).1
      · rfl
    | setValues a => rfl
    | updateCsr => rfl
    | buildInverse =>
      simp only [MatrixObj.run, List.foldl_cons, List.foldl_nil, MatrixObj.apply, MatrixObj.buildInverse]
      split
      · rfl
      · split <;> rfl

/-- The repeated assembly. -/
theorem assemble_spec (g : IndexMap) (hp : 0 < g.degree) (entry : ℕ → ℕ → ℕ → K) (A0 : SysMatrix K)
    (h0 : A0.dimension = g.dimension) :
    ∃ A, A0.assemble g entry = .ok A ∧ A.dimension = g.dimension ∧ A.csr = some A.lil ∧
      ∀ i j, A.lil i j = A0.lil i j + ∑ c ∈ Finset.range g.meshSize, ∑ l ∈ Finset.range (g.degree + 1),
        ∑ l' ∈ Finset.range (g.degree + 1),
          if g.idx c l = i ∧ g.idx c l' = j then entry c l l' else 0 := by
  have key : ∀ (L : List (ℕ × ℕ × ℕ)) (A0 : SysMatrix K), A0.dimension = g.dimension →
      (∀ q ∈ L, q.1 < g.meshSize ∧ q.2.1 ≤ g.degree ∧ q.2.2 ≤ g.degree) →
      ∃ A, L.foldlM (fun A q => do
          let i ← g.call (q.1 : ℕ) (q.2.1 : ℕ)
          let j ← g.call (q.1 : ℕ) (q.2.2 : ℕ)
          let old ← A.get i j
          A.set i j (old + entry q.1 q.2.1 q.2.2)) A0 = .ok A ∧ A.dimension = g.dimension ∧
        ∀ i j, A.lil i j = A0.lil i j + (L.map fun q =>
          if g.idx q.1 q.2.1 = i ∧ g.idx q.1 q.2.2 = j then entry q.1 q.2.1 q.2.2 else 0).sum := by
    intro L
    induction L with
    | nil => intro A0 h0 _; exact ⟨A0, rfl, h0, fun i j => by simp⟩
    | cons q L ih =>
      intro A0 h0 hL
      obtain ⟨h1, h2, h3⟩ := hL q (by simp)
      have hlt := idx_lt g q.1 q.2.1 h1 h2 hp
      have hlt' := idx_lt g q.1 q.2.2 h1 h3 hp
      obtain ⟨A, e1, e2, e3⟩ := ih
        { A0 with lil := fun a b => if a = g.idx q.1 q.2.1 ∧ b = g.idx q.1 q.2.2 then
            A0.lil (g.idx q.1 q.2.1) (g.idx q.1 q.2.2) + entry q.1 q.2.1 q.2.2 else A0.lil a b }
        h0 (fun q' hq' => hL q' (by simp [hq']))
      refine ⟨A, ?_, e2, ?_⟩
      · rw [List.foldlM_cons]
        simp only [call_nat g _ _ h2, call_nat g _ _ h3, bind, Except.bind, SysMatrix.get,
          SysMatrix.set]
        rw [if_pos ⟨by omega, by omega, by omega, by omega⟩]
        simp only [if_pos (show (0 : ℤ) ≤ (g.idx q.1 q.2.1 : ℤ) ∧
          (g.idx q.1 q.2.1 : ℤ) < A0.dimension ∧ (0 : ℤ) ≤ (g.idx q.1 q.2.2 : ℤ) ∧
          (g.idx q.1 q.2.2 : ℤ) < A0.dimension from ⟨by omega, by omega, by omega, by omega⟩),
          Int.toNat_natCast]
        exact e1
      · intro i j
        rw [e3 i j, List.map_cons, List.sum_cons]
        simp only
        by_cases hij : g.idx q.1 q.2.1 = i ∧ g.idx q.1 q.2.2 = j
        · rw [if_pos ⟨hij.1.symm, hij.2.symm⟩, if_pos hij, hij.1, hij.2, add_assoc]
        · rw [if_neg (fun h => hij ⟨h.1.symm, h.2.symm⟩), if_neg hij, zero_add]
  obtain ⟨A, e1, e2, e3⟩ := key g.pairs A0 h0 (fun q hq => (mem_pairs g q).mp hq)
  refine ⟨A.updateCsr, ?_, e2, rfl, ?_⟩
  · unfold SysMatrix.assemble
    rw [e1]
  · intro i j
    change A.lil i j = _
    rw [e3 i j, sum_pairs]

end Verif.FE
