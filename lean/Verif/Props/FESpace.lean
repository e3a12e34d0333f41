import Mathlib.Analysis.Calculus.Deriv.Polynomial
import Mathlib.Analysis.Calculus.Deriv.Comp
import Mathlib.Analysis.Calculus.Deriv.Add
import Mathlib.Analysis.Calculus.Deriv.Mul
import Verif.Core.FELemmas
import Verif.Props.FEIndex

/-!
Properties C64 (assembly) and C70 (finite element functions).
-/

set_option linter.unusedSectionVars false

namespace Verif.FE

open Verif.Py Polynomial
open Verif.Mesh hiding Error
open Verif.Quadrature

variable {K : Type} [Field K] [LinearOrder K] [IsStrictOrderedRing K]

/-! ### C64 -/

open Classical in
/-- C64.  An assembled vector has at position `i` the sum of the local contributions of all local
nodes with global index `i`. -/
theorem C64_vector (n p : ℕ) (hp : 0 < p) (periodic : Bool) (entry : ℕ → ℕ → K) :
    ∃ g v, IndexMap.make n p periodic = .ok g ∧ assembleVector g entry = .ok v ∧
      v.length = g.dimension ∧
      ∀ i : ℕ, i < g.dimension → v.getD i 0 =
        ∑ c ∈ Finset.range n, ∑ l ∈ Finset.range (p + 1),
          if g.call c l = .ok (i : ℤ) then entry c l else 0 := by
  obtain ⟨v, h1, h2, h3⟩ := assembleVector_spec ⟨n, p, periodic⟩ hp entry
  refine ⟨⟨n, p, periodic⟩, v, by simp [IndexMap.make, hp], h1, h2, ?_⟩
  intro i hi
  rw [h3 i hi]
  apply Finset.sum_congr rfl
  intro c _
  apply Finset.sum_congr rfl
  intro l hl
  have hl' : l ≤ p := Nat.lt_succ_iff.mp (Finset.mem_range.mp hl)
  rw [call_nat _ _ _ hl']
  simp

open Classical in
/-- C64.  An assembled matrix has at position `(i, j)` the sum of the local contributions of all pairs
of local nodes of a common cell with the global indices `i` and `j`; reading entries and multiplying
with vectors use the same entries. -/
theorem C64_matrix (n p : ℕ) (hp : 0 < p) (periodic : Bool) (entry : ℕ → ℕ → ℕ → K) :
    ∃ g A, IndexMap.make n p periodic = .ok g ∧ assembleMatrix g entry = .ok A ∧
      (∀ i j : ℕ, i < g.dimension → j < g.dimension → A.get i j = .ok (
        ∑ c ∈ Finset.range n, ∑ l ∈ Finset.range (p + 1), ∑ l' ∈ Finset.range (p + 1),
          if g.call c l = .ok (i : ℤ) ∧ g.call c l' = .ok (j : ℤ) then entry c l l' else 0)) ∧
      (∀ v : List K, v.length = g.dimension → ∃ w, A.dot v = .ok w ∧ w.length = g.dimension ∧
        ∀ i : ℕ, i < g.dimension → ∃ row : ℕ → K,
          (∀ j : ℕ, j < g.dimension → A.get i j = .ok (row j)) ∧
          w.getD i 0 = ∑ j ∈ Finset.range g.dimension, row j * v.getD j 0) := by
  obtain ⟨A, h1, h2, h3, h4⟩ := assembleMatrix_spec ⟨n, p, periodic⟩ hp entry
  have hget : ∀ i j : ℕ, i < (⟨n, p, periodic⟩ : IndexMap).dimension →
      j < (⟨n, p, periodic⟩ : IndexMap).dimension → A.get i j = .ok (A.lil i j) := by
    intro i j hi hj
    unfold SysMatrix.get
    rw [if_pos ⟨by omega, by omega, by omega, by omega⟩]
    rfl
  refine ⟨⟨n, p, periodic⟩, A, by simp [IndexMap.make, hp], h1, ?_, ?_⟩
  · intro i j hi hj
    rw [hget i j hi hj, h4]
    congr 1
    apply Finset.sum_congr rfl
    intro c _
    apply Finset.sum_congr rfl
    intro l hl
    apply Finset.sum_congr rfl
    intro l' hl'
    have hl1 : l ≤ p := Nat.lt_succ_iff.mp (Finset.mem_range.mp hl)
    have hl2 : l' ≤ p := Nat.lt_succ_iff.mp (Finset.mem_range.mp hl')
    rw [call_nat _ _ _ hl1, call_nat _ _ _ hl2]
    simp
  · intro v hv
    refine ⟨mulVec A.dimension A.lil v, ?_, by simp [mulVec, h2], ?_⟩
    · unfold SysMatrix.dot
      rw [h3]
      simp [hv, h2]
    · intro i hi
      refine ⟨A.lil i, fun j hj => hget i j hi hj, ?_⟩
      unfold mulVec
      rw [h2, List.getD_eq_getElem _ _ (by simpa using hi)]
      simp

/-- C64.  Degrees of freedom that do not share a cell have a zero entry. -/
theorem C64_sparse (n p : ℕ) (hp : 0 < p) (periodic : Bool) (entry : ℕ → ℕ → ℕ → K) (g : IndexMap)
    (hg : IndexMap.make n p periodic = .ok g) (A : SysMatrix K)
    (hA : assembleMatrix g entry = .ok A) (i j : ℕ) (hi : i < g.dimension) (hj : j < g.dimension)
    (h : ∀ c l l' : ℕ, c < n → l ≤ p → l' ≤ p → g.call c l = .ok (i : ℤ) →
      g.call c l' ≠ .ok (j : ℤ)) : A.get i j = .ok 0 := by
  obtain ⟨g', A', h1, h2, h3, -⟩ := C64_matrix n p hp periodic entry
  obtain rfl : g' = g := Except.ok.inj (h1.symm.trans hg)
  obtain rfl : A' = A := Except.ok.inj (h2.symm.trans hA)
  rw [h3 i j hi hj]
  congr 1
  refine Finset.sum_eq_zero fun c hc => Finset.sum_eq_zero fun l hl =>
    Finset.sum_eq_zero fun l' hl' => ?_
  rw [if_neg]
  rintro ⟨e1, e2⟩
  exact h c l l' (Finset.mem_range.mp hc) (by have := Finset.mem_range.mp hl; omega)
    (by have := Finset.mem_range.mp hl'; omega) e1 e2

/-- C64.  A matrix that has not been assembled cannot be multiplied with a vector. -/
theorem C64_not_assembled (n : ℕ) (v : List K) :
    (SysMatrix.init n).dot v = .error .attributeError := rfl

/-- Two periodic cells of degree one, unit entries: every entry collects two contributions. -/
example : ∃ A, assembleMatrix (⟨2, 1, true⟩ : IndexMap) (fun _ _ _ => (1 : ℚ)) = .ok A ∧
    A.get 0 0 = .ok 2 ∧ A.get 0 1 = .ok 2 ∧ A.get 0 2 = .error .indexError := by
  obtain ⟨A, h1, h2, -, h4⟩ :=
    assembleMatrix_spec (⟨2, 1, true⟩ : IndexMap) (by decide) (fun _ _ _ => (1 : ℚ))
  have hd : A.dimension = 2 := h2
  refine ⟨A, h1, ?_, ?_, ?_⟩
  · simp only [SysMatrix.get, hd, h4]
    decide +kernel
  · simp only [SysMatrix.get, hd, h4]
    decide +kernel
  · simp [SysMatrix.get, hd]

/-! ### C70 -/

/-- C70.  The local basis is nodal, a partition of unity, and spans the polynomials of degree at most
`p`. -/
theorem C70_basis (p : ℕ) (hp : 0 < p) :
    (∀ i k : ℕ, i ≤ p → k ≤ p → (basis (K := K) p i).eval ((localNodes p).getD k 0) =
      if k = i then 1 else 0) ∧
    (∀ x : K, ∑ i ∈ Finset.range (p + 1), (basis p i).eval x = 1) ∧
    (∀ i ≤ p, (basis (K := K) p i).natDegree = p) ∧
    (∀ q : K[X], q.natDegree ≤ p → ∀ x, q.eval x =
      ∑ i ∈ Finset.range (p + 1), q.eval ((localNodes p).getD i 0) * (basis p i).eval x) := by
  refine ⟨?_, ?_, fun i hi => natDegree_basis p hp i hi, ?_⟩
  · intro i k hi hk
    rw [getD_localNodes p k hk, eval_basis p hp i k hi hk]
  · intro x
    rw [← eval_finset_sum, sum_basis p hp, eval_one]
  · intro q hq x
    conv_lhs => rw [eq_sum_basis p hp q hq]
    rw [eval_finset_sum]
    apply Finset.sum_congr rfl
    intro i hi
    rw [getD_localNodes p i (by have := Finset.mem_range.mp hi; omega)]
    simp

theorem make_spec (d : Interval K) (hd : d.a < d.b) (n p : ℕ) (hn : 0 < n) (s : Space K)
    (hs : Space.make d n p = .ok s) : 0 < p ∧ s.degree = p ∧ s.domain = d ∧ s.cells.length = n ∧
      ∀ c < n, s.cell c = ⟨node d n c, node d n (c + 1)⟩ := by
  unfold Space.make at hs
  rw [uniformMesh_eq d hd hn] at hs
  simp only at hs
  split at hs
  · rename_i hp
    simp only [Except.ok.injEq] at hs
    subst hs
    refine ⟨hp, rfl, rfl, by simp, ?_⟩
    intro c hc
    unfold Space.cell
    rw [List.getD_eq_getElem _ _ (by simpa using hc)]
    simp
  · cases hs

theorem poly_eval_node (s : Space K) (hp : 0 < s.degree) (dofs : List K) (c l : ℕ)
    (hl : l ≤ s.degree) : (s.poly dofs c).eval ((l : K) / s.degree) =
      dofs.getD (s.map.idx c l) 0 := by
  unfold Space.poly
  rw [eval_finset_sum, Finset.sum_eq_single l]
  · simp [eval_basis s.degree hp l l hl hl]
  · intro k hk hkl
    have hk' : k ≤ s.degree := by have := Finset.mem_range.mp hk; omega
    simp [eval_basis s.degree hp k l hk' hl, Ne.symm hkl]
  · intro h; exact absurd (Finset.mem_range.mpr (by omega)) h

/-- C70.  At the local nodes of a cell a finite element function has the values of its degrees of
freedom. -/
theorem C70_nodal (s : Space K) (hp : 0 < s.degree) (dofs : List K)
    (hd : dofs.length = s.dimension) (c l : ℕ) (hc : c < s.cells.length) (hl : l ≤ s.degree)
    (hlen : (s.cell c).a < (s.cell c).b) :
    ∃ i, s.map.call c l = .ok i ∧
      s.value dofs c (affine ((localNodes s.degree).getD l 0) (s.cell c)) = Py.get dofs i := by
  refine ⟨_, call_nat s.map c l hl, ?_⟩
  have hne : (s.cell c).length ≠ 0 := by unfold Interval.length; linarith [hlen]
  rw [value_eq s hp dofs hd c hc, get_dof s hp dofs hd c l hc hl, getD_localNodes s.degree l hl]
  congr 1
  have : affineInverse (affine ((l : K) / s.degree) (s.cell c)) (s.cell c) = (l : K) / s.degree := by
    unfold affine affineInverse
    field_simp
    ring
  rw [this, poly_eval_node s hp dofs c l hl]

theorem value_left (s : Space K) (hp : 0 < s.degree) (dofs : List K)
    (hd : dofs.length = s.dimension) (c : ℕ) (hc : c < s.cells.length) :
    s.value dofs c (s.cell c).a = .ok (dofs.getD (s.map.idx c 0) 0) := by
  rw [value_eq s hp dofs hd c hc]
  have := poly_eval_node s hp dofs c 0 (Nat.zero_le _)
  rw [← this]
  simp [affineInverse]

theorem value_right (s : Space K) (hp : 0 < s.degree) (dofs : List K)
    (hd : dofs.length = s.dimension) (c : ℕ) (hc : c < s.cells.length)
    (hlen : (s.cell c).a < (s.cell c).b) :
    s.value dofs c (s.cell c).b = .ok (dofs.getD (s.map.idx c s.degree) 0) := by
  rw [value_eq s hp dofs hd c hc]
  have := poly_eval_node s hp dofs c s.degree le_rfl
  rw [← this]
  have h1 : (s.degree : K) / s.degree = 1 := div_self (Nat.cast_ne_zero.mpr hp.ne')
  have h2 : affineInverse (s.cell c).b (s.cell c) = 1 := by
    unfold affineInverse Interval.length
    rw [div_self]
    linarith [hlen]
  rw [h1, h2]

/-- C70.  Finite element functions are continuous across cells and across the periodic seam. -/
theorem C70_continuous (s : Space K) (hp : 0 < s.degree) (dofs : List K)
    (hd : dofs.length = s.dimension)
    (hlen : ∀ c < s.cells.length, (s.cell c).a < (s.cell c).b) :
    (∀ c, c + 1 < s.cells.length →
      s.value dofs c (s.cell c).b = s.value dofs (c + 1) (s.cell (c + 1)).a) ∧
    (∀ c, c + 1 = s.cells.length → s.value dofs c (s.cell c).b = s.value dofs 0 (s.cell 0).a) := by
  constructor
  · intro c hc
    rw [value_right s hp dofs hd c (by omega) (hlen c (by omega)),
      value_left s hp dofs hd (c + 1) hc]
    congr 2
    unfold IndexMap.idx
    simp only [Space.map]
    rw [if_neg (by omega), if_neg (by omega)]
    ring
  · intro c hc
    rw [value_right s hp dofs hd c (by omega) (hlen c (by omega)),
      value_left s hp dofs hd 0 (by omega)]
    congr 2
    unfold IndexMap.idx
    simp only [Space.map]
    rw [if_pos ⟨hc, trivial, trivial⟩, if_neg (by omega)]
    omega

theorem mapM_ok' {α β : Type} (f : α → Except Error β) (g : α → β) (l : List α)
    (h : ∀ x ∈ l, f x = .ok (g x)) : l.mapM f = .ok (l.map g) := Mesh.mapM_ok f g l h

theorem dot_map_range (n : ℕ) (f g : ℕ → K) :
    dot ((List.range n).map f) ((List.range n).map g) = ∑ l ∈ Finset.range n, f l * g l := by
  unfold dot
  rw [List.zipWith_map, List.zipWith_self]
  have := sum_map_range (K := K) n id (fun l => f l * g l)
  rw [List.map_id] at this
  exact this

theorem localDofs_eq (s : Space K) (hp : 0 < s.degree) (dofs : List K)
    (hd : dofs.length = s.dimension) (c : ℕ) (hc : c < s.cells.length) :
    s.localDofs dofs c =
      .ok ((List.range (s.degree + 1)).map fun l => dofs.getD (s.map.idx c l) 0) := by
  unfold Space.localDofs
  apply mapM_ok'
  intro l hl
  have hl' : l ≤ s.degree := by have := List.mem_range.mp hl; omega
  simp only [call_nat s.map c l hl', bind, Except.bind, get_dof s hp dofs hd c l hc hl']

/-- C70.  The fast evaluation at precomputed local points is the evaluation at the corresponding
points of the cell, also for derivatives. -/
theorem C70_fast (s : Space K) (hp : 0 < s.degree) (dofs : List K) (hd : dofs.length = s.dimension)
    (points : List K) (c i : ℕ) (hc : c < s.cells.length) (hi : i < points.length)
    (hlen : (s.cell c).a < (s.cell c).b) :
    s.fastValue points dofs c i = s.value dofs c (affine (points.getD i 0) (s.cell c)) ∧
    s.fastDerivative points dofs c i =
      s.derivative dofs c (affine (points.getD i 0) (s.cell c)) := by
  have hne : (s.cell c).length ≠ 0 := by unfold Interval.length; linarith [hlen]
  have hinv : affineInverse (affine (points.getD i 0) (s.cell c)) (s.cell c) = points.getD i 0 := by
    unfold affine affineInverse
    field_simp
    ring
  rw [value_eq s hp dofs hd c hc, derivative_eq s hp dofs hd c hc, hinv]
  have hget : ∀ q : K → K, Py.get (points.map q) (i : ℤ) = .ok (q (points.getD i 0)) := by
    intro q
    rw [get_nat _ (by simpa using hi), List.getD_eq_getElem _ _ hi]
    simp
  constructor
  · unfold Space.fastValue
    rw [localDofs_eq s hp dofs hd c hc]
    simp only [hget, bind, Except.bind]
    rw [mapM_ok' _ (fun l => (basis s.degree l).eval (points.getD i 0)) _ (fun x _ => rfl)]
    simp only
    rw [dot_map_range]
    congr 1
    unfold Space.poly
    rw [eval_finset_sum]
    simp
  · unfold Space.fastDerivative
    rw [localDofs_eq s hp dofs hd c hc]
    simp only [hget, bind, Except.bind]
    rw [mapM_ok' _ (fun l => (basis s.degree l).derivative.eval (points.getD i 0)) _
      (fun x _ => rfl)]
    simp only
    rw [dot_map_range]
    congr 2
    unfold Space.poly
    rw [derivative_sum, eval_finset_sum]
    simp

/-- C70.  The value `derivative` is the derivative of the function on the cell. -/
theorem C70_derivative (s : Space ℝ) (hp : 0 < s.degree) (dofs : List ℝ)
    (hd : dofs.length = s.dimension) (c : ℕ) (hc : c < s.cells.length) :
    ∃ u u' : ℝ → ℝ, (∀ x, s.value dofs c x = .ok (u x)) ∧ (∀ x, s.derivative dofs c x = .ok (u' x)) ∧
      ∀ x, HasDerivAt u (u' x) x := by
  refine ⟨_, _, value_eq s hp dofs hd c hc, derivative_eq s hp dofs hd c hc, ?_⟩
  intro x
  have h1 : HasDerivAt (fun x => affineInverse x (s.cell c)) (affineInverseDerivative (s.cell c)) x := by
    unfold affineInverse affineInverseDerivative
    exact ((hasDerivAt_id x).sub_const _).div_const _
  have h2 := ((s.poly dofs c).hasDerivAt (affineInverse x (s.cell c))).comp x h1
  rw [mul_comm]
  exact h2

theorem foldlM_setAt (g : IndexMap) (hp : 0 < g.degree) (f : ℕ × ℕ → K) (L : List (ℕ × ℕ))
    (hL : ∀ q ∈ L, q.1 < g.meshSize ∧ q.2 ≤ g.degree) (v0 : List K) (h0 : v0.length = g.dimension) :
    ∃ v, L.foldlM (fun v q => do
        let i ← g.call (q.1 : ℕ) (q.2 : ℕ)
        setAt v i (f q)) v0 = .ok v ∧ v.length = g.dimension ∧
      ∀ k x, k < g.dimension → (∀ q ∈ L, g.idx q.1 q.2 = k → f q = x) →
        (v0.getD k 0 = x ∨ ∃ q ∈ L, g.idx q.1 q.2 = k) → v.getD k 0 = x := by
  induction L generalizing v0 with
  | nil =>
    refine ⟨v0, rfl, h0, ?_⟩
    intro k x _ _ h
    simpa using h
  | cons q L ih =>
    obtain ⟨h1, h2⟩ := hL q (by simp)
    have hlt := idx_lt g q.1 q.2 h1 h2 hp
    obtain ⟨v, e1, e2, e3⟩ := ih (fun q' hq' => hL q' (by simp [hq']))
      (v0.set (g.idx q.1 q.2) (f q)) (by simpa using h0)
    refine ⟨v, ?_, e2, ?_⟩
    · rw [List.foldlM_cons]
      simp only [call_nat g _ _ h2, bind, Except.bind, setAt]
      rw [if_pos ⟨by omega, by omega⟩]
      exact e1
    · intro k x hk hx hor
      refine e3 k x hk (fun q' hq' => hx q' (by simp [hq'])) ?_
      by_cases hq : g.idx q.1 q.2 = k
      · left
        rw [List.getD_eq_getElem _ _ (by simp; omega), List.getElem_set, if_pos hq]
        exact hx q (by simp) hq
      · rcases hor with hor | ⟨q', hq', hk'⟩
        · left
          rw [← hor, List.getD_eq_getElem _ _ (by simp; omega), List.getElem_set, if_neg hq,
            List.getD_eq_getElem _ _ (by omega)]
        · rw [List.mem_cons] at hq'
          rcases hq' with rfl | hq'
          · exact absurd hk' hq
          · exact Or.inr ⟨q', hq', hk'⟩

/-- C70.  The grid of a space on a uniform mesh with `n` cells is the uniform grid with `n * p`
cells without its last node, whatever the uninitialised memory contains. -/
theorem C70_grid (d : Interval K) (hd : d.a < d.b) (n p : ℕ) (hn : 0 < n) (hp : 0 < p)
    (empty : List K) (he : empty.length = n * p) :
    ∃ s grid, Space.make d n p = .ok s ∧ s.dimension = n * p ∧ s.basisNodes empty = .ok grid ∧
      grid.length = n * p ∧ ∀ i < n * p, grid.getD i 0 = d.a + i * ((d.b - d.a) / (n * p : ℕ)) := by
  have hs : ∃ s, Space.make d n p = .ok s := by
    unfold Space.make
    rw [uniformMesh_eq d hd hn]
    simp [hp]
  obtain ⟨s, hs⟩ := hs
  obtain ⟨-, s1, s2, s3, s4⟩ := make_spec d hd n p hn s hs
  have hdim : s.dimension = n * p := by simp [Space.dimension, s1, s3]
  have hmap : s.map = ⟨n, p, true⟩ := by simp [Space.map, s1, s3]
  have hn' : (n : K) ≠ 0 := Nat.cast_ne_zero.mpr hn.ne'
  have hp' : (p : K) ≠ 0 := Nat.cast_ne_zero.mpr hp.ne'
  have hmd : s.map.dimension = n * p := by rw [map_dimension, hdim]
  have hnp : 0 < n * p := Nat.mul_pos hn hp
  obtain ⟨v, e1, e2, e3⟩ := foldlM_setAt s.map (by rw [hmap]; exact hp)
    (fun q => affine ((localNodes s.degree).getD q.2 0) (s.cell q.1)) s.map.locals
    (fun q hq => (mem_locals s.map q).mp hq) empty (by rw [hmd, he])
  refine ⟨s, v.set 0 d.a, hs, hdim, ?_, by simp [e2, hmd], ?_⟩
  · unfold Space.basisNodes
    rw [e1]
    simp only [bind, Except.bind, setAt, s2]
    rw [if_pos ⟨le_rfl, by omega⟩]
    rfl
  · intro i hi
    rw [List.getD_eq_getElem _ _ (by simp; omega), List.getElem_set]
    by_cases h0 : 0 = i
    · rw [if_pos h0, ← h0]; simp
    · rw [if_neg h0, ← List.getD_eq_getElem _ 0]
      apply e3 i _ (by omega)
      · intro q hq hqi
        obtain ⟨hq1, hq2⟩ := (mem_locals s.map q).mp hq
        rw [hmap] at hq1 hq2 hqi
        simp only at hq1 hq2
        rw [s1, getD_localNodes p q.2 hq2, s4 q.1 hq1]
        unfold IndexMap.idx at hqi
        simp only at hqi
        split at hqi
        · exact absurd hqi h0
        · unfold affine node Interval.length
          rw [← hqi]
          push_cast
          field_simp
          ring
      · right
        obtain ⟨c, l, hc, hl, h⟩ := idx_onto s.map (by rw [hmap]; exact hp) (by rw [hmap]; exact hn)
          i (by omega)
        exact ⟨(c, l), (mem_locals s.map _).mpr ⟨hc, hl⟩, h⟩

/-- C70.  A function that is a polynomial of degree at most `p` on a cell is reproduced there by the
finite element function with its node values. -/
theorem C70_reproduces (s : Space K) (hp : 0 < s.degree) (dofs : List K)
    (hd : dofs.length = s.dimension) (c : ℕ) (hc : c < s.cells.length)
    (hlen : (s.cell c).a < (s.cell c).b) (q : K[X]) (hq : q.natDegree ≤ s.degree)
    (hnodes : ∀ l ≤ s.degree, ∀ i, s.map.call c (l : ℕ) = .ok i →
      Py.get dofs i = .ok (q.eval (affine ((localNodes s.degree).getD l 0) (s.cell c)))) (x : K) :
    s.value dofs c x = .ok (q.eval x) := by
  have hne : (s.cell c).length ≠ 0 := by unfold Interval.length; linarith [hlen]
  rw [value_eq s hp dofs hd c hc]
  congr 1
  set r : K[X] := q.comp (C (s.cell c).length * X + C (s.cell c).a) with hr
  have hrd : r.natDegree ≤ s.degree := by
    refine le_trans natDegree_comp_le ?_
    calc q.natDegree * _ ≤ q.natDegree * 1 := Nat.mul_le_mul_left _ natDegree_linear_le
      _ ≤ s.degree := by omega
  have hre : ∀ y, r.eval y = q.eval (affine y (s.cell c)) := by
    intro y; simp [hr, affine]
  have hpoly : s.poly dofs c = r := by
    rw [eq_sum_basis s.degree hp r hrd]
    unfold Space.poly
    apply Finset.sum_congr rfl
    intro l hl
    have hl' : l ≤ s.degree := by have := Finset.mem_range.mp hl; omega
    have := hnodes l hl' _ (call_nat s.map c l hl')
    rw [get_dof s hp dofs hd c l hc hl', getD_localNodes s.degree l hl'] at this
    rw [Except.ok.inj this, hre]
  rw [hpoly, hre]
  congr 1
  unfold affine affineInverse
  field_simp
  ring

/-- A periodic space of degree two with two cells on `[0, 4]`, and the value at a midpoint. -/
example : ∃ s, Space.make (⟨0, 4⟩ : Interval ℚ) 2 2 = .ok s ∧ s.dimension = 4 ∧
    s.value [1, 5, 2, 7] 0 1 = .ok 5 := by
  have hs : ∃ s, Space.make (⟨0, 4⟩ : Interval ℚ) 2 2 = .ok s := by
    unfold Space.make
    rw [uniformMesh_eq _ (by norm_num) (by norm_num)]
    simp
  obtain ⟨s, hs⟩ := hs
  obtain ⟨-, s1, s2, s3, s4⟩ := make_spec (⟨0, 4⟩ : Interval ℚ) (by norm_num) 2 2 (by norm_num) s hs
  have hc : s.cell 0 = ⟨0, 2⟩ := by
    rw [s4 0 (by norm_num)]
    norm_num [node]
  have hdim : s.dimension = 4 := by simp [Space.dimension, s1, s3]
  obtain ⟨i, h1, h2⟩ := C70_nodal s (by omega) [1, 5, 2, 7] (by simp [hdim]) 0 1 (by omega) (by omega)
    (by rw [hc]; norm_num)
  refine ⟨s, hs, hdim, ?_⟩
  have e : affine ((localNodes s.degree).getD 1 0) (s.cell 0) = 1 := by
    rw [s1, hc, getD_localNodes 2 1 (by norm_num)]
    norm_num [affine, Interval.length]
  rw [e] at h2
  rw [h2]
  have : s.map = ⟨2, 2, true⟩ := by simp [Space.map, s1, s3]
  rw [this] at h1
  have hi : i = 1 := by
    have h3 : (⟨2, 2, true⟩ : IndexMap).call 0 1 = .ok 1 := by decide +kernel
    exact Except.ok.inj (h1.symm.trans h3)
  rw [hi]
  decide +kernel

end Verif.FE
