import Verif.Core.FESolver
import Verif.Props.FEMatrices

/-!
Lemmas about the low-order and the limited finite element right-hand sides.
-/

set_option linter.unusedSectionVars false

namespace Verif.FE

open Verif.Py
open Verif.Mesh hiding Error
open Verif.Quadrature
open Verif.Scalar

/-- What the proofs need of the discrete gradient. -/
structure Conv (n : ℕ) (C : SysMatrix ℝ) : Prop where
  dim : C.dimension = n
  csr : C.csr = some C.lil
  anti : ∀ i j, C.lil j i = -C.lil i j
  row : ∀ i, ∑ j ∈ Finset.range n, C.lil i j = 0

theorem conv_gradient (gauss : ℕ → List (ℝ × ℝ)) (hg : IsGauss gauss) (s : Space ℝ)
    (hp : 0 < s.degree) :
    ∃ C, discreteGradient gauss s = .ok C ∧ Conv s.dimension C := by
  obtain ⟨A, h1, h2, a, h3, h4, h5, h6, h7⟩ := C66_antisymmetric gauss hg s hp
  obtain ⟨A', g1, g2, g3, g4⟩ := gradient_spec gauss s hp
  obtain rfl : A' = A := Except.ok.inj (g1.symm.trans h1)
  refine ⟨A', h1, h2, g3, gradient_antisymm gauss hg s hp A' h1, ?_⟩
  intro i
  -- rows beyond the dimension vanish as well
  have := assembled_row s.map hp (gradientEntry gauss s) A'.lil g4 (fun _ => 1) i
  by_cases hi : i < s.dimension
  · rw [← h6 i]
    apply Finset.sum_congr rfl
    intro j hj
    have e := h3 i j hi (Finset.mem_range.mp hj)
    unfold SysMatrix.get at e
    rw [if_pos ⟨by omega, by omega, by omega, by have := Finset.mem_range.mp hj; omega⟩] at e
    exact Except.ok.inj e
  · simp only [mul_one, map_dimension] at this
    rw [this]
    refine Finset.sum_eq_zero fun c hc => Finset.sum_eq_zero fun l hl => ?_
    have hlt := idx_lt s.map c l (Finset.mem_range.mp hc)
      (Nat.lt_succ_iff.mp (Finset.mem_range.mp hl)) hp
    rw [map_dimension] at hlt
    rw [if_neg (by omega)]

theorem conv_diag {n : ℕ} {C : SysMatrix ℝ} (hC : Conv n C) (i : ℕ) : C.lil i i = 0 := by
  have := hC.anti i i
  linarith

/-! ### Artificial diffusion -/

/-- The convective part is dominated by the artificial diffusion. -/
theorem flux_difference (p : Problem) (c ui uj d : ℝ) (hd : p = .advection → |c| ≤ d)
    (hd' : p = .burgers → |c * uj| ≤ d ∧ |c * ui| ≤ d) :
    |c * (p.flux uj - p.flux ui)| ≤ d * |uj - ui| := by
  cases p with
  | advection =>
    simp only [Problem.flux]
    rw [abs_mul]
    exact mul_le_mul_of_nonneg_right (hd rfl) (abs_nonneg _)
  | burgers =>
    obtain ⟨h1, h2⟩ := hd' rfl
    have e : c * (Problem.burgers.flux uj - Problem.burgers.flux ui) =
        (1 / 2 * (c * uj + c * ui)) * (uj - ui) := by
      simp only [Problem.flux]; ring
    rw [e, abs_mul]
    apply mul_le_mul_of_nonneg_right _ (abs_nonneg _)
    rw [abs_mul, abs_of_pos (by norm_num : (0 : ℝ) < 1 / 2)]
    have := abs_add_le (c * uj) (c * ui)
    linarith

theorem diffusion_spec (p : Problem) (n : ℕ) (C : SysMatrix ℝ) (hC : Conv n C) (u : List ℝ)
    (hu : u.length = n) :
    ∃ D, diffusion p C u = .ok D ∧ D.dimension = n ∧ D.csr = some D.lil ∧
      GraphLaplacian n D.lil ∧
      (∀ i j, i ≠ j → |C.lil i j * (p.flux (u.getD j 0) - p.flux (u.getD i 0))| ≤
        D.lil i j * |u.getD j 0 - u.getD i 0|) ∧
      (∀ i j, i ≠ j → C.lil i j = 0 → D.lil i j = 0) := by
  cases p with
  | advection =>
    refine ⟨upwind C, rfl, hC.dim, rfl, ?_, ?_, ?_⟩
    · rw [← hC.dim]
      apply withDiagonal_spec
      · intro i; rw [conv_diag hC, abs_zero]
      · intro i j; rw [hC.anti i j, abs_neg]
      · intro i j; exact abs_nonneg _
    · intro i j hij
      have e : (upwind C).lil i j = |C.lil i j| := if_neg hij
      rw [e]
      exact flux_difference .advection _ _ _ _ (fun _ => le_rfl) (fun h => by cases h)
    · intro i j hij h0
      have e : (upwind C).lil i j = |C.lil i j| := if_neg hij
      rw [e, h0, abs_zero]
  | burgers =>
    refine ⟨withDiagonal C.dimension fun i j =>
      max |C.lil i j * u.getD j 0| |C.lil j i * u.getD i 0|, ?_, hC.dim, rfl, ?_, ?_, ?_⟩
    · simp only [diffusion, burgersDiffusion]
      rw [if_pos (by rw [hu, hC.dim])]
    · rw [← hC.dim]
      apply withDiagonal_spec
      · intro i; rw [conv_diag hC, zero_mul, abs_zero, max_self]
      · intro i j; exact max_comm _ _
      · intro i j; exact le_trans (abs_nonneg _) (le_max_left _ _)
    · intro i j hij
      have e : (withDiagonal C.dimension fun i j =>
          max |C.lil i j * u.getD j 0| |C.lil j i * u.getD i 0|).lil i j =
          max |C.lil i j * u.getD j 0| |C.lil j i * u.getD i 0| := if_neg hij
      rw [e]
      refine flux_difference .burgers _ _ _ _ (fun h => by cases h)
        (fun _ => ⟨le_max_left _ _, ?_⟩)
      refine le_trans (le_of_eq ?_) (le_max_right _ _)
      rw [hC.anti i j, neg_mul, abs_neg]
    · intro i j hij h0
      have e : (withDiagonal C.dimension fun i j =>
          max |C.lil i j * u.getD j 0| |C.lil j i * u.getD i 0|).lil i j =
          max |C.lil i j * u.getD j 0| |C.lil j i * u.getD i 0| := if_neg hij
      rw [e, hC.anti i j, h0]
      simp

theorem laplacian_diag {n : ℕ} {d : ℕ → ℕ → ℝ} (hd : GraphLaplacian n d) (i : ℕ) (hi : i < n) :
    d i i = -∑ j ∈ (Finset.range n).erase i, d i j := by
  have := hd.rowSum i hi
  rw [← Finset.add_sum_erase _ _ (Finset.mem_range.mpr hi)] at this
  linarith

theorem laplacian_abs_diag {n : ℕ} {d : ℕ → ℕ → ℝ} (hd : GraphLaplacian n d) (i : ℕ) (hi : i < n) :
    |d i i| = ∑ j ∈ (Finset.range n).erase i, d i j := by
  rw [laplacian_diag hd i hi, abs_neg, abs_of_nonneg]
  exact Finset.sum_nonneg fun j hj => hd.nonneg i hi j
    (Finset.mem_range.mp (Finset.mem_of_mem_erase hj)) (Finset.ne_of_mem_erase hj).symm

/-! ### Right-hand side -/

theorem getD_mulVec (n : ℕ) (a : ℕ → ℕ → ℝ) (v : List ℝ) (i : ℕ) (hi : i < n) :
    (mulVec n a v).getD i 0 = ∑ j ∈ Finset.range n, a i j * v.getD j 0 := by
  unfold mulVec
  rw [List.getD_eq_getElem _ _ (by simpa using hi)]
  simp

theorem getD_map_flux (p : Problem) (u : List ℝ) (j : ℕ) (hj : j < u.length) :
    (u.map p.flux).getD j 0 = p.flux (u.getD j 0) := by
  rw [List.getD_eq_getElem _ _ (by simpa using hj), List.getD_eq_getElem _ _ hj]
  simp

/-- Rows with zero sum act on differences. -/
theorem row_difference (n : ℕ) (a : ℕ → ℝ) (h : ∑ j ∈ Finset.range n, a j = 0) (v : ℕ → ℝ) (i : ℕ)
    (hi : i < n) : ∑ j ∈ Finset.range n, a j * v j =
      ∑ j ∈ (Finset.range n).erase i, a j * (v j - v i) := by
  have h1 : ∑ j ∈ Finset.range n, a j * v j = ∑ j ∈ Finset.range n, a j * (v j - v i) := by
    simp only [mul_sub, Finset.sum_sub_distrib]
    rw [← Finset.sum_mul, h, zero_mul, sub_zero]
  rw [h1, ← Finset.add_sum_erase _ _ (Finset.mem_range.mpr hi)]
  simp

theorem getD_zipWith (f : ℝ → ℝ → ℝ) (a b : List ℝ) (i : ℕ) (ha : i < a.length)
    (hb : i < b.length) : (List.zipWith f a b).getD i 0 = f (a.getD i 0) (b.getD i 0) := by
  rw [List.getD_eq_getElem _ _ (by simp; omega), List.getD_eq_getElem _ _ ha,
    List.getD_eq_getElem _ _ hb]
  simp

theorem getD_neg (a : List ℝ) (i : ℕ) (ha : i < a.length) :
    (a.map fun x => -x).getD i 0 = -a.getD i 0 := by
  rw [List.getD_eq_getElem _ _ (by simpa using ha), List.getD_eq_getElem _ _ ha]
  simp

/-- The sum in the documentation of the right-hand side. -/
theorem lowRhs_spec (p : Problem) (n : ℕ) (C : SysMatrix ℝ) (hC : Conv n C) (u m : List ℝ)
    (hu : u.length = n) (hm : m.length = n) (hpos : ∀ x ∈ m, x ≠ 0) (D : SysMatrix ℝ)
    (hD : diffusion p C u = .ok D) :
    ∃ w, lowRhs p m C u = .ok w ∧ w.length = n ∧ ∀ i < n, w.getD i 0 =
      (∑ j ∈ (Finset.range n).erase i, (D.lil i j * (u.getD j 0 - u.getD i 0) -
        C.lil i j * (p.flux (u.getD j 0) - p.flux (u.getD i 0)))) / m.getD i 0 := by
  obtain ⟨D', d1, d2, d3, d4, -⟩ := diffusion_spec p n C hC u hu
  obtain rfl : D' = D := Except.ok.inj (d1.symm.trans hD)
  refine ⟨List.zipWith (· / ·) (List.zipWith (· + ·) (mulVec n D'.lil u)
    ((mulVec n C.lil (u.map p.flux)).map fun x => -x)) m, ?_, ?_, ?_⟩
  · unfold lowRhs fluxGradient SysMatrix.dot
    rw [hD]
    simp only [d3, hC.csr, d2, hC.dim, hu, List.length_map, if_true]
    unfold divVec
    rw [if_neg (by simp [mulVec, hm]), if_pos hpos]
  · simp [mulVec, hm]
  · intro i hi
    rw [getD_zipWith _ _ _ i (by simp [mulVec, hi]) (by omega),
      getD_zipWith _ _ _ i (by simp [mulVec, hi]) (by simp [mulVec, hi]),
      getD_neg _ _ (by simp [mulVec, hi]), getD_mulVec n _ _ i hi, getD_mulVec n _ _ i hi,
      row_difference n (D'.lil i) (d4.rowSum i hi) (fun j => u.getD j 0) i hi]
    have e : ∑ j ∈ Finset.range n, C.lil i j * (u.map p.flux).getD j 0 =
        ∑ j ∈ (Finset.range n).erase i, C.lil i j *
          (p.flux (u.getD j 0) - p.flux (u.getD i 0)) := by
      rw [← row_difference n (C.lil i) (hC.row i) (fun j => p.flux (u.getD j 0)) i hi]
      apply Finset.sum_congr rfl
      intro j hj
      rw [getD_map_flux p u j (by have := Finset.mem_range.mp hj; omega)]
    rw [e, Finset.sum_sub_distrib]
    rfl

theorem lowRhs_inv (p : Problem) (m : List ℝ) (C : SysMatrix ℝ) (u w : List ℝ)
    (h : lowRhs p m C u = .ok w) : ∃ D, diffusion p C u = .ok D ∧ m.length = D.dimension ∧
      ∀ x ∈ m, x ≠ 0 := by
  unfold lowRhs at h
  cases hD : diffusion p C u with
  | error e => rw [hD] at h; cases h
  | ok D =>
    rw [hD] at h
    simp only at h
    cases ha : D.dot u with
    | error e => rw [ha] at h; cases h
    | ok a =>
      rw [ha] at h
      simp only at h
      cases hb : fluxGradient p C u with
      | error e => rw [hb] at h; cases h
      | ok b =>
        rw [hb] at h
        simp only [divVec] at h
        split at h
        · cases h
        · rename_i hl
          split at h
          · rename_i hz
            refine ⟨D, rfl, ?_, hz⟩
            have hla : a.length = D.dimension := by
              unfold SysMatrix.dot at ha
              cases hc : D.csr with
              | none => rw [hc] at ha; cases ha
              | some v =>
                rw [hc] at ha
                simp only at ha
                split at ha
                · cases ha; simp [mulVec]
                · cases ha
            have hlb : b.length = C.dimension := by
              unfold fluxGradient SysMatrix.dot at hb
              cases hc : C.csr with
              | none => rw [hc] at hb; cases hb
              | some v =>
                rw [hc] at hb
                simp only at hb
                by_cases hlen : (u.map p.flux).length = C.dimension
                · rw [if_pos hlen] at hb
                  cases hb; simp [mulVec]
                · rw [if_neg hlen] at hb
                  cases hb
            have hdc : D.dimension = C.dimension := by
              cases p with
              | advection => cases hD; rfl
              | burgers =>
                simp only [diffusion, burgersDiffusion] at hD
                split at hD
                · cases hD; rfl
                · cases hD
            have := not_not.mp hl
            simp only [List.length_zipWith, hla, hlb, hdc, min_self] at this
            omega
          · cases h

/-! ### Optimal time step -/

/-- `dt ≤ τ`, where `none` is `inf`. -/
def AtMost (dt : ℝ) (τ : Option ℝ) : Prop := ∀ t, τ = some t → dt ≤ t

theorem atMost_stepMin (dt : ℝ) (a b : Option ℝ) :
    AtMost dt (stepMin a b) ↔ AtMost dt a ∧ AtMost dt b := by
  unfold AtMost
  cases a <;> cases b <;> simp [stepMin]

theorem atMost_foldl (dt : ℝ) (xs : List (Option ℝ)) (x : Option ℝ) :
    AtMost dt (xs.foldl stepMin x) ↔ AtMost dt x ∧ ∀ y ∈ xs, AtMost dt y := by
  induction xs generalizing x with
  | nil => simp
  | cons y xs ih =>
    rw [List.foldl_cons, ih, atMost_stepMin]
    simp only [List.mem_cons, forall_eq_or_imp]
    tauto

theorem optimalStep_spec (p : Problem) (n : ℕ) (hn : 0 < n) (C : SysMatrix ℝ) (hC : Conv n C)
    (u m : List ℝ) (hu : u.length = n) (hm : m.length = n) (hpos : ∀ x ∈ m, 0 < x)
    (D : SysMatrix ℝ) (hD : diffusion p C u = .ok D) :
    ∃ τ, optimalStep p m C u = .ok τ ∧
      ∀ dt, AtMost dt τ ↔ ∀ i < n, dt * (2 * |D.lil i i|) ≤ m.getD i 0 := by
  obtain ⟨D', d1, d2, d3, d4, -⟩ := diffusion_spec p n C hC u hu
  obtain rfl : D' = D := Except.ok.inj (d1.symm.trans hD)
  have hmp : ∀ i < n, 0 < m.getD i 0 := by
    intro i hi
    rw [List.getD_eq_getElem _ _ (by omega)]
    exact hpos _ (List.getElem_mem _)
  set e : ℕ → Option ℝ := fun i =>
    if D'.lil i i ≠ 0 then some (m.getD i 0 / (2 * |D'.lil i i|)) else none with he
  have hent : (List.range D'.dimension).mapM (fun i => stepEntry (m.getD i 0) (D'.lil i i)) =
      .ok ((List.range n).map e) := by
    rw [d2]
    apply mapM_ok'
    intro i hi
    simp only [stepEntry, he]
    split
    · rfl
    · rw [if_pos (hmp i (List.mem_range.mp hi))]
  obtain ⟨k, rfl⟩ : ∃ k, n = k + 1 := ⟨n - 1, by omega⟩
  refine ⟨((List.range k).map fun i => e (i + 1)).foldl stepMin (e 0), ?_, ?_⟩
  · unfold optimalStep
    rw [hD]
    simp only [hm, d2, ne_eq, not_true_eq_false, if_false]
    rw [d2] at hent
    rw [hent, List.range_succ_eq_map]
    simp [List.map_map, Function.comp_def]
  · intro dt
    rw [atMost_foldl]
    have hone : ∀ i < k + 1, AtMost dt (e i) ↔ dt * (2 * |D'.lil i i|) ≤ m.getD i 0 := by
      intro i hi
      unfold AtMost
      simp only [he]
      by_cases h0 : D'.lil i i = 0
      · simp only [h0, ne_eq, not_true_eq_false, if_false, reduceCtorEq, false_imp_iff, implies_true,
          true_iff, abs_zero, mul_zero]
        exact (hmp i hi).le
      · simp only [ne_eq, h0, not_false_eq_true, if_true, Option.some.injEq, forall_eq']
        rw [le_div_iff₀ (by positivity)]
    constructor
    · rintro ⟨h1, h2⟩ i hi
      cases i with
      | zero => exact (hone 0 hi).mp h1
      | succ i =>
        refine (hone (i + 1) hi).mp (h2 _ (List.mem_map.mpr ⟨i, List.mem_range.mpr (by omega), rfl⟩))
    · intro h
      refine ⟨(hone 0 (by omega)).mpr (h 0 (by omega)), ?_⟩
      intro y hy
      obtain ⟨i, hi, rfl⟩ := List.mem_map.mp hy
      have hi' := List.mem_range.mp hi
      exact (hone (i + 1) (by omega)).mpr (h (i + 1) (by omega))

/-- A step that does not overshoot: the change is bounded by the distance to the bounds. -/
theorem bounded_step (dt mi ui S x lo hi : ℝ) (hdt : 0 ≤ dt) (hmi : 0 < mi)
    (hcfl : dt * (2 * S) ≤ mi) (hlo : lo ≤ ui) (hhi : ui ≤ hi)
    (h1 : x ≤ 2 * S * (hi - ui)) (h2 : 2 * S * (lo - ui) ≤ x) :
    lo ≤ ui + dt * (x / mi) ∧ ui + dt * (x / mi) ≤ hi := by
  have e : dt * (x / mi) = dt * x / mi := by ring
  rw [e]
  constructor
  · rw [← sub_le_iff_le_add', le_div_iff₀ hmi]
    nlinarith [mul_le_mul_of_nonneg_left h2 hdt, mul_le_mul_of_nonneg_right hcfl (sub_nonneg.mpr hlo)]
  · rw [← le_sub_iff_add_le', div_le_iff₀ hmi]
    nlinarith [mul_le_mul_of_nonneg_left h1 hdt, mul_le_mul_of_nonneg_right hcfl (sub_nonneg.mpr hhi)]

/-- The low-order contribution of one neighbour. -/
theorem low_contribution (d x ui uj lo hi : ℝ) (hd : 0 ≤ d) (hx : |x| ≤ d * |uj - ui|)
    (hui : lo ≤ ui ∧ ui ≤ hi) (huj : d ≠ 0 → lo ≤ uj ∧ uj ≤ hi) :
    d * (uj - ui) - x ≤ 2 * d * (hi - ui) ∧ 2 * d * (lo - ui) ≤ d * (uj - ui) - x := by
  rcases hd.eq_or_lt with h0 | h0
  · rw [← h0] at hx ⊢
    have : x = 0 := by simpa using hx
    simp [this]
  · obtain ⟨a, b⟩ := huj h0.ne'
    obtain ⟨x1, x2⟩ := abs_le.mp hx
    rcases le_total ui uj with h | h
    · rw [abs_of_nonneg (by linarith)] at x1 x2
      constructor <;> nlinarith
    · rw [abs_of_nonpos (by linarith)] at x1 x2
      constructor <;> nlinarith

end Verif.FE
