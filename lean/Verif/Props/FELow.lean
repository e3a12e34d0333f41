import Verif.Core.FESolverLemmas
import Verif.Core.NewtonCotes
import Verif.Core.SSP

/-!
Property C68: the low-order continuous Galerkin scheme.
-/

set_option linter.unusedSectionVars false

namespace Verif.FE

open Verif.Py Polynomial
open Verif.Mesh hiding Error
open Verif.Quadrature
open Verif.Scalar
open Verif.ODE

/-! ### Specification -/

/-- Space of degree `p` on `n` cells of the domain with its lumped masses and its discrete gradient. -/
structure Setup (gauss : ℕ → List (ℝ × ℝ)) (d : Interval ℝ) (n p : ℕ) (s : Space ℝ) (m : List ℝ)
    (C : SysMatrix ℝ) : Prop where
  isGauss : IsGauss gauss
  domain : d.a < d.b
  meshSize : 0 < n
  degree : 0 < p
  space : Space.make d n p = .ok s
  mass : lumpedMass gauss s = .ok m
  gradient : discreteGradient gauss s = .ok C

/-- Two degrees of freedom that share a cell. -/
def Shares (s : Space ℝ) (i j : ℕ) : Prop :=
  ∃ c l l' : ℕ, c < s.cells.length ∧ l ≤ s.degree ∧ l' ≤ s.degree ∧
    s.map.call c l = .ok (i : ℤ) ∧ s.map.call c l' = .ok (j : ℤ)

/-- `x` is in the range of the values at the degrees of freedom that share a cell with `i`. -/
def InLocalRange (s : Space ℝ) (u : List ℝ) (i : ℕ) (x : ℝ) : Prop :=
  ∀ lo hi, (∀ j < s.dimension, Shares s i j → lo ≤ u.getD j 0 ∧ u.getD j 0 ≤ hi) → lo ≤ x ∧ x ≤ hi

/-- The total mass, weighted with the lumped masses. -/
def totalMass (m u : List ℝ) : ℝ := (List.zipWith (· * ·) m u).sum

/-! ### Lumped masses -/

theorem setup_facts {gauss d n p s m C} (h : Setup gauss d n p s m C) :
    s.degree = p ∧ s.cells.length = n ∧ s.dimension = n * p ∧ Proper s := by
  obtain ⟨-, s1, s2, s3, s4⟩ := make_spec d h.domain n p h.meshSize s h.space
  refine ⟨s1, s3, by simp [Space.dimension, s1, s3], ?_⟩
  intro c hc
  rw [s4 c (by omega)]
  have hn := h.meshSize
  have hd := h.domain
  have h1 : (n : ℝ) > 0 := by exact_mod_cast hn
  simp only [node]
  push_cast
  have : 0 < (d.b - d.a) / n := div_pos (by linarith) h1
  first | nlinarith | (ring_nf; nlinarith)

theorem lumped_spec (gauss : ℕ → List (ℝ × ℝ)) (hg : IsGauss gauss) (s : Space ℝ)
    (hp : 0 < s.degree) (m : List ℝ) (hm : lumpedMass gauss s = .ok m) :
    m.length = s.dimension ∧ ∀ i < s.dimension, m.getD i 0 =
      ∑ c ∈ Finset.range s.cells.length, ∑ l ∈ Finset.range (s.degree + 1),
        if s.map.idx c l = i then
          (s.cell c).length * ∫ x in (0 : ℝ)..1, (basis s.degree l).eval x else 0 := by
  obtain ⟨M, h1, h2, h3, h4⟩ := mass_spec gauss s hp
  unfold lumpedMass at hm
  rw [h1] at hm
  simp only [bind, Except.bind, Except.ok.injEq] at hm
  subst hm
  refine ⟨by simp [h2], ?_⟩
  intro i hi
  rw [List.getD_eq_getElem _ _ (by simp [h2, hi])]
  simp only [List.getElem_map, List.getElem_range, h2]
  have := assembled_row s.map hp (massEntry gauss s) M.lil h4 (fun _ => 1) i
  simp only [mul_one, map_dimension] at this
  rw [this]
  apply Finset.sum_congr rfl
  intro c _
  apply Finset.sum_congr rfl
  intro l hl
  have hl' : l ≤ s.degree := Nat.lt_succ_iff.mp (Finset.mem_range.mp hl)
  congr 1
  change ∑ x ∈ Finset.range (s.degree + 1), massEntry gauss s c l x = _
  rw [Finset.sum_congr rfl (fun l' hm' => massEntry_eq gauss hg s hp c l l' hl'
    (Nat.lt_succ_iff.mp (Finset.mem_range.mp hm'))), ← Finset.mul_sum,
    ← intervalIntegral.integral_finset_sum (fun l' _ => intervalIntegrable_poly _ 0 1)]
  congr 1
  congr 1
  funext x
  rw [← eval_finset_sum, ← Finset.mul_sum]
  have := sum_basis (K := ℝ) s.degree hp
  change (basis s.degree l * ∑ b ∈ Finset.range (s.degree + 1), basis s.degree b).eval x = _
  rw [this, mul_one]

/-- C68.  The lumped masses are positive for the degrees one to seven and nine. -/
theorem C68_masses {gauss d n p s m C} (h : Setup gauss d n p s m C) (hp : p ≤ 7 ∨ p = 9) :
    m.length = s.dimension ∧ ∀ x ∈ m, 0 < x := by
  obtain ⟨s1, s2, s3, s4⟩ := setup_facts h
  have hp0 := h.degree
  have hn0 := h.meshSize
  obtain ⟨h1, h2⟩ := lumped_spec gauss h.isGauss s (by omega) m h.mass
  refine ⟨h1, ?_⟩
  intro x hx
  obtain ⟨i, hi, rfl⟩ := List.getElem_of_mem hx
  rw [← List.getD_eq_getElem _ 0 hi, h2 i (by omega)]
  have hterm : ∀ c ∈ Finset.range s.cells.length, ∀ l ∈ Finset.range (s.degree + 1),
      0 < (s.cell c).length * ∫ x in (0 : ℝ)..1, (basis s.degree l).eval x := by
    intro c hc l hl
    have := s4 c (Finset.mem_range.mp hc)
    refine mul_pos (by unfold Interval.length; linarith) ?_
    exact integral_basis_pos s.degree (by omega) (by omega) l
      (Nat.lt_succ_iff.mp (Finset.mem_range.mp hl))
  obtain ⟨c, l, hc, hl, hcl⟩ := idx_onto s.map (by change 0 < s.degree; omega)
    (by change 0 < s.cells.length; omega) i (by rw [map_dimension]; omega)
  have hc' : c ∈ Finset.range s.cells.length := Finset.mem_range.mpr hc
  have hl' : l ∈ Finset.range (s.degree + 1) := Finset.mem_range.mpr (Nat.lt_succ_of_le hl)
  refine Finset.sum_pos' (fun c hc => Finset.sum_nonneg fun l hl => ?_)
    ⟨c, hc', Finset.sum_pos' (fun l hl => ?_) ⟨l, hl', ?_⟩⟩
  · split
    · exact (hterm c hc l hl).le
    · exact le_rfl
  · split
    · exact (hterm c hc' l hl).le
    · exact le_rfl
  · rw [if_pos hcl]
    exact hterm c hc' l hl'

/-- C68.  For degree eight the lumped mass of the third node is negative: the hypothesis of positive
masses fails. -/
theorem C68_degree_eight {gauss d n s m C} (h : Setup gauss d n 8 s m C) : m.getD 2 0 < 0 := by
  obtain ⟨s1, s2, s3, s4⟩ := setup_facts h
  have hn0 := h.meshSize
  obtain ⟨h1, h2⟩ := lumped_spec gauss h.isGauss s (by omega) m h.mass
  have hidx : ∀ c l, c < s.cells.length → l ≤ 8 → (s.map.idx c l = 2 ↔ c = 0 ∧ l = 2) := by
    intro c l hc hl
    unfold IndexMap.idx
    simp only [Space.map, s1]
    split <;> omega
  rw [h2 2 (by omega), Finset.sum_eq_single 0, Finset.sum_eq_single 2]
  · rw [if_pos ((hidx 0 2 (by omega) (by omega)).mpr ⟨rfl, rfl⟩), s1, integral_basis_eight]
    have := s4 0 (by omega)
    have hl : 0 < (s.cell 0).length := by unfold Interval.length; linarith
    nlinarith
  · intro l hl hl2
    rw [if_neg]
    intro e
    exact hl2 ((hidx 0 l (by omega) (by have := Finset.mem_range.mp hl; omega)).mp e).2
  · intro hh; exact absurd (Finset.mem_range.mpr (by omega)) hh
  · intro c hc hc0
    refine Finset.sum_eq_zero fun l hl => ?_
    rw [if_neg]
    intro e
    exact hc0 ((hidx c l (Finset.mem_range.mp hc) (by have := Finset.mem_range.mp hl; omega)).mp e).1
  · intro hh; exact absurd (Finset.mem_range.mpr (by omega)) hh

/-! ### Bounds -/

theorem shares_of_gradient {gauss d n p s m C} (h : Setup gauss d n p s m C) (i j : ℕ)
    (hij : C.lil i j ≠ 0) : Shares s i j := by
  obtain ⟨s1, s2, s3, s4⟩ := setup_facts h
  have hp0 := h.degree
  obtain ⟨C', g1, -, -, g4⟩ := gradient_spec gauss s (by omega)
  obtain rfl : C' = C := Except.ok.inj (g1.symm.trans h.gradient)
  by_contra hn
  apply hij
  rw [g4]
  refine Finset.sum_eq_zero fun c hc => Finset.sum_eq_zero fun l hl =>
    Finset.sum_eq_zero fun l' hl' => ?_
  rw [if_neg]
  rintro ⟨e1, e2⟩
  have hl1 : l ≤ s.degree := Nat.lt_succ_iff.mp (Finset.mem_range.mp hl)
  have hl2 : l' ≤ s.degree := Nat.lt_succ_iff.mp (Finset.mem_range.mp hl')
  exact hn ⟨c, l, l', Finset.mem_range.mp hc, hl1, hl2, by rw [call_nat _ _ _ hl1, e1],
    by rw [call_nat _ _ _ hl2, e2]⟩

theorem shares_self {gauss d n p s m C} (h : Setup gauss d n p s m C) (i : ℕ)
    (hi : i < s.dimension) : Shares s i i := by
  obtain ⟨s1, s2, s3, s4⟩ := setup_facts h
  have hp0 := h.degree
  have hn0 := h.meshSize
  obtain ⟨c, l, hc, hl, hcl⟩ := idx_onto s.map (by change 0 < s.degree; omega)
    (by change 0 < s.cells.length; omega) i (by rw [map_dimension]; omega)
  exact ⟨c, l, l, hc, hl, hl, by rw [call_nat _ _ _ hl, hcl], by rw [call_nat _ _ _ hl, hcl]⟩

theorem setup_conv {gauss d n p s m C} (h : Setup gauss d n p s m C) : Conv s.dimension C := by
  obtain ⟨s1, s2, s3, s4⟩ := setup_facts h
  have hp0 := h.degree
  obtain ⟨C', g1, g2⟩ := conv_gradient gauss h.isGauss s (by omega)
  obtain rfl : C' = C := Except.ok.inj (g1.symm.trans h.gradient)
  exact g2

/-- C68, one step.  If the lumped masses are positive, the optimal time step exists, and a forward
Euler step of at most this length keeps each value in the range of the values at the degrees of
freedom that share a cell with it. -/
theorem C68_bounds {gauss d n p s m C} (h : Setup gauss d n p s m C) (hpos : ∀ x ∈ m, 0 < x)
    (problem : Problem) (u : List ℝ) (hu : u.length = s.dimension) :
    ∃ τ, optimalStep problem m C u = .ok τ ∧ (∀ t, τ = some t → 0 < t) ∧
      ∃ w, lowRhs problem m C u = .ok w ∧ w.length = s.dimension ∧
        ∀ dt, 0 ≤ dt → (∀ t, τ = some t → dt ≤ t) →
          ∀ i < s.dimension, InLocalRange s u i (u.getD i 0 + dt * w.getD i 0) := by
  obtain ⟨s1, s2, s3, s4⟩ := setup_facts h
  have hp0 := h.degree
  have hn0 := h.meshSize
  have hC := setup_conv h
  obtain ⟨hm, -⟩ := lumped_spec gauss h.isGauss s (by omega) m h.mass
  have hdim : 0 < s.dimension := by rw [s3]; exact Nat.mul_pos hn0 hp0
  obtain ⟨D, d1, d2, d3, d4, d5, d6⟩ := diffusion_spec problem s.dimension C hC u hu
  obtain ⟨τ, t1, t2⟩ := optimalStep_spec problem s.dimension hdim C hC u m hu hm hpos D d1
  obtain ⟨w, w1, w2, w3⟩ := lowRhs_spec problem s.dimension C hC u m hu hm
    (fun x hx => (hpos x hx).ne') D d1
  have hmp : ∀ i < s.dimension, 0 < m.getD i 0 := by
    intro i hi
    rw [List.getD_eq_getElem _ _ (by omega)]
    exact hpos _ (List.getElem_mem _)
  refine ⟨τ, t1, ?_, w, w1, w2, ?_⟩
  · intro t ht
    -- a small positive step is admissible
    by_contra hneg
    push Not at hneg
    obtain ⟨ε, hε, hle⟩ : ∃ ε > 0, ∀ i < s.dimension, ε * (2 * |D.lil i i|) ≤ m.getD i 0 := by
      have key : ∀ k ≤ s.dimension, ∃ ε > 0, ∀ i < k, ε * (2 * |D.lil i i|) ≤ m.getD i 0 := by
        intro k
        induction k with
        | zero => exact fun _ => ⟨1, one_pos, fun i hi => by omega⟩
        | succ k ih =>
          intro hk
          obtain ⟨ε, h1, h2⟩ := ih (by omega)
          have hmk := hmp k (by omega)
          refine ⟨min ε (m.getD k 0 / (2 * |D.lil k k| + 1)), lt_min h1 (by positivity), ?_⟩
          intro i hi
          rcases Nat.lt_succ_iff_lt_or_eq.mp hi with hi | rfl
          · exact le_trans (mul_le_mul_of_nonneg_right (min_le_left _ _) (by positivity)) (h2 i hi)
          · refine le_trans (mul_le_mul_of_nonneg_right (min_le_right _ _) (by positivity)) ?_
            rw [div_mul_eq_mul_div, div_le_iff₀ (by positivity)]
            nlinarith
      exact key _ le_rfl
    have := (t2 ε).mpr hle t ht
    linarith
  · intro dt hdt hle i hi lo hi' hloc
    have hcfl := (t2 dt).mp hle i hi
    obtain ⟨l0, l1⟩ := hloc i hi (shares_self h i hi)
    rw [w3 i hi]
    rw [laplacian_abs_diag d4 i hi] at hcfl
    have hterm : ∀ j ∈ (Finset.range s.dimension).erase i,
        D.lil i j * (u.getD j 0 - u.getD i 0) -
          C.lil i j * (problem.flux (u.getD j 0) - problem.flux (u.getD i 0)) ≤
          2 * D.lil i j * (hi' - u.getD i 0) ∧
        2 * D.lil i j * (lo - u.getD i 0) ≤ D.lil i j * (u.getD j 0 - u.getD i 0) -
          C.lil i j * (problem.flux (u.getD j 0) - problem.flux (u.getD i 0)) := by
      intro j hj
      have hij : i ≠ j := (Finset.ne_of_mem_erase hj).symm
      have hj' := Finset.mem_range.mp (Finset.mem_of_mem_erase hj)
      refine low_contribution _ _ _ _ _ _ (d4.nonneg i hi j hj' hij) (d5 i j hij) ⟨l0, l1⟩ ?_
      intro hne
      refine hloc j hj' (shares_of_gradient h i j ?_)
      intro h0
      exact hne (d6 i j hij h0)
    apply bounded_step dt _ _ (∑ j ∈ (Finset.range s.dimension).erase i, D.lil i j) _ lo hi' hdt
      (hmp i hi) hcfl l0 l1
    · rw [Finset.mul_sum, Finset.sum_mul]
      exact Finset.sum_le_sum fun j hj => (hterm j hj).1
    · rw [Finset.mul_sum, Finset.sum_mul]
      exact Finset.sum_le_sum fun j hj => (hterm j hj).2

/-! ### Conservation -/

theorem totalMass_eq (m u : List ℝ) (n : ℕ) (hm : m.length = n) (hu : u.length = n) :
    totalMass m u = ∑ i ∈ Finset.range n, m.getD i 0 * u.getD i 0 := by
  unfold totalMass
  have e : List.zipWith (· * ·) m u = (List.range n).map fun i => m.getD i 0 * u.getD i 0 := by
    apply List.ext_getElem
    · simp [hm, hu]
    · intro k h1 h2
      simp only [List.getElem_zipWith, List.getElem_map, List.getElem_range]
      simp only [List.length_zipWith, hm, hu, min_self] at h1
      rw [List.getD_eq_getElem _ _ (by omega), List.getD_eq_getElem _ _ (by omega)]
  rw [e]
  have := sum_map_range (K := ℝ) n id (fun i => m.getD i 0 * u.getD i 0)
  rw [List.map_id] at this
  exact this

/-- C68.  The right-hand side has no total mass, whenever it is defined. -/
theorem C68_rhs_mass {gauss d n p s m C} (h : Setup gauss d n p s m C) (problem : Problem)
    (u w : List ℝ) (hu : u.length = s.dimension) (hw : lowRhs problem m C u = .ok w) :
    w.length = s.dimension ∧ totalMass m w = 0 := by
  obtain ⟨s1, s2, s3, s4⟩ := setup_facts h
  have hp0 := h.degree
  have hC := setup_conv h
  obtain ⟨hm, -⟩ := lumped_spec gauss h.isGauss s (by omega) m h.mass
  obtain ⟨D, d1, d2, d3, d4, d5, d6⟩ := diffusion_spec problem s.dimension C hC u hu
  obtain ⟨D', e1, e2, e3⟩ := lowRhs_inv problem m C u w hw
  obtain rfl : D' = D := Except.ok.inj (e1.symm.trans d1)
  obtain ⟨w', w1, w2, w3⟩ := lowRhs_spec problem s.dimension C hC u m hu hm e3 D' d1
  obtain rfl : w' = w := Except.ok.inj (w1.symm.trans hw)
  refine ⟨w2, ?_⟩
  rw [totalMass_eq m w' s.dimension hm w2]
  have e : ∀ i ∈ Finset.range s.dimension, m.getD i 0 * w'.getD i 0 =
      ∑ j ∈ Finset.range s.dimension, (D'.lil i j * u.getD j 0 -
        C.lil i j * problem.flux (u.getD j 0)) := by
    intro i hi
    have hi' := Finset.mem_range.mp hi
    have hne : m.getD i 0 ≠ 0 := by
      rw [List.getD_eq_getElem _ _ (by omega)]
      exact e3 _ (List.getElem_mem _)
    rw [w3 i hi', mul_div_cancel₀ _ hne, Finset.sum_sub_distrib, Finset.sum_sub_distrib,
      row_difference s.dimension (D'.lil i) (d4.rowSum i hi') (fun j => u.getD j 0) i hi',
      row_difference s.dimension (C.lil i) (hC.row i) (fun j => problem.flux (u.getD j 0)) i hi']
  rw [Finset.sum_congr rfl e, Finset.sum_comm]
  apply Finset.sum_eq_zero
  intro j hj
  rw [Finset.sum_sub_distrib, ← Finset.sum_mul, ← Finset.sum_mul]
  have c1 : ∑ i ∈ Finset.range s.dimension, D'.lil i j = 0 := by
    rw [← d4.rowSum j (Finset.mem_range.mp hj)]
    exact Finset.sum_congr rfl fun i hi => d4.symm i (Finset.mem_range.mp hi) j (Finset.mem_range.mp hj)
  have c2 : ∑ i ∈ Finset.range s.dimension, C.lil i j = 0 := by
    rw [← neg_eq_zero, ← Finset.sum_neg_distrib, ← hC.row j]
    exact Finset.sum_congr rfl fun i _ => by rw [hC.anti i j]
  rw [c1, c2]
  ring

/-- The weighted total as a linear map. -/
noncomputable def massMap (m : List ℝ) (N : ℕ) : (Fin N → ℝ) →ₗ[ℝ] ℝ where
  toFun u := ∑ i : Fin N, m.getD i 0 * u i
  map_add' u v := by simp [mul_add, Finset.sum_add_distrib]
  map_smul' c u := by
    simp only [Pi.smul_apply, smul_eq_mul, RingHom.id_apply, Finset.mul_sum]
    exact Finset.sum_congr rfl fun i _ => by ring

theorem massMap_ofFn (m : List ℝ) (N : ℕ) (hm : m.length = N) (u : Fin N → ℝ) :
    massMap m N u = totalMass m (List.ofFn u) := by
  rw [totalMass_eq m _ N hm (by simp), Finset.sum_range]
  change ∑ i : Fin N, m.getD i 0 * u i = _
  apply Finset.sum_congr rfl
  intro i _
  rw [List.getD_eq_getElem (List.ofFn u) _ (by simp)]
  simp

/-- Runs of a right-hand side on arrays whose values have no total mass preserve the total mass. -/
theorem run_mass (m : List ℝ) (N : ℕ) (hm : m.length = N)
    (f : ℝ → List ℝ → Except Error (List ℝ))
    (hf : ∀ t u w, u.length = N → f t u = .ok w → w.length = N ∧ totalMass m w = 0)
    (T : Tableau ℝ) (s s' : Solver ℝ (Fin N → ℝ)) (steps : List ℝ)
    (h : s.runE T (vecRhs N f) steps = .ok s') :
    totalMass m (List.ofFn s'.solution) = totalMass m (List.ofFn s.solution) := by
  rw [runE_eq T _ s s' steps h, ← massMap_ofFn m N hm, ← massMap_ofFn m N hm]
  apply C53_linear_invariant
  intro t u
  unfold totalise
  cases hv : vecRhs N f t u with
  | error e => simp
  | ok w =>
    unfold vecRhs at hv
    cases hr : f t (List.ofFn u) with
    | error e => rw [hr] at hv; cases hv
    | ok v =>
      rw [hr] at hv
      obtain ⟨h1, h2⟩ := hf t _ v (by simp) hr
      simp only [h1, dite_true, Except.ok.injEq] at hv
      simp only
      rw [massMap_ofFn m N hm]
      have : List.ofFn w = v := by
        rw [← hv]
        apply List.ext_getElem
        · simp [h1]
        · intro k _ _; simp
      rw [this, h2]

/-- C68.  Every run of the low-order scheme, with any Runge-Kutta method and any steps, that does not
raise preserves the total mass. -/
theorem C68_conservation {gauss d n p s m C} (h : Setup gauss d n p s m C) (problem : Problem)
    (T : Tableau ℝ) (S S' : Solver ℝ (Fin s.dimension → ℝ)) (steps : List ℝ)
    (hrun : S.runE T (vecRhs s.dimension fun _ => lowRhs problem m C) steps = .ok S') :
    totalMass m (List.ofFn S'.solution) = totalMass m (List.ofFn S.solution) := by
  obtain ⟨s1, -⟩ := setup_facts h
  have hp0 := h.degree
  exact run_mass m s.dimension (lumped_spec gauss h.isGauss s (by omega) m h.mass).1 _
    (fun _ u w hu hw => C68_rhs_mass h problem u w hu hw) T S S' steps hrun

/-- The box of vectors with values between two bounds. -/
def boxSet (N : ℕ) (lo hi : ℝ) : Set (Fin N → ℝ) := {u | ∀ i, lo ≤ u i ∧ u i ≤ hi}

theorem boxSet_convex (N : ℕ) (lo hi : ℝ) : Convex ℝ (boxSet N lo hi) := by
  intro u hu v hv a b ha hb hab i
  obtain ⟨u1, u2⟩ := hu i
  obtain ⟨v1, v2⟩ := hv i
  simp only [Pi.add_apply, Pi.smul_apply, smul_eq_mul]
  have : b = 1 - a := by linarith
  subst this
  constructor <;> nlinarith

/-- A step that keeps each value in its local range keeps the box. -/
theorem box_of_local (s : Space ℝ) (f : List ℝ → Except Error (List ℝ)) (lo hi dt : ℝ)
    (u : Fin s.dimension → ℝ) (hu : u ∈ boxSet s.dimension lo hi)
    (h : ∃ w, f (List.ofFn u) = .ok w ∧ w.length = s.dimension ∧ ∀ i < s.dimension,
      InLocalRange s (List.ofFn u) i ((List.ofFn u).getD i 0 + dt * w.getD i 0)) (t : ℝ) :
    ∃ w, vecRhs s.dimension (fun _ => f) t u = .ok w ∧ u + dt • w ∈ boxSet s.dimension lo hi := by
  obtain ⟨w, h1, h2, h3⟩ := h
  refine ⟨fun i => w[i.1]'(by omega), ?_, ?_⟩
  · unfold vecRhs
    simp only [h1, h2, dite_true]
  · intro i
    have := h3 i.1 i.2 lo hi (fun j hj _ => by
      rw [List.getD_eq_getElem _ _ (by simpa using hj)]
      simpa using hu ⟨j, hj⟩)
    rw [List.getD_eq_getElem _ _ (by simp), List.getD_eq_getElem _ _ (by omega)] at this
    simpa using this

/-- The step condition that `CFLChecker` checks for each stage. -/
def StepOk (problem : Problem) (m : List ℝ) (C : SysMatrix ℝ) (N : ℕ) (dt : ℝ) (_t : ℝ)
    (u : Fin N → ℝ) : Prop :=
  ∃ τ, optimalStep problem m C (List.ofFn u) = .ok τ ∧ ∀ x, τ = some x → dt ≤ x

/-- C68, runs.  With positive lumped masses a run with forward Euler, Heun or SSP3 either violates
the step condition at some stage, or it does not raise and stays within the bounds of the initial
data. -/
theorem C68_run {gauss d n p s m C} (h : Setup gauss d n p s m C) (hpos : ∀ x ∈ m, 0 < x)
    (problem : Problem) (T : Tableau ℝ)
    (hT : T = forwardEuler ℝ ∨ T = heun ℝ ∨ T = ssp3 ℝ) (lo hi : ℝ)
    (S : Solver ℝ (Fin s.dimension → ℝ)) (hS : ∀ i, lo ≤ S.solution i ∧ S.solution i ≤ hi)
    (steps : List ℝ) (hsteps : ∀ dt ∈ steps, 0 ≤ dt) :
    let f : ℝ → (Fin s.dimension → ℝ) → Except Error (Fin s.dimension → ℝ) :=
      vecRhs s.dimension fun _ => lowRhs problem m C
    S.runChecked T (StepOk problem m C s.dimension) f steps = .error none ∨
    ∃ S', S.runChecked T (StepOk problem m C s.dimension) f steps = .ok S' ∧
      S.runE T f steps = .ok S' ∧ ∀ i, lo ≤ S'.solution i ∧ S'.solution i ≤ hi := by
  intro f
  refine runChecked_spec T hT _ f (boxSet s.dimension lo hi) (boxSet_convex _ lo hi) steps ?_ S hS
  intro dt hdt t u hu hadm
  obtain ⟨τ, t1, t2⟩ := hadm
  obtain ⟨τ', e1, -, w, w1, w2, w3⟩ := C68_bounds h hpos problem (List.ofFn u) (by simp)
  obtain rfl : τ' = τ := Except.ok.inj (e1.symm.trans t1)
  exact box_of_local s (lowRhs problem m C) lo hi dt u hu
    ⟨w, w1, w2, w3 dt (hsteps dt hdt) t2⟩ t

/-- C68 for the advection equation: the optimal time step does not depend on the state, so steps of
at most this length never violate the condition. -/
theorem C68_run_advection {gauss d n p s m C} (h : Setup gauss d n p s m C) (hpos : ∀ x ∈ m, 0 < x)
    (T : Tableau ℝ) (hT : T = forwardEuler ℝ ∨ T = heun ℝ ∨ T = ssp3 ℝ) (lo hi : ℝ)
    (S : Solver ℝ (Fin s.dimension → ℝ)) (hS : ∀ i, lo ≤ S.solution i ∧ S.solution i ≤ hi)
    (τ : Option ℝ) (hτ : optimalStep .advection m C (List.ofFn S.solution) = .ok τ)
    (steps : List ℝ) (hsteps : ∀ dt ∈ steps, 0 ≤ dt ∧ ∀ x, τ = some x → dt ≤ x) :
    ∃ S', S.runE T (vecRhs s.dimension fun _ => lowRhs .advection m C) steps = .ok S' ∧
      ∀ i, lo ≤ S'.solution i ∧ S'.solution i ≤ hi := by
  refine sspE_run _ (boxSet s.dimension lo hi) (boxSet_convex _ lo hi) steps ?_ S hS T hT
  intro dt hdt t u hu
  obtain ⟨τ', e1, -, w, w1, w2, w3⟩ := C68_bounds h hpos .advection (List.ofFn u) (by simp)
  have e2 : optimalStep .advection m C (List.ofFn S.solution) =
      optimalStep .advection m C (List.ofFn u) := rfl
  obtain rfl : τ' = τ := Except.ok.inj (e1.symm.trans (e2.symm.trans hτ))
  exact box_of_local s (lowRhs .advection m C) lo hi dt u hu
    ⟨w, w1, w2, w3 dt (hsteps dt hdt).1 (hsteps dt hdt).2⟩ t

/-! ### Non-vacuity -/

/-- There are such set-ups for every domain, mesh size and degree. -/
theorem exists_setup (d : Interval ℝ) (hd : d.a < d.b) (n p : ℕ) (hn : 0 < n) (hp : 0 < p) :
    ∃ gauss s m C, Setup gauss d n p s m C := by
  obtain ⟨gauss, hg⟩ := exists_isGauss
  obtain ⟨s, M, m, h1, h2, h3, -⟩ := C65_lumped gauss hg d hd n p hn hp
  obtain ⟨-, s1, -⟩ := make_spec d hd n p hn s h1
  obtain ⟨C, h4, -⟩ := conv_gradient gauss hg s (by omega)
  exact ⟨gauss, s, m, C, hg, hd, hn, hp, h1, h3, h4⟩

/-- Quadratic elements on ten cells: positive masses and a first step of Burgers' equation. -/
example : ∃ gauss s m C, Setup gauss ⟨0, 1⟩ 10 2 s m C ∧ (∀ x ∈ m, 0 < x) ∧
    ∃ τ w, optimalStep .burgers m C (List.replicate 20 3) = .ok τ ∧
      lowRhs .burgers m C (List.replicate 20 3) = .ok w := by
  obtain ⟨gauss, s, m, C, h⟩ := exists_setup ⟨0, 1⟩ (by norm_num) 10 2 (by norm_num) (by norm_num)
  have hpos := (C68_masses h (by norm_num)).2
  obtain ⟨-, -, s3, -⟩ := setup_facts h
  obtain ⟨τ, h1, -, w, h2, -⟩ := C68_bounds h hpos .burgers (List.replicate 20 3) (by simp [s3])
  exact ⟨gauss, s, m, C, h, hpos, τ, w, h1, h2⟩

end Verif.FE
