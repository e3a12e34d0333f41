import Verif.Core.FEMCLLemmas

/-!
Property C69: monolithic convex limiting of the finite element solver.
-/

set_option linter.unusedSectionVars false

namespace Verif.FE

open Verif.Py Polynomial
open Verif.Mesh hiding Error
open Verif.Quadrature
open Verif.Scalar
open Verif.ODE

/-- A set-up of the low-order scheme on at least two cells with the mass matrix and the array of
neighbour indices. -/
structure MCLSetup (gauss : ℕ → List (ℝ × ℝ)) (d : Interval ℝ) (n p : ℕ) (s : Space ℝ) (m : List ℝ)
    (M C : SysMatrix ℝ) (nb : List (List ℤ)) : Prop extends Setup gauss d n p s m C where
  two : 2 ≤ n
  massMatrix : massMatrix gauss s = .ok M
  neighbours : dofNeighbours s.map = .ok nb

theorem setup_neighbours {gauss d n p s m M C nb} (h : MCLSetup gauss d n p s m M C nb) :
    NeighbourStructure s.dimension nb ∧ ∀ i (hi : i < nb.length) (k : ℤ), k ∈ nb[i] ↔
      ∃ c l l' : ℕ, c < n ∧ l ≤ p ∧ l' ≤ p ∧ s.map.call c l = .ok (i : ℤ) ∧
        s.map.call c l' = .ok k := by
  obtain ⟨s1, s2, s3, s4⟩ := setup_facts h.toSetup
  obtain ⟨g, nb', g1, g2, g3, g4⟩ := C62_finite_elements n p h.meshSize h.degree true
  have e : g = s.map := by
    unfold IndexMap.make at g1
    rw [if_pos (by have := h.degree; omega)] at g1
    have := Except.ok.inj g1
    rw [← this]
    simp [Space.map, s1, s2]
  subst e
  obtain rfl : nb' = nb := Except.ok.inj (g2.symm.trans h.neighbours)
  rw [map_dimension] at g3
  exact ⟨g3, g4⟩

/-- What the right-hand side computes. -/
theorem mclRhs_spec {gauss d n p s m M C nb} (h : MCLSetup gauss d n p s m M C nb)
    (hm0 : ∀ x ∈ m, x ≠ 0) (problem : Problem) (u : List ℝ) (hu : u.length = s.dimension) :
    ∃ D r umax umin w, diffusion problem C u = .ok D ∧ lowRhs problem m C u = .ok r ∧
      localMaximum nb u = .ok umax ∧ localMinimum nb u = .ok umin ∧
      mclRhs s.map problem m M C nb u = .ok w ∧ w.length = s.dimension ∧
      r.length = s.dimension ∧
      ∀ i < s.dimension, w.getD i 0 = r.getD i 0 +
        correction s.map (fluxAt M D C u (u.map problem.flux) r umax umin) i / m.getD i 0 := by
  obtain ⟨s1, s2, s3, s4⟩ := setup_facts h.toSetup
  have hp0 := h.degree
  have hC := setup_conv h.toSetup
  obtain ⟨hm, -⟩ := lumped_spec gauss h.isGauss s (by omega) m h.mass
  obtain ⟨D, d1, d2, d3, d4, d5, d6⟩ := diffusion_spec problem s.dimension C hC u hu
  obtain ⟨r, r1, r2, r3⟩ := lowRhs_spec problem s.dimension C hC u m hu hm hm0 D d1
  obtain ⟨hns, -⟩ := setup_neighbours h
  obtain ⟨umax, umin, x1, x2, x3, x4, x5⟩ := C63_local_bounds s.dimension nb hns u hu
  obtain ⟨M', m1, m2, -⟩ := mass_spec gauss s (by omega)
  obtain rfl : M' = M := Except.ok.inj (m1.symm.trans h.massMatrix)
  obtain ⟨corr, c1, c2, c3⟩ := loop_spec s.map (by change 0 < s.degree; omega) M' D C u
    (u.map problem.flux) r umax umin s.dimension (map_dimension s) m2 d2 hC.dim hu (by simp [hu]) r2
    x3 x4
  refine ⟨D, r, umax, umin, List.zipWith (· + ·) r (List.zipWith (· / ·) corr m), d1, r1, x1, x2, ?_,
    by simp [r2, c2, hm], r2, ?_⟩
  · unfold mclRhs
    simp only [r1, d1, x1, x2, bind, Except.bind]
    unfold mclLoop at c1
    rw [c1]
    simp only
    unfold divVec
    rw [if_neg (by omega), if_pos hm0]
  · intro i hi
    rw [getD_zipWith _ _ _ _ (by omega) (by simp; omega), getD_zipWith _ _ _ _ (by omega) (by omega),
      c3 i]

/-- C69, one step.  If the lumped masses are positive, a forward Euler step of at most the optimal
time step keeps each value in the range of the values at the degrees of freedom that share a cell
with it. -/
theorem C69_bounds {gauss d n p s m M C nb} (h : MCLSetup gauss d n p s m M C nb)
    (hpos : ∀ x ∈ m, 0 < x) (problem : Problem) (u : List ℝ) (hu : u.length = s.dimension) :
    ∃ τ, optimalStep problem m C u = .ok τ ∧ ∃ w, mclRhs s.map problem m M C nb u = .ok w ∧
      w.length = s.dimension ∧ ∀ dt, 0 ≤ dt → (∀ t, τ = some t → dt ≤ t) →
        ∀ i < s.dimension, InLocalRange s u i (u.getD i 0 + dt * w.getD i 0) := by
  obtain ⟨s1, s2, s3, s4⟩ := setup_facts h.toSetup
  have hp0 := h.degree
  have hn0 := h.meshSize
  have hC := setup_conv h.toSetup
  have hm0 : ∀ x ∈ m, x ≠ 0 := fun x hx => (hpos x hx).ne'
  obtain ⟨hm, -⟩ := lumped_spec gauss h.isGauss s (by omega) m h.mass
  have hdim : 0 < s.dimension := by rw [s3]; exact Nat.mul_pos hn0 hp0
  obtain ⟨D, d1, d2, d3, d4, d5, d6⟩ := diffusion_spec problem s.dimension C hC u hu
  obtain ⟨τ, t1, t2⟩ := optimalStep_spec problem s.dimension hdim C hC u m hu hm hpos D d1
  obtain ⟨r, r1, r2, r3⟩ := lowRhs_spec problem s.dimension C hC u m hu hm hm0 D d1
  obtain ⟨D', r', umax, umin, w, e1, e2, x1, x2, w1, w2, -, w3⟩ := mclRhs_spec h hm0 problem u hu
  obtain rfl : D' = D := Except.ok.inj (e1.symm.trans d1)
  obtain rfl : r' = r := Except.ok.inj (e2.symm.trans r1)
  obtain ⟨hns, hnb⟩ := setup_neighbours h
  obtain ⟨umax', umin', y1, y2, y3, y4, y5⟩ := C63_local_bounds s.dimension nb hns u hu
  obtain rfl : umax' = umax := Except.ok.inj (y1.symm.trans x1)
  obtain rfl : umin' = umin := Except.ok.inj (y2.symm.trans x2)
  have hmp : ∀ i < s.dimension, 0 < m.getD i 0 := by
    intro i hi
    rw [List.getD_eq_getElem _ _ (by omega)]
    exact hpos _ (List.getElem_mem _)
  -- neighbours are the degrees of freedom that share a cell
  have hmem : ∀ i (hi : i < nb.length) (j : ℕ), (j : ℤ) ∈ nb[i] ↔ Shares s i j := by
    intro i hi j
    rw [hnb i hi]
    unfold Shares
    rw [s1, s2]
  -- values at neighbours lie between the local bounds
  have hloc : ∀ i < s.dimension, ∀ j, Shares s i j →
      umin'.getD i 0 ≤ u.getD j 0 ∧ u.getD j 0 ≤ umax'.getD i 0 := by
    intro i hi j hij
    have hi' : i < nb.length := by rw [hns.length]; exact hi
    obtain ⟨⟨f1, -⟩, ⟨f2, -⟩⟩ := y5 i hi'
    have := (hmem i hi' j).mpr hij
    exact ⟨by simpa using f2 _ this, by simpa using f1 _ this⟩
  -- bar states
  have hbar : ∀ i j, i < s.dimension → j < s.dimension → i ≠ j →
      D'.lil i j * (u.getD j 0 + u.getD i 0) +
        (problem.flux (u.getD i 0) - problem.flux (u.getD j 0)) * C.lil i j ≤
        2 * D'.lil i j * umax'.getD i 0 ∧
      2 * D'.lil i j * umin'.getD i 0 ≤ D'.lil i j * (u.getD j 0 + u.getD i 0) +
        (problem.flux (u.getD i 0) - problem.flux (u.getD j 0)) * C.lil i j := by
    intro i j hi hj hij
    obtain ⟨a1, a2⟩ := low_contribution (D'.lil i j)
      (C.lil i j * (problem.flux (u.getD j 0) - problem.flux (u.getD i 0))) (u.getD i 0) (u.getD j 0)
      (umin'.getD i 0) (umax'.getD i 0) (d4.nonneg i hi j hj hij) (d5 i j hij)
      (hloc i hi i (shares_self h.toSetup i hi)) (fun hne => hloc i hi j
        (shares_of_gradient h.toSetup i j fun h0 => hne (d6 i j hij h0)))
    constructor <;> linarith
  have hsym : ∀ i j, i < s.dimension → j < s.dimension →
      D'.lil j i * (u.getD i 0 + u.getD j 0) +
        (problem.flux (u.getD j 0) - problem.flux (u.getD i 0)) * C.lil j i =
      D'.lil i j * (u.getD j 0 + u.getD i 0) +
        (problem.flux (u.getD i 0) - problem.flux (u.getD j 0)) * C.lil i j := by
    intro i j hi hj
    rw [d4.symm j hj i hi, hC.anti i j]
    ring
  have hflux : ∀ i < s.dimension,
      (u.map problem.flux).getD i 0 = problem.flux (u.getD i 0) := fun i hi =>
    getD_map_flux problem u i (by omega)
  -- bounds of the limited fluxes
  have hF : ∀ i j, i < s.dimension → j < s.dimension → i ≠ j →
      let W := D'.lil i j * (u.getD j 0 + u.getD i 0) +
        (problem.flux (u.getD i 0) - problem.flux (u.getD j 0)) * C.lil i j
      let F := fluxAt M D' C u (u.map problem.flux) r' umax' umin' i j
      F ≤ 2 * D'.lil i j * umax'.getD i 0 - W ∧ -F ≤ 2 * D'.lil i j * umax'.getD j 0 - W ∧
      -F ≤ W - 2 * D'.lil i j * umin'.getD i 0 ∧ F ≤ W - 2 * D'.lil i j * umin'.getD j 0 := by
    intro i j hi hj hij W F
    obtain ⟨a1, a2⟩ := hbar i j hi hj hij
    obtain ⟨b1, b2⟩ := hbar j i hj hi hij.symm
    rw [hsym i j hi hj, d4.symm j hj i hi] at b1 b2
    have := limitedFlux_bounds (M.lil i j) (D'.lil i j) (C.lil i j) (u.getD i 0) (u.getD j 0)
      (problem.flux (u.getD i 0)) (problem.flux (u.getD j 0)) (r'.getD i 0) (r'.getD j 0)
      (umax'.getD i 0) (umax'.getD j 0) (umin'.getD i 0) (umin'.getD j 0) a1 b1 a2 b2
    simp only [F, fluxAt, hflux i hi, hflux j hj]
    exact this
  -- the exceptional pair
  have hexc : ∀ i j, i ≠ j → s.map.meshSize = 2 ∧
      (i = 0 ∧ j = s.map.degree ∨ i = s.map.degree ∧ j = 0) → C.lil i j = 0 ∧ D'.lil i j = 0 := by
    intro i j hij hx
    have := gradient_exceptional gauss h.isGauss s (by omega) C h.gradient hx.1 i j hx.2
    exact ⟨this, d6 i j hij this⟩
  refine ⟨τ, t1, w, w1, w2, ?_⟩
  intro dt hdt hle i hi lo hi' hrange
  have hcfl := (t2 dt).mp hle i hi
  rw [laplacian_abs_diag d4 i hi] at hcfl
  have hup := correction_le s.map rfl (by change 0 < s.degree; omega)
    (by change 2 ≤ s.cells.length; rw [s2]; exact h.two)
    (fluxAt M D' C u (u.map problem.flux) r' umax' umin')
    (fun i j => 2 * D'.lil i j * umax'.getD i 0 - (D'.lil i j * (u.getD j 0 + u.getD i 0) +
        (problem.flux (u.getD i 0) - problem.flux (u.getD j 0)) * C.lil i j))
    (by
      intro i j hi hj hij
      rw [map_dimension] at hi hj
      obtain ⟨f1, f2, -, -⟩ := hF i j hi hj hij
      refine ⟨f1, ?_⟩
      rw [hsym i j hi hj, d4.symm j hj i hi]
      exact f2)
    (by
      intro i j hi hj hij
      rw [map_dimension] at hi hj
      have := (hbar i j hi hj hij).1
      linarith)
    (by
      intro i j hij hx
      obtain ⟨z1, z2⟩ := hexc i j hij hx
      simp [z1, z2])
    i (by rw [map_dimension]; exact hi)
  have hneg : correction s.map (fun a b => -fluxAt M D' C u (u.map problem.flux) r' umax' umin' a b) i
      = -correction s.map (fluxAt M D' C u (u.map problem.flux) r' umax' umin') i := by
    unfold correction
    simp only [← Finset.sum_neg_distrib]
    refine Finset.sum_congr rfl fun c _ => Finset.sum_congr rfl fun l _ =>
      Finset.sum_congr rfl fun l' _ => ?_
    split
    · split <;> split <;> ring
    · simp
  have hdown := correction_le s.map rfl (by change 0 < s.degree; omega)
    (by change 2 ≤ s.cells.length; rw [s2]; exact h.two)
    (fun a b => -fluxAt M D' C u (u.map problem.flux) r' umax' umin' a b)
    (fun i j => (D'.lil i j * (u.getD j 0 + u.getD i 0) +
        (problem.flux (u.getD i 0) - problem.flux (u.getD j 0)) * C.lil i j) -
        2 * D'.lil i j * umin'.getD i 0)
    (by
      intro i j hi hj hij
      rw [map_dimension] at hi hj
      obtain ⟨-, -, f3, f4⟩ := hF i j hi hj hij
      refine ⟨f3, ?_⟩
      rw [hsym i j hi hj, d4.symm j hj i hi, neg_neg]
      exact f4)
    (by
      intro i j hi hj hij
      rw [map_dimension] at hi hj
      have := (hbar i j hi hj hij).2
      linarith)
    (by
      intro i j hij hx
      obtain ⟨z1, z2⟩ := hexc i j hij hx
      simp [z1, z2])
    i (by rw [map_dimension]; exact hi)
  rw [hneg] at hdown
  rw [map_dimension] at hup hdown
  obtain ⟨q1, q2⟩ := hloc i hi i (shares_self h.toSetup i hi)
  have hsplit : u.getD i 0 + dt * w.getD i 0 = u.getD i 0 + dt *
      ((∑ j ∈ (Finset.range s.dimension).erase i, (D'.lil i j * (u.getD j 0 - u.getD i 0) -
        C.lil i j * (problem.flux (u.getD j 0) - problem.flux (u.getD i 0))) +
        correction s.map (fluxAt M D' C u (u.map problem.flux) r' umax' umin') i) / m.getD i 0) := by
    rw [w3 i hi, r3 i hi, add_div]
  have hfin := bounded_step dt (m.getD i 0) (u.getD i 0)
    (∑ j ∈ (Finset.range s.dimension).erase i, D'.lil i j)
    (∑ j ∈ (Finset.range s.dimension).erase i, (D'.lil i j * (u.getD j 0 - u.getD i 0) -
        C.lil i j * (problem.flux (u.getD j 0) - problem.flux (u.getD i 0))) +
        correction s.map (fluxAt M D' C u (u.map problem.flux) r' umax' umin') i)
    (umin'.getD i 0) (umax'.getD i 0) hdt (hmp i hi) hcfl q1 q2
    (by
      refine (add_le_add_right hup _).trans (le_of_eq ?_)
      rw [← Finset.sum_add_distrib, Finset.mul_sum, Finset.sum_mul]
      exact Finset.sum_congr rfl fun j _ => by ring)
    (by
      have e : 2 * (∑ j ∈ (Finset.range s.dimension).erase i, D'.lil i j) *
          (umin'.getD i 0 - u.getD i 0) =
          ∑ j ∈ (Finset.range s.dimension).erase i, (D'.lil i j * (u.getD j 0 - u.getD i 0) -
            C.lil i j * (problem.flux (u.getD j 0) - problem.flux (u.getD i 0))) -
          ∑ j ∈ (Finset.range s.dimension).erase i,
            ((D'.lil i j * (u.getD j 0 + u.getD i 0) +
              (problem.flux (u.getD i 0) - problem.flux (u.getD j 0)) * C.lil i j) -
              2 * D'.lil i j * umin'.getD i 0) := by
        rw [← Finset.sum_sub_distrib, Finset.mul_sum, Finset.sum_mul]
        exact Finset.sum_congr rfl fun j _ => by ring
      rw [e]
      linarith)
  rw [hsplit]
  -- the local bounds are attained at degrees of freedom that share a cell
  have hi'' : i < nb.length := by rw [hns.length]; exact hi
  obtain ⟨⟨-, k1, hk1, hv1⟩, ⟨-, k2, hk2, hv2⟩⟩ := y5 i hi''
  have b1 := hns.valid i hi'' k1 hk1
  have b2 := hns.valid i hi'' k2 hk2
  have z1 := hrange k1.toNat (by omega) ((hmem i hi'' _).mp (by rwa [Int.toNat_of_nonneg b1.1]))
  have z2 := hrange k2.toNat (by omega) ((hmem i hi'' _).mp (by rwa [Int.toNat_of_nonneg b2.1]))
  rw [← hv1] at z1
  rw [← hv2] at z2
  exact ⟨z2.1.trans hfin.1, hfin.2.trans z1.2⟩

/-- C69.  The right-hand side has no total mass, whenever it is defined. -/
theorem C69_rhs_mass {gauss d n p s m M C nb} (h : MCLSetup gauss d n p s m M C nb)
    (problem : Problem) (u w : List ℝ) (hu : u.length = s.dimension)
    (hw : mclRhs s.map problem m M C nb u = .ok w) :
    w.length = s.dimension ∧ totalMass m w = 0 := by
  obtain ⟨s1, s2, s3, s4⟩ := setup_facts h.toSetup
  have hp0 := h.degree
  obtain ⟨hm, -⟩ := lumped_spec gauss h.isGauss s (by omega) m h.mass
  have hr : ∃ r, lowRhs problem m C u = .ok r := by
    unfold mclRhs at hw
    cases hr : lowRhs problem m C u with
    | error e => rw [hr] at hw; cases hw
    | ok r => exact ⟨r, rfl⟩
  obtain ⟨r0, hr0⟩ := hr
  obtain ⟨-, -, -, hm0⟩ := lowRhs_inv problem m C u r0 hr0
  obtain ⟨D, r, umax, umin, w', d1, e1, x1, x2, w1, w2, w3, w4⟩ := mclRhs_spec h hm0 problem u hu
  obtain rfl : w' = w := Except.ok.inj (w1.symm.trans hw)
  obtain ⟨-, hr2⟩ := C68_rhs_mass h.toSetup problem u r hu e1
  refine ⟨w2, ?_⟩
  rw [totalMass_eq m r s.dimension hm w3] at hr2
  rw [totalMass_eq m w' s.dimension hm w2]
  have e : ∀ i ∈ Finset.range s.dimension, m.getD i 0 * w'.getD i 0 = m.getD i 0 * r.getD i 0 +
      correction s.map (fluxAt M D C u (u.map problem.flux) r umax umin) i := by
    intro i hi
    have hi' := Finset.mem_range.mp hi
    have hne : m.getD i 0 ≠ 0 := by
      rw [List.getD_eq_getElem _ _ (by omega)]
      exact hm0 _ (List.getElem_mem _)
    rw [w4 i hi', mul_add, mul_div_cancel₀ _ hne]
  rw [Finset.sum_congr rfl e, Finset.sum_add_distrib, hr2, zero_add, ← map_dimension]
  exact sum_correction s.map (by change 0 < s.degree; omega) _

/-- C69.  Every run with any Runge-Kutta method that does not raise preserves the total mass. -/
theorem C69_conservation {gauss d n p s m M C nb} (h : MCLSetup gauss d n p s m M C nb)
    (problem : Problem) (T : Tableau ℝ) (S S' : Solver ℝ (Fin s.dimension → ℝ)) (steps : List ℝ)
    (hrun : S.runE T (vecRhs s.dimension fun _ => mclRhs s.map problem m M C nb) steps = .ok S') :
    totalMass m (List.ofFn S'.solution) = totalMass m (List.ofFn S.solution) := by
  obtain ⟨s1, -⟩ := setup_facts h.toSetup
  have hp0 := h.degree
  exact run_mass m s.dimension (lumped_spec gauss h.isGauss s (by omega) m h.mass).1 _
    (fun _ u w hu hw => C69_rhs_mass h problem u w hu hw) T S S' steps hrun

/-- C69, runs.  With positive lumped masses a run with forward Euler, Heun or SSP3 either violates
the step condition at some stage, or it does not raise and stays within the bounds of the initial
data. -/
theorem C69_run {gauss d n p s m M C nb} (h : MCLSetup gauss d n p s m M C nb)
    (hpos : ∀ x ∈ m, 0 < x) (problem : Problem) (T : Tableau ℝ)
    (hT : T = forwardEuler ℝ ∨ T = heun ℝ ∨ T = ssp3 ℝ) (lo hi : ℝ)
    (S : Solver ℝ (Fin s.dimension → ℝ)) (hS : ∀ i, lo ≤ S.solution i ∧ S.solution i ≤ hi)
    (steps : List ℝ) (hsteps : ∀ dt ∈ steps, 0 ≤ dt) :
    let f : ℝ → (Fin s.dimension → ℝ) → Except Error (Fin s.dimension → ℝ) :=
      vecRhs s.dimension fun _ => mclRhs s.map problem m M C nb
    S.runChecked T (StepOk problem m C s.dimension) f steps = .error none ∨
    ∃ S', S.runChecked T (StepOk problem m C s.dimension) f steps = .ok S' ∧
      S.runE T f steps = .ok S' ∧ ∀ i, lo ≤ S'.solution i ∧ S'.solution i ≤ hi := by
  intro f
  refine runChecked_spec T hT _ f (boxSet s.dimension lo hi) (boxSet_convex _ lo hi) steps ?_ S hS
  intro dt hdt t u hu hadm
  obtain ⟨τ, t1, t2⟩ := hadm
  obtain ⟨τ', e1, w, w1, w2, w3⟩ := C69_bounds h hpos problem (List.ofFn u) (by simp)
  obtain rfl : τ' = τ := Except.ok.inj (e1.symm.trans t1)
  exact box_of_local s (mclRhs s.map problem m M C nb) lo hi dt u hu
    ⟨w, w1, w2, w3 dt (hsteps dt hdt) t2⟩ t

/-- C69 for the advection equation: steps of at most the optimal time step never violate the
condition. -/
theorem C69_run_advection {gauss d n p s m M C nb} (h : MCLSetup gauss d n p s m M C nb)
    (hpos : ∀ x ∈ m, 0 < x) (T : Tableau ℝ)
    (hT : T = forwardEuler ℝ ∨ T = heun ℝ ∨ T = ssp3 ℝ) (lo hi : ℝ)
    (S : Solver ℝ (Fin s.dimension → ℝ)) (hS : ∀ i, lo ≤ S.solution i ∧ S.solution i ≤ hi)
    (τ : Option ℝ) (hτ : optimalStep .advection m C (List.ofFn S.solution) = .ok τ)
    (steps : List ℝ) (hsteps : ∀ dt ∈ steps, 0 ≤ dt ∧ ∀ x, τ = some x → dt ≤ x) :
    ∃ S', S.runE T (vecRhs s.dimension fun _ => mclRhs s.map .advection m M C nb) steps = .ok S' ∧
      ∀ i, lo ≤ S'.solution i ∧ S'.solution i ≤ hi := by
  refine sspE_run _ (boxSet s.dimension lo hi) (boxSet_convex _ lo hi) steps ?_ S hS T hT
  intro dt hdt t u hu
  obtain ⟨τ', e1, w, w1, w2, w3⟩ := C69_bounds h hpos .advection (List.ofFn u) (by simp)
  have e2 : optimalStep .advection m C (List.ofFn S.solution) =
      optimalStep .advection m C (List.ofFn u) := rfl
  obtain rfl : τ' = τ := Except.ok.inj (e1.symm.trans (e2.symm.trans hτ))
  exact box_of_local s (mclRhs s.map .advection m M C nb) lo hi dt u hu
    ⟨w, w1, w2, w3 dt (hsteps dt hdt).1 (hsteps dt hdt).2⟩ t

/-! ### Non-vacuity -/

theorem exists_mclSetup (d : Interval ℝ) (hd : d.a < d.b) (n p : ℕ) (hn : 2 ≤ n) (hp : 0 < p) :
    ∃ gauss s m M C nb, MCLSetup gauss d n p s m M C nb := by
  obtain ⟨gauss, s, m, C, h⟩ := exists_setup d hd n p (by omega) hp
  obtain ⟨s1, s2, s3, s4⟩ := setup_facts h
  obtain ⟨M, hM, -⟩ := mass_spec gauss s (by omega)
  obtain ⟨g, nb, g1, g2, -, -⟩ := C62_finite_elements n p (by omega) hp true
  have e : g = s.map := by
    unfold IndexMap.make at g1
    rw [if_pos (by omega)] at g1
    have := Except.ok.inj g1
    rw [← this]
    simp [Space.map, s1, s2]
  subst e
  exact ⟨gauss, s, m, M, C, nb, h, hn, hM, g2⟩

/-- Cubic elements on five cells: positive masses and a first right-hand side of Burgers' equation. -/
example : ∃ gauss s m M C nb, MCLSetup gauss ⟨0, 1⟩ 5 3 s m M C nb ∧ (∀ x ∈ m, 0 < x) ∧
    ∃ w, mclRhs s.map .burgers m M C nb (List.replicate 15 3) = .ok w := by
  obtain ⟨gauss, s, m, M, C, nb, h⟩ :=
    exists_mclSetup ⟨0, 1⟩ (by norm_num) 5 3 (by norm_num) (by norm_num)
  have hpos := (C68_masses h.toSetup (by norm_num)).2
  obtain ⟨-, -, s3, -⟩ := setup_facts h.toSetup
  obtain ⟨τ, h1, w, h2, -⟩ := C69_bounds h hpos .burgers (List.replicate 15 3) (by simp [s3])
  exact ⟨gauss, s, m, M, C, nb, h, hpos, w, h2⟩

end Verif.FE
