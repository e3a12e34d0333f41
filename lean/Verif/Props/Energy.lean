import Verif.Props.Variation

/-!
Properties C91 and C92: energy balance of the schemes for scalar equations on periodic meshes and
exact transport of the Lax-Friedrichs scheme for advection.
-/

set_option linter.unusedSectionVars false

namespace Verif.Scalar

open Verif.Py Verif.Boundary Verif.FV Verif.ODE

variable {K : Type*} [Field K] [LinearOrder K] [IsStrictOrderedRing K]

/-! ### Specification -/

/-- Rate of change of the energy `1/2 Σ dx uᵢ²` along the right-hand side `w`. -/
def energyRate (dx : K) (v w : List K) : K := dx * (List.zipWith (fun x k => x * k) v w).sum

/-- The sum over all nodes of a periodic mesh of a quantity of the two neighbouring cells. -/
def nodeSum (v : List K) (q : K → K → K) : K :=
  (List.zipWith q v (v.rotate 1)).sum

/-! ### Helper lemmas -/

theorem sum_map_range (n : ℕ) (f : ℕ → K) : ((List.range n).map f).sum = ∑ j ∈ Finset.range n, f j := by
  induction n with
  | zero => simp
  | succ n ih => rw [List.range_succ, List.map_append, List.sum_append, ih, Finset.sum_range_succ]; simp

theorem nodeSum_eq (v : List K) (q : K → K → K) (n : ℕ) (hn : v.length = n) (h0 : 0 < n) :
    nodeSum v q = ∑ j ∈ Finset.range n, q (v.getD (j % n) 0) (v.getD ((j + 1) % n) 0) := by
  have e : List.zipWith q v (v.rotate 1) =
      (List.range n).map (fun j => q (v.getD (j % n) 0) (v.getD ((j + 1) % n) 0)) := by
    apply List.ext_getElem
    · simp [hn]
    · intro i h1 h2
      have hi : i < n := by simpa using h2
      simp only [List.getElem_zipWith, List.getElem_map, List.getElem_range, List.getElem_rotate]
      rw [Nat.mod_eq_of_lt hi, List.getD_eq_getElem _ _ (by omega),
        List.getD_eq_getElem _ _ (by rw [hn]; exact Nat.mod_lt _ h0)]
      simp only [hn]
  rw [nodeSum, e, sum_map_range]

theorem nodeSum_add (v : List K) (q q' : K → K → K) :
    nodeSum v (fun x y => q x y + q' x y) = nodeSum v q + nodeSum v q' := by
  rcases Nat.eq_zero_or_pos v.length with h | h
  · rw [List.length_eq_zero_iff] at h
    subst h
    simp [nodeSum]
  · simp only [nodeSum_eq v _ v.length rfl h, Finset.sum_add_distrib]

theorem nodeSum_mul (v : List K) (c : K) (q : K → K → K) :
    nodeSum v (fun x y => c * q x y) = c * nodeSum v q := by
  rcases Nat.eq_zero_or_pos v.length with h | h
  · rw [List.length_eq_zero_iff] at h
    subst h
    simp [nodeSum]
  · simp only [nodeSum_eq v _ v.length rfl h, Finset.mul_sum]

theorem sum_shift (n : ℕ) (g : ℕ → K) (hg : g n = g 0) :
    ∑ j ∈ Finset.range n, g (j + 1) = ∑ j ∈ Finset.range n, g j := by
  have h1 := Finset.sum_range_succ g n
  have h2 := Finset.sum_range_succ' g n
  rw [h1, hg] at h2
  linarith

/-- Differences of a function of the state add up to zero around the circle. -/
theorem nodeSum_potential (v : List K) (ψ : K → K) : nodeSum v (fun x y => ψ y - ψ x) = 0 := by
  rcases Nat.eq_zero_or_pos v.length with h | h
  · rw [List.length_eq_zero_iff] at h
    subst h
    simp [nodeSum]
  · rw [nodeSum_eq v _ v.length rfl h, Finset.sum_sub_distrib, sub_eq_zero]
    exact sum_shift v.length (fun j => ψ (v.getD (j % v.length) 0)) (by simp)

theorem nodeSum_le (v : List K) (q q' : K → K → K) (h : ∀ x ∈ v, ∀ y ∈ v, q x y ≤ q' x y) :
    nodeSum v q ≤ nodeSum v q' := by
  rcases Nat.eq_zero_or_pos v.length with h0 | h0
  · rw [List.length_eq_zero_iff] at h0
    subst h0
    simp [nodeSum]
  · rw [nodeSum_eq v _ v.length rfl h0, nodeSum_eq v _ v.length rfl h0]
    apply Finset.sum_le_sum
    intro j _
    have hm : ∀ i, v.getD (i % v.length) 0 ∈ v := by
      intro i
      rw [List.getD_eq_getElem _ _ (Nat.mod_lt _ h0)]
      exact List.getElem_mem _
    exact h _ (hm j) _ (hm (j + 1))

/-- Summation by parts for schemes with a flux `φ` between neighbouring cells. -/
theorem energy_parts (F : K → K → Except Error K) (φ : K → K → K)
    (hF : ∀ x y g, F x y = .ok g → g = φ x y) (dx : K)
    (wall : Option (K → K)) (il ir : Option (K → K)) (bc : BC K K)
    (hbc : build wall ["periodic"] 1 il ir = .ok bc) (t : K) (v w : List K) (hv : v ≠ [])
    (h : rhs (twoPoint F) dx bc t v = .ok w) :
    energyRate dx v w = nodeSum v (fun x y => φ x y * (y - x)) := by
  have hpos := List.length_pos_iff.mpr hv
  have he := periodic_extend wall 1 il ir bc hbc v (by omega) (some t)
  set n := v.length with hn
  set e : ℕ → K := fun j => v.getD ((j + n - 1) % n) 0 with hedef
  have hsucc : ∀ j, e (j + 1) = v.getD (j % n) 0 := by
    intro j
    simp only [hedef]
    rw [show j + 1 + n - 1 = j + n by omega, Nat.add_mod_right]
  have hper : ∀ j, e (j + n) = e j := by
    intro j
    simp only [hedef]
    congr 1
    rw [show j + n + n - 1 = j + n - 1 + n by omega, Nat.add_mod_right]
  obtain ⟨g, hdx, hg, hw⟩ := rhs_twoPoint_inv F dx bc t v _ w he n (by simp) h
  have hg' : ∀ j < n + 1, g j = φ (e j) (e (j + 1)) := by
    intro j hj
    have := hF _ _ _ (hg j hj)
    simpa using this
  have e1 : List.zipWith (fun x k => x * k) v w =
      (List.range n).map (fun i => e (i + 1) * ((1 / dx) * (φ (e i) (e (i + 1)) -
        φ (e (i + 1)) (e (i + 2))))) := by
    apply List.ext_getElem
    · simp [hw, ← hn]
    · intro i h1 h2
      have hi : i < n := by simpa using h2
      simp only [List.getElem_zipWith, hw, List.getElem_map, List.getElem_range, smul_eq_mul]
      rw [hg' i (by omega), hg' (i + 1) (by omega), hsucc i, Nat.mod_eq_of_lt hi,
        List.getD_eq_getElem _ _ hi, ← sub_eq_add_neg]
  rw [energyRate, e1, sum_map_range, nodeSum_eq v _ n rfl hpos, Finset.mul_sum]
  set G : ℕ → K := fun j => e j * φ (e j) (e (j + 1)) with hG
  set H : ℕ → K := fun j => e (j + 1) * φ (e j) (e (j + 1)) with hH
  have s1 := sum_shift n G (by
    simp only [hG]
    have a := hper 0
    have c := hper 1
    rw [Nat.zero_add] at a
    rw [show n + 1 = 1 + n by omega, c, a])
  have s2 := sum_shift n H (by
    simp only [hH]
    have a := hper 0
    have c := hper 1
    rw [Nat.zero_add] at a
    rw [show n + 1 = 1 + n by omega, c, a])
  calc _ = ∑ i ∈ Finset.range n, (H i - G (i + 1)) := by
        apply Finset.sum_congr rfl
        intro i _
        simp only [hH, hG]
        field_simp
    _ = ∑ i ∈ Finset.range n, (H (i + 1) - G (i + 1)) := by
        rw [Finset.sum_sub_distrib, Finset.sum_sub_distrib, s2]
    _ = _ := by
        apply Finset.sum_congr rfl
        intro i _
        simp only [hH, hG]
        rw [show i + 1 + 1 = (i + 1) + 1 from rfl, hsucc (i + 1), hsucc i]
        ring

theorem nodeFlux_of (R : Riemann K K) (x y fL fR a g : K) (hL : R.flux x = .ok fL)
    (hR : R.flux y = .ok fR) (hw : R.waveSpeed x y = .ok (-a, a)) (h : R.nodeFlux x y = .ok g) :
    g = (fL + fR) / 2 - a / 2 * (y - x) := by
  simp only [Riemann.nodeFlux, Riemann.solve, hL, hR, hw] at h
  by_cases h0 : a - -a = 0
  · simp only [if_pos h0] at h
    cases h
  · simp only [if_neg h0, smul_eq_mul] at h
    rw [← Except.ok.inj h]
    have h1 : a ≠ 0 := by
      intro hz
      apply h0
      rw [hz]
      ring
    have h3 : a - -a = 2 * a := by ring
    rw [h3]
    field_simp
    ring

/-- The flux of the Riemann solver, whatever the sign of the wave speed. -/
theorem nodeFlux_inv (p : Problem) (x y g : K) (h : p.riemann.nodeFlux x y = .ok g) :
    g = (p.flux x + p.flux y) / 2 - p.speed x y / 2 * (y - x) :=
  nodeFlux_of p.riemann x y _ _ _ g rfl rfl rfl h

/-! ### C91 -/

/-- C91, advection: the energy decreases by half the sum of the squared jumps. -/
theorem C91_advection (dx : K) (wall : Option (K → K)) (il ir : Option (K → K)) (bc : BC K K)
    (hbc : build wall ["periodic"] 1 il ir = .ok bc) (t : K) (v w : List K) (hv : v ≠ [])
    (h : rhs (laxFriedrichs Problem.advection.riemann) dx bc t v = .ok w) :
    energyRate dx v w = -(1 / 2) * nodeSum v (fun x y => (y - x) ^ 2) := by
  rw [energy_parts _ _ (nodeFlux_inv .advection) dx wall il ir bc hbc t v w hv h]
  have := nodeSum_potential v (fun x => x ^ 2 / 2)
  rw [← nodeSum_mul, ← add_zero (nodeSum v (fun x y => -(1 / 2) * (y - x) ^ 2)), ← this,
    ← nodeSum_add]
  congr 1
  funext x y
  simp only [Problem.flux, Problem.speed, Problem.waveSpeed, Problem.fluxPrime, max_self]
  ring

/-- C91, Burgers' equation: the exact balance for all data for which the scheme is defined. -/
theorem C91_burgers (dx : K) (wall : Option (K → K)) (il ir : Option (K → K)) (bc : BC K K)
    (hbc : build wall ["periodic"] 1 il ir = .ok bc) (t : K) (v w : List K) (hv : v ≠ [])
    (h : rhs (laxFriedrichs Problem.burgers.riemann) dx bc t v = .ok w) :
    energyRate dx v w = nodeSum v (fun x y => (y - x) ^ 3 / 12 - max x y / 2 * (y - x) ^ 2) := by
  rw [energy_parts _ _ (nodeFlux_inv .burgers) dx wall il ir bc hbc t v w hv h]
  have := nodeSum_potential v (fun x => x ^ 3 / 6)
  rw [← add_zero (nodeSum v (fun x y => (y - x) ^ 3 / 12 - max x y / 2 * (y - x) ^ 2)), ← this,
    ← nodeSum_add]
  congr 1
  funext x y
  simp only [Problem.flux, Problem.speed, Problem.waveSpeed, Problem.fluxPrime]
  ring

/-- C91, Burgers' equation with nonnegative data: the energy decreases at least by `5/12` of the sum
of the squared jumps weighted with the speeds, so it never grows. -/
theorem C91_dissipation (dx : K) (wall : Option (K → K)) (il ir : Option (K → K)) (bc : BC K K)
    (hbc : build wall ["periodic"] 1 il ir = .ok bc) (t : K) (v w : List K) (hv : v ≠ [])
    (hpos : ∀ x ∈ v, 0 ≤ x)
    (h : rhs (laxFriedrichs Problem.burgers.riemann) dx bc t v = .ok w) :
    energyRate dx v w ≤ -(5 / 12) * nodeSum v (fun x y => max x y * (y - x) ^ 2) ∧
      energyRate dx v w ≤ 0 := by
  have key : energyRate dx v w ≤ -(5 / 12) * nodeSum v (fun x y => max x y * (y - x) ^ 2) := by
    rw [C91_burgers dx wall il ir bc hbc t v w hv h, ← nodeSum_mul]
    apply nodeSum_le
    intro x hx y hy
    have h1 := hpos x hx
    have h2 := hpos y hy
    have h3 : y - x ≤ max x y := by linarith [le_max_right x y]
    have h4 := mul_le_mul_of_nonneg_right h3 (sq_nonneg (y - x))
    nlinarith
  refine ⟨key, key.trans ?_⟩
  have : 0 ≤ nodeSum v (fun x y => max x y * (y - x) ^ 2) := by
    have := nodeSum_le v (fun _ _ => 0) (fun x y => max x y * (y - x) ^ 2) (by
      intro x hx y hy
      exact mul_nonneg ((hpos x hx).trans (le_max_left x y)) (sq_nonneg _))
    have e : nodeSum v (fun _ _ => (0 : K)) = 0 := by
      have := nodeSum_potential v (fun _ => (0 : K))
      simpa using this
    rwa [e] at this
  linarith

/-- C91, central flux: the energy is constant for advection and changes by a twelfth of the sum of
the cubed jumps for Burgers' equation. -/
theorem C91_central (p : Problem) (dx : K) (wall : Option (K → K)) (il ir : Option (K → K))
    (bc : BC K K) (hbc : build wall ["periodic"] 1 il ir = .ok bc) (t : K) (v w : List K)
    (hv : v ≠ []) (h : rhs (central K p.riemann.flux) dx bc t v = .ok w) :
    (p = .advection → energyRate dx v w = 0) ∧
    (p = .burgers → energyRate dx v w = 1 / 12 * nodeSum v (fun x y => (y - x) ^ 3)) := by
  have e := energy_parts (centralNode K p.riemann.flux) (fun x y => (p.flux x + p.flux y) / 2) (by
    intro x y g hg
    simp only [centralNode, Problem.riemann, smul_eq_mul] at hg
    rw [← Except.ok.inj hg]
    ring) dx wall il ir bc hbc t v w hv h
  constructor
  · rintro rfl
    rw [e, ← nodeSum_potential v (fun x => x ^ 2 / 2)]
    congr 1
    funext x y
    simp only [Problem.flux]
    ring
  · rintro rfl
    have := nodeSum_potential v (fun x => x ^ 3 / 6)
    rw [e, ← nodeSum_mul, ← add_zero (nodeSum v (fun x y => 1 / 12 * (y - x) ^ 3)), ← this,
      ← nodeSum_add]
    congr 1
    funext x y
    simp only [Problem.flux]
    ring

/-- With negative data the Lax-Friedrichs scheme for Burgers' equation creates energy, and the
central scheme creates energy on states with steep rises. -/
theorem C91_counterexample :
    okAnd (rhs (K := ℚ) (laxFriedrichs (Problem.burgers.riemann (K := ℚ))) 1
      ⟨[.copy (-1)], [.copy 0], true⟩ 0 [-1, -2, -1]) (fun w =>
        decide (0 < energyRate 1 [-1, -2, -1] w)) = true ∧
    okAnd (rhs (K := ℚ) (central ℚ (Problem.burgers.riemann (K := ℚ)).flux) 1
      ⟨[.copy (-1)], [.copy 0], true⟩ 0 [1, 4, 2]) (fun w =>
        decide (0 < energyRate 1 [1, 4, 2] w)) = true := by
  constructor <;> decide +kernel

/-- Non-vacuity: Burgers' equation with nonnegative data. -/
example : okAnd (rhs (K := ℚ) (laxFriedrichs (Problem.burgers.riemann (K := ℚ))) 1
      ⟨[.copy (-1)], [.copy 0], true⟩ 0 [1, 4, 2]) (fun w =>
        decide (energyRate 1 [1, 4, 2] w < 0)) = true := by decide +kernel

/-! ### C92 -/

/-- C92: the Lax-Friedrichs scheme for advection is the upwind scheme. -/
theorem C92_upwind (dx : K) (hdx : dx ≠ 0) (bc : BC K K) (t : K) (v ext : List K)
    (hext : bc.extend v (some t) = .ok ext) (hlen : ext.length = v.length + 2) :
    rhs (laxFriedrichs Problem.advection.riemann) dx bc t v =
      .ok ((List.range v.length).map (fun i => (ext.getD i 0 - ext.getD (i + 1) 0) / dx)) := by
  rw [lf_rhs .advection dx hdx bc t v ext hext v.length hlen
    (fun j _ => (admissible_advection _ _).1)]
  congr 1
  apply List.map_congr_left
  intro i _
  simp only [lfFlux, llf, Problem.flux, Problem.speed, Problem.waveSpeed, Problem.fluxPrime, max_self]
  ring

/-- One forward Euler step. -/
theorem euler_execute {E : Type*} [AddCommGroup E] [Module K E] {ε : Type*}
    (f : K → E → Except ε E) (s : Solver K E) (dt : K) (w : E) (h : f s.time s.solution = .ok w) :
    ∃ s', s.executeE (forwardEuler K) f dt = .ok s' ∧ s'.time = s.time + dt ∧
      s'.solution = s.solution + dt • w := by
  refine ⟨_, executeE_ok _ _ _ _ ?_, rfl, ?_⟩
  · intro i hi
    have : i = 0 := by simp [forwardEuler] at hi; exact hi
    subst this
    exact ⟨w, by simpa [stageValue, timeNode, forwardEuler] using h⟩
  · rw [execute_forwardEuler]
    simp [totalise, h]

/-- C92, exact transport: on a periodic mesh `k` forward Euler steps with the largest admissible step
`dt = dx` shift the cell values by exactly `k` cells, which is the exact solution. -/
theorem C92_exact_transport (n : ℕ) (hn : 0 < n) (wall : Option (K → K)) (il ir : Option (K → K))
    (bc : BC K K) (hbc : build wall ["periodic"] 1 il ir = .ok bc) (dx : K) (hdx : dx ≠ 0)
    (s : Solver K (Fin n → K)) (k : ℕ) :
    ∃ s', s.runE (forwardEuler K)
        (vecRhs n (rhs (laxFriedrichs Problem.advection.riemann) dx bc)) (List.replicate k dx) =
          .ok s' ∧
      s'.time = s.time + k * dx ∧
      ∀ i : Fin n, s'.solution ⟨(i + k) % n, Nat.mod_lt _ hn⟩ = s.solution i := by
  induction k generalizing s with
  | zero =>
    refine ⟨s, rfl, by simp, ?_⟩
    intro i
    simp only [Nat.add_zero, Nat.mod_eq_of_lt i.2]
  | succ k ih =>
    set u := s.solution with hu
    have he := periodic_extend wall 1 il ir bc hbc (List.ofFn u) (by simp; omega) (some s.time)
    have hr := C92_upwind dx hdx bc s.time (List.ofFn u) _ he (by simp)
    have hl : (List.ofFn u).length = n := List.length_ofFn
    obtain ⟨s1, h1, h2, h3⟩ := euler_execute _ s dx _
      (vecRhs_ok (n := n) _ s.time u _ hr (by simp))
    have h4 : ∀ i : Fin n, s1.solution ⟨(i + 1) % n, Nat.mod_lt _ hn⟩ = u i := by
      intro i
      rw [h3]
      simp only [Pi.add_apply, Pi.smul_apply, smul_eq_mul, hl]
      have hlt := Nat.mod_lt (i.1 + 1) hn
      rw [range_map_getD _ _ _ hlt, range_map_getD _ _ _ (by omega), range_map_getD _ _ _ (by omega)]
      have a1 : ((i.1 + 1) % n + n - 1) % n = i.1 := by
        rw [show (i.1 + 1) % n + n - 1 = (i.1 + 1) % n + (n - 1) by omega, Nat.mod_add_mod,
          show i.1 + 1 + (n - 1) = i.1 + n by omega, Nat.add_mod_right, Nat.mod_eq_of_lt i.2]
      have a2 : ((i.1 + 1) % n + 1 + n - 1) % n = (i.1 + 1) % n := by
        rw [show (i.1 + 1) % n + 1 + n - 1 = (i.1 + 1) % n + n by omega, Nat.add_mod_right,
          Nat.mod_mod]
      rw [a1, a2, List.getD_eq_getElem _ _ (by omega), List.getD_eq_getElem _ _ (by omega),
        List.getElem_ofFn, List.getElem_ofFn, mul_div_cancel₀ _ hdx]
      change u ⟨(i.1 + 1) % n, _⟩ + (u i - u ⟨(i.1 + 1) % n, _⟩) = u i
      ring
    obtain ⟨s', g1, g2, g3⟩ := ih s1
    refine ⟨s', ?_, ?_, ?_⟩
    · rw [List.replicate_succ]
      simp only [Solver.runE, h1]
      exact g1
    · rw [g2, h2]
      push_cast
      ring
    · intro i
      rw [← h4 i, ← g3 ⟨(i.1 + 1) % n, Nat.mod_lt _ hn⟩]
      have e : (i.1 + (k + 1)) % n = ((i.1 + 1) % n + k) % n := by
        rw [Nat.mod_add_mod]
        congr 1
        omega
      simp only [e]

/-- Non-vacuity: two steps on three cells. -/
example : okAnd ((Solver.init ![1, 5, 3] 0 : Solver ℚ (Fin 3 → ℚ)).runE (forwardEuler ℚ)
    (vecRhs 3 (rhs (K := ℚ) (laxFriedrichs (Problem.advection.riemann (K := ℚ))) (1 / 3)
      ⟨[.copy (-1)], [.copy 0], true⟩)) [1 / 3, 1 / 3])
    (fun s => decide (s.solution 0 = 5 ∧ s.solution 1 = 3 ∧ s.solution 2 = 1)) = true := by
  decide +kernel

end Verif.Scalar
