import Verif.Core.FV
import Verif.Props.Boundary
import Verif.Props.RungeKutta
import Mathlib.Algebra.BigOperators.Fin
import Mathlib.LinearAlgebra.Pi

/-!
Properties C24-C27 and C33-C37: conservation, mass balance, consistency, the Riemann solver, and the
building blocks of numerical fluxes.
-/

set_option linter.unusedSectionVars false

namespace Verif.FV

open Verif.Py Verif.Boundary Verif.ODE

variable {K : Type*} [Field K] [LinearOrder K] [IsStrictOrderedRing K]
variable {V : Type*} [AddCommGroup V] [Module K V]

/-! ### C24, C25 -/

/-- A numerical flux of the form `(-F, F)`, computed node by node from the stencil around the node:
whenever it returns, the right flux at each node is `G` of the stencil and the left one its
negative. -/
def NodeFlux (F : NumFlux V) (G : List V → V) : Prop :=
  ∀ values fl fr, values.length = F.dim →
    (∀ a ∈ values, a.length = (values.headD []).length) → F.call values = .ok (fl, fr) →
    fr = (stencils values).map G ∧ fl = fr.map (fun x => -x)

theorem sum_telescope (c : K) (x : V) (xs : List V) :
    (List.zipWith (fun a b => c • (a + b)) (x :: xs).dropLast
      ((x :: xs).map (fun y => -y)).tail).sum =
      c • (x - (x :: xs).getLast (List.cons_ne_nil _ _)) := by
  induction xs generalizing x with
  | nil => simp
  | cons y ys ih =>
    have h := ih y
    simp only [List.map_cons, List.tail_cons] at h ⊢
    rw [List.dropLast_cons_cons, List.zipWith_cons_cons, List.sum_cons, h]
    rw [List.getLast_cons (List.cons_ne_nil _ _), ← smul_add]
    congr 1
    abel

/-- C25.  Whatever the boundary cells are (as many on each side as the flux needs), if the
right-hand side is computed without exception then the node fluxes `fr`, one for each of the
`len(v) + 1` nodes, satisfy: `dx` times the total of the right-hand side is the flux through the left
end minus the flux through the right end. -/
theorem C25_mass_balance (F : NumFlux V) (G : List V → V) (hF : NodeFlux F G) (hdim : 0 < F.dim)
    (heven : F.dim % 2 = 0) (dx : K) (bc : BC K V) (hl : bc.left.length = F.dim / 2)
    (hr : bc.right.length = F.dim / 2) (t : K) (v w : List V) (h : rhs F dx bc t v = .ok w) :
    ∃ values fl fr, bc.nodeNeighbours v (F.dim / 2) (some t) = .ok values ∧
      F.call values = .ok (fl, fr) ∧ fr.length = v.length + 1 ∧ w.length = v.length ∧
      ∃ hne : fr ≠ [], dx • w.sum = fr.head hne - fr.getLast hne := by
  unfold rhs at h
  cases hv : bc.nodeNeighbours v (F.dim / 2) (some t) with
  | error e => rw [hv] at h; cases h
  | ok values =>
    simp only [hv] at h
    cases hc : F.call values with
    | error e => rw [hc] at h; cases h
    | ok p =>
      obtain ⟨fl, fr⟩ := p
      simp only [hc] at h
      split at h
      · cases h
      · rename_i hdx
        have hvals : values.length = F.dim ∧ ∀ a ∈ values, a.length = v.length + 1 := by
          cases hgl : bc.left.mapM (fun c => c.eval v (some t)) with
          | error e => simp [BC.nodeNeighbours, BC.extend, hgl] at hv
          | ok gl =>
            cases hgr : bc.right.mapM (fun c => c.eval v (some t)) with
            | error e => simp [BC.nodeNeighbours, BC.extend, hgl, hgr] at hv
            | ok gr =>
              obtain ⟨L, h1, h2, h3, _⟩ := C19_node_neighbours bc v gl gr (some t) (F.dim / 2)
                (by omega) hgl hgr (by rw [hl, hr]) (by rw [BC.number, hl]; omega)
              rw [hv] at h1
              cases h1
              refine ⟨by omega, ?_⟩
              intro a ha
              have := h3 a ha
              rw [BC.number, hl] at this
              omega
        have hhead : (values.headD []).length = v.length + 1 := by
          cases values with
          | nil => simp at hvals; omega
          | cons a as => exact hvals.2 a List.mem_cons_self
        obtain ⟨e1, e2⟩ := hF values fl fr hvals.1
          (fun a ha => by rw [hvals.2 a ha, hhead]) hc
        have hfr : fr.length = v.length + 1 := by
          rw [e1, List.length_map, stencils, List.length_map, List.length_range, hhead]
        have hne : fr ≠ [] := by rintro rfl; simp at hfr
        refine ⟨values, fl, fr, rfl, hc, hfr, ?_, hne, ?_⟩
        · cases h; simp [e2, hfr]
        · cases h
          obtain ⟨x, xs, rfl⟩ := List.exists_cons_of_ne_nil hne
          rw [e2, sum_telescope, smul_smul, mul_one_div_cancel hdx, one_smul]
          rfl

/-- C24, right-hand side.  With periodic boundaries the right-hand side of every scheme with a node
flux `(-F, F)` of any stencil width has total zero. -/
theorem C24_rhs_total_zero (F : NumFlux V) (G : List V → V) (hF : NodeFlux F G) (hdim : 0 < F.dim)
    (heven : F.dim % 2 = 0) (dx : K) (wall : Option (V → V)) (il ir : Option (K → V)) (bc : BC K V)
    (hbc : build wall ["periodic"] (F.dim / 2) il ir = .ok bc) (t : K) (v w : List V)
    (h : rhs F dx bc t v = .ok w) : w.sum = 0 := by
  have hdx : dx ≠ 0 := by
    unfold rhs at h
    intro hdx
    split at h
    · cases h
    · split at h
      · cases h
      · rw [if_pos hdx] at h; cases h
  have hb := hbc
  rw [build_periodic] at hb
  cases hb
  obtain ⟨values, fl, fr, hv, hc, hfr, _, hne, hsum⟩ := C25_mass_balance F G hF hdim heven dx _
    (by simp) (by simp) t v w h
  obtain ⟨b, hb1, hb2, hb3⟩ := C20_periodic_wrap wall (F.dim / 2) (by omega) il ir v (some t)
  rw [hbc] at hb1
  cases hb1
  have hlen : F.dim / 2 ≤ v.length := by
    by_contra hlt
    rw [hb3 (not_le.mp hlt)] at hv
    cases hv
  obtain ⟨L, hL1, hL2, hL3, hL4⟩ := hb2 hlen
  rw [hv] at hL1
  cases hL1
  have hhead : (values.headD []).length = v.length + 1 := by
    cases values with
    | nil => simp at hL2; omega
    | cons a as => exact hL3 a List.mem_cons_self
  obtain ⟨e1, _⟩ := hF values fl fr (by omega) (fun a ha => by rw [hL3 a ha, hhead]) hc
  have hst : ∀ a ∈ values, a.getD 0 0 = a.getD v.length 0 := by
    intro a ha
    obtain ⟨k, hk, rfl⟩ := List.getElem_of_mem ha
    have hlk := hL3 _ ha
    have g0 := hL4 k hk 0 (by omega)
    have g1 := hL4 k hk v.length (by omega)
    rw [List.getD_eq_getElem _ _ (by omega), List.getD_eq_getElem _ _ (by omega)]
    apply Option.some.inj
    rw [← g0, ← g1]
    unfold wrap
    congr 2
    rw [show ((v.length : ℕ) : ℤ) - (F.dim / 2 : ℕ) + k =
      ((0 : ℕ) : ℤ) - (F.dim / 2 : ℕ) + k + v.length by push_cast; ring, Int.add_emod_right]
  have hends : fr.head hne = fr.getLast hne := by
    rw [List.head_eq_getElem, List.getLast_eq_getElem]
    simp only [e1, stencils, List.getElem_map, List.getElem_range, List.length_map,
      List.length_range, hhead, Nat.add_sub_cancel]
    congr 1
    exact List.map_congr_left hst
  rw [hends, sub_self] at hsum
  rcases smul_eq_zero.mp hsum with h0 | h0
  · exact absurd h0 hdx
  · exact h0

/-- Total of the cell values, a linear map. -/
def total (K V : Type*) [Field K] [AddCommGroup V] [Module K V] (n : ℕ) : (Fin n → V) →ₗ[K] V where
  toFun u := (List.ofFn u).sum
  map_add' u v := by simp [List.sum_ofFn, Finset.sum_add_distrib]
  map_smul' c u := by simp [List.sum_ofFn, Finset.smul_sum]

theorem total_totalise (n : ℕ) (f : K → List V → Except Error (List V))
    (hf : ∀ t v w, f t v = .ok w → w.sum = 0) (t : K) (u : Fin n → V) :
    total K V n (totalise (vecRhs n f) t u) = 0 := by
  unfold totalise vecRhs
  cases h : f t (List.ofFn u) with
  | error e => simp
  | ok w =>
    simp only
    by_cases hl : w.length = n
    · simp only [dif_pos hl]
      subst hl
      have : List.ofFn (fun i : Fin w.length => w[i.1]) = w := List.ofFn_getElem
      simp only [total, LinearMap.coe_mk, AddHom.coe_mk, this]
      exact hf t _ w h
    · simp [dif_neg hl]

/-- C24.  With periodic boundaries, every run (any explicit Runge-Kutta tableau, any list of steps)
of a finite volume scheme with a node flux `(-F, F)` that ends without exception keeps the total of
the solution. -/
theorem C24_conservation (F : NumFlux V) (G : List V → V) (hF : NodeFlux F G) (hdim : 0 < F.dim)
    (heven : F.dim % 2 = 0) (dx : K) (wall : Option (V → V)) (il ir : Option (K → V)) (bc : BC K V)
    (hbc : build wall ["periodic"] (F.dim / 2) il ir = .ok bc) (n : ℕ) (T : Tableau K)
    (s s' : Solver K (Fin n → V)) (steps : List K)
    (h : s.runE T (vecRhs n (rhs F dx bc)) steps = .ok s') :
    (List.ofFn s'.solution).sum = (List.ofFn s.solution).sum := by
  rw [runE_eq T _ s s' steps h]
  exact C53_linear_invariant T _ (total K V n)
    (total_totalise n _ (fun t v w hw =>
      C24_rhs_total_zero F G hF hdim heven dx wall il ir bc hbc t v w hw)) s steps

/-- Every two point flux is a node flux: in particular Lax-Friedrichs and central fluxes. -/
theorem twoPoint_nodeFlux (F : V → V → Except Error V) :
    NodeFlux (twoPoint F) (fun
      | [a, b] => match F a b with
        | .ok x => x
        | .error _ => 0
      | _ => 0) := by
  intro values fl fr hlen heq hcall
  match values, hlen with
  | [l, r], _ =>
    simp only [twoPoint] at hcall
    cases hz : zipE F l r with
    | error e => simp only [hz] at hcall; cases hcall
    | ok fs =>
      simp only [hz] at hcall
      cases hcall
      obtain ⟨h1, h2⟩ := zipE_ok_iff F l r fr hz
      have hr : r.length = l.length := heq r (by simp)
      refine ⟨?_, rfl⟩
      apply List.ext_getElem
      · simp [stencils, h1, hr]
      · intro i hi1 hi2
        have hil : i < l.length := by omega
        have := h2 i hi1 hil (by omega)
        simp only [stencils, List.getElem_map, List.getElem_range, List.map_cons, List.map_nil]
        rw [List.getD_eq_getElem _ _ hil, List.getD_eq_getElem _ _ (by omega), this]

/-- C24 for the Lax-Friedrichs, central and linear antidiffusive schemes, for all problems. -/
theorem C24_two_point_schemes (F : V → V → Except Error V) (dx : K) (wall : Option (V → V))
    (il ir : Option (K → V)) (bc : BC K V) (hbc : build wall ["periodic"] 1 il ir = .ok bc) (n : ℕ)
    (T : Tableau K) (s s' : Solver K (Fin n → V)) (steps : List K)
    (h : s.runE T (vecRhs n (rhs (twoPoint F) dx bc)) steps = .ok s') :
    (List.ofFn s'.solution).sum = (List.ofFn s.solution).sum :=
  C24_conservation (twoPoint F) _ (twoPoint_nodeFlux F) (Nat.zero_lt_two) (Nat.mod_self 2) dx
    wall il ir bc (by rw [twoPoint_radius]; exact hbc) n T s s' steps h

/-- Burgers' equation with the local Lax-Friedrichs flux, used in examples. -/
def exampleBurgers : Riemann ℚ ℚ :=
  ⟨fun u => .ok (1 / 2 * u ^ 2), fun a b => .ok (-max a b, max a b)⟩

/-- Non-vacuity of C24 and C25: two Heun steps for Burgers' equation on three periodic cells run
without exception and change the solution. -/
example : okAnd ((Solver.init ![1, 2, 3] 0 : Solver ℚ (Fin 3 → ℚ)).runE (heun ℚ)
    (vecRhs 3 (rhs (laxFriedrichs exampleBurgers) 1
      ⟨[.copy (-1)], [.copy 0], true⟩)) [1 / 10, 1 / 10])
    (fun s => decide (s.solution 0 ≠ 1)) = true := by
  decide +kernel

/-! ### C26 -/

/-- C26, consistency: for equal states with an exact flux `f` the Lax-Friedrichs flux (for distinct
wave speeds) and the central flux are `f`. -/
theorem C26_consistent (R : Riemann K V) (u f : V) (wL wR : K) (hf : R.flux u = .ok f)
    (hw : R.waveSpeed u u = .ok (wL, wR)) (hne : wL < wR) :
    R.nodeFlux u u = .ok f ∧ centralNode K R.flux u u = .ok f := by
  have h1 : wR - wL ≠ 0 := sub_ne_zero.mpr hne.ne'
  constructor
  · simp only [Riemann.nodeFlux, Riemann.solve, hf, hw, if_neg h1]
    congr 1
    have : (1 / (wR - wL)) • (wR • u - wL • u - (f - f)) = u := by
      rw [sub_self, sub_zero, ← sub_smul, smul_smul, one_div_mul_cancel h1, one_smul]
    rw [this, sub_self, smul_zero, sub_zero]
  · simp only [centralNode, hf]
    congr 1
    rw [← two_smul K f, smul_smul]
    norm_num

/-- C26, constants are steady: with periodic or outflow boundaries, and a two point flux that is
defined for the equal states `c, c`, the right-hand side of the constant state is zero. -/
theorem C26_constant_rhs (F : V → V → Except Error V) (c f : V) (hF : F c c = .ok f) (dx : K)
    (hdx : dx ≠ 0) (wall : Option (V → V)) (il ir : Option (K → V)) (bc : BC K V) (name : String)
    (hname : name = "periodic" ∨ name = "outflow") (hbc : build wall [name] 1 il ir = .ok bc)
    (n : ℕ) (hn : 0 < n) (t : K) :
    rhs (twoPoint F) dx bc t (List.replicate n c) = .ok (List.replicate n 0) := by
  have hext : bc.extend (List.replicate n c) (some t) = .ok (List.replicate (n + 2) c) := by
    have hrep : [c] ++ List.replicate n c ++ [c] = List.replicate (n + 2) c := by
      rw [List.singleton_append, ← List.replicate_succ, ← List.replicate_succ']
    rcases hname with rfl | rfl
    · rw [build_periodic] at hbc
      cases hbc
      have e1 := periodic_left (K := K) (List.replicate n c) 1 (by simp; omega) (some t)
      have e2 := periodic_right (K := K) (List.replicate n c) 1 (by simp; omega) (some t)
      simp only [BC.extend, e1, e2]
      rw [← hrep]
      simp [List.take_replicate, List.drop_replicate, show n - (n - 1) = 1 by omega,
        show min 1 n = 1 by omega]
    · obtain ⟨b, h1, h2⟩ := C20_outflow wall 1 il ir (List.replicate n c)
        (by simp; omega) (some t)
      rw [hbc] at h1
      cases h1
      rw [h2, ← hrep]
      simp
  rw [rhs_twoPoint F dx hdx bc t _ _ hext n (by simp) (fun _ => f) (by
    intro j hj
    simpa using hF)]
  congr 1
  apply List.ext_getElem
  · simp
  · intro i _ _; simp

theorem runE_equilibrium {E ε : Type*} [AddCommGroup E] [Module K E] (T : Tableau K)
    (f : K → E → Except ε E) (u : E) (hu : ∀ t, f t u = .ok 0) (s : Solver K E)
    (hs : s.solution = u) (steps : List K) :
    ∃ s', s.runE T f steps = .ok s' ∧ s'.solution = u ∧ s'.time = s.time + steps.sum := by
  induction steps generalizing s with
  | nil => exact ⟨s, rfl, hs, by simp⟩
  | cons dt steps ih =>
    have hz : ∀ t n, stagesE T f t dt u n = .ok (List.replicate n 0) := by
      intro t n
      induction n with
      | zero => rfl
      | succ n ihn =>
        simp only [stagesE, ihn]
        have : stageValue T dt u (List.replicate n (0 : E)) n = u := by
          unfold stageValue
          have : ((List.range n).map (fun j => T.A n j • (List.replicate n (0 : E)).getD j 0)).sum
              = 0 := by
            apply List.sum_eq_zero
            intro x hx
            obtain ⟨j, hj, rfl⟩ := List.mem_map.mp hx
            rw [List.mem_range] at hj
            rw [List.getD_eq_getElem _ _ (by simpa using hj)]
            simp
          rw [this]; simp
        rw [this, hu]
        simp only [List.replicate_succ']
    have hex : ∃ s1, s.executeE T f dt = .ok s1 ∧ s1.solution = u ∧ s1.time = s.time + dt := by
      unfold Solver.executeE
      rw [hs, hz]
      refine ⟨_, rfl, ?_, rfl⟩
      have : ((List.range T.size).map (fun i => T.b i • (List.replicate T.size (0 : E)).getD i 0)).sum
          = 0 := by
        apply List.sum_eq_zero
        intro x hx
        obtain ⟨j, hj, rfl⟩ := List.mem_map.mp hx
        rw [List.mem_range] at hj
        rw [List.getD_eq_getElem _ _ (by simpa using hj)]
        simp
      simp [this]
    obtain ⟨s1, h1, h2, h3⟩ := hex
    obtain ⟨s2, g1, g2, g3⟩ := ih s1 h2
    refine ⟨s2, by simp only [Solver.runE, h1, g1], g2, ?_⟩
    rw [g3, h3, List.sum_cons]; ring

/-- C26, runs: such a constant state is kept exactly by every run of every explicit Runge-Kutta
method, which does not raise. -/
theorem C26_constant_run (F : V → V → Except Error V) (c f : V) (hF : F c c = .ok f) (dx : K)
    (hdx : dx ≠ 0) (wall : Option (V → V)) (il ir : Option (K → V)) (bc : BC K V) (name : String)
    (hname : name = "periodic" ∨ name = "outflow") (hbc : build wall [name] 1 il ir = .ok bc)
    (n : ℕ) (hn : 0 < n) (T : Tableau K) (t : K) (steps : List K) :
    ∃ s', (Solver.init (fun _ : Fin n => c) t).runE T (vecRhs n (rhs (twoPoint F) dx bc)) steps =
      .ok s' ∧ s'.solution = (fun _ => c) ∧ s'.time = t + steps.sum := by
  apply runE_equilibrium T _ (fun _ => c) _ _ rfl
  intro t
  unfold vecRhs
  rw [List.ofFn_const, C26_constant_rhs F c f hF dx hdx wall il ir bc name hname hbc n hn t]
  simp only [List.length_replicate, dif_pos]
  congr 1
  funext i
  simp

/-- Non-vacuity of C26: Burgers' equation at the state 2 (the hypotheses hold with flux 2). -/
example : exampleBurgers.nodeFlux 2 2 = .ok 2 := by decide +kernel

/-- C26 needs distinct wave speeds: for Burgers' equation at the constant state 0 both reported
speeds are 0 and the scheme produces `nan`. -/
theorem C26_equal_speeds : exampleBurgers.nodeFlux 0 0 = .error .nonFinite := by decide +kernel

/-! ### C27 -/

/-- C27.  The state `u*` and flux `f*` of the two-wave Riemann solver satisfy the Rankine-Hugoniot
conditions across both waves; for speeds `-a, a` they are the local Lax-Friedrichs formulas.  The
solver fails (with `nan`) iff the two speeds coincide. -/
theorem C27_jump_conditions (R : Riemann K V) (uL uR fL fR : V) (wL wR : K)
    (hL : R.flux uL = .ok fL) (hR : R.flux uR = .ok fR) (hw : R.waveSpeed uL uR = .ok (wL, wR)) :
    (wR ≠ wL → ∃ r, R.solve uL uR = .ok r ∧
      fL - r.flux = wL • (uL - r.state) ∧ fR - r.flux = wR • (uR - r.state) ∧
      (∀ a, wR = a → wL = -a →
        r.flux = (1 / 2 : K) • (fL + fR) - (a / 2) • (uR - uL) ∧
        r.state = (1 / 2 : K) • (uL + uR) - (1 / (2 * a)) • (fR - fL))) ∧
    (wR = wL → R.solve uL uR = .error .nonFinite) := by
  constructor
  · intro hne
    have h1 : wR - wL ≠ 0 := sub_ne_zero.mpr hne
    simp only [Riemann.solve, hL, hR, hw, if_neg h1]
    refine ⟨_, rfl, ?_, ?_, ?_⟩
    · simp
    · simp only
      have e : (wR - wL) • ((1 / (wR - wL)) • (wR • uR - wL • uL - (fR - fL))) =
          wR • uR - wL • uL - (fR - fL) := by
        rw [smul_smul, mul_one_div_cancel h1, one_smul]
      generalize (1 / (wR - wL)) • (wR • uR - wL • uL - (fR - fL)) = s at *
      have e' : wR • s - wL • s = wR • uR - wL • uL - (fR - fL) := by rw [← e, sub_smul]
      rw [smul_sub, smul_sub]
      have : fR = wR • uR - wL • uL + fL - (wR • s - wL • s) := by rw [e']; abel
      rw [this]; abel
    · intro a ha hb
      subst ha hb
      have ha : wR ≠ 0 := by
        intro h0; rw [h0] at h1; simp at h1
      have hh : wR - -wR ≠ 0 := h1
      have e2 : (1 / (wR - -wR)) = 1 / (2 * wR) := by rw [sub_neg_eq_add, two_mul]
      simp only [e2]
      constructor
      · match_scalars <;> field_simp <;> ring
      · match_scalars <;> field_simp
  · intro h
    simp [Riemann.solve, hL, hR, hw, h]

/-- Non-vacuity of C27. -/
example : okAnd (exampleBurgers.solve 1 3) (fun r => decide (r.flux = -1 / 2 ∧ r.state = 4 / 3)) =
    true := by decide +kernel

/-! ### C33 -/

/-- C33.  `get_required_values(n, *values)` fails (with `AssertionError`) iff fewer than `n` or an
odd number of values is supplied; for even `n` it returns the `n` centred values: as many values are
dropped at the front as at the back. -/
theorem C33_required_values {α : Type*} (n : ℕ) (values : List α) :
    ((∃ e, requiredValues n values = .error e) ↔ values.length < n ∨ values.length % 2 = 1) ∧
    (∀ e, requiredValues n values = .error e → e = .assertionError) ∧
    (∀ r, n % 2 = 0 → requiredValues n values = .ok r →
      ∃ front back, values = front ++ r ++ back ∧ front.length = back.length ∧ r.length = n) := by
  unfold requiredValues
  refine ⟨?_, ?_, ?_⟩
  · split
    · simp_all
    · split
      · simp; omega
      · simp; omega
  · intro e
    split
    · intro h; cases h; rfl
    · split
      · intro h; cases h
      · intro h; cases h; rfl
  · intro r hn
    split
    · intro h; cases h
    · split
      · intro h
        cases h
        set d := (values.length - n) / 2 with hd
        refine ⟨values.take d, values.drop (values.length - d), ?_, ?_, ?_⟩
        · conv_lhs => rw [← List.take_append_drop (values.length - d) values]
          congr 1
          conv_lhs => rw [← List.take_append_drop d (values.take (values.length - d))]
          rw [List.take_take, min_eq_left (by omega)]
        · simp; omega
        · simp; omega
      · intro h; cases h

/-- C33, edge: for odd `n` one value too many is returned. -/
theorem C33_odd_dimension {α : Type*} (n : ℕ) (values r : List α) (hn : n % 2 = 1)
    (h : requiredValues n values = .ok r) : r.length = n + 1 := by
  unfold requiredValues at h
  split at h
  · cases h
  · split at h
    · cases h
      simp
      omega
    · cases h

/-- Non-vacuity of C33. -/
example : requiredValues 2 [1, 2, 3, 4, 5, 6] = .ok [3, 4] := by decide +kernel

/-! ### C34 -/

/-- C34, sum.  If the corrected flux returns, then so do both parts on their centred stencils and the
result is their sum; the corrected flux needs the larger of the two stencils. -/
theorem C34_corrected_sum (F G : NumFlux V) (values : List (List V)) (fl fr : List V)
    (h : (F.corrected G).call values = .ok (fl, fr)) :
    (F.corrected G).dim = max F.dim G.dim ∧
    ∃ vF vG aF bF aG bG, requiredValues F.dim values = .ok vF ∧
      requiredValues G.dim values = .ok vG ∧ F.call vF = .ok (aF, bF) ∧ G.call vG = .ok (aG, bG) ∧
      fl = List.zipWith (· + ·) aF aG ∧ fr = List.zipWith (· + ·) bF bG := by
  refine ⟨rfl, ?_⟩
  simp only [NumFlux.corrected, NumFlux.arbitraryInput] at h
  cases hF : requiredValues F.dim values with
  | error e => simp only [hF] at h; cases h
  | ok vF =>
    cases hG : requiredValues G.dim values with
    | error e =>
      simp only [hF, hG] at h
      cases hc : F.call vF with
      | error e => simp only [hc] at h; cases h
      | ok p => simp only [hc] at h; cases h
    | ok vG =>
      simp only [hF, hG] at h
      cases hc : F.call vF with
      | error e => simp only [hc] at h; cases h
      | ok p =>
        cases hd : G.call vG with
        | error e => simp only [hc, hd] at h; cases h
        | ok q =>
          obtain ⟨aF, bF⟩ := p
          obtain ⟨aG, bG⟩ := q
          simp only [hc, hd] at h
          cases h
          exact ⟨vF, vG, aF, bF, aG, bG, rfl, rfl, hc, hd, rfl, rfl⟩

theorem stencils_centre (dim : ℕ) (values vs : List (List V)) (hd : 0 < dim) (hev : dim % 2 = 0)
    (hlen : values.length % 2 = 0) (heq : ∀ a ∈ values, a.length = (values.headD []).length)
    (h : requiredValues dim values = .ok vs) :
    vs.length = dim ∧ (∀ a ∈ vs, a.length = (vs.headD []).length) ∧
    (vs.headD []).length = (values.headD []).length ∧
    stencils vs = (stencils values).map
      (fun st => (st.drop ((values.length - dim) / 2)).take dim) := by
  have hsub : vs = (values.drop ((values.length - dim) / 2)).take dim := by
    unfold requiredValues at h
    split at h
    · cases h
    · simp only [if_pos hlen] at h
      cases h
      rw [List.drop_take]
      congr 1
      omega
  obtain ⟨front, back, _, _, hvl⟩ := (C33_required_values dim values).2.2 vs hev h
  have hmem : ∀ a ∈ vs, a ∈ values := by
    intro a ha
    rw [hsub] at ha
    exact List.mem_of_mem_drop (List.mem_of_mem_take ha)
  have hhead : (vs.headD []).length = (values.headD []).length := by
    cases vs with
    | nil => simp at hvl; omega
    | cons a as => exact heq a (hmem a List.mem_cons_self)
  refine ⟨hvl, fun a ha => by rw [heq a (hmem a ha), hhead], hhead, ?_⟩
  unfold stencils
  rw [hhead, List.map_map]
  apply List.map_congr_left
  intro i _
  simp only [Function.comp]
  rw [hsub, List.map_take, List.map_drop]

/-- C34, conservation.  If base flux and correction are node fluxes `(-F, F)` of even stencil width,
so is the corrected flux; hence by C24 the corrected scheme is conservative. -/
theorem C34_corrected_node_flux (F G : NumFlux V) (f g : List V → V) (hF : NodeFlux F f)
    (hG : NodeFlux G g) (hF0 : 0 < F.dim) (hG0 : 0 < G.dim) (hF2 : F.dim % 2 = 0)
    (hG2 : G.dim % 2 = 0) :
    ∃ k, NodeFlux (F.corrected G) k ∧ 0 < (F.corrected G).dim ∧ (F.corrected G).dim % 2 = 0 ∧
      ∀ st, st.length = (F.corrected G).dim →
        k st = f ((st.drop ((st.length - F.dim) / 2)).take F.dim) +
          g ((st.drop ((st.length - G.dim) / 2)).take G.dim) := by
  have hdim : (F.corrected G).dim = max F.dim G.dim := rfl
  refine ⟨fun st => f ((st.drop ((st.length - F.dim) / 2)).take F.dim) +
          g ((st.drop ((st.length - G.dim) / 2)).take G.dim), ?_, ?_, ?_, fun st _ => rfl⟩
  · intro values fl fr hlen heq hcall
    obtain ⟨_, vF, vG, aF, bF, aG, bG, h1, h2, h3, h4, rfl, rfl⟩ :=
      C34_corrected_sum F G values fl fr hcall
    have hev : values.length % 2 = 0 := by
      rw [hlen, hdim]
      rcases max_choice F.dim G.dim with h | h <;> rw [h] <;> assumption
    obtain ⟨c1, c2, c3, c4⟩ := stencils_centre F.dim values vF hF0 hF2 hev heq h1
    obtain ⟨d1, d2, d3, d4⟩ := stencils_centre G.dim values vG hG0 hG2 hev heq h2
    obtain ⟨e1, e2⟩ := hF vF aF bF c1 c2 h3
    obtain ⟨e3, e4⟩ := hG vG aG bG d1 d2 h4
    have hst : ∀ st ∈ stencils values, st.length = values.length := by
      intro st hst
      unfold stencils at hst
      obtain ⟨i, _, rfl⟩ := List.mem_map.mp hst
      simp
    constructor
    · rw [e1, e3, c4, d4, List.map_map, List.map_map, List.zipWith_map, List.zipWith_self]
      apply List.map_congr_left
      intro st hs
      simp only [Function.comp, hst st hs]
    · rw [e2, e4]
      have hl : bF.length = bG.length := by rw [e1, e3, c4, d4]; simp
      clear e1 e2 e3 e4 h3 h4 hcall
      induction bF generalizing bG with
      | nil => simp
      | cons x xs ih =>
        cases bG with
        | nil => simp at hl
        | cons y ys =>
          simp only [List.map_cons, List.zipWith_cons_cons, List.cons.injEq]
          exact ⟨by abel, ih ys (by simpa using hl)⟩
  · rw [hdim]; omega
  · rw [hdim]
    rcases max_choice F.dim G.dim with h | h <;> rw [h] <;> assumption

/-- Non-vacuity of C34: Lax-Friedrichs corrected by linear antidiffusion. -/
example : ((laxFriedrichs exampleBurgers).corrected (linearAntidiffusive (1 / 2 : ℚ) 1)).call
    [[1, 1], [1, 3]] = .ok ([-1 / 2, -1 / 2], [1 / 2, 1 / 2]) := by decide +kernel

/-! ### C35 -/

/-- Calls of a flux with history, in order; the list of returned values. -/
def callsWithHistory (F : NumFlux V) (h : FluxHistory V) (inputs : List (List (List V))) :
    FluxHistory V × List (Except Error (List V × List V)) :=
  inputs.foldl (fun p x =>
    let r := callWithHistory F p.1 x
    (r.1, p.2 ++ [r.2])) (h, [])

/-- The successful results in a list of results. -/
def results {α : Type*} (l : List (Except Error α)) : List α :=
  l.filterMap (fun | .ok x => some x | .error _ => none)

/-- C35.  A flux with history returns on every call what the wrapped flux returns, and its two
histories list the left and right fluxes of all calls that did not raise, in order. -/
theorem C35_flux_history (F : NumFlux V) (inputs : List (List (List V))) :
    let r := callsWithHistory F ⟨[], []⟩ inputs
    r.2 = inputs.map F.call ∧ r.1.left = (results r.2).map Prod.fst ∧
      r.1.right = (results r.2).map Prod.snd := by
  suffices H : ∀ (h : FluxHistory V) (out : List (Except Error (List V × List V))),
      h.left = (results out).map Prod.fst → h.right = (results out).map Prod.snd →
      let r := inputs.foldl (fun p x =>
        let r := callWithHistory F p.1 x
        (r.1, p.2 ++ [r.2])) (h, out)
      r.2 = out ++ inputs.map F.call ∧ r.1.left = (results r.2).map Prod.fst ∧
      r.1.right = (results r.2).map Prod.snd by
    have := H ⟨[], []⟩ [] rfl rfl
    simpa [callsWithHistory] using this
  induction inputs with
  | nil => intro h out h1 h2; simp [h1, h2]
  | cons x xs ih =>
    intro h out h1 h2
    simp only [List.foldl_cons]
    have hres : ∀ (o : List (Except Error (List V × List V))) (y : Except Error (List V × List V)),
        results (o ++ [y]) = results o ++ results [y] := by
      intro o y; simp [results, List.filterMap_append]
    cases hc : F.call x with
    | error e =>
      have hcw : callWithHistory F h x = (h, .error e) := by simp [callWithHistory, hc]
      rw [hcw]
      have := ih h (out ++ [.error e]) (by rw [hres, h1]; simp [results])
        (by rw [hres, h2]; simp [results])
      simp only at this ⊢
      refine ⟨by rw [this.1]; simp [hc], this.2⟩
    | ok p =>
      obtain ⟨a, b⟩ := p
      have hcw : callWithHistory F h x = (⟨h.left ++ [a], h.right ++ [b]⟩, .ok (a, b)) := by
        unfold callWithHistory
        rw [hc]
        by_cases hl : h.left = []
        · have hr : h.right = [] := by
            rw [h1] at hl
            rw [h2]
            simpa using hl
          simp [hl, hr]
        · simp [hl]
      rw [hcw]
      have := ih ⟨h.left ++ [a], h.right ++ [b]⟩ (out ++ [.ok (a, b)])
        (by rw [hres, h1]; simp [results]) (by rw [hres, h2]; simp [results])
      simp only at this ⊢
      refine ⟨by rw [this.1]; simp [hc], this.2⟩

/-- Non-vacuity of C35: two calls. -/
example : (callsWithHistory (laxFriedrichs exampleBurgers) ⟨[], []⟩ [[[1], [1]], [[2], [2]]]).1.right
    = [[1 / 2], [2]] := by decide +kernel

/-! ### C36 -/

/-- C36.  With the antidiffusive flux alone the right-hand side in cell `i` with neighbour values
`a, u, b` is `gamma ((u - a) - (b - u)) / dx^2`, i.e. the negative second difference times `gamma`. -/
theorem C36_negative_laplacian (γ dx : K) (hdx : dx ≠ 0) (bc : BC K V) (t : K) (v ext : List V)
    (hext : bc.extend v (some t) = .ok ext) (hlen : ext.length = v.length + 2) :
    ∃ w, rhs (linearAntidiffusive γ dx) dx bc t v = .ok w ∧ w.length = v.length ∧
      ∀ i (hi : i < w.length) (h0 : i + 2 < ext.length),
        w[i] = (γ / dx ^ 2) • ((2 : K) • ext[i + 1] - ext[i] - ext[i + 2]) := by
  have := rhs_twoPoint (fun uL uR => if dx = 0 then .error .nonFinite
    else .ok ((1 / dx) • (γ • (uR + -uL)))) dx hdx bc t v ext hext v.length hlen
    (fun j => (1 / dx) • (γ • (ext.getD (j + 1) 0 + -ext.getD j 0))) (by
      intro j hj
      rw [if_neg hdx, List.getD_eq_getElem _ _ (by omega), List.getD_eq_getElem _ _ (by omega)])
  refine ⟨_, this, by simp, ?_⟩
  intro i hi h0
  simp only [List.getElem_map, List.getElem_range]
  rw [List.getD_eq_getElem _ _ (by omega), List.getD_eq_getElem _ _ (by omega),
    List.getD_eq_getElem _ _ (by omega)]
  match_scalars <;> field_simp <;> ring

/-- C36: the antidiffusion vanishes where the data (with ghost values) are affine, and it conserves
the total on periodic meshes. -/
theorem C36_affine_and_conservative (γ dx : K) (hdx : dx ≠ 0) :
    (∀ (bc : BC K V) (t : K) (v ext : List V) (a b : V), bc.extend v (some t) = .ok ext →
      ext = (List.range (v.length + 2)).map (fun i : ℕ => a + (i : K) • b) →
      rhs (linearAntidiffusive γ dx) dx bc t v = .ok (List.replicate v.length 0)) ∧
    (∀ (bc : BC K V) (t : K) (v w : List V),
      build none ["periodic"] 1 none none = .ok bc →
      rhs (linearAntidiffusive γ dx) dx bc t v = .ok w → w.sum = 0) := by
  constructor
  · intro bc t v ext a b hext he
    have hlen : ext.length = v.length + 2 := by rw [he]; simp
    obtain ⟨w, h1, h2, h3⟩ := C36_negative_laplacian γ dx hdx bc t v ext hext hlen
    rw [h1]
    congr 1
    apply List.ext_getElem
    · simp [h2]
    · intro i hi _
      rw [h3 i hi (by omega)]
      simp only [he, List.getElem_map, List.getElem_range, List.getElem_replicate]
      rw [smul_eq_zero]
      right
      push_cast
      module
  · intro bc t v w hbc h
    exact C24_rhs_total_zero _ _ (twoPoint_nodeFlux _) Nat.zero_lt_two (Nat.mod_self 2) dx none none
      none bc (by rw [twoPoint_radius]; exact hbc) t v w h

/-- Non-vacuity of C36. -/
example : rhs (linearAntidiffusive (3 : ℚ) 1) 1 (⟨[.copy (-1)], [.copy 0], true⟩ : BC ℚ ℚ) 0 [1, 5, 2] =
    .ok [-15, 21, -6] := by decide +kernel

/-! ### C37 -/

theorem le_foldl_max (l : List K) (a : K) : a ≤ l.foldl max a ∧ ∀ x ∈ l, x ≤ l.foldl max a := by
  induction l generalizing a with
  | nil => simp
  | cons y l ih =>
    obtain ⟨h1, h2⟩ := ih (max a y)
    simp only [List.foldl_cons]
    refine ⟨(le_max_left _ _).trans h1, ?_⟩
    intro x hx
    rcases List.mem_cons.mp hx with rfl | hx
    · exact (le_max_right _ _).trans h1
    · exact h2 x hx

theorem foldl_max_mem (l : List K) (a : K) : l.foldl max a = a ∨ l.foldl max a ∈ l := by
  induction l generalizing a with
  | nil => simp
  | cons y l ih =>
    simp only [List.foldl_cons]
    rcases ih (max a y) with h | h
    · rcases max_choice a y with h' | h'
      · rw [h, h']; exact Or.inl rfl
      · rw [h, h']; exact Or.inr List.mem_cons_self
    · exact Or.inr (List.mem_cons_of_mem _ h)

/-- C37.  If `OptimalTimeStep` returns `dt` then, with the wave speeds at all nodes, `dt` is the
largest step satisfying `dt * max(|w_L|, w_R) <= dx` at every node. -/
theorem C37_optimal_time_step (R : Riemann K V) (bc : BC K V) (dx : K) (hdx : 0 < dx) (v : List V)
    (dt : K) (h : optimalTimeStep R bc dx v = .ok dt) :
    ∃ l r rs, bc.nodeNeighbours v 1 none = .ok [l, r] ∧ zipE R.solve l r = .ok rs ∧
      ((∀ s ∈ rs, 0 ≤ max |s.speedLeft| s.speedRight) ∧
      (∀ s ∈ rs, dt * max |s.speedLeft| s.speedRight ≤ dx) ∧
      ∀ dt', (∀ s ∈ rs, dt' * max |s.speedLeft| s.speedRight ≤ dx) → dt' ≤ dt) := by
  unfold optimalTimeStep at h
  cases hn : bc.nodeNeighbours v 1 none with
  | error e => rw [hn] at h; cases h
  | ok values =>
    simp only [hn] at h
    match values with
    | [l, r] =>
      simp only at h
      cases hz : zipE R.solve l r with
      | error e => simp only [hz] at h; cases h
      | ok rs =>
        cases rs with
        | nil => simp only [hz] at h; cases h
        | cons x xs =>
          simp only [hz, List.map_cons, List.tail_cons] at h
          split at h
          · cases h
          · rename_i hm
            cases h
            refine ⟨l, r, x :: xs, rfl, hz, ?_, ?_, ?_⟩
            · intro s _
              exact (abs_nonneg _).trans (le_max_left _ _)
            · intro s hs
              set m := (xs.map (fun s => max |s.speedLeft| s.speedRight)).foldl max
                (max |x.speedLeft| x.speedRight) with hmdef
              have hsm : max |s.speedLeft| s.speedRight ≤ m := by
                rcases List.mem_cons.mp hs with rfl | hs
                · exact (le_foldl_max _ _).1
                · exact (le_foldl_max _ _).2 _ (List.mem_map.mpr ⟨s, hs, rfl⟩)
              have hs0 : 0 ≤ max |s.speedLeft| s.speedRight :=
                (abs_nonneg _).trans (le_max_left _ _)
              have hmpos : 0 < m := lt_of_le_of_ne (hs0.trans hsm) (Ne.symm hm)
              rw [div_mul_eq_mul_div, div_le_iff₀ hmpos]
              exact mul_le_mul_of_nonneg_left hsm hdx.le
            · intro dt' hdt'
              set m := (xs.map (fun s => max |s.speedLeft| s.speedRight)).foldl max
                (max |x.speedLeft| x.speedRight) with hmdef
              have hm0 : 0 ≤ m :=
                ((abs_nonneg _).trans (le_max_left _ _)).trans (le_foldl_max _ _).1
              have hmpos : 0 < m := lt_of_le_of_ne hm0 (Ne.symm hm)
              rw [le_div_iff₀ hmpos]
              rcases foldl_max_mem (xs.map (fun s => max |s.speedLeft| s.speedRight))
                (max |x.speedLeft| x.speedRight) with h' | h'
              · rw [hmdef, h']; exact hdt' x List.mem_cons_self
              · obtain ⟨s, hs, hs'⟩ := List.mem_map.mp h'
                rw [hmdef, ← hs']
                exact hdt' s (List.mem_cons_of_mem _ hs)
    | [] => cases h
    | [_] => cases h
    | _ :: _ :: _ :: _ => cases h

theorem mapM_inflow (v : List V) (cs : List (Ghost K V))
    (h : ∀ c ∈ cs, (∃ g, c = .inflow g) ∨ ∃ x, c.eval v none = .ok x) :
    (∃ l, cs.mapM (fun c => c.eval v none) = .ok l ∧ l.length = cs.length ∧ ∀ g, .inflow g ∉ cs) ∨
    (cs.mapM (fun c => c.eval v none) = .error .assertionError ∧ ∃ g, .inflow g ∈ cs) := by
  induction cs with
  | nil => exact Or.inl ⟨[], rfl, rfl, fun g => List.not_mem_nil⟩
  | cons c cs ih =>
    rw [List.mapM_cons]
    rcases h c List.mem_cons_self with ⟨g, rfl⟩ | ⟨x, hx⟩
    · exact Or.inr ⟨rfl, g, List.mem_cons_self⟩
    · have hc : ∀ g, c ≠ .inflow g := by
        rintro g rfl
        cases hx
      rcases ih (fun c hc => h c (List.mem_cons_of_mem _ hc)) with ⟨l, e, hl, hn⟩ | ⟨e, g, hg⟩
      · refine Or.inl ⟨x :: l, by rw [hx, e]; rfl, by simp [hl], fun g hg => ?_⟩
        rcases List.mem_cons.mp hg with h1 | h1
        · exact hc g h1.symm
        · exact hn g h1
      · exact Or.inr ⟨by rw [hx, e]; rfl, g, List.mem_cons_of_mem _ hg⟩

/-- C37.  When `OptimalTimeStep` is defined: if each ghost cell is an inflow cell or evaluates without
error, then an inflow cell on either side makes the call raise `AssertionError` (the time is not passed
on to the ghost cells), and otherwise the time step is returned, positive and not larger than any other
CFL step, if the Riemann solver succeeds with a positive speed. -/
theorem C37_defined (R : Riemann K V) (bc : BC K V) (dx : K) (hdx : 0 < dx) (v : List V)
    (hcells : ∀ c ∈ bc.left ++ bc.right, (∃ g, c = .inflow g) ∨ ∃ x, c.eval v none = .ok x)
    (hsolve : ∀ a b, ∃ s, R.solve a b = .ok s ∧ 0 < max |s.speedLeft| s.speedRight)
    (hlen : 2 ≤ bc.left.length + v.length + bc.right.length) :
    ((∃ g, .inflow g ∈ bc.left ++ bc.right) → optimalTimeStep R bc dx v = .error .assertionError) ∧
    ((∀ g, .inflow g ∉ bc.left ++ bc.right) → ∃ dt, optimalTimeStep R bc dx v = .ok dt ∧ 0 < dt) := by
  have hl := mapM_inflow v bc.left (fun c hc => hcells c (List.mem_append_left _ hc))
  have hr := mapM_inflow v bc.right (fun c hc => hcells c (List.mem_append_right _ hc))
  constructor
  · rintro ⟨g, hg⟩
    have : bc.extend v none = .error .assertionError := by
      unfold BC.extend
      rcases hl with ⟨l, e, -, hn⟩ | ⟨e, -⟩
      · rcases hr with ⟨l', -, -, hn'⟩ | ⟨e', -⟩
        · rcases List.mem_append.mp hg with h | h
          · exact absurd h (hn g)
          · exact absurd h (hn' g)
        · rw [e, e']
      · rw [e]
    simp only [optimalTimeStep, BC.nodeNeighbours, this]
  · intro hn
    rcases hl with ⟨l, e, h1, -⟩ | ⟨-, g, hg⟩
    swap
    · exact absurd (List.mem_append_left _ hg) (hn g)
    rcases hr with ⟨r, e', h2, -⟩ | ⟨-, g, hg⟩
    swap
    · exact absurd (List.mem_append_right _ hg) (hn g)
    have hext : bc.extend v none = .ok (l ++ v ++ r) := by
      unfold BC.extend; rw [e, e']
    have hlen' : 2 ≤ (l ++ v ++ r).length := by
      simp only [List.length_append]; omega
    generalize l ++ v ++ r = ext at hext hlen'
    obtain ⟨a, b, rest, rfl⟩ : ∃ a b rest, ext = a :: b :: rest := by
      match ext, hlen' with
      | a :: b :: rest, _ => exact ⟨a, b, rest, rfl⟩
    have hz : ∀ (x y : List V), ∃ rs, zipE R.solve x y = .ok rs ∧
        rs.length = min x.length y.length ∧ ∀ s ∈ rs, 0 < max |s.speedLeft| s.speedRight := by
      intro x
      induction x with
      | nil => intro y; exact ⟨[], rfl, by simp, by simp⟩
      | cons x xs ih =>
        intro y
        cases y with
        | nil => exact ⟨[], rfl, by simp, by simp⟩
        | cons y ys =>
          obtain ⟨rs, q1, q2, q3⟩ := ih ys
          obtain ⟨s, p1, p2⟩ := hsolve x y
          refine ⟨s :: rs, ?_, by simp [q2], ?_⟩
          · unfold zipE at q1 ⊢
            rw [List.zip_cons_cons, List.mapM_cons, q1]
            simp only [p1]
            rfl
          · intro t ht
            rcases List.mem_cons.mp ht with rfl | h
            · exact p2
            · exact q3 t h
    have hns : bc.nodeNeighbours v 1 none = .ok [(a :: b :: rest).dropLast, b :: rest] := by
      unfold BC.nodeNeighbours
      rw [hext]
      simp [nodeSlices_one]
    obtain ⟨rs, q1, q2, q3⟩ := hz (a :: b :: rest).dropLast (b :: rest)
    simp only [optimalTimeStep, hns, q1]
    cases rs with
    | nil => simp at q2
    | cons x xs =>
      have hm : 0 < ((x :: xs).map (fun s => max |s.speedLeft| s.speedRight)).tail.foldl max
          (max |x.speedLeft| x.speedRight) := by
        have key : ∀ (ys : List K) (m : K), 0 < m → 0 < ys.foldl max m := by
          intro ys
          induction ys with
          | nil => intro m h; exact h
          | cons y ys ih => intro m h; exact ih _ (lt_of_lt_of_le h (le_max_left _ _))
        exact key _ _ (q3 x List.mem_cons_self)
      simp only
      rw [if_neg hm.ne']
      exact ⟨_, rfl, div_pos hdx hm⟩

/-- Non-vacuity of `C37_defined`: an advection Riemann solver with a wall right and inflow left, and with
outflow left. -/
example : let R : Riemann ℚ ℚ := ⟨fun u => .ok u, fun _ _ => .ok (-1, 1)⟩
    optimalTimeStep R ⟨[.inflow fun t => t], [.copy 0], false⟩ 1 [1, 4, 2] = .error .assertionError ∧
    optimalTimeStep R ⟨[.copy 0], [.copy 2], false⟩ (1 / 2) [1, 4, 2] = .ok (1 / 2) := by
  decide +kernel

/-- Non-vacuity of C37. -/
example : optimalTimeStep exampleBurgers ⟨[.copy (-1)], [.copy 0], true⟩ 1 [1, 4, 2] =
    .ok (1 / 4) := by decide +kernel

end Verif.FV
