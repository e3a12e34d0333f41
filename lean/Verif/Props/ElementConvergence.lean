import Verif.Props.ElementFlux
import Verif.Props.EntropyConvergence
import Verif.Props.FELowRuns

/-!
Property C134: the low order finite element solver converges to the entropy solution, for Burgers' equation with data of
any sign.
-/

set_option linter.unusedSectionVars false

namespace Verif.EntropyLimit

open Verif.Py Verif.Boundary Verif.FV Verif.ODE Verif.Scalar Verif.Convergence Verif.Weak
open Verif.Interpolate Verif.Quadrature Verif.Bench
open Verif.Mesh hiding Error
open MeasureTheory Set

/-! ### Specification -/

/-- The condition on a time step from the node values `u` with mesh width `dx`: at most `B` times the mesh width; for
advection also at most the mesh width, and for Burgers' equation at most half the mesh width divided by the largest speed at
the nodes. -/
def ElementStep (p : Problem) (B dx : ℝ) {n : ℕ} (u : Fin n → ℝ) (dt : ℝ) : Prop :=
  0 ≤ dt ∧ dt ≤ B * dx ∧ (p = .advection → dt ≤ dx) ∧ (p = .burgers → ∀ i, 2 * dt * |u i| ≤ dx)

/-- The node values of `f`. -/
noncomputable def atNodes (d : Interval ℝ) (f : ℝ → ℝ) (n : ℕ) (i : Fin n) : ℝ := f (d.a + i * ((d.b - d.a) / n))

/-- `u` is the finite element function that a run of the low order solver (`finite_element/scalar/solver/cg_low.py` 31-60) computes
with linear elements on `n` cells of the interval `d` from the node values of `f`, for the times from `t₀` to `S`: with one
of the three strong stability preserving integrators, and time steps that satisfy the condition `ElementStep` for the values
at the beginning of the step.  Between two times of the run it is the function at the earlier one. -/
def ElementsBy (p : Problem) (B : ℝ) (d : Interval ℝ) (f : ℝ → ℝ) (t₀ S : ℝ) (n : ℕ) (u : ℝ × ℝ → ℝ) : Prop :=
  ∃ (gauss : ℕ → List (ℝ × ℝ)) (s : FE.Space ℝ) (m : List ℝ) (C : FE.SysMatrix ℝ) (T : Tableau ℝ) (steps : List ℝ),
    FE.Setup gauss d n 1 s m C ∧ (T = forwardEuler ℝ ∨ T = heun ℝ ∨ T = ssp3 ℝ) ∧ t₀ + steps.sum = S ∧
    ∀ (j : ℕ) (hj : j < steps.length), ∃ s' U,
      (Solver.init (atNodes d f n) t₀).runE T (vecRhs n fun _ => FE.lowRhs p m C) (steps.take j) = .ok s' ∧
      ElementStep p B ((d.b - d.a) / n) s'.solution steps[j] ∧ FE.Values s (List.ofFn s'.solution) U ∧
      ∀ (c : Fin n) (t x : ℝ), s'.time < t → t ≤ s'.time + steps[j] → d.a + c * ((d.b - d.a) / n) < x →
        x ≤ d.a + (c + 1) * ((d.b - d.a) / n) → u (t, x) = U c x

/-! ### Helper lemmas -/

/-- A largest absolute value. -/
theorem node_speed {n : ℕ} (v : Fin n → ℝ) (hn : 0 < n) (K : ℝ) (h : ∀ i : Fin n, |v i| ≤ K) :
    ∃ κ, 0 ≤ κ ∧ κ ≤ K ∧ (∀ i : Fin n, |v i| ≤ κ) ∧ ∃ i : Fin n, κ = |v i| := by
  haveI : Nonempty (Fin n) := ⟨⟨0, hn⟩⟩
  obtain ⟨i, -, hi⟩ := Finset.exists_max_image Finset.univ (fun i : Fin n => |v i|) Finset.univ_nonempty
  exact ⟨|v i|, abs_nonneg _, h i, fun j => hi j (Finset.mem_univ _), i, rfl⟩

theorem ElementStep.ratio {p : Problem} {B dx dt κ : ℝ} (hdx : 0 < dx) {n : ℕ} {u : Fin n → ℝ}
    (h : ElementStep p B dx u dt) (hκ : ∃ i, κ = |u i|) : 0 ≤ dt / dx ∧ dt / dx * elementStep p κ ≤ 1 := by
  obtain ⟨b0, -, b1, b2⟩ := h
  refine ⟨div_nonneg b0 hdx.le, ?_⟩
  rw [div_mul_eq_mul_div, div_le_one hdx]
  cases p with
  | advection => simpa [elementStep] using b1 rfl
  | burgers =>
    obtain ⟨i, rfl⟩ := hκ
    have := b2 rfl i
    simp only [elementStep]
    linarith

theorem top_mono (p : Problem) {κ K : ℝ} (h : κ ≤ K) : elementTop p κ ≤ elementTop p K := by
  cases p
  · exact le_rfl
  · exact h

section Nodes

variable {d : Interval ℝ} (hd : d.a < d.b) {n : ℕ} (hn : 0 < n) {f G : ℝ → ℝ} {V : ℝ}
  (hf : ∀ x, f (x + (d.b - d.a)) = f x) (hG : Majorant f G (d.b - d.a) V)
include hd hn hf hG

theorem nodes_variation :
    cyclicVariation (List.ofFn (atNodes d f n)) ≤ V := by
  unfold atNodes
  have hn0 : (0 : ℝ) < n := by exact_mod_cast hn
  rw [cyclicVariation_eq _ n (by simp) hn]
  have e : ∀ j : ℕ, (List.ofFn fun i : Fin n => f (d.a + i * ((d.b - d.a) / n))).getD (j % n) 0 =
      f (d.a + j * ((d.b - d.a) / n)) := fun j => by
    rw [← FE.around_nat _ j hn, FE.around_nodes hd hn f hf]
    simp
  set dx := (d.b - d.a) / n with hdx'
  have hdx : 0 < dx := div_pos (by linarith) hn0
  have hP : (n : ℝ) * dx = d.b - d.a := by rw [hdx']; field_simp
  have hs := (hP.symm ▸ hG : Majorant f G (n * dx) V).sum_step d.a 1
  push_cast at hs
  simp only [one_mul] at hs
  rw [← hs]
  refine Finset.sum_le_sum fun j _ => ?_
  rw [e, e]
  have := hG.bound (d.a + j * dx) (d.a + j * dx + dx) (by linarith)
  rw [show d.a + ((j + 1 : ℕ) : ℝ) * dx = d.a + j * dx + dx by push_cast; ring]
  exact this

theorem nodes_near (i : Fin n) (x : ℝ)
    (hx : x ∈ Ioc (nodeAt d.a ((d.b - d.a) / n) i) (nodeAt d.a ((d.b - d.a) / n) (i + 1))) :
    |f (d.a + i * ((d.b - d.a) / n)) - f x| ≤
      G (nodeAt d.a ((d.b - d.a) / n) (i + 1)) - G (nodeAt d.a ((d.b - d.a) / n) i) := by
  have h1 := hG.bound (nodeAt d.a ((d.b - d.a) / n) i) x hx.1.le
  have h2 := hG.mono hx.2
  rw [abs_sub_comm] at h1
  exact h1.trans (by linarith)

end Nodes

section Data

variable {p : Problem} {K B V t₀ S : ℝ} (hS : t₀ ≤ S)
  {d : Interval ℝ} (hd : d.a < d.b) {f G : ℝ → ℝ} (hfr : ∀ x, -K ≤ f x ∧ f x ≤ K)
  (hf : ∀ x, f (x + (d.b - d.a)) = f x) (hG : Majorant f G (d.b - d.a) V)

/-- One step of the solver, from values up to `K`. -/
theorem element_step {gauss n s mass C} (h : FE.Setup gauss d n 1 s mass C) (h3 : 3 ≤ n) {T : Tableau ℝ}
    (hT : T = forwardEuler ℝ ∨ T = heun ℝ ∨ T = ssp3 ℝ) (hn : 0 < n) (dt : ℝ) (s₀ : Solver ℝ (Fin n → ℝ))
    (hdt : ElementStep p B ((d.b - d.a) / n) s₀.solution dt) (hs : s₀.solution ∈ States (aroundNode n hn) (-K) K V) :
    ∃ s', s₀.executeE T (vecRhs n fun _ => FE.lowRhs p mass C) dt = .ok s' ∧ s'.time = s₀.time + dt ∧
      s'.solution ∈ States (aroundNode n hn) (-K) K V ∧
      (∀ κ, (∀ i, |s₀.solution i| ≤ κ) → ∀ i, |s'.solution i| ≤ κ) ∧
      distance s'.solution s₀.solution ≤ 2 * (dt / ((d.b - d.a) / n) * elementTop p K) * V ∧
      ∀ k, -K ≤ k → k ≤ K → Dissipates p.flux n (dt / ((d.b - d.a) / n)) k (2 * elementTop p K * V) s₀.solution
        s'.solution := by
  have hdx : 0 < (d.b - d.a) / n := div_pos (by linarith [h.domain]) (by exact_mod_cast hn)
  obtain ⟨κ, k0, k1, k2, k3⟩ := node_speed s₀.solution hn K fun i => abs_le.2 (hs.1 i)
  obtain ⟨H, hF⟩ := node_scheme p k0 (m := -κ) (M := κ) le_rfl le_rfl
  obtain ⟨r0, r1⟩ := hdt.ratio hdx k3
  obtain ⟨e0, e1⟩ := aroundNode_ends n hn
  obtain ⟨s', a1, a2, a3, a4, a5⟩ := dissipates_step hF r0 r1 (vecRhs n fun _ => FE.lowRhs p mass C) (aroundNode n hn)
    (aroundNode_mid n hn) e0 e1 (fun t u _ => node_system h h3 p hn dt t u) T hT V s₀ ⟨fun i => abs_le.1 (k2 i), hs.2⟩
  have hV : 0 ≤ V := (jumps_nonneg _ (aroundNode_mid n hn) e0 e1 s₀.solution).trans hs.2
  have ht := top_mono p k1
  refine ⟨s', a1, a2, ⟨fun i => ⟨by linarith [(a3.1 i).1], by linarith [(a3.1 i).2]⟩, a3.2⟩, fun κ' hκ' i => ?_,
    a4.trans ?_, fun k _ _ => ?_⟩
  · obtain ⟨i₀, rfl⟩ := k3
    exact (abs_le.2 (a3.1 i)).trans (hκ' i₀)
  · exact mul_le_mul_of_nonneg_right (mul_le_mul_of_nonneg_left (mul_le_mul_of_nonneg_left ht r0) two_pos.le) hV
  · obtain ⟨G, g1, g2, g3⟩ := dissipates_all (by linarith : -κ ≤ κ) _ _ (fun i => abs_le.1 (k2 i)) a3.1 a5 k
    exact ⟨G, g1, g2, g3.trans (mul_le_mul_of_nonneg_right (mul_le_mul_of_nonneg_left ht two_pos.le) hV)⟩

include hd hfr hf hG in
theorem start_states (n : ℕ) (hn : 0 < n) : atNodes d f n ∈ States (aroundNode n hn) (-K) K V := by
  refine ⟨fun i => hfr _, ?_⟩
  have := nodes_variation hd hn hf hG
  rwa [cyclic_jumps hn _ (aroundNode_mid n hn) (aroundNode_ends n hn).2] at this

include hd hfr hf hG in
/-- A run of the solver, as a piecewise constant function. -/
theorem element_grid {gauss n s mass C} (h : FE.Setup gauss d n 1 s mass C) (h3 : 3 ≤ n) {T : Tableau ℝ}
    (hT : T = forwardEuler ℝ ∨ T = heun ℝ ∨ T = ssp3 ℝ) {steps : List ℝ}
    (hsteps : ∀ j (hj : j < steps.length), ∃ s', (Solver.init (atNodes d f n) t₀).runE T
      (vecRhs n fun _ => FE.lowRhs p mass C) (steps.take j) = .ok s' ∧
      ElementStep p B ((d.b - d.a) / n) s'.solution steps[j]) (hsum : t₀ + steps.sum = S) :
    ∃ u u0 states, OnGrid p.flux (elementTop p K) (-K) K V ((d.b - d.a) / n) d.a t₀ n steps states u u0 ∧
      GridRun p.flux (elementTop p K) (-K) K V B d.a (d.b - d.a) t₀ S f G n u u0 ∧
      ∀ j ≤ steps.length, ∃ s', (Solver.init (atNodes d f n) t₀).runE T
        (vecRhs n fun _ => FE.lowRhs p mass C) (steps.take j) = .ok s' ∧ s'.solution = states j ∧
        s'.time = after t₀ steps j := by
  have hn := h.meshSize
  have hdx : 0 < (d.b - d.a) / n := div_pos (by linarith) (by exact_mod_cast hn)
  have hpos : ∀ dt ∈ steps, 0 ≤ dt ∧ dt ≤ B * ((d.b - d.a) / n) := by
    intro dt hdt
    obtain ⟨j, hj, rfl⟩ := List.getElem_of_mem hdt
    obtain ⟨s', -, a⟩ := hsteps j hj
    exact ⟨a.1, a.2.1⟩
  have hg := start_states hd hfr hf hG n hn
  obtain ⟨states, hrun⟩ := run_along (vecRhs n fun _ => FE.lowRhs p mass C) (aroundNode n hn) T
    (fun dt u => ElementStep p B ((d.b - d.a) / n) u dt)
    (fun dt s₀ a b => by
      obtain ⟨s', c1, c2, c3, -, c4⟩ := element_step h h3 hT hn dt s₀ a b
      exact ⟨s', c1, c2, c3, c4⟩) steps (Solver.init (atNodes d f n) t₀) hg fun j hj s' e => by
        obtain ⟨s'', a1, a2⟩ := hsteps j hj
        rw [a1] at e
        obtain rfl : s'' = s' := by simpa using e
        exact a2
  obtain ⟨u, u0, hu⟩ := hrun.computed hdx (fun dt h => (hpos dt h).1) d.a
  have hgrid := hrun.on_grid (aroundNode_mid n hn) (aroundNode_ends n hn).2 hu
  refine ⟨u, u0, states, hgrid, ⟨steps, states, hgrid, hsum, hpos, fun i x hx => ?_⟩, fun j hj => (hrun.state j hj).2⟩
  rw [hrun.start]
  exact nodes_near hd hn hf hG i x hx

/-- Steps within the condition for the values at the beginning of the run. -/
theorem element_fixed {gauss n s mass C} (h : FE.Setup gauss d n 1 s mass C) (h3 : 3 ≤ n) {T : Tableau ℝ}
    (hT : T = forwardEuler ℝ ∨ T = heun ℝ ∨ T = ssp3 ℝ) (s₀ : Solver ℝ (Fin n → ℝ)) (steps : List ℝ)
    (hsteps : ∀ dt ∈ steps, ElementStep p B ((d.b - d.a) / n) s₀.solution dt) :
    ∀ j ≤ steps.length, ∃ s', s₀.runE T (vecRhs n fun _ => FE.lowRhs p mass C) (steps.take j) = .ok s' ∧
      ∀ dt, ElementStep p B ((d.b - d.a) / n) s₀.solution dt → ElementStep p B ((d.b - d.a) / n) s'.solution dt := by
  induction steps generalizing s₀ with
  | nil => exact fun j _ => ⟨s₀, by simp [Solver.runE], fun dt h => h⟩
  | cons dt steps ih =>
    intro j hj
    cases j with
    | zero => exact ⟨s₀, by simp [Solver.runE], fun dt h => h⟩
    | succ j =>
      have hn := h.meshSize
      have hdt := hsteps dt (by simp)
      obtain ⟨κ, -, -, k2, i₀, k3⟩ := node_speed s₀.solution hn _ fun i =>
        Finset.single_le_sum (f := fun i => |s₀.solution i|) (fun i _ => abs_nonneg _) (Finset.mem_univ i)
      obtain ⟨s₁, a1, -, -, a2, -⟩ := element_step (V := jumps (aroundNode n hn) s₀.solution) (K := κ) h h3 hT hn dt s₀ hdt
        ⟨fun i => abs_le.1 (k2 i), Set.mem_setOf_eq ▸ le_rfl⟩
      have key : ∀ τ, ElementStep p B ((d.b - d.a) / n) s₀.solution τ → ElementStep p B ((d.b - d.a) / n) s₁.solution τ := by
        rintro τ ⟨b0, b1, b2, b3⟩
        refine ⟨b0, b1, b2, fun hp i => ?_⟩
        have c1 := a2 κ k2 i
        have c2 := b3 hp i₀
        rw [← k3] at c2
        exact (mul_le_mul_of_nonneg_left c1 (by linarith)).trans c2
      obtain ⟨s', c1, c2⟩ := ih s₁ (fun τ hτ => key τ (hsteps τ (by simp [hτ]))) j (by simpa using hj)
      refine ⟨s', ?_, fun τ hτ => c2 τ (key τ hτ)⟩
      rw [List.take_succ_cons]
      simp only [Solver.runE, a1]
      exact c1

include hd hfr hS in
/-- Steps that reach the end. -/
theorem steps_exist (hB : 0 < B) (hK : 0 ≤ K) (n : ℕ) (hn : 0 < n) :
    ∃ steps : List ℝ, (∀ dt ∈ steps, ElementStep p B ((d.b - d.a) / n) (atNodes d f n) dt) ∧ t₀ + steps.sum = S := by
  unfold ElementStep atNodes
  have hdx : 0 < (d.b - d.a) / n := div_pos (by linarith) (by exact_mod_cast hn)
  set dx := (d.b - d.a) / n
  set c := 1 + 2 * K + 1 / B with hc
  have hc0 : 0 < c := by positivity
  set q : ℕ := ⌈(S - t₀) * c / dx⌉₊ + 1 with hq
  have hq0 : (0 : ℝ) < q := by
    have : 0 < q := Nat.succ_pos _
    exact_mod_cast this
  refine ⟨List.replicate q ((S - t₀) / q), fun dt h => ?_, ?_⟩
  · obtain rfl := List.eq_of_mem_replicate h
    have h0 : 0 ≤ (S - t₀) / q := div_nonneg (by linarith) hq0.le
    have h1 : (S - t₀) / q * c ≤ dx := by
      rw [div_mul_eq_mul_div, div_le_iff₀ hq0, mul_comm _ (q : ℝ), ← div_le_iff₀ hdx]
      refine (Nat.le_ceil _).trans ?_
      simp only [hq]
      push_cast
      linarith
    generalize (S - t₀) / (q : ℝ) = τ at h0 h1
    have h2 : 0 ≤ τ * K := by positivity
    have h3 : 0 ≤ τ * (1 / B) := by positivity
    simp only [hc] at h1
    refine ⟨h0, ?_, fun _ => by linarith, fun _ i => ?_⟩
    · have h4 : τ * (1 / B) ≤ dx := by linarith
      rw [mul_one_div, div_le_iff₀ hB] at h4
      linarith
    · have h4 := mul_le_mul_of_nonneg_left (abs_le.2 (hfr (d.a + i * dx))) h0
      linarith
  · have := hq0.ne'
    simp only [List.sum_replicate, nsmul_eq_mul]
    field_simp
    ring

include hd hfr hf hG in
/-- A function that the solver computes is near a piecewise constant one. -/
theorem elements_near {n : ℕ} (h3 : 3 ≤ n) {u : ℝ × ℝ → ℝ} (hu : ElementsBy p B d f t₀ S n u) :
    ∃ v v0, GridRun p.flux (elementTop p K) (-K) K V B d.a (d.b - d.a) t₀ S f G n v v0 ∧
      IntegrableOn u (Ioc t₀ S ×ˢ Ioc d.a d.b) ∧
      ∫ z in Ioc t₀ S ×ˢ Ioc d.a d.b, |v z - u z| ≤ (S - t₀) * (V * ((d.b - d.a) / n)) := by
  obtain ⟨gauss, s, mass, C, T, steps, h, hT, hsum, hval⟩ := hu
  have hsteps : ∀ j (hj : j < steps.length), ∃ s', (Solver.init (atNodes d f n) t₀).runE T
      (vecRhs n fun _ => FE.lowRhs p mass C) (steps.take j) = .ok s' ∧
      ElementStep p B ((d.b - d.a) / n) s'.solution steps[j] := fun j hj => by
    obtain ⟨s', U, a1, a2, -⟩ := hval j hj
    exact ⟨s', a1, a2⟩
  obtain ⟨v, v0, states, hg, hrun, hst⟩ := element_grid hd hfr hf hG h h3 hT hsteps hsum
  have hn := h.meshSize
  have hn0 : (0 : ℝ) < n := by exact_mod_cast hn
  have hcells : s.cells.length = n := by
    obtain ⟨s1, s2, s3, -⟩ := FE.setup_facts h
    exact s2
  have hval' : ∀ (j : ℕ) (_ : j < steps.length) (c : Fin n), ∀ z ∈ cell (after t₀ steps j) (after t₀ steps (j + 1))
      (nodeAt d.a ((d.b - d.a) / n) c) (nodeAt d.a ((d.b - d.a) / n) (c + 1)),
      u z = FE.linearValue d n (states j) c z.2 := by
    intro j hj c z hz
    obtain ⟨s', U, a1, -, a2, a3⟩ := hval j hj
    obtain ⟨s'', b1, b2, b3⟩ := hst j hj.le
    rw [a1] at b1
    obtain rfl : s' = s'' := by simpa using b1
    obtain ⟨⟨z1, z2⟩, z3, z4⟩ := hz
    rw [after_succ _ _ _ hj] at z2
    rw [nodeAt_succ] at z4
    have e1 := a3 c z.1 z.2 (by rw [b3]; exact z1) (by rw [b3]; exact z2) z3 z4
    have e2 := a2.2 c (by rw [hcells]; exact c.2) z.2
    rw [b2] at e2
    have e3 := (FE.linear_value h (states j)).2 c (by rw [hcells]; exact c.2) z.2
    rw [e2] at e3
    rw [show u z = u (z.1, z.2) from rfl, e1]
    simpa using e3
  have hPn : (n : ℝ) * ((d.b - d.a) / n) = d.b - d.a := by field_simp
  have hcell : cell t₀ (t₀ + steps.sum) d.a (d.a + n * ((d.b - d.a) / n)) = Ioc t₀ S ×ˢ Ioc d.a d.b := by
    rw [hsum, hPn, show d.a + (d.b - d.a) = d.b by ring]; rfl
  set dx := (d.b - d.a) / n with hdx'
  have hdx : 0 < dx := div_pos (by linarith) hn0
  have hint : IntegrableOn u (cell t₀ (t₀ + steps.sum) d.a (d.a + n * dx)) := by
    have := cover_integrable (f := u) (after t₀ steps) (nodeAt d.a dx) steps.length n fun j hj i hi => by
      have hc : Continuous fun z : ℝ × ℝ => FE.linearValue d n (states j) i z.2 := by
        unfold FE.linearValue FE.place
        fun_prop
      refine (continuous_integrable hc _ _ _ _).congr_fun (fun z hz => ?_) (cell_measurable _ _ _ _)
      exact (hval' j hj ⟨i, hi⟩ z hz).symm
    rwa [after_zero, after_length, nodeAt_zero] at this
  refine ⟨v, v0, hrun, hcell ▸ hint, ?_⟩
  have hpos : ∀ dt ∈ steps, 0 ≤ dt := fun dt hdt => by
    obtain ⟨j, hj, rfl⟩ := List.getElem_of_mem hdt
    obtain ⟨s', -, a⟩ := hsteps j hj
    exact a.1
  have := hg.mean_error hdx.le hpos hint (fun j i => |around (states j) (i + 1 : ℕ) - around (states j) (i : ℕ)|) (V * dx)
    (fun j hj i hi z hz => by
      rw [hg.later j hj ⟨i, hi⟩ z hz, hval' j hj ⟨i, hi⟩ z hz]
      have hin : InCell d n i z.2 := by
        obtain ⟨-, z3, z4⟩ := hz
        unfold InCell Mesh.node
        rw [nodeAt_succ] at z4
        unfold nodeAt at z3
        push_cast
        constructor
        · refine le_trans (le_of_eq ?_) z3.le
          rw [hdx']
        · refine z4.trans (le_of_eq ?_)
          rw [hdx']
      obtain ⟨p0, p1, -⟩ := FE.place_bounds hd hn hin
      have e : around (states j) (i : ℕ) = states j ⟨i, hi⟩ := around_cell (states j) ⟨i, hi⟩
      unfold FE.linearValue
      rw [← e]
      have e2 : around (states j) (i : ℕ) - ((1 - FE.place d n i z.2) * around (states j) (i : ℕ) +
          FE.place d n i z.2 * around (states j) ((i : ℕ) + 1)) =
          -(FE.place d n i z.2 * (around (states j) ((i : ℕ) + 1) - around (states j) (i : ℕ))) := by ring
      rw [e2, abs_neg, abs_mul, abs_of_nonneg p0]
      refine (mul_le_of_le_one_left (abs_nonneg _) p1).trans (le_of_eq ?_)
      push_cast
      rfl)
    (fun j hj => by
      rw [← Finset.sum_mul]
      refine mul_le_mul_of_nonneg_right ?_ hdx.le
      have hv := hg.variation j hj.le
      rw [cyclicVariation_eq _ n (by simp) hn] at hv
      refine le_of_eq_of_le (Finset.sum_congr rfl fun i _ => ?_) hv
      rw [FE.around_nat _ _ hn, FE.around_nat _ _ hn])
  rw [hcell, show steps.sum = S - t₀ by rw [← hsum]; ring] at this
  exact this

include hS hd hfr hf hG in
theorem element_runs (hB : 0 < B) (n : ℕ) (h3 : 3 ≤ n) : ∃ u, ElementsBy p B d f t₀ S n u := by
  have hn : 0 < n := by omega
  have hdx : 0 < (d.b - d.a) / n := div_pos (by linarith) (by exact_mod_cast hn)
  obtain ⟨gauss, s, mass, C, h⟩ := FE.exists_setup d hd n 1 hn one_pos
  obtain ⟨steps, hsteps, hsum⟩ := steps_exist (p := p) hS hd hfr hB (by linarith [(hfr 0).1, (hfr 0).2]) n hn
  have hfix := element_fixed (T := forwardEuler ℝ) h h3 (Or.inl rfl) (Solver.init (atNodes d f n) t₀) steps hsteps
  obtain ⟨v, v0, states, hg, -, hst⟩ := element_grid hd hfr hf hG h h3 (Or.inl rfl)
    (fun j hj => (hfix j hj.le).imp fun s' a => ⟨a.1, a.2 _ (hsteps _ (List.getElem_mem hj))⟩) hsum
  have ht := after_mono t₀ steps fun dt h => (hsteps dt h).1
  have hx := nodeAt_mono d.a _ hdx.le
  classical
  refine ⟨fun z => if h : ∃ j, after t₀ steps j < z.1 ∧ z.1 ≤ after t₀ steps (j + 1) then
      (if h' : ∃ i : Fin n, nodeAt d.a ((d.b - d.a) / n) i < z.2 ∧ z.2 ≤ nodeAt d.a ((d.b - d.a) / n) (i + 1) then
        FE.linearValue d n (states h.choose) h'.choose z.2 else 0) else 0,
    gauss, s, mass, C, _, steps, h, Or.inl rfl, hsum, fun j hj => ?_⟩
  obtain ⟨s', c1, c2, c3⟩ := hst j hj.le
  obtain ⟨s'', d1, d2⟩ := hfix j hj.le
  obtain rfl : s' = s'' := by
    rw [c1] at d1
    simpa using d1
  refine ⟨s', _, c1, d2 _ (hsteps _ (List.getElem_mem hj)), FE.linear_value h _, fun c t x b1 b2 b3 b4 => ?_⟩
  rw [c3] at b1 b2
  rw [← after_succ _ _ _ hj] at b2
  rw [← nodeAt_succ] at b4
  have e1 : ∃ j, after t₀ steps j < t ∧ t ≤ after t₀ steps (j + 1) := ⟨j, b1, b2⟩
  have e2 : ∃ i : Fin n, nodeAt d.a ((d.b - d.a) / n) i < x ∧ x ≤ nodeAt d.a ((d.b - d.a) / n) (i + 1) := ⟨c, b3, b4⟩
  beta_reduce
  rw [dif_pos e1, dif_pos e2, c2, interval_unique _ ht t e1.choose_spec ⟨b1, b2⟩]
  rw [interval_unique _ hx x e2.choose_spec ⟨b3, b4⟩]

include hS hd hfr hf hG in
theorem element_exists (hB : 0 < B) (n : ℕ) (hn : 2 < n) :
    ∃ u u0, GridRun p.flux (elementTop p K) (-K) K V B d.a (d.b - d.a) t₀ S f G n u u0 := by
  obtain ⟨u, hu⟩ := element_runs (p := p) hS hd hfr hf hG hB n hn
  obtain ⟨v, v0, h, -⟩ := elements_near hd hfr hf hG hn hu
  exact ⟨v, v0, h⟩

end Data

/-! ### The property -/

/-- C134.  The low order finite element solver with linear elements converges to the entropy solution: the data `f` have
period `d.b - d.a`, bounded variation and values of any sign, with absolute values up to `K`, and `w` is an entropy
solution with these data.  For every tolerance `η` there is a number of cells from which on every run, with any of the
three integrators and any time steps within the condition, which may change from step to step, computes a function for which the integral of the distance
from `w` over the strip is at most `η`. -/
theorem C134_converges (p : Problem) (K B V t₀ S : ℝ) (hB : 0 ≤ B) (hS : t₀ ≤ S) (d : Interval ℝ) (hd : d.a < d.b)
    (f G : ℝ → ℝ) (hfr : ∀ x, -K ≤ f x ∧ f x ≤ K) (hf : ∀ x, f (x + (d.b - d.a)) = f x)
    (hG : Majorant f G (d.b - d.a) V) (w : ℝ × ℝ → ℝ) (hw : Solves p (-K) K d f t₀ S w) (η : ℝ) (hη : 0 < η) :
    ∃ N : ℕ, ∀ n : ℕ, N ≤ n → ∀ u, ElementsBy p B d f t₀ S n u →
      ∫ z in Ioc t₀ S ×ˢ Ioc d.a d.b, |u z - w z| ≤ η := by
  have hab : d.a + (d.b - d.a) = d.b := by ring
  have hV : 0 ≤ V := by
    have h1 := hG.mono (show (0 : ℝ) ≤ 0 + (d.b - d.a) by linarith)
    rw [hG.period] at h1
    linarith
  have hK : 0 ≤ K := by linarith [(hfr 0).1, (hfr 0).2]
  have hq : Slope p.flux (-K) K (elementTop p K) := node_slope p hK le_rfl le_rfl
  obtain ⟨N, hN⟩ := grid_converges (flux_measurable p) hq hS (by linarith) hfr hG hB w (solves_law.1 hw) (η / 2)
    (by linarith)
  set A := (S - t₀) * (V * (d.b - d.a)) with hA
  have hA0 : 0 ≤ A := mul_nonneg (by linarith) (mul_nonneg hV (by linarith))
  refine ⟨max N (max 3 ⌈2 * A / η⌉₊), fun n h u hu => ?_⟩
  have h3 : 3 ≤ n := (le_max_left _ _).trans ((le_max_right _ _).trans h)
  have h4 : ⌈2 * A / η⌉₊ ≤ n := (le_max_right _ _).trans ((le_max_right _ _).trans h)
  have hn0 : (0 : ℝ) < n := by exact_mod_cast (by omega : 0 < n)
  obtain ⟨v, v0, hv, hi, hd'⟩ := elements_near hd hfr hf hG h3 hu
  have h5 := hN n ((le_max_left _ _).trans h) (by omega) v v0 hv
  rw [hab] at h5
  have iv : IntegrableOn v (Ioc t₀ S ×ˢ Ioc d.a d.b) := by
    have := grid_integrable hq (by linarith : 0 < d.b - d.a) hfr hG hB (by omega) hv
    rwa [hab] at this
  have i1 : IntegrableOn (fun z => |v z - u z|) (Ioc t₀ S ×ˢ Ioc d.a d.b) := (iv.sub hi).abs
  have i2 : IntegrableOn (fun z => |v z - w z|) (Ioc t₀ S ×ˢ Ioc d.a d.b) := (iv.sub hw.1).abs
  have i3 : IntegrableOn (fun z => |u z - w z|) (Ioc t₀ S ×ˢ Ioc d.a d.b) := (hi.sub hw.1).abs
  have h6 : ∫ z in Ioc t₀ S ×ˢ Ioc d.a d.b, |u z - w z| ≤
      (∫ z in Ioc t₀ S ×ˢ Ioc d.a d.b, |v z - u z|) + ∫ z in Ioc t₀ S ×ˢ Ioc d.a d.b, |v z - w z| := by
    rw [← integral_add i1 i2]
    refine integral_mono i3 (i1.add i2) fun z => ?_
    simp only
    rw [abs_sub_comm (v z) (u z)]
    exact abs_sub_le _ _ _
  have h7 : (S - t₀) * (V * ((d.b - d.a) / n)) ≤ η / 2 := by
    have e : (S - t₀) * (V * ((d.b - d.a) / n)) = A / n := by rw [hA]; ring
    rw [e, div_le_iff₀ hn0]
    have := (Nat.le_ceil _).trans (by exact_mod_cast h4 : (⌈2 * A / η⌉₊ : ℝ) ≤ n)
    rw [div_le_iff₀ hη] at this
    linarith
  linarith

/-- C134.  Entropy solutions with values of any sign depend on the data: two of them are no farther apart, on average over
the time, than their data.  The data `g` need not have bounded variation. -/
theorem C134_stable (p : Problem) (K V t₀ S : ℝ) (hS : t₀ ≤ S) (d : Interval ℝ) (hd : d.a < d.b)
    (f G : ℝ → ℝ) (hfr : ∀ x, -K ≤ f x ∧ f x ≤ K) (hf : ∀ x, f (x + (d.b - d.a)) = f x)
    (hG : Majorant f G (d.b - d.a) V) (g : ℝ → ℝ) (hg : Measurable g) (hgr : ∀ x, -K ≤ g x ∧ g x ≤ K)
    (w w' : ℝ × ℝ → ℝ) (hw : Solves p (-K) K d f t₀ S w) (hw' : Solves p (-K) K d g t₀ S w') :
    ∫ z in Ioc t₀ S ×ˢ Ioc d.a d.b, |w z - w' z| ≤ (S - t₀) * ∫ x in Ioc d.a d.b, |f x - g x| := by
  have hab : d.a + (d.b - d.a) = d.b := by ring
  have hK : 0 ≤ K := by linarith [(hfr 0).1, (hfr 0).2]
  have := grid_stable (flux_measurable p) (node_slope p hK le_rfl le_rfl) hS (by linarith) hfr hG
    zero_le_one 2 (element_exists hS hd hfr hf hG one_pos) g hg hgr w w'
    (solves_law.1 hw) (solves_law.1 hw')
  rwa [hab] at this

/-- C134.  For data of any sign there is an entropy solution, and only one up to sets of measure zero. -/
theorem C134_solution (p : Problem) (K V t₀ S : ℝ) (hS : t₀ ≤ S) (d : Interval ℝ) (hd : d.a < d.b)
    (f G : ℝ → ℝ) (hfr : ∀ x, -K ≤ f x ∧ f x ≤ K) (hf : ∀ x, f (x + (d.b - d.a)) = f x)
    (hG : Majorant f G (d.b - d.a) V) :
    (∃ w, Solves p (-K) K d f t₀ S w) ∧ ∀ w w', Solves p (-K) K d f t₀ S w → Solves p (-K) K d f t₀ S w' →
      ∀ᵐ z ∂volume.restrict (Ioc t₀ S ×ˢ Ioc d.a d.b), w z = w' z := by
  have hab : d.a + (d.b - d.a) = d.b := by ring
  have hK : 0 ≤ K := by linarith [(hfr 0).1, (hfr 0).2]
  have hq : Slope p.flux (-K) K (elementTop p K) := node_slope p hK le_rfl le_rfl
  have hc : (0 : ℝ) ≤ 1 := zero_le_one
  have hex := element_exists (p := p) hS hd hfr hf hG one_pos
  constructor
  · obtain ⟨w, hw⟩ := grid_solution (flux_measurable p) hq hS (by linarith) hfr hG hc 2 hex
    exact ⟨w, solves_law.2 hw⟩
  · intro w w' hw hw'
    have := grid_unique (flux_measurable p) hq hS (by linarith) hfr hG hc 2 hex w w' (solves_law.1 hw) (solves_law.1 hw')
    rwa [hab] at this

/-- C134.  There is a run on every mesh with at least three cells. -/
theorem C134_runs (p : Problem) (K B V t₀ S : ℝ) (hB : 0 < B) (hS : t₀ ≤ S) (d : Interval ℝ) (hd : d.a < d.b)
    (f G : ℝ → ℝ) (hfr : ∀ x, -K ≤ f x ∧ f x ≤ K) (hf : ∀ x, f (x + (d.b - d.a)) = f x)
    (hG : Majorant f G (d.b - d.a) V) (n : ℕ) (h3 : 3 ≤ n) : ∃ u, ElementsBy p B d f t₀ S n u :=
  element_runs hS hd hfr hf hG hB n h3

/-- C134.  The step that the solver chooses satisfies the condition for CFL numbers up to one, the default of the command
line (`cg_low.py` 130): `dt` is at most the CFL number times the optimal step for the node values `u` at the beginning of the
step (`cg_low.py` 22-28), and `κ` is a speed that some node has. -/
theorem C134_step {gauss d n s m C} (h : FE.Setup gauss d n 1 s m C) (h3 : 3 ≤ n) (p : Problem) (u : Fin n → ℝ)
    (cfl horizon κ dt : ℝ) (hc0 : 0 ≤ cfl) (hcfl : cfl ≤ 1) (hκ : 0 < κ) (i : Fin n) (hi : κ ≤ |p.fluxPrime (u i)|)
    (h0 : 0 ≤ dt) (hdt : dt ≤ FE.stepNumber p m C n horizon u * cfl) :
    ElementStep p (1 / (2 * κ)) ((d.b - d.a) / n) u dt := by
  have hn := h.meshSize
  have hdx : 0 < (d.b - d.a) / n := div_pos (by linarith [h.domain]) (by exact_mod_cast hn)
  unfold ElementStep
  have key : ∀ (j : Fin n) (κ' : ℝ), 0 < κ' → κ' ≤ |p.fluxPrime (u j)| → 2 * dt * κ' ≤ (d.b - d.a) / n := by
    intro j κ' h1 h2
    have e := FE.step_upper h h3 p u j κ' h1 h2 horizon
    generalize FE.stepNumber p m C n horizon u = τ at hdt e
    generalize (d.b - d.a) / (n : ℝ) = dx at *
    rcases le_total 0 τ with hτ | hτ
    · have e1 : τ * cfl ≤ τ * 1 := mul_le_mul_of_nonneg_left hcfl hτ
      have e2 := mul_le_mul_of_nonneg_right (hdt.trans e1) h1.le
      linarith
    · have : τ * cfl ≤ 0 := mul_nonpos_of_nonpos_of_nonneg hτ hc0
      have : dt = 0 := by linarith
      rw [this]; linarith
  refine ⟨h0, ?_, fun hp => ?_, fun hp j => ?_⟩
  · have := key i κ hκ hi
    rw [one_div, inv_mul_eq_div, le_div_iff₀ (by positivity)]
    linarith
  · subst hp
    have := key i 1 one_pos (by simp [Problem.fluxPrime])
    linarith
  · subst hp
    rcases eq_or_lt_of_le (abs_nonneg (u j)) with e | e
    · rw [← e]; linarith
    · exact key j _ e (by simp [Problem.fluxPrime])

/-- C134.  Steps within the condition for the values at the beginning of a run stay within it: the run succeeds, and the
condition holds for the values at the beginning of every step.  This is a run with a step chosen once. -/
theorem C134_fixed {gauss d n s m C} (h : FE.Setup gauss d n 1 s m C) (h3 : 3 ≤ n) (p : Problem) (B : ℝ) (T : Tableau ℝ)
    (hT : T = forwardEuler ℝ ∨ T = heun ℝ ∨ T = ssp3 ℝ) (u : Fin n → ℝ) (t₀ : ℝ) (steps : List ℝ)
    (hsteps : ∀ dt ∈ steps, ElementStep p B ((d.b - d.a) / n) u dt) (j : ℕ) (hj : j < steps.length) :
    ∃ s', (Solver.init u t₀).runE T (vecRhs n fun _ => FE.lowRhs p m C) (steps.take j) = .ok s' ∧
      ElementStep p B ((d.b - d.a) / n) s'.solution steps[j] := by
  obtain ⟨s', a1, a2⟩ := element_fixed h h3 hT (Solver.init u t₀) steps hsteps j hj.le
  exact ⟨s', a1, a2 _ (hsteps _ (List.getElem_mem hj))⟩

/-! ### Examples -/

theorem burgers_data (b : Burgers) : (∀ x, -2 ≤ b.initial x ∧ b.initial x ≤ 2) ∧
    (∀ x, b.initial (x + (b.domain.b - b.domain.a)) = b.initial x) ∧
    Majorant b.initial (fun x => 1 / b.criticalTime * x) (b.domain.b - b.domain.a)
      (1 / b.criticalTime * (b.domain.b - b.domain.a)) := by
  refine ⟨fun x => abs_le.1 (b.initial_bound x), fun x => ?_, fun x y hxy => ?_, fun x => by ring⟩
  · cases b
    · simp only [Burgers.initial, Burgers.domain, sub_zero, mul_add, mul_one]
      exact Real.sin_add_two_pi _
    · simp only [Burgers.initial, Burgers.domain, sub_zero]
      rw [Real.sin_add_two_pi]
  · rcases eq_or_ne y x with rfl | hne
    · simp
    · have := b.initial_lipschitz y x hne
      rw [abs_of_nonneg (by linarith : 0 ≤ y - x)] at this
      linarith

/-- The benchmarks of `benchmark/burgers.py` at any time, also after the shock: there is one entropy solution, and the
runs converge to it. -/
example (b : Burgers) (S : ℝ) (hS : 0 ≤ S) :
    ∃ w, Solves .burgers (-2) 2 b.domain b.initial 0 S w ∧
      (∀ η > 0, ∃ N : ℕ, ∀ n : ℕ, N ≤ n → ∀ u, ElementsBy .burgers 1 b.domain b.initial 0 S n u →
        ∫ z in Ioc 0 S ×ˢ Ioc b.domain.a b.domain.b, |u z - w z| ≤ η) ∧
      ∀ n : ℕ, 3 ≤ n → ∃ u, ElementsBy .burgers 1 b.domain b.initial 0 S n u := by
  obtain ⟨h1, h2, h3⟩ := burgers_data b
  have hd : b.domain.a < b.domain.b := by
    cases b <;> simp only [Burgers.domain]
    · norm_num
    · positivity
  obtain ⟨⟨w, hw⟩, -⟩ := C134_solution .burgers 2 _ 0 S hS b.domain hd _ _ h1 h2 h3
  exact ⟨w, hw, C134_converges .burgers 2 1 _ 0 S zero_le_one hS b.domain hd _ _ h1 h2 h3 w hw,
    C134_runs .burgers 2 1 _ 0 S one_pos hS b.domain hd _ _ h1 h2 h3⟩

/-- Two constants of different sign: the distance is the time times the distance of the data. -/
example : ∃ w w', Solves .burgers (-1) 1 ⟨0, 1⟩ (fun _ => -1) 0 3 w ∧ Solves .burgers (-1) 1 ⟨0, 1⟩ (fun _ => 1) 0 3 w' ∧
    ∫ z in Ioc (0 : ℝ) 3 ×ˢ Ioc (0 : ℝ) 1, |w z - w' z| ≤ (3 - 0) * ∫ x in Ioc (0 : ℝ) 1, |(-1 : ℝ) - 1| := by
  have hG : ∀ c : ℝ, Majorant (fun _ => c) (fun _ => 0) ((⟨0, 1⟩ : Interval ℝ).b - (⟨0, 1⟩ : Interval ℝ).a) 0 :=
    fun c => ⟨fun x y _ => by simp, fun x => by simp⟩
  obtain ⟨⟨w, hw⟩, -⟩ := C134_solution .burgers 1 0 0 3 (by norm_num) ⟨0, 1⟩ (by norm_num) (fun _ => -1) _
    (fun _ => by norm_num) (fun _ => rfl) (hG (-1))
  obtain ⟨⟨w', hw'⟩, -⟩ := C134_solution .burgers 1 0 0 3 (by norm_num) ⟨0, 1⟩ (by norm_num) (fun _ => 1) _
    (fun _ => by norm_num) (fun _ => rfl) (hG 1)
  exact ⟨w, w', hw, hw', C134_stable .burgers 1 0 0 3 (by norm_num) ⟨0, 1⟩ (by norm_num) (fun _ => -1) _
    (fun _ => by norm_num) (fun _ => rfl) (hG (-1)) (fun _ => 1) measurable_const (fun _ => by norm_num) w w' hw hw'⟩

/-- The shock benchmark on eight cells: node 2 has speed one, so the optimal step is within the condition with the default
CFL number, also if it is chosen once for three steps. -/
example {gauss s m C} (h : FE.Setup gauss Burgers.shock.domain 8 1 s m C) (dt : ℝ) (h0 : 0 ≤ dt)
    (hdt : dt ≤ FE.stepNumber .burgers m C 8 1 (atNodes Burgers.shock.domain Burgers.shock.initial 8) * 1) :
    ∃ s', (Solver.init (atNodes Burgers.shock.domain Burgers.shock.initial 8) 0).runE (heun ℝ)
        (vecRhs 8 fun _ => FE.lowRhs .burgers m C) [dt, dt] = .ok s' ∧
      ElementStep .burgers (1 / (2 * 1)) ((Burgers.shock.domain.b - Burgers.shock.domain.a) / (8 : ℕ)) s'.solution dt := by
  refine C134_fixed h (by norm_num) .burgers _ (heun ℝ) (by simp) _ 0 [dt, dt, dt] (fun τ hτ => ?_) 2 (by simp)
  obtain rfl : τ = dt := by simpa using hτ
  refine C134_step h (by norm_num) .burgers _ 1 1 1 τ zero_le_one le_rfl one_pos 2 (le_of_eq ?_) h0 hdt
  simp only [Problem.fluxPrime, atNodes, Burgers.initial, Burgers.domain]
  have e : 2 * Real.pi * (0 + ((2 : Fin 8) : ℕ) * ((1 - 0) / (8 : ℕ))) = Real.pi / 2 := by
    rw [show ((2 : Fin 8) : ℕ) = 2 from rfl]
    push_cast
    ring
  rw [e, Real.sin_pi_div_two, abs_one]

end Verif.EntropyLimit
