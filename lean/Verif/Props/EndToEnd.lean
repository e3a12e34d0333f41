import Verif.Props.Solver
import Verif.Props.Variation
import Verif.Props.Benchmarks
import Verif.Props.SteadyStates

/-!
C95: whole runs of finite volume solvers, from the construction to the end of `solve`.
-/

set_option linter.unusedSectionVars false

namespace Verif.EndToEnd

open Verif.Py Verif.Boundary Verif.FV Verif.ODE Verif.Scalar Verif.Solver

variable {K : Type*} [Field K] [LinearOrder K] [IsStrictOrderedRing K]

/-- `finite_volume/solver.py` lines 22-70: a finite volume solver on `n` cells of width `dx` with
right-hand side `f`, integrator `T`, CFL number `cfl` and mesh dependent time steps. -/
def fvParams {V : Type*} (n : ℕ) (T : Tableau K) (f : K → List V → Except Error (List V))
    (dx cfl startTime endTime : K) : Params K (Fin n → V) where
  tab := T
  rhs := vecRhs n f
  finite := fun _ => true
  optimal := fun _ _ => dx
  cfl := cfl
  adaptive := false
  startTime := startTime
  endTime := endTime
  checker := none

theorem runE_append {E ε : Type*} [AddCommGroup E] [Module K E] (T : Tableau K)
    (f : K → E → Except ε E) (s : Solver K E) (xs ys : List K) (s' : Solver K E)
    (h : s.runE T f xs = .ok s') : s.runE T f (xs ++ ys) = s'.runE T f ys := by
  induction xs generalizing s with
  | nil =>
    simp only [Solver.runE, Except.ok.injEq] at h
    rw [h]; rfl
  | cons x xs ih =>
    simp only [List.cons_append, Solver.runE] at h ⊢
    cases hx : s.executeE T f x with
    | error e => rw [hx] at h; cases h
    | ok s1 => rw [hx] at h; exact ih s1 h

/-- The recorded values of a run that does not raise are the states of the integrator. -/
theorem recorded {V : Type*} [AddCommGroup V] [Module K V] (p : Params K V) (b : Bench K V) (k : ℕ)
    (hr : ∀ e, (solve p (Obj.make p b) k).2 ≠ .raised e) :
    ∃ steps : List K,
      (∀ dt ∈ steps, 1 / 10 ^ 12 ≤ dt ∧
        (p.adaptive = false → dt ≤ p.optimal b.startTime b.initial * p.cfl)) ∧
      (solve p (Obj.make p b) k).1.sol.values.length = steps.length + 1 ∧
      (solve p (Obj.make p b) k).1.sol.times.length = steps.length + 1 ∧
      ∀ i ≤ steps.length, ∃ s, (Solver.init b.initial b.startTime).runE p.tab p.rhs (steps.take i) =
          .ok s ∧ (solve p (Obj.make p b) k).1.sol.values[i]? = some s.solution ∧
        (solve p (Obj.make p b) k).1.sol.times[i]? = some s.time := by
  obtain ⟨steps, h1, -, -, h4, ⟨tl, vl, t1, t2, t3, t4, t5⟩, -⟩ :=
    C94_solve p (Obj.make p b) (make_sync p b) k hr
  refine ⟨steps, ?_, ?_, ?_, ?_⟩
  · intro dt hdt
    obtain ⟨i, hi, rfl⟩ := List.getElem_of_mem hdt
    obtain ⟨s, -, q2, q3⟩ := h4 i hi
    refine ⟨q3, fun ha => ?_⟩
    rw [q2, ha]
    exact min_le_left _ _
  · rw [t2, List.length_append, t4]; simp [Obj.make, Solution.Hist.init]; omega
  · rw [t1, List.length_append, t3]; simp [Obj.make, Solution.Hist.init]; omega
  · intro i hi
    rw [t1, t2]
    cases i with
    | zero => exact ⟨_, rfl, rfl, rfl⟩
    | succ i =>
      obtain ⟨s, q1, q2, q3, -⟩ := t5 i hi
      exact ⟨s, q1, q3, q2⟩

/-- C95.  Runs of the Lax-Friedrichs solver for scalar problems with a constant boundary condition
(periodic or outflow), from initial cell values in `[m, M]`, with CFL number at most 1 for advection,
`m > 0` and CFL number times `M` at most 1 for Burgers' equation, and one of the integrators forward
Euler, Heun, SSP3.  The run never raises and is never interrupted; it ends, after at most as many steps
as the duration has time steps; the end time is reached up to less than `1e-12`.  All values of the
history lie in `[m, M]`.  On periodic meshes all of them have the mass of the initial values, and the
total variation decreases along the history. -/
theorem C95_lax_friedrichs (p : Problem) (n : ℕ) (hn : 0 < n) (il ir : Option (K → K)) (bc : BC K K)
    (name : String) (hname : name = "periodic" ∨ name = "outflow")
    (hbc : build none [name] 1 il ir = .ok bc) (T : Tableau K)
    (hT : T = forwardEuler K ∨ T = heun K ∨ T = ssp3 K) (dx cfl t0 t1 : K) (hdx : 0 < dx)
    (hstep : 1 / 10 ^ 12 ≤ dx * cfl) (hdur : 1 / 10 ^ 12 ≤ t1 - t0) (m M : K)
    (ha : p = .advection → cfl ≤ 1) (hb : p = .burgers → 0 < m ∧ cfl * M ≤ 1)
    (u : Fin n → K) (hu : ∀ i, m ≤ u i ∧ u i ≤ M) :
    let P := fvParams n T (rhs (laxFriedrichs p.riemann) dx bc) dx cfl t0 t1
    let run := solve P (Obj.make P ⟨u, t0, t1⟩)
    (∀ k : ℕ, t1 - t0 ≤ k * (dx * cfl) → (run (k + 1)).2 = .finished) ∧
    (∀ k, (run k).2 = .running ∨ (run k).2 = .finished) ∧
    (∀ k, (run k).2 = .finished →
      t1 - 1 / 10 ^ 12 < (run k).1.sol.sol.time ∧ (run k).1.sol.sol.time ≤ t1) ∧
    (∀ k, ∀ v ∈ (run k).1.sol.values, (∀ i, m ≤ v i ∧ v i ≤ M) ∧
      (name = "periodic" → (List.ofFn v).sum = (List.ofFn u).sum)) ∧
    (∀ (k i j : ℕ) (v w : Fin n → K), i ≤ j → (run k).1.sol.values[i]? = some v → (run k).1.sol.values[j]? = some w →
      name = "periodic" → cyclicVariation (List.ofFn w) ≤ cyclicVariation (List.ofFn v)) := by
  intro P run
  have hc0 : 0 < cfl := by
    have : (0 : K) < dx * cfl := lt_of_lt_of_le (by positivity) hstep
    exact (pos_iff_pos_of_mul_pos this).mp hdx
  have hcond : ∀ dt, dt ≤ dx * cfl → 0 ≤ dt →
      0 ≤ dt ∧ (p = .advection → dt ≤ dx) ∧ (p = .burgers → dt * M ≤ dx) := by
    intro dt hdt h0
    refine ⟨h0, fun hp => ?_, fun hp => ?_⟩
    · exact hdt.trans (mul_le_of_le_one_right hdx.le (ha hp))
    · have hM : 0 ≤ M := (hb hp).1.le.trans ((hu ⟨0, hn⟩).1.trans (hu ⟨0, hn⟩).2)
      calc dt * M ≤ dx * cfl * M := mul_le_mul_of_nonneg_right hdt hM
        _ = dx * (cfl * M) := by ring
        _ ≤ dx := mul_le_of_le_one_right hdx.le (hb hp).2
  have hm : p = .burgers → 0 < m := fun hp => (hb hp).1
  have htol : (0 : K) < 1 / 10 ^ 12 := by positivity
  have safe := C94_safe P (Obj.make P ⟨u, t0, t1⟩) (make_sync _ _) (fun v => ∀ i, m ≤ v i ∧ v i ≤ M)
    hu rfl (fun _ _ => rfl) (by
      intro s dt h1 h2 hI
      have h2' : dt ≤ dx * cfl := h2
      obtain ⟨s', q1, q2⟩ := C28_run p n hn none il ir bc name hname hbc dx hdx m M hm [dt] (by
        intro d hd
        rw [List.mem_singleton.mp hd]
        exact hcond dt h2' (htol.le.trans h1)) T hT s hI
      refine ⟨s', ?_, q2⟩
      simp only [Solver.runE] at q1
      cases hx : s.executeE T (vecRhs n (rhs (laxFriedrichs p.riemann) dx bc)) dt with
      | error e => rw [hx] at q1; cases q1
      | ok s1 => rw [hx] at q1; exact hx.trans q1)
  have hterm : ∀ k : ℕ, t1 - t0 ≤ k * (dx * cfl) → (run (k + 1)).2 = .finished := fun k hk =>
    C94_terminates P (Obj.make P ⟨u, t0, t1⟩) (dx * cfl) hstep (fun _ _ => le_rfl) le_rfl hdur k hk
      (fun m e => (safe m).1 e)
  refine ⟨hterm, ?_, ?_, ?_, ?_⟩
  · intro k
    have hg : ∀ j, dx * cfl ≤ (schedule P (Obj.make P ⟨u, t0, t1⟩)).gen.call j := fun j => le_rfl
    have hnf : (clock P (Obj.make P ⟨u, t0, t1⟩) k).status ≠ .failed := by
      intro hf
      rcases TimeStepping.C03_failed_cause _ _ k hf with ⟨j, hj⟩ | h
      · exact absurd (hstep.trans (hg j)) (not_le.mpr hj)
      · exact absurd hdur (not_le.mpr h)
    obtain ⟨-, -, h3, -⟩ := link P (Obj.make P ⟨u, t0, t1⟩) k (safe k).1
    change statusOf (run k).2 = some _ at h3
    cases hs : (run k).2 with
    | running => exact Or.inl rfl
    | finished => exact Or.inr rfl
    | raised e => exact absurd hs ((safe k).1 e)
    | interrupted =>
      rw [hs] at h3
      simp only [statusOf, Option.some.injEq] at h3
      exact absurd h3.symm hnf
  · intro k hk
    exact C94_end_time P ⟨u, t0, t1⟩ rfl k hk
  · intro k v hv
    obtain ⟨steps, r1, r2, -, r4⟩ := recorded P ⟨u, t0, t1⟩ k (safe k).1
    obtain ⟨i, hi, rfl⟩ := List.getElem_of_mem hv
    obtain ⟨s, q1, q2, -⟩ := r4 i (by
      have : (run k).1.sol.values.length = steps.length + 1 := r2
      omega)
    have e : (run k).1.sol.values[i] = s.solution := by
      have : (run k).1.sol.values[i]? = some s.solution := q2
      rw [List.getElem?_eq_getElem hi] at this
      exact Option.some.inj this
    rw [e]
    constructor
    · obtain ⟨s', w1, w2⟩ := C28_run p n hn none il ir bc name hname hbc dx hdx m M hm (steps.take i)
        (by
          intro d hd
          obtain ⟨z1, z2⟩ := r1 d (List.mem_of_mem_take hd)
          exact hcond d (z2 rfl) (htol.le.trans z1)) T hT (Solver.init u t0) hu
      have : (Except.ok s : Except Error _) = .ok s' := q1.symm.trans w1
      rw [Except.ok.inj this]
      exact w2
    · intro hp
      subst hp
      exact C24_two_point_schemes _ dx none il ir bc hbc n T (Solver.init u t0) s (steps.take i) q1
  · intro k i j v w hij hv hw hp
    subst hp
    obtain ⟨steps, r1, r2, -, r4⟩ := recorded P ⟨u, t0, t1⟩ k (safe k).1
    have hj : j < (run k).1.sol.values.length := (List.getElem?_eq_some_iff.mp hw).1
    have hj' : j < steps.length + 1 := by
      have : (run k).1.sol.values.length = steps.length + 1 := r2
      omega
    obtain ⟨s, q1, q2, -⟩ := r4 i (by omega)
    obtain ⟨s', q1', q2', -⟩ := r4 j (by omega)
    have ev : v = s.solution := Option.some.inj (hv.symm.trans q2)
    have ew : w = s'.solution := Option.some.inj (hw.symm.trans q2')
    rw [ev, ew]
    have hsplit : steps.take j = steps.take i ++ (steps.take j).drop i := by
      conv_lhs => rw [← List.take_append_drop i (steps.take j)]
      rw [List.take_take, min_eq_left hij]
    rw [hsplit, runE_append _ _ _ _ _ s q1] at q1'
    have hbox : ∀ i, m ≤ s.solution i ∧ s.solution i ≤ M := by
      obtain ⟨s2, w1, w2⟩ := C28_run p n hn none il ir bc "periodic" hname hbc dx hdx m M hm
        (steps.take i) (by
          intro d hd
          obtain ⟨z1, z2⟩ := r1 d (List.mem_of_mem_take hd)
          exact hcond d (z2 rfl) (htol.le.trans z1)) T hT (Solver.init u t0) hu
      have : (Except.ok s : Except Error _) = .ok s2 := q1.symm.trans w1
      rw [Except.ok.inj this]
      exact w2
    obtain ⟨s2, w1, w2⟩ := C90_run_periodic p n hn none il ir bc hbc dx hdx m M hm
      ((steps.take j).drop i) (by
        intro d hd
        obtain ⟨z1, z2⟩ := r1 d (List.mem_of_mem_take (List.mem_of_mem_drop hd))
        exact hcond d (z2 rfl) (htol.le.trans z1)) T hT s hbox
    have : (Except.ok s' : Except Error _) = .ok s2 := q1'.symm.trans w1
    rw [Except.ok.inj this]
    exact w2

/-- Non-vacuity of C95: three cells, Burgers' equation, Heun, CFL number 1/4, one unit of time. -/
example (bc : BC ℚ ℚ) (hbc : build none ["periodic"] 1 none none = .ok bc) :
    let P := fvParams 3 (heun ℚ) (rhs (laxFriedrichs Problem.burgers.riemann) 1 bc) 1 (1 / 4) 0 1
    (solve P (Obj.make P ⟨![1, 2, 3], 0, 1⟩) 5).2 = .finished :=
  (C95_lax_friedrichs .burgers 3 (by norm_num) none none bc "periodic" (Or.inl rfl) hbc (heun ℚ)
    (Or.inr (Or.inl rfl)) 1 (1 / 4) 0 1 (by norm_num) (by norm_num) (by norm_num) 1 3 (by simp)
    (fun _ => by norm_num) ![1, 2, 3] (by intro i; fin_cases i <;> norm_num)).1 4 (by norm_num)

example :
    let P := fvParams (K := ℚ) (V := ℚ) 3 (heun ℚ) (rhs (laxFriedrichs Problem.burgers.riemann) 1
      ⟨[.copy (-1)], [.copy 0], true⟩) 1 (1 / 4) 0 1
    let l := solve P (Obj.make P ⟨![1, 2, 3], 0, 1⟩) 5
    l.2 = .finished ∧ l.1.sol.times = [0, 1 / 4, 1 / 2, 3 / 4, 1] ∧
      (l.1.sol.values.map fun v => v 0 + v 1 + v 2) = [6, 6, 6, 6, 6] ∧
      (l.1.sol.values.map fun v => decide (v 0 = 1)) = [true, false, false, false, false] := by
  decide +kernel

section Benchmarks

open Verif.Bench Verif.Interpolate
open Verif.Mesh hiding Error

/-- C95.  The advection benchmarks with the default settings of the finite volume solvers
(`finite_volume/solver.py` lines 57-70, `defaults.py`: Heun, CFL number 0.1; `finite_volume/space.py`
lines 59-70: cell averages of the initial data) and the Lax-Friedrichs flux, on any uniform mesh of at
most `10^11` cells: the run ends after at most `10 n` steps, at the end time; all values of the history
lie in the range of the initial data, and all have the same mass. -/
theorem C95_advection (b : Advection) (points : List (ℝ × ℝ)) (hp : AveragingRule points) (n : ℕ)
    (hn : 0 < n) (hn' : n ≤ 10 ^ 11) (mesh : UMesh ℝ) (hmesh : uniformMesh b.domain n = .ok mesh)
    (bc : BC ℝ ℝ) (hbc : build none ["periodic"] 1 none none = .ok bc) :
    let u : Fin n → ℝ := fun i => (cellAverages points mesh b.initial).getD i 0
    let P := fvParams n (heun ℝ) (rhs (laxFriedrichs Problem.advection.riemann) (1 / n) bc) (1 / n)
      (1 / 10) 0 1
    let run := solve P (Obj.make P ⟨u, 0, 1⟩)
    (run (10 * n + 1)).2 = .finished ∧
    1 - 1 / 10 ^ 12 < (run (10 * n + 1)).1.sol.sol.time ∧ (run (10 * n + 1)).1.sol.sol.time ≤ 1 ∧
    ∀ k, ∀ v ∈ (run k).1.sol.values, (∀ i, -1 ≤ v i ∧ v i ≤ 1 ∧ (b ≠ .cosine → 0 ≤ v i)) ∧
      (List.ofFn v).sum = (List.ofFn u).sum := by
  intro u P run
  have hn0 : (0 : ℝ) < n := by exact_mod_cast hn
  have hd : b.domain.a < b.domain.b := by norm_num [Advection.domain]
  obtain ⟨hlen, hlt, -⟩ := uniform_cells hd hn hmesh
  have hav := (C58_basic points mesh hlt hp.sum hp.pos hp.inside b.initial).2.2.1
  have hu : ∀ l, (∀ x, l ≤ b.initial x) → ∀ i, l ≤ u i ∧ u i ≤ 1 := fun l hl i =>
    hav i (by rw [hlen]; exact i.2) l 1 fun x _ _ => ⟨hl x, (C72_advection_range b x).2.1⟩
  have hstep : (1 : ℝ) / 10 ^ 12 ≤ 1 / n * (1 / 10) := by
    have h11 : (n : ℝ) ≤ 10 ^ 11 := by exact_mod_cast hn'
    rw [div_mul_div_comm, one_mul]
    exact one_div_le_one_div_of_le (by positivity) (by nlinarith)
  have key := fun l hl => C95_lax_friedrichs (K := ℝ) .advection n hn none none bc "periodic"
    (Or.inl rfl) hbc (heun ℝ) (Or.inr (Or.inl rfl)) (1 / n) (1 / 10) 0 1 (by positivity) hstep
    (by norm_num) l 1 (fun _ => by norm_num) (fun h => by cases h) u (hu l hl)
  obtain ⟨k1, -, k3, k4, -⟩ := key (-1) fun x => (C72_advection_range b x).1
  have hfin := k1 (10 * n) (by
    push_cast
    have : (10 * (n : ℝ)) * (1 / n * (1 / 10)) = 1 := by field_simp
    rw [this]; norm_num)
  refine ⟨hfin, (k3 _ hfin).1, (k3 _ hfin).2, fun k v hv => ⟨fun i => ?_, (k4 k v hv).2 rfl⟩⟩
  refine ⟨((k4 k v hv).1 i).1, ((k4 k v hv).1 i).2, fun hb => ?_⟩
  obtain ⟨-, -, -, q4, -⟩ := key 0 fun x => (C72_advection_range b x).2.2 hb
  exact ((q4 k v hv).1 i).1

/-- The hypotheses of `C95_advection`: the midpoint rule, 100 cells. -/
example : AveragingRule [(0, 2)] ∧ (∃ mesh, uniformMesh (Advection.domain .threeHills) 100 = .ok mesh) ∧
    ∃ bc : BC ℝ ℝ, build none ["periodic"] 1 none none = .ok bc :=
  ⟨⟨by simp [Quadrature.specific, Quadrature.Rule.weights],
      by simp [Quadrature.specific, Quadrature.Rule.weights],
      by simp [Quadrature.specific, Quadrature.Rule.nodes]⟩,
    ⟨_, uniformMesh_eq _ (by norm_num [Advection.domain]) (by norm_num)⟩, _, rfl⟩

open Verif.SWE in
/-- C95.  The lake at rest over the bump, with the low-order and the limited (MCL) finite volume solver
for the shallow water equations, any integrator, any CFL number with steps of at least `1e-12` and any
end time at least `1e-12` later: the run ends, never raises, and all values of the history are the
initial values. -/
theorem C95_lake (points : List (ℝ × ℝ)) (hp : AveragingRule points) (n : ℕ) (hn : 20 ≤ n)
    (mesh : UMesh ℝ) (hmesh : uniformMesh (Lake.domain .bump) n = .ok mesh) (P : SWE.Params ℝ)
    (hP : P.Good) (heps : P.eps ≤ 3 / 20) :
    ∃ B bc, buildBathymetry P (some (cellAverages points mesh (Lake.bathymetry .bump))) = .ok B ∧
      build (K := ℝ) (some reflect) (Lake.boundary .bump).conditions 1 none none = .ok bc ∧
      ∀ F ∈ [lowOrder P B, mcl P B bc (centralFlux P B)], ∀ (T : Tableau ℝ) (dx cfl t0 t1 : ℝ),
        0 < dx → 1 / 10 ^ 12 ≤ dx * cfl → 1 / 10 ^ 12 ≤ t1 - t0 →
        let u : Fin n → State ℝ := fun i => (discretize points mesh (Lake.initial .bump)).getD i 0
        let Q := fvParams n T (rhs F dx bc) dx cfl t0 t1
        let run := solve Q (Obj.make Q ⟨u, t0, t1⟩)
        (∀ k : ℕ, t1 - t0 ≤ k * (dx * cfl) → (run (k + 1)).2 = .finished) ∧
        (∀ k e, (run k).2 ≠ .raised e) ∧ ∀ k, ∀ v ∈ (run k).1.sol.values, v = u := by
  obtain ⟨B, bc, hB, hbc, hrun⟩ := C86_lake_run points hp n hn mesh hmesh P hP heps
  refine ⟨B, bc, hB, hbc, fun F hF T dx cfl t0 t1 hdx hstep hdur => ?_⟩
  intro u Q run
  have hr := hrun dx hdx.ne' F hF T
  have safe := C94_safe Q (Obj.make Q ⟨u, t0, t1⟩) (make_sync _ _) (fun v => v = u) rfl rfl
    (fun _ _ => rfl) (by
      intro s dt h1 h2 hI
      obtain ⟨s', q1, q2, -⟩ := hr s.time [dt]
      refine ⟨s', ?_, q2⟩
      have e : s.executeE T (vecRhs n (rhs F dx bc)) dt =
          (Solver.init u s.time).executeE T (vecRhs n (rhs F dx bc)) dt := by
        rw [← hI]; rfl
      change s.executeE T (vecRhs n (rhs F dx bc)) dt = _
      rw [e]
      simp only [Solver.runE] at q1
      cases hx : (Solver.init u s.time).executeE T (vecRhs n (rhs F dx bc)) dt with
      | error e => rw [hx] at q1; cases q1
      | ok s1 => rw [hx] at q1; exact q1)
  refine ⟨fun k hk => C94_terminates Q (Obj.make Q ⟨u, t0, t1⟩) (dx * cfl) hstep (fun _ _ => le_rfl)
    le_rfl hdur k hk (fun m e => (safe m).1 e), fun k e => (safe k).1 e, fun k v hv => ?_⟩
  obtain ⟨steps, -, r2, -, r4⟩ := recorded Q ⟨u, t0, t1⟩ k (safe k).1
  obtain ⟨i, hi, rfl⟩ := List.getElem_of_mem hv
  obtain ⟨s, q1, q2, -⟩ := r4 i (by
    have : (run k).1.sol.values.length = steps.length + 1 := r2
    omega)
  have e : (run k).1.sol.values[i] = s.solution := by
    have : (run k).1.sol.values[i]? = some s.solution := q2
    rw [List.getElem?_eq_getElem hi] at this
    exact Option.some.inj this
  rw [e]
  obtain ⟨s', w1, w2, -⟩ := hr t0 (steps.take i)
  have : (Except.ok s : Except Error _) = .ok s' := q1.symm.trans w1
  rw [Except.ok.inj this]
  exact w2

end Benchmarks

end Verif.EndToEnd
