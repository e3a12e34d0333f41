import Verif.Props.EndToEnd
import Verif.Props.SolverChecked
import Verif.Props.SWEConservation
import Mathlib.Tactic.IntervalCases

/-!
C114: whole runs of the shallow water solvers (Lax-Friedrichs, low-order, limited) and whole runs of the
limited scalar solver, from the construction to the end of `solve`.
-/

set_option linter.unusedSectionVars false

namespace Verif.Solver

open Verif.TimeStepping Verif.Solution

variable {K : Type*} [Field K] [LinearOrder K] [IsStrictOrderedRing K]
variable {V : Type*} [AddCommGroup V] [Module K V]

/-- `C94_safe` for the states that are visited. -/
theorem safe_visited (p : Params K V) (o : Obj K V) (hs : Sync o) (I : V → Prop)
    (h0 : I o.ode.solution) (hcheck : p.checker = none) (hfin : ∀ v, I v → p.finite v = true) (n : ℕ)
    (hstep : ∀ j < n, ∀ dt : K, 1 / 10 ^ 12 ≤ dt →
      dt ≤ (if p.adaptive then p.optimal (solve p o j).1.ode.time (solve p o j).1.ode.solution
        else o.first) * p.cfl → I (solve p o j).1.ode.solution →
      ∃ s', (solve p o j).1.ode.executeE p.tab p.rhs dt = .ok s' ∧ I s'.solution) :
    (∀ e, (solve p o n).2 ≠ .raised e) ∧ I (solve p o n).1.ode.solution := by
  induction n with
  | zero => exact ⟨fun e h => (by cases h), h0⟩
  | succ n ih =>
    obtain ⟨hr, hI⟩ := ih fun j hj => hstep j (by omega)
    have hst := hstep n (by omega)
    obtain ⟨hc, -⟩ := link p o n hr
    have hsy := course_sync hc hs
    have hf := hc.first
    have hp : solve p o (n + 1) = pass p (solve p o n) := rfl
    rw [hp]
    generalize solve p o n = l at hr hI hc hsy hf hst
    unfold pass
    cases hl : l.2 with
    | finished => exact ⟨fun e h => (by simp only at h; rw [hl] at h; cases h), hI⟩
    | interrupted => exact ⟨fun e h => (by simp only at h; rw [hl] at h; cases h), hI⟩
    | raised e => exact absurd hl (hr e)
    | running =>
      simp only
      rcases hx : next (l.1.config p) l.1.ts with ⟨ts, a⟩
      cases a with
      | stopIteration => exact ⟨fun e h => (by cases h), hI⟩
      | tooSmall => exact ⟨fun e h => (by cases h), hI⟩
      | yield dt =>
        have h1 := next_yield_pos _ _ _ _ hx
        have h2 := next_yield_le _ _ _ _ hx
        have e2 : (l.1.config p).gen.call l.1.ts.calls =
            (if p.adaptive then p.optimal l.1.ode.time l.1.ode.solution else o.first) * p.cfl := by
          unfold Generator.call Obj.config
          rw [← hsy.1, ← hsy.2, ← hf]
          simp
        rw [e2] at h2
        obtain ⟨s', q1, q2⟩ := hst dt h1 h2 hI
        have hu : ∃ x, Obj.update p { l.1 with ts := ts } dt = (x, none) ∧ x.ode = s' := by
          unfold Obj.update Obj.check Obj.updateSolution Hist.update Sol.update
          simp only [q1, hcheck, hfin _ q2, if_true]
          exact ⟨_, rfl, rfl⟩
        obtain ⟨x, hx1, hx2⟩ := hu
        simp only [hx1]
        exact ⟨fun e h => (by cases h), by rw [hx2]; exact q2⟩

end Verif.Solver

namespace Verif.EndToEnd

open Verif.Py Verif.Boundary Verif.FV Verif.ODE Verif.Solver

variable {K : Type*} [Field K] [LinearOrder K] [IsStrictOrderedRing K]

/-- A run with mesh dependent steps whose first `m` passes do not raise has ended after them if they are
enough for the duration. -/
theorem fixed_ends {V : Type*} [AddCommGroup V] [Module K V] (n : ℕ) (T : Tableau K)
    (f : K → List V → Except Error (List V)) (dx cfl t0 t1 : K) (u : Fin n → V)
    (hstep : 1 / 10 ^ 12 ≤ dx * cfl) (hdur : 1 / 10 ^ 12 ≤ t1 - t0) (m : ℕ)
    (hm : t1 - t0 ≤ m * (dx * cfl)) :
    let P := fvParams n T f dx cfl t0 t1
    (∀ e, (Solver.solve P (Obj.make P ⟨u, t0, t1⟩) (m + 1)).2 ≠ .raised e) →
      (Solver.solve P (Obj.make P ⟨u, t0, t1⟩) (m + 1)).2 = .finished := by
  intro P hr
  have hgen : ∀ k, dx * cfl ≤ (schedule P (Obj.make P ⟨u, t0, t1⟩)).gen.call k := fun k => le_rfl
  obtain ⟨-, h2, -⟩ := TimeStepping.C03_terminates (schedule P (Obj.make P ⟨u, t0, t1⟩)) (start P)
    (dx * cfl) hstep hgen hdur m hm
  obtain ⟨-, -, h3, -⟩ := link P (Obj.make P ⟨u, t0, t1⟩) (m + 1) hr
  change statusOf _ = some (TimeStepping.Run.after (schedule P (Obj.make P ⟨u, t0, t1⟩)) (start P)
    (m + 1)).status at h3
  rw [h2] at h3
  cases hs : (Solver.solve P (Obj.make P ⟨u, t0, t1⟩) (m + 1)).2 with
  | finished => rfl
  | running => rw [hs] at h3; simp [statusOf] at h3
  | interrupted => rw [hs] at h3; simp [statusOf] at h3
  | raised e => rw [hs] at h3; simp [statusOf] at h3

/-- A run with mesh dependent steps that does not raise is not interrupted. -/
theorem fixed_status {V : Type*} [AddCommGroup V] [Module K V] (n : ℕ) (T : Tableau K)
    (f : K → List V → Except Error (List V)) (dx cfl t0 t1 : K) (u : Fin n → V)
    (hstep : 1 / 10 ^ 12 ≤ dx * cfl) (hdur : 1 / 10 ^ 12 ≤ t1 - t0) (k : ℕ) :
    let P := fvParams n T f dx cfl t0 t1
    (∀ e, (Solver.solve P (Obj.make P ⟨u, t0, t1⟩) k).2 ≠ .raised e) →
      (Solver.solve P (Obj.make P ⟨u, t0, t1⟩) k).2 = .running ∨
      (Solver.solve P (Obj.make P ⟨u, t0, t1⟩) k).2 = .finished := by
  intro P hr
  have hgen : ∀ k, dx * cfl ≤ (schedule P (Obj.make P ⟨u, t0, t1⟩)).gen.call k := fun k => le_rfl
  have hnf : (clock P (Obj.make P ⟨u, t0, t1⟩) k).status ≠ .failed := by
    intro hf
    rcases TimeStepping.C03_failed_cause _ _ k hf with ⟨j, hj⟩ | h
    · exact absurd (hstep.trans (hgen j)) (not_le.mpr hj)
    · exact absurd hdur (not_le.mpr h)
  obtain ⟨-, -, h3, -⟩ := link P (Obj.make P ⟨u, t0, t1⟩) k hr
  cases hs : (Solver.solve P (Obj.make P ⟨u, t0, t1⟩) k).2 with
  | running => exact Or.inl rfl
  | finished => exact Or.inr rfl
  | raised e => exact absurd hs (hr e)
  | interrupted =>
    rw [hs] at h3
    simp only [statusOf, Option.some.injEq] at h3
    exact absurd h3.symm hnf

open Verif.Scalar in
/-- C95.  Whole runs of the limited (MCL) solver for scalar problems as the solver configures it, with
periodic or outflow boundaries, from initial cell values in `[m, M]`, with CFL number at most 1/2 for
advection, `m > 0` and CFL number times `M` at most 1/2 for Burgers' equation, and one of the integrators
forward Euler, Heun, SSP3.  The run never raises and is never interrupted; it ends, after at most as many
steps as the duration has time steps, less than `1e-12` before the end time; all values of the history lie
in `[m, M]`. -/
theorem C95_mcl (p : Problem) (n : ℕ) (hn : 0 < n) (per : Bool) (il ir : Option (K → K)) (bc : BC K K)
    (name : String) (hname : name = "periodic" ∨ name = "outflow")
    (hbc : build none [name] 1 il ir = .ok bc) (T : Tableau K)
    (hT : T = forwardEuler K ∨ T = heun K ∨ T = ssp3 K) (dx cfl t0 t1 : K) (hdx : 0 < dx)
    (hstep : 1 / 10 ^ 12 ≤ dx * cfl) (hdur : 1 / 10 ^ 12 ≤ t1 - t0) (m M : K)
    (ha : p = .advection → 2 * cfl ≤ 1) (hb : p = .burgers → 0 < m ∧ 2 * (cfl * M) ≤ 1)
    (u : Fin n → K) (hu : ∀ i, m ≤ u i ∧ u i ≤ M) :
    ∃ F, mclOf p n per = .ok F ∧
      let P := fvParams n T (rhs F dx bc) dx cfl t0 t1
      let run := Solver.solve P (Obj.make P ⟨u, t0, t1⟩)
      (∀ k : ℕ, t1 - t0 ≤ k * (dx * cfl) → (run (k + 1)).2 = .finished) ∧
      (∀ k, (run k).2 = .running ∨ (run k).2 = .finished) ∧
      (∀ k, (run k).2 = .finished →
        t1 - 1 / 10 ^ 12 < (run k).1.sol.sol.time ∧ (run k).1.sol.sol.time ≤ t1) ∧
      ∀ k, ∀ v ∈ (run k).1.sol.values, ∀ i, m ≤ v i ∧ v i ≤ M := by
  have hm : p = .burgers → 0 < m := fun hp => (hb hp).1
  obtain ⟨F, hF, -⟩ := C31_run_default p n hn per none il ir bc name hname hbc dx hdx m M hm []
    (by simp) T hT (Solver.init u t0) hu
  have htol : (0 : K) < 1 / 10 ^ 12 := by positivity
  refine ⟨F, hF, ?_⟩
  intro P run
  have safe : ∀ k, (∀ e, (run k).2 ≠ .raised e) ∧ ∀ i, m ≤ (run k).1.ode.solution i ∧
      (run k).1.ode.solution i ≤ M :=
    C94_safe P (Obj.make P ⟨u, t0, t1⟩) (make_sync _ _) (fun v => ∀ i, m ≤ v i ∧ v i ≤ M)
      hu rfl (fun _ _ => rfl) (by
        intro s dt h1 h2 hI
        have h2' : dt ≤ dx * cfl := h2
        obtain ⟨F', hF', s', q1, q2⟩ := C31_run_default p n hn per none il ir bc name hname hbc dx hdx
          m M hm [dt] (by
          intro d hd
          rw [List.mem_singleton.mp hd]
          refine ⟨htol.le.trans h1, fun hp => ?_, fun hp => ?_⟩
          · have := mul_le_mul_of_nonneg_left (ha hp) hdx.le
            linarith
          · have hM : 0 ≤ M := (hb hp).1.le.trans ((hu ⟨0, hn⟩).1.trans (hu ⟨0, hn⟩).2)
            have e1 := mul_le_mul_of_nonneg_right h2' hM
            have e2 := mul_le_mul_of_nonneg_left (hb hp).2 hdx.le
            linarith) T hT s hI
        rw [Except.ok.inj (hF'.symm.trans hF)] at q1
        refine ⟨s', ?_, q2⟩
        simp only [Solver.runE] at q1
        cases hx : s.executeE T (vecRhs n (rhs F dx bc)) dt with
        | error e => rw [hx] at q1; cases q1
        | ok s1 => rw [hx] at q1; exact hx.trans q1)
  refine ⟨fun k hk => fixed_ends n T _ dx cfl t0 t1 u hstep hdur k hk (safe _).1,
    fun k => fixed_status n T _ dx cfl t0 t1 u hstep hdur k (safe k).1,
    fun k hk => C94_end_time P ⟨u, t0, t1⟩ rfl k hk, fun k v hv => ?_⟩
  rcases C94_recorded P (Obj.make P ⟨u, t0, t1⟩) k (safe k).1 v hv with h | ⟨j, -, rfl⟩
  · rw [List.mem_singleton.mp h]; exact hu
  · exact (safe j).2

open Verif.Scalar in
/-- Non-vacuity: the limited solver for Burgers' equation on three cells. -/
example (bc : BC ℚ ℚ) (hbc : build none ["periodic"] 1 none none = .ok bc) :
    ∃ F, mclOf .burgers 3 true = .ok F ∧
      let P := fvParams 3 (heun ℚ) (rhs F 1 bc) 1 (1 / 8) 0 1
      (Solver.solve P (Obj.make P ⟨![1, 2, 3], 0, 1⟩) 9).2 = .finished := by
  obtain ⟨F, h1, h2, -⟩ := C95_mcl .burgers 3 (by norm_num) true none none bc "periodic" (Or.inl rfl) hbc
    (heun ℚ) (Or.inr (Or.inl rfl)) 1 (1 / 8) 0 1 (by norm_num) (by norm_num) (by norm_num) 1 3 (by simp)
    (fun _ => by norm_num) ![1, 2, 3] (by intro i; fin_cases i <;> norm_num)
  exact ⟨F, h1, h2 8 (by norm_num)⟩

end Verif.EndToEnd

namespace Verif.SWE

open Verif.Py Verif.Boundary Verif.FV Verif.ODE Verif.Solver Verif.EndToEnd

variable {K : Type*} [Field K] [LinearOrder K] [IsStrictOrderedRing K]

/-! ### Specification -/

/-- States without dry cells. -/
def wet (K : Type*) [Field K] [LinearOrder K] (n : ℕ) : Set (Fin n → State K) :=
  {u | ∀ i, 0 < (u i).1}

/-- The waves at the two nodes of each cell are slow enough for the CFL number: `cfl` times the sum of
the wave speeds is less than one. -/
def Slow (P : Params K) (bc : BC K (State K)) (n : ℕ) (cfl t : K) (u : Fin n → State K) : Prop :=
  ∀ ext, bc.extend (List.ofFn u) (some t) = .ok ext →
    ∀ i < n, cfl * (speedAt P ext i + speedAt P ext (i + 1)) < 1

/-- In a step of length at most `cfl dx` from the state of the integrator `s`, the right-hand side is
evaluated for a state with fast waves. -/
def MeetsFast (P : Params K) (bc : BC K (State K)) (n : ℕ) (T : Tableau K)
    (f : K → List (State K) → Except Error (List (State K))) (dx cfl : K)
    (s : ODE.Solver K (Fin n → State K)) : Prop :=
  ∃ dt, 0 ≤ dt ∧ dt ≤ dx * cfl ∧
    s.runChecked T (fun _ => Slow P bc n cfl) (vecRhs n f) [dt] = .error none

theorem wet_convex (n : ℕ) : Convex K (wet K n) := by
  intro u hu v hv a b ha hb hab i
  simp only [Pi.add_apply, Pi.smul_apply, Prod.fst_add, Prod.smul_fst, smul_eq_mul]
  rcases ha.eq_or_lt with rfl | ha
  · have : b = 1 := by linarith
    subst this
    simpa using hv i
  · exact add_pos_of_pos_of_nonneg (mul_pos ha (hu i)) (mul_nonneg hb (hv i).le)

/-- One forward Euler step with a flux in bar form keeps cells wet. -/
theorem wet_step (P : Params K) (hP : P.Good) (F : NumFlux (State K)) (hdim : F.dim / 2 = 1) (n : ℕ)
    (hF : HasBars P F n) (bc : BC K (State K)) (hbc : Extends bc n (fun x => 0 < x.1)) (dx cfl dt t : K)
    (hdx : 0 < dx) (hdt : 0 ≤ dt) (hdt' : dt ≤ dx * cfl) (u : Fin n → State K) (hu : u ∈ wet K n)
    (hslow : Slow P bc n cfl t u) :
    ∃ w, vecRhs n (rhs F dx bc) t u = .ok w ∧ u + dt • w ∈ wet K n := by
  have hmem : ∀ x ∈ List.ofFn u, 0 < x.1 := by
    intro x hx
    obtain ⟨i, rfl⟩ := (List.mem_ofFn' _ _).mp hx
    exact hu i
  obtain ⟨x, y, hx, hy, hext⟩ := hbc t (List.ofFn u) (by simp) hmem
  have hall : ∀ z ∈ x :: List.ofFn u ++ [y], 0 < z.1 := by
    intro z hz
    simp only [List.cons_append, List.mem_cons, List.mem_append, List.mem_singleton,
      List.not_mem_nil, or_false] at hz
    rcases hz with rfl | hz | rfl
    · exact hx
    · exact hmem z hz
    · exact hy
  have hlen : (x :: List.ofFn u ++ [y]).length = n + 2 := by simp
  have hc := hslow _ hext
  obtain ⟨gl, gr, a, b, hcall, hbar⟩ := hF _ hlen (fun z hz => (hall z hz).le) (by
    intro j hj
    left
    rw [List.getD_eq_getElem _ _ (by omega)]
    exact hall _ (List.getElem_mem _))
  have hr := rhs_of_call F hdim dx hdx.ne' bc t _ _ hext n hlen gl gr hcall
  refine ⟨_, vecRhs_range (rhs F dx bc) t u _ hr, ?_⟩
  intro i
  obtain ⟨ha, _, h1, _⟩ := hbar i (by omega)
  obtain ⟨_, hb, _, h2⟩ := hbar (i + 1) (by omega)
  have hs : ∀ j, 0 ≤ speedAt P (x :: List.ofFn u ++ [y]) j :=
    fun j => maxSpeed_nonneg P hP _ _ (getD_nonneg _ (fun z hz => (hall z hz).le) _)
  simp only [Pi.add_apply, Pi.smul_apply, Prod.fst_add, Prod.smul_fst, smul_eq_mul]
  rw [h1, h2, ext_getD, bar_step _ _ _ _ _ _ _ _ hdx.ne']
  have hw := add_nonneg (hs i) (hs (i + 1))
  have hci := hc i i.2
  set w1 := speedAt P (x :: List.ofFn u ++ [y]) i
  set w2 := speedAt P (x :: List.ofFn u ++ [y]) (i + 1)
  have c0 : 0 < 1 - dt * (w1 + w2) / dx := by
    rw [sub_pos, div_lt_one hdx]
    calc dt * (w1 + w2) ≤ dx * cfl * (w1 + w2) := mul_le_mul_of_nonneg_right hdt' hw
      _ = dx * (cfl * (w1 + w2)) := by ring
      _ < dx * 1 := mul_lt_mul_of_pos_left hci hdx
      _ = dx := mul_one _
  have e1 : 0 < (1 - dt * (w1 + w2) / dx) * (u i).1 := mul_pos c0 (hu i)
  have e2 : 0 ≤ dt * w1 / dx * a i := mul_nonneg (div_nonneg (mul_nonneg hdt (hs _)) hdx.le) ha
  have e3 : 0 ≤ dt * w2 / dx * b (i + 1) := mul_nonneg (div_nonneg (mul_nonneg hdt (hs _)) hdx.le) hb
  linarith

/-- The solvers of which C114 speaks: Lax-Friedrichs, low-order, and limited with each of the fluxes
of the solvers `llf`, `low-order`, `central`, `es` and `es1` as target. -/
def wetSchemes (P : Params K) (B : Bathymetry K) (bc : BC K (State K)) : List (NumFlux (State K)) :=
  lfFlux P B :: lowOrder P B :: (plainFluxes P B).map (mcl P B bc)

theorem wetSchemes_bars (P : Params K) (hP : P.Good) (b : Option (List K)) (n : ℕ) (hn : 0 < n)
    (hb : ∀ l, b = some l → l.length = n) (B : Bathymetry K) (hB : buildBathymetry P b = .ok B)
    (conditions : List String) (il ir : Option (K → State K)) (bc : BC K (State K))
    (hbc : build (some reflect) conditions 1 il ir = .ok bc) (F : NumFlux (State K))
    (hF : F ∈ wetSchemes P B bc) : HasBars P F n ∧ F.dim / 2 = 1 := by
  obtain ⟨ds, hds, _⟩ := steps_of_build P b n hn hb B hB
  have ht := C49_targets P hP b n hn hb B hB
  have hr := build_radius conditions il ir bc hbc
  simp only [wetSchemes, List.mem_cons, List.mem_map] at hF
  rcases hF with rfl | rfl | ⟨G, hG, rfl⟩
  · exact ⟨lf_bars P hP B n ds hds, by simp [lfFlux, withSource, laxFriedrichs]⟩
  · exact ⟨lowOrder_bars P hP B n ds hds, by simp [lowOrder]⟩
  · obtain ⟨t1, t2⟩ := ht G (by
      simp only [plainFluxes, List.mem_cons, List.not_mem_nil, or_false] at hG ⊢
      tauto)
    exact ⟨mcl_bars P hP B bc hr _ n hn t1 ds hds, by simp [mcl, t2]⟩

/-- C114.  Shallow water, Lax-Friedrichs, low-order or limited solver, any bathymetry, any combination of
boundary conditions (inflow heights positive), forward Euler, Heun or SSP3, all cells wet in the beginning.
As long as in the passes of the loop of `solve` the right-hand side is not evaluated for a state with fast
waves, nothing is raised, all cells of all entries of the history are wet, and the run comes to its end,
less than `1e-12` before the end time, when the passes are enough for the duration; between walls and with
periodic boundaries all entries of the history have the same amount of water. -/
theorem C114_run (P : Params K) (hP : P.Good) (b : Option (List K)) (n : ℕ) (hn : 0 < n)
    (hb : ∀ l, b = some l → l.length = n) (B : Bathymetry K) (hB : buildBathymetry P b = .ok B)
    (conditions : List String) (il ir : Option (K → State K))
    (hil : ∀ g, il = some g → ∀ t, 0 < (g t).1) (hir : ∀ g, ir = some g → ∀ t, 0 < (g t).1)
    (bc : BC K (State K)) (hbc : build (some reflect) conditions 1 il ir = .ok bc)
    (F : NumFlux (State K)) (hF : F ∈ wetSchemes P B bc) (T : Tableau K)
    (hT : T = forwardEuler K ∨ T = heun K ∨ T = ssp3 K) (dx cfl t0 t1 : K) (hdx : 0 < dx)
    (hstep : 1 / 10 ^ 12 ≤ dx * cfl) (hdur : 1 / 10 ^ 12 ≤ t1 - t0)
    (u : Fin n → State K) (hu : ∀ i, 0 < (u i).1) (k : ℕ) :
    let Q := fvParams n T (rhs F dx bc) dx cfl t0 t1
    let run := Solver.solve Q (Obj.make Q ⟨u, t0, t1⟩)
    (∀ j < k, ¬ MeetsFast P bc n T (rhs F dx bc) dx cfl (run j).1.ode) →
    ((run k).2 = .running ∨ (run k).2 = .finished) ∧
    (t1 - t0 ≤ ((k - 1 : ℕ) : K) * (dx * cfl) → 0 < k → (run k).2 = .finished) ∧
    ((run k).2 = .finished →
      t1 - 1 / 10 ^ 12 < (run k).1.sol.sol.time ∧ (run k).1.sol.sol.time ≤ t1) ∧
    (∀ v ∈ (run k).1.sol.values, ∀ i, 0 < (v i).1) ∧
    (conditions = ["periodic"] ∨ conditions = ["wall"] → ∀ v ∈ (run k).1.sol.values,
      totalHeight (List.ofFn v) = totalHeight (List.ofFn u)) := by
  intro Q run hslow
  obtain ⟨hbars, hdim⟩ := wetSchemes_bars P hP b n hn hb B hB conditions il ir bc hbc F hF
  have hext := build_extends conditions il ir bc hbc n hn (fun x => 0 < x.1) (fun x hx => hx) hil hir
  have htol : (0 : K) < 1 / 10 ^ 12 := by positivity
  have safe : ∀ m ≤ k, (∀ e, (run m).2 ≠ .raised e) ∧ ∀ i, 0 < ((run m).1.ode.solution i).1 := by
    intro m hm
    refine safe_visited Q (Obj.make Q ⟨u, t0, t1⟩) (make_sync _ _) (fun v => ∀ i, 0 < (v i).1) hu rfl
      (fun _ _ => rfl) m ?_
    intro j hj dt h1 h2 hI
    have h2' : dt ≤ dx * cfl := h2
    have h0 := htol.le.trans h1
    rcases runChecked_spec T hT (fun _ => Slow P bc n cfl) (vecRhs n (rhs F dx bc)) (wet K n)
      (wet_convex n) [dt] (by
        intro d hd t v hv ha
        rw [List.mem_singleton.mp hd]
        exact wet_step P hP F hdim n hbars bc hext dx cfl dt t hdx h0 h2' v hv ha) (run j).1.ode hI with
      h | ⟨s', -, q1, q2⟩
    · exact absurd ⟨dt, h0, h2', h⟩ (hslow j (by omega))
    · refine ⟨s', ?_, q2⟩
      simp only [Solver.runE] at q1
      change (run j).1.ode.executeE T (vecRhs n (rhs F dx bc)) dt = _
      cases hx : (run j).1.ode.executeE T (vecRhs n (rhs F dx bc)) dt with
      | error e => rw [hx] at q1; cases q1
      | ok s1 => rw [hx] at q1; exact q1
  refine ⟨fixed_status n T _ dx cfl t0 t1 u hstep hdur k (safe k le_rfl).1, ?_,
    fun hk => C94_end_time Q ⟨u, t0, t1⟩ rfl k hk, ?_, ?_⟩
  · intro hk hk0
    obtain ⟨m, rfl⟩ : ∃ m, k = m + 1 := ⟨k - 1, by omega⟩
    exact fixed_ends n T _ dx cfl t0 t1 u hstep hdur m hk (safe _ le_rfl).1
  · intro v hv
    rcases C94_recorded Q (Obj.make Q ⟨u, t0, t1⟩) k (safe k le_rfl).1 v hv with h | ⟨j, hj, rfl⟩
    · rw [List.mem_singleton.mp h]; exact hu
    · exact (safe j hj).2
  · intro hcond v hv
    obtain ⟨steps, -, r2, -, r4⟩ := recorded Q ⟨u, t0, t1⟩ k (safe k le_rfl).1
    obtain ⟨i, hi, rfl⟩ := List.getElem_of_mem hv
    obtain ⟨s, q1, q2, -⟩ := r4 i (by
      have : (run k).1.sol.values.length = steps.length + 1 := r2
      omega)
    have e : (run k).1.sol.values[i] = s.solution := by
      have : (run k).1.sol.values[i]? = some s.solution := q2
      rw [List.getElem?_eq_getElem hi] at this
      exact Option.some.inj this
    rw [e]
    simp only [wetSchemes, List.mem_cons, List.mem_map] at hF
    rcases hcond with rfl | rfl
    · refine C48_water P hP b B hB n hn il ir bc hbc dx F ?_ T (Solver.init u t0) s (steps.take i) q1
      rcases hF with rfl | rfl | ⟨G, hG, rfl⟩
      · simp [twoPointSchemes]
      · simp [limitedSchemes]
      · exact Or.inr (List.mem_cons_of_mem _ (List.mem_map_of_mem hG))
    · refine C23_water_between_walls P hP b B hB n hn il ir bc hbc dx F ?_ T (Solver.init u t0) s
        (steps.take i) q1
      rcases hF with rfl | rfl | ⟨G, hG, rfl⟩
      · simp [wallSchemes, plainFluxes]
      · simp [wallSchemes, plainFluxes]
      · exact List.mem_append_right _ (List.mem_map_of_mem hG)

/-- C114.  Exceptions have a cause: if such a run raises, then in the step before, whose beginning is the
last entry of the history, the right-hand side was evaluated for a state with fast waves. -/
theorem C114_cause (P : Params K) (hP : P.Good) (b : Option (List K)) (n : ℕ) (hn : 0 < n)
    (hb : ∀ l, b = some l → l.length = n) (B : Bathymetry K) (hB : buildBathymetry P b = .ok B)
    (conditions : List String) (il ir : Option (K → State K))
    (hil : ∀ g, il = some g → ∀ t, 0 < (g t).1) (hir : ∀ g, ir = some g → ∀ t, 0 < (g t).1)
    (bc : BC K (State K)) (hbc : build (some reflect) conditions 1 il ir = .ok bc)
    (F : NumFlux (State K)) (hF : F ∈ wetSchemes P B bc) (T : Tableau K)
    (hT : T = forwardEuler K ∨ T = heun K ∨ T = ssp3 K) (dx cfl t0 t1 : K) (hdx : 0 < dx)
    (hstep : 1 / 10 ^ 12 ≤ dx * cfl) (hdur : 1 / 10 ^ 12 ≤ t1 - t0)
    (u : Fin n → State K) (hu : ∀ i, 0 < (u i).1) (k : ℕ) (e : Exn) :
    let Q := fvParams n T (rhs F dx bc) dx cfl t0 t1
    let run := Solver.solve Q (Obj.make Q ⟨u, t0, t1⟩)
    (run k).2 = .raised e → ∃ j < k, (run j).2 = .running ∧
      (∀ v ∈ (run j).1.sol.values, ∀ i, 0 < (v i).1) ∧
      MeetsFast P bc n T (rhs F dx bc) dx cfl
        (ODE.Solver.init (run j).1.sol.sol.value (run j).1.sol.sol.time) := by
  intro Q run hk
  have hex : ∃ j, j < k ∧ MeetsFast P bc n T (rhs F dx bc) dx cfl (run j).1.ode := by
    by_contra hno
    push Not at hno
    obtain ⟨h, -⟩ := C114_run P hP b n hn hb B hB conditions il ir hil hir bc hbc F hF T hT dx cfl t0 t1
      hdx hstep hdur u hu k hno
    change (run k).2 = _ ∨ (run k).2 = _ at h
    rw [hk] at h
    rcases h with h | h <;> cases h
  classical
  obtain ⟨h1, h2⟩ := Nat.find_spec hex
  have hmin : ∀ i < Nat.find hex, ¬ MeetsFast P bc n T (rhs F dx bc) dx cfl (run i).1.ode := by
    intro i hi hm
    exact Nat.find_min hex hi ⟨by omega, hm⟩
  set j := Nat.find hex
  obtain ⟨g1, -, -, g4, -⟩ := C114_run P hP b n hn hb B hB conditions il ir hil hir bc hbc F hF T hT dx cfl
    t0 t1 hdx hstep hdur u hu j hmin
  have hnr : ∀ e, (run j).2 ≠ .raised e := by
    intro e he
    change (run j).2 = _ ∨ (run j).2 = _ at g1
    rw [he] at g1
    rcases g1 with h | h <;> cases h
  obtain ⟨hc, -⟩ := link Q (Obj.make Q ⟨u, t0, t1⟩) j hnr
  obtain ⟨y1, y2⟩ := course_sync hc (make_sync _ _)
  refine ⟨j, h1, ?_, g4, ?_⟩
  · rcases g1 with h | h
    · exact h
    · exfalso
      have stay : ∀ m, (run (j + m)).2 = .finished := by
        intro m
        induction m with
        | zero => exact h
        | succ m ih =>
          change (pass Q (run (j + m))).2 = _
          unfold pass
          rw [ih]
          exact ih
      have := stay (k - j)
      rw [show j + (k - j) = k by omega, hk] at this
      cases this
  · obtain ⟨dt, d1, d2, d3⟩ := h2
    refine ⟨dt, d1, d2, ?_⟩
    change (ODE.Solver.init (run j).1.sol.sol.value (run j).1.sol.sol.time).runChecked T _ _ [dt] = _
    have y1' : (run j).1.sol.sol.time = (run j).1.ode.time := y1
    have y2' : (run j).1.sol.sol.value = (run j).1.ode.solution := y2
    rw [y1', y2', ← d3]
    simp only [Solver.runChecked, Solver.executeE, Solver.init]

/-- With forward Euler a state with fast waves is met only in the beginning of a step. -/
theorem meetsFast_euler (P : Params K) (bc : BC K (State K)) (n : ℕ)
    (f : K → List (State K) → Except Error (List (State K))) (dx cfl : K)
    (s : ODE.Solver K (Fin n → State K)) (h : MeetsFast P bc n (forwardEuler K) f dx cfl s) :
    ¬ Slow P bc n cfl s.time s.solution := by
  obtain ⟨dt, -, -, h⟩ := h
  intro hs
  rcases checked_execute (forwardEuler K) (Slow P bc n cfl) (vecRhs n f) dt s with g | ⟨g, -⟩
  · simp only [Solver.executeE, forwardEuler, stagesE] at g
    have e : checked (Slow P bc n cfl) (vecRhs n f) (timeNode (forwardEuler K) s.time dt 0)
        (stageValue (forwardEuler K) dt s.solution [] 0) = (vecRhs n f s.time s.solution).mapError some := by
      have e1 : timeNode (forwardEuler K) s.time dt 0 = s.time := by
        simp [timeNode, forwardEuler]
      have e2 : stageValue (forwardEuler K) dt s.solution [] 0 = s.solution := by
        simp [stageValue]
      rw [e1, e2]
      exact if_pos hs
    simp only [forwardEuler] at e
    rw [e] at g
    cases hf : vecRhs n f s.time s.solution with
    | error e' => rw [hf] at g; simp [Except.mapError] at g
    | ok w => rw [hf] at g; simp [Except.mapError] at g
  · simp only [Solver.runChecked, g] at h
    cases hx : s.executeE (forwardEuler K) (vecRhs n f) dt with
    | error e' => rw [hx] at h; simp [Except.mapError] at h
    | ok w => rw [hx] at h; simp [Except.mapError] at h

/-- C114 for forward Euler: if a run from wet cells raises, then at some time before the solution had
a cell at which the CFL number times the sum of the two wave speeds was at least one. -/
theorem C114_euler (P : Params K) (hP : P.Good) (b : Option (List K)) (n : ℕ) (hn : 0 < n)
    (hb : ∀ l, b = some l → l.length = n) (B : Bathymetry K) (hB : buildBathymetry P b = .ok B)
    (conditions : List String) (il ir : Option (K → State K))
    (hil : ∀ g, il = some g → ∀ t, 0 < (g t).1) (hir : ∀ g, ir = some g → ∀ t, 0 < (g t).1)
    (bc : BC K (State K)) (hbc : build (some reflect) conditions 1 il ir = .ok bc)
    (F : NumFlux (State K)) (hF : F ∈ wetSchemes P B bc) (dx cfl t0 t1 : K) (hdx : 0 < dx)
    (hstep : 1 / 10 ^ 12 ≤ dx * cfl) (hdur : 1 / 10 ^ 12 ≤ t1 - t0)
    (u : Fin n → State K) (hu : ∀ i, 0 < (u i).1) (k : ℕ) (e : Exn) :
    let Q := fvParams n (forwardEuler K) (rhs F dx bc) dx cfl t0 t1
    let run := Solver.solve Q (Obj.make Q ⟨u, t0, t1⟩)
    (run k).2 = .raised e → ∃ j < k, ∃ ext,
      bc.extend (List.ofFn (run j).1.sol.sol.value) (some (run j).1.sol.sol.time) = .ok ext ∧
      ∃ i < n, 1 ≤ cfl * (speedAt P ext i + speedAt P ext (i + 1)) := by
  intro Q run hk
  obtain ⟨j, hj, -, -, hm⟩ := C114_cause P hP b n hn hb B hB conditions il ir hil hir bc hbc F hF
    (forwardEuler K) (Or.inl rfl) dx cfl t0 t1 hdx hstep hdur u hu k e hk
  have := meetsFast_euler P bc n _ dx cfl _ hm
  unfold Slow at this
  push Not at this
  exact ⟨j, hj, this⟩

/-! ### Examples -/

/-- Three wet cells between a wall and an open end. -/
def exampleWet : Fin 3 → State ℚ := ![(4, 1), (1, 0), (1, -1)]

/-- A step of the bottom. -/
def exampleStep : Bathymetry ℚ := ⟨some [0, 0, 1, 1, 1]⟩

theorem exampleStep_build : buildBathymetry exampleParams (some [0, 1, 1]) = .ok exampleStep := by
  norm_num [buildBathymetry, isConstant, exampleParams, exampleStep]

/-- The low-order solver over a step of the bottom with forward Euler. -/
def exampleSolver (cfl : ℚ) : Solver.Params ℚ (Fin 3 → State ℚ) :=
  fvParams 3 (forwardEuler ℚ) (rhs (lowOrder exampleParams exampleStep) 1 exampleBC) 1 cfl 0 (1 / 20)

theorem slow_of (cfl t : ℚ) (u : Fin 3 → State ℚ)
    (h : okAnd (exampleBC.extend (List.ofFn u) (some t)) (fun ext =>
      (List.range 3).all fun i =>
        decide (cfl * (speedAt exampleParams ext i + speedAt exampleParams ext (i + 1)) < 1)) = true) : Slow exampleParams exampleBC 3 cfl t u := by
  intro ext hext
  rw [hext] at h
  simp only [okAnd, List.all_eq_true, List.mem_range, decide_eq_true_eq] at h
  exact h

/-- A run of two steps without fast waves: the hypotheses of `C114_run` hold, so the run has ended after
three passes with wet cells. -/
example :
    let run := Solver.solve (exampleSolver (1 / 40)) (Obj.make (exampleSolver (1 / 40)) ⟨exampleWet, 0, 1 / 20⟩)
    (run 3).2 = .finished ∧ ∀ v ∈ (run 3).1.sol.values, ∀ i, 0 < (v i).1 := by
  have hbc : build (some reflect) ["wall", "outflow"] 1 none none = .ok exampleBC := by
    simp [build, buildLeft, buildRight, exampleBC, BC.make, pure, Except.pure, bind, Except.bind]
  have key := C114_run exampleParams exampleParams_good (some [0, 1, 1]) 3 (by norm_num)
    (by rintro l ⟨⟩; rfl) exampleStep exampleStep_build ["wall", "outflow"] none none (by simp) (by simp)
    exampleBC hbc (lowOrder exampleParams exampleStep) (by simp [wetSchemes]) (forwardEuler ℚ) (Or.inl rfl) 1
    (1 / 40) 0 (1 / 20) (by norm_num) (by norm_num) (by norm_num) exampleWet
    (by intro i; fin_cases i <;> norm_num [exampleWet]) 3 (by
      intro j hj hm
      refine meetsFast_euler _ _ _ _ _ _ _ hm (slow_of _ _ _ ?_)
      interval_cases j <;> decide +kernel)
  exact ⟨key.2.1 (by norm_num) (by norm_num), key.2.2.2.1⟩

/-- With too large a CFL number a run from wet cells raises. -/
example :
    (Solver.solve { exampleSolver 4 with endTime := 20 }
      (Obj.make (exampleSolver 4) ⟨exampleWet, 0, 20⟩) 3).2 = .raised (.rhs .valueError) := by
  decide +kernel

end Verif.SWE
