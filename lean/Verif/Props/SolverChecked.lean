import Verif.Props.Solver
import Verif.Core.SSP

/-!
C94 for solvers with a CFL checker: when `solve` neither raises nor prints a warning, and when it comes
to its end.
-/

set_option linter.unusedSectionVars false

namespace Verif.ODE

variable {K : Type*} [Field K] [LinearOrder K] [IsStrictOrderedRing K]
variable {E : Type*} [AddCommGroup E] [Module K E] {ε : Type*}

theorem stageValue_append (T : Tableau K) (dt : K) (u : E) (ks : List E) (k : E) (i : ℕ)
    (hi : i ≤ ks.length) : stageValue T dt u (ks ++ [k]) i = stageValue T dt u ks i := by
  unfold stageValue
  congr 3
  apply List.map_congr_left
  intro j hj
  have : j < ks.length := lt_of_lt_of_le (List.mem_range.mp hj) hi
  rw [List.getD_append _ _ _ _ this]

theorem stages_in (T : Tableau K) (f : K → E → Except ε E) (S : Set E)
    (hf : ∀ t u w, f t u = .ok w → u ∈ S) (t dt : K) (u : E) (n : ℕ) (ks : List E)
    (h : stagesE T f t dt u n = .ok ks) :
    ks.length = n ∧ ∀ i < n, stageValue T dt u ks i ∈ S := by
  induction n generalizing ks with
  | zero => cases h; exact ⟨rfl, fun i hi => by omega⟩
  | succ n ih =>
    simp only [stagesE] at h
    cases h1 : stagesE T f t dt u n with
    | error e => rw [h1] at h; cases h
    | ok ks' =>
      rw [h1] at h
      simp only at h
      obtain ⟨i1, i2⟩ := ih ks' h1
      cases h2 : f (timeNode T t dt n) (stageValue T dt u ks' n) with
      | error e => rw [h2] at h; cases h
      | ok k =>
        rw [h2] at h
        cases h
        refine ⟨by simp [i1], fun i hi => ?_⟩
        rw [stageValue_append _ _ _ _ _ _ (by omega)]
        by_cases hin : i = n
        · subst hin; exact hf _ _ _ h2
        · exact i2 i (by omega)

/-- Monadic strong stability, one step: the stages lie in the set as well. -/
theorem sspE_stages (f : K → E → Except ε E) (dt : K) (S : Set E) (hS : Convex K S)
    (hE : ∀ t, ∀ u ∈ S, ∃ w, f t u = .ok w ∧ u + dt • w ∈ S) (s : Solver K E) (hs : s.solution ∈ S)
    (T : Tableau K) (hT : T = forwardEuler K ∨ T = heun K ∨ T = ssp3 K) :
    ∃ s', s.executeE T f dt = .ok s' ∧ s'.solution ∈ S ∧ (∀ v ∈ s'.stageValues, v ∈ S) ∧
      s'.timeNodes.length = s'.stageValues.length := by
  have hstep := sspE_step (checked (fun _ u => u ∈ S) f) dt S hS (by
    intro t u hu
    obtain ⟨w, h1, h2⟩ := hE t u hu
    exact ⟨w, by simp only [checked, if_pos hu, h1, Except.mapError], h2⟩) s hs
  have : ∃ s', s.executeE T (checked (fun _ u => u ∈ S) f) dt = .ok s' ∧ s'.solution ∈ S := by
    rcases hT with rfl | rfl | rfl
    · exact hstep.1
    · exact hstep.2.1
    · exact hstep.2.2
  obtain ⟨s', h1, h2⟩ := this
  have hx : s.executeE T f dt = .ok s' := by
    rcases checked_execute T (fun _ u => u ∈ S) f dt s with h | ⟨h, -⟩
    · rw [h1] at h; cases h
    · rw [h1] at h
      cases hh : s.executeE T f dt with
      | error e => rw [hh] at h; cases h
      | ok s2 => rw [hh] at h; cases h; rfl
  refine ⟨s', hx, h2, ?_⟩
  unfold Solver.executeE at h1
  cases hk : stagesE T (checked (fun _ u => u ∈ S) f) s.time dt s.solution T.size with
  | error e => rw [hk] at h1; cases h1
  | ok ks =>
    rw [hk] at h1
    cases h1
    refine ⟨?_, by simp⟩
    intro v hv
    obtain ⟨i, hi, rfl⟩ := List.mem_map.mp hv
    refine (stages_in T _ S ?_ _ _ _ _ _ hk).2 i (List.mem_range.mp hi)
    intro t u w hw
    by_contra hn
    simp only [checked, if_neg hn] at hw
    cases hw

end Verif.ODE

namespace Verif.Solver

open Verif.TimeStepping Verif.Solution

variable {K : Type*} [Field K] [LinearOrder K] [IsStrictOrderedRing K]
variable {V : Type*} [AddCommGroup V] [Module K V]

theorem next_yield_rest (c : Config K) (s s' : State K) (dt : K) (h : next c s = (s', .yield dt)) :
    dt ≤ c.endTime - s.time := by
  unfold next at h
  split at h
  · simp at h
  · simp only at h
    split at h
    · simp at h
    · split at h
      · simp only [Prod.mk.injEq, Outcome.yield.injEq] at h
        rw [← h.2]; exact min_le_right _ _
      · simp only [Prod.mk.injEq, Outcome.yield.injEq] at h
        rw [← h.2]; exact min_le_right _ _

/-- The CFL checker accepts a step that is admissible for each stage. -/
theorem cflCheck_ok (opt : K → V → K) (dt : K) (ts : List K) (us : List V)
    (hlen : us.length ≤ ts.length) (h : ∀ t, ∀ u ∈ us, dt ≤ opt t u) : cflCheck opt dt ts us = .ok () := by
  induction us generalizing ts with
  | nil => cases ts <;> rfl
  | cons u us ih =>
    cases ts with
    | nil => simp at hlen
    | cons t ts =>
      simp only [cflCheck]
      rw [if_neg (not_lt.mpr (h t u List.mem_cons_self))]
      exact ih ts (by simpa using hlen) (fun t v hv => h t v (List.mem_cons_of_mem _ hv))

/-- C94.  No exception and no warning: if a set of finite states is kept by steps that are not longer
than the CFL number times the optimal step and the duration of the benchmark, and such steps do not
raise and are accepted by the CFL checker, then `solve` never raises, stays in the set and prints no
warning. -/
theorem C94_safe_checked (p : Params K V) (o : Obj K V) (hs : Sync o) (I : V → Prop)
    (h0 : I o.ode.solution) (hfin : ∀ v, I v → p.finite v = true)
    (hstep : ∀ (s : ODE.Solver K V) (dt : K), 1 / 10 ^ 12 ≤ dt →
      dt ≤ (if p.adaptive then p.optimal s.time s.solution else o.first) * p.cfl →
      dt ≤ p.endTime - p.startTime → I s.solution →
      ∃ s', s.executeE p.tab p.rhs dt = .ok s' ∧ I s'.solution ∧
        ∀ opt, p.checker = some opt → cflCheck opt dt s'.timeNodes s'.stageValues = .ok ()) (n : ℕ) :
    (∀ e, (solve p o n).2 ≠ .raised e) ∧ I (solve p o n).1.ode.solution ∧
      (solve p o n).1.warnings = o.warnings := by
  induction n with
  | zero => exact ⟨fun e h => (by cases h), h0, rfl⟩
  | succ n ih =>
    obtain ⟨hr, hI, hw⟩ := ih
    obtain ⟨hc, hts, -⟩ := link p o n hr
    have hsy := course_sync hc hs
    have hf := hc.first
    have htime : p.startTime ≤ (solve p o n).1.ts.time := by
      rw [hts.time]
      exact (inv_after (schedule p o) (start p) n).le_time _ List.mem_cons_self
    have hp : solve p o (n + 1) = pass p (solve p o n) := rfl
    rw [hp]
    generalize solve p o n = l at hr hI hw hc hsy hf htime
    unfold pass
    cases hl : l.2 with
    | finished => exact ⟨fun e h => (by simp only at h; rw [hl] at h; cases h), hI, hw⟩
    | interrupted => exact ⟨fun e h => (by simp only at h; rw [hl] at h; cases h), hI, hw⟩
    | raised e => exact absurd hl (hr e)
    | running =>
      simp only
      rcases hx : next (l.1.config p) l.1.ts with ⟨ts, a⟩
      cases a with
      | stopIteration => exact ⟨fun e h => (by cases h), hI, hw⟩
      | tooSmall => exact ⟨fun e h => (by cases h), hI, hw⟩
      | yield dt =>
        have h1 := next_yield_pos _ _ _ _ hx
        have h2 := next_yield_le _ _ _ _ hx
        have h3 : dt ≤ p.endTime - l.1.ts.time := next_yield_rest _ _ _ _ hx
        have e2 : (l.1.config p).gen.call l.1.ts.calls =
            (if p.adaptive then p.optimal l.1.ode.time l.1.ode.solution else o.first) * p.cfl := by
          unfold Generator.call Obj.config
          rw [← hsy.1, ← hsy.2, ← hf]
          simp
        rw [e2] at h2
        obtain ⟨s', q1, q2, q3⟩ := hstep l.1.ode dt h1 h2 (by linarith) hI
        have hu : ∃ x, Obj.update p { l.1 with ts := ts } dt = (x, none) ∧ x.ode = s' ∧
            x.warnings = l.1.warnings := by
          unfold Obj.update Obj.check Obj.updateSolution Hist.update Sol.update
          cases hck : p.checker with
          | none =>
            simp only [q1, hfin _ q2, if_true]
            exact ⟨_, rfl, rfl, rfl⟩
          | some opt =>
            simp only [q1, q3 opt hck, hfin _ q2, if_true]
            exact ⟨_, rfl, rfl, rfl⟩
        obtain ⟨x, hx1, hx2, hx3⟩ := hu
        simp only [hx1]
        exact ⟨fun e h => (by cases h), by rw [hx2]; exact q2, by rw [hx3, hw]⟩

/-- C94.  If the optimal steps of the states of the run stay above a positive bound, and neither the
right-hand side nor the solution raises, `solve` is never interrupted and comes to its end. -/
theorem C94_terminates_visited (p : Params K V) (o : Obj K V) (δ : K) (hδ : 1 / 10 ^ 12 ≤ δ)
    (hopt : p.adaptive = true → ∀ m,
      δ ≤ p.optimal (solve p o m).1.sol.sol.time (solve p o m).1.sol.sol.value * p.cfl)
    (hfirst : p.adaptive = false → δ ≤ o.first * p.cfl)
    (hdur : 1 / 10 ^ 12 ≤ p.endTime - p.startTime)
    (hr : ∀ m e, (solve p o m).2 ≠ .raised e) :
    (∀ n : ℕ, p.endTime - p.startTime ≤ n * δ → (solve p o (n + 1)).2 = .finished) ∧
    ∀ n, (solve p o n).2 = .running ∨ (solve p o n).2 = .finished := by
  have hgen : ∀ k, δ ≤ (schedule p o).gen.call k := by
    intro k
    unfold Generator.call schedule
    cases hp : p.adaptive with
    | true => simpa using hopt hp _
    | false => simpa using hfirst hp
  constructor
  · intro n hn
    obtain ⟨-, h2, -⟩ := C03_terminates (schedule p o) (start p) δ hδ hgen hdur n hn
    obtain ⟨-, -, h3, -⟩ := link p o (n + 1) (hr (n + 1))
    change statusOf _ = some (Run.after (schedule p o) (start p) (n + 1)).status at h3
    rw [h2] at h3
    cases hs : (solve p o (n + 1)).2 with
    | finished => rfl
    | running => rw [hs] at h3; simp [statusOf] at h3
    | interrupted => rw [hs] at h3; simp [statusOf] at h3
    | raised e => rw [hs] at h3; simp [statusOf] at h3
  · intro n
    obtain ⟨-, -, h3, -⟩ := link p o n (hr n)
    have hnf : (clock p o n).status ≠ .failed := by
      intro hf
      rcases TimeStepping.C03_failed_cause _ _ n hf with ⟨j, hj⟩ | h
      · exact absurd (hδ.trans (hgen j)) (not_le.mpr hj)
      · exact absurd hdur (not_le.mpr h)
    cases hs : (solve p o n).2 with
    | running => exact Or.inl rfl
    | finished => exact Or.inr rfl
    | raised e => exact absurd hs (hr n e)
    | interrupted =>
      rw [hs] at h3
      simp only [statusOf, Option.some.injEq] at h3
      exact absurd h3.symm hnf

/-- C94.  The history of a run that does not raise consists of the history before the run and the
states of the integrator after the passes of the loop so far. -/
theorem C94_recorded (p : Params K V) (o : Obj K V) (k : ℕ)
    (hr : ∀ e, (solve p o k).2 ≠ .raised e) (v : V) (hv : v ∈ (solve p o k).1.sol.values) :
    v ∈ o.sol.values ∨ ∃ j ≤ k, v = (solve p o j).1.ode.solution := by
  obtain ⟨h1, -⟩ := link p o k hr
  obtain ⟨tl, vl, t1, t2, t3, t4, t5⟩ := h1.hist
  rw [t2, List.mem_append] at hv
  rcases hv with hv | hv
  · exact Or.inl hv
  · right
    obtain ⟨j, hj, rfl⟩ := List.getElem_of_mem hv
    obtain ⟨s, q1, -, q3, -⟩ := t5 j (by omega)
    obtain ⟨m1, m2, m3⟩ := clock_mono p o k (j + 1) (by omega)
    obtain ⟨l1, -⟩ := link p o (j + 1) (not_raised_mono p o k (j + 1) m2 hr)
    rw [← m1, l1.ode] at q1
    refine ⟨j + 1, m2, ?_⟩
    rw [List.getElem?_eq_getElem hj, Option.some.injEq] at q3
    rw [q3, Except.ok.inj q1]

/-- A solver whose steps are checked against the optimal step and accepted: no warning is printed. -/
example (n : ℕ) :
    (solve { decay with checker := some fun _ _ => 1 }
      (Obj.make { decay with checker := some fun _ _ => 1 } ⟨1, 0, 1⟩) n).1.warnings = [] := by
  refine (C94_safe_checked _ _ (make_sync _ _) (fun _ => True) trivial (fun _ _ => rfl) ?_ n).2.2
  intro s dt _ _ h3 _
  obtain ⟨s', h⟩ : ∃ s', s.executeE decay.tab decay.rhs dt = .ok s' := by
    simp only [ODE.Solver.executeE, decay, ODE.forwardEuler, ODE.stagesE]
    exact ⟨_, rfl⟩
  refine ⟨s', h, trivial, ?_⟩
  intro opt hopt
  cases hopt
  apply cflCheck_ok
  · unfold ODE.Solver.executeE at h
    cases hk : ODE.stagesE decay.tab decay.rhs s.time dt s.solution decay.tab.size with
    | error e => rw [hk] at h; cases h
    | ok ks => rw [hk] at h; cases h; simp
  · intro _ _ _
    simpa [decay] using h3

end Verif.Solver
