import Verif.Core.SolverLemmas
import Verif.Props.TimeStepping

/-!
Properties of whole solvers: C93 (a solver can be used again after `reinitialize`) and C94 (what
`solve` does).
-/

set_option linter.unusedSectionVars false

namespace Verif.Solver

open Verif.TimeStepping Verif.Solution

variable {K : Type*} [Field K] [LinearOrder K] [IsStrictOrderedRing K]
variable {V : Type*} [AddCommGroup V] [Module K V]

/-! ### C93 -/

theorem reinitialize_ok (p : Params K V) (o : Obj K V) (b : Bench K V)
    (hfin : p.finite b.initial = true) :
    o.reinitialize p b = ({ o with
      sol := ⟨⟨b.startTime, b.initial⟩,
        o.sol.times.filter (fun s => decide (s < b.startTime)) ++ [b.startTime],
        selectPast o.sol.times o.sol.values b.startTime ++ [b.initial]⟩
      ode := { o.ode with time := b.startTime, solution := b.initial }
      shared := false }, none) := by
  unfold Obj.reinitialize Hist.setValue Hist.update Sol.update
  simp [hfin]

/-- C93.  A solver in any state (also after a failed run), reinitialised with finite initial data,
continues exactly as a newly constructed solver: same status after each step, same solution with the
same history, same state of the integrator, same further warnings.  Assumed are that all recorded
times are at or after the start time of the benchmark, and that the time step is adaptive or would be
the one the solver already uses. -/
theorem C93_reinitialize (p : Params K V) (o : Obj K V) (b : Bench K V)
    (hfin : p.finite b.initial = true) (htimes : ∀ t ∈ o.sol.times, b.startTime ≤ t)
    (hstep : p.adaptive = true ∨ o.first = p.optimal b.startTime b.initial) :
    ∃ o', o.reinitialize p b = (o', none) ∧ ∀ n,
      (solve p o' n).2 = (solve p (Obj.make p b) n).2 ∧
      (solve p o' n).1.sol = (solve p (Obj.make p b) n).1.sol ∧
      (solve p o' n).1.ode.time = (solve p (Obj.make p b) n).1.ode.time ∧
      (solve p o' n).1.ode.solution = (solve p (Obj.make p b) n).1.ode.solution ∧
      (solve p o' n).1.warnings = o.warnings ++ (solve p (Obj.make p b) n).1.warnings := by
  refine ⟨_, reinitialize_ok p o b hfin, fun n => ?_⟩
  have hpast : o.sol.times.filter (fun s => decide (s < b.startTime)) = [] := by
    rw [List.filter_eq_nil_iff]
    intro t ht
    simpa using htimes t ht
  have hsel : selectPast o.sol.times o.sol.values b.startTime = [] := by
    unfold selectPast
    rw [List.map_eq_nil_iff, List.filter_eq_nil_iff]
    rintro ⟨t, v⟩ ht
    simpa using htimes t (List.of_mem_zip ht).1
  obtain ⟨h, hs⟩ := solve_sim p o.warnings
    { o with
      sol := ⟨⟨b.startTime, b.initial⟩,
        o.sol.times.filter (fun s => decide (s < b.startTime)) ++ [b.startTime],
        selectPast o.sol.times o.sol.values b.startTime ++ [b.initial]⟩
      ode := { o.ode with time := b.startTime, solution := b.initial }
      shared := false } (Obj.make p b)
    (by simp [hpast, hsel, Obj.make, Hist.init]) rfl rfl
    (fun hp => by
      rcases hstep with h | h
      · rw [hp] at h; cases h
      · exact h)
    rfl (by simp [Obj.make]) n
  exact ⟨hs, h.sol, h.time, h.solution, h.warnings⟩

/-- Solver objects that a program can have obtained from benchmarks with start time `t0`: constructed,
then any number of (possibly aborted) calls of `solve` and `reinitialize`. -/
inductive Reachable (p : Params K V) (t0 : K) : Obj K V → Prop
  | make (b : Bench K V) (hb : b.startTime = t0) : Reachable p t0 (Obj.make p b)
  | solve (o : Obj K V) (n : ℕ) (h : Reachable p t0 o) : Reachable p t0 (solve p o n).1
  | reinitialize (o : Obj K V) (b : Bench K V) (hb : b.startTime = t0) (h : Reachable p t0 o) :
      Reachable p t0 (o.reinitialize p b).1

/-- Invariant: nothing before the start time. -/
structure After (t0 : K) (o : Obj K V) : Prop where
  time : t0 ≤ o.sol.sol.time
  times : ∀ t ∈ o.sol.times, t0 ≤ t

theorem update_after (p : Params K V) (t0 : K) (o : Obj K V) (h : After t0 o) (dt : K) (hdt : 0 ≤ dt) :
    After t0 (o.update p dt).1 ∧ (o.update p dt).1.first = o.first := by
  unfold Obj.update
  cases he : o.ode.executeE p.tab p.rhs dt with
  | error e => exact ⟨h, rfl⟩
  | ok s =>
    simp only
    rcases hc : Obj.check p { o with ode := s } dt with ⟨x, ex⟩
    obtain ⟨c1, c2, c3, c4, c5⟩ := check_fields p _ _ _ _ hc
    have hx : After t0 x := ⟨by rw [c1]; exact h.time, by rw [c1]; exact h.times⟩
    cases ex with
    | some e => exact ⟨hx, c3⟩
    | none =>
      simp only
      unfold Obj.updateSolution
      rcases hu : x.sol.update p.finite dt x.ode.solution with ⟨y, ey⟩
      cases ey with
      | none =>
        obtain ⟨_, hy⟩ := hist_update_ok _ _ _ _ _ hu
        refine ⟨⟨?_, ?_⟩, c3⟩
        · simp only [hy]; linarith [hx.time]
        · simp only [hy]
          intro t ht
          rcases List.mem_append.mp ht with h1 | h1
          · exact hx.times t h1
          · rw [List.mem_singleton.mp h1]; linarith [hx.time]
      | some e =>
        obtain ⟨_, hy, _⟩ := hist_update_error _ _ _ _ _ _ hu
        subst hy
        cases hsh : x.shared with
        | true => exact ⟨⟨by simpa using hx.time, by simpa using hx.times⟩, by simpa using c3⟩
        | false => exact ⟨⟨by simpa using hx.time, by simpa using hx.times⟩, by simpa using c3⟩

theorem next_yield_pos (c : Config K) (s s' : State K) (dt : K) (h : next c s = (s', .yield dt)) :
    tol K ≤ dt := by
  unfold next at h
  split at h
  · simp at h
  · simp only at h
    split at h
    · simp at h
    · rename_i hlt
      split at h
      · simp only [Prod.mk.injEq, Outcome.yield.injEq] at h
        rw [← h.2]; exact not_lt.mp hlt
      · simp only [Prod.mk.injEq, Outcome.yield.injEq] at h
        rw [← h.2]; exact not_lt.mp hlt

theorem solve_after (p : Params K V) (t0 : K) (o : Obj K V) (h : After t0 o) (n : ℕ) :
    After t0 (solve p o n).1 ∧ (solve p o n).1.first = o.first := by
  induction n with
  | zero => exact ⟨⟨h.time, h.times⟩, rfl⟩
  | succ n ih =>
    change After t0 (pass p (solve p o n)).1 ∧ (pass p (solve p o n)).1.first = o.first
    unfold pass
    cases hs : (solve p o n).2 with
    | finished => exact ih
    | interrupted => exact ih
    | raised e => exact ih
    | running =>
      simp only
      rcases hn : next ((solve p o n).1.config p) (solve p o n).1.ts with ⟨ts, a⟩
      cases a with
      | stopIteration => exact ⟨⟨ih.1.time, ih.1.times⟩, ih.2⟩
      | tooSmall => exact ⟨⟨ih.1.time, ih.1.times⟩, ih.2⟩
      | yield dt =>
        have hdt : 0 ≤ dt := le_trans tol_pos.le (next_yield_pos _ _ _ _ hn)
        obtain ⟨q1, q2⟩ := update_after p t0 { (solve p o n).1 with ts := ts }
          ⟨ih.1.time, ih.1.times⟩ dt hdt
        rcases hu : Obj.update p { (solve p o n).1 with ts := ts } dt with ⟨x, ex⟩
        rw [hu] at q1 q2
        cases ex with
        | none => simp only [hu]; exact ⟨q1, q2.trans ih.2⟩
        | some e => simp only [hu]; exact ⟨q1, q2.trans ih.2⟩

theorem reinitialize_after (p : Params K V) (o : Obj K V) (b : Bench K V)
    (h : After b.startTime o) :
    After b.startTime (o.reinitialize p b).1 ∧ (o.reinitialize p b).1.first = o.first := by
  cases hf : p.finite b.initial with
  | true =>
    rw [reinitialize_ok p o b hf]
    refine ⟨⟨le_rfl, ?_⟩, rfl⟩
    intro t ht
    rcases List.mem_append.mp ht with h1 | h1
    · exact h.times t (List.mem_filter.mp h1).1
    · rw [List.mem_singleton.mp h1]
  | false =>
    have e : (o.reinitialize p b).1 = { o with
        sol := { sol := o.sol.sol
                 times := o.sol.times.filter (fun s => decide (s < b.startTime))
                 values := selectPast o.sol.times o.sol.values b.startTime } } := by
      unfold Obj.reinitialize Hist.setValue Hist.update Sol.update
      simp [hf]
    rw [e]
    exact ⟨⟨h.time, fun t ht => h.times t (List.mem_filter.mp ht).1⟩, rfl⟩

theorem reachable_after (p : Params K V) (t0 : K) (o : Obj K V) (h : Reachable p t0 o) :
    After t0 o ∧ ((∀ t u t' u', p.optimal t u = p.optimal t' u') → ∀ t u, o.first = p.optimal t u) := by
  induction h with
  | make b hb =>
    refine ⟨⟨hb.symm.le, ?_⟩, fun hc t u => hc _ _ t u⟩
    intro t ht
    simp only [Obj.make, Hist.init, List.mem_singleton] at ht
    rw [ht, hb]
  | solve o n _ ih =>
    obtain ⟨h1, h2⟩ := solve_after p t0 o ih.1 n
    exact ⟨h1, fun hc t u => h2.trans (ih.2 hc t u)⟩
  | reinitialize o b hb _ ih =>
    subst hb
    obtain ⟨h1, h2⟩ := reinitialize_after p o b ih.1
    exact ⟨h1, fun hc t u => h2.trans (ih.2 hc t u)⟩

/-- C93.  One solver used for a series of benchmarks with the same start time (data generation, error
series): whatever was done with it before, also if a run or a reinitialisation failed, each benchmark
is solved as by a new solver, provided the time step is adaptive or does not depend on the solution
(as for all finite volume solvers). -/
theorem C93_series (p : Params K V) (t0 : K) (o : Obj K V) (h : Reachable p t0 o) (b : Bench K V)
    (hb : b.startTime = t0) (hfin : p.finite b.initial = true)
    (hstep : p.adaptive = true ∨ ∀ t u t' u', p.optimal t u = p.optimal t' u') (n : ℕ) :
    (solve p (o.reinitialize p b).1 n).2 = (solve p (Obj.make p b) n).2 ∧
    (solve p (o.reinitialize p b).1 n).1.sol = (solve p (Obj.make p b) n).1.sol := by
  subst hb
  obtain ⟨h1, h2⟩ := reachable_after p _ o h
  obtain ⟨o', e, ho⟩ := C93_reinitialize p o b hfin h1.times (by
    rcases hstep with h | h
    · exact Or.inl h
    · exact Or.inr (h2 h _ _))
  rw [e]
  exact ⟨(ho n).1, (ho n).2.1⟩

/-- C93.  In general the history keeps what was recorded before the new start time; the end time of the
benchmark is ignored. -/
theorem C93_history (p : Params K V) (o : Obj K V) (b : Bench K V) (hfin : p.finite b.initial = true) :
    (o.reinitialize p b).1.sol.times =
      o.sol.times.filter (fun s => decide (s < b.startTime)) ++ [b.startTime] ∧
    (o.reinitialize p b).1.sol.sol = ⟨b.startTime, b.initial⟩ ∧
    (o.reinitialize p b).1.ode.time = b.startTime ∧ (o.reinitialize p b).1.ode.solution = b.initial ∧
    ∀ endTime, o.reinitialize p { b with endTime := endTime } = o.reinitialize p b := by
  refine ⟨?_, ?_, ?_, ?_, fun _ => rfl⟩ <;> rw [reinitialize_ok p o b hfin]

/-! An example: `u' = -u` with Euler's method and mesh dependent steps of length 1/2. -/

/-- The example. -/
def decay : Params ℚ ℚ where
  tab := ODE.forwardEuler ℚ
  rhs := fun _ u => .ok (-u)
  finite := fun _ => true
  optimal := fun _ _ => 1
  cfl := 1 / 2
  adaptive := false
  startTime := 0
  endTime := 1
  checker := some fun _ u => 1 / u

/-- After a run from 1 the solver is used for the initial value 16. -/
example :
    let o := (solve decay (Obj.make decay ⟨1, 0, 1⟩) 3).1
    let o' := (o.reinitialize decay ⟨16, 0, 1⟩).1
    o.sol.times = [0, 1 / 2, 1] ∧ o.sol.values = [1, 1 / 2, 1 / 4] ∧ o.warnings = [] ∧
    (solve decay o' 3).2 = .finished ∧ (solve decay o' 3).1.sol.times = [0, 1 / 2, 1] ∧
    (solve decay o' 3).1.sol.values = [16, 8, 4] ∧ (solve decay o' 3).1.warnings = [1 / 2, 1] := by
  decide +kernel

example (n : ℕ) (b : Bench ℚ ℚ) (hb : b.startTime = 0) :
    (solve decay ((solve decay (Obj.make decay ⟨1, 0, 1⟩) 3).1.reinitialize decay b).1 n).1.sol =
      (solve decay (Obj.make decay b) n).1.sol :=
  (C93_series decay 0 _ (.solve _ 3 (.make _ rfl)) b hb rfl (Or.inr fun _ _ _ _ => rfl) n).2

/-- A time step that is computed once from the initial data (finite element solvers without
`++adaptive`). -/
def onceComputed : Params ℚ ℚ :=
  { decay with optimal := fun _ u => 1 / u, cfl := 1, checker := none }

/-- C93, the assumption on the step is needed: without adaptive steps the step length of the first
initial data is kept, and the run differs from that of a new solver. -/
theorem C93_step_counterexample :
    let o' := ((solve onceComputed (Obj.make onceComputed ⟨1, 0, 1⟩) 2).1.reinitialize onceComputed
      ⟨2, 0, 1⟩).1
    (solve onceComputed o' 3).2 = .finished ∧
    (solve onceComputed o' 3).1.sol.times = [0, 1] ∧
    (solve onceComputed (Obj.make onceComputed ⟨2, 0, 1⟩) 3).2 = .finished ∧
    (solve onceComputed (Obj.make onceComputed ⟨2, 0, 1⟩) 3).1.sol.times = [0, 1 / 2, 1] := by
  decide +kernel

/-- C93, the assumption on the recorded times is needed: a benchmark that starts later keeps the old
beginning of the history. -/
theorem C93_start_counterexample :
    let o' := ((solve decay (Obj.make decay ⟨1, 0, 1⟩) 3).1.reinitialize decay ⟨16, 3 / 4, 1⟩).1
    o'.sol.times = [0, 1 / 2, 3 / 4] ∧ o'.sol.values = [1, 1 / 2, 16] := by
  decide +kernel

/-! ### C94 -/

/-- Solution and integrator agree (as after construction, reinitialisation, or a run that did not
raise). -/
def Sync (o : Obj K V) : Prop := o.sol.sol.time = o.ode.time ∧ o.sol.sol.value = o.ode.solution

theorem make_sync (p : Params K V) (b : Bench K V) : Sync (Obj.make p b) := ⟨rfl, rfl⟩

theorem reinitialize_sync (p : Params K V) (o : Obj K V) (b : Bench K V)
    (hfin : p.finite b.initial = true) : Sync (o.reinitialize p b).1 := by
  rw [reinitialize_ok p o b hfin]; exact ⟨rfl, rfl⟩

theorem course_sync {p : Params K V} {o o' : Obj K V} {steps : List K} (h : Course p o o' steps)
    (hs : Sync o) : Sync o' := by
  refine ⟨?_, ?_⟩
  · rw [h.time, hs.1, runE_time _ _ _ _ _ h.ode]
  · by_cases hn : steps = []
    · subst hn
      have h1 := h.ode
      simp only [ODE.Solver.runE, Except.ok.injEq] at h1
      rw [h.fresh rfl, hs.2, h1]
    · exact h.value hn

/-- While the run goes on, the state after `k` passes is the one after the first `k` steps. -/
theorem clock_mono (p : Params K V) (o : Obj K V) (n k : ℕ) (hk : k ≤ (clock p o n).steps.length) :
    (clock p o k).steps = (clock p o n).steps.take k ∧ k ≤ n ∧
      (k < (clock p o n).steps.length → (clock p o k).status = .running) := by
  induction n with
  | zero =>
    have h0 : (clock p o 0).steps = [] := rfl
    rw [h0] at hk ⊢
    simp only [List.length_nil, Nat.le_zero] at hk
    subst hk
    exact ⟨rfl, le_rfl, fun h => by simp at h⟩
  | succ n ih =>
    have hstep : (clock p o (n + 1)).steps = (clock p o n).steps ∨
        ((clock p o n).status = .running ∧
          ∃ dt, (clock p o (n + 1)).steps = (clock p o n).steps ++ [dt]) := by
      change ((clock p o n).step (schedule p o)).steps = _ ∨ _ ∧
        ∃ dt, ((clock p o n).step (schedule p o)).steps = _
      unfold Run.step
      cases hc : (clock p o n).status with
      | finished => left; rfl
      | failed => left; rfl
      | running =>
        simp only
        rcases next (schedule p o) (clock p o n).st with ⟨ts, a⟩
        cases a with
        | stopIteration => left; rfl
        | tooSmall => left; rfl
        | yield dt => right; exact ⟨by simp, dt, by simp [Run.steps]⟩
    rcases hstep with h | ⟨hrun, dt, h⟩
    · rw [h] at hk ⊢
      obtain ⟨h1, h2, h3⟩ := ih hk
      exact ⟨h1, by omega, h3⟩
    · have hlen : (clock p o n).steps.length = n := by
        have hi := inv_after (schedule p o) (start p) n
        have key : ∀ m, (clock p o m).status = .running → (clock p o m).steps.length = m := by
          intro m
          induction m with
          | zero => intro _; rfl
          | succ m ihm =>
            intro hm
            change ((clock p o m).step (schedule p o)).status = _ at hm
            change ((clock p o m).step (schedule p o)).steps.length = _
            unfold Run.step at hm ⊢
            cases hc : (clock p o m).status with
            | finished => rw [hc] at hm; simp only at hm; rw [hc] at hm; cases hm
            | failed => rw [hc] at hm; simp only at hm; rw [hc] at hm; cases hm
            | running =>
              have := ihm hc
              rw [hc] at hm
              simp only at hm ⊢
              rcases hx : next (schedule p o) (clock p o m).st with ⟨ts, a⟩
              rw [hx] at hm
              cases a with
              | stopIteration => cases hm
              | tooSmall => cases hm
              | yield dt =>
                simp only [Run.steps, List.map_append, List.length_append, List.map_cons,
                  List.map_nil, List.length_singleton, List.length_map] at this ⊢
                omega
        exact key n hrun
      rw [h, List.length_append, List.length_singleton] at hk
      rcases Nat.lt_or_ge n k with hlt | hge
      · have : k = n + 1 := by omega
        subst this
        refine ⟨by rw [h, List.take_of_length_le (by simp [hlen])], le_rfl, fun hh => ?_⟩
        rw [h] at hh; simp at hh; omega
      · obtain ⟨h1, h2, h3⟩ := ih (by omega)
        refine ⟨by rw [h, List.take_append_of_le_length (by omega)]; exact h1, by omega, fun hh => ?_⟩
        rcases Nat.lt_or_ge k n with h4 | h4
        · exact h3 (by omega)
        · have : k = n := by omega
          subst this
          exact hrun

theorem not_raised_mono (p : Params K V) (o : Obj K V) (n k : ℕ) (hk : k ≤ n)
    (hr : ∀ e, (solve p o n).2 ≠ .raised e) : ∀ e, (solve p o k).2 ≠ .raised e := by
  induction n with
  | zero => have : k = 0 := by omega
            subst this; exact hr
  | succ n ih =>
    rcases Nat.lt_or_ge n k with h | h
    · have : k = n + 1 := by omega
      subst this; exact hr
    · apply ih h
      intro e he
      apply hr e
      change (pass p (solve p o n)).2 = _
      unfold pass
      rw [he]; exact he

/-- C94.  What `solve` has done after any number of loop passes, if nothing was raised.  There is a
list of time steps such that: each step is the smaller one of the CFL number times the optimal step
(for adaptive solvers of the current state, otherwise of the state at construction) and the time left,
and is at least `1e-12`; the solution and the integrator hold the result of the Runge-Kutta steps; the
histories have one more entry for each step, with the times and values of the integrator after it, all
of them finite.  After a normal end the steps sum up to the duration of the benchmark, up to less than
`1e-12`. -/
theorem C94_solve (p : Params K V) (o : Obj K V) (hs : Sync o) (n : ℕ)
    (hr : ∀ e, (solve p o n).2 ≠ .raised e) :
    ∃ steps : List K,
      o.ode.runE p.tab p.rhs steps = .ok (solve p o n).1.ode ∧
      Sync (solve p o n).1 ∧
      (solve p o n).1.sol.sol.time = o.sol.sol.time + steps.sum ∧
      (∀ (k : ℕ) (hk : k < steps.length), ∃ s, o.ode.runE p.tab p.rhs (steps.take k) = .ok s ∧
        steps[k] = min ((if p.adaptive then p.optimal s.time s.solution else o.first) * p.cfl)
          (p.endTime - (p.startTime + (steps.take k).sum)) ∧ 1 / 10 ^ 12 ≤ steps[k]) ∧
      (∃ tl vl, (solve p o n).1.sol.times = o.sol.times ++ tl ∧
        (solve p o n).1.sol.values = o.sol.values ++ vl ∧
        tl.length = steps.length ∧ vl.length = steps.length ∧
        ∀ k < steps.length, ∃ s, o.ode.runE p.tab p.rhs (steps.take (k + 1)) = .ok s ∧
          tl[k]? = some s.time ∧ vl[k]? = some s.solution ∧ p.finite s.solution = true) ∧
      (steps ≠ [] → steps.sum ≤ p.endTime - p.startTime) ∧
      ((solve p o n).2 = .finished → p.endTime - p.startTime - 1 / 10 ^ 12 < steps.sum ∧ steps ≠ []) ∧
      ((solve p o n).2 = .running → steps.length = n) := by
  obtain ⟨h1, h2, h3, h4⟩ := link p o n hr
  refine ⟨(clock p o n).steps, h1.ode, course_sync h1 hs, h1.time, ?_, ?_, ?_, ?_, fun h => (h4 h).2⟩
  · intro k hk
    obtain ⟨m1, m2, m3⟩ := clock_mono p o n k hk.le
    obtain ⟨l1, l2, l3, l4⟩ := link p o k (not_raised_mono p o n k m2 hr)
    refine ⟨(solve p o k).1.ode, by rw [← m1]; exact l1.ode, ?_, ?_⟩
    · have hx := C01_steps_exact (schedule p o) (start p) n k hk
      have hsy := course_sync l1 hs
      have e : (if (schedule p o).gen.adaptive then (schedule p o).gen.raw ((start p).calls + k)
          else (schedule p o).gen.raw 0) =
          (if p.adaptive then p.optimal (solve p o k).1.ode.time (solve p o k).1.ode.solution
            else o.first) := by
        unfold schedule start
        cases hp : p.adaptive with
        | true => simp [hsy.1, hsy.2]
        | false => simp
      rw [e] at hx
      exact hx
    · exact (C01_times_increase_to_end (schedule p o) (start p) n).2.2.1 _ (List.getElem_mem hk)
  · obtain ⟨tl, vl, t1, t2, t3, t4, t5⟩ := h1.hist
    refine ⟨tl, vl, t1, t2, t3, t4, fun k hk => ?_⟩
    obtain ⟨s, q1, q2, q3, q4⟩ := t5 k hk
    refine ⟨s, q1, ?_, q3, q4⟩
    rw [q2, runE_time _ _ _ _ _ q1, hs.1]
  · intro hn
    have := (C02_steps_sum (schedule p o) (start p) n).1 hn
    change p.startTime + (clock p o n).steps.sum ≤ p.endTime at this
    linarith
  · intro hf
    have hst : (clock p o n).status = .finished := by rw [hf] at h3; simpa [statusOf] using h3.symm
    have hi := (C02_steps_sum (schedule p o) (start p) n).2 hst
    change p.endTime - 1 / 10 ^ 12 < p.startTime + (clock p o n).steps.sum at hi
    refine ⟨by linarith, ?_⟩
    intro hnil
    have hinv := inv_after (schedule p o) (start p) n
    have hstop := hinv.fin hst
    have key : ∀ m, (clock p o m).st.stop = true → (clock p o m).steps ≠ [] := by
      intro m
      induction m with
      | zero => intro h; cases h
      | succ m ihm =>
        intro hm
        change ((clock p o m).step (schedule p o)).st.stop = _ at hm
        change ((clock p o m).step (schedule p o)).steps ≠ _
        unfold Run.step at hm ⊢
        cases hc : (clock p o m).status with
        | finished => rw [hc] at hm; exact ihm hm
        | failed => rw [hc] at hm; exact ihm hm
        | running =>
          rw [hc] at hm
          simp only at hm ⊢
          rcases hx : next (schedule p o) (clock p o m).st with ⟨ts, a⟩
          rw [hx] at hm
          cases a with
          | stopIteration =>
            apply ihm
            unfold next at hx
            split at hx
            · assumption
            · simp only at hx
              split at hx
              · simp at hx
              · split at hx <;> simp at hx
          | tooSmall =>
            unfold next at hx
            split at hx
            · simp at hx
            · rename_i hns
              simp only at hx
              split at hx
              · simp only [Prod.mk.injEq, and_true] at hx
                rw [← hx] at hm
                exact absurd hm hns
              · split at hx <;> simp at hx
          | yield dt => simp [Run.steps]
    exact key n hstop hnil

/-- C94.  A constructed solver that runs through ends within `1e-12` before the end time. -/
theorem C94_end_time (p : Params K V) (b : Bench K V) (hb : b.startTime = p.startTime) (n : ℕ)
    (hf : (solve p (Obj.make p b) n).2 = .finished) :
    p.endTime - 1 / 10 ^ 12 < (solve p (Obj.make p b) n).1.sol.sol.time ∧
      (solve p (Obj.make p b) n).1.sol.sol.time ≤ p.endTime := by
  obtain ⟨steps, -, -, h3, -, -, h6, h7, -⟩ := C94_solve p (Obj.make p b) (make_sync p b) n
    (fun e he => by rw [hf] at he; cases he)
  obtain ⟨h8, h9⟩ := h7 hf
  have h10 := h6 h9
  have e : (Obj.make p b).sol.sol.time = p.startTime := hb
  rw [h3, e]
  constructor <;> linarith

/-- Several calls of `solve` in a row, with the given numbers of loop passes. -/
def solves (p : Params K V) (o : Obj K V) : List ℕ → Obj K V
  | [] => o
  | n :: ns => solves p (solve p o n).1 ns

/-- All of them end normally. -/
def AllFinished (p : Params K V) : Obj K V → List ℕ → Prop
  | _, [] => True
  | o, n :: ns => (solve p o n).2 = .finished ∧ AllFinished p (solve p o n).1 ns

/-- C94.  Calling `solve` again does not notice that the end is reached: each call adds the whole
duration of the benchmark, up to less than `1e-12`. -/
theorem C94_again (p : Params K V) (o : Obj K V) (hs : Sync o) (ns : List ℕ)
    (h : AllFinished p o ns) :
    o.sol.sol.time + ns.length * (p.endTime - p.startTime - 1 / 10 ^ 12) ≤
      (solves p o ns).sol.sol.time ∧
    (solves p o ns).sol.sol.time ≤ o.sol.sol.time + ns.length * (p.endTime - p.startTime) := by
  induction ns generalizing o with
  | nil => simp [solves]
  | cons n ns ih =>
    obtain ⟨hf, hr⟩ := h
    obtain ⟨steps, -, h2, h3, -, -, h6, h7, -⟩ := C94_solve p o hs n
      (fun e he => by rw [hf] at he; cases he)
    obtain ⟨h8, h9⟩ := h7 hf
    have h10 := h6 h9
    obtain ⟨i1, i2⟩ := ih _ h2 hr
    simp only [solves, List.length_cons, Nat.cast_add, Nat.cast_one]
    rw [h3] at i1 i2
    constructor <;> linarith

/-- C94.  If the optimal steps stay above a positive bound, and neither the right-hand side nor the
solution raises, `solve` comes to its end. -/
theorem C94_terminates (p : Params K V) (o : Obj K V) (δ : K) (hδ : 1 / 10 ^ 12 ≤ δ)
    (hopt : ∀ t u, δ ≤ p.optimal t u * p.cfl) (hfirst : δ ≤ o.first * p.cfl)
    (hdur : 1 / 10 ^ 12 ≤ p.endTime - p.startTime) (n : ℕ) (hn : p.endTime - p.startTime ≤ n * δ)
    (hr : ∀ m e, (solve p o m).2 ≠ .raised e) : (solve p o (n + 1)).2 = .finished := by
  have hgen : ∀ k, δ ≤ (schedule p o).gen.call k := by
    intro k
    unfold Generator.call schedule
    cases hp : p.adaptive with
    | true => simpa using hopt _ _
    | false => simpa using hfirst
  obtain ⟨-, h2, -⟩ := C03_terminates (schedule p o) (start p) δ hδ hgen hdur n hn
  obtain ⟨-, -, h3, -⟩ := link p o (n + 1) (hr (n + 1))
  change statusOf _ = some (Run.after (schedule p o) (start p) (n + 1)).status at h3
  rw [h2] at h3
  cases hs : (solve p o (n + 1)).2 with
  | finished => rfl
  | running => rw [hs] at h3; simp [statusOf] at h3
  | interrupted => rw [hs] at h3; simp [statusOf] at h3
  | raised e => rw [hs] at h3; simp [statusOf] at h3

theorem check_error (p : Params K V) (o o' : Obj K V) (dt : K) (e : Exn)
    (h : Obj.check p o dt = (o', some e)) : ∃ e', e = .rhs e' := by
  unfold Obj.check at h
  split at h
  · simp at h
  · split at h
    · simp at h
    · simp at h
    · simp only [Prod.mk.injEq, Option.some.injEq] at h
      exact ⟨_, h.2.symm⟩

theorem update_raised (p : Params K V) (o o' : Obj K V) (dt : K) (e : Exn)
    (h : o.update p dt = (o', some e)) :
    o'.sol.times = o.sol.times ∧ o'.sol.values = o.sol.values ∧ o'.sol.sol.time = o.sol.sol.time ∧
    (∀ e', e = .rhs e' → o'.sol = o.sol) ∧
    (∀ e', e = .solution e' → p.finite o'.ode.solution = false ∧
      (o.shared = true → o'.sol.sol.value = o'.ode.solution) ∧
      (o.shared = false → o'.sol = o.sol)) := by
  unfold Obj.update at h
  cases hE : o.ode.executeE p.tab p.rhs dt with
  | error e1 =>
    rw [hE] at h
    simp only [Prod.mk.injEq, Option.some.injEq] at h
    obtain ⟨rfl, rfl⟩ := h
    exact ⟨rfl, rfl, rfl, fun _ _ => rfl, fun e' h => by cases h⟩
  | ok s =>
    rw [hE] at h
    simp only at h
    rcases hc : Obj.check p { o with ode := s } dt with ⟨x, ex⟩
    rw [hc] at h
    obtain ⟨c1, c2, c3, c4, c5⟩ := check_fields p _ _ _ _ hc
    simp only at c1 c5
    cases ex with
    | some e1 =>
      simp only [Prod.mk.injEq, Option.some.injEq] at h
      obtain ⟨rfl, rfl⟩ := h
      obtain ⟨e2, h2⟩ := check_error p _ _ _ _ hc
      refine ⟨by rw [c1], by rw [c1], by rw [c1], fun _ _ => c1, fun e' h => ?_⟩
      rw [h2] at h; cases h
    | none =>
      simp only at h
      unfold Obj.updateSolution at h
      rcases hu : x.sol.update p.finite dt x.ode.solution with ⟨y, ey⟩
      rw [hu] at h
      cases ey with
      | none => simp at h
      | some e1 =>
        obtain ⟨q1, q2, q3⟩ := hist_update_error _ _ _ _ _ _ hu
        simp only [Prod.mk.injEq, Option.some.injEq] at h
        obtain ⟨rfl, rfl⟩ := h
        subst q2
        cases hsh : x.shared with
        | true =>
          refine ⟨by simp [c1], by simp [c1], by simp [c1], fun e' h => (by cases h),
            fun e' _ => ⟨q1, fun _ => by simp, fun h => ?_⟩⟩
          rw [← c5, hsh] at h; cases h
        | false =>
          refine ⟨by simp [c1], by simp [c1], by simp [c1], fun e' h => (by cases h),
            fun e' _ => ⟨q1, fun h => ?_, fun _ => by simp [c1]⟩⟩
          rw [← c5, hsh] at h; cases h

/-- C94.  An exception: everything recorded before the failing step stays; the time is that of the last
good step.  (The current value is the last good one if the right-hand side raised.  If the new value is
not finite, then the solution shows this value after the first step of a run, since it shares the array
of the integrator.) -/
theorem C94_raised (p : Params K V) (o : Obj K V) (n : ℕ) (e : Exn)
    (hn : (solve p o n).2 = .running) (he : (solve p o (n + 1)).2 = .raised e) :
    (solve p o (n + 1)).1.sol.times = (solve p o n).1.sol.times ∧
    (solve p o (n + 1)).1.sol.values = (solve p o n).1.sol.values ∧
    (solve p o (n + 1)).1.sol.sol.time = (solve p o n).1.sol.sol.time ∧
    (∀ e', e = .rhs e' → (solve p o (n + 1)).1.sol = (solve p o n).1.sol) ∧
    (∀ e', e = .solution e' → p.finite (solve p o (n + 1)).1.ode.solution = false ∧
      ((solve p o n).1.shared = true →
        (solve p o (n + 1)).1.sol.sol.value = (solve p o (n + 1)).1.ode.solution) ∧
      ((solve p o n).1.shared = false → (solve p o (n + 1)).1.sol = (solve p o n).1.sol)) := by
  have hp : solve p o (n + 1) = pass p (solve p o n) := rfl
  rw [hp] at he ⊢
  generalize solve p o n = l at hn he ⊢
  have key : ∃ ts dt, Obj.update p { l.1 with ts := ts } dt = ((pass p l).1, some e) := by
    unfold pass at he ⊢
    rw [hn] at he ⊢
    simp only at he ⊢
    rcases hx : next (l.1.config p) l.1.ts with ⟨ts, a⟩
    rw [hx] at he
    cases a with
    | stopIteration => cases he
    | tooSmall => cases he
    | yield dt =>
      simp only at he ⊢
      refine ⟨ts, dt, ?_⟩
      rcases hu : Obj.update p { l.1 with ts := ts } dt with ⟨x, ex⟩
      rw [hu] at he
      cases ex with
      | none => cases he
      | some e1 =>
        simp only [Status.raised.injEq] at he
        subst he
        rfl
  obtain ⟨ts, dt, h⟩ := key
  exact update_raised p { l.1 with ts := ts } _ dt e h

theorem next_yield_le (c : Config K) (s s' : State K) (dt : K) (h : next c s = (s', .yield dt)) :
    dt ≤ c.gen.call s.calls := by
  unfold next at h
  split at h
  · simp at h
  · simp only at h
    split at h
    · simp at h
    · split at h
      · simp only [Prod.mk.injEq, Outcome.yield.injEq] at h
        rw [← h.2]; exact min_le_left _ _
      · simp only [Prod.mk.injEq, Outcome.yield.injEq] at h
        rw [← h.2]; exact min_le_left _ _

/-- C94.  No exception: if a set of finite states is kept by steps that are not longer than the CFL
number times the optimal step, and such steps do not raise, then `solve` never raises and stays in the
set. -/
theorem C94_safe (p : Params K V) (o : Obj K V) (hs : Sync o) (I : V → Prop) (h0 : I o.ode.solution)
    (hcheck : p.checker = none) (hfin : ∀ v, I v → p.finite v = true)
    (hstep : ∀ (s : ODE.Solver K V) (dt : K), 1 / 10 ^ 12 ≤ dt →
      dt ≤ (if p.adaptive then p.optimal s.time s.solution else o.first) * p.cfl → I s.solution →
      ∃ s', s.executeE p.tab p.rhs dt = .ok s' ∧ I s'.solution) (n : ℕ) :
    (∀ e, (solve p o n).2 ≠ .raised e) ∧ I (solve p o n).1.ode.solution := by
  induction n with
  | zero => exact ⟨fun e h => (by cases h), h0⟩
  | succ n ih =>
    obtain ⟨hr, hI⟩ := ih
    obtain ⟨hc, -⟩ := link p o n hr
    have hsy := course_sync hc hs
    have hf := hc.first
    have hp : solve p o (n + 1) = pass p (solve p o n) := rfl
    rw [hp]
    generalize solve p o n = l at hr hI hc hsy hf
    unfold pass
    cases hl : l.2 with
    | finished => exact ⟨fun e h => (by simp only at h; rw [hl] at h; cases h), hI⟩
    | interrupted => exact ⟨fun e h => (by simp only at h; rw [hl] at h; cases h), hI⟩
    | raised e => exact absurd hl (hr e)
    | running =>
      simp only
      rcases hx : next (l.1.config p) l.1.ts with ⟨ts, a⟩
      cases a with
      | stopIteration => exact ⟨fun e h => (by cases h), hI⟩
      | tooSmall => exact ⟨fun e h => (by cases h), hI⟩
      | yield dt =>
        have h1 := next_yield_pos _ _ _ _ hx
        have h2 := next_yield_le _ _ _ _ hx
        have e2 : (l.1.config p).gen.call l.1.ts.calls =
            (if p.adaptive then p.optimal l.1.ode.time l.1.ode.solution else o.first) * p.cfl := by
          unfold Generator.call Obj.config
          rw [← hsy.1, ← hsy.2, ← hf]
          simp
        rw [e2] at h2
        obtain ⟨s', q1, q2⟩ := hstep l.1.ode dt h1 h2 hI
        have hu : ∃ x, Obj.update p { l.1 with ts := ts } dt = (x, none) ∧ x.ode = s' := by
          unfold Obj.update Obj.check Obj.updateSolution Hist.update Sol.update
          simp only [q1, hcheck, hfin _ q2, if_true]
          exact ⟨_, rfl, rfl⟩
        obtain ⟨x, hx1, hx2⟩ := hu
        simp only [hx1]
        exact ⟨fun e h => (by cases h), by rw [hx2]; exact q2⟩

/-! Examples and limits -/

example (n : ℕ) (hn : 2 ≤ n) : (solve decay (Obj.make decay ⟨1, 0, 1⟩) (n + 1)).2 = .finished := by
  refine C94_terminates decay _ (1 / 2) (by norm_num) (fun _ _ => by norm_num [decay])
    (by norm_num [decay, Obj.make]) (by norm_num [decay]) n ?_ ?_
  · have : (2 : ℚ) ≤ n := by exact_mod_cast hn
    simp only [decay]; linarith
  · have key : ∀ (o : Obj ℚ ℚ) (dt : ℚ), ∃ o', o.update decay dt = (o', none) := by
      intro o dt
      unfold Obj.update Obj.check Obj.updateSolution Hist.update Sol.update
      simp only [ODE.Solver.executeE, decay, ODE.forwardEuler, ODE.stagesE, cflCheck]
      simp only [List.range_one, List.map_cons, List.map_nil, cflCheck]
      split_ifs <;> exact ⟨_, rfl⟩
    intro m
    induction m with
    | zero => intro e h; cases h
    | succ m ih =>
      intro e h
      change (pass decay (solve decay (Obj.make decay ⟨1, 0, 1⟩) m)).2 = _ at h
      generalize solve decay (Obj.make decay ⟨1, 0, 1⟩) m = l at h ih
      unfold pass at h
      cases hl : l.2 with
      | raised e => exact ih e hl
      | finished => rw [hl] at h; simp only at h; rw [hl] at h; cases h
      | interrupted => rw [hl] at h; simp only at h; rw [hl] at h; cases h
      | running =>
        rw [hl] at h
        simp only at h
        rcases hx : next (l.1.config decay) l.1.ts with ⟨ts, a⟩
        rw [hx] at h
        cases a with
        | stopIteration => cases h
        | tooSmall => cases h
        | yield dt =>
          obtain ⟨o', ho⟩ := key { l.1 with ts := ts } dt
          simp only [ho] at h
          cases h

/-- Two calls: the second one starts over at the end time 1 and ends at 2. -/
example :
    let o := solves decay (Obj.make decay ⟨1, 0, 1⟩) [3, 3]
    o.sol.times = [0, 1 / 2, 1, 3 / 2, 2] ∧ o.sol.values = [1, 1 / 2, 1 / 4, 1 / 8, 1 / 16] := by
  decide +kernel

example : AllFinished decay (Obj.make decay ⟨1, 0, 1⟩) [3, 3] := by
  refine ⟨by decide +kernel, by decide +kernel, trivial⟩

/-- C94, the end time need not be hit exactly: a rest of less than `1e-12` is left out, and the time of
the solution then differs from the end time. -/
theorem C94_end_counterexample :
    let p : Params ℚ ℚ := { decay with cfl := 1, endTime := 1 + 1 / 10 ^ 13, checker := none }
    (solve p (Obj.make p ⟨1, 0, p.endTime⟩) 2).2 = .finished ∧
    (solve p (Obj.make p ⟨1, 0, p.endTime⟩) 2).1.ts.time = p.endTime ∧
    (solve p (Obj.make p ⟨1, 0, p.endTime⟩) 2).1.sol.sol.time = 1 := by
  decide +kernel

/-- A value that is not finite in the second step: the history ends before it, but the current value is
the bad one. -/
example :
    let p : Params ℚ ℚ := { decay with finite := fun u => decide (u ≠ 1 / 4), checker := none }
    let l := solve p (Obj.make p ⟨1, 0, 1⟩) 2
    l.2 = .raised (.solution .notFinite) ∧ l.1.sol.times = [0, 1 / 2] ∧
      l.1.sol.values = [1, 1 / 2] ∧ l.1.sol.sol.time = 1 / 2 ∧ l.1.sol.sol.value = 1 / 4 := by
  decide +kernel

end Verif.Solver
