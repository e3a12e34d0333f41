import Verif.Core.Solver

/-! Helper lemmas: a solver run is a run of the time stepping together with a run of the integrator. -/

set_option linter.unusedSectionVars false

namespace Verif.Solver

open Verif.TimeStepping Verif.Solution

variable {K : Type*} [Field K] [LinearOrder K] [IsStrictOrderedRing K]
variable {V : Type*} [AddCommGroup V] [Module K V]

theorem runE_snoc {ε : Type*} (T : ODE.Tableau K) (f : K → V → Except ε V) (s : ODE.Solver K V)
    (steps : List K) (dt : K) :
    s.runE T f (steps ++ [dt]) =
      match s.runE T f steps with
      | .error e => .error e
      | .ok s' => s'.executeE T f dt := by
  induction steps generalizing s with
  | nil =>
    simp only [List.nil_append, ODE.Solver.runE]
    cases s.executeE T f dt <;> rfl
  | cons x xs ih =>
    simp only [List.cons_append, ODE.Solver.runE]
    cases s.executeE T f x with
    | error e => rfl
    | ok s' => exact ih s'

/-- The time stepping of a run, with the answers of the generator written down. -/
def schedule (p : Params K V) (o : Obj K V) : Config K where
  startTime := p.startTime
  endTime := p.endTime
  gen := { raw := fun k => if p.adaptive then
             p.optimal (solve p o k).1.sol.sol.time (solve p o k).1.sol.sol.value else o.first
           cfl := p.cfl
           adaptive := p.adaptive }

/-- The start of the time stepping. -/
def start (p : Params K V) : State K := { time := p.startTime, number := 0, stop := false, calls := 0 }

/-- The run of the time stepping. -/
def clock (p : Params K V) (o : Obj K V) (n : ℕ) : Run K := Run.after (schedule p o) (start p) n

/-- What a run of `n` passes with the steps `steps` has done. -/
structure Course (p : Params K V) (o o' : Obj K V) (steps : List K) : Prop where
  first : o'.first = o.first
  ode : o.ode.runE p.tab p.rhs steps = .ok o'.ode
  time : o'.sol.sol.time = o.sol.sol.time + steps.sum
  value : steps ≠ [] → o'.sol.sol.value = o'.ode.solution
  fresh : steps = [] → o'.sol = o.sol
  hist : ∃ (tl : List K) (vl : List V), o'.sol.times = o.sol.times ++ tl ∧
    o'.sol.values = o.sol.values ++ vl ∧ tl.length = steps.length ∧ vl.length = steps.length ∧
    ∀ k < steps.length, ∃ s, o.ode.runE p.tab p.rhs (steps.take (k + 1)) = .ok s ∧
      tl[k]? = some (o.sol.sol.time + (steps.take (k + 1)).sum) ∧ vl[k]? = some s.solution ∧
      p.finite s.solution = true

/-- The states of the time stepping agree up to the number of calls. -/
structure SameTs (a b : State K) : Prop where
  time : a.time = b.time
  number : a.number = b.number
  stop : a.stop = b.stop

theorem next_same (c c' : Config K) (a b : State K) (h : SameTs a b)
    (hc : c.gen.call a.calls = c'.gen.call b.calls) (he : c.endTime = c'.endTime) :
    (next c a).2 = (next c' b).2 ∧ SameTs (next c a).1 (next c' b).1 := by
  unfold next
  rw [h.stop, hc, he, h.time, h.number]
  cases b.stop with
  | true => exact ⟨rfl, h⟩
  | false =>
    simp only [Bool.false_eq_true, if_false]
    split
    · exact ⟨rfl, ⟨rfl, rfl, rfl⟩⟩
    · split <;> exact ⟨rfl, ⟨rfl, rfl, rfl⟩⟩

theorem next_calls (c : Config K) (s s' : State K) (dt : K) (h : next c s = (s', .yield dt)) :
    s'.calls = s.calls + 1 := by
  unfold next at h
  split at h
  · simp at h
  · simp only at h
    split at h
    · simp at h
    · split at h <;> (simp only [Prod.mk.injEq] at h; rw [← h.1])

theorem check_fields (p : Params K V) (o o' : Obj K V) (dt : K) (e : Option Exn)
    (h : o.check p dt = (o', e)) :
    o'.sol = o.sol ∧ o'.ode = o.ode ∧ o'.first = o.first ∧ o'.ts = o.ts ∧ o'.shared = o.shared := by
  unfold Obj.check at h
  split at h
  · cases h; exact ⟨rfl, rfl, rfl, rfl, rfl⟩
  · split at h <;> (cases h; exact ⟨rfl, rfl, rfl, rfl, rfl⟩)

theorem hist_update_ok (finite : V → Bool) (h h' : Hist K V) (dt : K) (v : V)
    (hu : h.update finite dt v = (h', none)) :
    finite v = true ∧ h' = ⟨⟨h.sol.time + dt, v⟩, h.times ++ [h.sol.time + dt], h.values ++ [v]⟩ := by
  unfold Hist.update Sol.update at hu
  cases hf : finite v with
  | false => simp [hf] at hu
  | true =>
    simp only [hf, if_true, Prod.mk.injEq, and_true] at hu
    exact ⟨rfl, hu.symm⟩

theorem hist_update_error (finite : V → Bool) (h h' : Hist K V) (dt : K) (v : V) (e : Solution.Error)
    (hu : h.update finite dt v = (h', some e)) : finite v = false ∧ h' = h ∧ e = .notFinite := by
  unfold Hist.update Sol.update at hu
  cases hf : finite v with
  | true => simp [hf] at hu
  | false =>
    simp [hf] at hu
    exact ⟨rfl, hu.1.symm, hu.2.symm⟩

/-- A step that does not raise. -/
theorem update_ok (p : Params K V) (o o' : Obj K V) (dt : K) (h : o.update p dt = (o', none)) :
    ∃ s, o.ode.executeE p.tab p.rhs dt = .ok s ∧ p.finite s.solution = true ∧ o'.ode = s ∧
      o'.first = o.first ∧ o'.ts = o.ts ∧ o'.shared = true ∧
      o'.sol = ⟨⟨o.sol.sol.time + dt, s.solution⟩, o.sol.times ++ [o.sol.sol.time + dt],
        o.sol.values ++ [s.solution]⟩ := by
  unfold Obj.update at h
  cases he : o.ode.executeE p.tab p.rhs dt with
  | error e => rw [he] at h; simp at h
  | ok s =>
    rw [he] at h
    simp only at h
    rcases hc : Obj.check p { o with ode := s } dt with ⟨x, ex⟩
    rw [hc] at h
    obtain ⟨c1, c2, c3, c4, c5⟩ := check_fields p _ _ _ _ hc
    cases ex with
    | some e => simp at h
    | none =>
      simp only at h
      unfold Obj.updateSolution at h
      rcases hu : x.sol.update p.finite dt x.ode.solution with ⟨y, ey⟩
      rw [hu] at h
      cases ey with
      | some e => simp at h
      | none =>
        simp only [Prod.mk.injEq, and_true] at h
        obtain ⟨hf, hy⟩ := hist_update_ok _ _ _ _ _ hu
        rw [c2] at hf hy
        rw [c1] at hy
        subst h
        exact ⟨s, rfl, hf, c2, c3, c4, rfl, hy⟩

theorem runE_time {ε : Type*} (T : ODE.Tableau K) (f : K → V → Except ε V) (s s' : ODE.Solver K V)
    (steps : List K) (h : s.runE T f steps = .ok s') : s'.time = s.time + steps.sum := by
  induction steps generalizing s with
  | nil => cases h; simp
  | cons dt steps ih =>
    simp only [ODE.Solver.runE] at h
    cases h1 : s.executeE T f dt with
    | error e => rw [h1] at h; cases h
    | ok s1 =>
      rw [h1] at h
      rw [ih s1 h]
      unfold ODE.Solver.executeE at h1
      split at h1
      · cases h1
      · cases h1
        simp only [List.sum_cons]
        ring

/-- A step appended to a course. -/
theorem Course.snoc {p : Params K V} {o a b : Obj K V} {steps : List K} {dt : K} (ts : State K)
    (h : Course p o a steps) (hu : Obj.update p { a with ts := ts } dt = (b, none)) :
    Course p o b (steps ++ [dt]) ∧ b.ts = ts := by
  obtain ⟨s, h1, h2, h3, h4, h5, h6, h7⟩ := update_ok p _ _ _ hu
  simp only at h1 h4 h5 h7
  have hrun : o.ode.runE p.tab p.rhs (steps ++ [dt]) = .ok s := by
    rw [runE_snoc, h.ode]; exact h1
  refine ⟨⟨?_, ?_, ?_, ?_, ?_, ?_⟩, h5⟩
  · rw [h4, h.first]
  · rw [hrun, h3]
  · rw [h7]; simp only [List.sum_append, List.sum_cons, List.sum_nil, add_zero, h.time]; ring
  · intro _; rw [h7, h3]
  · intro hn; simp at hn
  · obtain ⟨tl, vl, t1, t2, t3, t4, t5⟩ := h.hist
    refine ⟨tl ++ [a.sol.sol.time + dt], vl ++ [s.solution], ?_, ?_, by simp [t3], by simp [t4], ?_⟩
    · rw [h7]; simp [t1]
    · rw [h7]; simp [t2]
    · intro k hk
      rw [List.length_append, List.length_singleton] at hk
      rcases Nat.lt_succ_iff_lt_or_eq.mp hk with hlt | heq
      · obtain ⟨s', q1, q2, q3, q4⟩ := t5 k hlt
        refine ⟨s', ?_, ?_, ?_, q4⟩
        · rw [List.take_append_of_le_length (by omega)]; exact q1
        · rw [List.getElem?_append_left (by omega), List.take_append_of_le_length (by omega)]; exact q2
        · rw [List.getElem?_append_left (by omega)]; exact q3
      · subst heq
        refine ⟨s, ?_, ?_, ?_, h2⟩
        · rw [List.take_of_length_le (by simp)]; exact hrun
        · rw [List.getElem?_append_right (by omega), t3, List.take_of_length_le (by simp), h.time]
          simp [add_assoc]
        · rw [List.getElem?_append_right (by omega), t4]
          simp

/-- Correspondence of the statuses. -/
def statusOf : Status → Option TimeStepping.Status
  | .running => some .running
  | .finished => some .finished
  | .interrupted => some .failed
  | .raised _ => none

theorem link (p : Params K V) (o : Obj K V) (n : ℕ) (hr : ∀ e, (solve p o n).2 ≠ .raised e) :
    Course p o (solve p o n).1 (clock p o n).steps ∧
    SameTs (solve p o n).1.ts (clock p o n).st ∧
    statusOf (solve p o n).2 = some (clock p o n).status ∧
    ((solve p o n).2 = .running → (clock p o n).st.calls = n ∧ (clock p o n).steps.length = n) := by
  induction n with
  | zero =>
    refine ⟨⟨rfl, rfl, ?_, ?_, fun _ => rfl, [], [], ?_, ?_, rfl, rfl, ?_⟩, ⟨rfl, rfl, rfl⟩, rfl,
      fun _ => ⟨rfl, rfl⟩⟩
    · simp [solve, clock, Run.after, Run.start, Run.steps]
    · intro h; exact absurd rfl h
    · simp [solve]
    · simp [solve]
    · intro k hk; simp [clock, Run.after, Run.start, Run.steps] at hk
  | succ n ih =>
    have hr' : ∀ e, (solve p o n).2 ≠ .raised e := by
      intro e he
      apply hr e
      change (pass p (solve p o n)).2 = _
      unfold pass
      rw [he]
      exact he
    obtain ⟨h1, h2, h3, h4⟩ := ih hr'
    change Course p o (pass p (solve p o n)).1 ((clock p o n).step (schedule p o)).steps ∧
      SameTs (pass p (solve p o n)).1.ts ((clock p o n).step (schedule p o)).st ∧
      statusOf (pass p (solve p o n)).2 = some ((clock p o n).step (schedule p o)).status ∧
      ((pass p (solve p o n)).2 = .running → ((clock p o n).step (schedule p o)).st.calls = n + 1 ∧
        ((clock p o n).step (schedule p o)).steps.length = n + 1)
    have hr2 : ∀ e, (pass p (solve p o n)).2 ≠ .raised e := hr
    cases hs : (solve p o n).2 with
    | raised e => exact absurd hs (hr' e)
    | finished =>
      have hc : (clock p o n).status = .finished := by rw [hs] at h3; simpa [statusOf] using h3.symm
      have e1 : pass p (solve p o n) = solve p o n := by unfold pass; rw [hs]
      have e2 : (clock p o n).step (schedule p o) = clock p o n := by unfold Run.step; rw [hc]
      rw [e1, e2]
      exact ⟨h1, h2, h3, fun h => by rw [hs] at h; cases h⟩
    | interrupted =>
      have hc : (clock p o n).status = .failed := by rw [hs] at h3; simpa [statusOf] using h3.symm
      have e1 : pass p (solve p o n) = solve p o n := by unfold pass; rw [hs]
      have e2 : (clock p o n).step (schedule p o) = clock p o n := by unfold Run.step; rw [hc]
      rw [e1, e2]
      exact ⟨h1, h2, h3, fun h => by rw [hs] at h; cases h⟩
    | running =>
      have hc : (clock p o n).status = .running := by rw [hs] at h3; simpa [statusOf] using h3.symm
      obtain ⟨h5, h6⟩ := h4 hs
      have hcall : ((solve p o n).1.config p).gen.call (solve p o n).1.ts.calls =
          (schedule p o).gen.call (clock p o n).st.calls := by
        rw [h5]
        unfold Generator.call Obj.config schedule
        cases hp : p.adaptive with
        | true => simp
        | false => simp [h1.first]
      obtain ⟨n1, n2⟩ := next_same ((solve p o n).1.config p) (schedule p o) _ _ h2 hcall rfl
      rcases ha : next ((solve p o n).1.config p) (solve p o n).1.ts with ⟨ts, a⟩
      rcases hb : next (schedule p o) (clock p o n).st with ⟨ts', b⟩
      rw [ha, hb] at n1 n2
      simp only at n1 n2
      subst n1
      unfold pass at hr2 ⊢
      unfold Run.step
      rw [hs] at hr2 ⊢
      simp only [ha] at hr2
      simp only [hc, ha, hb]
      cases a with
      | stopIteration =>
        refine ⟨⟨h1.first, h1.ode, h1.time, h1.value, h1.fresh, h1.hist⟩, n2, rfl, fun h => ?_⟩
        cases h
      | tooSmall =>
        refine ⟨⟨h1.first, h1.ode, h1.time, h1.value, h1.fresh, h1.hist⟩, n2, rfl, fun h => ?_⟩
        cases h
      | yield dt =>
        simp only at hr2 ⊢
        rcases hu : Obj.update p { (solve p o n).1 with ts := ts } dt with ⟨x, ex⟩
        rw [hu] at hr2
        cases ex with
        | some e => exact absurd rfl (hr2 e)
        | none =>
          obtain ⟨q1, q2⟩ := Course.snoc ts h1 hu
          have hsteps : ∀ tm : K, ({ (clock p o n) with
              st := ts', trace := (clock p o n).trace ++ [⟨dt, tm⟩] } : Run K).steps =
              (clock p o n).steps ++ [dt] := by
            intro tm; simp [Run.steps]
          simp only
          refine ⟨?_, ?_, ?_, fun _ => ⟨?_, ?_⟩⟩
          · convert q1 using 1
            simp [Run.steps]
          · rw [q2]; exact n2
          · simp [statusOf, hc]
          · rw [next_calls _ _ _ _ hb, h5]
          · have := h6; simp [Run.steps] at this ⊢; exact this

end Verif.Solver
