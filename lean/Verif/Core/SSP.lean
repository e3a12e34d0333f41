import Verif.Core.ODEExcept
import Verif.Props.RungeKutta

/-!
Strong stability for right-hand sides that may raise: if each forward Euler step from a state in a
convex set is defined and stays in the set, then Heun and SSP3 steps are defined and stay in it.
-/

set_option linter.unusedSectionVars false

namespace Verif.ODE

variable {K : Type*} [Field K] [LinearOrder K] [IsStrictOrderedRing K]
variable {E : Type*} [AddCommGroup E] [Module K E] {ε : Type*}

theorem executeE_ok (T : Tableau K) (f : K → E → Except ε E) (s : Solver K E) (dt : K)
    (h : ∀ i < T.size, ∃ w, f (timeNode T s.time dt i)
      (stageValue T dt s.solution (stages T (totalise f) s.time dt s.solution i) i) = .ok w) :
    s.executeE T f dt = .ok (s.execute T (totalise f) dt) := by
  unfold Solver.executeE
  rw [stagesE_ok T f s.time dt s.solution T.size h]
  rfl

/-- Monadic strong stability, one step. -/
theorem sspE_step (f : K → E → Except ε E) (dt : K) (S : Set E) (hS : Convex K S)
    (hE : ∀ t, ∀ u ∈ S, ∃ w, f t u = .ok w ∧ u + dt • w ∈ S) (s : Solver K E) (hs : s.solution ∈ S) :
    (∃ s', s.executeE (forwardEuler K) f dt = .ok s' ∧ s'.solution ∈ S) ∧
    (∃ s', s.executeE (heun K) f dt = .ok s' ∧ s'.solution ∈ S) ∧
    (∃ s', s.executeE (ssp3 K) f dt = .ok s' ∧ s'.solution ∈ S) := by
  have hE' : ∀ t, ∀ u ∈ S, u + dt • totalise f t u ∈ S := by
    intro t u hu
    obtain ⟨w, h1, h2⟩ := hE t u hu
    simpa [totalise, h1] using h2
  have hok : ∀ t, ∀ u ∈ S, ∃ w, f t u = .ok w := fun t u hu => by
    obtain ⟨w, h1, _⟩ := hE t u hu; exact ⟨w, h1⟩
  refine ⟨⟨_, executeE_ok _ _ _ _ ?_, ?_⟩, ⟨_, executeE_ok _ _ _ _ ?_, ?_⟩,
    ⟨_, executeE_ok _ _ _ _ ?_, ?_⟩⟩
  · intro i hi
    have : i = 0 := by simp [forwardEuler] at hi; exact hi
    subst this
    exact hok _ _ (by simpa [stageValue] using hs)
  · rw [execute_forwardEuler]
    exact hE' _ _ hs
  · intro i hi
    simp only [heun] at hi
    match i, hi with
    | 0, _ => exact hok _ _ (by simpa [stageValue] using hs)
    | 1, _ =>
      apply hok
      have := hE' (timeNode (heun K) s.time dt 0) _ hs
      simpa [stageValue, stages, heun, table, List.range_succ] using this
  · exact (C54_ssp (totalise f) dt S hS hE' s hs).1
  · intro i hi
    simp only [ssp3] at hi
    match i, hi with
    | 0, _ => exact hok _ _ (by simpa [stageValue] using hs)
    | 1, _ =>
      apply hok
      have := hE' (timeNode (ssp3 K) s.time dt 0) _ hs
      simpa [stageValue, stages, ssp3, table, List.range_succ] using this
    | 2, _ =>
      apply hok
      set k0 := totalise f (timeNode (ssp3 K) s.time dt 0) s.solution with hk0
      have h1 : s.solution + dt • k0 ∈ S := hE' _ _ hs
      set k1 := totalise f (timeNode (ssp3 K) s.time dt 1) (s.solution + dt • k0) with hk1
      have h2 : (s.solution + dt • k0) + dt • k1 ∈ S := hE' _ _ h1
      have h3 := hS hs h2 (a := 3 / 4) (b := 1 / 4) (by norm_num) (by norm_num) (by norm_num)
      have e0 : stageValue (ssp3 K) dt s.solution ([] : List E) 0 = s.solution := by
        simp [stageValue]
      have e1 : stageValue (ssp3 K) dt s.solution [k0] 1 = s.solution + dt • k0 := by
        simp [stageValue, ssp3, table, List.range_succ]
      have e2 : stages (ssp3 K) (totalise f) s.time dt s.solution 2 = [k0, k1] := by
        simp only [stages, List.nil_append, List.cons_append]
        rw [e0, ← hk0, e1, ← hk1]
      rw [e2]
      have e3 : stageValue (ssp3 K) dt s.solution [k0, k1] 2 =
          (3 / 4 : K) • s.solution + (1 / 4 : K) • ((s.solution + dt • k0) + dt • k1) := by
        simp only [stageValue, ssp3, table, List.range_succ, List.range_zero, List.nil_append,
          List.cons_append, List.map_cons, List.map_nil, List.sum_cons, List.sum_nil,
          List.getD_cons_zero, List.getD_cons_succ]
        module
      rw [e3]
      exact h3
  · exact (C54_ssp (totalise f) dt S hS hE' s hs).2

/-- Monadic strong stability for runs, with a possibly different step in each pass. -/
theorem sspE_run (f : K → E → Except ε E) (S : Set E) (hS : Convex K S) (steps : List K)
    (hE : ∀ dt ∈ steps, ∀ t, ∀ u ∈ S, ∃ w, f t u = .ok w ∧ u + dt • w ∈ S) (s : Solver K E)
    (hs : s.solution ∈ S) (T : Tableau K) (hT : T = forwardEuler K ∨ T = heun K ∨ T = ssp3 K) :
    ∃ s', s.runE T f steps = .ok s' ∧ s'.solution ∈ S := by
  induction steps generalizing s with
  | nil => exact ⟨s, rfl, hs⟩
  | cons dt steps ih =>
    have h := sspE_step f dt S hS (hE dt List.mem_cons_self) s hs
    have : ∃ s', s.executeE T f dt = .ok s' ∧ s'.solution ∈ S := by
      rcases hT with rfl | rfl | rfl
      · exact h.1
      · exact h.2.1
      · exact h.2.2
    obtain ⟨s1, h1, h2⟩ := this
    obtain ⟨s2, g1, g2⟩ := ih (fun d hd => hE d (List.mem_cons_of_mem _ hd)) s1 h2
    exact ⟨s2, by simp only [Solver.runE, h1, g1], g2⟩

/-! ### Runs with a checked step condition -/

open Classical in
/-- The right-hand side with a check before each evaluation: `error none` if the condition `Adm` is
violated, `error (some e)` if the right-hand side raises `e`. -/
noncomputable def checked (Adm : K → E → Prop) (f : K → E → Except ε E) (t : K) (u : E) :
    Except (Option ε) E :=
  if Adm t u then (f t u).mapError some else .error none

/-- A run in which the condition `Adm dt` is checked before each evaluation of the right-hand side
in a step of length `dt`. -/
noncomputable def Solver.runChecked (T : Tableau K) (Adm : K → K → E → Prop)
    (f : K → E → Except ε E) (s : Solver K E) : List K → Except (Option ε) (Solver K E)
  | [] => .ok s
  | dt :: steps =>
    match s.executeE T (checked (Adm dt) f) dt with
    | .error e => .error e
    | .ok s' => s'.runChecked T Adm f steps

open Classical in
/-- The right-hand side that is zero where the condition is violated. -/
noncomputable def guarded (Adm : K → E → Prop) (f : K → E → Except ε E) (t : K) (u : E) :
    Except ε E :=
  if Adm t u then f t u else .ok 0

theorem checked_stages (T : Tableau K) (Adm : K → E → Prop) (f : K → E → Except ε E) (t dt : K)
    (u : E) (n : ℕ) :
    stagesE T (checked Adm f) t dt u n = .error none ∨
    (stagesE T (checked Adm f) t dt u n = (stagesE T f t dt u n).mapError some ∧
      stagesE T f t dt u n = stagesE T (guarded Adm f) t dt u n) := by
  induction n with
  | zero => exact Or.inr ⟨rfl, rfl⟩
  | succ n ih =>
    rcases ih with h | ⟨h1, h2⟩
    · left; simp only [stagesE, h]
    · simp only [stagesE, h1, ← h2]
      cases hs : stagesE T f t dt u n with
      | error e => right; exact ⟨rfl, rfl⟩
      | ok ks =>
        simp only [Except.mapError]
        by_cases ha : Adm (timeNode T t dt n) (stageValue T dt u ks n)
        · right
          have e1 : checked Adm f (timeNode T t dt n) (stageValue T dt u ks n) =
              (f (timeNode T t dt n) (stageValue T dt u ks n)).mapError some := if_pos ha
          have e2 : guarded Adm f (timeNode T t dt n) (stageValue T dt u ks n) =
              f (timeNode T t dt n) (stageValue T dt u ks n) := if_pos ha
          rw [e1, e2]
          cases f (timeNode T t dt n) (stageValue T dt u ks n) <;> exact ⟨rfl, rfl⟩
        · left
          have e1 : checked Adm f (timeNode T t dt n) (stageValue T dt u ks n) = .error none :=
            if_neg ha
          rw [e1]

theorem checked_execute (T : Tableau K) (Adm : K → E → Prop) (f : K → E → Except ε E) (dt : K)
    (s : Solver K E) :
    s.executeE T (checked Adm f) dt = .error none ∨
    (s.executeE T (checked Adm f) dt = (s.executeE T f dt).mapError some ∧
      s.executeE T f dt = s.executeE T (guarded Adm f) dt) := by
  unfold Solver.executeE
  rcases checked_stages T Adm f s.time dt s.solution T.size with h | ⟨h1, h2⟩
  · left; rw [h]
  · right
    rw [h1, ← h2]
    cases stagesE T f s.time dt s.solution T.size <;> exact ⟨rfl, rfl⟩

/-- If forward Euler steps from states of a convex set that satisfy the condition are defined and
stay in the set, then a checked run ends with a violated condition, or it is the run of the scheme,
which is defined and ends in the set. -/
theorem runChecked_spec (T : Tableau K) (hT : T = forwardEuler K ∨ T = heun K ∨ T = ssp3 K)
    (Adm : K → K → E → Prop) (f : K → E → Except ε E) (S : Set E) (hS : Convex K S)
    (steps : List K)
    (hE : ∀ dt ∈ steps, ∀ t, ∀ u ∈ S, Adm dt t u → ∃ w, f t u = .ok w ∧ u + dt • w ∈ S)
    (s : Solver K E) (hs : s.solution ∈ S) :
    s.runChecked T Adm f steps = .error none ∨
    ∃ s', s.runChecked T Adm f steps = .ok s' ∧ s.runE T f steps = .ok s' ∧ s'.solution ∈ S := by
  induction steps generalizing s with
  | nil => exact Or.inr ⟨s, rfl, rfl, hs⟩
  | cons dt steps ih =>
    have hg : ∀ t, ∀ u ∈ S, ∃ w, guarded (Adm dt) f t u = .ok w ∧ u + dt • w ∈ S := by
      intro t u hu
      by_cases ha : Adm dt t u
      · obtain ⟨w, h1, h2⟩ := hE dt List.mem_cons_self t u hu ha
        exact ⟨w, by simp only [guarded, if_pos ha, h1], h2⟩
      · exact ⟨0, by simp only [guarded, if_neg ha], by simpa using hu⟩
    have hstep := sspE_step (guarded (Adm dt) f) dt S hS hg s hs
    have : ∃ s', s.executeE T (guarded (Adm dt) f) dt = .ok s' ∧ s'.solution ∈ S := by
      rcases hT with rfl | rfl | rfl
      · exact hstep.1
      · exact hstep.2.1
      · exact hstep.2.2
    obtain ⟨s1, h1, h2⟩ := this
    rcases checked_execute T (Adm dt) f dt s with h | ⟨g1, g2⟩
    · left; simp only [Solver.runChecked, h]
    · rw [h1] at g2
      rw [g2] at g1
      simp only [Except.mapError] at g1
      rcases ih (fun d hd => hE d (List.mem_cons_of_mem _ hd)) s1 h2 with h | ⟨s', a, b, c⟩
      · left; simp only [Solver.runChecked, g1, h]
      · right
        exact ⟨s', by simp only [Solver.runChecked, g1, a], by simp only [Solver.runE, g2, b], c⟩

end Verif.ODE
