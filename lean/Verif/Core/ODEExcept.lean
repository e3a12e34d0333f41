import Verif.Core.ODESolver
import Verif.Core.Py

/-!
Runge-Kutta steps (`core/ode_solver.py`) for right-hand sides that may raise: the first exception
ends the step.  Also: right-hand sides on numpy arrays (lists) as right-hand sides on `Fin n → V`.
-/

set_option linter.unusedSectionVars false

namespace Verif.ODE

variable {K : Type*} [Field K]
variable {E : Type*} [AddCommGroup E] [Module K E] {ε : Type*}

/-- `stages` (lines 73-87) for a right-hand side that may raise. -/
def stagesE (T : Tableau K) (f : K → E → Except ε E) (t dt : K) (u : E) : ℕ → Except ε (List E)
  | 0 => .ok []
  | n + 1 =>
    match stagesE T f t dt u n with
    | .error e => .error e
    | .ok ks =>
      match f (timeNode T t dt n) (stageValue T dt u ks n) with
      | .error e => .error e
      | .ok k => .ok (ks ++ [k])

/-- `execute` (lines 63-93) for a right-hand side that may raise. -/
def Solver.executeE (T : Tableau K) (f : K → E → Except ε E) (s : Solver K E) (dt : K) :
    Except ε (Solver K E) :=
  match stagesE T f s.time dt s.solution T.size with
  | .error e => .error e
  | .ok ks => .ok
    { time := s.time + dt
      solution := s.solution + dt • ((List.range T.size).map (fun i => T.b i • ks.getD i 0)).sum
      timeNodes := (List.range T.size).map (timeNode T s.time dt)
      stageValues := (List.range T.size).map (stageValue T dt s.solution ks) }

/-- A run over a list of steps, ended by the first exception. -/
def Solver.runE (T : Tableau K) (f : K → E → Except ε E) (s : Solver K E) :
    List K → Except ε (Solver K E)
  | [] => .ok s
  | dt :: steps =>
    match s.executeE T f dt with
    | .error e => .error e
    | .ok s' => s'.runE T f steps

/-- A right-hand side on arrays, seen as one on `Fin n → V`.  Adding an array of another length to
the state is numpy's `ValueError`. -/
def vecRhs {V : Type*} (n : ℕ) (rhs : K → List V → Except Py.Error (List V)) (t : K)
    (u : Fin n → V) : Except Py.Error (Fin n → V) :=
  match rhs t (List.ofFn u) with
  | .error e => .error e
  | .ok w => if h : w.length = n then .ok (fun i => w[i.1]'(by omega)) else .error .valueError

/-! ### Reduction to right-hand sides that do not raise -/

/-- The right-hand side with value zero where it raises. -/
def totalise (f : K → E → Except ε E) (t : K) (u : E) : E :=
  match f t u with
  | .ok w => w
  | .error _ => 0

theorem stagesE_eq (T : Tableau K) (f : K → E → Except ε E) (t dt : K) (u : E) (n : ℕ)
    (ks : List E) (h : stagesE T f t dt u n = .ok ks) : ks = stages T (totalise f) t dt u n := by
  induction n generalizing ks with
  | zero => cases h; rfl
  | succ n ih =>
    simp only [stagesE] at h
    cases h1 : stagesE T f t dt u n with
    | error e => rw [h1] at h; cases h
    | ok ks' =>
      rw [h1] at h
      simp only at h
      cases h2 : f (timeNode T t dt n) (stageValue T dt u ks' n) with
      | error e => rw [h2] at h; cases h
      | ok k =>
        rw [h2] at h
        cases h
        simp only [stages]
        rw [← ih ks' h1]
        congr 2
        simp [totalise, h2]

theorem executeE_eq (T : Tableau K) (f : K → E → Except ε E) (s s' : Solver K E) (dt : K)
    (h : s.executeE T f dt = .ok s') : s' = s.execute T (totalise f) dt := by
  unfold Solver.executeE at h
  cases h1 : stagesE T f s.time dt s.solution T.size with
  | error e => rw [h1] at h; cases h
  | ok ks =>
    rw [h1] at h
    cases h
    rw [stagesE_eq T f _ _ _ _ ks h1]
    rfl

/-- A run that does not raise is the run with the totalised right-hand side. -/
theorem runE_eq (T : Tableau K) (f : K → E → Except ε E) (s s' : Solver K E) (steps : List K)
    (h : s.runE T f steps = .ok s') : s' = s.run T (totalise f) steps := by
  induction steps generalizing s with
  | nil => cases h; rfl
  | cons dt steps ih =>
    simp only [Solver.runE] at h
    cases h1 : s.executeE T f dt with
    | error e => rw [h1] at h; cases h
    | ok s1 =>
      rw [h1] at h
      rw [ih s1 h, executeE_eq T f s s1 dt h1]
      rfl

theorem stagesE_ok (T : Tableau K) (f : K → E → Except ε E) (t dt : K) (u : E) (n : ℕ)
    (h : ∀ i < n, ∃ w, f (timeNode T t dt i)
      (stageValue T dt u (stages T (totalise f) t dt u i) i) = .ok w) :
    stagesE T f t dt u n = .ok (stages T (totalise f) t dt u n) := by
  induction n with
  | zero => rfl
  | succ n ih =>
    simp only [stagesE]
    rw [ih (fun i hi => h i (by omega))]
    obtain ⟨w, hw⟩ := h n (Nat.lt_succ_self n)
    simp only [hw, stages]
    simp [totalise, hw]

end Verif.ODE
