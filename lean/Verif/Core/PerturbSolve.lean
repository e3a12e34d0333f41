import Verif.Core.Perturb
import Verif.Core.SolverLemmas
import Verif.Core.Symmetry
import Verif.Props.Solver
import Mathlib.Analysis.SpecialFunctions.Exp

/-!
Perturbation of whole solver objects with equal constant time steps (`Verif.Core.Solver`).  Mathematics
only, no further code is modelled here.
-/

set_option linter.unusedSectionVars false

namespace Verif.Solver

open Verif.TimeStepping hiding Status
open Verif.Solution Verif.ODE

variable {E : Type*} [AddCommGroup E] [Module ℝ E]
variable {F : Type*} [AddCommGroup F] [Module ℝ F]

theorem amp_le_exp (m : ℕ) {z : ℝ} (hz : 0 ≤ z) : amp m z ≤ Real.exp z := by
  unfold amp
  exact Real.sum_le_exp_of_nonneg hz _

/-- Finite volume solvers: constant time step, no checker, values always finite. -/
structure Plain {K V : Type*} (p : Params K V) : Prop where
  adaptive : p.adaptive = false
  checker : p.checker = none
  finite : ∀ v, p.finite v = true

/-- Two parameter sets with the same integrator and the same time stepping. -/
structure SameSteps {K V V' : Type*} (p : Params K V) (p' : Params K V') : Prop where
  tab : p'.tab = p.tab
  start : p'.startTime = p.startTime
  stop : p'.endTime = p.endTime

theorem update_plain {K V : Type*} [Field K] [LinearOrder K] [IsStrictOrderedRing K]
    [AddCommGroup V] [Module K V] (p : Params K V) (hp : Plain p) (o : Obj K V) (dt : K) :
    o.update p dt = match o.ode.executeE p.tab p.rhs dt with
      | .error e => (o, some (.rhs e))
      | .ok ode => ({ o with
          ode := ode
          sol := { sol := ⟨o.sol.sol.time + dt, ode.solution⟩
                   times := o.sol.times ++ [o.sol.sol.time + dt]
                   values := o.sol.values ++ [ode.solution] }
          shared := true }, none) := by
  unfold Obj.update
  cases o.ode.executeE p.tab p.rhs dt with
  | error e => rfl
  | ok s =>
    simp [Obj.check, hp.checker, Obj.updateSolution, Hist.update, Sol.update, hp.finite]

/-- The error bound at time `t`. -/
def Bound (A : E →ₗ[ℝ] F) (N : F → ℝ) (L δ y t0 : ℝ) (t : ℝ) (x : E) (v : F) : Prop :=
  L * N (v - A x) + δ ≤ Real.exp (L * (t - t0)) * y

structure PRel (A : E →ₗ[ℝ] F) (N : F → ℝ) (L δ y t0 : ℝ) (p : Params ℝ E) (p' : Params ℝ F)
    (o : Obj ℝ E) (o' : Obj ℝ F) : Prop where
  time : o'.ode.time = o.ode.time
  err : Bound A N L δ y t0 o.ode.time o.ode.solution o'.ode.solution
  ts : o'.ts = o.ts
  step : o'.first * p'.cfl = o.first * p.cfl
  sol : o.sol.sol = ⟨o.ode.time, o.ode.solution⟩
  sol' : o'.sol.sol = ⟨o'.ode.time, o'.ode.solution⟩
  times : o'.sol.times = o.sol.times
  len : o.sol.values.length = o.sol.times.length
  len' : o'.sol.values.length = o.sol.times.length
  hist : ∀ (i : ℕ) t x v, o.sol.times[i]? = some t → o.sol.values[i]? = some x →
    o'.sol.values[i]? = some v → Bound A N L δ y t0 t x v
  clock : o.ts.stop = false → o.ts.time = o.ode.time

theorem pass_prel {A : E →ₗ[ℝ] F} {N : F → ℝ} (hN : Size N) {L δ r y t0 : ℝ} (hL : 0 < L) (hδ : 0 ≤ δ)
    {p : Params ℝ E} {p' : Params ℝ F} (hp : Plain p) (hp' : Plain p') (hs : SameSteps p p')
    (hn : Near A N p.rhs p'.rhs L δ r)
    (hT : p.tab = forwardEuler ℝ ∨ p.tab = heun ℝ ∨ p.tab = ssp3 ℝ) (hy0 : 0 ≤ y)
    (hy : Real.exp (L * (p.endTime - t0)) * y ≤ L * r + δ)
    {l : Obj ℝ E × Status} {l' : Obj ℝ F × Status} (h : PRel A N L δ y t0 p p' l.1 l'.1)
    (hst : l'.2 = l.2) (hno : ∀ e, (pass p l).2 ≠ .raised e) :
    (pass p' l').2 = (pass p l).2 ∧ PRel A N L δ y t0 p p' (pass p l).1 (pass p' l').1 := by
  have hnext : next (l'.1.config p') l'.1.ts = next (l.1.config p) l.1.ts := by
    rw [h.ts]
    unfold next Generator.call Obj.config
    simp only [hp.adaptive, hp'.adaptive, h.step, hs.stop, Bool.false_eq_true, if_false]
  unfold pass at hno ⊢
  rw [hst, hnext]
  cases hl : l.2 with
  | finished => exact ⟨hst, h⟩
  | interrupted => exact ⟨hst, h⟩
  | raised e => exact ⟨hst, h⟩
  | running =>
    simp only [hl] at hno
    rcases hx : next (l.1.config p) l.1.ts with ⟨ts, a⟩
    rw [hx] at hno
    have hstop : l.1.ts.stop = false ∨ ∃ s, next (l.1.config p) l.1.ts = (s, .stopIteration) := by
      cases hb : l.1.ts.stop with
      | false => exact Or.inl rfl
      | true => right; unfold next; simp [hb]
    have hkeep : ∀ s : State ℝ, (s.stop = false → s.time = l.1.ode.time) →
        PRel A N L δ y t0 p p' { l.1 with ts := s } { l'.1 with ts := s } := fun s hs' =>
      ⟨h.time, h.err, rfl, h.step, h.sol, h.sol', h.times, h.len, h.len', h.hist, hs'⟩
    cases a with
    | stopIteration =>
      refine ⟨rfl, hkeep ts ?_⟩
      intro hts
      unfold next at hx
      split at hx
      · rename_i hb
        obtain ⟨rfl, -⟩ := Prod.mk.inj hx
        rw [hb] at hts; cases hts
      · simp only at hx
        split at hx
        · simp at hx
        · split at hx <;> simp at hx
    | tooSmall =>
      refine ⟨rfl, hkeep ts ?_⟩
      intro hts
      unfold next at hx
      split at hx
      · simp at hx
      · rename_i hb
        simp only at hx
        split at hx
        · obtain ⟨rfl, -⟩ := Prod.mk.inj hx
          exact h.clock (by simpa using hb)
        · split at hx <;> simp at hx
    | yield dt =>
      have hb : l.1.ts.stop = false := by
        rcases hstop with hb | ⟨s, hb⟩
        · exact hb
        · rw [hx] at hb; simp at hb
      have hclock := h.clock hb
      have hdt : 0 < dt ∧ dt ≤ p.endTime - l.1.ode.time ∧
          (ts.stop = false → ts.time = l.1.ode.time + dt) := by
        unfold next at hx
        rw [hb] at hx
        simp only [Bool.false_eq_true, if_false] at hx
        split at hx
        · simp at hx
        · rename_i hsmall
          have hpos : 0 < tol ℝ := by unfold tol; positivity
          split at hx
          · simp only [Prod.mk.injEq, Outcome.yield.injEq] at hx
            obtain ⟨h1, h2⟩ := hx
            refine ⟨by rw [← h2]; linarith [not_lt.mp hsmall], ?_, fun h3 => by
              rw [← h1] at h3; cases h3⟩
            rw [← h2, ← hclock]
            exact min_le_right _ _
          · simp only [Prod.mk.injEq, Outcome.yield.injEq] at hx
            obtain ⟨h1, h2⟩ := hx
            refine ⟨by rw [← h2]; linarith [not_lt.mp hsmall], ?_, fun _ => ?_⟩
            · rw [← h2, ← hclock]
              exact min_le_right _ _
            · rw [← h1, ← h2, ← hclock]
      obtain ⟨hd1, hd2, hd3⟩ := hdt
      simp only [update_plain p hp, update_plain p' hp'] at hno ⊢
      cases he : l.1.ode.executeE p.tab p.rhs dt with
      | error e =>
        rw [he] at hno
        exact absurd rfl (hno _)
      | ok s1 =>
        have hz : 0 ≤ L * dt := mul_nonneg hL.le hd1.le
        have hexp := amp_le_exp p.tab.size hz
        set Y := Real.exp (L * (l.1.ode.time - t0)) * y with hY
        have hY0 : 0 ≤ Y := mul_nonneg (Real.exp_pos _).le hy0
        have e1 : Real.exp (L * dt) * Y = Real.exp (L * (l.1.ode.time + dt - t0)) * y := by
          rw [hY, ← mul_assoc, ← Real.exp_add]
          congr 2
          ring
        have h1 : amp p.tab.size (L * dt) * Y ≤ Real.exp (L * (l.1.ode.time + dt - t0)) * y := by
          rw [← e1]
          exact mul_le_mul_of_nonneg_right hexp hY0
        have h2 : Real.exp (L * (l.1.ode.time + dt - t0)) * y ≤ L * r + δ := by
          refine le_trans (mul_le_mul_of_nonneg_right (Real.exp_le_exp.mpr ?_) hy0) hy
          exact mul_le_mul_of_nonneg_left (by linarith) hL.le
        obtain ⟨v1, g1, g2, g3⟩ := near_step hN hL hδ hn p.tab hT hd1.le l.1.ode s1 he l'.1.ode h.time
          h.err (h1.trans h2)
        have hs1 : s1.time = l.1.ode.time + dt := by
          unfold Solver.executeE at he
          split at he
          · cases he
          · cases he; rfl
        rw [hs.tab, g1]
        have ht : l.1.sol.sol.time + dt = s1.time := by rw [h.sol, hs1]
        have ht' : l'.1.sol.sol.time + dt = s1.time := by rw [h.sol', h.time, hs1]
        have hB : Bound A N L δ y t0 s1.time s1.solution v1.solution := by
          unfold Bound
          rw [hs1]
          exact g3.trans h1
        refine ⟨rfl, g2, hB, rfl, h.step, by rw [← ht], ?_, ?_, by simp [h.len], by simp [h.len'], ?_, ?_⟩
        · simp only [ht', g2]
        · simp only [h.times, ht, ht']
        · intro i t x v hi1 hi2 hi3
          simp only [List.getElem?_append] at hi1 hi2 hi3
          by_cases hi : i < l.1.sol.times.length
          · rw [if_pos hi] at hi1
            rw [if_pos (by rw [h.len]; exact hi)] at hi2
            rw [if_pos (by rw [h.len']; exact hi)] at hi3
            exact h.hist i t x v hi1 hi2 hi3
          · rw [if_neg hi] at hi1
            rw [if_neg (by rw [h.len]; exact hi)] at hi2
            rw [if_neg (by rw [h.len']; exact hi)] at hi3
            rw [h.len] at hi2
            rw [h.len'] at hi3
            cases hj : i - l.1.sol.times.length with
            | zero =>
              rw [hj] at hi1 hi2 hi3
              simp only [List.getElem?_cons_zero, Option.some.injEq] at hi1 hi2 hi3
              subst hi1 hi2 hi3
              rw [ht]
              exact hB
            | succ j => rw [hj] at hi1; simp at hi1
        · intro hts
          rw [hd3 hts, hs1]

/-- Whole runs: if the given run does not raise, the other one goes the same way, and all recorded
values are within the bound. -/
theorem solve_prel {A : E →ₗ[ℝ] F} {N : F → ℝ} (hN : Size N) {L δ r : ℝ} (hL : 0 < L) (hδ : 0 ≤ δ)
    {p : Params ℝ E} {p' : Params ℝ F} (hp : Plain p) (hp' : Plain p') (hs : SameSteps p p')
    (hn : Near A N p.rhs p'.rhs L δ r)
    (hT : p.tab = forwardEuler ℝ ∨ p.tab = heun ℝ ∨ p.tab = ssp3 ℝ)
    (b : Bench ℝ E) (b' : Bench ℝ F) (hb : b.startTime = p.startTime) (hb' : b'.startTime = b.startTime)
    (hstep : p'.optimal b'.startTime b'.initial * p'.cfl = p.optimal b.startTime b.initial * p.cfl)
    (d : ℝ) (hd : N (b'.initial - A b.initial) ≤ d)
    (hr : Real.exp (L * (p.endTime - p.startTime)) * (L * d + δ) ≤ L * r + δ) (n : ℕ)
    (hno : ∀ e, (solve p (Obj.make p b) n).2 ≠ .raised e) :
    (solve p' (Obj.make p' b') n).2 = (solve p (Obj.make p b) n).2 ∧
    PRel A N L δ (L * d + δ) p.startTime p p' (solve p (Obj.make p b) n).1
      (solve p' (Obj.make p' b') n).1 := by
  have hd0 : 0 ≤ d := le_trans (hN.nonneg _) hd
  have hy0 : 0 ≤ L * d + δ := by positivity
  induction n with
  | zero =>
    have hB : Bound A N L δ (L * d + δ) p.startTime b.startTime b.initial b'.initial := by
      unfold Bound
      rw [hb, sub_self, mul_zero, Real.exp_zero, one_mul]
      have := mul_le_mul_of_nonneg_left hd hL.le
      linarith
    refine ⟨rfl, ⟨hb', hB, ?_, hstep, rfl, rfl, ?_, rfl, rfl, ?_, ?_⟩⟩
    · simp only [solve, Obj.make, iter, Obj.config, hs.start]
    · simp only [solve, Obj.make, Hist.init, hb']
    · intro i t x v hi1 hi2 hi3
      simp only [solve, Obj.make, Hist.init] at hi1 hi2 hi3
      cases i with
      | zero =>
        simp only [List.getElem?_cons_zero, Option.some.injEq] at hi1 hi2 hi3
        subst hi1 hi2 hi3
        exact hB
      | succ i => simp at hi1
    · intro _
      simp only [solve, Obj.make, iter, Obj.config, ODE.Solver.init, hb]
  | succ n ih =>
    have hno' : ∀ e, (solve p (Obj.make p b) n).2 ≠ .raised e := by
      intro e he
      apply hno e
      change (pass p (solve p (Obj.make p b) n)).2 = _
      unfold pass
      rw [he]
      exact he
    obtain ⟨h1, h2⟩ := ih hno'
    exact pass_prel hN hL hδ hp hp' hs hn hT hy0 hr h2 h1 hno

/-- A solver whose right-hand side raises more often goes the same way as long as it does not raise. -/
theorem solve_guard {K V : Type*} [Field K] [LinearOrder K] [IsStrictOrderedRing K]
    [AddCommGroup V] [Module K V] (p : Params K V) (g : K → V → Except Py.Error V)
    (hg : ∀ t u w, g t u = .ok w → p.rhs t u = .ok w) (o : Obj K V) (n : ℕ)
    (hno : ∀ e, (solve { p with rhs := g } o n).2 ≠ .raised e) :
    solve p o n = solve { p with rhs := g } o n := by
  induction n with
  | zero => rfl
  | succ n ih =>
    have hno' : ∀ e, (solve { p with rhs := g } o n).2 ≠ .raised e := by
      intro e he
      apply hno e
      change (pass { p with rhs := g } (solve { p with rhs := g } o n)).2 = _
      unfold pass
      rw [he]
      exact he
    change pass p (solve p o n) = pass { p with rhs := g } (solve { p with rhs := g } o n)
    have hno2 : ∀ e, (pass { p with rhs := g } (solve { p with rhs := g } o n)).2 ≠ .raised e := hno
    rw [ih hno']
    generalize solve { p with rhs := g } o n = l at hno2 ⊢
    unfold pass at hno2 ⊢
    cases hl : l.2 with
    | finished => rfl
    | interrupted => rfl
    | raised e => rfl
    | running =>
      simp only [hl] at hno2
      have hc : l.1.config { p with rhs := g } = l.1.config p := rfl
      rw [hc] at hno2 ⊢
      rcases hx : next (l.1.config p) l.1.ts with ⟨ts, a⟩
      rw [hx] at hno2
      cases a with
      | stopIteration => rfl
      | tooSmall => rfl
      | yield dt =>
        simp only at hno2 ⊢
        have he : ∀ s, l.1.ode.executeE p.tab g dt = .ok s →
            l.1.ode.executeE p.tab p.rhs dt = .ok s := by
          intro s hs
          have := executeE_map (LinearMap.id : V →ₗ[K] V) p.tab g p.rhs
            (fun t u w hw => by simpa using hg t u w hw) l.1.ode s dt hs
          simpa [ODE.Solver.image] using this
        have hu : Obj.update p { l.1 with ts := ts } dt =
            Obj.update { p with rhs := g } { l.1 with ts := ts } dt := by
          unfold Obj.update at hno2 ⊢
          simp only at hno2 ⊢
          cases hy : l.1.ode.executeE p.tab g dt with
          | error e =>
            rw [hy] at hno2
            exact absurd rfl (hno2 _)
          | ok s =>
            rw [he s hy]
            rfl
        rw [hu]

end Verif.Solver
