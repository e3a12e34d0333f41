import Verif.Core.ODESolver
import Verif.Core.RK8
import Mathlib.Algebra.Polynomial.Derivative
import Mathlib.Algebra.Polynomial.Eval.Degree
import Mathlib.Algebra.Polynomial.Eval.SMul
import Mathlib.Algebra.Polynomial.EraseLead
import Mathlib.Algebra.Polynomial.Degree.Lemmas
import Mathlib.Algebra.Module.LinearMap.Basic
import Mathlib.Algebra.Order.Module.Defs
import Mathlib.Analysis.Convex.Basic
import Mathlib.Tactic.FieldSimp

/-!
Properties C53, C54: general properties of the Runge-Kutta methods.
-/

set_option linter.unusedSectionVars false

namespace Verif.ODE

variable {K : Type*} [Field K]
variable {E : Type*} [AddCommGroup E] [Module K E]
variable {F : Type*} [AddCommGroup F] [Module K F]

/-! ### C53: linear invariants -/

theorem linear_step (T : Tableau K) (f : K → E → E) (L : E →ₗ[K] F)
    (hL : ∀ t u, L (f t u) = 0) (s : Solver K E) (dt : K) :
    L (s.execute T f dt).solution = L s.solution := by
  simp only [Solver.execute, map_add, map_smul, map_list_sum, List.map_map]
  have : ((List.range T.size).map (L ∘ fun i => T.b i •
      (stages T f s.time dt s.solution T.size).getD i 0)).sum = 0 := by
    apply List.sum_eq_zero
    intro x hx
    obtain ⟨i, hi, rfl⟩ := List.mem_map.mp hx
    rw [List.mem_range] at hi
    simp only [Function.comp]
    rw [stages_getD T f _ _ _ _ _ hi, map_smul, hL, smul_zero]
  rw [this, smul_zero, add_zero]

/-- C53, invariants.  Every linear functional vanishing on the right-hand side has the same value
before and after any run of any explicit Runge-Kutta method (any tableau, any steps). -/
theorem C53_linear_invariant (T : Tableau K) (f : K → E → E) (L : E →ₗ[K] F)
    (hL : ∀ t u, L (f t u) = 0) (s : Solver K E) (steps : List K) :
    L (s.run T f steps).solution = L s.solution := by
  unfold Solver.run
  induction steps generalizing s with
  | nil => rfl
  | cons dt steps ih => rw [List.foldl_cons, ih, linear_step T f L hL]

/-- C53, equilibria: a state where the right-hand side vanishes at all times is kept exactly by
any run of any explicit Runge-Kutta method. -/
theorem C53_equilibrium (T : Tableau K) (f : K → E → E) (u : E) (hu : ∀ t, f t u = 0)
    (s : Solver K E) (hs : s.solution = u) (steps : List K) :
    (s.run T f steps).solution = u := by
  unfold Solver.run
  induction steps generalizing s with
  | nil => exact hs
  | cons dt steps ih =>
    rw [List.foldl_cons]
    apply ih
    have hst : ∀ n, ∀ j < n, (stages T f s.time dt s.solution n).getD j 0 = 0 := by
      intro n
      induction n with
      | zero => intro j hj; omega
      | succ n ihn =>
        intro j hj
        rw [stages_getD T f _ _ _ _ _ hj]
        unfold stageValue
        have : ((List.range j).map (fun i => T.A j i •
            (stages T f s.time dt s.solution (n + 1)).getD i 0)).sum = 0 := by
          apply List.sum_eq_zero
          intro x hx
          obtain ⟨i, hi, rfl⟩ := List.mem_map.mp hx
          rw [List.mem_range] at hi
          rw [stages_prefix T f s.time dt s.solution n (n + 1) (by omega) i (by omega),
            ihn i (by omega), smul_zero]
        rw [this, smul_zero, add_zero, hs, hu]
    simp only [Solver.execute]
    have : ((List.range T.size).map (fun i => T.b i •
        (stages T f s.time dt s.solution T.size).getD i 0)).sum = 0 := by
      apply List.sum_eq_zero
      intro x hx
      obtain ⟨i, hi, rfl⟩ := List.mem_map.mp hx
      rw [List.mem_range] at hi
      rw [hst _ i hi, smul_zero]
    rw [this, smul_zero, add_zero, hs]

/-- Non-vacuity of C53: rotation-like exchange between two components conserves their sum. -/
example : ∀ (t : ℚ) (u : ℚ × ℚ),
    (LinearMap.fst ℚ ℚ ℚ + LinearMap.snd ℚ ℚ ℚ) ((fun (_ : ℚ) (u : ℚ × ℚ) => (u.2, -u.2)) t u)
      = 0 := by
  intro t u; simp

/-! ### C53: exactness for polynomials in time -/

open Polynomial in
/-- A tableau whose weights integrate the monomials `x^k`, `k < p`, on `[0,1]` exactly. -/
def QuadratureOrder (T : Tableau K) (p : ℕ) : Prop :=
  ∀ k < p, ((List.range T.size).map (fun i => T.b i * T.c i ^ k)).sum = 1 / ((k : K) + 1)

open Polynomial in
theorem quadrature_exact [CharZero K] (T : Tableau K) (p : ℕ) (hT : QuadratureOrder T p)
    (Q : K[X]) (hQ : Q.natDegree ≤ p) :
    ((List.range T.size).map (fun i => T.b i * (derivative Q).eval (T.c i))).sum =
      Q.eval 1 - Q.eval 0 := by
  refine Polynomial.induction_with_natDegree_le
    (motive := fun Q => ((List.range T.size).map
      (fun i => T.b i * (derivative Q).eval (T.c i))).sum = Q.eval 1 - Q.eval 0)
    p ?_ ?_ ?_ Q hQ
  · simp
  · intro n a _ hn
    rcases Nat.eq_zero_or_pos n with rfl | hpos
    · simp
    · have h := hT (n - 1) (by omega)
      have hn0 : (n : K) ≠ 0 := by exact_mod_cast hpos.ne'
      have hcast : ((n - 1 : ℕ) : K) + 1 = n := by
        have : n - 1 + 1 = n := Nat.sub_add_cancel hpos
        exact_mod_cast this
      have e : ∀ i, T.b i * (derivative (C a * X ^ n)).eval (T.c i) =
          (a * n) * (T.b i * T.c i ^ (n - 1)) := by
        intro i
        simp [derivative_X_pow]; ring
      simp only [e]
      rw [List.sum_map_mul_left, h, hcast]
      simp [hpos.ne', hn0]
  · intro P R _ _ ihP ihR
    simp only [derivative_add, eval_add, mul_add]
    rw [List.sum_map_add, ihP, ihR]
    ring

open Polynomial in
theorem exact_of_quadratureOrder [CharZero K] (T : Tableau K) (p : ℕ) (hT : QuadratureOrder T p)
    (P : K[X]) (hP : P.natDegree ≤ p) (s : Solver K K) (hs : s.solution = P.eval s.time) (dt : K) :
    (s.execute T (fun t _ => (derivative P).eval t) dt).solution = P.eval (s.time + dt) := by
  set Q : K[X] := P.comp (C dt * X + C s.time) with hQ
  have hdeg : Q.natDegree ≤ p := by
    rw [hQ]
    refine le_trans natDegree_comp_le ?_
    refine le_trans (Nat.mul_le_mul_left _ (natDegree_linear_le)) ?_
    omega
  have h := quadrature_exact T p hT Q hdeg
  have e1 : Q.eval 1 = P.eval (s.time + dt) := by simp [hQ, eval_comp, add_comm]
  have e0 : Q.eval 0 = P.eval s.time := by simp [hQ, eval_comp]
  have ed : ∀ x, (derivative Q).eval x = dt * (derivative P).eval (s.time + x * dt) := by
    intro x
    simp only [hQ, derivative_comp, eval_mul, eval_comp]
    simp
    left
    congr 1
    ring
  simp only [Solver.execute, hs]
  rw [← e1, ← e0]
  rw [eq_comm, ← sub_eq_iff_eq_add', ← h, smul_eq_mul, ← List.sum_map_mul_left]
  congr 1
  apply List.map_congr_left
  intro i hi
  rw [List.mem_range] at hi
  rw [stages_getD _ _ _ _ _ _ _ hi, ed, smul_eq_mul, timeNode]
  ring

/-- C53, polynomial exactness: if the right-hand side is the derivative of a polynomial in time of
degree at most 1 (forward Euler), 2 (Heun), 3 (SSP3), 8 (RK8), then one step with any step size is
exact. -/
theorem C53_polynomial_exact (P : Polynomial ℝ) (s : Solver ℝ ℝ) (hs : s.solution = P.eval s.time)
    (dt : ℝ) :
    (P.natDegree ≤ 1 → (s.execute (forwardEuler ℝ) (fun t _ => P.derivative.eval t) dt).solution =
      P.eval (s.time + dt)) ∧
    (P.natDegree ≤ 2 → (s.execute (heun ℝ) (fun t _ => P.derivative.eval t) dt).solution =
      P.eval (s.time + dt)) ∧
    (P.natDegree ≤ 3 → (s.execute (ssp3 ℝ) (fun t _ => P.derivative.eval t) dt).solution =
      P.eval (s.time + dt)) ∧
    (P.natDegree ≤ 8 → (s.execute rk8 (fun t _ => P.derivative.eval t) dt).solution =
      P.eval (s.time + dt)) := by
  refine ⟨fun h => exact_of_quadratureOrder _ _ ?_ P h s hs dt,
    fun h => exact_of_quadratureOrder _ _ ?_ P h s hs dt,
    fun h => exact_of_quadratureOrder _ _ ?_ P h s hs dt,
    fun h => exact_of_quadratureOrder _ _ ?_ P h s hs dt⟩
  · intro k hk
    obtain rfl : k = 0 := by omega
    simp [forwardEuler]
  · intro k hk
    have : k = 0 ∨ k = 1 := by omega
    rcases this with rfl | rfl <;> norm_num [heun, List.range_succ]
  · intro k hk
    have : k = 0 ∨ k = 1 ∨ k = 2 := by omega
    rcases this with rfl | rfl | rfl <;> norm_num [ssp3, List.range_succ]
  · intro k hk
    have hsum : ((List.range rk8.size).map (fun i => rk8.b i * rk8.c i ^ k)).sum =
        1 / 20 * (0 : ℝ) ^ k + 49 / 180 * (1 / 2 - √21 / 14) ^ k + 16 / 45 * (1 / 2) ^ k +
          49 / 180 * (1 / 2 + √21 / 14) ^ k + 1 / 20 * 1 ^ k := by
      have hsz : rk8.size = 11 := rfl
      rw [hsz]
      have hn := fun i hi => rk8_nodes (√21) i hi
      simp only [List.range_succ, List.range_zero, List.map_append, List.map_cons, List.map_nil,
        List.nil_append, List.sum_append, List.sum_cons, List.sum_nil, rk8]
      rw [hn 0 (by norm_num), hn 1 (by norm_num), hn 2 (by norm_num), hn 3 (by norm_num),
        hn 4 (by norm_num), hn 5 (by norm_num), hn 6 (by norm_num), hn 7 (by norm_num),
        hn 8 (by norm_num), hn 9 (by norm_num), hn 10 (by norm_num)]
      simp [rk8Of, rk8Weights]
    rw [hsum]
    have h21 : √(21 : ℝ) ^ 2 = 21 := Real.sq_sqrt (by norm_num)
    have h4 : √(21 : ℝ) ^ 4 = 441 := by rw [show 4 = 2 * 2 by rfl, pow_mul, h21]; norm_num
    have h6 : √(21 : ℝ) ^ 6 = 9261 := by rw [show 6 = 2 * 3 by rfl, pow_mul, h21]; norm_num
    have : k = 0 ∨ k = 1 ∨ k = 2 ∨ k = 3 ∨ k = 4 ∨ k = 5 ∨ k = 6 ∨ k = 7 := by omega
    rcases this with rfl | rfl | rfl | rfl | rfl | rfl | rfl | rfl <;>
      (ring_nf; try simp only [h21, h4, h6]; norm_num)

/-- Non-vacuity: a polynomial of degree 3. -/
example : (s : Solver ℝ ℝ) → s.solution = (Polynomial.X ^ 3 : Polynomial ℝ).eval s.time →
    (s.execute (ssp3 ℝ) (fun t _ => (Polynomial.X ^ 3 : Polynomial ℝ).derivative.eval t) 2).solution
      = (Polynomial.X ^ 3 : Polynomial ℝ).eval (s.time + 2) :=
  fun s hs => (C53_polynomial_exact _ s hs 2).2.2.1 (by simp)

/-! ### C54 -/

variable [LinearOrder K] [IsStrictOrderedRing K]

/-- C54.  A convex set invariant under forward Euler steps of size `dt` (whatever the time) is
invariant under Heun and SSP3 steps of size `dt`. -/
theorem C54_ssp (f : K → E → E) (dt : K) (S : Set E) (hS : Convex K S)
    (hE : ∀ t, ∀ u ∈ S, u + dt • f t u ∈ S) (s : Solver K E) (hs : s.solution ∈ S) :
    (s.execute (heun K) f dt).solution ∈ S ∧ (s.execute (ssp3 K) f dt).solution ∈ S := by
  set u := s.solution
  set k0 := f s.time u with hk0
  have h1 : u + dt • k0 ∈ S := hE _ _ hs
  set k1 := f (s.time + dt) (u + dt • k0) with hk1
  have h2 : (u + dt • k0) + dt • k1 ∈ S := hE _ _ h1
  constructor
  · rw [execute_heun]
    have := hS hs h2 (a := 1 / 2) (b := 1 / 2) (by norm_num) (by norm_num) (by norm_num)
    convert this using 1
    change u + dt • (((1 : K) / 2) • k0 + ((1 : K) / 2) • k1) = _
    match_scalars <;> ring
  · rw [execute_ssp3]
    have h3 : u + dt • (((1 : K) / 4) • k0 + ((1 : K) / 4) • k1) ∈ S := by
      have := hS hs h2 (a := 3 / 4) (b := 1 / 4) (by norm_num) (by norm_num) (by norm_num)
      convert this using 1
      match_scalars <;> ring
    set k2 := f (s.time + 1 / 2 * dt) (u + dt • (((1 : K) / 4) • k0 + ((1 : K) / 4) • k1)) with hk2
    have h4 := hE (s.time + 1 / 2 * dt) _ h3
    have := hS hs h4 (a := 1 / 3) (b := 2 / 3) (by norm_num) (by norm_num) (by norm_num)
    convert this using 1
    change u + dt • (((1 : K) / 6) • k0 + (((1 : K) / 6) • k1 + ((2 : K) / 3) • k2)) = _
    match_scalars <;> ring

/-- C54 for whole runs: if every step is admissible for forward Euler, no run of forward Euler,
Heun or SSP3 leaves the set. -/
theorem C54_ssp_run (f : K → E → E) (S : Set E) (hS : Convex K S) (steps : List K)
    (hE : ∀ dt ∈ steps, ∀ t, ∀ u ∈ S, u + dt • f t u ∈ S) (s : Solver K E) (hs : s.solution ∈ S) :
    (s.run (forwardEuler K) f steps).solution ∈ S ∧ (s.run (heun K) f steps).solution ∈ S ∧
      (s.run (ssp3 K) f steps).solution ∈ S := by
  unfold Solver.run
  refine ⟨?_, ?_, ?_⟩
  · induction steps generalizing s with
    | nil => exact hs
    | cons dt steps ih =>
      refine ih (fun d hd => hE d (List.mem_cons_of_mem _ hd)) _ ?_
      rw [execute_forwardEuler]
      exact hE dt List.mem_cons_self _ _ hs
  · induction steps generalizing s with
    | nil => exact hs
    | cons dt steps ih =>
      exact ih (fun d hd => hE d (List.mem_cons_of_mem _ hd)) _
        (C54_ssp f dt S hS (hE dt List.mem_cons_self) s hs).1
  · induction steps generalizing s with
    | nil => exact hs
    | cons dt steps ih =>
      exact ih (fun d hd => hE d (List.mem_cons_of_mem _ hd)) _
        (C54_ssp f dt S hS (hE dt List.mem_cons_self) s hs).2

/-- Non-vacuity of C54: decay keeps `[0,1]` invariant for steps in `[0,1]`. -/
example : ∀ t : ℚ, ∀ u ∈ Set.Icc (0 : ℚ) 1, u + (1 / 2 : ℚ) • (fun _ u => -u : ℚ → ℚ → ℚ) t u ∈
    Set.Icc (0 : ℚ) 1 := by
  intro t u hu
  obtain ⟨h0, h1⟩ := hu
  constructor <;> simp only [smul_eq_mul] <;> linarith

end Verif.ODE
