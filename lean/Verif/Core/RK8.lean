import Verif.Core.ODESolver
import Mathlib.Data.Real.Sqrt

/-!
Model of `RungeKutta8` in `core/ode_solver.py`, lines 123-221.
-/

namespace Verif.ODE

/-- `_runge_kutta_matrix` of `RungeKutta8`, lines 140-210.  `r` stands for `sqrt(21)`; entries not
assigned in the code are zero (line 141). -/
def rk8Matrix {K : Type*} [Field K] (r : K) : List (List K) :=
  [ [],
    [1 / 2],
    [1 / 4, 1 / 4],
    [1 / 7, 1 / 98 * (-7 - 3 * r), 1 / 49 * (21 + 5 * r)],
    [1 / 84 * (11 + r), 0, 1 / 63 * (18 + 4 * r), 1 / 252 * (21 - r)],
    [1 / 48 * (5 + r), 0, 1 / 36 * (9 + r), 1 / 360 * (-231 + 14 * r), 1 / 80 * (63 - 7 * r)],
    [1 / 42 * (10 - r), 0, 1 / 315 * (-432 + 92 * r), 1 / 90 * (633 - 145 * r),
      1 / 70 * (-504 + 115 * r), 1 / 35 * (63 - 13 * r)],
    [1 / 14, 0, 0, 0, 1 / 126 * (14 - 3 * r), 1 / 63 * (13 - 3 * r), 1 / 9],
    [1 / 32, 0, 0, 0, 1 / 576 * (91 - 21 * r), 11 / 72, 1 / 1152 * (-385 - 75 * r),
      1 / 128 * (63 + 13 * r)],
    [1 / 14, 0, 0, 0, 1 / 9, 1 / 2205 * (-733 - 147 * r), 1 / 504 * (515 + 111 * r),
      1 / 56 * (-51 - 11 * r), 1 / 245 * (132 + 28 * r)],
    [0, 0, 0, 0, 1 / 18 * (-42 + 7 * r), 1 / 45 * (-18 + 28 * r), 1 / 72 * (-273 - 53 * r),
      1 / 72 * (301 + 53 * r), 1 / 45 * (28 - 28 * r), 1 / 18 * (49 - 7 * r)] ]

/-- `_weights`, lines 212-218. -/
def rk8Weights {K : Type*} [Field K] : List K :=
  [1 / 20, 0, 0, 0, 0, 0, 0, 49 / 180, 16 / 45, 49 / 180, 1 / 20]

/-- `RungeKutta8` with `r` for `sqrt(21)`; `_build_nodes` (lines 220-221) takes the row sums. -/
def rk8Of {K : Type*} [Field K] (r : K) : Tableau K where
  size := 11
  A := table (rk8Matrix r)
  b := fun i => rk8Weights.getD i 0
  c := fun i => ((List.range 11).map (table (rk8Matrix r) i)).sum

/-- `RungeKutta8` over the real numbers. -/
noncomputable def rk8 : Tableau ℝ := rk8Of (Real.sqrt 21)

/-- The nodes of `RungeKutta8`. -/
theorem rk8_nodes {K : Type*} [Field K] [CharZero K] (r : K) (i : ℕ) (hi : i < 11) :
    (rk8Of r).c i = [0, 1 / 2, 1 / 2, 1 / 2 + r / 14, 1 / 2 + r / 14, 1 / 2, 1 / 2 - r / 14,
      1 / 2 - r / 14, 1 / 2, 1 / 2 + r / 14, 1].getD i 0 := by
  have : i = 0 ∨ i = 1 ∨ i = 2 ∨ i = 3 ∨ i = 4 ∨ i = 5 ∨ i = 6 ∨ i = 7 ∨ i = 8 ∨ i = 9 ∨ i = 10 := by
    omega
  rcases this with rfl | rfl | rfl | rfl | rfl | rfl | rfl | rfl | rfl | rfl | rfl <;>
    (simp [rk8Of, rk8Matrix, table, List.range_succ]; try ring)

end Verif.ODE
