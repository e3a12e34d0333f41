import Verif.Props.FELowFV

/-!
C113: the error of the low order finite element solver with linear elements, for linear advection and for
Burgers' equation before the shock.
-/

set_option linter.unusedSectionVars false

namespace Verif.FE

open Verif.Py Verif.Boundary Verif.FV Verif.ODE Verif.Scalar Verif.Convergence
open Verif.Interpolate Verif.Quadrature Verif.Bench
open Verif.Mesh hiding Error
open Verif.FE hiding upwind

/-! ### Helper lemmas: the finite element function with linear elements -/

/-- The position of `x` in cell `c`, between 0 and 1. -/
noncomputable def place (d : Interval ℝ) (n c : ℕ) (x : ℝ) : ℝ :=
  (x - (d.a + c * ((d.b - d.a) / n))) / ((d.b - d.a) / n)

/-- The piecewise linear function with the values `u` at the nodes, on cell `c`. -/
noncomputable def linearValue (d : Interval ℝ) (n : ℕ) (u : Fin n → ℝ) (c : ℕ) (x : ℝ) : ℝ :=
  (1 - place d n c x) * around u c + place d n c x * around u (c + 1)

theorem around_nat {n : ℕ} (u : Fin n → ℝ) (k : ℕ) (hn : 0 < n) :
    around u k = (List.ofFn u).getD (k % n) 0 := by
  have hk : k % n < n := Nat.mod_lt _ hn
  have e : ((k : ℤ) % n).toNat = k % n := by
    rw [← Int.natCast_mod, Int.toNat_natCast]
  unfold around
  simp only [e, dif_pos hk]
  rw [List.getD_eq_getElem _ _ (by simpa using hk), List.getElem_ofFn]

theorem linear_value {gauss d n s m C} (h : Setup gauss d n 1 s m C) (u : Fin n → ℝ) :
    Values s (List.ofFn u) (linearValue d n u) := by
  obtain ⟨s1, s2, s3, -⟩ := setup_facts h
  obtain ⟨-, -, -, -, s4⟩ := make_spec d h.domain n 1 h.meshSize s h.space
  rw [mul_one] at s3
  have hn := h.meshSize
  refine ⟨by simp [s3], fun c hc x => ?_⟩
  rw [value_eq s (by omega) _ (by simp [s3]) c hc]
  congr 1
  obtain ⟨i0, i1⟩ := linear_idx s s1 c hc
  unfold Space.poly
  have hx : affineInverse x (s.cell c) = place d n c x := by
    rw [s4 c (by omega)]
    unfold affineInverse place Interval.length Mesh.node
    push_cast
    congr 1
    ring
  rw [hx, s1, Finset.sum_range_succ, Finset.sum_range_one, i0, i1, basis_one_zero, basis_one_one, s2]
  unfold linearValue
  have e := around_nat u (c + 1) hn
  have e0 := around_nat u c hn
  rw [Nat.mod_eq_of_lt (by omega)] at e0
  push_cast at e
  rw [e0, e]
  simp only [Polynomial.eval_add, Polynomial.eval_mul, Polynomial.eval_C, Polynomial.eval_sub,
    Polynomial.eval_one, Polynomial.eval_X]
  ring

section Cell

variable {d : Interval ℝ} {n : ℕ} (hd : d.a < d.b) (hn : 0 < n)
include hd hn

theorem place_bounds {c : ℕ} {x : ℝ} (hx : InCell d n c x) :
    0 ≤ place d n c x ∧ place d n c x ≤ 1 ∧
      x = d.a + c * ((d.b - d.a) / n) + place d n c x * ((d.b - d.a) / n) := by
  have hn0 : (0 : ℝ) < n := by exact_mod_cast hn
  have hdx : 0 < (d.b - d.a) / n := div_pos (by linarith) hn0
  unfold InCell Mesh.node at hx
  push_cast at hx
  unfold place
  generalize (d.b - d.a) / n = dx at *
  refine ⟨div_nonneg (by linarith [hx.1]) hdx.le, (div_le_one hdx).mpr (by linarith [hx.2]), ?_⟩
  field_simp
  ring

/-- The error at a point, by the errors at the two nodes of its cell and the error of the linear
interpolation of the exact solution `g`. -/
theorem value_error (u : Fin n → ℝ) (g : ℝ → ℝ) {c : ℕ} {x : ℝ} (hx : InCell d n c x) :
    |linearValue d n u c x - g x| ≤
      (1 - place d n c x) * |around u c - g (d.a + c * ((d.b - d.a) / n))| +
      place d n c x * |around u (c + 1) - g (d.a + (c + 1 : ℝ) * ((d.b - d.a) / n))| +
      |(1 - place d n c x) * g (d.a + c * ((d.b - d.a) / n)) +
        place d n c x * g (d.a + (c + 1 : ℝ) * ((d.b - d.a) / n)) - g x| := by
  obtain ⟨p0, p1, -⟩ := place_bounds hd hn hx
  unfold linearValue
  set θ := place d n c x
  set a := around u c
  set b := around u (c + 1)
  set ga := g (d.a + c * ((d.b - d.a) / n))
  set gb := g (d.a + (c + 1 : ℝ) * ((d.b - d.a) / n))
  have e : (1 - θ) * a + θ * b - g x = (1 - θ) * (a - ga) + θ * (b - gb) + ((1 - θ) * ga + θ * gb - g x) := by
    ring
  rw [e]
  refine (abs_add_le _ _).trans (add_le_add ((abs_add_le _ _).trans ?_) le_rfl)
  rw [abs_mul, abs_mul, abs_of_nonneg p0, abs_of_nonneg (by linarith : 0 ≤ 1 - θ)]

theorem interpolation_lipschitz (g : ℝ → ℝ) (L : ℝ) (hL : ∀ x y, |g x - g y| ≤ L * |x - y|) {c : ℕ} {x : ℝ}
    (hx : InCell d n c x) :
    |(1 - place d n c x) * g (d.a + c * ((d.b - d.a) / n)) +
        place d n c x * g (d.a + (c + 1 : ℝ) * ((d.b - d.a) / n)) - g x| ≤ L * ((d.b - d.a) / n / 2) := by
  have hn0 : (0 : ℝ) < n := by exact_mod_cast hn
  have hdx : 0 < (d.b - d.a) / n := div_pos (by linarith) hn0
  obtain ⟨p0, p1, p2⟩ := place_bounds hd hn hx
  set θ := place d n c x
  set dx := (d.b - d.a) / n
  have hL0 : 0 ≤ L := by
    have := (abs_nonneg _).trans (hL 1 0)
    simpa using this
  have k1 := hL (d.a + c * dx) x
  have k2 := hL (d.a + (c + 1 : ℝ) * dx) x
  rw [show d.a + c * dx - x = -(θ * dx) by linarith, abs_neg, abs_of_nonneg (mul_nonneg p0 hdx.le)] at k1
  rw [show d.a + (c + 1 : ℝ) * dx - x = (1 - θ) * dx by linarith,
    abs_of_nonneg (mul_nonneg (by linarith) hdx.le)] at k2
  have e : (1 - θ) * g (d.a + c * dx) + θ * g (d.a + (c + 1 : ℝ) * dx) - g x =
      (1 - θ) * (g (d.a + c * dx) - g x) + θ * (g (d.a + (c + 1 : ℝ) * dx) - g x) := by ring
  rw [e]
  refine (abs_add_le _ _).trans ?_
  rw [abs_mul, abs_mul, abs_of_nonneg p0, abs_of_nonneg (by linarith : 0 ≤ 1 - θ)]
  have k3 := mul_le_mul_of_nonneg_left k1 (by linarith : 0 ≤ 1 - θ)
  have k4 := mul_le_mul_of_nonneg_left k2 p0
  have k5 : θ * (1 - θ) ≤ 1 / 4 := by nlinarith [sq_nonneg (θ - 1 / 2)]
  have k6 : L * dx * (θ * (1 - θ)) ≤ L * dx * (1 / 4) := mul_le_mul_of_nonneg_left k5 (by positivity)
  nlinarith

theorem interpolation_smooth (g D : ℝ → ℝ) (M : ℝ) (hM : 0 ≤ M)
    (hg : ∀ x y, |g y - g x - D x * (y - x)| ≤ M / 2 * (y - x) ^ 2) {c : ℕ} {x : ℝ}
    (hx : InCell d n c x) :
    |(1 - place d n c x) * g (d.a + c * ((d.b - d.a) / n)) +
        place d n c x * g (d.a + (c + 1 : ℝ) * ((d.b - d.a) / n)) - g x| ≤ M / 8 * ((d.b - d.a) / n) ^ 2 := by
  have hn0 : (0 : ℝ) < n := by exact_mod_cast hn
  have hdx : 0 < (d.b - d.a) / n := div_pos (by linarith) hn0
  obtain ⟨p0, p1, p2⟩ := place_bounds hd hn hx
  set θ := place d n c x
  set dx := (d.b - d.a) / n
  have k1 := hg x (d.a + c * dx)
  have k2 := hg x (d.a + (c + 1 : ℝ) * dx)
  have e1 : d.a + c * dx - x = -(θ * dx) := by linarith
  have e2 : d.a + (c + 1 : ℝ) * dx - x = (1 - θ) * dx := by linarith
  rw [e1] at k1
  rw [e2] at k2
  have e : (1 - θ) * g (d.a + c * dx) + θ * g (d.a + (c + 1 : ℝ) * dx) - g x =
      (1 - θ) * (g (d.a + c * dx) - g x - D x * -(θ * dx)) +
        θ * (g (d.a + (c + 1 : ℝ) * dx) - g x - D x * ((1 - θ) * dx)) := by ring
  rw [e]
  refine (abs_add_le _ _).trans ?_
  rw [abs_mul, abs_mul, abs_of_nonneg p0, abs_of_nonneg (by linarith : 0 ≤ 1 - θ)]
  have k3 := mul_le_mul_of_nonneg_left k1 (by linarith : 0 ≤ 1 - θ)
  have k4 := mul_le_mul_of_nonneg_left k2 p0
  have k5 : θ * (1 - θ) ≤ 1 / 4 := by nlinarith [sq_nonneg (θ - 1 / 2)]
  have k6 : M / 2 * dx ^ 2 * (θ * (1 - θ)) ≤ M / 2 * dx ^ 2 * (1 / 4) :=
    mul_le_mul_of_nonneg_left k5 (by positivity)
  have e3 : (1 - θ) * (M / 2 * (-(θ * dx)) ^ 2) + θ * (M / 2 * ((1 - θ) * dx) ^ 2) =
      M / 2 * dx ^ 2 * (θ * (1 - θ)) := by ring
  linarith

/-- The node values of a periodic function. -/
theorem around_nodes (f : ℝ → ℝ) (hf : ∀ x, f (x + (d.b - d.a)) = f x) (z : ℤ) :
    around (fun i : Fin n => f (d.a + i * ((d.b - d.a) / n))) z = f (d.a + z * ((d.b - d.a) / n)) := by
  have hn0 : (n : ℝ) ≠ 0 := by exact_mod_cast hn.ne'
  obtain ⟨i, q, rfl⟩ := around_exists hn z
  rw [around_shift, around_cell]
  have := Function.Periodic.int_mul hf q (d.a + i * ((d.b - d.a) / n))
  rw [← this]
  congr 1
  push_cast
  field_simp
  ring

end Cell

section Advection

variable {gauss : ℕ → List (ℝ × ℝ)} {d : Interval ℝ} {n : ℕ} {s : Space ℝ} {m : List ℝ} {C : SysMatrix ℝ}
  (h : Setup gauss d n 1 s m C) (h3 : 3 ≤ n) (T : Tableau ℝ)
  (hT : T = forwardEuler ℝ ∨ T = heun ℝ ∨ T = ssp3 ℝ) (steps : List ℝ)
  (hsteps : ∀ dt ∈ steps, 0 ≤ dt ∧ dt ≤ (d.b - d.a) / n) (f : ℝ → ℝ)
  (hf : ∀ x, f (x + (d.b - d.a)) = f x)
include h h3 hT hsteps hf

theorem nodes_spread (t₀ : ℝ) :
    ∃ s', (Solver.init (fun i : Fin n => f (d.a + i * ((d.b - d.a) / n))) t₀).runE T
        (vecRhs n fun _ => lowRhs .advection m C) steps = .ok s' ∧ s'.time = t₀ + steps.sum ∧
      Spread (steps.sum / ((d.b - d.a) / n)) (fun z : ℤ => f (d.a + z * ((d.b - d.a) / n)))
        (around s'.solution) := by
  have hn := h.meshSize
  have hd := h.domain
  have hn0 : (0 : ℝ) < n := by exact_mod_cast hn
  have hdx : 0 < (d.b - d.a) / n := div_pos (by linarith) hn0
  obtain ⟨bc, hbc⟩ : ∃ bc : BC ℝ ℝ, build none ["periodic"] 1 none none = .ok bc := ⟨_, rfl⟩
  obtain ⟨s', h1, h2, h4⟩ := C103_average hn none none none bc hbc _ hdx T hT steps hsteps
    (Solver.init (fun i : Fin n => f (d.a + i * ((d.b - d.a) / n))) t₀)
  rw [← C112_runs h h3 .advection none none none bc hbc T hT steps _ 0 0 (fun e => by cases e)] at h1
  refine ⟨s', h1, h2, ?_⟩
  have e : around (Solver.init (fun i : Fin n => f (d.a + i * ((d.b - d.a) / n))) t₀).solution =
      fun z : ℤ => f (d.a + z * ((d.b - d.a) / n)) := by
    funext z
    exact around_nodes hd hn f hf z
  rwa [e] at h4

/-- C113.  Linear advection, data with Lipschitz constant `L`: from the node values of `f`, the finite
element function at time `S = steps.sum` differs from the exact solution at time `τ` by at most
`L (dx / 2 + √(S dx) + |S - τ|)`, at every point. -/
theorem C113_lipschitz (L : ℝ) (hL : ∀ x y, |f x - f y| ≤ L * |x - y|) (t₀ τ : ℝ) :
    ∃ s' U, (Solver.init (fun i : Fin n => f (d.a + i * ((d.b - d.a) / n))) t₀).runE T
        (vecRhs n fun _ => lowRhs .advection m C) steps = .ok s' ∧ s'.time = t₀ + steps.sum ∧
      Values s (List.ofFn s'.solution) U ∧
      ∀ (c : Fin n) (x : ℝ), InCell d n c x → |U c x - f (x - τ)| ≤
        L * ((d.b - d.a) / n / 2 + Real.sqrt (steps.sum * ((d.b - d.a) / n)) + |steps.sum - τ|) := by
  obtain ⟨s', h1, h2, h4⟩ := nodes_spread h h3 T hT steps hsteps f hf t₀
  refine ⟨s', _, h1, h2, linear_value h _, fun c x hx => ?_⟩
  have hn := h.meshSize
  have hd := h.domain
  have hn0 : (0 : ℝ) < n := by exact_mod_cast hn
  have hdx : 0 < (d.b - d.a) / n := div_pos (by linarith) hn0
  have hL0 : 0 ≤ L := by
    have := (abs_nonneg _).trans (hL 1 0)
    simpa using this
  have hS : 0 ≤ steps.sum := List.sum_nonneg fun _ h => (hsteps _ h).1
  have k := spread_lipschitz h4 f L d.a _ τ hL0 hdx hL (fun _ => rfl)
  have e1 := value_error hd hn s'.solution (fun x => f (x - τ)) hx
  have e2 := interpolation_lipschitz hd hn (fun x => f (x - τ)) L
    (fun x y => by have := hL (x - τ) (y - τ); rwa [sub_sub_sub_cancel_right] at this) hx
  obtain ⟨p0, p1, -⟩ := place_bounds hd hn hx
  have k0 := k (c : ℕ)
  have k1 := k ((c : ℕ) + 1)
  have e3 : (d.b - d.a) / n * Real.sqrt (steps.sum / ((d.b - d.a) / n)) =
      Real.sqrt (steps.sum * ((d.b - d.a) / n)) := by
    symm
    rw [Real.sqrt_eq_iff_mul_self_eq (by positivity) (by positivity)]
    rw [mul_mul_mul_comm, Real.mul_self_sqrt (by positivity)]
    field_simp
  rw [e3, div_mul_cancel₀ _ hdx.ne'] at k0 k1
  push_cast at k0 k1
  have j0 := mul_le_mul_of_nonneg_left k0 (by linarith : 0 ≤ 1 - place d n c x)
  have j1 := mul_le_mul_of_nonneg_left k1 p0
  nlinarith

/-- C113.  Linear advection, data whose derivative has Lipschitz constant `M`: the error is at most
`M / 2 S dx + M / 8 dx² + L |S - τ|`, at every point. -/
theorem C113_smooth (L : ℝ) (hL : ∀ x y, |f x - f y| ≤ L * |x - y|) (D : ℝ → ℝ)
    (hD : ∀ x, HasDerivAt f (D x) x) (M : ℝ) (hM : ∀ x y, |D x - D y| ≤ M * |x - y|) (t₀ τ : ℝ) :
    ∃ s' U, (Solver.init (fun i : Fin n => f (d.a + i * ((d.b - d.a) / n))) t₀).runE T
        (vecRhs n fun _ => lowRhs .advection m C) steps = .ok s' ∧ s'.time = t₀ + steps.sum ∧
      Values s (List.ofFn s'.solution) U ∧
      ∀ (c : Fin n) (x : ℝ), InCell d n c x → |U c x - f (x - τ)| ≤
        M / 2 * steps.sum * ((d.b - d.a) / n) + M / 8 * ((d.b - d.a) / n) ^ 2 + L * |steps.sum - τ| := by
  obtain ⟨s', h1, h2, h4⟩ := nodes_spread h h3 T hT steps hsteps f hf t₀
  refine ⟨s', _, h1, h2, linear_value h _, fun c x hx => ?_⟩
  have hn := h.meshSize
  have hd := h.domain
  have hn0 : (0 : ℝ) < n := by exact_mod_cast hn
  have hdx : 0 < (d.b - d.a) / n := div_pos (by linarith) hn0
  have hM0 : 0 ≤ M := by
    have := (abs_nonneg _).trans (hM 1 0)
    simpa using this
  have htay := taylor_bound f D M hD hM
  have k := spread_smooth h4 f D M d.a _ htay hM0 (fun _ => rfl)
  have e1 := value_error hd hn s'.solution (fun x => f (x - steps.sum)) hx
  have e2 := interpolation_smooth hd hn (fun x => f (x - steps.sum)) (fun x => D (x - steps.sum)) M hM0
    (fun x y => by
      have := htay (x - steps.sum) (y - steps.sum)
      rwa [sub_sub_sub_cancel_right] at this) hx
  obtain ⟨p0, p1, -⟩ := place_bounds hd hn hx
  have k0 := k (c : ℕ)
  have k1 := k ((c : ℕ) + 1)
  have e3 : M / 2 * ((d.b - d.a) / n) ^ 2 * (steps.sum / ((d.b - d.a) / n)) =
      M / 2 * steps.sum * ((d.b - d.a) / n) := by
    field_simp
  rw [e3, div_mul_cancel₀ _ hdx.ne'] at k0 k1
  push_cast at k0 k1
  have j0 := mul_le_mul_of_nonneg_left k0 (by linarith : 0 ≤ 1 - place d n c x)
  have j1 := mul_le_mul_of_nonneg_left k1 p0
  have e4 := hL (x - steps.sum) (x - τ)
  rw [show x - steps.sum - (x - τ) = -(steps.sum - τ) by ring, abs_neg] at e4
  have e5 := abs_sub_le (linearValue d n s'.solution c x) (f (x - steps.sum)) (f (x - τ))
  nlinarith

/-- C113.  Linear advection, data of bounded variation, jumps included (`V` is the variation over a
period): the mean error is at most `V (2 √(S dx) + 2 |S - τ| + 3 dx)`, whichever points of the cells are
compared. -/
theorem C113_variation (G : ℝ → ℝ) (V : ℝ) (hG : Majorant f G (d.b - d.a) V) (t₀ τ : ℝ) :
    ∃ s' U, (Solver.init (fun i : Fin n => f (d.a + i * ((d.b - d.a) / n))) t₀).runE T
        (vecRhs n fun _ => lowRhs .advection m C) steps = .ok s' ∧ s'.time = t₀ + steps.sum ∧
      Values s (List.ofFn s'.solution) U ∧
      ∀ x : Fin n → ℝ, (∀ c : Fin n, InCell d n c (x c)) →
        (d.b - d.a) / n * ∑ c : Fin n, |U c (x c) - f (x c - τ)| ≤
          V * (2 * Real.sqrt (steps.sum * ((d.b - d.a) / n)) + 2 * |steps.sum - τ| + 3 * ((d.b - d.a) / n)) := by
  obtain ⟨s', h1, h2, h4⟩ := nodes_spread h h3 T hT steps hsteps f hf t₀
  refine ⟨s', _, h1, h2, linear_value h _, fun x hx => ?_⟩
  have hn := h.meshSize
  have hd := h.domain
  have hn0 : (0 : ℝ) < n := by exact_mod_cast hn
  have hdx : 0 < (d.b - d.a) / n := div_pos (by linarith) hn0
  have hS : 0 ≤ steps.sum := List.sum_nonneg fun _ h => (hsteps _ h).1
  have hG' : Majorant f G (n * ((d.b - d.a) / n)) V := by
    have : (n : ℝ) * ((d.b - d.a) / n) = d.b - d.a := by field_simp
    rwa [this]
  set dx := (d.b - d.a) / n with hdx'
  have k1 := spread_variation h4 f G V d.a dx τ n hdx hG' (fun _ => rfl)
  -- the same errors, one node further
  have k3 : ∑ c : Fin n, |around s'.solution ((c : ℕ) + 1 : ℤ) - f (d.a + ((c : ℕ) + 1 : ℝ) * dx - τ)| ≤
      V * (Real.sqrt (steps.sum / dx) + |steps.sum / dx - τ / dx| + 1) := by
    refine le_trans (le_of_eq ?_) k1
    rw [Fin.sum_univ_eq_sum_range (fun c : ℕ => |around s'.solution ((c : ℕ) + 1 : ℤ) -
      f (d.a + ((c : ℕ) + 1 : ℝ) * dx - τ)|) n]
    have e := Finset.sum_range_succ (fun c : ℕ => |around s'.solution ((c : ℕ) : ℤ) -
      f (d.a + ((c : ℕ) : ℝ) * dx - τ)|) n
    rw [Finset.sum_range_succ'] at e
    push_cast at e
    have e2 : |around s'.solution (n : ℤ) - f (d.a + (n : ℝ) * dx - τ)| =
        |around s'.solution (0 : ℤ) - f (d.a + 0 * dx - τ)| := by
      have a1 := around_periodic s'.solution 0
      rw [zero_add] at a1
      have a2 := hf (d.a + 0 * dx - τ)
      rw [a1, ← a2]
      congr 3
      rw [hdx']; field_simp; ring
    rw [e2] at e
    exact add_right_cancel e
  have k4 : ∑ c : Fin n, (G (d.a + ((c : ℕ) + 1 : ℝ) * dx - τ) - G (d.a + ((c : ℕ) : ℝ) * dx - τ)) = V := by
    have := hG'.sum_step (d.a - τ) 1
    rw [Nat.cast_one, one_mul, one_mul] at this
    rw [← this, ← Fin.sum_univ_eq_sum_range (fun z => G (d.a - τ + (z : ℕ) * dx + dx) - G (d.a - τ + (z : ℕ) * dx))]
    refine Finset.sum_congr rfl fun c _ => ?_
    congr 2 <;> ring
  rw [← Fin.sum_univ_eq_sum_range (fun z : ℕ => |around s'.solution (z : ℤ) - f (d.a + (z : ℝ) * dx - τ)|)] at k1
  have k5 : ∑ c : Fin n, |linearValue d n s'.solution c (x c) - f (x c - τ)| ≤
      2 * (V * (Real.sqrt (steps.sum / dx) + |steps.sum / dx - τ / dx| + 1)) + V := by
    have : ∀ c : Fin n, |linearValue d n s'.solution c (x c) - f (x c - τ)| ≤
        |around s'.solution ((c : ℕ) : ℤ) - f (d.a + ((c : ℕ) : ℝ) * dx - τ)| +
        |around s'.solution ((c : ℕ) + 1 : ℤ) - f (d.a + ((c : ℕ) + 1 : ℝ) * dx - τ)| +
        (G (d.a + ((c : ℕ) + 1 : ℝ) * dx - τ) - G (d.a + ((c : ℕ) : ℝ) * dx - τ)) := by
      intro c
      obtain ⟨p0, p1, p2⟩ := place_bounds hd hn (hx c)
      have e1 := value_error hd hn s'.solution (fun x => f (x - τ)) (hx c)
      simp only [← hdx'] at e1 p2
      set θ := place d n c (x c)
      have b1 := hG'.bound (d.a + ((c : ℕ) : ℝ) * dx - τ) (x c - τ) (by
        have : 0 ≤ θ * dx := by positivity
        linarith)
      have b2 := hG'.bound (x c - τ) (d.a + ((c : ℕ) + 1 : ℝ) * dx - τ) (by
        have : θ * dx ≤ 1 * dx := mul_le_mul_of_nonneg_right p1 hdx.le
        linarith)
      have m1 := hG'.mono (show d.a + ((c : ℕ) : ℝ) * dx - τ ≤ x c - τ by
        have : 0 ≤ θ * dx := by positivity
        linarith)
      have m2 := hG'.mono (show x c - τ ≤ d.a + ((c : ℕ) + 1 : ℝ) * dx - τ by
        have : θ * dx ≤ 1 * dx := mul_le_mul_of_nonneg_right p1 hdx.le
        linarith)
      have e2 : |(1 - θ) * f (d.a + ((c : ℕ) : ℝ) * dx - τ) + θ * f (d.a + ((c : ℕ) + 1 : ℝ) * dx - τ) -
          f (x c - τ)| ≤ G (d.a + ((c : ℕ) + 1 : ℝ) * dx - τ) - G (d.a + ((c : ℕ) : ℝ) * dx - τ) := by
        rw [abs_sub_comm] at b1
        have e : (1 - θ) * f (d.a + ((c : ℕ) : ℝ) * dx - τ) + θ * f (d.a + ((c : ℕ) + 1 : ℝ) * dx - τ) -
          f (x c - τ) = (1 - θ) * (f (d.a + ((c : ℕ) : ℝ) * dx - τ) - f (x c - τ)) +
            θ * (f (d.a + ((c : ℕ) + 1 : ℝ) * dx - τ) - f (x c - τ)) := by ring
        rw [e]
        refine (abs_add_le _ _).trans ?_
        rw [abs_mul, abs_mul, abs_of_nonneg p0, abs_of_nonneg (by linarith : 0 ≤ 1 - θ)]
        have j1 := mul_le_mul_of_nonneg_left b1 (by linarith : 0 ≤ 1 - θ)
        have j2 := mul_le_mul_of_nonneg_left b2 p0
        nlinarith
      have j0 := mul_le_of_le_one_left (abs_nonneg (around s'.solution ((c : ℕ) : ℤ) -
        f (d.a + ((c : ℕ) : ℝ) * dx - τ))) (by linarith : 1 - θ ≤ 1)
      have j1 := mul_le_of_le_one_left (abs_nonneg (around s'.solution ((c : ℕ) + 1 : ℤ) -
        f (d.a + ((c : ℕ) + 1 : ℝ) * dx - τ))) p1
      linarith
    refine (Finset.sum_le_sum fun c _ => this c).trans ?_
    rw [Finset.sum_add_distrib, Finset.sum_add_distrib, k4]
    linarith
  have e1 : dx * Real.sqrt (steps.sum / dx) = Real.sqrt (steps.sum * dx) := by
    symm
    rw [Real.sqrt_eq_iff_mul_self_eq (by positivity) (by positivity)]
    rw [mul_mul_mul_comm, Real.mul_self_sqrt (by positivity)]
    field_simp
  have e2 : dx * |steps.sum / dx - τ / dx| = |steps.sum - τ| := by
    rw [← abs_of_pos hdx, ← abs_mul, abs_of_pos hdx]; congr 1; field_simp
  calc dx * ∑ c : Fin n, |linearValue d n s'.solution c (x c) - f (x c - τ)|
      ≤ dx * (2 * (V * (Real.sqrt (steps.sum / dx) + |steps.sum / dx - τ / dx| + 1)) + V) :=
        mul_le_mul_of_nonneg_left k5 hdx.le
    _ = V * (2 * (dx * Real.sqrt (steps.sum / dx)) + 2 * (dx * |steps.sum / dx - τ / dx|) + 3 * dx) := by ring
    _ = _ := by rw [e1, e2]

end Advection

/-! ### Burgers' equation -/

/-- C113.  Burgers' equation before the shock: data as in C110, `u` is the exact solution by
characteristics.  From the node values of `f` the mean error of the finite element function at time
`t = steps.sum ≤ S` is at most `(5/2 L' + 4 C t) dx` per length, `C = 2 L'² + M B'`, whichever points of the
cells are compared. -/
theorem C113_burgers {gauss : ℕ → List (ℝ × ℝ)} {d : Interval ℝ} {n : ℕ} {s : Space ℝ} {m : List ℝ}
    {A : SysMatrix ℝ} (h : Setup gauss d n 1 s m A) (h3 : 3 ≤ n) {lo M L B c S : ℝ} {f f' : ℝ → ℝ}
    {u : ℝ → ℝ → ℝ} (hf : BeforeShock (d.b - d.a) lo M L B c S f f') (hu : Characteristics f S u)
    (T : Tableau ℝ) (hT : T = forwardEuler ℝ ∨ T = heun ℝ ∨ T = ssp3 ℝ) (steps : List ℝ)
    (hsteps : ∀ dt ∈ steps, 0 ≤ dt ∧ 2 * dt * M ≤ (d.b - d.a) / n) (h1 : steps.sum ≤ S) (t₀ : ℝ) :
    ∃ s' U, (Solver.init (fun i : Fin n => f (d.a + i * ((d.b - d.a) / n))) t₀).runE T
        (vecRhs n fun _ => lowRhs .burgers m A) steps = .ok s' ∧ s'.time = t₀ + steps.sum ∧
      Values s (List.ofFn s'.solution) U ∧
      ∀ x : Fin n → ℝ, (∀ i : Fin n, InCell d n i (x i)) →
        (d.b - d.a) / n * ∑ i : Fin n, |U i (x i) - u steps.sum (x i)| ≤
          (d.b - d.a) * ((5 / 2 * (L / c) + 4 * (2 * (L / c) ^ 2 + M * (B / c ^ 3)) * steps.sum) *
            ((d.b - d.a) / n)) := by
  have hn := h.meshSize
  have hd := h.domain
  have hn0 : (0 : ℝ) < n := by exact_mod_cast hn
  have hdx : 0 < (d.b - d.a) / n := div_pos (by linarith) hn0
  obtain ⟨bc, hbc⟩ : ∃ bc : BC ℝ ℝ, build none ["periodic"] 1 none none = .ok bc := ⟨_, rfl⟩
  have hsum : 0 ≤ steps.sum := List.sum_nonneg fun x hx => (hsteps x hx).1
  have hS : 0 ≤ S := hsum.trans h1
  have wv := hf.wave hu
  -- the nodes are the centers of the cells of a shifted domain
  set dx := (d.b - d.a) / n with hdx'
  set d' : Interval ℝ := ⟨d.a - dx / 2, d.b - dx / 2⟩ with hd''
  have hP : d'.b - d'.a = d.b - d.a := by simp [hd'']
  have hd' : d'.a < d'.b := by linarith
  obtain ⟨mesh', hmesh'⟩ : ∃ mesh', uniformMesh d' n = .ok mesh' := ⟨_, uniformMesh_eq d' hd' hn⟩
  have hinit : (fun i : Fin n => (cellAverages [((0 : ℝ), (2 : ℝ))] mesh' f).getD i 0) =
      fun i : Fin n => f (d.a + i * dx) := by
    funext i
    have e := around_average midpoint_rule hd' hn hmesh' f (by rw [hP]; exact hf.period) i
    rw [around_cell] at e
    rw [e, hP, ← hdx']
    unfold mean
    simp [hd'']
  obtain ⟨s', c1, c2, c3, c4⟩ := C110_convergence midpoint_rule hd' hn (by rw [hP]; exact hf) hu hmesh' none
    none none bc hbc T hT steps (by rw [hP]; exact hsteps) h1 t₀
  rw [hinit, hP, ← hdx'] at c1
  rw [hP, ← hdx'] at c4
  rw [hdx', ← C112_runs h h3 .burgers none none none bc hbc T hT steps _ lo M
    (fun _ => ⟨hf.pos, fun i => hf.range _, hsteps⟩)] at c1
  refine ⟨s', _, c1, c2, linear_value h _, fun x hx => ?_⟩
  set E := (L / c + 2 * (2 * (L / c) ^ 2 + M * (B / c ^ 3)) * steps.sum) * dx with hE
  have k1 : dx * ∑ i : Fin n, |around s'.solution ((i : ℕ) : ℤ) - u steps.sum (d.a + ((i : ℕ) : ℝ) * dx)| ≤
      (d.b - d.a) * E := by
    have := c4 (fun i => d.a + ((i : ℕ) : ℝ) * dx) (fun i => by
      unfold InCell Mesh.node
      rw [hP, ← hdx']
      simp only [hd'']
      push_cast
      constructor <;> linarith)
    simpa only [around_cell] using this
  have hper : ∀ x, u steps.sum (x + (d.b - d.a)) = u steps.sum x := fun x => wv.period steps.sum hsum h1 x
  have k2 : ∑ i : Fin n, |around s'.solution ((i : ℕ) + 1 : ℤ) - u steps.sum (d.a + ((i : ℕ) + 1 : ℝ) * dx)| =
      ∑ i : Fin n, |around s'.solution ((i : ℕ) : ℤ) - u steps.sum (d.a + ((i : ℕ) : ℝ) * dx)| := by
    rw [Fin.sum_univ_eq_sum_range (fun i : ℕ => |around s'.solution ((i : ℕ) + 1 : ℤ) -
      u steps.sum (d.a + ((i : ℕ) + 1 : ℝ) * dx)|) n,
      Fin.sum_univ_eq_sum_range (fun i : ℕ => |around s'.solution ((i : ℕ) : ℤ) -
      u steps.sum (d.a + ((i : ℕ) : ℝ) * dx)|) n]
    have e := Finset.sum_range_succ (fun i : ℕ => |around s'.solution ((i : ℕ) : ℤ) -
      u steps.sum (d.a + ((i : ℕ) : ℝ) * dx)|) n
    rw [Finset.sum_range_succ'] at e
    push_cast at e
    have e2 : |around s'.solution (n : ℤ) - u steps.sum (d.a + (n : ℝ) * dx)| =
        |around s'.solution (0 : ℤ) - u steps.sum (d.a + 0 * dx)| := by
      have a1 := around_periodic s'.solution 0
      rw [zero_add] at a1
      have a2 := hper (d.a + 0 * dx)
      rw [a1, ← a2]
      congr 3
      rw [hdx']; field_simp; ring
    rw [e2] at e
    exact add_right_cancel e
  have hlip : ∀ x y, |u steps.sum x - u steps.sum y| ≤ L / c * |x - y| := fun x y =>
    wv.lip _ hsum h1 x y
  have k3 : ∀ i : Fin n, |linearValue d n s'.solution i (x i) - u steps.sum (x i)| ≤
      |around s'.solution ((i : ℕ) : ℤ) - u steps.sum (d.a + ((i : ℕ) : ℝ) * dx)| +
      |around s'.solution ((i : ℕ) + 1 : ℤ) - u steps.sum (d.a + ((i : ℕ) + 1 : ℝ) * dx)| +
      L / c * (dx / 2) := by
    intro i
    obtain ⟨p0, p1, p2⟩ := place_bounds hd hn (hx i)
    have e1 := value_error hd hn s'.solution (u steps.sum) (hx i)
    have e2 := interpolation_lipschitz hd hn (u steps.sum) (L / c) hlip (hx i)
    simp only [← hdx'] at e1 e2
    have j0 := mul_le_of_le_one_left (abs_nonneg (around s'.solution ((i : ℕ) : ℤ) -
      u steps.sum (d.a + ((i : ℕ) : ℝ) * dx))) (by linarith : 1 - place d n i (x i) ≤ 1)
    have j1 := mul_le_of_le_one_left (abs_nonneg (around s'.solution ((i : ℕ) + 1 : ℤ) -
      u steps.sum (d.a + ((i : ℕ) + 1 : ℝ) * dx))) p1
    linarith
  have k4 := Finset.sum_le_sum (s := Finset.univ) fun i (_ : i ∈ Finset.univ) => k3 i
  rw [Finset.sum_add_distrib, Finset.sum_add_distrib, k2, Finset.sum_const, Finset.card_univ, Fintype.card_fin,
    nsmul_eq_mul] at k4
  have hnd : (n : ℝ) * dx = d.b - d.a := by rw [hdx']; field_simp
  have k5 := mul_le_mul_of_nonneg_left k4 hdx.le
  refine k5.trans ?_
  have e6 : dx * (n * (L / c * (dx / 2))) = (d.b - d.a) * (L / c * dx / 2) := by
    rw [← hnd]; ring
  have e7 : (d.b - d.a) * ((5 / 2 * (L / c) + 4 * (2 * (L / c) ^ 2 + M * (B / c ^ 3)) * steps.sum) * dx) =
      2 * ((d.b - d.a) * E) + (d.b - d.a) * (L / c * dx / 2) := by
    rw [hE]; ring
  rw [e7, mul_add, mul_add, e6]
  linarith

end Verif.FE
