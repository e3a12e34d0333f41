import Verif.Props.Contraction
import Verif.Props.ConvergenceRate

/-!
Smooth solutions of Burgers' equation with positive values, and how well the Lax-Friedrichs scheme
reproduces them in one step.
-/

set_option linter.unusedSectionVars false

namespace Verif.Convergence

open Verif.Py Verif.Boundary Verif.FV Verif.ODE Verif.Scalar

/-- A smooth solution of Burgers' equation up to time `S`: values in `[m, M]`, period `P`, slope `D` at
most `L` and Lipschitz continuous with constant `B`; values travel with their own speed. -/
structure Wave (P m M L B S : ℝ) (u D : ℝ → ℝ → ℝ) : Prop where
  pos : 0 < m
  range : ∀ t, 0 ≤ t → t ≤ S → ∀ x, m ≤ u t x ∧ u t x ≤ M
  period : ∀ t, 0 ≤ t → t ≤ S → ∀ x, u t (x + P) = u t x
  deriv : ∀ t, 0 ≤ t → t ≤ S → ∀ x, HasDerivAt (u t) (D t x) x
  slope : ∀ t, 0 ≤ t → t ≤ S → ∀ x, |D t x| ≤ L
  smooth : ∀ t, 0 ≤ t → t ≤ S → ∀ x y, |D t x - D t y| ≤ B * |x - y|
  transport : ∀ t τ, 0 ≤ t → 0 ≤ τ → t + τ ≤ S → ∀ x, u (t + τ) x = u t (x - τ * u (t + τ) x)

variable {P m M L B S : ℝ} {u D : ℝ → ℝ → ℝ}

namespace Wave

variable (w : Wave P m M L B S u D)
include w

theorem lip (t : ℝ) (h0 : 0 ≤ t) (h1 : t ≤ S) (x y : ℝ) : |u t x - u t y| ≤ L * |x - y| := by
  have := Convex.norm_image_sub_le_of_norm_hasDerivWithin_le (f := u t) (f' := D t) (s := Set.univ) (C := L)
    (fun z _ => (w.deriv t h0 h1 z).hasDerivWithinAt) (fun z _ => w.slope t h0 h1 z) convex_univ
    (Set.mem_univ y) (Set.mem_univ x)
  simpa using this

theorem L_nonneg (h : 0 ≤ S) : 0 ≤ L := (abs_nonneg _).trans (w.slope 0 le_rfl h 0)

theorem B_nonneg (h : 0 ≤ S) : 0 ≤ B := by
  have := (abs_nonneg _).trans (w.smooth 0 le_rfl h 1 0)
  simpa using this

theorem M_pos (h : 0 ≤ S) : 0 < M := w.pos.trans_le ((w.range 0 le_rfl h 0).1.trans (w.range 0 le_rfl h 0).2)

theorem taylor (t : ℝ) (h0 : 0 ≤ t) (h1 : t ≤ S) (x y : ℝ) :
    |u t y - u t x - D t x * (y - x)| ≤ B / 2 * (y - x) ^ 2 :=
  taylor_bound (u t) (D t) B (w.deriv t h0 h1) (w.smooth t h0 h1) x y

variable {t τ : ℝ} (h0 : 0 ≤ t) (hτ : 0 ≤ τ) (h1 : t + τ ≤ S)
include h0 hτ h1

/-- Values change in time by at most `L M τ`. -/
theorem time_lip (x : ℝ) : |u (t + τ) x - u t x| ≤ L * M * τ := by
  have hS : 0 ≤ S := by linarith
  have hr := w.range (t + τ) (by linarith) h1 x
  rw [w.transport t τ h0 hτ h1 x]
  refine (w.lip t h0 (by linarith) _ _).trans ?_
  rw [show x - τ * u (t + τ) x - x = -(τ * u (t + τ) x) by ring, abs_neg,
    abs_of_nonneg (mul_nonneg hτ (w.pos.le.trans hr.1)), mul_assoc]
  refine mul_le_mul_of_nonneg_left ?_ (w.L_nonneg hS)
  rw [mul_comm]
  exact mul_le_mul_of_nonneg_right hr.2 hτ

/-- The slope along a characteristic. -/
theorem slope_transport (x : ℝ) :
    D (t + τ) x = D t (x - τ * u (t + τ) x) * (1 - τ * D (t + τ) x) := by
  have d1 := w.deriv (t + τ) (by linarith) h1 x
  have d2 : HasDerivAt (fun x => x - τ * u (t + τ) x) (1 - τ * D (t + τ) x) x :=
    (hasDerivAt_id x).sub (d1.const_mul τ)
  have d3 := (w.deriv t h0 (by linarith) (x - τ * u (t + τ) x)).comp x d2
  have e : (u t ∘ fun x => x - τ * u (t + τ) x) = u (t + τ) := by
    funext y
    exact (w.transport t τ h0 hτ h1 y).symm
  rw [e] at d3
  exact d1.unique d3

theorem slope_time (x : ℝ) : |D (t + τ) x - D t x| ≤ (B * M + L ^ 2) * τ := by
  have hS : 0 ≤ S := by linarith
  have hr := w.range (t + τ) (by linarith) h1 x
  set y := x - τ * u (t + τ) x with hy
  have a1 : |D t y - D t x| ≤ B * M * τ := by
    refine (w.smooth t h0 (by linarith) y x).trans ?_
    rw [hy, show x - τ * u (t + τ) x - x = -(τ * u (t + τ) x) by ring, abs_neg,
      abs_of_nonneg (mul_nonneg hτ (w.pos.le.trans hr.1)), mul_assoc]
    refine mul_le_mul_of_nonneg_left ?_ (w.B_nonneg hS)
    rw [mul_comm]
    exact mul_le_mul_of_nonneg_right hr.2 hτ
  have a2 : |D (t + τ) x - D t y| ≤ L ^ 2 * τ := by
    have e := w.slope_transport h0 hτ h1 x
    rw [← hy] at e
    have e' : D (t + τ) x - D t y = -(τ * (D t y * D (t + τ) x)) := by linear_combination e
    rw [e', abs_neg, abs_mul, abs_of_nonneg hτ, abs_mul, mul_comm, sq]
    refine mul_le_mul_of_nonneg_right ?_ hτ
    exact mul_le_mul (w.slope t h0 (by linarith) y) (w.slope (t + τ) (by linarith) h1 x) (abs_nonneg _)
      (w.L_nonneg hS)
  calc |D (t + τ) x - D t x| ≤ |D (t + τ) x - D t y| + |D t y - D t x| := abs_sub_le _ _ _
    _ ≤ _ := by linarith

/-- Taylor's formula in time. -/
theorem time_taylor (x : ℝ) :
    |u (t + τ) x - (u t x + τ * -(u t x * D t x))| ≤ M * (2 * L ^ 2 + M * B) / 2 * τ ^ 2 := by
  have hS : 0 ≤ S := by linarith
  have hr := w.range (t + τ) (by linarith) h1 x
  have hB := w.B_nonneg hS
  have hL := w.L_nonneg hS
  have hM := w.M_pos hS
  set v := u (t + τ) x with hv
  have a1 := w.taylor t h0 (by linarith) x (x - τ * v)
  rw [← w.transport t τ h0 hτ h1 x, ← hv, show x - τ * v - x = -(τ * v) by ring] at a1
  have a2 : B / 2 * (-(τ * v)) ^ 2 ≤ B / 2 * (M ^ 2 * τ ^ 2) := by
    refine mul_le_mul_of_nonneg_left ?_ (by linarith)
    have : v ^ 2 ≤ M ^ 2 := pow_le_pow_left₀ (w.pos.le.trans hr.1) hr.2 2
    nlinarith [sq_nonneg τ]
  have a3 : |τ * (v - u t x) * D t x| ≤ L ^ 2 * M * τ ^ 2 := by
    rw [abs_mul, abs_mul, abs_of_nonneg hτ]
    have b1 := w.time_lip h0 hτ h1 x
    have b2 := w.slope t h0 (by linarith) x
    calc τ * |v - u t x| * |D t x| ≤ τ * (L * M * τ) * L := by
          apply mul_le_mul (mul_le_mul_of_nonneg_left b1 hτ) b2 (abs_nonneg _)
          positivity
      _ = _ := by ring
  have e : v - (u t x + τ * -(u t x * D t x)) =
      (v - u t x - D t x * -(τ * v)) - τ * (v - u t x) * D t x := by ring
  rw [e]
  calc _ ≤ |v - u t x - D t x * -(τ * v)| + |τ * (v - u t x) * D t x| := abs_sub _ _
    _ ≤ B / 2 * (M ^ 2 * τ ^ 2) + L ^ 2 * M * τ ^ 2 := add_le_add (a1.trans a2) a3
    _ = _ := by ring

/-- The time derivative changes slowly. -/
theorem rate_time (x : ℝ) :
    |-(u (t + τ) x * D (t + τ) x) - -(u t x * D t x)| ≤ M * (2 * L ^ 2 + M * B) * τ := by
  have hS : 0 ≤ S := by linarith
  have hr := w.range t h0 (by linarith) x
  have hB := w.B_nonneg hS
  have hL := w.L_nonneg hS
  have hM := w.M_pos hS
  have a1 := w.time_lip h0 hτ h1 x
  have a2 := w.slope_time h0 hτ h1 x
  have a3 := w.slope (t + τ) (by linarith) h1 x
  have e : -(u (t + τ) x * D (t + τ) x) - -(u t x * D t x) =
      -((u (t + τ) x - u t x) * D (t + τ) x) - u t x * (D (t + τ) x - D t x) := by ring
  rw [e]
  calc _ ≤ |-((u (t + τ) x - u t x) * D (t + τ) x)| + |u t x * (D (t + τ) x - D t x)| := abs_sub _ _
    _ ≤ (L * M * τ) * L + M * ((B * M + L ^ 2) * τ) := by
        rw [abs_neg, abs_mul, abs_mul, abs_of_pos (w.pos.trans_le hr.1)]
        exact add_le_add (mul_le_mul a1 a3 (abs_nonneg _) (by positivity))
          (mul_le_mul hr.2 a2 (abs_nonneg _) hM.le)
    _ = _ := by ring

end Wave

/-- Consistency of the flux difference. -/
theorem flux_consistent (a b c d dx M L B : ℝ) (hdx : 0 < dx) (hL : 0 ≤ L) (hb : 0 ≤ b) (hbM : b ≤ M)
    (h1 : |c - b - d * dx| ≤ B / 2 * dx ^ 2) (h2 : |a - b + d * dx| ≤ B / 2 * dx ^ 2)
    (h3 : |c - b| ≤ L * dx) (h4 : |b - a| ≤ L * dx) :
    |1 / dx * (lfFlux .burgers a b - lfFlux .burgers b c) - -(b * d)| ≤ (2 * L ^ 2 + M * B) * dx := by
  have key : |lfFlux .burgers a b - lfFlux .burgers b c + b * d * dx| ≤ (2 * L ^ 2 + M * B) * dx ^ 2 := by
    rw [lfFlux_burgers, lfFlux_burgers]
    have e : (a ^ 2 + b ^ 2) / 4 - max a b / 2 * (b - a) - ((b ^ 2 + c ^ 2) / 4 - max b c / 2 * (c - b)) +
        b * d * dx = ((max b c - b) * (c - b) - (max a b - b) * (b - a)) / 2
          + ((c - b - d * dx) + (a - b + d * dx)) * b / 2
          - ((c - a) * ((c - b) - (b - a)) / 4 + b * ((c - b - d * dx) - (a - b + d * dx)) / 2) := by ring
    rw [e]
    have q1 : |(max b c - b) * (c - b)| ≤ (L * dx) ^ 2 := by
      rw [abs_mul, sq]
      refine mul_le_mul ?_ h3 (abs_nonneg _) (by positivity)
      rcases le_total b c with h | h
      · rw [max_eq_right h]; exact h3
      · rw [max_eq_left h, sub_self, abs_zero]; positivity
    have q2 : |(max a b - b) * (b - a)| ≤ (L * dx) ^ 2 := by
      rw [abs_mul, sq]
      refine mul_le_mul ?_ h4 (abs_nonneg _) (by positivity)
      rcases le_total a b with h | h
      · rw [max_eq_right h, sub_self, abs_zero]; positivity
      · rw [max_eq_left h, abs_sub_comm]; exact h4
    have q3 : |((c - b - d * dx) + (a - b + d * dx)) * b| ≤ B * dx ^ 2 * M := by
      rw [abs_mul, abs_of_nonneg hb]
      have := (abs_add_le (c - b - d * dx) (a - b + d * dx))
      exact mul_le_mul (by linarith) hbM hb (by have := abs_nonneg (c - b - d * dx); linarith)
    have q4 : |(c - a) * ((c - b) - (b - a))| ≤ (2 * (L * dx)) ^ 2 := by
      rw [abs_mul, sq]
      have i1 : |c - a| ≤ 2 * (L * dx) := by
        have := abs_add_le (c - b) (b - a)
        rw [show c - b + (b - a) = c - a by ring] at this
        linarith
      have i2 : |(c - b) - (b - a)| ≤ 2 * (L * dx) := by
        have := abs_sub (c - b) (b - a)
        linarith
      exact mul_le_mul i1 i2 (abs_nonneg _) (by positivity)
    have q5 : |b * ((c - b - d * dx) - (a - b + d * dx))| ≤ M * (B * dx ^ 2) := by
      rw [abs_mul, abs_of_nonneg hb]
      have := abs_sub (c - b - d * dx) (a - b + d * dx)
      exact mul_le_mul hbM (by linarith) (abs_nonneg _) (hb.trans hbM)
    rw [abs_le] at q1 q2 q3 q4 q5 ⊢
    constructor <;> nlinarith [q1.1, q1.2, q2.1, q2.2, q3.1, q3.2, q4.1, q4.2, q5.1, q5.2]
  have e : 1 / dx * (lfFlux .burgers a b - lfFlux .burgers b c) - -(b * d) =
      (lfFlux .burgers a b - lfFlux .burgers b c + b * d * dx) / dx := by field_simp; ring
  rw [e, abs_div, abs_of_pos hdx, div_le_iff₀ hdx]
  calc _ ≤ _ := key
    _ = _ := by ring

end Verif.Convergence
