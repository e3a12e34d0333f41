import Verif.Core.BenchmarkLemmas
import Mathlib.MeasureTheory.Integral.IntervalIntegral.Basic
import Mathlib.MeasureTheory.Function.SpecialFunctions.Basic
import Mathlib.MeasureTheory.Function.Floor

/-!
Property C72: the exact solutions of the benchmarks.
-/

set_option linter.unusedSectionVars false

namespace Verif.Bench

open Verif.Py Filter Topology
open Verif.Mesh hiding Error

/-! ### Advection -/

theorem pyMod_one (a : ℝ) : pyMod a 1 = Int.fract a := by
  unfold pyMod; rw [div_one, one_mul]; rfl

theorem Advection.exact_eq (b : Advection) (x t : ℝ) : b.exact x t = b.initial (Int.fract (x - t)) := by
  unfold Advection.exact
  have : b.domain.length = 1 := by simp [Advection.domain, Interval.length]
  rw [this, pyMod_one]

/-- The initial data have the same values at both ends of the domain. -/
theorem Advection.initial_ends (b : Advection) : b.initial 0 = b.initial 1 := by
  cases b
  · simp only [Advection.initial]; norm_num
  · simp only [Advection.initial]; norm_num
  · simp only [Advection.initial]; norm_num
  · simp only [Advection.initial]
    rw [show 2 * Real.pi * (0 - 5 / 10) = -Real.pi by ring,
      show 2 * Real.pi * (1 - 5 / 10) = Real.pi by ring, Real.cos_neg]
  · simp only [Advection.initial]; norm_num

/-- C72.  The exact solution of an advection benchmark starts with the initial data. -/
theorem C72_advection_initial (b : Advection) (x : ℝ) (h0 : 0 ≤ x) (h1 : x ≤ 1) :
    b.exact x 0 = b.initial x := by
  rw [b.exact_eq, sub_zero]
  rcases h1.eq_or_lt with rfl | h
  · rw [Int.fract_one, b.initial_ends]
  · rw [Int.fract_eq_self.mpr ⟨h0, h⟩]

/-- C72.  It is constant along the characteristics, and periodic in space and time. -/
theorem C72_advection_characteristics (b : Advection) (x t : ℝ) :
    (∀ r, b.exact (x + r) (t + r) = b.exact x t) ∧ b.exact (x + 1) t = b.exact x t ∧
      b.exact x (t + 1) = b.exact x t := by
  refine ⟨fun r => ?_, ?_, ?_⟩
  · rw [b.exact_eq, b.exact_eq]; congr 2; ring
  · rw [b.exact_eq, b.exact_eq, show x + 1 - t = x - t + 1 by ring, Int.fract_add_one]
  · rw [b.exact_eq, b.exact_eq, show x - (t + 1) = x - t - 1 by ring, Int.fract_sub_one]

/-- C72.  The cosine benchmark solves the advection equation. -/
theorem C72_advection_cosine (x t : ℝ) :
    ∃ ux ut, HasDerivAt (fun y => Advection.cosine.exact y t) ux x ∧
      HasDerivAt (fun s => Advection.cosine.exact x s) ut t ∧ ut + ux = 0 := by
  have e : ∀ y s, Advection.cosine.exact y s = Real.cos (2 * Real.pi * (y - s - 5 / 10)) := by
    intro y s
    rw [Advection.exact_eq]
    simp only [Advection.initial]
    rw [← Int.self_sub_floor, show 2 * Real.pi * (y - s - ⌊y - s⌋ - 5 / 10) =
      2 * Real.pi * (y - s - 5 / 10) - ⌊y - s⌋ * (2 * Real.pi) by ring, Real.cos_sub_int_mul_two_pi]
  simp only [e]
  have h1 : HasDerivAt (fun y : ℝ => 2 * Real.pi * (y - t - 5 / 10)) (2 * Real.pi * 1) x :=
    (((hasDerivAt_id x).sub_const t).sub_const _).const_mul _
  have h2 : HasDerivAt (fun s : ℝ => 2 * Real.pi * (x - s - 5 / 10)) (2 * Real.pi * -1) t :=
    (((hasDerivAt_id t).const_sub x).sub_const _).const_mul _
  exact ⟨_, _, h1.cos, h2.cos, by ring⟩

theorem Advection.measurable_initial (b : Advection) : Measurable b.initial := by
  have hm : ∀ (p : ℝ → Prop) [DecidablePred p], MeasurableSet {x | p x} → ∀ (f g : ℝ → ℝ),
      Measurable f → Measurable g → Measurable fun x => if p x then f x else g x :=
    fun p _ hp f g hf hg => Measurable.ite hp hf hg
  cases b
  · refine hm (fun x => _ ∧ _) ((measurableSet_Ici (a := (25 / 1000 : ℝ))).inter measurableSet_Iio) _ _ ?_ ?_
    · fun_prop
    refine hm (fun x => _ ∧ _) ((measurableSet_Ici (a := (35 / 100 : ℝ))).inter measurableSet_Iic) _ _ ?_ ?_
    · fun_prop
    refine hm (fun x => _ ∧ _) ((measurableSet_Ioi (a := (7 / 10 : ℝ))).inter measurableSet_Iio) _ _ ?_ ?_
    · fun_prop
    · fun_prop
  · refine hm (fun x => _ ∧ _) ((measurableSet_Ioi (a := (5 / 10 : ℝ))).inter measurableSet_Iio) _ _ ?_ ?_
    · fun_prop
    refine hm (fun x => _ ∧ _) ((measurableSet_Ici (a := (2 / 10 : ℝ))).inter measurableSet_Iic) _ _ ?_ ?_
    · fun_prop
    · fun_prop
  · refine hm (fun x => _ ∧ _) ((measurableSet_Ici (a := (1 / 10 : ℝ))).inter measurableSet_Iic) _ _ ?_ ?_
    · fun_prop
    · fun_prop
  · unfold Advection.initial; fun_prop
  · unfold Advection.initial; fun_prop

/-- C72.  The values lie between zero and one, for the cosine between minus one and one. -/
theorem C72_advection_range (b : Advection) (x : ℝ) :
    -1 ≤ b.initial x ∧ b.initial x ≤ 1 ∧ ((b ≠ .cosine) → 0 ≤ b.initial x) := by
  have key : b ≠ .cosine → 0 ≤ b.initial x ∧ b.initial x ≤ 1 := by
    intro hb
    cases b with
    | threeHills =>
      simp only [Advection.initial]
      split
      · exact ⟨(Real.exp_pos _).le, Real.exp_le_one_iff.mpr (by nlinarith [sq_nonneg (2 * x - 3 / 10)])⟩
      split
      · norm_num
      split
      · refine ⟨Real.sqrt_nonneg _, ?_⟩
        refine Real.sqrt_le_one.mpr ?_
        nlinarith [sq_nonneg ((x - 8 / 10) / (1 / 10))]
      · norm_num
    | twoHills =>
      simp only [Advection.initial]
      split
      · rename_i h
        refine ⟨by positivity, ?_⟩
        rw [← Real.exp_add, ← Real.exp_add, Real.exp_le_one_iff]
        have h1 : 0 < x - 5 / 10 := by linarith [h.1]
        have h2 : 0 < 9 / 10 - x := by linarith [h.2]
        have e : 10 + -1 / (x - 5 / 10) + 1 / (x - 9 / 10) =
            (10 * ((x - 5 / 10) * (9 / 10 - x)) - (9 / 10 - x) - (x - 5 / 10)) /
              ((x - 5 / 10) * (9 / 10 - x)) := by
          have e3 : 1 / (x - 9 / 10) = -(1 / (9 / 10 - x)) := by
            rw [← neg_sub (9 / 10) x, one_div, one_div, inv_neg]
          rw [e3, eq_div_iff (mul_pos h1 h2).ne', add_mul, add_mul, neg_mul,
            div_mul_eq_mul_div, div_mul_eq_mul_div, one_mul,
            mul_div_cancel_right₀ _ h2.ne', mul_div_assoc, mul_comm (x - 5 / 10),
            mul_div_cancel_right₀ _ h1.ne']
          ring
        rw [e]
        refine div_nonpos_of_nonpos_of_nonneg ?_ (by positivity)
        nlinarith [sq_nonneg (x - 7 / 10)]
      split
      · norm_num
      · norm_num
    | oneHill =>
      simp only [Advection.initial]
      split <;> norm_num
    | cosine => exact absurd rfl hb
    | gaussianBell =>
      simp only [Advection.initial]
      exact ⟨(Real.exp_pos _).le, Real.exp_le_one_iff.mpr (by nlinarith [sq_nonneg (x - 5 / 10)])⟩
  by_cases hb : b = .cosine
  · subst hb
    exact ⟨Real.neg_one_le_cos _, Real.cos_le_one _, fun h => absurd rfl h⟩
  · obtain ⟨h1, h2⟩ := key hb
    exact ⟨by linarith, h2, fun _ => h1⟩

theorem Advection.integrable (b : Advection) (p q : ℝ) :
    IntervalIntegrable (fun y => b.initial (Int.fract y)) MeasureTheory.volume p q := by
  have hm : Measurable fun y : ℝ => b.initial (Int.fract y) :=
    b.measurable_initial.comp measurable_fract
  refine (intervalIntegrable_const (c := (1 : ℝ))).mono_fun hm.aestronglyMeasurable ?_
  refine Eventually.of_forall fun y => ?_
  obtain ⟨h1, h2, -⟩ := C72_advection_range b (Int.fract y)
  change |_| ≤ |(1 : ℝ)|
  rw [abs_one]
  exact abs_le.mpr ⟨h1, h2⟩

/-- C72.  Every advection benchmark, also the discontinuous ones, satisfies the conservation law in
integral form: the amount in an interval changes by what flows in on the left and out on the right. -/
theorem C72_advection_conservation (b : Advection) (p q t₁ t₂ : ℝ) :
    (∫ x in p..q, b.exact x t₂) - (∫ x in p..q, b.exact x t₁) =
      (∫ t in t₁..t₂, b.exact p t) - ∫ t in t₁..t₂, b.exact q t := by
  simp only [b.exact_eq]
  have e1 := fun t => intervalIntegral.integral_comp_sub_right (a := p) (b := q)
    (fun y => b.initial (Int.fract y)) t
  have e2 := fun x => intervalIntegral.integral_comp_sub_left (a := t₁) (b := t₂)
    (fun y => b.initial (Int.fract y)) x
  rw [e1 t₂, e1 t₁, e2 p, e2 q]
  have a1 := intervalIntegral.integral_add_adjacent_intervals (b.integrable (p - t₂) (p - t₁))
    (b.integrable (p - t₁) (q - t₁))
  have a2 := intervalIntegral.integral_add_adjacent_intervals (b.integrable (p - t₂) (q - t₂))
    (b.integrable (q - t₂) (q - t₁))
  linarith

/-! ### Burgers -/

/-- What is supposed of `newton`: a value that is returned is a root. -/
def ReturnsRoots (newton : (ℝ → ℝ) → ℝ → (ℝ → ℝ) → Except Error ℝ) : Prop :=
  ∀ f x₀ f' r, newton f x₀ f' = .ok r → f r = 0

theorem Burgers.initial_deriv (b : Burgers) (y : ℝ) :
    HasDerivAt b.initial (b.initialDerivative y) y := by
  cases b
  · have h : HasDerivAt (fun y : ℝ => 2 * Real.pi * y) (2 * Real.pi * 1) y :=
      (hasDerivAt_id y).const_mul _
    have := h.sin
    rw [mul_one, mul_comm (Real.cos _)] at this
    exact this
  · exact (Real.hasDerivAt_sin y).add_const _

theorem Burgers.initial_bound (b : Burgers) (y : ℝ) : |b.initial y| ≤ 2 := by
  cases b
  · exact (Real.abs_sin_le_one _).trans (by norm_num)
  · have := abs_le.mp (Real.abs_sin_le_one y)
    simp only [Burgers.initial]
    rw [abs_le]
    constructor <;> linarith [this.1, this.2]

theorem Burgers.critical_pos (b : Burgers) : 0 < b.criticalTime := by
  cases b
  · exact div_pos one_pos (mul_pos two_pos Real.pi_pos)
  · exact one_pos

theorem Burgers.deriv_bound (b : Burgers) (y : ℝ) : |b.initialDerivative y| ≤ 1 / b.criticalTime := by
  cases b
  · simp only [Burgers.initialDerivative, Burgers.criticalTime, one_div_one_div]
    rw [abs_mul, abs_of_pos (mul_pos two_pos Real.pi_pos)]
    have := Real.abs_cos_le_one (2 * Real.pi * y)
    nlinarith [Real.pi_pos]
  · simpa [Burgers.initialDerivative, Burgers.criticalTime] using Real.abs_cos_le_one y

theorem Burgers.initial_lipschitz (b : Burgers) (p q : ℝ) (h : p ≠ q) :
    |b.initial p - b.initial q| < 1 / b.criticalTime * |p - q| := by
  cases b
  · simp only [Burgers.initial, Burgers.criticalTime, one_div_one_div]
    have hpi : (2 : ℝ) * Real.pi ≠ 0 := (mul_pos two_pos Real.pi_pos).ne'
    have := abs_sin_sub_lt (2 * Real.pi * p) (2 * Real.pi * q) (fun e => h (mul_left_cancel₀ hpi e))
    rwa [← mul_sub, abs_mul, abs_of_pos (mul_pos two_pos Real.pi_pos)] at this
  · simp only [Burgers.initial, Burgers.criticalTime, add_sub_add_right_eq_sub, div_one, one_mul]
    exact abs_sin_sub_lt p q h

/-- C72.  The derivative handed to Newton's method is the derivative of the function. -/
theorem C72_burgers_derivative (b : Burgers) (x t u : ℝ) :
    HasDerivAt (b.func x t) (b.fprime x t u) u := by
  have h1 : HasDerivAt (fun u : ℝ => x - u * t) (-(1 * t)) u :=
    ((hasDerivAt_id u).mul_const t).const_sub x
  have h2 := (HasDerivAt.comp u (b.initial_deriv (x - u * t)) h1).sub (hasDerivAt_id u)
  have e : b.fprime x t u = b.initialDerivative (x - u * t) * -(1 * t) - 1 := by
    unfold Burgers.fprime; ring
  rw [e]
  exact h2

/-- C72.  Up to the critical time there is exactly one root, so what Newton's method returns does not
depend on its start value. -/
theorem C72_burgers_unique (b : Burgers) (x t : ℝ) (h0 : 0 ≤ t) (ht : t ≤ b.criticalTime) :
    ∃! u, b.func x t u = 0 := by
  obtain ⟨u, hu⟩ := exists_root b.initial
    (continuous_iff_continuousAt.mpr fun y => (b.initial_deriv y).continuousAt) 2 b.initial_bound x t
  refine ⟨u, hu, fun v hv => ?_⟩
  exact root_unique b.initial (1 / b.criticalTime) (div_pos one_pos b.critical_pos)
    b.initial_lipschitz x t h0 (by rwa [one_div_one_div]) v u hv hu

/-- C72.  After the critical time there are points with several roots. -/
theorem C72_burgers_critical (b : Burgers) (t : ℝ) (ht : b.criticalTime < t) :
    ∃ x u v, u ≠ v ∧ b.func x t u = 0 ∧ b.func x t v = 0 := by
  have htpos : 0 < t := b.critical_pos.trans ht
  -- a sine with slope larger than one meets the diagonal again
  have key : ∀ k : ℝ, 1 < k → ∃ w, 0 < w ∧ Real.sin (k * w) = w := by
    intro k hk
    have hd : HasDerivAt (fun w => Real.sin (k * w) - w) (k - 1) 0 := by
      have h1 : HasDerivAt (fun w : ℝ => k * w) (k * 1) 0 := (hasDerivAt_id (0 : ℝ)).const_mul k
      have h2 := h1.sin.sub (hasDerivAt_id (0 : ℝ))
      have e : Real.cos (k * 0) * (k * 1) - 1 = k - 1 := by simp
      rw [← e]
      exact h2
    have hev : ∀ᶠ w in 𝓝[>] (0 : ℝ), 0 < Real.sin (k * w) - w := by
      have h2 := hd.tendsto_slope
      have h3 : ∀ᶠ w in 𝓝[≠] (0 : ℝ), 0 < slope (fun w => Real.sin (k * w) - w) 0 w :=
        h2.eventually (lt_mem_nhds (by linarith))
      have h4 := h3.filter_mono (nhdsWithin_mono 0 (fun w (hw : 0 < w) => hw.ne'))
      filter_upwards [h4, self_mem_nhdsWithin] with w hw hw0
      rw [slope_def_field] at hw
      simp only [mul_zero, Real.sin_zero, sub_zero] at hw
      have := mul_pos hw hw0
      rwa [div_mul_cancel₀ _ (ne_of_gt hw0)] at this
    obtain ⟨w₀, hw1, hw2⟩ := (hev.and self_mem_nhdsWithin).exists
    have hw2' : 0 < w₀ := hw2
    have hw3 : w₀ < 1 := by have := Real.sin_le_one (k * w₀); linarith
    have hc : ContinuousOn (fun w => Real.sin (k * w) - w) (Set.Icc w₀ 1) := by fun_prop
    have := intermediate_value_Icc' hw3.le hc
    have hmem : (0 : ℝ) ∈ Set.Icc (Real.sin (k * 1) - 1) (Real.sin (k * w₀) - w₀) :=
      ⟨by have := Real.sin_le_one (k * 1); linarith, hw1.le⟩
    obtain ⟨w, hw, he⟩ := this hmem
    exact ⟨w, lt_of_lt_of_le hw2' hw.1, by simp only at he; linarith⟩
  cases b with
  | shock =>
    simp only [Burgers.criticalTime] at ht
    obtain ⟨w, hw, he⟩ := key (2 * Real.pi * t) (by
      rw [div_lt_iff₀ (mul_pos two_pos Real.pi_pos)] at ht; linarith)
    refine ⟨1 / 2, 0, w, hw.ne, ?_, ?_⟩
    · simp only [Burgers.func, Burgers.initial]
      rw [show 2 * Real.pi * (1 / 2 - 0 * t) = Real.pi by ring, Real.sin_pi, sub_zero]
    · simp only [Burgers.func, Burgers.initial]
      rw [show 2 * Real.pi * (1 / 2 - w * t) = Real.pi - 2 * Real.pi * t * w by ring,
        Real.sin_pi_sub, he, sub_self]
  | smooth =>
    simp only [Burgers.criticalTime] at ht
    obtain ⟨w, hw, he⟩ := key t ht
    refine ⟨Real.pi + 1 / 2 * t, 1 / 2, w + 1 / 2, by linarith, ?_, ?_⟩
    · simp only [Burgers.func, Burgers.initial]
      rw [show Real.pi + 1 / 2 * t - 1 / 2 * t = Real.pi by ring, Real.sin_pi]
      norm_num
    · simp only [Burgers.func, Burgers.initial]
      rw [show Real.pi + 1 / 2 * t - (w + 1 / 2) * t = Real.pi - t * w by ring,
        Real.sin_pi_sub, he]
      ring

/-- C72.  What the exact solution returns: the initial data at time zero, values that are constant along
their characteristics, and periodic values. -/
theorem C72_burgers_characteristics (newton) (hN : ReturnsRoots newton) (b : Burgers)
    (endTime x t u : ℝ) (h0 : 0 ≤ t) (ht : t ≤ b.criticalTime)
    (h : b.exact newton endTime x t = .ok u) :
    endTime ≤ b.criticalTime + 1 / 10 ^ 15 ∧ (t = 0 → u = b.initial x) ∧ u = b.initial (x - u * t) ∧
    (∀ r v, 0 ≤ t + r → t + r ≤ b.criticalTime →
      b.exact newton endTime (x + u * r) (t + r) = .ok v → v = u) ∧
    (∀ v, b.exact newton endTime (x + b.domain.length) t = .ok v → v = u) := by
  have hroot : ∀ x t u, b.exact newton endTime x t = .ok u →
      endTime ≤ b.criticalTime + 1 / 10 ^ 15 ∧ b.func x t u = 0 := by
    intro x t u h
    unfold Burgers.exact at h
    split at h
    · cases h
    · rename_i hle
      exact ⟨not_lt.mp hle, hN _ _ _ _ h⟩
  obtain ⟨h1, h2⟩ := hroot x t u h
  have h3 : u = b.initial (x - u * t) := by unfold Burgers.func at h2; linarith
  refine ⟨h1, ?_, h3, ?_, ?_⟩
  · rintro rfl
    rw [mul_zero, sub_zero] at h3
    exact h3
  · intro r v hr1 hr2 hv
    refine (C72_burgers_unique b (x + u * r) (t + r) hr1 hr2).unique (hroot _ _ _ hv).2 ?_
    unfold Burgers.func
    rw [show x + u * r - u * (t + r) = x - u * t by ring]
    linarith
  · intro v hv
    refine (C72_burgers_unique b (x + b.domain.length) t h0 ht).unique (hroot _ _ _ hv).2 ?_
    unfold Burgers.func
    have : b.initial (x + b.domain.length - u * t) = b.initial (x - u * t) := by
      cases b
      · simp only [Burgers.initial, Burgers.domain, Interval.length]
        rw [show 2 * Real.pi * (x + (1 - 0) - u * t) = 2 * Real.pi * (x - u * t) + 2 * Real.pi by ring,
          Real.sin_add_two_pi]
      · simp only [Burgers.initial, Burgers.domain, Interval.length]
        rw [show x + (2 * Real.pi - 0) - u * t = x - u * t + 2 * Real.pi by ring,
          Real.sin_add_two_pi]
    rw [this]
    linarith

/-- C72.  Where Newton's method succeeds, the exact solution solves Burgers' equation before the critical
time. -/
theorem C72_burgers_equation (newton) (hN : ReturnsRoots newton) (b : Burgers) (endTime : ℝ)
    (u : ℝ → ℝ → ℝ) (x t : ℝ) (h0 : 0 < t) (ht : t < b.criticalTime)
    (hu : ∀ᶠ z : ℝ × ℝ in 𝓝 (x, t), b.exact newton endTime z.1 z.2 = .ok (u z.1 z.2)) :
    ∃ ux ut, HasDerivAt (fun y => u y t) ux x ∧ HasDerivAt (fun s => u x s) ut t ∧
      ut + u x t * ux = 0 := by
  have hroot : ∀ᶠ z : ℝ × ℝ in 𝓝 (x, t), b.initial (z.1 - u z.1 z.2 * z.2) - u z.1 z.2 = 0 := by
    filter_upwards [hu] with z hz
    unfold Burgers.exact at hz
    split at hz
    · cases hz
    · have := hN _ _ _ _ hz
      exact this
  refine burgers_pde b.initial b.initialDerivative b.initial_deriv (1 / b.criticalTime) 2 b.deriv_bound
    b.initial_bound u x t ?_ ?_ ?_
  · rw [abs_of_pos h0, mul_one_div, div_lt_one b.critical_pos]
    exact ht
  · have : Tendsto (fun y : ℝ => (y, t)) (𝓝 x) (𝓝 (x, t)) := by
      exact (Continuous.prodMk_left t).tendsto x
    exact this.eventually hroot
  · have : Tendsto (fun s : ℝ => (x, s)) (𝓝 t) (𝓝 (x, t)) := by
      exact (Continuous.prodMk_right x).tendsto t
    exact this.eventually hroot

/-- There is a Newton method that always succeeds for these functions. -/
theorem exists_newton : ∃ newton, ReturnsRoots newton ∧ ∃ u : Burgers → ℝ → ℝ → ℝ,
    ∀ (b : Burgers) (endTime x t : ℝ), endTime ≤ b.criticalTime →
      b.exact newton endTime x t = .ok (u b x t) := by
  classical
  have hex : ∀ f : ℝ → ℝ, ∃ r : Except Error ℝ, (∀ x, r = .ok x → f x = 0) ∧
      ((∃ x, f x = 0) → ∃ x, r = .ok x) := by
    intro f
    by_cases h : ∃ x, f x = 0
    · obtain ⟨x, hx⟩ := h
      exact ⟨.ok x, fun y hy => by rw [← Except.ok.inj hy]; exact hx, fun _ => ⟨x, rfl⟩⟩
    · exact ⟨.error .nonFinite, fun x hx => (by cases hx), fun hh => absurd hh h⟩
  choose r hr1 hr2 using hex
  have hroot : ∀ (b : Burgers) x t, ∃ u, r (b.func x t) = .ok u := fun b x t =>
    hr2 _ (exists_root b.initial
      (continuous_iff_continuousAt.mpr fun y => (b.initial_deriv y).continuousAt) 2
      b.initial_bound x t)
  choose u hu using hroot
  refine ⟨fun f _ _ => r f, fun f _ _ x hx => hr1 f x hx, u, ?_⟩
  intro b endTime x t he
  unfold Burgers.exact
  rw [if_neg (by have : (0 : ℝ) < 1 / 10 ^ 15 := by positivity
                 linarith)]
  exact hu b x t

/-- C72.  The check looks at the end time of the benchmark and not at the time that is asked for: after
the critical time values are returned although the characteristics have met. -/
theorem C72_burgers_check : ∃ newton, ReturnsRoots newton ∧ ∀ b : Burgers,
    ∃ endTime t : ℝ, b.criticalTime < t ∧ (∀ x, ∃ u, b.exact newton endTime x t = .ok u) ∧
      ∃ x u v, u ≠ v ∧ b.func x t u = 0 ∧ b.func x t v = 0 := by
  obtain ⟨newton, h1, u, h2⟩ := exists_newton
  refine ⟨newton, h1, fun b => ⟨b.criticalTime, b.criticalTime + 1, by linarith, fun x => ?_, ?_⟩⟩
  · exact ⟨_, h2 b _ x _ le_rfl⟩
  · exact C72_burgers_critical b _ (by linarith)

/-- A case in which the equation is solved. -/
example : ∃ newton, ReturnsRoots newton ∧ ∃ u : ℝ → ℝ → ℝ,
    (∀ x t, Burgers.smooth.exact newton (1 / 2) x t = .ok (u x t)) ∧
    ∃ ux ut, HasDerivAt (fun y => u y (1 / 4)) ux 3 ∧ HasDerivAt (fun s => u 3 s) ut (1 / 4) ∧
      ut + u 3 (1 / 4) * ux = 0 := by
  obtain ⟨newton, h1, u, h2⟩ := exists_newton
  refine ⟨newton, h1, u .smooth, fun x t => h2 _ _ x t (by norm_num [Burgers.criticalTime]), ?_⟩
  exact C72_burgers_equation newton h1 .smooth (1 / 2) (u .smooth) 3 (1 / 4) (by norm_num)
    (by norm_num [Burgers.criticalTime])
    (Eventually.of_forall fun z => h2 _ _ _ _ (by norm_num [Burgers.criticalTime]))

end Verif.Bench
