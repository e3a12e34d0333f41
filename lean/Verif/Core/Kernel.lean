import Mathlib.Analysis.Calculus.BumpFunction.Normed
import Mathlib.Analysis.Calculus.BumpFunction.InnerProduct
import Mathlib.Analysis.Calculus.Deriv.Support
import Mathlib.Analysis.Calculus.ContDiff.Deriv
import Mathlib.Analysis.SpecialFunctions.Trigonometric.Deriv
import Mathlib.Analysis.SpecialFunctions.Trigonometric.Bounds
import Mathlib.MeasureTheory.Integral.IntervalIntegral.Periodic
import Mathlib.MeasureTheory.Group.Integral
import Mathlib.MeasureTheory.Measure.Haar.Unique
import Verif.Core.WeakForm

/-!
Helper lemmas: smooth kernels in time and in space, used to compare two functions (doubling of variables).
-/

set_option linter.unusedSectionVars false

namespace Verif.Weak

open MeasureTheory Set

/-- A smooth kernel in time that looks less than `ε` ahead; `C` bounds it and its derivative. -/
structure TimeKernel (ε C : ℝ) (ω ω' : ℝ → ℝ) : Prop where
  nonneg : ∀ t, 0 ≤ ω t
  before : ∀ t ≤ 0, ω t = 0
  later : ∀ t, ε ≤ t → ω t = 0
  integrable : Integrable ω
  integral : ∫ t, ω t = 1
  deriv : ∀ t, HasDerivAt ω (ω' t) t
  continuous : Continuous ω'
  bound : ∀ t, |ω t| ≤ C
  bound_deriv : ∀ t, |ω' t| ≤ C
  moment : ∀ t, |t * ω t| ≤ C
  moment_deriv : ∀ t, |t * ω' t| ≤ C

theorem timeKernel_exists (ε : ℝ) (hε : 0 < ε) : ∃ C ω ω', TimeKernel ε C ω ω' := by
  obtain ⟨ω, hs, hc, hz, h0, hi, h1⟩ : ∃ ω : ℝ → ℝ, ContDiff ℝ 1 ω ∧ HasCompactSupport ω ∧
      (∀ t, ε / 2 ≤ |t - ε / 2| → ω t = 0) ∧ (∀ t, 0 ≤ ω t) ∧ Integrable ω ∧ ∫ t, ω t = 1 := by
    let b : ContDiffBump (ε / 2) := ⟨ε / 4, ε / 2, by positivity, by linarith⟩
    refine ⟨b.normed volume, b.contDiff_normed (n := 1), b.hasCompactSupport_normed, fun t ht => ?_,
      fun t => b.nonneg_normed t, b.integrable_normed, b.integral_normed⟩
    by_contra h
    have : t ∈ Function.support (b.normed volume) := h
    rw [b.support_normed_eq, Metric.mem_ball, Real.dist_eq] at this
    exact absurd this (not_lt.2 ht)
  have hd : Continuous (_root_.deriv ω) := hs.continuous_deriv le_rfl
  obtain ⟨C1, h1'⟩ := hs.continuous.bounded_above_of_compact_support hc
  obtain ⟨C2, h2⟩ := hd.bounded_above_of_compact_support hc.deriv
  obtain ⟨C3, h3⟩ := (continuous_id.mul hs.continuous).bounded_above_of_compact_support (hc.mul_left (f := id))
  obtain ⟨C4, h4⟩ := (continuous_id.mul hd).bounded_above_of_compact_support (hc.deriv.mul_left (f := id))
  refine ⟨max (max C1 C2) (max C3 C4), ω, _root_.deriv ω, h0,
    fun t ht => hz t ?_, fun t ht => hz t ?_, hi, h1, fun t => ?_, hd, fun t => ?_, fun t => ?_,
    fun t => ?_, fun t => ?_⟩
  · rw [abs_of_nonpos (by linarith)]; linarith
  · rw [abs_of_nonneg (by linarith)]; linarith
  · exact ((hs.differentiable one_ne_zero) t).hasDerivAt
  · exact (h1' t).trans ((le_max_left _ _).trans (le_max_left _ _))
  · exact (h2 t).trans ((le_max_right _ _).trans (le_max_left _ _))
  · exact (h3 t).trans ((le_max_left _ _).trans (le_max_right _ _))
  · exact (h4 t).trans ((le_max_right _ _).trans (le_max_right _ _))

/-- A smooth kernel in space with period `P` that looks at most `ε` to either side. -/
structure SpaceKernel (P ε C : ℝ) (Ω Ω' : ℝ → ℝ) : Prop where
  nonneg : ∀ x, 0 ≤ Ω x
  periodic : ∀ x, Ω (x + P) = Ω x
  near : ∀ x, Ω x ≠ 0 → ∃ k : ℤ, |x - k * P| ≤ ε
  integral : ∀ c, ∫ x in c..c + P, Ω x = 1
  deriv : ∀ x, HasDerivAt Ω (Ω' x) x
  bound : ∀ x, |Ω x| ≤ C
  slope : ∀ x, |Ω' x| ≤ C
  lipschitz : ∀ x y, |Ω' x - Ω' y| ≤ C * |x - y|

theorem periodic_bounded {f : ℝ → ℝ} {P : ℝ} (hP : 0 < P) (hf : Continuous f) (hper : ∀ x, f (x + P) = f x) :
    ∃ C, ∀ x, |f x| ≤ C := by
  obtain ⟨C, hC⟩ := (isCompact_Icc (a := (0 : ℝ)) (b := P)).exists_bound_of_continuousOn hf.continuousOn
  refine ⟨C, fun x => ?_⟩
  obtain ⟨y, hy, e⟩ := (show Function.Periodic f P from hper).exists_mem_Ico₀ hP x
  rw [e]
  exact hC y ⟨hy.1, hy.2.le⟩

theorem spaceKernel_exists (P ε : ℝ) (hP : 0 < P) (hε : 0 < ε) (hεP : ε ≤ P / 2) : ∃ C Ω Ω', SpaceKernel P ε C Ω Ω' := by
  set c := 2 * Real.pi / P with hc
  have hc0 : 0 < c := by positivity
  have hcP : c * P = 2 * Real.pi := by rw [hc]; field_simp
  have hρ : 0 < 1 - Real.cos (c * ε) := by
    have h1 : c * ε ≤ Real.pi := by
      calc c * ε ≤ c * (P / 2) := mul_le_mul_of_nonneg_left hεP hc0.le
        _ = Real.pi := by linarith
    have := Real.cos_lt_cos_of_nonneg_of_le_pi le_rfl h1 (by positivity : 0 < c * ε)
    rw [Real.cos_zero] at this
    linarith
  let b : ContDiffBump (1 : ℝ) := ⟨(1 - Real.cos (c * ε)) / 2, 1 - Real.cos (c * ε), by positivity, by linarith⟩
  set W : ℝ → ℝ := fun x => b (Real.cos (c * x)) with hW
  have hWs : ContDiff ℝ 2 W := b.contDiff.comp (Real.contDiff_cos.comp (contDiff_const.mul contDiff_id))
  have hWp : ∀ x, W (x + P) = W x := by
    intro x
    simp only [hW]
    rw [mul_add, hcP, Real.cos_add_two_pi]
  have hW0 : ∀ x, 0 ≤ W x := fun x => b.nonneg
  have hWc : Continuous W := hWs.continuous
  have hI : 0 < ∫ x in (0 : ℝ)..P, W x := by
    refine intervalIntegral.integral_pos hP hWc.continuousOn (fun x _ => hW0 x) ⟨0, ⟨le_rfl, hP.le⟩, ?_⟩
    simp only [hW, mul_zero, Real.cos_zero]
    exact b.pos_of_mem_ball (Metric.mem_ball_self b.rOut_pos)
  set I := ∫ x in (0 : ℝ)..P, W x with hId
  set Ω : ℝ → ℝ := fun x => W x / I with hΩ
  have hΩs : ContDiff ℝ 2 Ω := hWs.div_const _
  have hΩp : ∀ x, Ω (x + P) = Ω x := fun x => by simp only [hΩ, hWp]
  have hΩd : ∀ x, HasDerivAt Ω (_root_.deriv Ω x) x := fun x => ((hΩs.differentiable two_ne_zero) x).hasDerivAt
  have hd1 : ContDiff ℝ 1 (_root_.deriv Ω) := by
    have : ContDiff ℝ (1 + 1) Ω := by norm_num; exact hΩs
    exact (contDiff_succ_iff_deriv.1 this).2.2
  have hdd : ∀ x, HasDerivAt (_root_.deriv Ω) (_root_.deriv (_root_.deriv Ω) x) x :=
    fun x => ((hd1.differentiable one_ne_zero) x).hasDerivAt
  have hdp : ∀ x, _root_.deriv Ω (x + P) = _root_.deriv Ω x := by
    intro x
    have e : (fun x => Ω (x + P)) = Ω := funext hΩp
    rw [← deriv_comp_add_const, e]
  have hddp : ∀ x, _root_.deriv (_root_.deriv Ω) (x + P) = _root_.deriv (_root_.deriv Ω) x := by
    intro x
    have e : (fun x => _root_.deriv Ω (x + P)) = _root_.deriv Ω := funext hdp
    rw [← deriv_comp_add_const, e]
  obtain ⟨C1, h1⟩ := periodic_bounded hP hΩs.continuous hΩp
  obtain ⟨C2, h2⟩ := periodic_bounded hP hd1.continuous hdp
  obtain ⟨C3, h3⟩ := periodic_bounded hP (hd1.continuous_deriv le_rfl) hddp
  have hC3 : 0 ≤ C3 := (abs_nonneg _).trans (h3 0)
  refine ⟨max C1 (max C2 C3), Ω, _root_.deriv Ω, fun x => div_nonneg (hW0 x) hI.le, hΩp, fun x hx => ?_, fun z => ?_, hΩd,
    fun x => (h1 x).trans (le_max_left _ _), fun x => (h2 x).trans ((le_max_left _ _).trans (le_max_right _ _)), fun x y => ?_⟩
  · refine ⟨round (x / P), ?_⟩
    by_contra hlt
    rw [not_le] at hlt
    have hr := abs_sub_round (x / P)
    set k := round (x / P) with hk
    have e1 : x - k * P = (x / P - k) * P := by field_simp
    have hle : |x - k * P| ≤ P / 2 := by
      rw [e1, abs_mul, abs_of_pos hP]
      nlinarith
    have hcos : Real.cos (c * x) = Real.cos (c * |x - k * P|) := by
      have e2 : c * |x - k * P| = |c * x - k * (2 * Real.pi)| := by
        rw [← hcP, show c * x - k * (c * P) = c * (x - k * P) by ring, abs_mul, abs_of_pos hc0]
      rw [e2, Real.cos_abs, Real.cos_sub_int_mul_two_pi]
    have hcl : Real.cos (c * |x - k * P|) ≤ Real.cos (c * ε) := by
      refine Real.cos_le_cos_of_nonneg_of_le_pi (by positivity) ?_ (mul_le_mul_of_nonneg_left hlt.le hc0.le)
      calc _ ≤ c * (P / 2) := mul_le_mul_of_nonneg_left hle hc0.le
        _ = Real.pi := by linarith
    refine hx ?_
    have : W x = 0 := by
      refine b.zero_of_le_dist ?_
      rw [Real.dist_eq, hcos]
      have : b.rOut = 1 - Real.cos (c * ε) := rfl
      rw [this, abs_of_nonpos (by linarith)]
      linarith
    simp only [hΩ, this, zero_div]
  · rw [(show Function.Periodic Ω P from hΩp).intervalIntegral_add_eq z 0, zero_add]
    simp only [hΩ]
    rw [intervalIntegral.integral_div, div_self hI.ne']
  · have := Convex.norm_image_sub_le_of_norm_hasDerivWithin_le (f := _root_.deriv Ω) (f' := _root_.deriv (_root_.deriv Ω))
      (s := Set.univ) (C := max C1 (max C2 C3)) (fun z _ => (hdd z).hasDerivWithinAt)
      (fun z _ => (h3 z).trans ((le_max_right _ _).trans (le_max_right _ _))) convex_univ (Set.mem_univ y) (Set.mem_univ x)
    exact this

namespace SpaceKernel

variable {P ε C : ℝ} {Ω Ω' : ℝ → ℝ} (h : SpaceKernel P ε C Ω Ω')
include h

theorem continuous : Continuous Ω := continuous_iff_continuousAt.2 fun x => (h.deriv x).continuousAt

theorem deriv_periodic (x : ℝ) : Ω' (x + P) = Ω' x := by
  have e : (fun x => Ω (x + P)) = Ω := funext h.periodic
  have h1 := (h.deriv (x + P)).comp_add_const x P
  rw [e] at h1
  exact h1.unique (h.deriv x)

theorem deriv_continuous : Continuous Ω' :=
  (LipschitzWith.of_dist_le' (K := C) fun x y => h.lipschitz x y).continuous

theorem nonneg_C : 0 ≤ C := (abs_nonneg _).trans (h.bound 0)

/-- The integral over a period, in the first variable. -/
theorem integral_left (hP : 0 ≤ P) (a y : ℝ) : ∫ x in Ioc a (a + P), Ω (x - y) = 1 := by
  rw [← intervalIntegral.integral_of_le (by linarith), intervalIntegral.integral_comp_sub_right,
    show a + P - y = a - y + P by ring, h.integral]

/-- The integral over a period, in the second variable. -/
theorem integral_right (hP : 0 ≤ P) (a x : ℝ) : ∫ y in Ioc a (a + P), Ω (x - y) = 1 := by
  rw [← intervalIntegral.integral_of_le (by linarith), intervalIntegral.integral_comp_sub_left]
  have := h.integral (x - (a + P))
  rwa [show x - (a + P) + P = x - a by ring] at this

end SpaceKernel

namespace TimeKernel

variable {ε C : ℝ} {ω ω' : ℝ → ℝ} (h : TimeKernel ε C ω ω')
include h

theorem cont : Continuous ω := continuous_iff_continuousAt.2 fun x => (h.deriv x).continuousAt

theorem nonneg_C : 0 ≤ C := (abs_nonneg _).trans (h.bound 0)

theorem integral_left_le (s : Set ℝ) (r : ℝ) : ∫ t in s, ω (t - r) ≤ 1 := by
  have e : ∫ t, ω (t - r) = 1 := by rw [integral_sub_right_eq_self, h.integral]
  rw [← e]
  exact setIntegral_le_integral (h.integrable.comp_sub_right r) (Filter.Eventually.of_forall fun t => h.nonneg _)

theorem integral_right_le (s : Set ℝ) (t : ℝ) : ∫ r in s, ω (t - r) ≤ 1 := by
  have e : ∫ r, ω (t - r) = 1 := by rw [integral_sub_left_eq_self, h.integral]
  rw [← e]
  exact setIntegral_le_integral (h.integrable.comp_sub_left t) (Filter.Eventually.of_forall fun t => h.nonneg _)

theorem integral_left (t₀ S r : ℝ) (h0 : t₀ ≤ r) (h1 : r + ε ≤ S) : ∫ t in Ioc t₀ S, ω (t - r) = 1 := by
  rw [setIntegral_eq_integral_of_forall_compl_eq_zero, integral_sub_right_eq_self, h.integral]
  intro t ht
  rw [mem_Ioc, not_and_or, not_lt, not_le] at ht
  rcases ht with ht | ht
  · exact h.before _ (by linarith)
  · exact h.later _ (by linarith)

end TimeKernel

/-- The product of a function of time and a function of space as a test function. -/
theorem test_product {P S K C : ℝ} {χ χ' Ψ Ψ' : ℝ → ℝ} (hχ0 : ∀ t ≤ S, 0 ≤ χ t) (hχS : χ S = 0)
    (hχ : ∀ t, HasDerivAt χ (χ' t) t) (hχc : Continuous χ') (hχb : ∀ t, |χ t| ≤ K) (hχd : ∀ t, |χ' t| ≤ K)
    (hΨ0 : ∀ x, 0 ≤ Ψ x) (hΨp : ∀ x, Ψ (x + P) = Ψ x) (hΨ : ∀ x, HasDerivAt Ψ (Ψ' x) x) (hΨd : ∀ x, |Ψ' x| ≤ C)
    (hΨl : ∀ x y, |Ψ' x - Ψ' y| ≤ C * |x - y|) :
    Test P S (K * C) (K * C) (fun t x => χ t * Ψ x) (fun t x => χ' t * Ψ x) (fun t x => χ t * Ψ' x) where
  nonneg t ht x := mul_nonneg (hχ0 t ht) (hΨ0 x)
  final x := by simp only [hχS, zero_mul]
  periodic t x := by simp only [hΨp]
  time t x := (hχ t).mul_const _
  space t x := (hΨ x).const_mul _
  continuous := (hχc.comp continuous_fst).mul
    ((continuous_iff_continuousAt.2 fun x => (hΨ x).continuousAt).comp continuous_snd)
  slope t x := by
    rw [abs_mul]
    exact mul_le_mul (hχb t) (hΨd x) (abs_nonneg _) ((abs_nonneg _).trans (hχb t))
  lipschitz t s x y := by
    have hK : 0 ≤ K := (abs_nonneg _).trans (hχb 0)
    have hC : 0 ≤ C := (abs_nonneg _).trans (hΨd 0)
    have h1 : |χ t - χ s| ≤ K * |t - s| :=
      Convex.norm_image_sub_le_of_norm_hasDerivWithin_le (f := χ) (f' := χ')
        (s := Set.univ) (C := K) (fun z _ => (hχ z).hasDerivWithinAt)
        (fun z _ => hχd z) convex_univ (Set.mem_univ s) (Set.mem_univ t)
    calc |χ t * Ψ' x - χ s * Ψ' y| = |(χ t - χ s) * Ψ' x + χ s * (Ψ' x - Ψ' y)| := by congr 1; ring
      _ ≤ |χ t - χ s| * |Ψ' x| + |χ s| * |Ψ' x - Ψ' y| := by
          refine (abs_add_le _ _).trans ?_
          rw [abs_mul, abs_mul]
      _ ≤ K * |t - s| * C + K * (C * |x - y|) :=
          add_le_add (mul_le_mul h1 (hΨd x) (abs_nonneg _) (by positivity))
            (mul_le_mul (hχb s) (hΨl x y) (abs_nonneg _) hK)
      _ = _ := by ring

end Verif.Weak
