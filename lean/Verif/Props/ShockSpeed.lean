import Verif.Props.LaxWendroff
import Mathlib.Analysis.SpecialFunctions.SmoothTransition
import Mathlib.Analysis.SpecialFunctions.Trigonometric.Deriv

/-!
C137.  The shocks of the limits of computed functions move with the speed given by the jump condition of Rankine and
Hugoniot.
-/

set_option linter.unusedSectionVars false

namespace Verif.WeakLimit

open Verif.Py Verif.Boundary Verif.FV Verif.Scalar Verif.ODE Verif.Weak Verif.EntropyLimit
open Verif.Interpolate Verif.Quadrature Verif.Bench Verif.Convergence
open Verif.Mesh hiding Error
open MeasureTheory Set Filter Topology

variable {V : Type*} [NormedAddCommGroup V] [NormedSpace ℝ V]

/-! ### Specification -/

/-- `u` has a shock that is at `x₀` at time `t₁` and moves with speed `σ` until the time `t₂`: within the distance `δ` of
it the values are `l` on its left and `r` on its right. -/
def ShockIn (u : ℝ × ℝ → V) (t₁ t₂ x₀ σ δ : ℝ) (l r : V) : Prop :=
  ∀ᵐ z : ℝ × ℝ, t₁ < z.1 → z.1 < t₂ → |z.2 - (x₀ + σ * (z.1 - t₁))| < δ →
    u z = if z.2 < x₀ + σ * (z.1 - t₁) then l else r

/-! ### Helper lemmas: bumps -/

/-- A smooth bump in time. -/
theorem time_bump {t₁ t₂ : ℝ} (h : t₁ < t₂) : ∃ α : ℝ → ℝ, ContDiff ℝ 2 α ∧ (∀ t, 0 ≤ α t) ∧
    (∀ t, (t ≤ t₁ ∨ t₂ ≤ t) → α t = 0) ∧ ∀ t, t₁ < t → t < t₂ → 0 < α t := by
  refine ⟨fun t => Real.smoothTransition ((t - t₁) * (t₂ - t)), ?_, fun t => Real.smoothTransition.nonneg _, ?_, ?_⟩
  · exact Real.smoothTransition.contDiff.comp (by fun_prop)
  · intro t ht
    refine Real.smoothTransition.zero_of_nonpos ?_
    rcases ht with ht | ht <;> nlinarith
  · intro t h1 h2
    exact Real.smoothTransition.pos_of_pos (mul_pos (by linarith) (by linarith))

/-- A smooth periodic bump in space. -/
theorem space_bump {P δ : ℝ} (hP : 0 < P) (hδ : 0 < δ) (hδP : 2 * δ ≤ P) : ∃ β : ℝ → ℝ, ContDiff ℝ 2 β ∧
    (∀ x, β (x + P) = β x) ∧ (∀ x, 0 ≤ β x) ∧ (∀ x, δ ≤ |x| → |x| ≤ P - δ → β x = 0) ∧ 0 < β 0 := by
  refine ⟨fun x => Real.smoothTransition (Real.cos (2 * Real.pi / P * x) - Real.cos (2 * Real.pi / P * δ)), ?_, ?_,
    fun x => Real.smoothTransition.nonneg _, ?_, ?_⟩
  · exact Real.smoothTransition.contDiff.comp (by fun_prop)
  · intro x
    have : 2 * Real.pi / P * (x + P) = 2 * Real.pi / P * x + 2 * Real.pi := by field_simp
    simp only [this, Real.cos_add_two_pi]
  · intro x h1 h2
    refine Real.smoothTransition.zero_of_nonpos ?_
    have hpi := Real.pi_pos
    have key : Real.cos (2 * Real.pi / P * |x|) ≤ Real.cos (2 * Real.pi / P * δ) := by
      have hc : 0 < 2 * Real.pi / P := by positivity
      by_cases hx : |x| ≤ P / 2
      · refine Real.cos_le_cos_of_nonneg_of_le_pi (by positivity) ?_ (mul_le_mul_of_nonneg_left h1 hc.le)
        calc 2 * Real.pi / P * |x| ≤ 2 * Real.pi / P * (P / 2) := mul_le_mul_of_nonneg_left hx hc.le
          _ = Real.pi := by field_simp
      · have e : Real.cos (2 * Real.pi / P * |x|) = Real.cos (2 * Real.pi / P * (P - |x|)) := by
          rw [show 2 * Real.pi / P * (P - |x|) = 2 * Real.pi - 2 * Real.pi / P * |x| by field_simp, Real.cos_two_pi_sub]
        rw [e]
        refine Real.cos_le_cos_of_nonneg_of_le_pi (by positivity) ?_ (mul_le_mul_of_nonneg_left (by linarith) hc.le)
        calc 2 * Real.pi / P * (P - |x|) ≤ 2 * Real.pi / P * (P / 2) :=
              mul_le_mul_of_nonneg_left (by push Not at hx; linarith) hc.le
          _ = Real.pi := by field_simp
    have e : Real.cos (2 * Real.pi / P * x) = Real.cos (2 * Real.pi / P * |x|) := by
      rw [← Real.cos_abs, abs_mul, abs_of_pos (by positivity : 0 < 2 * Real.pi / P)]
    rw [e]
    linarith
  · refine Real.smoothTransition.pos_of_pos ?_
    simp only [mul_zero, Real.cos_zero]
    have hpi := Real.pi_pos
    have h0 : 0 < 2 * Real.pi / P * δ := by positivity
    have h1 : 2 * Real.pi / P * δ ≤ Real.pi := by
      calc 2 * Real.pi / P * δ ≤ 2 * Real.pi / P * (P / 2) := mul_le_mul_of_nonneg_left (by linarith) (by positivity)
        _ = Real.pi := by field_simp
    have := Real.cos_lt_cos_of_nonneg_of_le_pi le_rfl h1 h0
    rw [Real.cos_zero] at this
    linarith

/-- Twice differentiable functions that are periodic, or vanish outside an interval, have bounded Lipschitz continuous
derivatives. -/
def Tame (f f' : ℝ → ℝ) : Prop := (∀ x, HasDerivAt f (f' x) x) ∧ Continuous f' ∧
  ∃ B : ℝ, 0 ≤ B ∧ (∀ x, |f x| ≤ B ∧ |f' x| ≤ B) ∧ ∀ x y, |f x - f y| ≤ B * |x - y| ∧ |f' x - f' y| ≤ B * |x - y|

theorem tame_of {f : ℝ → ℝ} (hf : ContDiff ℝ 2 f) (hb : ∀ g : ℝ → ℝ, Continuous g → (g = f ∨ g = deriv f ∨ g = deriv (deriv f)) →
    ∃ B : ℝ, ∀ x, |g x| ≤ B) : Tame f (deriv f) := by
  have h1 : ContDiff ℝ 1 (deriv f) := ((contDiff_succ_iff_deriv (n := 1)).1 hf).2.2
  have h2 : Continuous (deriv (deriv f)) := h1.continuous_deriv le_rfl
  obtain ⟨B0, hB0⟩ := hb f hf.continuous (Or.inl rfl)
  obtain ⟨B1, hB1⟩ := hb _ h1.continuous (Or.inr (Or.inl rfl))
  obtain ⟨B2, hB2⟩ := hb _ h2 (Or.inr (Or.inr rfl))
  have d1 : ∀ x, HasDerivAt f (deriv f x) x := fun x => (hf.differentiable (by norm_num) x).hasDerivAt
  have d2 : ∀ x, HasDerivAt (deriv f) (deriv (deriv f) x) x := fun x => (h1.differentiable (by norm_num) x).hasDerivAt
  set B := max B0 (max B1 B2) with hB
  have hB' : 0 ≤ B := ((abs_nonneg _).trans (hB0 0)).trans (le_max_left _ _)
  have le1 : B1 ≤ B := (le_max_left _ _).trans (le_max_right _ _)
  have le2 : B2 ≤ B := (le_max_right _ _).trans (le_max_right _ _)
  refine ⟨d1, h1.continuous, B, hB', fun x => ⟨(hB0 x).trans (le_max_left _ _), (hB1 x).trans le1⟩, fun x y => ⟨?_, ?_⟩⟩
  · have := Convex.norm_image_sub_le_of_norm_hasDerivWithin_le (s := univ) (f := f) (f' := deriv f) (C := B)
      (fun s _ => (d1 s).hasDerivWithinAt) (fun s _ => (hB1 s).trans le1) convex_univ (mem_univ y) (mem_univ x)
    exact this
  · have := Convex.norm_image_sub_le_of_norm_hasDerivWithin_le (s := univ) (f := deriv f) (f' := deriv (deriv f)) (C := B)
      (fun s _ => (d2 s).hasDerivWithinAt) (fun s _ => (hB2 s).trans le2) convex_univ (mem_univ y) (mem_univ x)
    exact this

theorem tame_periodic {f : ℝ → ℝ} {P : ℝ} (hP : 0 < P) (hf : ContDiff ℝ 2 f) (hp : ∀ x, f (x + P) = f x) :
    Tame f (deriv f) := by
  refine tame_of hf fun g hg hc => ?_
  have d : ∀ h : ℝ → ℝ, Function.Periodic h P → Function.Periodic (deriv h) P := by
    intro h hh x
    have : (fun y => h (y + P)) = h := funext hh
    rw [← deriv_comp_add_const, this]
  have hgp : Function.Periodic g P := by
    rcases hc with rfl | rfl | rfl
    · exact hp
    · exact d _ hp
    · exact d _ (d _ hp)
  obtain ⟨B, hB⟩ := (isCompact_Icc (a := (0 : ℝ)) (b := P)).exists_bound_of_continuousOn hg.continuousOn
  refine ⟨B, fun x => ?_⟩
  obtain ⟨y, hy, e⟩ := hgp.exists_mem_Ico₀ hP x
  rw [e]
  exact hB y ⟨hy.1, hy.2.le⟩

theorem tame_support {f : ℝ → ℝ} {t₁ t₂ : ℝ} (hf : ContDiff ℝ 2 f) (hz : ∀ t, (t ≤ t₁ ∨ t₂ ≤ t) → f t = 0) :
    Tame f (deriv f) := by
  refine tame_of hf fun g hg hc => ?_
  have d : ∀ h : ℝ → ℝ, HasCompactSupport h → HasCompactSupport (deriv h) := fun h hh => hh.deriv
  have h0 : HasCompactSupport f := by
    refine HasCompactSupport.intro (isCompact_Icc (a := t₁) (b := t₂)) fun t ht => hz t ?_
    by_contra hc
    push Not at hc
    exact ht ⟨hc.1.le, hc.2.le⟩
  have hgs : HasCompactSupport g := by
    rcases hc with rfl | rfl | rfl
    · exact h0
    · exact d _ h0
    · exact d _ (d _ h0)
  obtain ⟨B, hB⟩ := hgs.exists_bound_of_continuous hg
  exact ⟨B, hB⟩

/-! ### Helper lemmas: the weak form near a shock -/

theorem deriv_zero {f f' : ℝ → ℝ} (h : Tame f f') (h0 : ∀ x, 0 ≤ f x) {x : ℝ} (hx : f x = 0) : f' x = 0 := by
  have : IsLocalMin f x := Eventually.of_forall fun y => by rw [hx]; exact h0 y
  rw [← (h.1 x).deriv]
  exact this.deriv_eq_zero

/-- Bumps that move with the shock are test functions. -/
theorem moving_test {α α' β β' : ℝ → ℝ} (hα : Tame α α') (hβ : Tame β β') {P S : ℝ} (hp : ∀ x, β (x + P) = β x)
    (hS : α S = 0) (σ k : ℝ) : TestFunction P S (fun t x => α t * β (x - (k + σ * t)))
      (fun t x => α' t * β (x - (k + σ * t)) - σ * (α t * β' (x - (k + σ * t)))) (fun t x => α t * β' (x - (k + σ * t))) := by
  obtain ⟨a1, a2, A, a3, a4, a5⟩ := hα
  obtain ⟨b1, b2, B, b3, b4, b5⟩ := hβ
  have ca : Continuous α := continuous_iff_continuousAt.2 fun x => (a1 x).continuousAt
  have cb : Continuous β := continuous_iff_continuousAt.2 fun x => (b1 x).continuousAt
  refine ⟨fun x => by simp [hS], fun t x => ?_, fun t x => ?_, fun t x => ?_, ?_, ⟨A * B + |σ| * (A * B), fun t x => ⟨?_, ?_⟩⟩,
    ⟨A * B * (2 + |σ|), fun t s x y => ?_⟩⟩
  · rw [show x + P - (k + σ * t) = x - (k + σ * t) + P by ring, hp]
  · have h1 : HasDerivAt (fun s => x - (k + σ * s)) (-σ) t := by
      have := (((hasDerivAt_id t).const_mul σ).const_add k).const_sub x
      simpa using this
    have := (a1 t).mul ((b1 (x - (k + σ * t))).comp t h1)
    refine this.congr_deriv ?_
    simp only [Function.comp]
    ring
  · have h1 : HasDerivAt (fun y => y - (k + σ * t)) 1 x := (hasDerivAt_id x).sub_const _
    have := ((b1 (x - (k + σ * t))).comp x h1).const_mul (α t)
    refine this.congr_deriv ?_
    ring
  · fun_prop
  · have h1 : |α' t * β (x - (k + σ * t))| ≤ A * B := by
      rw [abs_mul]; exact mul_le_mul (a4 t).2 (b4 _).1 (abs_nonneg _) a3
    have h2 : |α t * β' (x - (k + σ * t))| ≤ A * B := by
      rw [abs_mul]; exact mul_le_mul (a4 t).1 (b4 _).2 (abs_nonneg _) a3
    refine (abs_sub _ _).trans (add_le_add h1 ?_)
    rw [abs_mul]
    exact mul_le_mul_of_nonneg_left h2 (abs_nonneg _)
  · have h2 : |α t * β' (x - (k + σ * t))| ≤ A * B := by
      rw [abs_mul]; exact mul_le_mul (a4 t).1 (b4 _).2 (abs_nonneg _) a3
    have : 0 ≤ |σ| * (A * B) := by positivity
    linarith
  · set p := x - (k + σ * t) with hp'
    set r := y - (k + σ * s) with hr'
    have e : α t * β' p - α s * β' r = (α t - α s) * β' p + α s * (β' p - β' r) := by ring
    have h1 : |(α t - α s) * β' p| ≤ A * |t - s| * B := by
      rw [abs_mul]; exact mul_le_mul (a5 t s).1 (b4 _).2 (abs_nonneg _) (by positivity)
    have h2 : |α s * (β' p - β' r)| ≤ A * (B * (|x - y| + |σ| * |t - s|)) := by
      rw [abs_mul]
      refine mul_le_mul (a4 s).1 ((b5 p r).2.trans (mul_le_mul_of_nonneg_left ?_ b3)) (abs_nonneg _) a3
      rw [show p - r = (x - y) - σ * (t - s) by rw [hp', hr']; ring, ← abs_mul]
      exact abs_sub _ _
    rw [e]
    refine (abs_add_le _ _).trans ((add_le_add h1 h2).trans ?_)
    have g1 : 0 ≤ A * B * |x - y| := by positivity
    have g2 : 0 ≤ A * B * |t - s| := by positivity
    have g3 : 0 ≤ A * B * (|σ| * |x - y|) := by positivity
    nlinarith

variable [CompleteSpace V]

theorem jump_of {q : V → V} {a P t₀ S : ℝ} {u : ℝ × ℝ → V} {u0 : ℝ → V}
    (hP : 0 < P) {t₁ t₂ x₀ σ δ : ℝ} {l r : V} (h01 : t₀ ≤ t₁) (h12 : t₁ < t₂) (h2S : t₂ ≤ S) (hδ : 0 < δ)
    (hin : ∀ t, t₁ < t → t < t₂ → a ≤ x₀ + σ * (t - t₁) - δ ∧ x₀ + σ * (t - t₁) + δ ≤ a + P)
    (h : ∀ φ φt φx, TestFunction P S φ φt φx → (∀ t x, a ≤ x → x ≤ a + P →
      ¬(t₁ < t ∧ t < t₂ ∧ |x - (x₀ + σ * (t - t₁))| < δ) → φ t x = 0) →
      (∫ z in Ioc t₀ S ×ˢ Ioc a (a + P), (φt z.1 z.2 • u z + φx z.1 z.2 • q (u z))) + ∫ x in a..a + P, φ t₀ x • u0 x = 0)
    (hs : ShockIn u t₁ t₂ x₀ σ δ l r) : σ • (l - r) = q l - q r := by
  have hδP : 2 * δ ≤ P := by
    have := hin ((t₁ + t₂) / 2) (by linarith) (by linarith)
    linarith
  obtain ⟨α, α1, α2, α3, α4⟩ := time_bump h12
  obtain ⟨β, β1, β2, β3, β4, β5⟩ := space_bump hP hδ hδP
  have tα := tame_support α1 α3
  have tβ := tame_periodic hP β1 β2
  set α' := deriv α
  set β' := deriv β
  have hα' : ∀ t, (t ≤ t₁ ∨ t₂ ≤ t) → α' t = 0 := fun t ht => deriv_zero tα α2 (α3 t ht)
  have ca : Continuous α := α1.continuous
  have cb : Continuous β := β1.continuous
  have ca' : Continuous α' := tα.2.1
  have cb' : Continuous β' := tβ.2.1
  have hℓ : ∀ t, x₀ - σ * t₁ + σ * t = x₀ + σ * (t - t₁) := fun t => by ring
  have hw := h _ _ _ (moving_test tα tβ β2 (α3 S (Or.inr h2S)) σ (x₀ - σ * t₁)) (by
    intro t x hx1 hx2 hn
    simp only [hℓ]
    by_cases ht : t₁ < t ∧ t < t₂
    · have hd : δ ≤ |x - (x₀ + σ * (t - t₁))| := by
        by_contra hc
        exact hn ⟨ht.1, ht.2, not_le.1 hc⟩
      obtain ⟨i1, i2⟩ := hin t ht.1 ht.2
      rw [β4 _ hd (_root_.abs_le.2 ⟨by linarith, by linarith⟩), mul_zero]
    · have ho : t ≤ t₁ ∨ t₂ ≤ t := by
        by_contra hc
        push Not at hc
        exact ht hc
      rw [α3 t ho, zero_mul])
  simp only [hℓ] at hw
  set ℓ : ℝ → ℝ := fun t => x₀ + σ * (t - t₁) with hℓd
  have cℓ : Continuous ℓ := by rw [hℓd]; fun_prop
  -- nothing at the beginning
  have z0 : (∫ x in a..a + P, (α t₀ * β (x - (x₀ + σ * (t₀ - t₁)))) • u0 x) = 0 := by
    rw [α3 t₀ (Or.inl h01)]
    simp
  rw [z0, add_zero] at hw
  -- the integrand with the values next to the shock
  let g : V → ℝ → ℝ → V := fun v t x =>
    (α' t * β (x - ℓ t) - σ * (α t * β' (x - ℓ t))) • v + (α t * β' (x - ℓ t)) • q v
  have cg : ∀ v, Continuous fun z : ℝ × ℝ => g v z.1 z.2 := fun v => by simp only [g]; fun_prop
  let G : ℝ × ℝ → V := fun z => if z.2 < ℓ z.1 then g l z.1 z.2 else g r z.1 z.2
  have hout : ∀ v t x, x ∈ Ioc a (a + P) → ¬(t₁ < t ∧ t < t₂ ∧ |x - ℓ t| < δ) → g v t x = 0 := by
    intro v t x hx hn
    by_cases ht : t₁ < t ∧ t < t₂
    · have hd : δ ≤ |x - ℓ t| := by
        by_contra hc
        exact hn ⟨ht.1, ht.2, not_le.1 hc⟩
      obtain ⟨i1, i2⟩ := hin t ht.1 ht.2
      change a ≤ ℓ t - δ at i1
      change ℓ t + δ ≤ a + P at i2
      have hd2 : |x - ℓ t| ≤ P - δ := _root_.abs_le.2 ⟨by linarith [hx.1], by linarith [hx.2]⟩
      have e1 := β4 _ hd hd2
      have e2 := deriv_zero tβ β3 e1
      simp only [g, e1, e2, mul_zero, sub_zero, zero_smul, add_zero]
    · have ho : t ≤ t₁ ∨ t₂ ≤ t := by
        by_contra hc
        push Not at hc
        exact ht hc
      simp only [g, α3 t ho, hα' t ho, zero_mul, mul_zero, sub_zero, zero_smul, add_zero]
  have hG : (∫ z in Ioc t₀ S ×ˢ Ioc a (a + P), G z) = 0 := by
    rw [← hw]
    refine integral_congr_ae ?_
    have hm : MeasurableSet (Ioc t₀ S ×ˢ Ioc a (a + P)) := measurableSet_Ioc.prod measurableSet_Ioc
    filter_upwards [ae_restrict_mem hm, ae_restrict_of_ae hs] with z hz hsz
    by_cases hc : t₁ < z.1 ∧ z.1 < t₂ ∧ |z.2 - ℓ z.1| < δ
    · have e := hsz hc.1 hc.2.1 hc.2.2
      simp only [G]
      change u z = if z.2 < ℓ z.1 then l else r at e
      rw [e]
      split_ifs <;> rfl
    · have e := hout (u z) z.1 z.2 hz.2 hc
      simp only [G]
      rw [hout l z.1 z.2 hz.2 hc, hout r z.1 z.2 hz.2 hc, ite_self]
      exact e.symm
  have hGi : IntegrableOn G (Ioc t₀ S ×ˢ Ioc a (a + P)) := by
    have hb : IntegrableOn (fun z : ℝ × ℝ => ‖g l z.1 z.2‖ + ‖g r z.1 z.2‖) (Ioc t₀ S ×ˢ Ioc a (a + P)) := by
      refine IntegrableOn.mono_set ?_ (prod_mono Ioc_subset_Icc_self Ioc_subset_Icc_self)
      exact (((cg l).norm.add (cg r).norm).continuousOn).integrableOn_compact (isCompact_Icc.prod isCompact_Icc)
    refine Integrable.mono' hb ?_ (Eventually.of_forall fun z => ?_)
    · refine (StronglyMeasurable.ite ?_ (cg l).stronglyMeasurable (cg r).stronglyMeasurable).aestronglyMeasurable
      exact measurableSet_lt measurable_snd (cℓ.measurable.comp measurable_fst)
    · simp only [G]
      split_ifs
      · linarith [norm_nonneg (g r z.1 z.2)]
      · linarith [norm_nonneg (g l z.1 z.2)]
  -- the integrals over space
  let b : ℝ → ℝ := fun y => ∫ s in (0 : ℝ)..y, β s
  have hb : ∀ y, HasDerivAt b (β y) y := fun y => (cb.integral_hasStrictDerivAt 0 y).hasDerivAt
  have b0 : b 0 = 0 := intervalIntegral.integral_same
  have bz : ∀ c d : ℝ, (∀ s ∈ uIcc c d, β s = 0) → b c = b d := by
    intro c d hz
    have e1 : b c + ∫ s in c..d, β s = b d :=
      intervalIntegral.integral_add_adjacent_intervals (cb.intervalIntegrable _ _) (cb.intervalIntegrable _ _)
    have e2 : ∫ s in c..d, β s = 0 := by
      rw [intervalIntegral.integral_congr (g := fun _ => 0) fun s hs => hz s hs]
      simp
    linarith
  let H : V → ℝ → ℝ → V := fun v t x =>
    (α' t * b (x - ℓ t) - σ * (α t * β (x - ℓ t))) • v + (α t * β (x - ℓ t)) • q v
  have hH : ∀ v t x, HasDerivAt (H v t) (g v t x) x := by
    intro v t x
    have h1 : HasDerivAt (fun y => y - ℓ t) 1 x := (hasDerivAt_id x).sub_const _
    have k1 : HasDerivAt (fun y => b (y - ℓ t)) (β (x - ℓ t)) x := by
      have := (hb (x - ℓ t)).comp x h1
      rwa [mul_one] at this
    have k2 : HasDerivAt (fun y => β (y - ℓ t)) (β' (x - ℓ t)) x := by
      have := (tβ.1 (x - ℓ t)).comp x h1
      rwa [mul_one] at this
    exact (((k1.const_mul (α' t)).sub ((k2.const_mul (α t)).const_mul σ)).smul_const v).add
      ((k2.const_mul (α t)).smul_const (q v))
  have cgt : ∀ v t, Continuous (g v t) := fun v t => (cg v).comp (continuous_const.prodMk continuous_id)
  have hI : ∀ v t c d, ∫ x in c..d, g v t x = H v t d - H v t c := fun v t c d =>
    intervalIntegral.integral_eq_sub_of_hasDerivAt (fun x _ => hH v t x) ((cgt v t).intervalIntegrable _ _)
  set W : V := (β 0) • ((q l - q r) - σ • (l - r)) with hWd
  set K : V := (-b (-δ)) • l + b δ • r with hK
  have inner : ∀ t, ∫ x in Ioc a (a + P), G (t, x) = α' t • K + α t • W := by
    intro t
    by_cases ht : t₁ < t ∧ t < t₂
    · obtain ⟨i1, i2⟩ := hin t ht.1 ht.2
      change a ≤ ℓ t - δ at i1
      change ℓ t + δ ≤ a + P at i2
      rw [← intervalIntegral.integral_of_le (by linarith : a ≤ a + P)]
      have c1 : (fun x => g l t x) =ᵐ[volume.restrict (uIoc a (ℓ t))] fun x => G (t, x) := by
        rw [uIoc_of_le (by linarith)]
        have hne : ∀ᵐ x : ℝ, x ≠ ℓ t := by
          rw [ae_iff]
          simp
        filter_upwards [ae_restrict_mem measurableSet_Ioc, ae_restrict_of_ae hne] with x hx hx'
        exact (if_pos (lt_of_le_of_ne hx.2 hx')).symm
      have c2 : (fun x => g r t x) =ᵐ[volume.restrict (uIoc (ℓ t) (a + P))] fun x => G (t, x) := by
        rw [uIoc_of_le (by linarith)]
        filter_upwards [ae_restrict_mem measurableSet_Ioc] with x hx
        exact (if_neg (not_lt.2 hx.1.le)).symm
      rw [← intervalIntegral.integral_add_adjacent_intervals (b := ℓ t)
        (((cgt l t).intervalIntegrable _ _).congr_ae c1) (((cgt r t).intervalIntegrable _ _).congr_ae c2),
        ← intervalIntegral.integral_congr_ae_restrict c1, ← intervalIntegral.integral_congr_ae_restrict c2, hI, hI]
      have e1 : β (a - ℓ t) = 0 := β4 _ (by rw [abs_of_nonpos (by linarith)]; linarith) (by
        rw [abs_of_nonpos (by linarith)]; linarith)
      have e2 : β (a + P - ℓ t) = 0 := β4 _ (by rw [abs_of_nonneg (by linarith)]; linarith) (by
        rw [abs_of_nonneg (by linarith)]; linarith)
      have e3 : b (a - ℓ t) = b (-δ) := bz _ _ fun s hs => by
        rw [uIcc_of_le (by linarith)] at hs
        exact β4 s (by rw [abs_of_nonpos (by linarith [hs.2])]; linarith [hs.2]) (by
          rw [abs_of_nonpos (by linarith [hs.2])]; linarith [hs.1])
      have e4 : b (a + P - ℓ t) = b δ := bz _ _ fun s hs => by
        rw [uIcc_of_ge (by linarith)] at hs
        exact β4 s (by rw [abs_of_nonneg (by linarith [hs.1])]; linarith [hs.1]) (by
          rw [abs_of_nonneg (by linarith [hs.1])]; linarith [hs.2])
      simp only [H, sub_self, e1, e2, e3, e4, b0, hK, hWd]
      module
    · have ho : t ≤ t₁ ∨ t₂ ≤ t := by
        by_contra hc
        push Not at hc
        exact ht hc
      have : ∀ x ∈ Ioc a (a + P), G (t, x) = 0 := by
        intro x hx
        have hn : ¬(t₁ < t ∧ t < t₂ ∧ |x - ℓ t| < δ) := fun hc => ht ⟨hc.1, hc.2.1⟩
        simp only [G]
        rw [hout l t x hx hn, hout r t x hx hn, ite_self]
      rw [setIntegral_congr_fun measurableSet_Ioc this, α3 t ho, hα' t ho]
      simp
  -- the integral over the time
  have hfub : (∫ z in Ioc t₀ S ×ˢ Ioc a (a + P), G z) = ∫ t in Ioc t₀ S, ∫ x in Ioc a (a + P), G (t, x) := by
    rw [Measure.volume_eq_prod] at hGi ⊢
    exact setIntegral_prod G hGi
  rw [hfub] at hG
  simp only [inner] at hG
  have htS : t₀ < S := by linarith
  have j1 : IntervalIntegrable (fun t => α' t • K) volume t₀ S := (ca'.smul continuous_const).intervalIntegrable _ _
  have j2 : IntervalIntegrable (fun t => α t • W) volume t₀ S := (ca.smul continuous_const).intervalIntegrable _ _
  rw [← intervalIntegral.integral_of_le htS.le, intervalIntegral.integral_add j1 j2, intervalIntegral.integral_smul_const,
    intervalIntegral.integral_smul_const, intervalIntegral.integral_eq_sub_of_hasDerivAt (fun t _ => tα.1 t)
      (ca'.intervalIntegrable _ _), α3 S (Or.inr h2S), α3 t₀ (Or.inl h01), sub_self, zero_smul, zero_add] at hG
  have hpos : 0 < ∫ t in t₀..S, α t := intervalIntegral.integral_pos htS ca.continuousOn (fun t _ => α2 t)
    ⟨(t₁ + t₂) / 2, ⟨by linarith, by linarith⟩, α4 _ (by linarith) (by linarith)⟩
  have hW := (smul_eq_zero.1 hG).resolve_left hpos.ne'
  rw [hWd] at hW
  have := (smul_eq_zero.1 hW).resolve_left β5.ne'
  exact (sub_eq_zero.1 this).symm

theorem jump_condition {q : V → V} {a P t₀ S : ℝ} {u : ℝ × ℝ → V} {u0 : ℝ → V} (h : WeakSolution q a P t₀ S u u0)
    (hP : 0 < P) {t₁ t₂ x₀ σ δ : ℝ} {l r : V} (h01 : t₀ ≤ t₁) (h12 : t₁ < t₂) (h2S : t₂ ≤ S) (hδ : 0 < δ)
    (hin : ∀ t, t₁ < t → t < t₂ → a ≤ x₀ + σ * (t - t₁) - δ ∧ x₀ + σ * (t - t₁) + δ ≤ a + P)
    (hs : ShockIn u t₁ t₂ x₀ σ δ l r) : σ • (l - r) = q l - q r :=
  jump_of hP h01 h12 h2S hδ hin (fun φ φt φx hφ _ => h φ φt φx hφ) hs

/-! ### The property -/

/-- C137.  Let computed functions of one of the scalar schemes of C136 converge to `w` on finer and finer meshes.  A shock
of `w` with different values on its sides moves with speed one for linear advection and with the mean of the two values
for Burgers' equation. -/
theorem C137_scalar (p : Problem) (F : NumFlux ℝ)
    (hF : F ∈ [laxFriedrichs (p.riemann : Riemann ℝ ℝ), central ℝ (p.riemann : Riemann ℝ ℝ).flux]) (T : Tableau ℝ)
    (hT : ∑ l ∈ Finset.range T.size, T.b l = 1) (m M c P a t₀ S : ℝ) (hc : 0 ≤ c) (hP : 0 < P)
    (wall : Option (ℝ → ℝ)) (il ir : Option (ℝ → ℝ)) (bc : BC ℝ ℝ) (hbc : build wall ["periodic"] 1 il ir = .ok bc)
    (n : ℕ → ℕ) (hn : ∀ r, 0 < n r) (hlim : Tendsto n atTop atTop) (u : ℕ → ℝ × ℝ → ℝ) (u0 : ℕ → ℝ → ℝ)
    (h : ∀ r, RunWithin T (vecRhs (n r) (rhs F (P / n r) bc)) (Icc m M) c a (P / n r) t₀ S (u r) (u0 r))
    (w : ℝ × ℝ → ℝ) (f : ℝ → ℝ) (hw : IntegrableOn w (Ioc t₀ S ×ˢ Ioc a (a + P))) (hf : IntegrableOn f (Ioc a (a + P)))
    (hlimw : Tendsto (fun r => ∫ z in Ioc t₀ S ×ˢ Ioc a (a + P), |u r z - w z|) atTop (𝓝 0))
    (hlimf : Tendsto (fun r => ∫ x in Ioc a (a + P), |u0 r x - f x|) atTop (𝓝 0))
    (t₁ t₂ x₀ σ δ l r : ℝ) (h01 : t₀ ≤ t₁) (h12 : t₁ < t₂) (h2S : t₂ ≤ S) (hδ : 0 < δ)
    (hin : ∀ t, t₁ < t → t < t₂ → a ≤ x₀ + σ * (t - t₁) - δ ∧ x₀ + σ * (t - t₁) + δ ≤ a + P)
    (hs : ShockIn w t₁ t₂ x₀ σ δ l r) (hlr : l ≠ r) :
    (p = .advection → σ = 1) ∧ (p = .burgers → σ = (l + r) / 2) := by
  have hw' := C136_scalar p F hF T hT m M c P a t₀ S hc hP wall il ir bc hbc n hn hlim u u0 h w f hw hf hlimw hlimf
  have := jump_condition hw' hP h01 h12 h2S hδ hin hs
  have hne : l - r ≠ 0 := sub_ne_zero.2 hlr
  rw [smul_eq_mul] at this
  refine ⟨?_, ?_⟩ <;> rintro rfl
  · simp only [law] at this
    exact mul_right_cancel₀ hne (by linarith)
  · simp only [law] at this
    exact mul_right_cancel₀ hne (by linarith)

open Verif.SWE in
/-- C137.  The same for the shallow water equations and the schemes of C136: across a shock of the limit, the mass that
the shock leaves behind is the difference of the discharges, and the momentum that it leaves behind is the difference of
the fluxes of momentum. -/
theorem C137_water (P : SWE.Params ℝ) (hP : P.Good) (hrt : IsSqrt P.rt) (h0 H Q : ℝ) (he : P.eps ≤ h0)
    (il ir : Option (ℝ → State ℝ)) (bc : BC ℝ (State ℝ)) (hbc : build (some reflect) ["periodic"] 1 il ir = .ok bc)
    (F : NumFlux (State ℝ)) (hF : F ∈ plainFluxes P ⟨none⟩ ++ (plainFluxes P ⟨none⟩).map (mcl P ⟨none⟩ bc))
    (T : Tableau ℝ) (hT : ∑ l ∈ Finset.range T.size, T.b l = 1) (c L a t₀ S : ℝ) (hc : 0 ≤ c) (hL : 0 < L)
    (n : ℕ → ℕ) (hn : ∀ r, 0 < n r) (hlim : Tendsto n atTop atTop) (u : ℕ → ℝ × ℝ → State ℝ) (u0 : ℕ → ℝ → State ℝ)
    (h : ∀ r, RunWithin T (vecRhs (n r) (rhs F (L / n r) bc)) {v | h0 ≤ v.1 ∧ v.1 ≤ H ∧ |v.2| ≤ Q} c a (L / n r) t₀ S
      (u r) (u0 r))
    (w : ℝ × ℝ → State ℝ) (f : ℝ → State ℝ) (hw : IntegrableOn w (Ioc t₀ S ×ˢ Ioc a (a + L)))
    (hf : IntegrableOn f (Ioc a (a + L)))
    (hlimw : Tendsto (fun r => ∫ z in Ioc t₀ S ×ˢ Ioc a (a + L), ‖u r z - w z‖) atTop (𝓝 0))
    (hlimf : Tendsto (fun r => ∫ x in Ioc a (a + L), ‖u0 r x - f x‖) atTop (𝓝 0))
    (t₁ t₂ x₀ σ δ : ℝ) (l r : State ℝ) (h01 : t₀ ≤ t₁) (h12 : t₁ < t₂) (h2S : t₂ ≤ S) (hδ : 0 < δ)
    (hin : ∀ t, t₁ < t → t < t₂ → a ≤ x₀ + σ * (t - t₁) - δ ∧ x₀ + σ * (t - t₁) + δ ≤ a + L)
    (hs : ShockIn w t₁ t₂ x₀ σ δ l r) :
    σ * (l.1 - r.1) = l.2 - r.2 ∧
      σ * (l.2 - r.2) = (l.2 ^ 2 / l.1 + P.g * l.1 ^ 2 / 2) - (r.2 ^ 2 / r.1 + P.g * r.1 ^ 2 / 2) := by
  have hw' := C136_water P hP hrt h0 H Q he il ir bc hbc F hF T hT c L a t₀ S hc hL n hn hlim u u0 h w f hw hf hlimw hlimf
  have := jump_condition hw' hL h01 h12 h2S hδ hin hs
  exact ⟨congrArg Prod.fst this, congrArg Prod.snd this⟩

/-- C137.  The shocks of the entropy solutions to which the Lax-Friedrichs solver converges move with the same speeds. -/
theorem C137_entropy (p : Problem) (m M V t₀ S : ℝ) (hm : p = .burgers → 0 < m) (hS : t₀ ≤ S) (d : Interval ℝ)
    (hd : d.a < d.b) (f G : ℝ → ℝ) (hfr : ∀ x, m ≤ f x ∧ f x ≤ M) (hf : ∀ x, f (x + (d.b - d.a)) = f x)
    (hG : Majorant f G (d.b - d.a) V) (w : ℝ × ℝ → ℝ) (hw : Solves p m M d f t₀ S w)
    (t₁ t₂ x₀ σ δ l r : ℝ) (h01 : t₀ ≤ t₁) (h12 : t₁ < t₂) (h2S : t₂ ≤ S) (hδ : 0 < δ)
    (hin : ∀ t, t₁ < t → t < t₂ → d.a ≤ x₀ + σ * (t - t₁) - δ ∧ x₀ + σ * (t - t₁) + δ ≤ d.b)
    (hs : ShockIn w t₁ t₂ x₀ σ δ l r) (hlr : l ≠ r) :
    (p = .advection → σ = 1) ∧ (p = .burgers → σ = (l + r) / 2) := by
  have hw' := C136_entropy p m M V t₀ S hm hS d hd f G hfr hf hG w hw
  have := jump_condition hw' (by linarith) h01 h12 h2S hδ (fun t h1 h2 => by
    obtain ⟨i1, i2⟩ := hin t h1 h2
    exact ⟨i1, by linarith⟩) hs
  have hne : l - r ≠ 0 := sub_ne_zero.2 hlr
  rw [smul_eq_mul] at this
  refine ⟨?_, ?_⟩ <;> rintro rfl
  · simp only [law] at this
    exact mul_right_cancel₀ hne (by linarith)
  · simp only [law] at this
    exact mul_right_cancel₀ hne (by linarith)

/-- C137.  For linear advection with data of bounded variation, discontinuous ones included, the entropy solution is the
data moved with speed one, which is the exact solution of the benchmarks. -/
theorem C137_advection (m M V t₀ S : ℝ) (hS : t₀ ≤ S) (d : Interval ℝ) (hd : d.a < d.b) (f G : ℝ → ℝ)
    (hfr : ∀ x, m ≤ f x ∧ f x ≤ M) (hf : ∀ x, f (x + (d.b - d.a)) = f x) (hG : Majorant f G (d.b - d.a) V) :
    Solves .advection m M d f t₀ S (fun z => f (z.2 - (z.1 - t₀))) := by
  have hP0 : 0 < d.b - d.a := by linarith
  have hfm := majorant_measurable hG
  have hV : 0 ≤ V := by
    have h1 := hG.period 0
    have h2 := hG.mono (show (0 : ℝ) ≤ 0 + (d.b - d.a) by linarith)
    linarith
  have hi : IntegrableOn (fun z : ℝ × ℝ => f (z.2 - (z.1 - t₀))) (Ioc t₀ S ×ˢ Ioc d.a d.b) := by
    refine Measure.integrableOn_of_bounded (M := max |m| |M|) ?_
      (hfm.comp (by fun_prop)).aestronglyMeasurable (Eventually.of_forall fun z => ?_)
    · exact ((isCompact_Icc.prod isCompact_Icc).measure_lt_top.trans_le' (measure_mono
        (prod_mono Ioc_subset_Icc_self Ioc_subset_Icc_self))).ne
    · exact abs_le_max_abs_abs (hfr _).1 (hfr _).2
  refine ⟨hi, Eventually.of_forall fun z => hfr _, ?_⟩
  refine near_runs .advection m M V t₀ S 1 (by simp) one_pos
    (fun dx dt h0 h1 => ⟨h0, fun _ => by linarith, by simp⟩) hS d hd f G hfr hf hG _ hi
    (fun dx => V * (Real.sqrt ((S - t₀) * dx) + 2 * dx) + 4 * V * dx) ?_ ?_
  · have : Continuous fun dx => V * (Real.sqrt ((S - t₀) * dx) + 2 * dx) + 4 * V * dx := by fun_prop
    have h0 := this.tendsto 0
    simpa using h0
  · intro n hn mesh hmesh bc hbc steps dt hsteps hdt hdt' hsum
    have hn0 : (0 : ℝ) < n := by exact_mod_cast hn
    set dx := (d.b - d.a) / n with hdx'
    have hdx : 0 < dx := div_pos hP0 hn0
    have hndx : n * dx = d.b - d.a := by rw [hdx']; field_simp
    have hst : ∀ τ ∈ steps, 0 ≤ τ ∧ τ ≤ dx := fun τ h => ⟨(hsteps τ h).1, by simpa using (hsteps τ h).2⟩
    have hs0 : 0 ≤ steps.sum := List.sum_nonneg fun x hx => (hst x hx).1
    obtain ⟨s', a1, a2, a3⟩ := C103_variation midpoint_rule hd hn hmesh none none none bc hbc (forwardEuler ℝ) (Or.inl rfl)
      steps hst f hf G V hG t₀ steps.sum
    let y : ℕ → ℝ := fun i => d.a + i * dx
    have hy : ∀ i : Fin n, InCell d n i (y i) := by
      intro i
      unfold InCell Mesh.node
      simp only [y, hdx']
      push_cast
      constructor
      · exact le_of_eq (by ring)
      · have : 0 ≤ (d.b - d.a) / n := hdx.le
        have e : d.a + ((i : ℕ) + 1 : ℝ) * (d.b - d.a) / n = d.a + (i : ℕ) * ((d.b - d.a) / n) + (d.b - d.a) / n := by ring
        linarith
    have key := a3 (fun i => y i) hy
    rw [sub_self, abs_zero, add_zero] at key
    refine ⟨s', fun i => |s'.solution i - f (y i - steps.sum)| +
      (G (d.a - steps.sum - 2 * dx + (i : ℕ) * dx + (4 : ℕ) * dx) - G (d.a - steps.sum - 2 * dx + (i : ℕ) * dx)), a1, a2,
      fun i t x h1 h2 h3 h4 => ?_, ?_⟩
    · rw [a2] at h1 h2
      have k1 : dt ≤ dx := by linarith
      have tri := abs_sub_le (s'.solution i) (f (y i - steps.sum)) (f (x - (t - t₀)))
      refine tri.trans (add_le_add le_rfl ?_)
      have e1 : d.a - steps.sum - 2 * dx + (i : ℕ) * dx = y i - steps.sum - 2 * dx := by simp only [y]; ring
      have e2 : d.a - steps.sum - 2 * dx + (i : ℕ) * dx + (4 : ℕ) * dx = y i - steps.sum + 2 * dx := by
        simp only [y]; push_cast; ring
      rw [e2, e1]
      have u1 : y i ≤ x := by simp only [y]; exact h3.le
      have u2 : x ≤ y i + dx := by simp only [y]; linarith
      have g1 : G (y i - steps.sum - 2 * dx) ≤ G (y i - steps.sum) := hG.mono (by linarith)
      have g2 : G (y i - steps.sum - 2 * dx) ≤ G (x - (t - t₀)) := hG.mono (by linarith)
      have g3 : G (y i - steps.sum) ≤ G (y i - steps.sum + 2 * dx) := hG.mono (by linarith)
      have g4 : G (x - (t - t₀)) ≤ G (y i - steps.sum + 2 * dx) := hG.mono (by linarith)
      rcases le_total (y i - steps.sum) (x - (t - t₀)) with hle | hle
      · have := hG.bound _ _ hle
        rw [abs_sub_comm] at this
        linarith
      · have := hG.bound _ _ hle
        linarith
    · have hG' : Majorant f G (n * dx) V := by rwa [hndx]
      have hsumG := hG'.sum_step (d.a - steps.sum - 2 * dx) 4
      rw [← Fin.sum_univ_eq_sum_range (fun z : ℕ => G (d.a - steps.sum - 2 * dx + z * dx + (4 : ℕ) * dx) -
        G (d.a - steps.sum - 2 * dx + z * dx))] at hsumG
      rw [← Finset.sum_mul, Finset.sum_add_distrib, hsumG, add_mul, mul_comm _ dx]
      have c2 : Real.sqrt (steps.sum * dx) ≤ Real.sqrt ((S - t₀) * dx) :=
        Real.sqrt_le_sqrt (mul_le_mul_of_nonneg_right (by linarith) hdx.le)
      have c3 : V * (Real.sqrt (steps.sum * dx) + 2 * dx) ≤ V * (Real.sqrt ((S - t₀) * dx) + 2 * dx) :=
        mul_le_mul_of_nonneg_left (by linarith) hV
      refine add_le_add (key.trans c3) (le_of_eq ?_)
      push_cast
      ring

/-! ### Examples -/

/-- A plateau of height 2 from 1/4 to 3/4, and 1 elsewhere. -/
noncomputable def block (x : ℝ) : ℝ := if 1 / 4 ≤ x ∧ x < 3 / 4 then 2 else 1

theorem block_majorant : Majorant (fun x => block (Int.fract x)) (fun x => 2 * ⌊x⌋ +
    ((if 1 / 4 ≤ Int.fract x then 1 else 0) + if 3 / 4 ≤ Int.fract x then 1 else 0)) 1 2 := by
  have hb : Bounds block fun x => (if 1 / 4 ≤ x then 1 else 0) + if 3 / 4 ≤ x then 1 else 0 := by
    intro s t _ hst _
    unfold block
    simp only
    split_ifs <;> first | (norm_num; done) | (exfalso; grind)
  have := hb.periodic (by norm_num [block])
  norm_num at this ⊢
  exact this

/-- Linear advection of the plateau on `[0, 1]` up to time 1/8: its left edge is a discontinuity of the entropy solution,
and moves with speed one. -/
example : ∃ w, Solves .advection 1 2 ⟨0, 1⟩ (fun x => block (Int.fract x)) 0 (1 / 8) w ∧
    ShockIn w 0 (1 / 8) (1 / 4) 1 (1 / 8) 1 2 ∧
    ∀ t : ℝ, 0 < t → t < 1 / 8 → (0 : ℝ) ≤ 1 / 4 + 1 * (t - 0) - 1 / 8 ∧ 1 / 4 + 1 * (t - 0) + 1 / 8 ≤ 1 := by
  have hr : ∀ x, (1 : ℝ) ≤ block (Int.fract x) ∧ block (Int.fract x) ≤ 2 := fun x => by
    unfold block
    split_ifs <;> norm_num
  have e : ((⟨0, 1⟩ : Interval ℝ).b - (⟨0, 1⟩ : Interval ℝ).a) = 1 := by simp
  have hper : ∀ x, block (Int.fract (x + ((⟨0, 1⟩ : Interval ℝ).b - (⟨0, 1⟩ : Interval ℝ).a))) = block (Int.fract x) :=
    fun x => by rw [e, Int.fract_add_one]
  have hG := block_majorant
  rw [← e] at hG
  refine ⟨_, C137_advection 1 2 2 0 (1 / 8) (by norm_num) ⟨0, 1⟩ (by norm_num) _ _ hr hper hG, ?_, fun t h1 h2 => ⟨by linarith, by linarith⟩⟩
  refine Eventually.of_forall fun z h1 h2 h3 => ?_
  simp only [one_mul, sub_zero] at h3 ⊢
  obtain ⟨h4, h5⟩ := abs_lt.1 h3
  have hf : Int.fract (z.2 - z.1) = z.2 - z.1 := Int.fract_eq_self.2 ⟨by linarith, by linarith⟩
  rw [hf]
  unfold block
  by_cases hc : z.2 < 1 / 4 + z.1
  · rw [if_pos hc, if_neg fun h => absurd h.1 (by linarith)]
  · rw [if_neg hc, if_pos ⟨by linarith, by linarith⟩]

end Verif.WeakLimit
