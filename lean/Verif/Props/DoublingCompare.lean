import Verif.Props.Doubling

/-!
Helper lemmas for C133: the distance between a function with bounded variation in space and time, and another one.
-/

set_option linter.unusedSectionVars false

namespace Verif.EntropyLimit

open MeasureTheory Set Verif.Weak Verif.Convergence

/-- How regular a computed function is: of bounded variation in space, and Lipschitz continuous in time up to the size
`δ` of a step. -/
structure Regular (a P t₀ S V L δ : ℝ) (u : ℝ × ℝ → ℝ) (u0 : ℝ → ℝ) : Prop where
  space : ∀ t ∈ Ioc t₀ S, ∃ W G, Majorant W G P V ∧ (∀ x, W (x + P) = W x) ∧ ∀ x ∈ Ioc a (a + P), u (t, x) = W x
  time : ∀ s ∈ Ioc t₀ S, ∀ t ∈ Ioc t₀ S, s ≤ t → ∫ y in Ioc a (a + P), |u (t, y) - u (s, y)| ≤ L * (t - s + δ)
  start : ∀ t ∈ Ioc t₀ S, ∫ y in Ioc a (a + P), |u (t, y) - u0 y| ≤ L * (t - t₀ + δ)

/-- The increase of a majorant, on average. -/
theorem majorant_integral {W G : ℝ → ℝ} {P V : ℝ} (hP : 0 < P) (h : Majorant W G P V) (a ε : ℝ) :
    IntegrableOn (fun x => G (x + ε) - G (x - ε)) (Ioc a (a + P)) ∧
      ∫ x in Ioc a (a + P), (G (x + ε) - G (x - ε)) = 2 * ε * V := by
  have hG := h.mono
  have i0 : ∀ b c, IntervalIntegrable G volume b c := fun b c => hG.intervalIntegrable
  have i1 : IntervalIntegrable (fun x => G (x + ε)) volume a (a + P) :=
    Monotone.intervalIntegrable fun x y hxy => hG (by linarith)
  have i2 : IntervalIntegrable (fun x => G (x - ε)) volume a (a + P) :=
    Monotone.intervalIntegrable fun x y hxy => hG (by linarith)
  have hle : a ≤ a + P := by linarith
  refine ⟨(intervalIntegrable_iff_integrableOn_Ioc_of_le hle).1 (i1.sub i2), ?_⟩
  rw [← intervalIntegral.integral_of_le hle]
  set g : ℝ → ℝ := fun x => G x - V / P * x with hg
  have hgp : Function.Periodic g P := fun x => by
    simp only [hg, h.period]
    field_simp
    ring
  have ig : ∀ b c, IntervalIntegrable g volume b c := fun b c =>
    (i0 b c).sub ((continuous_const.mul continuous_id).intervalIntegrable _ _)
  have e1 : ∀ x, G (x + ε) - G (x - ε) = (g (x + ε) - g (x - ε)) + 2 * ε * V / P := by
    intro x
    simp only [hg]
    field_simp
    ring
  simp only [e1]
  have j1 : IntervalIntegrable (fun x => g (x + ε)) volume a (a + P) := by
    have := (ig (a + ε) (a + P + ε)).comp_add_right ε
    simpa using this
  have j2 : IntervalIntegrable (fun x => g (x - ε)) volume a (a + P) := by
    have := (ig (a - ε) (a + P - ε)).comp_sub_right ε
    simpa using this
  rw [intervalIntegral.integral_add (j1.sub j2) (by simp), intervalIntegral.integral_sub j1 j2,
    intervalIntegral.integral_comp_add_right, intervalIntegral.integral_comp_sub_right,
    show a + P + ε = a + ε + P by ring, show a + P - ε = a - ε + P by ring, hgp.intervalIntegral_add_eq (a + ε) (a - ε),
    intervalIntegral.integral_const, smul_eq_mul]
  field_simp
  ring

section Kernels

variable {P ε C' : ℝ} {Ω Ω' : ℝ → ℝ} (hΩ : SpaceKernel P ε C' Ω Ω')
include hΩ

theorem near_bound {W G : ℝ → ℝ} {V : ℝ} (h : Majorant W G P V) (hW : ∀ x, W (x + P) = W x) (x y : ℝ) :
    |W x - W y| * Ω (x - y) ≤ (G (x + ε) - G (x - ε)) * Ω (x - y) := by
  by_cases h0 : Ω (x - y) = 0
  · rw [h0, mul_zero, mul_zero]
  refine mul_le_mul_of_nonneg_right ?_ (hΩ.nonneg _)
  obtain ⟨k, hk⟩ := hΩ.near _ h0
  have e : W y = W (y + k * P) := ((show Function.Periodic W P from hW).int_mul k y).symm
  rw [abs_le] at hk
  have hG := h.mono
  have h1 : G (x - ε) ≤ G (y + k * P) := hG (by linarith)
  have h2 : G (y + k * P) ≤ G (x + ε) := hG (by linarith)
  have h3 : G (x - ε) ≤ G x := hG (by linarith)
  have h4 : G x ≤ G (x + ε) := hG (by linarith)
  rw [e]
  rcases le_total x (y + k * P) with h' | h'
  · have := h.bound _ _ h'
    rw [abs_sub_comm] at this
    linarith
  · have := h.bound _ _ h'
    linarith

/-- The smoothed differences of a function of bounded variation. -/
theorem space_error (hP : 0 < P) {W G : ℝ → ℝ} {V : ℝ} (h : Majorant W G P V) (hW : ∀ x, W (x + P) = W x) (a : ℝ)
    {w : ℝ → ℝ} (hw : Measurable w) {m M : ℝ} (hwr : ∀ x, m ≤ w x ∧ w x ≤ M) (heq : ∀ x ∈ Ioc a (a + P), w x = W x) :
    ∫ x in Ioc a (a + P), ∫ y in Ioc a (a + P), |w x - w y| * Ω (x - y) ≤ 2 * ε * V := by
  obtain ⟨i1, e1⟩ := majorant_integral hP h a ε
  rw [← e1]
  have mF : Measurable fun p : ℝ × ℝ => |w p.1 - w p.2| * Ω (p.1 - p.2) :=
    (continuous_abs.measurable.comp ((hw.comp measurable_fst).sub (hw.comp measurable_snd))).mul
      (hΩ.continuous.measurable.comp (measurable_fst.sub measurable_snd))
  have bF : ∀ x y, |(|w x - w y| * Ω (x - y))| ≤ (M - m) * C' := by
    intro x y
    rw [abs_mul, abs_abs]
    refine mul_le_mul ?_ (hΩ.bound _) (abs_nonneg _) (by linarith [(hwr 0).1, (hwr 0).2])
    rw [abs_le]
    constructor <;> linarith [(hwr x).1, (hwr x).2, (hwr y).1, (hwr y).2]
  have iF : Integrable (fun p : ℝ × ℝ => |w p.1 - w p.2| * Ω (p.1 - p.2))
      ((volume.restrict (Ioc a (a + P))).prod (volume.restrict (Ioc a (a + P)))) :=
    bounded_integrable' mF (Filter.Eventually.of_forall fun p => bF p.1 p.2)
  refine setIntegral_mono_on iF.integral_prod_left i1 measurableSet_Ioc fun x hx => ?_
  have e2 : G (x + ε) - G (x - ε) = ∫ y in Ioc a (a + P), (G (x + ε) - G (x - ε)) * Ω (x - y) := by
    rw [integral_const_mul, hΩ.integral_right hP.le, mul_one]
  rw [e2]
  have i3 : IntegrableOn (fun y => |w x - w y| * Ω (x - y)) (Ioc a (a + P)) :=
    bounded_integrable' (mF.comp (measurable_const.prodMk measurable_id)) (Filter.Eventually.of_forall fun y => bF x y)
  have i4 : IntegrableOn (fun y => (G (x + ε) - G (x - ε)) * Ω (x - y)) (Ioc a (a + P)) :=
    ((hΩ.continuous.comp (continuous_const.sub continuous_id)).integrableOn_Ioc).const_mul _
  refine setIntegral_mono_on i3 i4 measurableSet_Ioc fun y hy => ?_
  rw [heq x hx, heq y hy]
  exact near_bound hΩ h hW x y

/-- Smoothing does not change the mean. -/
theorem smooth_mean (hP : 0 ≤ P) (a : ℝ) {k : ℝ → ℝ} (hk : Measurable k) {B : ℝ} (hkB : ∀ x, |k x| ≤ B) :
    ∫ x in Ioc a (a + P), ∫ y in Ioc a (a + P), k y * Ω (x - y) = ∫ y in Ioc a (a + P), k y := by
  have iF : Integrable (fun p : ℝ × ℝ => k p.2 * Ω (p.1 - p.2))
      ((volume.restrict (Ioc a (a + P))).prod (volume.restrict (Ioc a (a + P)))) := by
    refine bounded_integrable' (C := B * C') ((hk.comp measurable_snd).mul
      (hΩ.continuous.measurable.comp (measurable_fst.sub measurable_snd))) (Filter.Eventually.of_forall fun p => ?_)
    rw [abs_mul]
    exact mul_le_mul (hkB _) (hΩ.bound _) (abs_nonneg _) ((abs_nonneg _).trans (hkB 0))
  rw [integral_integral_swap iF]
  congr 1
  funext y
  rw [integral_const_mul, hΩ.integral_left hP, mul_one]

end Kernels

section Compare

variable {f : ℝ → ℝ} (hf : Measurable f) {m M Q a P t₀ S V L δ : ℝ} (hP : 0 < P) (hS : t₀ ≤ S)
  (hQ : ∀ x y, m ≤ x → x ≤ M → m ≤ y → y ≤ M → |f x - f y| ≤ Q)
  {ε C C' : ℝ} (hε : 0 ≤ ε) (hδ : 0 ≤ δ) (hL : 0 ≤ L) {ω ω' Ω Ω' : ℝ → ℝ} (hω : TimeKernel ε C ω ω')
  (hΩ : SpaceKernel P ε C' Ω Ω')
  {u v : ℝ × ℝ → ℝ} (hu : Measurable u) (hv : Measurable v) (hur : ∀ z, m ≤ u z ∧ u z ≤ M)
  (hvr : ∀ z, m ≤ v z ∧ v z ≤ M) {u0 v0 : ℝ → ℝ} (hu0 : Measurable u0) (hu0r : ∀ x, m ≤ u0 x ∧ u0 x ≤ M)
  (hv0 : Measurable v0) (hv0r : ∀ x, m ≤ v0 x ∧ v0 x ≤ M)
  (hreg : Regular a P t₀ S V L δ u u0)

theorem range_diff {x y : ℝ} (hx : m ≤ x ∧ x ≤ M) (hy : m ≤ y ∧ y ≤ M) : |x - y| ≤ M - m := by
  rw [abs_le]
  constructor <;> linarith [hx.1, hx.2, hy.1, hy.2]

theorem mul_bound {x y A B : ℝ} (h1 : |x| ≤ A) (h2 : |y| ≤ B) : |x * y| ≤ A * B := by
  rw [abs_mul]
  exact mul_le_mul h1 h2 (abs_nonneg _) ((abs_nonneg _).trans h1)

theorem cell_prod : volume.restrict (cell t₀ S a (a + P)) =
    (volume.restrict (Ioc t₀ S)).prod (volume.restrict (Ioc a (a + P))) := by
  unfold cell
  rw [Measure.volume_eq_prod, Measure.prod_restrict]

include hP hS hω hΩ hu hur hreg in
/-- The error made by moving in space. -/
theorem move_space :
    ∫ p, |u p.1 - u (p.1.1, p.2.2)| * (ω (p.1.1 - p.2.1) * Ω (p.1.2 - p.2.2))
        ∂((volume.restrict (cell t₀ S a (a + P))).prod (volume.restrict (cell t₀ S a (a + P)))) ≤
      (S - t₀) * (2 * ε * V) := by
  have mω := hω.cont.measurable
  have mΩ := hΩ.continuous.measurable
  have mcross : Measurable fun p : (ℝ × ℝ) × ℝ => |u p.1 - u (p.1.1, p.2)| * Ω (p.1.2 - p.2) := by
    have h1 : Measurable fun p : (ℝ × ℝ) × ℝ => u p.1 - u (p.1.1, p.2) :=
      (hu.comp measurable_fst).sub (hu.comp ((measurable_fst.comp measurable_fst).prodMk measurable_snd))
    have h2 : Measurable fun p : (ℝ × ℝ) × ℝ => p.1.2 - p.2 := by fun_prop
    exact (continuous_abs.measurable.comp h1).mul (mΩ.comp h2)
  have mF : Measurable fun p : (ℝ × ℝ) × (ℝ × ℝ) => |u p.1 - u (p.1.1, p.2.2)| * (ω (p.1.1 - p.2.1) * Ω (p.1.2 - p.2.2)) := by
    have h1 : Measurable fun p : (ℝ × ℝ) × (ℝ × ℝ) => u p.1 - u (p.1.1, p.2.2) :=
      (hu.comp measurable_fst).sub (hu.comp ((measurable_fst.comp measurable_fst).prodMk (measurable_snd.comp measurable_snd)))
    have h2 : Measurable fun p : (ℝ × ℝ) × (ℝ × ℝ) => p.1.2 - p.2.2 := by fun_prop
    have h3 : Measurable fun p : (ℝ × ℝ) × (ℝ × ℝ) => p.1.1 - p.2.1 := by fun_prop
    exact (continuous_abs.measurable.comp h1).mul ((mω.comp h3).mul (mΩ.comp h2))
  set g : ℝ × ℝ → ℝ := fun w => ∫ y in Ioc a (a + P), |u w - u (w.1, y)| * Ω (w.2 - y) with hg
  have bc : ∀ w y, |(|u w - u (w.1, y)| * Ω (w.2 - y))| ≤ (M - m) * C' := fun w y =>
    mul_bound (by rw [abs_abs]; exact range_diff (hur _) (hur _)) (hΩ.bound _)
  have iF := bounded_integrable' (μ := (volume.restrict (cell t₀ S a (a + P))).prod (volume.restrict (cell t₀ S a (a + P))))
    (C := (M - m) * (C * C')) mF (Filter.Eventually.of_forall fun p =>
      mul_bound (by rw [abs_abs]; exact range_diff (hur _) (hur _)) (mul_bound (hω.bound _) (hΩ.bound _)))
  have ic := bounded_integrable' (μ := (volume.restrict (cell t₀ S a (a + P))).prod (volume.restrict (Ioc a (a + P))))
    mcross (Filter.Eventually.of_forall fun p => bc p.1 p.2)
  have ig : Integrable g (volume.restrict (cell t₀ S a (a + P))) := ic.integral_prod_left
  rw [integral_prod _ iF]
  have s1 : ∫ w in cell t₀ S a (a + P), ∫ z in cell t₀ S a (a + P),
      |u w - u (w.1, z.2)| * (ω (w.1 - z.1) * Ω (w.2 - z.2)) ≤ ∫ w in cell t₀ S a (a + P), g w := by
    refine integral_mono iF.integral_prod_left ig fun w => ?_
    have e : ∀ z : ℝ × ℝ, |u w - u (w.1, z.2)| * (ω (w.1 - z.1) * Ω (w.2 - z.2)) =
        ω (w.1 - z.1) * (|u w - u (w.1, z.2)| * Ω (w.2 - z.2)) := fun z => by ring
    simp only [e]
    rw [cell_prod, integral_prod_mul (fun s => ω (w.1 - s)) (fun y => |u w - u (w.1, y)| * Ω (w.2 - y))]
    have h0 : 0 ≤ g w := integral_nonneg fun y => mul_nonneg (abs_nonneg _) (hΩ.nonneg _)
    exact mul_le_of_le_one_left h0 (hω.integral_right_le _ _)
  refine s1.trans ?_
  rw [cell_prod] at ig ⊢
  rw [integral_prod _ ig]
  have e : (S - t₀) * (2 * ε * V) = ∫ _ in Ioc t₀ S, 2 * ε * V := by
    rw [setIntegral_const, Measure.real, Real.volume_Ioc, ENNReal.toReal_ofReal (by linarith), smul_eq_mul]
  rw [e]
  refine setIntegral_mono_on ig.integral_prod_left (integrable_const _) measurableSet_Ioc fun t ht => ?_
  obtain ⟨W, G, h1, h2, h3⟩ := hreg.space t ht
  exact space_error hΩ hP h1 h2 a (hu.comp (measurable_const.prodMk measurable_id)) (fun x => hur (t, x)) h3

include hP hS hε hδ hL hω hΩ hu hur hreg in
/-- The error made by moving in time. -/
theorem move_time :
    ∫ p, |u (p.1.1, p.2.2) - u p.2| * (ω (p.1.1 - p.2.1) * Ω (p.1.2 - p.2.2))
        ∂((volume.restrict (cell t₀ S a (a + P))).prod (volume.restrict (cell t₀ S a (a + P)))) ≤
      (S - t₀) * (L * (ε + δ)) := by
  have mω := hω.cont.measurable
  have mΩ := hΩ.continuous.measurable
  have mF : Measurable fun p : (ℝ × ℝ) × (ℝ × ℝ) => |u (p.1.1, p.2.2) - u p.2| * (ω (p.1.1 - p.2.1) * Ω (p.1.2 - p.2.2)) := by
    have h1 : Measurable fun p : (ℝ × ℝ) × (ℝ × ℝ) => u (p.1.1, p.2.2) - u p.2 :=
      (hu.comp ((measurable_fst.comp measurable_fst).prodMk (measurable_snd.comp measurable_snd))).sub (hu.comp measurable_snd)
    have h2 : Measurable fun p : (ℝ × ℝ) × (ℝ × ℝ) => p.1.2 - p.2.2 := by fun_prop
    have h3 : Measurable fun p : (ℝ × ℝ) × (ℝ × ℝ) => p.1.1 - p.2.1 := by fun_prop
    exact (continuous_abs.measurable.comp h1).mul ((mω.comp h3).mul (mΩ.comp h2))
  have mc : Measurable fun p : ℝ × (ℝ × ℝ) => |u (p.1, p.2.2) - u p.2| * ω (p.1 - p.2.1) := by
    have h1 : Measurable fun p : ℝ × (ℝ × ℝ) => u (p.1, p.2.2) - u p.2 :=
      (hu.comp (measurable_fst.prodMk (measurable_snd.comp measurable_snd))).sub (hu.comp measurable_snd)
    have h3 : Measurable fun p : ℝ × (ℝ × ℝ) => p.1 - p.2.1 := by fun_prop
    exact (continuous_abs.measurable.comp h1).mul (mω.comp h3)
  set g : ℝ × ℝ → ℝ := fun z => ∫ t in Ioc t₀ S, |u (t, z.2) - u z| * ω (t - z.1) with hg
  have bc : ∀ t z, |(|u (t, z.2) - u z| * ω (t - z.1))| ≤ (M - m) * C := fun t z =>
    mul_bound (by rw [abs_abs]; exact range_diff (hur _) (hur _)) (hω.bound _)
  have iF := bounded_integrable' (μ := (volume.restrict (cell t₀ S a (a + P))).prod (volume.restrict (cell t₀ S a (a + P))))
    (C := (M - m) * (C * C')) mF (Filter.Eventually.of_forall fun p =>
      mul_bound (by rw [abs_abs]; exact range_diff (hur _) (hur _)) (mul_bound (hω.bound _) (hΩ.bound _)))
  have ic := bounded_integrable' (μ := (volume.restrict (Ioc t₀ S)).prod (volume.restrict (cell t₀ S a (a + P))))
    mc (Filter.Eventually.of_forall fun p => bc p.1 p.2)
  have ig : Integrable g (volume.restrict (cell t₀ S a (a + P))) := ic.integral_prod_right
  rw [integral_prod_symm _ iF]
  have s1 : ∫ z in cell t₀ S a (a + P), ∫ w in cell t₀ S a (a + P),
      |u (w.1, z.2) - u z| * (ω (w.1 - z.1) * Ω (w.2 - z.2)) = ∫ z in cell t₀ S a (a + P), g z := by
    congr 1
    funext z
    have e : ∀ w : ℝ × ℝ, |u (w.1, z.2) - u z| * (ω (w.1 - z.1) * Ω (w.2 - z.2)) =
        (|u (w.1, z.2) - u z| * ω (w.1 - z.1)) * Ω (w.2 - z.2) := fun z => by ring
    simp only [e]
    rw [cell_prod, integral_prod_mul (fun t => |u (t, z.2) - u z| * ω (t - z.1)) (fun x => Ω (x - z.2)),
      hΩ.integral_left hP.le, mul_one]
  rw [s1]
  rw [cell_prod] at ig ⊢
  rw [integral_prod _ ig]
  have e : (S - t₀) * (L * (ε + δ)) = ∫ _ in Ioc t₀ S, L * (ε + δ) := by
    rw [setIntegral_const, Measure.real, Real.volume_Ioc, ENNReal.toReal_ofReal (by linarith), smul_eq_mul]
  rw [e]
  refine setIntegral_mono_on ig.integral_prod_left (integrable_const _) measurableSet_Ioc fun s hs => ?_
  have i1 : Integrable (fun p : ℝ × ℝ => |u (p.2, p.1) - u (s, p.1)| * ω (p.2 - s))
      ((volume.restrict (Ioc a (a + P))).prod (volume.restrict (Ioc t₀ S))) :=
    bounded_integrable' (mc.comp (measurable_snd.prodMk (measurable_const.prodMk measurable_fst)))
      (Filter.Eventually.of_forall fun p => bc p.2 (s, p.1))
  have e2 : ∫ y in Ioc a (a + P), g (s, y) = ∫ t in Ioc t₀ S, ∫ y in Ioc a (a + P), |u (t, y) - u (s, y)| * ω (t - s) :=
    integral_integral_swap i1
  rw [e2]
  have h1 : ∫ t in Ioc t₀ S, ∫ y in Ioc a (a + P), |u (t, y) - u (s, y)| * ω (t - s) ≤
      ∫ t in Ioc t₀ S, L * (ε + δ) * ω (t - s) := by
    refine setIntegral_mono_on i1.integral_prod_right
      ((hω.cont.comp (continuous_id.sub continuous_const)).integrableOn_Ioc.const_mul _) measurableSet_Ioc fun t ht => ?_
    rw [integral_mul_const]
    by_cases h0 : ω (t - s) = 0
    · simp only [Function.comp, id, h0, mul_zero, le_refl]
    refine mul_le_mul_of_nonneg_right ?_ (hω.nonneg _)
    have c1 : s ≤ t := by
      by_contra h
      exact h0 (hω.before _ (by linarith))
    have c2 : t - s ≤ ε := by
      by_contra h
      exact h0 (hω.later _ (by linarith))
    exact (hreg.time s hs t ht c1).trans (mul_le_mul_of_nonneg_left (by linarith) hL)
  refine h1.trans ?_
  rw [integral_const_mul]
  exact mul_le_of_le_one_right (by positivity) (hω.integral_left_le _ _)

include hP hS hε hδ hL hω hΩ hu hur hu0 hu0r hv0 hv0r hreg in
/-- The error at the beginning. -/
theorem begin_error :
    ∫ w in cell t₀ S a (a + P), ∫ y in Ioc a (a + P), |v0 y - u w| * ((S - w.1) * ω (w.1 - t₀) * Ω (w.2 - y)) ≤
      (S - t₀) * ((∫ y in Ioc a (a + P), |u0 y - v0 y|) + L * (ε + δ) + 2 * ε * V) := by
  have mω := hω.cont.measurable
  have mΩ := hΩ.continuous.measurable
  set R := (∫ y in Ioc a (a + P), |u0 y - v0 y|) + L * (ε + δ) + 2 * ε * V with hR
  have mb : Measurable fun p : (ℝ × ℝ) × ℝ => |v0 p.2 - u p.1| * ((S - p.1.1) * ω (p.1.1 - t₀) * Ω (p.1.2 - p.2)) := by
    have n1 : Measurable fun p : (ℝ × ℝ) × ℝ => |v0 p.2 - u p.1| :=
      continuous_abs.measurable.comp ((hv0.comp measurable_snd).sub (hu.comp measurable_fst))
    have n2 : Measurable fun p : (ℝ × ℝ) × ℝ => S - p.1.1 := by fun_prop
    have n3 : Measurable fun p : (ℝ × ℝ) × ℝ => p.1.1 - t₀ := by fun_prop
    have n4 : Measurable fun p : (ℝ × ℝ) × ℝ => p.1.2 - p.2 := by fun_prop
    exact n1.mul ((n2.mul (mω.comp n3)).mul (mΩ.comp n4))
  have mem : ∀ᵐ p ∂((volume.restrict (cell t₀ S a (a + P))).prod (volume.restrict (Ioc a (a + P)))),
      p.1 ∈ cell t₀ S a (a + P) := by
    have h2 : ∀ᵐ z ∂(volume.restrict (cell t₀ S a (a + P))), z ∈ cell t₀ S a (a + P) := ae_restrict_mem (cell_measurable _ _ _ _)
    exact (Measure.quasiMeasurePreserving_fst).ae h2
  have int : Integrable (fun p : (ℝ × ℝ) × ℝ => |v0 p.2 - u p.1| * ((S - p.1.1) * ω (p.1.1 - t₀) * Ω (p.1.2 - p.2)))
      ((volume.restrict (cell t₀ S a (a + P))).prod (volume.restrict (Ioc a (a + P)))) := by
    refine bounded_integrable' (C := (M - m) * ((S - t₀) * C * C')) mb ?_
    filter_upwards [mem] with p hp
    refine mul_bound ?_ (mul_bound (mul_bound ?_ (hω.bound _)) (hΩ.bound _))
    · rw [abs_abs]; exact range_diff (hv0r _) (hur _)
    · rw [abs_of_nonneg (by linarith [hp.1.2])]; linarith [hp.1.1]
  have ib := int.integral_prod_left
  simp only at ib
  rw [cell_prod] at ib ⊢
  rw [integral_prod _ ib]
  have iω : IntegrableOn (fun t => ω (t - t₀)) (Ioc t₀ S) :=
    (hω.cont.comp (continuous_id.sub continuous_const)).integrableOn_Ioc
  have hR0 : 0 ≤ (S - t₀) * R → ∫ t in Ioc t₀ S, (S - t₀) * R * ω (t - t₀) ≤ (S - t₀) * R := by
    intro h0
    rw [integral_const_mul]
    exact mul_le_of_le_one_right h0 (hω.integral_left_le _ _)
  -- one time
  have key : ∀ t ∈ Ioc t₀ S, t - t₀ ≤ ε → ∫ x in Ioc a (a + P), ∫ y in Ioc a (a + P), |v0 y - u (t, x)| * Ω (x - y) ≤ R := by
    intro t ht hte
    have mut1 : Measurable fun x => u (t, x) := hu.comp (measurable_const.prodMk measurable_id)
    have m1 : Measurable fun y => |u0 y - v0 y| + |u (t, y) - u0 y| :=
      (continuous_abs.measurable.comp (hu0.sub hv0)).add (continuous_abs.measurable.comp (mut1.sub hu0))
    have b1 : ∀ y, |(|u0 y - v0 y| + |u (t, y) - u0 y|)| ≤ (M - m) + (M - m) := fun y => by
      rw [abs_of_nonneg (by positivity)]
      exact add_le_add (range_diff (hu0r _) (hv0r _)) (range_diff (hur _) (hu0r _))
    have mk : Measurable fun p : ℝ × ℝ => Ω (p.1 - p.2) := mΩ.comp (measurable_fst.sub measurable_snd)
    have ma : Measurable fun p : ℝ × ℝ => |v0 p.2 - u (t, p.1)| * Ω (p.1 - p.2) :=
      (continuous_abs.measurable.comp ((hv0.comp measurable_snd).sub (mut1.comp measurable_fst))).mul mk
    have mb' : Measurable fun p : ℝ × ℝ => (|u0 p.2 - v0 p.2| + |u (t, p.2) - u0 p.2|) * Ω (p.1 - p.2) :=
      (m1.comp measurable_snd).mul mk
    have mc : Measurable fun p : ℝ × ℝ => |u (t, p.1) - u (t, p.2)| * Ω (p.1 - p.2) :=
      (continuous_abs.measurable.comp ((mut1.comp measurable_fst).sub (mut1.comp measurable_snd))).mul mk
    have ba : ∀ x y, |(|v0 y - u (t, x)| * Ω (x - y))| ≤ (M - m) * C' := fun x y =>
      mul_bound (by rw [abs_abs]; exact range_diff (hv0r _) (hur _)) (hΩ.bound _)
    have bb : ∀ x y, |((|u0 y - v0 y| + |u (t, y) - u0 y|) * Ω (x - y))| ≤ ((M - m) + (M - m)) * C' := fun x y =>
      mul_bound (b1 y) (hΩ.bound _)
    have bc : ∀ x y, |(|u (t, x) - u (t, y)| * Ω (x - y))| ≤ (M - m) * C' := fun x y =>
      mul_bound (by rw [abs_abs]; exact range_diff (hur _) (hur _)) (hΩ.bound _)
    have ia := bounded_integrable' (μ := (volume.restrict (Ioc a (a + P))).prod (volume.restrict (Ioc a (a + P))))
      ma (Filter.Eventually.of_forall fun p => ba p.1 p.2)
    have ib' := bounded_integrable' (μ := (volume.restrict (Ioc a (a + P))).prod (volume.restrict (Ioc a (a + P))))
      mb' (Filter.Eventually.of_forall fun p => bb p.1 p.2)
    have ic := bounded_integrable' (μ := (volume.restrict (Ioc a (a + P))).prod (volume.restrict (Ioc a (a + P))))
      mc (Filter.Eventually.of_forall fun p => bc p.1 p.2)
    have e1 := smooth_mean hΩ hP.le a m1 b1
    obtain ⟨W, G, h1, h2, h3⟩ := hreg.space t ht
    have e2 := space_error hΩ hP h1 h2 a mut1 (fun x => hur (t, x)) h3
    have e3 : ∫ y in Ioc a (a + P), (|u0 y - v0 y| + |u (t, y) - u0 y|) ≤
        (∫ y in Ioc a (a + P), |u0 y - v0 y|) + L * (ε + δ) := by
      have j1 : IntegrableOn (fun y => |u0 y - v0 y|) (Ioc a (a + P)) :=
        bounded_integrable' (C := M - m) (continuous_abs.measurable.comp (hu0.sub hv0))
          (Filter.Eventually.of_forall fun y => by rw [abs_abs]; exact range_diff (hu0r y) (hv0r y))
      have j2 : IntegrableOn (fun y => |u (t, y) - u0 y|) (Ioc a (a + P)) :=
        bounded_integrable' (C := M - m) (continuous_abs.measurable.comp (mut1.sub hu0))
          (Filter.Eventually.of_forall fun y => by rw [abs_abs]; exact range_diff (hur (t, y)) (hu0r y))
      rw [integral_add j1 j2]
      exact add_le_add le_rfl ((hreg.start t ht).trans (mul_le_mul_of_nonneg_left (by linarith) hL))
    have e4 : ∫ x in Ioc a (a + P), ∫ y in Ioc a (a + P), |v0 y - u (t, x)| * Ω (x - y) ≤
        ∫ x in Ioc a (a + P), ((∫ y in Ioc a (a + P), (|u0 y - v0 y| + |u (t, y) - u0 y|) * Ω (x - y)) +
          ∫ y in Ioc a (a + P), |u (t, x) - u (t, y)| * Ω (x - y)) := by
      refine integral_mono ia.integral_prod_left (ib'.integral_prod_left.add ic.integral_prod_left) fun x => ?_
      have j1 : IntegrableOn (fun y => |v0 y - u (t, x)| * Ω (x - y)) (Ioc a (a + P)) :=
        bounded_integrable' (ma.comp (measurable_const.prodMk measurable_id)) (Filter.Eventually.of_forall fun y => ba x y)
      have j2 : IntegrableOn (fun y => (|u0 y - v0 y| + |u (t, y) - u0 y|) * Ω (x - y)) (Ioc a (a + P)) :=
        bounded_integrable' (mb'.comp (measurable_const.prodMk measurable_id)) (Filter.Eventually.of_forall fun y => bb x y)
      have j3 : IntegrableOn (fun y => |u (t, x) - u (t, y)| * Ω (x - y)) (Ioc a (a + P)) :=
        bounded_integrable' (mc.comp (measurable_const.prodMk measurable_id)) (Filter.Eventually.of_forall fun y => bc x y)
      simp only
      rw [← integral_add j2 j3]
      refine integral_mono j1 (j2.add j3) fun y => ?_
      simp only [Pi.add_apply]
      rw [← add_mul]
      refine mul_le_mul_of_nonneg_right ?_ (hΩ.nonneg _)
      have t1 := abs_sub_le (v0 y) (u0 y) (u (t, x))
      have t2 := abs_sub_le (u0 y) (u (t, y)) (u (t, x))
      rw [abs_sub_comm (v0 y) (u0 y)] at t1
      rw [abs_sub_comm (u0 y) (u (t, y)), abs_sub_comm (u (t, y)) (u (t, x))] at t2
      linarith
    refine e4.trans ?_
    rw [integral_add ib'.integral_prod_left ic.integral_prod_left]
    simp only
    rw [e1]
    linarith
  have hVnn : 0 ≤ V ∨ S = t₀ := by
    rcases hS.eq_or_lt with h | h
    · exact Or.inr h.symm
    · obtain ⟨W, G, h1, -, -⟩ := hreg.space S ⟨h, le_rfl⟩
      have := h1.mono (show (0 : ℝ) ≤ 0 + P by linarith)
      rw [h1.period] at this
      exact Or.inl (by linarith)
  have hTR : 0 ≤ (S - t₀) * R := by
    rcases hVnn with h | h
    · refine mul_nonneg (by linarith) ?_
      have : 0 ≤ ∫ y in Ioc a (a + P), |u0 y - v0 y| := integral_nonneg fun _ => abs_nonneg _
      positivity
    · rw [h]; simp
  refine le_trans ?_ (hR0 hTR)
  refine setIntegral_mono_on ib.integral_prod_left (iω.const_mul _) measurableSet_Ioc fun t ht => ?_
  have e5 : ∀ x y, |v0 y - u (t, x)| * ((S - t) * ω (t - t₀) * Ω (x - y)) =
      ((S - t) * ω (t - t₀)) * (|v0 y - u (t, x)| * Ω (x - y)) := fun x y => by ring
  simp only [e5, integral_const_mul]
  by_cases h0 : ω (t - t₀) = 0
  · simp only [h0, mul_zero, zero_mul, le_refl]
  have c2 : t - t₀ ≤ ε := by
    by_contra h
    exact h0 (hω.later _ (by linarith))
  have k1 := key t ht c2
  have k0 : 0 ≤ ∫ x in Ioc a (a + P), ∫ y in Ioc a (a + P), |v0 y - u (t, x)| * Ω (x - y) :=
    integral_nonneg fun x => integral_nonneg fun y => mul_nonneg (abs_nonneg _) (hΩ.nonneg _)
  calc (S - t) * ω (t - t₀) * ∫ x in Ioc a (a + P), ∫ y in Ioc a (a + P), |v0 y - u (t, x)| * Ω (x - y)
      ≤ (S - t₀) * ω (t - t₀) * R := mul_le_mul (mul_le_mul_of_nonneg_right (by linarith [ht.1]) (hω.nonneg _)) k1 k0
        (mul_nonneg (by linarith) (hω.nonneg _))
    _ = (S - t₀) * R * ω (t - t₀) := by ring

include hP hS hε hω hΩ hu hv hur hvr in
/-- The distance of two functions, smoothed. -/
theorem smooth_distance :
    ∫ z in cell t₀ S a (a + P), |u z - v z| ≤
      (∫ p, |u p.2 - v p.2| * (ω (p.1.1 - p.2.1) * Ω (p.1.2 - p.2.2))
        ∂((volume.restrict (cell t₀ S a (a + P))).prod (volume.restrict (cell t₀ S a (a + P))))) + (M - m) * (ε * P) := by
  have mω := hω.cont.measurable
  have mΩ := hΩ.continuous.measurable
  have hmM : m ≤ M := (hur 0).1.trans (hur 0).2
  have mX : Measurable fun z => |u z - v z| := continuous_abs.measurable.comp (hu.sub hv)
  have mF : Measurable fun p : (ℝ × ℝ) × (ℝ × ℝ) => |u p.2 - v p.2| * (ω (p.1.1 - p.2.1) * Ω (p.1.2 - p.2.2)) := by
    have h2 : Measurable fun p : (ℝ × ℝ) × (ℝ × ℝ) => p.1.2 - p.2.2 := by fun_prop
    have h3 : Measurable fun p : (ℝ × ℝ) × (ℝ × ℝ) => p.1.1 - p.2.1 := by fun_prop
    exact (mX.comp measurable_snd).mul ((mω.comp h3).mul (mΩ.comp h2))
  have iF := bounded_integrable' (μ := (volume.restrict (cell t₀ S a (a + P))).prod (volume.restrict (cell t₀ S a (a + P))))
    (C := (M - m) * (C * C')) mF (Filter.Eventually.of_forall fun p =>
      mul_bound (by rw [abs_abs]; exact range_diff (hur _) (hvr _)) (mul_bound (hω.bound _) (hΩ.bound _)))
  have iX : IntegrableOn (fun z => |u z - v z|) (cell t₀ S a (a + P)) :=
    bounded_integrable' (C := M - m) mX (Filter.Eventually.of_forall fun z => by
      rw [abs_abs]; exact range_diff (hur _) (hvr _))
  rw [integral_prod_symm _ iF]
  have iκ := iF.integral_prod_right
  simp only at iκ
  set κ : ℝ → ℝ := fun s => ∫ t in Ioc t₀ S, ω (t - s) with hκ
  have e1 : ∀ z : ℝ × ℝ, ∫ w in cell t₀ S a (a + P), |u z - v z| * (ω (w.1 - z.1) * Ω (w.2 - z.2)) = |u z - v z| * κ z.1 := by
    intro z
    rw [integral_const_mul, cell_prod, integral_prod_mul (fun t => ω (t - z.1)) (fun x => Ω (x - z.2)),
      hΩ.integral_left hP.le, mul_one]
  simp only [e1] at iκ ⊢
  set late : ℝ × ℝ → ℝ := fun z => (Ioi (S - ε)).indicator (fun _ => (1 : ℝ)) z.1 with hlate
  have il : IntegrableOn late (cell t₀ S a (a + P)) := by
    refine bounded_integrable' (C := 1) ((measurable_const.indicator measurableSet_Ioi).comp measurable_fst)
      (Filter.Eventually.of_forall fun z => ?_)
    simp only [hlate, indicator]
    split <;> simp
  have e2 : ∫ z in cell t₀ S a (a + P), late z ≤ ε * P := by
    rw [cell_prod]
    have := integral_prod_mul (μ := volume.restrict (Ioc t₀ S)) (ν := volume.restrict (Ioc a (a + P)))
      ((Ioi (S - ε)).indicator (fun _ => (1 : ℝ))) (fun _ => (1 : ℝ))
    simp only [mul_one] at this
    rw [show (fun z : ℝ × ℝ => late z) = fun z => (Ioi (S - ε)).indicator (fun _ => (1 : ℝ)) z.1 from rfl, this,
      setIntegral_const, Measure.real, Real.volume_Ioc, ENNReal.toReal_ofReal (by linarith), smul_eq_mul, mul_one,
      add_sub_cancel_left]
    refine mul_le_mul_of_nonneg_right ?_ hP.le
    rw [integral_indicator measurableSet_Ioi, setIntegral_const, smul_eq_mul, mul_one, Measure.real,
      Measure.restrict_apply measurableSet_Ioi]
    have hsub : Ioi (S - ε) ∩ Ioc t₀ S ⊆ Ioc (S - ε) S := fun x hx => ⟨hx.1, hx.2.2⟩
    refine (ENNReal.toReal_mono (measure_Ioc_lt_top).ne (measure_mono hsub)).trans ?_
    rw [Real.volume_Ioc, ENNReal.toReal_ofReal (by linarith)]
    linarith
  calc ∫ z in cell t₀ S a (a + P), |u z - v z| ≤ ∫ z in cell t₀ S a (a + P), (|u z - v z| * κ z.1 + (M - m) * late z) := by
        refine setIntegral_mono_on iX (iκ.add (il.const_mul _)) (cell_measurable _ _ _ _) fun z hz => ?_
        have k0 : 0 ≤ κ z.1 := integral_nonneg fun t => hω.nonneg _
        by_cases hs : z.1 ≤ S - ε
        · have k1 : κ z.1 = 1 := hω.integral_left _ _ _ hz.1.1.le (by linarith)
          have k2 : late z = 0 := indicator_of_notMem (by simpa using hs) _
          rw [k1, k2]; simp
        · have k2 : late z = 1 := indicator_of_mem (by simpa using hs) _
          rw [k2, mul_one]
          have := range_diff (hur z) (hvr z)
          have k3 := mul_nonneg (abs_nonneg (u z - v z)) k0
          linarith
    _ = (∫ z in cell t₀ S a (a + P), |u z - v z| * κ z.1) + (M - m) * ∫ z in cell t₀ S a (a + P), late z := by
        rw [integral_add iκ (il.const_mul _), integral_const_mul]
    _ ≤ _ := add_le_add le_rfl (mul_le_mul_of_nonneg_left e2 (by linarith))

include hf hP hS hQ hε hδ hL hω hΩ hu hv hur hvr hu0 hu0r hv0 hv0r hreg in
/-- The distance of two functions that satisfy the entropy inequalities up to errors, if one of them is regular. -/
theorem compare {Eu Ev : ℝ} (hEu : Approximate f a P t₀ S m M Eu u u0) (hEv : Approximate f a P t₀ S m M Ev v v0) :
    ∫ z in cell t₀ S a (a + P), |u z - v z| ≤
      (S - t₀) * (∫ y in Ioc a (a + P), |u0 y - v0 y|) + (M - m) * (ε * P) +
        2 * (S - t₀) * (L * (ε + δ) + 2 * ε * V) + 2 * ((S - t₀ + 2) * C * C') * ((S - t₀) * P) * (Eu + Ev) := by
  have mω := hω.cont.measurable
  have mΩ := hΩ.continuous.measurable
  have s1 := smooth_distance (t₀ := t₀) (S := S) (a := a) hP hS hε hω hΩ hu hv hur hvr
  have s2 := kuznetsov hf hP.le hS hQ hω hΩ hu hv hur hvr hv0 hv0r hEu hEv
  have s3 := begin_error hP hS hε hδ hL hω hΩ hu hur hu0 hu0r hv0 hv0r hreg
  have s4 := move_space hP hS hω hΩ hu hur hreg
  have s5 := move_time hP hS hε hδ hL hω hΩ hu hur hreg
  have mk : Measurable fun p : (ℝ × ℝ) × (ℝ × ℝ) => ω (p.1.1 - p.2.1) * Ω (p.1.2 - p.2.2) := by
    have h2 : Measurable fun p : (ℝ × ℝ) × (ℝ × ℝ) => p.1.2 - p.2.2 := by fun_prop
    have h3 : Measurable fun p : (ℝ × ℝ) × (ℝ × ℝ) => p.1.1 - p.2.1 := by fun_prop
    exact (mω.comp h3).mul (mΩ.comp h2)
  have mc : Measurable fun p : (ℝ × ℝ) × (ℝ × ℝ) => u (p.1.1, p.2.2) :=
    hu.comp ((measurable_fst.comp measurable_fst).prodMk (measurable_snd.comp measurable_snd))
  have general : ∀ F G : (ℝ × ℝ) × (ℝ × ℝ) → ℝ, Measurable F → Measurable G → (∀ p, m ≤ F p ∧ F p ≤ M) →
      (∀ p, m ≤ G p ∧ G p ≤ M) → Integrable (fun p => |F p - G p| * (ω (p.1.1 - p.2.1) * Ω (p.1.2 - p.2.2)))
        ((volume.restrict (cell t₀ S a (a + P))).prod (volume.restrict (cell t₀ S a (a + P)))) := by
    intro F G hF hG hFr hGr
    refine bounded_integrable' (C := (M - m) * (C * C')) ((continuous_abs.measurable.comp (hF.sub hG)).mul mk)
      (Filter.Eventually.of_forall fun p => ?_)
    exact mul_bound (by rw [abs_abs]; exact range_diff (hFr _) (hGr _)) (mul_bound (hω.bound _) (hΩ.bound _))
  have i0 := general (fun p => u p.2) (fun p => v p.2) (hu.comp measurable_snd) (hv.comp measurable_snd)
    (fun p => hur _) fun p => hvr _
  have i1 := general (fun p => u p.1) (fun p => v p.2) (hu.comp measurable_fst) (hv.comp measurable_snd)
    (fun p => hur _) fun p => hvr _
  have i2 := general (fun p => u p.1) (fun p => u (p.1.1, p.2.2)) (hu.comp measurable_fst) mc (fun p => hur _) fun p => hur _
  have i3 := general (fun p => u (p.1.1, p.2.2)) (fun p => u p.2) mc (hu.comp measurable_snd) (fun p => hur _) fun p => hur _
  have tri := integral_mono i0 ((i1.add i2).add i3) (fun p => by
    simp only [Pi.add_apply]
    rw [← add_mul, ← add_mul]
    refine mul_le_mul_of_nonneg_right ?_ (mul_nonneg (hω.nonneg _) (hΩ.nonneg _))
    have t1 := abs_sub_le (u p.2) (u (p.1.1, p.2.2)) (v p.2)
    have t2 := abs_sub_le (u (p.1.1, p.2.2)) (u p.1) (v p.2)
    rw [abs_sub_comm (u p.2) (u (p.1.1, p.2.2))] at t1
    rw [abs_sub_comm (u (p.1.1, p.2.2)) (u p.1)] at t2
    linarith)
  have e : ∀ A B D : (ℝ × ℝ) × (ℝ × ℝ) → ℝ, ∀ μ : Measure ((ℝ × ℝ) × (ℝ × ℝ)), Integrable A μ → Integrable B μ →
      Integrable D μ → ∫ p, (A + B + D) p ∂μ = ∫ p, A p ∂μ + ∫ p, B p ∂μ + ∫ p, D p ∂μ := by
    intro A B D μ hA hB hD
    rw [integral_add' (hA.add hB) hD, integral_add' hA hB]
  rw [e _ _ _ _ i1 i2 i3] at tri
  linarith

end Compare

end Verif.EntropyLimit
