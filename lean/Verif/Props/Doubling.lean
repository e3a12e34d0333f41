import Verif.Core.Kernel
import Verif.Props.EntropyLimit

/-!
Helper lemmas for C133: the comparison of two functions that satisfy the entropy inequalities up to an error (Kruzhkov's
doubling of variables).
-/

set_option linter.unusedSectionVars false

namespace Verif.EntropyLimit

open MeasureTheory Set Verif.Weak

/-- The entropy inequalities up to an error `E`, for the entropies that belong to values between `m` and `M`. -/
def Approximate (f : ℝ → ℝ) (a P t₀ S m M E : ℝ) (u : ℝ × ℝ → ℝ) (u0 : ℝ → ℝ) : Prop :=
  ∀ k, m ≤ k → k ≤ M → ∀ A B φ φt φx, Test P S A B φ φt φx →
    -(E * (A + B)) ≤ weakForm f k a P t₀ S u u0 φ φt φx

theorem kruzhkov_symm (f : ℝ → ℝ) (k u : ℝ) : kruzhkovFlux f k u = kruzhkovFlux f u k := by
  unfold kruzhkovFlux
  rw [show k - u = -(u - k) by ring, Real.sign_neg]
  ring

theorem kruzhkov_le (f : ℝ → ℝ) (k Q v : ℝ) (hQ : |f v - f k| ≤ Q) : |kruzhkovFlux f k v| ≤ Q := by
  unfold kruzhkovFlux
  rw [abs_mul]
  rcases Real.sign_apply_eq (v - k) with h | h | h <;> rw [h]
  · simpa using hQ
  · simpa using (abs_nonneg _).trans hQ
  · simpa using hQ

theorem kruzhkov_joint {f : ℝ → ℝ} (hf : Measurable f) : Measurable fun z : ℝ × ℝ => kruzhkovFlux f z.1 z.2 := by
  have h2 : Measurable Real.sign := by
    unfold Real.sign
    exact Measurable.ite measurableSet_Iio measurable_const (Measurable.ite measurableSet_Ioi measurable_const measurable_const)
  exact (h2.comp (measurable_snd.sub measurable_fst)).mul ((hf.comp measurable_snd).sub (hf.comp measurable_fst))

theorem bounded_integrable' {α : Type*} [MeasurableSpace α] {μ : Measure α} [IsFiniteMeasure μ] {F : α → ℝ} {C : ℝ}
    (hF : Measurable F) (h : ∀ᵐ z ∂μ, |F z| ≤ C) : Integrable F μ :=
  Integrable.of_bound hF.aestronglyMeasurable C h

instance cell_isFinite (t₀ t₁ x₀ x₁ : ℝ) : IsFiniteMeasure (volume.restrict (cell t₀ t₁ x₀ x₁)) :=
  ⟨by rw [Measure.restrict_apply_univ]; exact cell_finite _ _ _ _⟩

section Kuznetsov

variable {f : ℝ → ℝ} (hf : Measurable f) {m M Q a P t₀ S : ℝ} (hP : 0 ≤ P) (hS : t₀ ≤ S)
  (hQ : ∀ x y, m ≤ x → x ≤ M → m ≤ y → y ≤ M → |f x - f y| ≤ Q)
  {ε C C' : ℝ} {ω ω' Ω Ω' : ℝ → ℝ} (hω : TimeKernel ε C ω ω') (hΩ : SpaceKernel P ε C' Ω Ω')
  {u v : ℝ × ℝ → ℝ} (hu : Measurable u) (hv : Measurable v) (hur : ∀ z, m ≤ u z ∧ u z ≤ M)
  (hvr : ∀ z, m ≤ v z ∧ v z ≤ M) {u0 v0 : ℝ → ℝ} (hv0 : Measurable v0) (hv0r : ∀ x, m ≤ v0 x ∧ v0 x ≤ M)
  {Eu Ev : ℝ} (hEu : Approximate f a P t₀ S m M Eu u u0) (hEv : Approximate f a P t₀ S m M Ev v v0)

include hω in
theorem chi_bounds (t s : ℝ) (hs : s ∈ Ioc t₀ S) :
    |(S - t) * ω (t - s)| ≤ (S - t₀ + 1) * C ∧ |(S - t) * ω' (t - s)| ≤ (S - t₀ + 1) * C := by
  have hC := hω.nonneg_C
  have key : ∀ r : ℝ, |r| ≤ C → |(t - s) * r| ≤ C → |(S - t) * r| ≤ (S - t₀ + 1) * C := by
    intro r h1 h2
    calc |(S - t) * r| = |(S - s) * r - (t - s) * r| := by congr 1; ring
      _ ≤ |(S - s) * r| + |(t - s) * r| := abs_sub _ _
      _ ≤ (S - t₀) * C + C := by
          refine add_le_add ?_ h2
          rw [abs_mul, abs_of_nonneg (by linarith [hs.2])]
          exact mul_le_mul (by linarith [hs.1]) h1 (abs_nonneg _) (by linarith [hs.1, hs.2])
      _ = _ := by ring
  exact ⟨key _ (hω.bound _) (hω.moment _), key _ (hω.bound_deriv _) (hω.moment_deriv _)⟩

include hω hΩ in
/-- The test function of the first pair of variables. -/
theorem test_first (z : ℝ × ℝ) (hz : z ∈ cell t₀ S a (a + P)) :
    Test P S ((S - t₀ + 2) * C * C') ((S - t₀ + 2) * C * C') (fun t x => (S - t) * ω (t - z.1) * Ω (x - z.2))
      (fun t x => (-ω (t - z.1) + (S - t) * ω' (t - z.1)) * Ω (x - z.2))
      (fun t x => (S - t) * ω (t - z.1) * Ω' (x - z.2)) := by
  have hC := hω.nonneg_C
  refine test_product (χ := fun t => (S - t) * ω (t - z.1)) (χ' := fun t => -ω (t - z.1) + (S - t) * ω' (t - z.1))
    (Ψ := fun x => Ω (x - z.2)) (Ψ' := fun x => Ω' (x - z.2)) (fun t ht => mul_nonneg (by linarith) (hω.nonneg _)) (by simp)
    (fun t => ?_) ?_ (fun t => ?_) (fun t => ?_) (fun x => hΩ.nonneg _) (fun x => ?_) (fun x => ?_) (fun x => hΩ.slope _)
    (fun x y => ?_)
  · have h1 := (hω.deriv (t - z.1)).comp_sub_const t z.1
    have h2 := ((hasDerivAt_id t).const_sub S).mul h1
    refine h2.congr_deriv ?_
    simp only [id]; ring
  · exact ((hω.cont.comp (continuous_id.sub continuous_const)).neg).add
      ((continuous_const.sub continuous_id).mul (hω.continuous.comp (continuous_id.sub continuous_const)))
  · have := (chi_bounds hω t z.1 hz.1).1
    linarith
  · have h1 := (chi_bounds hω t z.1 hz.1).2
    have h2 := hω.bound (t - z.1)
    refine (abs_add_le _ _).trans ?_
    rw [abs_neg]
    linarith
  · rw [show x + P - z.2 = x - z.2 + P by ring, hΩ.periodic]
  · exact (hΩ.deriv (x - z.2)).comp_sub_const x z.2
  · have := hΩ.lipschitz (x - z.2) (y - z.2)
    rwa [sub_sub_sub_cancel_right] at this

include hω hΩ in
/-- The test function of the second pair of variables. -/
theorem test_second (w : ℝ × ℝ) (hw : w ∈ cell t₀ S a (a + P)) :
    Test P S ((S - t₀ + 2) * C * C') ((S - t₀ + 2) * C * C') (fun s y => (S - w.1) * ω (w.1 - s) * Ω (w.2 - y))
      (fun s y => -((S - w.1) * ω' (w.1 - s)) * Ω (w.2 - y))
      (fun s y => (S - w.1) * ω (w.1 - s) * -Ω' (w.2 - y)) := by
  have hC := hω.nonneg_C
  have h0 : 0 ≤ S - w.1 := by linarith [hw.1.2]
  have key : ∀ r : ℝ, |r| ≤ C → |(S - w.1) * r| ≤ (S - t₀ + 2) * C := by
    intro r hr
    rw [abs_mul, abs_of_nonneg h0]
    exact mul_le_mul (by linarith [hw.1.1]) hr (abs_nonneg _) (by linarith [hw.1.1, hw.1.2])
  refine test_product (χ := fun s => (S - w.1) * ω (w.1 - s)) (χ' := fun s => -((S - w.1) * ω' (w.1 - s)))
    (Ψ := fun y => Ω (w.2 - y)) (Ψ' := fun y => -Ω' (w.2 - y)) (fun t ht => mul_nonneg h0 (hω.nonneg _)) ?_
    (fun t => ?_) ?_ (fun t => key _ (hω.bound _)) (fun t => ?_) (fun x => hΩ.nonneg _) (fun x => ?_) (fun x => ?_) (fun x => ?_)
    (fun x y => ?_)
  · rw [hω.before _ (by linarith), mul_zero]
  · have h1 := ((hω.deriv (w.1 - t)).comp_const_sub w.1 t).const_mul (S - w.1)
    refine h1.congr_deriv ?_
    ring
  · exact (continuous_const.mul (hω.continuous.comp (continuous_const.sub continuous_id))).neg
  · rw [abs_neg]
    exact key _ (hω.bound_deriv _)
  · have := hΩ.periodic (w.2 - (x + P))
    rw [← this]
    congr 1; ring
  · exact (hΩ.deriv (w.2 - x)).comp_const_sub w.2 x
  · rw [abs_neg]; exact hΩ.slope _
  · have := hΩ.lipschitz (w.2 - x) (w.2 - y)
    rw [show -Ω' (w.2 - x) - -Ω' (w.2 - y) = -(Ω' (w.2 - x) - Ω' (w.2 - y)) by ring, abs_neg]
    refine this.trans (le_of_eq ?_)
    rw [show w.2 - x - (w.2 - y) = -(x - y) by ring, abs_neg]

include hf hP hS hQ hω hΩ hu hv hur hvr hv0 hv0r hEu hEv in
/-- Kuznetsov's inequality. -/
theorem kuznetsov :
    ∫ p, |u p.1 - v p.2| * (ω (p.1.1 - p.2.1) * Ω (p.1.2 - p.2.2))
        ∂((volume.restrict (cell t₀ S a (a + P))).prod (volume.restrict (cell t₀ S a (a + P)))) ≤
      (∫ w in cell t₀ S a (a + P), ∫ y in Ioc a (a + P), |v0 y - u w| * ((S - w.1) * ω (w.1 - t₀) * Ω (w.2 - y))) +
        2 * ((S - t₀ + 2) * C * C') * ((S - t₀) * P) * (Eu + Ev) := by
  have hC := hω.nonneg_C
  have hC' := hΩ.nonneg_C
  have hmM : m ≤ M := (hur 0).1.trans (hur 0).2
  have hQ0 : 0 ≤ Q := (abs_nonneg _).trans (hQ m m le_rfl hmM le_rfl hmM)
  set D := cell t₀ S a (a + P) with hD
  set μ := volume.restrict D with hμ
  have hvol : μ.real univ = (S - t₀) * P := by
    rw [hμ, measureReal_restrict_apply_univ, hD, cell_real _ _ _ _ hS (by linarith)]; ring
  set K := (S - t₀ + 2) * C * C' with hK
  -- measurability
  have mω := hω.cont.measurable
  have mω' := hω.continuous.measurable
  have mΩ := hΩ.continuous.measurable
  have mΩ' := hΩ.deriv_continuous.measurable
  have mt : Measurable fun p : (ℝ × ℝ) × (ℝ × ℝ) => p.1.1 - p.2.1 := by fun_prop
  have mx : Measurable fun p : (ℝ × ℝ) × (ℝ × ℝ) => p.1.2 - p.2.2 := by fun_prop
  have mX : Measurable fun p : (ℝ × ℝ) × (ℝ × ℝ) => |u p.1 - v p.2| :=
    continuous_abs.measurable.comp ((hu.comp measurable_fst).sub (hv.comp measurable_snd))
  have mq : Measurable fun p : (ℝ × ℝ) × (ℝ × ℝ) => kruzhkovFlux f (v p.2) (u p.1) :=
    (kruzhkov_joint hf).comp ((hv.comp measurable_snd).prodMk (hu.comp measurable_fst))
  have mS : Measurable fun p : (ℝ × ℝ) × (ℝ × ℝ) => S - p.1.1 := by fun_prop
  have bX : ∀ w z, |(|u w - v z|)| ≤ M - m := fun w z => by
    rw [abs_abs, abs_le]
    constructor <;> linarith [(hur w).1, (hur w).2, (hvr z).1, (hvr z).2]
  have bq : ∀ w z, |kruzhkovFlux f (v z) (u w)| ≤ Q := fun w z =>
    kruzhkov_le f _ _ _ (hQ _ _ (hur w).1 (hur w).2 (hvr z).1 (hvr z).2)
  set H1 : (ℝ × ℝ) × (ℝ × ℝ) → ℝ := fun p =>
    |u p.1 - v p.2| * ((-ω (p.1.1 - p.2.1) + (S - p.1.1) * ω' (p.1.1 - p.2.1)) * Ω (p.1.2 - p.2.2)) +
      kruzhkovFlux f (v p.2) (u p.1) * ((S - p.1.1) * ω (p.1.1 - p.2.1) * Ω' (p.1.2 - p.2.2)) with hH1
  set H2 : (ℝ × ℝ) × (ℝ × ℝ) → ℝ := fun p =>
    |u p.1 - v p.2| * (-((S - p.1.1) * ω' (p.1.1 - p.2.1)) * Ω (p.1.2 - p.2.2)) +
      kruzhkovFlux f (v p.2) (u p.1) * ((S - p.1.1) * ω (p.1.1 - p.2.1) * -Ω' (p.1.2 - p.2.2)) with hH2
  have mH1 : Measurable H1 := (mX.mul ((((mω.comp mt).neg).add (mS.mul (mω'.comp mt))).mul (mΩ.comp mx))).add
    (mq.mul ((mS.mul (mω.comp mt)).mul (mΩ'.comp mx)))
  have mH2 : Measurable H2 := (mX.mul (((mS.mul (mω'.comp mt)).neg).mul (mΩ.comp mx))).add
    (mq.mul ((mS.mul (mω.comp mt)).mul (mΩ'.comp mx).neg))
  have hmem : ∀ᵐ p ∂(μ.prod μ), p.2 ∈ D := by
    have h2 : ∀ᵐ z ∂μ, z ∈ D := ae_restrict_mem (cell_measurable _ _ _ _)
    exact (Measure.quasiMeasurePreserving_snd).ae h2
  have absmul : ∀ {x y A B : ℝ}, |x| ≤ A → |y| ≤ B → |x * y| ≤ A * B := by
    intro x y A B h1 h2
    rw [abs_mul]
    exact mul_le_mul h1 h2 (abs_nonneg _) ((abs_nonneg _).trans h1)
  set L := (S - t₀ + 1) * C with hL
  have i1 : Integrable H1 (μ.prod μ) := by
    refine bounded_integrable' (C := (M - m) * ((C + L) * C') + Q * (L * C')) mH1 ?_
    filter_upwards [hmem] with p hp
    obtain ⟨c1, c2⟩ := chi_bounds hω p.1.1 p.2.1 hp.1
    refine (abs_add_le _ _).trans (add_le_add (absmul (bX _ _) (absmul ?_ (hΩ.bound _)))
      (absmul (bq _ _) (absmul c1 (hΩ.slope _))))
    refine (abs_add_le _ _).trans (add_le_add ?_ c2)
    rw [abs_neg]; exact hω.bound _
  have i2 : Integrable H2 (μ.prod μ) := by
    refine bounded_integrable' (C := (M - m) * (L * C') + Q * (L * C')) mH2 ?_
    filter_upwards [hmem] with p hp
    obtain ⟨c1, c2⟩ := chi_bounds hω p.1.1 p.2.1 hp.1
    refine (abs_add_le _ _).trans (add_le_add (absmul (bX _ _) (absmul ?_ (hΩ.bound _)))
      (absmul (bq _ _) (absmul c1 ?_)))
    · rw [abs_neg]; exact c2
    · rw [abs_neg]; exact hΩ.slope _
  -- the inequalities of the two functions
  have F1 : ∀ z ∈ D, -(Eu * (2 * K)) ≤ ∫ w, H1 (w, z) ∂μ := by
    intro z hz
    have := hEu (v z) (hvr z).1 (hvr z).2 _ _ _ _ _ (test_first hω hΩ z hz)
    unfold weakForm at this
    have e0 : ∫ x in a..a + P, |u0 x - v z| * ((S - t₀) * ω (t₀ - z.1) * Ω (x - z.2)) = 0 := by
      rw [hω.before _ (by linarith [hz.1.1])]; simp
    rw [e0, add_zero] at this
    refine le_of_eq_of_le ?_ this
    rw [← hK]; ring
  set b : ℝ × ℝ → ℝ := fun w => ∫ y in Ioc a (a + P), |v0 y - u w| * ((S - w.1) * ω (w.1 - t₀) * Ω (w.2 - y)) with hb
  have F2 : ∀ w ∈ D, -(Ev * (2 * K)) ≤ ∫ z, H2 (w, z) ∂μ + b w := by
    intro w hw
    have := hEv (u w) (hur w).1 (hur w).2 _ _ _ _ _ (test_second hω hΩ w hw)
    unfold weakForm at this
    rw [intervalIntegral.integral_of_le (by linarith)] at this
    have e1 : ∀ z, |v z - u w| * (-((S - w.1) * ω' (w.1 - z.1)) * Ω (w.2 - z.2)) +
        kruzhkovFlux f (u w) (v z) * ((S - w.1) * ω (w.1 - z.1) * -Ω' (w.2 - z.2)) = H2 (w, z) := by
      intro z
      simp only [hH2]
      rw [abs_sub_comm, kruzhkov_symm]
    simp only [e1] at this
    refine le_of_eq_of_le ?_ this
    rw [← hK]; ring
  -- the boundary term is integrable
  have ib : Integrable b μ := by
    have mb : Measurable fun p : (ℝ × ℝ) × ℝ => |v0 p.2 - u p.1| * ((S - p.1.1) * ω (p.1.1 - t₀) * Ω (p.1.2 - p.2)) := by
      have n1 : Measurable fun p : (ℝ × ℝ) × ℝ => |v0 p.2 - u p.1| :=
        continuous_abs.measurable.comp ((hv0.comp measurable_snd).sub (hu.comp measurable_fst))
      have n2 : Measurable fun p : (ℝ × ℝ) × ℝ => S - p.1.1 := by fun_prop
      have n3 : Measurable fun p : (ℝ × ℝ) × ℝ => p.1.1 - t₀ := by fun_prop
      have n4 : Measurable fun p : (ℝ × ℝ) × ℝ => p.1.2 - p.2 := by fun_prop
      exact n1.mul ((n2.mul (mω.comp n3)).mul (mΩ.comp n4))
    have mem : ∀ᵐ p ∂(μ.prod (volume.restrict (Ioc a (a + P)))), p.1 ∈ D := by
      have h2 : ∀ᵐ z ∂μ, z ∈ D := ae_restrict_mem (cell_measurable _ _ _ _)
      exact (Measure.quasiMeasurePreserving_fst).ae h2
    have int : Integrable (fun p : (ℝ × ℝ) × ℝ => |v0 p.2 - u p.1| * ((S - p.1.1) * ω (p.1.1 - t₀) * Ω (p.1.2 - p.2)))
        (μ.prod (volume.restrict (Ioc a (a + P)))) := by
      refine bounded_integrable' (C := (M - m) * ((S - t₀) * C * C')) mb ?_
      filter_upwards [mem] with p hp
      refine absmul ?_ (absmul (absmul ?_ (hω.bound _)) (hΩ.bound _))
      · rw [abs_abs, abs_le]
        constructor <;> linarith [(hur p.1).1, (hur p.1).2, (hv0r p.2).1, (hv0r p.2).2]
      · rw [abs_of_nonneg (by linarith [hp.1.2])]; linarith [hp.1.1]
    exact int.integral_prod_left
  have G1 : -(Eu * (2 * K)) * ((S - t₀) * P) ≤ ∫ p, H1 p ∂(μ.prod μ) := by
    rw [integral_prod_symm _ i1]
    have e : -(Eu * (2 * K)) * ((S - t₀) * P) = ∫ _, -(Eu * (2 * K)) ∂μ := by
      rw [integral_const, hvol, smul_eq_mul]; ring
    rw [e]
    refine integral_mono_ae (integrable_const _) i1.integral_prod_right ?_
    filter_upwards [ae_restrict_mem (cell_measurable _ _ _ _)] with z hz
    exact F1 z hz
  have G2 : -(Ev * (2 * K)) * ((S - t₀) * P) ≤ ∫ p, H2 p ∂(μ.prod μ) + ∫ w, b w ∂μ := by
    rw [integral_prod _ i2, ← integral_add i2.integral_prod_left ib]
    have e : -(Ev * (2 * K)) * ((S - t₀) * P) = ∫ _, -(Ev * (2 * K)) ∂μ := by
      rw [integral_const, hvol, smul_eq_mul]; ring
    rw [e]
    refine integral_mono_ae (integrable_const _) (i2.integral_prod_left.add ib) ?_
    filter_upwards [ae_restrict_mem (cell_measurable _ _ _ _)] with z hz
    exact F2 z hz
  have e : ∫ p, |u p.1 - v p.2| * (ω (p.1.1 - p.2.1) * Ω (p.1.2 - p.2.2)) ∂(μ.prod μ) =
      -(∫ p, H1 p ∂(μ.prod μ) + ∫ p, H2 p ∂(μ.prod μ)) := by
    rw [← integral_add i1 i2, ← integral_neg]
    congr 1
    funext p
    simp only [hH1, hH2]
    ring
  rw [e]
  linarith

end Kuznetsov

end Verif.EntropyLimit
