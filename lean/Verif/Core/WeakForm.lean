import Mathlib.MeasureTheory.Integral.IntervalIntegral.FundThmCalculus
import Mathlib.MeasureTheory.Integral.Prod
import Mathlib.MeasureTheory.Measure.Lebesgue.Basic
import Mathlib.MeasureTheory.Measure.Lebesgue.EqHaar
import Mathlib.Analysis.Calculus.MeanValue
import Mathlib.Algebra.BigOperators.Fin

/-!
Helper lemmas for weak formulations: test functions, and the summation by parts that turns the entropy inequality of
every cell into an inequality between integrals.
-/

set_option linter.unusedSectionVars false

namespace Verif.Weak

open MeasureTheory Set

/-- A test function `φ` of time and space for the times up to `S`: smooth, not negative up to then, with period `P` in
space, vanishing at time `S`.  `A` bounds its slope in space, `B` is a Lipschitz constant of the slope. -/
structure Test (P S A B : ℝ) (φ φt φx : ℝ → ℝ → ℝ) : Prop where
  nonneg : ∀ t ≤ S, ∀ x, 0 ≤ φ t x
  final : ∀ x, φ S x = 0
  periodic : ∀ t x, φ t (x + P) = φ t x
  time : ∀ t x, HasDerivAt (fun s => φ s x) (φt t x) t
  space : ∀ t x, HasDerivAt (φ t) (φx t x) x
  continuous : Continuous fun z : ℝ × ℝ => φt z.1 z.2
  slope : ∀ t x, |φx t x| ≤ A
  lipschitz : ∀ t s x y, |φx t x - φx s y| ≤ B * (|t - s| + |x - y|)

/-- A cell of the grid in time and space. -/
def cell (t₀ t₁ x₀ x₁ : ℝ) : Set (ℝ × ℝ) := Ioc t₀ t₁ ×ˢ Ioc x₀ x₁

theorem cell_measurable (t₀ t₁ x₀ x₁ : ℝ) : MeasurableSet (cell t₀ t₁ x₀ x₁) :=
  measurableSet_Ioc.prod measurableSet_Ioc

theorem cell_volume (t₀ t₁ x₀ x₁ : ℝ) :
    volume (cell t₀ t₁ x₀ x₁) = ENNReal.ofReal (t₁ - t₀) * ENNReal.ofReal (x₁ - x₀) := by
  unfold cell
  rw [Measure.volume_eq_prod, Measure.prod_prod, Real.volume_Ioc, Real.volume_Ioc]

theorem cell_finite (t₀ t₁ x₀ x₁ : ℝ) : volume (cell t₀ t₁ x₀ x₁) < ⊤ := by
  rw [cell_volume]
  exact ENNReal.mul_lt_top ENNReal.ofReal_lt_top ENNReal.ofReal_lt_top

theorem cell_real (t₀ t₁ x₀ x₁ : ℝ) (ht : t₀ ≤ t₁) (hx : x₀ ≤ x₁) :
    volume.real (cell t₀ t₁ x₀ x₁) = (t₁ - t₀) * (x₁ - x₀) := by
  rw [Measure.real, cell_volume, ENNReal.toReal_mul, ENNReal.toReal_ofReal (by linarith),
    ENNReal.toReal_ofReal (by linarith)]

theorem cell_subset (t₀ t₁ x₀ x₁ : ℝ) : cell t₀ t₁ x₀ x₁ ⊆ Icc t₀ t₁ ×ˢ Icc x₀ x₁ :=
  prod_mono Ioc_subset_Icc_self Ioc_subset_Icc_self

theorem continuous_integrable {f : ℝ × ℝ → ℝ} (hf : Continuous f) (t₀ t₁ x₀ x₁ : ℝ) :
    IntegrableOn f (cell t₀ t₁ x₀ x₁) :=
  (hf.continuousOn.integrableOn_compact (isCompact_Icc.prod isCompact_Icc)).mono_set (cell_subset _ _ _ _)

namespace Test

variable {P S A B : ℝ} {φ φt φx : ℝ → ℝ → ℝ} (h : Test P S A B φ φt φx)
include h

theorem nonneg_B : 0 ≤ B := by
  have := (abs_nonneg _).trans (h.lipschitz 0 0 1 0)
  norm_num at this
  exact this

theorem nonneg_A : 0 ≤ A := (abs_nonneg _).trans (h.slope 0 0)

theorem space_continuous (t : ℝ) : Continuous (φ t) :=
  continuous_iff_continuousAt.2 fun x => (h.space t x).continuousAt

theorem slope_continuous : Continuous fun z : ℝ × ℝ => φx z.1 z.2 := by
  have hB := h.nonneg_B
  rw [Metric.continuous_iff]
  intro z ε hε
  refine ⟨ε / (2 * B + 1), by positivity, fun w hw => ?_⟩
  rw [Real.dist_eq]
  have h1 := h.lipschitz w.1 z.1 w.2 z.2
  have h2 : |w.1 - z.1| ≤ dist w z := by rw [← Real.dist_eq]; exact le_max_left _ _
  have h3 : |w.2 - z.2| ≤ dist w z := by rw [← Real.dist_eq]; exact le_max_right _ _
  have hd : 0 ≤ dist w z := dist_nonneg
  calc |φx w.1 w.2 - φx z.1 z.2| ≤ B * (|w.1 - z.1| + |w.2 - z.2|) := h1
    _ ≤ B * (dist w z + dist w z) := mul_le_mul_of_nonneg_left (add_le_add h2 h3) hB
    _ ≤ (2 * B + 1) * dist w z := by nlinarith
    _ < ε := by
        rw [lt_div_iff₀ (by positivity)] at hw
        linarith

/-- The integral of the time derivative over a cell. -/
theorem integral_time (t₀ t₁ x₀ x₁ : ℝ) (ht : t₀ ≤ t₁) (hx : x₀ ≤ x₁) :
    ∫ z in cell t₀ t₁ x₀ x₁, φt z.1 z.2 = (∫ x in x₀..x₁, φ t₁ x) - ∫ x in x₀..x₁, φ t₀ x := by
  have hi := continuous_integrable h.continuous t₀ t₁ x₀ x₁
  have e : ∫ z in cell t₀ t₁ x₀ x₁, φt z.1 z.2 = ∫ x in Ioc x₀ x₁, ∫ t in Ioc t₀ t₁, φt t x := by
    unfold cell IntegrableOn at *
    rw [Measure.volume_eq_prod, ← Measure.prod_restrict] at *
    exact integral_prod_symm _ hi
  rw [e, ← intervalIntegral.integral_of_le hx, ← intervalIntegral.integral_sub
    ((h.space_continuous t₁).intervalIntegrable _ _) ((h.space_continuous t₀).intervalIntegrable _ _)]
  congr 1
  funext x
  rw [← intervalIntegral.integral_of_le ht]
  refine intervalIntegral.integral_eq_sub_of_hasDerivAt (fun t _ => h.time t x) ?_
  exact (h.continuous.comp (Continuous.prodMk continuous_id continuous_const)).intervalIntegrable _ _

/-- The integral of the slope over a cell is that of its value at a corner, up to the variation of the slope. -/
theorem integral_space (t₀ t₁ x₀ x₁ δ dx : ℝ) (ht : t₀ ≤ t₁) (hx : x₀ ≤ x₁) (hδ : t₁ - t₀ ≤ δ) (hdx : x₁ - x₀ = dx) :
    |(∫ z in cell t₀ t₁ x₀ x₁, φx z.1 z.2) - (t₁ - t₀) * dx * φx t₀ x₀| ≤ (t₁ - t₀) * dx * (B * (δ + dx)) := by
  have hB := h.nonneg_B
  have hr := cell_real t₀ t₁ x₀ x₁ ht hx
  rw [hdx] at hr
  have e : (∫ z in cell t₀ t₁ x₀ x₁, φx z.1 z.2) - (t₁ - t₀) * dx * φx t₀ x₀ =
      ∫ z in cell t₀ t₁ x₀ x₁, (φx z.1 z.2 - φx t₀ x₀) := by
    rw [integral_sub (continuous_integrable h.slope_continuous _ _ _ _)
      (integrableOn_const (cell_finite _ _ _ _).ne), setIntegral_const, hr, smul_eq_mul]
  rw [e]
  have := norm_setIntegral_le_of_norm_le_const (f := fun z : ℝ × ℝ => φx z.1 z.2 - φx t₀ x₀) (C := B * (δ + dx))
    (cell_finite t₀ t₁ x₀ x₁) (fun z hz => by
      rw [Real.norm_eq_abs]
      refine (h.lipschitz _ _ _ _).trans (mul_le_mul_of_nonneg_left ?_ hB)
      obtain ⟨⟨a1, a2⟩, b1, b2⟩ := hz
      rw [abs_of_nonneg (by linarith), abs_of_nonneg (by linarith)]
      linarith)
  rw [Real.norm_eq_abs, hr] at this
  linarith

/-- The difference of the integrals over neighbouring cells at the later time. -/
theorem integral_shift (t₀ t₁ x₀ δ dx : ℝ) (ht : t₀ ≤ t₁) (hδ : t₁ - t₀ ≤ δ) (hdx : 0 ≤ dx) :
    |((∫ x in x₀ + dx..x₀ + dx + dx, φ t₁ x) - ∫ x in x₀..x₀ + dx, φ t₁ x) - dx * dx * φx t₀ x₀| ≤
        dx * dx * (B * (δ + 2 * dx)) ∧
    |(∫ x in x₀ + dx..x₀ + dx + dx, φ t₁ x) - ∫ x in x₀..x₀ + dx, φ t₁ x| ≤ dx * dx * A := by
  have hB := h.nonneg_B
  have hc := h.space_continuous t₁
  have hc' : Continuous fun x => φ t₁ (x + dx) := hc.comp (continuous_add_const dx)
  have e : (∫ x in x₀ + dx..x₀ + dx + dx, φ t₁ x) - ∫ x in x₀..x₀ + dx, φ t₁ x =
      ∫ x in x₀..x₀ + dx, (φ t₁ (x + dx) - φ t₁ x) := by
    rw [intervalIntegral.integral_sub (hc'.intervalIntegrable _ _) (hc.intervalIntegrable _ _),
      intervalIntegral.integral_comp_add_right (fun x => φ t₁ x)]
  have bound : ∀ c C : ℝ, (∀ y, x₀ ≤ y → y ≤ x₀ + 2 * dx → |φx t₁ y - c| ≤ C) →
      |(∫ x in x₀..x₀ + dx, (φ t₁ (x + dx) - φ t₁ x)) - dx * dx * c| ≤ dx * dx * C := by
    intro c C hC
    have e' : (∫ x in x₀..x₀ + dx, (φ t₁ (x + dx) - φ t₁ x)) - dx * dx * c =
        ∫ x in x₀..x₀ + dx, (φ t₁ (x + dx) - φ t₁ x - dx * c) := by
      have hcc : Continuous fun x => φ t₁ (x + dx) - φ t₁ x := hc'.sub hc
      rw [intervalIntegral.integral_sub (hcc.intervalIntegrable _ _)
        (continuous_const.intervalIntegrable _ _), intervalIntegral.integral_const]
      simp
      ring
    rw [e']
    have := intervalIntegral.norm_integral_le_of_norm_le_const (a := x₀) (b := x₀ + dx) (C := dx * C)
      (f := fun x => φ t₁ (x + dx) - φ t₁ x - dx * c) (fun x hx => by
        rw [uIoc_of_le (by linarith)] at hx
        have hm := Convex.norm_image_sub_le_of_norm_hasDerivWithin_le (f := fun y => φ t₁ y - c * y)
          (f' := fun y => φx t₁ y - c) (s := Icc x (x + dx)) (x := x) (y := x + dx) (C := C)
          (fun y _ => ((h.space t₁ y).sub (by simpa using (hasDerivAt_id y).const_mul c)).hasDerivWithinAt)
          (fun y hy => hC y (by linarith [hx.1, hy.1]) (by linarith [hx.2, hy.2])) (convex_Icc _ _)
          (left_mem_Icc.2 (by linarith)) (right_mem_Icc.2 (by linarith))
        rw [add_sub_cancel_left, Real.norm_of_nonneg hdx] at hm
        calc _ = ‖φ t₁ (x + dx) - c * (x + dx) - (φ t₁ x - c * x)‖ := by congr 1; ring
          _ ≤ _ := hm
          _ = dx * C := by ring)
    rw [add_sub_cancel_left, abs_of_nonneg hdx, Real.norm_eq_abs] at this
    linarith
  rw [e]
  constructor
  · refine bound _ _ fun y h1 h2 => (h.lipschitz _ _ _ _).trans (mul_le_mul_of_nonneg_left ?_ hB)
    rw [abs_of_nonneg (by linarith), abs_of_nonneg (by linarith)]
    linarith
  · have := bound 0 A fun y _ _ => by simpa using h.slope t₁ y
    simpa using this

end Test

/-- Summation by parts around the circle. -/
theorem sum_by_parts (n : ℕ) (G Φ : ℕ → ℝ) (hG : G n = G 0) (hΦ : Φ n = Φ 0) :
    ∑ i ∈ Finset.range n, (G (i + 1) - G i) * Φ i = -∑ i ∈ Finset.range n, G (i + 1) * (Φ (i + 1) - Φ i) := by
  have := Finset.sum_range_sub (fun i => G i * Φ i) n
  rw [hG, hΦ, sub_self] at this
  rw [eq_neg_iff_add_eq_zero, ← Finset.sum_add_distrib, ← this]
  exact Finset.sum_congr rfl fun i _ => by ring

/-- Summation by parts in time. -/
theorem abel (N : ℕ) (η Φ : ℕ → ℝ) :
    ∑ j ∈ Finset.range N, η j * (Φ (j + 1) - Φ j) + η 0 * Φ 0 =
      η N * Φ N - ∑ j ∈ Finset.range N, (η (j + 1) - η j) * Φ (j + 1) := by
  have := Finset.sum_range_sub (fun j => η j * Φ j) N
  have e : ∑ j ∈ Finset.range N, (η (j + 1) * Φ (j + 1) - η j * Φ j) =
      ∑ j ∈ Finset.range N, η j * (Φ (j + 1) - Φ j) + ∑ j ∈ Finset.range N, (η (j + 1) - η j) * Φ (j + 1) := by
    rw [← Finset.sum_add_distrib]
    exact Finset.sum_congr rfl fun i _ => by ring
  rw [e] at this
  linarith

/-- The weak form of a function that has the value of `η` and flux `q` in the cells of the grid in time and space. -/
noncomputable def form (a dx : ℝ) (n N : ℕ) (t : ℕ → ℝ) (η q : ℕ → ℕ → ℝ) (φ φt φx : ℝ → ℝ → ℝ) : ℝ :=
  (∑ j ∈ Finset.range N, ∑ i ∈ Finset.range n,
    ∫ z in cell (t j) (t (j + 1)) (a + i * dx) (a + (i + 1) * dx), (η j i * φt z.1 z.2 + q j i * φx z.1 z.2)) +
  ∑ i ∈ Finset.range n, ∫ x in a + i * dx..a + (i + 1) * dx, η 0 i * φ (t 0) x

/-- The inequality of every cell gives the weak inequality up to an error of first order; `V j` bounds what the flux
deviates from that of the values in step `j`. -/
theorem form_lower_sum {P S A B : ℝ} {φ φt φx : ℝ → ℝ → ℝ} (h : Test P S A B φ φt φx) (a dx : ℝ) (n N : ℕ)
    (hdx : 0 < dx) (hP : n * dx = P) (t : ℕ → ℝ) (ht : ∀ j < N, t j ≤ t (j + 1)) (hS : t N = S) (δ : ℝ)
    (hδ : ∀ j < N, t (j + 1) - t j ≤ δ) (η q G : ℕ → ℕ → ℝ) (hG : ∀ j < N, G j n = G j 0)
    (hη : ∀ j < N, ∀ i < n, η (j + 1) i ≤ η j i - (t (j + 1) - t j) / dx * (G j (i + 1) - G j i))
    (V : ℕ → ℝ) (Q : ℝ) (hV : ∀ j < N, ∑ i ∈ Finset.range n, |G j (i + 1) - q j i| ≤ V j)
    (hQ : ∀ j < N, ∀ i < n, |q j i| ≤ Q) :
    -(A * dx * (∑ j ∈ Finset.range N, (t (j + 1) - t j) * V j) + (S - t 0) * (P * Q * (B * (2 * δ + 3 * dx)))) ≤
      form a dx n N t η q φ φt φx := by
  have hB := h.nonneg_B
  have hA := h.nonneg_A
  set x : ℕ → ℝ := fun i => a + i * dx with hx
  have hx1 : ∀ i : ℕ, a + ((i : ℝ) + 1) * dx = x (i + 1) := fun i => by simp only [hx]; push_cast; ring
  have hx2 : ∀ i, x (i + 1) = x i + dx := fun i => by simp only [hx]; push_cast; ring
  have hxle : ∀ i, x i ≤ x (i + 1) := fun i => by rw [hx2]; linarith
  set Φ : ℕ → ℕ → ℝ := fun j i => ∫ y in x i..x (i + 1), φ (t j) y with hΦ
  set D : ℕ → ℕ → ℝ := fun j i => ∫ z in cell (t j) (t (j + 1)) (x i) (x (i + 1)), φx z.1 z.2 with hD
  have htS : ∀ r ≤ N, t (N - r) ≤ S := by
    intro r
    induction r with
    | zero => exact fun _ => hS.le
    | succ r ih =>
      intro hr
      refine le_trans ?_ (ih (by omega))
      rw [show N - r = N - (r + 1) + 1 by omega]
      exact ht _ (by omega)
  have hΦ0 : ∀ j < N, ∀ i, 0 ≤ Φ (j + 1) i := fun j hj i =>
    intervalIntegral.integral_nonneg (hxle i) fun y _ => h.nonneg _ (by
      have := htS (N - (j + 1)) (by omega)
      rwa [show N - (N - (j + 1)) = j + 1 by omega] at this) _
  have hΦn : ∀ j, Φ j n = Φ j 0 := by
    intro j
    have e0 : x n = x 0 + P := by simp only [hx]; push_cast; rw [← hP]; ring
    have e1 : x (n + 1) = x (0 + 1) + P := by simp only [hx]; push_cast; rw [← hP]; ring
    simp only [hΦ]
    rw [e0, e1, ← intervalIntegral.integral_comp_add_right (fun y => φ (t j) y)]
    simp only [h.periodic]
  have hΦN : ∀ i, Φ N i = 0 := fun i => by simp only [hΦ, hS, h.final]; simp
  have hform : form a dx n N t η q φ φt φx =
      ∑ j ∈ Finset.range N, ∑ i ∈ Finset.range n, (η j i * (Φ (j + 1) i - Φ j i) + q j i * D j i) +
        ∑ i ∈ Finset.range n, η 0 i * Φ 0 i := by
    unfold form
    congr 1
    · refine Finset.sum_congr rfl fun j hj => Finset.sum_congr rfl fun i _ => ?_
      rw [hx1, show a + (i : ℝ) * dx = x i from rfl]
      rw [integral_add ((continuous_integrable h.continuous _ _ _ _).const_mul _)
        ((continuous_integrable h.slope_continuous _ _ _ _).const_mul _), integral_const_mul, integral_const_mul,
        h.integral_time _ _ _ _ (ht j (Finset.mem_range.1 hj)) (hxle i)]
    · refine Finset.sum_congr rfl fun i _ => ?_
      rw [hx1, show a + (i : ℝ) * dx = x i from rfl, intervalIntegral.integral_const_mul]
  have htime : ∑ j ∈ Finset.range N, ∑ i ∈ Finset.range n, η j i * (Φ (j + 1) i - Φ j i) +
      ∑ i ∈ Finset.range n, η 0 i * Φ 0 i =
      -∑ j ∈ Finset.range N, ∑ i ∈ Finset.range n, (η (j + 1) i - η j i) * Φ (j + 1) i := by
    rw [Finset.sum_comm, ← Finset.sum_add_distrib, Finset.sum_comm (s := Finset.range N), ← Finset.sum_neg_distrib]
    refine Finset.sum_congr rfl fun i _ => ?_
    have := abel N (fun j => η j i) (fun j => Φ j i)
    simp only [hΦN, mul_zero, zero_sub] at this
    exact this
  have hstep : ∀ j ∈ Finset.range N, -((t (j + 1) - t j) * (A * V j * dx + P * Q * (B * (2 * δ + 3 * dx)))) ≤
      ∑ i ∈ Finset.range n, (q j i * D j i - (η (j + 1) i - η j i) * Φ (j + 1) i) := by
    intro j hj
    rw [Finset.mem_range] at hj
    have hτ : 0 ≤ t (j + 1) - t j := by linarith [ht j hj]
    set τ := t (j + 1) - t j with hτd
    set E : ℕ → ℝ := fun i => τ / dx * (Φ (j + 1) (i + 1) - Φ (j + 1) i) with hE
    have h1 : ∑ i ∈ Finset.range n, (q j i * D j i - G j (i + 1) * E i) ≤
        ∑ i ∈ Finset.range n, (q j i * D j i - (η (j + 1) i - η j i) * Φ (j + 1) i) := by
      have e1 : ∑ i ∈ Finset.range n, G j (i + 1) * E i =
          -(τ / dx * ∑ i ∈ Finset.range n, (G j (i + 1) - G j i) * Φ (j + 1) i) := by
        rw [sum_by_parts n (G j) (Φ (j + 1)) (hG j hj) (hΦn _), mul_neg, neg_neg, Finset.mul_sum]
        exact Finset.sum_congr rfl fun i _ => by simp only [hE]; ring
      rw [Finset.sum_sub_distrib, Finset.sum_sub_distrib, e1, Finset.mul_sum, sub_neg_eq_add, sub_eq_add_neg,
        ← Finset.sum_neg_distrib]
      refine add_le_add le_rfl (Finset.sum_le_sum fun i hi => ?_)
      have := mul_le_mul_of_nonneg_right (hη j hj i (Finset.mem_range.1 hi)) (hΦ0 j hj i)
      nlinarith
    refine le_trans ?_ h1
    have hcell : ∀ i ∈ Finset.range n, -(τ * dx * A * |G j (i + 1) - q j i| +
        τ * dx * (Q * (B * (2 * δ + 3 * dx)))) ≤ q j i * D j i - G j (i + 1) * E i := by
      intro i hi
      have hδj := hδ j hj
      have b1 := h.integral_space (t j) (t (j + 1)) (x i) (x (i + 1)) δ dx (ht j hj) (hxle i) hδj (by rw [hx2]; ring)
      obtain ⟨b2, b3⟩ := h.integral_shift (t j) (t (j + 1)) (x i) δ dx (ht j hj) hδj hdx.le
      have e2 : Φ (j + 1) (i + 1) - Φ (j + 1) i =
          (∫ y in x i + dx..x i + dx + dx, φ (t (j + 1)) y) - ∫ y in x i..x i + dx, φ (t (j + 1)) y := by
        simp only [hΦ, hx2]
      rw [← e2] at b2 b3
      have hq : 0 ≤ τ / dx := div_nonneg hτ hdx.le
      have b3' : |E i| ≤ τ * dx * A := by
        simp only [hE]
        rw [abs_mul, abs_of_nonneg hq]
        calc _ ≤ τ / dx * (dx * dx * A) := mul_le_mul_of_nonneg_left b3 hq
          _ = τ * dx * A := by field_simp
      have b2' : |E i - τ * dx * φx (t j) (x i)| ≤ τ * dx * (B * (δ + 2 * dx)) := by
        have e3 : E i - τ * dx * φx (t j) (x i) =
            τ / dx * (Φ (j + 1) (i + 1) - Φ (j + 1) i - dx * dx * φx (t j) (x i)) := by
          simp only [hE]; field_simp
        rw [e3, abs_mul, abs_of_nonneg hq]
        calc _ ≤ τ / dx * (dx * dx * (B * (δ + 2 * dx))) := mul_le_mul_of_nonneg_left b2 hq
          _ = _ := by field_simp
      have b4 : |D j i - E i| ≤ τ * dx * (B * (2 * δ + 3 * dx)) := by
        calc |D j i - E i| = |(D j i - τ * dx * φx (t j) (x i)) - (E i - τ * dx * φx (t j) (x i))| := by congr 1; ring
          _ ≤ _ := abs_sub _ _
          _ ≤ τ * dx * (B * (δ + dx)) + τ * dx * (B * (δ + 2 * dx)) := add_le_add b1 b2'
          _ = _ := by ring
      have e4 : q j i * D j i - G j (i + 1) * E i = q j i * (D j i - E i) - (G j (i + 1) - q j i) * E i := by ring
      rw [e4]
      have c1 : |q j i * (D j i - E i)| ≤ Q * (τ * dx * (B * (2 * δ + 3 * dx))) := by
        rw [abs_mul]
        exact mul_le_mul (hQ j hj i (Finset.mem_range.1 hi)) b4 (abs_nonneg _)
          ((abs_nonneg _).trans (hQ j hj i (Finset.mem_range.1 hi)))
      have c2 : |(G j (i + 1) - q j i) * E i| ≤ |G j (i + 1) - q j i| * (τ * dx * A) := by
        rw [abs_mul]
        exact mul_le_mul_of_nonneg_left b3' (abs_nonneg _)
      have c3 := neg_abs_le (q j i * (D j i - E i))
      have c4 := le_abs_self ((G j (i + 1) - q j i) * E i)
      linarith
    refine le_trans ?_ (Finset.sum_le_sum hcell)
    rw [Finset.sum_neg_distrib, Finset.sum_add_distrib, ← Finset.mul_sum, Finset.sum_const, Finset.card_range,
      nsmul_eq_mul]
    have hv := mul_le_mul_of_nonneg_left (hV j hj) (mul_nonneg (mul_nonneg hτ hdx.le) hA)
    have e5 : (n : ℝ) * (τ * dx * (Q * (B * (2 * δ + 3 * dx)))) = τ * (P * Q * (B * (2 * δ + 3 * dx))) := by
      rw [← hP]; ring
    rw [e5]
    linarith
  have htotal := Finset.sum_le_sum hstep
  have e8 : ∑ j ∈ Finset.range N, (t (j + 1) - t j) * (A * V j * dx + P * Q * (B * (2 * δ + 3 * dx))) =
      A * dx * (∑ j ∈ Finset.range N, (t (j + 1) - t j) * V j) + (S - t 0) * (P * Q * (B * (2 * δ + 3 * dx))) := by
    rw [← hS, ← Finset.sum_range_sub t N, Finset.sum_mul, Finset.mul_sum, ← Finset.sum_add_distrib]
    exact Finset.sum_congr rfl fun j _ => by ring
  rw [Finset.sum_neg_distrib, e8] at htotal
  refine htotal.trans (le_of_eq ?_)
  have e6 : ∑ j ∈ Finset.range N, ∑ i ∈ Finset.range n, (q j i * D j i - (η (j + 1) i - η j i) * Φ (j + 1) i) =
      ∑ j ∈ Finset.range N, ∑ i ∈ Finset.range n, q j i * D j i +
        -∑ j ∈ Finset.range N, ∑ i ∈ Finset.range n, (η (j + 1) i - η j i) * Φ (j + 1) i := by
    rw [← sub_eq_add_neg, ← Finset.sum_sub_distrib]
    exact Finset.sum_congr rfl fun j _ => Finset.sum_sub_distrib _ _
  have e7 : ∑ j ∈ Finset.range N, ∑ i ∈ Finset.range n, (η j i * (Φ (j + 1) i - Φ j i) + q j i * D j i) =
      ∑ j ∈ Finset.range N, ∑ i ∈ Finset.range n, η j i * (Φ (j + 1) i - Φ j i) +
        ∑ j ∈ Finset.range N, ∑ i ∈ Finset.range n, q j i * D j i := by
    rw [← Finset.sum_add_distrib]
    exact Finset.sum_congr rfl fun j _ => Finset.sum_add_distrib
  rw [e6, ← htime, hform, e7]
  ring

/-- The inequality of every cell gives the weak inequality up to an error of first order. -/
theorem form_lower {P S A B : ℝ} {φ φt φx : ℝ → ℝ → ℝ} (h : Test P S A B φ φt φx) (a dx : ℝ) (n N : ℕ)
    (hdx : 0 < dx) (hP : n * dx = P) (t : ℕ → ℝ) (ht : ∀ j < N, t j ≤ t (j + 1)) (hS : t N = S) (δ : ℝ)
    (hδ : ∀ j < N, t (j + 1) - t j ≤ δ) (η q G : ℕ → ℕ → ℝ) (hG : ∀ j < N, G j n = G j 0)
    (hη : ∀ j < N, ∀ i < n, η (j + 1) i ≤ η j i - (t (j + 1) - t j) / dx * (G j (i + 1) - G j i))
    (V Q : ℝ) (hV : ∀ j < N, ∑ i ∈ Finset.range n, |G j (i + 1) - q j i| ≤ V) (hQ : ∀ j < N, ∀ i < n, |q j i| ≤ Q) :
    -((S - t 0) * (A * V * dx + P * Q * (B * (2 * δ + 3 * dx)))) ≤ form a dx n N t η q φ φt φx := by
  have := form_lower_sum h a dx n N hdx hP t ht hS δ hδ η q G hG hη (fun _ => V) Q hV hQ
  rw [← Finset.sum_mul, Finset.sum_range_sub t N, hS] at this
  refine le_trans (le_of_eq ?_) this
  ring

/-! ### Limits -/

/-- An integral over a strip is the sum of the integrals over its parts. -/
theorem integral_strips {g : ℝ × ℝ → ℝ} (x₀ x₁ : ℝ) (t : ℕ → ℝ) (N : ℕ) (ht : ∀ j < N, t j ≤ t (j + 1))
    (hg : IntegrableOn g (cell (t 0) (t N) x₀ x₁)) :
    t 0 ≤ t N ∧ ∫ z in cell (t 0) (t N) x₀ x₁, g z = ∑ j ∈ Finset.range N, ∫ z in cell (t j) (t (j + 1)) x₀ x₁, g z := by
  induction N with
  | zero => simp [cell]
  | succ N ih =>
    have hN := ht N (by omega)
    have h0N : t 0 ≤ t N := by
      clear ih hg
      induction N with
      | zero => exact le_rfl
      | succ N ih => exact (ih (fun j hj => ht j (by omega)) (ht N (by omega))).trans (ht N (by omega))
    have hu : cell (t 0) (t (N + 1)) x₀ x₁ = cell (t 0) (t N) x₀ x₁ ∪ cell (t N) (t (N + 1)) x₀ x₁ := by
      unfold cell
      rw [← union_prod, Ioc_union_Ioc_eq_Ioc h0N hN]
    have hdis : Disjoint (cell (t 0) (t N) x₀ x₁) (cell (t N) (t (N + 1)) x₀ x₁) := by
      rw [Set.disjoint_left]
      rintro z ⟨a, _⟩ ⟨b, _⟩
      exact absurd a.2 (not_le.2 b.1)
    rw [hu] at hg ⊢
    refine ⟨h0N.trans hN, ?_⟩
    rw [setIntegral_union hdis (cell_measurable _ _ _ _) (hg.mono_set subset_union_left)
      (hg.mono_set subset_union_right), (ih (fun j hj => ht j (by omega)) (hg.mono_set subset_union_left)).2,
      Finset.sum_range_succ]

theorem integral_columns {g : ℝ × ℝ → ℝ} (t₀ t₁ : ℝ) (x : ℕ → ℝ) (n : ℕ) (hx : ∀ j < n, x j ≤ x (j + 1))
    (hg : IntegrableOn g (cell t₀ t₁ (x 0) (x n))) :
    x 0 ≤ x n ∧ ∫ z in cell t₀ t₁ (x 0) (x n), g z = ∑ j ∈ Finset.range n, ∫ z in cell t₀ t₁ (x j) (x (j + 1)), g z := by
  induction n with
  | zero => simp [cell]
  | succ N ih =>
    have hN := hx N (by omega)
    have h0N : x 0 ≤ x N := by
      clear ih hg
      induction N with
      | zero => exact le_rfl
      | succ N ih => exact (ih (fun j hj => hx j (by omega)) (hx N (by omega))).trans (hx N (by omega))
    have hu : cell t₀ t₁ (x 0) (x (N + 1)) = cell t₀ t₁ (x 0) (x N) ∪ cell t₀ t₁ (x N) (x (N + 1)) := by
      unfold cell
      rw [← prod_union, Ioc_union_Ioc_eq_Ioc h0N hN]
    have hdis : Disjoint (cell t₀ t₁ (x 0) (x N)) (cell t₀ t₁ (x N) (x (N + 1))) := by
      rw [Set.disjoint_left]
      rintro z ⟨_, a⟩ ⟨_, b⟩
      exact absurd a.2 (not_le.2 b.1)
    rw [hu] at hg ⊢
    refine ⟨h0N.trans hN, ?_⟩
    rw [setIntegral_union hdis (cell_measurable _ _ _ _) (hg.mono_set subset_union_left)
      (hg.mono_set subset_union_right), (ih (fun j hj => hx j (by omega)) (hg.mono_set subset_union_left)).2,
      Finset.sum_range_succ]

/-- The integral over the whole domain in terms of the cells of the grid. -/
theorem integral_grid {g : ℝ × ℝ → ℝ} (t x : ℕ → ℝ) (N n : ℕ) (ht : ∀ j < N, t j ≤ t (j + 1))
    (hx : ∀ j < n, x j ≤ x (j + 1)) (hg : IntegrableOn g (cell (t 0) (t N) (x 0) (x n))) :
    ∫ z in cell (t 0) (t N) (x 0) (x n), g z =
      ∑ j ∈ Finset.range N, ∑ i ∈ Finset.range n, ∫ z in cell (t j) (t (j + 1)) (x i) (x (i + 1)), g z := by
  rw [(integral_strips _ _ t N ht hg).2]
  refine Finset.sum_congr rfl fun j hj => ?_
  rw [Finset.mem_range] at hj
  refine (integral_columns _ _ x n hx (hg.mono_set (prod_mono ?_ le_rfl))).2
  refine Ioc_subset_Ioc ?_ ?_
  · clear hg
    induction j with
    | zero => exact le_rfl
    | succ j ih => exact (ih (by omega)).trans (ht j (by omega))
  · clear hg hx
    obtain ⟨d, rfl⟩ : ∃ d, N = j + 1 + d := ⟨N - (j + 1), by omega⟩
    induction d with
    | zero => exact le_rfl
    | succ d ih => exact (ih (fun i hi => ht i (by omega)) (by omega)).trans (ht (j + 1 + d) (by omega))

theorem bounded_integrable {f : ℝ × ℝ → ℝ} (hf : Measurable f) (C : ℝ) (hC : ∀ z, |f z| ≤ C) (t₀ t₁ x₀ x₁ : ℝ) :
    IntegrableOn f (cell t₀ t₁ x₀ x₁) :=
  Measure.integrableOn_of_bounded (cell_finite _ _ _ _).ne hf.aestronglyMeasurable
    (Filter.Eventually.of_forall fun z => by rw [Real.norm_eq_abs]; exact hC z)

/-- The contribution of a cell does not change much if the constant value of the cell is replaced by a function near
it. -/
theorem cell_close {e q : ℝ → ℝ} {m M Le Lq Ct A : ℝ} (he : ∀ a b, m ≤ a → a ≤ M → m ≤ b → b ≤ M → |e a - e b| ≤ Le * |a - b|)
    (hq : ∀ a b, m ≤ a → a ≤ M → m ≤ b → b ≤ M → |q a - q b| ≤ Lq * |a - b|) (hLe : 0 ≤ Le) (hLq : 0 ≤ Lq)
    {ψ χ : ℝ × ℝ → ℝ} (hψ : Continuous ψ) (hχ : Continuous χ) {t₀ t₁ x₀ x₁ : ℝ}
    (hψb : ∀ z ∈ cell t₀ t₁ x₀ x₁, |ψ z| ≤ Ct) (hχb : ∀ z ∈ cell t₀ t₁ x₀ x₁, |χ z| ≤ A)
    {u : ℝ × ℝ → ℝ} (hu : Measurable u) (hum : ∀ z, m ≤ u z ∧ u z ≤ M)
    (hint : IntegrableOn (fun z => e (u z) * ψ z + q (u z) * χ z) (cell t₀ t₁ x₀ x₁)) (c : ℝ) (hc : m ≤ c ∧ c ≤ M) :
    |(∫ z in cell t₀ t₁ x₀ x₁, (e c * ψ z + q c * χ z)) - ∫ z in cell t₀ t₁ x₀ x₁, (e (u z) * ψ z + q (u z) * χ z)| ≤
      (Le * Ct + Lq * A) * ∫ z in cell t₀ t₁ x₀ x₁, |c - u z| := by
  have h1 : IntegrableOn (fun z => e c * ψ z + q c * χ z) (cell t₀ t₁ x₀ x₁) :=
    ((continuous_integrable hψ _ _ _ _).const_mul _).add ((continuous_integrable hχ _ _ _ _).const_mul _)
  have h2 : IntegrableOn (fun z => |c - u z|) (cell t₀ t₁ x₀ x₁) :=
    bounded_integrable (continuous_abs.measurable.comp (hu.const_sub c)) (M - m) (fun z => by
      simp only [Function.comp]
      rw [abs_abs, abs_le]
      constructor <;> linarith [hc.1, hc.2, (hum z).1, (hum z).2]) _ _ _ _
  rw [← integral_sub h1 hint, ← integral_const_mul, ← Real.norm_eq_abs]
  refine norm_integral_le_of_norm_le (h2.const_mul _) (ae_restrict_of_forall_mem (cell_measurable _ _ _ _) fun z hz => ?_)
  rw [Real.norm_eq_abs]
  have a1 := he c (u z) hc.1 hc.2 (hum z).1 (hum z).2
  have a2 := hq c (u z) hc.1 hc.2 (hum z).1 (hum z).2
  calc _ = |(e c - e (u z)) * ψ z + (q c - q (u z)) * χ z| := by congr 1; ring
    _ ≤ |e c - e (u z)| * |ψ z| + |q c - q (u z)| * |χ z| := by
        refine (abs_add_le _ _).trans ?_
        rw [abs_mul, abs_mul]
    _ ≤ Le * |c - u z| * Ct + Lq * |c - u z| * A :=
        add_le_add (mul_le_mul a1 (hψb z hz) (abs_nonneg _) (mul_nonneg hLe (abs_nonneg _)))
          (mul_le_mul a2 (hχb z hz) (abs_nonneg _) (mul_nonneg hLq (abs_nonneg _)))
    _ = _ := by ring

/-- The same for the whole grid. -/
theorem grid_close {e q : ℝ → ℝ} {m M Le Lq Ct A : ℝ} (he : ∀ a b, m ≤ a → a ≤ M → m ≤ b → b ≤ M → |e a - e b| ≤ Le * |a - b|)
    (hq : ∀ a b, m ≤ a → a ≤ M → m ≤ b → b ≤ M → |q a - q b| ≤ Lq * |a - b|) (hLe : 0 ≤ Le) (hLq : 0 ≤ Lq)
    {ψ χ : ℝ × ℝ → ℝ} (hψ : Continuous ψ) (hχ : Continuous χ) (t x : ℕ → ℝ) (N n : ℕ) (ht : Monotone t)
    (hx : Monotone x) (hψb : ∀ z ∈ cell (t 0) (t N) (x 0) (x n), |ψ z| ≤ Ct)
    (hχb : ∀ z ∈ cell (t 0) (t N) (x 0) (x n), |χ z| ≤ A)
    {u : ℝ × ℝ → ℝ} (hu : Measurable u) (hum : ∀ z, m ≤ u z ∧ u z ≤ M)
    (hint : IntegrableOn (fun z => e (u z) * ψ z + q (u z) * χ z) (cell (t 0) (t N) (x 0) (x n)))
    (c : ℕ → ℕ → ℝ) (hc : ∀ j < N, ∀ i < n, m ≤ c j i ∧ c j i ≤ M) :
    |(∑ j ∈ Finset.range N, ∑ i ∈ Finset.range n, ∫ z in cell (t j) (t (j + 1)) (x i) (x (i + 1)),
        (e (c j i) * ψ z + q (c j i) * χ z)) -
      ∫ z in cell (t 0) (t N) (x 0) (x n), (e (u z) * ψ z + q (u z) * χ z)| ≤
      (Le * Ct + Lq * A) * ∑ j ∈ Finset.range N, ∑ i ∈ Finset.range n,
        ∫ z in cell (t j) (t (j + 1)) (x i) (x (i + 1)), |c j i - u z| := by
  rw [integral_grid t x N n (fun j _ => ht (Nat.le_succ j)) (fun j _ => hx (Nat.le_succ j)) hint,
    ← Finset.sum_sub_distrib, Finset.mul_sum]
  refine (Finset.abs_sum_le_sum_abs _ _).trans (Finset.sum_le_sum fun j hj => ?_)
  rw [← Finset.sum_sub_distrib, Finset.mul_sum]
  refine (Finset.abs_sum_le_sum_abs _ _).trans (Finset.sum_le_sum fun i hi => ?_)
  rw [Finset.mem_range] at hj hi
  have hsub : cell (t j) (t (j + 1)) (x i) (x (i + 1)) ⊆ cell (t 0) (t N) (x 0) (x n) :=
    prod_mono (Ioc_subset_Ioc (ht (Nat.zero_le _)) (ht hj)) (Ioc_subset_Ioc (hx (Nat.zero_le _)) (hx hi))
  exact cell_close he hq hLe hLq hψ hχ (fun z hz => hψb z (hsub hz)) (fun z hz => hχb z (hsub hz)) hu hum
    (hint.mono_set hsub) _ (hc j hj i hi)

end Verif.Weak
