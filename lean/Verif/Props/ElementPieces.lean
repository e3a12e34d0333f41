import Verif.Props.ElementForm

/-!
Helper lemmas for C140: if finite element functions with linear elements converge in the mean, so do the piecewise constant
functions with the same values at the nodes, to the same limit.
-/

set_option linter.unusedSectionVars false

namespace Verif.WeakLimit

open Verif.Py Verif.Scalar Verif.ODE Verif.Convergence Verif.Weak Verif.EntropyLimit
open Verif.Interpolate Verif.Quadrature
open Verif.Mesh hiding Error
open MeasureTheory Set Filter Topology

/-! ### Functions on pieces -/

section Pieces

variable {X : Type*} [PseudoMetricSpace X] [MeasurableSpace X] {μ : Measure X} {ι : Type*}

theorem near_pieces (E : Set X) (hE : μ E ≠ ⊤) (I : Finset ι) (K : ι → Set X) (hK : ∀ k ∈ I, MeasurableSet (K k))
    (hsub : ∀ k ∈ I, K k ⊆ E)
    (hadd : ∀ φ : X → ℝ, IntegrableOn φ E μ → ∫ z in E, φ z ∂μ = ∑ k ∈ I, ∫ z in K k, φ z ∂μ)
    (u v w g : X → ℝ) (hu : IntegrableOn u E μ) (hv : IntegrableOn v E μ) (hw : IntegrableOn w E μ)
    (hg : IntegrableOn g E μ) (ω : ℝ) (γ : ι → ℝ) (hω : ∀ k ∈ I, ∀ z ∈ K k, |g z - γ k| ≤ ω)
    (hp : ∀ k ∈ I, ∫ z in K k, |v z - γ k| ∂μ ≤ 4 * ∫ z in K k, |u z - γ k| ∂μ) :
    ∫ z in E, |v z - w z| ∂μ ≤ 4 * (∫ z in E, |u z - w z| ∂μ) + 5 * (∫ z in E, |g z - w z| ∂μ) + 5 * ω * μ.real E := by
  have hc : ∀ b : ℝ, IntegrableOn (fun _ : X => b) E μ := fun b => integrableOn_const hE
  have ab : ∀ {f h : X → ℝ}, IntegrableOn f E μ → IntegrableOn h E μ → IntegrableOn (fun z => |f z - h z|) E μ :=
    fun hf hh => (hf.sub hh).abs
  have hvg := ab hv hg
  have hug := ab hu hg
  have hgw := ab hg hw
  have huw := ab hu hw
  have hvw := ab hv hw
  -- the pieces
  have piece : ∀ k ∈ I, ∫ z in K k, |v z - g z| ∂μ ≤ 4 * (∫ z in K k, |u z - g z| ∂μ) + 5 * ∫ z in K k, ω ∂μ := by
    intro k hk
    have m : ∀ {f : X → ℝ}, IntegrableOn f E μ → IntegrableOn f (K k) μ := fun h => h.mono_set (hsub k hk)
    have h1 : ∫ z in K k, |v z - g z| ∂μ ≤ (∫ z in K k, |v z - γ k| ∂μ) + ∫ z in K k, ω ∂μ := by
      rw [← integral_add (m (ab hv (hc (γ k)))) (m (hc ω))]
      refine setIntegral_mono_on (m hvg) ((m (ab hv (hc (γ k)))).add (m (hc ω))) (hK k hk) fun z hz => ?_
      have e : v z - g z = (v z - γ k) - (g z - γ k) := by ring
      simp only [e]
      exact (abs_sub _ _).trans (add_le_add le_rfl (hω k hk z hz))
    have h2 : ∫ z in K k, |u z - γ k| ∂μ ≤ (∫ z in K k, |u z - g z| ∂μ) + ∫ z in K k, ω ∂μ := by
      rw [← integral_add (m hug) (m (hc ω))]
      refine setIntegral_mono_on (m (ab hu (hc (γ k)))) ((m hug).add (m (hc ω))) (hK k hk) fun z hz => ?_
      have e : u z - γ k = (u z - g z) + (g z - γ k) := by ring
      simp only [e]
      exact (abs_add_le _ _).trans (add_le_add le_rfl (hω k hk z hz))
    have h3 := hp k hk
    linarith
  have h1 : ∫ z in E, |v z - g z| ∂μ ≤ 4 * (∫ z in E, |u z - g z| ∂μ) + 5 * (ω * μ.real E) := by
    have := Finset.sum_le_sum piece
    rw [Finset.sum_add_distrib, ← Finset.mul_sum, ← Finset.mul_sum, ← hadd _ hvg, ← hadd _ hug, ← hadd _ (hc ω),
      setIntegral_const, smul_eq_mul] at this
    linarith
  have h2 : ∫ z in E, |v z - w z| ∂μ ≤ (∫ z in E, |v z - g z| ∂μ) + ∫ z in E, |g z - w z| ∂μ := by
    rw [← integral_add hvg hgw]
    refine integral_mono hvw (hvg.add hgw) fun z => ?_
    have e : v z - w z = (v z - g z) + (g z - w z) := by ring
    simp only [e]
    exact abs_add_le _ _
  have h3 : ∫ z in E, |u z - g z| ∂μ ≤ (∫ z in E, |u z - w z| ∂μ) + ∫ z in E, |g z - w z| ∂μ := by
    rw [← integral_add huw hgw]
    refine integral_mono hug (huw.add hgw) fun z => ?_
    have e : u z - g z = (u z - w z) - (g z - w z) := by ring
    simp only [e]
    exact abs_sub _ _
  linarith

theorem pieces_limit (E : Set X) (hE : μ E ≠ ⊤) (w : X → ℝ) (hw : IntegrableOn w E μ)
    (hdense : ∀ ε > 0, ∃ g : X → ℝ, UniformContinuous g ∧ IntegrableOn g E μ ∧ ∫ z in E, |g z - w z| ∂μ ≤ ε)
    (u v : ℕ → X → ℝ) (hu : ∀ r, IntegrableOn (u r) E μ) (hv : ∀ r, IntegrableOn (v r) E μ) (δ : ℕ → ℝ)
    (hδ : Tendsto δ atTop (𝓝 0))
    (hp : ∀ r, ∃ (I : Finset ι) (K : ι → Set X) (y : ι → X), (∀ k ∈ I, MeasurableSet (K k) ∧ K k ⊆ E) ∧
      (∀ φ : X → ℝ, IntegrableOn φ E μ → ∫ z in E, φ z ∂μ = ∑ k ∈ I, ∫ z in K k, φ z ∂μ) ∧
      (∀ k ∈ I, ∀ z ∈ K k, dist z (y k) ≤ δ r) ∧
      ∀ k ∈ I, ∀ γ, ∫ z in K k, |v r z - γ| ∂μ ≤ 4 * ∫ z in K k, |u r z - γ| ∂μ)
    (hlim : Tendsto (fun r => ∫ z in E, |u r z - w z| ∂μ) atTop (𝓝 0)) :
    Tendsto (fun r => ∫ z in E, |v r z - w z| ∂μ) atTop (𝓝 0) := by
  rw [Metric.tendsto_atTop]
  intro ε hε
  set κ := ε / (5 + 5 * μ.real E + 5) with hκ
  have hden : 0 < 5 + 5 * μ.real E + 5 := by positivity
  have hκ0 : 0 < κ := div_pos hε hden
  obtain ⟨g, hgu, hgi, hgw⟩ := hdense κ hκ0
  rw [Metric.uniformContinuous_iff] at hgu
  obtain ⟨η, hη, hgη⟩ := hgu κ hκ0
  have ev1 : ∀ᶠ r in atTop, δ r < η := hδ.eventually (gt_mem_nhds hη)
  have ev2 : ∀ᶠ r in atTop, ∫ z in E, |u r z - w z| ∂μ < κ := hlim.eventually (gt_mem_nhds hκ0)
  obtain ⟨N, hN⟩ := eventually_atTop.1 (ev1.and ev2)
  refine ⟨N, fun r hr => ?_⟩
  obtain ⟨h1, h2⟩ := hN r hr
  obtain ⟨I, K, y, k1, k2, k3, k4⟩ := hp r
  have := near_pieces E hE I K (fun k hk => (k1 k hk).1) (fun k hk => (k1 k hk).2) k2 (u r) (v r) w g (hu r) (hv r) hw hgi κ
    (fun k => g (y k)) (fun k hk z hz => by
      have := hgη (lt_of_le_of_lt (k3 k hk z hz) h1)
      rw [Real.dist_eq] at this
      exact this.le) (fun k hk => k4 k hk _)
  rw [Real.dist_eq, sub_zero, abs_of_nonneg (integral_nonneg fun z => abs_nonneg _)]
  refine lt_of_le_of_lt this ?_
  have e : κ * (5 + 5 * μ.real E + 5) = ε := div_mul_cancel₀ _ hden.ne'
  nlinarith

end Pieces

/-! ### Linear functions -/

/-- The mean of the absolute value of a linear function controls its value at the left end. -/
theorem linear_mean (A B : ℝ) : |A| ≤ 4 * ∫ x in (0 : ℝ)..1, |(1 - x) * A + x * B| := by
  have h : |∫ x in (0 : ℝ)..1, (1 - 3 / 2 * x) * ((1 - x) * A + x * B)| ≤ ∫ x in (0 : ℝ)..1, |(1 - x) * A + x * B| := by
    refine (intervalIntegral.abs_integral_le_integral_abs zero_le_one).trans
      (intervalIntegral.integral_mono_on zero_le_one (Continuous.intervalIntegrable (by fun_prop) _ _)
        (Continuous.intervalIntegrable (by fun_prop) _ _) fun x hx => ?_)
    rw [abs_mul]
    have : |1 - 3 / 2 * x| ≤ 1 := by
      rw [_root_.abs_le]
      constructor <;> linarith [hx.1, hx.2]
    exact mul_le_of_le_one_left (abs_nonneg _) this
  have e : ∫ x in (0 : ℝ)..1, (1 - 3 / 2 * x) * ((1 - x) * A + x * B) = A / 4 := by
    have : ∀ x : ℝ, (1 - 3 / 2 * x) * ((1 - x) * A + x * B) = A + (B - A - 3 / 2 * A) * x + (-(3 / 2) * (B - A)) * x ^ 2 :=
      fun x => by ring
    simp only [this]
    rw [FE.integral_quadratic]
    ring
  rw [e, abs_div, abs_of_pos (by norm_num : (0 : ℝ) < 4)] at h
  linarith

theorem linear_interval (a h A B : ℝ) (hh : 0 < h) :
    h * |A| ≤ 4 * ∫ x in a..a + h, |(1 - (x - a) / h) * A + (x - a) / h * B| := by
  have e : ∫ x in a..a + h, |(1 - (x - a) / h) * A + (x - a) / h * B| = h * ∫ x in (0 : ℝ)..1, |(1 - x) * A + x * B| := by
    have := intervalIntegral.integral_comp_div_sub (a := a) (b := a + h) (fun x => |(1 - x) * A + x * B|) hh.ne' (a / h)
    rw [show a / h - a / h = 0 by ring, show (a + h) / h - a / h = 1 by field_simp; ring, smul_eq_mul] at this
    rw [← this]
    refine intervalIntegral.integral_congr fun x _ => ?_
    simp only [sub_div]
  rw [e]
  have := mul_le_mul_of_nonneg_left (linear_mean A B) hh.le
  linarith

theorem linear_cell (d : Interval ℝ) (hd : d.a < d.b) {n : ℕ} (hn : 0 < n) (u : Fin n → ℝ) (i : Fin n) (γ : ℝ) :
    (d.b - d.a) / n * |u i - γ| ≤ 4 * ∫ x in Ioc (nodeAt d.a ((d.b - d.a) / n) i) (nodeAt d.a ((d.b - d.a) / n) (i + 1)),
      |FE.linearValue d n u i x - γ| := by
  have hn0 : (0 : ℝ) < n := by exact_mod_cast hn
  have hdx : 0 < (d.b - d.a) / n := div_pos (by linarith) hn0
  have h := linear_interval (nodeAt d.a ((d.b - d.a) / n) i) _ (u i - γ) (around u (i + 1) - γ) hdx
  have e : nodeAt d.a ((d.b - d.a) / n) i + (d.b - d.a) / n = nodeAt d.a ((d.b - d.a) / n) (i + 1) := by
    unfold nodeAt; push_cast; ring
  rw [e, intervalIntegral.integral_of_le (by rw [← e]; linarith)] at h
  refine h.trans (le_of_eq ?_)
  congr 1
  refine setIntegral_congr_fun measurableSet_Ioc fun x _ => ?_
  unfold FE.linearValue FE.place nodeAt
  rw [around_cell]
  congr 1
  ring

end Verif.WeakLimit
