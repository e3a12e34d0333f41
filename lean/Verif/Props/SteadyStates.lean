import Verif.Core.BenchmarkSWE
import Verif.Props.SWELake
import Verif.Props.Interpolate
import Mathlib.Analysis.Calculus.Deriv.Add
import Mathlib.Analysis.Calculus.Deriv.Inv
import Mathlib.Analysis.Calculus.Deriv.Pow
import Mathlib.Analysis.Calculus.Deriv.Mul
import Mathlib.Analysis.Calculus.Deriv.Slope
import Mathlib.Analysis.SpecialFunctions.Pow.Real
import Mathlib.Analysis.SpecialFunctions.Trigonometric.Deriv
import Mathlib.Topology.Order.IntermediateValue
import Mathlib.Tactic.LinearCombination

/-!
Property C86: the lakes at rest and the moving water of `benchmark/shallow_water.py` are steady states.
-/

set_option linter.unusedSectionVars false

namespace Verif.Bench

open Verif.Py Filter Topology
open Verif.Mesh hiding Error

/-! ### Specification -/

/-- The shallow water equations with bathymetry, without the derivatives in time, at a point:
`q' = 0` and `(q ^ 2 / h + g h ^ 2 / 2)' = - g h b'`. -/
def SteadyAt (g : ℝ) (b : ℝ → ℝ) (data : ℝ → ℝ × ℝ) (x : ℝ) : Prop :=
  ∃ b', HasDerivAt b b' x ∧ HasDerivAt (fun y => (data y).2) 0 x ∧
    HasDerivAt (fun y => (data y).2 ^ 2 / (data y).1 + g * (data y).1 ^ 2 / 2)
      (-(g * (data x).1 * b')) x

/-! ### Lakes -/

theorem bump_range (x : ℝ) : 0 ≤ Lake.bathymetry .bump x ∧ Lake.bathymetry .bump x ≤ 1 / 5 := by
  unfold Lake.bathymetry
  dsimp only
  split_ifs with h
  · constructor
    · have : (x - 10) ^ 2 ≤ 4 := by nlinarith [h.1, h.2]
      linarith
    · have := sq_nonneg (x - 10)
      linarith
  · constructor <;> norm_num

/-- C86.  The lake at rest: the surface is at 2, the water does not move and is at least 1.8 deep; the
exact solution is the initial one at all times. -/
theorem C86_lake (x t : ℝ) :
    (Lake.initial .bump x).1 + Lake.bathymetry .bump x = 2 ∧ (Lake.initial .bump x).2 = 0 ∧
    9 / 5 ≤ (Lake.initial .bump x).1 ∧
    baseMethod (Lake.exact .bump) (x, t) = .ok (Lake.initial .bump x) := by
  have h := bump_range x
  refine ⟨?_, rfl, ?_, rfl⟩ <;> unfold Lake.initial <;> dsimp only <;> linarith

/-- C86.  The perturbed lake: the surface is at 1.01 on `[5.75, 6.25)` and at 1 elsewhere, the water does
not move and is at least 0.8 deep; there is no exact solution. -/
theorem C86_perturbed (x t : ℝ) :
    (Lake.initial .perturbed x).1 + Lake.bathymetry .perturbed x =
      (if 575 / 100 ≤ x ∧ x < 625 / 100 then 101 / 100 else 1) ∧
    (Lake.initial .perturbed x).2 = 0 ∧ 4 / 5 ≤ (Lake.initial .perturbed x).1 ∧
    baseMethod (Lake.exact .perturbed) (x, t) = .error .attributeError := by
  have h : 0 ≤ Lake.bathymetry .perturbed x ∧ Lake.bathymetry .perturbed x ≤ 1 / 5 := bump_range x
  refine ⟨?_, ?_, ?_, rfl⟩ <;> unfold Lake.initial <;> dsimp only <;> split_ifs <;> dsimp only <;>
    linarith

/-- C86.  On flat ground the data is constant. -/
theorem C86_flat (x t : ℝ) :
    Lake.bathymetry .noBathymetry x = 0 ∧ Lake.initial .noBathymetry x = (1, 0) ∧
    Lake.bathymetry .moving x = 0 ∧ Lake.initial .moving x = (2, 1) ∧
    baseMethod (Lake.exact .noBathymetry) (x, t) = .ok (Lake.initial .noBathymetry x) ∧
    baseMethod (Lake.exact .moving) (x, t) = .ok (Lake.initial .moving x) :=
  ⟨rfl, rfl, rfl, rfl, rfl, rfl⟩

theorem steady_of_rest (g c : ℝ) (b : ℝ → ℝ) (data : ℝ → ℝ × ℝ)
    (h : ∀ y, (data y).1 + b y = c ∧ (data y).2 = 0) (x : ℝ) (hb : DifferentiableAt ℝ b x) :
    SteadyAt g b data x := by
  refine ⟨deriv b x, hb.hasDerivAt, ?_, ?_⟩
  · have : (fun y => (data y).2) = fun _ => 0 := funext fun y => (h y).2
    rw [this]; exact hasDerivAt_const x 0
  · have e : (fun y => (data y).2 ^ 2 / (data y).1 + g * (data y).1 ^ 2 / 2) =
        fun y => g / 2 * (c - b y) ^ 2 := by
      funext y
      have h1 : (data y).1 = c - b y := by linarith [(h y).1]
      rw [(h y).2, h1]; ring
    rw [e]
    have hx : (data x).1 = c - b x := by linarith [(h x).1]
    have hd : HasDerivAt (fun y => c - b y) (-deriv b x) x := hb.hasDerivAt.const_sub c
    refine ((hd.pow 2).const_mul (g / 2)).congr_deriv ?_
    rw [hx]; simp; ring

theorem bump_differentiable (x : ℝ) (h8 : x ≠ 8) (h12 : x ≠ 12) :
    DifferentiableAt ℝ (Lake.bathymetry .bump) x := by
  by_cases h : x < 8 ∨ 12 < x
  · have e : Lake.bathymetry .bump =ᶠ[𝓝 x] fun _ => 0 := by
      rcases h with h | h
      · filter_upwards [Iio_mem_nhds h] with y hy
        unfold Lake.bathymetry
        dsimp only
        rw [if_neg]
        intro hc; exact absurd hy (not_lt.mpr hc.1)
      · filter_upwards [Ioi_mem_nhds h] with y hy
        unfold Lake.bathymetry
        dsimp only
        rw [if_neg]
        intro hc; exact absurd hc.2 (not_lt.mpr (le_of_lt hy))
    exact (differentiableAt_const (0 : ℝ)).congr_of_eventuallyEq e
  · push Not at h
    have ha : 8 < x := lt_of_le_of_ne h.1 (Ne.symm h8)
    have hb : x < 12 := lt_of_le_of_ne h.2 h12
    have e : Lake.bathymetry .bump =ᶠ[𝓝 x] fun y => (4 - (y - 10) ^ 2) / 20 := by
      filter_upwards [Ioo_mem_nhds ha hb] with y hy
      unfold Lake.bathymetry
      dsimp only
      rw [if_pos ⟨le_of_lt hy.1, hy.2⟩]
    refine DifferentiableAt.congr_of_eventuallyEq ?_ e
    fun_prop

/-- C86.  The lakes at rest and the moving water on flat ground solve the equations of a steady state,
with any gravity, everywhere except at the two kinks of the bump. -/
theorem C86_lake_steady (g x : ℝ) :
    (x ≠ 8 → x ≠ 12 → SteadyAt g (Lake.bathymetry .bump) (Lake.initial .bump) x) ∧
    SteadyAt g (Lake.bathymetry .noBathymetry) (Lake.initial .noBathymetry) x ∧
    SteadyAt g (Lake.bathymetry .moving) (Lake.initial .moving) x := by
  refine ⟨fun h8 h12 => steady_of_rest g 2 _ _ (fun y => ⟨(C86_lake y 0).1, rfl⟩) x
    (bump_differentiable x h8 h12), ?_, ?_⟩
  · refine ⟨0, hasDerivAt_const _ _, hasDerivAt_const _ _, ?_⟩
    refine (hasDerivAt_const x ((0 : ℝ) ^ 2 / 1 + g * 1 ^ 2 / 2)).congr_deriv ?_
    simp
  · refine ⟨0, hasDerivAt_const _ _, hasDerivAt_const _ _, ?_⟩
    refine (hasDerivAt_const x ((1 : ℝ) ^ 2 / 2 + g * 2 ^ 2 / 2)).congr_deriv ?_
    simp

/-- C86.  At the kinks the bathymetry is still continuous. -/
theorem C86_lake_continuous : Continuous (Lake.bathymetry .bump) := by
  have e : Lake.bathymetry .bump = fun x => max 0 ((4 - (x - 10) ^ 2) / 20) := by
    funext x
    unfold Lake.bathymetry
    dsimp only
    split_ifs with h
    · rw [max_eq_right]
      nlinarith [h.1, h.2]
    · rw [max_eq_left]
      rcases not_and_or.mp h with h | h
      · push Not at h; nlinarith
      · push Not at h; nlinarith
  rw [e]
  fun_prop

/-! ### Moving water over a bump -/

theorem movingBump_range (b : MovingBump) (x : ℝ) : 0 ≤ b.bathymetry x ∧ b.bathymetry x ≤ 1 / 2 := by
  unfold MovingBump.bathymetry
  have h1 := Real.neg_one_le_cos (10 * Real.pi * (x + 1))
  have h2 := Real.cos_le_one (10 * Real.pi * (x + 1))
  split_ifs
  · constructor <;> linarith
  · constructor <;> norm_num

/-- C86.  Whatever root is found, discharge and energy are those given. -/
theorem C86_moving (newton : (ℝ → ℝ) → ℝ → Except Error ℝ)
    (hroot : ∀ f x₀ r, newton f x₀ = .ok r → f r = 0) (b : MovingBump) (x t h q : ℝ)
    (hok : b.exact newton x t = .ok (h, q)) :
    b.initial newton x = .ok (h, q) ∧ q = b.K1 ∧
    (h ≠ 0 → (q / h) ^ 2 / 2 + b.g * (h + b.bathymetry x) = b.K2) := by
  have hok' : b.initial newton x = .ok (h, q) := hok
  refine ⟨hok', ?_⟩
  unfold MovingBump.initial at hok'
  split at hok'
  · cases hok'
  · rename_i r hr
    have hp := Except.ok.inj hok'
    have h1 : r = h := congrArg Prod.fst hp
    have h2 : b.K1 = q := congrArg Prod.snd hp
    subst h1 h2
    refine ⟨rfl, fun h0 => ?_⟩
    have := hroot _ _ _ hr
    unfold MovingBump.f at this
    have e : (b.K1 / r) ^ 2 / 2 = b.K1 ^ 2 / (2 * r ^ 2) := by
      field_simp
    rw [e]; linarith

/-- C86.  The bathymetry of the moving water is continuous and zero at both ends of the domain. -/
theorem C86_moving_continuous (b : MovingBump) :
    Continuous b.bathymetry ∧ b.bathymetry (-2) = 0 ∧ b.bathymetry 2 = 0 := by
  refine ⟨?_, ?_, ?_⟩
  · unfold MovingBump.bathymetry
    have hs : ∀ x : ℝ, (-(1 / 10) ≤ x ∧ x ≤ 1 / 10) ↔ |x| ≤ 1 / 10 := fun x => abs_le.symm
    have hset : (fun x : ℝ => if -(1 / 10) ≤ x ∧ x ≤ 1 / 10 then
        (Real.cos (10 * Real.pi * (x + 1)) + 1) / 4 else 0) =
        fun x => if |x| ≤ 1 / 10 then (Real.cos (10 * Real.pi * (x + 1)) + 1) / 4 else 0 := by
      funext x; simp only [hs]
    rw [hset]
    apply Continuous.if_le (by fun_prop) continuous_const continuous_abs continuous_const
    intro x hx
    have hodd : ∀ n : ℕ, Real.cos (Real.pi + n * (2 * Real.pi)) = -1 := by
      intro n; rw [Real.cos_add_nat_mul_two_pi, Real.cos_pi]
    rcases abs_eq (by norm_num : (0 : ℝ) ≤ 1 / 10) |>.mp hx with h | h
    · have : 10 * Real.pi * (x + 1) = Real.pi + (5 : ℕ) * (2 * Real.pi) := by rw [h]; push_cast; ring
      rw [this, hodd]; norm_num
    · have : 10 * Real.pi * (x + 1) = Real.pi + (4 : ℕ) * (2 * Real.pi) := by rw [h]; push_cast; ring
      rw [this, hodd]; norm_num
  · unfold MovingBump.bathymetry; rw [if_neg]; norm_num
  · unfold MovingBump.bathymetry; rw [if_neg]; norm_num

/-- A subcritical height that solves the energy equation everywhere. -/
structure Subcritical (b : MovingBump) (h : ℝ → ℝ) : Prop where
  wet : ∀ x, 0 < h x
  sub : ∀ x, b.K1 ^ 2 < b.g * h x ^ 3
  root : ∀ x, b.f x (h x) = 0

/-- The divided difference of `K1 ^ 2 / (2 h ^ 2) + g h`. -/
noncomputable def slopeE (b : MovingBump) (u v : ℝ) : ℝ :=
  b.g - b.K1 ^ 2 * (u + v) / (2 * u ^ 2 * v ^ 2)

theorem slopeE_spec (b : MovingBump) (h : ℝ → ℝ) (hs : Subcritical b h) (x y : ℝ) :
    (h y - h x) * slopeE b (h y) (h x) = -(b.g * (b.bathymetry y - b.bathymetry x)) := by
  have h1 := hs.root x
  have h2 := hs.root y
  have p1 := (hs.wet x).ne'
  have p2 := (hs.wet y).ne'
  unfold MovingBump.f at h1 h2
  unfold slopeE
  have e : (h y - h x) * (b.g - b.K1 ^ 2 * (h y + h x) / (2 * h y ^ 2 * h x ^ 2)) =
      (b.K1 ^ 2 / (2 * h y ^ 2) + b.g * h y) - (b.K1 ^ 2 / (2 * h x ^ 2) + b.g * h x) := by
    field_simp
    ring
  rw [e]; linarith

theorem slopeE_bound (b : MovingBump) (hg : 0 < b.g) (h : ℝ → ℝ) (hs : Subcritical b h) (x : ℝ) :
    ∃ δ > 0, ∀ y, δ ≤ slopeE b (h y) (h x) := by
  set a : ℝ := b.K1 ^ 2 / b.g with ha
  have ha0 : 0 ≤ a := by positivity
  obtain ⟨c, hc0, hc⟩ : ∃ c : ℝ, 0 ≤ c ∧ c ^ 3 = a := by
    refine ⟨a ^ ((1 : ℝ) / 3), Real.rpow_nonneg ha0 _, ?_⟩
    rw [← Real.rpow_natCast, ← Real.rpow_mul ha0]
    norm_num
  have hcl : ∀ y, c < h y := by
    intro y
    have : c ^ 3 < h y ^ 3 := by
      rw [hc, ha, div_lt_iff₀ hg]; linarith [hs.sub y]
    exact lt_of_pow_lt_pow_left₀ 3 (hs.wet y).le this
  have hK : b.K1 ^ 2 = b.g * c ^ 3 := by rw [hc, ha]; field_simp
  have hx := hcl x
  have hxp := hs.wet x
  refine ⟨b.g * (1 - (c ^ 2 / (2 * h x ^ 2) + c / (2 * h x))), ?_, ?_⟩
  · apply mul_pos hg
    have h1 : c / h x < 1 := (div_lt_one hxp).mpr hx
    have h0 : 0 ≤ c / h x := by positivity
    have e : c ^ 2 / (2 * h x ^ 2) + c / (2 * h x) = ((c / h x) ^ 2 + c / h x) / 2 := by
      field_simp
    rw [e]
    nlinarith
  · intro y
    have hy := hcl y
    have hyp := hs.wet y
    unfold slopeE
    rw [hK]
    have e : b.g * c ^ 3 * (h y + h x) / (2 * h y ^ 2 * h x ^ 2) =
        b.g * (c ^ 2 / (2 * h x ^ 2) * (c / h y) + c / (2 * h x) * (c / h y) ^ 2) := by
      field_simp
    rw [e]
    have h1 : c / h y ≤ 1 := (div_le_one hyp).mpr hy.le
    have h0 : 0 ≤ c / h y := by positivity
    have h2 : (c / h y) ^ 2 ≤ 1 := pow_le_one₀ h0 h1
    have t1 : c ^ 2 / (2 * h x ^ 2) * (c / h y) ≤ c ^ 2 / (2 * h x ^ 2) :=
      mul_le_of_le_one_right (by positivity) h1
    have t2 : c / (2 * h x) * (c / h y) ^ 2 ≤ c / (2 * h x) :=
      mul_le_of_le_one_right (by positivity) h2
    nlinarith

/-- C86.  If the heights found are subcritical, they depend continuously on the place and the moving water
solves the equations of a steady state wherever the bathymetry is differentiable. -/
theorem C86_moving_steady (b : MovingBump) (hg : 0 < b.g) (h : ℝ → ℝ) (hs : Subcritical b h) :
    Continuous h ∧ ∀ x, DifferentiableAt ℝ b.bathymetry x →
      SteadyAt b.g b.bathymetry (fun y => (h y, b.K1)) x := by
  have hcont : Continuous h := by
    rw [continuous_iff_continuousAt]
    intro x
    obtain ⟨δ, hδ, hb⟩ := slopeE_bound b hg h hs x
    have hbc := (C86_moving_continuous b).1.continuousAt (x := x)
    rw [Metric.continuousAt_iff] at hbc ⊢
    intro ε hε
    obtain ⟨η, hη, hη'⟩ := hbc (ε * δ / b.g) (by positivity)
    refine ⟨η, hη, fun y hy => ?_⟩
    have h1 := hη' hy
    rw [Real.dist_eq] at h1 ⊢
    have h2 := slopeE_spec b h hs x y
    have h3 : |h y - h x| * slopeE b (h y) (h x) = b.g * |b.bathymetry y - b.bathymetry x| := by
      have := congrArg abs h2
      rw [abs_mul, abs_neg, abs_mul, abs_of_pos hg,
        abs_of_pos (lt_of_lt_of_le hδ (hb y))] at this
      exact this
    have h4 : |h y - h x| * δ ≤ b.g * |b.bathymetry y - b.bathymetry x| := by
      rw [← h3]; exact mul_le_mul_of_nonneg_left (hb y) (abs_nonneg _)
    have h5 : b.g * |b.bathymetry y - b.bathymetry x| < ε * δ := by
      have := (lt_div_iff₀ hg).mp h1
      linarith
    exact lt_of_mul_lt_mul_right (lt_of_le_of_lt h4 h5) hδ.le
  refine ⟨hcont, fun x hb => ?_⟩
  obtain ⟨δ, hδ, hbound⟩ := slopeE_bound b hg h hs x
  have hbd := hb.hasDerivAt
  have hD : slopeE b (h x) (h x) ≠ 0 := (lt_of_lt_of_le hδ (hbound x)).ne'
  have hh : HasDerivAt h (-(b.g * deriv b.bathymetry x) / slopeE b (h x) (h x)) x := by
    rw [hasDerivAt_iff_tendsto_slope] at hbd ⊢
    have hcD : Tendsto (fun y => slopeE b (h y) (h x)) (𝓝[≠] x) (𝓝 (slopeE b (h x) (h x))) := by
      have : ContinuousAt (fun y => slopeE b (h y) (h x)) x := by
        unfold slopeE
        have hp := (hs.wet x).ne'
        apply ContinuousAt.sub continuousAt_const
        apply ContinuousAt.div
        · exact continuousAt_const.mul (hcont.continuousAt.add continuousAt_const)
        · exact (continuousAt_const.mul (hcont.continuousAt.pow 2)).mul continuousAt_const
        · positivity
      exact this.tendsto.mono_left nhdsWithin_le_nhds
    have := ((hbd.const_mul b.g).neg).div hcD hD
    refine this.congr' ?_
    filter_upwards [self_mem_nhdsWithin] with y hy
    have hyx : y - x ≠ 0 := sub_ne_zero.mpr hy
    have hne := (lt_of_lt_of_le hδ (hbound y)).ne'
    have := slopeE_spec b h hs x y
    simp only [slope_def_field, Pi.div_apply]
    rw [div_eq_iff hne]
    field_simp
    linarith
  refine ⟨deriv b.bathymetry x, hb.hasDerivAt, hasDerivAt_const _ _, ?_⟩
  have hp := (hs.wet x).ne'
  have h1 := ((hh.inv hp).const_mul (b.K1 ^ 2)).add ((hh.pow 2).const_mul (b.g / 2))
  have e : (fun y => b.K1 ^ 2 / h y + b.g * h y ^ 2 / 2) =
      (fun y => b.K1 ^ 2 * (h y)⁻¹) + fun y => b.g / 2 * h y ^ 2 := by
    funext y
    simp only [Pi.add_apply]
    rw [div_eq_mul_inv]; ring
  dsimp only
  rw [e]
  refine h1.congr_deriv ?_
  have hD' : slopeE b (h x) (h x) * h x ^ 3 = b.g * h x ^ 3 - b.K1 ^ 2 := by
    unfold slopeE
    field_simp
    ring
  have hne : b.g * h x ^ 3 - b.K1 ^ 2 ≠ 0 := by linarith [hs.sub x]
  have hDv : slopeE b (h x) (h x) = (b.g * h x ^ 3 - b.K1 ^ 2) / h x ^ 3 := by
    rw [eq_div_iff (by positivity)]; exact hD'
  rw [hDv]
  simp
  field_simp
  ring

/-! ### The default parameters of the moving water -/

/-- `K1 = 1`, `K2 = 25` and the gravitational acceleration of `defaults.py`. -/
noncomputable def defaultBump : MovingBump := ⟨9812 / 1000, 1, 25⟩

theorem slopeE_pos_of_le (b : MovingBump) (u v : ℝ) (hu : 0 < u) (huv : u ≤ v) (hg : 0 < b.g)
    (h : b.K1 ^ 2 < b.g * u ^ 3) : 0 < slopeE b u v := by
  have hv : 0 < v := lt_of_lt_of_le hu huv
  unfold slopeE
  rw [sub_pos, div_lt_iff₀ (by positivity)]
  have h1 : b.K1 ^ 2 * (u + v) ≤ b.K1 ^ 2 * (2 * v) :=
    mul_le_mul_of_nonneg_left (by linarith) (sq_nonneg _)
  have h2 : b.K1 ^ 2 * (2 * v) < b.g * u ^ 3 * (2 * v) := mul_lt_mul_of_pos_right h (by linarith)
  have h3 : b.g * u ^ 3 * (2 * v) ≤ b.g * (2 * u ^ 2 * v ^ 2) := by
    have : u ^ 3 * (2 * v) ≤ 2 * u ^ 2 * v ^ 2 := by
      have : 0 ≤ 2 * u ^ 2 * v * (v - u) := by
        apply mul_nonneg (by positivity); linarith
      nlinarith
    nlinarith
  linarith

/-- Two subcritical heights with the same energy are equal. -/
theorem subcritical_unique (b : MovingBump) (hg : 0 < b.g) (x u v : ℝ) (hu : 0 < u) (hv : 0 < v)
    (su : b.K1 ^ 2 < b.g * u ^ 3) (sv : b.K1 ^ 2 < b.g * v ^ 3) (ru : b.f x u = 0) (rv : b.f x v = 0) :
    u = v := by
  have key : (u - v) * slopeE b u v = 0 := by
    unfold MovingBump.f at ru rv
    unfold slopeE
    have e : (u - v) * (b.g - b.K1 ^ 2 * (u + v) / (2 * u ^ 2 * v ^ 2)) =
        (b.K1 ^ 2 / (2 * u ^ 2) + b.g * u) - (b.K1 ^ 2 / (2 * v ^ 2) + b.g * v) := by
      field_simp
      ring
    rw [e]; linarith
  have hpos : 0 < slopeE b u v := by
    rcases le_total u v with h | h
    · exact slopeE_pos_of_le b u v hu h hg su
    · have := slopeE_pos_of_le b v u hv h hg sv
      have e : slopeE b u v = slopeE b v u := by unfold slopeE; ring
      rw [e]; exact this
  rcases mul_eq_zero.mp key with h | h
  · linarith
  · exact absurd h hpos.ne'

theorem root_between (x u v : ℝ) (huv : u < v) (h0 : v < 0 ∨ 0 < u)
    (hs : defaultBump.f x u * defaultBump.f x v < 0) :
    ∃ h, u < h ∧ h < v ∧ defaultBump.f x h = 0 := by
  have hc : ContinuousOn (defaultBump.f x) (Set.Icc u v) := by
    unfold MovingBump.f
    intro h hh
    have hne : h ≠ 0 := by
      rcases h0 with h0 | h0
      · exact (lt_of_le_of_lt hh.2 h0).ne
      · exact (lt_of_lt_of_le h0 hh.1).ne'
    apply ContinuousAt.continuousWithinAt
    apply ContinuousAt.sub _ continuousAt_const
    apply ContinuousAt.add
    · apply ContinuousAt.div continuousAt_const (by fun_prop)
      positivity
    · fun_prop
  rcases mul_neg_iff.mp hs with ⟨ha, hb⟩ | ⟨ha, hb⟩
  · obtain ⟨h, hh, e⟩ := intermediate_value_Ioo' huv.le hc (show (0 : ℝ) ∈ Set.Ioo _ _ from ⟨hb, ha⟩)
    exact ⟨h, hh.1, hh.2, e⟩
  · obtain ⟨h, hh, e⟩ := intermediate_value_Ioo huv.le hc (show (0 : ℝ) ∈ Set.Ioo _ _ from ⟨ha, hb⟩)
    exact ⟨h, hh.1, hh.2, e⟩

/-- C86.  With the default parameters there is exactly one subcritical height at each place; it lies
between 2 and 2.55. -/
theorem C86_moving_root (x : ℝ) :
    ∃! h, (0 < h ∧ defaultBump.K1 ^ 2 < defaultBump.g * h ^ 3 ∧ defaultBump.f x h = 0) ∧
      2 < h ∧ h < 255 / 100 := by
  have hb := movingBump_range defaultBump x
  obtain ⟨h, h1, h2, h3⟩ := root_between x 2 (255 / 100) (by norm_num) (Or.inr (by norm_num)) (by
    apply mul_neg_of_neg_of_pos <;> unfold MovingBump.f <;>
      simp only [defaultBump] at hb ⊢ <;> norm_num <;> linarith [hb.1, hb.2])
  have sub : defaultBump.K1 ^ 2 < defaultBump.g * h ^ 3 := by
    have : (2 : ℝ) ^ 3 < h ^ 3 := pow_lt_pow_left₀ h1 (by norm_num) (by norm_num)
    simp only [defaultBump]; nlinarith
  refine ⟨h, ⟨⟨by linarith, sub, h3⟩, h1, h2⟩, ?_⟩
  rintro v ⟨⟨hv, sv, rv⟩, -, -⟩
  exact subcritical_unique defaultBump (by norm_num [defaultBump]) x v h hv (by linarith) sv sub rv h3

/-- C86.  The equation has two more roots, a supercritical and a negative one: the root the search
returns decides. -/
theorem C86_moving_other_roots (x : ℝ) :
    (∃ h, 1 / 10 < h ∧ h < 4 / 10 ∧ defaultBump.f x h = 0 ∧
      defaultBump.g * h ^ 3 < defaultBump.K1 ^ 2) ∧
    ∃ h, -1 < h ∧ h < -(1 / 10) ∧ defaultBump.f x h = 0 := by
  have hb := movingBump_range defaultBump x
  constructor
  · obtain ⟨h, h1, h2, h3⟩ := root_between x (1 / 10) (4 / 10) (by norm_num) (Or.inr (by norm_num))
      (by
        apply mul_neg_of_pos_of_neg <;> unfold MovingBump.f <;>
          simp only [defaultBump] at hb ⊢ <;> norm_num <;> linarith [hb.1, hb.2])
    refine ⟨h, h1, h2, h3, ?_⟩
    have : h ^ 3 < (4 / 10 : ℝ) ^ 3 := pow_lt_pow_left₀ h2 (by linarith) (by norm_num)
    simp only [defaultBump]; nlinarith
  · obtain ⟨h, h1, h2, h3⟩ := root_between x (-1) (-(1 / 10)) (by norm_num) (Or.inl (by norm_num))
      (by
        apply mul_neg_of_neg_of_pos <;> unfold MovingBump.f <;>
          simp only [defaultBump] at hb ⊢ <;> norm_num <;> linarith [hb.1, hb.2])
    exact ⟨h, h1, h2, h3⟩

/-- The subcritical heights exist, so the hypotheses of `C86_moving_steady` are satisfiable. -/
theorem exists_subcritical : ∃ h, Subcritical defaultBump h ∧ ∀ x, 2 < h x ∧ h x < 255 / 100 := by
  choose h hh _ using fun x => C86_moving_root x
  exact ⟨h, ⟨fun x => (hh x).1.1, fun x => (hh x).1.2.1, fun x => (hh x).1.2.2⟩,
    fun x => ⟨(hh x).2.1, (hh x).2.2⟩⟩

/-! ### A lake at rest from the initial data to the end of a run -/

section Run

open Verif.SWE Verif.Boundary Verif.FV Verif.ODE Verif.Interpolate Verif.Quadrature

/-- The cell averages of height and discharge. -/
noncomputable def discretize (points : List (ℝ × ℝ)) (mesh : UMesh ℝ) (f : ℝ → ℝ × ℝ) :
    List (State ℝ) :=
  List.zip (cellAverages points mesh fun x => (f x).1) (cellAverages points mesh fun x => (f x).2)

/-- What is needed of the quadrature rule; Gauss rules have it (C57). -/
structure AveragingRule (points : List (ℝ × ℝ)) : Prop where
  sum : (specific points).weights.sum = 2
  pos : ∀ w ∈ (specific points).weights, 0 < w
  inside : ∀ x ∈ (specific points).nodes, -1 < x ∧ x < 1

theorem uniform_cells {d : Interval ℝ} (hd : d.a < d.b) {n : ℕ} (hn : 0 < n) {mesh : UMesh ℝ}
    (hmesh : uniformMesh d n = .ok mesh) : mesh.cells.length = n ∧
    (∀ c ∈ mesh.cells, c.a < c.b) ∧
    ∀ (i : ℕ) (hi : i < mesh.cells.length), mesh.cells[i].a = node d n i ∧
      mesh.cells[i].b = node d n (i + 1) := by
  rw [uniformMesh_eq d hd hn] at hmesh
  have hm := (Except.ok.inj hmesh).symm
  subst hm
  refine ⟨by simp, ?_, ?_⟩
  · intro c hc
    obtain ⟨i, hi, rfl⟩ := List.mem_map.mp hc
    have hi' := List.mem_range.mp hi
    exact node_lt d hd hn (Nat.lt_succ_self i)
  · intro i hi
    simp

theorem discretize_lake (points : List (ℝ × ℝ)) (hp : AveragingRule points) (mesh : UMesh ℝ)
    (hm : ∀ c ∈ mesh.cells, c.a < c.b) (c : ℝ) (b : ℝ → ℝ) (f : ℝ → ℝ × ℝ)
    (hf : ∀ x, f x = (c - b x, 0)) :
    discretize points mesh f = lake c (cellAverages points mesh b) := by
  have h0 := (C58_basic points mesh hm hp.sum hp.pos hp.inside b).2.1 0
  have h1 := (C58_basic points mesh hm hp.sum hp.pos hp.inside (fun _ => (1 : ℝ))).2.2.2 b c (-1)
  have h2 := (C58_basic points mesh hm hp.sum hp.pos hp.inside b).2.1 1
  have hlen := (C58_basic points mesh hm hp.sum hp.pos hp.inside b).1
  unfold discretize lake
  have e1 : (fun x => (f x).1) = fun x => c * 1 + -1 * b x := by
    funext x; rw [hf]; ring
  have e2 : (fun x => (f x).2) = fun _ => (0 : ℝ) := by funext x; rw [hf]
  rw [e1, e2, h0, h1, h2]
  apply List.ext_getElem
  · simp [hlen]
  · intro i hi1 hi2
    simp
    ring

theorem lake_admissible (points : List (ℝ × ℝ)) (hp : AveragingRule points) (n : ℕ) (hn : 20 ≤ n)
    (mesh : UMesh ℝ) (hmesh : uniformMesh (Lake.domain .bump) n = .ok mesh) (P : Params ℝ)
    (heps : P.eps ≤ 3 / 20) :
    let b := cellAverages points mesh (Lake.bathymetry .bump)
    b.length = n ∧ SWE.Admissible P 2 b ∧ isConstant P b = .ok false := by
  intro b
  have hd : (Lake.domain .bump).a < (Lake.domain .bump).b := by norm_num [Lake.domain]
  obtain ⟨hlen, hlt, hcell⟩ := uniform_cells hd (by omega) hmesh
  obtain ⟨hb1, -, hb3, -⟩ := C58_basic points mesh hlt hp.sum hp.pos hp.inside (Lake.bathymetry .bump)
  have hbl : b.length = n := hb1.trans hlen
  have hn' : (20 : ℝ) ≤ n := by exact_mod_cast hn
  have hw : (20 - 0 : ℝ) / n ≤ 1 := by rw [div_le_one (by linarith)]; linarith
  have hw0 : (0 : ℝ) < (20 - 0) / n := by apply div_pos <;> linarith
  have hnode : ∀ i : ℕ, node (Lake.domain .bump) n i = i * ((20 - 0) / n) := by
    intro i; simp [node, Lake.domain]
  have hmem : ∀ x ∈ b, 0 ≤ x ∧ x ≤ 1 / 5 := by
    intro x hx
    obtain ⟨i, hi, rfl⟩ := List.getElem_of_mem hx
    have := hb3 i (by omega) 0 (1 / 5) (fun y _ _ => bump_range y)
    rwa [List.getD_eq_getElem b 0 hi] at this
  -- the first cell lies beside the bump, the middle one on it
  have h0 : b.getD 0 0 = 0 := by
    have := hb3 0 (by omega) 0 0 (fun y h1 h2 => by
      obtain ⟨_, e2⟩ := hcell 0 (by omega)
      rw [e2, hnode] at h2
      have : y < 8 := by push_cast at h2; linarith
      have e : Lake.bathymetry .bump y = 0 := by
        unfold Lake.bathymetry
        dsimp only
        rw [if_neg]; intro hc; linarith [hc.1]
      rw [e]; exact ⟨le_refl _, le_refl _⟩)
    exact le_antisymm this.2 this.1
  have hmid : 3 / 20 ≤ b.getD (n / 2) 0 := by
    refine (hb3 (n / 2) (by omega) (3 / 20) (1 / 5) (fun y h1 h2 => ?_)).1
    obtain ⟨e1, e2⟩ := hcell (n / 2) (by omega)
    rw [e1, hnode] at h1
    rw [e2, hnode] at h2
    have k1 : (n : ℝ) ≤ 2 * ((n / 2 : ℕ) : ℝ) + 1 := by
      have : n ≤ 2 * (n / 2) + 1 := by omega
      exact_mod_cast this
    have k2 : 2 * ((n / 2 : ℕ) : ℝ) ≤ n := by
      have : 2 * (n / 2) ≤ n := by omega
      exact_mod_cast this
    have hprod : (n : ℝ) * ((20 - 0) / n) = 20 := by field_simp; norm_num
    have l1 : 9 ≤ y := by nlinarith
    have l2 : y ≤ 11 := by push_cast at h2; nlinarith
    have e : Lake.bathymetry .bump y = (4 - (y - 10) ^ 2) / 20 := by
      unfold Lake.bathymetry
      dsimp only
      rw [if_pos ⟨by linarith, by linarith⟩]
    refine ⟨?_, (bump_range y).2⟩
    rw [e]; nlinarith
  have hc : isConstant P b = .ok false := by
    have hi2 : n / 2 < b.length := by omega
    rw [List.getD_eq_getElem b 0 hi2] at hmid
    have hm2 : b[n / 2] ∈ b := List.getElem_mem hi2
    clear_value b
    cases b with
    | nil => simp at hbl; omega
    | cons a l =>
      have ha : a = 0 := by simpa using h0
      change Except.ok ((a :: l).all fun x => decide (|x - a| < P.eps)) = _
      congr 1
      rw [List.all_eq_false]
      refine ⟨_, hm2, ?_⟩
      simp only [decide_eq_true_eq, not_lt]
      refine heps.trans (hmid.trans ?_)
      have := le_abs_self ((a :: l)[n / 2] - a)
      linarith
  refine ⟨hbl, ⟨fun x hx => ?_, fun h => ?_⟩, hc⟩
  · linarith [(hmem x hx).2]
  · rw [hc] at h; cases h

/-- C86.  From the benchmark to the end of a run: the cell averages of the lake at rest on a mesh of at
least 20 cells are kept exactly by the low-order and the limited solver (with central target flux), with
every Runge-Kutta method and all step sizes, for the bathymetry and the boundary conditions of the
benchmark. -/
theorem C86_lake_run (points : List (ℝ × ℝ)) (hp : AveragingRule points) (n : ℕ) (hn : 20 ≤ n)
    (mesh : UMesh ℝ) (hmesh : uniformMesh (Lake.domain .bump) n = .ok mesh) (P : Params ℝ)
    (hP : P.Good) (heps : P.eps ≤ 3 / 20) :
    ∃ B bc, buildBathymetry P (some (cellAverages points mesh (Lake.bathymetry .bump))) = .ok B ∧
      build (K := ℝ) (some reflect) (Lake.boundary .bump).conditions 1 none none = .ok bc ∧
      ∀ (dx : ℝ), dx ≠ 0 → ∀ F ∈ [lowOrder P B, mcl P B bc (centralFlux P B)],
        ∀ (T : Tableau ℝ) (t0 : ℝ) (steps : List ℝ),
          let u : Fin n → State ℝ := fun i => (discretize points mesh (Lake.initial .bump)).getD i 0
          ∃ s', (Solver.init u t0).runE T (vecRhs n (rhs F dx bc)) steps = .ok s' ∧
            s'.solution = u ∧ s'.time = t0 + steps.sum := by
  obtain ⟨hlen, ha, hc⟩ := lake_admissible points hp n hn mesh hmesh P heps
  have hd : (Lake.domain .bump).a < (Lake.domain .bump).b := by norm_num [Lake.domain]
  have hu : discretize points mesh (Lake.initial .bump) =
      lake 2 (cellAverages points mesh (Lake.bathymetry .bump)) :=
    discretize_lake points hp mesh (uniform_cells hd (by omega) hmesh).2.1 2 _ _ fun x => rfl
  rw [hu]
  generalize hb : cellAverages points mesh (Lake.bathymetry .bump) = b at *
  subst hlen
  have hne : b ≠ [] := by rintro rfl; simp at hn
  have hB : ∃ B, buildBathymetry P (some b) = .ok B := by
    unfold buildBathymetry
    simp only [hc]
    exact ⟨_, rfl⟩
  obtain ⟨B, hB⟩ := hB
  obtain ⟨bc, hbc⟩ : ∃ bc, build (K := ℝ) (some (reflect (K := ℝ)))
      (Lake.boundary .bump).conditions 1 none none = .ok bc := ⟨_, rfl⟩
  have hcl : Closed (Lake.boundary .bump).conditions := ⟨_, _, rfl, Or.inl rfl, Or.inl rfl⟩
  have hlake : ∀ i : Fin b.length, (lake 2 b).getD i 0 = (2 - b.getD i 0, (0 : ℝ)) := by
    intro i
    exact lake_getD 2 b i i.2
  refine ⟨B, bc, hB, hbc, fun dx hdx F hF T t0 steps => ?_⟩
  simp only [hlake]
  rcases List.mem_cons.mp hF with rfl | hF
  · exact (C43_low_order P hP 2 b hne ha B hB _ hcl none none bc hbc dx hdx).2 T t0 steps
  · have hF := List.mem_singleton.mp hF
    subst hF
    obtain ⟨ds, hds, -⟩ := lakeExt_closed P 2 b ha B hB b.length (by omega) rfl
    refine (C43_mcl P hP 2 b hne ha B hB _ hcl none none bc hbc dx hdx (centralFlux P B) ?_ ?_).2
      T t0 steps
    · simp [centralFlux, withSource, central]
    · intro ext hl hwet
      exact (C43_central_target P B b.length ds hds ext hl hwet).2

/-- The hypotheses of `C86_lake_run` are satisfiable: the midpoint rule, real square roots. -/
example : AveragingRule [(0, 2)] ∧ (∃ mesh, uniformMesh (Lake.domain .bump) 50 = .ok mesh) ∧
    (realParams (9812 / 1000) (1 / 10 ^ 12) (by norm_num)).Good := by
  refine ⟨⟨by simp [specific, Rule.weights], by simp [specific, Rule.weights],
    by simp [specific, Rule.nodes]⟩, ?_, realParams_good _ _ (by norm_num) _⟩
  exact ⟨_, uniformMesh_eq _ (by norm_num [Lake.domain]) (by norm_num)⟩

end Run

end Verif.Bench
