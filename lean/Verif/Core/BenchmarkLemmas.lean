import Verif.Core.Benchmark
import Mathlib.Analysis.Calculus.Deriv.Slope
import Mathlib.Analysis.Calculus.DSlope
import Mathlib.Analysis.SpecialFunctions.Trigonometric.Deriv
import Mathlib.Analysis.SpecialFunctions.Trigonometric.Bounds
import Mathlib.Topology.Order.IntermediateValue

/-!
The method of characteristics for Burgers' equation: roots of `f (x - u t) = u`.
-/

namespace Verif.Bench

open Filter Topology

/-- There is a root if `f` is continuous and bounded. -/
theorem exists_root (f : ℝ → ℝ) (hf : Continuous f) (B : ℝ) (hB : ∀ y, |f y| ≤ B) (x t : ℝ) :
    ∃ u, f (x - u * t) - u = 0 := by
  have hc : Continuous fun u => f (x - u * t) - u := by fun_prop
  have := mem_range_of_exists_le_of_exists_ge hc (c := 0)
    ⟨B, by have := (abs_le.mp (hB (x - B * t))).2; linarith⟩
    ⟨-B, by have := (abs_le.mp (hB (x - -B * t))).1; linarith⟩
  obtain ⟨u, hu⟩ := this
  exact ⟨u, hu⟩

/-- The root is unique up to the time at which the characteristics meet. -/
theorem root_unique (f : ℝ → ℝ) (L : ℝ) (hL : 0 < L)
    (hf : ∀ a b, a ≠ b → |f a - f b| < L * |a - b|) (x t : ℝ) (ht : 0 ≤ t) (htL : t ≤ 1 / L) (u v : ℝ)
    (hu : f (x - u * t) - u = 0) (hv : f (x - v * t) - v = 0) : u = v := by
  by_contra hne
  have h1 : |u - v| = |f (x - u * t) - f (x - v * t)| := by
    congr 1; linarith
  have hpos : 0 < |u - v| := abs_pos.mpr (sub_ne_zero.mpr hne)
  rcases ht.eq_or_lt with h0 | h0
  · rw [← h0] at hu hv
    simp only [mul_zero] at hu hv
    exact hne (by linarith)
  · have hab : x - u * t ≠ x - v * t := by
      intro h
      apply hne
      have : u * t = v * t := by linarith
      exact mul_right_cancel₀ h0.ne' this
    have h2 := hf _ _ hab
    rw [← h1] at h2
    have h3 : |x - u * t - (x - v * t)| = t * |u - v| := by
      rw [show x - u * t - (x - v * t) = t * (v - u) by ring, abs_mul, abs_of_pos h0, abs_sub_comm]
    rw [h3] at h2
    have h4 : L * t ≤ 1 := by
      rw [le_div_iff₀ hL] at htL
      linarith
    nlinarith

/-- A function with the increments `q y (y - a)` is differentiable. -/
theorem hasDerivAt_of_increment (F q : ℝ → ℝ) (a : ℝ) (h : ∀ᶠ y in 𝓝 a, F y - F a = q y * (y - a))
    (hq : ContinuousAt q a) : HasDerivAt F (q a) a := by
  rw [hasDerivAt_iff_tendsto_slope]
  refine (hq.tendsto.mono_left nhdsWithin_le_nhds).congr' ?_
  filter_upwards [nhdsWithin_le_nhds h, self_mem_nhdsWithin] with y h1 h2
  have : y - a ≠ 0 := sub_ne_zero.mpr h2
  rw [slope_def_field, h1]
  field_simp

theorem dslope_mul (f : ℝ → ℝ) (a b : ℝ) : f b - f a = dslope f a b * (b - a) := by
  have := sub_smul_dslope f a b
  simp only [smul_eq_mul] at this
  linarith

theorem abs_dslope_le (f f' : ℝ → ℝ) (hf : ∀ y, HasDerivAt f (f' y) y) (L : ℝ)
    (hL : ∀ y, |f' y| ≤ L) (a b : ℝ) : |dslope f a b| ≤ L := by
  by_cases h : b = a
  · subst h
    rw [dslope_same, (hf b).deriv]
    exact hL b
  · have h1 : ∀ y ∈ Set.univ, HasDerivWithinAt f (f' y) Set.univ y := fun y _ =>
      (hf y).hasDerivWithinAt
    have h2 := Convex.norm_image_sub_le_of_norm_hasDerivWithin_le (C := L) h1
      (fun y _ => by simpa using hL y) convex_univ (Set.mem_univ a) (Set.mem_univ b)
    rw [dslope_mul f a b, norm_mul, Real.norm_eq_abs] at h2
    exact le_of_mul_le_mul_right h2 (norm_pos_iff.mpr (sub_ne_zero.mpr h))

/-- The roots depend continuously on the data. -/
theorem root_continuous (f f' : ℝ → ℝ) (hf : ∀ y, HasDerivAt f (f' y) y) (L B : ℝ)
    (hL : ∀ y, |f' y| ≤ L) (hB : ∀ y, |f y| ≤ B) (u : ℝ → ℝ) (X T : ℝ → ℝ) (a : ℝ)
    (hX : ContinuousAt X a) (hT : ContinuousAt T a) (hTL : |T a| * L < 1)
    (hu : ∀ᶠ y in 𝓝 a, f (X y - u y * T y) - u y = 0) : ContinuousAt u a := by
  have ha := hu.self_of_nhds
  have hL0 : 0 ≤ L := (abs_nonneg _).trans (hL 0)
  have hB0 : 0 ≤ B := (abs_nonneg _).trans (hB 0)
  have key : ∀ᶠ y in 𝓝 a, |u y - u a| ≤
      L / (1 - |T a| * L) * (|X y - X a| + B * |T y - T a|) := by
    filter_upwards [hu] with y hy
    have e1 := dslope_mul f (X a - u a * T a) (X y - u y * T y)
    set m := dslope f (X a - u a * T a) (X y - u y * T y) with hm
    have hm1 : |m| ≤ L := abs_dslope_le f f' hf L hL _ _
    have e2 : (u y - u a) * (1 + m * T a) = m * ((X y - X a) - u y * (T y - T a)) := by
      have : u y - u a = m * (X y - u y * T y - (X a - u a * T a)) := by
        rw [← e1]; linarith
      linear_combination this
    have h1 : 1 - |T a| * L ≤ 1 + m * T a := by
      have : |m * T a| ≤ |T a| * L := by
        rw [abs_mul, mul_comm]; exact mul_le_mul_of_nonneg_left hm1 (abs_nonneg _)
      have := (abs_le.mp this).1
      linarith
    have h2 : 0 < 1 - |T a| * L := by linarith
    have huB : |u y| ≤ B := by
      have : u y = f (X y - u y * T y) := by linarith
      rw [this]; exact hB _
    have h3 : |u y - u a| * (1 - |T a| * L) ≤ L * (|X y - X a| + B * |T y - T a|) := by
      calc |u y - u a| * (1 - |T a| * L) ≤ |u y - u a| * (1 + m * T a) :=
            mul_le_mul_of_nonneg_left h1 (abs_nonneg _)
        _ = |(u y - u a) * (1 + m * T a)| := by rw [abs_mul, abs_of_pos (lt_of_lt_of_le h2 h1)]
        _ = |m| * |(X y - X a) - u y * (T y - T a)| := by rw [e2, abs_mul]
        _ ≤ L * (|X y - X a| + B * |T y - T a|) := by
            apply mul_le_mul hm1 _ (abs_nonneg _) hL0
            refine (abs_sub _ _).trans ?_
            rw [abs_mul]
            have := mul_le_mul_of_nonneg_right huB (abs_nonneg (T y - T a))
            linarith
    rw [div_mul_eq_mul_div, le_div_iff₀ h2]
    exact h3
  have hlim : Tendsto (fun y => L / (1 - |T a| * L) * (|X y - X a| + B * |T y - T a|)) (𝓝 a) (𝓝 0) := by
    have h1 : Tendsto (fun y => |X y - X a|) (𝓝 a) (𝓝 |X a - X a|) :=
      ((hX.sub continuousAt_const).abs)
    have h2 : Tendsto (fun y => |T y - T a|) (𝓝 a) (𝓝 |T a - T a|) :=
      ((hT.sub continuousAt_const).abs)
    have h3 := (h1.add (h2.const_mul B)).const_mul (L / (1 - |T a| * L))
    simpa using h3
  have := squeeze_zero_norm' (f := fun y => u y - u a) (by simpa using key) hlim
  have h4 := this.add_const (u a)
  simp only [sub_add_cancel, zero_add] at h4
  exact h4

/-- Before the characteristics meet the roots solve Burgers' equation. -/
theorem burgers_pde (f f' : ℝ → ℝ) (hf : ∀ y, HasDerivAt f (f' y) y) (L B : ℝ)
    (hL : ∀ y, |f' y| ≤ L) (hB : ∀ y, |f y| ≤ B) (u : ℝ → ℝ → ℝ) (x t : ℝ) (ht : |t| * L < 1)
    (hux : ∀ᶠ y in 𝓝 x, f (y - u y t * t) - u y t = 0)
    (hut : ∀ᶠ s in 𝓝 t, f (x - u x s * s) - u x s = 0) :
    ∃ ux ut, HasDerivAt (fun y => u y t) ux x ∧ HasDerivAt (fun s => u x s) ut t ∧
      ut + u x t * ux = 0 := by
  have h0 := hux.self_of_nhds
  have c1 := root_continuous f f' hf L B hL hB (fun y => u y t) (fun y => y) (fun _ => t) x
    continuousAt_id continuousAt_const ht hux
  have c2 := root_continuous f f' hf L B hL hB (fun s => u x s) (fun _ => x) (fun s => s) t
    continuousAt_const continuousAt_id ht hut
  have hden : ∀ m : ℝ, |m| ≤ L → 1 + m * t ≠ 0 := by
    intro m hm
    have : |m * t| ≤ |t| * L := by
      rw [abs_mul, mul_comm]; exact mul_le_mul_of_nonneg_left hm (abs_nonneg _)
    have := (abs_le.mp this).1
    have : 0 < 1 + m * t := by linarith
    exact this.ne'
  have hd : ContinuousAt (dslope f (x - u x t * t)) (x - u x t * t) :=
    continuousAt_dslope_same.mpr (hf _).differentiableAt
  -- slopes
  have d1 : ContinuousAt (fun y => dslope f (x - u x t * t) (y - u y t * t)) x := by
    have : ContinuousAt (fun y => y - u y t * t) x := by fun_prop
    exact ContinuousAt.comp (f := fun y => y - u y t * t) (g := dslope f (x - u x t * t)) hd this
  have d2 : ContinuousAt (fun s => dslope f (x - u x t * t) (x - u x s * s)) t := by
    have : ContinuousAt (fun s => x - u x s * s) t := by fun_prop
    exact ContinuousAt.comp (f := fun s => x - u x s * s) (g := dslope f (x - u x t * t)) hd this
  have m1 : ∀ z, |dslope f (x - u x t * t) z| ≤ L := fun z => abs_dslope_le f f' hf L hL _ _
  have r1 := hasDerivAt_of_increment (fun y => u y t)
    (fun y => dslope f (x - u x t * t) (y - u y t * t) /
      (1 + dslope f (x - u x t * t) (y - u y t * t) * t)) x (by
      filter_upwards [hux] with y hy
      have e1 := dslope_mul f (x - u x t * t) (y - u y t * t)
      have hne := hden _ (m1 (y - u y t * t))
      set m := dslope f (x - u x t * t) (y - u y t * t) with hm
      rw [div_mul_eq_mul_div, eq_div_iff hne]
      have : u y t - u x t = m * (y - u y t * t - (x - u x t * t)) := by rw [← e1]; linarith
      linear_combination this)
    (d1.div (continuousAt_const.add (d1.mul continuousAt_const)) (hden _ (m1 _)))
  have r2 := hasDerivAt_of_increment (fun s => u x s)
    (fun s => -(dslope f (x - u x t * t) (x - u x s * s) * u x s) /
      (1 + dslope f (x - u x t * t) (x - u x s * s) * t)) t (by
      filter_upwards [hut] with s hs
      have e1 := dslope_mul f (x - u x t * t) (x - u x s * s)
      have hne := hden _ (m1 (x - u x s * s))
      set m := dslope f (x - u x t * t) (x - u x s * s) with hm
      rw [div_mul_eq_mul_div, eq_div_iff hne]
      have : u x s - u x t = m * (x - u x s * s - (x - u x t * t)) := by rw [← e1]; linarith
      linear_combination this)
    ((d2.mul c2).neg.div (continuousAt_const.add (d2.mul continuousAt_const)) (hden _ (m1 _)))
  refine ⟨_, _, r1, r2, ?_⟩
  ring

/-- Increments of the sine. -/
theorem abs_sin_sub_lt (a b : ℝ) (hab : a ≠ b) : |Real.sin a - Real.sin b| < |a - b| := by
  rw [Real.sin_sub_sin, abs_mul, abs_mul, abs_two]
  have h1 : |Real.sin ((a - b) / 2)| < |(a - b) / 2| := by
    have hne : (a - b) / 2 ≠ 0 := div_ne_zero (sub_ne_zero.mpr hab) two_ne_zero
    exact Real.abs_sin_lt_abs hne
  have h2 := Real.abs_cos_le_one ((a + b) / 2)
  have h3 : |(a - b) / 2| = |a - b| / 2 := by rw [abs_div, abs_two]
  rw [h3] at h1
  nlinarith [abs_nonneg (Real.sin ((a - b) / 2)), abs_nonneg (Real.cos ((a + b) / 2))]

end Verif.Bench
