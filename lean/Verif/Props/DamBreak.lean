import Verif.Core.Benchmark
import Mathlib.Analysis.Calculus.Deriv.Add
import Mathlib.Analysis.Calculus.Deriv.Inv
import Mathlib.Analysis.Calculus.Deriv.Pow
import Mathlib.Analysis.Calculus.Deriv.Mul
import Mathlib.Topology.Order.IntermediateValue
import Mathlib.Topology.Order.Lattice
import Mathlib.Tactic.LinearCombination

/-!
Property C72: the exact solution of the dam break benchmark.
-/

set_option linter.unusedSectionVars false

namespace Verif.Bench

open Verif.Py Filter Topology
open Verif.Mesh hiding Error

/-! ### Specification -/

/-- What is supposed of `newton`: a value that is returned is a root. -/
def ReturnsRoot (newton : (ℝ → ℝ) → ℝ → Except Error ℝ) : Prop :=
  ∀ f x₀ r, newton f x₀ = .ok r → f r = 0

/-- A dam break benchmark with positive gravity and heights whose middle wave speed lies between the
other two. -/
structure Built (hLeft hRight xDam g : ℝ) (b : DamBreak) : Prop where
  gravity : 0 < g
  wet : 0 < hRight
  made : ∃ newton, ReturnsRoot newton ∧ DamBreak.make newton hLeft hRight xDam g = .ok b
  left : b.cMid < b.cLeft
  right : b.cRight < b.cMid

/-- Height and discharge of the exact solution. -/
noncomputable def height (b : DamBreak) (x t : ℝ) : ℝ :=
  match b.exact x t with
  | .ok v => v.1
  | .error _ => 0

noncomputable def discharge (b : DamBreak) (x t : ℝ) : ℝ :=
  match b.exact x t with
  | .ok v => v.2
  | .error _ => 0

/-- The ends of the rarefaction wave and the shock. -/
noncomputable def xA (b : DamBreak) (t : ℝ) : ℝ := b.xDam - t * b.cLeft
noncomputable def xB (b : DamBreak) (t : ℝ) : ℝ := b.xDam + t * (2 * b.cLeft - 3 * b.cMid)
noncomputable def xC (b : DamBreak) (t : ℝ) : ℝ := b.xDam + b.v * t

/-! ### The polynomial -/

theorem damPolynomial_eq (a b c : ℝ) : damPolynomial a b c =
    (c ^ 2 - b ^ 2) ^ 2 * (c ^ 2 + b ^ 2) - 8 * c ^ 2 * b ^ 2 * (a - c) ^ 2 := by
  unfold damPolynomial; ring

/-- C72.  There is exactly one root between the wave speeds of both sides. -/
theorem C72_dam_root (a b : ℝ) (hb : 0 < b) (hab : b < a) :
    ∃! c, (b < c ∧ c < a) ∧ damPolynomial a b c = 0 := by
  have hc : ContinuousOn (damPolynomial a b) (Set.Icc b a) := by
    unfold damPolynomial; fun_prop
  have e1 : damPolynomial a b b < 0 := by
    rw [damPolynomial_eq]
    have : 0 < (a - b) ^ 2 := by have : 0 < a - b := by linarith
                                 positivity
    have : 0 < 8 * b ^ 2 * b ^ 2 * (a - b) ^ 2 := by positivity
    nlinarith
  have e2 : 0 < damPolynomial a b a := by
    rw [damPolynomial_eq]
    have h1 : 0 < a ^ 2 - b ^ 2 := by nlinarith
    have h2 : 0 < a ^ 2 + b ^ 2 := by positivity
    have : 0 < (a ^ 2 - b ^ 2) ^ 2 * (a ^ 2 + b ^ 2) := by positivity
    simpa using this
  obtain ⟨c, ⟨h1, h2⟩, h3⟩ := intermediate_value_Icc hab.le hc ⟨e1.le, e2.le⟩
  have h1' : b < c := lt_of_le_of_ne h1 (by rintro rfl; linarith)
  have h2' : c < a := lt_of_le_of_ne h2 (by rintro rfl; linarith)
  refine ⟨c, ⟨⟨h1', h2'⟩, h3⟩, ?_⟩
  -- one side of the equation increases, the other one decreases
  have mono : ∀ p q, b < p → p < q → q < a → damPolynomial a b p = 0 → damPolynomial a b q = 0 →
      False := by
    intro p q hp hpq hq r1 r2
    rw [damPolynomial_eq] at r1 r2
    have p0 : 0 < p := hb.trans hp
    have q0 : 0 < q := p0.trans hpq
    have s1 : 0 < p ^ 2 - b ^ 2 := by nlinarith
    -- (p - b²/p) < (q - b²/q)
    have s2 : (p ^ 2 - b ^ 2) * q < (q ^ 2 - b ^ 2) * p := by
      have : (q ^ 2 - b ^ 2) * p - (p ^ 2 - b ^ 2) * q = (q - p) * (p * q + b ^ 2) := by ring
      have : 0 < (q - p) * (p * q + b ^ 2) := mul_pos (by linarith) (by positivity)
      linarith
    have s3 : ((p ^ 2 - b ^ 2) * q) ^ 2 < ((q ^ 2 - b ^ 2) * p) ^ 2 :=
      pow_lt_pow_left₀ s2 (by positivity) two_ne_zero
    have s4 : p ^ 2 + b ^ 2 < q ^ 2 + b ^ 2 := by nlinarith
    have s5 : ((p ^ 2 - b ^ 2) * q) ^ 2 * (p ^ 2 + b ^ 2) <
        ((q ^ 2 - b ^ 2) * p) ^ 2 * (q ^ 2 + b ^ 2) :=
      mul_lt_mul s3 s4.le (by positivity) (by positivity)
    have s6 : (a - q) ^ 2 < (a - p) ^ 2 :=
      pow_lt_pow_left₀ (by linarith) (by linarith) two_ne_zero
    have t1 : ((p ^ 2 - b ^ 2) * q) ^ 2 * (p ^ 2 + b ^ 2) =
        8 * p ^ 2 * q ^ 2 * b ^ 2 * (a - p) ^ 2 := by linear_combination q ^ 2 * r1
    have t2 : ((q ^ 2 - b ^ 2) * p) ^ 2 * (q ^ 2 + b ^ 2) =
        8 * p ^ 2 * q ^ 2 * b ^ 2 * (a - q) ^ 2 := by linear_combination p ^ 2 * r2
    rw [t1, t2] at s5
    have : 0 < 8 * p ^ 2 * q ^ 2 * b ^ 2 := by positivity
    nlinarith
  rintro d ⟨⟨d1, d2⟩, d3⟩
  rcases lt_trichotomy d c with h | h | h
  · exact (mono d c d1 h h2' d3 h3).elim
  · exact h
  · exact (mono c d h1' h d2 h3 d3).elim

/-- C72.  There is another positive root below; a benchmark that is built with it is not the dam break. -/
theorem C72_dam_other_root (a b : ℝ) (hb : 0 < b) (hab : b < a) :
    ∃ c, (0 < c ∧ c < b) ∧ damPolynomial a b c = 0 := by
  have hc : ContinuousOn (damPolynomial a b) (Set.Icc 0 b) := by
    unfold damPolynomial; fun_prop
  have e1 : damPolynomial a b b < 0 := by
    rw [damPolynomial_eq]
    have : 0 < (a - b) ^ 2 := by have : 0 < a - b := by linarith
                                 positivity
    have : 0 < 8 * b ^ 2 * b ^ 2 * (a - b) ^ 2 := by positivity
    nlinarith
  have e2 : 0 < damPolynomial a b 0 := by
    rw [damPolynomial_eq]
    have : 0 < b ^ 6 := by positivity
    nlinarith
  obtain ⟨c, ⟨h1, h2⟩, h3⟩ := intermediate_value_Icc' hb.le hc ⟨e1.le, e2.le⟩
  exact ⟨c, ⟨lt_of_le_of_ne h1 (by rintro rfl; linarith), lt_of_le_of_ne h2 (by rintro rfl; linarith)⟩,
    h3⟩

/-! ### The built benchmark -/

theorem built_facts {hLeft hRight xDam g : ℝ} {b : DamBreak} (h : Built hLeft hRight xDam g b) :
    b.g = g ∧ b.hLeft = hLeft ∧ b.hRight = hRight ∧ b.xDam = xDam ∧ hRight < hLeft ∧
    b.cLeft ^ 2 = g * hLeft ∧ b.cRight ^ 2 = g * hRight ∧ 0 < b.cRight ∧
    damPolynomial b.cLeft b.cRight b.cMid = 0 ∧ g * b.hMid = b.cMid ^ 2 ∧
    b.uMid = 2 * (b.cLeft - b.cMid) ∧ b.v * (b.hMid - b.hRight) = b.hMid * b.uMid := by
  obtain ⟨newton, hN, hm⟩ := h.made
  have hg := h.gravity
  have hw := h.wet
  unfold DamBreak.make at hm
  split at hm
  · rename_i h1
    split at hm
    · rename_i h2
      simp only at hm
      split at hm
      · cases hm
      · rename_i cm hcm
        split at hm
        · cases hm
        · rename_i h3
          push Not at h3
          obtain ⟨h3, h4⟩ := h3
          have hb := Except.ok.inj hm
          subst hb
          refine ⟨rfl, rfl, rfl, rfl, h1, Real.sq_sqrt h2.1, Real.sq_sqrt h2.2,
            Real.sqrt_pos.mpr (mul_pos hg hw), hN _ _ _ hcm, ?_, rfl, ?_⟩
          · simp only
            rw [mul_div_cancel₀ _ h3]
          · simp only
            rw [div_mul_cancel₀ _ h4]
    · cases hm
  · cases hm

theorem mid_between {hLeft hRight xDam g : ℝ} {b : DamBreak} (h : Built hLeft hRight xDam g b) :
    hRight < b.hMid ∧ b.hMid < hLeft := by
  obtain ⟨-, -, -, -, -, k6, k7, k8, -, k10, -, -⟩ := built_facts h
  have hg := h.gravity
  have h1 : b.cRight ^ 2 < b.cMid ^ 2 := pow_lt_pow_left₀ h.right k8.le two_ne_zero
  have h2 : b.cMid ^ 2 < b.cLeft ^ 2 := pow_lt_pow_left₀ h.left (k8.trans h.right).le two_ne_zero
  rw [k7, ← k10] at h1
  rw [k6, ← k10] at h2
  exact ⟨lt_of_mul_lt_mul_left h1 hg.le, lt_of_mul_lt_mul_left h2 hg.le⟩

/-- C72.  The exact solution starts with the initial data. -/
theorem C72_dam_initial (b : DamBreak) (x : ℝ) : b.exact x 0 = .ok (b.initial x) := by
  unfold DamBreak.exact DamBreak.initial
  simp only [zero_mul, sub_zero, add_zero, mul_zero]
  split <;> rfl

/-- C72.  The jump conditions of mass and momentum and the entropy condition hold at the shock. -/
theorem C72_dam_shock {hLeft hRight xDam g : ℝ} {b : DamBreak} (h : Built hLeft hRight xDam g b) :
    b.v * (b.hMid - hRight) = b.hMid * b.uMid ∧
    b.v * (b.hMid * b.uMid) = (b.hMid * b.uMid ^ 2 + g * b.hMid ^ 2 / 2) - g * hRight ^ 2 / 2 ∧
    Real.sqrt (g * hRight) < b.v ∧ b.v < b.uMid + Real.sqrt (g * b.hMid) := by
  obtain ⟨-, -, k3, -, -, k6, k7, k8, k9, k10, k11, k12⟩ := built_facts h
  obtain ⟨m1, m2⟩ := mid_between h
  have hg := h.gravity
  have hw := h.wet
  rw [k3] at k12
  have hcm : 0 < b.cMid := k8.trans h.right
  have hd : 0 < b.hMid - hRight := by linarith
  have hm0 : 0 < b.hMid := hw.trans m1
  have hu : 0 < b.uMid := by rw [k11]; linarith [h.left]
  -- the equation of the polynomial in terms of heights
  have key : 2 * (b.hMid * hRight) * b.uMid ^ 2 = g * (b.hMid - hRight) ^ 2 * (b.hMid + hRight) := by
    rw [damPolynomial_eq, k7, ← k10] at k9
    rw [k11]
    have h3 : g ^ 2 * (2 * (b.hMid * hRight) * (2 * (b.cLeft - b.cMid)) ^ 2) =
        g ^ 2 * (g * (b.hMid - hRight) ^ 2 * (b.hMid + hRight)) := by
      linear_combination -k9
    exact mul_left_cancel₀ (by positivity) h3
  have hv : b.v = b.hMid * b.uMid / (b.hMid - hRight) := by
    rw [eq_div_iff hd.ne']; exact k12
  have hv0 : 0 < b.v := by rw [hv]; positivity
  -- the square of the shock speed
  have hv2 : 2 * hRight * b.v ^ 2 = g * b.hMid * (b.hMid + hRight) := by
    have h1 : (b.hMid - hRight) ^ 2 * (2 * hRight * b.v ^ 2) =
        (b.hMid - hRight) ^ 2 * (g * b.hMid * (b.hMid + hRight)) := by
      have : (b.v * (b.hMid - hRight)) ^ 2 = (b.hMid * b.uMid) ^ 2 := by rw [k12]
      linear_combination 2 * hRight * this + b.hMid * key
    exact mul_left_cancel₀ (by positivity) h1
  refine ⟨k12, ?_, ?_, ?_⟩
  · have h1 : (b.hMid - hRight) * (b.v * (b.hMid * b.uMid)) = (b.hMid - hRight) *
        ((b.hMid * b.uMid ^ 2 + g * b.hMid ^ 2 / 2) - g * hRight ^ 2 / 2) := by
      linear_combination (b.hMid * b.uMid) * k12 + (1 / 2) * key
    exact mul_left_cancel₀ hd.ne' h1
  · rw [← Real.sqrt_sq hv0.le]
    apply Real.sqrt_lt_sqrt (by positivity)
    have : g * hRight * (2 * hRight) < g * b.hMid * (b.hMid + hRight) := by
      have : hRight * (2 * hRight) < b.hMid * (b.hMid + hRight) := by nlinarith
      nlinarith
    rw [← hv2] at this
    nlinarith
  · -- v - u = v * hRight / hMid
    have e1 : (b.v - b.uMid) * b.hMid = b.v * hRight := by linear_combination k12
    have h0 : 0 < b.v - b.uMid := by
      have : 0 < (b.v - b.uMid) * b.hMid := by rw [e1]; positivity
      exact (pos_iff_pos_of_mul_pos this).mpr hm0
    have h1 : (b.v - b.uMid) ^ 2 < g * b.hMid := by
      have e2 : 2 * b.hMid ^ 2 * (b.v - b.uMid) ^ 2 = hRight * (g * b.hMid * (b.hMid + hRight)) := by
        have : ((b.v - b.uMid) * b.hMid) ^ 2 = (b.v * hRight) ^ 2 := by rw [e1]
        linear_combination 2 * this + hRight * hv2
      have e3 : hRight * (g * b.hMid * (b.hMid + hRight)) < 2 * b.hMid ^ 2 * (g * b.hMid) := by
        have : hRight * (b.hMid + hRight) < 2 * b.hMid ^ 2 := by nlinarith
        have : (g * b.hMid) * (hRight * (b.hMid + hRight)) < (g * b.hMid) * (2 * b.hMid ^ 2) :=
          mul_lt_mul_of_pos_left this (by positivity)
        linarith
      rw [← e2] at e3
      exact lt_of_mul_lt_mul_left e3 (by positivity)
    have h2 := Real.sqrt_lt_sqrt (sq_nonneg _) h1
    rw [Real.sqrt_sq h0.le] at h2
    linarith

/-- The waves are ordered. -/
theorem waves_ordered {hLeft hRight xDam g : ℝ} {b : DamBreak} (h : Built hLeft hRight xDam g b)
    (t : ℝ) (ht : 0 < t) : xA b t < xB b t ∧ xB b t < xC b t := by
  obtain ⟨-, -, k3, -, -, -, -, k8, -, -, k11, k12⟩ := built_facts h
  obtain ⟨m1, m2⟩ := mid_between h
  have hw := h.wet
  have hl := h.left
  have hr := h.right
  rw [k3] at k12
  have hd : 0 < b.hMid - hRight := by linarith
  have hu : 0 < b.uMid := by rw [k11]; linarith
  have hv : b.uMid < b.v := by
    have : b.uMid * (b.hMid - hRight) < b.v * (b.hMid - hRight) := by
      rw [k12]; nlinarith
    exact lt_of_mul_lt_mul_right this hd.le
  unfold xA xB xC
  constructor <;> nlinarith

theorem exact_cases {hLeft hRight xDam g : ℝ} {b : DamBreak} (h : Built hLeft hRight xDam g b)
    (x t : ℝ) (ht : 0 < t) :
    (x ≤ xA b t → b.exact x t = .ok (hLeft, 0)) ∧
    (xA b t < x → x ≤ xB b t → b.exact x t = .ok
      (4 / (9 * g) * (b.cLeft - (x - b.xDam) / (2 * t)) ^ 2,
        4 / (9 * g) * (b.cLeft - (x - b.xDam) / (2 * t)) ^ 2 *
          (2 / 3 * ((x - b.xDam) / t + b.cLeft)))) ∧
    (xB b t < x → x ≤ xC b t → b.exact x t = .ok (b.hMid, b.hMid * b.uMid)) ∧
    (xC b t < x → b.exact x t = .ok (hRight, 0)) := by
  obtain ⟨k1, k2, k3, -⟩ := built_facts h
  obtain ⟨o1, o2⟩ := waves_ordered h t ht
  unfold xA xB xC at *
  unfold DamBreak.exact
  simp only [k1, k2, k3]
  refine ⟨fun a => ?_, fun a c => ?_, fun a c => ?_, fun a => ?_⟩
  · rw [if_pos a]
  · rw [if_neg (not_le.mpr a), if_pos c, if_neg ht.ne']
  · rw [if_neg (not_le.mpr (o1.trans a)), if_neg (not_le.mpr a), if_pos c]
  · rw [if_neg (not_le.mpr (o1.trans (o2.trans a))), if_neg (not_le.mpr (o2.trans a)),
      if_neg (not_le.mpr a)]

/-- C72.  The exact solution is defined everywhere, and its height stays between both initial heights. -/
theorem C72_dam_range {hLeft hRight xDam g : ℝ} {b : DamBreak} (h : Built hLeft hRight xDam g b)
    (x t : ℝ) (ht : 0 ≤ t) : ∃ v, b.exact x t = .ok v ∧ hRight ≤ v.1 ∧ v.1 ≤ hLeft := by
  obtain ⟨k1, k2, k3, -, k5, k6, -, k8, -, k10, -, -⟩ := built_facts h
  obtain ⟨m1, m2⟩ := mid_between h
  have hg := h.gravity
  rcases ht.eq_or_lt with rfl | ht
  · refine ⟨_, C72_dam_initial b x, ?_⟩
    unfold DamBreak.initial
    simp only [k2, k3]
    split <;> constructor <;> linarith
  · obtain ⟨c1, c2, c3, c4⟩ := exact_cases h x t ht
    rcases le_or_gt x (xA b t) with a | a
    · exact ⟨_, c1 a, k5.le, le_rfl⟩
    rcases le_or_gt x (xB b t) with c | c
    · refine ⟨_, c2 a c, ?_⟩
      simp only
      set y := b.cLeft - (x - b.xDam) / (2 * t) with hy
      have y1 : y ≤ 3 / 2 * b.cLeft := by
        have : -b.cLeft / 2 ≤ (x - b.xDam) / (2 * t) := by
          rw [le_div_iff₀ (by positivity)]
          unfold xA at a
          nlinarith
        rw [hy]; linarith
      have y2 : 3 / 2 * b.cMid ≤ y := by
        have : (x - b.xDam) / (2 * t) ≤ (2 * b.cLeft - 3 * b.cMid) / 2 := by
          rw [div_le_iff₀ (by positivity)]
          unfold xB at c
          nlinarith
        rw [hy]; linarith
      have hcm : 0 < b.cMid := k8.trans h.right
      have s1 : (3 / 2 * b.cMid) ^ 2 ≤ y ^ 2 := pow_le_pow_left₀ (by positivity) y2 2
      have s2 : y ^ 2 ≤ (3 / 2 * b.cLeft) ^ 2 := pow_le_pow_left₀ (by linarith) y1 2
      rw [div_mul_eq_mul_div, le_div_iff₀ (by positivity), div_le_iff₀ (by positivity)]
      constructor <;> nlinarith
    rcases le_or_gt x (xC b t) with d | d
    · exact ⟨_, c3 c d, m1.le, m2.le⟩
    · exact ⟨_, c4 d, le_rfl, k5.le⟩

/-- C72.  Up to the shock the exact solution is continuous. -/
theorem C72_dam_continuous {hLeft hRight xDam g : ℝ} {b : DamBreak}
    (h : Built hLeft hRight xDam g b) (t : ℝ) (ht : 0 < t) :
    ContinuousOn (fun x => height b x t) (Set.Iic (xC b t)) ∧
    ContinuousOn (fun x => discharge b x t) (Set.Iic (xC b t)) := by
  obtain ⟨k1, k2, k3, -, k5, k6, -, k8, -, k10, k11, -⟩ := built_facts h
  obtain ⟨o1, o2⟩ := waves_ordered h t ht
  have hg := h.gravity
  -- the similarity variable, cut off at the ends of the rarefaction wave
  set z : ℝ → ℝ := fun x => (max (xA b t) (min x (xB b t)) - b.xDam) / t with hz
  have hzc : Continuous z := by
    rw [hz]
    exact ((continuous_const.max (continuous_id.min continuous_const)).sub continuous_const).div_const _
  have e : ∀ x ∈ Set.Iic (xC b t), b.exact x t = .ok (4 / (9 * g) * (b.cLeft - z x / 2) ^ 2,
      4 / (9 * g) * (b.cLeft - z x / 2) ^ 2 * (2 / 3 * (z x + b.cLeft))) := by
    intro x hx
    obtain ⟨c1, c2, c3, c4⟩ := exact_cases h x t ht
    rcases le_or_gt x (xA b t) with a | a
    · have : z x = -b.cLeft := by
        simp only [hz]
        rw [min_eq_left (a.trans o1.le), max_eq_left a]
        unfold xA
        field_simp
        ring
      rw [c1 a, this]
      congr 2
      · have : b.cLeft - -b.cLeft / 2 = 3 / 2 * b.cLeft := by ring
        rw [this, mul_pow, k6]
        field_simp
        ring
      · ring
    rcases le_or_gt x (xB b t) with c | c
    · have : z x = (x - b.xDam) / t := by
        simp only [hz]
        rw [min_eq_left c, max_eq_right a.le]
      rw [c2 a c, this, div_div, mul_comm t 2]
    · have : z x = 2 * b.cLeft - 3 * b.cMid := by
        simp only [hz]
        rw [min_eq_right c.le, max_eq_right o1.le]
        unfold xB
        field_simp
        ring
      rw [c3 c hx, this]
      have e1 : 4 / (9 * g) * (b.cLeft - (2 * b.cLeft - 3 * b.cMid) / 2) ^ 2 = b.hMid := by
        have : b.cLeft - (2 * b.cLeft - 3 * b.cMid) / 2 = 3 / 2 * b.cMid := by ring
        rw [this, mul_pow, ← k10]
        field_simp
        norm_num
      rw [e1, k11]
      congr 2
      ring
  constructor
  · refine ContinuousOn.congr (f := fun x => 4 / (9 * g) * (b.cLeft - z x / 2) ^ 2)
      (by fun_prop) fun x hx => ?_
    simp only [height, e x hx]
  · refine ContinuousOn.congr (f := fun x => 4 / (9 * g) * (b.cLeft - z x / 2) ^ 2 *
      (2 / 3 * (z x + b.cLeft))) (by fun_prop) fun x hx => ?_
    simp only [discharge, e x hx]

/-- The shallow water equations at a point. -/
def SolvesAt (g : ℝ) (H Q : ℝ → ℝ → ℝ) (x t : ℝ) : Prop :=
  ∃ ht qx qt fx, HasDerivAt (fun s => H x s) ht t ∧ HasDerivAt (fun y => Q y t) qx x ∧
    HasDerivAt (fun s => Q x s) qt t ∧
    HasDerivAt (fun y => Q y t ^ 2 / H y t + g * H y t ^ 2 / 2) fx x ∧ ht + qx = 0 ∧ qt + fx = 0

theorem solvesAt_const (g : ℝ) (H Q : ℝ → ℝ → ℝ) (x t h q : ℝ)
    (e : ∀ᶠ z : ℝ × ℝ in 𝓝 (x, t), H z.1 z.2 = h ∧ Q z.1 z.2 = q) : SolvesAt g H Q x t := by
  have t1 : Tendsto (fun y : ℝ => (y, t)) (𝓝 x) (𝓝 (x, t)) := (Continuous.prodMk_left t).tendsto x
  have t2 : Tendsto (fun s : ℝ => (x, s)) (𝓝 t) (𝓝 (x, t)) := (Continuous.prodMk_right x).tendsto t
  have e1 := t1.eventually e
  have e2 := t2.eventually e
  refine ⟨0, 0, 0, 0, ?_, ?_, ?_, ?_, by simp, by simp⟩
  · exact (hasDerivAt_const t h).congr_of_eventuallyEq (e2.mono fun s hs => hs.1)
  · exact (hasDerivAt_const x q).congr_of_eventuallyEq (e1.mono fun s hs => hs.2)
  · exact (hasDerivAt_const t q).congr_of_eventuallyEq (e2.mono fun s hs => hs.2)
  · refine (hasDerivAt_const x (q ^ 2 / h + g * h ^ 2 / 2)).congr_of_eventuallyEq
      (e1.mono fun s hs => ?_)
    simp only [hs.1, hs.2]

/-- C72.  Away from the ends of the waves the exact solution solves the shallow water equations. -/
theorem C72_dam_equation {hLeft hRight xDam g : ℝ} {b : DamBreak} (h : Built hLeft hRight xDam g b)
    (x t : ℝ) (ht : 0 < t) (hA : x ≠ xA b t) (hB : x ≠ xB b t) (hC : x ≠ xC b t) :
    SolvesAt g (height b) (discharge b) x t := by
  have hg := h.gravity
  obtain ⟨o1, o2⟩ := waves_ordered h t ht
  have cA : Continuous fun z : ℝ × ℝ => xA b z.2 := by unfold xA; fun_prop
  have cB : Continuous fun z : ℝ × ℝ => xB b z.2 := by unfold xB; fun_prop
  have cC : Continuous fun z : ℝ × ℝ => xC b z.2 := by unfold xC; fun_prop
  have ct : ∀ᶠ z : ℝ × ℝ in 𝓝 (x, t), 0 < z.2 :=
    continuous_snd.continuousAt.eventually (lt_mem_nhds ht)
  have lt_ev : ∀ F G : ℝ × ℝ → ℝ, Continuous F → Continuous G → F (x, t) < G (x, t) →
      ∀ᶠ z in 𝓝 (x, t), F z < G z := fun F G hF hG hlt =>
    (hF.continuousAt.eventually_lt hG.continuousAt hlt)
  rcases lt_or_gt_of_ne hA with a | a
  · refine solvesAt_const g _ _ x t hLeft 0 ?_
    filter_upwards [ct, lt_ev Prod.fst (fun z => xA b z.2) continuous_fst cA a] with z z1 z2
    have := (exact_cases h z.1 z.2 z1).1 z2.le
    simp [height, discharge, this]
  rcases lt_or_gt_of_ne hB with c | c
  · -- inside the rarefaction wave
    have e : ∀ᶠ z : ℝ × ℝ in 𝓝 (x, t),
        height b z.1 z.2 = 4 / (9 * g) * (b.cLeft - (z.1 - b.xDam) / (2 * z.2)) ^ 2 ∧
        discharge b z.1 z.2 = 4 / (9 * g) * (b.cLeft - (z.1 - b.xDam) / (2 * z.2)) ^ 2 *
          (2 / 3 * ((z.1 - b.xDam) / z.2 + b.cLeft)) := by
      filter_upwards [ct, lt_ev (fun z => xA b z.2) Prod.fst cA continuous_fst a,
        lt_ev Prod.fst (fun z => xB b z.2) continuous_fst cB c] with z z1 z2 z3
      have := (exact_cases h z.1 z.2 z1).2.1 z2 z3.le
      simp [height, discharge, this]
    have t1 : Tendsto (fun y : ℝ => (y, t)) (𝓝 x) (𝓝 (x, t)) := (Continuous.prodMk_left t).tendsto x
    have t2 : Tendsto (fun s : ℝ => (x, s)) (𝓝 t) (𝓝 (x, t)) := (Continuous.prodMk_right x).tendsto t
    have e1 := t1.eventually e
    have e2 := t2.eventually e
    have ht0 : t ≠ 0 := ht.ne'
    have h2t : 2 * t ≠ 0 := mul_ne_zero two_ne_zero ht0
    -- the basic quantities
    have dx1 : HasDerivAt (fun y : ℝ => b.cLeft - (y - b.xDam) / (2 * t)) (-(1 / (2 * t))) x :=
      (((hasDerivAt_id x).sub_const _).div_const _).const_sub _
    have dx2 : HasDerivAt (fun y : ℝ => 2 / 3 * ((y - b.xDam) / t + b.cLeft)) (2 / 3 * (1 / t)) x :=
      ((((hasDerivAt_id x).sub_const _).div_const _).add_const _).const_mul _
    have dt1 : HasDerivAt (fun s : ℝ => b.cLeft - (x - b.xDam) / (2 * s))
        (-((0 * (2 * t) - (x - b.xDam) * (2 * 1)) / (2 * t) ^ 2)) t :=
      (((hasDerivAt_const t (x - b.xDam)).div ((hasDerivAt_id t).const_mul 2) h2t)).const_sub _
    have dt2 : HasDerivAt (fun s : ℝ => 2 / 3 * ((x - b.xDam) / s + b.cLeft))
        (2 / 3 * ((0 * t - (x - b.xDam) * 1) / t ^ 2)) t :=
      (((hasDerivAt_const t (x - b.xDam)).div (hasDerivAt_id t) ht0).add_const _).const_mul _
    have hx := (dx1.pow 2).const_mul (4 / (9 * g))
    have htt := (dt1.pow 2).const_mul (4 / (9 * g))
    have hqx := hx.mul dx2
    have hqt := htt.mul dt2
    -- the momentum flux is `h u² + g h² / 2`
    have hfx := ((hx.mul (dx2.pow 2)).add (((hx.pow 2).const_mul g).div_const 2))
    have hpos : ∀ᶠ y in 𝓝 x, b.cLeft - (y - b.xDam) / (2 * t) ≠ 0 := by
      refine dx1.continuousAt.eventually_ne ?_
      obtain ⟨-, -, -, -, -, -, -, k8, -⟩ := built_facts h
      have : (x - b.xDam) / (2 * t) < b.cLeft := by
        rw [div_lt_iff₀ (by positivity)]
        unfold xB at c
        have := h.right
        nlinarith
      intro h0; linarith
    refine ⟨_, _, _, _, htt.congr_of_eventuallyEq (e2.mono fun s hs => hs.1),
      hqx.congr_of_eventuallyEq (e1.mono fun s hs => hs.2),
      hqt.congr_of_eventuallyEq (e2.mono fun s hs => hs.2),
      hfx.congr_of_eventuallyEq ?_, ?_, ?_⟩
    · filter_upwards [e1, hpos] with y hy hy0
      have hne : 4 / (9 * g) * (b.cLeft - (y - b.xDam) / (2 * t)) ^ 2 ≠ 0 :=
        mul_ne_zero (div_ne_zero (by norm_num) (by positivity)) (pow_ne_zero 2 hy0)
      simp only [hy.1, hy.2, Pi.add_apply, Pi.mul_apply, Pi.pow_apply]
      field_simp
    · simp only [Pi.pow_apply, Nat.add_one_sub_one, Nat.cast_ofNat, pow_one,
        show (2 : ℕ) - 1 = 1 from rfl]
      generalize x - b.xDam = r
      field_simp
      ring
    · simp only [Pi.pow_apply, Nat.cast_ofNat, pow_one, show (2 : ℕ) - 1 = 1 from rfl]
      generalize x - b.xDam = r
      field_simp
      ring
  rcases lt_or_gt_of_ne hC with d | d
  · refine solvesAt_const g _ _ x t b.hMid (b.hMid * b.uMid) ?_
    filter_upwards [ct, lt_ev (fun z => xB b z.2) Prod.fst cB continuous_fst c,
      lt_ev Prod.fst (fun z => xC b z.2) continuous_fst cC d] with z z1 z2 z3
    have := (exact_cases h z.1 z.2 z1).2.2.1 z2 z3.le
    simp [height, discharge, this]
  · refine solvesAt_const g _ _ x t hRight 0 ?_
    filter_upwards [ct, lt_ev (fun z => xC b z.2) Prod.fst cC continuous_fst d] with z z1 z2
    have := (exact_cases h z.1 z.2 z1).2.2.2 z2
    simp [height, discharge, this]

/-! ### Non-vacuity -/

/-- For all positive heights there is such a benchmark, for a Newton method that finds the root between
the wave speeds. -/
theorem exists_built (hLeft hRight xDam g : ℝ) (hg : 0 < g) (hr : 0 < hRight) (hl : hRight < hLeft) :
    ∃ b, Built hLeft hRight xDam g b := by
  classical
  have h1 : 0 < Real.sqrt (g * hRight) := Real.sqrt_pos.mpr (mul_pos hg hr)
  have h2 : Real.sqrt (g * hRight) < Real.sqrt (g * hLeft) :=
    Real.sqrt_lt_sqrt (mul_pos hg hr).le (mul_lt_mul_of_pos_left hl hg)
  obtain ⟨c, ⟨⟨c1, c2⟩, c3⟩, -⟩ := C72_dam_root _ _ h1 h2
  have hne : c ^ 2 / g - hRight ≠ 0 := by
    have : Real.sqrt (g * hRight) ^ 2 < c ^ 2 := pow_lt_pow_left₀ c1 h1.le two_ne_zero
    rw [Real.sq_sqrt (mul_pos hg hr).le] at this
    have : hRight < c ^ 2 / g := by rw [lt_div_iff₀ hg]; linarith
    linarith
  have hmake : ∃ b, DamBreak.make (fun f _ => if f c = 0 then .ok c else .error .nonFinite) hLeft hRight
      xDam g = .ok b ∧ b.cMid = c ∧ b.cLeft = Real.sqrt (g * hLeft) ∧
      b.cRight = Real.sqrt (g * hRight) := by
    unfold DamBreak.make
    rw [if_pos hl, if_pos ⟨(mul_pos hg (hr.trans hl)).le, (mul_pos hg hr).le⟩]
    simp only [c3, if_true]
    rw [if_neg (by push Not; exact ⟨hg.ne', hne⟩)]
    exact ⟨_, rfl, rfl, rfl, rfl⟩
  obtain ⟨b, b1, b2, b3, b4⟩ := hmake
  refine ⟨b, hg, hr, ⟨_, ?_, b1⟩, by rw [b2, b3]; exact c2, by rw [b2, b4]; exact c1⟩
  intro f _ r hf
  simp only at hf
  split at hf
  · rename_i h0
    rw [← Except.ok.inj hf]
    exact h0
  · cases hf

end Verif.Bench
