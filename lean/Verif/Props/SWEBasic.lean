import Verif.Core.SWELemmas
import Mathlib.Analysis.Calculus.Deriv.Inv
import Mathlib.Analysis.Calculus.Deriv.Pow
import Mathlib.Analysis.Calculus.Deriv.Mul
import Mathlib.Analysis.Calculus.Deriv.Add
import Mathlib.Tactic.NormNum.RealSqrt

/-!
Properties C38, C39, C40, C46 (shuffle condition), C47 and C51: velocity, flux, wave speeds, energy
stable flux, diffusion matrix and flux Jacobian of the shallow water equations.
-/

set_option linter.unusedSectionVars false

namespace Verif.SWE

open Verif.Py Verif.Boundary Verif.FV Verif.ODE

variable {K : Type*} [Field K] [LinearOrder K] [IsStrictOrderedRing K]

/-- Parameters used in examples: `g = 1` and a square root that is exact on `0, 1/4, 1, 9/4, 4, 9, 16`
and positive on all positive numbers. -/
def exampleParams : Params ℚ where
  g := 1
  eps := 1 / 1000
  eps_pos := by norm_num
  rt := fun x => if x = 0 then 0 else if x = 1 / 4 then 1 / 2 else if x = 1 then 1
    else if x = 9 / 4 then 3 / 2 else if x = 4 then 2 else if x = 9 then 3
    else if x = 16 then 4 else if 0 ≤ x then x + 1 else 0

theorem exampleParams_good : exampleParams.Good := by
  refine ⟨by norm_num [exampleParams], ?_, ?_⟩
  · intro x hx
    simp only [exampleParams]
    split_ifs <;> linarith
  · intro x hx
    simp only [exampleParams]
    split_ifs <;> linarith

/-! ### C38 -/

/-- C38.  `nullify` makes dry cells (height at most `eps`) zero, sets discharges of absolute value at most `eps` to zero
in the other ones, and changes nothing else; a second application changes nothing. -/
theorem C38_nullify (P : Params K) (h q : K) :
    (h ≤ P.eps → nullify P (h, q) = (0, 0)) ∧ (P.eps < h → |q| ≤ P.eps → nullify P (h, q) = (h, 0)) ∧
    (P.eps < h → P.eps < |q| → nullify P (h, q) = (h, q)) ∧ nullify P (nullify P (h, q)) = nullify P (h, q) := by
  have hp := P.eps_pos
  have h1 : h ≤ P.eps → nullify P (h, q) = (0, 0) := fun hh => by simp [nullify, not_lt.2 hh]
  have h2 : P.eps < h → |q| ≤ P.eps → nullify P (h, q) = (h, 0) := fun hh hq => by simp [nullify, hh, not_lt.2 hq]
  have h3 : P.eps < h → P.eps < |q| → nullify P (h, q) = (h, q) := fun hh hq => by simp [nullify, hh, hq]
  refine ⟨h1, h2, h3, ?_⟩
  rcases le_or_gt h P.eps with hh | hh
  · rw [h1 hh]; simp [nullify]
  · rcases le_or_gt |q| P.eps with hq | hq
    · rw [h2 hh hq]; simp [nullify, hh]
    · rw [h3 hh hq, h3 hh hq]

/-- C38.  The velocity is `q / h` for wet cells, `0` for empty ones, never divides by zero, is
bounded by `|q| / h` and by `|q| / eps`, and has the sign of `q`. -/
theorem C38_velocity (P : Params K) (h q : K) (hh : 0 ≤ h) :
    h ^ 2 + max h P.eps ^ 2 ≠ 0 ∧
    (P.eps ≤ h → velocity P (h, q) = q / h) ∧ (h = 0 → velocity P (h, q) = 0) ∧
    |velocity P (h, q)| ≤ |q| / P.eps ∧ (0 < h → |velocity P (h, q)| ≤ |q| / h) ∧
    (0 < h → (0 < velocity P (h, q) ↔ 0 < q) ∧ (velocity P (h, q) < 0 ↔ q < 0)) := by
  have hden := velocity_den_pos P h
  have hm : 0 < max h P.eps := lt_of_lt_of_le P.eps_pos (le_max_right _ _)
  have hmh : h ≤ max h P.eps := le_max_left _ _
  have hme : P.eps ≤ max h P.eps := le_max_right _ _
  have habs : |velocity P (h, q)| = 2 * h / (h ^ 2 + max h P.eps ^ 2) * |q| := by
    simp only [velocity]
    rw [abs_div, abs_mul, abs_of_pos hden, abs_of_nonneg (by linarith : 0 ≤ 2 * h)]
    ring
  refine ⟨hden.ne', velocity_wet P h q, ?_, ?_, ?_, ?_⟩
  · rintro rfl
    simp [velocity]
  · rw [habs, div_eq_mul_one_div |q|, mul_comm]
    apply mul_le_mul_of_nonneg_left _ (abs_nonneg q)
    rw [div_le_div_iff₀ hden P.eps_pos, one_mul]
    have h1 : 2 * h * P.eps ≤ 2 * h * max h P.eps :=
      mul_le_mul_of_nonneg_left hme (by linarith)
    nlinarith [sq_nonneg (h - max h P.eps)]
  · intro hp
    rw [habs, div_eq_mul_one_div |q|, mul_comm]
    apply mul_le_mul_of_nonneg_left _ (abs_nonneg q)
    rw [div_le_div_iff₀ hden hp, one_mul]
    nlinarith [mul_le_mul hmh hmh hh hm.le]
  · intro hp
    have e : velocity P (h, q) = (2 * h / (h ^ 2 + max h P.eps ^ 2)) * q := by
      simp only [velocity]; ring
    have hc : 0 < 2 * h / (h ^ 2 + max h P.eps ^ 2) := by positivity
    rw [e]
    constructor
    · exact mul_pos_iff_of_pos_left hc
    · rw [mul_neg_iff]
      constructor
      · rintro (⟨_, h1⟩ | ⟨h1, _⟩)
        · exact h1
        · exact absurd h1 (not_lt.mpr hc.le)
      · exact fun h1 => Or.inl ⟨hc, h1⟩

/-- Non-vacuity of C38: wet, nearly dry and dry cells. -/
example : velocity exampleParams (2, 3) = 3 / 2 ∧ velocity exampleParams (0, 3) = 0 ∧
    velocity exampleParams (1 / 2000, 1) = 800 := by decide +kernel

/-! ### C39 -/

/-- C39.  The flux of a vector of cells raises exactly if some height is negative; otherwise it is
zero in dry cells and `(q, q²/h + g h²/2)` in wet cells. -/
theorem C39_flux (P : Params K) (v : List (State K)) :
    ((∃ e, v.mapM (flux P) = .error e) ↔ ∃ u ∈ v, u.1 < 0) ∧
    (∀ e, v.mapM (flux P) = .error e → e = .valueError) ∧
    (∀ w, v.mapM (flux P) = .ok w → w.length = v.length ∧
      ∀ i (h1 : i < w.length) (h2 : i < v.length),
        (v[i].1 < P.eps → w[i] = (0, 0)) ∧
        (P.eps ≤ v[i].1 → v[i].1 ≠ 0 ∧
          w[i] = (v[i].2, v[i].2 ^ 2 / v[i].1 + P.g * v[i].1 ^ 2 / 2))) := by
  induction v with
  | nil =>
    refine ⟨⟨?_, ?_⟩, ?_, ?_⟩
    · rintro ⟨e, h⟩; cases h
    · rintro ⟨u, hu, _⟩; cases hu
    · intro e h; cases h
    · intro w h; cases h; simp
  | cons u v ih =>
    obtain ⟨i1, i2, i3⟩ := ih
    simp only [List.mapM_cons]
    by_cases hu : u.1 < 0
    · have hf : flux P u = .error .valueError := if_pos hu
      rw [hf]
      refine ⟨⟨fun _ => ⟨u, List.mem_cons_self, hu⟩, fun _ => ⟨_, rfl⟩⟩, ?_, ?_⟩
      · intro e h; cases h; rfl
      · intro w h; cases h
    · have hf := flux_ok P u (not_lt.mp hu)
      rw [hf]
      cases hv : v.mapM (flux P) with
      | error e =>
        rw [hv] at i1 i2
        refine ⟨⟨fun _ => ?_, fun _ => ⟨_, rfl⟩⟩, ?_, ?_⟩
        · obtain ⟨x, hx, h⟩ := i1.mp ⟨e, rfl⟩
          exact ⟨x, List.mem_cons_of_mem _ hx, h⟩
        · intro e' h; cases h; exact i2 e rfl
        · intro w h; cases h
      | ok w =>
        rw [hv] at i1 i3
        refine ⟨⟨?_, ?_⟩, ?_, ?_⟩
        · rintro ⟨e, h⟩; cases h
        · rintro ⟨x, hx, h⟩
          rcases List.mem_cons.mp hx with rfl | hx
          · exact absurd h hu
          · obtain ⟨e, he⟩ := i1.mpr ⟨x, hx, h⟩; cases he
        · intro e h; cases h
        · intro w' h
          cases h
          obtain ⟨l, k⟩ := i3 w rfl
          refine ⟨by simp [l], ?_⟩
          intro i h1 h2
          cases i with
          | zero =>
            simp only [List.getElem_cons_zero, fluxOf, massFlux, momentumFlux]
            constructor
            · intro h; simp [h]
            · intro h
              exact ⟨(lt_of_lt_of_le P.eps_pos h).ne', by simp [not_lt.mpr h]⟩
          | succ i =>
            simpa using k i (by simpa using h1) (by simpa using h2)

/-- Non-vacuity of C39. -/
example : [((2 : ℚ), (1 : ℚ)), (0, 5)].mapM (flux exampleParams) = .ok [(1, 5 / 2), (0, 0)] ∧
    [((2 : ℚ), (1 : ℚ)), (-1, 5)].mapM (flux exampleParams) = .error .valueError := by
  decide +kernel

/-! ### C40 -/

/-- C40.  The two-sided wave speeds enclose zero and the characteristic speeds of both states; the
maximal wave speed bounds `|u| + sqrt (g h)` of both states, is one of these values, and the Riemann
solver uses it with both signs. -/
theorem C40_wave_speeds (P : Params K) (hP : P.Good) (uL uR : State K) (hL : 0 ≤ uL.1)
    (hR : 0 ≤ uR.1) :
    ((waveSpeed P uL uR).1 ≤ 0 ∧ 0 ≤ (waveSpeed P uL uR).2 ∧
      ∀ u, u = uL ∨ u = uR →
        (waveSpeed P uL uR).1 ≤ velocity P u - P.rt (P.g * u.1) ∧
        velocity P u + P.rt (P.g * u.1) ≤ (waveSpeed P uL uR).2) ∧
    ((∀ u, u = uL ∨ u = uR → |velocity P u| + P.rt (P.g * u.1) ≤ maxSpeed P uL uR) ∧
      (∃ u, (u = uL ∨ u = uR) ∧ maxSpeed P uL uR = |velocity P u| + P.rt (P.g * u.1)) ∧
      (riemann P).waveSpeed uL uR = .ok (-maxSpeed P uL uR, maxSpeed P uL uR) ∧
      0 ≤ maxSpeed P uL uR ∧ (0 < uL.1 ∨ 0 < uR.1 → 0 < maxSpeed P uL uR)) ∧
    (-maxSpeed P uL uR ≤ (waveSpeed P uL uR).1 ∧ (waveSpeed P uL uR).2 ≤ maxSpeed P uL uR) := by
  have cL := hP.rt_nonneg _ (mul_nonneg hP.g_pos.le hL)
  have cR := hP.rt_nonneg _ (mul_nonneg hP.g_pos.le hR)
  refine ⟨⟨min_le_right _ _, le_max_right _ _, ?_⟩, ⟨?_, ?_, rfl, maxSpeed_nonneg P hP uL uR hL,
    maxSpeed_pos P hP uL uR⟩, ?_, ?_⟩
  · rintro u (rfl | rfl)
    · rw [sub_eq_add_neg]
      exact ⟨(min_le_left _ _).trans (min_le_left _ _), (le_max_left _ _).trans (le_max_left _ _)⟩
    · rw [sub_eq_add_neg]
      exact ⟨(min_le_left _ _).trans (min_le_right _ _),
        (le_max_right _ _).trans (le_max_left _ _)⟩
  · rintro u (rfl | rfl)
    · exact le_max_left _ _
    · exact le_max_right _ _
  · rcases le_total (|velocity P uL| + P.rt (P.g * uL.1)) (|velocity P uR| + P.rt (P.g * uR.1))
      with h | h
    · exact ⟨uR, Or.inr rfl, max_eq_right h⟩
    · exact ⟨uL, Or.inl rfl, max_eq_left h⟩
  · have h1 : |velocity P uL| + P.rt (P.g * uL.1) ≤ maxSpeed P uL uR := le_max_left _ _
    have h2 : |velocity P uR| + P.rt (P.g * uR.1) ≤ maxSpeed P uL uR := le_max_right _ _
    have a1 := neg_abs_le (velocity P uL)
    have a2 := neg_abs_le (velocity P uR)
    have b1 := abs_nonneg (velocity P uL)
    exact le_min (le_min (by linarith) (by linarith)) (by linarith)
  · have h1 : |velocity P uL| + P.rt (P.g * uL.1) ≤ maxSpeed P uL uR := le_max_left _ _
    have h2 : |velocity P uR| + P.rt (P.g * uR.1) ≤ maxSpeed P uL uR := le_max_right _ _
    have a1 := le_abs_self (velocity P uL)
    have a2 := le_abs_self (velocity P uR)
    have b1 := abs_nonneg (velocity P uL)
    exact max_le (max_le (by linarith) (by linarith)) (by linarith)

/-- The matrix of partial derivatives of the shallow water flux `(q, q²/h + g h²/2)`. -/
def trueJacobian (g : K) (u : State K) : (K × K) × (K × K) :=
  ((0, 1), (g * u.1 - (u.2 / u.1) ^ 2, 2 * u.2 / u.1))

/-- C40.  At a wet state the numbers `u ± sqrt (g h)` the wave speeds refer to are exactly the
eigenvalues of the Jacobian of the flux. -/
theorem C40_characteristics (P : Params K) (hsq : ∀ x, 0 ≤ x → P.rt x * P.rt x = x) (hg : 0 < P.g)
    (u : State K) (hw : P.eps ≤ u.1) (lam : K) :
    (let J := trueJacobian P.g u
     (J.1.1 - lam) * (J.2.2 - lam) - J.1.2 * J.2.1 = 0) ↔
    lam = velocity P u - P.rt (P.g * u.1) ∨ lam = velocity P u + P.rt (P.g * u.1) := by
  have hpos : 0 < u.1 := lt_of_lt_of_le P.eps_pos hw
  have hv : velocity P u = u.2 / u.1 := velocity_wet P u.1 u.2 hw
  have hs := hsq (P.g * u.1) (mul_pos hg hpos).le
  have e : (0 - lam) * (2 * u.2 / u.1 - lam) - 1 * (P.g * u.1 - (u.2 / u.1) ^ 2) =
      (lam - (u.2 / u.1 - P.rt (P.g * u.1))) * (lam - (u.2 / u.1 + P.rt (P.g * u.1))) := by
    have : (lam - (u.2 / u.1 - P.rt (P.g * u.1))) * (lam - (u.2 / u.1 + P.rt (P.g * u.1))) =
      (lam - u.2 / u.1) ^ 2 - P.rt (P.g * u.1) * P.rt (P.g * u.1) := by ring
    rw [this, hs]
    ring
  simp only [trueJacobian]
  rw [e, hv, mul_eq_zero, sub_eq_zero, sub_eq_zero]

/-- Non-vacuity of C40: real parameters; speeds of two states. -/
example : (realParams 9.812 1e-15 (by norm_num)).Good ∧
    (∀ x, 0 ≤ x → (realParams 9.812 1e-15 (by norm_num)).rt x *
      (realParams 9.812 1e-15 (by norm_num)).rt x = x) :=
  ⟨realParams_good _ _ (by norm_num) _, fun x hx => Real.mul_self_sqrt hx⟩

example : maxSpeed exampleParams (4, 4) (1, -2) = 3 ∧
    waveSpeed exampleParams (4, 4) (1, -2) = (-3, 3) ∧
    waveSpeed exampleParams (1, 2) (1, 3) = (0, 4) := by decide +kernel

/-! ### C51 -/

/-- Partial derivatives of the flux at a state above `eps`. -/
theorem flux_hasDerivAt (g eps : ℝ) (heps : 0 < eps) (h q : ℝ) (hw : eps < h) :
    let P := realParams g eps heps
    HasDerivAt (fun x => (fluxOf P (x, q)).1) (trueJacobian g (h, q)).1.1 h ∧
    HasDerivAt (fun y => (fluxOf P (h, y)).1) (trueJacobian g (h, q)).1.2 q ∧
    HasDerivAt (fun x => (fluxOf P (x, q)).2) (trueJacobian g (h, q)).2.1 h ∧
    HasDerivAt (fun y => (fluxOf P (h, y)).2) (trueJacobian g (h, q)).2.2 q := by
  have hpos : 0 < h := heps.trans hw
  have hnl : ¬ h < eps := not_lt.mpr hw.le
  have hev : ∀ᶠ x in nhds h, ¬ x < eps := by
    filter_upwards [lt_mem_nhds hw] with x hx using not_lt.mpr hx.le
  simp only [trueJacobian, fluxOf, massFlux, momentumFlux, realParams]
  refine ⟨?_, ?_, ?_, ?_⟩
  · refine (hasDerivAt_const h q).congr_of_eventuallyEq ?_
    filter_upwards [hev] with x hx
    simp [hx]
  · refine (hasDerivAt_id q).congr_of_eventuallyEq ?_
    filter_upwards with y
    simp [hnl]
  · have h1 : HasDerivAt (fun x : ℝ => q ^ 2 / x + g * x ^ 2 / 2) (g * h - (q / h) ^ 2) h := by
      have a := ((hasDerivAt_inv hpos.ne').const_mul (q ^ 2)).add
        (((hasDerivAt_pow 2 h).const_mul g).div_const 2)
      have e : q ^ 2 * -(h ^ 2)⁻¹ + g * (((2 : ℕ) : ℝ) * h ^ (2 - 1)) / 2 =
          g * h - (q / h) ^ 2 := by
        rw [div_pow]
        push_cast
        field_simp
        ring
      rw [e] at a
      exact a
    refine h1.congr_of_eventuallyEq ?_
    filter_upwards [hev] with x hx
    simp [hx]
  · have a := ((hasDerivAt_pow 2 q).div_const h).add_const (g * h ^ 2 / 2)
    have e : ((2 : ℕ) : ℝ) * q ^ (2 - 1) / h = 2 * q / h := by simp
    rw [e] at a
    refine a.congr_of_eventuallyEq ?_
    filter_upwards with y
    simp [hnl]

/-- The entry the code returns is a partial derivative of the flux. -/
def IsJacobianAt (P : Params ℝ) (h q : ℝ) (J : (ℝ × ℝ) × (ℝ × ℝ)) : Prop :=
  HasDerivAt (fun x => (fluxOf P (x, q)).1) J.1.1 h ∧
  HasDerivAt (fun y => (fluxOf P (h, y)).1) J.1.2 q ∧
  HasDerivAt (fun x => (fluxOf P (x, q)).2) J.2.1 h ∧
  HasDerivAt (fun y => (fluxOf P (h, y)).2) J.2.2 q

/-- C51 is false of the code: at each wet state but those with `2 q / h = g h - (q / h)²` the
returned matrix is not the Jacobian. -/
theorem C51_counterexample (g eps : ℝ) (heps : 0 < eps) (h q : ℝ) (hw : eps < h)
    (hne : 2 * q / h ≠ g * h - (q / h) ^ 2) :
    ∃ J, fluxJacobian (realParams g eps heps) (h, q) = .ok J ∧
      ¬ IsJacobianAt (realParams g eps heps) h q J := by
  refine ⟨((0, 1), (2 * q / h, -(q / h) ^ 2 + g * h)), ?_, ?_⟩
  · unfold fluxJacobian
    have h1 : ¬ h < 0 := not_lt.mpr (heps.trans hw).le
    have h2 : ¬ h < (realParams g eps heps).eps := not_lt.mpr hw.le
    simp only [h1, h2, if_false]
    rfl
  · rintro ⟨_, _, h3, _⟩
    have h4 := (flux_hasDerivAt g eps heps h q hw).2.2.1
    have := h3.unique h4
    exact hne this

/-- Non-vacuity: the lake at rest with depth 1. -/
example : ∃ J, fluxJacobian (realParams 9.812 1e-15 (by norm_num)) (1, 0) = .ok J ∧
    ¬ IsJacobianAt (realParams 9.812 1e-15 (by norm_num)) 1 0 J :=
  C51_counterexample _ _ _ _ _ (by norm_num) (by norm_num)

/-- C51, partial: negative heights raise, the first row is right, and exchanging the two entries of
the second row gives the Jacobian.  Missing: the second row is in the wrong order. -/
theorem C51_jacobian_partial (g eps : ℝ) (heps : 0 < eps) (h q : ℝ) :
    (h < 0 ↔ fluxJacobian (realParams g eps heps) (h, q) = .error .valueError) ∧
    (eps < h → ∃ J, fluxJacobian (realParams g eps heps) (h, q) = .ok J ∧
      IsJacobianAt (realParams g eps heps) h q (J.1, (J.2.2, J.2.1))) := by
  constructor
  · unfold fluxJacobian
    constructor
    · intro hh; exact if_pos hh
    · intro hh
      by_contra hn
      simp only [hn, if_false] at hh
      split at hh <;> cases hh
  · intro hw
    refine ⟨((0, 1), (2 * q / h, -(q / h) ^ 2 + g * h)), ?_, ?_⟩
    · unfold fluxJacobian
      have h1 : ¬ h < 0 := not_lt.mpr (heps.trans hw).le
      have h2 : ¬ h < (realParams g eps heps).eps := not_lt.mpr hw.le
      simp only [h1, h2, if_false]
      rfl
    · obtain ⟨a, b, c, d⟩ := flux_hasDerivAt g eps heps h q hw
      refine ⟨a, b, ?_, d⟩
      have e : -(q / h) ^ 2 + g * h = (trueJacobian g (h, q)).2.1 := by
        simp only [trueJacobian]; ring
      simp only
      rw [e]
      exact c

/-! ### C46: shuffle condition -/

/-- Inner product of pairs. -/
def dot (a b : State K) : K := a.1 * b.1 + a.2 * b.2

/-- Jump of the entropy variables over a node times the flux minus the jump of the potential. -/
def shuffleDefect (P : Params K) (uL uR : State K) (bL bR : K) (f : State K) : K :=
  dot (entropy P uR bR - entropy P uL bL) f - (potential P uR - potential P uL)

/-- C46 is false of the code: between the states `(1, 0)` and `(3, 3)` the shuffle condition fails. -/
theorem C46_counterexample_shuffle :
    ∃ f, energyStableNode exampleParams (1, 0) (3, 3) = .ok f ∧
      shuffleDefect exampleParams (1, 0) (3, 3) 0 0 f ≠ 0 := by
  refine ⟨(3 / 2, 25 / 8), by decide +kernel, by decide +kernel⟩

/-- C46.  The exact defect of the shuffle condition on flat ground, for all wet states: with heights
`a`, `b`, velocities `x`, `y` and `V` the mean discharge over the mean height it is
`(b - a) (y - x) (2 V (y - x) + g (b - a)) / 8`. -/
theorem C46_shuffle_defect (P : Params K) (a b x y z : K) (ha : P.eps ≤ a) (hb : P.eps ≤ b) :
    ∃ f, energyStableNode P (a, a * x) (b, b * y) = .ok f ∧
      shuffleDefect P (a, a * x) (b, b * y) z z f =
        (b - a) * (y - x) * (2 * ((a * x + b * y) / (a + b)) * (y - x) + P.g * (b - a)) / 8 := by
  have p1 : 0 < a := lt_of_lt_of_le P.eps_pos ha
  have p2 : 0 < b := lt_of_lt_of_le P.eps_pos hb
  have hav : P.eps ≤ average a b := by unfold average; linarith
  have pav : 0 < average a b := lt_of_lt_of_le P.eps_pos hav
  have hx : a * x / a = x := by field_simp
  have hy : b * y / b = y := by field_simp
  refine ⟨_, flux_ok P _ pav.le, ?_⟩
  simp only [shuffleDefect, dot, entropy, potential, fluxOf, massFlux, momentumFlux,
    if_neg (not_lt.mpr hav), velocity_wet P a _ ha, velocity_wet P b _ hb, Prod.fst_sub,
    Prod.snd_sub, hx, hy]
  simp only [average]
  have hs : a + b ≠ 0 := by linarith
  field_simp
  ring

/-- C46.  So Tadmor's shuffle condition holds between two wet states on flat ground exactly if the
heights agree, or the velocities agree, or `2 V (y - x) + g (b - a) = 0`. -/
theorem C46_shuffle_iff (P : Params K) (a b x y z : K) (ha : P.eps ≤ a) (hb : P.eps ≤ b) :
    ∃ f, energyStableNode P (a, a * x) (b, b * y) = .ok f ∧
      (shuffleDefect P (a, a * x) (b, b * y) z z f = 0 ↔
        a = b ∨ x = y ∨ 2 * ((a * x + b * y) / (a + b)) * (y - x) + P.g * (b - a) = 0) := by
  obtain ⟨f, hf, e⟩ := C46_shuffle_defect P a b x y z ha hb
  refine ⟨f, hf, ?_⟩
  rw [e, div_eq_zero_iff, mul_eq_zero, mul_eq_zero, sub_eq_zero, sub_eq_zero (a := y)]
  constructor
  · rintro ((( h | h) | h) | h)
    · exact Or.inl h.symm
    · exact Or.inr (Or.inl h.symm)
    · exact Or.inr (Or.inr h)
    · norm_num at h
  · rintro (h | h | h)
    · exact Or.inl (Or.inl (Or.inl h.symm))
    · exact Or.inl (Or.inl (Or.inr h.symm))
    · exact Or.inl (Or.inr h)

/-- Non-vacuity: equal velocities, different heights. -/
example : ∃ f, energyStableNode exampleParams (1, 1 * 2) (3, 3 * 2) = .ok f ∧
    shuffleDefect exampleParams (1, 1 * 2) (3, 3 * 2) 5 5 f = 0 := by
  obtain ⟨f, h1, h2⟩ := C46_shuffle_iff exampleParams 1 3 2 2 5 (by norm_num [exampleParams])
    (by norm_num [exampleParams])
  exact ⟨f, h1, h2.mpr (Or.inr (Or.inl rfl))⟩

/-! ### C47 -/

theorem diffusion_form (P : Params K) (hP : P.Good) (uL uR d : State K) :
    let avg : State K := (average uL.1 uR.1, average uL.2 uR.2)
    let m := velocity P avg - P.rt (P.g * avg.1)
    let p := velocity P avg + P.rt (P.g * avg.1)
    let k := 1 / 2 * (1 / P.rt (2 * P.g)) ^ 3
    0 < k ∧ diffusion P uL uR d =
      (k * (|m| + |p|) * d.1 + k * (|m| * m + |p| * p) * d.2,
       k * (|m| * m + |p| * p) * d.1 + k * (|m| * m ^ 2 + |p| * p ^ 2) * d.2) ∧
    dot d (diffusion P uL uR d) = k * (|m| * (d.1 + m * d.2) ^ 2 + |p| * (d.1 + p * d.2) ^ 2) := by
  intro avg m p k
  have hr : 0 < P.rt (2 * P.g) := hP.rt_pos _ (by linarith [hP.g_pos])
  have hk : 0 < k := by positivity
  have e : diffusion P uL uR d =
      (k * (|m| + |p|) * d.1 + k * (|m| * m + |p| * p) * d.2,
       k * (|m| * m + |p| * p) * d.1 + k * (|m| * m ^ 2 + |p| * p ^ 2) * d.2) := by
    simp only [diffusion, diffusionMatrix]
    change (_, _) = _
    refine Prod.ext ?_ ?_ <;> simp only [m, p, k, avg] <;> ring
  refine ⟨hk, e, ?_⟩
  rw [e]
  simp only [dot]
  ring

/-- C47.  The diffusion is a symmetric matrix, depending only on the two states, times the given
step of the entropy variables; the quadratic form of the matrix is non-negative, so the product of
diffusion and step is, and it is positive for non-zero steps unless a characteristic speed of the
averaged state vanishes. -/
theorem C47_dissipates (P : Params K) (hP : P.Good) (uL uR : State K) :
    (∃ a b c : K, ∀ d, diffusion P uL uR d = (a * d.1 + b * d.2, b * d.1 + c * d.2)) ∧
    (∀ d : State K, 0 ≤ dot d (diffusion P uL uR d)) ∧
    (∀ d : State K, d ≠ 0 → 0 < average uL.1 uR.1 →
      velocity P (average uL.1 uR.1, average uL.2 uR.2) ≠ P.rt (P.g * average uL.1 uR.1) →
      velocity P (average uL.1 uR.1, average uL.2 uR.2) ≠ -P.rt (P.g * average uL.1 uR.1) →
      0 < dot d (diffusion P uL uR d)) := by
  refine ⟨⟨_, _, _, fun d => (diffusion_form P hP uL uR d).2.1⟩, ?_, ?_⟩
  · intro d
    obtain ⟨hk, _, e⟩ := diffusion_form P hP uL uR d
    rw [e]
    exact mul_nonneg hk.le (by positivity)
  · intro d hd hav h1 h2
    obtain ⟨hk, _, e⟩ := diffusion_form P hP uL uR d
    rw [e]
    apply mul_pos hk
    set v := velocity P (average uL.1 uR.1, average uL.2 uR.2)
    set c := P.rt (P.g * average uL.1 uR.1) with hc
    have hcpos : 0 < c := hP.rt_pos _ (mul_pos hP.g_pos hav)
    have hm : 0 < |v - c| := abs_pos.mpr (sub_ne_zero.mpr h1)
    have hp : 0 < |v + c| := abs_pos.mpr (fun h => h2 (eq_neg_of_add_eq_zero_left h))
    by_contra hn
    have a1 : 0 ≤ |v - c| * (d.1 + (v - c) * d.2) ^ 2 := by positivity
    have a2 : 0 ≤ |v + c| * (d.1 + (v + c) * d.2) ^ 2 := by positivity
    have b1 : |v - c| * (d.1 + (v - c) * d.2) ^ 2 = 0 := by linarith
    have b2 : |v + c| * (d.1 + (v + c) * d.2) ^ 2 = 0 := by linarith
    have c1 : d.1 + (v - c) * d.2 = 0 := by
      rcases mul_eq_zero.mp b1 with h | h
      · exact absurd h hm.ne'
      · exact pow_eq_zero_iff (two_ne_zero) |>.mp h
    have c2 : d.1 + (v + c) * d.2 = 0 := by
      rcases mul_eq_zero.mp b2 with h | h
      · exact absurd h hp.ne'
      · exact pow_eq_zero_iff (two_ne_zero) |>.mp h
    have hd2 : d.2 = 0 := by
      have : 2 * c * d.2 = 0 := by linear_combination c2 - c1
      rcases mul_eq_zero.mp this with h | h
      · exact absurd h (by positivity)
      · exact h
    have hd1 : d.1 = 0 := by rw [hd2] at c1; simpa using c1
    exact hd (Prod.ext hd1 hd2)

/-- C47.  In a lake at rest (no discharge, `h + b` equal on both sides) the entropy variables do not
jump and the diffusion vanishes: the node fluxes are those of the energy stable flux with source. -/
theorem C47_lake_at_rest (P : Params K) (hP : P.Good) (hL hR bL bR : K) (h0 : 0 ≤ hL) (h1 : 0 ≤ hR)
    (hc : hL + bL = hR + bR) :
    ∃ f, energyStableNode P (hL, 0) (hR, 0) = .ok f ∧
      diffusiveNode P (hL, 0) (hR, 0) (bR - bL) (entropy P (hR, 0) bR - entropy P (hL, 0) bL) =
        .ok (-f - source P (hL, 0) (hR, 0) (bR - bL), f - source P (hL, 0) (hR, 0) (bR - bL)) := by
  have hr : P.rt (2 * P.g) ≠ 0 := (hP.rt_pos _ (by linarith [hP.g_pos])).ne'
  have hav : 0 ≤ average hL hR := by unfold average; linarith
  have hd : entropy P (hR, 0) bR - entropy P (hL, 0) bL = 0 := by
    simp only [entropy, velocity_zero, hc, sub_self]
  refine ⟨_, flux_ok P _ hav, ?_⟩
  have hz : diffusion P (hL, 0) (hR, 0) 0 = 0 := by simp [diffusion]
  have hf : energyStableNode P (hL, 0) (hR, 0) = .ok (fluxOf P (average hL hR, average 0 0)) :=
    flux_ok P _ hav
  simp only [diffusiveNode, if_neg hr, hf, hd, hz, sub_zero]

/-- Non-vacuity of C47: a jump from `(1, 0)` to `(9, 10)` with a non-zero diffusion. -/
example : dot (entropy exampleParams (9, 9) 0 - entropy exampleParams (4, 4) 0)
    (diffusion exampleParams (4, 4) (9, 9) (entropy exampleParams (9, 9) 0 -
      entropy exampleParams (4, 4) 0)) ≠ 0 ∧
    entropy exampleParams (4, 0) 3 = entropy exampleParams (5, 0) 2 := by decide +kernel

end Verif.SWE
