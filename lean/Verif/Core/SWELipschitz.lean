import Verif.Core.SWELemmas
import Mathlib.Tactic.FieldSimp
import Mathlib.Tactic.Ring

/-!
Lipschitz constants of the shallow water fluxes on boxes of states with heights away from zero.
-/

set_option linter.unusedSectionVars false

namespace Verif.SWE

open Verif.Py Verif.FV

variable {K : Type*} [Field K] [LinearOrder K] [IsStrictOrderedRing K]

/-- States with height between `h0` and `H` and discharge at most `Q`. -/
def InBox (h0 H Q : K) (u : State K) : Prop := h0 ≤ u.1 ∧ u.1 ≤ H ∧ |u.2| ≤ Q

/-- The larger of the absolute values of height and discharge. -/
def stateSize (u : State K) : K := max |u.1| |u.2|

theorem stateSize_le (u : State K) (d : K) : stateSize u ≤ d ↔ |u.1| ≤ d ∧ |u.2| ≤ d := max_le_iff

theorem velocity_eq (P : Params K) (u : State K) (h : P.eps ≤ u.1) : velocity P u = u.2 / u.1 := by
  have h0 : 0 < u.1 := P.eps_pos.trans_le h
  unfold velocity
  rw [max_eq_left h]
  field_simp
  ring

theorem velocity_bound (P : Params K) (h0 H Q : K) (he : P.eps ≤ h0) (u : State K)
    (hu : InBox h0 H Q u) : |velocity P u| ≤ Q / h0 := by
  have hp : 0 < h0 := P.eps_pos.trans_le he
  rw [velocity_eq P u (he.trans hu.1), abs_div, abs_of_pos (hp.trans_le hu.1)]
  exact div_le_div₀ ((abs_nonneg _).trans hu.2.2) hu.2.2 hp hu.1

theorem velocity_lipschitz (P : Params K) (h0 H Q : K) (he : P.eps ≤ h0) (u w : State K)
    (hu : InBox h0 H Q u) (hw : InBox h0 H Q w) (d : K) (hd : stateSize (w - u) ≤ d) :
    |velocity P w - velocity P u| ≤ (1 / h0 + Q / h0 ^ 2) * d := by
  have hp : 0 < h0 := P.eps_pos.trans_le he
  have hu1 : 0 < u.1 := hp.trans_le hu.1
  have hw1 : 0 < w.1 := hp.trans_le hw.1
  obtain ⟨d1, d2⟩ := (stateSize_le _ _).mp hd
  have hd0 : 0 ≤ d := (abs_nonneg _).trans d1
  have hQ : 0 ≤ Q := (abs_nonneg _).trans hu.2.2
  rw [velocity_eq P u (he.trans hu.1), velocity_eq P w (he.trans hw.1)]
  have e : w.2 / w.1 - u.2 / u.1 = (w.2 - u.2) / w.1 - u.2 * (w.1 - u.1) / (w.1 * u.1) := by
    field_simp
    ring
  rw [e]
  refine (abs_sub _ _).trans ?_
  rw [add_mul]
  apply add_le_add
  · rw [abs_div, abs_of_pos hw1, one_div_mul_eq_div]
    exact div_le_div₀ hd0 d2 hp hw.1
  · rw [abs_div, abs_mul, abs_of_pos (mul_pos hw1 hu1), div_mul_eq_mul_div]
    refine div_le_div₀ (mul_nonneg hQ hd0) (mul_le_mul hu.2.2 d1 (abs_nonneg _) hQ)
      (by positivity) ?_
    rw [pow_two]
    exact mul_le_mul hw.1 hu.1 hp.le hw1.le

/-- What is needed of the square root. -/
def IsSqrt (rt : K → K) : Prop := ∀ x, 0 ≤ x → 0 ≤ rt x ∧ rt x ^ 2 = x

theorem rt_pos (rt : K → K) (h : IsSqrt rt) (x : K) (hx : 0 < x) : 0 < rt x := by
  obtain ⟨h1, h2⟩ := h x hx.le
  rcases h1.lt_or_eq with h3 | h3
  · exact h3
  · rw [← h3] at h2
    norm_num at h2
    exact absurd h2 hx.ne

theorem rt_mono (rt : K → K) (h : IsSqrt rt) (x y : K) (hx : 0 ≤ x) (hxy : x ≤ y) : rt x ≤ rt y := by
  obtain ⟨h1, h2⟩ := h x hx
  obtain ⟨h3, h4⟩ := h y (hx.trans hxy)
  by_contra hc
  push Not at hc
  nlinarith

theorem rt_lipschitz (rt : K → K) (h : IsSqrt rt) (a x y : K) (ha : 0 < a) (hx : a ≤ x) (hy : a ≤ y) :
    |rt x - rt y| ≤ |x - y| / (2 * rt a) := by
  have pa := rt_pos rt h a ha
  have mx := rt_mono rt h a x ha.le hx
  have my := rt_mono rt h a y ha.le hy
  rw [le_div_iff₀ (by positivity)]
  have e : x - y = (rt x - rt y) * (rt x + rt y) := by
    rw [← (h x (ha.le.trans hx)).2, ← (h y (ha.le.trans hy)).2,
      (h x (ha.le.trans hx)).2, (h y (ha.le.trans hy)).2]
    have e1 := (h x (ha.le.trans hx)).2
    have e2 := (h y (ha.le.trans hy)).2
    linear_combination -e1 + e2
  rw [e, abs_mul, abs_of_pos (by linarith : 0 < rt x + rt y)]
  exact mul_le_mul_of_nonneg_left (by linarith) (abs_nonneg _)

/-- Speed of one side. -/
def speed (P : Params K) (u : State K) : K := |velocity P u| + P.rt (P.g * u.1)

theorem maxSpeed_eq (P : Params K) (u w : State K) : maxSpeed P u w = max (speed P u) (speed P w) := rfl

/-- Lipschitz constant of the speed. -/
def speedLip (P : Params K) (h0 Q : K) : K := 1 / h0 + Q / h0 ^ 2 + P.g / (2 * P.rt (P.g * h0))

/-- Bound of the speed. -/
def speedMax (P : Params K) (h0 H Q : K) : K := Q / h0 + P.rt (P.g * H)

theorem speed_lipschitz (P : Params K) (hrt : IsSqrt P.rt) (hg : 0 < P.g) (h0 H Q : K) (he : P.eps ≤ h0)
    (u w : State K) (hu : InBox h0 H Q u) (hw : InBox h0 H Q w) (d : K) (hd : stateSize (w - u) ≤ d) :
    |speed P w - speed P u| ≤ speedLip P h0 Q * d := by
  have hp : 0 < h0 := P.eps_pos.trans_le he
  obtain ⟨d1, -⟩ := (stateSize_le _ _).mp hd
  have h1 := velocity_lipschitz P h0 H Q he u w hu hw d hd
  have h2 := rt_lipschitz P.rt hrt (P.g * h0) (P.g * w.1) (P.g * u.1) (mul_pos hg hp)
    (mul_le_mul_of_nonneg_left hw.1 hg.le) (mul_le_mul_of_nonneg_left hu.1 hg.le)
  have pr := rt_pos P.rt hrt (P.g * h0) (mul_pos hg hp)
  have h3 : |P.g * w.1 - P.g * u.1| / (2 * P.rt (P.g * h0)) ≤ P.g / (2 * P.rt (P.g * h0)) * d := by
    rw [div_mul_eq_mul_div, ← mul_sub, abs_mul, abs_of_pos hg]
    exact div_le_div_of_nonneg_right (mul_le_mul_of_nonneg_left d1 hg.le) (by positivity)
  unfold speed speedLip
  have h4 := abs_abs_sub_abs_le (velocity P w) (velocity P u)
  have e : |velocity P w| + P.rt (P.g * w.1) - (|velocity P u| + P.rt (P.g * u.1)) =
      (|velocity P w| - |velocity P u|) + (P.rt (P.g * w.1) - P.rt (P.g * u.1)) := by ring
  rw [e, add_mul]
  exact (abs_add_le _ _).trans (add_le_add (h4.trans h1) (h2.trans h3))

theorem speed_bound (P : Params K) (hrt : IsSqrt P.rt) (hg : 0 < P.g) (h0 H Q : K) (he : P.eps ≤ h0)
    (u : State K) (hu : InBox h0 H Q u) : 0 < speed P u ∧ speed P u ≤ speedMax P h0 H Q := by
  have hp : 0 < h0 := P.eps_pos.trans_le he
  have hu1 : 0 < u.1 := hp.trans_le hu.1
  constructor
  · exact add_pos_of_nonneg_of_pos (abs_nonneg _) (rt_pos P.rt hrt _ (mul_pos hg hu1))
  · exact add_le_add (velocity_bound P h0 H Q he u hu)
      (rt_mono P.rt hrt _ _ (mul_pos hg hu1).le (mul_le_mul_of_nonneg_left hu.2.1 hg.le))

theorem maxSpeed_lipschitz (P : Params K) (hrt : IsSqrt P.rt) (hg : 0 < P.g) (h0 H Q : K)
    (he : P.eps ≤ h0) (u v u' v' : State K) (hu : InBox h0 H Q u) (hv : InBox h0 H Q v)
    (hu' : InBox h0 H Q u') (hv' : InBox h0 H Q v') (d : K) (hdu : stateSize (u' - u) ≤ d)
    (hdv : stateSize (v' - v) ≤ d) :
    |maxSpeed P u' v' - maxSpeed P u v| ≤ speedLip P h0 Q * d := by
  rw [maxSpeed_eq, maxSpeed_eq]
  refine (abs_max_sub_max_le_max _ _ _ _).trans (max_le ?_ ?_)
  · exact speed_lipschitz P hrt hg h0 H Q he u u' hu hu' d hdu
  · exact speed_lipschitz P hrt hg h0 H Q he v v' hv hv' d hdv

/-- The flux of the equations away from dry cells. -/
theorem flux_eq (P : Params K) (u : State K) (h : P.eps ≤ u.1) :
    flux P u = .ok (u.2, u.2 * velocity P u + P.g * u.1 ^ 2 / 2) := by
  have h0 : 0 < u.1 := P.eps_pos.trans_le h
  unfold flux
  rw [if_neg (not_lt.mpr h0.le), if_neg (not_lt.mpr h), velocity_eq P u h, pow_two u.2, mul_div_assoc]

/-- Lipschitz constant of the flux of the equations. -/
def fluxLip (P : Params K) (h0 H Q : K) : K :=
  max 1 (Q * (1 / h0 + Q / h0 ^ 2) + Q / h0 + P.g * H)

theorem flux_lipschitz (P : Params K) (hg : 0 < P.g) (h0 H Q : K) (he : P.eps ≤ h0) (u w : State K)
    (hu : InBox h0 H Q u) (hw : InBox h0 H Q w) (d : K) (hd : stateSize (w - u) ≤ d) (fu fw : State K)
    (hfu : flux P u = .ok fu) (hfw : flux P w = .ok fw) :
    stateSize (fw - fu) ≤ fluxLip P h0 H Q * d := by
  have hp : 0 < h0 := P.eps_pos.trans_le he
  obtain ⟨d1, d2⟩ := (stateSize_le _ _).mp hd
  have hd0 : 0 ≤ d := (abs_nonneg _).trans d1
  have hQ : 0 ≤ Q := (abs_nonneg _).trans hu.2.2
  rw [flux_eq P u (he.trans hu.1)] at hfu
  rw [flux_eq P w (he.trans hw.1)] at hfw
  cases hfu
  cases hfw
  rw [stateSize_le]
  constructor
  · calc |w.2 - u.2| ≤ 1 * d := by rw [one_mul]; exact d2
      _ ≤ _ := mul_le_mul_of_nonneg_right (le_max_left _ _) hd0
  · have h1 := velocity_lipschitz P h0 H Q he u w hu hw d hd
    have h2 := velocity_bound P h0 H Q he u hu
    have e : w.2 * velocity P w + P.g * w.1 ^ 2 / 2 - (u.2 * velocity P u + P.g * u.1 ^ 2 / 2) =
        w.2 * (velocity P w - velocity P u) + (w.2 - u.2) * velocity P u +
          P.g * ((w.1 + u.1) / 2) * (w.1 - u.1) := by ring
    have hm : |(w.1 + u.1) / 2| ≤ H := by
      have a1 := hw.1
      have a2 := hu.1
      have a3 := hw.2.1
      have a4 := hu.2.1
      rw [abs_of_nonneg (by linarith)]
      linarith
    have hH : 0 ≤ H := (abs_nonneg _).trans hm
    have t1 : |w.2 * (velocity P w - velocity P u)| ≤ Q * ((1 / h0 + Q / h0 ^ 2) * d) := by
      rw [abs_mul]
      exact mul_le_mul hw.2.2 h1 (abs_nonneg _) hQ
    have t2 : |(w.2 - u.2) * velocity P u| ≤ d * (Q / h0) := by
      rw [abs_mul]
      exact mul_le_mul d2 h2 (abs_nonneg _) hd0
    have t3 : |P.g * ((w.1 + u.1) / 2) * (w.1 - u.1)| ≤ P.g * H * d := by
      rw [abs_mul, abs_mul, abs_of_pos hg]
      exact mul_le_mul (mul_le_mul_of_nonneg_left hm hg.le) d1 (abs_nonneg _) (by positivity)
    show |w.2 * velocity P w + P.g * w.1 ^ 2 / 2 - (u.2 * velocity P u + P.g * u.1 ^ 2 / 2)| ≤ _
    rw [e]
    calc _ ≤ Q * ((1 / h0 + Q / h0 ^ 2) * d) + d * (Q / h0) + P.g * H * d :=
          (abs_add_le _ _).trans (add_le_add ((abs_add_le _ _).trans (add_le_add t1 t2)) t3)
      _ = (Q * (1 / h0 + Q / h0 ^ 2) + Q / h0 + P.g * H) * d := by ring
      _ ≤ _ := mul_le_mul_of_nonneg_right (le_max_right _ _) hd0

theorem stateSize_add (u w : State K) : stateSize (u + w) ≤ stateSize u + stateSize w := by
  rw [stateSize_le]
  exact ⟨(abs_add_le _ _).trans (add_le_add (le_max_left _ _) (le_max_left _ _)),
    (abs_add_le _ _).trans (add_le_add (le_max_right _ _) (le_max_right _ _))⟩

theorem stateSize_smul (c : K) (u : State K) : stateSize (c • u) = |c| * stateSize u := by
  unfold stateSize
  rw [Prod.smul_fst, Prod.smul_snd, smul_eq_mul, smul_eq_mul, abs_mul, abs_mul,
    mul_max_of_nonneg _ _ (abs_nonneg c)]

/-- The local Lax-Friedrichs flux away from dry cells. -/
theorem llf_eq (P : Params K) (hrt : IsSqrt P.rt) (hg : 0 < P.g) (h0 H Q : K) (he : P.eps ≤ h0)
    (u v : State K) (hu : InBox h0 H Q u) (hv : InBox h0 H Q v) (fu fv : State K)
    (hfu : flux P u = .ok fu) (hfv : flux P v = .ok fv) :
    (riemann P).nodeFlux u v =
      .ok ((1 / 2 : K) • (fu + fv) + (maxSpeed P u v / 2) • (u - v)) := by
  have hc : 0 < maxSpeed P u v := by
    rw [maxSpeed_eq]
    exact lt_max_of_lt_left (speed_bound P hrt hg h0 H Q he u hu).1
  have hne : maxSpeed P u v - -maxSpeed P u v ≠ 0 := by
    rw [sub_neg_eq_add]
    positivity
  simp only [Riemann.nodeFlux, Riemann.solve, riemann, hfu, hfv, if_neg hne]
  congr 1
  ext <;> simp only [Prod.fst_add, Prod.snd_add, Prod.fst_sub, Prod.snd_sub, Prod.smul_fst,
    Prod.smul_snd, smul_eq_mul] <;> field_simp <;> ring

/-- Lipschitz constant of the local Lax-Friedrichs flux. -/
def llfLip (P : Params K) (h0 H Q : K) : K :=
  fluxLip P h0 H Q + speedLip P h0 Q * max H (2 * Q) / 2 + speedMax P h0 H Q

theorem llf_lipschitz (P : Params K) (hrt : IsSqrt P.rt) (hg : 0 < P.g) (h0 H Q : K) (he : P.eps ≤ h0)
    (u v u' v' : State K) (hu : InBox h0 H Q u) (hv : InBox h0 H Q v) (hu' : InBox h0 H Q u')
    (hv' : InBox h0 H Q v') (d : K) (hdu : stateSize (u' - u) ≤ d) (hdv : stateSize (v' - v) ≤ d) :
    ∃ f f', (riemann P).nodeFlux u v = .ok f ∧ (riemann P).nodeFlux u' v' = .ok f' ∧
      stateSize (f' - f) ≤ llfLip P h0 H Q * d := by
  have hp : 0 < h0 := P.eps_pos.trans_le he
  have hd0 : 0 ≤ d := (abs_nonneg _).trans ((stateSize_le _ _).mp hdu).1
  have hfu := flux_eq P u (he.trans hu.1)
  have hfv := flux_eq P v (he.trans hv.1)
  have hfu' := flux_eq P u' (he.trans hu'.1)
  have hfv' := flux_eq P v' (he.trans hv'.1)
  have l1 := flux_lipschitz P hg h0 H Q he u u' hu hu' d hdu _ _ hfu hfu'
  have l2 := flux_lipschitz P hg h0 H Q he v v' hv hv' d hdv _ _ hfv hfv'
  refine ⟨_, _, llf_eq P hrt hg h0 H Q he u v hu hv _ _ hfu hfv,
    llf_eq P hrt hg h0 H Q he u' v' hu' hv' _ _ hfu' hfv', ?_⟩
  have l3 := maxSpeed_lipschitz P hrt hg h0 H Q he u v u' v' hu hv hu' hv' d hdu hdv
  have b3 : 0 ≤ maxSpeed P u' v' ∧ maxSpeed P u' v' ≤ speedMax P h0 H Q := by
    rw [maxSpeed_eq]
    obtain ⟨a1, a2⟩ := speed_bound P hrt hg h0 H Q he u' hu'
    exact ⟨a1.le.trans (le_max_left _ _), max_le a2 (speed_bound P hrt hg h0 H Q he v' hv').2⟩
  have b4 : stateSize (u - v) ≤ max H (2 * Q) := by
    rw [stateSize_le]
    constructor
    · refine le_max_of_le_left ?_
      have a1 := hu.1
      have a2 := hu.2.1
      have a3 := hv.1
      have a4 := hv.2.1
      show |u.1 - v.1| ≤ H
      rw [abs_le]
      constructor <;> linarith
    · refine le_max_of_le_right ((abs_sub _ _).trans ?_)
      rw [two_mul]
      exact add_le_add hu.2.2 hv.2.2
  set fu := ((u.2, u.2 * velocity P u + P.g * u.1 ^ 2 / 2) : State K)
  set fv := ((v.2, v.2 * velocity P v + P.g * v.1 ^ 2 / 2) : State K)
  set fu' := ((u'.2, u'.2 * velocity P u' + P.g * u'.1 ^ 2 / 2) : State K)
  set fv' := ((v'.2, v'.2 * velocity P v' + P.g * v'.1 ^ 2 / 2) : State K)
  have e : (1 / 2 : K) • (fu' + fv') + (maxSpeed P u' v' / 2) • (u' - v') -
      ((1 / 2 : K) • (fu + fv) + (maxSpeed P u v / 2) • (u - v)) =
      ((1 / 2 : K) • (fu' - fu) + (1 / 2 : K) • (fv' - fv)) +
        (((maxSpeed P u' v' - maxSpeed P u v) / 2) • (u - v) +
          ((maxSpeed P u' v' / 2) • (u' - u) + (-(maxSpeed P u' v' / 2)) • (v' - v))) := by
    module
  rw [e]
  have s1 : stateSize ((1 / 2 : K) • (fu' - fu)) ≤ fluxLip P h0 H Q * d / 2 := by
    rw [stateSize_smul, abs_of_pos (by norm_num)]; linarith
  have s2 : stateSize ((1 / 2 : K) • (fv' - fv)) ≤ fluxLip P h0 H Q * d / 2 := by
    rw [stateSize_smul, abs_of_pos (by norm_num)]; linarith
  have s3 : stateSize (((maxSpeed P u' v' - maxSpeed P u v) / 2) • (u - v)) ≤
      speedLip P h0 Q * d / 2 * max H (2 * Q) := by
    rw [stateSize_smul, abs_div, abs_of_pos (by norm_num : (0 : K) < 2)]
    refine mul_le_mul (by linarith) b4 (le_max_of_le_left (abs_nonneg _)) ?_
    have := (abs_nonneg _).trans l3
    linarith
  have s4 : stateSize ((maxSpeed P u' v' / 2) • (u' - u)) ≤ speedMax P h0 H Q / 2 * d := by
    rw [stateSize_smul, abs_of_nonneg (by linarith [b3.1])]
    exact mul_le_mul (by linarith [b3.2]) hdu (le_max_of_le_left (abs_nonneg _)) (by linarith [b3.1, b3.2])
  have s5 : stateSize ((-(maxSpeed P u' v' / 2)) • (v' - v)) ≤ speedMax P h0 H Q / 2 * d := by
    rw [stateSize_smul, abs_neg, abs_of_nonneg (by linarith [b3.1])]
    exact mul_le_mul (by linarith [b3.2]) hdv (le_max_of_le_left (abs_nonneg _)) (by linarith [b3.1, b3.2])
  refine (stateSize_add _ _).trans ?_
  have t1 := (stateSize_add ((1 / 2 : K) • (fu' - fu)) ((1 / 2 : K) • (fv' - fv))).trans (add_le_add s1 s2)
  have t2 := (stateSize_add ((maxSpeed P u' v' / 2) • (u' - u))
    ((-(maxSpeed P u' v' / 2)) • (v' - v))).trans (add_le_add s4 s5)
  have t3 := (stateSize_add (((maxSpeed P u' v' - maxSpeed P u v) / 2) • (u - v)) _).trans
    (add_le_add s3 t2)
  refine (add_le_add t1 t3).trans (le_of_eq ?_)
  unfold llfLip
  ring

end Verif.SWE
