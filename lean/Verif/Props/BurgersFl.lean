import Verif.Props.FVFl

/-!
C129: the Lax-Friedrichs scheme for Burgers' equation in floating point arithmetic.
-/

set_option linter.unusedSectionVars false

namespace Verif.FVFl

open Verif.Rounding Verif.FV Verif.ODE Verif.Scalar Verif.Boundary Verif.Py

variable {K : Type*} [Field K] [LinearOrder K] [IsStrictOrderedRing K]

/-! ### Products and quotients with errors in both factors -/

theorem Near.mul₂ {R : Rounding K} {k k' : ℕ} {c a b c' a' b' : K} (h : Near R k c a b) (h' : Near R k' c' a' b') :
    Near R (k + k') (c * c') (a * a') (b * b') := by
  refine ⟨by rw [abs_mul]; exact mul_le_mul h.1 h'.1 (abs_nonneg _) h.nonneg, ?_⟩
  have h1 : |a * a' - b * b'| ≤ |a - b| * |a'| + |b| * |a' - b'| := by
    rw [show a * a' - b * b' = (a - b) * a' + b * (a' - b') by ring, ← abs_mul, ← abs_mul]
    exact abs_add_le _ _
  have p := pow_one_le R k
  have p' := pow_one_le R k'
  have h2 := mul_le_mul h.2 h'.abs_le (abs_nonneg a') (mul_nonneg (by linarith) h.nonneg)
  have h3 := mul_le_mul h.1 h'.2 (abs_nonneg _) h.nonneg
  rw [pow_add]
  nlinarith

/-- The reciprocal of a positive number that has been rounded once. -/
theorem Near.inv (R : Rounding K) (hu : R.u ≤ 1 / 2) {w : K} (hw : 0 < w) :
    Near R 2 (1 / w) (1 / R.fl w) (1 / w) := by
  have h1 := R.near w
  rw [abs_of_pos hw] at h1
  have h0 := R.nonneg
  have h2 := (_root_.abs_le.1 h1).1
  have hfl : 0 < R.fl w := by nlinarith
  have hlow : (1 - R.u) * w ≤ R.fl w := by linarith
  refine ⟨le_of_eq (abs_of_pos (by positivity)), ?_⟩
  rw [div_sub_div _ _ hfl.ne' hw.ne', one_mul, mul_one, abs_div, abs_of_pos (mul_pos hfl hw), div_le_iff₀ (mul_pos hfl hw),
    abs_sub_comm]
  refine h1.trans ?_
  have e : ((1 + R.u) ^ 2 - 1) * (1 / w) * (R.fl w * w) = ((1 + R.u) ^ 2 - 1) * R.fl w := by
    field_simp
  rw [e]
  have h3 : 0 ≤ (1 + R.u) ^ 2 - 1 := by nlinarith
  refine le_trans ?_ (mul_le_mul_of_nonneg_left hlow h3)
  have h4 : 0 ≤ R.u * w := by positivity
  have h5 : ((1 + R.u) ^ 2 - 1) * ((1 - R.u) * w) = R.u * w * ((2 + R.u) * (1 - R.u)) := by ring
  rw [h5]
  have h6 : 1 ≤ (2 + R.u) * (1 - R.u) := by nlinarith
  nlinarith

/-! ### The flux -/

/-- The computed flux of two positive values. -/
theorem burgers_flux_near (R : Rounding K) (hu : R.u ≤ 1 / 2) (x y : K) (hx : 0 < x) (hy : 0 < y) :
    ∃ f, nodeFluxFl R (riemannFl R .burgers) x y = .ok f ∧ Near R 13 (3 * max x y ^ 2) f (lfFlux .burgers x y) := by
  set w := max x y with hw
  have hxw : x ≤ w := le_max_left _ _
  have hyw : y ≤ w := le_max_right _ _
  have w0 : 0 < w := hx.trans_le hxw
  have h2w : w - -w = 2 * w := by ring
  have hd : R.fl (2 * w) ≠ 0 := by
    intro h
    have := R.near (2 * w)
    rw [h, zero_sub, abs_neg, abs_of_pos (by linarith : 0 < 2 * w)] at this
    nlinarith
  refine ⟨R.fl (R.fl (1 / 2 * R.fl (x ^ 2)) - R.fl (-w * R.fl (x - R.fl (R.fl (1 / R.fl (2 * w)) *
    R.fl (R.fl (R.fl (w * y) - R.fl (-w * x)) - R.fl (R.fl (1 / 2 * R.fl (y ^ 2)) - R.fl (1 / 2 * R.fl (x ^ 2)))))))), ?_, ?_⟩
  · unfold nodeFluxFl
    simp only [riemannFl, Problem.riemann, Problem.waveSpeed, Problem.fluxPrime, ← hw, h2w]
    rw [if_neg hd]
  · have flux : ∀ z, 0 < z → z ≤ w → Near R 2 (w ^ 2 / 2) (R.fl (1 / 2 * R.fl (z ^ 2))) (1 / 2 * z ^ 2) := by
      intro z hz hzw
      have := (((Near.refl R (le_refl |z ^ 2|)).fl).mul (1 / 2)).fl
      refine this.mono le_rfl ?_
      rw [abs_of_pos (by norm_num : (0 : K) < 1 / 2), abs_of_nonneg (by positivity : 0 ≤ z ^ 2)]
      nlinarith
    have fx := flux x hx hxw
    have fy := flux y hy hyw
    have a1 : Near R 1 (w ^ 2) (R.fl (w * y)) (w * y) := by
      refine (Near.refl R ?_).fl
      rw [abs_of_pos (by positivity)]
      nlinarith
    have a2 : Near R 1 (w ^ 2) (R.fl (-w * x)) (-w * x) := by
      refine (Near.refl R ?_).fl
      rw [neg_mul, abs_neg, abs_of_pos (by positivity)]
      nlinarith
    have a3 := (a1.sub a2).fl
    have a4 := (fy.sub fx).fl
    have a5 := ((a3.mono (show 2 ≤ 3 by norm_num) le_rfl).sub a4).fl
    have a6 := (Near.inv R hu (show 0 < 2 * w by linarith)).fl
    have a7 := (a6.mul₂ a5).fl
    have ax : Near R 8 w x x := (Near.refl R (by rw [abs_of_pos hx]; exact hxw)).mono (by norm_num) le_rfl
    have a8 := (ax.sub a7).fl
    have a9 := (a8.mul (-w)).fl
    have a10 := ((fx.mono (show 2 ≤ 10 by norm_num) le_rfl).sub a9).fl
    have e : 1 / 2 * x ^ 2 - -w * (x - 1 / (2 * w) * (w * y - -w * x - (1 / 2 * y ^ 2 - 1 / 2 * x ^ 2))) =
        lfFlux .burgers x y := by
      rw [lfFlux_burgers, ← hw]
      field_simp
      ring
    rw [e] at a10
    refine a10.mono (by norm_num) (le_of_eq ?_)
    rw [abs_neg, abs_of_pos w0]
    field_simp
    ring

/-- The flux does not change faster than its arguments. -/
theorem burgers_flux_lipschitz (b x y x' y' d : K) (hx : 0 ≤ x ∧ x ≤ b) (hy : 0 ≤ y ∧ y ≤ b) (hx' : 0 ≤ x' ∧ x' ≤ b)
    (hy' : 0 ≤ y' ∧ y' ≤ b) (h1 : |x - x'| ≤ d) (h2 : |y - y'| ≤ d) :
    |lfFlux .burgers x y - lfFlux .burgers x' y'| ≤ 2 * b * d := by
  have left : ∀ p q z, 0 ≤ p → p ≤ q → q ≤ b → 0 ≤ z → z ≤ b →
      0 ≤ lfFlux .burgers q z - lfFlux .burgers p z ∧
      lfFlux .burgers q z - lfFlux .burgers p z ≤ 3 / 2 * b * (q - p) := by
    intro p q z hp hpq hqb hz hzb
    refine ⟨sub_nonneg.2 (burgers_mono_left p q z hp hz hpq), ?_⟩
    rw [lfFlux_burgers, lfFlux_burgers]
    rcases le_total p z with h1 | h1 <;> rcases le_total q z with h2 | h2
    · rw [max_eq_right h1, max_eq_right h2]; nlinarith
    · rw [max_eq_right h1, max_eq_left h2]
      nlinarith [mul_nonneg (sub_nonneg.2 h1) (sub_nonneg.2 h2), mul_nonneg (sub_nonneg.2 hpq) (sub_nonneg.2 hqb),
        mul_nonneg (sub_nonneg.2 h2) (sub_nonneg.2 hqb), mul_nonneg (sub_nonneg.2 h1) (sub_nonneg.2 hqb),
        mul_nonneg (sub_nonneg.2 h1) (sub_nonneg.2 hzb), mul_nonneg hp (sub_nonneg.2 h1), sq_nonneg (z - p), sq_nonneg (q - z)]
    · have : p = q := le_antisymm hpq (h2.trans h1)
      rw [this]; simp
    · rw [max_eq_left h1, max_eq_left h2]; nlinarith
  have right : ∀ z p q, 0 ≤ p → p ≤ q → q ≤ b → 0 ≤ z → z ≤ b →
      0 ≤ lfFlux .burgers z p - lfFlux .burgers z q ∧
      lfFlux .burgers z p - lfFlux .burgers z q ≤ 1 / 2 * b * (q - p) := by
    intro z p q hp hpq hqb hz hzb
    refine ⟨sub_nonneg.2 (burgers_mono_right z p q hz hp hpq), ?_⟩
    rw [lfFlux_burgers, lfFlux_burgers]
    rcases le_total z p with h1 | h1 <;> rcases le_total z q with h2 | h2
    · rw [max_eq_right h1, max_eq_right h2]
      nlinarith [mul_nonneg (sub_nonneg.2 hpq) (sub_nonneg.2 hqb), mul_nonneg (sub_nonneg.2 hpq) hz,
        mul_nonneg (sub_nonneg.2 hpq) (sub_nonneg.2 hpq)]
    · have : p = q := le_antisymm hpq (h2.trans h1)
      rw [this]; simp
    · rw [max_eq_left h1, max_eq_right h2]
      nlinarith [mul_nonneg (sub_nonneg.2 h1) (sub_nonneg.2 h2), mul_nonneg (sub_nonneg.2 hpq) (sub_nonneg.2 hqb),
        mul_nonneg (sub_nonneg.2 hpq) hz, mul_nonneg (sub_nonneg.2 h2) (sub_nonneg.2 hqb),
        mul_nonneg (sub_nonneg.2 h1) (sub_nonneg.2 hqb), mul_nonneg hp (sub_nonneg.2 h1), mul_nonneg hp (sub_nonneg.2 h2)]
    · rw [max_eq_left h1, max_eq_left h2]
      nlinarith [mul_nonneg (sub_nonneg.2 hpq) (sub_nonneg.2 hzb), mul_nonneg (sub_nonneg.2 hpq) hp]
  have L : |lfFlux .burgers x y - lfFlux .burgers x' y| ≤ 3 / 2 * b * |x - x'| := by
    rcases le_total x x' with h | h
    · have := left x x' y hx.1 h hx'.2 hy.1 hy.2
      rw [abs_sub_comm, abs_of_nonneg this.1, abs_sub_comm, abs_of_nonneg (by linarith)]
      exact this.2
    · have := left x' x y hx'.1 h hx.2 hy.1 hy.2
      rw [abs_of_nonneg this.1, abs_of_nonneg (by linarith)]
      exact this.2
  have Q : |lfFlux .burgers x' y - lfFlux .burgers x' y'| ≤ 1 / 2 * b * |y - y'| := by
    rcases le_total y y' with h | h
    · have := right x' y y' hy.1 h hy'.2 hx'.1 hx'.2
      rw [abs_of_nonneg this.1, abs_sub_comm, abs_of_nonneg (by linarith)]
      exact this.2
    · have := right x' y' y hy'.1 h hy.2 hx'.1 hx'.2
      rw [abs_sub_comm, abs_of_nonneg this.1, abs_of_nonneg (by linarith)]
      exact this.2
  have hb : 0 ≤ b := hx.1.trans hx.2
  have h3 : |lfFlux .burgers x y - lfFlux .burgers x' y'| ≤
      |lfFlux .burgers x y - lfFlux .burgers x' y| + |lfFlux .burgers x' y - lfFlux .burgers x' y'| := by
    simpa using abs_add_le (lfFlux .burgers x y - lfFlux .burgers x' y) (lfFlux .burgers x' y - lfFlux .burgers x' y')
  have h4 := mul_le_mul_of_nonneg_left h1 (show 0 ≤ 3 / 2 * b by positivity)
  have h5 := mul_le_mul_of_nonneg_left h2 (show 0 ≤ 1 / 2 * b by positivity)
  linarith

/-! ### A step of a nonlinear scheme -/

/-- The local error of a step: `(1 + l)^s ((1 + u)^(k + s + 4) - 1) c` for `s` stages, `k` roundings in the right-hand side,
`l` the Lipschitz constant and `c` the size of what is added. -/
def localError (R : Rounding K) (s k : ℕ) (l c : K) : K := (1 + l) ^ s * (((1 + R.u) ^ (k + s + 4) - 1) * c)

theorem update_perturb (R : Rounding K) {n : ℕ} (dt D D' M P : K) (hdt : 0 ≤ dt) (u : Fin n → K) (w : ℕ → K)
    (ks ls : List (Fin n → K)) (k m s : ℕ) (hms : m ≤ s) (hw : ∑ j ∈ Finset.range m, |w j| ≤ 1) (c : Fin n) (hD : 0 ≤ D)
    (hD' : dt * D ≤ D') (hM : |u c| ≤ M) (hP : 0 ≤ P)
    (h : ∀ j < m, |ks.getD j 0 c| ≤ (1 + R.u) ^ k * D ∧
      dt * |ks.getD j 0 c - ls.getD j 0 c| ≤ ((1 + R.u) ^ k - 1) * D' + P) :
    |updateFl R dt u (fun j => R.fl (w j)) ks m c - (u + dt • ((List.range m).map (fun j => w j • ls.getD j 0)).sum) c| ≤
      ((1 + R.u) ^ (k + s + 4) - 1) * (M + D') + P := by
  have pk := pow_one_le R k
  have h1 := update_near R dt ((1 + R.u) ^ k * D) hdt u w ks ks 0 m hw c (by positivity)
    (fun j hj => Near.refl R (h j hj).1)
  have hdD : 0 ≤ dt * D := mul_nonneg hdt hD
  have h2 := (h1.mono (show 0 + m + 4 ≤ s + 4 by omega) (show _ ≤ M + (1 + R.u) ^ k * D' by
    have := mul_le_mul_of_nonneg_left hD' (show 0 ≤ (1 + R.u) ^ k by linarith)
    linarith)).2
  have e : ∀ l : List (Fin n → K), (u + dt • ((List.range m).map (fun j => w j • l.getD j 0)).sum) c =
      u c + dt * ∑ j ∈ Finset.range m, w j * l.getD j 0 c := by
    intro l
    rw [list_sum_range]
    simp
  rw [e] at h2 ⊢
  have hX : 0 ≤ ((1 + R.u) ^ k - 1) * D' + P := by
    have : 0 ≤ ((1 + R.u) ^ k - 1) * D' := mul_nonneg (by linarith) (hdD.trans hD')
    linarith
  have h3 : |(u c + dt * ∑ j ∈ Finset.range m, w j * ks.getD j 0 c) - (u c + dt * ∑ j ∈ Finset.range m, w j * ls.getD j 0 c)| ≤
      ((1 + R.u) ^ k - 1) * D' + P := by
    rw [show (u c + dt * ∑ j ∈ Finset.range m, w j * ks.getD j 0 c) - (u c + dt * ∑ j ∈ Finset.range m, w j * ls.getD j 0 c) =
      ∑ j ∈ Finset.range m, w j * (dt * (ks.getD j 0 c - ls.getD j 0 c)) by
        rw [add_sub_add_left_eq_sub, ← mul_sub, ← Finset.sum_sub_distrib, Finset.mul_sum]
        exact Finset.sum_congr rfl fun j _ => by ring]
    calc _ ≤ ∑ j ∈ Finset.range m, |w j * (dt * (ks.getD j 0 c - ls.getD j 0 c))| := Finset.abs_sum_le_sum_abs _ _
      _ ≤ ∑ j ∈ Finset.range m, |w j| * (((1 + R.u) ^ k - 1) * D' + P) := by
        refine Finset.sum_le_sum fun j hj => ?_
        rw [abs_mul, abs_mul, abs_of_nonneg hdt]
        exact mul_le_mul_of_nonneg_left (h j (Finset.mem_range.1 hj)).2 (abs_nonneg _)
      _ ≤ 1 * (((1 + R.u) ^ k - 1) * D' + P) := by
        rw [← Finset.sum_mul]
        exact mul_le_mul_of_nonneg_right hw hX
      _ = _ := one_mul _
  have h4 := abs_sub_le (updateFl R dt u (fun j => R.fl (w j)) ks m c)
    (u c + dt * ∑ j ∈ Finset.range m, w j * ks.getD j 0 c) (u c + dt * ∑ j ∈ Finset.range m, w j * ls.getD j 0 c)
  refine h4.trans ((add_le_add h2 h3).trans ?_)
  have e2 : (1 + R.u) ^ (k + s + 4) = (1 + R.u) ^ k * (1 + R.u) ^ (s + 4) := by rw [add_assoc, pow_add]
  have hle : (1 + R.u) ^ (s + 4) ≤ (1 + R.u) ^ (k + s + 4) :=
    pow_le_pow_right₀ (by have := R.nonneg; linarith) (by omega)
  have hM0 : 0 ≤ M := (abs_nonneg _).trans hM
  have h5 := mul_le_mul_of_nonneg_right hle hM0
  rw [e2] at h5 ⊢
  nlinarith

theorem stages_perturb (R : Rounding K) {n : ℕ} {ε : Type*} (T : Tableau K)
    (hA : ∀ i < T.size, ∑ j ∈ Finset.range i, |T.A i j| ≤ 1) (f : K → (Fin n → K) → Except ε (Fin n → K))
    (L : K → (Fin n → K) → Fin n → K) (k : ℕ) (a b a' b' D D' M dt Λ l : K) (hdt : 0 ≤ dt) (hD : 0 ≤ D) (hD' : dt * D ≤ D')
    (hΛ : 0 ≤ Λ) (hl : dt * Λ ≤ l)
    (hf : ∀ t t' v, (∀ i, a ≤ v i ∧ v i ≤ b) → ∃ w, f t v = .ok w ∧ ∀ i, Near R k D (w i) (L t' v i))
    (hL : ∀ t v u d, (∀ i, a ≤ v i ∧ v i ≤ b) → (∀ i, a ≤ u i ∧ u i ≤ b) → (∀ i, |v i - u i| ≤ d) →
      ∀ i, |L t v i - L t u i| ≤ Λ * d)
    (ha : a ≤ a' - localError R T.size k l (M + D')) (hb : b' + localError R T.size k l (M + D') ≤ b) (t t' : K)
    (u : Fin n → K) (hM : ∀ i, |u i| ≤ M) (hM0 : 0 ≤ M)
    (hst : ∀ j < T.size, ∀ i, a' ≤ stageValue T dt u (stages T L t' dt u j) j i ∧
      stageValue T dt u (stages T L t' dt u j) j i ≤ b') (m : ℕ) (hm : m ≤ T.size) :
    ∃ ks, stagesFl R (roundTableau R T) f t dt u m = .ok ks ∧ ∀ j < m, ∀ c,
      |ks.getD j 0 c| ≤ (1 + R.u) ^ k * D ∧
      dt * |ks.getD j 0 c - (stages T L t' dt u m).getD j 0 c| ≤ ((1 + R.u) ^ k - 1) * D' +
        l * ((1 + l) ^ j * (((1 + R.u) ^ (k + T.size + 4) - 1) * (M + D'))) := by
  have hl0 : 0 ≤ l := (mul_nonneg hdt hΛ).trans hl
  have hDD : 0 ≤ D' := (mul_nonneg hdt hD).trans hD'
  set ρ := ((1 + R.u) ^ (k + T.size + 4) - 1) * (M + D') with hρ
  have hρ0 : 0 ≤ ρ := by
    have := pow_one_le R (k + T.size + 4)
    exact mul_nonneg (by linarith) (by linarith)
  induction m with
  | zero => exact ⟨[], rfl, fun j hj => by omega⟩
  | succ m ih =>
    obtain ⟨ks, h1, h2⟩ := ih (by omega)
    have hkl := stagesFl_length R _ f t dt u m ks h1
    have hls := stages_length T L t' dt u m
    have hpow : ∀ i j, i ≤ j → (1 + l) ^ i * ρ ≤ (1 + l) ^ j * ρ := fun i j hij =>
      mul_le_mul_of_nonneg_right (pow_le_pow_right₀ (by linarith) hij) hρ0
    have hv : ∀ c, |updateFl R dt u ((roundTableau R T).A m) ks m c - stageValue T dt u (stages T L t' dt u m) m c| ≤
        (1 + l) ^ m * ρ := by
      intro c
      rcases Nat.eq_zero_or_pos m with rfl | hpos
      · have := update_perturb R dt D D' M 0 hdt u (T.A 0) ks (stages T L t' dt u 0) k 0 T.size (by omega) (by simp) c hD hD'
          (hM c) le_rfl (fun j hj => by omega)
        rw [pow_zero, one_mul]
        rw [add_zero] at this
        exact this
      · obtain ⟨q, rfl⟩ : ∃ q, m = q + 1 := ⟨m - 1, by omega⟩
        have := update_perturb R dt D D' M (l * ((1 + l) ^ q * ρ)) hdt u (T.A (q + 1)) ks (stages T L t' dt u (q + 1)) k
          (q + 1) T.size (by omega) (hA _ (by omega)) c hD hD' (hM c) (by positivity) (fun j hj => by
            obtain ⟨g1, g2⟩ := h2 j hj c
            refine ⟨g1, g2.trans ?_⟩
            have := mul_le_mul_of_nonneg_left (hpow j q (by omega)) hl0
            linarith)
        refine le_trans this ?_
        have h5 : 1 * ρ ≤ (1 + l) ^ q * ρ := mul_le_mul_of_nonneg_right (one_le_pow₀ (by linarith)) hρ0
        rw [← hρ, pow_succ]
        nlinarith
    have hle : (1 + l) ^ m * ρ ≤ localError R T.size k l (M + D') := hpow m T.size (by omega)
    have hρm : 0 ≤ (1 + l) ^ m * ρ := mul_nonneg (pow_nonneg (by linarith) _) hρ0
    have hbox : ∀ c, a ≤ updateFl R dt u ((roundTableau R T).A m) ks m c ∧
        updateFl R dt u ((roundTableau R T).A m) ks m c ≤ b := by
      intro c
      have g1 := _root_.abs_le.1 (hv c)
      have g2 := hst m (by omega) c
      constructor <;> linarith [g1.1, g1.2, g2.1, g2.2]
    have hbox' : ∀ c, a ≤ stageValue T dt u (stages T L t' dt u m) m c ∧
        stageValue T dt u (stages T L t' dt u m) m c ≤ b := by
      intro c
      have g2 := hst m (by omega) c
      constructor <;> linarith [g2.1, g2.2]
    obtain ⟨w, hw1, hw2⟩ := hf (timeNodeFl R (roundTableau R T) t dt m) (timeNode T t' dt m) _ hbox
    have hlip := hL (timeNode T t' dt m) _ _ _ hbox hbox' hv
    refine ⟨ks ++ [w], ?_, ?_⟩
    · unfold stagesFl
      simp only [h1, hw1]
    · intro j hj c
      have e : stages T L t' dt u (m + 1) = stages T L t' dt u m ++
          [L (timeNode T t' dt m) (stageValue T dt u (stages T L t' dt u m) m)] := rfl
      rw [e]
      rcases Nat.lt_succ_iff_lt_or_eq.1 hj with hj | rfl
      · rw [List.getD_append _ _ _ _ (by omega), List.getD_append _ _ _ _ (by omega)]
        exact h2 j hj c
      · rw [List.getD_append_right _ _ _ _ (by omega), List.getD_append_right _ _ _ _ (by omega), hkl, hls]
        simp only [Nat.sub_self, List.getD_cons_zero]
        refine ⟨(hw2 c).abs_le, ?_⟩
        have g1 := (hw2 c).2
        have g2 := hlip c
        have g3 := abs_sub_le (w c) (L (timeNode T t' dt j) (updateFl R dt u ((roundTableau R T).A j) ks j) c)
          (L (timeNode T t' dt j) (stageValue T dt u (stages T L t' dt u j) j) c)
        have g4 := mul_le_mul_of_nonneg_left (g3.trans (add_le_add g1 g2)) hdt
        have pk := pow_one_le R k
        have g5 := mul_le_mul_of_nonneg_left hD' (show 0 ≤ (1 + R.u) ^ k - 1 by linarith)
        have g6 := mul_le_mul_of_nonneg_right hl hρm
        nlinarith

/-- A computed step compared with the exact step from the same values. -/
theorem step_perturb (R : Rounding K) {n : ℕ} {ε : Type*} (T : Tableau K) (hsize : 0 < T.size)
    (hA : ∀ i < T.size, ∑ j ∈ Finset.range i, |T.A i j| ≤ 1) (hB : ∑ j ∈ Finset.range T.size, |T.b j| ≤ 1)
    (f : K → (Fin n → K) → Except ε (Fin n → K))
    (L : K → (Fin n → K) → Fin n → K) (k : ℕ) (a b a' b' D D' M dt Λ l : K) (hdt : 0 ≤ dt) (hD : 0 ≤ D) (hD' : dt * D ≤ D')
    (hΛ : 0 ≤ Λ) (hl : dt * Λ ≤ l)
    (hf : ∀ t t' v, (∀ i, a ≤ v i ∧ v i ≤ b) → ∃ w, f t v = .ok w ∧ ∀ i, Near R k D (w i) (L t' v i))
    (hL : ∀ t v u d, (∀ i, a ≤ v i ∧ v i ≤ b) → (∀ i, a ≤ u i ∧ u i ≤ b) → (∀ i, |v i - u i| ≤ d) →
      ∀ i, |L t v i - L t u i| ≤ Λ * d)
    (ha : a ≤ a' - localError R T.size k l (M + D')) (hb : b' + localError R T.size k l (M + D') ≤ b)
    (s r : Solver K (Fin n → K)) (hsr : r.solution = s.solution) (hM : ∀ i, |s.solution i| ≤ M) (hM0 : 0 ≤ M)
    (hst : ∀ j < T.size, ∀ i, a' ≤ stageValue T dt s.solution (stages T L r.time dt s.solution j) j i ∧
      stageValue T dt s.solution (stages T L r.time dt s.solution j) j i ≤ b') :
    ∃ s', executeFl R (roundTableau R T) f s dt = .ok s' ∧ ∀ c,
      |s'.solution c - (r.execute T L dt).solution c| ≤ localError R T.size k l (M + D') := by
  obtain ⟨ks, h1, h2⟩ := stages_perturb R T hA f L k a b a' b' D D' M dt Λ l hdt hD hD' hΛ hl hf hL ha hb s.time r.time
    s.solution hM hM0 hst T.size le_rfl
  refine ⟨_, by unfold executeFl; simp only [show (roundTableau R T).size = T.size from rfl, h1]; rfl, fun c => ?_⟩
  obtain ⟨q, hq⟩ : ∃ q, T.size = q + 1 := ⟨T.size - 1, by omega⟩
  have hl0 : 0 ≤ l := (mul_nonneg hdt hΛ).trans hl
  have hDD : 0 ≤ D' := (mul_nonneg hdt hD).trans hD'
  have hρ0 : 0 ≤ ((1 + R.u) ^ (k + T.size + 4) - 1) * (M + D') := by
    have := pow_one_le R (k + T.size + 4)
    exact mul_nonneg (by linarith) (by linarith)
  unfold localError
  set ρ := ((1 + R.u) ^ (k + T.size + 4) - 1) * (M + D') with hρ
  have := update_perturb R dt D D' M (l * ((1 + l) ^ q * ρ)) hdt s.solution T.b ks (stages T L r.time dt s.solution T.size) k
    T.size T.size le_rfl hB c hD hD' (hM c) (by positivity) (fun j hj => by
      obtain ⟨g1, g2⟩ := h2 j hj c
      refine ⟨g1, g2.trans ?_⟩
      have := mul_le_mul_of_nonneg_left (mul_le_mul_of_nonneg_right
        (pow_le_pow_right₀ (show 1 ≤ 1 + l by linarith) (show j ≤ q by omega)) hρ0) hl0
      linarith)
  have e : (r.execute T L dt).solution c = (s.solution + dt • ((List.range T.size).map (fun j => T.b j •
      (stages T L r.time dt s.solution T.size).getD j 0)).sum) c := by
    simp only [Solver.execute, hsr]
  rw [e]
  refine le_trans this ?_
  have h5 : 1 * ρ ≤ (1 + l) ^ q * ρ := mul_le_mul_of_nonneg_right (one_le_pow₀ (by linarith)) hρ0
  rw [← hρ]
  conv_rhs => rw [hq, pow_succ]
  nlinarith

/-- The stages of the strong stability preserving methods stay where steps of Euler's method stay. -/
theorem ssp_stages {E : Type*} [AddCommGroup E] [Module K E] (f : K → E → E) (dt : K) (S : Set E) (hS : Convex K S)
    (hE : ∀ t, ∀ u ∈ S, u + dt • f t u ∈ S) (T : Tableau K) (hT : T = forwardEuler K ∨ T = heun K ∨ T = ssp3 K) (t : K)
    (u : E) (hu : u ∈ S) (j : ℕ) (hj : j < T.size) : stageValue T dt u (stages T f t dt u j) j ∈ S := by
  rcases hT with rfl | rfl | rfl
  · simp only [forwardEuler] at hj
    interval_cases j
    simpa [stageValue] using hu
  · simp only [heun] at hj
    interval_cases j
    · simpa [stageValue] using hu
    · have := hE (timeNode (heun K) t dt 0) _ hu
      simpa [stageValue, stages, heun, table, List.range_succ] using this
  · simp only [ssp3] at hj
    interval_cases j
    · simpa [stageValue] using hu
    · have := hE (timeNode (ssp3 K) t dt 0) _ hu
      simpa [stageValue, stages, ssp3, table, List.range_succ] using this
    · set k0 := f (timeNode (ssp3 K) t dt 0) u with hk0
      have h1 : u + dt • k0 ∈ S := hE _ _ hu
      set k1 := f (timeNode (ssp3 K) t dt 1) (u + dt • k0) with hk1
      have h2 : (u + dt • k0) + dt • k1 ∈ S := hE _ _ h1
      have h3 := hS hu h2 (a := 3 / 4) (b := 1 / 4) (by norm_num) (by norm_num) (by norm_num)
      have e0 : stageValue (ssp3 K) dt u ([] : List E) 0 = u := by simp [stageValue]
      have e1 : stageValue (ssp3 K) dt u [k0] 1 = u + dt • k0 := by
        simp [stageValue, ssp3, table, List.range_succ]
      have e2 : stages (ssp3 K) f t dt u 2 = [k0, k1] := by
        simp only [stages, List.nil_append, List.cons_append]
        rw [e0, ← hk0, e1, ← hk1]
      rw [e2]
      have e3 : stageValue (ssp3 K) dt u [k0, k1] 2 = (3 / 4 : K) • u + (1 / 4 : K) • ((u + dt • k0) + dt • k1) := by
        simp only [stageValue, ssp3, table, List.range_succ, List.range_zero, List.nil_append,
          List.cons_append, List.map_cons, List.map_nil, List.sum_cons, List.sum_nil,
          List.getD_cons_zero, List.getD_cons_succ]
        module
      rw [e3]
      exact h3

/-! ### The scheme -/

/-- The right-hand side in exact arithmetic. -/
def burgersRhs (dx : K) {n : ℕ} (g : ℕ → Fin n) (u : Fin n → K) : Fin n → K := fun i =>
  (lfFlux .burgers (u (g i)) (u (g (i + 1))) - lfFlux .burgers (u (g (i + 1))) (u (g (i + 2)))) / dx

theorem exact_burgers (n : ℕ) (bc : BC K K) (g : ℕ → Fin n) (hg : Cells bc n g) (dx : K) (hdx : 0 < dx) (m : K) (hm : 0 < m)
    (t : K) (u : Fin n → K) (hu : ∀ i, m ≤ u i) :
    vecRhs n (rhs (laxFriedrichs (Problem.riemann .burgers)) dx bc) t u = .ok (burgersRhs dx g u) := by
  obtain ⟨w, h1, h2⟩ := newCell_eq .burgers n bc g hg dx hdx m 1 (fun _ => hm) t u hu
  rw [h1]
  congr 1
  funext i
  have := congrFun h2 i
  simp only [newCell, eulerCell, Pi.add_apply, one_smul, hg.middle i] at this
  unfold burgersRhs
  rw [hg.middle i, eq_div_iff hdx.ne']
  field_simp at this
  linarith

theorem totalise_burgers (n : ℕ) (bc : BC K K) (g : ℕ → Fin n) (hg : Cells bc n g) (dx : K) (hdx : 0 < dx) (m : K) (hm : 0 < m)
    (t : K) (u : Fin n → K) (hu : ∀ i, m ≤ u i) :
    totalise (vecRhs n (rhs (laxFriedrichs (Problem.riemann .burgers)) dx bc)) t u = burgersRhs dx g u := by
  unfold totalise
  rw [exact_burgers n bc g hg dx hdx m hm t u hu]

/-- The computed right-hand side. -/
theorem burgers_near (R : Rounding K) (hu : R.u ≤ 1 / 2) (n : ℕ) (bc : BC K K) (g : ℕ → Fin n) (hg : Cells bc n g) (dx : K)
    (hdx : 0 < dx) (t a b : K) (ha : 0 < a) (v : Fin n → K) (h : ∀ i, a ≤ v i ∧ v i ≤ b) :
    ∃ w, vecRhs n (rhsFl R (laxFriedrichsFl R (riemannFl R .burgers)) dx bc) t v = .ok w ∧
      ∀ i, Near R 15 (6 * b ^ 2 / dx) (w i) (burgersRhs dx g v i) := by
  have hpos : ∀ i, 0 < v i := fun i => ha.trans_le (h i).1
  have hflux : ∀ j, ∃ f, nodeFluxFl R (riemannFl R .burgers) (v (g j)) (v (g (j + 1))) = .ok f ∧
      Near R 13 (3 * b ^ 2) f (lfFlux .burgers (v (g j)) (v (g (j + 1)))) := by
    intro j
    obtain ⟨f, h1, h2⟩ := burgers_flux_near R hu (v (g j)) (v (g (j + 1))) (hpos _) (hpos _)
    refine ⟨f, h1, h2.mono le_rfl ?_⟩
    have h3 : 0 ≤ max (v (g j)) (v (g (j + 1))) := (hpos _).le.trans (le_max_left _ _)
    have h4 : max (v (g j)) (v (g (j + 1))) ≤ b := max_le (h _).2 (h _).2
    have := pow_le_pow_left₀ h3 h4 2
    linarith
  choose f hf using hflux
  have h1 := rhs_twoPoint (nodeFluxFl R (riemannFl R .burgers)) (1 : K) one_ne_zero bc t (List.ofFn v) _ (hg.extend t v) n
    (by simp) f (by
      intro j hj
      simp only [List.getElem_map, List.getElem_range]
      exact (hf j).1)
  have h3 := rhsFl_of_rhs R (laxFriedrichsFl R (riemannFl R .burgers)) dx hdx.ne' bc t _ _ h1
  rw [List.map_map] at h3
  refine ⟨_, SWE.vecRhs_range _ t v _ h3, fun i => ?_⟩
  simp only [Function.comp]
  have := (((hf i).2.add (hf (i + 1)).2.neg).fl.div hdx).fl
  unfold burgersRhs
  rw [sub_eq_add_neg]
  have e : (1 / 1 : K) • (f i + -f (i + 1)) = f i + -f (i + 1) := by simp
  rw [e]
  refine this.mono le_rfl (le_of_eq ?_)
  ring

theorem burgersRhs_lipschitz {n : ℕ} (g : ℕ → Fin n) (dx : K) (hdx : 0 < dx) (a b d : K) (ha : 0 < a) (v u : Fin n → K)
    (hv : ∀ i, a ≤ v i ∧ v i ≤ b) (hu : ∀ i, a ≤ u i ∧ u i ≤ b) (h : ∀ i, |v i - u i| ≤ d) (i : Fin n) :
    |burgersRhs dx g v i - burgersRhs dx g u i| ≤ 4 * b / dx * d := by
  have p : ∀ w : Fin n → K, (∀ i, a ≤ w i ∧ w i ≤ b) → ∀ j, 0 ≤ w j ∧ w j ≤ b := fun w hw j =>
    ⟨ha.le.trans (hw j).1, (hw j).2⟩
  have h1 := burgers_flux_lipschitz b _ _ _ _ d (p v hv (g i)) (p v hv (g (i + 1))) (p u hu (g i)) (p u hu (g (i + 1)))
    (h _) (h _)
  have h2 := burgers_flux_lipschitz b _ _ _ _ d (p v hv (g (i + 1))) (p v hv (g (i + 2))) (p u hu (g (i + 1)))
    (p u hu (g (i + 2))) (h _) (h _)
  unfold burgersRhs
  rw [← sub_div, abs_div, abs_of_pos hdx, div_le_iff₀ hdx]
  have e : 4 * b / dx * d * dx = 4 * b * d := by field_simp
  rw [e]
  rw [abs_le] at h1 h2 ⊢
  constructor <;> linarith [h1.1, h1.2, h2.1, h2.2]

theorem tableau_rows (T : Tableau K) (hT : T = forwardEuler K ∨ T = heun K ∨ T = ssp3 K) :
    (∀ i < T.size, ∑ j ∈ Finset.range i, |T.A i j| ≤ 1) ∧ ∑ j ∈ Finset.range T.size, |T.b j| ≤ 1 ∧ 0 < T.size := by
  rcases hT with rfl | rfl | rfl
  · refine ⟨fun i hi => ?_, ?_, by simp [forwardEuler]⟩
    · simp only [forwardEuler] at hi
      interval_cases i
      simp
    · simp [forwardEuler]
  · refine ⟨fun i hi => ?_, ?_, by simp [heun]⟩
    · simp only [heun] at hi
      interval_cases i
      · simp
      · simp [heun, table]
    · simp [heun, Finset.sum_range_succ]
      norm_num
  · refine ⟨fun i hi => ?_, ?_, by simp [ssp3]⟩
    · simp only [ssp3] at hi
      interval_cases i
      · simp
      · simp [ssp3, table]
      · simp [ssp3, table, Finset.sum_range_succ]
        norm_num
    · simp [ssp3, Finset.sum_range_succ, abs_div]
      norm_num

/-! ### Runs -/

/-- The error of a step relative to the bound of the values: `4 * 3^s ((1 + u)^(s + 19) - 1)` for `s` stages. -/
def burgersError (R : Rounding K) (s : ℕ) : K := 4 * 3 ^ s * ((1 + R.u) ^ (s + 19) - 1)

theorem burgersError_nonneg (R : Rounding K) (s : ℕ) : 0 ≤ burgersError R s := by
  have := pow_one_le R (s + 19)
  exact mul_nonneg (by positivity) (by linarith)

/-- A computed step and a step in exact arithmetic, from the same values. -/
theorem burgers_step (R : Rounding K) (hu : R.u ≤ 1 / 2) (n : ℕ) (hn : 0 < n) (bc : BC K K) (g : ℕ → Fin n)
    (hg : Cells bc n g) (dx : K) (hdx : 0 < dx) (T : Tableau K) (hT : T = forwardEuler K ∨ T = heun K ∨ T = ssp3 K)
    (a b a' b' dt : K) (ha : 0 < a) (hb0 : 0 ≤ b) (hdt : 0 ≤ dt) (hcfl : 2 * dt * b ≤ dx)
    (h1 : a ≤ a' - burgersError R T.size * b) (h2 : b' + burgersError R T.size * b ≤ b) (s q : Solver K (Fin n → K))
    (hsq : q.solution = s.solution) (hs : ∀ i, a' ≤ s.solution i ∧ s.solution i ≤ b') :
    ∃ s' r, executeFl R (roundTableau R T) (vecRhs n (rhsFl R (laxFriedrichsFl R (riemannFl R .burgers)) dx bc)) s dt = .ok s' ∧
      q.executeE T (vecRhs n (rhs (laxFriedrichs (Problem.riemann .burgers)) dx bc)) dt = .ok r ∧
      (∀ i, a' ≤ r.solution i ∧ r.solution i ≤ b') ∧
      ∀ i, |s'.solution i - r.solution i| ≤ burgersError R T.size * b := by
  obtain ⟨hA, hB, hsize⟩ := tableau_rows T hT
  have he : 0 ≤ burgersError R T.size * b := mul_nonneg (burgersError_nonneg R _) hb0
  have ha' : 0 < a' := by linarith
  set F := vecRhs n (rhs (laxFriedrichs (Problem.riemann .burgers)) dx bc) with hF
  have hloc : localError R T.size 15 2 (b + 3 * b) = burgersError R T.size * b := by
    unfold localError burgersError
    rw [show 15 + T.size + 4 = T.size + 19 by omega]
    ring
  have hdD : dt * (6 * b ^ 2 / dx) ≤ 3 * b := by
    rw [mul_div_assoc', div_le_iff₀ hdx]
    nlinarith
  have hdL : dt * (4 * b / dx) ≤ 2 := by
    rw [mul_div_assoc', div_le_iff₀ hdx]
    linarith
  have hmono : Monotonic .burgers a' b' dx dt := by
    refine ⟨hdt, (fun h => by cases h), fun _ => ⟨ha', ?_⟩⟩
    have : dt * b' ≤ dt * b := mul_le_mul_of_nonneg_left (by linarith) hdt
    linarith
  have hE : ∀ t, ∀ u ∈ box n a' b', u + dt • totalise F t u ∈ box n a' b' := by
    intro t u hu
    obtain ⟨w, h3, h4⟩ := newCell_eq .burgers n bc g hg dx hdx a' dt (fun _ => ha') t u (fun i => (hu i).1)
    have e : totalise F t u = w := by unfold totalise; rw [hF, h3]
    rw [e, h4]
    intro i
    have const : ∀ c : K, newCell .burgers (dt / dx) g (fun _ => c) i = c := by
      intro c
      simp [newCell, eulerCell]
    have hle : a' ≤ b' := (hu i).1.trans (hu i).2
    constructor
    · have := newCell_mono .burgers a' b' dx dt hdx hmono g (fun _ => a') u (fun _ => le_rfl) (fun j => (hu j).1)
        (fun j => (hu j).2) i
      rwa [const] at this
    · have := newCell_mono .burgers a' b' dx dt hdx hmono g u (fun _ => b') (fun j => (hu j).1)
        (fun j => (hu j).2) (fun _ => le_rfl) i
      rwa [const] at this
  have hst := fun j hj => ssp_stages (totalise F) dt (box n a' b') (box_convex n a' b') hE T hT q.time s.solution hs j hj
  obtain ⟨s', k1, k2⟩ := step_perturb R T hsize hA hB (vecRhs n (rhsFl R (laxFriedrichsFl R (riemannFl R .burgers)) dx bc))
    (totalise F) 15 a b a' b' (6 * b ^ 2 / dx) (3 * b) b dt (4 * b / dx) 2 hdt (by positivity) hdD (by positivity) hdL
    (fun t t' v hv => by
      obtain ⟨w, q1, q2⟩ := burgers_near R hu n bc g hg dx hdx t a b ha v hv
      refine ⟨w, q1, ?_⟩
      rw [totalise_burgers n bc g hg dx hdx a ha t' v (fun i => (hv i).1)]
      exact q2)
    (fun t v u d hv hu' h => by
      rw [totalise_burgers n bc g hg dx hdx a ha t v (fun i => (hv i).1),
        totalise_burgers n bc g hg dx hdx a ha t u (fun i => (hu' i).1)]
      exact burgersRhs_lipschitz g dx hdx a b d ha v u hv hu' h)
    (by rw [hloc]; exact h1) (by rw [hloc]; exact h2) s q hsq
    (fun i => by
      have := hs i
      rw [abs_of_nonneg (by linarith [this.1])]
      linarith [this.2]) hb0 hst
  rw [hloc] at k2
  have hex : q.executeE T F dt = .ok (q.execute T (totalise F) dt) := executeE_ok T F q dt (fun i hi =>
    ⟨_, exact_burgers n bc g hg dx hdx a' ha' _ _ (fun c => by rw [hsq]; exact (hst i hi c).1)⟩)
  refine ⟨s', _, k1, hex, ?_, k2⟩
  obtain ⟨r', -, g1, -, -, g4⟩ := lf_pair_run .burgers n hn bc g hg dx hdx a' b' [dt] (by
      intro x hx; rw [List.mem_singleton] at hx; rw [hx]; exact hmono) T hT
    Set.univ convex_univ (fun _ _ _ _ _ _ _ => trivial) q q rfl
    (by rw [hsq]; exact hs) (by rw [hsq]; exact hs) trivial
  rw [← hF] at g1
  simp only [Solver.runE, hex] at g1
  cases g1
  exact g4

theorem burgers_run (R : Rounding K) (hu : R.u ≤ 1 / 2) (n : ℕ) (hn : 0 < n) (bc : BC K K) (g : ℕ → Fin n)
    (hg : Cells bc n g) (dx : K) (hdx : 0 < dx) (T : Tableau K) (hT : T = forwardEuler K ∨ T = heun K ∨ T = ssp3 K)
    (a b : K) (ha : 0 < a) (steps : List K) (hsteps : ∀ dt ∈ steps, 0 ≤ dt ∧ 2 * dt * b ≤ dx) (m M p q : K)
    (h1 : a ≤ m - steps.length * (burgersError R T.size * b)) (h2 : M + steps.length * (burgersError R T.size * b) ≤ b)
    (h3 : a ≤ p) (h4 : q ≤ b) (s r : Solver K (Fin n → K)) (hs : ∀ i, m ≤ s.solution i ∧ s.solution i ≤ M)
    (hr : ∀ i, p ≤ r.solution i ∧ r.solution i ≤ q) :
    ∃ s' r', runFl R (roundTableau R T) (vecRhs n (rhsFl R (laxFriedrichsFl R (riemannFl R .burgers)) dx bc)) s steps =
        .ok s' ∧
      r.runE T (vecRhs n (rhs (laxFriedrichs (Problem.riemann .burgers)) dx bc)) steps = .ok r' ∧
      (∀ i, m - steps.length * (burgersError R T.size * b) ≤ s'.solution i ∧
        s'.solution i ≤ M + steps.length * (burgersError R T.size * b)) ∧
      (∀ i, p ≤ r'.solution i ∧ r'.solution i ≤ q) ∧
      (g n = g 0 → g (n + 1) = g 1 →
        distance s'.solution r'.solution ≤ distance s.solution r.solution +
          steps.length * (n * (burgersError R T.size * b))) := by
  have hb0 : 0 ≤ b := by
    have := hr ⟨0, hn⟩
    linarith [this.1, this.2]
  have he : 0 ≤ burgersError R T.size * b := mul_nonneg (burgersError_nonneg R _) hb0
  set η := burgersError R T.size * b with hη
  induction steps generalizing s r m M with
  | nil => exact ⟨s, r, rfl, rfl, by simpa using hs, hr, fun _ _ => by simp⟩
  | cons dt steps ih =>
    obtain ⟨hdt, hcfl⟩ := hsteps dt (List.mem_cons_self ..)
    rw [List.length_cons, Nat.cast_succ, add_mul, one_mul] at h1 h2
    have hN : 0 ≤ (steps.length : K) * η := by positivity
    obtain ⟨s1, e, g1, g2, g3, g4⟩ := burgers_step R hu n hn bc g hg dx hdx T hT a b m M dt ha hb0 hdt hcfl (by linarith)
      (by linarith) s ⟨r.time, s.solution, [], []⟩ rfl hs
    have hmono : ∀ x ∈ [dt], Monotonic .burgers a b dx x := by
      intro x hx
      rw [List.mem_singleton] at hx
      subst hx
      exact ⟨hdt, (fun h => by cases h), fun _ => ⟨ha, hcfl⟩⟩
    have hbr : ∀ i, a ≤ r.solution i ∧ r.solution i ≤ b := fun i => ⟨h3.trans (hr i).1, (hr i).2.trans h4⟩
    have hbs : ∀ i, a ≤ s.solution i ∧ s.solution i ≤ b := fun i => by
      have := hs i
      constructor <;> linarith [this.1, this.2]
    obtain ⟨e', r1, k1, k2, k3⟩ : ∃ e' r1 : Solver K (Fin n → K),
        Solver.runE T (vecRhs n (rhs (laxFriedrichs (Problem.riemann .burgers)) dx bc)) ⟨r.time, s.solution, [], []⟩ [dt] = .ok e' ∧
        r.runE T (vecRhs n (rhs (laxFriedrichs (Problem.riemann .burgers)) dx bc)) [dt] = .ok r1 ∧
        (g n = g 0 → g (n + 1) = g 1 → distance e'.solution r1.solution ≤ distance s.solution r.solution) := by
      by_cases hper : g n = g 0 ∧ g (n + 1) = g 1
      · obtain ⟨e', r1, k1, k2, k3, -⟩ := lf_pair_run .burgers n hn bc g hg dx hdx a b [dt] hmono T hT _
          (distance_convex n (distance s.solution r.solution))
          (fun x hx u v hu hv huv =>
            (distance_step .burgers a b dx x hdx (hmono x hx) g hg.middle hper.1 hper.2 u v hu hv).trans huv)
          ⟨r.time, s.solution, [], []⟩ r rfl hbs hbr le_rfl
        exact ⟨e', r1, k1, k2, fun _ _ => k3⟩
      · obtain ⟨e', r1, k1, k2, -⟩ := lf_pair_run .burgers n hn bc g hg dx hdx a b [dt] hmono T hT Set.univ convex_univ
          (fun _ _ _ _ _ _ _ => trivial) ⟨r.time, s.solution, [], []⟩ r rfl hbs hbr trivial
        exact ⟨e', r1, k1, k2, fun i j => absurd ⟨i, j⟩ hper⟩
    have k4 : ∀ i, p ≤ r1.solution i ∧ r1.solution i ≤ q := by
      have hmono' : ∀ x ∈ [dt], Monotonic .burgers p q dx x := by
        intro x hx
        obtain ⟨i1, -, i3⟩ := hmono x hx
        refine ⟨i1, (fun h => by cases h), fun h => ⟨ha.trans_le h3, ?_⟩⟩
        have := (i3 h).2
        have h5 := mul_le_mul_of_nonneg_left h4 i1
        linarith
      obtain ⟨r2, -, q1, -, -, q4⟩ := lf_pair_run .burgers n hn bc g hg dx hdx p q [dt] hmono' T hT Set.univ convex_univ
        (fun _ _ _ _ _ _ _ => trivial) r r rfl hr hr trivial
      rw [k2] at q1
      cases q1
      exact q4
    have ee : e' = e := by
      simp only [Solver.runE, g2] at k1
      exact (Except.ok.inj k1).symm
    subst ee
    have hr1 : r.executeE T (vecRhs n (rhs (laxFriedrichs (Problem.riemann .burgers)) dx bc)) dt = .ok r1 := by
      simp only [Solver.runE] at k2
      split at k2
      · cases k2
      · rename_i z hz
        rw [hz]
        exact k2
    obtain ⟨s', r', i1, i2, i3, i4, i5⟩ := ih (fun x hx => hsteps x (List.mem_cons_of_mem _ hx)) (m - η) (M + η) s1 r1 (fun i => by
        have q1 := _root_.abs_le.1 (g4 i)
        have q2 := g3 i
        constructor <;> linarith [q1.1, q1.2, q2.1, q2.2]) k4 (by linarith) (by linarith)
    refine ⟨s', r', ?_, ?_, fun i => ?_, i4, fun p1 p2 => ?_⟩
    · unfold runFl
      simp only [g1]
      exact i1
    · unfold Solver.runE
      simp only [hr1]
      exact i2
    · have := i3 i
      rw [List.length_cons, Nat.cast_succ, add_mul, one_mul]
      constructor <;> linarith [this.1, this.2]
    · have q1 := i5 p1 p2
      have q2 := k3 p1 p2
      have q3 : distance s1.solution r1.solution ≤ n * η + distance e'.solution r1.solution := by
        unfold distance
        have : (n : K) * η = ∑ _i : Fin n, η := by simp
        rw [this, ← Finset.sum_add_distrib]
        refine Finset.sum_le_sum fun i _ => ?_
        have := abs_sub_le (s1.solution i) (e'.solution i) (r1.solution i)
        have := g4 i
        linarith
      rw [List.length_cons, Nat.cast_succ, add_mul, one_mul]
      linarith

/-- C129.  Floating point runs of the Lax-Friedrichs solver for Burgers' equation from data in `[m, M]`, `0 < m`: they raise
nothing and leave the range of the data by no more than a rounding error per step; with periodic boundaries the distance to
the run in exact arithmetic and the change of the total are at most this times the number of cells. -/
theorem C129_run (R : Rounding K) (hu : R.u ≤ 1 / 2) (n : ℕ) (hn : 0 < n) (wall : Option (K → K))
    (il ir : Option (K → K)) (bc : BC K K) (name : String) (hname : name = "periodic" ∨ name = "outflow")
    (hbc : build wall [name] 1 il ir = .ok bc) (dx : K) (hdx : 0 < dx) (T : Tableau K)
    (hT : T = forwardEuler K ∨ T = heun K ∨ T = ssp3 K) (m M b : K) (hm0 : 0 < m) (hb : M ≤ b) (steps : List K)
    (hsteps : ∀ dt ∈ steps, 0 ≤ dt ∧ 2 * dt * b ≤ dx)
    (hm : steps.length * (burgersError R T.size * b) < m) (hM : M + steps.length * (burgersError R T.size * b) ≤ b)
    (s : Solver K (Fin n → K)) (hs : ∀ i, m ≤ s.solution i ∧ s.solution i ≤ M) :
    ∃ s' r, runFl R (roundTableau R T) (vecRhs n (rhsFl R (laxFriedrichsFl R (riemannFl R .burgers)) dx bc)) s steps =
        .ok s' ∧
      s.runE T (vecRhs n (rhs (laxFriedrichs (Problem.riemann .burgers)) dx bc)) steps = .ok r ∧
      (∀ i, m - steps.length * (burgersError R T.size * b) ≤ s'.solution i ∧
        s'.solution i ≤ M + steps.length * (burgersError R T.size * b)) ∧
      (name = "periodic" → ∑ i, |s'.solution i - r.solution i| ≤ n * (steps.length * (burgersError R T.size * b)) ∧
        |∑ i, s'.solution i - ∑ i, s.solution i| ≤ n * (steps.length * (burgersError R T.size * b))) := by
  obtain ⟨g, hg, hper⟩ : ∃ g : ℕ → Fin n, Cells bc n g ∧ (name = "periodic" → g n = g 0 ∧ g (n + 1) = g 1) := by
    rcases hname with rfl | rfl
    · obtain ⟨g, hg, h⟩ := cells_periodic n hn wall il ir bc hbc; exact ⟨g, hg, fun _ => h⟩
    · obtain ⟨g, hg, -⟩ := cells_outflow n hn wall il ir bc hbc; exact ⟨g, hg, fun h => by simp at h⟩
  set η := burgersError R T.size * b with hη
  have hb0 : 0 ≤ b := by
    have h0 := hs ⟨0, hn⟩
    linarith [h0.1, h0.2]
  have he : 0 ≤ (steps.length : K) * η := mul_nonneg (by positivity) (mul_nonneg (burgersError_nonneg R _) hb0)
  obtain ⟨s', r, h1, h2, h3, -, h5⟩ := burgers_run R hu n hn bc g hg dx hdx T hT (m - steps.length * η) b (by linarith) steps
    hsteps m M m M le_rfl hM (by linarith) (by linarith) s s hs hs
  have hdist : name = "periodic" → ∑ i, |s'.solution i - r.solution i| ≤ n * (steps.length * η) := by
    intro h
    have := h5 (hper h).1 (hper h).2
    unfold distance at this
    simp only [sub_self, abs_zero, Finset.sum_const_zero, zero_add] at this
    linarith
  refine ⟨s', r, h1, h2, h3, fun h => ⟨hdist h, ?_⟩⟩
  subst h
  have htot := C24_two_point_schemes (Problem.riemann .burgers).nodeFlux dx wall il ir bc hbc n T s _ steps h2
  rw [List.sum_ofFn, List.sum_ofFn] at htot
  rw [← htot, ← Finset.sum_sub_distrib]
  exact (Finset.abs_sum_le_sum_abs _ _).trans (hdist rfl)

theorem burgersError_double [FloorRing K] (T : Tableau K) (hT : T = forwardEuler K ∨ T = heun K ∨ T = ssp3 K) :
    burgersError (double K) T.size ≤ 1 / 10 ^ 12 := by
  have hsize : T.size ≤ 3 := by
    rcases hT with rfl | rfl | rfl <;> simp [forwardEuler, heun, ssp3]
  have hu : (double K).u = 1 / 2 ^ 53 := rfl
  have g1 : (1 + (double K).u) ^ (T.size + 19) ≤ (1 + (double K).u) ^ 22 :=
    pow_le_pow_right₀ (by have := (double K).nonneg; linarith) (by omega)
  have g2 := pow_small (double K).u (double K).nonneg 22 (by rw [hu]; norm_num)
  have g3 : (3 : K) ^ T.size ≤ 27 := (pow_le_pow_right₀ (by norm_num) hsize).trans (by norm_num)
  have g4 := pow_one_le (double K) (T.size + 19)
  unfold burgersError
  calc _ ≤ 4 * 27 * ((1 + (double K).u) ^ (T.size + 19) - 1) :=
        mul_le_mul_of_nonneg_right (by linarith) (by linarith)
    _ ≤ 4 * 27 * (2 * ((22 : ℕ) * (double K).u)) := by linarith
    _ ≤ 1 / 10 ^ 12 := by rw [hu]; norm_num

/-- C129 in double precision (without overflow and underflow): in `N` steps, up to `5 * 10 ^ 11`, the values leave the range
`[m, M]` of the data by at most `N * 2e-12 * M`, provided `m` is larger than this, and with periodic boundaries the mean
distance to the run in exact arithmetic is not larger. -/
theorem C129_double [FloorRing K] (n : ℕ) (hn : 0 < n) (wall : Option (K → K))
    (il ir : Option (K → K)) (bc : BC K K) (name : String) (hname : name = "periodic" ∨ name = "outflow")
    (hbc : build wall [name] 1 il ir = .ok bc) (dx : K) (hdx : 0 < dx) (T : Tableau K)
    (hT : T = forwardEuler K ∨ T = heun K ∨ T = ssp3 K) (m M : K) (steps : List K)
    (hN : steps.length ≤ 5 * 10 ^ 11)
    (hsteps : ∀ dt ∈ steps, 0 ≤ dt ∧ 2 * dt * (M + steps.length * (2 / 10 ^ 12) * M) ≤ dx)
    (hm0 : 0 < m) (hm : steps.length * (2 / 10 ^ 12) * M < m)
    (s : Solver K (Fin n → K)) (hs : ∀ i, m ≤ s.solution i ∧ s.solution i ≤ M) :
    ∃ s' r, runFl (double K) (roundTableau (double K) T)
        (vecRhs n (rhsFl (double K) (laxFriedrichsFl (double K) (riemannFl (double K) .burgers)) dx bc)) s steps = .ok s' ∧
      s.runE T (vecRhs n (rhs (laxFriedrichs (Problem.riemann .burgers)) dx bc)) steps = .ok r ∧
      (∀ i, m - steps.length * (2 / 10 ^ 12) * M ≤ s'.solution i ∧ s'.solution i ≤ M + steps.length * (2 / 10 ^ 12) * M) ∧
      (name = "periodic" → (∑ i, |s'.solution i - r.solution i|) / n ≤ steps.length * (2 / 10 ^ 12) * M ∧
        |∑ i, s'.solution i - ∑ i, s.solution i| / n ≤ steps.length * (2 / 10 ^ 12) * M) := by
  have hM0 : 0 ≤ M := by
    have h0 := hs ⟨0, hn⟩
    linarith [h0.1, h0.2]
  have hn0 : (0 : K) < n := by exact_mod_cast hn
  have hN' : (steps.length : K) ≤ 5 * 10 ^ 11 := by exact_mod_cast hN
  have hq : (steps.length : K) * (2 / 10 ^ 12) ≤ 1 := by
    have := mul_le_mul_of_nonneg_right hN' (by norm_num : (0 : K) ≤ 2 / 10 ^ 12)
    refine this.trans (by norm_num)
  have hq0 : 0 ≤ (steps.length : K) * (2 / 10 ^ 12) * M := by positivity
  set b := M + steps.length * (2 / 10 ^ 12) * M with hb
  have hb2 : b ≤ 2 * M := by
    have := mul_le_mul_of_nonneg_right hq hM0
    linarith
  have he := burgersError_double T hT
  have hη : (steps.length : K) * (burgersError (double K) T.size * b) ≤ steps.length * (2 / 10 ^ 12) * M := by
    rw [mul_assoc]
    refine mul_le_mul_of_nonneg_left ?_ (by positivity)
    calc _ ≤ 1 / 10 ^ 12 * (2 * M) := mul_le_mul he hb2 (by linarith) (by positivity)
      _ = _ := by ring
  obtain ⟨s', r, h1, h2, h3, h4⟩ := C129_run (double K) (by
      have hu : (double K).u = 1 / 2 ^ 53 := rfl
      rw [hu]; norm_num) n hn wall il ir bc name hname hbc dx hdx T hT m M b hm0 (by linarith) steps hsteps (by linarith)
    (by linarith) s hs
  refine ⟨s', r, h1, h2, fun i => ?_, fun h => ?_⟩
  · have := h3 i
    constructor <;> linarith [this.1, this.2]
  · obtain ⟨g1, g2⟩ := h4 h
    have := mul_le_mul_of_nonneg_left hη hn0.le
    constructor <;> rw [div_le_iff₀ hn0] <;> linarith

/-- The data of the examples: three periodic cells. -/
def burgersData : Solver ℚ (Fin 3 → ℚ) := Solver.init ![(double ℚ).fl (1 / 10), (double ℚ).fl (1 / 5), (double ℚ).fl (7 / 10)] 0

/-- Non-vacuity: four steps of the third order method in double precision. -/
example : ∃ s' r, runFl (double ℚ) (roundTableau (double ℚ) (ssp3 ℚ))
      (vecRhs 3 (rhsFl (double ℚ) (laxFriedrichsFl (double ℚ) (riemannFl (double ℚ) .burgers)) 1 exampleBC)) burgersData
      [1 / 2, 1 / 4, 1 / 2, 1 / 2] = .ok s' ∧
    burgersData.runE (ssp3 ℚ) (vecRhs 3 (rhs (laxFriedrichs (Problem.riemann .burgers)) 1 exampleBC))
      [1 / 2, 1 / 4, 1 / 2, 1 / 2] = .ok r ∧
    (∑ i, |s'.solution i - r.solution i|) / 3 ≤ 4 * (2 / 10 ^ 12) * 1 := by
  obtain ⟨s', r, h1, h2, -, h3⟩ := C129_double (K := ℚ) 3 (by norm_num) none none none exampleBC "periodic" (Or.inl rfl)
    exampleBC_build 1 one_pos (ssp3 ℚ) (Or.inr (Or.inr rfl)) (1 / 20) (3 / 4) [1 / 2, 1 / 4, 1 / 2, 1 / 2] (by norm_num)
    (by intro dt h; simp at h; rcases h with rfl | rfl | rfl <;> norm_num) (by norm_num) (by norm_num) burgersData (by decide +kernel)
  refine ⟨s', r, h1, h2, (h3 rfl).1.trans ?_⟩
  norm_num

end Verif.FVFl
