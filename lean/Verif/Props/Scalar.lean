import Verif.Core.ScalarLemmas
import Verif.Core.SSP
import Mathlib.Analysis.Calculus.Deriv.Pow
import Mathlib.Analysis.Calculus.Deriv.Mul

/-!
Properties C28-C32: scalar conservation laws.
-/

set_option linter.unusedSectionVars false

namespace Verif.Scalar

open Verif.Py Verif.Boundary Verif.FV Verif.ODE

variable {K : Type*} [Field K] [LinearOrder K] [IsStrictOrderedRing K]

/-! ### C29 -/

/-- The right wave speed reported by the scalar Riemann solver. -/
def Problem.speed (p : Problem) (uL uR : K) : K := (p.waveSpeed uL uR).2

/-- What C29 asks of the reported speed: it is a Lipschitz constant of the flux between the states
(equivalently, a bound of the derivative of the flux). -/
def Dominates (p : Problem) (uL uR : K) : Prop :=
  ∀ a b : K, min uL uR ≤ a → a ≤ max uL uR → min uL uR ≤ b → b ≤ max uL uR →
    |p.flux a - p.flux b| ≤ p.speed uL uR * |a - b|

/-- The function the wave speeds are computed from is the derivative of the flux. -/
theorem C29_flux_derivative (p : Problem) (u : ℝ) :
    HasDerivAt (fun x : ℝ => p.flux x) (p.fluxPrime u) u := by
  cases p with
  | advection => exact hasDerivAt_id u
  | burgers =>
    have := (hasDerivAt_pow 2 u).const_mul (1 / 2 : ℝ)
    have e : (1 / 2 : ℝ) * ((2 : ℕ) * u ^ (2 - 1)) = u := by push_cast; ring
    rw [e] at this
    exact this

/-- The flux and the wave speeds of a problem given by its name; other names are refused. -/
theorem C29_names (name : String) (uL uR : K) :
    (name = "advection" → ∃ p, Problem.parse name = .ok p ∧ p.flux uL = uL ∧ p.waveSpeed uL uR = (-1, 1)) ∧
    (name = "burgers" → ∃ p, Problem.parse name = .ok p ∧ p.flux uL = uL ^ 2 / 2 ∧
      p.waveSpeed uL uR = (-max uL uR, max uL uR)) ∧
    (name ≠ "advection" → name ≠ "burgers" → Problem.parse name = .error .valueError) := by
  refine ⟨?_, ?_, ?_⟩
  · rintro rfl
    exact ⟨.advection, by decide, rfl, by simp [Problem.waveSpeed, Problem.fluxPrime]⟩
  · rintro rfl
    refine ⟨.burgers, by decide, ?_, by simp [Problem.waveSpeed, Problem.fluxPrime]⟩
    simp only [Problem.flux]; ring
  · intro h1 h2
    simp [Problem.parse, h1, h2]

/-- C29.  The reported speeds are opposite to each other; for advection they dominate always; for
Burgers' equation they dominate exactly if `uL + uR ≥ 0`.  Missing for the full claim: Burgers'
equation with `uL + uR < 0`, where it is false (`C29_counterexample`). -/
theorem C29_wave_speeds_partial (p : Problem) (uL uR : K) :
    (p.waveSpeed uL uR).1 = -p.speed uL uR ∧
    (p = .advection → Dominates p uL uR) ∧
    (p = .burgers → uL ≠ uR → (Dominates p uL uR ↔ 0 ≤ uL + uR)) ∧
    (p = .burgers → ((∀ u, min uL uR ≤ u → u ≤ max uL uR → |p.fluxPrime u| ≤ p.speed uL uR) ↔
      0 ≤ uL + uR)) := by
  have hs : uL + uR = min uL uR + max uL uR := (min_add_max uL uR).symm
  refine ⟨rfl, ?_, ?_, ?_⟩
  · rintro rfl a b _ _ _ _
    simp [Problem.flux, Problem.speed, Problem.waveSpeed, Problem.fluxPrime]
  · rintro rfl hne
    have hlt : min uL uR < max uL uR := min_lt_max.mpr hne
    simp only [Dominates, Problem.speed, Problem.waveSpeed, Problem.fluxPrime, Problem.flux]
    rw [hs]
    generalize min uL uR = m at *
    generalize max uL uR = M at *
    constructor
    · intro h
      -- points close to the minimum have quotient close to `|m|`
      by_contra hneg
      push Not at hneg
      -- `a = m`, `b` so close to `m` that `|a + b| / 2 > M`
      obtain ⟨b, hb1, hb2, hb3⟩ : ∃ b, m < b ∧ b ≤ M ∧ M < -(m + b) / 2 := by
        refine ⟨min M ((m + (-2 * M - m)) / 2), ?_, min_le_left _ _, ?_⟩
        · exact lt_min hlt (by linarith)
        · rcases min_choice M ((m + (-2 * M - m)) / 2) with e | e
          · rw [e]
            have := min_le_right M ((m + (-2 * M - m)) / 2)
            rw [e] at this
            linarith
          · rw [e]; linarith
      have h1 := h m b le_rfl hlt.le hb1.le hb2
      have e : (1 / 2 * m ^ 2 - 1 / 2 * b ^ 2 : K) = -(m + b) / 2 * (b - m) := by ring
      have hbm : 0 < b - m := by linarith
      rw [e, abs_sub_comm m b, abs_of_pos hbm] at h1
      have := le_abs_self (-(m + b) / 2 * (b - m))
      have h2 := lt_of_lt_of_le (mul_lt_mul_of_pos_right hb3 hbm) (this.trans h1)
      exact absurd h2 (lt_irrefl _)
    · intro h a b ha1 ha2 hb1 hb2
      have e : (1 / 2 * a ^ 2 - 1 / 2 * b ^ 2 : K) = (a + b) / 2 * (a - b) := by ring
      rw [e, abs_mul]
      apply mul_le_mul_of_nonneg_right _ (abs_nonneg _)
      rw [abs_le]; constructor <;> linarith
  · rintro rfl
    simp only [Problem.speed, Problem.waveSpeed, Problem.fluxPrime]
    rw [hs]
    have hle : min uL uR ≤ max uL uR := min_le_max
    constructor
    · intro h
      have := (neg_le_abs _).trans (h _ le_rfl hle)
      linarith
    · intro h u h1 h2
      rw [abs_le]; constructor <;> linarith

/-- C29 is false for negative states: between `-2` and `-1` Burgers' equation has speeds up to `2`,
and the reported right speed is `-1`. -/
theorem C29_counterexample : ¬ Dominates (K := ℚ) .burgers (-2) (-1) ∧
    Problem.waveSpeed (K := ℚ) .burgers (-2) (-1) = (1, -1) := by
  constructor
  · intro h
    have := h (-2) (-1) (by norm_num) (by norm_num) (by norm_num) (by norm_num)
    norm_num [Problem.flux, Problem.speed, Problem.waveSpeed, Problem.fluxPrime] at this
  · norm_num [Problem.waveSpeed, Problem.fluxPrime]

/-- Non-vacuity of C29: a pair of states of different signs. -/
example : Dominates (K := ℚ) .burgers 2 (-1) :=
  ((C29_wave_speeds_partial (K := ℚ) .burgers 2 (-1)).2.2.1 rfl (by norm_num)).mpr (by norm_num)

/-! ### C28 -/

theorem range_map_getD (n : ℕ) (g : ℕ → K) (i : ℕ) (hi : i < n) :
    ((List.range n).map g).getD i 0 = g i := by
  rw [List.getD_eq_getElem _ _ (by simpa using hi)]
  simp

/-- A pair of neighbouring states for which the scheme works: the reported speed is positive and
bounds the difference quotient of the flux. -/
def Admissible (p : Problem) (uL uR : K) : Prop :=
  0 < p.speed uL uR ∧ |p.flux uR - p.flux uL| ≤ p.speed uL uR * |uR - uL|

theorem admissible_advection (uL uR : K) : Admissible .advection uL uR := by
  simp [Admissible, Problem.flux, Problem.speed, Problem.waveSpeed, Problem.fluxPrime]

theorem admissible_burgers (uL uR : K) (hL : 0 ≤ uL) (hR : 0 ≤ uR) (h : 0 < uL ∨ 0 < uR) :
    Admissible .burgers uL uR := by
  refine ⟨?_, ?_⟩
  · simp only [Problem.speed, Problem.waveSpeed, Problem.fluxPrime]
    exact lt_max_iff.mpr h
  · simp only [Problem.flux, Problem.speed, Problem.waveSpeed, Problem.fluxPrime]
    have e : (1 / 2 * uR ^ 2 - 1 / 2 * uL ^ 2 : K) = (uL + uR) / 2 * (uR - uL) := by ring
    rw [e, abs_mul]
    apply mul_le_mul_of_nonneg_right _ (abs_nonneg _)
    rw [abs_of_nonneg (by linarith)]
    linarith [le_max_left uL uR, le_max_right uL uR]

theorem riemann_solve (p : Problem) (uL uR : K) (h : 0 < p.speed uL uR) :
    p.riemann.solve uL uR = .ok ⟨llf (p.flux uL) (p.flux uR) (p.speed uL uR) uL uR,
      barState (p.flux uL) (p.flux uR) (p.speed uL uR) uL uR, p.flux uL, p.flux uR,
      -p.speed uL uR, p.speed uL uR⟩ :=
  solve_eq p.riemann uL uR _ _ _ rfl rfl rfl h

/-- The Lax-Friedrichs flux between two states. -/
def lfFlux (p : Problem) (uL uR : K) : K :=
  llf (p.flux uL) (p.flux uR) (p.speed uL uR) uL uR

/-- The right-hand side of the Lax-Friedrichs scheme in terms of the extended vector. -/
theorem lf_rhs (p : Problem) (dx : K) (hdx : dx ≠ 0) (bc : BC K K) (t : K) (v ext : List K)
    (hext : bc.extend v (some t) = .ok ext) (n : ℕ) (hlen : ext.length = n + 2)
    (hadm : ∀ j < n + 1, 0 < p.speed (ext.getD j 0) (ext.getD (j + 1) 0)) :
    rhs (laxFriedrichs p.riemann) dx bc t v = .ok ((List.range n).map (fun i => (1 / dx) *
      (lfFlux p (ext.getD i 0) (ext.getD (i + 1) 0) -
        lfFlux p (ext.getD (i + 1) 0) (ext.getD (i + 2) 0)))) := by
  have := rhs_twoPoint p.riemann.nodeFlux dx hdx bc t v ext hext n hlen
    (fun j => lfFlux p (ext.getD j 0) (ext.getD (j + 1) 0)) (by
      intro j hj
      have h1 : ext[j]'(by omega) = ext.getD j 0 := (List.getD_eq_getElem _ _ _).symm
      have h2 : ext[j + 1]'(by omega) = ext.getD (j + 1) 0 := (List.getD_eq_getElem _ _ _).symm
      rw [h1, h2]
      unfold Riemann.nodeFlux
      rw [riemann_solve p _ _ (hadm j hj)]
      rfl)
  rw [laxFriedrichs, this]
  congr 1
  apply List.map_congr_left
  intro i _
  simp only [smul_eq_mul, sub_eq_add_neg]

/-- `x` lies in the range of three values. -/
def InRange3 (x a b c : K) : Prop := min a (min b c) ≤ x ∧ x ≤ max a (max b c)

/-- C28, local maximum principle, for the step restriction of the general theory: if the time step
times the sum of the two speeds at a cell is at most the cell width, a forward Euler step keeps the
value of the cell in the range of itself and its neighbours (`ext` is the vector extended by the
ghost cells, so the neighbours of cell `i` are the entries `i` and `i + 2`). -/
theorem C28_local_maximum_principle (p : Problem) (dx dt : K) (hdx : 0 < dx) (hdt : 0 ≤ dt)
    (bc : BC K K) (t : K) (v ext : List K) (hext : bc.extend v (some t) = .ok ext)
    (hlen : ext.length = v.length + 2)
    (hadm : ∀ j < v.length + 1, Admissible p (ext.getD j 0) (ext.getD (j + 1) 0))
    (hcfl : ∀ i < v.length, dt * (p.speed (ext.getD i 0) (ext.getD (i + 1) 0) +
      p.speed (ext.getD (i + 1) 0) (ext.getD (i + 2) 0)) ≤ dx) :
    ∃ w, rhs (laxFriedrichs p.riemann) dx bc t v = .ok w ∧ w.length = v.length ∧
      ∀ i < v.length, InRange3 (ext.getD (i + 1) 0 + dt * w.getD i 0)
        (ext.getD i 0) (ext.getD (i + 1) 0) (ext.getD (i + 2) 0) := by
  refine ⟨_, lf_rhs p dx hdx.ne' bc t v ext hext v.length hlen (fun j hj => (hadm j hj).1),
    by simp, ?_⟩
  intro i hi
  rw [range_map_getD _ _ _ hi]
  obtain ⟨p1, q1⟩ := hadm i (by omega)
  obtain ⟨p2, q2⟩ := hadm (i + 1) (by omega)
  have hc := hcfl i hi
  rw [show i + 1 + 1 = i + 2 from rfl] at p2 q2
  generalize ext.getD i 0 = x at *
  generalize ext.getD (i + 1) 0 = y at *
  generalize ext.getD (i + 2) 0 = z at *
  have m1 : min x (min y z) ≤ x := min_le_left _ _
  have m2 : min x (min y z) ≤ y := (min_le_right _ _).trans (min_le_left _ _)
  have m3 : min x (min y z) ≤ z := (min_le_right _ _).trans (min_le_right _ _)
  have M1 : x ≤ max x (max y z) := le_max_left _ _
  have M2 : y ≤ max x (max y z) := (le_max_left _ _).trans (le_max_right _ _)
  have M3 : z ≤ max x (max y z) := (le_max_right _ _).trans (le_max_right _ _)
  have b1 := barState_mem _ _ _ x y _ _ p1 q1 m1 m2 M1 M2
  have b2 := barState_mem _ _ _ y z _ _ p2 q2 m2 m3 M2 M3
  have := cell_bound y _ _ (p.speed x y) (p.speed y z) (dt / dx) _ _ (by positivity) p1.le p2.le
    (by rw [div_mul_eq_mul_div, div_le_one hdx]; exact hc) ⟨m2, M2⟩ b1 b2
  unfold InRange3
  have e : y + dt * (1 / dx * (lfFlux p x y - lfFlux p y z)) =
      y + dt / dx * (p.speed x y * (barState (p.flux x) (p.flux y) (p.speed x y) x y - y) +
        p.speed y z * (barState (p.flux y) (p.flux z) (p.speed y z) y z - y)) := by
    unfold lfFlux
    rw [llf_eq_right _ _ _ _ _ p1.ne', llf_eq_left _ _ _ _ _ p2.ne']
    field_simp
    ring
  rw [e]
  exact this

/-- `x ≤ y ≤ z`. -/
theorem sharp_a (x y z lam : K) (h0 : 0 ≤ lam) (hx : 0 ≤ x) (hxy : x ≤ y) (hyz : y ≤ z)
    (h1 : lam * y ≤ 1) (h2 : lam * z ≤ 1) :
    x ≤ y + lam / 4 * ((z - y) ^ 2 - (y - x) * (x + 3 * y)) ∧
    y + lam / 4 * ((z - y) ^ 2 - (y - x) * (x + 3 * y)) ≤ z := by
  have a1 : lam * x ≤ 1 := (mul_le_mul_of_nonneg_left hxy h0).trans h1
  have a2 : 0 ≤ lam * y := mul_nonneg h0 (hx.trans hxy)
  have b1 : lam * (x + 3 * y) * (y - x) ≤ 4 * (y - x) :=
    mul_le_mul_of_nonneg_right (by linarith) (sub_nonneg.mpr hxy)
  have b2 : lam * (z - y) * (z - y) ≤ 4 * (z - y) :=
    mul_le_mul_of_nonneg_right (by linarith) (sub_nonneg.mpr hyz)
  have b3 : 0 ≤ lam * (z - y) ^ 2 := mul_nonneg h0 (sq_nonneg _)
  have b4 : 0 ≤ lam * (x + 3 * y) * (y - x) :=
    mul_nonneg (mul_nonneg h0 (by linarith)) (sub_nonneg.mpr hxy)
  constructor <;> linarith

/-- `x ≤ y ≥ z`. -/
theorem sharp_b (x y z lam : K) (h0 : 0 ≤ lam) (hx : 0 ≤ x) (hz : 0 ≤ z) (hxy : x ≤ y) (hyz : z ≤ y)
    (h1 : lam * y ≤ 1) :
    min x z ≤ y - lam / 4 * ((y - x) * (x + 3 * y) + (y - z) ^ 2) ∧
    y - lam / 4 * ((y - x) * (x + 3 * y) + (y - z) ^ 2) ≤ y := by
  have hge : 0 ≤ lam * ((y - x) * (x + 3 * y) + (y - z) ^ 2) :=
    mul_nonneg h0
      (add_nonneg (mul_nonneg (sub_nonneg.mpr hxy) (by linarith)) (sq_nonneg _))
  refine ⟨?_, by linarith⟩
  rcases le_total x z with h | h
  · rw [min_eq_left h]
    have h4 : 0 ≤ (z - x) * (2 * y - x - z) := mul_nonneg (sub_nonneg.mpr h) (by linarith)
    have h3 : (y - x) * (x + 3 * y) + (y - z) ^ 2 ≤ 4 * y * (y - x) := by linarith
    have h5 := mul_le_mul_of_nonneg_left h3 h0
    have h6 : lam * y * (y - x) ≤ 1 * (y - x) := mul_le_mul_of_nonneg_right h1 (sub_nonneg.mpr hxy)
    linarith
  · rw [min_eq_right h]
    have h4 : 0 ≤ (x - z) * (2 * y + x + z) := mul_nonneg (sub_nonneg.mpr h) (by linarith)
    have h3 : (y - x) * (x + 3 * y) + (y - z) ^ 2 ≤ 4 * y * (y - z) := by linarith
    have h5 := mul_le_mul_of_nonneg_left h3 h0
    have h6 : lam * y * (y - z) ≤ 1 * (y - z) := mul_le_mul_of_nonneg_right h1 (sub_nonneg.mpr hyz)
    linarith

/-- `x ≥ y ≤ z`. -/
theorem sharp_c (x y z lam : K) (h0 : 0 ≤ lam) (hy : 0 ≤ y) (hxy : y ≤ x) (hyz : y ≤ z)
    (h1 : lam * x ≤ 1) (h2 : lam * z ≤ 1) :
    y ≤ y + lam / 4 * ((x - y) * (3 * x + y) + (z - y) ^ 2) ∧
    y + lam / 4 * ((x - y) * (3 * x + y) + (z - y) ^ 2) ≤ max x z := by
  have hge : 0 ≤ lam * ((x - y) * (3 * x + y) + (z - y) ^ 2) :=
    mul_nonneg h0
      (add_nonneg (mul_nonneg (sub_nonneg.mpr hxy) (by linarith)) (sq_nonneg _))
  refine ⟨by linarith, ?_⟩
  rcases le_total z x with h | h
  · rw [max_eq_left h]
    have h4 : 0 ≤ (x - z) * (x + z - 2 * y) := mul_nonneg (sub_nonneg.mpr h) (by linarith)
    have h3 : (x - y) * (3 * x + y) + (z - y) ^ 2 ≤ 4 * x * (x - y) := by linarith
    have h5 := mul_le_mul_of_nonneg_left h3 h0
    have h6 : lam * x * (x - y) ≤ 1 * (x - y) := mul_le_mul_of_nonneg_right h1 (sub_nonneg.mpr hxy)
    linarith
  · rw [max_eq_right h]
    have h4 : 0 ≤ (z - x) * (3 * (x - y) + 3 * z + y) := mul_nonneg (sub_nonneg.mpr h) (by linarith)
    have h3 : (x - y) * (3 * x + y) + (z - y) ^ 2 ≤ 4 * z * (z - y) := by linarith
    have h5 := mul_le_mul_of_nonneg_left h3 h0
    have h6 : lam * z * (z - y) ≤ 1 * (z - y) := mul_le_mul_of_nonneg_right h2 (sub_nonneg.mpr hyz)
    linarith

/-- `x ≥ y ≥ z`. -/
theorem sharp_d (x y z lam : K) (h0 : 0 ≤ lam) (hz : 0 ≤ z) (hxy : y ≤ x) (hyz : z ≤ y)
    (h1 : lam * x ≤ 1) (h2 : lam * y ≤ 1) :
    z ≤ y + lam / 4 * ((x - y) * (3 * x + y) - (y - z) ^ 2) ∧
    y + lam / 4 * ((x - y) * (3 * x + y) - (y - z) ^ 2) ≤ x := by
  have a2 : 0 ≤ lam * z := mul_nonneg h0 hz
  have b1 : lam * (3 * x + y) * (x - y) ≤ 4 * (x - y) :=
    mul_le_mul_of_nonneg_right (by linarith) (sub_nonneg.mpr hxy)
  have b2 : lam * (y - z) * (y - z) ≤ 4 * (y - z) :=
    mul_le_mul_of_nonneg_right (by linarith) (sub_nonneg.mpr hyz)
  have b3 : 0 ≤ lam * (y - z) ^ 2 := mul_nonneg h0 (sq_nonneg _)
  have b4 : 0 ≤ lam * (3 * x + y) * (x - y) :=
    mul_nonneg (mul_nonneg h0 (by linarith)) (sub_nonneg.mpr hxy)
  constructor <;> linarith

/-- The sharp step restriction: three states, `lam = dt / dx`. -/
theorem sharp_cell (p : Problem) (x y z lam : K) (h0 : 0 ≤ lam)
    (hpos : p = .burgers → 0 ≤ x ∧ 0 ≤ y ∧ 0 ≤ z) (h1 : lam * p.speed x y ≤ 1)
    (h2 : lam * p.speed y z ≤ 1) :
    InRange3 (y + lam * (lfFlux p x y - lfFlux p y z)) x y z := by
  have m1 : min x (min y z) ≤ x := min_le_left _ _
  have m2 : min x (min y z) ≤ y := (min_le_right _ _).trans (min_le_left _ _)
  have m3 : min x (min y z) ≤ z := (min_le_right _ _).trans (min_le_right _ _)
  have m4 : min x (min y z) ≤ min x z := le_min m1 m3
  have M1 : x ≤ max x (max y z) := le_max_left _ _
  have M2 : y ≤ max x (max y z) := (le_max_left _ _).trans (le_max_right _ _)
  have M3 : z ≤ max x (max y z) := (le_max_right _ _).trans (le_max_right _ _)
  have M4 : max x z ≤ max x (max y z) := max_le M1 M3
  cases p with
  | advection =>
    simp only [InRange3, lfFlux, llf, Problem.flux, Problem.speed, Problem.waveSpeed,
      Problem.fluxPrime, max_self] at *
    have e : y + lam * ((x + y) / 2 - 1 / 2 * (y - x) - ((y + z) / 2 - 1 / 2 * (z - y))) =
        (1 - lam) * y + lam * x := by ring
    have hl : 0 ≤ 1 - lam := by linarith
    rw [e]
    generalize min x (min y z) = m at *
    generalize max x (max y z) = M at *
    constructor <;> nlinarith
  | burgers =>
    obtain ⟨hx, hy, hz⟩ := hpos rfl
    have hs : ∀ a b : K, Problem.burgers.speed a b = max a b := fun _ _ => rfl
    have hf : ∀ a b : K, lfFlux Problem.burgers a b =
        (1 / 2 * a ^ 2 + 1 / 2 * b ^ 2) / 2 - max a b / 2 * (b - a) := fun _ _ => rfl
    rw [hs] at h1 h2
    rw [hf, hf]
    unfold InRange3
    rcases le_total x y with hxy | hxy <;> rcases le_total y z with hyz | hyz
    · rw [max_eq_right hxy] at h1 ⊢
      rw [max_eq_right hyz] at h2 ⊢
      have := sharp_a x y z lam h0 hx hxy hyz h1 h2
      have e : y + lam * ((1 / 2 * x ^ 2 + 1 / 2 * y ^ 2) / 2 - y / 2 * (y - x) -
          ((1 / 2 * y ^ 2 + 1 / 2 * z ^ 2) / 2 - z / 2 * (z - y))) =
          y + lam / 4 * ((z - y) ^ 2 - (y - x) * (x + 3 * y)) := by ring
      rw [e]
      rw [max_eq_right hyz] at M3
      exact ⟨m1.trans this.1, this.2.trans M3⟩
    · rw [max_eq_right hxy] at h1 ⊢
      rw [max_eq_left hyz] at h2 ⊢
      have := sharp_b x y z lam h0 hx hz hxy hyz h1
      have e : y + lam * ((1 / 2 * x ^ 2 + 1 / 2 * y ^ 2) / 2 - y / 2 * (y - x) -
          ((1 / 2 * y ^ 2 + 1 / 2 * z ^ 2) / 2 - y / 2 * (z - y))) =
          y - lam / 4 * ((y - x) * (x + 3 * y) + (y - z) ^ 2) := by ring
      rw [e]
      rw [max_eq_left hyz] at M2
      exact ⟨m4.trans this.1, this.2.trans M2⟩
    · rw [max_eq_left hxy] at h1 ⊢
      rw [max_eq_right hyz] at h2 ⊢
      have := sharp_c x y z lam h0 hy hxy hyz h1 h2
      have e : y + lam * ((1 / 2 * x ^ 2 + 1 / 2 * y ^ 2) / 2 - x / 2 * (y - x) -
          ((1 / 2 * y ^ 2 + 1 / 2 * z ^ 2) / 2 - z / 2 * (z - y))) =
          y + lam / 4 * ((x - y) * (3 * x + y) + (z - y) ^ 2) := by ring
      rw [e]
      exact ⟨m2.trans this.1, this.2⟩
    · rw [max_eq_left hxy] at h1 ⊢
      rw [max_eq_left hyz] at h2 ⊢
      have := sharp_d x y z lam h0 hz hxy hyz h1 h2
      have e : y + lam * ((1 / 2 * x ^ 2 + 1 / 2 * y ^ 2) / 2 - x / 2 * (y - x) -
          ((1 / 2 * y ^ 2 + 1 / 2 * z ^ 2) / 2 - y / 2 * (z - y))) =
          y + lam / 4 * ((x - y) * (3 * x + y) - (y - z) ^ 2) := by ring
      rw [e]
      rw [max_eq_left hyz] at M1
      exact ⟨m3.trans this.1, this.2.trans M1⟩

/-- C28, local maximum principle under the step restriction of the claim: the time step times the
speed at each node is at most the cell width.  For Burgers' equation the data are non-negative
(where both neighbours are zero the scheme divides by zero, see `C28_zero_states`). -/
theorem C28_sharp_step (p : Problem) (dx dt : K) (hdx : 0 < dx) (hdt : 0 ≤ dt)
    (bc : BC K K) (t : K) (v ext : List K) (hext : bc.extend v (some t) = .ok ext)
    (hlen : ext.length = v.length + 2)
    (hpos : p = .burgers → (∀ x ∈ ext, 0 ≤ x) ∧
      ∀ j < v.length + 1, 0 < ext.getD j 0 ∨ 0 < ext.getD (j + 1) 0)
    (hcfl : ∀ j < v.length + 1, dt * p.speed (ext.getD j 0) (ext.getD (j + 1) 0) ≤ dx) :
    ∃ w, rhs (laxFriedrichs p.riemann) dx bc t v = .ok w ∧ w.length = v.length ∧
      ∀ i < v.length, InRange3 (ext.getD (i + 1) 0 + dt * w.getD i 0)
        (ext.getD i 0) (ext.getD (i + 1) 0) (ext.getD (i + 2) 0) := by
  have hnn : p = .burgers → ∀ j < v.length + 2, 0 ≤ ext.getD j 0 := by
    intro hp j hj
    rw [List.getD_eq_getElem _ _ (by omega)]
    exact (hpos hp).1 _ (List.getElem_mem _)
  refine ⟨_, lf_rhs p dx hdx.ne' bc t v ext hext v.length hlen ?_, by simp, ?_⟩
  · intro j hj
    cases p with
    | advection => exact (admissible_advection _ _).1
    | burgers =>
      exact (admissible_burgers _ _ (hnn rfl j (by omega)) (hnn rfl (j + 1) (by omega))
        ((hpos rfl).2 j hj)).1
  intro i hi
  rw [range_map_getD _ _ _ hi]
  have := sharp_cell p (ext.getD i 0) (ext.getD (i + 1) 0) (ext.getD (i + 2) 0) (dt / dx)
    (by positivity)
    (fun hp => ⟨hnn hp i (by omega), hnn hp (i + 1) (by omega), hnn hp (i + 2) (by omega)⟩)
    (by rw [div_mul_eq_mul_div, div_le_one hdx]; exact hcfl i (by omega))
    (by rw [div_mul_eq_mul_div, div_le_one hdx]; exact hcfl (i + 1) (by omega))
  convert this using 1
  ring

/-! ### Runs -/

/-- States with all values between two bounds. -/
def box (n : ℕ) (m M : K) : Set (Fin n → K) := {u | ∀ i, m ≤ u i ∧ u i ≤ M}

theorem box_convex (n : ℕ) (m M : K) : Convex K (box n m M) := by
  intro u hu v hv a b ha hb hab i
  simp only [Pi.add_apply, Pi.smul_apply, smul_eq_mul]
  have e : ∀ c : K, c = a * c + b * c := fun c => by rw [← add_mul, hab, one_mul]
  constructor
  · rw [e m]
    exact add_le_add (mul_le_mul_of_nonneg_left (hu i).1 ha) (mul_le_mul_of_nonneg_left (hv i).1 hb)
  · rw [e M]
    exact add_le_add (mul_le_mul_of_nonneg_left (hu i).2 ha) (mul_le_mul_of_nonneg_left (hv i).2 hb)

theorem vecRhs_ok {n : ℕ} (f : K → List K → Except Error (List K)) (t : K) (u : Fin n → K)
    (w : List K) (h : f t (List.ofFn u) = .ok w) (hw : w.length = n) :
    vecRhs n f t u = .ok (fun i => w.getD i 0) := by
  unfold vecRhs
  simp only [h, dif_pos hw]
  congr 1
  funext i
  rw [List.getD_eq_getElem]

/-- A step that keeps cell values in the range of the extended vector keeps boxes. -/
theorem box_step (f : K → List K → Except Error (List K)) (bc : BC K K) (n : ℕ)
    (hbc : Copies bc n) (m M dt t : K) (u : Fin n → K) (hu : u ∈ box n m M)
    (h : ∀ ext, bc.extend (List.ofFn u) (some t) = .ok ext → ext.length = n + 2 →
      (∀ x ∈ ext, m ≤ x ∧ x ≤ M) →
      ∃ w, f t (List.ofFn u) = .ok w ∧ w.length = n ∧
      ∀ i < n, InRange3 (ext.getD (i + 1) 0 + dt * w.getD i 0)
        (ext.getD i 0) (ext.getD (i + 1) 0) (ext.getD (i + 2) 0)) :
    ∃ w, vecRhs n f t u = .ok w ∧ u + dt • w ∈ box n m M := by
  obtain ⟨a, ha, b, hb, hext⟩ := hbc t (List.ofFn u) (by simp)
  have hmem : ∀ x ∈ List.ofFn u, m ≤ x ∧ x ≤ M := by
    intro x hx
    obtain ⟨i, rfl⟩ := (List.mem_ofFn' _ _).mp hx
    exact hu i
  have hall : ∀ x ∈ a :: List.ofFn u ++ [b], m ≤ x ∧ x ≤ M := by
    intro x hx
    simp only [List.cons_append, List.mem_cons, List.mem_append, List.not_mem_nil, or_false] at hx
    rcases hx with rfl | hx | rfl
    · exact hmem _ ha
    · exact hmem _ hx
    · exact hmem _ hb
  obtain ⟨w, h1, h2, h3⟩ := h _ hext (by simp) hall
  refine ⟨_, vecRhs_ok f t u w h1 h2, ?_⟩
  intro i
  have := h3 i i.2
  have hg : ∀ j < n + 2, m ≤ (a :: List.ofFn u ++ [b]).getD j 0 ∧
      (a :: List.ofFn u ++ [b]).getD j 0 ≤ M := by
    intro j hj
    rw [List.getD_eq_getElem _ _ (by simp; omega)]
    exact hall _ (List.getElem_mem _)
  have e : (a :: List.ofFn u ++ [b]).getD (i.1 + 1) 0 = u i := by
    rw [List.getD_eq_getElem _ _ (by simp)]
    simp only [List.cons_append, List.getElem_cons_succ]
    rw [List.getElem_append_left (by simp)]
    simp
  have hi := i.2
  have g0 := hg i.1 (by omega)
  have g1 := hg (i.1 + 1) (by omega)
  have g2 := hg (i.1 + 2) (by omega)
  simp only [Pi.add_apply, Pi.smul_apply, smul_eq_mul]
  rw [← e]
  exact ⟨(le_min g0.1 (le_min g1.1 g2.1)).trans this.1,
    this.2.trans (max_le g0.2 (max_le g1.2 g2.2))⟩

/-- One forward Euler step of the Lax-Friedrichs scheme keeps the range of the data. -/
theorem lf_box_step (p : Problem) (n : ℕ) (hn : 0 < n) (wall : Option (K → K))
    (il ir : Option (K → K)) (bc : BC K K) (name : String)
    (hname : name = "periodic" ∨ name = "outflow")
    (hbc : build wall [name] 1 il ir = .ok bc) (dx : K) (hdx : 0 < dx) (m M : K)
    (hm : p = .burgers → 0 < m) (dt : K) (d0 : 0 ≤ dt) (d1 : p = .advection → dt ≤ dx)
    (d2 : p = .burgers → dt * M ≤ dx) (t : K) (u : Fin n → K) (hu : u ∈ box n m M) :
    ∃ w, vecRhs n (rhs (laxFriedrichs p.riemann) dx bc) t u = .ok w ∧ u + dt • w ∈ box n m M := by
  have hcop : Copies bc n := by
    rcases hname with rfl | rfl
    · exact periodic_copies wall il ir bc hbc n hn
    · exact outflow_copies wall il ir bc hbc n hn
  apply box_step _ bc n hcop m M dt t u hu
  intro ext hext hlen hall
  have hg : ∀ j < n + 2, m ≤ ext.getD j 0 ∧ ext.getD j 0 ≤ M := by
    intro j hj
    rw [List.getD_eq_getElem _ _ (by omega)]
    exact hall _ (List.getElem_mem _)
  have := C28_sharp_step p dx dt hdx d0 bc t (List.ofFn u) ext hext (by simpa using hlen)
    (fun hp => ⟨fun x hx => (hm hp).le.trans (hall x hx).1, fun j hj =>
      Or.inl ((hm hp).trans_le (hg j (by simp at hj; omega)).1)⟩)
    (by
      intro j hj
      rw [List.length_ofFn] at hj
      cases p with
      | advection =>
        simpa [Problem.speed, Problem.waveSpeed, Problem.fluxPrime] using d1 rfl
      | burgers =>
        simp only [Problem.speed, Problem.waveSpeed, Problem.fluxPrime]
        exact (mul_le_mul_of_nonneg_left (max_le (hg j (by omega)).2 (hg (j + 1) (by omega)).2)
          d0).trans (d2 rfl))
  simpa using this

/-- C28, runs: with periodic or outflow boundaries, for forward Euler, Heun and SSP3, any number of
steps with `dt a ≤ dx`, where `a = 1` for advection and `a = M` for Burgers' equation with data in
`[m, M]`, `m > 0`: the run does not raise and never leaves `[m, M]`. -/
theorem C28_run (p : Problem) (n : ℕ) (hn : 0 < n) (wall : Option (K → K)) (il ir : Option (K → K))
    (bc : BC K K) (name : String) (hname : name = "periodic" ∨ name = "outflow")
    (hbc : build wall [name] 1 il ir = .ok bc) (dx : K) (hdx : 0 < dx) (m M : K)
    (hm : p = .burgers → 0 < m) (steps : List K)
    (hsteps : ∀ dt ∈ steps, 0 ≤ dt ∧ (p = .advection → dt ≤ dx) ∧ (p = .burgers → dt * M ≤ dx))
    (T : Tableau K) (hT : T = forwardEuler K ∨ T = heun K ∨ T = ssp3 K)
    (s : Solver K (Fin n → K)) (hs : ∀ i, m ≤ s.solution i ∧ s.solution i ≤ M) :
    ∃ s', s.runE T (vecRhs n (rhs (laxFriedrichs p.riemann) dx bc)) steps = .ok s' ∧
      ∀ i, m ≤ s'.solution i ∧ s'.solution i ≤ M := by
  refine sspE_run _ (box n m M) (box_convex n m M) steps ?_ s hs T hT
  intro dt hdt t u hu
  obtain ⟨d0, d1, d2⟩ := hsteps dt hdt
  exact lf_box_step p n hn wall il ir bc name hname hbc dx hdx m M hm dt d0 d1 d2 t u hu

/-- Two neighbouring zero states of Burgers' equation make the Lax-Friedrichs scheme divide by zero:
the claim C28 needs positive data. -/
theorem C28_zero_states (bc : BC K K) (dx t : K) (v ext : List K)
    (hext : bc.extend v (some t) = .ok ext) (j : ℕ) (hj : j + 1 < ext.length)
    (h0 : ext.getD j 0 = 0) (h1 : ext.getD (j + 1) 0 = 0) (w : List K) :
    rhs (laxFriedrichs Problem.burgers.riemann) dx bc t v ≠ .ok w := by
  intro h
  obtain ⟨g, hdx, hg, _⟩ := rhs_twoPoint_inv Problem.burgers.riemann.nodeFlux dx bc t v ext w hext
    (ext.length - 2) (by omega) h
  have := hg j (by omega)
  rw [List.getD_eq_getElem _ _ (by omega)] at h0 h1
  rw [h0, h1] at this
  simp [Riemann.nodeFlux, Riemann.solve, Problem.riemann, Problem.waveSpeed, Problem.fluxPrime]
    at this

/-- With negative data the claim C28 is false for Burgers' equation: one forward Euler step with
`dt a / dx = 1 / 2` on three periodic cells leaves the range of the data. -/
theorem C28_negative_counterexample :
    okAnd (rhs (K := ℚ) (laxFriedrichs (Problem.burgers.riemann (K := ℚ))) 1
      ⟨[.copy (-1)], [.copy 0], true⟩ 0 [-1, -2, -1]) (fun w => decide ((-2 : ℚ) + 1 / 4 * w.getD 1 0 < -2)) = true := by
  decide +kernel

/-- Non-vacuity of C28: Burgers' equation on three cells. -/
example : okAnd ((Solver.init ![1, 2, 3] 0 : Solver ℚ (Fin 3 → ℚ)).runE (ssp3 ℚ)
    (vecRhs 3 (rhs (K := ℚ) (laxFriedrichs (Problem.burgers.riemann (K := ℚ))) 1
      ⟨[.copy (-1)], [.copy 0], true⟩)) [1 / 3, 1 / 3])
    (fun s => decide (s.solution 0 ≠ 1 ∧ ∀ i, 1 ≤ s.solution i ∧ s.solution i ≤ 3)) = true := by
  decide +kernel

/-! ### C30 -/

/-- The two limited states lie within their bounds for the flux `F`. -/
def StatesWithin (F w barL barR maxL maxR minL minR : K) : Prop :=
  (minL ≤ barL - F / w ∧ barL - F / w ≤ maxL) ∧ (minR ≤ barR + F / w ∧ barR + F / w ≤ maxR)

/-- C30.  For positive speeds and bounds that contain the bar states the limited flux keeps the
limited states within the bounds, is at most as large as the given flux and has the same sign, is
the given flux whenever that one keeps the states within the bounds, and exchanging the two sides
together with the sign of the flux negates it. -/
theorem C30_limiter (f w barL barR maxL maxR minL minR : K) (hw : 0 < w)
    (hL : minL ≤ barL ∧ barL ≤ maxL) (hR : minR ≤ barR ∧ barR ≤ maxR) :
    let F := limitNode f w barL barR maxL maxR minL minR
    StatesWithin F w barL barR maxL maxR minL minR ∧
    |F| ≤ |f| ∧ 0 ≤ f * F ∧
    (StatesWithin f w barL barR maxL maxR minL minR → F = f) ∧
    limitNode (-f) w barR barL maxR maxL minR minL = -F := by
  intro F
  obtain ⟨h1, h2, h3, h4⟩ := limitNode_spec f w barL barR maxL maxR minL minR hw hL hR
  refine ⟨⟨h2, h1⟩, ?_, ?_, ?_, ?_⟩
  · rcases le_total 0 f with h | h
    · obtain ⟨a, b⟩ := h3 h
      rw [abs_of_nonneg a, abs_of_nonneg h]; exact b
    · obtain ⟨a, b⟩ := h4 h
      rw [abs_of_nonpos b, abs_of_nonpos h]; exact neg_le_neg a
  · rcases le_total 0 f with h | h
    · exact mul_nonneg h (h3 h).1
    · exact mul_nonneg_of_nonpos_of_nonpos h (h4 h).2
  · rintro ⟨⟨a1, a2⟩, a3, a4⟩
    have e : w * (f / w) = f := mul_div_cancel₀ f hw.ne'
    have b1 : f ≤ w * min (maxR - barR) (barL - minL) := by
      rw [← e]; exact mul_le_mul_of_nonneg_left (le_min (by linarith) (by linarith)) hw.le
    have b2 : w * max (minR - barR) (barL - maxL) ≤ f := by
      conv_rhs => rw [← e]
      exact mul_le_mul_of_nonneg_left (max_le (by linarith) (by linarith)) hw.le
    change max _ (min _ f) = f
    rw [min_eq_right b1, max_eq_right b2]
  · change max (w * max (minL - barL) (barR - maxR)) (min (w * min (maxL - barL) (barR - minR)) (-f))
      = -max (w * max (minR - barR) (barL - maxL)) (min (w * min (maxR - barR) (barL - minL)) f)
    have e1 : max (minL - barL) (barR - maxR) = -min (maxR - barR) (barL - minL) := by
      rw [max_comm, ← max_neg_neg, neg_sub, neg_sub]
    have e2 : min (maxL - barL) (barR - minR) = -max (minR - barR) (barL - maxL) := by
      rw [min_comm, ← min_neg_neg, neg_sub, neg_sub]
    rw [e1, e2, mul_neg, mul_neg, min_neg_neg, max_neg_neg, neg_inj]
    set A := w * min (maxR - barR) (barL - minL) with hA
    set B := w * max (minR - barR) (barL - maxL) with hB
    have hBA : B ≤ A := by
      apply mul_le_mul_of_nonneg_left _ hw.le
      exact (max_le (by linarith) (by linarith) : _ ≤ (0 : K)).trans
        (le_min (by linarith) (by linarith))
    rcases le_total A f with h | h
    · rw [min_eq_left (h.trans (le_max_right _ _)), min_eq_left h, max_eq_right hBA]
    · rw [min_eq_right (max_le hBA h), min_eq_right h]

/-- The limiter of a whole array works node by node and returns opposite left and right fluxes. -/
theorem C30_arrays (f w barL barR M m : List K) :
    (limit f w barL barR M m).1 = (limit f w barL barR M m).2.map (fun x => -x) ∧
    (limit f w barL barR M m).2.length = f.length ∧
    ∀ i < f.length, (limit f w barL barR M m).2.getD i 0 =
      limitNode (f.getD i 0) (w.getD i 0) (barL.getD i 0) (barR.getD i 0) (M.getD i 0)
        (M.getD (i + 1) 0) (m.getD i 0) (m.getD (i + 1) 0) := by
  refine ⟨rfl, by simp [limit], ?_⟩
  intro i hi
  simp only [limit]
  exact range_map_getD _ _ _ hi

/-- Non-vacuity of C30: a flux that is cut. -/
example : limitNode (5 : ℚ) 2 1 1 2 2 0 0 = 2 := by norm_num [limitNode]

/-! ### C31 -/

theorem neighbourArray_rows (n : ℕ) (p : Bool) (nb : List (List ℤ))
    (h : neighbourArray n p = .ok nb) (u : List K) (hu : u.length = n) :
    ∀ row ∈ nb, row ≠ [] ∧ ∀ k ∈ row, 0 ≤ k ∧ k < u.length := by
  obtain ⟨hl, hm⟩ := mem_neighbourArray n p nb h
  intro row hrow
  obtain ⟨i, hi, rfl⟩ := List.getElem_of_mem hrow
  have hin : i < n := by omega
  constructor
  · intro he
    have : (i : ℤ) ∈ nb[i] := by
      rw [hm i hi, mem_neighbourSet n p i hin]; omega
    rw [he] at this
    simp at this
  · intro k hk
    rw [hm i hi, mem_neighbourSet n p i hin] at hk
    rw [hu]
    omega

theorem dofVector_ext (ext : List K) (h : 2 ≤ ext.length) :
    dofVector [ext.dropLast, ext.tail] = .ok ext := by
  have hne : ext ≠ [] := by rintro rfl; simp at h
  have htl : ext.tail.length = ext.length - 1 := List.length_tail
  have hlast : Py.get ext.tail (-1) = .ok (ext.getLast hne) := by
    have := get_neg ext.tail (i := 0) (by omega)
    simp only [Nat.cast_zero, neg_zero, zero_sub, zero_add] at this
    rw [this]
    congr 1
    rw [List.getLast_eq_getElem, List.getElem_tail]
    congr 1
    omega
  simp only [dofVector, List.mapM_cons, List.mapM_nil, hlast]
  change Except.ok (ext.dropLast ++ [ext.getLast hne]) = _
  rw [List.dropLast_append_getLast]

/-- What the Riemann solver computes at a node. -/
def node (p : Problem) (x y : K) : RiemannResult K K :=
  ⟨lfFlux p x y, barState (p.flux x) (p.flux y) (p.speed x y) x y, p.flux x, p.flux y,
    -p.speed x y, p.speed x y⟩

/-- Limited antidiffusive flux at node `j` of an extended vector. -/
def nodeLimited (p : Problem) (maxs mins hs ext : List K) (j : ℕ) : K :=
  limitNode (hs.getD j 0 - lfFlux p (ext.getD j 0) (ext.getD (j + 1) 0))
    (node p (ext.getD j 0) (ext.getD (j + 1) 0)).speedRight
    (node p (ext.getD j 0) (ext.getD (j + 1) 0)).state
    (node p (ext.getD j 0) (ext.getD (j + 1) 0)).state
    (maxs.getD j 0) (maxs.getD (j + 1) 0) (mins.getD j 0) (mins.getD (j + 1) 0)

/-- Node by node description of the limited flux on an extended vector. -/
theorem mcl_call (p : Problem) (high : List K → List K → Except Error (List K)) (n : ℕ)
    (per : Bool) (nb : List (List ℤ)) (hnb : neighbourArray (n + 2) per = .ok nb) (ext hs : List K)
    (hlen : ext.length = n + 2) (hhigh : high ext.dropLast ext.tail = .ok hs)
    (hhs : hs.length = n + 1)
    (hpos : ∀ j < n + 1, 0 < p.speed (ext.getD j 0) (ext.getD (j + 1) 0)) :
    ∃ maxs mins, localMaximum nb ext = .ok maxs ∧ localMinimum nb ext = .ok mins ∧
      (mcl p.riemann high nb).call [ext.dropLast, ext.tail] = .ok (
        (List.range (n + 1)).map (fun j =>
          -(lfFlux p (ext.getD j 0) (ext.getD (j + 1) 0)) +
            -nodeLimited p maxs mins hs ext j),
        (List.range (n + 1)).map (fun j =>
          lfFlux p (ext.getD j 0) (ext.getD (j + 1) 0) + nodeLimited p maxs mins hs ext j)) := by
  obtain ⟨maxs, hM, _⟩ := localMaximum_spec nb ext (neighbourArray_rows _ per nb hnb ext hlen)
  obtain ⟨mins, hm, _⟩ := localMinimum_spec nb ext (neighbourArray_rows _ per nb hnb ext hlen)
  refine ⟨maxs, mins, hM, hm, ?_⟩
  have hz : zipE p.riemann.solve ext.dropLast ext.tail =
      .ok ((List.range (n + 1)).map (fun j => node p (ext.getD j 0) (ext.getD (j + 1) 0))) := by
    obtain ⟨fs, hfs⟩ := zipE_ok p.riemann.solve ext.dropLast ext.tail (by
      intro i h2 h3
      rw [List.length_dropLast] at h2
      rw [List.getElem_dropLast, List.getElem_tail]
      rw [← List.getD_eq_getElem ext 0, ← List.getD_eq_getElem ext 0]
      exact ⟨_, riemann_solve p _ _ (hpos i (by omega))⟩)
    obtain ⟨h1, h2⟩ := zipE_ok_iff _ _ _ fs hfs
    rw [hfs]
    congr 1
    have hl : fs.length = n + 1 := by rw [h1]; simp [hlen]
    apply List.ext_getElem
    · simp [hl]
    · intro i hi1 hi2
      have := h2 i hi1 (by simp; omega) (by simp; omega)
      rw [List.getElem_dropLast, List.getElem_tail, ← List.getD_eq_getElem ext 0,
        ← List.getD_eq_getElem ext 0, riemann_solve p _ _ (hpos i (by omega))] at this
      simp only [List.getElem_map, List.getElem_range]
      exact (Except.ok.inj this).symm
  simp only [mcl, hz, hhigh, dofVector_ext ext (by omega), hM, hm, List.map_map]
  congr 2
  · apply List.ext_getElem
    · simp [limit, hhs]
    · intro i hi1 hi2
      have hi : i < n + 1 := by simpa using hi2
      simp only [limit, List.getElem_zipWith, List.getElem_map, List.getElem_range,
        Function.comp_apply, node, nodeLimited, List.getD_eq_getElem, List.length_zipWith, List.length_map,
        List.length_range, hhs, hi, Nat.min_self]
  · apply List.ext_getElem
    · simp [limit, hhs]
    · intro i hi1 hi2
      have hi : i < n + 1 := by simpa using hi2
      simp only [limit, List.getElem_zipWith, List.getElem_map, List.getElem_range,
        Function.comp_apply, node, nodeLimited, List.getD_eq_getElem, List.length_zipWith, List.length_map,
        List.length_range, hhs, hi, Nat.min_self]

theorem mcl_radius (R : Riemann K K) (high : List K → List K → Except Error (List K))
    (nb : List (List ℤ)) : (mcl R high nb).dim / 2 = 1 := by
  simp [mcl]

/-- Local bounds of the extended vector: all values of the row lie within, and they are attained. -/
theorem bounds_spec (n : ℕ) (per : Bool) (nb : List (List ℤ)) (hnb : neighbourArray n per = .ok nb)
    (ext maxs mins : List K) (hlen : ext.length = n) (hM : localMaximum nb ext = .ok maxs)
    (hm : localMinimum nb ext = .ok mins) (i : ℕ) (hi : i < n) :
    (∀ k : ℕ, (k : ℤ) ∈ neighbourSet n per i →
      mins.getD i 0 ≤ ext.getD k 0 ∧ ext.getD k 0 ≤ maxs.getD i 0) ∧
    (∃ k : ℕ, (k : ℤ) ∈ neighbourSet n per i ∧ maxs.getD i 0 = ext.getD k 0) ∧
    (∃ k : ℕ, (k : ℤ) ∈ neighbourSet n per i ∧ mins.getD i 0 = ext.getD k 0) := by
  have hrows := neighbourArray_rows n per nb hnb ext hlen
  obtain ⟨hl, hmem⟩ := mem_neighbourArray n per nb hnb
  obtain ⟨M', h1, _, h2⟩ := localMaximum_spec nb ext hrows
  obtain ⟨m', g1, _, g2⟩ := localMinimum_spec nb ext hrows
  rw [hM] at h1
  cases h1
  rw [hm] at g1
  cases g1
  have hi' : i < nb.length := by omega
  have hnn : ∀ k ∈ nb[i], 0 ≤ k := fun k hk => ((hrows _ (List.getElem_mem hi')).2 k hk).1
  refine ⟨?_, ?_, ?_⟩
  · intro k hk
    rw [← hmem i hi'] at hk
    have a := (h2 i hi').1 _ hk
    have b := (g2 i hi').1 _ hk
    rw [Int.toNat_natCast] at a b
    exact ⟨b, a⟩
  · obtain ⟨k, hk, e⟩ := (h2 i hi').2
    refine ⟨k.toNat, ?_, e⟩
    rw [Int.toNat_of_nonneg (hnn k hk), ← hmem i hi']
    exact hk
  · obtain ⟨k, hk, e⟩ := (g2 i hi').2
    refine ⟨k.toNat, ?_, e⟩
    rw [Int.toNat_of_nonneg (hnn k hk), ← hmem i hi']
    exact hk

/-- C31, local maximum principle: for every target flux (`hs` are its values), every extended vector
with admissible neighbouring states, and a step whose product with the sum of the two speeds of each
cell is at most the cell width, a forward Euler step with the limited scheme is defined and keeps
the value of each cell in the range of itself and its neighbours. -/
theorem C31_local_maximum_principle (p : Problem) (high : List K → List K → Except Error (List K))
    (per : Bool) (dx dt : K) (hdx : 0 < dx) (hdt : 0 ≤ dt) (bc : BC K K) (t : K)
    (v ext hs : List K) (nb : List (List ℤ)) (hnb : neighbourArray (v.length + 2) per = .ok nb)
    (hext : bc.extend v (some t) = .ok ext) (hlen : ext.length = v.length + 2)
    (hhigh : high ext.dropLast ext.tail = .ok hs) (hhs : hs.length = v.length + 1)
    (hadm : ∀ j < v.length + 1, Admissible p (ext.getD j 0) (ext.getD (j + 1) 0))
    (hcfl : ∀ i < v.length, dt * (p.speed (ext.getD i 0) (ext.getD (i + 1) 0) +
      p.speed (ext.getD (i + 1) 0) (ext.getD (i + 2) 0)) ≤ dx) :
    ∃ w, rhs (mcl p.riemann high nb) dx bc t v = .ok w ∧ w.length = v.length ∧
      ∀ i < v.length, InRange3 (ext.getD (i + 1) 0 + dt * w.getD i 0)
        (ext.getD i 0) (ext.getD (i + 1) 0) (ext.getD (i + 2) 0) := by
  obtain ⟨maxs, mins, hM, hm, hcall⟩ := mcl_call p high v.length per nb hnb ext hs hlen hhigh hhs
    (fun j hj => (hadm j hj).1)
  refine ⟨_, rhs_of_call _ (mcl_radius _ _ _) dx hdx.ne' bc t v ext hext v.length hlen _ _ hcall, by simp, ?_⟩
  intro i hi
  rw [range_map_getD _ _ _ hi]
  -- the limited states of node `j`
  have key : ∀ j < v.length + 1,
      let x := ext.getD j 0
      let y := ext.getD (j + 1) 0
      let L := nodeLimited p maxs mins hs ext j
      let bar := barState (p.flux x) (p.flux y) (p.speed x y) x y
      (mins.getD (j + 1) 0 ≤ bar + L / p.speed x y ∧ bar + L / p.speed x y ≤ maxs.getD (j + 1) 0) ∧
      (mins.getD j 0 ≤ bar - L / p.speed x y ∧ bar - L / p.speed x y ≤ maxs.getD j 0) := by
    intro j hj x y L bar
    obtain ⟨a1, a2⟩ := hadm j hj
    have r1 := (bounds_spec (v.length + 2) per nb hnb ext maxs mins hlen hM hm j (by omega)).1
    have r2 := (bounds_spec (v.length + 2) per nb hnb ext maxs mins hlen hM hm (j + 1) (by omega)).1
    have c1 := r1 j (by rw [mem_neighbourSet _ _ _ (by omega)]; omega)
    have c2 := r1 (j + 1) (by rw [mem_neighbourSet _ _ _ (by omega)]; omega)
    have c3 := r2 j (by rw [mem_neighbourSet _ _ _ (by omega)]; omega)
    have c4 := r2 (j + 1) (by rw [mem_neighbourSet _ _ _ (by omega)]; omega)
    have hL := barState_mem _ _ _ x y _ _ a1 a2 c1.1 c2.1 c1.2 c2.2
    have hR := barState_mem _ _ _ x y _ _ a1 a2 c3.1 c4.1 c3.2 c4.2
    obtain ⟨h1, h2, _⟩ := limitNode_spec (hs.getD j 0 - lfFlux p x y) (p.speed x y) bar bar
      (maxs.getD j 0) (maxs.getD (j + 1) 0) (mins.getD j 0) (mins.getD (j + 1) 0) a1 hL hR
    exact ⟨h1, h2⟩
  have k1 := (key i (by omega)).1
  have k2 := (key (i + 1) (by omega)).2
  -- the bounds of the cell are those of its stencil
  obtain ⟨b1, ⟨kM, hkM, eM⟩, ⟨km, hkm, em⟩⟩ :=
    bounds_spec (v.length + 2) per nb hnb ext maxs mins hlen hM hm (i + 1) (by omega)
  have hk : ∀ k : ℕ, (k : ℤ) ∈ neighbourSet (v.length + 2) per (i + 1) →
      k = i ∨ k = i + 1 ∨ k = i + 2 := by
    intro k hk
    rw [mem_neighbourSet _ _ _ (by omega)] at hk
    omega
  have m1 : ∀ k, k = i ∨ k = i + 1 ∨ k = i + 2 →
      min (ext.getD i 0) (min (ext.getD (i + 1) 0) (ext.getD (i + 2) 0)) ≤ ext.getD k 0 := by
    rintro k (rfl | rfl | rfl)
    · exact min_le_left _ _
    · exact (min_le_right _ _).trans (min_le_left _ _)
    · exact (min_le_right _ _).trans (min_le_right _ _)
  have M1 : ∀ k, k = i ∨ k = i + 1 ∨ k = i + 2 →
      ext.getD k 0 ≤ max (ext.getD i 0) (max (ext.getD (i + 1) 0) (ext.getD (i + 2) 0)) := by
    rintro k (rfl | rfl | rfl)
    · exact le_max_left _ _
    · exact (le_max_left _ _).trans (le_max_right _ _)
    · exact (le_max_right _ _).trans (le_max_right _ _)
  have lo := m1 km (hk km hkm)
  have up := M1 kM (hk kM hkM)
  rw [← em] at lo
  rw [← eM] at up
  have hy := b1 (i + 1) (by rw [mem_neighbourSet _ _ _ (by omega)]; omega)
  obtain ⟨p1, q1⟩ := hadm i (by omega)
  obtain ⟨p2, q2⟩ := hadm (i + 1) (by omega)
  have hc := hcfl i hi
  unfold InRange3
  have : mins.getD (i + 1) 0 ≤ _ ∧ _ ≤ maxs.getD (i + 1) 0 :=
    cell_bound (ext.getD (i + 1) 0) _ _ _ _ (dt / dx) _ _ (by positivity) p1.le p2.le
      (by rw [div_mul_eq_mul_div, div_le_one hdx]; exact hc) hy k1 k2
  refine ⟨lo.trans (this.1.trans (le_of_eq ?_)), (le_of_eq ?_).trans (this.2.trans up)⟩
  all_goals
    unfold lfFlux
    rw [show i + 2 = i + 1 + 1 from rfl] at *
    rw [smul_eq_mul, llf_eq_right _ _ _ _ _ p1.ne', llf_eq_left _ _ _ _ _ p2.ne']
    have d1 := p1.ne'
    have d2 := p2.ne'
    generalize nodeLimited p maxs mins hs ext i = L1
    generalize nodeLimited p maxs mins hs ext (i + 1) = L2
    generalize p.speed (ext.getD i 0) (ext.getD (i + 1) 0) = w1 at *
    generalize p.speed (ext.getD (i + 1) 0) (ext.getD (i + 1 + 1) 0) = w2 at *
    field_simp
    ring

/-- C31, runs: for every target flux that returns one value per node, with periodic or outflow
boundaries, forward Euler, Heun or SSP3 and steps with `2 dt a ≤ dx` (`a = 1` for advection, `a = M`
for Burgers' equation with data in `[m, M]`, `m > 0`), the run does not raise and stays in
`[m, M]`. -/
theorem C31_run (p : Problem) (high : List K → List K → Except Error (List K))
    (hhigh : ∀ l r, l.length = r.length → ∃ hs, high l r = .ok hs ∧ hs.length = l.length)
    (n : ℕ) (hn : 0 < n) (per : Bool) (nb : List (List ℤ)) (hnb : neighbourArray (n + 2) per = .ok nb)
    (wall : Option (K → K)) (il ir : Option (K → K))
    (bc : BC K K) (name : String) (hname : name = "periodic" ∨ name = "outflow")
    (hbc : build wall [name] 1 il ir = .ok bc) (dx : K) (hdx : 0 < dx) (m M : K)
    (hm : p = .burgers → 0 < m) (steps : List K)
    (hsteps : ∀ dt ∈ steps, 0 ≤ dt ∧ (p = .advection → 2 * dt ≤ dx) ∧
      (p = .burgers → 2 * dt * M ≤ dx))
    (T : Tableau K) (hT : T = forwardEuler K ∨ T = heun K ∨ T = ssp3 K)
    (s : Solver K (Fin n → K)) (hs : ∀ i, m ≤ s.solution i ∧ s.solution i ≤ M) :
    ∃ s', s.runE T (vecRhs n (rhs (mcl p.riemann high nb) dx bc)) steps = .ok s' ∧
      ∀ i, m ≤ s'.solution i ∧ s'.solution i ≤ M := by
  have hcop : Copies bc n := by
    rcases hname with rfl | rfl
    · exact periodic_copies wall il ir bc hbc n hn
    · exact outflow_copies wall il ir bc hbc n hn
  refine sspE_run _ (box n m M) (box_convex n m M) steps ?_ s hs T hT
  intro dt hdt t u hu
  obtain ⟨d0, d1, d2⟩ := hsteps dt hdt
  apply box_step _ bc n hcop m M dt t u hu
  intro ext hext hlen hall
  have hg : ∀ j < n + 2, m ≤ ext.getD j 0 ∧ ext.getD j 0 ≤ M := by
    intro j hj
    rw [List.getD_eq_getElem _ _ (by omega)]
    exact hall _ (List.getElem_mem _)
  obtain ⟨hs', hh1, hh2⟩ := hhigh ext.dropLast ext.tail (by simp)
  have hv : (List.ofFn u).length = n := List.length_ofFn
  have := C31_local_maximum_principle p high per dx dt hdx d0 bc t (List.ofFn u) ext hs' nb
    (by rw [hv]; exact hnb) hext (by rw [hv]; exact hlen) hh1 (by rw [hh2, hv]; simp [hlen])
    (by
      intro j hj
      rw [hv] at hj
      cases p with
      | advection => exact admissible_advection _ _
      | burgers =>
        have p1 := (hm rfl).trans_le (hg j (by omega)).1
        exact admissible_burgers _ _ p1.le ((hm rfl).le.trans (hg (j + 1) (by omega)).1)
          (Or.inl p1))
    (by
      intro i hi
      rw [hv] at hi
      cases p with
      | advection =>
        simp only [Problem.speed, Problem.waveSpeed, Problem.fluxPrime, max_self]
        linarith [d1 rfl]
      | burgers =>
        simp only [Problem.speed, Problem.waveSpeed, Problem.fluxPrime]
        have e1 := mul_le_mul_of_nonneg_left
          (max_le (hg i (by omega)).2 (hg (i + 1) (by omega)).2) d0
        have e2 := mul_le_mul_of_nonneg_left
          (max_le (hg (i + 1) (by omega)).2 (hg (i + 2) (by omega)).2) d0
        linarith [d2 rfl])
  rw [hv] at this
  exact this

/-- The central target flux of the default scheme returns one value per node. -/
theorem central_total (p : Problem) (l r : List K) (h : l.length = r.length) :
    ∃ hs, zipE (centralNode K p.riemann.flux) l r = .ok hs ∧ hs.length = l.length := by
  obtain ⟨hs, e⟩ := zipE_ok (centralNode K p.riemann.flux) l r (fun i _ _ => ⟨_, rfl⟩)
  refine ⟨hs, e, ?_⟩
  have := (zipE_ok_iff _ _ _ hs e).1
  omega

/-- C31 for the scheme as the solver configures it (`get_mcl_flux` with the central flux). -/
theorem C31_run_default (p : Problem) (n : ℕ) (hn : 0 < n) (per : Bool)
    (wall : Option (K → K)) (il ir : Option (K → K))
    (bc : BC K K) (name : String) (hname : name = "periodic" ∨ name = "outflow")
    (hbc : build wall [name] 1 il ir = .ok bc) (dx : K) (hdx : 0 < dx) (m M : K)
    (hm : p = .burgers → 0 < m) (steps : List K)
    (hsteps : ∀ dt ∈ steps, 0 ≤ dt ∧ (p = .advection → 2 * dt ≤ dx) ∧
      (p = .burgers → 2 * dt * M ≤ dx))
    (T : Tableau K) (hT : T = forwardEuler K ∨ T = heun K ∨ T = ssp3 K)
    (s : Solver K (Fin n → K)) (hs : ∀ i, m ≤ s.solution i ∧ s.solution i ≤ M) :
    ∃ F, mclOf p n per = .ok F ∧ ∃ s', s.runE T (vecRhs n (rhs F dx bc)) steps = .ok s' ∧
      ∀ i, m ≤ s'.solution i ∧ s'.solution i ≤ M := by
  obtain ⟨nb, hnb⟩ := neighbourArray_ok (n + 2) (by omega) per
  refine ⟨mcl p.riemann (fun l r => zipE (centralNode K p.riemann.flux) l r) nb, ?_,
    C31_run p _ (central_total p) n hn per nb hnb wall il ir bc name hname hbc dx hdx m M hm steps
      hsteps T hT s hs⟩
  unfold mclOf
  rw [hnb]

/-! ### C32 -/

/-- Advection, three periodic cells. -/
def exampleMclRhs : Except Error (List ℚ) :=
  match mclOf (K := ℚ) .advection 3 true with
  | .error e => .error e
  | .ok F => rhs (K := ℚ) F 1 ⟨[.copy (-1)], [.copy 0], true⟩ 0 [1, -1, 0]

/-- C32 is false: the limited scheme on three periodic cells changes the total mass. -/
theorem C32_counterexample : exampleMclRhs = .ok [-1, 2, -3 / 2] ∧ ([-1, 2, -3 / 2] : List ℚ).sum ≠ 0 := by
  constructor
  · decide +kernel
  · norm_num

/-- The mass balance of the limited scheme: the total changes by the difference of the fluxes at the
two ends of the mesh, for all boundary conditions and target fluxes. -/
theorem C32_mass_balance (p : Problem) (high : List K → List K → Except Error (List K))
    (per : Bool) (dx : K) (hdx : dx ≠ 0) (bc : BC K K) (t : K)
    (v ext hs : List K) (nb : List (List ℤ)) (hnb : neighbourArray (v.length + 2) per = .ok nb)
    (hext : bc.extend v (some t) = .ok ext) (hlen : ext.length = v.length + 2)
    (hhigh : high ext.dropLast ext.tail = .ok hs) (hhs : hs.length = v.length + 1)
    (hpos : ∀ j < v.length + 1, 0 < p.speed (ext.getD j 0) (ext.getD (j + 1) 0)) :
    ∃ w fl fr, (mcl p.riemann high nb).call [ext.dropLast, ext.tail] = .ok (fl, fr) ∧
      fl = fr.map (fun x => -x) ∧ fr.length = v.length + 1 ∧
      rhs (mcl p.riemann high nb) dx bc t v = .ok w ∧
      dx * w.sum = fr.getD 0 0 - fr.getD v.length 0 := by
  obtain ⟨maxs, mins, hM, hm, hcall⟩ := mcl_call p high v.length per nb hnb ext hs hlen hhigh hhs
    hpos
  refine ⟨_, _, _, hcall, ?_, by simp,
    rhs_of_call _ (mcl_radius _ _ _) dx hdx bc t v ext hext v.length hlen _ _ hcall, ?_⟩
  · rw [List.map_map]
    apply List.map_congr_left
    intro j _
    simp only [Function.comp_apply, neg_add]
  · rw [range_map_getD _ _ _ (by omega), range_map_getD _ _ _ (by omega)]
    have : ∀ (g : ℕ → K) (n : ℕ), dx * ((List.range n).map (fun i =>
        (1 / dx) • (g i + -g (i + 1)))).sum = g 0 - g n := by
      intro g n
      induction n with
      | zero => simp
      | succ n ih =>
        rw [List.range_succ, List.map_append, List.sum_append, mul_add, ih]
        simp only [List.map_cons, List.map_nil, List.sum_cons, List.sum_nil, add_zero, smul_eq_mul]
        field_simp
        ring
    rw [← this (fun j => lfFlux p (ext.getD j 0) (ext.getD (j + 1) 0) +
      nodeLimited p maxs mins hs ext j) v.length]
    simp only [neg_add]

/-- If all values of a row lie between the smaller and the larger of two values of the row, these are
the local bounds. -/
theorem bounds_eq (n : ℕ) (per : Bool) (nb : List (List ℤ)) (hnb : neighbourArray n per = .ok nb)
    (ext maxs mins : List K) (hlen : ext.length = n) (hM : localMaximum nb ext = .ok maxs)
    (hm : localMinimum nb ext = .ok mins) (i : ℕ) (hi : i < n) (a b : K)
    (ha : ∃ k : ℕ, (k : ℤ) ∈ neighbourSet n per i ∧ ext.getD k 0 = a)
    (hb : ∃ k : ℕ, (k : ℤ) ∈ neighbourSet n per i ∧ ext.getD k 0 = b)
    (hall : ∀ k : ℕ, (k : ℤ) ∈ neighbourSet n per i →
      min a b ≤ ext.getD k 0 ∧ ext.getD k 0 ≤ max a b) :
    maxs.getD i 0 = max a b ∧ mins.getD i 0 = min a b := by
  obtain ⟨h1, ⟨k1, hk1, e1⟩, ⟨k2, hk2, e2⟩⟩ :=
    bounds_spec n per nb hnb ext maxs mins hlen hM hm i hi
  obtain ⟨ka, hka, rfl⟩ := ha
  obtain ⟨kb, hkb, rfl⟩ := hb
  refine ⟨le_antisymm ?_ (max_le (h1 ka hka).2 (h1 kb hkb).2),
    le_antisymm (le_min (h1 ka hka).1 (h1 kb hkb).1) ?_⟩
  · rw [e1]; exact (hall k1 hk1).2
  · rw [e2]; exact (hall k2 hk2).1

/-- C32.  On periodic meshes with at least two cells the limited scheme keeps the total mass if the
values of the second and the last but one cell lie between those of the last and the first cell, for
every target flux with equal values at the two ends.  Missing for the full claim: other states, for
which it is false (`C32_counterexample`): the bounds of the ghost cells do not contain these two
cells. -/
theorem C32_conservative_partial (p : Problem) (high : List K → List K → Except Error (List K))
    (dx : K) (hdx : dx ≠ 0) (wall : Option (K → K)) (il ir : Option (K → K)) (bc : BC K K)
    (hbc : build wall ["periodic"] 1 il ir = .ok bc) (t : K) (v : List K) (hn : 2 ≤ v.length)
    (nb : List (List ℤ)) (hnb : neighbourArray (v.length + 2) true = .ok nb)
    (hhigh : ∀ ext, bc.extend v (some t) = .ok ext → ∃ hs, high ext.dropLast ext.tail = .ok hs ∧
      hs.length = v.length + 1 ∧ hs.getD 0 0 = hs.getD v.length 0)
    (hpos : ∀ ext, bc.extend v (some t) = .ok ext →
      ∀ j < v.length + 1, 0 < p.speed (ext.getD j 0) (ext.getD (j + 1) 0))
    (hseam : ∀ k, k = 1 ∨ k = v.length - 2 →
      min (v.getD (v.length - 1) 0) (v.getD 0 0) ≤ v.getD k 0 ∧
      v.getD k 0 ≤ max (v.getD (v.length - 1) 0) (v.getD 0 0)) :
    ∃ w, rhs (mcl p.riemann high nb) dx bc t v = .ok w ∧ w.sum = 0 := by
  set n := v.length with hnv
  set a := v.getD (n - 1) 0 with ha
  set b := v.getD 0 0 with hb
  have hext : bc.extend v (some t) = .ok (a :: v ++ [b]) := by
    rw [build_periodic] at hbc
    cases hbc
    have hv0 : v ≠ [] := by rintro rfl; simp at hnv; omega
    have e1 := periodic_left (K := K) v 1 (by omega) (some t)
    have e2 := periodic_right (K := K) v 1 (by omega) (some t)
    simp only [BC.extend, e1, e2]
    congr 2
    · rw [List.drop_length_sub_one hv0, ha, List.getD_eq_getElem _ _ (by omega),
        List.getLast_eq_getElem]
      rfl
    · rw [hb, List.getD_eq_getElem _ _ (by omega)]
      cases v with
      | nil => exact absurd rfl hv0
      | cons x xs => simp
  obtain ⟨hs, hh1, hh2, hh3⟩ := hhigh _ hext
  have hp := hpos _ hext
  set ext := a :: v ++ [b] with hextd
  have hlen : ext.length = n + 2 := by simp [hextd, hnv]
  have e0 : ext.getD 0 0 = a := by simp [hextd]
  have es : ∀ k < n, ext.getD (k + 1) 0 = v.getD k 0 := by
    intro k hk
    rw [List.getD_eq_getElem _ _ (by omega), List.getD_eq_getElem _ _ (by omega)]
    simp only [hextd, List.cons_append, List.getElem_cons_succ]
    rw [List.getElem_append_left (by omega)]
  have en1 : ext.getD (n + 1) 0 = b := by
    rw [List.getD_eq_getElem _ _ (by omega)]
    simp only [hextd, List.cons_append, List.getElem_cons_succ]
    rw [List.getElem_append_right (by omega)]
    simp
  have e1 : ext.getD 1 0 = b := es 0 (by omega)
  have en : ext.getD n 0 = a := by
    have := es (n - 1) (by omega)
    rw [Nat.sub_add_cancel (by omega)] at this
    exact this
  have e2 := es 1 (by omega)
  have en' : ext.getD (n - 1) 0 = v.getD (n - 2) 0 := by
    have := es (n - 2) (by omega)
    rw [show n - 2 + 1 = n - 1 by omega] at this
    exact this
  have s1 := hseam 1 (Or.inl rfl)
  have s2 := hseam (n - 2) (Or.inr rfl)
  rw [← e2] at s1
  rw [← en'] at s2
  obtain ⟨maxs, mins, hM, hm, hcall⟩ := mcl_call p high n true nb hnb ext hs hlen hh1 hh2 hp
  have hab : min a b ≤ a ∧ a ≤ max a b := ⟨min_le_left _ _, le_max_left _ _⟩
  have hba : min a b ≤ b ∧ b ≤ max a b := ⟨min_le_right _ _, le_max_right _ _⟩
  have bnd : ∀ i, (i = 0 ∨ i = 1 ∨ i = n ∨ i = n + 1) →
      maxs.getD i 0 = max a b ∧ mins.getD i 0 = min a b := by
    intro i hi
    have hin : i < n + 2 := by omega
    apply bounds_eq (n + 2) true nb hnb ext maxs mins hlen hM hm i hin a b
    · rcases hi with rfl | rfl | rfl | rfl
      · exact ⟨0, by rw [mem_neighbourSet _ _ _ hin]; omega, e0⟩
      · exact ⟨0, by rw [mem_neighbourSet _ _ _ hin]; omega, e0⟩
      · exact ⟨n, by rw [mem_neighbourSet _ _ _ hin]; omega, en⟩
      · exact ⟨n, by rw [mem_neighbourSet _ _ _ hin]; omega, en⟩
    · rcases hi with rfl | rfl | rfl | rfl
      · exact ⟨1, by rw [mem_neighbourSet _ _ _ hin]; omega, e1⟩
      · exact ⟨1, by rw [mem_neighbourSet _ _ _ hin]; omega, e1⟩
      · exact ⟨n + 1, by rw [mem_neighbourSet _ _ _ hin]; omega, en1⟩
      · exact ⟨n + 1, by rw [mem_neighbourSet _ _ _ hin]; omega, en1⟩
    · intro k hk
      have hk' : k = 0 ∨ k = 1 ∨ k = 2 ∨ k = n - 1 ∨ k = n ∨ k = n + 1 := by
        rw [mem_neighbourSet _ _ _ hin] at hk
        omega
      rcases hk' with rfl | rfl | rfl | rfl | rfl | rfl
      · rw [e0]; exact hab
      · rw [e1]; exact hba
      · exact s1
      · exact s2
      · rw [en]; exact hab
      · rw [en1]; exact hba
  have hL : nodeLimited p maxs mins hs ext 0 = nodeLimited p maxs mins hs ext n := by
    unfold nodeLimited
    rw [zero_add, (bnd 0 (by omega)).1, (bnd 0 (by omega)).2, (bnd 1 (by omega)).1,
      (bnd 1 (by omega)).2, (bnd n (by omega)).1, (bnd n (by omega)).2, (bnd (n + 1) (by omega)).1,
      (bnd (n + 1) (by omega)).2, e0, e1, en, en1, hh3]
  obtain ⟨w, fl, fr, g1, _, _, g4, g5⟩ :=
    C32_mass_balance p high true dx hdx bc t v ext hs nb hnb hext hlen hh1 hh2 hp
  rw [← hnv] at g5
  rw [hcall] at g1
  cases g1
  refine ⟨w, g4, ?_⟩
  rw [range_map_getD _ _ _ (by omega), range_map_getD _ _ _ (by omega), zero_add, e0, e1, en, en1,
    hL, sub_self] at g5
  exact (mul_eq_zero.mp g5).resolve_left hdx

/-- Non-vacuity of C31 and C32: a state whose seam condition holds (`1, 2` lies between `3` and `0`),
where the limiter is active; the total is kept. -/
example : okAnd (match mclOf (K := ℚ) .advection 4 true with
    | .error e => .error e
    | .ok F => rhs (K := ℚ) F 1 ⟨[.copy (-1)], [.copy 0], true⟩ 0 [0, 1, 2, 3])
    (fun w => decide (w.sum = 0 ∧ w ≠ [0, 0, 0, 0])) = true := by
  decide +kernel

end Verif.Scalar
