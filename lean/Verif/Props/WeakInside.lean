import Verif.Props.WeakSchemes

/-!
Helper lemmas for C139: runs with any boundary conditions.  The fluxes at the two ends of the domain may differ; away from
the ends the limits are weak solutions all the same.
-/

set_option linter.unusedSectionVars false

namespace Verif.WeakLimit

open Verif.Py Verif.Boundary Verif.FV Verif.ODE Verif.Weak Verif.EntropyLimit
open MeasureTheory Set

variable {V : Type*} [NormedAddCommGroup V] [NormedSpace ℝ V]

/-! ### Runge-Kutta steps -/

/-- Right-hand sides that are differences of fluxes near the one of the law, where the fluxes at the ends need not be the
same. -/
def FluxInside {n : ℕ} (sys : ℝ → (Fin n → V) → Except Py.Error (Fin n → V)) (dx : ℝ) (Q : V → V) (D : Set V) (C : ℝ) :
    Prop :=
  ∀ t v w, (∀ i, v i ∈ D) → sys t v = .ok w → ∃ H : ℕ → V, ‖H 0 - H n‖ ≤ C ∧
    (∀ i : Fin n, w i = (1 / dx) • (H i - H (i + 1))) ∧ ∑ i : Fin n, ‖H (i + 1) - Q (v i)‖ ≤ C * (jumps v + 1)

theorem rate_inside {n : ℕ} (hn : 0 < n) {dx : ℝ} (hdx : 0 < dx) {Q : V → V} {D : Set V} {C L : ℝ} (hC : 0 ≤ C)
    (hL : 0 ≤ L) (hlip : ∀ v ∈ D, ∀ v' ∈ D, ‖Q v - Q v'‖ ≤ L * ‖v - v'‖) (v w : Fin n → V) (hv : ∀ i, v i ∈ D)
    (H : ℕ → V) (h0 : ‖H 0 - H n‖ ≤ C) (h1 : ∀ i : Fin n, w i = (1 / dx) • (H i - H (i + 1)))
    (h2 : ∑ i : Fin n, ‖H (i + 1) - Q (v i)‖ ≤ C * (jumps v + 1)) :
    dx * ∑ i, ‖w i‖ ≤ (3 * C + L) * (jumps v + 1) := by
  classical
  set H' : ℕ → V := fun i => if i = 0 then H n else H i with hH'
  set w' : Fin n → V := fun i => (1 / dx) • (H' i - H' (i + 1)) with hw'
  have hs : ∀ i, H' (i + 1) = H (i + 1) := fun i => by simp [hH']
  have r := rate_bound hdx hlip v w' hv H' (by simp [hH', hn.ne']) (fun i => rfl) (E := C * (jumps v + 1))
    (by simpa only [hs] using h2)
  have e : ∀ i : Fin n, dx * ‖w i‖ ≤ dx * ‖w' i‖ + if i = ⟨0, hn⟩ then C else 0 := by
    intro i
    by_cases hi : i = ⟨0, hn⟩
    · rw [if_pos hi]
      have e1 : w i = w' i + (1 / dx) • (H 0 - H n) := by
        rw [h1, hw']
        simp only [hs]
        rw [← smul_add]
        congr 1
        subst hi
        simp [hH']
      have e2 : dx * ‖(1 / dx) • (H 0 - H n)‖ ≤ C := by
        rw [norm_smul, Real.norm_eq_abs, abs_of_pos (one_div_pos.2 hdx), ← mul_assoc, mul_one_div_cancel hdx.ne', one_mul]
        exact h0
      rw [e1]
      have := mul_le_mul_of_nonneg_left (norm_add_le (w' i) ((1 / dx) • (H 0 - H n))) hdx.le
      linarith
    · rw [if_neg hi, add_zero]
      have e1 : w i = w' i := by
        rw [h1, hw']
        simp only [hs]
        have : (i : ℕ) ≠ 0 := fun h => hi (Fin.ext h)
        simp [hH', this]
      rw [e1]
  rw [Finset.mul_sum]
  refine (Finset.sum_le_sum fun i _ => e i).trans ?_
  rw [Finset.sum_add_distrib, ← Finset.mul_sum]
  have e3 : ∑ i : Fin n, (if i = ⟨0, hn⟩ then C else 0) = C := by simp
  rw [e3]
  have := jumps_nonneg v
  nlinarith [mul_nonneg hC this]

/-- The values of the stages are near the state. -/
theorem stage_inside (T : Tableau ℝ) {Q : V → V} {D : Set V} {C L c : ℝ} (hC : 0 ≤ C) (hL : 0 ≤ L) (hc : 0 ≤ c)
    (hlip : ∀ v ∈ D, ∀ v' ∈ D, ‖Q v - Q v'‖ ≤ L * ‖v - v'‖) (m : ℕ) :
    ∃ Θ : ℝ, 0 ≤ Θ ∧ ∀ (n : ℕ) (sys : ℝ → (Fin n → V) → Except Py.Error (Fin n → V)) (dx dt t : ℝ) (u : Fin n → V)
      (k : ℕ → Fin n → V), 0 < n → 0 < dx → 0 ≤ dt → dt ≤ c * dx → FluxInside sys dx Q D C →
      StageEquations T sys t dt u m k →
      (∀ l < m, ∀ i, (u + dt • ∑ j ∈ Finset.range l, T.A l j • k j) i ∈ D) →
      ∀ l < m, ∑ i, ‖(u + dt • ∑ j ∈ Finset.range l, T.A l j • k j) i - u i‖ ≤ Θ * (jumps u + 1) := by
  induction m with
  | zero => exact ⟨0, le_rfl, fun _ _ _ _ _ _ _ _ _ _ _ _ _ _ l hl => absurd hl (Nat.not_lt_zero l)⟩
  | succ m ih =>
    obtain ⟨Θ, hΘ, ih⟩ := ih
    set Y := (3 * C + L) * (1 + 2 * Θ) with hY
    have hY0 : 0 ≤ Y := by positivity
    refine ⟨Θ + c * ((∑ j ∈ Finset.range m, |T.A m j|) * Y), by positivity, ?_⟩
    intro n sys dx dt t u k hn hdx hdt hdtc hF hk hD l hl
    have hk' : StageEquations T sys t dt u m k := fun i hi => hk i (by omega)
    have hD' := fun l (hl : l < m) => hD l (by omega)
    have old := ih n sys dx dt t u k hn hdx hdt hdtc hF hk' hD'
    have hj : 0 ≤ jumps u + 1 := by linarith [jumps_nonneg u]
    rcases Nat.lt_succ_iff_lt_or_eq.1 hl with hl | rfl
    · refine (old l hl).trans (mul_le_mul_of_nonneg_right ?_ hj)
      have : 0 ≤ c * ((∑ j ∈ Finset.range m, |T.A m j|) * Y) := by positivity
      linarith
    · have rate : ∀ j < l, dx * ∑ i, ‖k j i‖ ≤ Y * (jumps u + 1) := by
        intro j hj'
        obtain ⟨H, h0, h1, h2⟩ := hF _ _ _ (hD' j hj') (hk' j hj')
        refine (rate_inside hn hdx hC hL hlip _ _ (hD' j hj') H h0 h1 h2).trans ?_
        rw [hY, mul_assoc]
        refine mul_le_mul_of_nonneg_left ?_ (by positivity)
        refine (add_le_add (jumps_near _ u) le_rfl).trans ?_
        linarith [old j hj']
      have e1 : ∀ i, ‖(u + dt • ∑ j ∈ Finset.range l, T.A l j • k j) i - u i‖ ≤
          dt * ∑ j ∈ Finset.range l, |T.A l j| * ‖k j i‖ := by
        intro i
        rw [Pi.add_apply, add_sub_cancel_left, Pi.smul_apply, norm_smul, Real.norm_eq_abs, abs_of_nonneg hdt,
          Finset.sum_apply]
        refine mul_le_mul_of_nonneg_left ((norm_sum_le _ _).trans (le_of_eq ?_)) hdt
        exact Finset.sum_congr rfl fun j _ => by rw [Pi.smul_apply, norm_smul, Real.norm_eq_abs]
      refine (Finset.sum_le_sum fun i _ => e1 i).trans ?_
      rw [← Finset.mul_sum, Finset.sum_comm]
      have e2 : ∑ j ∈ Finset.range l, ∑ i, |T.A l j| * ‖k j i‖ = ∑ j ∈ Finset.range l, |T.A l j| * ∑ i, ‖k j i‖ :=
        Finset.sum_congr rfl fun j _ => by rw [Finset.mul_sum]
      rw [e2]
      have e3 : dt * ∑ j ∈ Finset.range l, |T.A l j| * ∑ i, ‖k j i‖ ≤
          c * ∑ j ∈ Finset.range l, |T.A l j| * (Y * (jumps u + 1)) := by
        refine (mul_le_mul_of_nonneg_right hdtc (by positivity)).trans ?_
        rw [mul_assoc]
        refine mul_le_mul_of_nonneg_left ?_ hc
        rw [Finset.mul_sum]
        refine Finset.sum_le_sum fun j hj' => ?_
        have := mul_le_mul_of_nonneg_left (rate j (Finset.mem_range.1 hj')) (abs_nonneg (T.A l j))
        linarith
      refine e3.trans ?_
      rw [← Finset.sum_mul]
      have : 0 ≤ Θ * (jumps u + 1) := by positivity
      linarith

/-- A Runge-Kutta step is a difference of fluxes near the one of the law. -/
theorem step_inside (T : Tableau ℝ) (hT : ∑ l ∈ Finset.range T.size, T.b l = 1) {Q : V → V} {D : Set V} {C L c : ℝ}
    (hC : 0 ≤ C) (hL : 0 ≤ L) (hc : 0 ≤ c) (hlip : ∀ v ∈ D, ∀ v' ∈ D, ‖Q v - Q v'‖ ≤ L * ‖v - v'‖) :
    ∃ C' : ℝ, 0 ≤ C' ∧ ∀ (n : ℕ) (sys : ℝ → (Fin n → V) → Except Py.Error (Fin n → V)) (dx dt : ℝ)
      (s s' : Solver ℝ (Fin n → V)), 0 < n → 0 < dx → 0 ≤ dt → dt ≤ c * dx → FluxInside sys dx Q D C →
      s.executeE T sys dt = .ok s' → (∀ i, s.solution i ∈ D) → (∀ v ∈ s'.stageValues, ∀ i, v i ∈ D) →
      ∃ H : ℕ → V, (∀ i : Fin n, s'.solution i = s.solution i - (dt / dx) • (H (i + 1) - H i)) ∧
        ∑ i : Fin n, ‖H (i + 1) - Q (s.solution i)‖ ≤ C' * (jumps s.solution + 1) := by
  obtain ⟨Θ, hΘ, hst⟩ := stage_inside T hC hL hc hlip T.size
  refine ⟨(∑ l ∈ Finset.range T.size, |T.b l|) * (C * (1 + 2 * Θ) + L * Θ), by positivity, ?_⟩
  intro n sys dx dt s s' hn hdx hdt hdtc hF hex hsD hvD
  obtain ⟨k, hk, -, hsol, -, hval⟩ := (C53_step T sys s s' dt).1 hex
  have hD : ∀ l < T.size, ∀ i, (s.solution + dt • ∑ j ∈ Finset.range l, T.A l j • k j) i ∈ D := by
    intro l hl
    refine hvD _ ?_
    rw [hval]
    exact List.mem_map.2 ⟨l, List.mem_range.2 hl, rfl⟩
  have near := hst n sys dx dt s.time s.solution k hn hdx hdt hdtc hF hk hD
  have key : ∀ l, ∃ H : ℕ → V, ∀ hl : l < T.size, (∀ i : Fin n, k l i = (1 / dx) • (H i - H (i + 1))) ∧
      ∑ i : Fin n, ‖H (i + 1) - Q ((s.solution + dt • ∑ j ∈ Finset.range l, T.A l j • k j) i)‖ ≤
        C * (jumps (s.solution + dt • ∑ j ∈ Finset.range l, T.A l j • k j) + 1) := by
    intro l
    by_cases hl : l < T.size
    · obtain ⟨H, -, h⟩ := hF _ _ _ (hD l hl) (hk l hl)
      exact ⟨H, fun _ => h⟩
    · exact ⟨fun _ => 0, fun h => absurd h hl⟩
  choose H hH using key
  refine ⟨fun i => ∑ l ∈ Finset.range T.size, T.b l • H l i, ?_, ?_⟩
  · intro i
    rw [hsol, Pi.add_apply, Pi.smul_apply, Finset.sum_apply, sub_eq_add_neg, ← smul_neg, neg_sub, ← Finset.sum_sub_distrib]
    congr 1
    rw [Finset.smul_sum, Finset.smul_sum]
    refine Finset.sum_congr rfl fun l hl => ?_
    rw [Pi.smul_apply, (hH l (Finset.mem_range.1 hl)).1 i, ← smul_sub, smul_smul, smul_smul, smul_smul]
    congr 1
    ring
  · have e1 : ∀ i : Fin n, ‖(∑ l ∈ Finset.range T.size, T.b l • H l (i + 1)) - Q (s.solution i)‖ ≤
        ∑ l ∈ Finset.range T.size, |T.b l| * ‖H l (i + 1) - Q (s.solution i)‖ := by
      intro i
      have : (∑ l ∈ Finset.range T.size, T.b l • H l (i + 1)) - Q (s.solution i) =
          ∑ l ∈ Finset.range T.size, T.b l • (H l (i + 1) - Q (s.solution i)) := by
        simp only [smul_sub]
        rw [Finset.sum_sub_distrib, ← Finset.sum_smul, hT, one_smul]
      rw [this]
      refine (norm_sum_le _ _).trans (le_of_eq (Finset.sum_congr rfl fun l _ => ?_))
      rw [norm_smul, Real.norm_eq_abs]
    refine (Finset.sum_le_sum fun i _ => e1 i).trans ?_
    rw [Finset.sum_comm, Finset.sum_mul, Finset.sum_mul]
    refine Finset.sum_le_sum fun l hl => ?_
    rw [← Finset.mul_sum, mul_assoc]
    refine mul_le_mul_of_nonneg_left ?_ (abs_nonneg _)
    rw [Finset.mem_range] at hl
    obtain ⟨-, h2⟩ := hH l hl
    have hj := jumps_near (s.solution + dt • ∑ j ∈ Finset.range l, T.A l j • k j) s.solution
    have e2 : ∀ i : Fin n, ‖H l (i + 1) - Q (s.solution i)‖ ≤
        ‖H l (i + 1) - Q ((s.solution + dt • ∑ j ∈ Finset.range l, T.A l j • k j) i)‖ +
          L * ‖(s.solution + dt • ∑ j ∈ Finset.range l, T.A l j • k j) i - s.solution i‖ := by
      intro i
      have : H l (i + 1) - Q (s.solution i) = (H l (i + 1) - Q ((s.solution + dt • ∑ j ∈ Finset.range l, T.A l j • k j) i)) +
          (Q ((s.solution + dt • ∑ j ∈ Finset.range l, T.A l j • k j) i) - Q (s.solution i)) := by abel
      rw [this]
      exact (norm_add_le _ _).trans (add_le_add le_rfl (hlip _ (hD l hl i) _ (hsD i)))
    refine (Finset.sum_le_sum fun i _ => e2 i).trans ?_
    rw [Finset.sum_add_distrib, ← Finset.mul_sum]
    have n1 := near l hl
    have n2 := mul_le_mul_of_nonneg_left n1 hL
    have n3 := mul_le_mul_of_nonneg_left hj hC
    have n4 := mul_le_mul_of_nonneg_left n1 hC
    linarith

/-! ### The computed function on the grid -/

/-- Values on the cells, every step being a difference of fluxes near the one of the law. -/
structure GridInside (Q : V → V) (D : Set V) (C dx a t₀ : ℝ) (n : ℕ) (steps : List ℝ) (states : ℕ → Fin n → V)
    (u : ℝ × ℝ → V) (u0 : ℝ → V) : Prop extends GridValues D dx a t₀ n steps states u u0 where
  step : ∀ j (hj : j < steps.length), ∃ H : ℕ → V,
    (∀ i : Fin n, states (j + 1) i = states j i - (steps[j] / dx) • (H (i + 1) - H i)) ∧
    ∑ i : Fin n, ‖H (i + 1) - Q (states j i)‖ ≤ C * (jumps (states j) + 1)

/-- Two test functions that differ by a constant, near the ends of the domain. -/
def Twins (a b δ : ℝ) (φt φx φt' φx' : ℝ → ℝ → ℝ) : Prop :=
  ∀ t, ∀ x ∈ Ioc a b, x ≤ a + δ ∨ b - δ < x → φt t x = φt' t x ∧ φx t x = φx' t x

theorem form_neg (a dx : ℝ) (n N : ℕ) (t : ℕ → ℝ) (η q : ℕ → ℕ → ℝ) (φ φt φx : ℝ → ℝ → ℝ) :
    form a dx n N t (fun j i => -η j i) (fun j i => -q j i) φ φt φx = -form a dx n N t η q φ φt φx := by
  unfold form
  have e : ∀ x y : ℝ, ∀ z : ℝ × ℝ, -x * φt z.1 z.2 + -y * φx z.1 z.2 = -(x * φt z.1 z.2 + y * φx z.1 z.2) := by
    intro x y z; ring
  simp only [e, integral_neg, Finset.sum_neg_distrib]
  simp only [neg_mul, intervalIntegral.integral_neg, Finset.sum_neg_distrib]
  rw [neg_add]

/-- What the computed function lacks of being a weak solution away from the ends, from below. -/
theorem GridInside.lower {Q : V → V} {D : Set V} {C dx a t₀ : ℝ} {n : ℕ} {steps : List ℝ} {states : ℕ → Fin n → V}
    {u : ℝ × ℝ → V} {u0 : ℝ → V} (h : GridInside Q D C dx a t₀ n steps states u u0) (hn : 0 < n) (hdx : 0 < dx)
    (hpos : ∀ dt ∈ steps, 0 ≤ dt) (δ : ℝ) (hδ : ∀ dt ∈ steps, dt ≤ δ)
    (R : ℝ) (hR : ∀ v ∈ D, ‖Q v‖ ≤ R) (l : V →L[ℝ] ℝ)
    {A B : ℝ} {φ φt φx φ' φt' φx' : ℝ → ℝ → ℝ} (hφ : Test (n * dx) (t₀ + steps.sum) A B φ φt φx)
    (hφ' : Test (n * dx) (t₀ + steps.sum) A B φ' φt' φx') (htw : Twins a (a + n * dx) dx φt φx φt' φx') :
    -(2 * (A * (‖l‖ * C) * (∑ j ∈ Finset.range steps.length,
        (after t₀ steps (j + 1) - after t₀ steps j) * dx * (jumps (states j) + 1)) +
        steps.sum * (n * dx * (‖l‖ * R) * (B * (2 * δ + 3 * dx))))) ≤
      balance l (fun v => l (Q v)) a (n * dx) t₀ (t₀ + steps.sum) u u0 φ φt φx -
        balance l (fun v => l (Q v)) a (n * dx) t₀ (t₀ + steps.sum) u u0 φ' φt' φx' := by
  rw [h.balance_eq hn hdx.le hpos _ _ hφ, h.balance_eq hn hdx.le hpos _ _ hφ']
  have hg : ∀ i (hi : i < n), (⟨i % n, Nat.mod_lt _ hn⟩ : Fin n) = ⟨i, hi⟩ := fun i hi =>
    Fin.ext (Nat.mod_eq_of_lt hi)
  set st : ℕ → ℕ → V := fun j i => states j ⟨i % n, Nat.mod_lt _ hn⟩ with hst
  have key : ∀ j, ∃ H : ℕ → V, ∀ hj : j < steps.length,
      (∀ i : Fin n, states (j + 1) i = states j i - (steps[j] / dx) • (H (i + 1) - H i)) ∧
      ∑ i : Fin n, ‖H (i + 1) - Q (states j i)‖ ≤ C * (jumps (states j) + 1) := by
    intro j
    by_cases hj : j < steps.length
    · obtain ⟨H, hH⟩ := h.step j hj
      exact ⟨H, fun _ => hH⟩
    · exact ⟨fun _ => 0, fun h => absurd h hj⟩
  choose H hH using key
  have step : ∀ j (hj : j < steps.length), after t₀ steps (j + 1) - after t₀ steps j = steps[j] := fun j hj => by
    rw [after_succ _ _ _ hj]; ring
  -- fluxes and values with which the two ends fit together
  set G : ℕ → ℕ → V := fun j i => if i = 0 ∨ i = n then Q (st j (n - 1)) else H j i with hG
  set W : ℕ → ℕ → V := fun j i => if i = 0 ∨ i = n - 1 then st 0 i - ∑ k ∈ Finset.range j,
    ((after t₀ steps (k + 1) - after t₀ steps k) / dx) • (G k (i + 1) - G k i) else st j i with hW
  have hW0 : ∀ i, W 0 i = st 0 i := fun i => by simp [hW]
  have hstep : ∀ j < steps.length, ∀ i < n, W (j + 1) i =
      W j i - ((after t₀ steps (j + 1) - after t₀ steps j) / dx) • (G j (i + 1) - G j i) := by
    intro j hj i hi
    by_cases hb : i = 0 ∨ i = n - 1
    · simp only [hW, if_pos hb]
      rw [Finset.sum_range_succ, sub_add_eq_sub_sub]
    · simp only [hW, if_neg hb]
      have g1 : G j i = H j i := by simp only [hG]; rw [if_neg (by omega)]
      have g2 : G j (i + 1) = H j (i + 1) := by simp only [hG]; rw [if_neg (by omega)]
      rw [g1, g2]
      simp only [hst]
      rw [hg i hi, (hH j hj).1 ⟨i, hi⟩, step j hj]
  have low : ∀ (l : V →L[ℝ] ℝ) {φ φt φx : ℝ → ℝ → ℝ}, Test (n * dx) (t₀ + steps.sum) A B φ φt φx →
      -(A * (‖l‖ * C) * (∑ j ∈ Finset.range steps.length,
        (after t₀ steps (j + 1) - after t₀ steps j) * dx * (jumps (states j) + 1)) +
        steps.sum * (n * dx * (‖l‖ * R) * (B * (2 * δ + 3 * dx)))) ≤
      form a dx n steps.length (after t₀ steps) (fun j i => l (W j i)) (fun j i => l (Q (st j i))) φ φt φx := by
    intro l φ φt φx hφ
    have := form_lower_sum hφ a dx n steps.length hdx rfl (after t₀ steps)
      (fun j _ => after_mono t₀ steps hpos (Nat.le_succ j)) (after_length _ _) δ
      (fun j hj => by rw [step j hj]; exact hδ _ (List.getElem_mem hj))
      (fun j i => l (W j i)) (fun j i => l (Q (st j i)))
      (fun j i => l (G j i))
      (fun j hj => by simp [hG])
      (fun j hj i hi => by
        rw [hstep j hj i hi, map_sub, map_smul, map_sub]
        simp)
      (fun j => ‖l‖ * (C * (jumps (states j) + 1))) (‖l‖ * R)
      (fun j hj => by
        rw [← Fin.sum_univ_eq_sum_range (fun i => |l (G j (i + 1)) - l (Q (st j i))|)]
        refine le_trans ?_ (mul_le_mul_of_nonneg_left (hH j hj).2 (norm_nonneg l))
        rw [Finset.mul_sum]
        refine Finset.sum_le_sum fun i _ => ?_
        rw [← map_sub]
        refine (l.le_opNorm _).trans (mul_le_mul_of_nonneg_left ?_ (norm_nonneg l))
        have hi := i.2
        by_cases hb : (i : ℕ) + 1 = n
        · have : G j (i + 1) = Q (st j i) := by
            simp only [hG]
            rw [if_pos (Or.inr hb), show n - 1 = (i : ℕ) by omega]
          rw [this, sub_self, norm_zero]
          exact norm_nonneg _
        · have : G j (i + 1) = H j (i + 1) := by simp only [hG]; rw [if_neg (by omega)]
          rw [this]
          simp only [hst]
          rw [hg i i.2])
      (fun j hj i hi => (l.le_opNorm _).trans (mul_le_mul_of_nonneg_left (hR _ (h.range j hj.le _)) (norm_nonneg l)))
    rw [after_zero, add_sub_cancel_left] at this
    refine le_trans (le_of_eq ?_) this
    rw [neg_inj, Finset.mul_sum, Finset.mul_sum]
    congr 1
    exact Finset.sum_congr rfl fun j _ => by ring
  have l1 := low l hφ
  have l2 := low (-l) hφ'
  rw [norm_neg] at l2
  have e2 : form a dx n steps.length (after t₀ steps) (fun j i => (-l) (W j i)) (fun j i => (-l) (Q (st j i))) φ' φt' φx' =
      -form a dx n steps.length (after t₀ steps) (fun j i => l (W j i)) (fun j i => l (Q (st j i))) φ' φt' φx' :=
    form_neg a dx n steps.length (after t₀ steps) (fun j i => l (W j i)) (fun j i => l (Q (st j i))) φ' φt' φx'
  rw [e2] at l2
  -- the change at the ends is the same for both test functions
  have same : form a dx n steps.length (after t₀ steps) (fun j i => l (st j i)) (fun j i => l (Q (st j i))) φ φt φx -
      form a dx n steps.length (after t₀ steps) (fun j i => l (W j i)) (fun j i => l (Q (st j i))) φ φt φx =
      form a dx n steps.length (after t₀ steps) (fun j i => l (st j i)) (fun j i => l (Q (st j i))) φ' φt' φx' -
      form a dx n steps.length (after t₀ steps) (fun j i => l (W j i)) (fun j i => l (Q (st j i))) φ' φt' φx' := by
    unfold form
    simp only [hW0]
    rw [add_sub_add_right_eq_sub, add_sub_add_right_eq_sub, ← Finset.sum_sub_distrib, ← Finset.sum_sub_distrib]
    refine Finset.sum_congr rfl fun j hj => ?_
    rw [← Finset.sum_sub_distrib, ← Finset.sum_sub_distrib]
    refine Finset.sum_congr rfl fun i hi => ?_
    rw [Finset.mem_range] at hi
    by_cases hb : i = 0 ∨ i = n - 1
    · have hin : (i : ℝ) + 1 ≤ n := by exact_mod_cast hi
      have hcell : ∀ z ∈ cell (after t₀ steps j) (after t₀ steps (j + 1)) (a + i * dx) (a + (i + 1) * dx),
          φt z.1 z.2 = φt' z.1 z.2 ∧ φx z.1 z.2 = φx' z.1 z.2 := by
        rintro z ⟨-, z1, z2⟩
        have hi0 : (0 : ℝ) ≤ i := Nat.cast_nonneg i
        have p1 := mul_nonneg hi0 hdx.le
        have p2 := mul_le_mul_of_nonneg_right hin hdx.le
        refine htw z.1 z.2 ⟨by linarith, by linarith⟩ ?_
        rcases hb with rfl | rfl
        · left
          simpa using z2
        · right
          have : ((n - 1 : ℕ) : ℝ) = n - 1 := by
            rw [Nat.cast_sub (by omega), Nat.cast_one]
          rw [this] at z1
          linarith
      have c1 : ∀ x y : ℝ, ∫ z in cell (after t₀ steps j) (after t₀ steps (j + 1)) (a + i * dx) (a + (i + 1) * dx),
          (x * φt z.1 z.2 + y * φx z.1 z.2) =
          ∫ z in cell (after t₀ steps j) (after t₀ steps (j + 1)) (a + i * dx) (a + (i + 1) * dx),
          (x * φt' z.1 z.2 + y * φx' z.1 z.2) := fun x y =>
        setIntegral_congr_fun (cell_measurable _ _ _ _) fun z hz => by
          simp only [(hcell z hz).1, (hcell z hz).2]
      rw [c1, c1]
    · have : W j i = st j i := by simp only [hW, if_neg hb]
      rw [this, sub_self, sub_self]
  linarith

end Verif.WeakLimit
