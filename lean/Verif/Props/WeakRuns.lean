import Verif.Props.WeakLimit
import Verif.Props.SWEConservation

/-!
Helper lemmas for C136: the runs of the finite volume schemes are in conservation form, with fluxes near the one of the
law, whatever the explicit Runge-Kutta method is.
-/

set_option linter.unusedSectionVars false

namespace Verif.WeakLimit

open Verif.Py Verif.Boundary Verif.FV Verif.ODE Verif.Weak Verif.EntropyLimit
open MeasureTheory Set

variable {V : Type*} [NormedAddCommGroup V] [NormedSpace ℝ V]

/-! ### Runge-Kutta steps -/

/-- Right-hand sides in conservation form with fluxes near the one of the law. -/
def FluxForm {n : ℕ} (sys : ℝ → (Fin n → V) → Except Py.Error (Fin n → V)) (dx : ℝ) (Q : V → V) (D : Set V) (C : ℝ) :
    Prop :=
  ∀ t v w, (∀ i, v i ∈ D) → sys t v = .ok w → ∃ H : ℕ → V, H n = H 0 ∧
    (∀ i : Fin n, w i = (1 / dx) • (H i - H (i + 1))) ∧ ∑ i : Fin n, ‖H (i + 1) - Q (v i)‖ ≤ C * jumps v

theorem jumps_lipschitz {n : ℕ} {Q : V → V} {D : Set V} {L : ℝ}
    (hlip : ∀ v ∈ D, ∀ v' ∈ D, ‖Q v - Q v'‖ ≤ L * ‖v - v'‖) (v : Fin n → V) (hv : ∀ i, v i ∈ D) :
    ∑ i, ‖Q (v (finRotate n i)) - Q (v i)‖ ≤ L * jumps v := by
  unfold jumps
  rw [Finset.mul_sum]
  exact Finset.sum_le_sum fun i _ => hlip _ (hv _) _ (hv _)

/-- The size of a right-hand side. -/
theorem rate_bound {n : ℕ} {dx : ℝ} (hdx : 0 < dx) {Q : V → V} {D : Set V} {E L : ℝ}
    (hlip : ∀ v ∈ D, ∀ v' ∈ D, ‖Q v - Q v'‖ ≤ L * ‖v - v'‖) (v w : Fin n → V) (hv : ∀ i, v i ∈ D) (H : ℕ → V)
    (h0 : H n = H 0) (h1 : ∀ i : Fin n, w i = (1 / dx) • (H i - H (i + 1)))
    (h2 : ∑ i : Fin n, ‖H (i + 1) - Q (v i)‖ ≤ E) : dx * ∑ i, ‖w i‖ ≤ 2 * E + L * jumps v := by
  have e : ∀ i, dx * ‖w (finRotate n i)‖ ≤ ‖H ((finRotate n i : Fin n) + 1) - Q (v (finRotate n i))‖ +
      (‖Q (v (finRotate n i)) - Q (v i)‖ + ‖H (i + 1) - Q (v i)‖) := by
    intro i
    rw [h1, norm_smul, Real.norm_eq_abs, abs_of_pos (one_div_pos.2 hdx), ← mul_assoc, mul_one_div_cancel hdx.ne', one_mul,
      rotate_flux h0, norm_sub_rev]
    have : H ((finRotate n i : Fin n) + 1) - H (i + 1) = (H ((finRotate n i : Fin n) + 1) - Q (v (finRotate n i))) +
        ((Q (v (finRotate n i)) - Q (v i)) - (H (i + 1) - Q (v i))) := by abel
    rw [this]
    exact (norm_add_le _ _).trans (add_le_add le_rfl (norm_sub_le _ _))
  rw [← Equiv.sum_comp (finRotate n) fun i => ‖w i‖, Finset.mul_sum]
  refine (Finset.sum_le_sum fun i _ => e i).trans ?_
  rw [Finset.sum_add_distrib, Finset.sum_add_distrib,
    Equiv.sum_comp (finRotate n) fun i : Fin n => ‖H ((i : ℕ) + 1) - Q (v i)‖]
  linarith [jumps_lipschitz hlip v hv]

/-- The values of the stages are near the state. -/
theorem stage_bound (T : Tableau ℝ) {Q : V → V} {D : Set V} {C L c : ℝ} (hC : 0 ≤ C) (hL : 0 ≤ L) (hc : 0 ≤ c)
    (hlip : ∀ v ∈ D, ∀ v' ∈ D, ‖Q v - Q v'‖ ≤ L * ‖v - v'‖) (m : ℕ) :
    ∃ Θ : ℝ, 0 ≤ Θ ∧ ∀ (n : ℕ) (sys : ℝ → (Fin n → V) → Except Py.Error (Fin n → V)) (dx dt t : ℝ) (u : Fin n → V)
      (k : ℕ → Fin n → V), 0 < dx → 0 ≤ dt → dt ≤ c * dx → FluxForm sys dx Q D C → StageEquations T sys t dt u m k →
      (∀ l < m, ∀ i, (u + dt • ∑ j ∈ Finset.range l, T.A l j • k j) i ∈ D) →
      ∀ l < m, ∑ i, ‖(u + dt • ∑ j ∈ Finset.range l, T.A l j • k j) i - u i‖ ≤ Θ * jumps u := by
  induction m with
  | zero => exact ⟨0, le_rfl, fun _ _ _ _ _ _ _ _ _ _ _ _ _ l hl => absurd hl (Nat.not_lt_zero l)⟩
  | succ m ih =>
    obtain ⟨Θ, hΘ, ih⟩ := ih
    set Y := (2 * C + L) * (1 + 2 * Θ) with hY
    have hY0 : 0 ≤ Y := by positivity
    refine ⟨Θ + c * ((∑ j ∈ Finset.range m, |T.A m j|) * Y), by positivity, ?_⟩
    intro n sys dx dt t u k hdx hdt hdtc hF hk hD l hl
    have hk' : StageEquations T sys t dt u m k := fun i hi => hk i (by omega)
    have hD' := fun l (hl : l < m) => hD l (by omega)
    have old := ih n sys dx dt t u k hdx hdt hdtc hF hk' hD'
    have hj := jumps_nonneg u
    rcases Nat.lt_succ_iff_lt_or_eq.1 hl with hl | rfl
    · refine (old l hl).trans (mul_le_mul_of_nonneg_right ?_ hj)
      have : 0 ≤ c * ((∑ j ∈ Finset.range m, |T.A m j|) * Y) := by positivity
      linarith
    · have rate : ∀ j < l, dx * ∑ i, ‖k j i‖ ≤ Y * jumps u := by
        intro j hj'
        obtain ⟨H, h0, h1, h2⟩ := hF _ _ _ (hD' j hj') (hk' j hj')
        refine (rate_bound hdx hlip _ _ (hD' j hj') H h0 h1 h2).trans ?_
        rw [← mul_assoc, ← add_mul, hY, mul_assoc]
        refine mul_le_mul_of_nonneg_left ?_ (by positivity)
        refine (jumps_near _ u).trans ?_
        linarith [old j hj']
      have e1 : ∀ i, ‖(u + dt • ∑ j ∈ Finset.range l, T.A l j • k j) i - u i‖ ≤
          dt * ∑ j ∈ Finset.range l, |T.A l j| * ‖k j i‖ := by
        intro i
        rw [Pi.add_apply, add_sub_cancel_left, Pi.smul_apply, norm_smul, Real.norm_eq_abs, abs_of_nonneg hdt,
          Finset.sum_apply]
        refine mul_le_mul_of_nonneg_left ((norm_sum_le _ _).trans (le_of_eq ?_)) hdt
        exact Finset.sum_congr rfl fun j _ => by rw [Pi.smul_apply, norm_smul, Real.norm_eq_abs]
      refine (Finset.sum_le_sum fun i _ => e1 i).trans ?_
      rw [← Finset.mul_sum, Finset.sum_comm]
      have e2 : ∑ j ∈ Finset.range l, ∑ i, |T.A l j| * ‖k j i‖ = ∑ j ∈ Finset.range l, |T.A l j| * ∑ i, ‖k j i‖ :=
        Finset.sum_congr rfl fun j _ => by rw [Finset.mul_sum]
      rw [e2]
      have e3 : dt * ∑ j ∈ Finset.range l, |T.A l j| * ∑ i, ‖k j i‖ ≤
          c * ∑ j ∈ Finset.range l, |T.A l j| * (Y * jumps u) := by
        refine (mul_le_mul_of_nonneg_right hdtc (by positivity)).trans ?_
        rw [mul_assoc]
        refine mul_le_mul_of_nonneg_left ?_ hc
        rw [Finset.mul_sum]
        refine Finset.sum_le_sum fun j hj' => ?_
        have := mul_le_mul_of_nonneg_left (rate j (Finset.mem_range.1 hj')) (abs_nonneg (T.A l j))
        linarith
      refine e3.trans ?_
      rw [← Finset.sum_mul]
      have : 0 ≤ Θ * jumps u := by positivity
      linarith

/-- A Runge-Kutta step is in conservation form with a flux near the one of the law. -/
theorem step_flux (T : Tableau ℝ) (hT : ∑ l ∈ Finset.range T.size, T.b l = 1) {Q : V → V} {D : Set V} {C L c : ℝ}
    (hC : 0 ≤ C) (hL : 0 ≤ L) (hc : 0 ≤ c) (hlip : ∀ v ∈ D, ∀ v' ∈ D, ‖Q v - Q v'‖ ≤ L * ‖v - v'‖) :
    ∃ C' : ℝ, 0 ≤ C' ∧ ∀ (n : ℕ) (sys : ℝ → (Fin n → V) → Except Py.Error (Fin n → V)) (dx dt : ℝ)
      (s s' : Solver ℝ (Fin n → V)), 0 < dx → 0 ≤ dt → dt ≤ c * dx → FluxForm sys dx Q D C →
      s.executeE T sys dt = .ok s' → (∀ i, s.solution i ∈ D) → (∀ v ∈ s'.stageValues, ∀ i, v i ∈ D) →
      ∃ H : ℕ → V, H n = H 0 ∧ (∀ i : Fin n, s'.solution i = s.solution i - (dt / dx) • (H (i + 1) - H i)) ∧
        ∑ i : Fin n, ‖H (i + 1) - Q (s.solution i)‖ ≤ C' * jumps s.solution := by
  obtain ⟨Θ, hΘ, hst⟩ := stage_bound T hC hL hc hlip T.size
  refine ⟨(∑ l ∈ Finset.range T.size, |T.b l|) * (C * (1 + 2 * Θ) + L * Θ), by positivity, ?_⟩
  intro n sys dx dt s s' hdx hdt hdtc hF hex hsD hvD
  obtain ⟨k, hk, -, hsol, -, hval⟩ := (C53_step T sys s s' dt).1 hex
  have hD : ∀ l < T.size, ∀ i, (s.solution + dt • ∑ j ∈ Finset.range l, T.A l j • k j) i ∈ D := by
    intro l hl
    refine hvD _ ?_
    rw [hval]
    exact List.mem_map.2 ⟨l, List.mem_range.2 hl, rfl⟩
  have near := hst n sys dx dt s.time s.solution k hdx hdt hdtc hF hk hD
  have key : ∀ l, ∃ H : ℕ → V, ∀ hl : l < T.size, H n = H 0 ∧ (∀ i : Fin n, k l i = (1 / dx) • (H i - H (i + 1))) ∧
      ∑ i : Fin n, ‖H (i + 1) - Q ((s.solution + dt • ∑ j ∈ Finset.range l, T.A l j • k j) i)‖ ≤
        C * jumps (s.solution + dt • ∑ j ∈ Finset.range l, T.A l j • k j) := by
    intro l
    by_cases hl : l < T.size
    · obtain ⟨H, h⟩ := hF _ _ _ (hD l hl) (hk l hl)
      exact ⟨H, fun _ => h⟩
    · exact ⟨fun _ => 0, fun h => absurd h hl⟩
  choose H hH using key
  refine ⟨fun i => ∑ l ∈ Finset.range T.size, T.b l • H l i, ?_, ?_, ?_⟩
  · exact Finset.sum_congr rfl fun l hl => by rw [(hH l (Finset.mem_range.1 hl)).1]
  · intro i
    rw [hsol, Pi.add_apply, Pi.smul_apply, Finset.sum_apply, sub_eq_add_neg, ← smul_neg, neg_sub, ← Finset.sum_sub_distrib]
    congr 1
    rw [Finset.smul_sum, Finset.smul_sum]
    refine Finset.sum_congr rfl fun l hl => ?_
    rw [Pi.smul_apply, (hH l (Finset.mem_range.1 hl)).2.1 i, ← smul_sub, smul_smul, smul_smul, smul_smul]
    congr 1
    ring
  · have e1 : ∀ i : Fin n, ‖(∑ l ∈ Finset.range T.size, T.b l • H l (i + 1)) - Q (s.solution i)‖ ≤
        ∑ l ∈ Finset.range T.size, |T.b l| * ‖H l (i + 1) - Q (s.solution i)‖ := by
      intro i
      have : (∑ l ∈ Finset.range T.size, T.b l • H l (i + 1)) - Q (s.solution i) =
          ∑ l ∈ Finset.range T.size, T.b l • (H l (i + 1) - Q (s.solution i)) := by
        simp only [smul_sub]
        rw [Finset.sum_sub_distrib, ← Finset.sum_smul, hT, one_smul]
      rw [this]
      refine (norm_sum_le _ _).trans (le_of_eq (Finset.sum_congr rfl fun l _ => ?_))
      rw [norm_smul, Real.norm_eq_abs]
    refine (Finset.sum_le_sum fun i _ => e1 i).trans ?_
    rw [Finset.sum_comm, Finset.sum_mul, Finset.sum_mul]
    refine Finset.sum_le_sum fun l hl => ?_
    rw [← Finset.mul_sum, mul_assoc]
    refine mul_le_mul_of_nonneg_left ?_ (abs_nonneg _)
    rw [Finset.mem_range] at hl
    obtain ⟨-, -, h2⟩ := hH l hl
    have hj := jumps_near (s.solution + dt • ∑ j ∈ Finset.range l, T.A l j • k j) s.solution
    have e2 : ∀ i : Fin n, ‖H l (i + 1) - Q (s.solution i)‖ ≤
        ‖H l (i + 1) - Q ((s.solution + dt • ∑ j ∈ Finset.range l, T.A l j • k j) i)‖ +
          L * ‖(s.solution + dt • ∑ j ∈ Finset.range l, T.A l j • k j) i - s.solution i‖ := by
      intro i
      have : H l (i + 1) - Q (s.solution i) = (H l (i + 1) - Q ((s.solution + dt • ∑ j ∈ Finset.range l, T.A l j • k j) i)) +
          (Q ((s.solution + dt • ∑ j ∈ Finset.range l, T.A l j • k j) i) - Q (s.solution i)) := by abel
      rw [this]
      exact (norm_add_le _ _).trans (add_le_add le_rfl (hlip _ (hD l hl i) _ (hsD i)))
    refine (Finset.sum_le_sum fun i _ => e2 i).trans ?_
    rw [Finset.sum_add_distrib, ← Finset.mul_sum]
    have n1 := near l hl
    have n2 := mul_le_mul_of_nonneg_left n1 hL
    have n3 := mul_le_mul_of_nonneg_left hj hC
    have n4 := mul_le_mul_of_nonneg_left n1 hC
    linarith

end Verif.WeakLimit
