import Verif.Core.SSP
import Mathlib.Tactic.Module
import Mathlib.Tactic.FieldSimp
import Mathlib.Algebra.Order.AbsoluteValue.Basic

/-!
Perturbation of runs: two right-hand sides on two spaces related by a linear map, one run given, the
other compared with its image.  Mathematics only, no code is modelled here.
-/

set_option linter.unusedSectionVars false

namespace Verif.ODE

variable {K : Type*} [Field K] [LinearOrder K] [IsStrictOrderedRing K]
variable {E : Type*} [AddCommGroup E] [Module K E] {ε : Type*}
variable {F : Type*} [AddCommGroup F] [Module K F] {ε' : Type*}

/-- A seminorm with values in `K`. -/
structure Size (N : E → K) : Prop where
  add : ∀ a b, N (a + b) ≤ N a + N b
  smul : ∀ (c : K) a, N (c • a) = |c| * N a

theorem Size.zero {N : E → K} (h : Size N) : N 0 = 0 := by
  have := h.smul 0 0
  simpa using this

theorem Size.neg {N : E → K} (h : Size N) (a : E) : N (-a) = N a := by
  have := h.smul (-1) a
  simpa using this

theorem Size.nonneg {N : E → K} (h : Size N) (a : E) : 0 ≤ N a := by
  have h1 := h.add a (-a)
  rw [h.neg, add_neg_cancel, h.zero] at h1
  linarith

theorem Size.smul_nonneg {N : E → K} (h : Size N) {c : K} (hc : 0 ≤ c) (a : E) :
    N (c • a) = c * N a := by rw [h.smul, abs_of_nonneg hc]

/-! ### The integrators, stage by stage -/

theorem euler_inv (f : K → E → Except ε E) (dt : K) (s s' : Solver K E)
    (h : s.executeE (forwardEuler K) f dt = .ok s') :
    ∃ k0, f (timeNode (forwardEuler K) s.time dt 0) s.solution = .ok k0 ∧
      s'.solution = s.solution + dt • k0 ∧ s'.time = s.time + dt := by
  unfold Solver.executeE at h
  simp only [forwardEuler, stagesE, List.nil_append] at h
  have e0 : stageValue (forwardEuler K) dt s.solution ([] : List E) 0 = s.solution := by
    simp [stageValue]
  simp only [forwardEuler] at e0
  rw [e0] at h
  split at h
  · cases h
  · rename_i ks hks
    split at hks
    · cases hks
    · rename_i k0 hk0
      cases hks
      cases h
      exact ⟨k0, hk0, by simp [List.range_succ], rfl⟩

theorem euler_mk (f : K → E → Except ε E) (dt : K) (s : Solver K E) (k0 : E)
    (h0 : f (timeNode (forwardEuler K) s.time dt 0) s.solution = .ok k0) :
    ∃ s', s.executeE (forwardEuler K) f dt = .ok s' ∧
      s'.solution = s.solution + dt • k0 ∧ s'.time = s.time + dt := by
  have hE := executeE_ok (forwardEuler K) f s dt (by
    intro i hi
    have : i = 0 := by simp [forwardEuler] at hi; exact hi
    subst this
    exact ⟨k0, by simpa [stageValue] using h0⟩)
  refine ⟨_, hE, ?_, rfl⟩
  obtain ⟨k, h1, h2, -⟩ := euler_inv f dt s _ hE
  rw [h0] at h1
  obtain rfl := Except.ok.inj h1
  exact h2

/-- The stages of Heun's method. -/
structure HeunStages (f : K → E → Except ε E) (dt t : K) (u u' : E) (k0 k1 : E) : Prop where
  first : f (timeNode (heun K) t dt 0) u = .ok k0
  second : f (timeNode (heun K) t dt 1) (u + dt • k0) = .ok k1
  result : u' = (1 / 2 : K) • u + (1 / 2 : K) • ((u + dt • k0) + dt • k1)

theorem heun_value (dt : K) (u k0 : E) :
    stageValue (heun K) dt u [k0] 1 = u + dt • k0 := by
  simp [stageValue, heun, table, List.range_succ]

theorem heun_inv (f : K → E → Except ε E) (dt : K) (s s' : Solver K E)
    (h : s.executeE (heun K) f dt = .ok s') :
    (∃ k0 k1, HeunStages f dt s.time s.solution s'.solution k0 k1) ∧ s'.time = s.time + dt := by
  unfold Solver.executeE at h
  cases hk : stagesE (heun K) f s.time dt s.solution (heun K).size with
  | error e => rw [hk] at h; cases h
  | ok ks =>
    rw [hk] at h
    cases h
    refine ⟨?_, rfl⟩
    have e0 : stageValue (heun K) dt s.solution ([] : List E) 0 = s.solution := by
      simp [stageValue]
    have hsz : (heun K).size = 2 := rfl
    rw [hsz] at hk
    simp only [stagesE, List.nil_append, e0] at hk
    cases h0 : f (timeNode (heun K) s.time dt 0) s.solution with
    | error e => rw [h0] at hk; cases hk
    | ok k0 =>
      simp only [h0, heun_value] at hk
      cases h1 : f (timeNode (heun K) s.time dt 1) (s.solution + dt • k0) with
      | error e => rw [h1] at hk; cases hk
      | ok k1 =>
        simp only [h1] at hk
        cases hk
        refine ⟨k0, k1, h0, h1, ?_⟩
        simp only [heun, List.range_succ, List.range_zero, List.nil_append, List.cons_append,
          List.map_cons, List.map_nil, List.sum_cons, List.sum_nil, List.getD_cons_zero,
          List.getD_cons_succ]
        module

theorem heun_mk (f : K → E → Except ε E) (dt : K) (s : Solver K E) (k0 k1 : E)
    (h0 : f (timeNode (heun K) s.time dt 0) s.solution = .ok k0)
    (h1 : f (timeNode (heun K) s.time dt 1) (s.solution + dt • k0) = .ok k1) :
    ∃ s', s.executeE (heun K) f dt = .ok s' ∧
      HeunStages f dt s.time s.solution s'.solution k0 k1 ∧ s'.time = s.time + dt := by
  have e0 : stageValue (heun K) dt s.solution ([] : List E) 0 = s.solution := by
    simp [stageValue]
  have hk : stagesE (heun K) f s.time dt s.solution (heun K).size = .ok [k0, k1] := by
    have hsz : (heun K).size = 2 := rfl
    rw [hsz]
    simp only [stagesE, List.nil_append, e0, h0, heun_value, h1, List.cons_append]
  have hE : ∃ s', s.executeE (heun K) f dt = .ok s' := by
    unfold Solver.executeE
    rw [hk]
    exact ⟨_, rfl⟩
  obtain ⟨s', hs'⟩ := hE
  obtain ⟨⟨a0, a1, h2⟩, h3⟩ := heun_inv f dt s s' hs'
  have g0 := h2.first
  rw [h0] at g0
  obtain rfl := Except.ok.inj g0
  have g1 := h2.second
  rw [h1] at g1
  obtain rfl := Except.ok.inj g1
  exact ⟨s', hs', h2, h3⟩

/-- The stages of the third order method. -/
structure SspStages (f : K → E → Except ε E) (dt t : K) (u u' : E) (k0 k1 k2 : E) : Prop where
  first : f (timeNode (ssp3 K) t dt 0) u = .ok k0
  second : f (timeNode (ssp3 K) t dt 1) (u + dt • k0) = .ok k1
  third : f (timeNode (ssp3 K) t dt 2)
    ((3 / 4 : K) • u + (1 / 4 : K) • ((u + dt • k0) + dt • k1)) = .ok k2
  result : u' = (1 / 3 : K) • u + (2 / 3 : K) •
    (((3 / 4 : K) • u + (1 / 4 : K) • ((u + dt • k0) + dt • k1)) + dt • k2)

theorem ssp_value1 (dt : K) (u k0 : E) : stageValue (ssp3 K) dt u [k0] 1 = u + dt • k0 := by
  simp [stageValue, ssp3, table, List.range_succ]

theorem ssp_value2 (dt : K) (u k0 k1 : E) : stageValue (ssp3 K) dt u [k0, k1] 2 =
    (3 / 4 : K) • u + (1 / 4 : K) • ((u + dt • k0) + dt • k1) := by
  simp only [stageValue, ssp3, table, List.range_succ, List.range_zero, List.nil_append,
    List.cons_append, List.map_cons, List.map_nil, List.sum_cons, List.sum_nil,
    List.getD_cons_zero, List.getD_cons_succ]
  module

theorem ssp_inv (f : K → E → Except ε E) (dt : K) (s s' : Solver K E)
    (h : s.executeE (ssp3 K) f dt = .ok s') :
    (∃ k0 k1 k2, SspStages f dt s.time s.solution s'.solution k0 k1 k2) ∧ s'.time = s.time + dt := by
  unfold Solver.executeE at h
  cases hk : stagesE (ssp3 K) f s.time dt s.solution (ssp3 K).size with
  | error e => rw [hk] at h; cases h
  | ok ks =>
    rw [hk] at h
    cases h
    refine ⟨?_, rfl⟩
    have e0 : stageValue (ssp3 K) dt s.solution ([] : List E) 0 = s.solution := by
      simp [stageValue]
    have hsz : (ssp3 K).size = 3 := rfl
    rw [hsz] at hk
    simp only [stagesE, List.nil_append, e0] at hk
    cases h0 : f (timeNode (ssp3 K) s.time dt 0) s.solution with
    | error e => rw [h0] at hk; cases hk
    | ok k0 =>
      simp only [h0, ssp_value1] at hk
      cases h1 : f (timeNode (ssp3 K) s.time dt 1) (s.solution + dt • k0) with
      | error e => rw [h1] at hk; cases hk
      | ok k1 =>
        simp only [h1, List.cons_append, List.nil_append, ssp_value2] at hk
        cases h2 : f (timeNode (ssp3 K) s.time dt 2)
            ((3 / 4 : K) • s.solution + (1 / 4 : K) • ((s.solution + dt • k0) + dt • k1)) with
        | error e => rw [h2] at hk; cases hk
        | ok k2 =>
          simp only [h2] at hk
          cases hk
          refine ⟨k0, k1, k2, h0, h1, h2, ?_⟩
          simp only [ssp3, List.range_succ, List.range_zero, List.nil_append, List.cons_append,
            List.map_cons, List.map_nil, List.sum_cons, List.sum_nil, List.getD_cons_zero,
            List.getD_cons_succ]
          module

theorem ssp_mk (f : K → E → Except ε E) (dt : K) (s : Solver K E) (k0 k1 k2 : E)
    (h0 : f (timeNode (ssp3 K) s.time dt 0) s.solution = .ok k0)
    (h1 : f (timeNode (ssp3 K) s.time dt 1) (s.solution + dt • k0) = .ok k1)
    (h2 : f (timeNode (ssp3 K) s.time dt 2)
      ((3 / 4 : K) • s.solution + (1 / 4 : K) • ((s.solution + dt • k0) + dt • k1)) = .ok k2) :
    ∃ s', s.executeE (ssp3 K) f dt = .ok s' ∧
      SspStages f dt s.time s.solution s'.solution k0 k1 k2 ∧ s'.time = s.time + dt := by
  have e0 : stageValue (ssp3 K) dt s.solution ([] : List E) 0 = s.solution := by
    simp [stageValue]
  have hk : stagesE (ssp3 K) f s.time dt s.solution (ssp3 K).size = .ok [k0, k1, k2] := by
    have hsz : (ssp3 K).size = 3 := rfl
    rw [hsz]
    simp only [stagesE, List.nil_append, e0, h0, ssp_value1, h1, List.cons_append, ssp_value2, h2]
  have hE : ∃ s', s.executeE (ssp3 K) f dt = .ok s' := by
    unfold Solver.executeE
    rw [hk]
    exact ⟨_, rfl⟩
  obtain ⟨s', hs'⟩ := hE
  obtain ⟨⟨a0, a1, a2, h3⟩, h4⟩ := ssp_inv f dt s s' hs'
  have g0 := h3.first
  rw [h0] at g0
  obtain rfl := Except.ok.inj g0
  have g1 := h3.second
  rw [h1] at g1
  obtain rfl := Except.ok.inj g1
  have g2 := h3.third
  rw [h2] at g2
  obtain rfl := Except.ok.inj g2
  exact ⟨s', hs', h3, h4⟩

/-! ### Growth of errors -/

/-- Amplification of a step with `m` stages: `1 + z + z²/2 + ...` up to degree `m`. -/
def amp (m : ℕ) (z : K) : K := ∑ i ∈ Finset.range (m + 1), z ^ i / (i.factorial : K)

theorem amp_one (z : K) : amp 1 z = 1 + z := by simp [amp, Finset.sum_range_succ]

theorem amp_two (z : K) : amp 2 z = 1 + z + z ^ 2 / 2 := by simp [amp, Finset.sum_range_succ]

theorem amp_three (z : K) : amp 3 z = 1 + z + z ^ 2 / 2 + z ^ 3 / 6 := by
  simp [amp, Finset.sum_range_succ, Nat.factorial]

theorem one_le_amp (m : ℕ) {z : K} (hz : 0 ≤ z) : 1 ≤ amp m z := by
  unfold amp
  rw [Finset.sum_range_succ']
  have : 0 ≤ ∑ i ∈ Finset.range m, z ^ (i + 1) / ((i + 1).factorial : K) :=
    Finset.sum_nonneg fun i _ => by positivity
  simp only [pow_zero, Nat.factorial_zero, Nat.cast_one, div_one]
  linarith

/-- Amplification of a run. -/
def growth (m : ℕ) (L : K) : List K → K
  | [] => 1
  | dt :: steps => amp m (L * dt) * growth m L steps

theorem one_le_growth (m : ℕ) {L : K} (hL : 0 ≤ L) (steps : List K) (h : ∀ dt ∈ steps, 0 ≤ dt) :
    1 ≤ growth m L steps := by
  induction steps with
  | nil => exact le_rfl
  | cons dt steps ih =>
    have h1 := one_le_amp m (mul_nonneg hL (h dt List.mem_cons_self))
    have h2 := ih fun d hd => h d (List.mem_cons_of_mem _ hd)
    simp only [growth]
    nlinarith

/-- Specification: near the image of each state at which `f` can be evaluated, `g` can be evaluated and
differs from the image of `f` by at most `L` times the distance plus `δ`. -/
def Near (A : E →ₗ[K] F) (N : F → K) (f : K → E → Except ε E) (g : K → F → Except ε' F)
    (L δ r : K) : Prop :=
  ∀ t x a, f t x = .ok a → ∀ v, N (v - A x) ≤ r →
    ∃ b, g t v = .ok b ∧ N (b - A a) ≤ L * N (v - A x) + δ

/-- One Euler stage: the quantity `L * error + δ` grows by the factor `1 + L dt`. -/
theorem near_euler {A : E →ₗ[K] F} {N : F → K} (hN : Size N) {f : K → E → Except ε E}
    {g : K → F → Except ε' F} {L δ r : K} (hL : 0 < L) (hn : Near A N f g L δ r)
    {dt : K} (hdt : 0 ≤ dt) {t : K} {x a : E} (hf : f t x = .ok a) {v : F} {y : K}
    (hv : L * N (v - A x) + δ ≤ y) (hy : y ≤ L * r + δ) :
    ∃ b, g t v = .ok b ∧ L * N (v + dt • b - A (x + dt • a)) + δ ≤ (1 + L * dt) * y := by
  have hr : N (v - A x) ≤ r := by
    have : L * N (v - A x) ≤ L * r := by linarith
    exact le_of_mul_le_mul_left this hL
  obtain ⟨b, hb, hb'⟩ := hn t x a hf v hr
  refine ⟨b, hb, ?_⟩
  have e : v + dt • b - A (x + dt • a) = (v - A x) + dt • (b - A a) := by
    rw [map_add, map_smul]
    module
  have h1 : N (v + dt • b - A (x + dt • a)) ≤ N (v - A x) + dt * (L * N (v - A x) + δ) := by
    rw [e]
    refine (hN.add _ _).trans ?_
    rw [hN.smul_nonneg hdt]
    have := mul_le_mul_of_nonneg_left hb' hdt
    linarith
  have h2 := mul_le_mul_of_nonneg_left h1 hL.le
  have h3 : dt * (L * N (v - A x) + δ) ≤ dt * y := mul_le_mul_of_nonneg_left hv hdt
  have h4 := mul_le_mul_of_nonneg_left h3 hL.le
  nlinarith

/-- Convex combinations of states. -/
theorem near_convex {A : E →ₗ[K] F} {N : F → K} (hN : Size N) {L δ : K} (hL : 0 < L) (a b : K)
    (ha : 0 ≤ a) (hb : 0 ≤ b) (hab : a + b = 1) {x x' : E} {v v' : F} {y y' : K}
    (h : L * N (v - A x) + δ ≤ y) (h' : L * N (v' - A x') + δ ≤ y') :
    L * N (a • v + b • v' - A (a • x + b • x')) + δ ≤ a * y + b * y' := by
  have e : a • v + b • v' - A (a • x + b • x') = a • (v - A x) + b • (v' - A x') := by
    rw [map_add, map_smul, map_smul]
    module
  have h1 : N (a • v + b • v' - A (a • x + b • x')) ≤ a * N (v - A x) + b * N (v' - A x') := by
    rw [e]
    refine (hN.add _ _).trans ?_
    rw [hN.smul_nonneg ha, hN.smul_nonneg hb]
  have h2 := mul_le_mul_of_nonneg_left h1 hL.le
  have h3 := mul_le_mul_of_nonneg_left h ha
  have h4 := mul_le_mul_of_nonneg_left h' hb
  have h5 : δ = a * δ + b * δ := by rw [← add_mul, hab, one_mul]
  calc _ ≤ L * (a * N (v - A x) + b * N (v' - A x')) + (a * δ + b * δ) := by linarith
    _ = a * (L * N (v - A x) + δ) + b * (L * N (v' - A x') + δ) := by ring
    _ ≤ _ := by linarith

/-- One step. -/
theorem near_step {A : E →ₗ[K] F} {N : F → K} (hN : Size N) {f : K → E → Except ε E}
    {g : K → F → Except ε' F} {L δ r : K} (hL : 0 < L) (hδ : 0 ≤ δ) (hn : Near A N f g L δ r)
    (T : Tableau K) (hT : T = forwardEuler K ∨ T = heun K ∨ T = ssp3 K) {dt : K} (hdt : 0 ≤ dt)
    (s s' : Solver K E) (h : s.executeE T f dt = .ok s') (v : Solver K F) (hvt : v.time = s.time)
    {y : K} (hv : L * N (v.solution - A s.solution) + δ ≤ y)
    (hy : amp T.size (L * dt) * y ≤ L * r + δ) :
    ∃ v', v.executeE T g dt = .ok v' ∧ v'.time = s'.time ∧
      L * N (v'.solution - A s'.solution) + δ ≤ amp T.size (L * dt) * y := by
  have hz : 0 ≤ L * dt := mul_nonneg hL.le hdt
  have hy0 : 0 ≤ y := le_trans (add_nonneg (mul_nonneg hL.le (hN.nonneg _)) hδ) hv
  set z := L * dt with hzdef
  have hzy : 0 ≤ z * y := mul_nonneg hz hy0
  have hzzy : 0 ≤ z ^ 2 * y := mul_nonneg (by positivity) hy0
  have hzzzy : 0 ≤ z ^ 3 * y := mul_nonneg (by positivity) hy0
  rcases hT with rfl | rfl | rfl
  · have hm : (forwardEuler K).size = 1 := rfl
    rw [hm, amp_one] at hy ⊢
    obtain ⟨k0, h0, h1, h2⟩ := euler_inv f dt s s' h
    obtain ⟨b0, g0, g1⟩ := near_euler hN hL hn hdt h0 hv (by linarith)
    obtain ⟨v', p1, p2, p3⟩ := euler_mk g dt v b0 (by rw [hvt]; exact g0)
    exact ⟨v', p1, by rw [p3, h2, hvt], by rw [p2, h1]; exact g1⟩
  · have hm : (heun K).size = 2 := rfl
    rw [hm, amp_two] at hy ⊢
    obtain ⟨⟨k0, k1, hs⟩, h2⟩ := heun_inv f dt s s' h
    obtain ⟨b0, g0, g1⟩ := near_euler hN hL hn hdt hs.first hv (by linarith)
    obtain ⟨b1, g2, g3⟩ := near_euler hN hL hn hdt hs.second g1 (by linarith)
    obtain ⟨v', p1, p2, p3⟩ := heun_mk g dt v b0 b1 (by rw [hvt]; exact g0) (by rw [hvt]; exact g2)
    refine ⟨v', p1, by rw [p3, h2, hvt], ?_⟩
    rw [p2.result, hs.result]
    refine (near_convex hN hL (1 / 2) (1 / 2) (by norm_num) (by norm_num) (by norm_num) hv g3).trans
      (le_of_eq ?_)
    ring
  · have hm : (ssp3 K).size = 3 := rfl
    rw [hm, amp_three] at hy ⊢
    obtain ⟨⟨k0, k1, k2, hs⟩, h2⟩ := ssp_inv f dt s s' h
    obtain ⟨b0, g0, g1⟩ := near_euler hN hL hn hdt hs.first hv (by linarith)
    obtain ⟨b1, g2, g3⟩ := near_euler hN hL hn hdt hs.second g1 (by linarith)
    have g4 := near_convex hN hL (3 / 4) (1 / 4) (by norm_num) (by norm_num) (by norm_num) hv g3
    obtain ⟨b2, g5, g6⟩ := near_euler hN hL hn hdt hs.third g4 (by
      have : 3 / 4 * y + 1 / 4 * ((1 + L * dt) * ((1 + L * dt) * y)) =
          y + z * y / 2 + z ^ 2 * y / 4 := by rw [hzdef]; ring
      rw [this]
      linarith)
    obtain ⟨v', p1, p2, p3⟩ := ssp_mk g dt v b0 b1 b2 (by rw [hvt]; exact g0) (by rw [hvt]; exact g2)
      (by rw [hvt]; exact g5)
    refine ⟨v', p1, by rw [p3, h2, hvt], ?_⟩
    rw [p2.result, hs.result]
    refine (near_convex hN hL (1 / 3) (2 / 3) (by norm_num) (by norm_num) (by norm_num) hv g6).trans
      (le_of_eq ?_)
    ring

/-- Whole runs. -/
theorem near_run {A : E →ₗ[K] F} {N : F → K} (hN : Size N) {f : K → E → Except ε E}
    {g : K → F → Except ε' F} {L δ r : K} (hL : 0 < L) (hδ : 0 ≤ δ) (hn : Near A N f g L δ r)
    (T : Tableau K) (hT : T = forwardEuler K ∨ T = heun K ∨ T = ssp3 K) (steps : List K)
    (hsteps : ∀ dt ∈ steps, 0 ≤ dt) (s s' : Solver K E) (h : s.runE T f steps = .ok s')
    (v : Solver K F) (hvt : v.time = s.time) {y : K} (hv : L * N (v.solution - A s.solution) + δ ≤ y)
    (hy : growth T.size L steps * y ≤ L * r + δ) :
    ∃ v', v.runE T g steps = .ok v' ∧ v'.time = s'.time ∧
      L * N (v'.solution - A s'.solution) + δ ≤ growth T.size L steps * y := by
  induction steps generalizing s v y with
  | nil =>
    cases h
    exact ⟨v, rfl, hvt, by simpa [growth] using hv⟩
  | cons dt steps ih =>
    have hdt := hsteps dt List.mem_cons_self
    have hrest : ∀ d ∈ steps, 0 ≤ d := fun d hd => hsteps d (List.mem_cons_of_mem _ hd)
    have hg := one_le_growth T.size hL.le steps hrest
    have hy0 : 0 ≤ y := le_trans (add_nonneg (mul_nonneg hL.le (hN.nonneg _)) hδ) hv
    have ha := one_le_amp T.size (mul_nonneg hL.le hdt)
    have hay : 0 ≤ amp T.size (L * dt) * y := mul_nonneg (by linarith) hy0
    simp only [Solver.runE] at h
    cases h1 : s.executeE T f dt with
    | error e => rw [h1] at h; cases h
    | ok s1 =>
      rw [h1] at h
      simp only [growth] at hy ⊢
      obtain ⟨v1, g1, g2, g3⟩ := near_step hN hL hδ hn T hT hdt s s1 h1 v hvt hv (by nlinarith)
      obtain ⟨v', g4, g5, g6⟩ := ih hrest s1 h v1 g2 g3 (by linarith)
      refine ⟨v', by simp only [Solver.runE, g1, g4], g5, by linarith⟩

end Verif.ODE
