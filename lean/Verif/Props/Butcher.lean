import Verif.Props.Energy

/-!
Further statements of C53 (what a step of a Runge-Kutta method returns and records) and of C30 (the
limited scheme between its low order and its target flux).
-/

set_option linter.unusedSectionVars false

namespace Verif.ODE

variable {K : Type*} [Field K]
variable {E : Type*} [AddCommGroup E] [Module K E] {ε : Type*}

/-- The equations of the stages of an explicit Runge-Kutta step of size `dt` from `u` at time `t`. -/
def StageEquations (T : Tableau K) (f : K → E → Except ε E) (t dt : K) (u : E) (m : ℕ) (k : ℕ → E) :
    Prop :=
  ∀ i < m, f (t + T.c i * dt) (u + dt • ∑ j ∈ Finset.range i, T.A i j • k j) = .ok (k i)

theorem list_sum_range (n : ℕ) (g : ℕ → E) :
    ((List.range n).map g).sum = ∑ j ∈ Finset.range n, g j := by
  induction n with
  | zero => simp
  | succ n ih => rw [List.range_succ, List.map_append, List.sum_append, ih, Finset.sum_range_succ]; simp

theorem stageValue_eq (T : Tableau K) (dt : K) (u : E) (ks : List E) (k : ℕ → E) (i : ℕ)
    (h : ∀ j < i, ks.getD j 0 = k j) :
    stageValue T dt u ks i = u + dt • ∑ j ∈ Finset.range i, T.A i j • k j := by
  unfold stageValue
  rw [list_sum_range]
  congr 2
  apply Finset.sum_congr rfl
  intro j hj
  rw [h j (Finset.mem_range.mp hj)]

theorem stagesE_spec (T : Tableau K) (f : K → E → Except ε E) (t dt : K) (u : E) (m : ℕ)
    (k : ℕ → E) :
    stagesE T f t dt u m = .ok ((List.range m).map k) ↔ StageEquations T f t dt u m k := by
  induction m with
  | zero => simp [stagesE, StageEquations]
  | succ m ih =>
    have hget : ∀ j < m, ((List.range m).map k).getD j 0 = k j := by
      intro j hj
      rw [List.getD_eq_getElem _ _ (by simpa using hj)]
      simp
    constructor
    · intro h
      simp only [stagesE] at h
      cases h1 : stagesE T f t dt u m with
      | error e => rw [h1] at h; cases h
      | ok ks =>
        rw [h1] at h
        simp only at h
        cases h2 : f (timeNode T t dt m) (stageValue T dt u ks m) with
        | error e => rw [h2] at h; cases h
        | ok x =>
          rw [h2] at h
          have h3 := Except.ok.inj h
          rw [List.range_succ, List.map_append] at h3
          obtain ⟨e1, e2⟩ := List.append_inj' h3 rfl
          subst e1
          have e3 : x = k m := by simpa using e2
          subst e3
          have hm := ih.mp h1
          intro i hi
          rcases Nat.lt_succ_iff_lt_or_eq.mp hi with hlt | rfl
          · exact hm i hlt
          · rw [← stageValue_eq T dt u _ k _ hget]
            exact h2
    · intro h
      have hm := ih.mpr (fun i hi => h i (by omega))
      have hl := h m (by omega)
      rw [← stageValue_eq T dt u _ k m hget] at hl
      have hl' : f (timeNode T t dt m) (stageValue T dt u ((List.range m).map k) m) = .ok (k m) := hl
      simp only [stagesE, hm, hl']
      rw [List.range_succ, List.map_append]
      rfl

theorem stagesE_length (T : Tableau K) (f : K → E → Except ε E) (t dt : K) (u : E) (m : ℕ)
    (ks : List E) (h : stagesE T f t dt u m = .ok ks) : ks.length = m := by
  induction m generalizing ks with
  | zero => cases h; rfl
  | succ m ih =>
    simp only [stagesE] at h
    cases h1 : stagesE T f t dt u m with
    | error e => rw [h1] at h; cases h
    | ok ks' =>
      rw [h1] at h
      simp only at h
      cases h2 : f (timeNode T t dt m) (stageValue T dt u ks' m) with
      | error e => rw [h2] at h; cases h
      | ok x =>
        rw [h2] at h
        cases h
        simp [ih ks' h1]

/-- C53, the step: a step succeeds exactly if the stage equations have a solution (each evaluation of
the right-hand side succeeds); then the time advances by `dt`, the state by `dt` times the weighted
sum of the stages, and the recorded nodes and values, from which the step size is checked, are those
at which the right-hand side was evaluated. -/
theorem C53_step (T : Tableau K) (f : K → E → Except ε E) (s s' : Solver K E) (dt : K) :
    s.executeE T f dt = .ok s' ↔
      ∃ k : ℕ → E, StageEquations T f s.time dt s.solution T.size k ∧
        s'.time = s.time + dt ∧
        s'.solution = s.solution + dt • ∑ i ∈ Finset.range T.size, T.b i • k i ∧
        s'.timeNodes = (List.range T.size).map (fun i => s.time + T.c i * dt) ∧
        s'.stageValues = (List.range T.size).map (fun i =>
          s.solution + dt • ∑ j ∈ Finset.range i, T.A i j • k j) := by
  constructor
  · intro h
    unfold Solver.executeE at h
    cases h1 : stagesE T f s.time dt s.solution T.size with
    | error e => rw [h1] at h; cases h
    | ok ks =>
      rw [h1] at h
      have h2 := Except.ok.inj h
      have hl := stagesE_length T f _ _ _ _ _ h1
      have hks : ks = (List.range T.size).map (fun i => ks.getD i 0) := by
        apply List.ext_getElem
        · simp [hl]
        · intro i a b
          simp only [List.getElem_map, List.getElem_range]
          rw [List.getD_eq_getElem]
      refine ⟨fun i => ks.getD i 0, ?_, ?_⟩
      · rw [← stagesE_spec, ← hks]
        exact h1
      · subst h2
        refine ⟨rfl, ?_, rfl, ?_⟩
        · rw [← list_sum_range]
        · apply List.map_congr_left
          intro i _
          exact stageValue_eq T dt _ ks _ i (fun _ _ => rfl)
  · rintro ⟨k, hk, h1, h2, h3, h4⟩
    have h5 := (stagesE_spec T f _ _ _ _ _).mpr hk
    have hget : ∀ j < T.size, ((List.range T.size).map k).getD j 0 = k j := by
      intro j hj
      rw [List.getD_eq_getElem _ _ (by simpa using hj)]
      simp
    unfold Solver.executeE
    rw [h5]
    simp only
    congr 1
    rcases s' with ⟨t', u', tn, sv⟩
    simp only at h1 h2 h3 h4
    subst h1 h2 h3 h4
    congr 1
    · congr 2
      rw [list_sum_range]
      apply Finset.sum_congr rfl
      intro i hi
      rw [hget i (Finset.mem_range.mp hi)]
    · apply List.map_congr_left
      intro i hi
      rw [List.mem_range] at hi
      exact stageValue_eq T dt _ _ k i (fun j hj => hget j (by omega))

/-- Non-vacuity: Heun's method for `u' = t u`. -/
example : Py.okAnd ((Solver.init (1 : ℚ) 1).executeE (heun ℚ) (fun t u => (.ok (t * u) : Except Unit ℚ)) 2)
    (fun s => decide (s.time = 3 ∧ s.solution = 1 + 2 * (1 / 2 * 1 + 1 / 2 * (3 * (1 + 2 * 1))) ∧
      s.timeNodes = [1, 3] ∧ s.stageValues = [1, 3])) = true := by decide +kernel

end Verif.ODE

namespace Verif.Scalar

open Verif.Py Verif.Boundary Verif.FV Verif.ODE

variable {K : Type*} [Field K] [LinearOrder K] [IsStrictOrderedRing K]

/-- C30, the limited scheme: at every node the flux leaving one cell enters the other, it lies
between the Lax-Friedrichs flux and the target flux, and it is the target flux if the antidiffusive
part keeps both states within the local bounds. -/
theorem C30_scheme (p : Problem) (high : List K → List K → Except Error (List K)) (n : ℕ)
    (per : Bool) (nb : List (List ℤ)) (hnb : neighbourArray (n + 2) per = .ok nb) (ext hs : List K)
    (hlen : ext.length = n + 2) (hhigh : high ext.dropLast ext.tail = .ok hs)
    (hhs : hs.length = n + 1)
    (hadm : ∀ j < n + 1, Admissible p (ext.getD j 0) (ext.getD (j + 1) 0)) :
    ∃ maxs mins gl gr, localMaximum nb ext = .ok maxs ∧ localMinimum nb ext = .ok mins ∧
      (mcl p.riemann high nb).call [ext.dropLast, ext.tail] = .ok (gl, gr) ∧
      gl.length = n + 1 ∧ gr.length = n + 1 ∧
      ∀ j < n + 1,
        let x := ext.getD j 0
        let y := ext.getD (j + 1) 0
        let a := p.speed x y
        let low := (p.flux x + p.flux y) / 2 - a / 2 * (y - x)
        let bar := (x + y) / 2 - (p.flux y - p.flux x) / (2 * a)
        gl.getD j 0 = -gr.getD j 0 ∧
        (∃ θ, 0 ≤ θ ∧ θ ≤ 1 ∧ gr.getD j 0 = low + θ * (hs.getD j 0 - low)) ∧
        (StatesWithin (hs.getD j 0 - low) a bar bar (maxs.getD j 0) (maxs.getD (j + 1) 0)
          (mins.getD j 0) (mins.getD (j + 1) 0) → gr.getD j 0 = hs.getD j 0) := by
  obtain ⟨maxs, mins, hM, hm, hcall⟩ := mcl_call p high n per nb hnb ext hs hlen hhigh hhs
    (fun j hj => (hadm j hj).1)
  refine ⟨maxs, mins, _, _, hM, hm, hcall, by simp, by simp, ?_⟩
  intro j hj x y a low bar
  rw [range_map_getD _ _ _ hj, range_map_getD _ _ _ hj]
  obtain ⟨a1, a2⟩ := hadm j hj
  have r1 := (bounds_spec (n + 2) per nb hnb ext maxs mins hlen hM hm j (by omega)).1
  have r2 := (bounds_spec (n + 2) per nb hnb ext maxs mins hlen hM hm (j + 1) (by omega)).1
  have c1 := r1 j (by rw [mem_neighbourSet _ _ _ (by omega)]; omega)
  have c2 := r1 (j + 1) (by rw [mem_neighbourSet _ _ _ (by omega)]; omega)
  have c3 := r2 j (by rw [mem_neighbourSet _ _ _ (by omega)]; omega)
  have c4 := r2 (j + 1) (by rw [mem_neighbourSet _ _ _ (by omega)]; omega)
  have hL := barState_mem _ _ _ x y _ _ a1 a2 c1.1 c2.1 c1.2 c2.2
  have hR := barState_mem _ _ _ x y _ _ a1 a2 c3.1 c4.1 c3.2 c4.2
  obtain ⟨_, l2, l3, l4, _⟩ := C30_limiter (hs.getD j 0 - low) a bar bar
      (maxs.getD j 0) (maxs.getD (j + 1) 0) (mins.getD j 0) (mins.getD (j + 1) 0) a1 hL hR
  have e : nodeLimited p maxs mins hs ext j = limitNode (hs.getD j 0 - low) a bar bar
      (maxs.getD j 0) (maxs.getD (j + 1) 0) (mins.getD j 0) (mins.getD (j + 1) 0) := rfl
  have e' : lfFlux p (ext.getD j 0) (ext.getD (j + 1) 0) = low := rfl
  rw [e, e']
  generalize hF : limitNode (hs.getD j 0 - low) a bar bar
      (maxs.getD j 0) (maxs.getD (j + 1) 0) (mins.getD j 0) (mins.getD (j + 1) 0) = F at *
  refine ⟨by ring, ?_, ?_⟩
  · by_cases h0 : hs.getD j 0 - low = 0
    · refine ⟨0, le_rfl, zero_le_one, ?_⟩
      rw [h0, abs_zero] at l2
      rw [abs_nonpos_iff.mp l2, h0]
      ring
    · refine ⟨F / (hs.getD j 0 - low), ?_, ?_, by rw [div_mul_cancel₀ _ h0]⟩
      · rw [← mul_div_mul_left _ _ h0]
        exact div_nonneg l3 (mul_self_nonneg _)
      · refine (le_abs_self _).trans ?_
        rw [abs_div]
        exact div_le_one_of_le₀ l2 (abs_nonneg _)
  · intro h
    rw [l4 h]
    ring

/-- Non-vacuity: smooth data for advection, where the limited flux is the central flux at the inner
nodes. -/
example : okAnd (neighbourArray 6 false) (fun nb =>
    okAnd ((mcl (Problem.advection.riemann (K := ℚ))
      (fun l r => zipE (centralNode ℚ Problem.advection.riemann.flux) l r) nb).call
        [[0, 1, 2, 3, 4], [1, 2, 3, 4, 5]]) (fun g =>
      decide (g.2.getD 2 0 = 5 / 2 ∧ g.2.getD 0 0 = 0))) = true := by
  decide +kernel

end Verif.Scalar
