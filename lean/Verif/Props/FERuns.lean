import Verif.Core.FERuns
import Verif.Props.Benchmarks

/-!
C111: whole runs of the low order and of the limited finite element solver, from the construction to
the end of `solve`, with the CFL checker.
-/

set_option linter.unusedSectionVars false

namespace Verif.FE

open Verif.Py Verif.Scalar Verif.ODE Verif.Solver
open Verif.Mesh hiding Error

/-- The number that `OptimalTimeStep` returns (cg_low.py 23-29).  `inf` (all diffusion coefficients
zero) is replaced by `horizon`; with the duration of the benchmark divided by the CFL number the time
stepping and the checker answer as for `inf`, see `C111_infinite`. -/
noncomputable def stepNumber (problem : Problem) (m : List ℝ) (C : SysMatrix ℝ) (N : ℕ) (horizon : ℝ)
    (u : Fin N → ℝ) : ℝ :=
  match optimalStep problem m C (List.ofFn u) with
  | .ok (some t) => t
  | .ok none => horizon
  | .error _ => 0

/-- `LowOrderContinuousGalerkinSolver.__init__` (cg_low.py 78-127) and `MCLSolver.__init__`
(finite_element/scalar/solver/mcl.py 111-158) with the right-hand side `f`: the same optimal step is
used by the time stepping and by the CFL checker. -/
noncomputable def feParams (N : ℕ) (T : Tableau ℝ) (f : List ℝ → Except Error (List ℝ))
    (problem : Problem) (m : List ℝ) (C : SysMatrix ℝ) (cfl : ℝ) (adaptive : Bool) (t0 t1 : ℝ) :
    Params ℝ (Fin N → ℝ) where
  tab := T
  rhs := vecRhs N fun _ => f
  finite := fun _ => true
  optimal := fun _ u => stepNumber problem m C N ((t1 - t0) / cfl) u
  cfl := cfl
  adaptive := adaptive
  startTime := t0
  endTime := t1
  checker := some fun _ u => stepNumber problem m C N ((t1 - t0) / cfl) u

/-- C111.  For an infinite optimal step the next step of the time stepping is the time left, and the
checker accepts each step, as in the code with `inf`. -/
theorem C111_infinite (problem : Problem) (m : List ℝ) (C : SysMatrix ℝ) (N : ℕ) (cfl t0 t1 : ℝ)
    (hc : 0 < cfl) (hc1 : cfl ≤ 1) (u : Fin N → ℝ)
    (hu : optimalStep problem m C (List.ofFn u) = .ok none) (t : ℝ) (ht : t0 ≤ t) (ht1 : t ≤ t1) :
    min (stepNumber problem m C N ((t1 - t0) / cfl) u * cfl) (t1 - t) = t1 - t ∧
      t1 - t ≤ stepNumber problem m C N ((t1 - t0) / cfl) u := by
  unfold stepNumber
  rw [hu]
  simp only
  rw [div_mul_cancel₀ _ hc.ne']
  refine ⟨min_eq_right (by linarith), ?_⟩
  rw [le_div_iff₀ hc]
  nlinarith

/-- What the two schemes have in common: with the optimal step of the current state a forward Euler
step is defined and stays in the local range. -/
def StepsSafe (s : Space ℝ) (problem : Problem) (m : List ℝ) (C : SysMatrix ℝ)
    (f : List ℝ → Except Error (List ℝ)) : Prop :=
  ∀ u : List ℝ, u.length = s.dimension → ∃ τ, optimalStep problem m C u = .ok τ ∧
    ∃ w, f u = .ok w ∧ w.length = s.dimension ∧ ∀ dt, 0 ≤ dt → AtMost dt τ →
      ∀ i < s.dimension, InLocalRange s u i (u.getD i 0 + dt * w.getD i 0)

theorem run_safe {gauss d n p s m C} (h : Setup gauss d n p s m C) (hpos : ∀ x ∈ m, 0 < x)
    (problem : Problem) (f : List ℝ → Except Error (List ℝ)) (hf : StepsSafe s problem m C f)
    (T : Tableau ℝ) (hT : T = forwardEuler ℝ ∨ T = heun ℝ ∨ T = ssp3 ℝ) (κ cfl : ℝ) (hκ : κ ≤ 1)
    (hc : 0 < cfl) (hcfl : cfl ≤ κ)
    (hreg : problem = .burgers → ∀ i < s.dimension, ∀ k < s.dimension,
      κ * (m.getD k 0 * rowSize C s.dimension i) ≤ m.getD i 0 * rowSize C s.dimension k)
    (adaptive : Bool) (t0 t1 : ℝ) (u : Fin s.dimension → ℝ) :
    let P := feParams s.dimension T f problem m C cfl adaptive t0 t1
    ∀ k, (∀ e, (solve P (Obj.make P ⟨u, t0, t1⟩) k).2 ≠ .raised e) ∧
      (∀ lo hi, (∀ i, lo ≤ u i ∧ u i ≤ hi) → ∀ i,
        lo ≤ (solve P (Obj.make P ⟨u, t0, t1⟩) k).1.ode.solution i ∧
        (solve P (Obj.make P ⟨u, t0, t1⟩) k).1.ode.solution i ≤ hi) ∧
      (solve P (Obj.make P ⟨u, t0, t1⟩) k).1.warnings = [] := by
  intro P k
  obtain ⟨s1, s2, s3, s4⟩ := setup_facts h
  have hp0 := h.degree
  have hn0 := h.meshSize
  have hC := setup_conv h
  obtain ⟨hm, -⟩ := lumped_spec gauss h.isGauss s (by omega) m h.mass
  have hdim : 0 < s.dimension := by rw [s3]; exact Nat.mul_pos hn0 hp0
  have hκ0 : 0 < κ := hc.trans_le hcfl
  refine C94_safe_checked P (Obj.make P ⟨u, t0, t1⟩) (make_sync _ _)
    (fun v => ∀ lo hi, (∀ i, lo ≤ u i ∧ u i ≤ hi) → ∀ i, lo ≤ v i ∧ v i ≤ hi)
    (fun lo hi hh => hh) (fun _ _ => rfl) ?_ k
  intro S dt h1 h2 h3 hI
  -- the state that determines the step
  obtain ⟨r, hr, hSr, hru⟩ : ∃ r : Fin s.dimension → ℝ,
      dt ≤ stepNumber problem m C s.dimension ((t1 - t0) / cfl) r * cfl ∧
      (∀ lo hi, (∀ i, lo ≤ r i ∧ r i ≤ hi) → ∀ i, lo ≤ S.solution i ∧ S.solution i ≤ hi) ∧
      (∀ lo hi, (∀ i, lo ≤ u i ∧ u i ≤ hi) → ∀ i, lo ≤ r i ∧ r i ≤ hi) := by
    cases had : adaptive with
    | true =>
      refine ⟨S.solution, ?_, fun lo hi hh => hh, hI⟩
      have e : P.adaptive = true := had
      rw [e] at h2
      exact h2
    | false =>
      refine ⟨u, ?_, hI, fun lo hi hh => hh⟩
      have e : P.adaptive = false := had
      rw [e] at h2
      exact h2
  obtain ⟨lo, hi, q, b1, b2, b3⟩ := exists_range s.dimension hdim r
  have hdt : 0 ≤ dt := le_trans (by positivity) h1
  obtain ⟨σ, hσ, -⟩ := hf (List.ofFn r) (by simp)
  have hat : AtMost (dt / cfl) σ := by
    intro t ht
    subst ht
    unfold stepNumber at hr
    rw [hσ] at hr
    rw [div_le_iff₀ hc]
    exact hr
  have key : ∀ v ∈ boxSet s.dimension lo hi, ∀ τ,
      optimalStep problem m C (List.ofFn v) = .ok τ → AtMost dt τ := by
    intro v hv τ hτ
    have := step_dominates problem C s.dimension hdim hC m hm hpos κ hκ hreg (List.ofFn v)
      (List.ofFn r) (by simp) (by simp) q.1 q.2 (by
        intro i hi'
        rw [List.getD_eq_getElem _ _ (by simpa using hi'), List.getD_eq_getElem _ _ (by simp)]
        simpa using b3 _ (hv ⟨i, hi'⟩).1 (hv ⟨i, hi'⟩).2) σ τ hσ hτ (dt / cfl)
      (div_nonneg hdt hc.le) hat
    intro t ht
    refine le_trans ?_ (this t ht)
    rw [mul_div_assoc', le_div_iff₀ hc]
    nlinarith
  obtain ⟨S', e1, e2, e3, e4⟩ := sspE_stages (vecRhs s.dimension fun _ => f) dt
    (boxSet s.dimension lo hi) (boxSet_convex _ lo hi) (by
      intro t v hv
      obtain ⟨τ, g1, w, g2, g3, g4⟩ := hf (List.ofFn v) (by simp)
      exact box_of_local s f lo hi dt v hv ⟨w, g2, g3, g4 dt hdt (key v hv τ g1)⟩ t) S
    (hSr lo hi b1) T hT
  refine ⟨S', e1, ?_, ?_⟩
  · intro lo' hi' hh i
    obtain ⟨c1, c2⟩ := b2 lo' hi' (hru lo' hi' hh)
    exact ⟨c1.trans (e2 i).1, (e2 i).2.trans c2⟩
  · intro opt hopt
    cases hopt
    refine cflCheck_ok _ dt _ _ e4.ge ?_
    intro t v hv
    obtain ⟨τ, g1, -⟩ := hf (List.ofFn v) (by simp)
    have hk := key v (e3 v hv) τ g1
    unfold stepNumber
    rw [g1]
    cases τ with
    | some x => exact hk x rfl
    | none =>
      simp only
      rw [le_div_iff₀ hc]
      have : dt ≤ t1 - t0 := h3
      nlinarith [hcfl.trans hκ]

/-- The statements of C111 about a run. -/
structure RunOk {N : ℕ} (m : List ℝ) (P : Params ℝ (Fin N → ℝ)) (u : Fin N → ℝ) (t0 t1 δ : ℝ) :
    Prop where
  /-- Neither an exception nor an interruption. -/
  status : ∀ k, (solve P (Obj.make P ⟨u, t0, t1⟩) k).2 = .running ∨
    (solve P (Obj.make P ⟨u, t0, t1⟩) k).2 = .finished
  /-- The number of steps. -/
  ends : ∀ k : ℕ, t1 - t0 ≤ k * δ → (solve P (Obj.make P ⟨u, t0, t1⟩) (k + 1)).2 = .finished
  /-- The end time. -/
  reached : ∀ k, (solve P (Obj.make P ⟨u, t0, t1⟩) k).2 = .finished →
    t1 - 1 / 10 ^ 12 < (solve P (Obj.make P ⟨u, t0, t1⟩) k).1.sol.sol.time ∧
      (solve P (Obj.make P ⟨u, t0, t1⟩) k).1.sol.sol.time ≤ t1
  /-- No warning. -/
  quiet : ∀ k, (solve P (Obj.make P ⟨u, t0, t1⟩) k).1.warnings = []
  /-- The maximum principle for all recorded values. -/
  bounds : ∀ k, ∀ v ∈ (solve P (Obj.make P ⟨u, t0, t1⟩) k).1.sol.values,
    ∀ lo hi, (∀ i, lo ≤ u i ∧ u i ≤ hi) → ∀ i, lo ≤ v i ∧ v i ≤ hi
  /-- The mass of all recorded values. -/
  mass : ∀ k, ∀ v ∈ (solve P (Obj.make P ⟨u, t0, t1⟩) k).1.sol.values,
    totalMass m (List.ofFn v) = totalMass m (List.ofFn u)

theorem run_ok {gauss d n p s m C} (h : Setup gauss d n p s m C) (hpos : ∀ x ∈ m, 0 < x)
    (problem : Problem) (f : List ℝ → Except Error (List ℝ)) (hf : StepsSafe s problem m C f)
    (T : Tableau ℝ) (hT : T = forwardEuler ℝ ∨ T = heun ℝ ∨ T = ssp3 ℝ)
    (hmass : ∀ (S S' : Solver ℝ (Fin s.dimension → ℝ)) (steps : List ℝ),
      S.runE T (vecRhs s.dimension fun _ => f) steps = .ok S' →
      totalMass m (List.ofFn S'.solution) = totalMass m (List.ofFn S.solution))
    (κ cfl : ℝ) (hκ : κ ≤ 1) (hc : 0 < cfl) (hcfl : cfl ≤ κ)
    (hreg : problem = .burgers → ∀ i < s.dimension, ∀ k < s.dimension,
      κ * (m.getD k 0 * rowSize C s.dimension i) ≤ m.getD i 0 * rowSize C s.dimension k)
    (adaptive : Bool) (t0 t1 : ℝ) (hdur : 1 / 10 ^ 12 ≤ t1 - t0) (u : Fin s.dimension → ℝ) (σ : ℝ)
    (hσ : ∃ τ, optimalStep problem m C (List.ofFn u) = .ok τ ∧ ∀ t, τ = some t → σ ≤ t)
    (hδ : 1 / 10 ^ 12 ≤ cfl * κ * σ) :
    RunOk m (feParams s.dimension T f problem m C cfl adaptive t0 t1) u t0 t1 (cfl * κ * σ) := by
  obtain ⟨s1, s2, s3, s4⟩ := setup_facts h
  have hp0 := h.degree
  have hn0 := h.meshSize
  have hC := setup_conv h
  obtain ⟨hm, -⟩ := lumped_spec gauss h.isGauss s (by omega) m h.mass
  have hdim : 0 < s.dimension := by rw [s3]; exact Nat.mul_pos hn0 hp0
  have hκ0 : 0 < κ := hc.trans_le hcfl
  have htol : (0 : ℝ) < 1 / 10 ^ 12 := by positivity
  have hσ0 : 0 < σ := by
    have h1 : 0 < cfl * κ * σ := htol.trans_le hδ
    exact (pos_iff_pos_of_mul_pos h1).mp (mul_pos hc hκ0)
  set P := feParams s.dimension T f problem m C cfl adaptive t0 t1 with hP
  have safe := run_safe h hpos problem f hf T hT κ cfl hκ hc hcfl hreg adaptive t0 t1 u
  simp only [← hP] at safe
  obtain ⟨τ0, o1, o2⟩ := hσ
  -- the optimal steps stay above a bound
  have lower : ∀ v : Fin s.dimension → ℝ, (∀ lo hi, (∀ i, lo ≤ u i ∧ u i ≤ hi) →
      ∀ i, lo ≤ v i ∧ v i ≤ hi) →
      min (cfl * κ * σ) (t1 - t0) ≤ stepNumber problem m C s.dimension ((t1 - t0) / cfl) v * cfl := by
    intro v hv
    obtain ⟨lo, hi, q, b1, b2, b3⟩ := exists_range s.dimension hdim u
    obtain ⟨τ, g1, -⟩ := hf (List.ofFn v) (by simp)
    have hat := step_dominates problem C s.dimension hdim hC m hm hpos κ hκ hreg (List.ofFn v)
      (List.ofFn u) (by simp) (by simp) q.1 q.2 (by
        intro i hi'
        rw [List.getD_eq_getElem _ _ (by simpa using hi'), List.getD_eq_getElem _ _ (by simp)]
        simpa using b3 _ (hv lo hi b1 ⟨i, hi'⟩).1 (hv lo hi b1 ⟨i, hi'⟩).2) τ0 τ o1 g1 σ hσ0.le o2
    unfold stepNumber
    rw [g1]
    cases τ with
    | some x =>
      refine (min_le_left _ _).trans ?_
      have := hat x rfl
      simp only
      nlinarith
    | none =>
      simp only
      rw [div_mul_cancel₀ _ hc.ne']
      exact min_le_right _ _
  have hvalue : ∀ k, ∀ lo hi, (∀ i, lo ≤ u i ∧ u i ≤ hi) → ∀ i,
      lo ≤ (solve P (Obj.make P ⟨u, t0, t1⟩) k).1.sol.sol.value i ∧
      (solve P (Obj.make P ⟨u, t0, t1⟩) k).1.sol.sol.value i ≤ hi := by
    intro k
    obtain ⟨l1, -⟩ := link P (Obj.make P ⟨u, t0, t1⟩) k (safe k).1
    rw [(course_sync l1 (make_sync _ _)).2]
    exact (safe k).2.1
  obtain ⟨t1', t2'⟩ := C94_terminates_visited P (Obj.make P ⟨u, t0, t1⟩)
    (min (cfl * κ * σ) (t1 - t0)) (le_min hδ hdur) (fun _ k => lower _ (hvalue k))
    (fun _ => lower u (fun lo hi hh => hh)) hdur (fun k => (safe k).1)
  refine ⟨t2', ?_, fun k hk => C94_end_time P ⟨u, t0, t1⟩ rfl k hk, fun k => (safe k).2.2, ?_, ?_⟩
  · intro k hk
    apply t1' k
    change t1 - t0 ≤ k * min (cfl * κ * σ) (t1 - t0)
    have hk0 : (0 : ℝ) < k := by
      by_contra hneg
      push Not at hneg
      have : (k : ℝ) * (cfl * κ * σ) ≤ 0 := mul_nonpos_of_nonpos_of_nonneg hneg (htol.le.trans hδ)
      linarith
    have hk1 : (1 : ℝ) ≤ k := by exact_mod_cast (Nat.cast_pos.mp hk0)
    rcases min_choice (cfl * κ * σ) (t1 - t0) with hh | hh <;> rw [hh]
    · exact hk
    · nlinarith
  · intro k v hv
    rcases C94_recorded P _ k (safe k).1 v hv with hv | ⟨j, -, rfl⟩
    · obtain rfl : v = u := by simpa [Obj.make, Solution.Hist.init] using hv
      exact fun lo hi hh => hh
    · exact (safe j).2.1
  · intro k v hv
    obtain ⟨steps, r1, r2, -, r4⟩ := EndToEnd.recorded P ⟨u, t0, t1⟩ k (safe k).1
    obtain ⟨i, hi, rfl⟩ := List.getElem_of_mem hv
    obtain ⟨S, q1, q2, -⟩ := r4 i (by omega)
    rw [List.getElem?_eq_getElem hi, Option.some.injEq] at q2
    rw [q2]
    exact hmass _ _ _ q1

theorem low_safe {gauss d n p s m C} (h : Setup gauss d n p s m C) (hpos : ∀ x ∈ m, 0 < x)
    (problem : Problem) : StepsSafe s problem m C (lowRhs problem m C) := by
  intro u hu
  obtain ⟨τ, h1, -, w, h2, h3, h4⟩ := C68_bounds h hpos problem u hu
  exact ⟨τ, h1, w, h2, h3, h4⟩

theorem mcl_safe {gauss d n p s m M C nb} (h : MCLSetup gauss d n p s m M C nb)
    (hpos : ∀ x ∈ m, 0 < x) (problem : Problem) :
    StepsSafe s problem m C (mclRhs s.map problem m M C nb) := by
  intro u hu
  obtain ⟨τ, h1, w, h2, h3, h4⟩ := C69_bounds h hpos problem u hu
  exact ⟨τ, h1, w, h2, h3, h4⟩

/-- C111, low order scheme.  Runs from initial values `u` whose optimal step is at least `σ`, with
forward Euler, Heun or SSP3, adaptive or not, and a CFL number at most `κ ≤ 1`.  For Burgers' equation
`κ` must be a bound for the ratios of the quotients of lumped mass and row sum of the discrete gradient
(for linear elements `κ = 1`, see `C111_linear_low`).  Then the run does not raise, is not interrupted
and prints no CFL warning; it ends after at most as many steps as the duration has steps of length
`cfl κ σ`; the end time is reached up to less than `1e-12`; all recorded values lie in the range of the
initial values and have the same mass. -/
theorem C111_low {gauss d n p s m C} (h : Setup gauss d n p s m C) (hpos : ∀ x ∈ m, 0 < x)
    (problem : Problem) (T : Tableau ℝ) (hT : T = forwardEuler ℝ ∨ T = heun ℝ ∨ T = ssp3 ℝ)
    (κ cfl : ℝ) (hκ : κ ≤ 1) (hc : 0 < cfl) (hcfl : cfl ≤ κ)
    (hreg : problem = .burgers → ∀ i < s.dimension, ∀ k < s.dimension,
      κ * (m.getD k 0 * ∑ j ∈ (Finset.range s.dimension).erase i, |C.lil i j|) ≤
        m.getD i 0 * ∑ j ∈ (Finset.range s.dimension).erase k, |C.lil k j|)
    (adaptive : Bool) (t0 t1 : ℝ) (hdur : 1 / 10 ^ 12 ≤ t1 - t0) (u : Fin s.dimension → ℝ) (σ : ℝ)
    (hσ : ∃ τ, optimalStep problem m C (List.ofFn u) = .ok τ ∧ ∀ t, τ = some t → σ ≤ t)
    (hδ : 1 / 10 ^ 12 ≤ cfl * κ * σ) :
    RunOk m (feParams s.dimension T (lowRhs problem m C) problem m C cfl adaptive t0 t1) u t0 t1
      (cfl * κ * σ) :=
  run_ok h hpos problem _ (low_safe h hpos problem) T hT
    (fun S S' steps hrun => C68_conservation h problem T S S' steps hrun) κ cfl hκ hc hcfl hreg
    adaptive t0 t1 hdur u σ hσ hδ

/-- C111, limited scheme: the same statements. -/
theorem C111_mcl {gauss d n p s m M C nb} (h : MCLSetup gauss d n p s m M C nb)
    (hpos : ∀ x ∈ m, 0 < x) (problem : Problem) (T : Tableau ℝ)
    (hT : T = forwardEuler ℝ ∨ T = heun ℝ ∨ T = ssp3 ℝ)
    (κ cfl : ℝ) (hκ : κ ≤ 1) (hc : 0 < cfl) (hcfl : cfl ≤ κ)
    (hreg : problem = .burgers → ∀ i < s.dimension, ∀ k < s.dimension,
      κ * (m.getD k 0 * ∑ j ∈ (Finset.range s.dimension).erase i, |C.lil i j|) ≤
        m.getD i 0 * ∑ j ∈ (Finset.range s.dimension).erase k, |C.lil k j|)
    (adaptive : Bool) (t0 t1 : ℝ) (hdur : 1 / 10 ^ 12 ≤ t1 - t0) (u : Fin s.dimension → ℝ) (σ : ℝ)
    (hσ : ∃ τ, optimalStep problem m C (List.ofFn u) = .ok τ ∧ ∀ t, τ = some t → σ ≤ t)
    (hδ : 1 / 10 ^ 12 ≤ cfl * κ * σ) :
    RunOk m (feParams s.dimension T (mclRhs s.map problem m M C nb) problem m C cfl adaptive t0 t1) u
      t0 t1 (cfl * κ * σ) :=
  run_ok h.toSetup hpos problem _ (mcl_safe h hpos problem) T hT
    (fun S S' steps hrun => C69_conservation h problem T S S' steps hrun) κ cfl hκ hc hcfl hreg
    adaptive t0 t1 hdur u σ hσ hδ

/-! ### Linear elements -/

theorem linear_regular {gauss d n s m C} (h : Setup gauss d n 1 s m C) (i k : ℕ)
    (hi : i < s.dimension) (hk : k < s.dimension) :
    1 * (m.getD k 0 * rowSize C s.dimension i) ≤ m.getD i 0 * rowSize C s.dimension k := by
  obtain ⟨s1, s2, s3, s4⟩ := setup_facts h
  rw [mul_one] at s3
  rw [s3] at hi hk ⊢
  rw [linear_mass h k hk, linear_mass h i hi, linear_rows h i hi, linear_rows h k hk, one_mul]

/-- The optimal step of linear elements: at least the cell length divided by twice the largest
speed. -/
theorem linear_step {gauss d n s m C} (h : Setup gauss d n 1 s m C) (problem : Problem)
    (u : Fin s.dimension → ℝ) (B : ℝ) (hB : 0 < B) (ha : problem = .advection → 1 ≤ B)
    (hu : ∀ i, |u i| ≤ B) :
    ∃ τ, optimalStep problem m C (List.ofFn u) = .ok τ ∧
      ∀ t, τ = some t → (d.b - d.a) / (2 * n * B) ≤ t := by
  obtain ⟨s1, s2, s3, s4⟩ := setup_facts h
  have hn0 := h.meshSize
  have hC := setup_conv h
  have hpos := (C68_masses h (Or.inl (by norm_num))).2
  obtain ⟨hm, -⟩ := lumped_spec gauss h.isGauss s (by omega) m h.mass
  rw [mul_one] at s3
  have hdim : 0 < s.dimension := by omega
  obtain ⟨D, d1, d2, d3, d4, -⟩ := diffusion_spec problem s.dimension C hC (List.ofFn u) (by simp)
  obtain ⟨τ, t1, t2⟩ := optimalStep_spec problem s.dimension hdim C hC (List.ofFn u) m (by simp) hm
    hpos D d1
  refine ⟨τ, t1, (t2 _).mpr ?_⟩
  intro i hi
  have hin : i < n := by omega
  have hrow : rowSize C s.dimension i ≤ 1 := by
    rw [s3, linear_rows h i hin]; split <;> norm_num
  have hD : |D.lil i i| ≤ B := by
    cases problem with
    | advection =>
      have e : D = upwind C := (Except.ok.inj d1).symm
      rw [laplacian_abs_diag d4 i hi]
      have : ∑ j ∈ (Finset.range s.dimension).erase i, D.lil i j = rowSize C s.dimension i := by
        unfold rowSize
        apply Finset.sum_congr rfl
        intro j hj
        rw [e]; exact if_neg (Finset.ne_of_mem_erase hj).symm
      rw [this]
      exact hrow.trans (ha rfl)
    | burgers =>
      refine ((diffusion_rows C s.dimension hC _ (by simp) D d1 i hi B).1 ?_).trans ?_
      · intro j hj
        rw [List.getD_eq_getElem _ _ (by simpa using hj)]
        simpa using hu ⟨j, hj⟩
      · exact mul_le_of_le_one_right hB.le hrow
  rw [linear_mass h i hin]
  have hn : (0 : ℝ) < n := by exact_mod_cast hn0
  have hl : 0 < d.b - d.a := by have := h.domain; linarith
  calc (d.b - d.a) / (2 * n * B) * (2 * |D.lil i i|) ≤ (d.b - d.a) / (2 * n * B) * (2 * B) :=
        mul_le_mul_of_nonneg_left (by linarith) (by positivity)
    _ = (d.b - d.a) / n := by field_simp

/-- C111, low order scheme with linear elements (the default degree), with any CFL number up to one
(the default of the command line), any initial values with absolute value at most `B`, `B ≥ 1` for
advection: the steps are at least `cfl` times the cell length divided by `2 B`. -/
theorem C111_linear_low {gauss d n s m C} (h : Setup gauss d n 1 s m C) (problem : Problem)
    (T : Tableau ℝ) (hT : T = forwardEuler ℝ ∨ T = heun ℝ ∨ T = ssp3 ℝ) (cfl : ℝ) (hc : 0 < cfl)
    (hcfl : cfl ≤ 1) (adaptive : Bool) (t0 t1 : ℝ) (hdur : 1 / 10 ^ 12 ≤ t1 - t0)
    (u : Fin s.dimension → ℝ) (B : ℝ) (hB : 0 < B) (ha : problem = .advection → 1 ≤ B)
    (hu : ∀ i, |u i| ≤ B) (hδ : 1 / 10 ^ 12 ≤ cfl * ((d.b - d.a) / (2 * n * B))) :
    RunOk m (feParams s.dimension T (lowRhs problem m C) problem m C cfl adaptive t0 t1) u t0 t1
      (cfl * ((d.b - d.a) / (2 * n * B))) := by
  have := C111_low h (C68_masses h (Or.inl (by norm_num))).2 problem T hT 1 cfl le_rfl hc hcfl
    (fun _ i hi k hk => linear_regular h i k hi hk) adaptive t0 t1 hdur u _
    (linear_step h problem u B hB ha hu) (by rw [mul_one]; exact hδ)
  rwa [mul_one] at this

/-- C111, limited scheme with linear elements. -/
theorem C111_linear_mcl {gauss d n s m M C nb} (h : MCLSetup gauss d n 1 s m M C nb)
    (problem : Problem) (T : Tableau ℝ) (hT : T = forwardEuler ℝ ∨ T = heun ℝ ∨ T = ssp3 ℝ) (cfl : ℝ)
    (hc : 0 < cfl) (hcfl : cfl ≤ 1) (adaptive : Bool) (t0 t1 : ℝ) (hdur : 1 / 10 ^ 12 ≤ t1 - t0)
    (u : Fin s.dimension → ℝ) (B : ℝ) (hB : 0 < B) (ha : problem = .advection → 1 ≤ B)
    (hu : ∀ i, |u i| ≤ B) (hδ : 1 / 10 ^ 12 ≤ cfl * ((d.b - d.a) / (2 * n * B))) :
    RunOk m (feParams s.dimension T (mclRhs s.map problem m M C nb) problem m C cfl adaptive t0 t1) u
      t0 t1 (cfl * ((d.b - d.a) / (2 * n * B))) := by
  have := C111_mcl h (C68_masses h.toSetup (Or.inl (by norm_num))).2 problem T hT 1 cfl le_rfl hc hcfl
    (fun _ i hi k hk => linear_regular h.toSetup i k hi hk) adaptive t0 t1 hdur u _
    (linear_step h.toSetup problem u B hB ha hu) (by rw [mul_one]; exact hδ)
  rwa [mul_one] at this

/-- The shock benchmark of Burgers' equation (`benchmark/burgers.py` lines 33-44) with the limited
scheme on 400 cells and the defaults of the command line (`cfl = 1`, Heun): the run ends after at most
400 steps at 0.5, prints no warning and stays between -1 and 1, although the solution forms a shock. -/
example : ∃ gauss s m M C nb, MCLSetup gauss ⟨0, 1⟩ 400 1 s m M C nb ∧
    let u : Fin s.dimension → ℝ := fun i => Bench.Burgers.initial .shock (i.1 / 400)
    let P := feParams s.dimension (heun ℝ) (mclRhs s.map .burgers m M C nb) .burgers m C 1 false 0
      (1 / 2)
    let l := solve P (Obj.make P ⟨u, 0, 1 / 2⟩) 401
    l.2 = .finished ∧ l.1.warnings = [] ∧ ∀ v ∈ l.1.sol.values, ∀ i, -1 ≤ v i ∧ v i ≤ 1 := by
  obtain ⟨gauss, s, m, M, C, nb, h⟩ := exists_mclSetup ⟨0, 1⟩ (by norm_num) 400 1 (by norm_num)
    one_pos
  refine ⟨gauss, s, m, M, C, nb, h, ?_⟩
  have hu : ∀ i : Fin s.dimension, |Bench.Burgers.initial .shock ((i.1 : ℝ) / 400)| ≤ 1 := fun i =>
    Real.abs_sin_le_one _
  have := C111_linear_mcl h .burgers (heun ℝ) (Or.inr (Or.inl rfl)) 1 one_pos le_rfl false 0 (1 / 2)
    (by norm_num) (fun i => Bench.Burgers.initial .shock ((i.1 : ℝ) / 400)) 1 one_pos
    (fun h => by cases h) hu (by norm_num)
  refine ⟨this.ends 400 (by norm_num), this.quiet 401, fun v hv => ?_⟩
  exact this.bounds 401 v hv (-1) 1 (fun i => abs_le.mp (hu i))

end Verif.FE
