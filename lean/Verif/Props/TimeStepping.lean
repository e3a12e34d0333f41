import Verif.Core.TimeStepping
import Mathlib.Data.Rat.Floor
import Mathlib.Tactic.NormNum
import Mathlib.Tactic.Push

/-!
Properties C01-C06: time stepping.  `Run.after c s n` is a `for`-loop over the time stepping object
after `n` calls of `__next__`, started on an object in an arbitrary state `s`.
-/

set_option linter.unusedSectionVars false
set_option linter.unusedSimpArgs false

namespace Verif.TimeStepping

variable {K : Type*} [Field K] [LinearOrder K] [IsStrictOrderedRing K]

/-! ### C01 -/

/-- C01.  At every point of the loop, for every sequence of proposed steps: the times seen in the
loop body strictly increase from the start time and do not exceed the end time; every step is at
least `1e-12` and at most the step proposed for it; and once the loop has ended normally the time
is exactly the end time. -/
theorem C01_times_increase_to_end (c : Config K) (s : State K) (n : ℕ) :
    let r := Run.after c s n
    (c.startTime :: r.times).Pairwise (· < ·) ∧
    (∀ t ∈ r.times, t ≤ c.endTime) ∧
    (∀ d ∈ r.steps, 1 / 10 ^ 12 ≤ d) ∧
    (∀ (k : ℕ) (hk : k < r.steps.length),
      r.steps[k] ≤ (if c.gen.adaptive then c.gen.raw (s.calls + k) else c.gen.raw 0) * c.gen.cfl) ∧
    (r.status = .finished → r.st.time = c.endTime) := by
  have h := inv_after c s n
  refine ⟨h.incr, h.bound, h.lower, fun k hk => ?_, fun hf => (h.stopped (h.fin hf)).1⟩
  have h1 := h.upper k hk
  unfold Generator.call at h1
  split_ifs at h1 ⊢ <;> exact h1

/-- C01, the steps exactly: the `k`-th step is the CFL number times the raw step (evaluated anew for
an adaptive time stepping, once for a fixed one), cut to the time that is left. -/
theorem C01_steps_exact (c : Config K) (s : State K) (n : ℕ) (k : ℕ)
    (hk : k < (Run.after c s n).steps.length) :
    (Run.after c s n).steps[k] =
      min ((if c.gen.adaptive then c.gen.raw (s.calls + k) else c.gen.raw 0) * c.gen.cfl)
        (c.endTime - (c.startTime + ((Run.after c s n).steps.take k).sum)) := by
  induction n with
  | zero => simp [Run.after, Run.start, Run.steps] at hk
  | succ n ih =>
    have hinv := inv_after c s n
    revert hk
    change ∀ hk : k < (Run.step c (Run.after c s n)).steps.length,
      (Run.step c (Run.after c s n)).steps[k] =
      min _ (c.endTime - (c.startTime + ((Run.step c (Run.after c s n)).steps.take k).sum))
    generalize Run.after c s n = r at ih hinv
    have hcases : (r.step c).steps = r.steps ∨ (r.status = .running ∧ r.st.stop = false ∧
        (r.step c).steps =
          r.steps ++ [min (c.gen.call r.st.calls) (c.endTime - r.st.time)]) := by
      unfold Run.step
      cases hs : r.status with
      | finished => exact Or.inl rfl
      | failed => exact Or.inl rfl
      | running =>
        simp only [next]
        cases hstop : r.st.stop with
        | true => exact Or.inl rfl
        | false =>
          simp only [Bool.false_eq_true, if_false]
          by_cases hsmall : min (c.gen.call r.st.calls) (c.endTime - r.st.time) < tol K
          · simp only [hsmall, if_true]; exact Or.inl rfl
          · simp only [hsmall, if_false]
            refine Or.inr ⟨trivial, trivial, ?_⟩
            split_ifs <;> simp [Run.steps]
    generalize (r.step c).steps = l at hcases
    rcases hcases with rfl | ⟨hs, hstop, rfl⟩
    · exact ih
    · intro hk
      have hcalls := hinv.calls (by simp [hs])
      have htime := hinv.notStop hstop
      have hlen : r.steps.length = r.trace.length := by simp [Run.steps]
      rcases Nat.lt_or_ge k r.steps.length with h1 | h1
      · rw [List.getElem_append_left h1, List.take_append_of_le_length h1.le]
        exact ih h1
      · have h2 : k = r.steps.length := by
          simp only [List.length_append, List.length_singleton] at hk; omega
        subst h2
        rw [List.getElem_append_right h1, List.take_left]
        simp only [Nat.sub_self, List.getElem_cons_zero]
        rw [htime, hcalls, hlen]
        unfold Generator.call
        split_ifs <;> rfl

/-- C01, last time: after a normal end the last time seen in the loop body is the end time. -/
theorem C01_last_time (c : Config K) (s : State K) (n : ℕ)
    (hf : (Run.after c s n).status = .finished) :
    (Run.after c s n).times.getLast? = some c.endTime := by
  have key : ∀ m, (Run.after c s m).trace ≠ [] →
      (Run.after c s m).times.getLast? = some (Run.after c s m).st.time := by
    intro m
    induction m with
    | zero => intro h; exact absurd rfl h
    | succ m ih =>
      change (Run.step c (Run.after c s m)).trace ≠ [] →
        (Run.step c (Run.after c s m)).times.getLast? = some (Run.step c (Run.after c s m)).st.time
      generalize Run.after c s m = r at ih
      unfold Run.step
      cases hs : r.status with
      | finished => simpa using ih
      | failed => simpa using ih
      | running =>
        simp only [next]
        split <;> rename_i heq <;> split at heq
        all_goals first
          | (obtain ⟨rfl, _⟩ := Prod.mk.inj heq; exact ih)
          | (simp at heq; done)
          | skip
        all_goals
          by_cases h1 : min (c.gen.call r.st.calls) (c.endTime - r.st.time) < tol K
          · simp only [h1, if_true, Prod.mk.injEq] at heq
            first
              | (simp at heq; done)
              | (obtain ⟨rfl, _⟩ := heq; exact ih)
          · simp only [h1, if_false] at heq
            split at heq <;> first
              | (simp at heq; done)
              | (intro _; simp [Run.times])
  have h := inv_after c s n
  have hstop := h.fin hf
  rw [key n (h.stop_ne hstop), (h.stopped hstop).1]

/-! ### C02 -/

/-- C02.  After at least one step, start time plus the sum of the yielded steps does not exceed the
end time; after a normal end it is within `1e-12` of the end time. -/
theorem C02_steps_sum (c : Config K) (s : State K) (n : ℕ) :
    let r := Run.after c s n
    (r.steps ≠ [] → c.startTime + r.steps.sum ≤ c.endTime) ∧
    (r.status = .finished → c.endTime - 1 / 10 ^ 12 < c.startTime + r.steps.sum) := by
  have h := inv_after c s n
  refine ⟨fun hne => ?_, fun hf => ?_⟩
  · cases hstop : (Run.after c s n).st.stop with
    | true => exact (h.stopped hstop).2.1
    | false =>
      have hne' : (Run.after c s n).trace ≠ [] := by
        intro h0; exact hne (by simp [Run.steps, h0])
      have h1 := h.notStop hstop
      have h2 := h.gap hstop hne'
      have h3 : 0 < tol K := tol_pos
      rw [← h1]; linarith
  · have h1 := (h.stopped (h.fin hf)).2.2
    unfold tol at h1; linarith

/-! ### C03 -/

theorem step_of_running {c : Config K} {r : Run K} (hs : r.status = .running) :
    r.step c = match next c r.st with
      | (s, .stopIteration) => { r with st := s, status := .finished }
      | (s, .tooSmall) => { r with st := s, status := .failed }
      | (s, .yield dt) => { r with st := s, trace := r.trace ++ [⟨dt, s.time⟩] } := by
  unfold Run.step; rw [hs]; rfl

theorem progress (c : Config K) (s : State K) (δ : K) (hδ : tol K ≤ δ)
    (hgen : ∀ k, δ ≤ c.gen.call k) (hdur : tol K ≤ c.endTime - c.startTime) (n : ℕ) :
    let r := Run.after c s n
    r.status ≠ .failed ∧ r.trace.length ≤ n ∧
    (r.st.stop = false → r.status = .running ∧ c.startTime + n * δ ≤ r.st.time ∧
      tol K ≤ c.endTime - r.st.time) := by
  induction n with
  | zero => simp [Run.after, Run.start, iter, hdur]
  | succ n ih =>
    obtain ⟨hnf, hlen, hrun⟩ := ih
    change (Run.step c (Run.after c s n)).status ≠ _ ∧
      (Run.step c (Run.after c s n)).trace.length ≤ _ ∧
      ((Run.step c (Run.after c s n)).st.stop = false → _)
    have hinv := inv_after c s n
    change (Run.step c (Run.after c s n)).status ≠ _ ∧
      (Run.step c (Run.after c s n)).trace.length ≤ _ ∧
      ((Run.step c (Run.after c s n)).st.stop = false →
        (Run.step c (Run.after c s n)).status = .running ∧
        c.startTime + ((n + 1 : ℕ) : K) * δ ≤ (Run.step c (Run.after c s n)).st.time ∧
        tol K ≤ c.endTime - (Run.step c (Run.after c s n)).st.time)
    generalize Run.after c s n = r at *
    have htol : 0 < tol K := tol_pos
    cases hs : r.status with
    | failed => exact absurd hs hnf
    | finished =>
      have hst := hinv.fin hs
      simp only [Run.step, hs]
      refine ⟨by simp, by omega, fun h => ?_⟩
      rw [hst] at h; simp at h
    | running =>
      rw [step_of_running hs]
      cases hstop : r.st.stop with
      | true =>
        simp only [next, hstop, if_true]
        refine ⟨by simp, by omega, fun h => ?_⟩
        simp at h
      | false =>
        obtain ⟨_, htime, hgap⟩ := hrun hstop
        have hsm : ¬ min (c.gen.call r.st.calls) (c.endTime - r.st.time) < tol K := by
          rw [not_lt]; exact le_min (le_trans hδ (hgen _)) hgap
        by_cases hend : c.endTime - (r.st.time +
            min (c.gen.call r.st.calls) (c.endTime - r.st.time)) < tol K
        · simp [next, hstop, hsm, hend, hs, hlen]
        · have hmin : min (c.gen.call r.st.calls) (c.endTime - r.st.time) =
              c.gen.call r.st.calls := by
            rcases le_total (c.gen.call r.st.calls) (c.endTime - r.st.time) with h | h
            · exact min_eq_left h
            · exfalso; apply hend; rw [min_eq_right h]; linarith
          simp only [next, hstop, hsm, hend, if_false, Bool.false_eq_true]
          refine ⟨by simp [hs], by simp [hlen], fun _ => ⟨hs, ?_, ?_⟩⟩
          · rw [hmin]; have := hgen r.st.calls; push_cast; linarith
          · simpa using hend

/-- C03.  If every proposed step is at least `δ ≥ 1e-12` and the duration is at least `1e-12`, the
loop never raises, and it has ended after at most `n` steps whenever `n δ ≥ end - start`
(i.e. for `n = ⌈(end - start) / δ⌉`). -/
theorem C03_terminates (c : Config K) (s : State K) (δ : K) (hδ : 1 / 10 ^ 12 ≤ δ)
    (hgen : ∀ k, δ ≤ c.gen.call k) (hdur : 1 / 10 ^ 12 ≤ c.endTime - c.startTime) (n : ℕ)
    (hn : c.endTime - c.startTime ≤ n * δ) :
    (∀ m, (Run.after c s m).status ≠ .failed) ∧
    (Run.after c s (n + 1)).status = .finished ∧ (Run.after c s (n + 1)).steps.length ≤ n := by
  have hp := fun m => progress c s δ hδ hgen hdur m
  refine ⟨fun m => (hp m).1, ?_⟩
  obtain ⟨hnf, hlen, hrun⟩ := hp n
  have htol : 0 < tol K := tol_pos
  have hstop : (Run.after c s n).st.stop = true := by
    by_contra hcon
    obtain ⟨_, h1, h2⟩ := hrun (by simpa using hcon)
    linarith
  change (Run.step c (Run.after c s n)).status = _ ∧
    (Run.step c (Run.after c s n)).steps.length ≤ _
  generalize Run.after c s n = r at *
  cases hs : r.status with
  | failed => exact absurd hs hnf
  | finished => simp [Run.step, hs, Run.steps, hlen]
  | running => rw [step_of_running hs]; simp [next, hstop, Run.steps, hlen]

/-- C03, error branch: a call of `__next__` before the end raises `TimeStepTooSmallError` (and does
not move the time) exactly if the proposed step or the remaining duration is below `1e-12`. -/
theorem C03_raises_iff (c : Config K) (s : State K) (hs : s.stop = false) :
    ((next c s).2 = .tooSmall ↔
      c.gen.call s.calls < 1 / 10 ^ 12 ∨ c.endTime - s.time < 1 / 10 ^ 12) ∧
    ((next c s).2 = .tooSmall → (next c s).1.time = s.time ∧ (next c s).1.number = s.number) := by
  have hiff : min (c.gen.call s.calls) (c.endTime - s.time) < tol K ↔
      c.gen.call s.calls < 1 / 10 ^ 12 ∨ c.endTime - s.time < 1 / 10 ^ 12 := by
    rw [min_lt_iff]; rfl
  by_cases h : min (c.gen.call s.calls) (c.endTime - s.time) < tol K
  · rw [← hiff]
    simp [next, hs, h]
  · rw [← hiff]
    simp only [next, hs, h, if_false, Bool.false_eq_true, iff_false]
    split <;> simp

/-- C03, failing loops: the loop raises only because of a proposed step below `1e-12` or because
the whole duration is below `1e-12`. -/
theorem C03_failed_cause (c : Config K) (s : State K) (n : ℕ)
    (h : (Run.after c s n).status = .failed) :
    (∃ k, c.gen.call k < 1 / 10 ^ 12) ∨ c.endTime - c.startTime < 1 / 10 ^ 12 := by
  by_contra hcon
  push Not at hcon
  exact (progress c s (tol K) le_rfl hcon.1 hcon.2 n).1 h

/-- Non-vacuity of C01-C03: steps 4/10, from 0 to 1: three steps, the last one shortened. -/
def exampleConfig : Config ℚ :=
  { startTime := 0, endTime := 1, gen := { raw := fun _ => 4 / 5, cfl := 1 / 2, adaptive := false } }

def exampleState : State ℚ := { time := 7, number := 3, stop := true, calls := 5 }

example : (Run.after exampleConfig exampleState 4).status = .finished ∧
    (Run.after exampleConfig exampleState 4).steps = [2 / 5, 2 / 5, 1 / 5] ∧
    (Run.after exampleConfig exampleState 4).times = [2 / 5, 4 / 5, 1] := by
  decide +kernel

/-! ### C04 -/

/-- The claim of C04 for one time stepping object: `len` returns the number of values a complete
iteration yields. -/
def LenAgrees [FloorRing K] (c : Config K) (s : State K) : Prop :=
  ∃ N, len c s = .ok N ∧ (Run.after c s (N + 1)).status = .finished ∧
    (Run.after c s (N + 1)).steps.length = N

/-- C04 is false in full generality: with step 1 from 0 to `1 + 1e-12`, `len` gives 1, but the
iteration yields two steps. -/
theorem C04_counterexample :
    let c : Config ℚ := { startTime := 0, endTime := 1 + 1 / 10 ^ 12,
                          gen := { raw := fun _ => 1, cfl := 1, adaptive := false } }
    let s : State ℚ := { time := 0, number := 0, stop := false, calls := 0 }
    (len c s).toOption = some 1 ∧ (Run.after c s 3).status = .finished ∧
      (Run.after c s 3).steps.length = 2 := by
  decide +kernel

theorem const_progress (c : Config K) (s : State K) (dt : K) (hdt : tol K ≤ dt)
    (hgen : ∀ k, c.gen.call k = dt) (m : ℕ) (hm : tol K ≤ c.endTime - c.startTime - m * dt) :
    let r := Run.after c s m
    r.status = .running ∧ r.st.stop = false ∧ r.trace.length = m ∧
      r.st.time = c.startTime + m * dt := by
  induction m with
  | zero => simp [Run.after, Run.start, iter]
  | succ m ih =>
    have htol : 0 < tol K := tol_pos
    push_cast at hm
    obtain ⟨h1, h2, h3, h4⟩ := ih (by linarith)
    change (Run.step c (Run.after c s m)).status = _ ∧ (Run.step c (Run.after c s m)).st.stop = _ ∧
      (Run.step c (Run.after c s m)).trace.length = _ ∧
      (Run.step c (Run.after c s m)).st.time = _
    generalize Run.after c s m = r at *
    rw [step_of_running h1]
    have hmin : min (c.gen.call r.st.calls) (c.endTime - r.st.time) = dt := by
      rw [hgen, h4]; apply min_eq_left; linarith
    have hsm : ¬ dt < tol K := not_lt.mpr hdt
    have hend : ¬ c.endTime - (r.st.time + dt) < tol K := by
      rw [not_lt, h4]; linarith
    simp only [next, h2, hmin, hsm, hend, if_false, Bool.false_eq_true]
    refine ⟨h1, trivial, by simp [h3], ?_⟩
    simp only [h4]; push_cast; ring

theorem const_finish (c : Config K) (s : State K) (dt : K) (hdt : tol K ≤ dt)
    (hgen : ∀ k, c.gen.call k = dt) (m : ℕ) (hm : tol K ≤ c.endTime - c.startTime - m * dt)
    (hm' : c.endTime - c.startTime - (m + 1) * dt < tol K) :
    (Run.after c s (m + 2)).status = .finished ∧ (Run.after c s (m + 2)).steps.length = m + 1 := by
  have htol : 0 < tol K := tol_pos
  obtain ⟨h1, h2, h3, h4⟩ := const_progress c s dt hdt hgen m hm
  have hstep : ∃ st tr, Run.after c s (m + 1) = ⟨st, tr, .running⟩ ∧ st.stop = true ∧
      tr.length = m + 1 := by
    change ∃ st tr, Run.step c (Run.after c s m) = _ ∧ _
    generalize Run.after c s m = r at *
    rw [step_of_running h1]
    have hsm : ¬ min (c.gen.call r.st.calls) (c.endTime - r.st.time) < tol K := by
      rw [not_lt, hgen, h4]; apply le_min hdt; linarith
    have hend : c.endTime - (r.st.time + min (c.gen.call r.st.calls) (c.endTime - r.st.time))
        < tol K := by
      rw [hgen, h4]
      rcases le_total dt (c.endTime - (c.startTime + m * dt)) with h | h
      · rw [min_eq_left h]; linarith
      · rw [min_eq_right h]; linarith
    simp only [next, h2, hsm, hend, if_false, if_true, Bool.false_eq_true]
    refine ⟨_, _, by rw [h1], rfl, by simp [h3]⟩
  obtain ⟨st, tr, he, hst, htr⟩ := hstep
  change (Run.step c (Run.after c s (m + 1))).status = _ ∧
    (Run.step c (Run.after c s (m + 1))).steps.length = _
  rw [he, step_of_running rfl]
  simp [next, hst, Run.steps, htr]

/-- C04.  For a non-adaptive time stepping with step and duration at least `1e-12`, `len` returns a
number `N`, and a complete iteration yields exactly `N` values, or `N + 1` values if exactly `1e-12` is
left after `N` full steps. -/
theorem C04_len [FloorRing K] (c : Config K) (s : State K)
    (had : c.gen.adaptive = false) (hdt : 1 / 10 ^ 12 ≤ c.gen.raw 0 * c.gen.cfl)
    (hdur : 1 / 10 ^ 12 ≤ c.endTime - c.startTime) :
    ∃ N M : ℕ, len c s = .ok N ∧
      (c.endTime - c.startTime - N * (c.gen.raw 0 * c.gen.cfl) ≠ 1 / 10 ^ 12 → M = N) ∧
      (c.endTime - c.startTime - N * (c.gen.raw 0 * c.gen.cfl) = 1 / 10 ^ 12 → M = N + 1) ∧
      (Run.after c s (M + 1)).status = .finished ∧ (Run.after c s (M + 1)).steps.length = M := by
  have htol : 0 < tol K := tol_pos
  change tol K ≤ _ at hdt
  change tol K ≤ _ at hdur
  change ∃ N M : ℕ, _ ∧ (_ ≠ tol K → _) ∧ (_ = tol K → _) ∧ _
  have hgen : ∀ k, c.gen.call k = c.gen.raw 0 * c.gen.cfl := by
    intro k; simp [Generator.call, had]
  set dt := c.gen.raw 0 * c.gen.cfl with hdtdef
  set D := c.endTime - c.startTime with hD
  have hpos : 0 < dt := lt_of_lt_of_le htol hdt
  have hq0 : 0 ≤ ⌊D / dt⌋ := Int.floor_nonneg.mpr (div_nonneg (le_trans htol.le hdur) hpos.le)
  obtain ⟨q, hq⟩ := Int.eq_ofNat_of_zero_le hq0
  have hle : (q : K) * dt ≤ D := by
    have := Int.floor_le (D / dt); rw [hq] at this
    rwa [Int.cast_natCast, le_div_iff₀ hpos] at this
  have hlt : D < ((q : K) + 1) * dt := by
    have := Int.lt_floor_add_one (D / dt); rw [hq] at this
    rwa [Int.cast_natCast, div_lt_iff₀ hpos] at this
  unfold len
  rw [had, hgen]
  simp only [Bool.false_eq_true, if_false, hpos.ne', ← hD]
  rw [hq]
  simp only [Int.cast_natCast]
  rcases lt_trichotomy (D - q * dt) (tol K) with hr | hr | hr
  · have hif : ¬ dt * (q : K) < D - tol K := by rw [not_lt]; linarith [mul_comm dt (q : K)]
    obtain ⟨m, rfl⟩ : ∃ m, q = m + 1 := by
      cases q with
      | zero => exfalso; simp at hr; linarith
      | succ m => exact ⟨m, rfl⟩
    push_cast at hr hle hlt hif
    refine ⟨m + 1, m + 1, ?_, fun _ => rfl, fun h => ?_, ?_⟩
    · simp only [Nat.cast_add, Nat.cast_one, hif, if_false, add_zero]
      rw [if_neg (by omega)]; congr 1
    · push_cast at h; linarith
    · exact const_finish c s dt hdt hgen m (by linarith) hr
  · have hif : ¬ dt * (q : K) < D - tol K := by rw [not_lt]; linarith [mul_comm dt (q : K)]
    refine ⟨q, q + 1, ?_, fun h => absurd hr h, fun _ => rfl, ?_⟩
    · simp only [hif, if_false, add_zero]
      rw [if_neg (by omega)]; congr 1
    · exact const_finish c s dt hdt hgen q hr.ge (by linarith)
  · have hif : dt * (q : K) < D - tol K := by linarith [mul_comm dt (q : K)]
    refine ⟨q + 1, q + 1, ?_, fun _ => rfl, fun h => ?_, ?_⟩
    · simp only [hif, if_true]
      rw [if_neg (by omega)]; congr 1
    · push_cast at h; linarith
    · exact const_finish c s dt hdt hgen q hr.le (by linarith)

/-- C04, in particular `len` agrees with the iteration if the remainder is not exactly `1e-12`. -/
theorem C04_len_agrees [FloorRing K] (c : Config K) (s : State K)
    (had : c.gen.adaptive = false) (hdt : 1 / 10 ^ 12 ≤ c.gen.raw 0 * c.gen.cfl)
    (hdur : 1 / 10 ^ 12 ≤ c.endTime - c.startTime)
    (hrem : ∀ n : ℕ, c.endTime - c.startTime - n * (c.gen.raw 0 * c.gen.cfl) ≠ 1 / 10 ^ 12) :
    LenAgrees c s := by
  obtain ⟨N, M, h1, h2, -, h3⟩ := C04_len c s had hdt hdur
  rw [h2 (hrem N)] at h3
  exact ⟨N, h1, h3⟩

/-- Non-vacuity of C04. -/
example : LenAgrees exampleConfig exampleState :=
  C04_len_agrees _ _ rfl (by norm_num [exampleConfig]) (by norm_num [exampleConfig]) (by
    intro n h
    norm_num [exampleConfig] at h
    have h2 : (n : ℚ) * 2000000000000 = 4999999999995 := by linarith
    have h3 : n * 2000000000000 = 4999999999995 := by exact_mod_cast h2
    omega)

/-! ### C05 -/

/-- C05.  A non-adaptive time stepping yields the same steps and times in each complete or partial
iteration, no matter in which state (i.e. after how many steps of an earlier iteration) the object
is when the iteration starts. -/
theorem C05_restart (c : Config K) (had : c.gen.adaptive = false) (s s' : State K) (n : ℕ) :
    (Run.after c s n).trace = (Run.after c s' n).trace ∧
    (Run.after c s n).status = (Run.after c s' n).status ∧
    (Run.after c s n).st.time = (Run.after c s' n).st.time := by
  have key : ∀ n, (Run.after c s n).trace = (Run.after c s' n).trace ∧
      (Run.after c s n).status = (Run.after c s' n).status ∧
      (Run.after c s n).st.time = (Run.after c s' n).st.time ∧
      (Run.after c s n).st.stop = (Run.after c s' n).st.stop := by
    intro n
    induction n with
    | zero => simp [Run.after, Run.start, iter]
    | succ n ih =>
      obtain ⟨h1, h2, h3, h4⟩ := ih
      change (Run.step c (Run.after c s n)).trace = (Run.step c (Run.after c s' n)).trace ∧
        (Run.step c (Run.after c s n)).status = (Run.step c (Run.after c s' n)).status ∧
        (Run.step c (Run.after c s n)).st.time = (Run.step c (Run.after c s' n)).st.time ∧
        (Run.step c (Run.after c s n)).st.stop = (Run.step c (Run.after c s' n)).st.stop
      generalize Run.after c s n = r at *
      generalize Run.after c s' n = r' at *
      have hg : ∀ k, c.gen.call k = c.gen.raw 0 * c.gen.cfl := by
        intro k; simp [Generator.call, had]
      unfold Run.step
      rw [← h2]
      cases hs : r.status with
      | finished => simp [h1, h3, h4, ← h2, hs]
      | failed => simp [h1, h3, h4, ← h2, hs]
      | running =>
        rw [hs] at h2
        simp only [next, hg, ← h3, ← h4]
        by_cases ha : r.st.stop = true
        · simp [ha, h1, ← h4, ← h3]
        · simp only [ha, if_false, Bool.false_eq_true]
          by_cases hb : min (c.gen.raw 0 * c.gen.cfl) (c.endTime - r.st.time) < tol K
          · simp [hb, h1, ← h4, ← h3]
          · by_cases hc : c.endTime - (r.st.time +
                min (c.gen.raw 0 * c.gen.cfl) (c.endTime - r.st.time)) < tol K <;>
              simp [hb, hc, h1, ← h2]
  obtain ⟨h1, h2, h3, _⟩ := key n
  exact ⟨h1, h2, h3⟩

/-- C05, size of the steps: each step but the last is exactly the proposed one; for a non-adaptive
generator that is the raw step computed at construction times the CFL number. -/
theorem C05_full_steps (c : Config K) (s : State K) (n k : ℕ)
    (hk : k + 1 < (Run.after c s n).steps.length) :
    (Run.after c s n).steps[k] = c.gen.call (s.calls + k) ∧
    (c.gen.adaptive = false → (Run.after c s n).steps[k] = c.gen.raw 0 * c.gen.cfl) := by
  have key : ∀ n, ∀ k (hk : k < (Run.after c s n).steps.length),
      ((Run.after c s n).st.stop = false ∨ k + 1 < (Run.after c s n).steps.length) →
      (Run.after c s n).steps[k] = c.gen.call (s.calls + k) := by
    intro n
    induction n with
    | zero => intro k hk; simp [Run.after, Run.start, Run.steps] at hk
    | succ n ih =>
      have hinv := inv_after c s n
      change ∀ k (hk : k < (Run.step c (Run.after c s n)).steps.length),
        ((Run.step c (Run.after c s n)).st.stop = false ∨
          k + 1 < (Run.step c (Run.after c s n)).steps.length) →
        (Run.step c (Run.after c s n)).steps[k] = c.gen.call (s.calls + k)
      generalize Run.after c s n = r at *
      cases hs : r.status with
      | finished => simpa [Run.step, hs] using ih
      | failed => simpa [Run.step, hs] using ih
      | running =>
        have htol : 0 < tol K := tol_pos
        have hcalls := hinv.calls (by simp [hs])
        rw [step_of_running hs]
        cases hstop : r.st.stop with
        | true =>
          simp only [next, hstop, if_true]
          intro k hk hor
          apply ih k hk
          rcases hor with h | h
          · simp at h
          · exact Or.inr h
        | false =>
          by_cases hb : min (c.gen.call r.st.calls) (c.endTime - r.st.time) < tol K
          · simp only [next, hstop, hb, if_true, if_false, Bool.false_eq_true]
            intro k hk _
            exact ih k hk (Or.inl hstop)
          · by_cases hc : c.endTime - (r.st.time +
                min (c.gen.call r.st.calls) (c.endTime - r.st.time)) < tol K
            · simp only [next, hstop, hb, hc, if_true, if_false, Bool.false_eq_true]
              intro k hk hor
              simp only [Run.steps, List.map_append, List.map_cons, List.map_nil,
                List.length_append, List.length_singleton] at hk hor ⊢
              rcases hor with h | h
              · simp at h
              · have hk' : k < (r.trace.map Tick.dt).length := by omega
                rw [List.getElem_append_left hk']
                exact ih k hk' (Or.inl hstop)
            · simp only [next, hstop, hb, hc, if_false, Bool.false_eq_true]
              intro k hk _
              simp only [Run.steps, List.map_append, List.map_cons, List.map_nil,
                List.length_append, List.length_singleton] at hk ⊢
              by_cases hk' : k < (r.trace.map Tick.dt).length
              · rw [List.getElem_append_left hk']
                exact ih k hk' (Or.inl hstop)
              · have hk2 : k = (r.trace.map Tick.dt).length := by omega
                subst hk2
                rw [List.getElem_append_right le_rfl]
                simp only [Nat.sub_self, List.getElem_singleton, List.length_map]
                rw [← hcalls]
                rcases le_total (c.gen.call r.st.calls) (c.endTime - r.st.time) with h | h
                · exact min_eq_left h
                · exfalso; apply hc; rw [min_eq_right h]; linarith
  have h := key n k (by omega) (Or.inr hk)
  refine ⟨h, fun had => ?_⟩
  rw [h]; simp [Generator.call, had]

example : (Run.after exampleConfig exampleState 4).steps.length = 3 := by decide +kernel

/-! ### C06 -/

/-- C06.  With one time node per stage, the check passes iff the step is admissible for each stage
and raises `CFLConditionViolatedError` otherwise. -/
theorem C06_cfl_check {V : Type*} (opt : K → V → K) (dt : K) (nodes : List K) (dofs : List V)
    (hlen : nodes.length = dofs.length) :
    ((∀ i (hi : i < dofs.length), dt ≤ opt nodes[i] dofs[i]) ∧
        cflCheck opt dt nodes dofs = .ok ()) ∨
    ((∃ i, ∃ hi : i < dofs.length, opt nodes[i] dofs[i] < dt) ∧
        cflCheck opt dt nodes dofs = .error .violated) := by
  induction dofs generalizing nodes with
  | nil => left; cases nodes <;> simp [cflCheck] at hlen ⊢
  | cons u us ih =>
    cases nodes with
    | nil => simp at hlen
    | cons t ts =>
      by_cases h : dt > opt t u
      · right
        exact ⟨⟨0, by simp, by simpa using h⟩, by simp [cflCheck, h]⟩
      · rcases ih ts (by simpa using hlen) with ⟨h1, h2⟩ | ⟨⟨i, hi, h1⟩, h2⟩
        · left
          refine ⟨fun i hi => ?_, by simp [cflCheck, h, h2]⟩
          cases i with
          | zero => simpa using h
          | succ i => simpa using h1 i (by simpa using hi)
        · right
          exact ⟨⟨i + 1, by simpa using hi, by simpa using h1⟩, by simp [cflCheck, h, h2]⟩

example : cflCheck (fun t u => t + u) (2 : ℚ) [1, 2] [1, 1] = .ok () := by
  decide +kernel
example : cflCheck (fun t u => t + u) (5 / 2 : ℚ) [1, 2] [1, 1] = .error .violated := by
  decide +kernel

end Verif.TimeStepping
