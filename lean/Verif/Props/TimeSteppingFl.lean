import Verif.Core.TimeSteppingFl
import Mathlib.Data.Rat.Floor
import Mathlib.Tactic.NormNum

/-!
C127: time stepping in floating point arithmetic.
-/

set_option linter.unusedSectionVars false

namespace Verif.TimeSteppingFl

open Verif.Rounding Verif.TimeStepping

variable {K : Type*} [Field K] [LinearOrder K] [IsStrictOrderedRing K]

theorem tiny_pos (R : Rounding K) (hu : R.u < 1) : 0 < tiny R := by
  have h := R.lower (tol K)
  have h0 : (0 : K) < tol K := by unfold tol; positivity
  rw [abs_of_pos h0] at h
  unfold tiny
  nlinarith

theorem tiny_rep (R : Rounding K) : R.fl (tiny R) = tiny R := R.idem _

theorem foldl_fl_append (R : Rounding K) (t : K) (l : List K) (d : K) :
    solutionTime R t (l ++ [d]) = R.fl (solutionTime R t l + d) := by
  simp [solutionTime, List.foldl_append]

/-- What is known of a loop: the times of the body end with the time of the object, and so on. -/
structure Known (R : Rounding K) (c : Config K) (s : State K) (r : Run K) : Prop where
  calls : r.status ≠ .failed → r.st.calls = s.calls + r.trace.length
  sorted : (c.startTime :: r.times).Pairwise (· ≤ ·)
  top : ∀ t ∈ c.startTime :: r.times, t ≤ r.st.time
  below : ∀ t ∈ r.times, t ≤ c.endTime
  rep : R.fl r.st.time = r.st.time
  small : ∀ d ∈ r.steps, tiny R ≤ d
  proposed : ∀ (k : ℕ) (hk : k < r.steps.length), r.steps[k] ≤ c.gen.callFl R (s.calls + k)
  stopped : r.st.stop = true → r.st.time = c.endTime ∧ c.startTime < c.endTime ∧
    c.endTime - tiny R < solutionTime R c.startTime r.steps ∧
    solutionTime R c.startTime r.steps ≤
      c.endTime + R.u * ((1 + R.u) * (c.endTime - c.startTime) + |c.endTime|)
  going : r.st.stop = false → r.st.time = solutionTime R c.startTime r.steps ∧
    (r.steps ≠ [] → c.startTime < c.endTime ∧ tiny R ≤ R.fl (c.endTime - r.st.time))
  finished : r.status = .finished → r.st.stop = true
  failed : r.status = .failed → r.st.stop = false

theorem inv_start (R : Rounding K) (c : Config K) (s : State K) (h0 : R.fl c.startTime = c.startTime) :
    Known R c s (Run.start c s) where
  calls := fun _ => rfl
  sorted := by simp [Run.start, Run.times]
  top := by simp [Run.start, Run.times, iter]
  below := by simp [Run.start, Run.times]
  rep := h0
  small := by simp [Run.start, Run.steps]
  proposed := by simp [Run.start, Run.steps]
  stopped := by simp [Run.start, iter]
  going := fun _ => ⟨rfl, by simp [Run.start, Run.steps]⟩
  finished := by simp [Run.start]
  failed := by simp [Run.start]

/-- Bounds for the time after a step. -/
theorem step_bounds (R : Rounding K) (t e dt : K) (hrep : R.fl t = t) (hdt0 : 0 < dt) (hdt : dt ≤ R.fl (e - t)) :
    t < e ∧ t ≤ R.fl (t + dt) ∧ R.fl (t + dt) ≤ e + R.u * ((1 + R.u) * (e - t) + |e|) := by
  have hlt : t < e := by
    have := R.pos_of_fl (lt_of_lt_of_le hdt0 hdt); linarith
  refine ⟨hlt, ?_, ?_⟩
  · calc t = R.fl t := hrep.symm
      _ ≤ _ := R.mono (by linarith)
  · have h1 := R.upper (e - t)
    rw [abs_of_pos (by linarith)] at h1
    have h2 : t + dt ≤ e + R.u * (e - t) := by linarith
    have h3 := R.mono h2
    have h4 := R.upper (e + R.u * (e - t))
    have h5 : |e + R.u * (e - t)| ≤ |e| + R.u * (e - t) := by
      refine (abs_add_le _ _).trans (le_of_eq ?_)
      rw [abs_of_nonneg (mul_nonneg R.nonneg (by linarith))]
    have h6 := mul_le_mul_of_nonneg_left h5 R.nonneg
    nlinarith

theorem inv_step (R : Rounding K) (hu : R.u < 1) (c : Config K) (s : State K) (h1 : R.fl c.endTime = c.endTime)
    (r : Run K) (h : Known R c s r) : Known R c s (r.stepFl R c) := by
  unfold Run.stepFl
  have hst : r.status = .finished ∨ r.status = .failed ∨ r.status = .running := by cases r.status <;> simp
  rcases hst with hs | hs | hs
  · simp only [hs]; exact h
  · simp only [hs]; exact h
  · simp only [hs]
    unfold nextFl
    by_cases hstop : r.st.stop = true
    · simp only [hstop, if_true]
      exact { h with finished := fun _ => hstop, failed := by simp, calls := fun _ => h.calls (by simp [hs]) }
    · have hstop : r.st.stop = false := by simpa using hstop
      simp only [hstop, Bool.false_eq_true, if_false]
      set dt := min (c.gen.callFl R r.st.calls) (R.fl (c.endTime - r.st.time)) with hdt
      by_cases hsmall : dt < tiny R
      · simp only [hsmall, if_true]
        exact
          { h with
            finished := by simp
            failed := fun _ => rfl
            calls := by simp
            going := fun _ => h.going hstop
            stopped := by simp }
      · simp only [hsmall, if_false]
        have hsmall : tiny R ≤ dt := not_lt.1 hsmall
        have hd0 : 0 < dt := lt_of_lt_of_le (tiny_pos R hu) hsmall
        obtain ⟨b1, b2, b3⟩ := step_bounds R r.st.time c.endTime dt h.rep hd0 (min_le_right _ _)
        have hstart : c.startTime ≤ r.st.time := h.top _ (List.mem_cons_self ..)
        have hcalls := h.calls (by simp [hs])
        have hsol := (h.going hstop).1
        have hlen : r.steps.length = r.trace.length := by simp [Run.steps]
        have hover : R.fl (r.st.time + dt) ≤
            c.endTime + R.u * ((1 + R.u) * (c.endTime - c.startTime) + |c.endTime|) := by
          refine b3.trans ?_
          have : R.u * ((1 + R.u) * (c.endTime - r.st.time)) ≤ R.u * ((1 + R.u) * (c.endTime - c.startTime)) :=
            mul_le_mul_of_nonneg_left (mul_le_mul_of_nonneg_left (by linarith) (by linarith [R.nonneg])) R.nonneg
          nlinarith
        -- what is common to both cases
        have common : ∀ st : State K, st.calls = r.st.calls + 1 → r.st.time ≤ st.time → st.time ≤ c.endTime →
            R.fl st.time = st.time → (st.stop = true → st.time = c.endTime ∧
              c.endTime - tiny R < R.fl (r.st.time + dt)) →
            (st.stop = false → st.time = R.fl (r.st.time + dt) ∧ tiny R ≤ R.fl (c.endTime - st.time)) →
            Known R c s { st := st, trace := r.trace ++ [⟨dt, st.time⟩], status := .running } := by
          intro st e1 e2 e3 e4 e5 e6
          have hsteps : Run.steps ({ st := st, trace := r.trace ++ [⟨dt, st.time⟩], status := .running } : Run K) =
              r.steps ++ [dt] := by simp [Run.steps]
          have htimes : Run.times ({ st := st, trace := r.trace ++ [⟨dt, st.time⟩], status := .running } : Run K) =
              r.times ++ [st.time] := by simp [Run.times]
          exact
            { calls := fun _ => by simp [e1, hcalls]; omega
              sorted := by
                rw [htimes, ← List.cons_append, List.pairwise_append]
                refine ⟨h.sorted, by simp, ?_⟩
                intro a ha b hb
                simp only [List.mem_singleton] at hb
                subst hb
                exact (h.top a ha).trans e2
              top := by
                intro t ht
                rw [htimes, ← List.cons_append, List.mem_append, List.mem_singleton] at ht
                rcases ht with ht | rfl
                · exact (h.top t ht).trans e2
                · exact le_rfl
              below := by
                intro t ht
                rw [htimes, List.mem_append, List.mem_singleton] at ht
                rcases ht with ht | rfl
                · exact h.below t ht
                · exact e3
              rep := e4
              small := by
                intro d hd
                rw [hsteps, List.mem_append, List.mem_singleton] at hd
                rcases hd with hd | rfl
                · exact h.small d hd
                · exact hsmall
              proposed := by
                intro k hk
                simp only [hsteps, List.length_append, List.length_singleton] at hk ⊢
                rcases Nat.lt_or_eq_of_le (Nat.le_of_lt_succ hk) with hk' | hk'
                · rw [List.getElem_append_left hk']
                  exact h.proposed k hk'
                · subst hk'
                  rw [List.getElem_append_right (by omega)]
                  simp only [Nat.sub_self, List.getElem_singleton]
                  rw [hlen, ← hcalls]
                  exact min_le_left _ _
              stopped := by
                intro hst
                obtain ⟨g1, g2⟩ := e5 hst
                rw [hsteps, foldl_fl_append, ← hsol]
                exact ⟨g1, by linarith, g2, hover⟩
              going := by
                intro hst
                obtain ⟨g1, g2⟩ := e6 hst
                rw [hsteps, foldl_fl_append, ← hsol]
                exact ⟨g1, fun _ => ⟨by linarith, g2⟩⟩
              finished := by simp
              failed := by simp }
        by_cases hend : R.fl (c.endTime - R.fl (r.st.time + dt)) < tiny R
        · simp only [hend, if_true]
          have hlow : c.endTime - tiny R < R.fl (r.st.time + dt) := by
            by_contra hc
            have : R.fl (tiny R) ≤ R.fl (c.endTime - R.fl (r.st.time + dt)) := R.mono (by linarith)
            rw [tiny_rep] at this
            linarith
          have := common { time := c.endTime, number := r.st.number + 1, stop := true, calls := r.st.calls + 1 } rfl
            b1.le le_rfl h1 (fun _ => ⟨rfl, hlow⟩) (by simp)
          simpa [hs] using this
        · simp only [hend, if_false]
          have hend : tiny R ≤ R.fl (c.endTime - R.fl (r.st.time + dt)) := not_lt.1 hend
          have hpos := R.pos_of_fl (lt_of_lt_of_le (tiny_pos R hu) hend)
          have := common ⟨R.fl (r.st.time + dt), r.st.number + 1, false, r.st.calls + 1⟩ rfl b2
            (by dsimp only; linarith) (R.idem _) (by simp) (fun _ => ⟨rfl, hend⟩)
          simpa [hs] using this

theorem inv_after (R : Rounding K) (hu : R.u < 1) (c : Config K) (s : State K) (h0 : R.fl c.startTime = c.startTime)
    (h1 : R.fl c.endTime = c.endTime) (n : ℕ) : Known R c s (Run.afterFl R c s n) := by
  induction n with
  | zero => exact inv_start R c s h0
  | succ n ih => exact inv_step R hu c s h1 _ ih

/-- C127.  In floating point arithmetic: the times never decrease and never exceed the end time; every step is at least
the (rounded) `1e-12` and at most the proposed one; a loop that finishes ends with the end time exactly.  The solution's
own time, the rounded sum of the steps, is the time of the loop until the last step; at the end it is larger than the
end time minus `1e-12`, and exceeds it by not more than two roundings. -/
theorem C127_times (R : Rounding K) (hu : R.u < 1) (c : Config K) (s : State K) (h0 : R.fl c.startTime = c.startTime)
    (h1 : R.fl c.endTime = c.endTime) (n : ℕ) :
    let r := Run.afterFl R c s n
    (c.startTime :: r.times).Pairwise (· ≤ ·) ∧ (∀ t ∈ r.times, t ≤ c.endTime) ∧
    (∀ d ∈ r.steps, R.fl (1 / 10 ^ 12) ≤ d) ∧
    (∀ (k : ℕ) (hk : k < r.steps.length),
      r.steps[k] ≤ R.fl ((if c.gen.adaptive then c.gen.raw (s.calls + k) else c.gen.raw 0) * c.gen.cfl)) ∧
    (r.st.stop = false → r.st.time = r.steps.foldl (fun t dt => R.fl (t + dt)) c.startTime) ∧
    (r.status = .finished → r.st.time = c.endTime ∧
      c.endTime - R.fl (1 / 10 ^ 12) < r.steps.foldl (fun t dt => R.fl (t + dt)) c.startTime ∧
      r.steps.foldl (fun t dt => R.fl (t + dt)) c.startTime ≤
        c.endTime + R.u * ((1 + R.u) * (c.endTime - c.startTime) + |c.endTime|)) := by
  intro r
  have h := inv_after R hu c s h0 h1 n
  refine ⟨h.sorted, h.below, h.small, h.proposed, fun hs => (h.going hs).1, fun hf => ?_⟩
  obtain ⟨g1, -, g2, g3⟩ := h.stopped (h.finished hf)
  exact ⟨g1, g2, g3⟩

/-! ### The loop ends -/

/-- A step makes progress, or is the last one. -/
theorem step_progress (R : Rounding K) (hu : R.u ≤ 1 / 8) (c : Config K) (s : State K) (r : Run K) (h : Known R c s r)
    (hs : r.status = .running) (hstop : r.st.stop = false) (hleft : tiny R ≤ R.fl (c.endTime - r.st.time)) (m δ : K)
    (hm0 : |c.startTime| ≤ m) (hm1 : |c.endTime| ≤ m) (hsmall : 4 * R.u * m < tiny R) (hδ : tiny R ≤ δ)
    (hgen : δ ≤ c.gen.callFl R r.st.calls) :
    (r.stepFl R c).status = .running ∧ (r.stepFl R c).steps.length = r.steps.length + 1 ∧
    ((r.stepFl R c).st.stop = false → r.st.time + (δ - 2 * R.u * m) ≤ (r.stepFl R c).st.time ∧
      tiny R ≤ R.fl (c.endTime - (r.stepFl R c).st.time)) := by
  have hu1 : R.u < 1 := by linarith
  have hu0 := R.nonneg
  have hm : 0 ≤ m := (abs_nonneg _).trans hm0
  have hum : 0 ≤ R.u * m := mul_nonneg hu0 hm
  have hm0 := abs_le.1 hm0
  have hm1 := abs_le.1 hm1
  have hstart : c.startTime ≤ r.st.time := h.top _ (List.mem_cons_self ..)
  have hlt : r.st.time < c.endTime := by
    have := R.pos_of_fl (lt_of_lt_of_le (tiny_pos R hu1) hleft); linarith
  set t := r.st.time with ht
  set e := c.endTime with he
  set dt := min (c.gen.callFl R r.st.calls) (R.fl (e - t)) with hdt
  have hdt0 : tiny R ≤ dt := le_min (hδ.trans hgen) hleft
  have hdpos : 0 < dt := lt_of_lt_of_le (tiny_pos R hu1) hdt0
  have hup : dt ≤ (e - t) + R.u * (e - t) := by
    have := R.upper (e - t)
    rw [abs_of_pos (by linarith)] at this
    exact (min_le_right _ _).trans this
  have hue : R.u * (e - t) ≤ 2 * (R.u * m) := by
    have : R.u * (e - t) ≤ R.u * (2 * m) := mul_le_mul_of_nonneg_left (by linarith) hu0
    linarith
  have h8 : 8 * (R.u * m) ≤ m := by nlinarith
  have habs : |t + dt| ≤ 5 / 4 * m := by
    rw [abs_le]; constructor <;> linarith
  have hlow : t + dt - 5 / 4 * (R.u * m) ≤ R.fl (t + dt) := by
    have h1 := R.lower (t + dt)
    have h2 := mul_le_mul_of_nonneg_left habs hu0
    linarith
  have hstep : r.stepFl R c =
      (if R.fl (e - R.fl (t + dt)) < tiny R then
        { st := ⟨e, r.st.number + 1, true, r.st.calls + 1⟩, trace := r.trace ++ [⟨dt, e⟩], status := .running }
      else
        { st := ⟨R.fl (t + dt), r.st.number + 1, false, r.st.calls + 1⟩, trace := r.trace ++ [⟨dt, R.fl (t + dt)⟩],
          status := .running }) := by
    unfold Run.stepFl nextFl
    simp only [hs, hstop, Bool.false_eq_true, if_false]
    rw [if_neg (not_lt.2 hdt0)]
    split_ifs <;> rfl
  rw [hstep]
  split_ifs with hend
  · exact ⟨rfl, by simp [Run.steps], by simp⟩
  · refine ⟨rfl, by simp [Run.steps], fun _ => ⟨?_, not_lt.1 hend⟩⟩
    dsimp only
    rcases min_choice (c.gen.callFl R r.st.calls) (R.fl (e - t)) with hc | hc
    · rw [← hdt] at hc
      rw [← hc] at hgen
      linarith
    · exfalso
      rw [← hdt] at hc
      apply hend
      have h1 := R.lower (e - t)
      rw [abs_of_pos (by linarith), ← hc] at h1
      have h2 : e - R.fl (t + dt) ≤ 13 / 4 * (R.u * m) := by linarith
      have h3 := R.mono h2
      have h4 := R.upper (13 / 4 * (R.u * m))
      rw [abs_of_nonneg (by linarith)] at h4
      nlinarith

/-- C127.  The loop ends: if all times are so small that four roundings of them are less than `1e-12`, and all proposed
steps are at least `δ ≥ 1e-12`, then nothing is raised, and the loop is over after at most as many steps as the duration
needs with steps of `δ` minus two roundings of the time. -/
theorem C127_terminates (R : Rounding K) (hu : R.u ≤ 1 / 8) (c : Config K) (s : State K)
    (h0 : R.fl c.startTime = c.startTime) (h1 : R.fl c.endTime = c.endTime) (m δ : K)
    (hm0 : |c.startTime| ≤ m) (hm1 : |c.endTime| ≤ m) (hsmall : 4 * R.u * m < R.fl (1 / 10 ^ 12))
    (hδ : R.fl (1 / 10 ^ 12) ≤ δ)
    (hgen : ∀ k, δ ≤ R.fl ((if c.gen.adaptive then c.gen.raw k else c.gen.raw 0) * c.gen.cfl))
    (hdur : R.fl (1 / 10 ^ 12) ≤ c.endTime - c.startTime) (n : ℕ)
    (hn : c.endTime - c.startTime ≤ n * (δ - 2 * R.u * m)) :
    (∀ k, (Run.afterFl R c s k).status ≠ .failed) ∧ (Run.afterFl R c s (n + 1)).status = .finished ∧
    (Run.afterFl R c s (n + 1)).steps.length ≤ n := by
  have hu1 : R.u < 1 := by linarith
  have hinv := inv_after R hu1 c s h0 h1
  have key : ∀ k, (Run.afterFl R c s k).status ≠ .failed ∧ (Run.afterFl R c s k).steps.length ≤ k ∧
      ((Run.afterFl R c s k).status = .running → (Run.afterFl R c s k).st.stop = false →
        c.startTime + k * (δ - 2 * R.u * m) ≤ (Run.afterFl R c s k).st.time ∧
        tiny R ≤ R.fl (c.endTime - (Run.afterFl R c s k).st.time)) := by
    intro k
    induction k with
    | zero =>
      refine ⟨by simp [Run.afterFl, Run.start], by simp [Run.afterFl, Run.start, Run.steps], fun _ _ => ⟨?_, ?_⟩⟩
      · simp [Run.afterFl, Run.start, iter]
      · have := R.mono hdur
        rw [R.idem] at this
        exact this
    | succ k ih =>
      obtain ⟨i1, i2, i3⟩ := ih
      have hst : (Run.afterFl R c s k).status = .finished ∨ (Run.afterFl R c s k).status = .running := by
        cases hc : (Run.afterFl R c s k).status
        · exact Or.inr rfl
        · exact Or.inl rfl
        · exact absurd hc i1
      change ((Run.afterFl R c s k).stepFl R c).status ≠ .failed ∧ _ ∧ _
      rcases hst with hst | hst
      · have e : (Run.afterFl R c s k).stepFl R c = Run.afterFl R c s k := by unfold Run.stepFl; rw [hst]
        change _ ∧ ((Run.afterFl R c s k).stepFl R c).steps.length ≤ k + 1 ∧
          (((Run.afterFl R c s k).stepFl R c).status = .running → _)
        rw [e]
        exact ⟨i1, by omega, by simp [hst]⟩
      · change _ ∧ ((Run.afterFl R c s k).stepFl R c).steps.length ≤ k + 1 ∧
          (((Run.afterFl R c s k).stepFl R c).status = .running →
            ((Run.afterFl R c s k).stepFl R c).st.stop = false →
            c.startTime + ((k + 1 : ℕ) : K) * (δ - 2 * R.u * m) ≤ ((Run.afterFl R c s k).stepFl R c).st.time ∧
            tiny R ≤ R.fl (c.endTime - ((Run.afterFl R c s k).stepFl R c).st.time))
        by_cases hstop : (Run.afterFl R c s k).st.stop = true
        · have e : (Run.afterFl R c s k).stepFl R c = { Run.afterFl R c s k with status := .finished } := by
            unfold Run.stepFl nextFl; simp [hst, hstop]
          rw [e]
          exact ⟨by simp, by simpa [Run.steps] using Nat.le_succ_of_le i2, by simp⟩
        · have hstop : (Run.afterFl R c s k).st.stop = false := by simpa using hstop
          obtain ⟨j1, j2⟩ := i3 hst hstop
          obtain ⟨g1, g2, g3⟩ := step_progress R hu c s _ (hinv k) hst hstop j2 m δ hm0 hm1 hsmall hδ (hgen _)
          refine ⟨by rw [g1]; simp, by omega, fun _ hs => ?_⟩
          obtain ⟨g4, g5⟩ := g3 hs
          refine ⟨?_, g5⟩
          push_cast
          linarith
  obtain ⟨k1, k2, k3⟩ := key n
  refine ⟨fun k => (key k).1, ?_⟩
  have hst : (Run.afterFl R c s n).status = .finished ∨ (Run.afterFl R c s n).status = .running := by
    cases hc : (Run.afterFl R c s n).status
    · exact Or.inr rfl
    · exact Or.inl rfl
    · exact absurd hc k1
  change ((Run.afterFl R c s n).stepFl R c).status = .finished ∧ ((Run.afterFl R c s n).stepFl R c).steps.length ≤ n
  rcases hst with hst | hst
  · have e : (Run.afterFl R c s n).stepFl R c = Run.afterFl R c s n := by unfold Run.stepFl; rw [hst]
    rw [e]
    exact ⟨hst, k2⟩
  · by_cases hstop : (Run.afterFl R c s n).st.stop = true
    · have e : (Run.afterFl R c s n).stepFl R c = { Run.afterFl R c s n with status := .finished } := by
        unfold Run.stepFl nextFl; simp [hst, hstop]
      rw [e]
      exact ⟨rfl, k2⟩
    · exfalso
      obtain ⟨j1, j2⟩ := k3 hst (by simpa using hstop)
      have := R.pos_of_fl (lt_of_lt_of_le (tiny_pos R hu1) j2)
      linarith

/-! ### Double precision -/

/-- `-T 1` with steps of `0.1` (rounded) and `++cfl-number 0.5`. -/
def exampleConfig : Config ℚ where
  startTime := 0
  endTime := 1
  gen := ⟨fun _ => (double ℚ).fl (1 / 10), 1 / 2, false⟩

/-- The hypotheses of `C127_terminates` hold in double precision for steps of `0.05` up to time one. -/
example : (∀ k, (Run.afterFl (double ℚ) exampleConfig ⟨0, 0, true, 0⟩ k).status ≠ .failed) ∧
    (Run.afterFl (double ℚ) exampleConfig ⟨0, 0, true, 0⟩ 22).status = .finished ∧
    (Run.afterFl (double ℚ) exampleConfig ⟨0, 0, true, 0⟩ 22).steps.length ≤ 21 :=
  C127_terminates (double ℚ) (by decide +kernel) exampleConfig _ (by decide +kernel) (by decide +kernel) 1
    ((double ℚ).fl (1 / 20)) (by decide +kernel) (by decide +kernel) (by decide +kernel) (by decide +kernel)
    (fun _ => by
      change (double ℚ).fl (1 / 20) ≤ (double ℚ).fl ((double ℚ).fl (1 / 10) * (1 / 2))
      decide +kernel) (by decide +kernel) 21 (by decide +kernel)

/-- The whole of `C127_terminates` for double precision: times up to `2251` are small enough. -/
example : 4 * (double ℚ).u * 2251 < (double ℚ).fl (1 / 10 ^ 12) := by decide +kernel

/-- The times of the example. -/
example (n : ℕ) : ∀ t ∈ (Run.afterFl (double ℚ) exampleConfig ⟨0, 0, true, 0⟩ n).times, t ≤ 1 :=
  (C127_times (double ℚ) (by decide +kernel) exampleConfig ⟨0, 0, true, 0⟩ (by decide +kernel) (by decide +kernel) n).2.1

/-- The loop of the example makes twenty steps. -/
example : (Run.afterFl (double ℚ) exampleConfig ⟨0, 0, true, 0⟩ 22).st.time = 1 ∧
    (Run.afterFl (double ℚ) exampleConfig ⟨0, 0, true, 0⟩ 22).steps.length = 20 ∧
    solutionTime (double ℚ) 0 (Run.afterFl (double ℚ) exampleConfig ⟨0, 0, true, 0⟩ 22).steps = 1 := by
  decide +kernel

/-- From time `16384` to `16385` with steps of `3 / 2 ^ 41`, which is more than `1e-12`. -/
def stuckConfig : Config ℚ where
  startTime := 16384
  endTime := 16385
  gen := ⟨fun _ => 3 / 2199023255552, 1, true⟩

/-- C127.  In double precision the check of the step (`1e-12`) does not ensure progress: for late times the sum of time
and step can be the time again, and the loop goes on for ever without an error, yielding a step each time. -/
theorem C127_stuck : (double ℚ).fl (1 / 10 ^ 12) ≤ stuckConfig.gen.raw 0 ∧
    ∀ n, (Run.afterFl (double ℚ) stuckConfig ⟨16384, 0, true, 0⟩ n).status = .running ∧
      (Run.afterFl (double ℚ) stuckConfig ⟨16384, 0, true, 0⟩ n).st.time = 16384 ∧
      (Run.afterFl (double ℚ) stuckConfig ⟨16384, 0, true, 0⟩ n).steps = List.replicate n (3 / 2199023255552) := by
  refine ⟨by decide +kernel, fun n => ?_⟩
  suffices h : (Run.afterFl (double ℚ) stuckConfig ⟨16384, 0, true, 0⟩ n).status = .running ∧
      (Run.afterFl (double ℚ) stuckConfig ⟨16384, 0, true, 0⟩ n).st.time = 16384 ∧
      (Run.afterFl (double ℚ) stuckConfig ⟨16384, 0, true, 0⟩ n).steps = List.replicate n (3 / 2199023255552) ∧
      (Run.afterFl (double ℚ) stuckConfig ⟨16384, 0, true, 0⟩ n).st.stop = false from ⟨h.1, h.2.1, h.2.2.1⟩
  induction n with
  | zero => exact ⟨rfl, rfl, rfl, rfl⟩
  | succ n ih =>
    change ((Run.afterFl (double ℚ) stuckConfig ⟨16384, 0, true, 0⟩ n).stepFl (double ℚ) stuckConfig).status = _ ∧
      ((Run.afterFl (double ℚ) stuckConfig ⟨16384, 0, true, 0⟩ n).stepFl (double ℚ) stuckConfig).st.time = _ ∧
      ((Run.afterFl (double ℚ) stuckConfig ⟨16384, 0, true, 0⟩ n).stepFl (double ℚ) stuckConfig).steps = _ ∧
      ((Run.afterFl (double ℚ) stuckConfig ⟨16384, 0, true, 0⟩ n).stepFl (double ℚ) stuckConfig).st.stop = _
    generalize Run.afterFl (double ℚ) stuckConfig ⟨16384, 0, true, 0⟩ n = r at ih
    obtain ⟨h1, h2, h3, h4⟩ := ih
    have e : nextFl (double ℚ) stuckConfig r.st =
        (⟨16384, r.st.number + 1, false, r.st.calls + 1⟩, .yield (3 / 2199023255552)) := by
      unfold nextFl
      have hc : stuckConfig.gen.callFl (double ℚ) r.st.calls = 3 / 2199023255552 := by
        change (double ℚ).fl (3 / 2199023255552 * 1) = _
        decide +kernel
      have hr : min (3 / 2199023255552 : ℚ) ((double ℚ).fl (stuckConfig.endTime - 16384)) = 3 / 2199023255552 := by
        decide +kernel
      have ht : (double ℚ).fl (16384 + 3 / 2199023255552) = 16384 := by decide +kernel
      have hn : ¬ (3 / 2199023255552 : ℚ) < tiny (double ℚ) := by decide +kernel
      have he : ¬ (double ℚ).fl (stuckConfig.endTime - 16384) < tiny (double ℚ) := by decide +kernel
      simp only [h4, Bool.false_eq_true, if_false, h2, hc, hr, ht, if_neg hn, if_neg he]
    unfold Run.stepFl
    simp only [h1, e]
    refine ⟨trivial, trivial, ?_, trivial⟩
    unfold Run.steps at h3 ⊢
    rw [List.map_append, h3, List.replicate_succ']
    rfl

/-- C127.  The rounding meant: `nearest` is an integer at least as near as any other, and the even one of two that are
equally near. -/
theorem C127_rounding [FloorRing K] (y : K) (k : ℤ) :
    |(nearest y : K) - y| ≤ |(k : K) - y| ∧
      (|(nearest y : K) - y| = |(k : K) - y| → k ≠ nearest y → nearest y % 2 = 0) := by
  have h0 := Int.floor_le y
  have h1 := Int.lt_floor_add_one y
  set f := ⌊y⌋ with hf
  have hk : (k : K) ≤ f ∨ (f : K) + 1 ≤ k := by
    rcases le_or_gt k f with h | h
    · exact Or.inl (by exact_mod_cast h)
    · exact Or.inr (by exact_mod_cast h)
  unfold nearest
  rw [← hf]
  split_ifs with a1 a2 a3
  · have e : |(f : K) - y| = y - f := by rw [abs_of_nonpos (by linarith)]; ring
    rw [e]
    rcases hk with h | h
    · rw [abs_of_nonpos (by linarith)]
      refine ⟨by linarith, fun he hne => absurd ?_ hne⟩
      exact_mod_cast (by linarith : (k : K) = f)
    · rw [abs_of_nonneg (by linarith)]
      exact ⟨by linarith, fun he _ => by linarith⟩
  · push_cast
    have e : |(f : K) + 1 - y| = f + 1 - y := abs_of_nonneg (by linarith)
    rw [e]
    rcases hk with h | h
    · rw [abs_of_nonpos (by linarith)]
      exact ⟨by linarith, fun he _ => by linarith⟩
    · rw [abs_of_nonneg (by linarith)]
      refine ⟨by linarith, fun he hne => absurd ?_ hne⟩
      exact_mod_cast (by linarith : (k : K) = f + 1)
  · have e : |(f : K) - y| = y - f := by rw [abs_of_nonpos (by linarith)]; ring
    rw [e]
    refine ⟨?_, fun _ _ => a3⟩
    rcases hk with h | h
    · rw [abs_of_nonpos (by linarith)]; linarith
    · rw [abs_of_nonneg (by linarith)]; linarith
  · push_cast
    have e : |(f : K) + 1 - y| = f + 1 - y := abs_of_nonneg (by linarith)
    rw [e]
    refine ⟨?_, fun _ _ => by omega⟩
    rcases hk with h | h
    · rw [abs_of_nonpos (by linarith)]; linarith
    · rw [abs_of_nonneg (by linarith)]; linarith

/-- `7/2` is as near to three as to four. -/
example : |((4 : ℤ) : ℚ) - 7 / 2| = |((3 : ℤ) : ℚ) - 7 / 2| ∧ nearest (7 / 2 : ℚ) = 4 := by
  constructor
  · norm_num [abs_of_nonneg, abs_of_nonpos]
  · decide +kernel

end Verif.TimeSteppingFl
