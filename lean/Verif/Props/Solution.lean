import Verif.Core.Solution
import Mathlib.Data.Rat.Defs
import Mathlib.Algebra.Order.Ring.Rat
import Mathlib.Data.List.Chain

/-!
Properties C07-C11: solutions with history, and the solver loop.
-/

set_option linter.unusedSectionVars false

namespace Verif.Solution

variable {K : Type*} [Field K] [LinearOrder K] [IsStrictOrderedRing K]
variable {V : Type*}

/-! ### C07 -/

theorem selectPast_length {α : Type*} (times : List K) (xs : List α) (t : K)
    (h : times.length = xs.length) :
    (selectPast times xs t).length = (times.filter (fun s => decide (s < t))).length := by
  unfold selectPast
  induction times generalizing xs with
  | nil => simp
  | cons a times ih =>
    cases xs with
    | nil => simp at h
    | cons x xs =>
      have := ih xs (by simpa using h)
      by_cases ha : a < t <;> simp [List.filter_cons, ha] at this ⊢ <;> exact this

/-- The histories record the current time and value, and have equal length. -/
def Consistent (h : Hist K V) : Prop :=
  h.times.length = h.values.length ∧ h.times.getLast? = some h.sol.time ∧
    h.values.getLast? = some h.sol.value

/-- C07.  After any sequence of `update` and `set_value` calls with finite values the histories have
equal length and end with the current time and value. -/
theorem C07_history_consistent (finite : V → Bool) (s : Sol K V) (ops : List (Op K V))
    (hops : ∀ op ∈ ops, finite op.value = true) :
    Consistent ((Hist.init s).calls finite ops) := by
  suffices H : ∀ h : Hist K V, Consistent h → Consistent (h.calls finite ops) by
    exact H _ ⟨rfl, rfl, rfl⟩
  intro h hc
  unfold Hist.calls
  induction ops generalizing h with
  | nil => exact hc
  | cons op ops ih =>
    rw [List.foldl_cons]
    refine ih (fun o ho => hops o (List.mem_cons_of_mem _ ho)) _ ?_
    have hfin := hops op List.mem_cons_self
    obtain ⟨h1, h2, h3⟩ := hc
    cases op with
    | update dt v =>
      simp only [Op.value] at hfin
      simp [Hist.call, Hist.update, Sol.update, hfin, Consistent, h1]
    | setValue v t =>
      simp only [Op.value] at hfin
      simp [Hist.call, Hist.setValue, Hist.update, Sol.update, hfin, Consistent,
        selectPast_length _ _ _ h1]

/-- C07 for updates only: the recorded times are the start time plus the partial sums of the steps,
and the recorded values are the initial value followed by the update values, in order. -/
theorem C07_history_of_updates (finite : V → Bool) (s : Sol K V) (us : List (K × V))
    (hus : ∀ p ∈ us, finite p.2 = true) :
    let h := (Hist.init s).calls finite (us.map fun p => Op.update p.1 p.2)
    h.values = s.value :: us.map Prod.snd ∧
    h.times = (us.map Prod.fst).scanl (· + ·) s.time := by
  suffices H : ∀ h : Hist K V,
      (h.calls finite (us.map fun p => Op.update p.1 p.2)).values = h.values ++ us.map Prod.snd ∧
      (h.calls finite (us.map fun p => Op.update p.1 p.2)).times =
        h.times ++ ((us.map Prod.fst).scanl (· + ·) h.sol.time).tail by
    obtain ⟨h1, h2⟩ := H (Hist.init s)
    refine ⟨by simpa [Hist.init] using h1, ?_⟩
    rw [h2]
    cases us <;> simp [Hist.init]
  unfold Hist.calls
  induction us with
  | nil => intro h; simp
  | cons p us ih =>
    intro h
    have hfin := hus p List.mem_cons_self
    obtain ⟨h1, h2⟩ := ih (fun q hq => hus q (List.mem_cons_of_mem _ hq))
      (h.call finite (Op.update p.1 p.2)).1
    simp only [List.map_cons, List.foldl_cons]
    rw [h1, h2]
    simp only [Hist.call, Hist.update, Sol.update, hfin, if_true]
    constructor
    · simp
    · cases us <;> simp

/-- C07, monotonicity: with positive steps the recorded times strictly increase. -/
theorem C07_times_increase (finite : V → Bool) (s : Sol K V) (us : List (K × V))
    (hus : ∀ p ∈ us, finite p.2 = true) (hpos : ∀ p ∈ us, 0 < p.1) :
    ((Hist.init s).calls finite (us.map fun p => Op.update p.1 p.2)).times.Pairwise (· < ·) := by
  rw [(C07_history_of_updates finite s us hus).2]
  generalize s.time = t
  induction us generalizing t with
  | nil => simp
  | cons p us ih =>
    simp only [List.map_cons, List.scanl_cons]
    have ih' := ih (fun q hq => hus q (List.mem_cons_of_mem _ hq))
      (fun q hq => hpos q (List.mem_cons_of_mem _ hq)) (t + p.1)
    rw [List.pairwise_cons]
    refine ⟨?_, ih'⟩
    have hp := hpos p List.mem_cons_self
    intro x hx
    have hx' : x = t + p.1 ∨ t + p.1 < x := by
      cases us with
      | nil => left; simpa using hx
      | cons q us =>
        simp only [List.map_cons, List.scanl_cons, List.mem_cons] at hx ih'
        rw [List.pairwise_cons] at ih'
        rcases hx with h | h
        · exact Or.inl h
        · exact Or.inr (ih'.1 x h)
    rcases hx' with h | h <;> linarith

/-- Non-vacuity of C07. -/
example : ((Hist.init (⟨0, 5⟩ : Sol ℚ ℚ)).calls (fun v => decide (v < 100))
    [.update 1 6, .update 2 7, .setValue 9 (1 / 2), .update 1 8]).times = [0, 1 / 2, 3 / 2] := by
  decide +kernel

/-! ### C08 -/

/-- C08.  `set_value(v, t)` with a finite value keeps, in order, exactly the records made at times
before `t`, appends the record `(t, v)`, and sets time and value. -/
theorem C08_set_value (finite : V → Bool) (h : Hist K V) (hlen : h.times.length = h.values.length)
    (v : V) (t : K) (hv : finite v = true) :
    let r := h.setValue finite v t
    r.2 = none ∧ r.1.sol = ⟨t, v⟩ ∧
    r.1.times.zip r.1.values =
      (h.times.zip h.values).filter (fun p => decide (p.1 < t)) ++ [(t, v)] ∧
    r.1.times.length = r.1.values.length := by
  have hl := selectPast_length h.times h.values t hlen
  simp only [Hist.setValue, Hist.update, Sol.update, hv, if_true]
  refine ⟨trivial, by simp, ?_, by simp [hl]⟩
  rw [List.zip_append hl.symm]
  congr 1
  · unfold selectPast
    have h1 : h.times.filter (fun s => decide (s < t)) =
        ((h.times.zip h.values).filter (fun p => decide (p.1 < t))).map Prod.fst := by
      generalize h.times = ts at *
      generalize h.values = vs at *
      clear hl h
      induction ts generalizing vs with
      | nil => simp
      | cons a ts ih =>
        cases vs with
        | nil => simp at hlen
        | cons x vs =>
          have := ih vs (by simpa using hlen)
          by_cases ha : a < t <;> simp [List.filter_cons, ha, this]
    rw [h1]
    generalize (h.times.zip h.values).filter (fun p => decide (p.1 < t)) = l
    rw [← List.unzip_fst, ← List.unzip_snd, List.zip_unzip]
  · simp

/-- Non-vacuity of C08: rewinding into the middle of a history. -/
example : ((⟨⟨3, 7⟩, [0, 1, 3], [5, 6, 7]⟩ : Hist ℚ ℚ).setValue (fun _ => true) 9 2).1.values =
    [5, 6, 9] := by decide +kernel

/-! ### C09 -/

/-- C09 (partial), atomic cases: a rejected `update` (with or without history) and a rejected
`set_value` on a solution without history raise and change nothing; accepted ones do not raise. -/
theorem C09_update_atomic_partial (finite : V → Bool) (s : Sol K V) (h : Hist K V) (dt t : K)
    (v : V) :
    (finite v = false → s.update finite dt v = (s, some .notFinite) ∧
      s.setValue finite v t = (s, some .notFinite) ∧
      h.update finite dt v = (h, some .notFinite)) ∧
    (finite v = true → (s.update finite dt v).2 = none ∧ (s.setValue finite v t).2 = none ∧
      (h.update finite dt v).2 = none ∧ (h.setValue finite v t).2 = none) := by
  constructor
  · intro hv; simp [Sol.update, Sol.setValue, Hist.update, hv]
  · intro hv; simp [Sol.update, Sol.setValue, Hist.update, Hist.setValue, hv]

/-- C09, what a rejected `set_value` on a solution with history does: time and value stay, of the
history the entries before the given time stay, the others are lost. -/
theorem C09_set_value_partial (finite : V → Bool) (h : Hist K V) (t : K) (v : V)
    (hv : finite v = false) :
    (h.setValue finite v t).2 = some .notFinite ∧ (h.setValue finite v t).1.sol = h.sol ∧
    (h.setValue finite v t).1.times = h.times.filter (fun s => decide (s < t)) ∧
    (h.times.length = h.values.length → ((h.setValue finite v t).1 = h ↔ ∀ s ∈ h.times, s < t)) := by
  have e : h.setValue finite v t = (⟨h.sol, h.times.filter (fun s => decide (s < t)),
      selectPast h.times h.values t⟩, some .notFinite) := by
    simp [Hist.setValue, Hist.update, Sol.update, hv]
  rw [e]
  refine ⟨rfl, rfl, rfl, fun hl => ⟨fun h1 s hs => ?_, fun h1 => ?_⟩⟩
  · have h2 : h.times.filter (fun s => decide (s < t)) = h.times := congrArg Hist.times h1
    have := (List.filter_eq_self.mp h2) s hs
    simpa using this
  · have h2 : h.times.filter (fun s => decide (s < t)) = h.times :=
      List.filter_eq_self.mpr (fun s hs => by simpa using h1 s hs)
    have h3 : selectPast h.times h.values t = h.values := by
      unfold selectPast
      rw [List.filter_eq_self.mpr, List.map_snd_zip (by omega)]
      rintro ⟨a, b⟩ hab
      simpa using h1 a (List.of_mem_zip hab).1
    rw [h2, h3]

/-- C09 is false for `set_value` on a solution with history: a rejected value at time 0 deletes the
whole history. -/
theorem C09_set_value_counterexample :
    let h : Hist ℚ (Option ℚ) := ⟨⟨2, some 7⟩, [0, 1, 2], [some 5, some 6, some 7]⟩
    let r := h.setValue Option.isSome none 0
    r.2 = some .notFinite ∧ r.1.times = [] ∧ r.1.values = [] ∧ h.times ≠ r.1.times := by
  decide +kernel

section Heap
variable {E : Type*} [AddCommGroup E] [Module K E]

/-- C09 (partial), first step of the solver: if the very first update is rejected, the solution
still shows the initial value and time. -/
theorem C09_first_step_partial (T : ODE.Tableau K) (f : K → E → E) (finite : E → Bool) (u : E)
    (t dt : K) (h : ((Machine.init u t).step T f finite dt).2 = some .notFinite) :
    let m := ((Machine.init u t).step T f finite dt).1
    m.value = u ∧ m.solTime = t ∧ m.times = [t] ∧ m.values = [u] := by
  unfold Machine.step Machine.updateSolution at h ⊢
  split at h
  · simp at h
  · rename_i hf
    simp only [hf]
    simp [Machine.execute, Machine.value, Machine.init, Function.update]

/-- C09 (partial), later steps: a rejected update never changes time and histories; but after at
least one accepted step the value shown by the solution is the rejected one, because the solution
refers to the integrator's array. -/
theorem C09_later_step_partial (T : ODE.Tableau K) (f : K → E → E) (finite : E → Bool)
    (m : Machine K E) (hal : m.solRef = m.odeRef) (dt : K)
    (h : (m.step T f finite dt).2 = some .notFinite) :
    let m' := (m.step T f finite dt).1
    m'.solTime = m.solTime ∧ m'.times = m.times ∧ m'.values = m.values ∧
    m'.value = ((ODE.Solver.init m.value m.odeTime).execute T f dt).solution ∧
    finite m'.value = false := by
  unfold Machine.step Machine.updateSolution at h ⊢
  split at h
  · simp at h
  · rename_i hf
    simp only [hf]
    simp only [Machine.execute, Machine.value, hal]
    refine ⟨rfl, rfl, rfl, by simp, ?_⟩
    simpa [Machine.execute] using hf

/-- C09 is false for the solver: with `u' = u` (forward Euler), steps 1, 1 and "finite" meaning
below 3, the second update is rejected but the solution's value has become 4 while its time and
history still say 2 at time 1. -/
theorem C09_alias_counterexample :
    let f : ℚ → ℚ → ℚ := fun _ u => u
    let fin : ℚ → Bool := fun v => decide (v < 3)
    let m0 : Machine ℚ ℚ := Machine.init 1 0
    let m1 := (m0.step (ODE.forwardEuler ℚ) f fin 1).1
    let r2 := m1.step (ODE.forwardEuler ℚ) f fin 1
    m1.value = 2 ∧ m1.solTime = 1 ∧ r2.2 = some .notFinite ∧ r2.1.solTime = 1 ∧
      r2.1.values = [1, 2] ∧ r2.1.value = 4 := by
  decide +kernel

/-! ### C10 -/

/-- C10.  If a run of the solver does not raise, then at the end (hence, taking prefixes of the
steps, after each step) solution and integrator show the same value, namely that of the Runge-Kutta
run, both clocks show the start time plus the sum of the steps, and there is one history entry more
than steps, the last one being the current time and value. -/
theorem C10_lock_step (T : ODE.Tableau K) (f : K → E → E) (finite : E → Bool) (u : E) (t : K)
    (steps : List K) (h : ((Machine.init u t).solve T f finite steps).2 = none) :
    let m := ((Machine.init u t).solve T f finite steps).1
    m.value = ((ODE.Solver.init u t).run T f steps).solution ∧
    m.odeValue = m.value ∧
    m.solTime = t + steps.sum ∧ m.odeTime = t + steps.sum ∧
    m.times.length = steps.length + 1 ∧ m.values.length = steps.length + 1 ∧
    m.times.getLast? = some m.solTime ∧ m.values.getLast? = some m.value := by
  suffices H : ∀ (m : Machine K E) (s : ODE.Solver K E), m.value = s.solution →
      m.odeValue = s.solution → m.solTime = s.time → m.odeTime = s.time →
      m.times.getLast? = some m.solTime → m.values.getLast? = some m.value →
      m.times.length = m.values.length →
      (m.solve T f finite steps).2 = none →
      let m' := (m.solve T f finite steps).1
      m'.value = (s.run T f steps).solution ∧ m'.odeValue = m'.value ∧
      m'.solTime = s.time + steps.sum ∧ m'.odeTime = s.time + steps.sum ∧
      m'.times.length = steps.length + m.times.length ∧
      m'.values.length = steps.length + m.times.length ∧
      m'.times.getLast? = some m'.solTime ∧ m'.values.getLast? = some m'.value by
    exact H _ (ODE.Solver.init u t) rfl rfl rfl rfl rfl rfl rfl h
  clear h
  induction steps with
  | nil =>
    intro m s h1 h2 h3 h4 h5 h6 h7 _
    simp [Machine.solve, ODE.Solver.run, h1, h2, h3, h4, h5, h6, h7]
  | cons dt steps ih =>
    intro m s h1 h2 h3 h4 h5 h6 h7 hok
    have hexec : ((ODE.Solver.init (m.heap m.odeRef) m.odeTime).execute T f dt).solution =
        (s.execute T f dt).solution ∧
        ((ODE.Solver.init (m.heap m.odeRef) m.odeTime).execute T f dt).time =
          (s.execute T f dt).time := by
      have e : m.heap m.odeRef = s.solution := h2
      rw [e, h4]
      simp [ODE.Solver.execute, ODE.Solver.init]
    by_cases hfin : finite (s.execute T f dt).solution
    · have hstep : m.step T f finite dt = ({ m.execute T f dt with
          solRef := m.odeRef
          solTime := m.solTime + dt
          times := m.times ++ [m.solTime + dt]
          values := m.values ++ [(s.execute T f dt).solution] }, none) := by
        simp [Machine.step, Machine.updateSolution, Machine.execute, hexec.1, hfin]
      simp only [Machine.solve, hstep] at hok ⊢
      have := ih _ (s.execute T f dt) (by simp [Machine.value, Machine.execute, hexec.1])
        (by simp [Machine.odeValue, Machine.execute, hexec.1])
        (by simp [ODE.Solver.execute, h3])
        (by simp [Machine.execute, hexec.2])
        (by simp) (by simp [Machine.value, Machine.execute, hexec.1]) (by simp [h7]) hok
      obtain ⟨g1, g2, g3, g4, g5, g6, g7, g8⟩ := this
      have ht : (s.execute T f dt).time = s.time + dt := rfl
      refine ⟨g1, g2, ?_, ?_, ?_, ?_, g7, g8⟩
      · rw [g3, ht, List.sum_cons]; ring
      · rw [g4, ht, List.sum_cons]; ring
      · rw [g5]; simp; ring
      · rw [g6]; simp; ring
    · exfalso
      simp [Machine.solve, Machine.step, Machine.updateSolution, Machine.execute, hexec.1, hfin]
        at hok

/-- Non-vacuity of C10. -/
example : ((Machine.init (1 : ℚ) (0 : ℚ)).solve (ODE.heun ℚ) (fun _ u => u) (fun _ => true)
    [1, 2, 1 / 2]).2 = none := by decide +kernel

end Heap

/-! ### C11 -/

section Coarse
variable {W : Type*} [AddCommGroup W] [Module K W]

/-- C11.  A coarse solution with history and a fine solution with history that receive the same
calls (all vectors having the length of the fine mesh, divisible by `k`, and being finite) have the
same time history, the same wrapped fine solution, and the coarse value history is the coarsened
fine value history. -/
theorem C11_coarse_history (finite : List W → Bool) (k n : ℕ) (hk : 0 < k) (s : Sol K (List W))
    (hs : s.value.length = n * k) (ops : List (Op K (List W)))
    (hlen : ∀ op ∈ ops, op.value.length = n * k) (hfin : ∀ op ∈ ops, finite op.value = true) :
    ∃ c, CHist.init k s = .ok c ∧
      let fine := (Hist.init s).calls finite ops
      let coarse := c.calls finite k ops
      coarse.times = fine.times ∧ coarse.sol = fine.sol ∧
      fine.values.map (Coarsen.coarsen K k) = coarse.values.map Except.ok := by
  have hco : ∀ v : List W, v.length = n * k →
      Coarsen.coarsen K k v = .ok (Coarsen.coarsenVector K k v) := by
    intro v hv
    simp [Coarsen.coarsen, hk.ne', hv]
  refine ⟨⟨s, [s.time], [Coarsen.coarsenVector K k s.value]⟩, ?_, ?_⟩
  · simp [CHist.init, hco _ hs]
  suffices H : ∀ (h : Hist K (List W)) (c : CHist K W), c.times = h.times → c.sol = h.sol →
      h.values.map (Coarsen.coarsen K k) = c.values.map Except.ok →
      (c.calls finite k ops).times = (h.calls finite ops).times ∧
      (c.calls finite k ops).sol = (h.calls finite ops).sol ∧
      (h.calls finite ops).values.map (Coarsen.coarsen K k) =
        (c.calls finite k ops).values.map Except.ok by
    exact H _ _ rfl rfl (by simp [Hist.init, hco _ hs])
  unfold Hist.calls CHist.calls
  induction ops with
  | nil => intro h c h1 h2 h3; exact ⟨h1, h2, h3⟩
  | cons op ops ih =>
    intro h c h1 h2 h3
    rw [List.foldl_cons, List.foldl_cons]
    have hf := hfin op List.mem_cons_self
    have hl := hlen op List.mem_cons_self
    apply ih (fun o ho => hlen o (List.mem_cons_of_mem _ ho))
      (fun o ho => hfin o (List.mem_cons_of_mem _ ho))
    · cases op with
      | update dt v =>
        simp only [Op.value] at hf hl
        simp [CHist.call, Hist.call, CHist.update, Hist.update, Sol.update, hf, hco v hl, h1, h2]
      | setValue v t =>
        simp only [Op.value] at hf hl
        simp [CHist.call, Hist.call, CHist.setValue, Hist.setValue, CHist.update, Hist.update,
          Sol.update, hf, hco v hl, h1, h2]
    · cases op with
      | update dt v =>
        simp only [Op.value] at hf hl
        simp [CHist.call, Hist.call, CHist.update, Hist.update, Sol.update, hf, hco v hl, h2]
      | setValue v t =>
        simp only [Op.value] at hf hl
        simp [CHist.call, Hist.call, CHist.setValue, Hist.setValue, CHist.update, Hist.update,
          Sol.update, hf, hco v hl, h2]
    · have hsel : ∀ (ts : List K) (xs : List (List W)) (ys : List (List W)) (t : K),
          xs.map (Coarsen.coarsen K k) = ys.map Except.ok →
          (selectPast ts xs t).map (Coarsen.coarsen K k) = (selectPast ts ys t).map Except.ok := by
        intro ts xs ys t
        unfold selectPast
        induction ts generalizing xs ys with
        | nil => simp
        | cons a ts ih2 =>
          intro hxy
          cases xs with
          | nil => cases ys with
            | nil => simp
            | cons y ys => simp at hxy
          | cons x xs =>
            cases ys with
            | nil => simp at hxy
            | cons y ys =>
              simp only [List.map_cons, List.cons.injEq] at hxy
              have := ih2 xs ys hxy.2
              by_cases ha : a < t <;> simp [List.filter_cons, ha, hxy.1] at this ⊢ <;> exact this
      cases op with
      | update dt v =>
        simp only [Op.value] at hf hl
        simp [CHist.call, Hist.call, CHist.update, Hist.update, Sol.update, hf, hco v hl, h3]
      | setValue v t =>
        simp only [Op.value] at hf hl
        simp [CHist.call, Hist.call, CHist.setValue, Hist.setValue, CHist.update, Hist.update,
          Sol.update, hf, hco v hl, hsel _ _ _ t h3, h1]

/-- Non-vacuity of C11. -/
example : (CHist.init 2 (⟨0, [1, 3]⟩ : Sol ℚ (List ℚ))).map (fun c =>
    (c.calls (fun _ => true) 2 [.update 1 [2, 6]]).values) = .ok [[2], [4]] := by decide +kernel

end Coarse

end Verif.Solution
