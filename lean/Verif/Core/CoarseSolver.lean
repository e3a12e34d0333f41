import Verif.Core.Solver
import Verif.Core.Coarsen

/-!
Model of `CoarseSolver` (`finite_volume/shallow_water/solver/coarse.py` lines 10-37): a solver on the
fine mesh whose `solution` is a `CoarseSolution` or a `CoarseSolutionWithHistory`
(`core/discrete_solution.py` lines 120-164) around the solution on the fine mesh.  Everything else
(`solve`, time stepping, integrator) is inherited and modelled as in `Verif.Core.Solver`.

Fine vectors are `Fin n → W`; the coarsener works on lists.
-/

set_option linter.unusedSectionVars false

namespace Verif.CoarseSolver

open Verif.TimeStepping hiding Status
open Verif.Solution Verif.Solver

variable {K : Type*} [Field K] [LinearOrder K] [IsStrictOrderedRing K]
variable {W : Type*} [AddCommGroup W] [Module K W] {n : ℕ}

/-- `coarsening_degree or defaults.COARSENING_DEGREE` (line 21, `defaults.py` line 42): the default also
replaces 0. -/
def degree : Option ℕ → ℕ
  | none => 8
  | some 0 => 8
  | some (k + 1) => k + 1

/-- The vector with the given entries. -/
def ofList (n : ℕ) (l : List W) : Fin n → W := fun i => l.getD i 0

/-- `self.solution` (lines 24-28). -/
inductive CSol (K W : Type*) where
  | plain (s : Sol K (List W))
  | hist (h : CHist K W)

/-- `solution.time` (`core/discrete_solution.py` lines 82-83 and 127-129). -/
def CSol.time : CSol K W → K
  | .plain s => s.time
  | .hist h => h.sol.time

/-- `solution.value` (lines 131-133, 151-153). -/
def CSol.value (k : ℕ) : CSol K W → Except Coarsen.Error (List W)
  | .plain s => coarseValue k s
  | .hist h => coarseValue k h.sol

/-- `solution.update` (lines 139-140, 159-164). -/
def CSol.update (finite : List W → Bool) (k : ℕ) (dt : K) (v : List W) :
    CSol K W → CSol K W × Option Solution.Error
  | .plain s => let r := s.update finite dt v; (.plain r.1, r.2)
  | .hist h => let r := h.update finite k dt v; (.hist r.1, r.2)

/-- `solution.set_value` (lines 142-143 with 60-61, and 112-117). -/
def CSol.setValue (finite : List W → Bool) (k : ℕ) (v : List W) (t : K) :
    CSol K W → CSol K W × Option Solution.Error
  | .plain s => let r := s.setValue finite v t; (.plain r.1, r.2)
  | .hist h => let r := h.setValue finite k v t; (.hist r.1, r.2)

/-- The array of the wrapped solution was changed in place by the integrator. -/
def CSol.touch (v : List W) : CSol K W → CSol K W
  | .plain s => .plain { s with value := v }
  | .hist h => .hist { h with sol := { h.sol with value := v } }

/-- Mutable state of a `CoarseSolver`; compare `Verif.Solver.Obj`. -/
structure CObj (K W : Type*) (n : ℕ) where
  sol : CSol K W
  ode : ODE.Solver K (Fin n → W)
  first : K
  ts : State K
  shared : Bool
  warnings : List K

/-- `np.isfinite(value).all()` for a fine vector given as a list. -/
def listFinite (p : Params K (Fin n → W)) (l : List W) : Bool := p.finite (ofList n l)

/-- `CoarseSolver.__init__` (lines 13-28).  The solver is constructed without history; a history
coarsens the initial value (`core/discrete_solution.py` lines 76-79, 147-149). -/
def CObj.make (p : Params K (Fin n → W)) (d : Option ℕ) (saveHistory : Bool)
    (b : Bench K (Fin n → W)) : Except Coarsen.Error (CObj K W n) :=
  let fine : Sol K (List W) := ⟨b.startTime, List.ofFn b.initial⟩
  let obj (s : CSol K W) : CObj K W n :=
    { sol := s
      ode := ODE.Solver.init b.initial b.startTime
      first := p.optimal b.startTime b.initial
      ts := { time := p.startTime, number := 0, stop := false, calls := 0 }
      shared := false
      warnings := [] }
  if saveHistory then
    match CHist.init (degree d) fine with
    | .ok h => .ok (obj (.hist h))
    | .error e => .error e
  else .ok (obj (.plain fine))

/-- The time step generator (`core/time_stepping.py` lines 64-68 and 166-174): finite volume solvers are
not adaptive. -/
def CObj.config (p : Params K (Fin n → W)) (o : CObj K W n) : Config K where
  startTime := p.startTime
  endTime := p.endTime
  gen := { raw := fun _ => o.first, cfl := p.cfl, adaptive := false }

/-- `_check_cfl_condition` (`core/solver.py` lines 71-83). -/
def CObj.check (p : Params K (Fin n → W)) (o : CObj K W n) (dt : K) : CObj K W n × Option Exn :=
  match p.checker with
  | none => (o, none)
  | some opt =>
    match cflCheck opt dt o.ode.timeNodes o.ode.stageValues with
    | .ok _ => (o, none)
    | .error .violated => ({ o with warnings := o.warnings ++ [o.ts.time] }, none)
    | .error .indexError => (o, some (.rhs .indexError))

/-- `self.solution.update(time_step, self._ode_solver.solution)` (`core/solver.py` line 69). -/
def CObj.updateSolution (p : Params K (Fin n → W)) (k : ℕ) (o : CObj K W n) (dt : K) :
    CObj K W n × Option Exn :=
  match o.sol.update (listFinite p) k dt (List.ofFn o.ode.solution) with
  | (s, none) => ({ o with sol := s, shared := true }, none)
  | (s, some e) =>
    ({ o with sol := if o.shared then s.touch (List.ofFn o.ode.solution) else s },
      some (.solution e))

/-- `_update` (`core/solver.py` lines 66-69). -/
def CObj.update (p : Params K (Fin n → W)) (k : ℕ) (o : CObj K W n) (dt : K) :
    CObj K W n × Option Exn :=
  match o.ode.executeE p.tab p.rhs dt with
  | .error e => (o, some (.rhs e))
  | .ok ode =>
    match CObj.check p { o with ode := ode } dt with
    | (o', some e) => (o', some e)
    | (o', none) => o'.updateSolution p k dt

/-- One call of `__next__` by the loop of `solve` (`core/solver.py` lines 53-64) and the loop body. -/
def cpass (p : Params K (Fin n → W)) (k : ℕ) (l : CObj K W n × Status) : CObj K W n × Status :=
  match l.2 with
  | .running =>
    match next (l.1.config p) l.1.ts with
    | (ts, .stopIteration) => ({ l.1 with ts := ts }, .finished)
    | (ts, .tooSmall) => ({ l.1 with ts := ts }, .interrupted)
    | (ts, .yield dt) =>
      match CObj.update p k { l.1 with ts := ts } dt with
      | (o, none) => (o, .running)
      | (o, some e) => (o, .raised e)
  | _ => l

/-- `solve` (`core/solver.py` lines 53-64) after `N` calls of `__next__`.  Before the loop,
`self.solution.dimension` (line 58) reads `solution.value`, which coarsens. -/
def csolve (p : Params K (Fin n → W)) (k : ℕ) (o : CObj K W n) : ℕ → CObj K W n × Status
  | 0 =>
    match o.sol.value k with
    | .ok _ => ({ o with ts := iter (o.config p) o.ts }, .running)
    | .error _ => (o, .raised (.solution .notDivisible))
  | N + 1 => cpass p k (csolve p k o N)

/-- `CoarseSolver.reinitialize` (lines 30-37): the initial data are interpolated on the mesh with
`len(coarse mesh) * degree` cells, which is the fine mesh. -/
def CObj.reinitialize (p : Params K (Fin n → W)) (k : ℕ) (o : CObj K W n)
    (b : Bench K (Fin n → W)) : CObj K W n × Option Exn :=
  match o.sol.setValue (listFinite p) k (List.ofFn b.initial) b.startTime with
  | (s, some e) => ({ o with sol := s }, some (.solution e))
  | (s, none) =>
    ({ o with
        sol := s
        ode := { o.ode with time := b.startTime, solution := b.initial }
        shared := false }, none)

/-! ### Lemmas -/

theorem ofList_ofFn (v : Fin n → W) : ofList n (List.ofFn v) = v := by
  funext i
  simp [ofList]

theorem degree_pos (d : Option ℕ) : 0 < degree d := by
  match d with
  | none => norm_num [degree]
  | some 0 => norm_num [degree]
  | some (k + 1) => simp [degree]

/-- The coarse solution `c` shows the fine solution `h`. -/
def CSol.Shows (k : ℕ) (c : CSol K W) (h : Hist K (Fin n → W)) : Prop :=
  match c with
  | .plain s => s = ⟨h.sol.time, List.ofFn h.sol.value⟩
  | .hist c => c.sol = ⟨h.sol.time, List.ofFn h.sol.value⟩ ∧ c.times = h.times ∧
      c.values = h.values.map (fun v => Coarsen.coarsenVector K k (List.ofFn v))

/-- The coarse solver `c` runs as the fine solver `o`. -/
structure Rel (k : ℕ) (c : CObj K W n) (o : Obj K (Fin n → W)) : Prop where
  sol : c.sol.Shows k o.sol
  ode : c.ode = o.ode
  first : c.first = o.first
  ts : c.ts = o.ts
  shared : c.shared = o.shared
  warnings : c.warnings = o.warnings

theorem coarsen_ok {k : ℕ} (hk : 0 < k) (hd : k ∣ n) (v : Fin n → W) :
    Coarsen.coarsen K k (List.ofFn v) = .ok (Coarsen.coarsenVector K k (List.ofFn v)) := by
  simp [Coarsen.coarsen, hk.ne', Nat.mod_eq_zero_of_dvd hd]

theorem coarsen_error {k : ℕ} (hk : 0 < k) (hd : ¬ k ∣ n) (v : Fin n → W) :
    Coarsen.coarsen K k (List.ofFn v) = .error .notDivisible := by
  have h : ¬ n % k = 0 := fun h => hd (Nat.dvd_of_mod_eq_zero h)
  simp [Coarsen.coarsen, hk.ne', h]

theorem Shows.value {k : ℕ} (hk : 0 < k) (hd : k ∣ n) {c : CSol K W} {h : Hist K (Fin n → W)}
    (hc : c.Shows k h) :
    c.value k = .ok (Coarsen.coarsenVector K k (List.ofFn h.sol.value)) := by
  cases c with
  | plain s =>
    simp only [CSol.Shows] at hc
    subst hc
    exact coarsen_ok hk hd _
  | hist c =>
    obtain ⟨h1, -, -⟩ := hc
    simp only [CSol.value, coarseValue, h1]
    exact coarsen_ok hk hd _

theorem Shows.update {k : ℕ} (hk : 0 < k) (hd : k ∣ n) (p : Params K (Fin n → W)) {c : CSol K W}
    {h : Hist K (Fin n → W)} (hc : c.Shows k h) (dt : K) (v : Fin n → W) :
    (c.update (listFinite p) k dt (List.ofFn v)).2 = (h.update p.finite dt v).2 ∧
    (c.update (listFinite p) k dt (List.ofFn v)).1.Shows k (h.update p.finite dt v).1 := by
  cases hf : p.finite v with
  | true =>
    cases c with
    | plain s =>
      simp only [CSol.Shows] at hc
      subst hc
      simp [CSol.update, Sol.update, listFinite, ofList_ofFn, hf, Hist.update, CSol.Shows]
    | hist c =>
      obtain ⟨h1, h2, h3⟩ := hc
      simp [CSol.update, Sol.update, CHist.update, listFinite, ofList_ofFn, hf, Hist.update,
        CSol.Shows, coarsen_ok hk hd, h1, h2, h3]
  | false =>
    cases c with
    | plain s =>
      simp only [CSol.Shows] at hc
      subst hc
      simp [CSol.update, Sol.update, listFinite, ofList_ofFn, hf, Hist.update, CSol.Shows]
    | hist c =>
      obtain ⟨h1, h2, h3⟩ := hc
      simp [CSol.update, Sol.update, CHist.update, listFinite, ofList_ofFn, hf, Hist.update,
        CSol.Shows, h1, h2, h3]

theorem selectPast_map {α β : Type*} (f : α → β) (ts : List K) (xs : List α) (t : K) :
    selectPast ts (xs.map f) t = (selectPast ts xs t).map f := by
  unfold selectPast
  induction ts generalizing xs with
  | nil => simp
  | cons a ts ih =>
    cases xs with
    | nil => simp
    | cons x xs =>
      simp only [List.map_cons, List.zip_cons_cons, List.filter_cons]
      split
      · simp [ih]
      · exact ih xs

theorem Shows.setValue {k : ℕ} (hk : 0 < k) (hd : k ∣ n) (p : Params K (Fin n → W)) {c : CSol K W}
    {h : Hist K (Fin n → W)} (hc : c.Shows k h) (v : Fin n → W) (t : K) :
    (c.setValue (listFinite p) k (List.ofFn v) t).2 = (h.setValue p.finite v t).2 ∧
    (c.setValue (listFinite p) k (List.ofFn v) t).1.Shows k (h.setValue p.finite v t).1 := by
  cases c with
  | plain s =>
    simp only [CSol.Shows] at hc
    subst hc
    have := Shows.update hk hd p (c := .plain ⟨h.sol.time, List.ofFn h.sol.value⟩)
      (h := { sol := h.sol, times := h.times.filter (fun s => decide (s < t)),
              values := selectPast h.times h.values t }) rfl (t - h.sol.time) v
    exact this
  | hist c =>
    obtain ⟨h1, h2, h3⟩ := hc
    have := Shows.update hk hd p
      (c := .hist { sol := c.sol, times := c.times.filter (fun s => decide (s < t)),
                    values := selectPast c.times c.values t })
      (h := { sol := h.sol, times := h.times.filter (fun s => decide (s < t)),
              values := selectPast h.times h.values t })
      ⟨h1, by rw [h2], by simp only [h2, h3]; exact selectPast_map _ _ _ _⟩ (t - h.sol.time) v
    have e : t - h.sol.time = t - c.sol.time := by rw [h1]
    simp only [CSol.setValue, CHist.setValue, Hist.setValue]
    rw [← e]
    exact this

theorem check_rel (p : Params K (Fin n → W)) {k : ℕ} {c : CObj K W n} {o : Obj K (Fin n → W)}
    (h : Rel k c o) (dt : K) :
    (c.check p dt).2 = (o.check p dt).2 ∧ Rel k (c.check p dt).1 (o.check p dt).1 := by
  unfold CObj.check Obj.check
  cases p.checker with
  | none => exact ⟨rfl, h⟩
  | some opt =>
    simp only [h.ode]
    rcases cflCheck opt dt o.ode.timeNodes o.ode.stageValues with (_ | _) | _
    · exact ⟨rfl, h.sol, rfl, h.first, h.ts, h.shared, by simp [h.warnings, h.ts]⟩
    · exact ⟨rfl, h⟩
    · exact ⟨rfl, h⟩

theorem touch_rel {k : ℕ} {c : CSol K W} {h : Hist K (Fin n → W)} (hc : c.Shows k h)
    (v : Fin n → W) :
    (c.touch (List.ofFn v)).Shows k { h with sol := { h.sol with value := v } } := by
  cases c with
  | plain s =>
    simp only [CSol.Shows] at hc
    subst hc
    rfl
  | hist c =>
    obtain ⟨h1, h2, h3⟩ := hc
    exact ⟨by simp [h1], h2, h3⟩

theorem updateSolution_rel {k : ℕ} (hk : 0 < k) (hd : k ∣ n) (p : Params K (Fin n → W))
    {c : CObj K W n} {o : Obj K (Fin n → W)} (h : Rel k c o) (dt : K) :
    (c.updateSolution p k dt).2 = (o.updateSolution p dt).2 ∧
      Rel k (c.updateSolution p k dt).1 (o.updateSolution p dt).1 := by
  obtain ⟨h1, h2⟩ := Shows.update hk hd p h.sol dt o.ode.solution
  unfold CObj.updateSolution Obj.updateSolution
  rw [h.ode]
  rcases ha : c.sol.update (listFinite p) k dt (List.ofFn o.ode.solution) with ⟨s, e⟩
  rcases hb : o.sol.update p.finite dt o.ode.solution with ⟨s', e'⟩
  rw [ha, hb] at h1 h2
  simp only at h1 h2
  subst h1
  cases e with
  | none => exact ⟨rfl, h2, rfl, h.first, h.ts, rfl, h.warnings⟩
  | some e =>
    refine ⟨rfl, ?_, rfl, h.first, h.ts, h.shared, h.warnings⟩
    simp only [h.shared]
    cases o.shared with
    | false => exact h2
    | true => exact touch_rel h2 _

theorem update_rel {k : ℕ} (hk : 0 < k) (hd : k ∣ n) (p : Params K (Fin n → W))
    {c : CObj K W n} {o : Obj K (Fin n → W)} (h : Rel k c o) (dt : K) :
    (c.update p k dt).2 = (o.update p dt).2 ∧ Rel k (c.update p k dt).1 (o.update p dt).1 := by
  unfold CObj.update Obj.update
  rw [h.ode]
  cases o.ode.executeE p.tab p.rhs dt with
  | error e => exact ⟨rfl, h⟩
  | ok s =>
    have h1 : Rel k { c with ode := s } { o with ode := s } :=
      ⟨h.sol, rfl, h.first, h.ts, h.shared, h.warnings⟩
    obtain ⟨h2, h3⟩ := check_rel p h1 dt
    rcases ha : CObj.check p { c with ode := s } dt with ⟨a, ea⟩
    rcases hb : Obj.check p { o with ode := s } dt with ⟨b, eb⟩
    rw [ha, hb] at h2 h3
    simp only at h2 h3
    subst h2
    simp only [ha, hb]
    cases ea with
    | some e => exact ⟨rfl, h3⟩
    | none => exact updateSolution_rel hk hd p h3 dt

theorem config_rel (p : Params K (Fin n → W)) (hp : p.adaptive = false) {k : ℕ} {c : CObj K W n}
    {o : Obj K (Fin n → W)} (h : Rel k c o) : c.config p = o.config p := by
  unfold CObj.config Obj.config
  simp [hp, h.first]

theorem pass_rel {k : ℕ} (hk : 0 < k) (hd : k ∣ n) (p : Params K (Fin n → W))
    (hp : p.adaptive = false) {l : CObj K W n × Status} {l' : Obj K (Fin n → W) × Status}
    (h : Rel k l.1 l'.1) (hs : l.2 = l'.2) :
    (cpass p k l).2 = (pass p l').2 ∧ Rel k (cpass p k l).1 (pass p l').1 := by
  unfold cpass pass
  rw [hs, config_rel p hp h, h.ts]
  cases hl : l'.2 with
  | running =>
    rcases next (l'.1.config p) l'.1.ts with ⟨ts, a⟩
    have h5 : Rel k { l.1 with ts := ts } { l'.1 with ts := ts } :=
      ⟨h.sol, h.ode, h.first, rfl, h.shared, h.warnings⟩
    cases a with
    | stopIteration => exact ⟨rfl, h5⟩
    | tooSmall => exact ⟨rfl, h5⟩
    | yield dt =>
      obtain ⟨h6, h7⟩ := update_rel hk hd p h5 dt
      rcases ha : CObj.update p k { l.1 with ts := ts } dt with ⟨x, ex⟩
      rcases hb : Obj.update p { l'.1 with ts := ts } dt with ⟨y, ey⟩
      rw [ha, hb] at h6 h7
      simp only at h6 h7
      subst h6
      simp only [ha, hb]
      cases ex with
      | none => exact ⟨rfl, h7⟩
      | some e => exact ⟨rfl, h7⟩
  | finished => exact ⟨hs, h⟩
  | interrupted => exact ⟨hs, h⟩
  | raised e => exact ⟨hs, h⟩

theorem solve_rel {k : ℕ} (hk : 0 < k) (hd : k ∣ n) (p : Params K (Fin n → W))
    (hp : p.adaptive = false) {c : CObj K W n} {o : Obj K (Fin n → W)} (h : Rel k c o) (N : ℕ) :
    (csolve p k c N).2 = (solve p o N).2 ∧ Rel k (csolve p k c N).1 (solve p o N).1 := by
  induction N with
  | zero =>
    simp only [csolve, solve, Shows.value hk hd h.sol]
    exact ⟨trivial, h.sol, h.ode, h.first, by rw [config_rel p hp h, h.ts], h.shared, h.warnings⟩
  | succ N ih => exact pass_rel hk hd p hp ih.2 ih.1

theorem reinitialize_rel {k : ℕ} (hk : 0 < k) (hd : k ∣ n) (p : Params K (Fin n → W))
    {c : CObj K W n} {o : Obj K (Fin n → W)} (h : Rel k c o) (b : Bench K (Fin n → W)) :
    (c.reinitialize p k b).2 = (o.reinitialize p b).2 ∧
      Rel k (c.reinitialize p k b).1 (o.reinitialize p b).1 := by
  obtain ⟨h1, h2⟩ := Shows.setValue hk hd p h.sol b.initial b.startTime
  unfold CObj.reinitialize Obj.reinitialize
  rcases ha : c.sol.setValue (listFinite p) k (List.ofFn b.initial) b.startTime with ⟨s, e⟩
  rcases hb : o.sol.setValue p.finite b.initial b.startTime with ⟨s', e'⟩
  rw [ha, hb] at h1 h2
  simp only at h1 h2
  subst h1
  cases e with
  | none => exact ⟨rfl, h2, by simp [h.ode], h.first, h.ts, rfl, h.warnings⟩
  | some e => exact ⟨rfl, h2, h.ode, h.first, h.ts, h.shared, h.warnings⟩

theorem make_rel (p : Params K (Fin n → W)) (d : Option ℕ) (hd : degree d ∣ n) (save : Bool)
    (b : Bench K (Fin n → W)) :
    ∃ c, CObj.make p d save b = .ok c ∧ Rel (degree d) c (Obj.make p b) := by
  cases save with
  | false => exact ⟨_, rfl, rfl, rfl, rfl, rfl, rfl, rfl⟩
  | true =>
    refine ⟨{ sol := .hist ⟨⟨b.startTime, List.ofFn b.initial⟩, [b.startTime],
                [Coarsen.coarsenVector K (degree d) (List.ofFn b.initial)]⟩
              ode := ODE.Solver.init b.initial b.startTime
              first := p.optimal b.startTime b.initial
              ts := { time := p.startTime, number := 0, stop := false, calls := 0 }
              shared := false
              warnings := [] }, ?_, ⟨rfl, rfl, rfl⟩, rfl, rfl, rfl, rfl, rfl⟩
    simp [CObj.make, CHist.init, coarsen_ok (degree_pos d) hd]

end Verif.CoarseSolver
