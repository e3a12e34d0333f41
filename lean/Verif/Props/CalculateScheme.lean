import Verif.Props.CalculateAD
import Verif.Props.CalculateLW

/-!
C124, C142 and C143: which scheme the solvers of `calculate swe` are, and that their recorded solutions are steps of the chosen
integrator.
-/

set_option linter.unusedSectionVars false

namespace Verif.CalculateSWE

open Verif.Py Verif.Boundary Verif.FV Verif.ODE Verif.Solver Verif.Interpolate Verif.Quadrature Verif.Bench Verif.SWE
open Verif.Registry Verif.Options Verif.Utilities EndToEnd Verif.Calculate
open Verif.Mesh hiding Error

/-! ### Specification -/

/-- The method with the name on the command line. -/
structure Method (o : OdeSolver) (T : Tableau ℝ) : Prop where
  euler : o = .euler → T = forwardEuler ℝ
  heun : o = .heun → T = heun ℝ
  ssp3 : o = .ssp3 → T = ssp3 ℝ

/-- The recorded solutions and times are those of the method `T` for the right-hand side `f`, started with `u` at time
zero, with steps of at least 1e-12 and at most `bound`. -/
def Follows {n : ℕ} (T : Tableau ℝ) (f : ℝ → List (State ℝ) → Except Error (List (State ℝ))) (u : Fin n → State ℝ)
    (bound : ℝ) (times : List ℝ) (values : List (Fin n → State ℝ)) : Prop :=
  ∃ steps : List ℝ, (∀ dt ∈ steps, 1 / 10 ^ 12 ≤ dt ∧ dt ≤ bound) ∧ values.length = steps.length + 1 ∧
    times.length = steps.length + 1 ∧
    ∀ i ≤ steps.length, ∃ s, (ODE.Solver.init u 0).runE T (vecRhs n f) (steps.take i) = .ok s ∧
      values[i]? = some s.solution ∧ times[i]? = some s.time

/-- The flux that belongs to a name on the command line. -/
structure Named (P : SWE.Params ℝ) (B : Bathymetry ℝ) (key : String) (F : NumFlux (State ℝ)) : Prop where
  llf : key = "llf" → F = lfFlux P B
  low : key = "low-order" → F = lowOrder P B
  central : key = "central" → F = centralFlux P B
  es : key = "es" → F = energyStableFlux P B
  es1 : key = "es1" → F = diffusiveFlux P B

/-- The recorded solutions and times are those of the scheme of Lax and Wendroff with the physical parameters `P`, each
step with the flux of its own length, started with `u` at time zero. -/
def FollowsWendroff {n : ℕ} (P : SWE.Params ℝ) (dx : ℝ) (bc : BC ℝ (State ℝ)) (u : Fin n → State ℝ) (times : List ℝ)
    (values : List (Fin n → State ℝ)) : Prop :=
  ∃ steps : List ℝ, values.length = steps.length + 1 ∧ times.length = steps.length + 1 ∧
    ∀ i ≤ steps.length, ∃ s, laxWendroffRun P n dx bc (ODE.Solver.init u 0) (steps.take i) = .ok s ∧
      values[i]? = some s.solution ∧ times[i]? = some s.time

/-! ### Proofs -/

theorem tableau_method (o : OdeSolver) : Method o (Calculate.tableau o) := by
  cases o <;> constructor <;> intro h <;> first | rfl | cases h

theorem getter_named (P : SWE.Params ℝ) (B : Bathymetry ℝ) (key : String) (F : NumFlux (State ℝ))
    (h : getter P B key = .ok F) : Named P B key F := by
  constructor <;> rintro rfl <;> simpa [getter] using h.symm

theorem job_follows (j : WaterJob) (q : ℕ) (hq : ∀ e, (j.run q).2 ≠ .raised e) :
    Follows j.tableau (rhs j.flux j.dx j.boundary) j.initial (j.dx * j.cfl) (j.run q).1.sol.times
      (j.run q).1.sol.values := by
  obtain ⟨steps, h1, h2, h3, h4⟩ := recorded j.params ⟨j.initial, 0, j.endTime⟩ q hq
  exact ⟨steps, fun dt hdt => ⟨(h1 dt hdt).1, (h1 dt hdt).2 rfl⟩, h2, h3, h4⟩

/-- C124.  What a constructed solver computes: the flux with the name of the solver, or the limited flux with the target
chosen, for the gravitational acceleration and the averaged bottom of the benchmark, with its boundary conditions; and the
recorded solutions are steps of the integrator chosen. -/
theorem C124_scheme (points : List (ℝ × ℝ)) (w : Water) (k : Key) (s : Settings ℝ) (j : WaterJob)
    (h : job points w k s = .ok j) :
    ∃ o B bc, s.integrator = .given (.ode o) ∧ Method o j.tableau ∧
      buildBathymetry (realParams w.gravity 1e-15 (by norm_num)) (some (cellAverages points j.mesh w.bottom)) = .ok B ∧
      build (some reflect) w.bench.boundary.conditions 1 w.bench.inflowLeft w.bench.inflowRight = .ok bc ∧
      build (some reflect) w.bench.boundary.conditions (j.flux.dim / 2) w.bench.inflowLeft w.bench.inflowRight =
        .ok j.boundary ∧
      (k ≠ .sweMcl → Named (realParams w.gravity 1e-15 (by norm_num)) B (prog k) j.flux) ∧
      (k = .sweMcl → ∃ key G, s.flux = .flux key ∧ Named (realParams w.gravity 1e-15 (by norm_num)) B key G ∧
        j.flux = mcl (realParams w.gravity 1e-15 (by norm_num)) B bc G) ∧
      ∀ q, (∀ e, (j.run q).2 ≠ .raised e) → Follows j.tableau (rhs j.flux j.dx j.boundary) j.initial (j.dx * j.cfl)
        (j.run q).1.sol.times (j.run q).1.sol.values := by
  have hq := job_follows j
  unfold job at h
  split at h
  swap
  · cases h
  rename_i m x o hs hx ho
  split at h
  · cases h
  rename_i mesh hmesh
  split at h
  · cases h
  rename_i dx hdx
  simp only [bind, Except.bind] at h
  rw [← params_eq]
  cases hv : initialValues points mesh w.bench.initial with
  | error e => rw [hv] at h; cases h
  | ok v =>
  rw [hv] at h
  simp only at h
  cases hB : buildBathymetry (params w.gravity) (some (cellAverages points mesh w.bottom)) with
  | error e => rw [hB] at h; cases h
  | ok B =>
  rw [hB] at h
  simp only at h
  cases hb1 : build (some reflect) w.bench.boundary.conditions 1 w.bench.inflowLeft w.bench.inflowRight with
  | error e => rw [hb1] at h; cases h
  | ok bc1 =>
  rw [hb1] at h
  simp only at h
  cases hF : fluxOf (params w.gravity) B bc1 k s.flux with
  | error e => rw [hF] at h; cases h
  | ok F =>
  rw [hF] at h
  simp only at h
  cases hb : build (some reflect) w.bench.boundary.conditions (F.dim / 2) w.bench.inflowLeft w.bench.inflowRight with
  | error e => rw [hb] at h; cases h
  | ok bc =>
  rw [hb] at h
  simp only at h
  cases hc : cflNumber dx w.bench.endTime x with
  | error e => rw [hc] at h; cases h
  | ok cfl =>
  rw [hc] at h
  obtain rfl := Except.ok.inj h
  refine ⟨o, B, bc1, ho, tableau_method o, hB, rfl, hb, ?_, ?_, hq⟩
  · intro hk
    unfold fluxOf at hF
    split at hF
    · exact getter_named _ _ _ _ hF
    · exact getter_named _ _ _ _ hF
    · exact getter_named _ _ _ _ hF
    · exact getter_named _ _ _ _ hF
    · exact getter_named _ _ _ _ hF
    · exact absurd rfl hk
    · cases hF
  · rintro rfl
    unfold fluxOf at hF
    split at hF <;> first | cases ‹Key.sweMcl = _› | skip
    · rename_i key heq
      cases hG : getter (params w.gravity) B key with
      | error e => rw [hG] at hF; cases hF
      | ok G =>
        rw [hG] at hF
        exact ⟨key, G, heq, getter_named _ _ _ _ hG, (Except.ok.inj hF).symm⟩
    · cases hF

/-- C143.  What the solver `antidiffusion` computes: the chosen flux with the name on the command line, with linear
antidiffusion; and the recorded solutions are steps of the integrator chosen. -/
theorem C143_scheme (points : List (ℝ × ℝ)) (w : Water) (s : Settings ℝ) (j : WaterJob)
    (h : sharpJob points w s = .ok j) :
    ∃ o B γ key G, s.integrator = .given (.ode o) ∧ Method o j.tableau ∧
      buildBathymetry (realParams w.gravity 1e-15 (by norm_num)) (some (cellAverages points j.mesh w.bottom)) = .ok B ∧
      build (some reflect) w.bench.boundary.conditions (j.flux.dim / 2) w.bench.inflowLeft w.bench.inflowRight =
        .ok j.boundary ∧
      s.gamma = .num (.fin γ) ∧ s.flux = .flux key ∧ Named (realParams w.gravity 1e-15 (by norm_num)) B key G ∧
      j.flux = antidiffusive γ j.dx G ∧
      ∀ q, (∀ e, (j.run q).2 ≠ .raised e) → Follows j.tableau (rhs j.flux j.dx j.boundary) j.initial (j.dx * j.cfl)
        (j.run q).1.sol.times (j.run q).1.sol.values := by
  have hq := job_follows j
  unfold sharpJob at h
  split at h
  swap
  · cases h
  rename_i m x o hs hx ho
  split at h
  · cases h
  rename_i mesh hmesh
  split at h
  · cases h
  rename_i dx hdx
  simp only [bind, Except.bind] at h
  rw [← params_eq]
  cases hv : initialValues points mesh w.bench.initial with
  | error e => rw [hv] at h; cases h
  | ok v =>
  rw [hv] at h
  simp only at h
  cases hB : buildBathymetry (params w.gravity) (some (cellAverages points mesh w.bottom)) with
  | error e => rw [hB] at h; cases h
  | ok B =>
  rw [hB] at h
  simp only at h
  cases hF : sharpened (params w.gravity) B dx s.gamma s.flux with
  | error e => rw [hF] at h; cases h
  | ok F =>
  rw [hF] at h
  simp only at h
  cases hb : build (some reflect) w.bench.boundary.conditions (F.dim / 2) w.bench.inflowLeft w.bench.inflowRight with
  | error e => rw [hb] at h; cases h
  | ok bc =>
  rw [hb] at h
  simp only at h
  cases hc : cflNumber dx w.bench.endTime x with
  | error e => rw [hc] at h; cases h
  | ok cfl =>
  rw [hc] at h
  obtain rfl := Except.ok.inj h
  unfold sharpened at hF
  split at hF
  · rename_i γ key hγ hkey
    cases hG : getter (params w.gravity) B key with
    | error e => rw [hG] at hF; cases hF
    | ok G =>
      rw [hG] at hF
      exact ⟨o, B, γ, key, G, ho, tableau_method o, hB, hb, hγ, hkey, getter_named _ _ _ _ hG, (Except.ok.inj hF).symm, hq⟩
  · cases hF
  · cases hF

theorem wendroff_append {n : ℕ} (P : SWE.Params ℝ) (dx : ℝ) (bc : BC ℝ (State ℝ)) (steps : List ℝ) (dt : ℝ)
    (s s1 s2 : ODE.Solver ℝ (Fin n → State ℝ)) (h1 : laxWendroffRun P n dx bc s steps = .ok s1)
    (h2 : s1.executeE (forwardEuler ℝ) (vecRhs n (rhs (laxWendroff P dt dx) dx bc)) dt = .ok s2) :
    laxWendroffRun P n dx bc s (steps ++ [dt]) = .ok s2 := by
  induction steps generalizing s with
  | nil =>
    cases h1
    simp only [List.nil_append, laxWendroffRun]
    rw [h2]
  | cons d steps ih =>
    simp only [List.cons_append, laxWendroffRun] at h1 ⊢
    cases hx : s.executeE (forwardEuler ℝ) (vecRhs n (rhs (laxWendroff P d dx) dx bc)) d with
    | error e => rw [hx] at h1; cases h1
    | ok s' =>
      rw [hx] at h1
      exact ih s' h1

theorem varied_follows {n : ℕ} (P : SWE.Params ℝ) (dx cfl t1 : ℝ) (bc : BC ℝ (State ℝ)) (u : Fin n → State ℝ) (q : ℕ) :
    ∃ steps : List ℝ, ∀ l, l = variedRun (forwardEuler ℝ) (fun dt => rhs (laxWendroff P dt dx) dx bc) dx cfl 0 t1 u q →
      laxWendroffRun P n dx bc (ODE.Solver.init u 0) steps = .ok l.1.ode ∧ l.1.sol.sol.time = l.1.ode.time ∧
      l.1.sol.values.length = steps.length + 1 ∧ l.1.sol.times.length = steps.length + 1 ∧
      ∀ i ≤ steps.length, ∃ s, laxWendroffRun P n dx bc (ODE.Solver.init u 0) (steps.take i) = .ok s ∧
        l.1.sol.values[i]? = some s.solution ∧ l.1.sol.times[i]? = some s.time := by
  induction q with
  | zero =>
    refine ⟨[], ?_⟩
    rintro l rfl
    refine ⟨rfl, rfl, rfl, rfl, fun i hi => ?_⟩
    obtain rfl : i = 0 := by simpa using hi
    exact ⟨_, rfl, rfl, rfl⟩
  | succ q ih =>
    obtain ⟨steps, ih⟩ := ih
    simp only [variedRun]
    generalize variedRun (forwardEuler ℝ) (fun dt => rhs (laxWendroff P dt dx) dx bc) dx cfl 0 t1 u q = l at ih ⊢
    obtain ⟨k1, k2, k3, k4, k5⟩ := ih l rfl
    by_cases h : l.2 = .running
    · rw [pass_fv (forwardEuler ℝ) dx cfl 0 t1 (rhs (laxWendroff P (stepOf (fvParams n (forwardEuler ℝ)
        (rhs (laxWendroff P 0 dx) dx bc) dx cfl 0 t1) l) dx) dx bc) l h (l.1.config (fvParams n (forwardEuler ℝ)
        (rhs (laxWendroff P 0 dx) dx bc) dx cfl 0 t1)) rfl]
      cases hn : TimeStepping.next (l.1.config (fvParams n (forwardEuler ℝ) (rhs (laxWendroff P 0 dx) dx bc) dx cfl 0 t1))
        l.1.ts with
      | mk ts a =>
      cases a with
      | stopIteration => exact ⟨steps, by rintro l' rfl; exact ⟨k1, k2, k3, k4, k5⟩⟩
      | tooSmall => exact ⟨steps, by rintro l' rfl; exact ⟨k1, k2, k3, k4, k5⟩⟩
      | yield dt =>
        have hs : stepOf (fvParams n (forwardEuler ℝ) (rhs (laxWendroff P 0 dx) dx bc) dx cfl 0 t1) l = dt := by
          simp [stepOf, hn]
        simp only [hs]
        cases he : l.1.ode.executeE (forwardEuler ℝ) (vecRhs n (rhs (laxWendroff P dt dx) dx bc)) dt with
        | error e => exact ⟨steps, by rintro l' rfl; exact ⟨k1, k2, k3, k4, k5⟩⟩
        | ok s' =>
          have ha := wendroff_append P dx bc steps dt _ _ _ k1 he
          have ht : s'.time = l.1.ode.time + dt := by rw [executeE_eq _ _ _ _ _ he]; rfl
          refine ⟨steps ++ [dt], ?_⟩
          rintro l' rfl
          refine ⟨ha, by simp [k2, ht], by simp [k3], by simp [k4], fun i hi => ?_⟩
          simp only [List.length_append, List.length_singleton] at hi
          rcases Nat.lt_or_ge steps.length i with hlt | hle
          · obtain rfl : i = steps.length + 1 := by omega
            refine ⟨s', ?_, ?_, ?_⟩
            · rw [List.take_of_length_le (by simp)]
              exact ha
            · rw [← k3]; simp
            · rw [← k4]; simp [k2, ht]
          · obtain ⟨s, j1, j2, j3⟩ := k5 i hle
            refine ⟨s, by rw [List.take_append_of_le_length hle]; exact j1, ?_, ?_⟩
            · rw [List.getElem?_append_left (by omega)]; exact j2
            · rw [List.getElem?_append_left (by omega)]; exact j3
    · rw [pass_done _ l h]
      exact ⟨steps, by rintro l' rfl; exact ⟨k1, k2, k3, k4, k5⟩⟩

/-- C142.  What the solver `lw` computes: at any moment the recorded solutions are those of the scheme of Lax and Wendroff
for the gravitational acceleration and the boundary conditions of the benchmark, whatever integrator and bottom were
chosen. -/
theorem C142_scheme (points : List (ℝ × ℝ)) (w : Water) (s : Settings ℝ) (j : WendroffJob)
    (h : wendroffJob points w s = .ok j) :
    build (some reflect) w.bench.boundary.conditions 1 w.bench.inflowLeft w.bench.inflowRight = .ok j.boundary ∧
      j.mesh.step = some j.dx ∧
      ∀ q, FollowsWendroff (realParams w.gravity 1e-15 (by norm_num)) j.dx j.boundary j.initial (j.run q).1.sol.times
        (j.run q).1.sol.values := by
  unfold wendroffJob at h
  split at h
  swap
  · cases h
  rename_i m x hs hx
  split at h
  · cases h
  rename_i mesh hmesh
  split at h
  · cases h
  rename_i dx hdx
  simp only [bind, Except.bind] at h
  rw [← params_eq]
  cases hv : initialValues points mesh w.bench.initial with
  | error e => rw [hv] at h; cases h
  | ok v =>
  rw [hv] at h
  simp only at h
  cases hb : build (some reflect) w.bench.boundary.conditions 1 w.bench.inflowLeft w.bench.inflowRight with
  | error e => rw [hb] at h; cases h
  | ok bc =>
  rw [hb] at h
  simp only at h
  cases hc : cflNumber dx w.bench.endTime x with
  | error e => rw [hc] at h; cases h
  | ok cfl =>
  rw [hc] at h
  obtain rfl := Except.ok.inj h
  refine ⟨rfl, hdx, fun q => ?_⟩
  rw [wendroff_run]
  obtain ⟨steps, hst⟩ := varied_follows (params w.gravity) dx cfl w.bench.endTime bc
    (fun i : Fin m.toNat => v.getD i 0) q
  obtain ⟨-, -, h3, h4, h5⟩ := hst _ rfl
  exact ⟨steps, h3, h4, h5⟩

/-- No water flows through a wall. -/
theorem wendroff_wall (P : SWE.Params ℝ) (hP : P.Good) (dt dx : ℝ) (uL uR f : State ℝ)
    (hr : uL = reflect uR ∨ uR = reflect uL) (h : laxWendroffNode (riemann P) (maxSpeed P) dt dx uL uR = .ok f) :
    f.1 = 0 := by
  have hh : uR.1 - uL.1 = 0 := by rcases hr with rfl | rfl <;> simp [reflect]
  unfold laxWendroffNode at h
  cases hs : (riemann P).nodeFlux uL uR with
  | error e => rw [hs] at h; cases h
  | ok g =>
    rw [hs] at h
    simp only at h
    split at h
    · cases h
    obtain rfl := Except.ok.inj h
    have hg : g = llf P uL uR := by
      simp only [Riemann.nodeFlux] at hs
      cases hq : (riemann P).solve uL uR with
      | error e => rw [hq] at hs; cases hs
      | ok r =>
        obtain ⟨h1, h2, h3⟩ := solve_inv P _ _ r hq
        have hw := lt_of_le_of_ne (maxSpeed_nonneg P hP _ uR h1) (Ne.symm h3)
        rw [solve_ok P _ _ h1 h2 hw] at hs
        exact (Except.ok.inj hs).symm
    rw [hg]
    simp [llf_reflected P _ _ hr, hh]

theorem wendroff_tight (P : SWE.Params ℝ) (hP : P.Good) (dt dx : ℝ) (il ir : Option (ℝ → State ℝ))
    (bc : BC ℝ (State ℝ)) (hbc : build (some reflect) ["wall"] 1 il ir = .ok bc) (n : ℕ) (hn : 0 < n) (t : ℝ)
    (v w : List (State ℝ)) (hv : v.length = n) (h : rhs (laxWendroff P dt dx) dx bc t v = .ok w) : totalHeight w = 0 := by
  obtain ⟨g, hdx, hg, rfl⟩ := rhs_twoPoint_inv _ dx bc t v _ w (wall_extend il ir bc hbc v n hn hv (some t)) n
    (by simp [hv]) h
  have g0 : (g 0).1 = 0 := by
    refine wendroff_wall P hP dt dx _ _ _ (Or.inl ?_) (hg 0 (by omega))
    simp only [List.cons_append, List.getElem_cons_zero, List.getElem_cons_succ, zero_add]
    rw [List.getElem_append_left (by omega), List.getD_eq_getElem _ _ (by omega)]
  have gn : (g n).1 = 0 := by
    obtain ⟨m, rfl⟩ : ∃ m, n = m + 1 := ⟨n - 1, by omega⟩
    refine wendroff_wall P hP dt dx _ _ _ (Or.inr ?_) (hg (m + 1) (by omega))
    simp only [List.cons_append, List.getElem_cons_succ, Nat.add_sub_cancel]
    rw [List.getElem_append_right (by omega), List.getElem_append_left (by omega)]
    simp only [List.getElem_singleton]
    rw [List.getD_eq_getElem _ _ (by omega)]
  have tel : ∀ m : ℕ, totalHeight ((List.range m).map fun i => (1 / dx) • (g i + -g (i + 1))) =
      (1 / dx) * ((g 0).1 - (g m).1) := by
    intro m
    induction m with
    | zero => simp [totalHeight]
    | succ m ih =>
      simp only [totalHeight, List.range_succ, List.map_append, List.sum_append, List.map_cons, List.map_nil,
        List.sum_cons, List.sum_nil] at ih ⊢
      rw [ih]
      simp only [Prod.smul_fst, Prod.fst_add, Prod.fst_neg, smul_eq_mul]
      ring
  rw [tel, g0, gn, sub_self, mul_zero]

/-- C142.  Between walls the solver `lw` keeps the amount of water: each recorded solution has the initial total height,
also if the run ends with an exception. -/
theorem C142_walls (c : Conversions ℝ) (newton : (ℝ → ℝ) → ℝ → Except Error ℝ) (name : Option String)
    (endTime : Option ℝ) (history : Bool) (words : List String) (w : Water) (l : List (Key × Settings ℝ))
    (h : commandLine c newton name endTime history words = .ok (w, l)) (points : List (ℝ × ℝ)) (s : Settings ℝ)
    (hks : (.sweLw, s) ∈ l) (j : WendroffJob) (hj : wendroffJob points w s = .ok j)
    (hwall : w.bench.boundary.conditions = ["wall", "wall"]) (q : ℕ) :
    ∀ v ∈ (j.run q).1.sol.values, totalHeight (List.ofFn v) = totalHeight (List.ofFn j.initial) := by
  obtain ⟨⟨e, he, -, -, -, -, e4, -⟩, -⟩ := C124_accepted c newton name endTime history words w l h
  obtain ⟨-, -, -, -, -, hg⟩ := entry_facts e he
  have hP : (params w.gravity).Good := realParams_good _ _ (by rw [e4]; exact hg) _
  obtain ⟨hbc, -, hfol⟩ := C142_scheme points w s j hj
  rw [hwall, build_pair _ _ (by decide)] at hbc
  rw [← params_eq] at hfol
  obtain ⟨steps, h1, -, h3⟩ := hfol q
  intro v hv
  obtain ⟨i, hi⟩ := List.mem_iff_getElem?.1 hv
  obtain ⟨hlt, -⟩ := List.getElem?_eq_some_iff.1 hi
  obtain ⟨s', r1, r2, -⟩ := h3 i (by omega)
  obtain rfl : v = s'.solution := Option.some.inj (hi.symm.trans r2)
  rcases Nat.eq_zero_or_pos j.n with hn | hn
  · have : ∀ u : Fin j.n → State ℝ, totalHeight (List.ofFn u) = 0 := by
      intro u
      have : List.ofFn u = [] := List.eq_nil_of_length_eq_zero (by simp [hn])
      rw [this]; rfl
    rw [this, this]
  have key : ∀ (st : List ℝ) (a b : ODE.Solver ℝ (Fin j.n → State ℝ)),
      laxWendroffRun (params w.gravity) j.n j.dx j.boundary a st = .ok b →
      totalHeight (List.ofFn b.solution) = totalHeight (List.ofFn a.solution) := by
    intro st
    induction st with
    | nil => intro a b hab; cases hab; rfl
    | cons dt st ih =>
      intro a b hab
      simp only [laxWendroffRun] at hab
      cases hx : a.executeE (forwardEuler ℝ) (vecRhs j.n (rhs (laxWendroff (params w.gravity) dt j.dx) j.dx j.boundary)) dt
        with
      | error e => rw [hx] at hab; cases hab
      | ok a' =>
        rw [hx] at hab
        rw [ih a' b hab, ← heightMap_eq, ← heightMap_eq, executeE_eq _ _ _ _ _ hx]
        exact C53_linear_invariant _ _ (heightMap ℝ j.n) (height_totalise j.n _ fun t v w hv hw =>
          wendroff_tight _ hP dt j.dx _ _ j.boundary hbc j.n hn t v w hv hw) a [dt]
  exact key _ _ _ r1

/-! ### Examples -/

/-- The word `lw` for the lake at rest over a bump. -/
example (newton : (ℝ → ℝ) → ℝ → Except Error ℝ) (points : List (ℝ × ℝ)) (hp : AveragingRule points) :
    ∃ w s j, commandLine Calculate.exampleConversions newton (some "lake-at-rest") none true ["lw"] =
        .ok (w, [(.sweLw, s)]) ∧ wendroffJob points w s = .ok j ∧
      FollowsWendroff (realParams w.gravity 1e-15 (by norm_num)) j.dx j.boundary j.initial (j.run 1).1.sol.times
        (j.run 1).1.sol.values ∧ (j.run 1).1.sol.values.length = 2 := by
  obtain ⟨w, s, j, h1, h2, -, -, v, -, h3⟩ := example_wendroff newton points hp
  exact ⟨w, s, j, h1, h2, (C142_scheme points w s j h2).2.2 1, by rw [h3]; rfl⟩

/-- The word `lw` for the dam break between walls: there is such a run, and it keeps the amount of water. -/
example (newton : (ℝ → ℝ) → ℝ → Except Error ℝ) (points : List (ℝ × ℝ)) (hp : AveragingRule points) :
    ∃ w s j, commandLine Calculate.exampleConversions newton (some "cylindrical-damm-break-with-wall") none true ["lw"] =
        .ok (w, [(.sweLw, s)]) ∧ wendroffJob points w s = .ok j ∧ j.n = 400 ∧
      ∀ v ∈ (j.run 7).1.sol.values, totalHeight (List.ofFn v) = totalHeight (List.ofFn j.initial) := by
  obtain ⟨w, l, h, hf⟩ := C124_words Calculate.exampleConversions newton (some "cylindrical-damm-break-with-wall")
    (by simp [catalogue]) (by simp) none true
    [(.sweLw, [])] (by simp [sweKeys]) (by simp) (by simp [pure, Except.pure]) ["lw"] {
      join := by simp [prog]
      nonempty := by simp [prog]
      inside := by simp [prog, Cut]
      between := by simp [prog, Cut] }
  cases hf with
  | @cons _ e1 _ l1 h1 hf =>
  cases hf
  obtain ⟨k1, s1⟩ := e1
  obtain ⟨rfl, h1⟩ := h1
  obtain ⟨m1, c1, -⟩ := h1 [] rfl
  simp [meant, lastValue] at m1 c1
  obtain ⟨⟨e, he, en, -, d2, -⟩, -⟩ := C124_accepted _ _ _ _ _ _ _ _ h
  have hwall : e.conditions = ["wall", "wall"] := by
    simp only [Option.getD_some] at en
    simp only [catalogue, List.mem_cons, List.not_mem_nil, or_false] at he
    rcases he with rfl | rfl | rfl | rfl | rfl | rfl | rfl | rfl | rfl | rfl | rfl | rfl | rfl | rfl | rfl <;>
      first | rfl | simp at en
  obtain ⟨m, x, -, r3, r4, mesh, -, -, r5, r6⟩ := C142_run _ _ _ _ _ _ _ _ h points hp (by simp) s1 (by simp)
  obtain rfl : m = 400 := by rw [m1] at r3; simp at r3; omega
  rw [c1] at r4
  obtain ⟨v, hv⟩ := r5 (by simp)
  obtain ⟨j, g1, g2, -⟩ := (r6 v hv).2 (1 / 10) (Or.inl (by simpa using (Val.num.inj r4).symm))
  exact ⟨w, s1, j, h, g1, g2, C142_walls _ _ _ _ _ _ _ _ h points s1 (by simp) j g1 (d2.trans hwall) 7⟩

/-- The word `antidiffusion` for uniform flow. -/
example (newton : (ℝ → ℝ) → ℝ → Except Error ℝ) (points : List (ℝ × ℝ)) (hp : AveragingRule points) :
    ∃ w s j, commandLine Calculate.exampleConversions newton (some "moving-water-no-bathymetry") none true
        ["antidiffusion"] = .ok (w, [(.sweAntidiffusion, s)]) ∧ sharpJob points w s = .ok j ∧
      ∃ T, Follows T (rhs j.flux j.dx j.boundary) j.initial (j.dx * j.cfl) (j.run 3).1.sol.times
        (j.run 3).1.sol.values := by
  obtain ⟨w, s, j, h1, h2, h3, h4, h5⟩ := example_sharp newton points hp
  obtain ⟨o, B, γ, key, G, -, -, -, -, -, -, -, -, h6⟩ := C143_scheme points w s j h2
  obtain ⟨⟨e, he, en, d1, -, d3, -⟩, -⟩ := C124_accepted _ _ _ _ _ _ _ _ h1
  obtain rfl : e = ⟨"moving-water-no-bathymetry", ⟨0, 100⟩, ["periodic"], 1, 9.812, 0⟩ := by
    simp only [Option.getD_some] at en
    simp only [catalogue, List.mem_cons, List.not_mem_nil, or_false] at he
    rcases he with rfl | rfl | rfl | rfl | rfl | rfl | rfl | rfl | rfl | rfl | rfl | rfl | rfl | rfl | rfl <;>
      first | rfl | simp at en
  simp only [meantEnd] at d3
  have hdx : j.dx = 1 / 4 := by rw [h5.dx, d1, h3]; norm_num
  have hs := h5.still (Or.inr rfl) (by rw [hdx, h4]; norm_num) (by rw [h5.endTime, d3]; norm_num)
  refine ⟨w, s, j, h1, h2, j.tableau, h6 3 fun e' he' => ?_⟩
  rcases hs.status 3 with h | h
  · exact absurd (h.symm.trans he') (by simp)
  · exact absurd (h.symm.trans he') (by simp)

/-- The word `llf` for the oscillating lake: there is a solver of which `C124_scheme` speaks. -/
example (newton : (ℝ → ℝ) → ℝ → Except Error ℝ) (points : List (ℝ × ℝ)) (hp : AveragingRule points) :
    ∃ w s j, commandLine Calculate.exampleConversions newton none none true ["llf"] = .ok (w, [(.sweLlf, s)]) ∧
      job points w .sweLlf s = .ok j ∧ ∃ B, j.flux = lfFlux (realParams w.gravity 1e-15 (by norm_num)) B := by
  obtain ⟨w, l, h, hf⟩ := C124_words Calculate.exampleConversions newton none (by simp [catalogue]) (by simp) none true
    [(.sweLlf, [])] (by simp [sweKeys]) (by simp) (by simp [pure, Except.pure]) ["llf"] {
      join := by simp [prog]
      nonempty := by simp [prog]
      inside := by simp [prog, Cut]
      between := by simp [prog, Cut] }
  cases hf with
  | @cons _ e1 _ l1 h1 hf =>
  cases hf
  obtain ⟨k1, s1⟩ := e1
  obtain ⟨rfl, h1⟩ := h1
  obtain ⟨m1, c1, -⟩ := h1 [] rfl
  simp [meant, lastValue] at m1 c1
  obtain ⟨m, x, -, r3, r4, mesh, -, -, r5, r6⟩ := C124_run _ _ _ _ _ _ _ _ h points hp (by simp) .sweLlf s1 (by simp)
    (by simp) (by simp)
  rw [c1] at r4
  obtain ⟨v, hv⟩ := r5 (by simp)
  obtain ⟨j, g1, -⟩ := (r6 v hv).2 (1 / 10) (Or.inl (by simpa using (Val.num.inj r4).symm))
  obtain ⟨o, B, bc, -, -, -, -, -, q, -⟩ := C124_scheme points w .sweLlf s1 j g1
  exact ⟨w, s1, j, h, g1, B, (q (by simp)).llf rfl⟩

end Verif.CalculateSWE
