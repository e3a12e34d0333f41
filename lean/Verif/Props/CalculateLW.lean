import Verif.Core.CalculateLW
import Verif.Props.CalculateSWE
import Verif.Props.SWEReduced

/-!
C142: `calculate swe` with the solver `lw`.
-/

set_option linter.unusedSectionVars false

namespace Verif.CalculateSWE

open Verif.Py Verif.Boundary Verif.FV Verif.ODE Verif.Solver Verif.Interpolate Verif.Quadrature Verif.Bench Verif.SWE
open Verif.Registry Verif.Options Verif.Utilities EndToEnd Verif.Calculate
open Verif.TimeStepping (next Config)
open Verif.Mesh hiding Error

/-! ### Helper lemmas: runs whose right-hand side depends on the step -/

section Varied

variable {n : ℕ} (T : Tableau ℝ) (f : ℝ → ℝ → List (State ℝ) → Except Error (List (State ℝ))) (dx cfl t0 t1 : ℝ)

/-- One pass. -/
theorem pass_fv (g : ℝ → List (State ℝ) → Except Error (List (State ℝ))) (l : Obj ℝ (Fin n → State ℝ) × Status)
    (h : l.2 = .running) (c : Config ℝ) (hc : l.1.config (fvParams n T g dx cfl t0 t1) = c) :
    pass (fvParams n T g dx cfl t0 t1) l =
      match next c l.1.ts with
      | (ts, .stopIteration) => ({ l.1 with ts := ts }, .finished)
      | (ts, .tooSmall) => ({ l.1 with ts := ts }, .interrupted)
      | (ts, .yield dt) =>
        match l.1.ode.executeE T (vecRhs n g) dt with
        | .error e => ({ l.1 with ts := ts }, .raised (.rhs e))
        | .ok ode => ({ l.1 with
            ts := ts
            ode := ode
            sol := ⟨⟨l.1.sol.sol.time + dt, ode.solution⟩, l.1.sol.times ++ [l.1.sol.sol.time + dt],
              l.1.sol.values ++ [ode.solution]⟩
            shared := true }, .running) := by
  subst hc
  simp only [pass, h]
  rcases next (l.1.config (fvParams n T g dx cfl t0 t1)) l.1.ts with ⟨ts, a⟩
  cases a with
  | stopIteration => rfl
  | tooSmall => rfl
  | yield dt =>
    have e : Obj.update (fvParams n T g dx cfl t0 t1) { l.1 with ts := ts } dt =
        match l.1.ode.executeE T (vecRhs n g) dt with
        | .error e => ({ l.1 with ts := ts }, some (.rhs e))
        | .ok ode => ({ l.1 with
            ts := ts
            ode := ode
            sol := ⟨⟨l.1.sol.sol.time + dt, ode.solution⟩, l.1.sol.times ++ [l.1.sol.sol.time + dt],
              l.1.sol.values ++ [ode.solution]⟩
            shared := true }, none) := by
      unfold Obj.update
      cases hx : l.1.ode.executeE T (vecRhs n g) dt with
      | error e =>
        split
        · rename_i e' he
          cases hx.symm.trans he
          rfl
        · rename_i o he
          cases hx.symm.trans he
      | ok o =>
        split
        · rename_i e' he
          cases hx.symm.trans he
        · rename_i o' he
          cases hx.symm.trans he
          rfl
    simp only [e]
    cases l.1.ode.executeE T (vecRhs n g) dt <;> rfl

theorem pass_done {V : Type*} [AddCommGroup V] [Module ℝ V] (p : Solver.Params ℝ V) (l : Obj ℝ V × Status)
    (h : l.2 ≠ .running) : pass p l = l := by
  unfold pass
  split
  · contradiction
  · rfl

/-- The passes with a right-hand side depending on the step. -/
noncomputable def variedRun (u : Fin n → State ℝ) : ℕ → Obj ℝ (Fin n → State ℝ) × Status
  | 0 => solve (fvParams n T (f 0) dx cfl t0 t1) (Obj.make (fvParams n T (f 0) dx cfl t0 t1) ⟨u, t0, t1⟩) 0
  | k + 1 => pass (fvParams n T (f (stepOf (fvParams n T (f 0) dx cfl t0 t1) (variedRun u k))) dx cfl t0 t1)
      (variedRun u k)

/-- What every step keeps holds for the whole history. -/
theorem varied_history (u : Fin n → State ℝ) (R : (Fin n → State ℝ) → Prop) (hu : R u)
    (hR : ∀ dt (s s' : ODE.Solver ℝ (Fin n → State ℝ)), R s.solution → s.executeE T (vecRhs n (f dt)) dt = .ok s' →
      R s'.solution) (q : ℕ) :
    R (variedRun T f dx cfl t0 t1 u q).1.ode.solution ∧ ∀ v ∈ (variedRun T f dx cfl t0 t1 u q).1.sol.values, R v := by
  induction q with
  | zero =>
    refine ⟨hu, fun v hv => ?_⟩
    obtain rfl := List.mem_singleton.1 hv
    exact hu
  | succ q ih =>
    rw [variedRun]
    generalize hl : variedRun T f dx cfl t0 t1 u q = l at ih ⊢
    by_cases h : l.2 = .running
    · rw [pass_fv T dx cfl t0 t1 (f (stepOf (fvParams n T (f 0) dx cfl t0 t1) l)) l h (l.1.config (fvParams n T (f 0) dx cfl t0 t1)) rfl]
      cases hn : next (l.1.config (fvParams n T (f 0) dx cfl t0 t1)) l.1.ts with
      | mk ts a =>
      cases a with
      | stopIteration => exact ih
      | tooSmall => exact ih
      | yield dt =>
        have hs : stepOf (fvParams n T (f 0) dx cfl t0 t1) l = dt := by simp [stepOf, hn]
        simp only [hs]
        cases he : l.1.ode.executeE T (vecRhs n (f dt)) dt with
        | error e => exact ih
        | ok s' =>
          have := hR dt _ s' ih.1 he
          refine ⟨this, fun v hv => ?_⟩
          rcases List.mem_append.1 hv with hv | hv
          · exact ih.2 v hv
          · obtain rfl := List.mem_singleton.1 hv
            exact this
    · rw [pass_done _ l h]
      exact ih

/-- As long as nothing is raised, the loop stands as that of a run in which nothing moves. -/
theorem varied_times (u : Fin n → State ℝ) (hstep : 1 / 10 ^ 12 ≤ dx * cfl) (hdur : 1 / 10 ^ 12 ≤ t1 - t0) (q : ℕ)
    (hq : ∀ e, (variedRun T f dx cfl t0 t1 u q).2 ≠ .raised e) :
    ((variedRun T f dx cfl t0 t1 u q).2 = .running ∨ (variedRun T f dx cfl t0 t1 u q).2 = .finished) ∧
    (t1 - t0 ≤ ((q - 1 : ℕ) : ℝ) * (dx * cfl) → 0 < q → (variedRun T f dx cfl t0 t1 u q).2 = .finished) ∧
    ((variedRun T f dx cfl t0 t1 u q).2 = .finished → t1 - 1 / 10 ^ 12 < (variedRun T f dx cfl t0 t1 u q).1.sol.sol.time ∧
      (variedRun T f dx cfl t0 t1 u q).1.sol.sol.time ≤ t1) := by
  set g : ℝ → List (State ℝ) → Except Error (List (State ℝ)) := fun _ _ => .ok (List.replicate n 0) with hg
  have hz : ∀ t v, vecRhs n g t v = .ok 0 := by
    intro t v
    simp only [vecRhs, hg, List.length_replicate, dite_true]
    congr 1
    funext i
    simp
  have hun := unchanged_of_zero T g (0 : Fin n → State ℝ) (fun t => hz t 0) dx cfl t0 t1 hstep hdur
  set Z := fvParams n T g dx cfl t0 t1 with hZ
  have key : ∀ q, (∃ e, (variedRun T f dx cfl t0 t1 u q).2 = .raised e) ∨
      ((variedRun T f dx cfl t0 t1 u q).2 = (solve Z (Obj.make Z ⟨0, t0, t1⟩) q).2 ∧
       (variedRun T f dx cfl t0 t1 u q).1.ts = (solve Z (Obj.make Z ⟨0, t0, t1⟩) q).1.ts ∧
       (variedRun T f dx cfl t0 t1 u q).1.first = (solve Z (Obj.make Z ⟨0, t0, t1⟩) q).1.first ∧
       (variedRun T f dx cfl t0 t1 u q).1.sol.sol.time = (solve Z (Obj.make Z ⟨0, t0, t1⟩) q).1.sol.sol.time) := by
    intro q
    induction q with
    | zero => exact Or.inr ⟨rfl, rfl, rfl, rfl⟩
    | succ q ih =>
      have hst := hun.status (q + 1)
      rw [solve] at hst ⊢
      rw [variedRun]
      generalize hl : variedRun T f dx cfl t0 t1 u q = l at ih ⊢
      generalize hl' : solve Z (Obj.make Z ⟨0, t0, t1⟩) q = l' at ih hst ⊢
      rcases ih with ⟨e, he⟩ | ⟨i1, i2, i3, i4⟩
      · left
        rw [pass_done _ l (by rw [he]; simp)]
        exact ⟨e, he⟩
      by_cases h : l.2 = .running
      · have hc : l'.1.config Z = l.1.config (fvParams n T (f 0) dx cfl t0 t1) := by
          simp only [Obj.config, hZ, fvParams, i3]
        rw [pass_fv T dx cfl t0 t1 (f (stepOf (fvParams n T (f 0) dx cfl t0 t1) l)) l h (l.1.config (fvParams n T (f 0) dx cfl t0 t1)) rfl]
        rw [hZ, pass_fv T dx cfl t0 t1 g l' (i1 ▸ h) _ hc, ← i2] at hst ⊢
        cases hn : next (l.1.config (fvParams n T (f 0) dx cfl t0 t1)) l.1.ts with
        | mk ts a =>
        rw [hn] at hst
        cases a with
        | stopIteration => exact Or.inr ⟨rfl, rfl, i3, i4⟩
        | tooSmall => exact Or.inr ⟨rfl, rfl, i3, i4⟩
        | yield dt =>
          simp only at hst ⊢
          cases he : l.1.ode.executeE T (vecRhs n (f (stepOf (fvParams n T (f 0) dx cfl t0 t1) l))) dt with
          | error e => exact Or.inl ⟨_, rfl⟩
          | ok s' =>
            right
            cases he' : l'.1.ode.executeE T (vecRhs n g) dt with
            | error e => rw [he'] at hst; simp at hst
            | ok s'' => exact ⟨rfl, rfl, i3, by simp only [i4]⟩
      · rw [pass_done _ l h, pass_done _ l' (i1 ▸ h)]
        exact Or.inr ⟨i1, i2, i3, i4⟩
  rcases key q with ⟨e, he⟩ | ⟨i1, -, -, i4⟩
  · exact absurd he (hq e)
  rw [i1, i4]
  refine ⟨hun.status q, fun h h0 => ?_, hun.time q⟩
  obtain ⟨k, rfl⟩ : ∃ k, q = k + 1 := ⟨q - 1, by omega⟩
  exact hun.ends k (by simpa using h)

/-- If every step is defined where it is needed, nothing is raised. -/
theorem varied_safe (u : Fin n → State ℝ) (R : (Fin n → State ℝ) → Prop) (hu : R u)
    (hR : ∀ dt (s : ODE.Solver ℝ (Fin n → State ℝ)), R s.solution → ∃ s', s.executeE T (vecRhs n (f dt)) dt = .ok s' ∧
      R s'.solution) (q : ℕ) (e : Exn) : (variedRun T f dx cfl t0 t1 u q).2 ≠ .raised e := by
  have hh := varied_history T f dx cfl t0 t1 u R hu fun dt s s' h h' => by
    obtain ⟨s'', h1, h2⟩ := hR dt s h
    rw [h1] at h'
    cases h'
    exact h2
  induction q with
  | zero => simp [variedRun, solve]
  | succ q ih =>
    have hq := (hh q).1
    rw [variedRun]
    generalize hl : variedRun T f dx cfl t0 t1 u q = l at ih hq ⊢
    by_cases h : l.2 = .running
    · rw [pass_fv T dx cfl t0 t1 (f (stepOf (fvParams n T (f 0) dx cfl t0 t1) l)) l h
        (l.1.config (fvParams n T (f 0) dx cfl t0 t1)) rfl]
      cases hn : next (l.1.config (fvParams n T (f 0) dx cfl t0 t1)) l.1.ts with
      | mk ts a =>
      cases a with
      | stopIteration => simp
      | tooSmall => simp
      | yield dt =>
        have hs : stepOf (fvParams n T (f 0) dx cfl t0 t1) l = dt := by simp [stepOf, hn]
        simp only [hs]
        obtain ⟨s', h1, -⟩ := hR dt l.1.ode hq
        rw [h1]
        simp
    · rw [pass_done _ l h]
      exact ih

/-- The first step. -/
theorem varied_first (u : Fin n → State ℝ) (hstep : 1 / 10 ^ 12 ≤ dx * cfl) (hdur : 1 / 10 ^ 12 ≤ t1 - t0)
    (hT : T = forwardEuler ℝ) (hok : ∀ dt, ∃ k ≠ 0, vecRhs n (f dt) t0 u = .ok k) :
    ∃ v ≠ u, (variedRun T f dx cfl t0 t1 u 1).1.sol.values = [u, v] := by
  subst hT
  rw [variedRun]
  set l := variedRun (forwardEuler ℝ) f dx cfl t0 t1 u 0 with hl
  rw [pass_fv (forwardEuler ℝ) dx cfl t0 t1 (f (stepOf (fvParams n (forwardEuler ℝ) (f 0) dx cfl t0 t1) l)) l rfl
    (l.1.config (fvParams n (forwardEuler ℝ) (f 0) dx cfl t0 t1)) rfl]
  have hpos : (0 : ℝ) < 1 / 10 ^ 12 := by positivity
  have hmin : (1 / 10 ^ 12 : ℝ) ≤ min (dx * cfl) (t1 - t0) := le_min hstep hdur
  obtain ⟨ts, hn⟩ : ∃ ts, next (l.1.config (fvParams n (forwardEuler ℝ) (f 0) dx cfl t0 t1)) l.1.ts =
      (ts, .yield (min (dx * cfl) (t1 - t0))) := by
    unfold next
    have h1 : l.1.ts.stop = false := rfl
    have h2 : min ((l.1.config (fvParams n (forwardEuler ℝ) (f 0) dx cfl t0 t1)).gen.call l.1.ts.calls)
        ((l.1.config (fvParams n (forwardEuler ℝ) (f 0) dx cfl t0 t1)).endTime - l.1.ts.time) =
        min (dx * cfl) (t1 - t0) := rfl
    rw [h1]
    simp only [Bool.false_eq_true, if_false, h2]
    rw [if_neg (not_lt.2 (by simpa [TimeStepping.tol] using hmin))]
    split
    · exact ⟨_, rfl⟩
    · exact ⟨_, rfl⟩
  set dt := min (dx * cfl) (t1 - t0) with hdt
  have hs : stepOf (fvParams n (forwardEuler ℝ) (f 0) dx cfl t0 t1) l = dt := by simp [stepOf, hn]
  obtain ⟨k, hk, hrhs⟩ := hok dt
  have he : l.1.ode.executeE (forwardEuler ℝ) (vecRhs n (f dt)) dt = .ok
      { time := t0 + dt, solution := u + dt • k, timeNodes := [t0], stageValues := [u] } := by
    change (ODE.Solver.init u t0).executeE (forwardEuler ℝ) (vecRhs n (f dt)) dt = _
    simp [ODE.Solver.executeE, ODE.Solver.init, forwardEuler, stagesE, timeNode, stageValue, hrhs]
  rw [hn]
  simp only [hs, he]
  refine ⟨u + dt • k, ?_, rfl⟩
  intro h
  have h0 : dt • k = 0 := by simpa using h
  rcases smul_eq_zero.1 h0 with h1 | h1
  · linarith
  · exact hk h1

end Varied

/-! ### Helper lemmas: the flux -/

theorem wendroff_defined (P : SWE.Params ℝ) (hP : P.Good) (dt dx : ℝ) (hdx : dx ≠ 0) (bc : BC ℝ (State ℝ)) (t : ℝ)
    (v ext : List (State ℝ)) (hext : bc.extend v (some t) = .ok ext) (n : ℕ) (hlen : ext.length = n + 2)
    (hpos : ∀ j < n + 2, 0 < (ext.getD j 0).1) :
    ∃ w, w.length = n ∧ rhs (laxWendroff P dt dx) dx bc t v = .ok w := by
  have hg : ∀ j, ∃ g, j < n + 1 →
      laxWendroffNode (riemann P) (maxSpeed P) dt dx (ext.getD j 0) (ext.getD (j + 1) 0) = .ok g := by
    intro j
    by_cases hj : j < n + 1
    · obtain ⟨fL, fR, -, -, h⟩ := C78_node_flux P hP dt dx hdx (ext.getD j 0) (ext.getD (j + 1) 0)
        (hpos j (by omega)).le (hpos (j + 1) (by omega)).le (Or.inl (hpos j (by omega)))
      exact ⟨_, fun _ => h⟩
    · exact ⟨0, fun h => absurd h hj⟩
  choose g hg using hg
  have := rhs_of_call (laxWendroff P dt dx) (by simp [laxWendroff, twoPoint]) dx hdx bc t v ext hext n hlen _ _
    (twoPoint_call _ n ext hlen g hg)
  exact ⟨_, by simp, this⟩

theorem wendroff_uniform (P : SWE.Params ℝ) (hP : P.Good) (dt dx : ℝ) (hdx : dx ≠ 0) (bc : BC ℝ (State ℝ)) (t : ℝ)
    (c : State ℝ) (hc : 0 < c.1) (n : ℕ)
    (hext : bc.extend (List.replicate n c) (some t) = .ok (List.replicate (n + 2) c)) :
    rhs (laxWendroff P dt dx) dx bc t (List.replicate n c) = .ok (List.replicate n 0) := by
  obtain ⟨fL, fR, -, -, h⟩ := C78_node_flux P hP dt dx hdx c c hc.le hc.le (Or.inl hc)
  have hr : ∀ j < n + 2, (List.replicate (n + 2) c).getD j 0 = c := fun j hj => by
    rw [List.getD_eq_getElem _ _ (by simpa using hj), List.getElem_replicate]
  have := rhs_of_call (laxWendroff P dt dx) (by simp [laxWendroff, twoPoint]) dx hdx bc t _ _ hext n (by simp) _ _
    (twoPoint_call (laxWendroffNode (riemann P) (maxSpeed P) dt dx) n _ (by simp) (fun _ => _)
      (fun j hj => by rw [hr j (by omega), hr (j + 1) (by omega)]; exact h))
  rw [this]
  congr 1
  simp

theorem wendroff_run (j : WendroffJob) (k : ℕ) :
    j.run k = variedRun (forwardEuler ℝ) (fun dt => rhs (laxWendroff j.physics dt j.dx) j.dx j.boundary) j.dx j.cfl 0
      j.endTime j.initial k := by
  induction k with
  | zero => rfl
  | succ k ih => rw [WendroffJob.run, variedRun, ← ih]; rfl

theorem vecRhs_list {n : ℕ} (f : ℝ → List (State ℝ) → Except Error (List (State ℝ))) (t : ℝ) (v w : List (State ℝ))
    (hv : v.length = n) (hw : w.length = n) (h : f t v = .ok w) :
    vecRhs n f t (fun i : Fin n => v.getD i 0) = .ok (fun i : Fin n => w.getD i 0) := by
  have e : List.ofFn (fun i : Fin n => v.getD i 0) = v := by
    apply List.ext_getElem
    · simp [hv]
    · intro i h1 h2
      simp only [List.getElem_ofFn]
      rw [List.getD_eq_getElem _ _ h2]
  simp only [vecRhs, e, h, hw, dite_true]
  congr 1
  funext i
  rw [List.getD_eq_getElem _ _ (by omega)]

/-- The lake at rest over the bump is changed by the first step. -/
theorem wendroff_lake (points : List (ℝ × ℝ)) (hp : AveragingRule points) (n : ℕ) (hn : 20 ≤ n) (mesh : UMesh ℝ)
    (hmesh : uniformMesh (Lake.domain .bump) n = .ok mesh) (P : SWE.Params ℝ) (hP : P.Good) (heps : P.eps ≤ 3 / 20)
    (bc : BC ℝ (State ℝ)) (hbc : build (K := ℝ) (some reflect) ["outflow", "outflow"] 1 none none = .ok bc) (dx : ℝ)
    (hdx : dx ≠ 0) (dt t : ℝ) : ∃ k ≠ 0, vecRhs n (rhs (laxWendroff P dt dx) dx bc) t
      (fun i : Fin n => (discretize points mesh (Lake.initial .bump)).getD i 0) = .ok k := by
  obtain ⟨hlen, ha, hconst⟩ := lake_admissible points hp n hn mesh hmesh P heps
  have hd : (Lake.domain .bump).a < (Lake.domain .bump).b := by norm_num [Lake.domain]
  have hu : discretize points mesh (Lake.initial .bump) =
      lake 2 (cellAverages points mesh (Lake.bathymetry .bump)) :=
    discretize_lake points hp mesh (uniform_cells hd (by omega) hmesh).2.1 2 _ _ fun x => rfl
  rw [hu]
  generalize cellAverages points mesh (Lake.bathymetry .bump) = b at *
  subst hlen
  have hne : b ≠ [] := by rintro rfl; simp at hn
  have hcl : Closed ["outflow", "outflow"] := ⟨_, _, rfl, Or.inl rfl, Or.inl rfl⟩
  have hwet : ∀ x ∈ b, P.eps ≤ 2 - x := ha.1
  obtain ⟨-, hext⟩ := closed_extend _ hcl none none bc hbc (lake 2 b) b.length (by omega) (lake_length 2 b)
    (lake_rest 2 b) (some t)
  have hll : (lake 2 b).length = b.length := lake_length 2 b
  have hlp : ∀ u ∈ lake 2 b, 0 < u.1 := by
    intro u hu
    obtain ⟨x, hx, rfl⟩ := List.mem_map.1 hu
    exact P.eps_pos.trans_le (hwet x hx)
  have hmem : ∀ u ∈ (lake 2 b).getD 0 0 :: lake 2 b ++ [(lake 2 b).getD (b.length - 1) 0], 0 < u.1 := by
    intro u hu
    simp only [List.cons_append, List.mem_cons, List.mem_append, List.not_mem_nil, or_false] at hu
    rcases hu with rfl | hu | rfl
    · exact hlp _ (getD_mem_of_lt _ _ _ (by omega))
    · exact hlp u hu
    · exact hlp _ (getD_mem_of_lt _ _ _ (by omega))
  obtain ⟨w, hwl, hw⟩ := wendroff_defined P hP dt dx hdx bc t _ _ hext b.length (by simp [hll])
    (fun j hj => hmem _ (getD_mem_of_lt _ _ _ (by simp [hll]; omega)))
  refine ⟨_, ?_, vecRhs_list _ t _ w hll hwl hw⟩
  intro h0
  have hz : w = List.replicate b.length 0 := by
    apply List.ext_getElem
    · simp [hwl]
    · intro i h1 h2
      have := congrFun h0 ⟨i, by omega⟩
      simp only [Pi.zero_apply] at this
      rw [List.getD_eq_getElem _ _ h1] at this
      simpa using this
  rw [hz] at hw
  have hall := (C78_lake_iff P hP 2 b hne hwet _ hcl none none bc hbc dt dx hdx t).1 hw
  cases b with
  | nil => exact hne rfl
  | cons x l =>
    have h1 := ((C48_bottom P x l).1 fun y hy => by
      rw [hall y (List.mem_cons_of_mem _ hy) x List.mem_cons_self]
      have := P.eps_pos
      constructor <;> linarith).1
    rw [h1] at hconst
    cases hconst

/-! ### The command -/

/-- What the solver `lw` promises for a benchmark, and what it does not. -/
structure WendroffPromises (name : String) (w : Water) (points : List (ℝ × ℝ)) (j : WendroffJob) : Prop where
  mesh : uniformMesh w.bench.domain j.n = .ok j.mesh
  dx : j.dx = (w.bench.domain.b - w.bench.domain.a) / j.n
  endTime : j.endTime = w.bench.endTime
  start : (j.run 0).1.sol.values = [j.initial]
  initial : ∀ f : ℝ → ℝ × ℝ, (∀ x, w.bench.initial x = .ok (f x)) →
    List.ofFn j.initial = List.zip (cellAverages points j.mesh fun x => (f x).1) (cellAverages points j.mesh fun x => (f x).2)
  wet : ∀ i, 0 < (j.initial i).1
  ends : 1 / 10 ^ 12 ≤ j.dx * j.cfl → 1 / 10 ^ 12 ≤ j.endTime → ∀ q, (∀ e, (j.run q).2 ≠ .raised e) →
    ((j.run q).2 = .running ∨ (j.run q).2 = .finished) ∧
    (j.endTime ≤ ((q - 1 : ℕ) : ℝ) * (j.dx * j.cfl) → 0 < q → (j.run q).2 = .finished) ∧
    ((j.run q).2 = .finished →
      j.endTime - 1 / 10 ^ 12 < (j.run q).1.sol.sol.time ∧ (j.run q).1.sol.sol.time ≤ j.endTime)
  /-- with periodic conditions neither water nor discharge is lost, whatever the bottom -/
  conserved : w.bench.boundary.conditions = ["periodic"] → ∀ q, ∀ v ∈ (j.run q).1.sol.values,
    totalHeight (List.ofFn v) = totalHeight (List.ofFn j.initial) ∧
    totalDischarge (List.ofFn v) = totalDischarge (List.ofFn j.initial)
  /-- flat water on flat ground stays as it is -/
  still : name = "lake-at-rest-no-bathymetry" ∨ name = "moving-water-no-bathymetry" → ∀ q,
    (∀ e, (j.run q).2 ≠ .raised e) ∧ ∀ v ∈ (j.run q).1.sol.values, v = j.initial
  /-- the lake over the bump does not stay at rest -/
  lake : name = "lake-at-rest" → 20 ≤ j.n → 1 / 10 ^ 12 ≤ j.dx * j.cfl → 1 / 10 ^ 12 ≤ j.endTime →
    ∃ v ≠ j.initial, (j.run 1).1.sol.values = [j.initial, v]

/-- C142.  The solver `lw` of an accepted command line for the shallow water equations. -/
theorem C142_run (c : Conversions ℝ) (newton : (ℝ → ℝ) → ℝ → Except Error ℝ) (name : Option String)
    (endTime : Option ℝ) (history : Bool) (words : List String) (w : Water) (l : List (Key × Settings ℝ))
    (h : commandLine c newton name endTime history words = .ok (w, l)) (points : List (ℝ × ℝ))
    (hp : AveragingRule points)
    (hbump : name = some "moving-water-bump-bathymetry" → ∀ f h, newton f (25 / 10) = .ok h → 0 < h)
    (s : Settings ℝ) (hks : (.sweLw, s) ∈ l) :
    ∃ (m : ℕ) (x : PyFloat ℝ), 0 < m ∧ s.meshSize = .int m ∧ s.cfl = .num x ∧ ∃ mesh,
      uniformMesh w.bench.domain m = .ok mesh ∧
      (∀ e, initialValues points mesh w.bench.initial = .error e → wendroffJob points w s = .error e) ∧
      (name ≠ some "moving-water-bump-bathymetry" → ∃ v, initialValues points mesh w.bench.initial = .ok v) ∧
      ∀ v, initialValues points mesh w.bench.initial = .ok v →
        (x = .nan → wendroffJob points w s = .error .valueError) ∧
        ∀ y, (x = .fin y ∨ (x = .posInf ∧ y = w.bench.endTime / ((w.bench.domain.b - w.bench.domain.a) / m))) →
          ∃ j, wendroffJob points w s = .ok j ∧ j.n = m ∧ j.cfl = y ∧
            WendroffPromises (name.getD "oscillation") w points j := by
  obtain ⟨⟨e, he, en, e1, e2, e3, e4, e5⟩, hl⟩ := C124_accepted c newton name endTime history words w l h
  obtain ⟨-, ⟨z, hz, hs⟩, ⟨x, -, hx⟩, -, -, -⟩ := hl _ s hks
  obtain ⟨m, rfl⟩ : ∃ m : ℕ, z = m := ⟨z.toNat, by omega⟩
  have hm : 0 < m := by exact_mod_cast hz
  have hm0 : (0 : ℝ) < m := by exact_mod_cast hm
  unfold commandLine at h
  simp only [defaultWater] at h
  cases hb : parseBenchmark (shallowWaterTable newton) (name.getD "oscillation") with
  | usage => rw [hb] at h; cases h
  | raised e => rw [hb] at h; cases h
  | value b =>
  rw [hb] at h
  simp only at h
  cases hso : solvers c sweKeys history words with
  | error e => rw [hso] at h; cases h
  | ok l' =>
  rw [hso] at h
  simp only [Except.ok.injEq, Prod.mk.injEq] at h
  obtain ⟨hw, rfl⟩ := h
  obtain ⟨a1, a2, a3, a4, a5, a6⟩ := adjust_fields endTime b
  obtain ⟨-, p1, p2, p3, p4, p5, p6, p7⟩ := parsed_entry newton _ b hb
  have hname : ∀ t : String, t ≠ "oscillation" → name.getD "oscillation" = t → name = some t := by
    intro t ht h
    cases name with
    | none => exact absurd h.symm ht
    | some n => simpa using h
  obtain ⟨hd, -, hghost, hinit⟩ := (C102_shallow_water newton _).2.2.2.2 b hb fun h => hbump (hname _ (by decide) h)
  have w1 : w.bench.domain = b.domain := by rw [← hw]; exact a1
  have w2 : w.bench.boundary = b.boundary := by rw [← hw]; exact a2
  have w3 : w.bench.inflowLeft = b.inflowLeft := by rw [← hw]; exact a3
  have w4 : w.bench.inflowRight = b.inflowRight := by rw [← hw]; exact a4
  have w5 : w.bench.initial = b.initial := by rw [← hw]; exact a5
  clear hw a1 a2 a3 a4 a5 a6 hb
  rw [← w1] at hd hinit
  rw [← w2, ← w3, ← w4] at hghost
  rw [← w5] at p3 hinit
  simp only [← w3, ← w4, ← w5] at p4 p5 p6
  clear w1 w2 w3 w4 w5
  have hmesh := uniformMesh_eq w.bench.domain hd hm
  set D := w.bench.domain.b - w.bench.domain.a with hD
  have hdx : 0 < D / m := div_pos (by rw [hD]; linarith) hm0
  obtain ⟨mesh, hmesh, hstep⟩ : ∃ mesh, uniformMesh w.bench.domain m = .ok mesh ∧ mesh.step = some (D / m) :=
    ⟨_, hmesh, rfl⟩
  obtain ⟨hcells, hlt, -⟩ := uniform_cells hd hm hmesh
  obtain ⟨bc, hbc, -⟩ := hghost 1
  refine ⟨m, x, hm, hs, hx, mesh, hmesh, ?_, ?_, ?_⟩
  · intro e he
    unfold wendroffJob
    rw [hs, hx]
    simp only [Int.toNat_natCast, hmesh, hstep, he, bind, Except.bind]
  · intro hne
    obtain ⟨f, hf⟩ := p3 fun h => hne (hname _ (by decide) h)
    exact ⟨_, by rw [hf]; exact initialValues_ok points mesh f⟩
  intro v hv
  have hjob : wendroffJob points w s = (cflNumber (D / m) w.bench.endTime x).map fun cfl =>
      ⟨m, mesh, D / m, cfl, params w.gravity, bc, w.bench.endTime, fun i => v.getD i 0⟩ := by
    unfold wendroffJob
    rw [hs, hx]
    simp only [Int.toNat_natCast, hmesh, hstep, hv, hbc, bind, Except.bind]
    cases cflNumber (D / m) w.bench.endTime x <;> rfl
  rw [hjob]
  refine ⟨fun hnan => by rw [hnan]; rfl, fun y hy => ⟨⟨m, mesh, D / m, y, params w.gravity, bc, w.bench.endTime,
    fun i => v.getD i 0⟩, ?_, rfl, rfl, ?_⟩⟩
  · rcases hy with rfl | ⟨rfl, rfl⟩ <;> rfl
  obtain ⟨c1, c2, c3, -, -, hg⟩ := entry_facts e he
  have hP : (params w.gravity).Good := realParams_good _ _ (by rw [e4]; exact hg) _
  have hwet := initial_wet points hp w.bench.domain hd m hm mesh hmesh w.bench.initial hinit v hv
  have hdisc : ∀ f : ℝ → ℝ × ℝ, w.bench.initial = (fun x => .ok (f x)) → v = discretize points mesh f := by
    intro f hf
    rw [hf, initialValues_ok] at hv
    exact (Except.ok.inj hv).symm
  have uniform : ∀ c : State ℝ, 0 < c.1 → w.bench.boundary.conditions = ["periodic"] →
      w.bench.initial = (fun _ => .ok c) → ∀ dt (s : ODE.Solver ℝ (Fin m → State ℝ)),
        s.solution = (fun i : Fin m => v.getD i 0) → ∃ s', s.executeE (forwardEuler ℝ)
          (vecRhs m (rhs (laxWendroff (params w.gravity) dt (D / m)) (D / m) bc)) dt = .ok s' ∧
          s'.solution = fun i : Fin m => v.getD i 0 := by
    intro c hc hper hi dt s hs
    have hv' := hdisc (fun _ => c) hi
    have hconst : ∀ a : ℝ, cellAverages points mesh (fun _ => a) = List.replicate m a := by
      intro a
      rw [← hcells]
      exact (C58_basic points mesh hlt hp.sum hp.pos hp.inside (fun _ => (0 : ℝ))).2.1 a
    have hrep : v = List.replicate m c := by
      rw [hv', discretize, hconst, hconst, List.zip_replicate, min_self]
    have hzero : ∀ t, vecRhs m (rhs (laxWendroff (params w.gravity) dt (D / m)) (D / m) bc) t
        (fun i : Fin m => v.getD i 0) = .ok 0 := by
      intro t
      rw [hper] at hbc
      rw [vecRhs_list _ t v (List.replicate m 0) (by simp [hrep]) (by simp) (by
        rw [hrep]
        exact wendroff_uniform _ hP dt _ hdx.ne' bc t c hc m
          (matches_extend ["periodic"] _ _ c (Or.inl rfl) bc hbc m hm t))]
      congr 1
      funext i
      simp
    obtain ⟨s', q1, q2, -⟩ := runE_equilibrium (forwardEuler ℝ) _ _ hzero s hs [dt]
    refine ⟨s', ?_, q2⟩
    simp only [ODE.Solver.runE] at q1
    cases hx : s.executeE (forwardEuler ℝ) (vecRhs m (rhs (laxWendroff (params w.gravity) dt (D / m)) (D / m) bc)) dt with
    | error e => rw [hx] at q1; cases q1
    | ok s1 => rw [hx] at q1; exact q1
  refine ⟨hmesh, rfl, rfl, rfl, ?_, hwet, ?_, ?_, ?_, ?_⟩
  · intro f hf
    rw [hdisc f (funext hf)]
    change List.ofFn (fun i : Fin m => (discretize points mesh f).getD i 0) = discretize points mesh f
    have hlen : (discretize points mesh f).length = m := by simp [discretize, cellAverages, hcells]
    apply List.ext_getElem
    · simp [hlen]
    · intro i h1 h2
      simp only [List.getElem_ofFn]
      rw [List.getD_eq_getElem _ _ h2]
  · intro hy1 hT q hq
    simp only [wendroff_run] at hq ⊢
    obtain ⟨r1, r2, r3⟩ := varied_times _ _ (D / m) y 0 w.bench.endTime (fun i : Fin m => v.getD i 0) hy1
      (by simpa using hT) q hq
    exact ⟨r1, fun h => r2 (by simpa using h), r3⟩
  · intro hper q v' hv'
    rw [wendroff_run] at hv'
    rw [hper] at hbc
    refine (varied_history _ _ _ _ _ _ _ (fun u => totalHeight (List.ofFn u) = _ ∧ totalDischarge (List.ofFn u) = _)
      ⟨rfl, rfl⟩ ?_ q).2 v' hv'
    intro dt s s' hs hex
    obtain ⟨r1, r2⟩ := C78_conserves (params w.gravity) m (D / m) _ _ bc hbc s s' [dt] (by
      simp only [laxWendroffRun]
      rw [hex])
    exact ⟨r1.trans hs.1, r2.trans hs.2⟩
  · intro hcase q
    have hcase' : ∃ c : State ℝ, 0 < c.1 ∧ w.bench.boundary.conditions = ["periodic"] ∧
        w.bench.initial = fun _ => .ok c := by
      rcases hcase with hcase | hcase
      · exact ⟨(1, 0), one_pos, e2.trans (c1 (en.trans hcase)).1, (p4 hcase).2.2⟩
      · exact ⟨(2, 1), two_pos, e2.trans (c2 (en.trans hcase)).1, (p5 hcase).2.2⟩
    obtain ⟨c, k1, k2, k3⟩ := hcase'
    have hun := uniform c k1 k2 k3
    simp only [wendroff_run]
    refine ⟨varied_safe _ _ _ _ _ _ _ (fun u => u = _) rfl hun q, (varied_history _ _ _ _ _ _ _ (fun u => u = _) rfl
      (fun dt s s' hs hex => ?_) q).2⟩
    obtain ⟨s'', h1, h2⟩ := hun dt s hs
    rw [h1] at hex
    cases hex
    exact h2
  · intro hcase hn hy1 hT
    obtain ⟨q1, q2, q3⟩ := p6 hcase
    obtain ⟨g1, -, g3⟩ := c3 (en.trans hcase)
    rw [e2, g1, q1, q2] at hbc
    rw [e1, g3] at hmesh
    have hv' := hdisc _ q3
    subst hv'
    simp only [wendroff_run]
    exact varied_first _ _ _ _ _ _ _ hy1 (by simpa using hT) rfl fun dt => wendroff_lake points hp m hn mesh hmesh _ hP
      (by norm_num [params, realParams]) bc hbc _ hdx.ne' dt 0

/-! ### An example -/

/-- The word `lw` for the lake at rest over a bump: 400 cells, the CFL number 1/10; the first step already changes the
lake. -/
theorem example_wendroff (newton : (ℝ → ℝ) → ℝ → Except Error ℝ) (points : List (ℝ × ℝ)) (hp : AveragingRule points) :
    ∃ w s j, commandLine Calculate.exampleConversions newton (some "lake-at-rest") none true ["lw"] =
        .ok (w, [(.sweLw, s)]) ∧ wendroffJob points w s = .ok j ∧ j.n = 400 ∧ j.cfl = 1 / 10 ∧
      ∃ v ≠ j.initial, (j.run 1).1.sol.values = [j.initial, v] := by
  obtain ⟨w, l, h, hf⟩ := C124_words Calculate.exampleConversions newton (some "lake-at-rest")
    ⟨⟨"lake-at-rest", ⟨0, 20⟩, ["outflow", "outflow"], 100, 9.812, parabola⟩, by simp [catalogue], rfl⟩ (by simp) none true
    [(.sweLw, [])] (by simp [sweKeys]) (by simp) (by simp [pure, Except.pure]) ["lw"] {
      join := by simp [prog]
      nonempty := by simp [prog]
      inside := by simp [prog, Cut]
      between := by simp [prog, Cut] }
  cases hf with
  | @cons _ e1 _ l1 h1 hf =>
  cases hf
  obtain ⟨k1, s1⟩ := e1
  obtain ⟨rfl, h1⟩ := h1
  obtain ⟨m1, c1, -⟩ := h1 [] rfl
  simp [meant, lastValue] at m1 c1
  obtain ⟨⟨e, he, en, d1, -, d3, -⟩, -⟩ := C124_accepted _ _ _ _ _ _ _ _ h
  obtain rfl : e = ⟨"lake-at-rest", ⟨0, 20⟩, ["outflow", "outflow"], 100, 9.812, parabola⟩ := by
    simp only [Option.getD_some] at en
    simp only [catalogue, List.mem_cons, List.not_mem_nil, or_false] at he
    rcases he with rfl | rfl | rfl | rfl | rfl | rfl | rfl | rfl | rfl | rfl | rfl | rfl | rfl | rfl | rfl <;>
      first | rfl | simp at en
  simp only [meantEnd] at d3
  obtain ⟨m, x, -, r3, r4, mesh, -, -, r5, r6⟩ := C142_run _ _ _ _ _ _ _ _ h points hp (by simp) s1 (by simp)
  obtain rfl : m = 400 := by rw [m1] at r3; simp at r3; omega
  rw [c1] at r4
  obtain ⟨v, hv⟩ := r5 (by simp)
  obtain ⟨j, g1, g2, g3, g4⟩ := (r6 v hv).2 (1 / 10) (Or.inl (by simpa using (Val.num.inj r4).symm))
  have hdx : j.dx = 1 / 20 := by rw [g4.dx, d1, g2]; norm_num
  have hend : j.endTime = 100 := g4.endTime.trans d3
  exact ⟨w, s1, j, h, g1, g2, g3, g4.lake rfl (by rw [g2]; norm_num) (by rw [hdx, g3]; norm_num) (by rw [hend]; norm_num)⟩

end Verif.CalculateSWE
