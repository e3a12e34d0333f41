import Verif.Props.SWERuns
import Verif.Props.SWELake
import Verif.Props.Symmetry

/-!
C123: uniform flow over flat ground is kept exactly by all shallow water solvers, in whole runs.
-/

set_option linter.unusedSectionVars false

namespace Verif.SWE

open Verif.Py Verif.Boundary Verif.FV Verif.ODE Verif.Solver EndToEnd

variable {K : Type*} [Field K] [LinearOrder K] [IsStrictOrderedRing K]

/-! ### Specification -/

/-- What comes in at this end is the state `c`: an open end, a wall and no flow, or `c` flowing in. -/
def EndMatches (name : String) (inflow : Option (K → State K)) (c : State K) : Prop :=
  name = "outflow" ∨ (name = "wall" ∧ c.2 = 0) ∨ (name = "inflow" ∧ ∃ f, inflow = some f ∧ ∀ t, f t = c)

/-- The boundary conditions fit to the uniform state `c`. -/
def Matches (conditions : List String) (il ir : Option (K → State K)) (c : State K) : Prop :=
  conditions = ["periodic"] ∨ ∃ cl rest, conditions = cl :: rest ∧ EndMatches cl il c ∧ EndMatches (rest.headD cl) ir c

/-- A run that does not change anything: never an exception or an interruption, an end at the end time, and only copies
of the initial values. -/
structure Unchanged {n : ℕ} (Q : Verif.Solver.Params K (Fin n → State K)) (u : Fin n → State K) (step t0 t1 : K) :
    Prop where
  status : ∀ k, (solve Q (Obj.make Q ⟨u, t0, t1⟩) k).2 = .running ∨ (solve Q (Obj.make Q ⟨u, t0, t1⟩) k).2 = .finished
  ends : ∀ k : ℕ, t1 - t0 ≤ k * step → (solve Q (Obj.make Q ⟨u, t0, t1⟩) (k + 1)).2 = .finished
  time : ∀ k, (solve Q (Obj.make Q ⟨u, t0, t1⟩) k).2 = .finished →
    t1 - 1 / 10 ^ 12 < (solve Q (Obj.make Q ⟨u, t0, t1⟩) k).1.sol.sol.time ∧
      (solve Q (Obj.make Q ⟨u, t0, t1⟩) k).1.sol.sol.time ≤ t1
  values : ∀ k, ∀ v ∈ (solve Q (Obj.make Q ⟨u, t0, t1⟩) k).1.sol.values, v = u

/-! ### Equilibria in runs -/

/-- If the right-hand side is zero at the initial values, the run does not change them. -/
theorem unchanged_of_zero {n : ℕ} (T : Tableau K) (f : K → List (State K) → Except Error (List (State K)))
    (u : Fin n → State K) (hz : ∀ t, vecRhs n f t u = .ok 0) (dx cfl t0 t1 : K) (hstep : 1 / 10 ^ 12 ≤ dx * cfl)
    (hdur : 1 / 10 ^ 12 ≤ t1 - t0) : Unchanged (fvParams n T f dx cfl t0 t1) u (dx * cfl) t0 t1 := by
  set Q := fvParams n T f dx cfl t0 t1 with hQ
  have safe : ∀ m, (∀ e, (solve Q (Obj.make Q ⟨u, t0, t1⟩) m).2 ≠ .raised e) ∧
      (solve Q (Obj.make Q ⟨u, t0, t1⟩) m).1.ode.solution = u := by
    intro m
    refine safe_visited Q (Obj.make Q ⟨u, t0, t1⟩) (make_sync _ _) (fun v => v = u) rfl rfl (fun _ _ => rfl) m ?_
    intro j hj dt h1 h2 hI
    obtain ⟨s', q1, q2, -⟩ := runE_equilibrium T (vecRhs n f) u hz (solve Q (Obj.make Q ⟨u, t0, t1⟩) j).1.ode hI [dt]
    refine ⟨s', ?_, q2⟩
    simp only [ODE.Solver.runE] at q1
    change (solve Q (Obj.make Q ⟨u, t0, t1⟩) j).1.ode.executeE T (vecRhs n f) dt = _
    cases hx : (solve Q (Obj.make Q ⟨u, t0, t1⟩) j).1.ode.executeE T (vecRhs n f) dt with
    | error e => rw [hx] at q1; cases q1
    | ok s1 => rw [hx] at q1; exact q1
  refine ⟨fun k => fixed_status n T _ dx cfl t0 t1 u hstep hdur k (safe k).1,
    fun k hk => fixed_ends n T _ dx cfl t0 t1 u hstep hdur k hk (safe _).1,
    fun k hk => C94_end_time Q ⟨u, t0, t1⟩ rfl k hk, fun k v hv => ?_⟩
  rcases C94_recorded Q (Obj.make Q ⟨u, t0, t1⟩) k (safe k).1 v hv with h | ⟨j, hj, rfl⟩
  · exact List.mem_singleton.mp h
  · exact (safe j).2

/-! ### Uniform states -/

theorem matches_extend (conditions : List String) (il ir : Option (K → State K)) (c : State K)
    (hm : Matches conditions il ir c) (bc : BC K (State K)) (hbc : build (some reflect) conditions 1 il ir = .ok bc)
    (n : ℕ) (hn : 0 < n) (t : K) :
    bc.extend (List.replicate n c) (some t) = .ok (List.replicate (n + 2) c) := by
  have hrep : c :: List.replicate n c ++ [c] = List.replicate (n + 2) c := by
    rw [← List.replicate_succ, ← List.replicate_succ']
  have hg : ∀ i < n, (List.replicate n c).getD i 0 = c := by
    intro i hi
    rw [List.getD_eq_getElem _ _ (by simpa using hi), List.getElem_replicate]
  rcases hm with rfl | ⟨cl, rest, rfl, hl, hr⟩
  · obtain ⟨-, h⟩ := periodic_extend il ir bc hbc (List.replicate n c) n hn (by simp) (some t)
    rw [h, hg _ (by omega), hg _ (by omega), hrep]
  · have h0 : Py.get (List.replicate n c) 0 = .ok c := by
      have := get_nat (List.replicate n c) (i := 0) (by simpa using hn)
      simpa using this
    have h1 : Py.get (List.replicate n c) (-1) = .ok c := by
      have := get_neg (List.replicate n c) (i := 0) (by simpa using hn)
      simpa using this
    have hrefl : c.2 = 0 → reflect c = c := by
      intro h
      ext
      · rfl
      · simp [reflect, h]
    have hL : ∃ g, buildLeft (K := K) (some reflect) cl 0 il = .ok g ∧
        g.eval (List.replicate n c) (some t) = .ok c := by
      rcases hl with rfl | ⟨rfl, h⟩ | ⟨rfl, f, rfl, h⟩
      · exact ⟨.copy 0, by simp [buildLeft], by simp [Ghost.eval, h0]⟩
      · exact ⟨.reflect 0 reflect, by simp [buildLeft], by simp [Ghost.eval, h0, hrefl h]⟩
      · exact ⟨.inflow f, by simp [buildLeft], by simp [Ghost.eval, h]⟩
    have hR : ∃ g, buildRight (K := K) (some reflect) (rest.headD cl) 0 ir = .ok g ∧
        g.eval (List.replicate n c) (some t) = .ok c := by
      rcases hr with e | ⟨e, h⟩ | ⟨e, f, rfl, h⟩ <;> rw [e]
      · exact ⟨.copy (-1), by simp [buildRight], by simp [Ghost.eval, h1]⟩
      · exact ⟨.reflect (-1) reflect, by simp [buildRight], by simp [Ghost.eval, h1, hrefl h]⟩
      · exact ⟨.inflow f, by simp [buildRight], by simp [Ghost.eval, h]⟩
    obtain ⟨gl, hgl, el⟩ := hL
    obtain ⟨gr, hgr, er⟩ := hR
    unfold build at hbc
    simp only [List.range_one, List.mapM_cons, List.mapM_nil, Nat.sub_self, hgl, hgr, bind, Except.bind, pure,
      Except.pure] at hbc
    rw [make_append [gl] [gr] rfl] at hbc
    simp only [Except.ok.injEq] at hbc
    subst hbc
    simp only [BC.extend, List.mapM_cons, List.mapM_nil, el, er, bind, Except.bind, pure, Except.pure]
    rw [← hrep]
    rfl

theorem none_steps (m : ℕ) : (⟨none⟩ : Bathymetry K).steps m = .ok (List.replicate m 0) := rfl

theorem replicate_zero_getD (m j : ℕ) : (List.replicate m (0 : K)).getD j 0 = 0 := by
  rw [List.getD_eq_getElem?_getD, List.getElem?_replicate]
  split <;> rfl

theorem uniform_getD (n : ℕ) (c : State K) (j : ℕ) (hj : j < n + 2) : (List.replicate (n + 2) c).getD j 0 = c := by
  rw [List.getD_eq_getElem _ _ (by simpa using hj), List.getElem_replicate]

theorem source_flat (P : Params K) (a b : State K) : source P a b 0 = 0 := by
  simp [source]

theorem llf_self (P : Params K) (c : State K) : llf P c c = fluxOf P c := by
  unfold llf
  rw [sub_self, smul_zero, sub_zero, ← two_smul K, smul_smul]
  norm_num

theorem barState_self (P : Params K) (c : State K) : barState P c c = c := by
  unfold barState
  rw [sub_self, smul_zero, sub_zero, ← two_smul K, smul_smul]
  norm_num

theorem average_self (x : K) : average x x = x := by
  unfold average; ring

/-- A node between equal states over flat ground. -/
theorem low_self (P : Params K) (c : State K) :
    let N := low P c c 0
    N.heightHLL = c.1 ∧ N.heightLeft = c.1 ∧ N.heightRight = c.1 ∧ N.dischargeLeft = c.2 ∧ N.dischargeRight = c.2 ∧
      N.fluxLeft = -fluxOf P c ∧ N.fluxRight = fluxOf P c := by
  have : ((c.1, c.2) : State K) = c := rfl
  simp [low, barState_self, positivityFix_flat]

/-- The limited flux between equal states is the low-order one, whatever the target. -/
theorem mcl_uniform (P : Params K) (hP : P.Good) (bc : BC K (State K)) (hbc : bc.left.length = 1)
    (F : NumFlux (State K)) (n : ℕ) (hn : 0 < n) (c : State K) (hc : 0 < c.1) (values : List (List (State K)))
    (hval : requiredValues 2 values = .ok [(List.replicate (n + 2) c).dropLast, (List.replicate (n + 2) c).tail])
    (tl : List (State K)) (tr : ℕ → State K) (hF : F.call values = .ok (tl, (List.range (n + 1)).map tr)) :
    (mcl P ⟨none⟩ bc F).call values =
      .ok ((List.range (n + 1)).map (fun _ => -fluxOf P c), (List.range (n + 1)).map (fun _ => fluxOf P c)) := by
  have hw : 0 < maxSpeed P c c := maxSpeed_pos P hP c c (Or.inl hc)
  obtain ⟨e1, e2, e3, e4, e5, e6, e7⟩ := low_self P c
  rw [mcl_call P ⟨none⟩ bc hbc F n hn _ (by simp) values hval _ (none_steps _) (fun _ => low P c c 0) (by
    intro j hj
    rw [uniform_getD n c j (by omega), uniform_getD n c (j + 1) (by omega), replicate_zero_getD]
    exact lowNode_ok P c c 0 hc.le hc.le hw) (fun _ _ => by rw [e1]; exact hc.ne')
    (fun _ _ => by rw [e2, e3]; linarith) tl _ hF]
  have hv : vbarOf (low P c c 0) = c.2 / c.1 := by
    simp only [vbarOf, e2, e3, e4, e5]
    rw [← two_mul, ← two_mul, mul_div_mul_left _ _ (by norm_num)]
  have hl : ∀ (x : K) i, leftOf bc.periodic n (fun _ => x) i = x := by
    intro x i; simp [leftOf]
  have hr : ∀ (x : K) i, rightOf bc.periodic n (fun _ => x) i = x := by
    intro x i; simp [rightOf]
  have m0 : ∀ x : K, max 0 (min 0 x) = 0 := fun x => by
    rw [max_eq_left]; exact min_le_left _ _
  have lim0 : ∀ j, limOf bc.periodic n (fun _ => low P c c 0) tr j = 0 := by
    intro j
    simp only [limOf, limitedNode, Scalar.limitNode, hMax, hMin, vMax, vMin, hl, hr, e1, e2, e3, e4, e5, hv, max_self,
      min_self, sub_self, mul_zero, m0, zero_div, add_zero]
    have : c.2 + -c.1 * (c.2 / c.1) = 0 := by field_simp; ring
    rw [this]
    simp [m0]
  simp only [lim0, e6, e7, neg_zero, add_zero]

theorem twoPoint_uniform (P : Params K) (F : State K → State K → Except Error (State K)) (n : ℕ) (c f : State K)
    (hF : F c c = .ok f) :
    (withSource P ⟨none⟩ (twoPoint F)).call [(List.replicate (n + 2) c).dropLast, (List.replicate (n + 2) c).tail] =
      .ok ((List.range (n + 1)).map (fun _ => -f), (List.range (n + 1)).map (fun _ => f)) := by
  rw [withSource_call P ⟨none⟩ (twoPoint F) n _ (by simp) _ (none_steps _) (fun _ => -f) (fun _ => f)
    (twoPoint_call F n _ (by simp) (fun _ => f) (by
      intro j hj
      rw [uniform_getD n c j (by omega), uniform_getD n c (j + 1) (by omega)]
      exact hF))]
  simp only [replicate_zero_getD, source_flat, neg_zero, add_zero]

theorem zipE_replicate {α β γ : Type*} (g : α → β → Except Error γ) (a : α) (b : β) (y : γ) (h : g a b = .ok y) (m : ℕ) :
    zipE g (List.replicate m a) (List.replicate m b) = .ok (List.replicate m y) := by
  obtain ⟨fs, hfs⟩ := zipE_ok g (List.replicate m a) (List.replicate m b) (by
    intro i _ _
    exact ⟨y, by simpa using h⟩)
  obtain ⟨h1, h2⟩ := zipE_ok_iff _ _ _ fs hfs
  rw [hfs]
  congr 1
  simp only [List.length_replicate, min_self] at h1
  apply List.ext_getElem
  · simp [h1]
  · intro i hi hi'
    have := h2 i hi (by simpa using hi') (by simpa using hi')
    simp only [List.getElem_replicate, h, Except.ok.injEq] at this
    simp [this]

/-- The plain fluxes between equal wet states over flat ground. -/
theorem plain_uniform (P : Params K) (hP : P.Good) (n : ℕ) (c : State K) (hc : 0 < c.1) (F : NumFlux (State K))
    (hF : F ∈ plainFluxes P ⟨none⟩) :
    F.dim = 2 ∧ F.call [(List.replicate (n + 2) c).dropLast, (List.replicate (n + 2) c).tail] =
      .ok ((List.range (n + 1)).map (fun _ => -fluxOf P c), (List.range (n + 1)).map (fun _ => fluxOf P c)) := by
  have hw : 0 < maxSpeed P c c := maxSpeed_pos P hP c c (Or.inl hc)
  have hes : energyStableNode P c c = .ok (fluxOf P c) := by
    unfold energyStableNode
    rw [average_self, average_self]
    exact flux_ok P c hc.le
  simp only [plainFluxes, List.mem_cons, List.not_mem_nil, or_false] at hF
  rcases hF with rfl | rfl | rfl | rfl | rfl
  · refine ⟨rfl, twoPoint_uniform P _ n c _ ?_⟩
    simp only [Riemann.nodeFlux, solve_ok P c c hc.le hc.le hw, llf_self]
  · refine ⟨rfl, ?_⟩
    obtain ⟨e1, e2, e3, e4, e5, e6, e7⟩ := low_self P c
    simp only [lowOrder]
    rw [nodesE_ok ⟨none⟩ (lowNode P) n _ (by simp) _ (none_steps _) (fun _ => low P c c 0) (by
      intro j hj
      rw [uniform_getD n c j (by omega), uniform_getD n c (j + 1) (by omega), replicate_zero_getD]
      exact lowNode_ok P c c 0 hc.le hc.le hw)]
    simp only [List.map_map, Function.comp_def, e6, e7]
  · refine ⟨rfl, twoPoint_uniform P _ n c _ ?_⟩
    simp only [centralNode, flux_ok P c hc.le]
    rw [← two_smul K (fluxOf P c), smul_smul]
    norm_num
  · exact ⟨rfl, twoPoint_uniform P _ n c _ hes⟩
  · refine ⟨rfl, ?_⟩
    have hlen : ((List.replicate (n + 2) c).dropLast.zip (List.replicate (n + 2) c).tail) =
        List.replicate (n + 1) (c, c) := by simp
    have hd : List.zipWith (fun a b => b - a)
        (List.zipWith (entropy P) (List.replicate (n + 2) c) (List.replicate (n + 2) 0))
        (List.zipWith (entropy P) (List.replicate (n + 2) c) (List.replicate (n + 2) 0)).tail =
        List.replicate (n + 1) 0 := by
      simp
    have hnode : diffusiveNode P c c 0 0 = .ok (-fluxOf P c, fluxOf P c) := by
      unfold diffusiveNode
      rw [if_neg (hP.rt_pos _ (by linarith [hP.g_pos])).ne', hes]
      have : diffusion P c c 0 = 0 := by
        ext <;> simp [diffusion]
      simp only [this, source_flat, sub_zero]
    simp only [diffusiveFlux, dofVector_two (List.replicate (n + 2) c) (by simp), Option.getD_none, hlen, hd, none_steps,
      List.length_replicate, if_true]
    rw [List.zip_replicate, min_self, zipE_replicate _ (c, c) ((0 : K), (0 : State K)) _ hnode]
    simp [List.map_const']

theorem flat_none (P : Params K) (b : Option (List K))
    (hb : b = none ∨ ∃ x l, b = some (x :: l) ∧ ∀ y ∈ l, |y - x| < P.eps) (B : Bathymetry K)
    (hB : buildBathymetry P b = .ok B) : B = ⟨none⟩ := by
  rcases hb with rfl | ⟨x, l, rfl, h⟩
  · cases hB; rfl
  · rw [((C48_bottom P x l).1 fun y hy => abs_lt.1 (h y hy)).2] at hB
    cases hB; rfl

/-! ### C123 -/

/-- C123.  Uniform flow over flat ground, with boundary conditions that fit to it: for the solvers `llf`, `low-order`,
`central`, `es`, `es1` and the limited solver with each of these as target, with every Runge-Kutta method, all step
sizes and CFL numbers, the right-hand side is zero, and a run changes nothing. -/
theorem C123_uniform (P : Params K) (hP : P.Good) (b : Option (List K))
    (hb : b = none ∨ ∃ x l, b = some (x :: l) ∧ ∀ y ∈ l, |y - x| < P.eps) (B : Bathymetry K)
    (hB : buildBathymetry P b = .ok B) (c : State K) (hc : 0 < c.1) (conditions : List String)
    (il ir : Option (K → State K)) (hm : Matches conditions il ir c) (bc : BC K (State K))
    (hbc : build (some reflect) conditions 1 il ir = .ok bc) (n : ℕ) (hn : 0 < n) (F : NumFlux (State K))
    (hF : F ∈ plainFluxes P B ++ (plainFluxes P B).map (mcl P B bc)) (dx : K) (hdx : dx ≠ 0) :
    (∀ t, rhs F dx bc t (List.replicate n c) = .ok (List.replicate n 0)) ∧
    ∀ (T : Tableau K) (cfl t0 t1 : K), 1 / 10 ^ 12 ≤ dx * cfl → 1 / 10 ^ 12 ≤ t1 - t0 →
      Unchanged (fvParams n T (rhs F dx bc) dx cfl t0 t1) (fun _ => c) (dx * cfl) t0 t1 := by
  obtain rfl := flat_none P b hb B hB
  have hcall : F.dim = 2 ∧ F.call [(List.replicate (n + 2) c).dropLast, (List.replicate (n + 2) c).tail] =
      .ok ((List.range (n + 1)).map (fun _ => -fluxOf P c), (List.range (n + 1)).map (fun _ => fluxOf P c)) := by
    rcases List.mem_append.1 hF with hF | hF
    · exact plain_uniform P hP n c hc F hF
    · obtain ⟨G, hG, rfl⟩ := List.mem_map.1 hF
      obtain ⟨h1, h2⟩ := plain_uniform P hP n c hc G hG
      exact ⟨h1, mcl_uniform P hP bc (build_radius conditions il ir bc hbc) G n hn c hc _ (requiredValues_two _ _) _ _ h2⟩
  have hz : ∀ t, rhs F dx bc t (List.replicate n c) = .ok (List.replicate n 0) := fun t =>
    rhs_zero F (by rw [hcall.1]) dx hdx bc t _ _ (matches_extend conditions il ir c hm bc hbc n hn t) n (by simp) _ _
      hcall.2 fun i _ => by simp
  refine ⟨hz, fun T cfl t0 t1 hstep hdur => unchanged_of_zero T _ _ (fun t => ?_) dx cfl t0 t1 hstep hdur⟩
  unfold vecRhs
  rw [List.ofFn_const, hz t]
  simp only [List.length_replicate, dif_pos]
  congr 1
  funext i
  simp

/-- The condition on the boundaries is needed: water flowing against a wall does not stay uniform. -/
example : okAnd (build (K := ℚ) (V := State ℚ) (some reflect) ["wall"] 1 none none) (fun bc =>
    decide (rhs (lfFlux exampleParams ⟨none⟩) 1 bc 0 [(1, 1), (1, 1)] = .ok [0, 0])) = false := by
  decide +kernel

/-- Three cells of flowing water, with inflow on the left and an open end: the hypotheses of `C123_uniform` hold. -/
example : Matches (K := ℚ) ["inflow", "outflow"] (some fun _ => ((4, 2) : State ℚ)) none (4, 2) ∧
    ∃ bc, build (K := ℚ) (V := State ℚ) (some reflect) ["inflow", "outflow"] 1 (some fun _ => ((4, 2) : State ℚ)) none = .ok bc :=
  ⟨Or.inr ⟨"inflow", ["outflow"], rfl, Or.inr (Or.inr ⟨rfl, _, rfl, fun _ => rfl⟩), Or.inl rfl⟩, _, rfl⟩

end Verif.SWE
