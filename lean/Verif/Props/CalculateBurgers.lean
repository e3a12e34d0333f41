import Verif.Props.CalculateFE

/-!
C126: finite volume solvers for both scalar equations.
-/

set_option linter.unusedSectionVars false

namespace Verif.CalculateFE

open Verif.Py Verif.ODE Verif.Scalar Verif.Solver Verif.Bench Verif.FV Verif.Interpolate Verif.Quadrature
open Verif.Registry Verif.Options Verif.Utilities EndToEnd
open Verif.Mesh hiding Error
open Verif.Boundary

/-- What a finite volume solver computes for the benchmark `e` on `m` cells up to the time `T` with CFL number `y`: the
run starts with the cell averages; as far as nothing is raised the values of the Lax-Friedrichs and the central scheme
have the same total; the central scheme raises nothing, ends, and at the end time. -/
structure Volumes (k : Key) (e : Data) (m : ℕ) (points : List (ℝ × ℝ)) (y T : ℝ) (j : Calculate.Job) : Prop where
  mesh : uniformMesh e.domain m = .ok j.mesh
  start : (j.run 0).1.sol.values = [fun i : Fin j.n => (cellAverages points j.mesh e.initial).getD i 0]
  total : k ≠ .mclFv → ∀ i, (∀ x, (j.run i).2 ≠ .raised x) → ∀ v ∈ (j.run i).1.sol.values,
    (List.ofFn v).sum = (List.ofFn fun i : Fin j.n => (cellAverages points j.mesh e.initial).getD i 0).sum
  ends : k = .central → ∀ i : ℕ, T ≤ i * (y * e.cell m) → (j.run (i + 1)).2 = .finished
  status : k = .central → ∀ i, (j.run i).2 = .running ∨ (j.run i).2 = .finished
  time : ∀ i, (j.run i).2 = .finished → T - 1 / 10 ^ 12 < (j.run i).1.sol.sol.time ∧ (j.run i).1.sol.sol.time ≤ T

/-- The central scheme is defined for all values. -/
theorem central_defined (p : Problem) (n : ℕ) (hn : 0 < n) (bc : BC ℝ ℝ)
    (hbc : build (K := ℝ) (V := ℝ) none ["periodic"] 1 none none = .ok bc) (dx : ℝ) (hdx : dx ≠ 0) (t : ℝ)
    (u : Fin n → ℝ) : ∃ w, vecRhs n (rhs (central ℝ p.riemann.flux) dx bc) t u = .ok w := by
  have hext := periodic_extend none 1 none none bc hbc (List.ofFn u) (by simpa using Nat.succ_le_of_lt hn) (some t)
  refine ⟨_, vecRhs_ok _ t u _ (rhs_twoPoint (centralNode ℝ p.riemann.flux) dx hdx bc t (List.ofFn u) _ hext n (by simp)
    (fun j => (1 / 2 : ℝ) • (p.flux (((List.range ((List.ofFn u).length + 2 * 1)).map
      (fun i => (List.ofFn u).getD ((i + (List.ofFn u).length - 1) % (List.ofFn u).length) 0)).getD j 0) +
      p.flux (((List.range ((List.ofFn u).length + 2 * 1)).map
      (fun i => (List.ofFn u).getD ((i + (List.ofFn u).length - 1) % (List.ofFn u).length) 0)).getD (j + 1) 0)))
    ?_) (by simp)⟩
  intro j hj
  rw [List.getD_eq_getElem _ _ (by simp; omega), List.getD_eq_getElem _ _ (by simp; omega)]
  rfl

theorem volume_settings (c : Conversions ℝ) (p : Problem) (eoc : Bool) (name : Option String) (endTime : Option ℝ)
    (history : Bool) (words : List String) (b : Benchmark ℝ) (l : List (Key × Settings ℝ))
    (h : Calculate.commandLine c p eoc name endTime history words = .ok (b, l)) (k : Key) (s : Settings ℝ)
    (hks : (k, s) ∈ l) (hk : k ∈ [Key.llf, .central, .mclFv]) :
    (∃ m : ℤ, 0 < m ∧ s.meshSize = .int m) ∧
      (∃ x : PyFloat ℝ, (x = .nan ∨ x = .posInf ∨ ∃ y, 0 < y ∧ x = .fin y) ∧ s.cfl = .num x) ∧
      ∃ o, s.integrator = .given (.ode o) := by
  unfold Calculate.commandLine at h
  cases hb : parseBenchmark (Calculate.table p) (name.getD (Calculate.defaultBenchmark p eoc)) with
  | usage => rw [hb] at h; cases h
  | raised e => rw [hb] at h; cases h
  | value b0 =>
    rw [hb] at h
    simp only at h
    cases hm : Calculate.solvers c scalarKeys history words with
    | error e => rw [hm] at h; cases h
    | ok l' =>
      rw [hm] at h
      simp only [Except.ok.injEq, Prod.mk.injEq] at h
      obtain ⟨-, rfl⟩ := h
      obtain ⟨-, args, ns, hp, -, heff⟩ := Calculate.solvers_accepted c scalarKeys history words l' hm k s hks
      obtain ⟨-, hv⟩ := C117_values c k args ns hp
      obtain ⟨m, hm0, hm1⟩ := (hv _ _ heff.mesh).2.2.1 rfl
      obtain ⟨y, hy0, hy1⟩ := (hv _ _ heff.cfl).2.2.2.1 rfl
      refine ⟨⟨m, hm0, hm1⟩, ⟨y, hy0, hy1⟩, ?_⟩
      by_cases ho : "ode_solver_type" ∈ optionNames k
      · obtain ⟨v, hv1, hv2⟩ := heff.ode ho
        obtain ⟨o, rfl⟩ := (hv _ _ hv1).2.2.2.2.2.2.1 rfl
        exact ⟨o, hv2⟩
      · have := heff.no_ode ho
        simp only [List.mem_cons, List.not_mem_nil, or_false] at hk
        rcases hk with rfl | rfl | rfl
        all_goals first
          | exact ⟨.heun, this⟩
          | exact absurd (by simp [optionNames]) ho

/-- The construction. -/
theorem volume_job (e : Data) (points : List (ℝ × ℝ)) (T : ℝ) (k : Key) (s : Settings ℝ) (m : ℕ) (hm : 0 < m)
    (x : PyFloat ℝ) (o : OdeSolver) (hs : s.meshSize = .int m) (hx : s.cfl = .num x)
    (ho : s.integrator = .given (.ode o)) (F : NumFlux ℝ)
    (hF : Calculate.flux e.problem (.closed e.domain (.single "periodic") T e.initial) m k = .ok F) (hdim : F.dim = 2) :
    ∃ mesh bc, uniformMesh e.domain m = .ok mesh ∧ build (K := ℝ) (V := ℝ) none ["periodic"] 1 none none = .ok bc ∧
      Calculate.job e.problem points (.closed e.domain (.single "periodic") T e.initial) k s =
        (Calculate.cflNumber (e.cell m) T x).map fun cfl =>
          ⟨m, mesh, fvParams m (Calculate.tableau o) (rhs F (e.cell m) bc) (e.cell m) cfl 0 T,
            ⟨fun i => (cellAverages points mesh e.initial).getD i 0, 0, T⟩⟩ := by
  have hmesh := uniformMesh_eq e.domain e.length_pos hm
  rw [show (e.domain.b - e.domain.a) / (m : ℝ) = e.cell m from rfl] at hmesh
  refine ⟨_, _, hmesh, build_periodic none 1 none none, ?_⟩
  unfold Calculate.job
  rw [hs, hx, ho]
  have h1 : (Benchmark.closed e.domain (.single "periodic") T e.initial).domain = e.domain := rfl
  have h2 : (Benchmark.closed e.domain (.single "periodic") T e.initial).boundary.conditions = ["periodic"] := rfl
  have h3 : (Benchmark.closed e.domain (.single "periodic") T e.initial).inflowLeft = none := rfl
  have h4 : (Benchmark.closed e.domain (.single "periodic") T e.initial).inflowRight = none := rfl
  have h5 : (Benchmark.closed e.domain (.single "periodic") T e.initial).endTime = T := rfl
  have h6 : Calculate.initialData (Benchmark.closed e.domain (.single "periodic") T e.initial) = e.initial := rfl
  simp only [Int.toNat_natCast, h1, hmesh, hF, h2, h3, h4, h5, h6, hdim, build_periodic, bind, Except.bind]
  cases Calculate.cflNumber (e.cell m) T x <;> rfl

/-- C126.  What the finite volume solvers of an accepted command line compute, for both scalar equations. -/
theorem C126_volumes (c : Conversions ℝ) (p : Problem) (eoc : Bool) (name : Option String) (endTime : Option ℝ)
    (history : Bool) (words : List String) (b : Benchmark ℝ) (l : List (Key × Settings ℝ))
    (h : Calculate.commandLine c p eoc name endTime history words = .ok (b, l)) (points : List (ℝ × ℝ)) (k : Key)
    (s : Settings ℝ) (hks : (k, s) ∈ l) (hk : k ∈ [Key.llf, .central, .mclFv]) :
    ∃ (e : Data) (m : ℕ) (x : PyFloat ℝ),
      (name.getD (fallback p eoc), e) ∈ names ∧ e.problem = p ∧ 0 < m ∧ s.meshSize = .int m ∧ s.cfl = .num x ∧
      (x = .nan → Calculate.job p points b k s = .error .valueError) ∧
      (∀ y, x = .fin y → ∃ j, Calculate.job p points b k s = .ok j ∧ j.n = m ∧
        (1 / 10 ^ 12 ≤ y * e.cell m → 1 / 10 ^ 12 ≤ meantEnd endTime p →
          Volumes k e m points y (meantEnd endTime p) j)) ∧
      (x = .posInf → ∃ j, Calculate.job p points b k s = .ok j ∧ j.n = m ∧
        (k = .central → 1 / 10 ^ 12 ≤ meantEnd endTime p → (j.run 2).2 = .finished ∧
          (j.run 2).1.sol.values.length = 2 ∧ (j.run 2).1.sol.sol.time = meantEnd endTime p)) := by
  obtain ⟨⟨z, hz, hs⟩, ⟨x, hx0, hx⟩, o, ho⟩ := volume_settings c p eoc name endTime history words b l h k s hks hk
  obtain ⟨⟨e, he, rfl, rfl⟩, -⟩ := C126_accepted c p eoc name endTime history words b l h
  obtain ⟨m, rfl⟩ : ∃ m : ℕ, z = m := ⟨z.toNat, by omega⟩
  have hm : 0 < m := by exact_mod_cast hz
  have hm0 : (0 : ℝ) < m := by exact_mod_cast hm
  have hcell : 0 < e.cell m := div_pos (by linarith [e.length_pos]) hm0
  set T := meantEnd endTime e.problem with hTdef
  refine ⟨e, m, x, he, rfl, hm, hs, hx, ?_⟩
  have hF : ∃ F, Calculate.flux e.problem (.closed e.domain (.single "periodic") T e.initial) m k = .ok F ∧ F.dim = 2 ∧
      (k ≠ .mclFv → ∃ G, F = twoPoint G) ∧ (k = .central → F = central ℝ e.problem.riemann.flux) := by
    simp only [List.mem_cons, List.not_mem_nil, or_false] at hk
    rcases hk with rfl | rfl | rfl
    · exact ⟨_, rfl, rfl, fun _ => ⟨_, rfl⟩, by simp⟩
    · exact ⟨_, rfl, rfl, fun _ => ⟨_, rfl⟩, fun _ => rfl⟩
    · obtain ⟨nb, hnb⟩ := neighbourArray_ok (m + 2) (by omega) true
      have : mclOf (K := ℝ) e.problem m true = .ok (mcl e.problem.riemann
          (fun l r => zipE (centralNode ℝ e.problem.riemann.flux) l r) nb) := by unfold mclOf; rw [hnb]
      exact ⟨_, this, rfl, by simp, by simp⟩
  obtain ⟨F, hF, hdim, F1, F2⟩ := hF
  obtain ⟨mesh, bc, hmesh, hbc, hjob⟩ := volume_job e points T k s m hm x o hs hx ho F hF hdim
  rw [hjob]
  refine ⟨fun hnan => by rw [hnan]; rfl, ?_, ?_⟩
  · rintro y rfl
    refine ⟨_, rfl, rfl, ?_⟩
    intro hy hT
    have hrun : k = .central → _ := fun hk => total_run (Calculate.tableau o) (rhs F (e.cell m) bc) (by
      obtain rfl := F2 hk
      exact central_defined e.problem m hm bc hbc _ hcell.ne') (e.cell m) y 0 T (by rw [mul_comm]; exact hy)
      (by simpa using hT) (fun i => (cellAverages points mesh e.initial).getD i 0)
    exact
      { mesh := hmesh
        start := rfl
        total := by
          intro hk i hi v hv
          obtain ⟨G, rfl⟩ := F1 hk
          obtain ⟨steps, -, g1, -, g3⟩ := recorded _ _ i hi
          obtain ⟨q, hq, rfl⟩ := List.getElem_of_mem hv
          obtain ⟨S, e1, e2, -⟩ := g3 q (Nat.lt_succ_iff.1 (lt_of_lt_of_eq hq g1))
          have hval : _ = S.solution := Option.some.inj ((List.getElem?_eq_getElem hq).symm.trans e2)
          rw [hval]
          exact C24_two_point_schemes _ (e.cell m) none none none bc hbc m (Calculate.tableau o) _ S _ e1
        ends := fun hk i hi => (hrun hk).1 i (by rw [mul_comm (e.cell m)]; simpa using hi)
        status := fun hk => (hrun hk).2.1
        time := fun i hi => C94_end_time _ _ rfl i hi }
  · rintro rfl
    refine ⟨_, rfl, rfl, ?_⟩
    intro hk hT
    obtain rfl := F2 hk
    exact whole_step m _ _ (central_defined e.problem m hm bc hbc _ hcell.ne') (e.cell m) T hcell hT _

/-- The word `central` for the benchmark `smooth`: 400 cells, CFL number 1/10, up to the time 1/2. -/
example (points : List (ℝ × ℝ)) : ∃ b s j,
    Calculate.commandLine Calculate.exampleConversions .burgers false (some "smooth") none true ["central"] =
      .ok (b, [(.central, s)]) ∧
    Calculate.job .burgers points b .central s = .ok j ∧ j.n = 400 ∧
    Volumes .central (.burgers .smooth) 400 points (1 / 10) (1 / 2) j := by
  obtain ⟨b, l, h, hf⟩ := Calculate.C122_words Calculate.exampleConversions .burgers false (some "smooth")
    (by simp [Calculate.table, burgersTable]) none true [(.central, [])] (by simp [scalarKeys]) (by simp) (by
      intro g hg
      simp only [List.mem_cons, List.not_mem_nil, or_false] at hg
      subst hg
      exact ⟨[], rfl⟩)
    ["central"]
    { join := by simp [prog]
      nonempty := by simp
      inside := by simp [prog, Utilities.Cut]
      between := by simp [prog, Utilities.Cut] }
  cases hf with
  | @cons _ e1 _ l1 h1 hf =>
  cases hf
  obtain ⟨k1, s1⟩ := e1
  obtain ⟨rfl, h1⟩ := h1
  obtain ⟨m1, c1, -⟩ := h1 [] rfl
  simp [Calculate.meant, lastValue] at m1 c1
  obtain ⟨e, m, x, r1, r2, -, r3, r4, -, r5, -⟩ := C126_volumes _ _ _ _ _ _ _ _ _ h points .central s1 (by simp) (by simp)
  obtain rfl : e = .burgers .smooth := by simpa [names, fallback] using r1
  obtain rfl : m = 400 := by rw [m1] at r3; simp at r3; omega
  rw [c1] at r4
  obtain ⟨j, g1, g2, g3⟩ := r5 (1 / 10) (by simpa using (Val.num.inj r4).symm)
  refine ⟨b, s1, j, h, g1, g2, g3 ?_ (by norm_num [meantEnd])⟩
  have := Real.pi_gt_three
  simp only [Data.cell, Data.domain, Burgers.domain]
  norm_num
  nlinarith

end Verif.CalculateFE
