import Verif.Core.CalculateCoarse
import Verif.Props.CalculateSWE
import Verif.Props.CoarseSolver

/-!
C144: the solver `coarse` of the command for the shallow water equations, from the words of the command line to the
recorded coarse values.
-/

set_option linter.unusedSectionVars false

namespace Verif.CalculateSWE

open Verif.Py Verif.Boundary Verif.FV Verif.ODE Verif.Solver Verif.Interpolate Verif.Quadrature Verif.Bench Verif.SWE
open Verif.Registry Verif.Options Verif.Utilities EndToEnd Verif.Calculate
open Verif.Mesh hiding Error
open Verif.CoarseSolver (CSol)

/-! ### Specification -/

/-- The solver with the flux `key` on the fine mesh. -/
structure SolverOf (key : String) (k : Key) : Prop where
  mem : k ∈ [Key.sweLlf, .sweLowOrder, .sweCentral, .sweEs, .sweEs1]
  name : prog k = key

/-- The average of the cells `I * d`, ..., `I * d + d - 1`. -/
noncomputable def blockAverage {n : ℕ} (d : ℕ) (v : Fin n → State ℝ) (I : ℕ) : State ℝ :=
  ((∑ i ∈ Finset.range d, ((List.ofFn v).getD (d * I + i) 0).1) / d,
    (∑ i ∈ Finset.range d, ((List.ofFn v).getD (d * I + i) 0).2) / d)

/-- What the coarsened solver `j` promises.

* `status`: it raises, goes on and ends as the solver on the fine mesh, at the same time.
* `shown`: the value shown are the averages over blocks of `degree` cells of the fine value.
* `record`: with a history, the times are those of the fine solver, and the recorded values are the averages of its
  recorded values.
* `water`: with periodic boundaries and between walls each recorded value of a run without an exception has the initial
  amount of water.
* `wet`: if the recorded fine values are wet, so are the coarse ones. -/
structure CoarsePromises (w : Water) (history : Bool) (j : CoarseJob) : Prop where
  status : ∀ q, (j.run q).2 = (j.fine.run q).2 ∧ (j.run q).1.sol.time = (j.fine.run q).1.sol.sol.time
  shown : ∀ q, ∃ u, (j.run q).1.sol.value j.degree = .ok u ∧ u.length * j.degree = j.fine.n ∧
    ∀ I < u.length, u.getD I 0 = blockAverage j.degree (j.fine.run q).1.sol.sol.value I
  record : history = true → ∀ q, ∃ r, (j.run q).1.sol = .hist r ∧ r.times = (j.fine.run q).1.sol.times ∧
    r.values.length = (j.fine.run q).1.sol.values.length ∧
    ∀ (i : ℕ) (u : List (State ℝ)), r.values[i]? = some u → ∃ v, (j.fine.run q).1.sol.values[i]? = some v ∧ u.length * j.degree = j.fine.n ∧
      (∀ I < u.length, u.getD I 0 = blockAverage j.degree v I) ∧
      (w.bench.boundary.conditions = ["periodic"] ∨ w.bench.boundary.conditions = ["wall", "wall"] →
        (∀ e, (j.fine.run q).2 ≠ .raised e) → j.degree * totalHeight u = totalHeight (List.ofFn j.fine.initial)) ∧
      ((∀ i, 0 < (v i).1) → ∀ x ∈ u, 0 < x.1)

/-! ### Proofs -/

theorem getter_five (P : SWE.Params ℝ) (B : Bathymetry ℝ) (bc : BC ℝ (State ℝ)) (key : String) (k : Key) (f : Val ℝ)
    (h : SolverOf key k) : ∃ F, getter P B key = .ok F ∧ F.dim = 2 ∧ fluxOf P B bc k f = .ok F := by
  obtain ⟨hk, rfl⟩ := h
  simp only [List.mem_cons, List.not_mem_nil, or_false] at hk
  rcases hk with rfl | rfl | rfl | rfl | rfl
  · exact ⟨lfFlux P B, by simp [getter, prog], rfl, by simp [fluxOf, getter]⟩
  · exact ⟨lowOrder P B, by simp [getter, prog], rfl, by simp [fluxOf, getter]⟩
  · exact ⟨centralFlux P B, by simp [getter, prog], rfl, by simp [fluxOf, getter]⟩
  · exact ⟨energyStableFlux P B, by simp [getter, prog], rfl, by simp [fluxOf, getter]⟩
  · exact ⟨diffusiveFlux P B, by simp [getter, prog], rfl, by simp [fluxOf, getter]⟩

/-- The solver on the fine mesh is the solver with the name of the flux. -/
theorem fine_eq (points : List (ℝ × ℝ)) (w : Water) (s : Settings ℝ) (m : ℕ) (x : PyFloat ℝ) (o : OdeSolver)
    (hs : s.meshSize = .int m) (hx : s.cfl = .num x) (ho : s.integrator = .given (.ode o)) (key : String)
    (hf : s.flux = .flux key) (k : Key) (hk : SolverOf key k) : fineJob points w s = job points w k s := by
  unfold fineJob job
  rw [hs, hx, ho]
  simp only [hf]
  cases uniformMesh w.bench.domain (m : ℤ).toNat with
  | error e => rfl
  | ok mesh =>
  simp only
  cases mesh.step with
  | none => rfl
  | some dx =>
  simp only [bind, Except.bind]
  cases initialValues points mesh w.bench.initial with
  | error e => rfl
  | ok v =>
  simp only
  cases buildBathymetry (params w.gravity) (some (cellAverages points mesh w.bottom)) with
  | error e => rfl
  | ok B =>
  simp only
  cases hb : build (some reflect) w.bench.boundary.conditions 1 w.bench.inflowLeft w.bench.inflowRight with
  | error e =>
    obtain ⟨F, h1, h2, -⟩ := getter_five (params w.gravity) B ⟨[], [], true⟩ key k (.flux key) hk
    simp only [h1, h2, hb, Nat.reduceDiv]
  | ok bc =>
    obtain ⟨F, h1, h2, h3⟩ := getter_five (params w.gravity) B bc key k (.flux key) hk
    simp only [h1, h2, h3, hb, Nat.reduceDiv]

theorem key_five (key : String) (h : key ∈ ["central", "es", "es1", "llf", "low-order", "reduced-llf", "reduced-llf-2"])
    (h1 : key ≠ "reduced-llf") (h2 : key ≠ "reduced-llf-2") : ∃ k, SolverOf key k := by
  simp only [List.mem_cons, List.not_mem_nil, or_false] at h
  rcases h with rfl | rfl | rfl | rfl | rfl | rfl | rfl
  · exact ⟨.sweCentral, by simp, rfl⟩
  · exact ⟨.sweEs, by simp, rfl⟩
  · exact ⟨.sweEs1, by simp, rfl⟩
  · exact ⟨.sweLlf, by simp, rfl⟩
  · exact ⟨.sweLowOrder, by simp, rfl⟩
  · exact absurd rfl h1
  · exact absurd rfl h2

theorem coarsen_block {n d : ℕ} (hd : 0 < d) (hdn : d ∣ n) (v : Fin n → State ℝ) (u : List (State ℝ))
    (h : Coarsen.coarsen ℝ d (List.ofFn v) = .ok u) :
    u.length * d = n ∧ ∀ I < u.length, u.getD I 0 = blockAverage d v I := by
  rw [CoarseSolver.coarsen_ok hd hdn] at h
  obtain rfl := Except.ok.inj h
  obtain ⟨m, rfl⟩ := hdn
  have hlen : (List.ofFn v).length = m * d := by simp [mul_comm]
  rw [Coarsen.coarsenVector_length hd hlen]
  refine ⟨mul_comm _ _, fun I hI => ?_⟩
  rw [Coarsen.coarsenVector_eq hd hlen, List.getD_eq_getElem _ _ (by simpa using hI)]
  simp only [List.getElem_map, List.getElem_range, Coarsen.block, blockAverage]
  ext
  · simp [Prod.fst_sum, div_eq_inv_mul]
  · simp [Prod.snd_sum, div_eq_inv_mul]

/-- Solver and history of a coarsened solver whose degree divides the number of cells. -/
theorem coarse_promises (name : String) (w : Water) (k : Key) (points : List (ℝ × ℝ)) (j : WaterJob)
    (hj : Promises name w k points j) (d : ℕ) (hd : 0 < d) (hdn : d ∣ j.n) (history : Bool) :
    ∃ o, CoarseSolver.CObj.make j.params (some d) history ⟨j.initial, 0, j.endTime⟩ = .ok o ∧
      CoarsePromises w history ⟨j, d, o⟩ := by
  have hdeg : CoarseSolver.degree (some d) = d := by
    obtain ⟨d, rfl⟩ : ∃ e, d = e + 1 := ⟨d - 1, by omega⟩
    rfl
  obtain ⟨o, h1, h2⟩ := CoarseSolver.C105_solve j.params rfl (some d) (by rw [hdeg]; exact hdn) history
    ⟨j.initial, 0, j.endTime⟩
  have h3 := CoarseSolver.C105_inherit j.params rfl (some d) (by rw [hdeg]; exact hdn) ⟨j.initial, 0, j.endTime⟩ o
  rw [hdeg] at h2 h3
  refine ⟨o, h1, fun q => ⟨(h2 q).1, (h2 q).2.2.time⟩, fun q => ?_, ?_⟩
  · obtain ⟨-, -, h⟩ := h2 q
    obtain ⟨u, hu, -⟩ := h.value_ok
    have := h.value
    rw [hu] at this
    exact ⟨u, hu, coarsen_block hd hdn _ u this.symm⟩
  · rintro rfl q
    obtain ⟨r, r1, r2, r3⟩ := h3 h1 q
    obtain ⟨t1, t2⟩ := (h2 q).2.2.history r r1
    refine ⟨r, r1, t1, r2, fun i u hu => ?_⟩
    obtain ⟨v, v1, v2, v3, v4⟩ := r3 i u hu
    have hc : Coarsen.coarsen ℝ d (List.ofFn v) = .ok u := by
      have := congrArg (fun l : List (Except Coarsen.Error (List (State ℝ))) => l[i]?) t2
      simp only [List.getElem?_map, hu, v1, Option.map_some, Option.some.injEq] at this
      exact this.symm
    refine ⟨v, v1, v2, (coarsen_block hd hdn v u hc).2, fun hb he => ?_, fun hw x hx => ?_⟩
    · rw [← hj.water hb q he v (List.mem_of_getElem? v1)]
      have := congrArg Prod.fst v3
      simp only [Prod.smul_fst, smul_eq_mul] at this
      have e : ∀ l : List (State ℝ), l.sum.1 = totalHeight l := by
        intro l
        induction l with
        | nil => rfl
        | cons a l ih => simp only [List.sum_cons, Prod.fst_add, ih, totalHeight, List.map_cons]
      rw [e, e] at this
      exact this
    · refine (v4 {x | 0 < x.1} hw ?_).1 x hx
      exact (convex_Ioi (0 : ℝ)).is_linear_preimage ⟨fun _ _ => rfl, fun _ _ => rfl⟩

/-- C144.  The solver `coarse` of an accepted command line for the shallow water equations. -/
theorem C144_run (c : Conversions ℝ) (newton : (ℝ → ℝ) → ℝ → Except Error ℝ) (name : Option String)
    (endTime : Option ℝ) (history : Bool) (words : List String) (w : Water) (l : List (Key × Settings ℝ))
    (h : commandLine c newton name endTime history words = .ok (w, l)) (points : List (ℝ × ℝ))
    (hp : AveragingRule points)
    (hbump : name = some "moving-water-bump-bathymetry" → ∀ f h, newton f (25 / 10) = .ok h → 0 < h)
    (s : Settings ℝ) (hks : (.sweCoarse, s) ∈ l) :
    ∃ (m : ℕ) (x : PyFloat ℝ) (d : ℕ) (key : String), 0 < m ∧ s.meshSize = .int m ∧ s.cfl = .num x ∧
      0 < d ∧ s.coarsening = .int d ∧ s.flux = .flux key ∧
      key ∈ ["central", "es", "es1", "llf", "low-order", "reduced-llf", "reduced-llf-2"] ∧
      (key ≠ "reduced-llf" → key ≠ "reduced-llf-2" → ∃ mesh, uniformMesh w.bench.domain m = .ok mesh ∧
      (∀ e, initialValues points mesh w.bench.initial = .error e → coarseJob points w s = .error e) ∧
      (name ≠ some "moving-water-bump-bathymetry" → ∃ v, initialValues points mesh w.bench.initial = .ok v) ∧
      ∀ v, initialValues points mesh w.bench.initial = .ok v →
        (x = .nan → coarseJob points w s = .error .valueError) ∧
        ∀ y, (x = .fin y ∨ (x = .posInf ∧ y = w.bench.endTime / ((w.bench.domain.b - w.bench.domain.a) / m))) →
          (¬ d ∣ m → history = true → coarseJob points w s = .error .valueError) ∧
          (¬ d ∣ m → history = false → ∃ j, coarseJob points w s = .ok j ∧
            ∀ q, j.run q = (j.object, .raised (.solution .notDivisible))) ∧
          (d ∣ m → ∃ j k, coarseJob points w s = .ok j ∧ j.degree = d ∧ j.fine.n = m ∧ j.fine.cfl = y ∧ SolverOf key k ∧
            job points w k s = .ok j.fine ∧ Promises (name.getD "oscillation") w k points j.fine ∧
            CoarsePromises w history j)) := by
  obtain ⟨-, ⟨z, hz, hs⟩, ⟨x, -, hx⟩, hhist, ⟨o, ho, -⟩, -⟩ :=
    (C124_accepted c newton name endTime history words w l h).2 _ s hks
  obtain ⟨m, rfl⟩ : ∃ m : ℕ, z = m := ⟨z.toNat, by omega⟩
  have hm : 0 < m := by exact_mod_cast hz
  have hso : solvers c sweKeys history words = .ok l := by
    unfold commandLine at h
    cases hl : solvers c sweKeys history words with
    | error e =>
      simp only [hl] at h
      split at h <;> cases h
    | ok l' =>
      simp only [hl] at h
      split at h
      · cases h
      · cases h
      · exact congrArg Except.ok (congrArg Prod.snd (Except.ok.inj h))
  obtain ⟨-, args, ns, hparse, -, heff⟩ := solvers_accepted c sweKeys history words l hso .sweCoarse s hks
  obtain ⟨-, hval⟩ := C117_values c _ args ns hparse
  obtain ⟨d', hd', hcd⟩ := (hval _ _ (heff.coarsening rfl)).2.2.2.2.2.2.2.2.2 rfl
  obtain ⟨d, rfl⟩ : ∃ d : ℕ, d' = d := ⟨d'.toNat, by omega⟩
  have hd : 0 < d := by exact_mod_cast hd'
  obtain ⟨key, k1, k2⟩ : ∃ key ∈ ["central", "es", "es1", "llf", "low-order", "reduced-llf", "reduced-llf-2"],
      s.flux = .flux key := by
    rcases heff.flux (by simp [optionNames]) with ⟨-, h2⟩ | ⟨h1, h2⟩
    · exact ⟨"llf", by simp, h2⟩
    · rcases (hval _ _ h2).2.2.2.2.2.2.2.1 rfl with h3 | h3
      · exact absurd h3 h1
      · exact h3
  refine ⟨m, x, d, key, hm, hs, hx, hd, hcd, k2, k1, fun n1 n2 => ?_⟩
  obtain ⟨k, hk⟩ := key_five key k1 n1 n2
  have hfine := fine_eq points w s m x o hs hx ho key k2 k hk
  obtain ⟨mesh, g1, g2, g3, g4⟩ := job_run c newton name endTime history words w l h points hp hbump k s m x o hm hs hx ho
    (by
      have := hk.mem
      simp only [List.mem_cons, List.not_mem_nil, or_false] at this ⊢
      rcases this with h | h | h | h | h <;> simp [h])
    (by
      rintro rfl
      have := hk.mem
      simp at this)
  have hjob : coarseJob points w s = match job points w k s with
      | .error e => .error e
      | .ok j =>
        match CoarseSolver.CObj.make j.params (some d) history ⟨j.initial, 0, j.endTime⟩ with
        | .error _ => .error .valueError
        | .ok o => .ok ⟨j, CoarseSolver.degree (some d), o⟩ := by
    unfold coarseJob
    rw [hcd, hhist]
    simp only [hfine, Int.toNat_natCast]
    cases job points w k s <;> rfl
  have hdeg : CoarseSolver.degree (some d) = d := by
    obtain ⟨d, rfl⟩ : ∃ e, d = e + 1 := ⟨d - 1, by omega⟩
    rfl
  refine ⟨mesh, g1, fun e he => by rw [hjob, g2 e he], g3, fun v hv => ?_⟩
  obtain ⟨a1, a2⟩ := g4 v hv
  refine ⟨fun hnan => by rw [hjob, a1 hnan], fun y hy => ?_⟩
  obtain ⟨j, j1, rfl, j3, j4⟩ := a2 y hy
  rw [hjob, j1]
  refine ⟨?_, ?_, ?_⟩
  · rintro hdn rfl
    simp only [(CoarseSolver.C105_not_divisible j.params (some d) (by rw [hdeg]; exact hdn)
      ⟨j.initial, 0, j.endTime⟩).1]
  · rintro hdn rfl
    obtain ⟨-, o, o1, o2⟩ := CoarseSolver.C105_not_divisible j.params (some d) (by rw [hdeg]; exact hdn)
      ⟨j.initial, 0, j.endTime⟩
    simp only [o1]
    exact ⟨_, rfl, o2⟩
  · intro hdn
    obtain ⟨o, o1, o2⟩ := coarse_promises _ w k points j j4 d hd hdn history
    simp only [o1, hdeg]
    exact ⟨_, k, rfl, rfl, rfl, j3, hk, j1, j4, o2⟩

/-- C144.  The coarsening degree is the one written last in the group of the solver, or 8; the flux is the one written
last, or the Lax-Friedrichs flux. -/
theorem C144_words (c : Conversions ℝ) (newton : (ℝ → ℝ) → ℝ → Except Error ℝ) (name : Option String)
    (endTime : Option ℝ) (history : Bool) (groups : List (Key × List (Assignment (Val ℝ))))
    (hk : ∀ g ∈ groups, g.1 ∈ sweKeys) (hv : ∀ g ∈ groups, ∀ a ∈ g.2, a.Valid (options c g.1))
    (hc : ∀ g ∈ groups, ∃ vs, g.2.mapM Assignment.value = .ok vs) (words : List String)
    (hcut : CutInto ["llf", "lw", "low-order", "central", "es", "es1", "mcl", "reduced-llf", "reduced-llf-2",
      "antidiffusion", "coarse"] words (groups.map fun g => prog g.1 :: g.2.flatMap Assignment.words))
    (w : Water) (l : List (Key × Settings ℝ)) (h : commandLine c newton name endTime history words = .ok (w, l)) :
    List.Forall₂ (fun g e => e.1 = g.1 ∧ (g.1 = .sweCoarse → ∀ vs, g.2.mapM Assignment.value = .ok vs →
      e.2.coarsening = meant "coarsening_degree" g.2 vs (.int 8) ∧
      (meant "flux_getter" g.2 vs .none = .none → e.2.flux = .flux "llf") ∧
      (meant "flux_getter" g.2 vs .none ≠ .none → e.2.flux = meant "flux_getter" g.2 vs .none))) groups l := by
  obtain ⟨l', hl, hf⟩ := solvers_words c sweKeys (by simp [sweKeys, prog]) history groups hk hv hc words
    (by simpa [sweKeys, prog] using hcut)
  obtain rfl : l' = l := by
    unfold commandLine at h
    simp only [hl] at h
    split at h
    · cases h
    · cases h
    · exact congrArg Prod.snd (Except.ok.inj h)
  refine hf.imp fun g e he => ?_
  obtain ⟨e1, ns, h5, key⟩ := he
  refine ⟨e1, fun hg vs hvs => ?_⟩
  have d1 : ((options c g.1).map fun o => (o.dest, o.default)).lookup "coarsening_degree" = some (.int 8) := by
    rw [hg]
    simp [options, ownOptions, nameOption, shortOption, meshOption, cflOption, odeOption, fluxOption, coarseningOption,
      List.lookup]
  have d2 : ((options c g.1).map fun o => (o.dest, o.default)).lookup "flux_getter" = some .none := by
    rw [hg]
    simp [options, ownOptions, nameOption, shortOption, meshOption, cflOption, odeOption, fluxOption, coarseningOption,
      List.lookup]
  have hfl : (meant "flux_getter" g.2 vs .none = .none ∧ e.2.flux = .flux "llf") ∨
      (e.2.flux ≠ .none ∧ e.2.flux = meant "flux_getter" g.2 vs .none) := by
    rcases h5.flux (by rw [hg]; simp [optionNames]) with ⟨h1, h2⟩ | ⟨h1, h2⟩
    · exact Or.inl ⟨(key vs hvs _ _ _ h1 d2).symm, by rw [h2, hg]; rfl⟩
    · exact Or.inr ⟨h1, key vs hvs _ _ _ h2 d2⟩
  refine ⟨key vs hvs _ _ _ (h5.coarsening hg) d1, fun h0 => ?_, fun h0 => ?_⟩
  · rcases hfl with ⟨-, h2⟩ | ⟨h1, h2⟩
    · exact h2
    · exact absurd (h2.trans h0) h1
  · rcases hfl with ⟨h1, -⟩ | ⟨-, h2⟩
    · exact absurd h1 h0
    · exact h2

/-! ### An example -/

/-- The word `coarse` for uniform flow: 400 fine cells, the coarsening degree 8; after forty steps the run is finished,
and the recorded values have fifty cells, which are wet. -/
example (newton : (ℝ → ℝ) → ℝ → Except Error ℝ) (points : List (ℝ × ℝ)) (hp : AveragingRule points) :
    ∃ w s j, commandLine Calculate.exampleConversions newton (some "moving-water-no-bathymetry") none true ["coarse"] =
        .ok (w, [(.sweCoarse, s)]) ∧ coarseJob points w s = .ok j ∧ j.degree = 8 ∧ j.fine.n = 400 ∧
      (j.run 41).2 = .finished ∧ ∃ r, (j.run 41).1.sol = .hist r ∧ ∀ u ∈ r.values, u.length = 50 ∧ ∀ x ∈ u, 0 < x.1 := by
  have hcut : CutInto ["llf", "lw", "low-order", "central", "es", "es1", "mcl", "reduced-llf", "reduced-llf-2",
      "antidiffusion", "coarse"] ["coarse"] (([(.sweCoarse, [])] : List (Key × List (Assignment (Val ℝ)))).map
        fun g => prog g.1 :: g.2.flatMap Assignment.words) := {
      join := by simp [prog]
      nonempty := by simp [prog]
      inside := by simp [prog, Cut]
      between := by simp [prog, Cut] }
  obtain ⟨w, l, h, hf⟩ := C124_words Calculate.exampleConversions newton (some "moving-water-no-bathymetry")
    ⟨⟨"moving-water-no-bathymetry", ⟨0, 100⟩, ["periodic"], 1, 9.812, 0⟩, by simp [catalogue], rfl⟩ (by simp) none true
    [(.sweCoarse, [])] (by simp [sweKeys]) (by simp) (by simp [pure, Except.pure]) ["coarse"] hcut
  have hf2 := C144_words Calculate.exampleConversions newton _ none true [(.sweCoarse, [])] (by simp [sweKeys]) (by simp)
    (by simp [pure, Except.pure]) ["coarse"] hcut w l h
  cases hf with
  | @cons _ e1 _ l1 h1 hf =>
  cases hf
  obtain ⟨k1, s1⟩ := e1
  obtain ⟨rfl, h1⟩ := h1
  obtain ⟨m1, c1, -⟩ := h1 [] rfl
  simp [meant, lastValue] at m1 c1
  cases hf2 with
  | cons h2 _ =>
  obtain ⟨d1, f1, -⟩ := h2.2 rfl [] rfl
  simp [meant, lastValue] at d1 f1
  obtain ⟨⟨e, he, en, d2, -, d3, -⟩, -⟩ := C124_accepted _ _ _ _ _ _ _ _ h
  obtain rfl : e = ⟨"moving-water-no-bathymetry", ⟨0, 100⟩, ["periodic"], 1, 9.812, 0⟩ := by
    simp only [Option.getD_some] at en
    simp only [catalogue, List.mem_cons, List.not_mem_nil, or_false] at he
    rcases he with rfl | rfl | rfl | rfl | rfl | rfl | rfl | rfl | rfl | rfl | rfl | rfl | rfl | rfl | rfl <;>
      first | rfl | simp at en
  simp only [meantEnd] at d3
  obtain ⟨m, x, d, key, -, r3, r4, -, r5, r6, -, r7⟩ := C144_run _ _ _ _ _ _ _ _ h points hp (by simp) s1 (by simp)
  obtain rfl : m = 400 := by rw [m1] at r3; simp at r3; omega
  obtain rfl : d = 8 := by rw [d1] at r5; simp at r5; omega
  obtain rfl : key = "llf" := by rw [f1] at r6; simpa using r6.symm
  rw [c1] at r4
  obtain ⟨mesh, -, -, g3, g4⟩ := r7 (by simp) (by simp)
  obtain ⟨v, hv⟩ := g3 (by simp)
  obtain ⟨-, -, g5⟩ := (g4 v hv).2 (1 / 10) (Or.inl (by simpa using (Val.num.inj r4).symm))
  obtain ⟨j, k, j1, j2, j3, j4, -, -, j5, j6⟩ := g5 (by norm_num)
  have hdx : j.fine.dx = 1 / 4 := by rw [j5.dx, d2, j3]; norm_num
  have hend : j.fine.endTime = 1 := j5.endTime.trans d3
  have hstill := j5.still (Or.inr (Or.inl rfl)) (by rw [hdx, j4]; norm_num) (by rw [hend]; norm_num)
  obtain ⟨r, r1, -, r2, r3⟩ := j6.record rfl 41
  refine ⟨w, s1, j, h, j1, j2, j3, ?_, r, r1, fun u hu => ?_⟩
  · rw [(j6.status 41).1]
    exact hstill.ends 40 (by rw [hend, hdx, j4]; norm_num)
  · obtain ⟨i, hi⟩ := List.mem_iff_getElem?.1 hu
    obtain ⟨v, v1, v2, -, -, v3⟩ := r3 i u hi
    rw [j2, j3] at v2
    refine ⟨by omega, v3 fun i => ?_⟩
    rw [hstill.values 41 v (List.mem_of_getElem? v1)]
    exact j5.wet i

end Verif.CalculateSWE
