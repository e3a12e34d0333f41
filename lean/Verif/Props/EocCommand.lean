import Verif.Core.Eoc
import Verif.Props.EOC

/-!
C115: the `eoc` command as a whole.
-/

set_option linter.unusedSectionVars false

namespace Verif.Commands

open Verif.Py

variable {A S E : Type*}

/-- A loop that may raise: either every element is fine, or the first one that is not decides. -/
theorem mapM_cases {α β ε : Type*} (f : α → Except ε β) (l : List α) :
    (∃ r, l.mapM f = .ok r ∧ r.length = l.length ∧ ∀ (i : ℕ) (h : i < l.length) (h' : i < r.length),
      f l[i] = .ok r[i]) ∨
    ∃ e, l.mapM f = .error e ∧ ∃ (i : ℕ) (h : i < l.length), f l[i] = .error e ∧
      ∀ (j : ℕ) (h' : j < i), ∃ b, f (l[j]'(by omega)) = .ok b := by
  induction l with
  | nil => exact Or.inl ⟨[], rfl, rfl, fun i h => absurd h (by simp)⟩
  | cons a l ih =>
    rw [List.mapM_cons]
    cases ha : f a with
    | error e =>
      exact Or.inr ⟨e, rfl, 0, by simp, by simpa using ha, fun j hj => absurd hj (by omega)⟩
    | ok b =>
      rcases ih with ⟨r, h1, h2, h3⟩ | ⟨e, h1, i, hi, h2, h3⟩
      · left
        refine ⟨b :: r, by rw [h1]; rfl, by simp [h2], ?_⟩
        intro i h h'
        cases i with
        | zero => simpa using ha
        | succ i => simpa using h3 i (by simpa using h) (by simpa using h')
      · right
        refine ⟨e, by rw [h1]; rfl, i + 1, by simpa using hi, by simpa using h2, ?_⟩
        intro j hj
        cases j with
        | zero => exact ⟨b, by simpa using ha⟩
        | succ j => simpa using h3 j (by omega)

/-- C115.  The runs: for each solver of the list, in order, one run on each of the meshes with `m`, `2 m`, ...,
`2^(r-1) m` cells, whatever mesh size the options of the solver ask for; without a list of solvers a
`TypeError`.  Either all runs end well and the command goes on with their results, or the first run that raises
ends the program with its exception. -/
theorem C115_runs (start : SolverOptions A → Except E S) (typeError : E) (m r : ℕ)
    (as : List (SolverOptions A)) :
    let job := fun (i : ℕ) (a : SolverOptions A) => start ⟨a.rest, some (2 ^ i * m)⟩
    ((∃ ss, eocSolutions start typeError m r (some as) = .ok ss ∧ ss.length = as.length ∧
        ∀ (k : ℕ) (h : k < as.length) (h' : k < ss.length), ss[k].length = r ∧
          ∀ (i : ℕ) (hi : i < ss[k].length), job i as[k] = .ok ss[k][i]) ∨
      ∃ e, eocSolutions start typeError m r (some as) = .error e ∧
        ∃ (k : ℕ) (h : k < as.length), ∃ i < r, job i as[k] = .error e ∧
          (∀ j < i, ∃ s, job j as[k] = .ok s) ∧
          ∀ (l : ℕ) (hl : l < k), ∀ j < r, ∃ s, job j (as[l]'(by omega)) = .ok s) ∧
    eocSolutions start typeError m r none = .error typeError := by
  intro job
  refine ⟨?_, rfl⟩
  have inner : ∀ a, (∃ row, eocRefine start m r a = .ok row ∧ row.length = r ∧
      ∀ (i : ℕ) (hi : i < row.length), job i a = .ok row[i]) ∨
      ∃ e, eocRefine start m r a = .error e ∧ ∃ i < r, job i a = .error e ∧
        ∀ j < i, ∃ s, job j a = .ok s := by
    intro a
    rcases mapM_cases (fun i => start { a with meshSize := some (2 ^ i * m) }) (List.range r) with
      ⟨row, h1, h2, h3⟩ | ⟨e, h1, i, hi, h2, h3⟩
    · left
      refine ⟨row, h1, by simpa using h2, fun i hi => ?_⟩
      have := h3 i (by rw [h2] at hi; exact hi) hi
      simpa using this
    · right
      refine ⟨e, h1, i, by simpa using hi, by simpa using h2, fun j hj => ?_⟩
      simpa using h3 j hj
  have ok_inner : ∀ a row, eocRefine start m r a = .ok row → row.length = r ∧
      ∀ (i : ℕ) (hi : i < row.length), job i a = .ok row[i] := by
    intro a row h
    rcases inner a with ⟨row', h1, h2, h3⟩ | ⟨e, h1, -⟩
    · rw [h1] at h; cases h; exact ⟨h2, h3⟩
    · rw [h1] at h; cases h
  rcases mapM_cases (eocRefine start m r) as with ⟨ss, h1, h2, h3⟩ | ⟨e, h1, k, hk, h2, h3⟩
  · exact Or.inl ⟨ss, h1, h2, fun k h h' => ok_inner _ _ (h3 k h h')⟩
  · right
    refine ⟨e, h1, k, hk, ?_⟩
    rcases inner as[k] with ⟨row, g1, -⟩ | ⟨e', g1, i, hi, g2, g3⟩
    · rw [g1] at h2; cases h2
    · rw [g1] at h2
      cases h2
      refine ⟨i, hi, g2, g3, fun l hl j hj => ?_⟩
      obtain ⟨row, q⟩ := h3 l hl
      obtain ⟨q1, q2⟩ := ok_inner _ _ q
      exact ⟨_, q2 j (by omega)⟩

/-- C115.  The mesh sizes in the options of the solvers are ignored. -/
theorem C115_mesh_option (start : SolverOptions A → Except E S) (typeError : E) (name : S → String)
    (measure : S → Except Error (ℕ × List ℝ)) (m r : ℕ) (as bs : List (SolverOptions A))
    (h : as.map SolverOptions.rest = bs.map SolverOptions.rest) :
    eocCommand start typeError name measure m r (some as) =
      eocCommand start typeError name measure m r (some bs) := by
  have key : ∀ as : List (SolverOptions A), as.mapM (eocRefine start m r) =
      (as.map SolverOptions.rest).mapM fun a => eocRefine start m r ⟨a, none⟩ := by
    intro as
    induction as with
    | nil => rfl
    | cons a as ih => rw [List.map_cons, List.mapM_cons, List.mapM_cons, ih]; rfl
  simp only [eocCommand, eocSolutions, key, h]

/-- One table: one row for each solver in order, with its degrees of freedom and errors; in each norm the
orders are `nan` in the first row and `log2 (old / new)` below. -/
theorem table_rows (measure : S → Except Error (ℕ × List ℝ)) (solvers : List S) (rows : List (ℕ × List ℝ))
    (h : solvers.mapM measure = .ok rows) :
    ∃ t, eocTable measure solvers = .ok t ∧ t.map EocRow.dofs = rows.map Prod.fst ∧
      t.map EocRow.errors = rows.map Prod.snd ∧
      ∀ norm < 3, t.map (fun row => row.orders.getD norm none) = eocs (errorColumn rows norm) := by
  refine ⟨_, by rw [eocTable, h], ?_, ?_, ?_⟩
  · apply List.ext_getElem
    · simp
    · intro i h1 h2
      have : i < rows.length := by simpa using h2
      simp [List.getD_eq_getElem?_getD, List.getElem?_eq_getElem this]
  · apply List.ext_getElem
    · simp
    · intro i h1 h2
      have : i < rows.length := by simpa using h2
      simp [List.getD_eq_getElem?_getD, List.getElem?_eq_getElem this]
  · intro norm hn
    unfold eocs
    have : (errorColumn rows norm).length = rows.length := by simp [errorColumn]
    rw [this, List.map_map]
    apply List.map_congr_left
    intro i _
    simp [List.getD_eq_getElem?_getD, List.getElem?_eq_getElem, hn]

/-- C115.  Without any mesh (which the option does not allow) only the message of an `IndexError` would be printed. -/
theorem C115_no_mesh (start : SolverOptions A → Except E S) (typeError : E) (name : S → String)
    (measure : S → Except Error (ℕ × List ℝ)) (m : ℕ) (as : List (SolverOptions A)) (has : as ≠ []) :
    eocCommand start typeError name measure m 0 (some as) = .ok (.error .indexError) := by
  have h : ∀ l : List (SolverOptions A), l.mapM (eocRefine start m 0) = .ok (l.map fun _ => []) := by
    intro l
    induction l with
    | nil => rfl
    | cons a l ih => rw [List.mapM_cons, ih]; rfl
  unfold eocCommand eocSolutions
  simp only [h]
  cases as with
  | nil => exact absurd rfl has
  | cons a l => rfl

/-- C115.  What is printed, for a non-empty list of solvers with at least one run each.  If the errors of all
runs can be computed: one table for each solver, in order, under the name of the solver, with a row for each run.
If the exact solution raises for one of them, only the message of the first exception: no table, not even those
of the solvers before. -/
theorem C115_printed (name : S → String) (measure : S → Except Error (ℕ × List ℝ)) (ss : List (List S))
    (hss : ss ≠ []) (hrow : ∀ s ∈ ss, s ≠ []) :
    (∃ ts, eocExecute name measure ss = .tables ts ∧ ts.length = ss.length ∧
      ∀ (k : ℕ) (hk : k < ss.length) (hk' : k < ts.length),
        ts[k].1 = name (ss[k].head (hrow _ (List.getElem_mem hk))) ∧
        ∃ rows : List (ℕ × List ℝ), rows.length = ss[k].length ∧
          (∀ (i : ℕ) (hi : i < ss[k].length) (hi' : i < rows.length), measure ss[k][i] = .ok rows[i]) ∧
          ts[k].2.map EocRow.dofs = rows.map Prod.fst ∧ ts[k].2.map EocRow.errors = rows.map Prod.snd ∧
          ∀ norm < 3, ts[k].2.map (fun row => row.orders.getD norm none) = eocs (errorColumn rows norm)) ∨
    ∃ e, eocExecute name measure ss = .error e ∧
      ∃ (k : ℕ) (hk : k < ss.length) (i : ℕ) (hi : i < ss[k].length), measure ss[k][i] = .error e ∧
        (∀ (j : ℕ) (hj : j < i), ∃ row, measure (ss[k][j]'(by omega)) = .ok row) ∧
        ∀ (l : ℕ) (hl : l < k), ∀ s ∈ ss[l]'(by omega), ∃ row, measure s = .ok row := by
  have hlen : ss.length ≠ 0 := by simpa using hss
  suffices H : ∀ ss : List (List S), ∀ hrow : (∀ s ∈ ss, s ≠ []),
      (∃ ts, eocTables name measure ss = .ok ts ∧ ts.length = ss.length ∧
      ∀ (k : ℕ) (hk : k < ss.length) (hk' : k < ts.length),
        ts[k].1 = name (ss[k].head (hrow _ (List.getElem_mem hk))) ∧
        ∃ rows : List (ℕ × List ℝ), rows.length = ss[k].length ∧
          (∀ (i : ℕ) (hi : i < ss[k].length) (hi' : i < rows.length), measure ss[k][i] = .ok rows[i]) ∧
          ts[k].2.map EocRow.dofs = rows.map Prod.fst ∧ ts[k].2.map EocRow.errors = rows.map Prod.snd ∧
          ∀ norm < 3, ts[k].2.map (fun row => row.orders.getD norm none) = eocs (errorColumn rows norm)) ∨
    ∃ e, eocTables name measure ss = .error e ∧
      ∃ (k : ℕ) (hk : k < ss.length) (i : ℕ) (hi : i < ss[k].length), measure ss[k][i] = .error e ∧
        (∀ (j : ℕ) (hj : j < i), ∃ row, measure (ss[k][j]'(by omega)) = .ok row) ∧
        ∀ (l : ℕ) (hl : l < k), ∀ s ∈ ss[l]'(by omega), ∃ row, measure s = .ok row by
    rcases H ss hrow with ⟨ts, h1, h2⟩ | ⟨e, h1, h2⟩
    · exact Or.inl ⟨ts, by rw [eocExecute, if_neg hlen, h1], h2⟩
    · exact Or.inr ⟨e, by rw [eocExecute, if_neg hlen, h1], h2⟩
  clear hlen hss hrow ss
  intro ss
  induction ss with
  | nil => exact fun _ => Or.inl ⟨[], rfl, rfl, fun k hk => absurd hk (by simp)⟩
  | cons solvers rest ih =>
    intro hrow
    have h0 : solvers ≠ [] := hrow _ (by simp)
    obtain ⟨s, tl, rfl⟩ := List.exists_cons_of_ne_nil h0
    rcases mapM_cases measure (s :: tl) with ⟨rows, m1, m2, m3⟩ | ⟨e, m1, i, hi, m2, m3⟩
    · obtain ⟨t, t1, t2, t3, t4⟩ := table_rows measure _ rows m1
      rcases ih (fun x hx => hrow x (by simp [hx])) with ⟨ts, h1, h2, h3⟩ | ⟨e, h1, k, hk, i, hi, h2, h3, h4⟩
      · left
        refine ⟨(name s, t) :: ts, by simp only [eocTables, t1, h1], by simp [h2], ?_⟩
        intro k hk hk'
        cases k with
        | zero => exact ⟨rfl, rows, m2, m3, t2, t3, t4⟩
        | succ k => exact h3 k (by simpa using hk) (by simpa using hk')
      · right
        refine ⟨e, by simp only [eocTables, t1, h1], k + 1, by simpa using hk, i, by simpa using hi,
          by simpa using h2, by simpa using h3, ?_⟩
        intro l hl x hx
        cases l with
        | zero =>
          simp only [List.getElem_cons_zero] at hx
          obtain ⟨j, hj, rfl⟩ := List.getElem_of_mem hx
          exact ⟨_, m3 j hj (by omega)⟩
        | succ l => exact h4 l (by omega) x (by simpa using hx)
    · right
      refine ⟨e, by simp only [eocTables, eocTable, m1], 0, by simp, i, by simpa using hi, by simpa using m2,
        by simpa using m3, fun l hl => absurd hl (by omega)⟩

/-- Concrete case for the results above: two solvers, the second one with a mesh size of its own, which is ignored; three runs
each, on 4, 8 and 16 cells. -/
example : eocSolutions (E := Error) (fun a : SolverOptions ℕ => .ok (a.rest, a.meshSize)) .typeError 4 3
    (some [⟨1, none⟩, ⟨2, some 50⟩]) =
    .ok [[(1, some 4), (1, some 8), (1, some 16)], [(2, some 4), (2, some 8), (2, some 16)]] := by
  decide +kernel

/-- The second solver raises on 8 cells: its exception ends the program. -/
example : eocSolutions (S := ℕ) (fun a : SolverOptions ℕ =>
      if a.rest = 2 ∧ a.meshSize = some 8 then .error Error.valueError else .ok a.rest) .typeError 4 3
    (some [⟨1, none⟩, ⟨2, some 50⟩, ⟨3, none⟩]) = .error .valueError := by
  decide +kernel

/-- Printing: the first solver alone has a table, together with a solver whose errors cannot be computed it
has none. -/
example : (∃ ts, eocExecute (fun n : ℕ => if n < 10 then "a" else "b")
      (fun n => if n < 10 then .ok (n, [1, 1, 1]) else .error .valueError) [[4, 8]] = .tables ts ∧
        ts.map (fun t => (t.1, t.2.map EocRow.dofs)) = [("a", [4, 8])]) ∧
    eocExecute (fun n : ℕ => if n < 10 then "a" else "b")
      (fun n => if n < 10 then .ok (n, [1, 1, 1]) else .error .valueError) [[4, 8], [16, 32]] =
        .error .valueError :=
  ⟨⟨_, rfl, rfl⟩, rfl⟩

end Verif.Commands

namespace Verif.Solver

variable {K : Type*} [Field K] [LinearOrder K] [IsStrictOrderedRing K]
variable {V : Type*} [AddCommGroup V] [Module K V]

theorem solve_stays (p : Params K V) (o : Obj K V) {i : ℕ} (h : (solve p o i).2 ≠ .running) (j : ℕ) :
    solve p o (i + j) = solve p o i := by
  induction j with
  | zero => rfl
  | succ j ih =>
    rw [← Nat.add_assoc]
    show pass p (solve p o (i + j)) = _
    rw [ih]
    unfold pass
    split
    · next q => exact absurd q h
    · rfl

/-- `complete` is where the loop ends. -/
theorem complete_eq (p : Params K V) (o : Obj K V) (k : ℕ) (h : (solve p o k).2 ≠ .running) :
    complete p o = some (solve p o k) := by
  classical
  have hex : ∃ n, (solve p o n).2 ≠ .running := ⟨k, h⟩
  rw [complete, dif_pos hex]
  have hle : Nat.find hex ≤ k := Nat.find_min' hex h
  have := solve_stays p o (Nat.find_spec hex) (k - Nat.find hex)
  rw [Nat.add_sub_cancel' hle] at this
  rw [this]

end Verif.Solver

namespace Verif.Convergence

open Verif.Py Verif.Boundary Verif.FV Verif.ODE Verif.Scalar Verif.Commands Verif.Solver Verif.EndToEnd
open Verif.Interpolate Verif.Quadrature Verif.Bench
open Verif.Mesh hiding Error

/-- Options of a Lax-Friedrichs solver of the `eoc` command: name, integrator and CFL number. -/
structure LFOptions where
  name : String
  tab : Tableau ℝ
  cfl : ℝ

/-- Why a run does not end with a solution. -/
inductive Failure where
  | typeError
  | mesh (e : Mesh.Error)
  | raised (e : Exn)
  | forever

/-- Construction and run of the Lax-Friedrichs solver for a benchmark of linear advection
(`finite_volume/solver.py` lines 22-70, default mesh size `defaults.py` line 9); a run interrupted because of a
small time step ends without an exception. -/
noncomputable def advectionStart (b : Advection) (points : List (ℝ × ℝ)) (bc : BC ℝ ℝ) (t1 : ℝ)
    (a : SolverOptions LFOptions) : Except Failure (String × UMesh ℝ × List ℝ) :=
  let n := a.meshSize.getD 400
  match uniformMesh b.domain n with
  | .error e => .error (.mesh e)
  | .ok mesh =>
    let u : Fin n → ℝ := fun i => (cellAverages points mesh b.initial).getD i 0
    let P := fvParams n a.rest.tab (rhs (laxFriedrichs Problem.advection.riemann) (1 / n) bc) (1 / n) a.rest.cfl 0 t1
    match complete P (Obj.make P ⟨u, 0, t1⟩) with
    | none => .error .forever
    | some (_, .raised e) => .error (.raised e)
    | some (o, _) => .ok (a.rest.name, mesh, List.ofFn o.sol.sol.value)

/-- The errors of a run, `command/error.py` lines 63-80. -/
noncomputable def advectionMeasure (b : Advection) (quad : List (ℝ × ℝ)) (t1 : ℝ)
    (s : String × UMesh ℝ × List ℝ) : Except Error (ℕ × List ℝ) :=
  match errorRow quad s.2.1 (fun x => b.exact x t1) s.2.2 with
  | .ok row => .ok (s.2.1.cells.length, row)
  | .error e => .error e

theorem start_final (b : Advection) (points : List (ℝ × ℝ)) (bc : BC ℝ ℝ) (t1 : ℝ) (a : LFOptions) (n : ℕ)
    (s : UMesh ℝ × List ℝ) (h : FinalValues b points bc a.tab a.cfl t1 n s) :
    advectionStart b points bc t1 ⟨a, some n⟩ = .ok (a.name, s) := by
  obtain ⟨h1, k, h2, h3⟩ := h
  unfold advectionStart
  simp only [Option.getD_some, h1]
  rw [complete_eq _ _ k (by rw [h2]; decide)]
  rw [← Prod.mk.eta (p := solve _ _ k), h2]
  simp only [h3.symm]

/-- C115.  The whole command for linear advection and Lax-Friedrichs solvers: it prints one table for each solver
in the order of the list, under the name of the solver; the rows are for `m`, `2 m`, ..., `2^r m` cells; the
errors obey the bounds of C103, and for the cosine the printed orders of each norm add up to at least one per
refinement apart from a constant. -/
theorem C115_advection (b : Advection) (points quad : List (ℝ × ℝ)) (hp : AveragingRule points)
    (hq : AveragingRule quad) (bc : BC ℝ ℝ) (hbc : build none ["periodic"] 1 none none = .ok bc)
    (t1 : ℝ) (hdur : 1 / 10 ^ 12 ≤ t1) (size r : ℕ) (hsize : 0 < size) (as : List (SolverOptions LFOptions))
    (has : as ≠ [])
    (hT : ∀ a ∈ as, a.rest.tab = forwardEuler ℝ ∨ a.rest.tab = heun ℝ ∨ a.rest.tab = ssp3 ℝ)
    (hcfl : ∀ a ∈ as, a.rest.cfl ≤ 1)
    (hstep : ∀ a ∈ as, ∀ i < r + 1, 1 / 10 ^ 12 ≤ 1 / ((2 ^ i * size : ℕ) : ℝ) * a.rest.cfl) :
    ∃ ts, eocCommand (advectionStart b points bc t1) .typeError Prod.fst (advectionMeasure b quad t1) size (r + 1)
        (some as) = .ok (.tables ts) ∧ ts.map Prod.fst = as.map (fun a => a.rest.name) ∧
      ∀ t ∈ ts, t.2.map EocRow.dofs = eocMeshSizes size (r + 1) ∧
        (∀ (i : ℕ) (hi : i < t.2.length), ∃ e1 e2 e3, t.2[i].errors = [e1, e2, e3] ∧
          (b = .cosine → ∀ e ∈ [e1, e2, e3], e ≤ (4 * Real.pi + 2 * Real.pi ^ 2 * t1) / (2 ^ i * size)) ∧
          (b = .gaussianBell → ∀ e ∈ [e1, e2, e3],
            e ≤ 10 * (2 / (2 ^ i * size) + Real.sqrt (t1 / (2 ^ i * size)))) ∧
          ∀ m : ℕ, hills b = some m →
            e1 ≤ 2 * m * (3 / (2 ^ i * size) + Real.sqrt (t1 / (2 ^ i * size)))) ∧
        (b = .cosine → ∀ norm < 3, (∀ row ∈ t.2, 0 < row.errors.getD norm 0) →
          ∃ orders : List ℝ, t.2.map (fun row => row.orders.getD norm none) = none :: orders.map some ∧
            orders.length = r ∧
            r - Real.logb 2 ((4 * Real.pi + 2 * Real.pi ^ 2 * t1) / size /
              ((t.2.map EocRow.errors).getD 0 []).getD norm 0) ≤ orders.sum) := by
  -- every run ends with its final values
  have run : ∀ a ∈ as, ∀ i < r + 1, ∃ s, FinalValues b points bc a.rest.tab a.rest.cfl t1 (2 ^ i * size) s :=
    fun a ha i hi => C103_ends b points hp (by positivity) bc hbc _ (hT a ha) _ t1 (hcfl a ha) (hstep a ha i hi) hdur
  obtain ⟨ss, h1, h2, h3⟩ : ∃ ss, eocSolutions (advectionStart b points bc t1) .typeError size (r + 1) (some as) =
      .ok ss ∧ ss.length = as.length ∧ ∀ (k : ℕ) (h : k < as.length) (h' : k < ss.length),
        ss[k].length = r + 1 ∧ ∀ (i : ℕ) (hi : i < ss[k].length),
          advectionStart b points bc t1 ⟨as[k].rest, some (2 ^ i * size)⟩ = .ok ss[k][i] := by
    rcases (C115_runs (advectionStart b points bc t1) .typeError size (r + 1) as).1 with h | ⟨e, -, k, hk, i, hi, h, -⟩
    · exact h
    · obtain ⟨s, hs⟩ := run as[k] (List.getElem_mem hk) i hi
      have := start_final b points bc t1 as[k].rest _ s hs
      have h : advectionStart b points bc t1 ⟨as[k].rest, some (2 ^ i * size)⟩ = .error e := h
      rw [this] at h
      cases h
  -- the final values of each row of runs
  have fin : ∀ (k : ℕ) (h : k < as.length) (h' : k < ss.length),
      List.Forall₂ (FinalValues b points bc as[k].rest.tab as[k].rest.cfl t1) (eocMeshSizes size (r + 1))
        (ss[k].map Prod.snd) ∧ ∀ s ∈ ss[k], s.1 = as[k].rest.name := by
    intro k h h'
    obtain ⟨g1, g2⟩ := h3 k h h'
    have key : ∀ (i : ℕ) (hi : i < ss[k].length), FinalValues b points bc as[k].rest.tab as[k].rest.cfl t1
        (2 ^ i * size) ss[k][i].2 ∧ ss[k][i].1 = as[k].rest.name := by
      intro i hi
      obtain ⟨s, hs⟩ := run as[k] (List.getElem_mem h) i (by omega)
      have := start_final b points bc t1 as[k].rest _ s hs
      rw [g2 i hi] at this
      have := Except.ok.inj this
      rw [this]
      exact ⟨hs, rfl⟩
    refine ⟨List.forall₂_iff_get.mpr ⟨by simp [eocMeshSizes, g1], fun i hi hi' => ?_⟩, fun s hs => ?_⟩
    · have := (key i (by simpa using hi')).1
      simpa [eocMeshSizes] using this
    · obtain ⟨i, hi, rfl⟩ := List.getElem_of_mem hs
      exact (key i hi).2
  -- all errors can be measured
  have meas : ∀ ss : List (String × UMesh ℝ × List ℝ), ss.mapM (advectionMeasure b quad t1) =
      errorTable quad (fun x => b.exact x t1) (ss.map Prod.snd) := by
    intro ss
    unfold errorTable
    induction ss with
    | nil => rfl
    | cons s ss ih => rw [List.map_cons, List.mapM_cons, List.mapM_cons, ih]; rfl
  have hss : ss ≠ [] := by
    intro h
    rw [h] at h2
    exact has (List.length_eq_zero_iff.mp h2.symm)
  have hrow : ∀ s ∈ ss, s ≠ [] := by
    intro s hs h
    obtain ⟨k, hk, rfl⟩ := List.getElem_of_mem hs
    have := (h3 k (by omega) hk).1
    rw [h] at this
    simp at this
  have tab := fun (k : ℕ) (h : k < as.length) (h' : k < ss.length) =>
    C103_table b points quad hp hq bc hbc _ (hT _ (List.getElem_mem h)) _ t1 (hcfl _ (List.getElem_mem h)) hdur size
      (r + 1) hsize (hstep _ (List.getElem_mem h)) _ (fin k h h').1
  rcases C115_printed (Prod.fst (α := String)) (advectionMeasure b quad t1) ss hss hrow with
    ⟨ts, p1, p2, p3⟩ | ⟨e, -, k, hk, i, hi, he, -⟩
  · refine ⟨ts, by rw [eocCommand, h1]; simp only [p1], ?_, ?_⟩
    · apply List.ext_getElem
      · simp [p2, h2]
      · intro k hk hk'
        have k1 : k < as.length := by simpa using hk'
        rw [List.getElem_map, List.getElem_map, (p3 k (by omega) (by omega)).1]
        exact (fin k k1 (by omega)).2 _ (List.head_mem _)
    · intro t ht
      obtain ⟨k, hk, rfl⟩ := List.getElem_of_mem ht
      have k1 : k < as.length := by omega
      have k2 : k < ss.length := by omega
      obtain ⟨-, rows, r1, r2, r3, r4, r5⟩ := p3 k k2 hk
      obtain ⟨table, t1', t2, t3⟩ := tab k k1 k2
      have hrows : rows = table := by
        rcases mapM_cases (advectionMeasure b quad t1) ss[k] with ⟨x, x1, x2, x3⟩ | ⟨e, x1, -⟩
        · have : x = table := by rw [meas, t1'] at x1; exact (Except.ok.inj x1).symm
          rw [← this]
          apply List.ext_getElem (by omega)
          intro i hi hi'
          have q1 := r2 i (by omega) hi
          have q2 := x3 i (by omega) hi'
          rw [q1] at q2
          exact Except.ok.inj q2
        · rw [meas, t1'] at x1; cases x1
      subst hrows
      have hlen : ts[k].2.length = r + 1 := by
        have := congrArg List.length r3
        simpa [t2] using this
      refine ⟨?_, ?_, ?_⟩
      · rw [r3]
        apply List.ext_getElem
        · simp [t2, eocMeshSizes]
        · intro i hi hi'
          obtain ⟨e1, e2, e3, q, -⟩ := t3 i (by simpa [eocMeshSizes] using hi')
          rw [List.getElem?_eq_getElem (by simpa using hi)] at q
          simp [Option.some.inj q, eocMeshSizes]
      · intro i hi
        obtain ⟨e1, e2, e3, q, q'⟩ := t3 i (by omega)
        refine ⟨e1, e2, e3, ?_, q'⟩
        have e := congrArg (fun l => l[i]?) r4
        simp only [List.getElem?_map, List.getElem?_eq_getElem hi, q, Option.map_some] at e
        exact Option.some.inj e
      · intro hb norm hn hpos
        subst hb
        obtain ⟨table', c1, c2⟩ := C103_cosine points quad hp hq bc hbc _ (hT _ (List.getElem_mem k1)) _ t1
          (hcfl _ (List.getElem_mem k1)) hdur size r hsize (hstep _ (List.getElem_mem k1)) _ (fin k k1 k2).1
        rw [t1'] at c1
        have := Except.ok.inj c1
        subst this
        have hcol : errorColumn rows norm = ts[k].2.map fun row => row.errors.getD norm 0 := by
          have : errorColumn rows norm = (rows.map Prod.snd).map fun l => l.getD norm 0 := by
            simp [errorColumn, List.map_map, Function.comp_def]
          rw [this, ← r4, List.map_map]
          rfl
        obtain ⟨orders, o1, o2, o3⟩ := c2 norm hn (by
          intro e he
          rw [hcol] at he
          obtain ⟨row, hrow, rfl⟩ := List.mem_map.mp he
          exact hpos row hrow)
        refine ⟨orders, by rw [r5 norm hn, o1], o2, ?_⟩
        have h0 : (errorColumn rows norm).getD 0 0 = ((ts[k].2.map EocRow.errors).getD 0 []).getD norm 0 := by
          rw [r4]
          cases rows with
          | nil => simp at t2
          | cons a l => simp [errorColumn]
        rw [h0] at o3
        exact o3
  · exfalso
    obtain ⟨table, t1', -⟩ := tab k (by omega) hk
    rcases mapM_cases (advectionMeasure b quad t1) ss[k] with ⟨x, x1, x2, x3⟩ | ⟨e', x1, -⟩
    · have := x3 i hi (by omega)
      rw [he] at this
      cases this
    · rw [meas, t1'] at x1; cases x1

/-- The hypotheses of `C115_advection` hold for two solvers with the default meshes (four from 8 cells on): Heun's
method with CFL number 1/10, and forward Euler with CFL number 1 and a mesh size of its own. -/
example : ∃ bc : BC ℝ ℝ, build none ["periodic"] 1 none none = .ok bc ∧
    ∀ a ∈ [(⟨⟨"Heun", heun ℝ, 1 / 10⟩, none⟩ : SolverOptions LFOptions), ⟨⟨"Euler", forwardEuler ℝ, 1⟩, some 50⟩],
      (a.rest.tab = forwardEuler ℝ ∨ a.rest.tab = heun ℝ ∨ a.rest.tab = ssp3 ℝ) ∧ a.rest.cfl ≤ 1 ∧
      ∀ i < 3 + 1, 1 / 10 ^ 12 ≤ 1 / ((2 ^ i * 8 : ℕ) : ℝ) * a.rest.cfl := by
  refine ⟨_, rfl, ?_⟩
  intro a ha
  simp only [List.mem_cons, List.not_mem_nil, or_false] at ha
  rcases ha with rfl | rfl
  · refine ⟨Or.inr (Or.inl rfl), by norm_num, fun i hi => ?_⟩
    interval_cases i <;> norm_num
  · refine ⟨Or.inl rfl, by norm_num, fun i hi => ?_⟩
    interval_cases i <;> norm_num

end Verif.Convergence
