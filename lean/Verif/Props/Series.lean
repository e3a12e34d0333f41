import Verif.Core.Series
import Verif.Props.Solver

/-!
C99: error series and parameter variations.
-/

set_option linter.unusedSectionVars false

namespace Verif.Series

open Verif.Py

section Series
variable {S T B O Q R X : Type*}

/-- A solver that can be used again and again for the benchmarks in `good`: as long as it is in a state
satisfying `I`, reinitialising it succeeds, and the run that follows has the outcome `run b` (exception,
or solution), whatever was done before. -/
structure Reusable (M : Machine S B O X) (I : S → Prop) (good : B → Prop) (run : B → Except X O) :
    Prop where
  reinitialize : ∀ s b, I s → good b → (M.reinitialize s b).2 = none ∧ I (M.reinitialize s b).1
  invariant : ∀ s, I s → I (M.solve s).1
  raises : ∀ s b x, I s → good b → run b = .error x →
    (M.solve (M.reinitialize s b).1).2 = some x
  returns : ∀ s b o, I s → good b → run b = .ok o →
    (M.solve (M.reinitialize s b).1).2 = none ∧ M.view (M.solve (M.reinitialize s b).1).1 = o

/-- What a benchmark contributes to a series: the error between the runs of the two solvers, or a
warning. -/
def outcome (approximation : B → Except X O) (exact : B → Except X Q) (error : O → Q → R) (b : B) :
    R ⊕ X :=
  match exact b, approximation b with
  | .error x, _ => .inr x
  | .ok _, .error x => .inr x
  | .ok q, .ok o => .inl (error o q)

/-- The results, in order. -/
def resultsOf (out : B → R ⊕ X) (bs : List B) : List R :=
  bs.filterMap fun b => (out b).getLeft?

/-- The warnings, in order. -/
def warningsOf (out : B → R ⊕ X) (bs : List B) : List (B × X) :=
  bs.filterMap fun b => (out b).getRight?.map fun x => (b, x)

variable (A : Machine S B O X) (E : Machine T B Q X)

/-- One benchmark. -/
theorem step_spec {I : S → Prop} {J : T → Prop} {good : B → Prop} {ra : B → Except X O}
    {re : B → Except X Q} (hA : Reusable A I good ra) (hE : Reusable E J good re)
    (evolution : O → Q → Except Error R) (error : O → Q → R)
    (hev : ∀ o q, evolution o q = .ok (error o q)) (savePlot : Bool) (s : State S T B R X)
    (hs : s.raised = none) (hI : I s.approximation) (hJ : J s.exact) (b : B) (hb : good b) :
    let t := step A E evolution savePlot s b
    I t.approximation ∧ J t.exact ∧
    (∀ x, outcome ra re error b = .inr x →
      t.results = s.results ∧ t.warnings = s.warnings ++ [(b, x)] ∧ t.raised = none) ∧
    (∀ r, outcome ra re error b = .inl r →
      t.results = s.results ++ [r] ∧ t.warnings = s.warnings ∧
        t.raised = if savePlot then some (.command .typeError) else none) := by
  intro t
  obtain ⟨a1, a2⟩ := hA.reinitialize _ b hI hb
  obtain ⟨e1, e2⟩ := hE.reinitialize _ b hJ hb
  have aI := hA.invariant _ a2
  have eI := hE.invariant _ e2
  have ar := fun z => hA.raises _ b z hI hb
  have ao := fun z => hA.returns _ b z hI hb
  have er := fun z => hE.raises _ b z hJ hb
  have eo := fun z => hE.returns _ b z hJ hb
  simp only [t, step, hs, outcome]
  rcases hra : A.reinitialize s.approximation b with ⟨a, xa⟩
  rcases hre : E.reinitialize s.exact b with ⟨e, xe⟩
  simp only [hra, hre] at a1 a2 e1 e2 aI eI ar ao er eo
  subst a1 e1
  simp only
  cases hx : re b with
  | error x =>
    have := er x hx
    rcases hse : E.solve e with ⟨e', ye⟩
    rw [hse] at this eI
    simp only at this
    subst this
    simp only
    refine ⟨a2, eI, fun y hy => ?_, fun r hr => by cases hr⟩
    cases hy
    simp [hs]
  | ok q =>
    obtain ⟨q1, q2⟩ := eo q hx
    rcases hse : E.solve e with ⟨e', ye⟩
    rw [hse] at q1 q2 eI
    simp only at q1 q2 eI
    subst q1
    cases hy : ra b with
    | error y =>
      have := ar y hy
      rcases hsa : A.solve a with ⟨a', ya⟩
      rw [hsa] at this aI
      simp only at this
      subst this
      simp only
      refine ⟨aI, eI, fun z hz => ?_, fun r hr => by cases hr⟩
      cases hz
      simp [hs]
    | ok o =>
      obtain ⟨o1, o2⟩ := ao o hy
      rcases hsa : A.solve a with ⟨a', ya⟩
      rw [hsa] at o1 o2 aI
      simp only at o1 o2 aI
      subst o1
      simp only [o2, q2, hev]
      refine ⟨aI, eI, fun z hz => (by cases hz), fun r hr => ?_⟩
      cases hr
      simp

theorem foldl_raised (evolution : O → Q → Except Error R) (savePlot : Bool) (bs : List B)
    (s : State S T B R X) (x : Exn X) (h : s.raised = some x) :
    bs.foldl (step A E evolution savePlot) s = s := by
  induction bs with
  | nil => rfl
  | cons b bs ih =>
    have : step A E evolution savePlot s b = s := by simp [step, h]
    rw [List.foldl_cons, this, ih]

theorem fold_spec {I : S → Prop} {J : T → Prop} {good : B → Prop} {ra : B → Except X O}
    {re : B → Except X Q} (hA : Reusable A I good ra) (hE : Reusable E J good re)
    (evolution : O → Q → Except Error R) (error : O → Q → R)
    (hev : ∀ o q, evolution o q = .ok (error o q)) (bs : List B) (hb : ∀ b ∈ bs, good b)
    (s : State S T B R X) (hs : s.raised = none) (hI : I s.approximation) (hJ : J s.exact) :
    let t := bs.foldl (step A E evolution false) s
    t.raised = none ∧ I t.approximation ∧ J t.exact ∧
    t.results = s.results ++ resultsOf (outcome ra re error) bs ∧
    t.warnings = s.warnings ++ warningsOf (outcome ra re error) bs := by
  induction bs generalizing s with
  | nil => exact ⟨hs, hI, hJ, by simp [resultsOf], by simp [warningsOf]⟩
  | cons b bs ih =>
    intro t
    obtain ⟨h1, h2, h3, h4⟩ := step_spec A E hA hE evolution error hev false s hs hI hJ b (hb b (by simp))
    have hbs : ∀ b ∈ bs, good b := fun c hc => hb c (List.mem_cons_of_mem _ hc)
    cases ho : outcome ra re error b with
    | inl r =>
      obtain ⟨q1, q2, q3⟩ := h4 r ho
      obtain ⟨r1, r2, r3, r4, r5⟩ := ih hbs (step A E evolution false s b) q3 h1 h2
      refine ⟨r1, r2, r3, r4.trans ?_, r5.trans ?_⟩
      · rw [q1]; simp [resultsOf, ho]
      · rw [q2]; simp [warningsOf, ho]
    | inr x =>
      obtain ⟨q1, q2, q3⟩ := h3 x ho
      obtain ⟨r1, r2, r3, r4, r5⟩ := ih hbs (step A E evolution false s b) q3 h1 h2
      refine ⟨r1, r2, r3, r4.trans ?_, r5.trans ?_⟩
      · rw [q1]; simp [resultsOf, ho]
      · rw [q2]; simp [warningsOf, ho]

/-- C99.  An error series without saved plots: it never raises, it collects, in the order of the
benchmarks, exactly the errors of those benchmarks on which both solvers succeed, and warns about the
others.  What it collects for a benchmark does not depend on the other benchmarks, in particular not on
earlier failures. -/
theorem C99_series {I : S → Prop} {J : T → Prop} {good : B → Prop} {ra : B → Except X O}
    {re : B → Except X Q} (hA : Reusable A I good ra) (hE : Reusable E J good re)
    (evolution : O → Q → Except Error R) (error : O → Q → R)
    (hev : ∀ o q, evolution o q = .ok (error o q)) (a : S) (e : T) (ha : I a) (he : J e)
    (bs : List B) (hb : ∀ b ∈ bs, good b) :
    let t := series A E evolution false a e bs
    t.raised = none ∧ t.results = resultsOf (outcome ra re error) bs ∧
    t.warnings = warningsOf (outcome ra re error) bs ∧
    t.results.length + t.warnings.length = bs.length := by
  intro t
  obtain ⟨h1, -, -, h4, h5⟩ := fold_spec A E hA hE evolution error hev bs hb
    { approximation := a, exact := e } rfl ha he
  refine ⟨h1, by simpa [t, series] using h4, by simpa [t, series] using h5, ?_⟩
  have e4 : t.results = resultsOf (outcome ra re error) bs := by simpa [t, series] using h4
  have e5 : t.warnings = warningsOf (outcome ra re error) bs := by simpa [t, series] using h5
  rw [e4, e5]
  clear * -
  induction bs with
  | nil => rfl
  | cons b bs ih =>
    simp only [resultsOf, warningsOf, List.filterMap_cons] at ih ⊢
    cases outcome ra re error b <;> simp at ih ⊢ <;> omega

/-- C99.  An exception when a solver is prepared for a benchmark (`reinitialize`) is not turned into a warning: it ends
the series, and what was collected before stays. -/
theorem C99_reinitialize {I : S → Prop} {J : T → Prop} {good : B → Prop} {ra : B → Except X O}
    {re : B → Except X Q} (hA : Reusable A I good ra) (hE : Reusable E J good re)
    (evolution : O → Q → Except Error R) (error : O → Q → R)
    (hev : ∀ o q, evolution o q = .ok (error o q)) (a : S) (e : T) (ha : I a) (he : J e)
    (before after : List B) (hb : ∀ b ∈ before, good b) (b : B) (x : X)
    (h : (∀ a, I a → (A.reinitialize a b).2 = some x) ∨
      (∀ a, I a → (A.reinitialize a b).2 = none) ∧ ∀ e, J e → (E.reinitialize e b).2 = some x) :
    let t := series A E evolution false a e (before ++ b :: after)
    t.raised = some (.solver x) ∧ t.results = resultsOf (outcome ra re error) before ∧
    t.warnings = warningsOf (outcome ra re error) before := by
  intro t
  obtain ⟨h1, h2, h3, h4, h5⟩ := fold_spec A E hA hE evolution error hev before hb
    { approximation := a, exact := e } rfl ha he
  have ht : t = (b :: after).foldl (step A E evolution false)
      (before.foldl (step A E evolution false) { approximation := a, exact := e }) := by
    simp only [t, series, List.foldl_append]
  generalize before.foldl (step A E evolution false) { approximation := a, exact := e } = s at ht h1 h2 h3 h4 h5
  have hstep : (step A E evolution false s b).raised = some (.solver x) ∧
      (step A E evolution false s b).results = s.results ∧ (step A E evolution false s b).warnings = s.warnings := by
    rcases h with h | ⟨h, h'⟩
    · have := h _ h2
      rcases hr : A.reinitialize s.approximation b with ⟨a', xa⟩
      rw [hr] at this
      simp only at this
      subst this
      simp [step, h1, hr]
    · have e1 := h _ h2
      have e2 := h' _ h3
      rcases hr : A.reinitialize s.approximation b with ⟨a', xa⟩
      rcases hr' : E.reinitialize s.exact b with ⟨e', xe⟩
      rw [hr] at e1
      rw [hr'] at e2
      simp only at e1 e2
      subst e1 e2
      simp [step, h1, hr, hr']
  rw [List.foldl_cons, foldl_raised A E evolution false after _ _ hstep.1] at ht
  rw [ht]
  refine ⟨hstep.1, ?_, ?_⟩
  · rw [hstep.2.1, h4]; simp
  · rw [hstep.2.2, h5]; simp

/-- A solver that cannot be prepared for the benchmarks from 3 on, and whose run fails for benchmark 1. -/
def picky : Machine ℕ ℕ ℕ String where
  reinitialize s b := if 3 ≤ b then (s, some "index") else (b, none)
  solve s := (s, if s = 1 then some "cfl" else none)
  view s := s * s

/-- The hypotheses of `C99_reinitialize` are met by it: the series stops at the benchmark 3. -/
example : Reusable picky (fun _ => True) (fun b => b < 3) (fun b => if b = 1 then .error "cfl" else .ok (b * b)) ∧
    (∀ a, True → (picky.reinitialize a 3).2 = some "index") ∧
    (series picky picky (fun o q => .ok (o + q)) false 0 0 [0, 1, 2, 3, 0]).raised = some (.solver "index") ∧
    (series picky picky (fun o q => .ok (o + q)) false 0 0 [0, 1, 2, 3, 0]).results = [0, 8] ∧
    (series picky picky (fun o q => .ok (o + q)) false 0 0 [0, 1, 2, 3, 0]).warnings = [(1, "cfl")] := by
  refine ⟨⟨?_, ?_, ?_, ?_⟩, ?_, by decide +kernel, by decide +kernel, by decide +kernel⟩
  · intro s b _ hb
    simp [picky, Nat.not_le.mpr hb]
  · intro s _
    trivial
  · intro s b x _ hb h
    by_cases h1 : b = 1
    · subst h1
      simp_all [picky]
    · simp [h1] at h
  · intro s b o _ hb h
    by_cases h1 : b = 1
    · simp [h1] at h
    · simp [h1] at h
      subst h
      simp [picky, Nat.not_le.mpr hb, h1]
  · intro a _
    simp [picky]

/-- C99.  With saved plots the series raises `TypeError` after the first benchmark on which both solvers
succeed; it ends without exception only if there is none. -/
theorem C99_save_plot {I : S → Prop} {J : T → Prop} {good : B → Prop} {ra : B → Except X O}
    {re : B → Except X Q} (hA : Reusable A I good ra) (hE : Reusable E J good re)
    (evolution : O → Q → Except Error R) (error : O → Q → R)
    (hev : ∀ o q, evolution o q = .ok (error o q)) (a : S) (e : T) (ha : I a) (he : J e)
    (bs : List B) (hb : ∀ b ∈ bs, good b) :
    let t := series A E evolution true a e bs
    (resultsOf (outcome ra re error) bs = [] → t.raised = none ∧ t.results = []) ∧
    (∀ r rs, resultsOf (outcome ra re error) bs = r :: rs →
      t.raised = some (.command .typeError) ∧ t.results = [r]) := by
  have key : ∀ (bs : List B), (∀ b ∈ bs, good b) → ∀ s : State S T B R X, s.raised = none →
      I s.approximation → J s.exact →
      (resultsOf (outcome ra re error) bs = [] →
        (bs.foldl (step A E evolution true) s).raised = none ∧
        (bs.foldl (step A E evolution true) s).results = s.results) ∧
      (∀ r rs, resultsOf (outcome ra re error) bs = r :: rs →
        (bs.foldl (step A E evolution true) s).raised = some (.command .typeError) ∧
        (bs.foldl (step A E evolution true) s).results = s.results ++ [r]) := by
    intro bs
    induction bs with
    | nil => intro _ s hs _ _; exact ⟨fun _ => ⟨hs, rfl⟩, fun r rs h => by cases h⟩
    | cons b bs ih =>
      intro hb s hs hI hJ
      obtain ⟨h1, h2, h3, h4⟩ := step_spec A E hA hE evolution error hev true s hs hI hJ b
        (hb b (by simp))
      have hbs : ∀ b ∈ bs, good b := fun c hc => hb c (List.mem_cons_of_mem _ hc)
      cases ho : outcome ra re error b with
      | inl r =>
        obtain ⟨q1, q2, q3⟩ := h4 r ho
        have hf := foldl_raised A E evolution true bs (step A E evolution true s b) _ q3
        have hr : resultsOf (outcome ra re error) (b :: bs) =
            r :: resultsOf (outcome ra re error) bs := by simp [resultsOf, ho]
        rw [List.foldl_cons, hf, hr]
        refine ⟨fun h => (by cases h), fun r' rs h => ?_⟩
        obtain ⟨rfl, -⟩ := List.cons.inj h
        exact ⟨q3, q1⟩
      | inr x =>
        obtain ⟨q1, q2, q3⟩ := h3 x ho
        have hr : resultsOf (outcome ra re error) (b :: bs) =
            resultsOf (outcome ra re error) bs := by simp [resultsOf, ho]
        rw [List.foldl_cons, hr, ← q1]
        exact ih hbs _ q3 h1 h2
  intro t
  obtain ⟨h1, h2⟩ := key bs hb { approximation := a, exact := e } rfl ha he
  exact ⟨h1, fun r rs h => by simpa [t, series] using h2 r rs h⟩

/-- C99.  A parameter variation test runs one series after the other on the same solvers; each series
has the results it would have on new solvers.  The test ends with `ValueError` at the first series in
which no benchmark could be solved by both. -/
theorem C99_tests {I : S → Prop} {J : T → Prop} {good : B → Prop} {ra : B → Except X O}
    {re : B → Except X Q} (hA : Reusable A I good ra) (hE : Reusable E J good re)
    (evolution : O → Q → Except Error R) (error : O → Q → R)
    (hev : ∀ o q, evolution o q = .ok (error o q)) (a : S) (e : T) (ha : I a) (he : J e)
    (lists : List (List B)) (hb : ∀ bs ∈ lists, ∀ b ∈ bs, good b) :
    (∀ bs ∈ lists, resultsOf (outcome ra re error) bs ≠ []) ∧
      tests A E evolution false a e lists =
        (lists.map (resultsOf (outcome ra re error)), none) ∨
    ∃ before bs after, lists = before ++ bs :: after ∧ resultsOf (outcome ra re error) bs = [] ∧
      (∀ cs ∈ before, resultsOf (outcome ra re error) cs ≠ []) ∧
      tests A E evolution false a e lists =
        (before.map (resultsOf (outcome ra re error)), some (.command .valueError)) := by
  induction lists generalizing a e with
  | nil => exact Or.inl ⟨by simp, rfl⟩
  | cons bs lists ih =>
    obtain ⟨h1, h2, h3, h4, -⟩ := fold_spec A E hA hE evolution error hev bs (hb bs (by simp))
      { approximation := a, exact := e } rfl ha he
    have hr : (series A E evolution false a e bs).raised = none := h1
    have hres : (series A E evolution false a e bs).results =
        resultsOf (outcome ra re error) bs := by simpa [series] using h4
    by_cases hnil : resultsOf (outcome ra re error) bs = []
    · right
      refine ⟨[], bs, lists, rfl, hnil, by simp, ?_⟩
      simp [tests, hr, hres, hnil]
    · have hne : (resultsOf (outcome ra re error) bs).isEmpty = false := by
        simpa [List.isEmpty_iff] using hnil
      have hstep : tests A E evolution false a e (bs :: lists) =
          (resultsOf (outcome ra re error) bs ::
            (tests A E evolution false (series A E evolution false a e bs).approximation
              (series A E evolution false a e bs).exact lists).1,
            (tests A E evolution false (series A E evolution false a e bs).approximation
              (series A E evolution false a e bs).exact lists).2) := by
        simp only [tests, hr, hres, hne]
        rfl
      rcases ih (series A E evolution false a e bs).approximation
          (series A E evolution false a e bs).exact h2 h3
          (fun cs hcs => hb cs (List.mem_cons_of_mem _ hcs)) with
        ⟨q1, q2⟩ | ⟨bf, cs, af, q1, q2, q3, q4⟩
      · left
        refine ⟨?_, by rw [hstep, q2]; rfl⟩
        intro cs hcs
        rcases List.mem_cons.mp hcs with rfl | hcs
        · exact hnil
        · exact q1 cs hcs
      · right
        refine ⟨bs :: bf, cs, af, by rw [q1]; rfl, q2, ?_, by rw [hstep, q4]; rfl⟩
        intro ds hds
        rcases List.mem_cons.mp hds with rfl | hds
        · exact hnil
        · exact q3 ds hds

end Series

/-! ### The solvers of the project are reusable -/

section Objects
variable {K V : Type*} [Field K] [LinearOrder K] [IsStrictOrderedRing K] [AddCommGroup V] [Module K V]

/-- C99.  The solver objects of C93, with adaptive steps or steps that do not depend on the solution, are
reusable for benchmarks with finite initial values and the same start time: the run on a benchmark is
the run of a new solver. -/
theorem C99_objects (p : Solver.Params K V) (t0 : K)
    (hstep : p.adaptive = true ∨ ∀ t u t' u', p.optimal t u = p.optimal t' u') (n : ℕ) :
    Reusable (objMachine p n) (Solver.Reachable p t0)
      (fun b => b.startTime = t0 ∧ p.finite b.initial = true)
      (fun b => match (Solver.solve p (Solver.Obj.make p b) n).2 with
        | .raised e => .error e
        | _ => .ok (Solver.solve p (Solver.Obj.make p b) n).1.sol) where
  reinitialize s b hs hb := by
    obtain ⟨o', e, -⟩ := Solver.C93_reinitialize p s b hb.2
      (by rw [hb.1]; exact (Solver.reachable_after p t0 s hs).1.times) (by
        rcases hstep with h | h
        · exact Or.inl h
        · exact Or.inr ((Solver.reachable_after p t0 s hs).2 h _ _))
    refine ⟨?_, .reinitialize s b hb.1 hs⟩
    change (s.reinitialize p b).2 = none
    rw [e]
  invariant s hs := .solve s n hs
  raises s b x hs hb hx := by
    obtain ⟨h1, -⟩ := Solver.C93_series p t0 s hs b hb.1 hb.2 hstep n
    simp only [objMachine]
    rw [h1]
    split at hx
    · rename_i e he
      rw [he]
      exact congrArg some (Except.error.inj hx)
    · cases hx
  returns s b o hs hb ho := by
    obtain ⟨h1, h2⟩ := Solver.C93_series p t0 s hs b hb.1 hb.2 hstep n
    simp only [objMachine]
    rw [h1, h2]
    split at ho
    · cases ho
    · rename_i he
      refine ⟨?_, Except.ok.inj ho⟩
      split
      · rename_i e he'
        exact absurd he' (he e)
      · rfl

/-- A series of two benchmarks with one solver as approximation and as exact solver. -/
example : let p := Solver.decay
    let t := series (objMachine p 3) (objMachine p 3) (fun o q => .ok (o.values.length, q.values.length))
      false (Solver.Obj.make p ⟨1, 0, 1⟩) (Solver.Obj.make p ⟨1, 0, 1⟩) [⟨5, 0, 1⟩, ⟨7, 0, 1⟩]
    t.results = [(3, 3), (3, 3)] ∧ t.raised.isNone ∧ t.warnings.length = 0 := by
  decide +kernel

end Objects

/-! ### The benchmarks of a variation -/

/-- C99.  Which variations are tested: none without the option, all if `all` is named, else those named,
in that order; an unknown name is a `KeyError`. -/
theorem C99_variations {A : Type*} (table : List (String × A)) :
    buildVariations table none = .ok [] ∧
    (∀ keys, "all" ∈ keys → buildVariations table (some keys) = .ok (table.map Prod.snd)) ∧
    (∀ keys, "all" ∉ keys → (∀ k ∈ keys, (table.lookup k).isSome) →
      ∃ vs, buildVariations table (some keys) = .ok vs ∧ vs.length = keys.length ∧
        ∀ (i : ℕ) (hi : i < keys.length) (hv : i < vs.length), table.lookup keys[i] = some vs[i]) ∧
    (∀ keys, "all" ∉ keys → (∃ k ∈ keys, table.lookup k = none) →
      buildVariations table (some keys) = .error .keyError) := by
  refine ⟨rfl, fun keys h => by simp [buildVariations, h], fun keys h hk => ?_, fun keys h hk => ?_⟩
  · simp only [buildVariations, h, if_false]
    clear h
    induction keys with
    | nil => exact ⟨[], rfl, rfl, by simp⟩
    | cons k keys ih =>
      obtain ⟨vs, h1, h2, h3⟩ := ih fun x hx => hk x (List.mem_cons_of_mem _ hx)
      obtain ⟨v, hv⟩ := Option.isSome_iff_exists.mp (hk k (by simp))
      refine ⟨v :: vs, by rw [List.mapM_cons, hv, h1]; rfl, by simp [h2], fun i hi hv' => ?_⟩
      cases i with
      | zero => exact hv
      | succ i => exact h3 i (by simpa using hi) (by simpa using hv')
  · simp only [buildVariations, h, if_false]
    clear h
    induction keys with
    | nil => obtain ⟨k, hk, -⟩ := hk; simp at hk
    | cons k keys ih =>
      rw [List.mapM_cons]
      cases hv : table.lookup k with
      | none => rfl
      | some v =>
        obtain ⟨k', hk', hn⟩ := hk
        rcases List.mem_cons.mp hk' with rfl | hk'
        · rw [hv] at hn; cases hn
        · have h := ih ⟨k', hk', hn⟩
          simp only [h]
          rfl

open Verif.Bench

/-- Two benchmarks have the same velocity parameters, phases and end time. -/
structure SameBut (b c : Oscillation) : Prop where
  endTime : b.endTime = c.endTime
  heightPhaseShift : b.heightPhaseShift = c.heightPhaseShift
  velocityAverage : b.velocityAverage = c.velocityAverage
  velocityAmplitude : b.velocityAmplitude = c.velocityAmplitude
  velocityPhaseShift : b.velocityPhaseShift = c.velocityPhaseShift
  velocityWaveNumber : b.velocityWaveNumber = c.velocityWaveNumber

/-- The parameter varied, as a function of the benchmark, and what else is kept. -/
def Varies (v : Variation) (b c : Oscillation) (x y : ℝ) : Prop :=
  SameBut b c ∧
  (v.key = "height-average" → b.heightAverage = x ∧ c.heightAverage = y ∧
    b.heightAmplitude = c.heightAmplitude ∧ b.heightWaveNumber = 2 ∧ c.heightWaveNumber = 2) ∧
  (v.key = "wave-number" → b.heightWaveNumber = x ∧ c.heightWaveNumber = y ∧
    b.heightAmplitude = c.heightAmplitude ∧ b.heightAverage = c.heightAverage) ∧
  (v.key = "amplitude" → b.heightAmplitude = x ∧ c.heightAmplitude = y ∧
    b.heightAverage = c.heightAverage ∧ b.heightWaveNumber = c.heightWaveNumber)

theorem random_varies {σ : Type*} (r : Rng σ) (v : Variation) (hv : v ∈ parameterVariations) (seed : ℤ)
    (T x y : ℝ) (hx : x ≠ 0) (hy : y ≠ 0) :
    Varies v (Oscillation.random r seed T (v.args x)) (Oscillation.random r seed T (v.args y)) x y := by
  simp only [parameterVariations, List.mem_cons, List.not_mem_nil, or_false] at hv
  rcases hv with rfl | rfl | rfl
  · refine ⟨⟨?_, ?_, ?_, ?_, ?_, ?_⟩, ?_, ?_, ?_⟩ <;>
      simp [heightAverageVariation, Oscillation.random, orDraw, hx, hy, Oscillation.make, ifNotNone]
  · refine ⟨⟨?_, ?_, ?_, ?_, ?_, ?_⟩, ?_, ?_, ?_⟩ <;>
      simp [waveNumberVariation, Oscillation.random, orDraw, hx, hy, Oscillation.make, ifNotNone]
  · refine ⟨⟨?_, ?_, ?_, ?_, ?_, ?_⟩, ?_, ?_, ?_⟩ <;>
      simp [amplitudeVariation, Oscillation.random, orDraw, hx, hy, Oscillation.make, ifNotNone]

/-- C99.  The series of a variation are comparable: for two values of the parameter the generators,
started with the same seed, deliver benchmarks with the same seeds that differ only in the varied
parameter. -/
theorem C99_benchmarks {σ : Type*} (r : Rng σ) (v : Variation) (hv : v ∈ parameterVariations)
    (seed : ℤ) (endTime : Option ℝ) (n : ℕ) (x y : ℝ) (hx : x ∈ v.values) (hy : y ∈ v.values) :
    (benchmarks r seed endTime (v.args x) n).length = n ∧
    ∀ (i : ℕ) (h : i < (benchmarks r seed endTime (v.args x) n).length)
      (h' : i < (benchmarks r seed endTime (v.args y) n).length),
      (benchmarks r seed endTime (v.args x) n)[i].1 = (benchmarks r seed endTime (v.args y) n)[i].1 ∧
      Varies v (benchmarks r seed endTime (v.args x) n)[i].2
        (benchmarks r seed endTime (v.args y) n)[i].2 x y := by
  have hne : ∀ z ∈ v.values, z ≠ 0 := by
    simp only [parameterVariations, List.mem_cons, List.not_mem_nil, or_false] at hv
    intro z hz
    rcases hv with rfl | rfl | rfl <;>
      simp only [heightAverageVariation, waveNumberVariation, amplitudeVariation, List.mem_cons,
        List.not_mem_nil, or_false] at hz <;>
      rcases hz with rfl | rfl | rfl <;> norm_num
  have hlen : ∀ (g : RandomGenerator σ) (n : ℕ), (g.calls r (List.replicate n none)).length = n := by
    intro g n
    induction n generalizing g with
    | zero => rfl
    | succ n ih => simp only [List.replicate_succ, RandomGenerator.calls, List.length_cons, ih]
  have key : ∀ (n : ℕ) (s : σ) (T : ℝ) (i : ℕ)
      (h : i < ((RandomGenerator.mk s T (v.args x)).calls r (List.replicate n none)).length)
      (h' : i < ((RandomGenerator.mk s T (v.args y)).calls r (List.replicate n none)).length),
      ((RandomGenerator.mk s T (v.args x)).calls r (List.replicate n none))[i].1 =
        ((RandomGenerator.mk s T (v.args y)).calls r (List.replicate n none))[i].1 ∧
      Varies v ((RandomGenerator.mk s T (v.args x)).calls r (List.replicate n none))[i].2
        ((RandomGenerator.mk s T (v.args y)).calls r (List.replicate n none))[i].2 x y := by
    intro n
    induction n with
    | zero => intro s T i h; simp [RandomGenerator.calls] at h
    | succ n ih =>
      intro s T i h h'
      simp only [List.replicate_succ, RandomGenerator.calls, RandomGenerator.call] at h h' ⊢
      cases i with
      | zero => exact ⟨rfl, random_varies r v hv _ T x y (hne x hx) (hne y hy)⟩
      | succ i => exact ih _ T i (by simpa using h) (by simpa using h')
  exact ⟨hlen _ n, fun i h h' => key n _ _ i h h'⟩

/-- The values of the variations. -/
example : heightAverageVariation ∈ parameterVariations ∧ (16 / 10 : ℝ) ∈ heightAverageVariation.values ∧
    (24 / 10 : ℝ) ∈ heightAverageVariation.values := by
  refine ⟨by simp [parameterVariations], ?_, ?_⟩ <;>
    simp only [heightAverageVariation, List.mem_cons, List.not_mem_nil, or_false] <;> norm_num

/-- C99.  The values tested: no value is zero, so each is used and not drawn at random, and no value is tested twice. -/
theorem C99_values :
    parameterVariations.map Variation.key = ["height-average", "wave-number", "amplitude"] ∧
    parameterVariations.map Variation.values = [[16 / 10, 24 / 10], [10, 15], [8 / 10, 1, 15 / 10]] ∧
    ∀ v ∈ parameterVariations, v.values.Nodup ∧ ∀ x ∈ v.values, 0 < x := by
  refine ⟨rfl, ?_, ?_⟩
  · simp only [parameterVariations, heightAverageVariation, waveNumberVariation, amplitudeVariation, List.map_cons,
      List.map_nil]
    norm_num
  · intro v hv
    simp only [parameterVariations, List.mem_cons, List.not_mem_nil, or_false] at hv
    rcases hv with rfl | rfl | rfl
    · simp only [heightAverageVariation]
      norm_num
    · simp only [waveNumberVariation]
      norm_num
    · simp only [amplitudeVariation]
      norm_num

end Verif.Series
