import Verif.Core.Present
import Verif.Props.Interpolate
import Mathlib.Tactic.FieldSimp
import Mathlib.Tactic.Positivity
import Mathlib.Tactic.Linarith

/-!
C96 (running and plotting several solvers), C97 (saved plot data), C98 (animations).
-/

set_option linter.unusedSectionVars false

namespace Verif.Present

open Verif.Py

section Solve
variable {S E : Type*}

theorem runLoop_spec (solve : S → S × Option E) (ss : List S) :
    (∀ s ∈ ss, (solve s).2 = none) ∧ runLoop solve ss = (ss.map fun s => (solve s).1, none) ∨
    ∃ before s after e, ss = before ++ s :: after ∧ (∀ x ∈ before, (solve x).2 = none) ∧
      (solve s).2 = some e ∧
      runLoop solve ss = (before.map (fun s => (solve s).1) ++ (solve s).1 :: after, some e) := by
  induction ss with
  | nil => exact Or.inl ⟨by simp, rfl⟩
  | cons s ss ih =>
    rcases hs : solve s with ⟨s', _ | e⟩
    · rcases ih with ⟨h1, h2⟩ | ⟨b, x, a, e, h1, h2, h3, h4⟩
      · left
        refine ⟨?_, ?_⟩
        · intro x hx
          rcases List.mem_cons.mp hx with rfl | hx
          · rw [hs]
          · exact h1 x hx
        · simp only [runLoop, hs, h2, List.map_cons]
      · right
        refine ⟨s :: b, x, a, e, by simp [h1], ?_, h3, ?_⟩
        · intro y hy
          rcases List.mem_cons.mp hy with rfl | hy
          · rw [hs]
          · exact h2 y hy
        · simp only [runLoop, hs, h4, List.map_cons, List.cons_append]
    · right
      exact ⟨[], s, ss, e, rfl, by simp, by rw [hs], by simp [runLoop, hs]⟩

theorem runLoop_single (solve : S → S × Option E) (s : S) :
    runLoop solve [s] = ([(solve s).1], (solve s).2) := by
  unfold runLoop
  rcases solve s with ⟨s', _ | e⟩ <;> rfl

/-- C96.  `calculate` runs the solvers one after the other, each exactly once, until one raises: its
exception is passed on, and the solvers behind it are not run.  Without solvers it raises `TypeError`. -/
theorem C96_calculate (solve : S → S × Option Error) :
    (∀ s, calculate solve (.one s) = (.one (solve s).1, (solve s).2)) ∧
    calculate solve .none = (.none, some .typeError) ∧
    ∀ ss, (∀ s ∈ ss, (solve s).2 = none) ∧
        calculate solve (.many ss) = (.many (ss.map fun s => (solve s).1), none) ∨
      ∃ before s after e, ss = before ++ s :: after ∧ (∀ x ∈ before, (solve x).2 = none) ∧
        (solve s).2 = some e ∧ calculate solve (.many ss) =
          (.many (before.map (fun s => (solve s).1) ++ (solve s).1 :: after), some e) := by
  refine ⟨fun _ => rfl, rfl, fun ss => ?_⟩
  have h : calculate solve (.many ss) = (.many (runLoop solve ss).1, (runLoop solve ss).2) := by
    match ss with
    | [] => rfl
    | [s] => rw [runLoop_single]; rfl
    | a :: b :: c => rfl
  rw [h]
  rcases runLoop_spec solve ss with ⟨h1, h2⟩ | ⟨b, x, a, e, h1, h2, h3, h4⟩
  · exact Or.inl ⟨h1, by rw [h2]⟩
  · exact Or.inr ⟨b, x, a, e, h1, h2, h3, by rw [h4]⟩

/-- Three solvers that count their runs; the second one raises. -/
example : let solve : ℕ × Bool → (ℕ × Bool) × Option Error := fun s =>
      ((s.1 + 1, s.2), if s.2 then none else some .valueError)
    calculate solve (.many [(0, true), (5, false), (7, true)]) =
      (.many [(1, true), (6, false), (7, true)], some .valueError) := rfl

/-- C96.  `plot` and `animate` run every solver exactly once, whatever the others do; the warnings name
exactly the solvers that raised, in their order. -/
theorem C96_catching (solve : S → S × Option E) (ss : List S) :
    (runCatching solve ss).1 = ss.map (fun s => (solve s).1) ∧
    (runCatching solve ss).2 = ss.filterMap (fun s => (solve s).2.map fun e => ((solve s).1, e)) := by
  induction ss with
  | nil => exact ⟨rfl, rfl⟩
  | cons s ss ih =>
    refine ⟨by simp [runCatching, ih.1], ?_⟩
    simp only [runCatching, ih.2, List.filterMap_cons]
    cases (solve s).2 <;> rfl

example : let solve : ℕ × Bool → (ℕ × Bool) × Option Error := fun s =>
      ((s.1 + 1, s.2), if s.2 then none else some .valueError)
    runCatching solve [(0, true), (5, false), (7, true)] =
      ([(1, true), (6, false), (8, true)], [((6, false), .valueError)]) := rfl

/-- C96.  All solvers of a command are built for the same benchmark, whose end time is the one given
with `-T`, if any; they come in the order of the command line, or an exception ends the program. -/
theorem C96_build {A K : Type*} (build : K → A → Except E S) (benchmarkEnd : K) (option : Option K)
    (args : Option (List A)) :
    (args = none → buildSolvers build benchmarkEnd option args = .ok none) ∧
    ∀ as, args = some as →
      (∃ ss, buildSolvers build benchmarkEnd option args = .ok (some ss) ∧ ss.length = as.length ∧
        ∀ (i : ℕ) (hi : i < as.length) (hs : i < ss.length),
          build (match option with | some T => T | none => benchmarkEnd) as[i] = .ok ss[i]) ∨
      ∃ e, buildSolvers build benchmarkEnd option args = .error e ∧ ∃ a ∈ as,
        build (match option with | some T => T | none => benchmarkEnd) a = .error e := by
  refine ⟨fun h => by rw [h]; rfl, fun as has => ?_⟩
  have hT : option.getD benchmarkEnd = (match option with | some T => T | none => benchmarkEnd) := by
    cases option <;> rfl
  subst has
  unfold buildSolvers
  rw [hT]
  generalize (match option with | some T => T | none => benchmarkEnd) = T
  simp only
  induction as with
  | nil => exact Or.inl ⟨[], rfl, rfl, by simp⟩
  | cons a as ih =>
    rw [List.mapM_cons]
    cases ha : build T a with
    | error e => exact Or.inr ⟨e, rfl, a, by simp, ha⟩
    | ok s =>
      rcases ih with ⟨ss, h1, h2, h3⟩ | ⟨e, h1, b, h2, h3⟩
      · left
        refine ⟨s :: ss, ?_, by simp [h2], ?_⟩
        · cases hm : as.mapM (build T) with
          | error e => rw [hm] at h1; cases h1
          | ok ss' =>
            rw [hm] at h1
            have : ss' = ss := Option.some.inj (Except.ok.inj h1)
            subst this
            rfl
        · intro i hi hs
          cases i with
          | zero => exact ha
          | succ i => exact h3 i (by simpa using hi) (by simpa using hs)
      · right
        refine ⟨e, ?_, b, by simp [h2], h3⟩
        cases hm : as.mapM (build T) with
        | error e' =>
          rw [hm] at h1
          have : e' = e := Except.error.inj h1
          subst this
          rfl
        | ok ss' => rw [hm] at h1; cases h1

example : buildSolvers (E := Error) (fun T a => if a = 0 then .error .valueError else .ok (T, a)) 1
    (some 2) (some [3, 4]) = .ok (some [(2, 3), (2, 4)]) := rfl

end Solve

section Plot
variable {K : Type*}

/-- A curve of a figure: grid, values, labels. -/
abbrev Piece (K V : Type*) := List K × List V × List String

/-- The pieces of a plot: the exact solution at the end time if all its values exist, one for each
solver, the initial data if wanted. -/
def pieces {S V : Type*} (read : S → Result K V) (grid : List K) (b : Shown K V)
    (exactLabel initialLabel : List String) (solvers : List S) (initial : Bool) : List (Piece K V) :=
  (match grid.mapM b.exactEnd with
    | .ok values => [(grid, values, exactLabel)]
    | .error _ => []) ++
  solvers.map (fun s => ((read s).grid, (read s).value, [(read s).short])) ++
  (if initial then [(grid, grid.map b.initial, initialLabel)] else [])

theorem addResults_eq {V F : Type*} (add : Add K V F) (p : Plotter F) (rs : List (Result K V)) :
    p.addResults add rs =
      ⟨(rs.map fun r => ((r.grid, r.value, [r.short]) : Piece K V)).foldl
        (fun f c => add f c.1 c.2.1 c.2.2) p.fig, p.available || !rs.isEmpty⟩ := by
  induction rs generalizing p with
  | nil => simp [Plotter.addResults]
  | cons r rs ih => simp [Plotter.addResults, ih]

/-- C96.  `plot` draws the pieces in this order, and nothing else; it reports that there is nothing to
plot exactly if there are none.  A missing exact solution is a warning and does not keep the other
curves from being drawn; so is a solver that raised: it is drawn with the state it has reached. -/
theorem C96_plot {S V F : Type*} (solve : S → S × Option Error) (read : S → Result K V)
    (add : Add K V F) (empty : F) (grid : List K) (b : Shown K V)
    (exactLabel initialLabel : List String) (solvers : Option (List S)) (executed initial : Bool) :
    let out := plot solve read add empty grid b exactLabel initialLabel solvers executed initial
    let after := solvers.map fun ss => if executed then ss else ss.map fun s => (solve s).1
    let ps := pieces read grid b exactLabel initialLabel (after.getD []) initial
    out.solvers = after ∧
    out.shown = (if ps = [] then none else
      some (ps.foldl (fun f c => add f c.1 c.2.1 c.2.2) empty)) ∧
    out.failed = (if executed then [] else (solvers.getD []).filterMap
      (fun s => (solve s).2.map fun e => ((solve s).1, e))) ∧
    (∀ e, out.noExact = some e ↔ grid.mapM b.exactEnd = .error e) := by
  intro out after ps
  have hran : out.solvers = after := by
    cases solvers with
    | none => rfl
    | some ss =>
      cases executed with
      | true => rfl
      | false => simp [out, after, plot, runSolvers, (C96_catching solve ss).1]
  refine ⟨hran, ?_, ?_, ?_⟩
  · have hran' : (runSolvers solve executed solvers).1 = after := hran
    simp only [out, plot, hran']
    simp only [ps]
    unfold pieces Plotter.addFunction
    cases hex : grid.mapM b.exactEnd with
    | ok values =>
      cases hafter : after with
      | none => cases initial <;> simp
      | some ss =>
        simp only [addResults_eq, Option.getD_some]
        cases initial <;>
          simp [List.foldl_append, Function.comp_def]
    | error e =>
      cases hafter : after with
      | none => cases initial <;> simp
      | some ss =>
        simp only [addResults_eq, Option.getD_some]
        cases initial with
        | true => simp [List.foldl_append, Function.comp_def]
        | false => cases ss <;> simp [List.foldl_append, Function.comp_def]
  · cases solvers with
    | none => cases executed <;> rfl
    | some ss =>
      cases executed with
      | true => rfl
      | false => simp [out, plot, runSolvers, (C96_catching solve ss).2]
  · intro e
    simp only [out, plot, Plotter.addFunction]
    cases hex : grid.mapM b.exactEnd with
    | ok values => simp
    | error e' => simp

/-- C96.  The figure of the scalar plotter shows the pieces as they are. -/
theorem C96_scalar_figure (fig : List (Curve K)) (ps : List (Piece K K)) :
    ps.foldl (fun f c => addScalar f c.1 c.2.1 c.2.2) fig =
      fig ++ ps.map (fun c => ⟨c.2.2.headD "", c.1, c.2.1⟩) := by
  induction ps generalizing fig with
  | nil => simp
  | cons c ps ih =>
    rw [List.foldl_cons, ih, List.map_cons, addScalar, List.append_assoc]
    rfl

/-- C96.  The figures of the shallow water plotter show for each piece the surface `h + b`, the
discharge and the velocity. -/
theorem C96_shallow_water_figures [Field K] [LinearOrder K] (P : SWE.Params K) (bathymetry : K → K)
    (fig : Figures K) (ps : List (Piece K (SWE.State K)))
    (hl : ∀ c ∈ ps, c.2.2.length = 1 ∨ c.2.2.length = 3) :
    let out := ps.foldl (fun f c => addShallowWater P bathymetry f c.1 c.2.1 c.2.2) fig
    let name (c : Piece K (SWE.State K)) (i : ℕ) := if h : i < c.2.2.length then c.2.2[i] else c.2.2.headD ""
    out.height = fig.height ++ ps.map (fun c =>
      ⟨name c 0, c.1, List.zipWith (fun u x => u.1 + bathymetry x) c.2.1 c.1⟩) ∧
    out.discharge = fig.discharge ++ ps.map (fun c => ⟨name c 1, c.1, c.2.1.map fun u => u.2⟩) ∧
    out.velocity = fig.velocity ++ ps.map (fun c => ⟨name c 2, c.1, c.2.1.map (SWE.velocity P)⟩) := by
  induction ps generalizing fig with
  | nil => simp
  | cons c ps ih =>
    intro out name
    obtain ⟨h1, h2, h3⟩ := ih (addShallowWater P bathymetry fig c.1 c.2.1 c.2.2)
      (fun d hd => hl d (List.mem_cons_of_mem _ hd))
    have hn : ∀ i < 3, name c i = (if c.2.2.length = 1 then List.replicate 3 (c.2.2.headD "") else
        c.2.2).getD i "" := by
      intro i hi
      rcases hl c (by simp) with h | h
      · rw [if_pos h]
        match hc : c.2.2, h with
        | [a], _ =>
          simp only [name, hc]
          rcases i with _ | _ | _ | i
          · rfl
          · rfl
          · rfl
          · omega
      · rw [if_neg (by omega), List.getD_eq_getElem _ _ (by omega)]
        simp [name, h, hi]
    refine ⟨?_, ?_, ?_⟩
    · change (List.foldl _ (addShallowWater P bathymetry fig c.1 c.2.1 c.2.2) ps).height = _
      rw [h1, List.map_cons, hn 0 (by omega)]
      simp [addShallowWater, name]
    · change (List.foldl _ (addShallowWater P bathymetry fig c.1 c.2.1 c.2.2) ps).discharge = _
      rw [h2, List.map_cons, hn 1 (by omega)]
      simp [addShallowWater, name]
    · change (List.foldl _ (addShallowWater P bathymetry fig c.1 c.2.1 c.2.2) ps).velocity = _
      rw [h3, List.map_cons, hn 2 (by omega)]
      simp [addShallowWater, name]

/-- Two solvers, one of which raises, for a benchmark without exact solution. -/
example :
    let solve : ℚ × Bool → (ℚ × Bool) × Option Error := fun s =>
      ((s.1 + 1, s.2), if s.2 then none else some .valueError)
    let out := plot solve (fun s => ⟨"llf", [0, 1], [s.1, s.1]⟩) addScalar [] [0, 1 / 2, 1]
      ⟨fun x => x, fun _ => .error .attributeError⟩ ["u"] ["u0"] (some [(1, true), (4, false)]) false true
    out.shown = some [⟨"llf", [0, 1], [2, 2]⟩, ⟨"llf", [0, 1], [5, 5]⟩, ⟨"u0", [0, 1 / 2, 1], [0, 1 / 2, 1]⟩] ∧
      out.failed = [((5, false), .valueError)] ∧ out.noExact = some .attributeError := by
  decide +kernel

/-! ### Saved data -/

section Dict
variable {A B : Type*} [DecidableEq A]

theorem dictSet_lookup (d : List (A × B)) (k : A) (v : B) (k' : A) :
    (dictSet d k v).lookup k' = if k' = k then some v else d.lookup k' := by
  induction d with
  | nil =>
    by_cases h : k' = k
    · simp [dictSet, List.lookup, h]
    · simp [dictSet, List.lookup, h, beq_eq_false_iff_ne.mpr h]
  | cons p d ih =>
    obtain ⟨a, b⟩ := p
    unfold dictSet
    by_cases hak : a = k
    · rw [if_pos hak]
      by_cases h : k' = k
      · subst h; subst hak; simp [List.lookup]
      · have : k' ≠ a := fun e => h (e.trans hak)
        simp [List.lookup, h, beq_eq_false_iff_ne.mpr this]
    · rw [if_neg hak]
      by_cases h : k' = a
      · subst h; simp [List.lookup, hak]
      · simp only [List.lookup, beq_eq_false_iff_ne.mpr h, ih]

theorem dictSet_keys (d : List (A × B)) (k : A) (v : B) :
    (dictSet d k v).map Prod.fst = if k ∈ d.map Prod.fst then d.map Prod.fst else d.map Prod.fst ++ [k] := by
  induction d with
  | nil => simp [dictSet]
  | cons p d ih =>
    obtain ⟨a, b⟩ := p
    unfold dictSet
    by_cases hak : a = k
    · simp [hak]
    · have : k ≠ a := fun e => hak e.symm
      rw [if_neg hak]
      simp only [List.map_cons, ih, List.mem_cons, this, false_or]
      split <;> simp

end Dict

theorem foldl_dict_lookup {A B C : Type*} [DecidableEq A] (key : C → A) (val : C → B) (cs : List C)
    (d : List (A × B)) (l : A) :
    (cs.foldl (fun d c => dictSet d (key c) (val c)) d).lookup l =
      (match (cs.filter (fun c => decide (key c = l))).getLast? with
        | some c => some (val c)
        | none => d.lookup l) := by
  induction cs generalizing d with
  | nil => simp
  | cons c cs ih =>
    rw [List.foldl_cons, ih, dictSet_lookup, List.filter_cons]
    by_cases h : key c = l
    · have : l = key c := h.symm
      simp only [h, decide_true, if_true]
      cases hf : cs.filter (fun c => decide (key c = l)) with
      | nil => simp
      | cons x xs =>
        rw [List.getLast?_cons_cons]
        simp [List.getLast?_cons]
    · have : l ≠ key c := fun e => h e.symm
      simp [h, this]

theorem foldl_dict_keys {A B C : Type*} [DecidableEq A] (key : C → A) (val : C → B) (cs : List C)
    (d : List (A × B)) (hd : (d.map Prod.fst).Nodup) :
    ((cs.foldl (fun d c => dictSet d (key c) (val c)) d).map Prod.fst).Nodup ∧
    ∀ l, l ∈ (cs.foldl (fun d c => dictSet d (key c) (val c)) d).map Prod.fst ↔
      l ∈ d.map Prod.fst ∨ ∃ c ∈ cs, key c = l := by
  induction cs generalizing d with
  | nil => simpa using hd
  | cons c cs ih =>
    rw [List.foldl_cons]
    have hk := dictSet_keys d (key c) (val c)
    have hnd : ((dictSet d (key c) (val c)).map Prod.fst).Nodup := by
      rw [hk]
      split
      · exact hd
      · rename_i h
        rw [List.nodup_append]
        refine ⟨hd, by simp, ?_⟩
        intro a ha b hb hab
        rw [List.mem_singleton.mp hb] at hab
        exact h (hab ▸ ha)
    obtain ⟨h1, h2⟩ := ih _ hnd
    refine ⟨h1, fun l => ?_⟩
    rw [h2, hk]
    constructor
    · rintro (h | ⟨c', hc, h⟩)
      · split at h
        · exact Or.inl h
        · rcases List.mem_append.mp h with h | h
          · exact Or.inl h
          · exact Or.inr ⟨c, by simp, (List.mem_singleton.mp h).symm⟩
      · exact Or.inr ⟨c', List.mem_cons_of_mem _ hc, h⟩
    · rintro (h | ⟨c', hc, h⟩)
      · left
        split
        · exact h
        · exact List.mem_append_left _ h
      · rcases List.mem_cons.mp hc with rfl | hc
        · left
          split
          · rename_i hm; rw [← h]; exact hm
          · rw [← h]; simp
        · exact Or.inr ⟨c', hc, h⟩

theorem foldl_dict_nodup {A B C : Type*} [DecidableEq A] (key : C → A) (val : C → B) (cs : List C)
    (d : List (A × B)) (h : (d.map Prod.fst ++ cs.map key).Nodup) :
    cs.foldl (fun d c => dictSet d (key c) (val c)) d = d ++ cs.map fun c => (key c, val c) := by
  induction cs generalizing d with
  | nil => simp
  | cons c cs ih =>
    have hc : key c ∉ d.map Prod.fst := by
      intro hm
      exact (List.nodup_append.mp h).2.2 _ hm _ (by simp) rfl
    have hset : ∀ d : List (A × B), key c ∉ d.map Prod.fst →
        dictSet d (key c) (val c) = d ++ [(key c, val c)] := by
      intro d
      induction d with
      | nil => intro _; rfl
      | cons p d ih =>
        intro hp
        obtain ⟨a, b⟩ := p
        have h1 : a ≠ key c := fun e => hp (by simp [e])
        rw [dictSet, if_neg h1, ih (fun hm => hp (by simp at hm ⊢; exact Or.inr hm))]
        rfl
    rw [List.foldl_cons, hset d hc, ih]
    · simp
    · simpa using h

/-- C97.  The saved plot data have exactly the labels of the curves as keys, each once, with the data of
the last curve of that label.  So they are the curves as drawn if the labels are distinct, … -/
theorem C97_saved (curves : List (Curve K)) :
    ((saveData curves).map Prod.fst).Nodup ∧
    (∀ l, l ∈ (saveData curves).map Prod.fst ↔ ∃ c ∈ curves, c.label = l) ∧
    (∀ before c after, curves = before ++ c :: after → (∀ d ∈ after, d.label ≠ c.label) →
      (saveData curves).lookup c.label = some (c.xs, c.ys)) ∧
    ((curves.map Curve.label).Nodup →
      saveData curves = curves.map fun c => (c.label, c.xs, c.ys)) := by
  unfold saveData
  have hk := foldl_dict_keys Curve.label (fun c => (c.xs, c.ys)) curves [] (by simp)
  refine ⟨hk.1, fun l => by simpa using hk.2 l, ?_, ?_⟩
  · intro before c after h hafter
    rw [foldl_dict_lookup Curve.label (fun c => (c.xs, c.ys)), h]
    have : (after.filter fun d => decide (d.label = c.label)) = [] := by
      rw [List.filter_eq_nil_iff]
      intro d hd
      simpa using hafter d hd
    simp [List.filter_append, List.filter_cons, this]
  · intro h
    rw [foldl_dict_nodup Curve.label (fun c => (c.xs, c.ys)) curves [] (by simpa using h)]
    simp

/-- … and curves are lost if two have the same label: the number of saved curves is the number of
distinct labels. -/
theorem C97_lossy (curves : List (Curve K)) (h : ¬ (curves.map Curve.label).Nodup) :
    (saveData curves).length < curves.length := by
  obtain ⟨h1, h2, -, -⟩ := C97_saved curves
  have hsub : (saveData curves).map Prod.fst ⊆ curves.map Curve.label := by
    intro l hl
    obtain ⟨c, hc, e⟩ := (h2 l).mp hl
    exact e ▸ List.mem_map_of_mem hc
  have hsub' : curves.map Curve.label ⊆ (saveData curves).map Prod.fst := by
    intro l hl
    obtain ⟨c, hc, e⟩ := List.mem_map.mp hl
    exact (h2 l).mpr ⟨c, hc, e⟩
  by_contra hlt
  have hle := not_lt.mp hlt
  have hp := (List.subperm_of_subset h1 hsub)
  have : ((saveData curves).map Prod.fst).Perm (curves.map Curve.label) :=
    hp.perm_of_length_le (by simpa using hle)
  exact h (this.nodup_iff.mp h1)

/-- The same solver on two meshes: both get the label `llf`; only the second curve is saved. -/
example : saveData [(⟨"llf", [0, 1], [2, 3]⟩ : Curve ℚ), ⟨"llf", [0, 1 / 2, 1], [4, 5, 6]⟩] =
    [("llf", [0, 1 / 2, 1], [4, 5, 6])] := by decide +kernel

/-- C97.  Where the data are saved: at the given path, else beside the saved plot, else at the default. -/
theorem C97_path (splitext : String → String × String) :
    (∀ p q, saveDataPath splitext (some p) q = p) ∧
    (∀ q, q ≠ "" → saveDataPath splitext none (some q) = (splitext q).1 ++ ".pkl") ∧
    saveDataPath splitext none none = "data/plot.pkl" := by
  refine ⟨fun _ _ => rfl, fun q hq => ?_, rfl⟩
  simp [saveDataPath, hq]

end Plot

/-! ### Animations -/

section Animate
variable {K : Type*} [Field K] [LinearOrder K] [IsStrictOrderedRing K] [FloorRing K]

theorem union1d_spec (a b : List K) :
    (union1d a b).Pairwise (· < ·) ∧ ∀ t, t ∈ union1d a b ↔ t ∈ a ∨ t ∈ b := by
  have hp := List.perm_insertionSort (· ≤ ·) (a ++ b).dedup
  refine ⟨?_, fun t => ?_⟩
  · have h1 : (union1d a b).Pairwise (· ≤ ·) := List.pairwise_insertionSort _ _
    have h2 : (union1d a b).Nodup := hp.nodup_iff.mpr (List.nodup_dedup _)
    exact (h1.and h2).imp fun h => lt_of_le_of_ne h.1 h.2
  · unfold union1d
    rw [hp.mem_iff, List.mem_dedup, List.mem_append]

theorem unionAll_spec (gs : List (List K)) (hne : gs ≠ []) (hs : ∀ g ∈ gs, g.Pairwise (· < ·)) :
    ∃ out, unionAll gs = .ok out ∧ out.Pairwise (· < ·) ∧ ∀ t, t ∈ out ↔ ∃ g ∈ gs, t ∈ g := by
  cases gs with
  | nil => exact absurd rfl hne
  | cons g gs =>
    have key : ∀ (gs : List (List K)) (g : List K), g.Pairwise (· < ·) →
        (gs.foldl union1d g).Pairwise (· < ·) ∧
        ∀ t, t ∈ gs.foldl union1d g ↔ t ∈ g ∨ ∃ h ∈ gs, t ∈ h := by
      intro gs
      induction gs with
      | nil => intro g hg; exact ⟨hg, by simp⟩
      | cons h gs ih =>
        intro g hg
        obtain ⟨h1, h2⟩ := ih (union1d g h) (union1d_spec g h).1
        refine ⟨h1, fun t => ?_⟩
        rw [List.foldl_cons, h2, (union1d_spec g h).2]
        simp [or_assoc]
    obtain ⟨h1, h2⟩ := key gs g (hs g (by simp))
    exact ⟨_, rfl, h1, fun t => by rw [h2]; simp⟩

theorem mapM_ok_of {A B : Type*} (f : A → Except Error B) (as : List A) (h : ∀ a ∈ as, ∃ b, f a = .ok b) :
    ∃ bs, as.mapM f = .ok bs := by
  induction as with
  | nil => exact ⟨[], rfl⟩
  | cons a as ih =>
    obtain ⟨b, hb⟩ := h a (by simp)
    obtain ⟨bs, hbs⟩ := ih fun x hx => h x (List.mem_cons_of_mem _ hx)
    exact ⟨b :: bs, by rw [List.mapM_cons, hb, hbs]; rfl⟩

theorem mapM_getElem {A B : Type*} (f : A → Except Error B) (as : List A) (bs : List B)
    (h : as.mapM f = .ok bs) : bs.length = as.length ∧
      ∀ (i : ℕ) (hi : i < as.length) (hb : i < bs.length), f as[i] = .ok bs[i] := by
  induction as generalizing bs with
  | nil =>
    have : bs = [] := (Except.ok.inj h).symm
    subst this
    exact ⟨rfl, by simp⟩
  | cons a as ih =>
    rw [List.mapM_cons] at h
    cases ha : f a with
    | error e => rw [ha] at h; cases h
    | ok b =>
      cases hm : as.mapM f with
      | error e => rw [ha, hm] at h; cases h
      | ok bs' =>
        rw [ha, hm] at h
        have : bs = b :: bs' := (Except.ok.inj h).symm
        subst this
        obtain ⟨h1, h2⟩ := ih bs' hm
        refine ⟨by simp [h1], fun i hi hb => ?_⟩
        cases i with
        | zero => exact ha
        | succ i => exact h2 i (by simpa using hi) (by simpa using hb)

/-- What can be animated: histories with one value for each of increasing times, functions that are
defined on the grid at all times. -/
def Animatable.Good {V : Type*} (spatialGrid : List K) : Animatable K V → Prop
  | .history _ _ ts vs => ts ≠ [] ∧ ts.Pairwise (· < ·) ∧ ts.length = vs.length
  | .function f => ∀ x ∈ spatialGrid, ∀ t, ∃ v, f x t = .ok v

/-- What frame `t` of an animatable has to show. -/
def Animatable.Shows {V : Type*} [AddCommGroup V] [Module K V] (spatialGrid : List K) (t : K) :
    Animatable K V → List V → Prop
  | .history n _ ts vs, row => ∃ v : Fin n → V, row = List.ofFn v ∧ Interpolate.PiecewiseLinear ts vs t v
  | .function f, row => row.length = spatialGrid.length ∧
      ∀ (j : ℕ) (hj : j < spatialGrid.length) (hr : j < row.length), f spatialGrid[j] t = .ok row[j]

theorem values_spec {V : Type*} [AddCommGroup V] [Module K V] (spatialGrid frames : List K)
    (a : Animatable K V) (ha : a.Good spatialGrid) :
    ∃ rows, a.values spatialGrid frames = .ok rows ∧ rows.length = frames.length ∧
      ∀ (j : ℕ) (hj : j < frames.length) (hr : j < rows.length), a.Shows spatialGrid frames[j] rows[j] := by
  cases a with
  | history n g ts vs =>
    obtain ⟨h0, h1, h2⟩ := ha
    obtain ⟨out, e, hl, hout⟩ := Interpolate.C60_temporal ts vs h1 h2 h0 frames
    refine ⟨out.map List.ofFn, by simp only [Animatable.values, e], by simp [hl], fun j hj hr => ?_⟩
    have hj' : j < out.length := by omega
    refine ⟨out[j], by simp, hout j hj hj'⟩
  | function f =>
    obtain ⟨rows, hrows⟩ := mapM_ok_of (fun t => spatialGrid.mapM fun x => f x t) frames fun t _ =>
      mapM_ok_of (fun x => f x t) spatialGrid fun x hx => ha x hx t
    obtain ⟨hl, hr⟩ := mapM_getElem _ _ _ hrows
    refine ⟨rows, hrows, hl, fun j hj hj' => ?_⟩
    obtain ⟨h1, h2⟩ := mapM_getElem _ _ _ (hr j hj hj')
    exact ⟨h1, h2⟩

theorem startIndex_spec (start : K) (frames : List K) :
    (∀ i, startIndex start frames = .ok i ↔ i < frames.length ∧ (∀ t ∈ frames.drop i |>.head?, start ≤ t) ∧
      ∀ t ∈ frames.take i, t < start) ∧
    (∀ e, startIndex start frames = .error e ↔ e = .indexError ∧ ∀ t ∈ frames, t < start) := by
  unfold startIndex
  constructor
  · intro i
    cases h : frames.findIdx? (fun t => decide (start ≤ t)) with
    | none =>
      simp only [reduceCtorEq, false_iff]
      rintro ⟨hi, h1, -⟩
      have hn := List.findIdx?_eq_none_iff.mp h
      have := hn frames[i] (List.getElem_mem hi)
      simp only [decide_eq_false_iff_not] at this
      refine this (h1 _ ?_)
      simp [List.head?_drop, hi]
    | some j =>
      obtain ⟨hj, h1, h2⟩ := List.findIdx?_eq_some_iff_getElem.mp h
      simp only [decide_eq_true_eq] at h1
      simp only [Except.ok.injEq]
      constructor
      · rintro rfl
        refine ⟨hj, ?_, ?_⟩
        · intro t ht
          simp only [List.head?_drop, hj, List.getElem?_eq_getElem, Option.mem_def, Option.some.injEq] at ht
          exact ht ▸ h1
        · intro t ht
          obtain ⟨k, hk, rfl⟩ := List.getElem_of_mem ht
          rw [List.length_take] at hk
          have := h2 k (by omega)
          rw [List.getElem_take]
          simpa using this
      · rintro ⟨hi, q1, q2⟩
        have hi' : start ≤ frames[i] := q1 _ (by simp [List.head?_drop, hi])
        rcases lt_trichotomy i j with hlt | heq | hgt
        · have := h2 i hlt
          simp only [decide_eq_true_eq, not_le] at this
          exact absurd hi' (not_le.mpr this)
        · exact heq.symm
        · have : frames[j] ∈ frames.take i := by
            rw [List.mem_take_iff_getElem]
            exact ⟨j, by omega, rfl⟩
          exact absurd h1 (not_le.mpr (q2 _ this))
  · intro e
    cases h : frames.findIdx? (fun t => decide (start ≤ t)) with
    | none =>
      have hn := List.findIdx?_eq_none_iff.mp h
      simp only [decide_eq_false_iff_not, not_le] at hn
      simp only [Except.error.injEq]
      exact ⟨fun he => ⟨he.symm, hn⟩, fun he => he.1.symm⟩
    | some j =>
      obtain ⟨hj, h1, h2⟩ := List.findIdx?_eq_some_iff_getElem.mp h
      simp only [decide_eq_true_eq] at h1
      simp only [reduceCtorEq, false_iff]
      rintro ⟨-, hall⟩
      exact absurd h1 (not_le.mpr (hall _ (List.getElem_mem hj)))

/-- C98.  An animation: its frames are, in increasing order, all the times not before the start time
that were recorded by a solver or belong to the temporal grid of the benchmark (if a function is
animated).  Every frame shows for every solver the piecewise linear interpolant of its history, so at a
recorded time the recorded value, and for every function its values at that time.  If there is nothing
to show, nothing is animated; if there is no time left after the start time, `IndexError` is raised. -/
theorem C98_animate {V : Type*} [AddCommGroup V] [Module K V] (spatialGrid temporalGrid : List K)
    (ht : temporalGrid.Pairwise (· < ·)) (benchmarkStart : K) (start duration : Option K)
    (as : List (Animatable K V)) (ha : ∀ a ∈ as, a.Good spatialGrid) :
    let t0 := match start with
      | some t => if t = 0 then benchmarkStart else t
      | none => benchmarkStart
    let times (a : Animatable K V) := a.times temporalGrid
    (as = [] → animate spatialGrid temporalGrid benchmarkStart start duration as = .ok none) ∧
    (as ≠ [] → (∀ a ∈ as, ∀ t ∈ times a, t < t0) →
      animate spatialGrid temporalGrid benchmarkStart start duration as = .error .indexError) ∧
    (∀ a ∈ as, ∀ t ∈ times a, t0 ≤ t → ∃ clip,
      animate spatialGrid temporalGrid benchmarkStart start duration as = .ok (some clip) ∧
      clip.times.Pairwise (· < ·) ∧
      (∀ t, t ∈ clip.times ↔ t0 ≤ t ∧ ∃ a ∈ as, t ∈ times a) ∧
      clip.lines.length = as.length ∧
      ∀ (i : ℕ) (hi : i < as.length) (hl : i < clip.lines.length),
        clip.lines[i].1 = as[i].grid spatialGrid ∧ clip.lines[i].2.length = clip.times.length ∧
        ∀ (j : ℕ) (hj : j < clip.times.length) (hr : j < clip.lines[i].2.length),
          as[i].Shows spatialGrid clip.times[j] clip.lines[i].2[j]) := by
  intro t0 times
  have setup : as ≠ [] → ∃ grid values, unionAll (as.map (Animatable.times temporalGrid)) = .ok grid ∧
      grid.Pairwise (· < ·) ∧ (∀ t, t ∈ grid ↔ ∃ a ∈ as, t ∈ times a) ∧
      as.mapM (Animatable.values spatialGrid grid) = .ok values ∧
      animate spatialGrid temporalGrid benchmarkStart start duration as =
        (match startIndex t0 grid with
        | .error e => .error e
        | .ok first => .ok (some
            { times := grid.drop first
              lines := List.zipWith (fun a v => (a.grid spatialGrid, v.drop first)) as values
              interval := ⌊orElse duration 20 / ((grid.length - first : ℕ) : K) * 1000⌋
              fps := ⌊((grid.length - first : ℕ) : K) / orElse duration 20⌋ })) := by
    intro hne
    obtain ⟨grid, h1, h2, h3⟩ := unionAll_spec (as.map (Animatable.times temporalGrid)) (by simpa using hne)
      (by
        intro g hg
        obtain ⟨a, hm, rfl⟩ := List.mem_map.mp hg
        have := ha a hm
        cases a with
        | history n g ts vs => exact this.2.1
        | function f => exact ht)
    obtain ⟨values, hv⟩ := mapM_ok_of (Animatable.values spatialGrid grid) as fun a hm =>
      (values_spec spatialGrid grid a (ha a hm)).imp fun _ h => h.1
    refine ⟨grid, values, h1, h2, fun t => by rw [h3]; simp [times], hv, ?_⟩
    unfold animate
    split
    · exact absurd rfl hne
    · simp only [h1, hv]
      rfl
  refine ⟨?_, ?_, ?_⟩
  · rintro rfl; rfl
  · intro hne hall
    obtain ⟨grid, values, -, -, h3, -, h5⟩ := setup hne
    rw [h5, ((startIndex_spec t0 grid).2 .indexError).mpr ⟨rfl, fun t htg => ?_⟩]
    obtain ⟨a, hm, hta⟩ := (h3 t).mp htg
    exact hall a hm t hta
  · intro a hm t hta htt
    have hne : as ≠ [] := by rintro rfl; simp at hm
    obtain ⟨grid, values, -, h2, h3, h4, h5⟩ := setup hne
    have hex : ∃ i, startIndex t0 grid = .ok i := by
      cases h : startIndex t0 grid with
      | ok i => exact ⟨i, rfl⟩
      | error e =>
        have := ((startIndex_spec t0 grid).2 e).mp h
        exact absurd htt (not_le.mpr (this.2 t ((h3 t).mpr ⟨a, hm, hta⟩)))
    obtain ⟨i0, hi0⟩ := hex
    obtain ⟨g1, g2, g3⟩ := ((startIndex_spec t0 grid).1 i0).mp hi0
    rw [hi0] at h5
    obtain ⟨hvl, hvg⟩ := mapM_getElem _ _ _ h4
    have hdrop : ∀ s ∈ grid.drop i0, t0 ≤ s := by
      intro s hs
      have hcons : grid.drop i0 = grid[i0] :: grid.drop (i0 + 1) := List.drop_eq_getElem_cons g1
      have h0 : t0 ≤ grid[i0] := g2 _ (by rw [hcons]; rfl)
      rw [hcons] at hs
      rcases List.mem_cons.mp hs with rfl | hs
      · exact h0
      · have hp : (grid.drop i0).Pairwise (· < ·) := h2.drop
        rw [hcons, List.pairwise_cons] at hp
        exact h0.trans (hp.1 s hs).le
    refine ⟨_, h5, h2.drop, ?_, ?_, ?_⟩
    · intro s
      simp only
      constructor
      · intro hs
        exact ⟨hdrop s hs, (h3 s).mp (List.mem_of_mem_drop hs)⟩
      · rintro ⟨hs, hsa⟩
        have hsg := (h3 s).mpr hsa
        rw [← List.take_append_drop i0 grid] at hsg
        rcases List.mem_append.mp hsg with h | h
        · exact absurd hs (not_le.mpr (g3 s h))
        · exact h
    · simp [hvl]
    · intro i hi hl
      obtain ⟨rows, r1, r2, r3⟩ := values_spec spatialGrid grid as[i] (ha _ (List.getElem_mem hi))
      have hvi : i < values.length := by omega
      have hrow : values[i] = rows := Except.ok.inj ((hvg i hi hvi).symm.trans r1)
      simp only [List.getElem_zipWith, hrow]
      refine ⟨trivial, by simp [r2], fun j hj hr => ?_⟩
      rw [List.getElem_drop, List.getElem_drop]
      exact r3 _ _ _

/-- C98.  At a recorded time the recorded value is shown. -/
theorem C98_recorded {V : Type*} [AddCommGroup V] [Module K V] (n : ℕ) (spatialGrid grid ts : List K)
    (hts : ts.Pairwise (· < ·)) (vs : List (Fin n → V)) (i : ℕ) (hi : i < ts.length)
    (hv : i < vs.length) (hl : ts.length = vs.length) (row : List V)
    (h : Animatable.Shows spatialGrid ts[i] (.history n grid ts vs) row) : row = List.ofFn vs[i] := by
  obtain ⟨v, rfl, hp⟩ := h
  congr 1
  by_cases hlast : i + 1 = ts.length
  · exact hp.after i hi hv hlast le_rfl
  · have hle : ts[i] ≤ ts[i + 1]'(by omega) :=
      (List.pairwise_iff_getElem.mp hts i (i + 1) hi (by omega) (by omega)).le
    simpa using hp.between i (by omega) (by omega) le_rfl hle

/-- C98.  The clip lasts the duration asked for (20 seconds if none), up to rounding: the delay between
frames is rounded down to milliseconds, the frame rate of a saved clip to an integer.  The frame rate is
zero exactly if there are fewer frames than seconds. -/
theorem C98_timing {V : Type*} [AddCommGroup V] [Module K V] (spatialGrid temporalGrid : List K)
    (benchmarkStart : K) (start duration : Option K) (as : List (Animatable K V)) (clip : Clip K V)
    (h : animate spatialGrid temporalGrid benchmarkStart start duration as = .ok (some clip))
    (d : K) (hd : duration = some d ∧ 0 < d ∨ (duration = none ∨ duration = some 0) ∧ d = 20) :
    let frames : K := clip.times.length
    0 < frames ∧
    (clip.interval : K) * frames ≤ 1000 * d ∧ 1000 * d < (clip.interval + 1) * frames ∧
    (clip.fps : K) * d ≤ frames ∧ frames < (clip.fps + 1) * d ∧ (clip.fps = 0 ↔ frames < d) := by
  intro frames
  have hdur : orElse duration 20 = d := by
    rcases hd with ⟨rfl, hd⟩ | ⟨rfl | rfl, rfl⟩
    · simp [orElse, hd.ne']
    · rfl
    · simp [orElse]
  have hd0 : 0 < d := by
    rcases hd with ⟨-, hd⟩ | ⟨-, rfl⟩
    · exact hd
    · norm_num
  unfold animate at h
  split at h
  · cases h
  split at h
  · cases h
  rename_i grid _
  split at h
  · cases h
  split at h
  · cases h
  rename_i first hfirst
  have hc := (Option.some.inj (Except.ok.inj h)).symm
  have hlt := (((startIndex_spec _ grid).1 first).mp hfirst).1
  have hlen : clip.times.length = grid.length - first := by rw [hc]; simp
  have hf0 : 0 < frames := by
    have : 0 < clip.times.length := by omega
    exact Nat.cast_pos.mpr this
  have hi : clip.interval = ⌊d / frames * 1000⌋ := by rw [hc]; simp [hdur, frames, hlen]
  have hp : clip.fps = ⌊frames / d⌋ := by rw [hc]; simp [hdur, frames, hlen]
  have e1 : d / frames * 1000 * frames = 1000 * d := by field_simp
  have e2 : frames / d * d = frames := by field_simp
  refine ⟨hf0, ?_, ?_, ?_, ?_, ?_⟩
  · rw [← e1, hi]; exact mul_le_mul_of_nonneg_right (Int.floor_le _) hf0.le
  · rw [← e1, hi]; exact mul_lt_mul_of_pos_right (Int.lt_floor_add_one _) hf0
  · conv_rhs => rw [← e2]
    rw [hp]; exact mul_le_mul_of_nonneg_right (Int.floor_le _) hd0.le
  · conv_lhs => rw [← e2]
    rw [hp]; exact mul_lt_mul_of_pos_right (Int.lt_floor_add_one _) hd0
  · rw [hp, Int.floor_eq_zero_iff, Set.mem_Ico, div_lt_one hd0]
    exact ⟨fun h => h.2, fun h => ⟨by positivity, h⟩⟩

/-- Two solvers with different times, the second one ends early; start at 1/4. -/
example : okAnd (animate (V := ℚ) [0, 1] [0, 1] (0 : ℚ) (some (1 / 4)) (some 1)
    [.history 1 [0] [0, 1 / 2, 1] [![0], ![2], ![4]], .history 1 [0] [0, 1 / 4, 3 / 4] [![1], ![5], ![7]]])
    (fun c => decide (c = some ⟨[1 / 4, 1 / 2, 3 / 4, 1],
      [([0], [[1], [2], [3], [4]]), ([0], [[5], [6], [7], [7]])], 250, 4⟩)) = true := by decide +kernel

/-- The start time lies behind all frames. -/
example : (animate (V := ℚ) [0, 1] [0, 1] (0 : ℚ) (some 2) none
    [.history 1 [0] [0, 1] [![0], ![2]]]).isOk = false := by decide +kernel

end Animate

end Verif.Present
