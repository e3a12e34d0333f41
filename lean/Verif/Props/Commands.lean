import Verif.Core.Commands
import Verif.Props.Interpolate

/-!
Experimental order of convergence, error evolution, filtering and generation of training data:
C73, C79, C80, C81, C83.
-/

set_option linter.unusedSectionVars false

namespace Verif.Commands

open Verif.Py
open Verif.Interpolate (PiecewiseLinear)

/-! ### C73 -/

/-- C73.  One row entry per mesh, the first undefined; for positive errors every other entry `q` is the
exponent with `old error = 2 ^ q * new error`. -/
theorem C73_values (errors : List ℝ) (hpos : ∀ e ∈ errors, 0 < e) :
    (eocs errors).length = errors.length ∧
    (0 < errors.length → (eocs errors).getD 0 (some 0) = none) ∧
    ∀ (i : ℕ) (hi : i + 1 < errors.length), ∃ q, (eocs errors).getD (i + 1) none = some q ∧
      errors[i] = (2 : ℝ) ^ q * errors[i + 1] := by
  refine ⟨by simp [eocs], ?_, ?_⟩
  · intro h
    unfold eocs
    rw [List.getD_eq_getElem _ _ (by simpa using h), List.getElem_map, List.getElem_range]
    simp [eoc]
  · intro i hi
    have h1 : 0 < errors[i] := hpos _ (List.getElem_mem _)
    have h2 : 0 < errors[i + 1] := hpos _ (List.getElem_mem _)
    refine ⟨Real.logb 2 (errors[i] / errors[i + 1]), ?_, ?_⟩
    · unfold eocs
      rw [List.getD_eq_getElem _ _ (by simpa using hi), List.getElem_map, List.getElem_range]
      unfold eoc
      have e1 : errors.getD (i + 1 - 1) 0 = errors[i] := by
        rw [Nat.add_sub_cancel, List.getD_eq_getElem _ _ (by omega)]
      have e2 : errors.getD (i + 1) 0 = errors[i + 1] := List.getD_eq_getElem _ _ hi
      simp only [e1, e2]
      rw [if_neg (by omega), if_neg h2.ne', if_neg (not_le.mpr (div_pos h1 h2))]
    · rw [Real.rpow_logb (by norm_num) (by norm_num) (div_pos h1 h2)]
      field_simp

/-- C73.  If the errors are `C h ^ p` and `h` is halved from mesh to mesh, all values but the first are
`p`; so there is one value less than there are meshes. -/
theorem C73_order (C h p : ℝ) (hC : 0 < C) (hh : 0 < h) (n : ℕ) :
    eocs ((List.range (n + 1)).map (fun i => C * (h / 2 ^ i) ^ p)) =
      none :: List.replicate n (some p) := by
  set errors := (List.range (n + 1)).map (fun i : ℕ => C * (h / 2 ^ i) ^ p) with he
  have hpos : ∀ e ∈ errors, 0 < e := by
    intro e hmem
    obtain ⟨i, _, rfl⟩ := List.mem_map.mp hmem
    exact mul_pos hC (Real.rpow_pos_of_pos (by positivity) _)
  obtain ⟨h1, h2, h3⟩ := C73_values errors hpos
  have hl : errors.length = n + 1 := by simp [he]
  apply List.ext_getElem
  · simp [h1, hl]
  · intro i hi hi'
    cases i with
    | zero =>
      have := h2 (by omega)
      rw [List.getD_eq_getElem _ _ hi] at this
      rw [this]; rfl
    | succ i =>
      obtain ⟨q, hq, heq⟩ := h3 i (by omega)
      rw [List.getD_eq_getElem _ _ hi] at hq
      rw [hq]
      simp only [List.getElem_cons_succ, List.getElem_replicate, Option.some.injEq]
      simp only [he, List.getElem_map, List.getElem_range] at heq
      have hh2 : (0 : ℝ) < h / 2 ^ (i + 1) := by positivity
      have e1 : h / 2 ^ i = 2 * (h / 2 ^ (i + 1)) := by rw [pow_succ]; field_simp
      rw [e1, Real.mul_rpow (by norm_num) hh2.le] at heq
      have hX : (h / 2 ^ (i + 1)) ^ p ≠ 0 := (Real.rpow_pos_of_pos hh2 _).ne'
      have : (2 : ℝ) ^ p = 2 ^ q := by
        have h4 : (2 : ℝ) ^ p * (C * (h / 2 ^ (i + 1)) ^ p) = 2 ^ q * (C * (h / 2 ^ (i + 1)) ^ p) := by
          linarith
        exact mul_right_cancel₀ (mul_ne_zero hC.ne' hX) h4
      have hlog := congrArg (Real.logb 2) this
      rw [Real.logb_rpow (by norm_num) (by norm_num), Real.logb_rpow (by norm_num) (by norm_num)] at hlog
      exact hlog.symm

/-- C73.  The solvers compared are computed on `refine` meshes, each with twice as many cells as the one
before. -/
theorem C73_meshes (size refine : ℕ) :
    (eocMeshSizes size refine).length = refine ∧
    ∀ i, i + 1 < refine → (eocMeshSizes size refine).getD (i + 1) 0 =
      2 * (eocMeshSizes size refine).getD i 0 := by
  refine ⟨by simp [eocMeshSizes], ?_⟩
  intro i hi
  unfold eocMeshSizes
  rw [List.getD_eq_getElem _ _ (by simpa using hi), List.getD_eq_getElem _ _ (by simp; omega)]
  simp only [List.getElem_map, List.getElem_range]
  ring

/-- Second order errors `1, 1/4, 1/16` give `nan, 2, 2`. -/
example : eocs [1, 1 / 4, 1 / 16] = [none, some 2, some 2] := by
  have := C73_order 1 1 2 one_pos one_pos 2
  simp only [List.range, List.range.loop, List.map] at this
  norm_num at this
  exact this

/-! ### C81 -/

/-- C60.  The piecewise linear interpolant is unique. -/
theorem C60_unique {K : Type*} [Field K] [LinearOrder K] [IsStrictOrderedRing K]
    {V : Type*} [AddCommGroup V] [Module K V] (ts : List K) (vs : List V)
    (hts : ts.Pairwise (· < ·)) (hl : ts.length = vs.length) (h0 : ts ≠ []) (x : K) (v v' : V)
    (h : PiecewiseLinear ts vs x v) (h' : PiecewiseLinear ts vs x v') : v = v' := by
  have hlen : 0 < ts.length := List.length_pos_iff.mpr h0
  by_cases hx : x ≤ ts[0]
  · rw [h.before hlen (by omega) hx, h'.before hlen (by omega) hx]
  · -- the last index whose time is not after `x`
    have key : ∀ m, m < ts.length → (∃ h : m < ts.length, x ≤ ts[m]) →
        ∃ (i : ℕ) (hi : i + 1 < ts.length), ts[i] ≤ x ∧ x ≤ ts[i + 1] := by
      intro m
      induction m with
      | zero => rintro hm ⟨_, hx'⟩; exact absurd hx' hx
      | succ m ih =>
        rintro hm ⟨_, hx'⟩
        by_cases hc : x ≤ ts[m]
        · exact ih (by omega) ⟨by omega, hc⟩
        · exact ⟨m, hm, (not_le.mp hc).le, hx'⟩
    by_cases hlast : ts[ts.length - 1] ≤ x
    · rw [h.after (ts.length - 1) (by omega) (by omega) (by omega) hlast,
        h'.after (ts.length - 1) (by omega) (by omega) (by omega) hlast]
    · obtain ⟨i, hi, h1, h2⟩ := key (ts.length - 1) (by omega) ⟨by omega, (not_le.mp hlast).le⟩
      rw [h.between i hi (by omega) h1 h2, h'.between i hi (by omega) h1 h2]

section Evolution
variable {V : Type*} [AddCommGroup V] [Module ℝ V]

/-- A recorded history: increasing times, one value per time. -/
structure Recorded (h : History V) : Prop where
  increasing : h.times.Pairwise (· < ·)
  lengths : h.times.length = h.values.length
  nonempty : h.times ≠ []

/-- C81.  The error history lists the times of the longer history (of the exact one, if both have the
same length); each entry is the relative error between the two solutions at that time, where both are
interpolated linearly in time; it is undefined exactly if the norm of the exact solution vanishes. -/
theorem C81_times (norm : V → ℝ) (sol exact : History V) (hs : Recorded sol) (he : Recorded exact) :
    ∃ t err, errorEvolution norm sol exact = .ok (t, err) ∧
      t.length = max sol.times.length exact.times.length ∧ (t = sol.times ∨ t = exact.times) ∧
      err.length = t.length ∧
      ∀ (j : ℕ) (hj : j < t.length) (hj' : j < err.length), ∃ s e,
        PiecewiseLinear sol.times sol.values t[j] s ∧ PiecewiseLinear exact.times exact.values t[j] e ∧
        (norm e ≠ 0 → err[j] = some (norm (s - e) / norm e)) ∧ (norm e = 0 → err[j] = none) := by
  have own : ∀ (h : History V), Recorded h → ∀ (j : ℕ) (hj : j < h.times.length)
      (hj' : j < h.values.length), PiecewiseLinear h.times h.values h.times[j] h.values[j] := by
    intro h hr j hj hj'
    obtain ⟨out, h1, h2, h3⟩ := Interpolate.C60_temporal h.times h.values hr.increasing hr.lengths
      hr.nonempty h.times
    rw [Interpolate.C60_identity h.times h.values hr.increasing hr.lengths hr.nonempty] at h1
    have h1 := Except.ok.inj h1
    subst h1
    exact h3 j hj hj'
  unfold errorEvolution adjustTime
  by_cases hlen : sol.times.length > exact.times.length
  · rw [if_pos hlen]
    obtain ⟨out, h1, h2, h3⟩ := Interpolate.C60_temporal exact.times exact.values he.increasing
      he.lengths he.nonempty sol.times
    simp only [h1]
    have hl := hs.lengths
    refine ⟨_, _, rfl, by omega, Or.inl rfl, by simp; omega, ?_⟩
    intro j hj hj'
    refine ⟨sol.values[j]'(by omega), out[j]'(by omega), own sol hs j hj (by omega),
      h3 j hj (by omega), ?_, ?_⟩
    · intro hn; rw [List.getElem_zipWith, relativeError, if_neg hn]
    · intro hn; rw [List.getElem_zipWith, relativeError, if_pos hn]
  · rw [if_neg hlen]
    obtain ⟨out, h1, h2, h3⟩ := Interpolate.C60_temporal sol.times sol.values hs.increasing
      hs.lengths hs.nonempty exact.times
    simp only [h1]
    have hl := he.lengths
    refine ⟨_, _, rfl, by omega, Or.inr rfl, by simp; omega, ?_⟩
    intro j hj hj'
    refine ⟨out[j]'(by omega), exact.values[j]'(by omega), h3 j hj (by omega),
      own exact he j hj (by omega), ?_, ?_⟩
    · intro hn; rw [List.getElem_zipWith, relativeError, if_neg hn]
    · intro hn; rw [List.getElem_zipWith, relativeError, if_pos hn]

/-- C81.  Comparing a solution with itself gives its own times and zero errors, except where its norm
vanishes (`0 / 0`). -/
theorem C81_self (norm : V → ℝ) (h0 : norm 0 = 0) (sol : History V) (hs : Recorded sol) :
    ∃ err, errorEvolution norm sol sol = .ok (sol.times, err) ∧ err.length = sol.times.length ∧
      ∀ (j : ℕ) (hj : j < err.length) (hj' : j < sol.values.length),
        (norm sol.values[j] ≠ 0 → err[j] = some 0) ∧ (norm sol.values[j] = 0 → err[j] = none) := by
  unfold errorEvolution adjustTime
  rw [if_neg (lt_irrefl _), Interpolate.C60_identity sol.times sol.values hs.increasing hs.lengths
    hs.nonempty]
  have hl := hs.lengths
  refine ⟨_, rfl, by simp; omega, ?_⟩
  intro j hj hj'
  rw [List.getElem_zipWith, relativeError, sub_self, h0, zero_div]
  exact ⟨fun hn => if_neg hn, fun hn => if_pos hn⟩

end Evolution

/-- C81.  With the default norm on a uniform mesh the error is undefined exactly where the exact
solution is zero in all cells, and zero only where the solutions agree in all cells. -/
theorem C81_default_norm (points : List (ℝ × ℝ)) (hsum : (Quadrature.specific points).weights.sum = 2)
    (d : Mesh.Interval ℝ) (hd : d.a < d.b) (n : ℕ) (hn : 0 < n) (mesh : Mesh.UMesh ℝ)
    (hmesh : Mesh.uniformMesh d n = .ok mesh) (dof : Fin n → ℝ) :
    fvNorm points mesh n dof ^ 2 = (d.b - d.a) / n * ∑ i, dof i ^ 2 ∧
    (fvNorm points mesh n dof = 0 ↔ dof = 0) := by
  have h1 := (Interpolate.C59_uniform points hsum d hd n hn mesh hmesh
    (fun i => if h : i < n then dof ⟨i, h⟩ else 0)).2
  have h2 : ∑ i ∈ Finset.range n, (if h : i < n then dof ⟨i, h⟩ else 0) ^ 2 = ∑ i, dof i ^ 2 := by
    rw [Finset.sum_range]
    apply Finset.sum_congr rfl
    intro i _
    rw [dif_pos i.2]
  rw [h2] at h1
  have h1 : fvNorm points mesh n dof ^ 2 = (d.b - d.a) / n * ∑ i, dof i ^ 2 := h1
  refine ⟨h1, ?_⟩
  have hc : 0 < (d.b - d.a) / n := div_pos (by linarith) (by exact_mod_cast hn)
  constructor
  · intro h
    rw [h] at h1
    have : ∑ i, dof i ^ 2 = 0 := by
      rcases mul_eq_zero.mp (by linarith : (d.b - d.a) / n * ∑ i, dof i ^ 2 = 0) with h | h
      · exact absurd h hc.ne'
      · exact h
    funext i
    have := (Finset.sum_eq_zero_iff_of_nonneg (fun i _ => sq_nonneg (dof i))).mp this i
      (Finset.mem_univ i)
    simpa using this
  · intro h
    rw [h] at h1
    have : fvNorm points mesh n dof ^ 2 = 0 := by rw [h, h1]; simp
    exact pow_eq_zero_iff (two_ne_zero) |>.mp this

theorem argmin_spec (l : List ℕ) (hl : l ≠ []) :
    ∃ h : argmin l < l.length, ∀ x ∈ l, l[argmin l] ≤ x := by
  induction l with
  | nil => exact absurd rfl hl
  | cons a l ih =>
    unfold argmin
    split
    · rename_i h
      refine ⟨by simp, ?_⟩
      intro x hx
      rcases List.mem_cons.mp hx with rfl | hx
      · simp
      · simpa using List.all_eq_true.mp h x hx
    · rename_i h
      have hne : l ≠ [] := by rintro rfl; simp at h
      obtain ⟨h1, h2⟩ := ih hne
      refine ⟨by simpa using h1, ?_⟩
      intro x hx
      simp only [List.getElem_cons_succ]
      rcases List.mem_cons.mp hx with rfl | hx
      · simp only [List.all_eq_true, decide_eq_true_eq, not_forall] at h
        obtain ⟨y, hy, hlt⟩ := h
        exact (h2 y hy).trans (by omega)
      · exact h2 x hx

/-- C81.  For averaging, all error histories are interpolated to the times of a shortest history. -/
theorem C81_average (runs : List (List ℝ × List ℝ)) (h0 : runs ≠ [])
    (hr : ∀ r ∈ runs, r.1.Pairwise (· < ·) ∧ r.1.length = r.2.length ∧ r.1 ≠ []) :
    ∃ t adj, adjustErrors (runs.map Prod.fst) (runs.map Prod.snd) = .ok (t, adj) ∧
      (∃ r ∈ runs, t = r.1) ∧ (∀ r ∈ runs, t.length ≤ r.1.length) ∧ adj.length = runs.length ∧
      ∀ (i : ℕ) (hi : i < runs.length) (hi' : i < adj.length), adj[i].length = t.length ∧
        ∀ (j : ℕ) (hj : j < t.length) (hj' : j < adj[i].length),
          PiecewiseLinear runs[i].1 runs[i].2 t[j] adj[i][j] := by
  obtain ⟨k, hmin⟩ := argmin_spec ((runs.map Prod.fst).map List.length) (by simpa using h0)
  have hk : argmin ((runs.map Prod.fst).map List.length) < runs.length := by simpa using k
  set m := argmin ((runs.map Prod.fst).map List.length) with hm
  have hrow : ∀ r : List ℝ × List ℝ, ∃ o, r ∈ runs → (Interpolate.temporal r.1 r.2
      ((runs.map Prod.fst).getD m []) = .ok o ∧ o.length = ((runs.map Prod.fst).getD m []).length ∧
      ∀ (j : ℕ) (hj : j < ((runs.map Prod.fst).getD m []).length) (hj' : j < o.length),
        PiecewiseLinear r.1 r.2 ((runs.map Prod.fst).getD m [])[j] o[j]) := by
    intro r
    by_cases hmem : r ∈ runs
    · obtain ⟨h1, h2, h3⟩ := hr r hmem
      obtain ⟨o, h⟩ := Interpolate.C60_temporal r.1 r.2 h1 h2 h3 ((runs.map Prod.fst).getD m [])
      exact ⟨o, fun _ => h⟩
    · exact ⟨[], fun h => absurd h hmem⟩
  choose g hg using hrow
  have hz : (runs.map Prod.fst).zip (runs.map Prod.snd) = runs := by
    rw [List.zip_map', List.map_id'' (fun _ => rfl)]
  refine ⟨(runs.map Prod.fst).getD m [], runs.map g, ?_, ?_, ?_, by simp, ?_⟩
  · unfold adjustErrors
    simp only [hz, ← hm]
    rw [Mesh.mapM_ok _ g runs (fun r hr => (hg r hr).1)]
  · refine ⟨runs[m], List.getElem_mem hk, ?_⟩
    rw [List.getD_eq_getElem _ _ (by simpa using hk), List.getElem_map]
  · intro r hr
    have := hmin r.1.length (by simpa using ⟨r.1, ⟨r.2, hr⟩, rfl⟩)
    rw [List.getD_eq_getElem _ _ (by simpa using hk)]
    simp only [← hm] at this
    simpa only [List.getElem_map] using this
  · intro i hi hi'
    simp only [List.getElem_map]
    exact (hg _ (List.getElem_mem hi)).2

/-- Non-vacuity of C81: two histories of different length; the shorter one is `4` at time `1`, so the
relative error there is `1/4`. -/
example : Recorded (⟨[0, 1, 2], [2, 5, 6]⟩ : History ℝ) ∧ Recorded (⟨[0, 2], [2, 6]⟩ : History ℝ) ∧
    PiecewiseLinear [(0 : ℝ), 2] [(2 : ℝ), 6] 1 4 ∧
    relativeError (fun x : ℝ => |x|) 5 4 = some (1 / 4) := by
  refine ⟨⟨by norm_num, rfl, by simp⟩, ⟨by norm_num, rfl, by simp⟩, ⟨?_, ?_, ?_⟩, ?_⟩
  · intro _ _ h; norm_num at h
  · intro i h1 h2 h3 h4
    have : i = 1 := by simpa using h3
    subst this
    norm_num at h4
  · intro i h1 h2 h3 h4
    have : i = 0 := by simp at h1; omega
    subst this
    norm_num
  · norm_num [relativeError]

/-! ### C80: the filter (the command itself fails, see `C80_counterexample` in `Props/Cli.lean`) -/

/-- Specification: the curvature of the graph through three equally spaced values, from central
differences `u''` and `u'`: `|u''| / (1 + u'^2)^(3/2)`. -/
noncomputable def graphCurvature (s a b c : ℝ) : ℝ :=
  |(a - 2 * b + c) / s ^ 2| / (1 + ((c - a) / (2 * s)) ^ 2) ^ ((3 : ℝ) / 2)

theorem curvature3_eq (s a b c : ℝ) (hs : 0 < s) : curvature3 s a b c = graphCurvature s a b c := by
  unfold curvature3 graphCurvature
  have h1 : s ^ 2 + (0.25 : ℝ) * (a - c) ^ 2 = s ^ 2 * (1 + ((c - a) / (2 * s)) ^ 2) := by
    field_simp; ring
  have h2 : (0 : ℝ) ≤ 1 + ((c - a) / (2 * s)) ^ 2 := by positivity
  have h3 : (s ^ 2) ^ ((3 : ℝ) / 2) = s ^ 3 := by
    rw [← Real.rpow_natCast s 2, ← Real.rpow_mul hs.le, ← Real.rpow_natCast s 3]
    norm_num
  rw [h1, Real.mul_rpow (by positivity) h2, h3, abs_div, abs_of_pos (by positivity : 0 < s ^ 2)]
  have h4 : (1 + ((c - a) / (2 * s)) ^ 2) ^ ((3 : ℝ) / 2) ≠ 0 :=
    (Real.rpow_pos_of_pos (by positivity) _).ne'
  field_simp

/-- Specification: the mean of the two curvatures of component `j` in a row `h0 q0 h1 q1 h2 q2 h3 q3`. -/
noncomputable def rowCurvature (s : ℝ) (row : List ℝ) (j : ℕ) : ℝ :=
  (graphCurvature s (row.getD j 0) (row.getD (2 + j) 0) (row.getD (4 + j) 0) +
    graphCurvature s (row.getD (2 + j) 0) (row.getD (4 + j) 0) (row.getD (6 + j) 0)) / 2

/-- C80.  Exactly the rows whose height and discharge curvatures are below the thresholds survive, in
order and with multiplicity. -/
theorem C80_rows_partial (s kh kq : ℝ) (hs : 0 < s) (hh : kh ≠ 0) (hq : kq ≠ 0) (rows : List (List ℝ)) :
    (deleteCurvature (some s) (some kh) (some kq) rows).Sublist rows ∧
    ∀ row, (rowCurvature s row 0 < kh ∧ rowCurvature s row 1 < kq →
        (deleteCurvature (some s) (some kh) (some kq) rows).count row = rows.count row) ∧
      (¬ (rowCurvature s row 0 < kh ∧ rowCurvature s row 1 < kq) →
        row ∉ deleteCurvature (some s) (some kh) (some kq) rows) := by
  have hc : ∀ row j, curvature s row j = rowCurvature s row j := by
    intro row j
    unfold curvature rowCurvature
    rw [curvature3_eq _ _ _ _ hs, curvature3_eq _ _ _ _ hs]
  unfold deleteCurvature orDefault
  simp only [if_neg hs.ne', if_neg hh, if_neg hq, hc]
  refine ⟨List.filter_sublist, ?_⟩
  intro row
  constructor
  · rintro ⟨h1, h2⟩
    rw [List.count_filter]
    simp [h1, h2]
  · intro h hmem
    rw [List.mem_filter] at hmem
    apply h
    simpa using hmem.2

/-- C80.  Missing parameters, and also zero, mean step length `2`, height threshold `1/4` and discharge
threshold `1/2`. -/
theorem C80_defaults_partial (rows : List (List ℝ)) :
    deleteCurvature none none none rows = deleteCurvature (some 2) (some (1 / 4)) (some (1 / 2)) rows ∧
    deleteCurvature (some 0) (some 0) (some 0) rows =
      deleteCurvature (some 2) (some (1 / 4)) (some (1 / 2)) rows := by
  unfold deleteCurvature orDefault
  norm_num

/-- C80.  Curvatures are non-negative and vanish on linear data: with positive thresholds such rows are
always kept. -/
theorem C80_linear_partial (s : ℝ) (hs : 0 < s) :
    (∀ row j, 0 ≤ rowCurvature s row j) ∧
    ∀ (h0 h1 q0 q1 : ℝ) (rest : List ℝ),
      rowCurvature s ([h0, q0, h0 + h1, q0 + q1, h0 + 2 * h1, q0 + 2 * q1, h0 + 3 * h1, q0 + 3 * q1] ++
        rest) 0 = 0 ∧
      rowCurvature s ([h0, q0, h0 + h1, q0 + q1, h0 + 2 * h1, q0 + 2 * q1, h0 + 3 * h1, q0 + 3 * q1] ++
        rest) 1 = 0 := by
  constructor
  · intro row j
    unfold rowCurvature graphCurvature
    positivity
  · intro h0 h1 q0 q1 rest
    have key : ∀ a d : ℝ, graphCurvature s a (a + d) (a + 2 * d) = 0 ∧
        graphCurvature s (a + d) (a + 2 * d) (a + 3 * d) = 0 := by
      intro a d
      unfold graphCurvature
      have e1 : a - 2 * (a + d) + (a + 2 * d) = 0 := by ring
      have e2 : a + d - 2 * (a + 2 * d) + (a + 3 * d) = 0 := by ring
      rw [e1, e2]
      simp
    unfold rowCurvature
    simp [key]

/-- A height profile `0, 1, 0, 1` with step length `1` has curvature `2`: the row is deleted for
threshold `1` and kept for threshold `3`. -/
example : rowCurvature 1 [0, 0, 1, 0, 0, 0, 1, 0] 0 = 2 ∧ rowCurvature 1 [0, 0, 1, 0, 0, 0, 1, 0] 1 = 0 := by
  norm_num [rowCurvature, graphCurvature]

/-! ### C79 -/

section Data
variable {K : Type*} [Field K] [LinearOrder K] [IsStrictOrderedRing K]
variable {V : Type*} [AddCommGroup V] [Module K V]

theorem slice_nat {α : Type*} (xs : List α) (i j : ℕ) (hj : j ≤ xs.length) :
    slice xs (i : ℤ) (j : ℤ) = (xs.take j).drop i := by
  unfold slice bound
  rw [if_neg (by omega), if_neg (by omega)]
  simp only [Int.toNat_natCast, min_eq_left hj]
  by_cases h : i ≤ xs.length
  · rw [min_eq_left h]
  · rw [min_eq_right (by omega), List.drop_eq_nil_of_le (by simp), List.drop_eq_nil_of_le
      (by simp; omega)]

/-- C79.  The coarse values stored for a node are the coarse solution in the `radius` coarse cells on
both sides of the node: coarsening the aligned slice equals slicing the coarsened vector. -/
theorem C79_coarse (w : Window) (n : ℕ) (value : List V) (hk : 0 < w.k) (hv : value.length = n * w.k)
    (hl : w.radius ≤ w.node) (hr : w.node + w.radius ≤ n) :
    ∃ whole part, Coarsen.coarsen K w.k value = .ok whole ∧ coarseNeighbours K w value = .ok part ∧
      whole.length = n ∧ part.length = 2 * w.radius ∧
      ∀ i < 2 * w.radius, part.getD i 0 = whole.getD (w.node - w.radius + i) 0 := by
  have e1 : (w.node * w.k : ℤ) - w.radius * w.k = (((w.node - w.radius) * w.k : ℕ) : ℤ) := by
    push_cast [Nat.cast_sub hl]; ring
  have e2 : (w.node * w.k : ℤ) + w.radius * w.k = (((w.node + w.radius) * w.k : ℕ) : ℤ) := by
    push_cast; ring
  have hle : (w.node + w.radius) * w.k ≤ value.length := by
    rw [hv]; exact Nat.mul_le_mul_right _ hr
  set part := (value.take ((w.node + w.radius) * w.k)).drop ((w.node - w.radius) * w.k) with hp
  have hpl : part.length = 2 * w.radius * w.k := by
    rw [hp, List.length_drop, List.length_take, min_eq_left hle, ← Nat.sub_mul]
    congr 1
    omega
  refine ⟨Coarsen.coarsenVector K w.k value, Coarsen.coarsenVector K w.k part, ?_, ?_,
    Coarsen.coarsenVector_length hk hv, Coarsen.coarsenVector_length hk hpl, ?_⟩
  · unfold Coarsen.coarsen
    rw [if_neg hk.ne', if_neg (by rw [hv]; simp)]
  · unfold coarseNeighbours
    rw [e1, e2, slice_nat _ _ _ hle]
    unfold Coarsen.coarsen
    rw [if_neg hk.ne', if_neg (by rw [← hp, hpl]; simp)]
  · intro i hi
    rw [Coarsen.coarsenVector_eq hk hpl, Coarsen.coarsenVector_eq hk hv,
      List.getD_eq_getElem _ _ (by simpa using hi), List.getD_eq_getElem _ _ (by simp; omega)]
    simp only [List.getElem_map, List.getElem_range, Coarsen.block]
    congr 1
    apply Finset.sum_congr rfl
    intro j hj
    rw [Finset.mem_range] at hj
    have h1 : w.k * i + j < part.length := by
      rw [hpl]
      have : w.k * (i + 1) ≤ w.k * (2 * w.radius) := Nat.mul_le_mul_left _ hi
      nlinarith
    have h2 : (w.node - w.radius) * w.k + (w.k * i + j) = w.k * (w.node - w.radius + i) + j := by ring
    have h3 : w.k * (w.node - w.radius + i) + j < value.length := by
      rw [hv]
      have : w.k * (w.node - w.radius + i + 1) ≤ w.k * n := Nat.mul_le_mul_left _ (by omega)
      nlinarith
    rw [List.getD_eq_getElem _ _ h1, List.getD_eq_getElem _ _ h3]
    simp only [hp, List.getElem_drop, List.getElem_take, h2]

/-- C79.  The fine values stored for a node are those of the cells adjacent to the node. -/
theorem C79_fine (w : Window) (value : List V) (hl : w.fineRadius ≤ w.node * w.k)
    (hr : w.node * w.k + w.fineRadius ≤ value.length) :
    (fineNeighbours w value).length = 2 * w.fineRadius ∧
    ∀ i < 2 * w.fineRadius, (fineNeighbours w value).getD i 0 =
      value.getD (w.node * w.k - w.fineRadius + i) 0 := by
  have e1 : (w.node * w.k : ℤ) - w.fineRadius = ((w.node * w.k - w.fineRadius : ℕ) : ℤ) := by
    push_cast [Nat.cast_sub hl]; ring
  have e2 : (w.node * w.k : ℤ) + w.fineRadius = ((w.node * w.k + w.fineRadius : ℕ) : ℤ) := by
    push_cast; ring
  unfold fineNeighbours
  rw [e1, e2, slice_nat _ _ _ hr]
  have hlen : ((value.take (w.node * w.k + w.fineRadius)).drop (w.node * w.k - w.fineRadius)).length =
      2 * w.fineRadius := by
    rw [List.length_drop, List.length_take, min_eq_left hr]; omega
  refine ⟨hlen, ?_⟩
  intro i hi
  rw [List.getD_eq_getElem _ _ (by omega), List.getD_eq_getElem _ _ (by omega)]
  simp [List.getElem_drop, List.getElem_take]

/-- One call of the solution object: a time step or `set_value`. -/
inductive Step (K V : Type*) where
  | update (dt : K) (value : List V)
  | setValue (value : List V) (t : K)

/-- Specification of the records: times and full states. -/
def records : List (K × List V) → List (Step K V) → List (K × List V)
  | recs, [] => recs
  | recs, .update dt value :: steps =>
    records (recs ++ [((recs.getLastD (0, [])).1 + dt, value)]) steps
  | recs, .setValue value t :: steps =>
    records (recs.filter (fun r => decide (r.1 < t)) ++ [(t, value)]) steps

/-- Runs the calls on the object. -/
def runSteps (w : Window) : InputData K V → List (Step K V) → Except Coarsen.Error (InputData K V)
  | d, [] => .ok d
  | d, .update dt value :: steps =>
    match d.update w dt value with
    | .ok d' => runSteps w d' steps
    | .error e => .error e
  | d, .setValue value t :: steps =>
    match d.setValue w value t with
    | .ok d' => runSteps w d' steps
    | .error e => .error e

/-- The object stores exactly the windows of the recorded states. -/
structure Stores (w : Window) (d : InputData K V) (recs : List (K × List V)) : Prop where
  nonempty : recs ≠ []
  time : d.sol.time = (recs.getLastD (0, [])).1
  times : d.times = recs.map Prod.fst
  fine : d.fine = recs.map (fun r => fineNeighbours w r.2)
  coarse : List.Forall₂ (fun r c => coarseNeighbours K w r.2 = .ok c) recs d.coarse

theorem selectPast_map {α : Type*} (recs : List (K × List V)) (g : K × List V → α) (t : K) :
    Solution.selectPast (recs.map Prod.fst) (recs.map g) t =
      (recs.filter (fun r => decide (r.1 < t))).map g := by
  unfold Solution.selectPast
  induction recs with
  | nil => rfl
  | cons r recs ih =>
    simp only [List.map_cons, List.zip_cons_cons, List.filter_cons]
    split
    · simp only [List.map_cons]; rw [ih]
    · exact ih

theorem selectPast_forall (R : K × List V → List V → Prop) (recs : List (K × List V))
    (cs : List (List V)) (h : List.Forall₂ R recs cs) (t : K) :
    List.Forall₂ R (recs.filter (fun r => decide (r.1 < t)))
      (Solution.selectPast (recs.map Prod.fst) cs t) := by
  unfold Solution.selectPast
  induction h with
  | nil => exact List.Forall₂.nil
  | cons hr _ ih =>
    simp only [List.map_cons, List.zip_cons_cons, List.filter_cons]
    split
    · simp only [List.map_cons]
      exact List.Forall₂.cons hr ih
    · exact ih

theorem stores_update (w : Window) (d : InputData K V) (recs : List (K × List V)) (dt : K)
    (value : List V) (hd : d.times = recs.map Prod.fst)
    (hf : d.fine = recs.map (fun r => fineNeighbours w r.2))
    (hc : List.Forall₂ (fun r c => coarseNeighbours K w r.2 = .ok c) recs d.coarse) (c : List V)
    (hval : coarseNeighbours K w value = .ok c) :
    ∃ d', d.update w dt value = .ok d' ∧ Stores w d' (recs ++ [(d.sol.time + dt, value)]) := by
  refine ⟨⟨⟨d.sol.time + dt, value⟩, d.times ++ [d.sol.time + dt], d.coarse ++ [c],
    d.fine ++ [fineNeighbours w value]⟩, ?_, ?_⟩
  · unfold InputData.update
    rw [hval]
  · constructor
    · simp
    · simp [List.getLastD_eq_getLast?]
    · simp [hd]
    · simp [hf]
    · exact List.rel_append hc (List.Forall₂.cons hval List.Forall₂.nil)

/-- C79.  Whatever sequence of time steps and resets is performed, the stored times, coarse and fine
values are those of the recorded states; resets discard the records that are not before the new time. -/
theorem C79_history (w : Window) (n : ℕ) (hk : 0 < w.k) (hl : w.radius ≤ w.node)
    (hr : w.node + w.radius ≤ n) (s : Solution.Sol K (List V)) (hs : s.value.length = n * w.k)
    (steps : List (Step K V))
    (hsteps : ∀ st ∈ steps, match st with
      | .update _ value => value.length = n * w.k
      | .setValue value _ => value.length = n * w.k) :
    ∃ d d', InputData.init w s = .ok d ∧ runSteps w d steps = .ok d' ∧
      Stores w d' (records [(s.time, s.value)] steps) := by
  have hok : ∀ value : List V, value.length = n * w.k → ∃ c, coarseNeighbours K w value = .ok c := by
    intro value hv
    obtain ⟨_, c, _, hc, _⟩ := C79_coarse (K := K) w n value hk hv hl hr
    exact ⟨c, hc⟩
  obtain ⟨c, hc⟩ := hok s.value hs
  refine ⟨⟨s, [s.time], [c], [fineNeighbours w s.value]⟩, ?_⟩
  have hinit : Stores w (⟨s, [s.time], [c], [fineNeighbours w s.value]⟩ : InputData K V)
      [(s.time, s.value)] :=
    ⟨by simp, rfl, rfl, rfl, List.Forall₂.cons hc List.Forall₂.nil⟩
  have hrun : ∀ (d : InputData K V) (recs : List (K × List V)), Stores w d recs →
      ∃ d', runSteps w d steps = .ok d' ∧ Stores w d' (records recs steps) := by
    clear hinit hc
    induction steps with
    | nil => intro d recs h; exact ⟨d, rfl, h⟩
    | cons st steps ih =>
      intro d recs h
      have ih' := ih (fun x hx => hsteps x (List.mem_cons_of_mem _ hx))
      have hst := hsteps st List.mem_cons_self
      cases st with
      | update dt value =>
        obtain ⟨c, hc⟩ := hok value hst
        obtain ⟨d', h1, h2⟩ := stores_update w d recs dt value h.times h.fine h.coarse c hc
        obtain ⟨d'', h3, h4⟩ := ih' d' _ h2
        refine ⟨d'', ?_, ?_⟩
        · simp only [runSteps, h1, h3]
        · rw [h.time] at h4
          exact h4
      | setValue value t =>
        obtain ⟨c, hc⟩ := hok value hst
        obtain ⟨d', h1, h2⟩ := stores_update w
          { d with
            times := d.times.filter (fun s => decide (s < t))
            coarse := Solution.selectPast d.times d.coarse t
            fine := Solution.selectPast d.times d.fine t }
          (recs.filter (fun r => decide (r.1 < t))) (t - d.sol.time) value
          (by rw [h.times, List.filter_map]; rfl)
          (by
            simp only
            rw [h.times, h.fine, selectPast_map])
          (by
            simp only
            rw [h.times]
            exact selectPast_forall _ _ _ h.coarse t) c hc
        simp only [add_sub_cancel] at h2
        obtain ⟨d'', h3, h4⟩ := ih' d' _ h2
        refine ⟨d'', ?_, h4⟩
        simp only [runSteps, InputData.setValue, h1, h3]
  obtain ⟨d', h1, h2⟩ := hrun _ _ hinit
  refine ⟨d', ?_, h1, h2⟩
  unfold InputData.init
  rw [hc]

/-- A flux whose right value at each node is `G` of the stencil around the node. -/
def RightFlux (F : FV.NumFlux V) (G : List V → V) : Prop :=
  ∀ values fl fr, values.length = F.dim →
    (∀ a ∈ values, a.length = (values.headD []).length) → F.call values = .ok (fl, fr) →
    fr = (FV.stencils values).map G

theorem moveaxis_lengths (width : ℕ) (hw : 0 < width) (rows : List (List V)) :
    (moveaxis width rows).length = width ∧
    ∀ a ∈ moveaxis width rows, a.length = ((moveaxis width rows).headD []).length := by
  have hhead : ((moveaxis width rows).headD []).length = rows.length := by
    cases width with
    | zero => omega
    | succ m => simp [moveaxis, List.range_succ_eq_map]
  refine ⟨by simp [moveaxis], ?_⟩
  intro a ha
  rw [hhead]
  unfold moveaxis at ha
  obtain ⟨i, _, rfl⟩ := List.mem_map.mp ha
  simp

theorem stencils_moveaxis (width : ℕ) (hw : 0 < width) (rows : List (List V))
    (hr : ∀ row ∈ rows, row.length = width) : FV.stencils (moveaxis width rows) = rows := by
  have hhead : ((moveaxis width rows).headD []).length = rows.length := by
    cases width with
    | zero => omega
    | succ m => simp [moveaxis, List.range_succ_eq_map]
  unfold FV.stencils
  rw [hhead]
  apply List.ext_getElem (by simp)
  intro i h1 h2
  rw [List.getElem_map, List.getElem_range]
  unfold moveaxis
  rw [List.map_map]
  have hrow := hr rows[i] (List.getElem_mem h2)
  apply List.ext_getElem (by simp [hrow])
  intro j h3 h4
  simp only [List.getElem_map, List.getElem_range, Function.comp]
  rw [List.getD_eq_getElem _ _ (by simpa using h2), List.getElem_map, List.getD_eq_getElem _ _ h4]

/-- The `dim` values in the middle of a row. -/
def centre (dim : ℕ) (row : List V) : List V := (row.drop ((row.length - dim) / 2)).take dim

theorem required_moveaxis (dim radius : ℕ) (hdim : dim % 2 = 0) (hle : dim ≤ 2 * radius)
    (rows : List (List V)) (hr : ∀ row ∈ rows, row.length = 2 * radius) :
    FV.requiredValues dim (moveaxis (2 * radius) rows) =
      .ok (moveaxis dim (rows.map (centre dim))) := by
  have hl : (moveaxis (2 * radius) rows).length = 2 * radius := by simp [moveaxis]
  unfold FV.requiredValues
  rw [hl, if_neg (by omega), if_pos (by omega)]
  simp only
  congr 1
  apply List.ext_getElem
  · simp [moveaxis]; omega
  · intro i h1 h2
    have hi : i < dim := by simpa [moveaxis] using h2
    simp only [List.getElem_drop, List.getElem_take]
    simp only [moveaxis, List.getElem_map, List.getElem_range, List.map_map]
    apply List.map_congr_left
    intro row hrow
    have hlen := hr row hrow
    simp only [Function.comp, centre]
    have hc : ((row.drop ((row.length - dim) / 2)).take dim).length = dim := by
      rw [List.length_take, List.length_drop, hlen]; omega
    rw [List.getD_eq_getElem _ _ (by rw [hlen]; omega), List.getD_eq_getElem _ _ (by rw [hc]; exact hi)]
    simp only [List.getElem_take, List.getElem_drop, hlen]

theorem stores_rows (w : Window) (n : ℕ) (hk : 0 < w.k) (hl : w.radius ≤ w.node)
    (hr : w.node + w.radius ≤ n) (d : InputData K V) (recs : List (K × List V))
    (hlen : ∀ r ∈ recs, r.2.length = n * w.k) (hst : Stores w d recs) :
    ∀ row ∈ d.coarse, row.length = 2 * w.radius := by
  have := hst.coarse
  revert hlen
  generalize d.coarse = cs at this
  clear hst
  induction this with
  | nil => intro _ row hrow; simp at hrow
  | cons h _ ih =>
    intro hlen row hrow
    rcases List.mem_cons.mp hrow with rfl | hrow
    · obtain ⟨_, c, _, hc, _, hcl, _⟩ := C79_coarse (K := K) w n _ hk
        (hlen _ List.mem_cons_self) hl hr
      rw [h] at hc
      rw [Except.ok.inj hc]
      exact hcl
    · exact ih (fun r hr => hlen r (List.mem_cons_of_mem _ hr)) row hrow

/-- C79.  Training targets: at every recorded time the fine flux of the fine cells around the node minus
the coarse flux of the coarse values around the node; the inputs are the coarse values. -/
theorem C79_target (w : Window) (n : ℕ) (hk : 0 < w.k) (hl : w.radius ≤ w.node)
    (hr : w.node + w.radius ≤ n) (d : InputData K V) (recs : List (K × List V))
    (hlen : ∀ r ∈ recs, r.2.length = n * w.k) (hst : Stores w d recs)
    (fine coarse : FV.NumFlux V) (f g : List V → V) (hF : RightFlux fine f) (hG : RightFlux coarse g)
    (hf0 : 0 < w.fineRadius) (hfd : fine.dim = 2 * w.fineRadius)
    (hfl : w.fineRadius ≤ w.node * w.k) (hfr : w.node * w.k + w.fineRadius ≤ n * w.k)
    (hc0 : 0 < coarse.dim) (hc2 : coarse.dim % 2 = 0) (hcd : coarse.dim ≤ 2 * w.radius)
    (inputs : List (List V)) (target : List V)
    (h : subgridData fine coarse w d = .ok (inputs, target)) :
    inputs = moveaxis (2 * w.radius) d.coarse ∧ target.length = recs.length ∧
    ∀ (i : ℕ) (hi : i < recs.length) (hi' : i < target.length) (hi'' : i < d.coarse.length),
      target[i] = f (fineNeighbours w recs[i].2) - g (centre coarse.dim d.coarse[i]) := by
  have hrows := stores_rows w n hk hl hr d recs hlen hst
  have hfrows : ∀ row ∈ d.fine, row.length = 2 * w.fineRadius := by
    rw [hst.fine]
    intro row hrow
    obtain ⟨r, hr', rfl⟩ := List.mem_map.mp hrow
    exact (C79_fine w r.2 hfl (by rw [hlen r hr']; exact hfr)).1
  have hclen : d.coarse.length = recs.length := hst.coarse.length_eq.symm
  unfold subgridData at h
  simp only [FV.NumFlux.arbitraryInput, required_moveaxis coarse.dim w.radius hc2 hcd d.coarse hrows] at h
  cases h1 : fine.call (moveaxis (2 * w.fineRadius) d.fine) with
  | error e => simp [h1] at h
  | ok r1 =>
    cases h2 : coarse.call (moveaxis coarse.dim (d.coarse.map (centre coarse.dim))) with
    | error e => simp [h1, h2] at h
    | ok r2 =>
      simp only [h1, h2] at h
      have h := Except.ok.inj h
      obtain ⟨rfl, rfl⟩ := Prod.mk.inj h
      obtain ⟨l1, l2⟩ := moveaxis_lengths (2 * w.fineRadius) (by omega) d.fine
      have e1 := hF _ r1.1 r1.2 (by rw [l1, hfd]) l2 h1
      rw [stencils_moveaxis _ (by omega) _ hfrows] at e1
      obtain ⟨l3, l4⟩ := moveaxis_lengths coarse.dim hc0 (d.coarse.map (centre coarse.dim))
      have e2 := hG _ r2.1 r2.2 l3 l4 h2
      have hcen : ∀ row ∈ d.coarse.map (centre coarse.dim), row.length = coarse.dim := by
        intro row hrow
        obtain ⟨r, hr', rfl⟩ := List.mem_map.mp hrow
        unfold centre
        rw [List.length_take, List.length_drop, hrows r hr']
        omega
      rw [stencils_moveaxis _ hc0 _ hcen] at e2
      refine ⟨rfl, ?_, ?_⟩
      · rw [e1, e2, hst.fine]
        simp [hclen]
      · intro i hi hi' hi''
        simp only [List.getElem_zipWith, e1, e2, hst.fine, List.getElem_map]

/-- C34.  Subgrid flux data are consistent: adding a correction that returns the targets to the coarse
flux gives back the fine flux. -/
theorem C34_subgrid_reconstructs (w : Window) (d : InputData K V) (fine coarse G : FV.NumFlux V)
    (hr0 : 0 < w.radius) (hGd : G.dim = 2 * w.radius)
    (inputs : List (List V)) (target gl cl cr fl fr : List V)
    (h : subgridData fine coarse w d = .ok (inputs, target))
    (hfine : fine.call (moveaxis (2 * w.fineRadius) d.fine) = .ok (fl, fr))
    (hcoarse : coarse.arbitraryInput.call inputs = .ok (cl, cr)) (hlen : fr.length = cr.length)
    (hG : G.call inputs = .ok (gl, target)) :
    ∃ left, (coarse.corrected G).call inputs = .ok (left, fr) := by
  unfold subgridData at h
  have hin : inputs = moveaxis (2 * w.radius) d.coarse := by
    simp only [hfine] at h
    split at h
    · have := Prod.mk.inj (Except.ok.inj h); exact this.1.symm
    · cases h
    · cases h
  have ht : target = List.zipWith (· - ·) fr cr := by
    simp only [hfine, ← hin, hcoarse] at h
    exact (Prod.mk.inj (Except.ok.inj h)).2.symm
  have hGa : G.arbitraryInput.call inputs = .ok (gl, target) := by
    have hil : inputs.length = 2 * w.radius := by rw [hin]; simp [moveaxis]
    simp only [FV.NumFlux.arbitraryInput, FV.requiredValues]
    rw [hil, hGd, if_neg (by omega), if_pos (by omega)]
    simp only [Nat.sub_self, Nat.zero_div, Nat.sub_zero, List.drop_zero]
    rw [← hil, List.take_length, hG]
  refine ⟨List.zipWith (· + ·) cl gl, ?_⟩
  simp only [FV.NumFlux.corrected, hcoarse, hGa]
  congr 2
  rw [ht]
  apply List.ext_getElem
  · simp [hlen]
  · intro i h1 h2
    simp

end Data

/-- Four coarse cells of two fine cells each; node 2, radius 1: the coarse values beside the node. -/
example : (coarseNeighbours ℚ ⟨2, 1, 2, 1⟩ [(1 : ℚ), 3, 5, 7, 9, 11, 13, 15] = .ok [6, 10]) ∧
    fineNeighbours ⟨2, 1, 2, 1⟩ [(1 : ℚ), 3, 5, 7, 9, 11, 13, 15] = [7, 9] := by
  decide +kernel

/-! ### C83 -/

/-- C83.  After generating data for `number` solutions the file holds, in order, the rows of all
solutions; with `overwrite` they follow one header line and nothing else is in the file, without they
are appended to what was there before. -/
theorem C83_file {L : Type*} (header : L) (file : List L) (data : ℕ → List L) (number : ℕ)
    (hn : 0 < number) (overwrite : Bool) :
    generate header file data number overwrite =
      (if overwrite then [header] else file) ++ (List.range number).flatMap data := by
  have key : ∀ m, (List.range (m + 1)).foldl
      (fun f i => toCsv header f (data i) (if i = 0 then overwrite else false)) file =
      (if overwrite then [header] else file) ++ (List.range (m + 1)).flatMap data := by
    intro m
    induction m with
    | zero =>
      simp only [List.range_succ, List.range_zero, List.nil_append, List.foldl_cons, List.foldl_nil,
        List.flatMap_cons, List.flatMap_nil, List.append_nil, if_true, toCsv]
      cases overwrite <;> simp
    | succ m ih =>
      rw [List.range_succ, List.foldl_append, ih, List.flatMap_append]
      simp [toCsv]
  unfold generate
  split
  · rename_i h
    subst h
    have := key 0
    simpa using this
  · obtain ⟨m, rfl⟩ : ∃ m, number = m + 1 := ⟨number - 1, by omega⟩
    exact key m

example : generate "header" ["old"] (fun i => [s!"row {i}a", s!"row {i}b"]) 2 true =
    ["header", "row 0a", "row 0b", "row 1a", "row 1b"] := by decide +kernel

end Verif.Commands
