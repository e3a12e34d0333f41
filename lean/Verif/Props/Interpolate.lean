import Mathlib.MeasureTheory.Integral.IntervalIntegral.Basic
import Verif.Core.InterpolateLemmas
import Verif.Props.Quadrature

/-!
Cell averages, interpolation in time and space, norms: C58, C59, C60.
-/

set_option linter.unusedSectionVars false

namespace Verif.Interpolate

open Verif.Py
open Verif.Mesh hiding Error
open Verif.Quadrature
open Polynomial

variable {K : Type*} [Field K] [LinearOrder K] [IsStrictOrderedRing K]

/-! ### C58 -/

/-- C58.  One value per cell; the values depend linearly on the function; constants are reproduced;
bounds of the function on a cell are bounds of the cell's value. -/
theorem C58_basic (points : List (K × K)) (mesh : UMesh K) (hm : ∀ c ∈ mesh.cells, c.a < c.b)
    (hsum : (specific points).weights.sum = 2) (hpos : ∀ w ∈ (specific points).weights, 0 < w)
    (hin : ∀ x ∈ (specific points).nodes, -1 < x ∧ x < 1) (f : K → K) :
    (cellAverages points mesh f).length = mesh.cells.length ∧
    (∀ a, cellAverages points mesh (fun _ => a) = List.replicate mesh.cells.length a) ∧
    (∀ (i : ℕ) (hi : i < mesh.cells.length) (l u : K),
      (∀ x, mesh.cells[i].a < x → x < mesh.cells[i].b → l ≤ f x ∧ f x ≤ u) →
      l ≤ (cellAverages points mesh f).getD i 0 ∧ (cellAverages points mesh f).getD i 0 ≤ u) ∧
    (∀ (g : K → K) (a b : K), cellAverages points mesh (fun x => a * f x + b * g x) =
      List.zipWith (fun y z => a * y + b * z) (cellAverages points mesh f)
        (cellAverages points mesh g)) := by
  have hsum' : (points.map (fun p => p.2)).sum = 2 := hsum
  have hpos' : ∀ p ∈ points, 0 ≤ p.2 := fun p hp => (hpos _ (List.mem_map_of_mem hp)).le
  have hin' : ∀ p ∈ points, -1 < p.1 ∧ p.1 < 1 := fun p hp => hin _ (List.mem_map_of_mem hp)
  have hcell : ∀ i, i < mesh.cells.length →
      (mesh.cells.getD i ⟨0, 0⟩).a < (mesh.cells.getD i ⟨0, 0⟩).b := by
    intro i hi
    rw [List.getD_eq_getElem _ _ hi]
    exact hm _ (List.getElem_mem hi)
  refine ⟨by simp [cellAverages], ?_, ?_, ?_⟩
  · intro a
    unfold cellAverages
    rw [List.eq_replicate_iff]
    refine ⟨by simp, ?_⟩
    intro b hb
    obtain ⟨i, hi, rfl⟩ := List.mem_map.mp hb
    rw [cellAverage_eq _ _ _ (hcell i (List.mem_range.mp hi)), List.sum_map_mul_right, hsum']
    ring
  · intro i hi l u h
    have e : (cellAverages points mesh f).getD i 0 = cellAverage points f mesh.cells[i] := by
      unfold cellAverages
      rw [List.getD_eq_getElem _ _ (by simpa using hi), List.getElem_map, List.getElem_range,
        List.getD_eq_getElem _ _ hi]
    have hc : mesh.cells[i].a < mesh.cells[i].b := hm _ (List.getElem_mem hi)
    rw [e, cellAverage_eq _ _ _ hc]
    have hx : ∀ p ∈ points, l ≤ f ((mesh.cells[i].b - mesh.cells[i].a) / 2 * p.1 +
        (mesh.cells[i].a + mesh.cells[i].b) / 2) ∧ f ((mesh.cells[i].b - mesh.cells[i].a) / 2 * p.1 +
        (mesh.cells[i].a + mesh.cells[i].b) / 2) ≤ u := by
      intro p hp
      obtain ⟨h1, h2⟩ := hin' p hp
      apply h
      · nlinarith
      · nlinarith
    have h1 := sum_le_of_weights points (fun _ => l) (fun x => f ((mesh.cells[i].b -
      mesh.cells[i].a) / 2 * x + (mesh.cells[i].a + mesh.cells[i].b) / 2)) hpos'
      (fun p hp => (hx p hp).1)
    have h2 := sum_le_of_weights points (fun x => f ((mesh.cells[i].b -
      mesh.cells[i].a) / 2 * x + (mesh.cells[i].a + mesh.cells[i].b) / 2)) (fun _ => u) hpos'
      (fun p hp => (hx p hp).2)
    rw [List.sum_map_mul_right, hsum'] at h1 h2
    constructor <;> linarith
  · intro g a b
    unfold cellAverages
    rw [List.zipWith_map, List.zipWith_self]
    apply List.map_congr_left
    intro i hi
    have hc := hcell i (List.mem_range.mp hi)
    rw [cellAverage_eq _ _ _ hc, cellAverage_eq _ _ _ hc, cellAverage_eq _ _ _ hc]
    rw [mul_left_comm a, mul_left_comm b, ← mul_add]
    congr 1
    rw [← List.sum_map_mul_left, ← List.sum_map_mul_left, ← List.sum_map_add]
    congr 1
    apply List.map_congr_left
    intro p _
    ring

/-- C58.  For polynomials of the quadrature's exactness the values are the mean values over the
cells. -/
theorem C58_exact (points : List (ℝ × ℝ)) (mesh : UMesh ℝ) (hm : ∀ c ∈ mesh.cells, c.a < c.b) (m : ℕ)
    (hex : Exact (specific points) m) (p : ℝ[X]) (hp : p.natDegree ≤ m) (i : ℕ)
    (hi : i < mesh.cells.length) :
    (cellAverages points mesh (fun x => p.eval x)).getD i 0 =
      (∫ x in mesh.cells[i].a..mesh.cells[i].b, p.eval x) / (mesh.cells[i].b - mesh.cells[i].a) := by
  unfold cellAverages
  rw [List.getD_eq_getElem _ _ (by simpa using hi), List.getElem_map, List.getElem_range,
    List.getD_eq_getElem _ _ hi]
  unfold cellAverage
  rw [C56_exact points m hex _ (hm _ (List.getElem_mem hi)) p hp, gaussian_eq]
  rfl

/-- C58.  For such polynomials, averaging on the fine mesh and coarsening is averaging on the coarse
mesh. -/
theorem C58_coarsen (points : List (ℝ × ℝ)) (d : Interval ℝ) (hd : d.a < d.b) (n k : ℕ) (hn : 0 < n)
    (hk : 0 < k) (fine coarse : UMesh ℝ) (hfine : uniformMesh d (n * k) = .ok fine)
    (hcoarse : uniformMesh d n = .ok coarse) (m : ℕ) (hex : Exact (specific points) m) (p : ℝ[X])
    (hp : p.natDegree ≤ m) :
    Coarsen.coarsen ℝ k (cellAverages points fine (fun x => p.eval x)) =
      .ok (cellAverages points coarse (fun x => p.eval x)) := by
  have hnk : 0 < n * k := Nat.mul_pos hn hk
  rw [uniformMesh_eq d hd hnk] at hfine
  rw [uniformMesh_eq d hd hn] at hcoarse
  have hf := (Except.ok.inj hfine).symm
  have hc := (Except.ok.inj hcoarse).symm
  have hlen : (cellAverages points fine (fun x => p.eval x)).length = n * k := by
    rw [hf]; simp [cellAverages]
  unfold Coarsen.coarsen
  rw [if_neg hk.ne', if_neg (by rw [hlen]; simp), Coarsen.coarsenVector_eq hk hlen]
  congr 1
  have hlc : coarse.cells.length = n := by rw [hc]; simp
  have hlf : fine.cells.length = n * k := by rw [hf]; simp
  have hmf : ∀ c ∈ fine.cells, c.a < c.b := by
    rw [hf]; intro c hcm
    obtain ⟨i, _, rfl⟩ := List.mem_map.mp hcm
    exact node_lt d hd hnk (Nat.lt_succ_self i)
  have hmc : ∀ c ∈ coarse.cells, c.a < c.b := by
    rw [hc]; intro c hcm
    obtain ⟨i, _, rfl⟩ := List.mem_map.mp hcm
    exact node_lt d hd hn (Nat.lt_succ_self i)
  rw [Coarsen.list_eq_map_getD (cellAverages points coarse fun x => p.eval x) 0]
  have hlen' : (cellAverages points coarse (fun x => p.eval x)).length = n := by
    rw [hc]; simp [cellAverages]
  rw [hlen']
  apply List.map_congr_left
  intro I hI
  rw [List.mem_range] at hI
  unfold Coarsen.block
  rw [C58_exact points coarse hmc m hex p hp I (by rw [hlc]; exact hI)]
  have hstep : ∀ i, i < k → (cellAverages points fine (fun x => p.eval x)).getD (k * I + i) 0 =
      (∫ x in node d (n * k) (k * I + i)..node d (n * k) (k * I + (i + 1)), p.eval x) /
        ((d.b - d.a) / (n * k : ℕ)) := by
    intro i hi
    have hlt : k * I + i < n * k := by
      have : k * (I + 1) ≤ k * n := Nat.mul_le_mul_left k hI
      nlinarith
    rw [C58_exact points fine hmf m hex p hp (k * I + i) (by rw [hlf]; exact hlt)]
    have hcell : fine.cells[k * I + i]'(by rw [hlf]; exact hlt) =
        ⟨node d (n * k) (k * I + i), node d (n * k) (k * I + i + 1)⟩ := by
      simp [hf]
    rw [hcell]
    congr 1
    unfold node
    push_cast
    ring
  rw [Finset.sum_congr rfl (fun i hi => hstep i (Finset.mem_range.mp hi)), ← Finset.sum_div,
    intervalIntegral.sum_integral_adjacent_intervals
      (a := fun i => node d (n * k) (k * I + i)) (fun i _ => p.continuous.intervalIntegrable _ _)]
  have hcell : coarse.cells[I]'(by rw [hlc]; exact hI) = ⟨node d n I, node d n (I + 1)⟩ := by
    simp [hc]
  rw [hcell]
  have hn' : (n : ℝ) ≠ 0 := by exact_mod_cast hn.ne'
  have hk' : (k : ℝ) ≠ 0 := by exact_mod_cast hk.ne'
  have hd' : d.b - d.a ≠ 0 := by linarith
  have e1 : node d (n * k) (k * I + 0) = node d n I := by
    unfold node; push_cast; field_simp; ring
  have e2 : node d (n * k) (k * I + k) = node d n (I + 1) := by
    unfold node; push_cast; field_simp
  rw [e1, e2]
  have e3 : node d n (I + 1) - node d n I = (d.b - d.a) / n := by
    unfold node; push_cast; ring
  simp only [e3, smul_eq_mul]
  push_cast
  field_simp

/-- C58.  Systems are interpolated component by component: entry `j` of row `i` is the cell average of
component `j`. -/
theorem C58_system (points : List (K × K)) (mesh : UMesh K) (f : K → List K) (i j : ℕ)
    (hi : i < mesh.cells.length) (hj : j < (f 0).length) :
    ((interpolateVector (cellAverages points mesh) mesh.cells.length f).getD i []).getD j 0 =
      (cellAverages points mesh (fun x => (f x).getD j 0)).getD i 0 ∧
    (interpolateVector (cellAverages points mesh) mesh.cells.length f).length = mesh.cells.length ∧
    ((interpolateVector (cellAverages points mesh) mesh.cells.length f).getD i []).length =
      (f 0).length := by
  unfold interpolateVector
  refine ⟨?_, by simp, ?_⟩
  · rw [List.getD_eq_getElem (d := []) _ (by simpa using hi), List.getElem_map, List.getElem_range,
      List.getD_eq_getElem (d := (0 : K)) _ (by simpa using hj), List.getElem_map, List.getElem_map,
      List.getElem_range]
  · rw [List.getD_eq_getElem _ _ (by simpa using hi)]
    simp

/-- The midpoint rule on the cells `[0, 1]`, `[1, 3]` averages `2 x + 1` to `2` and `5`. -/
example : cellAverages [((0 : ℚ), 2)] ⟨⟨0, 3⟩, [⟨0, 1⟩, ⟨1, 3⟩], none⟩ (fun x => 2 * x + 1) = [2, 5] := by
  decide +kernel

/-! ### C60 -/

section Interp
variable {V : Type*} [AddCommGroup V] [Module K V]

/-- Specification: `v` is the value at `x` of the piecewise linear function through the records
`(ts, vs)`, extended constantly. -/
structure PiecewiseLinear (ts : List K) (vs : List V) (x : K) (v : V) : Prop where
  before : ∀ (h : 0 < ts.length) (h' : 0 < vs.length), x ≤ ts[0] → v = vs[0]
  after : ∀ (i : ℕ) (h : i < ts.length) (h' : i < vs.length), i + 1 = ts.length → ts[i] ≤ x → v = vs[i]
  between : ∀ (i : ℕ) (h : i + 1 < ts.length) (h' : i + 1 < vs.length), ts[i] ≤ x → x ≤ ts[i + 1] →
    v = vs[i] + ((x - ts[i]) / (ts[i + 1] - ts[i])) • (vs[i + 1] - vs[i])

theorem interp_spec (ts : List K) (vs : List V) (hts : ts.Pairwise (· < ·))
    (hl : ts.length = vs.length) (x : K) (v : V) (h : interp (ts.zip vs) x = some v) :
    PiecewiseLinear ts vs x v := by
  have hs : (ts.zip vs).Pairwise (fun p q => p.1 < q.1) := by
    have : ((ts.zip vs).map Prod.fst).Pairwise (· < ·) := by
      rw [List.map_fst_zip (by omega)]; exact hts
    exact List.pairwise_map.mp this
  constructor
  · intro h1 h2 hx
    cases ts with
    | nil => simp at h1
    | cons t ts =>
      cases vs with
      | nil => simp at h2
      | cons w vs =>
        rw [List.zip_cons_cons, interp_before _ _ _ hx] at h
        exact (Option.some.inj h).symm
  · intro i h1 h2 hi hx
    have hz : ts.zip vs ≠ [] := by
      intro hz
      have := congrArg List.length hz
      rw [List.length_zip, List.length_nil] at this
      omega
    have hlast : (ts.zip vs).getLast hz = (ts[i], vs[i]) := by
      rw [List.getLast_eq_getElem, List.getElem_zip]
      have : (ts.zip vs).length - 1 = i := by rw [List.length_zip]; omega
      simp only [this]
    rw [interp_after _ hz _ hs (by rw [hlast]; exact hx), hlast] at h
    exact (Option.some.inj h).symm
  · intro i h1 h2 hx1 hx2
    have := interp_between _ x hs i (by rw [List.length_zip]; omega)
      (by rw [List.getElem_zip]; exact hx1) (by rw [List.getElem_zip]; exact hx2)
    rw [h] at this
    rw [Option.some.inj this]
    simp only [List.getElem_zip]

/-- C60.  Interpolating a history with increasing times to any new times succeeds and gives the
piecewise linear interpolant. -/
theorem C60_temporal (ts : List K) (vs : List V) (hts : ts.Pairwise (· < ·))
    (hl : ts.length = vs.length) (h0 : ts ≠ []) (new : List K) :
    ∃ out, temporal ts vs new = .ok out ∧ out.length = new.length ∧
      ∀ (j : ℕ) (hj : j < new.length) (hj' : j < out.length), PiecewiseLinear ts vs new[j] out[j] := by
  have hv : vs ≠ [] := by
    intro h
    rw [h] at hl
    exact h0 (List.length_eq_zero_iff.mp hl)
  obtain ⟨out, h1, h2, h3⟩ := interpAll_ok ts vs new hl h0
  refine ⟨out, ?_, h2, fun j hj hj' => interp_spec ts vs hts hl _ _ (h3 j hj hj')⟩
  unfold temporal
  rw [if_neg hv, hl, List.take_length]
  exact h1

/-- C60.  At recorded times the recorded values come back. -/
theorem C60_recorded (ts : List K) (vs : List V) (hts : ts.Pairwise (· < ·))
    (hl : ts.length = vs.length) (i : ℕ) (hi : i < ts.length) (v : V)
    (h : PiecewiseLinear ts vs ts[i] v) : v = vs[i] := by
  by_cases hlast : i + 1 = ts.length
  · exact h.after i hi (by omega) hlast le_rfl
  · have hlt : ts[i] < ts[i + 1] := List.pairwise_iff_getElem.mp hts i (i + 1) _ _ (by omega)
    rw [h.between i (by omega) (by omega) le_rfl hlt.le]
    simp

/-- C60.  Interpolating to the recorded times is the identity. -/
theorem C60_identity (ts : List K) (vs : List V) (hts : ts.Pairwise (· < ·))
    (hl : ts.length = vs.length) (h0 : ts ≠ []) : temporal ts vs ts = .ok vs := by
  obtain ⟨out, h1, h2, h3⟩ := C60_temporal ts vs hts hl h0 ts
  rw [h1]
  congr 1
  apply List.ext_getElem (by omega)
  intro i hi hi'
  exact C60_recorded ts vs hts hl i (by omega) _ (h3 i (by omega) hi)

end Interp

/-- C60.  Interpolated values lie between the neighbouring records. -/
theorem C60_range (ts : List K) (vs : List K) (x v : K) (h : PiecewiseLinear ts vs x v) (i : ℕ)
    (hi : i + 1 < ts.length) (hi' : i + 1 < vs.length) (h1 : ts[i] ≤ x) (h2 : x ≤ ts[i + 1]) :
    min vs[i] vs[i + 1] ≤ v ∧ v ≤ max vs[i] vs[i + 1] := by
  rw [h.between i hi hi' h1 h2, smul_eq_mul]
  have hr0 : 0 ≤ (x - ts[i]) / (ts[i + 1] - ts[i]) := div_nonneg (by linarith) (by linarith)
  have hr1 : (x - ts[i]) / (ts[i + 1] - ts[i]) ≤ 1 :=
    div_le_one_of_le₀ (by linarith) (by linarith)
  rcases le_total vs[i] vs[i + 1] with hv | hv
  · rw [min_eq_left hv, max_eq_right hv]
    constructor <;> nlinarith
  · rw [min_eq_right hv, max_eq_left hv]
    constructor <;> nlinarith

/-- C60.  A history whose times and values do not fit is rejected: an `IndexError` without values, a
`ValueError` with fewer values than times or without times. -/
theorem C60_rejects {V : Type*} [AddCommGroup V] [Module K V] (ts : List K) (vs : List V)
    (new : List K) : (vs = [] → temporal ts vs new = .error .indexError) ∧
      (vs ≠ [] → vs.length < ts.length ∨ ts = [] → temporal ts vs new = .error .valueError) := by
  unfold temporal
  refine ⟨fun hv => if_pos hv, fun hv h => ?_⟩
  rw [if_neg hv]
  unfold interpAll
  rw [if_neg]
  rintro ⟨h1, h2⟩
  have hlt := h.resolve_right h2
  rw [List.length_take] at h1
  omega

example : temporal [(0 : ℚ), 1] [(5 : ℚ)] [] = .error .valueError ∧
    temporal ([] : List ℚ) [(5 : ℚ)] [] = .error .valueError ∧
    temporal [(0 : ℚ), 1] ([] : List ℚ) [1 / 2] = .error .indexError := by decide +kernel

/-- C60.  Interpolation in space does the same for every time. -/
theorem C60_spatial {V : Type*} [AddCommGroup V] [Module K V] (xs : List K) (rows : List (List V))
    (hxs : xs.Pairwise (· < ·)) (hl : ∀ row ∈ rows, row.length = xs.length) (h0 : xs ≠ [])
    (new : List K) :
    ∃ out, spatial xs rows new = .ok out ∧ out.length = rows.length ∧
      ∀ (r : ℕ) (hr : r < rows.length) (hr' : r < out.length), out[r].length = new.length ∧
        ∀ (j : ℕ) (hj : j < new.length) (hj' : j < out[r].length),
          PiecewiseLinear xs rows[r] new[j] out[r][j] := by
  have hrow : ∀ row : List V, ∃ o, row ∈ rows → (interpAll xs (row.take xs.length) new = .ok o ∧
      o.length = new.length ∧ ∀ (j : ℕ) (hj : j < new.length) (hj' : j < o.length),
        PiecewiseLinear xs row new[j] o[j]) := by
    intro row
    by_cases hmem : row ∈ rows
    · obtain ⟨o, h1, h2, h3⟩ := interpAll_ok xs row new (hl row hmem).symm h0
      refine ⟨o, fun _ => ⟨?_, h2, fun j hj hj' =>
        interp_spec xs row hxs (hl row hmem).symm _ _ (h3 j hj hj')⟩⟩
      rw [← hl row hmem, List.take_length]
      exact h1
    · exact ⟨[], fun h => absurd h hmem⟩
  choose g hg using hrow
  refine ⟨rows.map g, ?_, by simp, ?_⟩
  · unfold spatial
    apply Mesh.mapM_ok
    intro row hr
    exact (hg row hr).1
  · intro r hr hr'
    simp only [List.getElem_map]
    exact (hg _ (List.getElem_mem hr)).2

/-- Records `(0, 1), (2, 5), (3, 0)` at times `-1, 1, 2, 5/2, 7`. -/
example : (temporal [(0 : ℚ), 2, 3] [(1 : ℚ), 5, 0] [-1, 1, 2, 5 / 2, 7]) =
    .ok [1, 3, 5, 5 / 2, 0] := by decide +kernel

/-! ### C59 -/

theorem weighted_abs_triangle {α : Type*} (l : List α) (w f g : α → K) (hw : ∀ s ∈ l, 0 ≤ w s) :
    (l.map (fun s => w s * |f s + g s|)).sum ≤
      (l.map (fun s => w s * |f s|)).sum + (l.map (fun s => w s * |g s|)).sum := by
  rw [← List.sum_map_add]
  apply List.sum_le_sum
  intro s hs
  rw [← mul_add]
  exact mul_le_mul_of_nonneg_left (abs_add_le _ _) (hw s hs)

/-- C59, L1 norm. -/
theorem C59_l1 (points : List (K × K)) (hpos : ∀ w ∈ (specific points).weights, 0 < w)
    (mesh : UMesh K) (hm : ∀ c ∈ mesh.cells, c.a < c.b) (f g : ℕ → K → K) (a : K) :
    0 ≤ l1 points mesh f ∧
    l1 points mesh (fun i x => a * f i x) = |a| * l1 points mesh f ∧
    l1 points mesh (fun i x => f i x + g i x) ≤ l1 points mesh f + l1 points mesh g := by
  have hw := samples_nonneg points mesh (fun p hp => (hpos _ (List.mem_map_of_mem hp)).le) hm
  unfold l1
  simp only [sumCells_eq]
  refine ⟨?_, ?_, weighted_abs_triangle _ _ _ _ hw⟩
  · apply List.sum_nonneg
    intro y hy
    obtain ⟨s, hs, rfl⟩ := List.mem_map.mp hy
    exact mul_nonneg (hw s hs) (abs_nonneg _)
  · rw [← List.sum_map_mul_left]
    congr 1
    apply List.map_congr_left
    intro s _
    rw [abs_mul]; ring

/-- C59, L2 norm. -/
theorem C59_l2 (points : List (ℝ × ℝ)) (hpos : ∀ w ∈ (specific points).weights, 0 < w)
    (mesh : UMesh ℝ) (hm : ∀ c ∈ mesh.cells, c.a < c.b) (f g : ℕ → ℝ → ℝ) (a : ℝ) :
    0 ≤ l2 points mesh f ∧
    l2 points mesh (fun i x => a * f i x) = |a| * l2 points mesh f ∧
    l2 points mesh (fun i x => f i x + g i x) ≤ l2 points mesh f + l2 points mesh g := by
  have hw := samples_nonneg points mesh (fun p hp => (hpos _ (List.mem_map_of_mem hp)).le) hm
  unfold l2 l2sq
  simp only [sumCells_eq]
  refine ⟨Real.sqrt_nonneg _, ?_, minkowski _ _ _ _ hw⟩
  rw [← Real.sqrt_sq_eq_abs, ← Real.sqrt_mul (sq_nonneg a), ← List.sum_map_mul_left]
  congr 2
  apply List.map_congr_left
  intro s _
  ring

theorem sumCells_const (points : List (K × K)) (hsum : (specific points).weights.sum = 2) (g : K → K)
    (mesh : UMesh K) (u : ℕ → K) :
    sumCells points g mesh (fun i _ => u i) =
      ∑ i ∈ Finset.range mesh.cells.length, (mesh.cells.getD i ⟨0, 0⟩).length * g (u i) := by
  unfold sumCells
  rw [Coarsen.list_sum_range]
  apply Finset.sum_congr rfl
  intro i _
  rw [normOnCell_eq, List.sum_map_mul_right, List.sum_map_mul_left]
  have hsum' : (points.map (fun p => p.2)).sum = 2 := hsum
  rw [hsum']
  ring

/-- C59.  Norms of piecewise constant functions: sums of cell length times modulus or square. -/
theorem C59_constant (points : List (ℝ × ℝ)) (hsum : (specific points).weights.sum = 2)
    (mesh : UMesh ℝ) (hm : ∀ c ∈ mesh.cells, c.a < c.b) (u : ℕ → ℝ) :
    l1 points mesh (fun i _ => u i) =
      ∑ i ∈ Finset.range mesh.cells.length, (mesh.cells.getD i ⟨0, 0⟩).length * |u i| ∧
    l2 points mesh (fun i _ => u i) ^ 2 =
      ∑ i ∈ Finset.range mesh.cells.length, (mesh.cells.getD i ⟨0, 0⟩).length * u i ^ 2 := by
  refine ⟨sumCells_const points hsum _ mesh u, ?_⟩
  unfold l2 l2sq
  rw [Real.sq_sqrt]
  · exact sumCells_const points hsum _ mesh u
  · rw [sumCells_const points hsum _ mesh u]
    apply Finset.sum_nonneg
    intro i hi
    rw [List.getD_eq_getElem _ _ (Finset.mem_range.mp hi)]
    have := hm _ (List.getElem_mem (Finset.mem_range.mp hi))
    unfold Interval.length
    exact mul_nonneg (by linarith) (sq_nonneg _)

/-- C59.  On a uniform mesh: `dx` times the sum. -/
theorem C59_uniform (points : List (ℝ × ℝ)) (hsum : (specific points).weights.sum = 2)
    (d : Interval ℝ) (hd : d.a < d.b) (n : ℕ) (hn : 0 < n) (mesh : UMesh ℝ)
    (hmesh : uniformMesh d n = .ok mesh) (u : ℕ → ℝ) :
    l1 points mesh (fun i _ => u i) = (d.b - d.a) / n * ∑ i ∈ Finset.range n, |u i| ∧
    l2 points mesh (fun i _ => u i) ^ 2 = (d.b - d.a) / n * ∑ i ∈ Finset.range n, u i ^ 2 := by
  rw [uniformMesh_eq d hd hn] at hmesh
  have hc := (Except.ok.inj hmesh).symm
  have hmc : ∀ c ∈ mesh.cells, c.a < c.b := by
    rw [hc]; intro c hcm
    obtain ⟨i, _, rfl⟩ := List.mem_map.mp hcm
    exact node_lt d hd hn (Nat.lt_succ_self i)
  have hl : mesh.cells.length = n := by rw [hc]; simp
  have hlen : ∀ i ∈ Finset.range n, (mesh.cells.getD i ⟨0, 0⟩).length = (d.b - d.a) / n := by
    intro i hi
    rw [Finset.mem_range] at hi
    rw [List.getD_eq_getElem _ _ (by rw [hl]; exact hi)]
    simp only [hc, List.getElem_map, List.getElem_range, Interval.length, node]
    push_cast
    ring
  obtain ⟨h1, h2⟩ := C59_constant points hsum mesh hmc u
  rw [h1, h2, hl, Finset.mul_sum, Finset.mul_sum]
  exact ⟨Finset.sum_congr rfl (fun i hi => by rw [hlen i hi]),
    Finset.sum_congr rfl (fun i hi => by rw [hlen i hi])⟩

/-- Specification: `M` is the largest modulus of `f` at the `m` equally spaced points of all cells. -/
structure IsMaxModulus (m : ℕ) (mesh : UMesh K) (f : ℕ → K → K) (M : K) : Prop where
  upper : ∀ (i : ℕ) (hi : i < mesh.cells.length), ∀ x ∈ cellPoints mesh.cells[i] m, |f i x| ≤ M
  attained : ∃ (i : ℕ) (hi : i < mesh.cells.length), ∃ x ∈ cellPoints mesh.cells[i] m, |f i x| = M

theorem cellPoints_ne (c : Interval K) (m : ℕ) (hm : 0 < m) : cellPoints c m ≠ [] := by
  unfold cellPoints linspace
  rw [if_neg hm.ne']
  split <;> simp

theorem linf_ok (m : ℕ) (hm : 0 < m) (mesh : UMesh K) (h0 : mesh.cells ≠ []) (f : ℕ → K → K) :
    ∃ M, linf m mesh f = .ok M ∧ IsMaxModulus m mesh f M := by
  have hcell : ∀ i, ∃ v, linfOnCell m (mesh.cells.getD i ⟨0, 0⟩) (f i) = .ok v ∧
      (∃ x ∈ cellPoints (mesh.cells.getD i ⟨0, 0⟩) m, |f i x| = v) ∧
      ∀ x ∈ cellPoints (mesh.cells.getD i ⟨0, 0⟩) m, |f i x| ≤ v := by
    intro i
    obtain ⟨v, h1, h2, h3⟩ := amax_ok ((cellPoints (mesh.cells.getD i ⟨0, 0⟩) m).map
      (fun x => |f i x|)) (by simpa using cellPoints_ne _ m hm)
    obtain ⟨x, hx, hxv⟩ := List.mem_map.mp h2
    exact ⟨v, h1, ⟨x, hx, hxv⟩, fun y hy => h3 _ (List.mem_map_of_mem hy)⟩
  choose v hv using hcell
  have hmap : (List.range mesh.cells.length).mapM (fun i =>
      linfOnCell m (mesh.cells.getD i ⟨0, 0⟩) (f i)) =
      .ok ((List.range mesh.cells.length).map v) :=
    Mesh.mapM_ok _ _ _ (fun i _ => (hv i).1)
  obtain ⟨M, h1, h2, h3⟩ := amax_ok ((List.range mesh.cells.length).map v) (by simpa using h0)
  refine ⟨M, ?_, ?_, ?_⟩
  · unfold linf
    rw [hmap]
    exact h1
  · intro i hi x hx
    rw [← List.getD_eq_getElem mesh.cells ⟨0, 0⟩ hi] at hx
    exact ((hv i).2.2 x hx).trans (h3 _ (List.mem_map_of_mem (List.mem_range.mpr hi)))
  · obtain ⟨i, hi, hiv⟩ := List.mem_map.mp h2
    rw [List.mem_range] at hi
    obtain ⟨x, hx, hxv⟩ := (hv i).2.1
    rw [List.getD_eq_getElem mesh.cells ⟨0, 0⟩ hi] at hx
    exact ⟨i, hi, x, hx, hxv.trans hiv⟩

/-- C59, Linf norm: the largest modulus at the sampled points (which lie in the cells and contain the
left end point); non-negative, homogeneous, triangle inequality. -/
theorem C59_linf (m : ℕ) (hm : 0 < m) (mesh : UMesh K) (hc : ∀ c ∈ mesh.cells, c.a < c.b)
    (h0 : mesh.cells ≠ []) (f g : ℕ → K → K) (a : K) :
    ∃ F G S H, linf m mesh f = .ok F ∧ linf m mesh g = .ok G ∧
      linf m mesh (fun i x => f i x + g i x) = .ok S ∧ linf m mesh (fun i x => a * f i x) = .ok H ∧
      IsMaxModulus m mesh f F ∧
      0 ≤ F ∧ S ≤ F + G ∧ H = |a| * F ∧
      (∀ c ∈ mesh.cells, (cellPoints c m).length = m ∧ c.a ∈ cellPoints c m ∧
        ∀ x ∈ cellPoints c m, c.a ≤ x ∧ x ≤ c.b) := by
  obtain ⟨F, f1, f2⟩ := linf_ok m hm mesh h0 f
  obtain ⟨G, g1, g2⟩ := linf_ok m hm mesh h0 g
  obtain ⟨S, s1, s2⟩ := linf_ok m hm mesh h0 (fun i x => f i x + g i x)
  obtain ⟨H, h1, h2⟩ := linf_ok m hm mesh h0 (fun i x => a * f i x)
  refine ⟨F, G, S, H, f1, g1, s1, h1, f2, ?_, ?_, ?_, ?_⟩
  · obtain ⟨i, hi, x, hx, h⟩ := f2.attained
    rw [← h]; exact abs_nonneg _
  · obtain ⟨i, hi, x, hx, h⟩ := s2.attained
    rw [← h]
    exact (abs_add_le _ _).trans (add_le_add (f2.upper i hi x hx) (g2.upper i hi x hx))
  · apply le_antisymm
    · obtain ⟨i, hi, x, hx, h⟩ := h2.attained
      rw [← h, abs_mul]
      exact mul_le_mul_of_nonneg_left (f2.upper i hi x hx) (abs_nonneg _)
    · obtain ⟨i, hi, x, hx, h⟩ := f2.attained
      rw [← h, ← abs_mul]
      exact h2.upper i hi x hx
  · intro c hcm
    have hcab := hc c hcm
    unfold cellPoints
    rw [if_neg hm.ne']
    by_cases h1 : m - 1 = 0
    · have : m = 1 := by omega
      subst this
      simp [linspace, hcab.le]
    · have hpos : 0 < m - 1 := by omega
      rw [linspace_eq c hpos]
      refine ⟨by simp; omega, ?_, ?_⟩
      · exact List.mem_map.mpr ⟨0, by simp, node_zero c _⟩
      · intro x hx
        obtain ⟨i, hi, rfl⟩ := List.mem_map.mp hx
        rw [List.mem_range] at hi
        constructor
        · rw [← node_zero c (m - 1)]
          exact (node_le_iff c hcab hpos).mpr (Nat.zero_le i)
        · rw [← node_last c hpos]
          exact (node_le_iff c hcab hpos).mpr (by omega)

/-- C59.  The Linf norm of a piecewise constant function is the largest modulus of its values. -/
theorem C59_linf_constant (m : ℕ) (hm : 0 < m) (mesh : UMesh K) (h0 : mesh.cells ≠ []) (u : ℕ → K) :
    ∃ M, linf m mesh (fun i _ => u i) = .ok M ∧ (∀ i < mesh.cells.length, |u i| ≤ M) ∧
      ∃ i < mesh.cells.length, |u i| = M := by
  obtain ⟨M, h1, h2⟩ := linf_ok m hm mesh h0 (fun i _ => u i)
  refine ⟨M, h1, ?_, ?_⟩
  · intro i hi
    obtain ⟨x, hx⟩ := List.exists_mem_of_ne_nil _ (cellPoints_ne mesh.cells[i] m hm)
    exact h2.upper i hi x hx
  · obtain ⟨i, hi, x, _, h⟩ := h2.attained
    exact ⟨i, hi, h⟩

/-- Norms of the piecewise constant function with values `3`, `-4` on `[0, 1]`, `[1, 3]`. -/
example : l1 [((0 : ℚ), 2)] ⟨⟨0, 3⟩, [⟨0, 1⟩, ⟨1, 3⟩], none⟩ (fun i _ => if i = 0 then 3 else -4) = 11 ∧
    l2sq [((0 : ℚ), 2)] ⟨⟨0, 3⟩, [⟨0, 1⟩, ⟨1, 3⟩], none⟩ (fun i _ => if i = 0 then 3 else -4) = 41 ∧
    linf 10 ⟨⟨0, 3⟩, [⟨0, 1⟩, ⟨1, 3⟩], none⟩ (fun i _ => if i = 0 then (3 : ℚ) else -4) = .ok 4 := by
  decide +kernel

end Verif.Interpolate
