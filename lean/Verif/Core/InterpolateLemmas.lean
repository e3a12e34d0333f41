import Mathlib.Analysis.InnerProductSpace.PiL2
import Verif.Core.Coarsen
import Verif.Core.Interpolate
import Verif.Core.ScalarLemmas

/-!
Helper lemmas on interpolation and norms.
-/

set_option linter.unusedSectionVars false

namespace Verif.Interpolate

open Verif.Py
open Verif.Mesh hiding Error
open Verif.Quadrature

variable {K : Type*} [Field K] [LinearOrder K] [IsStrictOrderedRing K]

/-! ### Cell averages -/

/-- Cell averages are weighted means of the function at the nodes in the cell. -/
theorem cellAverage_eq (points : List (K × K)) (f : K → K) (c : Interval K) (hc : c.a < c.b) :
    cellAverage points f c = 1 / 2 *
      (points.map (fun p => p.2 * f ((c.b - c.a) / 2 * p.1 + (c.a + c.b) / 2))).sum := by
  unfold cellAverage
  rw [gaussian_integrate, integrate_eq]
  unfold specific Interval.length
  have : c.b - c.a ≠ 0 := by linarith
  field_simp

theorem sum_le_of_weights (points : List (K × K)) (g h : K → K) (hw : ∀ p ∈ points, 0 ≤ p.2)
    (hg : ∀ p ∈ points, g p.1 ≤ h p.1) :
    (points.map (fun p => p.2 * g p.1)).sum ≤ (points.map (fun p => p.2 * h p.1)).sum := by
  apply List.sum_le_sum
  intro p hp
  exact mul_le_mul_of_nonneg_left (hg p hp) (hw p hp)

/-! ### Linear interpolation -/

section Interp
variable {V : Type*} [AddCommGroup V] [Module K V]

theorem interp_some (l : List (K × V)) (hl : l ≠ []) (x : K) : ∃ v, interp l x = some v := by
  induction l with
  | nil => exact absurd rfl hl
  | cons p l ih =>
    cases l with
    | nil => exact ⟨_, rfl⟩
    | cons q rest =>
      unfold interp
      split
      · exact ⟨_, rfl⟩
      · split
        · exact ⟨_, rfl⟩
        · exact ih (by simp)

theorem interp_before (p : K × V) (l : List (K × V)) (x : K) (hx : x ≤ p.1) :
    interp (p :: l) x = some p.2 := by
  cases l with
  | nil => rfl
  | cons q rest => unfold interp; rw [if_pos hx]

theorem interp_after (l : List (K × V)) (hl : l ≠ []) (x : K)
    (hs : l.Pairwise (fun p q => p.1 < q.1)) (hx : (l.getLast hl).1 ≤ x) :
    interp l x = some (l.getLast hl).2 := by
  induction l with
  | nil => exact absurd rfl hl
  | cons p l ih =>
    cases l with
    | nil => rfl
    | cons q rest =>
      have hs' := List.pairwise_cons.mp hs
      rw [List.getLast_cons (by simp)] at hx ⊢
      have hq : q.1 ≤ ((q :: rest).getLast (by simp)).1 := by
        rcases List.mem_cons.mp (List.getLast_mem (l := q :: rest) (by simp)) with h | h
        · rw [h]
        · exact ((List.pairwise_cons.mp hs'.2).1 _ h).le
      have hp : p.1 < q.1 := hs'.1 q (by simp)
      unfold interp
      rw [if_neg (by push Not; exact lt_of_lt_of_le hp (hq.trans hx)),
        if_neg (by push Not; exact hq.trans hx)]
      exact ih (by simp) hs'.2 hx

theorem interp_between (l : List (K × V)) (x : K) (hs : l.Pairwise (fun p q => p.1 < q.1)) (i : ℕ)
    (hi : i + 1 < l.length) (h1 : l[i].1 ≤ x) (h2 : x ≤ l[i + 1].1) :
    interp l x = some (l[i].2 + ((x - l[i].1) / (l[i + 1].1 - l[i].1)) • (l[i + 1].2 - l[i].2)) := by
  induction l generalizing i with
  | nil => simp at hi
  | cons p l ih =>
    cases l with
    | nil => simp at hi
    | cons q rest =>
      have hs' := List.pairwise_cons.mp hs
      have hp : p.1 < q.1 := hs'.1 q (by simp)
      cases i with
      | zero =>
        simp only [List.getElem_cons_zero, List.getElem_cons_succ] at h1 h2 ⊢
        unfold interp
        split
        · rename_i h
          have : x = p.1 := le_antisymm h h1
          simp [this]
        · split
          · rw [add_comm]
          · rename_i h h'
            have : x = q.1 := le_antisymm h2 (not_lt.mp h')
            rw [interp_before q rest x (by rw [this])]
            rw [this, div_self (by linarith), one_smul]
            simp
      | succ i =>
        simp only [List.getElem_cons_succ] at h1 h2 ⊢
        have hi' : i + 1 < (q :: rest).length := by simpa using hi
        have hq : q.1 ≤ (q :: rest)[i].1 := by
          cases i with
          | zero => simp
          | succ j =>
            simp only [List.getElem_cons_succ]
            exact ((List.pairwise_cons.mp hs'.2).1 _ (List.getElem_mem _)).le
        unfold interp
        rw [if_neg (by push Not; exact lt_of_lt_of_le hp (hq.trans h1)),
          if_neg (by push Not; exact hq.trans h1)]
        exact ih hs'.2 i hi' h1 h2

theorem interpAll_ok (xp : List K) (fp : List V) (xs : List K) (hl : xp.length = fp.length)
    (hx : xp ≠ []) :
    ∃ out, interpAll xp fp xs = .ok out ∧ out.length = xs.length ∧
      ∀ j (hj : j < xs.length) (hj' : j < out.length), interp (xp.zip fp) xs[j] = some out[j] := by
  have hz : xp.zip fp ≠ [] := by
    intro h
    have := congrArg List.length h
    rw [List.length_zip, hl, min_self] at this
    rw [← hl] at this
    exact hx (List.length_eq_zero_iff.mp (by simpa using this))
  choose g hg using fun x => interp_some (xp.zip fp) hz x
  refine ⟨xs.map g, ?_, by simp, ?_⟩
  · unfold interpAll
    rw [if_pos ⟨hl, hx⟩]
    apply Mesh.mapM_ok
    intro x _
    rw [hg]
  · intro j hj hj'
    rw [List.getElem_map]
    exact hg _

end Interp

/-! ### Norms -/

theorem normOnCell_eq (points : List (K × K)) (g : K → K) (c : Interval K) (f : K → K) :
    normOnCell points g c f =
      (points.map (fun p => c.length / 2 * p.2 * g (f (affine ((p.1 + 1) / 2) c)))).sum := by
  unfold normOnCell localElement
  rw [gaussian_eq]
  unfold Rule.weights Rule.nodes affineDerivative
  simp only [List.map_map, List.zipWith_map, List.zipWith_self]
  rw [← List.sum_map_mul_left]
  congr 1
  apply List.map_congr_left
  intro p _
  simp only [Function.comp, sub_zero, zero_add]
  have : (1 : K) / 2 * p.1 + 1 / 2 = (p.1 + 1) / 2 := by ring
  rw [this]
  ring

/-- All quadrature points of a mesh: weight, cell and point. -/
def samples (points : List (K × K)) (mesh : UMesh K) : List (K × ℕ × K) :=
  (List.range mesh.cells.length).flatMap (fun i => points.map (fun p =>
    ((mesh.cells.getD i ⟨0, 0⟩).length / 2 * p.2, i,
      affine ((p.1 + 1) / 2) (mesh.cells.getD i ⟨0, 0⟩))))

theorem sumCells_eq (points : List (K × K)) (g : K → K) (mesh : UMesh K) (f : ℕ → K → K) :
    sumCells points g mesh f = ((samples points mesh).map (fun s => s.1 * g (f s.2.1 s.2.2))).sum := by
  unfold sumCells samples
  rw [List.map_flatMap, List.flatMap_def, List.sum_flatten, List.map_map]
  congr 1
  apply List.map_congr_left
  intro i _
  simp only [Function.comp]
  rw [normOnCell_eq, List.map_map]
  rfl

theorem samples_nonneg (points : List (K × K)) (mesh : UMesh K) (hw : ∀ p ∈ points, 0 ≤ p.2)
    (hm : ∀ c ∈ mesh.cells, c.a < c.b) : ∀ s ∈ samples points mesh, 0 ≤ s.1 := by
  intro s hs
  unfold samples at hs
  rw [List.mem_flatMap] at hs
  obtain ⟨i, hi, hs⟩ := hs
  rw [List.mem_map] at hs
  obtain ⟨p, hp, rfl⟩ := hs
  rw [List.mem_range] at hi
  have hc := hm _ (List.getElem_mem hi)
  rw [List.getD_eq_getElem _ _ hi]
  simp only
  apply mul_nonneg _ (hw p hp)
  unfold Interval.length
  linarith

/-- Minkowski's inequality for a weighted sum over a list. -/
theorem minkowski {α : Type*} (l : List α) (w f g : α → ℝ) (hw : ∀ s ∈ l, 0 ≤ w s) :
    Real.sqrt ((l.map (fun s => w s * (f s + g s) ^ 2)).sum) ≤
      Real.sqrt ((l.map (fun s => w s * f s ^ 2)).sum) +
      Real.sqrt ((l.map (fun s => w s * g s ^ 2)).sum) := by
  have key : ∀ h : α → ℝ, (l.map (fun s => w s * h s ^ 2)).sum =
      ∑ i : Fin l.length, ‖Real.sqrt (w l[i]) * h l[i]‖ ^ 2 := by
    intro h
    rw [← Fin.sum_univ_fun_getElem]
    apply Finset.sum_congr rfl
    intro i _
    rw [Real.norm_eq_abs, sq_abs, mul_pow, Real.sq_sqrt (hw _ (by simp))]
    rfl
  rw [key, key, key]
  have hn := norm_add_le (WithLp.toLp 2 (fun i : Fin l.length => Real.sqrt (w l[i]) * f l[i]))
    (WithLp.toLp 2 (fun i : Fin l.length => Real.sqrt (w l[i]) * g l[i]))
  rw [EuclideanSpace.norm_eq, EuclideanSpace.norm_eq, EuclideanSpace.norm_eq] at hn
  simpa [mul_add] using hn

theorem amax_ok (l : List K) (hl : l ≠ []) :
    ∃ m, Scalar.amax l = .ok m ∧ m ∈ l ∧ ∀ x ∈ l, x ≤ m := by
  cases l with
  | nil => exact absurd rfl hl
  | cons a l =>
    refine ⟨_, rfl, ?_⟩
    have := Scalar.foldl_max_spec l a
    exact ⟨this.2, this.1⟩

end Verif.Interpolate
