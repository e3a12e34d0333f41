import Verif.Core.FELinear
import Verif.Props.FEMCL
import Verif.Props.SolverChecked
import Verif.Props.EndToEnd

/-!
Helper lemmas for whole runs of the finite element solvers: how the optimal time step changes when the
values stay within a range.
-/

set_option linter.unusedSectionVars false

namespace Verif.FE

open Verif.Py Verif.Scalar Verif.ODE Verif.Solver
open Verif.Mesh hiding Error

theorem diffusion_rows (C : SysMatrix ℝ) (N : ℕ) (hC : Conv N C) (u : List ℝ) (hu : u.length = N)
    (D : SysMatrix ℝ) (hD : diffusion .burgers C u = .ok D) (i : ℕ) (hi : i < N) (B : ℝ) :
    ((∀ j < N, |u.getD j 0| ≤ B) → |D.lil i i| ≤ B * rowSize C N i) ∧
      |u.getD i 0| * rowSize C N i ≤ |D.lil i i| := by
  obtain ⟨D', d1, d2, d3, d4, -⟩ := diffusion_spec .burgers N C hC u hu
  obtain rfl : D' = D := Except.ok.inj (d1.symm.trans hD)
  have e : D' = withDiagonal C.dimension fun i j =>
      max |C.lil i j * u.getD j 0| |C.lil j i * u.getD i 0| := by
    simp only [diffusion, burgersDiffusion] at d1
    rw [if_pos (by rw [hu, hC.dim])] at d1
    exact (Except.ok.inj d1).symm
  have hent : ∀ j ≠ i, D'.lil i j = max |C.lil i j * u.getD j 0| |C.lil j i * u.getD i 0| := by
    intro j hj
    rw [e]; exact if_neg hj.symm
  rw [laplacian_abs_diag d4 i hi]
  unfold rowSize
  rw [Finset.mul_sum, Finset.mul_sum]
  constructor
  · intro hB
    apply Finset.sum_le_sum
    intro j hj
    have hjN := Finset.mem_range.mp (Finset.mem_of_mem_erase hj)
    rw [hent j (Finset.ne_of_mem_erase hj), hC.anti i j, neg_mul, abs_neg, abs_mul, abs_mul]
    apply max_le
    · rw [mul_comm]; exact mul_le_mul_of_nonneg_right (hB j hjN) (abs_nonneg _)
    · rw [mul_comm]; exact mul_le_mul_of_nonneg_right (hB i hi) (abs_nonneg _)
  · apply Finset.sum_le_sum
    intro j hj
    rw [hent j (Finset.ne_of_mem_erase hj), hC.anti i j, neg_mul, abs_neg, abs_mul, abs_mul,
      mul_comm |u.getD i 0|]
    exact le_max_right _ _

/-- If all values are bounded by the value of a reference state at some node, the optimal step of the
reference state is admissible up to the factor `κ`. -/
theorem step_dominates (problem : Problem) (C : SysMatrix ℝ) (N : ℕ) (hN : 0 < N) (hC : Conv N C)
    (m : List ℝ) (hm : m.length = N) (hpos : ∀ x ∈ m, 0 < x) (κ : ℝ) (hκ : κ ≤ 1)
    (hreg : problem = .burgers → ∀ i < N, ∀ k < N,
      κ * (m.getD k 0 * rowSize C N i) ≤ m.getD i 0 * rowSize C N k)
    (u r : List ℝ) (hu : u.length = N) (hr : r.length = N) (k : ℕ) (hk : k < N)
    (hle : ∀ i < N, |u.getD i 0| ≤ |r.getD k 0|) (σ τ : Option ℝ)
    (hσ : optimalStep problem m C r = .ok σ) (hτ : optimalStep problem m C u = .ok τ)
    (a : ℝ) (ha : 0 ≤ a) (hle' : AtMost a σ) : AtMost (κ * a) τ := by
  cases problem with
  | advection =>
    have e : optimalStep .advection m C r = optimalStep .advection m C u := rfl
    obtain rfl : σ = τ := Except.ok.inj (hσ.symm.trans (e.trans hτ))
    intro t ht
    have := hle' t ht
    nlinarith
  | burgers =>
    obtain ⟨Dr, r1, -, -, -⟩ := diffusion_spec .burgers N C hC r hr
    obtain ⟨Du, u1, -, -, -⟩ := diffusion_spec .burgers N C hC u hu
    obtain ⟨σ', q1, q2⟩ := optimalStep_spec .burgers N hN C hC r m hr hm hpos Dr r1
    obtain ⟨τ', p1, p2⟩ := optimalStep_spec .burgers N hN C hC u m hu hm hpos Du u1
    obtain rfl : σ' = σ := Except.ok.inj (q1.symm.trans hσ)
    obtain rfl : τ' = τ := Except.ok.inj (p1.symm.trans hτ)
    rw [p2]
    intro i hi
    have h1 := (q2 a).mp hle' k hk
    have h2 := (diffusion_rows C N hC r hr Dr r1 k hk 0).2
    have h3 := (diffusion_rows C N hC u hu Du u1 i hi |r.getD k 0|).1 hle
    have hmk : 0 < m.getD k 0 := by
      rw [List.getD_eq_getElem _ _ (by omega)]; exact hpos _ (List.getElem_mem _)
    have hmi : 0 < m.getD i 0 := by
      rw [List.getD_eq_getElem _ _ (by omega)]; exact hpos _ (List.getElem_mem _)
    have hreg' := hreg rfl i hi k hk
    set B := |r.getD k 0|
    have hB : 0 ≤ B := abs_nonneg _
    by_cases hκ0 : κ ≤ 0
    · have : κ * a * (2 * |Du.lil i i|) ≤ 0 := by
        have h5 : κ * a ≤ 0 := mul_nonpos_of_nonpos_of_nonneg hκ0 ha
        exact mul_nonpos_of_nonpos_of_nonneg h5 (by positivity)
      linarith
    · push Not at hκ0
      have h4 : a * (2 * (B * rowSize C N k)) ≤ m.getD k 0 := by
        refine le_trans ?_ h1
        exact mul_le_mul_of_nonneg_left (by linarith) ha
      have h5 : κ * a * (2 * |Du.lil i i|) ≤ κ * a * (2 * (B * rowSize C N i)) :=
        mul_le_mul_of_nonneg_left (by linarith) (by positivity)
      refine h5.trans ?_
      have h6 : m.getD k 0 * (κ * a * (2 * (B * rowSize C N i))) ≤ m.getD k 0 * m.getD i 0 := by
        calc m.getD k 0 * (κ * a * (2 * (B * rowSize C N i)))
            = 2 * a * B * (κ * (m.getD k 0 * rowSize C N i)) := by ring
          _ ≤ 2 * a * B * (m.getD i 0 * rowSize C N k) :=
              mul_le_mul_of_nonneg_left hreg' (by positivity)
          _ = m.getD i 0 * (a * (2 * (B * rowSize C N k))) := by ring
          _ ≤ m.getD i 0 * m.getD k 0 := mul_le_mul_of_nonneg_left h4 hmi.le
          _ = _ := by ring
      exact le_of_mul_le_mul_left h6 hmk

/-- The range of the values of a vector, and an entry with the largest absolute value. -/
theorem exists_range (N : ℕ) (hN : 0 < N) (r : Fin N → ℝ) :
    ∃ (lo hi : ℝ) (k : Fin N), r ∈ boxSet N lo hi ∧
      (∀ lo' hi', r ∈ boxSet N lo' hi' → lo' ≤ lo ∧ hi ≤ hi') ∧
      ∀ x, lo ≤ x → x ≤ hi → |x| ≤ |r k| := by
  haveI : Nonempty (Fin N) := ⟨⟨0, hN⟩⟩
  obtain ⟨a, ha⟩ := Finite.exists_min r
  obtain ⟨b, hb⟩ := Finite.exists_max r
  rcases le_total |r a| |r b| with h | h
  · refine ⟨r a, r b, b, fun i => ⟨ha i, hb i⟩, fun lo' hi' hh => ⟨(hh a).1, (hh b).2⟩, ?_⟩
    intro x h1 h2
    have := abs_le_max_abs_abs h1 h2
    rwa [max_eq_right h] at this
  · refine ⟨r a, r b, a, fun i => ⟨ha i, hb i⟩, fun lo' hi' hh => ⟨(hh a).1, (hh b).2⟩, ?_⟩
    intro x h1 h2
    have := abs_le_max_abs_abs h1 h2
    rwa [max_eq_left h] at this

end Verif.FE
