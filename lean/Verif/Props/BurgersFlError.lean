import Verif.Props.BurgersFl
import Verif.Props.BurgersConvergence

/-!
C129: the error of floating point runs against the exact solution of Burgers' equation before a shock.
-/

set_option linter.unusedSectionVars false

namespace Verif.FVFl

open Verif.Rounding Verif.FV Verif.ODE Verif.Scalar Verif.Boundary Verif.Py Verif.Convergence
open Verif.Interpolate Verif.Quadrature Verif.Bench
open Verif.Mesh hiding Error

/-- C129.  Convergence with rounding: the Lax-Friedrichs solver for Burgers' equation, started with numbers within `δ` of the
cell averages of smooth positive periodic data and run in floating point arithmetic up to a time before the first shock,
differs from the exact solution in the mean by the error of the scheme (C110), `δ`, and a rounding error per step. -/
theorem C129_error {n : ℕ} (R : Rounding ℝ) (hu2 : R.u ≤ 1 / 2) {m M L B c S : ℝ} {f f' : ℝ → ℝ} {u : ℝ → ℝ → ℝ}
    {points : List (ℝ × ℝ)} (hp : AveragingRule points) {d : Interval ℝ} (hd : d.a < d.b) (hn : 0 < n)
    (hf : BeforeShock (d.b - d.a) m M L B c S f f') (hu : Characteristics f S u) {mesh : UMesh ℝ}
    (hmesh : uniformMesh d n = .ok mesh) (wall il ir : Option (ℝ → ℝ)) (bc : BC ℝ ℝ)
    (hbc : build wall ["periodic"] 1 il ir = .ok bc) (T : Tableau ℝ)
    (hT : T = forwardEuler ℝ ∨ T = heun ℝ ∨ T = ssp3 ℝ) (steps : List ℝ) (δ b : ℝ)
    (hsteps : ∀ dt ∈ steps, 0 ≤ dt ∧ 2 * dt * b ≤ (d.b - d.a) / n) (h1 : steps.sum ≤ S)
    (hm : δ + steps.length * (burgersError R T.size * b) < m)
    (hM : M + δ + steps.length * (burgersError R T.size * b) ≤ b) (hb : M ≤ b)
    (s : Solver ℝ (Fin n → ℝ)) (hs : ∀ i : Fin n, |s.solution i - (cellAverages points mesh f).getD i 0| ≤ δ) :
    ∃ s', runFl R (roundTableau R T)
        (vecRhs n (rhsFl R (laxFriedrichsFl R (riemannFl R .burgers)) ((d.b - d.a) / n) bc)) s steps = .ok s' ∧
      ∀ x : Fin n → ℝ, (∀ i : Fin n, InCell d n i (x i)) →
        (d.b - d.a) / n * ∑ i, |s'.solution i - u steps.sum (x i)| ≤
          (d.b - d.a) * ((L / c + 2 * (2 * (L / c) ^ 2 + M * (B / c ^ 3)) * steps.sum) * ((d.b - d.a) / n) +
            (δ + steps.length * (burgersError R T.size * b))) := by
  have hn0 : (0 : ℝ) < n := by exact_mod_cast hn
  have hdx : 0 < (d.b - d.a) / n := div_pos (by linarith) hn0
  have hδ : 0 ≤ δ := (abs_nonneg _).trans (hs ⟨0, hn⟩)
  set v : Fin n → ℝ := fun i => (cellAverages points mesh f).getD i 0 with hv
  obtain ⟨hcells, hlt, -⟩ := uniform_cells hd hn hmesh
  have hrange : ∀ i : Fin n, m ≤ v i ∧ v i ≤ M := fun i =>
    (C58_basic points mesh hlt hp.sum hp.pos hp.inside f).2.2.1 i (by rw [hcells]; exact i.2) m M
      fun x _ _ => hf.range x
  have hm0 := hf.pos
  have hmM : m ≤ M := (hrange ⟨0, hn⟩).1.trans (hrange ⟨0, hn⟩).2
  have hb0 : 0 ≤ b := by linarith
  obtain ⟨r', r1, -, -, r3⟩ := C110_convergence hp hd hn hf hu hmesh wall il ir bc hbc T hT steps (fun dt hdt => by
    obtain ⟨q1, q2⟩ := hsteps dt hdt
    refine ⟨q1, le_trans ?_ q2⟩
    have := mul_le_mul_of_nonneg_left hb q1
    linarith) h1 0
  obtain ⟨g, hg, p1, p2⟩ := cells_periodic n hn wall il ir bc hbc
  have he : 0 ≤ (steps.length : ℝ) * (burgersError R T.size * b) :=
    mul_nonneg (by positivity) (mul_nonneg (burgersError_nonneg R _) hb0)
  obtain ⟨s', r'', k1, k2, -, -, k3⟩ := burgers_run R hu2 n hn bc g hg _ hdx T hT
    (m - δ - steps.length * (burgersError R T.size * b)) b (by linarith) steps hsteps (m - δ) (M + δ) m M le_rfl hM
    (by linarith) hb s (Solver.init v 0) (fun i => by
      have q1 := _root_.abs_le.1 (hs i)
      have q2 := hrange i
      constructor <;> linarith [q1.1, q1.2, q2.1, q2.2]) hrange
  rw [r1] at k2
  cases k2
  refine ⟨s', k1, fun x hx => ?_⟩
  have q1 := k3 p1 p2
  have q2 : distance s.solution (Solver.init v 0).solution ≤ n * δ := by
    unfold distance
    refine (Finset.sum_le_sum fun i _ => hs i).trans (le_of_eq ?_)
    simp
  have q3 := r3 x hx
  have q4 : ∑ i, |s'.solution i - u steps.sum (x i)| ≤
      (n * δ + steps.length * (n * (burgersError R T.size * b))) + ∑ i, |r'.solution i - u steps.sum (x i)| := by
    have : ∑ i, |s'.solution i - u steps.sum (x i)| ≤
        distance s'.solution r'.solution + ∑ i, |r'.solution i - u steps.sum (x i)| := by
      unfold distance
      rw [← Finset.sum_add_distrib]
      exact Finset.sum_le_sum fun i _ => abs_sub_le _ _ _
    have q5 : distance s'.solution r'.solution ≤ n * δ + steps.length * (n * (burgersError R T.size * b)) :=
      q1.trans (add_le_add q2 le_rfl)
    exact this.trans (add_le_add q5 le_rfl)
  have hPn : (d.b - d.a) / n * n = d.b - d.a := by field_simp
  calc _ ≤ (d.b - d.a) / n * ((n * δ + steps.length * (n * (burgersError R T.size * b))) +
          ∑ i, |r'.solution i - u steps.sum (x i)|) := mul_le_mul_of_nonneg_left q4 hdx.le
    _ = (d.b - d.a) / n * n * (δ + steps.length * (burgersError R T.size * b)) +
          (d.b - d.a) / n * ∑ i, |r'.solution i - u steps.sum (x i)| := by ring
    _ ≤ _ := by
      rw [hPn]
      linarith

/-- Non-vacuity: `2 + sin` on four cells of `[0, 2π]`, started with the rounded averages, three steps in double precision. -/
example (mesh : UMesh ℝ) (hmesh : uniformMesh ⟨0, 2 * Real.pi⟩ 4 = .ok mesh)
    (bc : BC ℝ ℝ) (hbc : build (K := ℝ) (V := ℝ) none ["periodic"] 1 none none = .ok bc) :
    ∃ s', runFl (double ℝ) (roundTableau (double ℝ) (heun ℝ))
        (vecRhs 4 (rhsFl (double ℝ) (laxFriedrichsFl (double ℝ) (riemannFl (double ℝ) .burgers))
          ((2 * Real.pi - 0) / (4 : ℕ)) bc))
        (Solver.init (fun i : Fin 4 => (double ℝ).fl ((cellAverages [(0, 2)] mesh fun x => 2 + Real.sin x).getD i 0)) 0)
        [1 / 10, 1 / 10, 1 / 10] = .ok s' := by
  have hpi := Real.two_le_pi
  obtain ⟨⟨u, hu⟩, -⟩ := C110_exact example_data
  obtain ⟨hcells, hlt, -⟩ := uniform_cells (d := ⟨0, 2 * Real.pi⟩) (by simp only; linarith) (n := 4) (by norm_num) hmesh
  have hud : (double ℝ).u = 1 / 2 ^ 53 := rfl
  have herr := burgersError_double (heun ℝ) (Or.inr (Or.inl rfl))
  have herr0 := burgersError_nonneg (double ℝ) (heun ℝ).size
  have hrange : ∀ i : Fin 4, 1 ≤ (cellAverages [(0, 2)] mesh fun x => 2 + Real.sin x).getD i 0 ∧
      (cellAverages [(0, 2)] mesh fun x => 2 + Real.sin x).getD i 0 ≤ 3 := fun i =>
    (C58_basic _ mesh hlt midpoint_rule.sum midpoint_rule.pos midpoint_rule.inside _).2.2.1 i (by rw [hcells]; exact i.2) 1 3
      fun x _ _ => example_data.range x
  obtain ⟨s', h, -⟩ := C129_error (double ℝ) (by rw [hud]; norm_num) midpoint_rule (d := ⟨0, 2 * Real.pi⟩)
    (by simp only; linarith) (n := 4) (by norm_num) example_data hu hmesh none none none bc hbc (heun ℝ) (Or.inr (Or.inl rfl))
    [1 / 10, 1 / 10, 1 / 10] (1 / 10) 4
    (by intro dt h; simp at h; subst h; constructor <;> [norm_num; (push_cast; linarith)]) (by norm_num)
    (by simp only [List.length_cons, List.length_nil]; push_cast; linarith)
    (by simp only [List.length_cons, List.length_nil]; push_cast; linarith) (by norm_num)
    (Solver.init (fun i : Fin 4 => (double ℝ).fl ((cellAverages [(0, 2)] mesh fun x => 2 + Real.sin x).getD i 0)) 0)
    (fun i => by
      have h1 := (double ℝ).near ((cellAverages [(0, 2)] mesh fun x => 2 + Real.sin x).getD i 0)
      have h2 := hrange i
      rw [abs_of_nonneg (by linarith [h2.1] : 0 ≤ (cellAverages [(0, 2)] mesh fun x => 2 + Real.sin x).getD i 0), hud] at h1
      refine h1.trans ?_
      have := h2.2
      norm_num at *
      linarith)
  exact ⟨s', h⟩

end Verif.FVFl
