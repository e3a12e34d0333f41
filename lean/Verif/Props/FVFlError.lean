import Verif.Props.FVFl
import Verif.Props.ConvergenceRate
import Verif.Props.TimeSteppingFl
import Mathlib.Analysis.SpecialFunctions.Trigonometric.Bounds

/-!
C128: the error of floating point runs against the exact solution of the advection equation.
-/

set_option linter.unusedSectionVars false

namespace Verif.FVFl

open Verif.Rounding Verif.FV Verif.ODE Verif.Scalar Verif.Boundary Verif.Py Verif.Convergence
open Verif.Interpolate Verif.Quadrature Verif.Bench
open Verif.Mesh hiding Error

/-- C128.  Convergence with rounding: the Lax-Friedrichs solver for the advection equation with Lipschitz continuous
periodic data, started with numbers within `δ` of the cell averages and run in floating point arithmetic, differs from the
exact solution at time `τ` by the error of the scheme and the accumulated roundings. -/
theorem C128_error {n : ℕ} (R : Rounding ℝ) (h2 : R.fl 2 = 2) {points : List (ℝ × ℝ)} (hp : AveragingRule points)
    {d : Interval ℝ} (hd : d.a < d.b) (hn : 0 < n) {mesh : UMesh ℝ} (hmesh : uniformMesh d n = .ok mesh)
    (wall il ir : Option (ℝ → ℝ)) (bc : BC ℝ ℝ) (hbc : build wall ["periodic"] 1 il ir = .ok bc) (T : Tableau ℝ)
    (hT : T = forwardEuler ℝ ∨ T = heun ℝ ∨ T = ssp3 ℝ) (steps : List ℝ)
    (hsteps : ∀ dt ∈ steps, 0 ≤ dt ∧ dt ≤ (d.b - d.a) / n) (f : ℝ → ℝ) (hf : ∀ x, f (x + (d.b - d.a)) = f x) (L : ℝ)
    (hL : ∀ x y, |f x - f y| ≤ L * |x - y|) (t₀ τ M δ : ℝ)
    (hM : ∀ i : Fin n, |(cellAverages points mesh f).getD i 0| ≤ M) (s : Solver ℝ (Fin n → ℝ))
    (hs : ∀ i : Fin n, |s.solution i - (cellAverages points mesh f).getD i 0| ≤ δ) :
    ∃ s', runFl R (roundTableau R T)
        (vecRhs n (rhsFl R (laxFriedrichsFl R (riemannFl R .advection)) ((d.b - d.a) / n) bc)) s steps = .ok s' ∧
      ∀ (i : Fin n) (x : ℝ), InCell d n i x → |s'.solution i - f (x - τ)| ≤
        L * ((d.b - d.a) / n + Real.sqrt (steps.sum * ((d.b - d.a) / n)) + |steps.sum - τ|) +
        ((1 + stepError R T.size) ^ steps.length * (M + δ) - M) := by
  have hn0 : (0 : ℝ) < n := by exact_mod_cast hn
  have hdx : 0 < (d.b - d.a) / n := div_pos (by linarith) hn0
  obtain ⟨r', g1, -, g2⟩ := C103_lipschitz hp hd hn hmesh wall il ir bc hbc T hT steps hsteps f hf L hL t₀ τ
  obtain ⟨g, hg, -⟩ := cells_periodic n hn wall il ir bc hbc
  obtain ⟨s', h1, h3, -⟩ := run_near R h2 n hn bc g hg _ hdx T hT steps hsteps (-M) M M le_rfl le_rfl s
    (Solver.init (fun i : Fin n => (cellAverages points mesh f).getD i 0) t₀) δ hs (fun i => abs_le.1 (hM i))
  rw [run_upwind n bc g hg _ hdx] at g1
  have e := Except.ok.inj g1
  refine ⟨s', h1, fun i x hx => ?_⟩
  have k1 := h3 i
  rw [e] at k1
  have k2 := g2 i x hx
  have k3 : |s'.solution i - f (x - τ)| ≤ |s'.solution i - r'.solution i| + |r'.solution i - f (x - τ)| := by
    simpa using abs_add_le (s'.solution i - r'.solution i) (r'.solution i - f (x - τ))
  linarith

/-- Non-vacuity: the sine on four cells of `[0, 2π]`, started with the rounded averages, twenty steps in double precision. -/
example (points : List (ℝ × ℝ)) (hp : AveragingRule points) (mesh : UMesh ℝ)
    (hmesh : uniformMesh ⟨0, 2 * Real.pi⟩ 4 = .ok mesh)
    (bc : BC ℝ ℝ) (hbc : build (K := ℝ) (V := ℝ) none ["periodic"] 1 none none = .ok bc) :
    ∃ s', runFl (double ℝ) (roundTableau (double ℝ) (heun ℝ))
        (vecRhs 4 (rhsFl (double ℝ) (laxFriedrichsFl (double ℝ) (riemannFl (double ℝ) .advection))
          ((2 * Real.pi - 0) / (4 : ℕ)) bc))
        (Solver.init (fun i : Fin 4 => (double ℝ).fl ((cellAverages points mesh Real.sin).getD i 0)) 0)
        (List.replicate 20 (1 / 2)) = .ok s' := by
  have hpi := Real.two_le_pi
  obtain ⟨s', h, -⟩ := C128_error (double ℝ) double_two hp (d := ⟨0, 2 * Real.pi⟩) (by simp only; linarith) (n := 4)
    (by norm_num) hmesh none none none bc hbc (heun ℝ) (Or.inr (Or.inl rfl)) (List.replicate 20 (1 / 2))
    (by intro dt h; rw [List.eq_of_mem_replicate h]; constructor <;> [norm_num; (push_cast; linarith)]) Real.sin
    (fun x => by rw [sub_zero, Real.sin_add_two_pi]) 1
    (fun x y => by rw [one_mul]; exact Real.abs_sin_sub_sin_le x y) 0 0
    (∑ i : Fin 4, |(cellAverages points mesh Real.sin).getD i 0|)
    ((double ℝ).u * ∑ i : Fin 4, |(cellAverages points mesh Real.sin).getD i 0|)
    (fun i => Finset.single_le_sum (f := fun i : Fin 4 => |(cellAverages points mesh Real.sin).getD i 0|)
      (fun j _ => abs_nonneg _) (Finset.mem_univ i))
    (Solver.init (fun i : Fin 4 => (double ℝ).fl ((cellAverages points mesh Real.sin).getD i 0)) 0)
    (fun i => ((double ℝ).near _).trans (mul_le_mul_of_nonneg_left
      (Finset.single_le_sum (f := fun i : Fin 4 => |(cellAverages points mesh Real.sin).getD i 0|)
        (fun j _ => abs_nonneg _) (Finset.mem_univ i)) (double ℝ).nonneg))
  exact ⟨s', h⟩

/-- C128, with the time loop in floating point arithmetic (C127): the steps a loop proposes for the advection equation (the
length of a cell times a CFL number up to one), rounded, keep the run near the run in exact arithmetic over the same
steps. -/
theorem C128_loop {K : Type*} [Field K] [LinearOrder K] [IsStrictOrderedRing K] (R : Rounding K) (hu : R.u < 1)
    (h2 : R.fl 2 = 2) (n : ℕ) (hn : 0 < n) (wall : Option (K → K))
    (il ir : Option (K → K)) (bc : BC K K) (name : String) (hname : name = "periodic" ∨ name = "outflow")
    (hbc : build wall [name] 1 il ir = .ok bc) (dx : K) (hdx : 0 < dx) (hrep : R.fl dx = dx) (T : Tableau K)
    (hT : T = forwardEuler K ∨ T = heun K ∨ T = ssp3 K) (c : TimeStepping.Config K) (st : TimeStepping.State K)
    (h0 : R.fl c.startTime = c.startTime) (h1 : R.fl c.endTime = c.endTime) (hcfl1 : c.gen.cfl ≤ 1)
    (hraw : ∀ k, c.gen.raw k = dx) (calls : ℕ)
    (a b M : K) (ha : -M ≤ a) (hb : b ≤ M) (s : Solver K (Fin n → K)) (hs : ∀ i, a ≤ s.solution i ∧ s.solution i ≤ b) :
    ∃ s' r, runFl R (roundTableau R T) (vecRhs n (rhsFl R (laxFriedrichsFl R (riemannFl R .advection)) dx bc)) s
        (TimeStepping.Run.afterFl R c st calls).steps = .ok s' ∧
      s.runE T (vecRhs n (rhs (laxFriedrichs (Problem.riemann .advection)) dx bc))
        (TimeStepping.Run.afterFl R c st calls).steps = .ok r ∧
      (∀ i, |s'.solution i - r.solution i| ≤
        ((1 + stepError R T.size) ^ (TimeStepping.Run.afterFl R c st calls).steps.length - 1) * M) := by
  have ht := TimeSteppingFl.C127_times R hu c st h0 h1 calls
  simp only at ht
  obtain ⟨-, -, t3, t4, -⟩ := ht
  have hsteps : ∀ dt ∈ (TimeStepping.Run.afterFl R c st calls).steps, 0 ≤ dt ∧ dt ≤ dx := by
    intro dt hdt
    refine ⟨(R.fl_nonneg (by positivity)).trans (t3 dt hdt), ?_⟩
    obtain ⟨k, hk, rfl⟩ := List.mem_iff_getElem.1 hdt
    refine (t4 k hk).trans ?_
    rw [← hrep]
    apply R.mono
    have e : (if c.gen.adaptive then c.gen.raw (st.calls + k) else c.gen.raw 0) = dx := by
      split <;> exact hraw _
    rw [e]
    nlinarith
  obtain ⟨s', r, g1, g2, g3, -⟩ := C128_run R h2 n hn wall il ir bc name hname hbc dx hdx T hT _ hsteps a b M ha hb s hs
  exact ⟨s', r, g1, g2, g3⟩

/-- Non-vacuity: the loop of `-T 1` with steps of half a cell, three cells of length one. -/
example (calls : ℕ) : ∃ s' r, runFl (double ℚ) (roundTableau (double ℚ) (heun ℚ))
      (vecRhs 3 (rhsFl (double ℚ) (laxFriedrichsFl (double ℚ) (riemannFl (double ℚ) .advection)) 1 exampleBC)) exampleData
      (TimeStepping.Run.afterFl (double ℚ) ⟨0, 1, ⟨fun _ => 1, 1 / 2, false⟩⟩ ⟨0, 0, true, 0⟩ calls).steps = .ok s' ∧
    exampleData.runE (heun ℚ) (vecRhs 3 (rhs (laxFriedrichs (Problem.riemann .advection)) 1 exampleBC))
      (TimeStepping.Run.afterFl (double ℚ) ⟨0, 1, ⟨fun _ => 1, 1 / 2, false⟩⟩ ⟨0, 0, true, 0⟩ calls).steps = .ok r := by
  obtain ⟨s', r, h1, h2, -⟩ := C128_loop (double ℚ) (by decide +kernel) double_two 3 (by norm_num) none none none exampleBC
    "periodic" (Or.inl rfl) exampleBC_build 1 one_pos (by decide +kernel) (heun ℚ) (Or.inr (Or.inl rfl))
    ⟨0, 1, ⟨fun _ => 1, 1 / 2, false⟩⟩ ⟨0, 0, true, 0⟩ (by decide +kernel) (by decide +kernel) (by norm_num)
    (fun _ => rfl) calls (-1) 1 1 le_rfl le_rfl exampleData (by decide +kernel)
  exact ⟨s', r, h1, h2⟩

end Verif.FVFl
