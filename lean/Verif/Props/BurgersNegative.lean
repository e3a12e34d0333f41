import Verif.Props.CentralScheme
import Verif.Props.Energy
import Mathlib.Algebra.Order.Chebyshev

/-!
C121: the Lax-Friedrichs finite volume solver for Burgers' equation with negative data.  The wave speed of
`finite_volume/scalar/core.py` lines 18-40 is the larger one of the two values, not of their absolute values, so
that for negative data the numerical diffusion has the wrong sign.
-/

set_option linter.unusedSectionVars false

namespace Verif.Negative

open Verif.FE Verif.Py Verif.ODE Verif.Scalar Verif.Convergence Verif.Solver Verif.FV
open Verif.Boundary
open Verif.Mesh hiding Error

variable {n : ℕ}

/-! ### Specification -/

/-- The sum of the squared deviations from the mean. -/
noncomputable def deviation (u : Fin n → ℝ) : ℝ := ∑ i, (u i - (∑ j, u j) / n) ^ 2

/-- All values lie between `-M` and `-m`. -/
def Between (M m : ℝ) (u : Fin n → ℝ) : Prop := ∀ i, -M ≤ u i ∧ u i ≤ -m

/-- The values `1, -1, 1, -1, ...`. -/
def sawtooth (n : ℕ) (i : Fin n) : ℝ := if (i : ℕ) % 2 = 0 then 1 else -1

/-- The Lax-Friedrichs right-hand side for Burgers' equation. -/
noncomputable abbrev burgersRhs (n : ℕ) (dx : ℝ) (bc : BC ℝ ℝ) : ℝ → (Fin n → ℝ) → Except Error (Fin n → ℝ) :=
  vecRhs n (rhs (laxFriedrichs Problem.burgers.riemann) dx bc)

/-! ### The right-hand side -/

noncomputable def fluxB (x y : ℝ) : ℝ := (x ^ 2 + y ^ 2) / 4 - max x y / 2 * (y - x)

theorem nodeFlux_ok (x y : ℝ) (h : max x y ≠ 0) : Problem.burgers.riemann.nodeFlux x y = .ok (fluxB x y) := by
  cases hx : Problem.burgers.riemann.nodeFlux x y with
  | ok g =>
    rw [nodeFlux_inv .burgers x y g hx]
    simp only [Problem.flux, Problem.speed, Problem.waveSpeed, Problem.fluxPrime, fluxB]
    congr 1
    ring
  | error e =>
    exfalso
    simp only [Riemann.nodeFlux, Riemann.solve, Problem.riemann, Problem.waveSpeed, Problem.fluxPrime] at hx
    have h0 : ¬ (max x y - -max x y = 0) := by
      intro hz; apply h; linarith
    simp only [if_neg h0] at hx
    cases hx

noncomputable def slope (dx : ℝ) (u : Fin n → ℝ) (i : Fin n) : ℝ :=
  (fluxB (around u (i - 1)) (around u i) - fluxB (around u i) (around u (i + 1))) / dx

theorem around_slope (hn : 0 < n) (dx : ℝ) (u : Fin n → ℝ) (z : ℤ) :
    around (slope dx u) z =
      (fluxB (around u (z - 1)) (around u z) - fluxB (around u z) (around u (z + 1))) / dx := by
  obtain ⟨i, q, rfl⟩ := around_exists hn z
  rw [around_shift, around_cell, show (i : ℤ) + q * n - 1 = (i - 1) + q * n by ring, around_shift,
    show (i : ℤ) + q * n + 1 = (i + 1) + q * n by ring, around_shift, around_shift]
  rfl

theorem around_between (hn : 0 < n) {M m : ℝ} {u : Fin n → ℝ} (h : Between M m u) (z : ℤ) :
    -M ≤ around u z ∧ around u z ≤ -m := by
  obtain ⟨i, q, rfl⟩ := around_exists hn z
  rw [around_shift, around_cell]
  exact h i

section Scheme

variable (hn : 0 < n) (wall : Option (ℝ → ℝ)) (il ir : Option (ℝ → ℝ)) (bc : BC ℝ ℝ)
  (hbc : build wall ["periodic"] 1 il ir = .ok bc) (dx : ℝ)
include hn hbc

theorem rhs_negative (hdx : dx ≠ 0) (t : ℝ) (u : Fin n → ℝ) (hu : ∀ i, u i < 0) :
    burgersRhs n dx bc t u = .ok (slope dx u) := by
  have hneg : ∀ z, around u z < 0 := by
    intro z
    obtain ⟨i, q, rfl⟩ := around_exists hn z
    rw [around_shift, around_cell]
    exact hu i
  have hext := periodic_extend wall 1 il ir bc hbc (List.ofFn u)
    (by simpa using Nat.succ_le_of_lt hn) (some t)
  have g : ∀ j, j < n + 2 → ((List.range ((List.ofFn u).length + 2 * 1)).map
      (fun i => (List.ofFn u).getD ((i + (List.ofFn u).length - 1) % (List.ofFn u).length) 0)).getD j 0 =
      around u (j - 1) := by
    intro j hj
    rw [List.getD_eq_getElem _ _ (by simpa using hj)]
    simp only [List.length_ofFn, List.getElem_map, List.getElem_range]
    unfold around
    have e : (((j : ℤ) - 1) % n).toNat = (j + n - 1) % n := by
      rw [← Int.add_emod_right]
      have : (j : ℤ) - 1 + n = ((j + n - 1 : ℕ) : ℤ) := by omega
      rw [this, ← Int.natCast_mod, Int.toNat_natCast]
    have hlt : (j + n - 1) % n < n := Nat.mod_lt _ hn
    simp only [e, dif_pos hlt]
    rw [List.getD_eq_getElem _ _ (by simpa using hlt)]
    simp
  have hl := rhs_twoPoint Problem.burgers.riemann.nodeFlux dx hdx bc t (List.ofFn u) _ hext n (by simp)
    (fun j => fluxB (around u (j - 1)) (around u j)) (by
      intro j hj
      have h1 := g j (by omega)
      have h2 := g (j + 1) (by omega)
      rw [List.getD_eq_getElem _ _ (by simp; omega)] at h1 h2
      rw [h1, h2, nodeFlux_ok _ _ (max_lt (hneg _) (hneg _)).ne]
      push_cast
      rw [add_sub_cancel_right])
  rw [burgersRhs, laxFriedrichs, SWE.vecRhs_range _ t u _ hl]
  congr 1
  funext i
  simp only [slope, smul_eq_mul]
  push_cast
  rw [add_sub_cancel_right]
  field_simp
  ring

/-! ### Energy -/

omit hbc in
theorem slope_sum (u : Fin n → ℝ) : ∑ i, slope dx u i = 0 := by
  have e := sum_around (slope dx u) (fun x _ => x) (slope dx u)
  simp only [around_slope hn] at e
  rw [e]
  have s := shift_around (n := n) (fun z => fluxB (around u z) (around u (z + 1))) (by
    intro z
    rw [around_periodic, show z + (n : ℤ) + 1 = z + 1 + n by ring, around_periodic])
  simp only [sub_add_cancel] at s
  rw [← Finset.sum_div, Finset.sum_sub_distrib, ← s, sub_self, zero_div]

omit hbc in
theorem slope_energy (u : Fin n → ℝ) : ∑ i, u i * slope dx u i = (∑ c ∈ Finset.range n,
    ((around u (c + 1) - around u c) ^ 3 / 12 -
      max (around u c) (around u (c + 1)) / 2 * (around u (c + 1) - around u c) ^ 2)) / dx := by
  have e := sum_around u (fun x y => x * y) (slope dx u)
  simp only [around_slope hn] at e
  rw [e]
  have s := shift_around (n := n) (fun z => around u (z + 1) * fluxB (around u z) (around u (z + 1))) (by
    intro z
    rw [around_periodic, show z + (n : ℤ) + 1 = z + 1 + n by ring, around_periodic])
  have s2 := shift_around (n := n) (fun z => around u (z + 1) ^ 3 / 6) (by
    intro z
    rw [show z + (n : ℤ) + 1 = z + 1 + n by ring, around_periodic])
  simp only [sub_add_cancel] at s s2
  have l : ∑ c ∈ Finset.range n, around u c * ((fluxB (around u (c - 1)) (around u c) -
      fluxB (around u c) (around u (c + 1))) / dx) =
      (∑ c ∈ Finset.range n, around u c * fluxB (around u (c - 1)) (around u c) -
       ∑ c ∈ Finset.range n, around u c * fluxB (around u c) (around u (c + 1))) / dx := by
    rw [← Finset.sum_sub_distrib, Finset.sum_div]
    exact Finset.sum_congr rfl fun c _ => by ring
  rw [l, ← s, ← Finset.sum_sub_distrib]
  congr 1
  have r : ∑ c ∈ Finset.range n, ((around u (c + 1) - around u c) ^ 3 / 12 -
      max (around u c) (around u (c + 1)) / 2 * (around u (c + 1) - around u c) ^ 2) =
      ∑ c ∈ Finset.range n, ((around u (c + 1) - around u c) ^ 3 / 12 -
      max (around u c) (around u (c + 1)) / 2 * (around u (c + 1) - around u c) ^ 2) +
      (∑ c ∈ Finset.range n, around u (c + 1) ^ 3 / 6 - ∑ c ∈ Finset.range n, around u c ^ 3 / 6) := by
    rw [s2]; ring
  rw [r, ← Finset.sum_sub_distrib, ← Finset.sum_add_distrib]
  refine Finset.sum_congr rfl fun c _ => ?_
  unfold fluxB
  ring

omit hbc in
/-- The energy grows at least like the squared jumps. -/
theorem slope_growth (hdx : 0 < dx) {M m : ℝ} (hm : 0 < m) (u : Fin n → ℝ) (hu : Between M m u) :
    (7 * m - M) / 12 / dx * ∑ c ∈ Finset.range n, (around u (c + 1) - around u c) ^ 2 ≤
      ∑ i, u i * slope dx u i := by
  rw [slope_energy hn, div_mul_eq_mul_div]
  gcongr
  rw [Finset.mul_sum]
  apply Finset.sum_le_sum
  intro c _
  obtain ⟨a1, a2⟩ := around_between hn hu c
  obtain ⟨b1, b2⟩ := around_between hn hu (c + 1)
  generalize around u c = x at *
  generalize around u (c + 1) = y at *
  have key : (7 * m - M) / 12 ≤ (y - x) / 12 - max x y / 2 := by
    rcases le_total x y with h | h
    · rw [max_eq_right h]; linarith
    · rw [max_eq_left h]; linarith
  nlinarith [mul_le_mul_of_nonneg_right key (sq_nonneg (y - x))]

omit hn hbc in
theorem deviation_eq (hn : 0 < n) (u : Fin n → ℝ) (a : ℝ) :
    deviation u = ∑ i, (u i - a) ^ 2 - n * ((∑ j, u j) / n - a) ^ 2 := by
  have hn0 : (n : ℝ) ≠ 0 := by exact_mod_cast hn.ne'
  unfold deviation
  have e : ∀ b : ℝ, ∑ i, (u i - b) ^ 2 = ∑ i, u i ^ 2 - 2 * b * (∑ i, u i) + n * b ^ 2 := by
    intro b
    have : ∑ i, (u i - b) ^ 2 = ∑ i, (u i ^ 2 - 2 * b * u i + b ^ 2) :=
      Finset.sum_congr rfl fun i _ => by ring
    rw [this, Finset.sum_add_distrib, Finset.sum_sub_distrib, ← Finset.mul_sum]
    simp
  rw [e, e]
  field_simp
  ring

omit hn hbc in
theorem deviation_le (hn : 0 < n) (u : Fin n → ℝ) (a : ℝ) : deviation u ≤ ∑ i, (u i - a) ^ 2 := by
  rw [deviation_eq hn u a]
  have : 0 ≤ (n : ℝ) * ((∑ j, u j) / n - a) ^ 2 := by positivity
  linarith

omit hbc in
theorem deviation_jumps (u : Fin n → ℝ) :
    deviation u ≤ n ^ 2 * ∑ c ∈ Finset.range n, (around u (c + 1) - around u c) ^ 2 := by
  refine (deviation_le hn u (around u 0)).trans ?_
  have h : ∀ i : Fin n, (u i - around u 0) ^ 2 ≤
      n * ∑ c ∈ Finset.range n, (around u (c + 1) - around u c) ^ 2 := by
    intro i
    have e : u i - around u 0 = ∑ c ∈ Finset.range i, (around u (c + 1) - around u c) := by
      have := Finset.sum_range_sub (fun c : ℕ => around u c) i
      push_cast at this
      rw [this, around_cell]
    rw [e]
    refine (sq_sum_le_card_mul_sum_sq (s := Finset.range (i : ℕ))).trans ?_
    rw [Finset.card_range]
    have h1 : ∑ c ∈ Finset.range (i : ℕ), (around u (c + 1) - around u c) ^ 2 ≤
        ∑ c ∈ Finset.range n, (around u (c + 1) - around u c) ^ 2 :=
      Finset.sum_le_sum_of_subset_of_nonneg (Finset.range_subset_range.mpr i.2.le) fun _ _ _ => sq_nonneg _
    have h2 : ((i : ℕ) : ℝ) ≤ n := by exact_mod_cast i.2.le
    have h3 : 0 ≤ ∑ c ∈ Finset.range (i : ℕ), (around u (c + 1) - around u c) ^ 2 :=
      Finset.sum_nonneg fun _ _ => sq_nonneg _
    exact mul_le_mul h2 h1 h3 (by positivity)
  refine (Finset.sum_le_sum fun i _ => h i).trans (le_of_eq ?_)
  simp
  ring

omit hn hbc in
theorem deviation_add (hn : 0 < n) (u k : Fin n → ℝ) (hk : ∑ i, k i = 0) (dt : ℝ) :
    deviation (u + dt • k) = deviation u + 2 * dt * ∑ i, u i * k i + dt ^ 2 * ∑ i, k i ^ 2 := by
  have h1 : ∑ j, (u + dt • k) j = ∑ j, u j := by
    simp only [Pi.add_apply, Pi.smul_apply, smul_eq_mul, Finset.sum_add_distrib, ← Finset.mul_sum, hk]
    ring
  unfold deviation
  rw [h1]
  generalize (∑ j, u j) / (n : ℝ) = a
  have : ∑ i, ((u + dt • k) i - a) ^ 2 = ∑ i, ((u i - a) ^ 2 + 2 * dt * (u i * k i) + dt ^ 2 * k i ^ 2 -
      2 * dt * a * k i) := Finset.sum_congr rfl fun i _ => by
    simp only [Pi.add_apply, Pi.smul_apply, smul_eq_mul]; ring
  rw [this, Finset.sum_sub_distrib, Finset.sum_add_distrib, Finset.sum_add_distrib, ← Finset.mul_sum,
    ← Finset.mul_sum, ← Finset.mul_sum, hk]
  ring

omit hbc in
theorem step_growth (hdx : 0 < dx) {M m dt : ℝ} (hm : 0 < m) (hM : M ≤ 7 * m) (hdt : 0 ≤ dt) (u v : Fin n → ℝ)
    (hu : Between M m u) (h : deviation u + dt * ∑ i, u i * slope dx u i ≤ deviation v) :
    (1 + dt * (7 * m - M) / (12 * n ^ 2 * dx)) * deviation u ≤ deviation v := by
  have hn0 : (0 : ℝ) < n := by exact_mod_cast hn
  refine le_trans ?_ h
  have g := slope_growth hn dx hdx hm u hu
  have p := deviation_jumps hn u
  have hc : 0 ≤ (7 * m - M) / 12 / dx := by
    have : 0 ≤ 7 * m - M := by linarith
    positivity
  have key : (7 * m - M) / (12 * n ^ 2 * dx) * deviation u ≤ ∑ i, u i * slope dx u i := by
    refine le_trans ?_ g
    have e : (7 * m - M) / (12 * n ^ 2 * dx) = (7 * m - M) / 12 / dx / n ^ 2 := by field_simp
    rw [e, div_mul_eq_mul_div, div_le_iff₀ (by positivity)]
    calc _ ≤ (7 * m - M) / 12 / dx * (n ^ 2 * ∑ c ∈ Finset.range n, (around u (c + 1) - around u c) ^ 2) :=
          mul_le_mul_of_nonneg_left p hc
      _ = _ := by ring
  have := mul_le_mul_of_nonneg_left key hdt
  calc _ = deviation u + dt * ((7 * m - M) / (12 * n ^ 2 * dx) * deviation u) := by ring
    _ ≤ _ := by linarith

omit hbc in
theorem heun_deviation (u : Fin n → ℝ) (dt : ℝ) :
    deviation (u + dt • ((1 / 2 : ℝ) • slope dx u + (1 / 2 : ℝ) • slope dx (u + dt • slope dx u))) =
      deviation u + dt * ∑ i, u i * slope dx u i +
        dt * ∑ i, (u + dt • slope dx u) i * slope dx (u + dt • slope dx u) i +
        dt ^ 2 / 4 * ∑ i, (slope dx u i - slope dx (u + dt • slope dx u) i) ^ 2 := by
  have s1 := slope_sum hn dx u
  have s2 := slope_sum hn dx (u + dt • slope dx u)
  generalize hk : slope dx (u + dt • slope dx u) = k at *
  generalize slope dx u = l at *
  rw [deviation_add hn _ _ (by
    simp only [Pi.add_apply, Pi.smul_apply, smul_eq_mul, Finset.sum_add_distrib, ← Finset.mul_sum, s1, s2]
    ring)]
  simp only [Pi.add_apply, Pi.smul_apply, smul_eq_mul, Finset.mul_sum, add_assoc]
  congr 1
  simp only [← Finset.sum_add_distrib]
  exact Finset.sum_congr rfl fun i _ => by ring

open Classical in
theorem step_runs (hdx : 0 < dx) {M m : ℝ} (hm : 0 < m) (T : Tableau ℝ) (hT : T = forwardEuler ℝ ∨ T = heun ℝ)
    (s : Solver ℝ (Fin n → ℝ)) (dt : ℝ) (hu : Between M m s.solution)
    (hh : T = heun ℝ → Between M m (s.solution + dt • slope dx s.solution)) :
    s.executeE T (burgersRhs n dx bc) dt = .ok (s.execute T (totalise (burgersRhs n dx bc)) dt) ∧
      (s.execute T (totalise (burgersRhs n dx bc)) dt).solution = s.solution + dt • (
        if T = heun ℝ then (1 / 2 : ℝ) • slope dx s.solution +
          (1 / 2 : ℝ) • slope dx (s.solution + dt • slope dx s.solution) else slope dx s.solution) := by
  have f0 : ∀ t, burgersRhs n dx bc t s.solution = .ok (slope dx s.solution) := fun t =>
    rhs_negative hn wall il ir bc hbc dx hdx.ne' t _ fun i => lt_of_le_of_lt (hu i).2 (by linarith)
  have t0 : ∀ t, totalise (burgersRhs n dx bc) t s.solution = slope dx s.solution := fun t => by
    unfold totalise; rw [f0 t]
  rcases hT with rfl | rfl
  · have hne : forwardEuler ℝ ≠ heun ℝ := fun h => absurd (congrArg Tableau.size h) (by decide)
    refine ⟨executeE_ok _ _ _ _ ?_, ?_⟩
    · intro i hi
      have : i = 0 := by simp [forwardEuler] at hi; exact hi
      subst this
      exact ⟨_, by simpa [stageValue, timeNode, forwardEuler] using f0 _⟩
    · rw [execute_forwardEuler, t0, if_neg hne]
  · have f1 : ∀ t, burgersRhs n dx bc t (s.solution + dt • slope dx s.solution) =
        .ok (slope dx (s.solution + dt • slope dx s.solution)) := fun t =>
      rhs_negative hn wall il ir bc hbc dx hdx.ne' t _ fun i => lt_of_le_of_lt (hh rfl i).2 (by linarith)
    have t1 : ∀ t, totalise (burgersRhs n dx bc) t (s.solution + dt • slope dx s.solution) =
        slope dx (s.solution + dt • slope dx s.solution) := fun t => by
      unfold totalise; rw [f1 t]
    refine ⟨executeE_ok _ _ _ _ ?_, ?_⟩
    · intro i hi
      have : i = 0 ∨ i = 1 := by simp [heun] at hi; omega
      rcases this with rfl | rfl
      · exact ⟨slope dx s.solution, by simpa [stageValue, timeNode, heun] using f0 _⟩
      · refine ⟨slope dx (s.solution + dt • slope dx s.solution), ?_⟩
        have := f1 (s.time + dt)
        simpa [stageValue, stages, timeNode, heun, table, List.range_succ, t0] using this
    · rw [execute_heun, t0, t1, if_pos rfl]

/-! ### C121 -/

/-- C121.  Negative values are amplified.  Runs of the Lax-Friedrichs solver for Burgers' equation with forward Euler
or Heun on a periodic mesh of `n` cells, such that the values before each step (with Heun also those after a
forward Euler step from there) lie in `[-M, -m]` with `M ≤ 7 m`: in every step of length `dt` the sum of the squared
deviations from the mean is multiplied by at least `1 + dt (7 m - M) / (12 n² dx)`, however short the steps. -/
theorem C121_growth (hdx : 0 < dx) {M m : ℝ} (hm : 0 < m) (hM : M ≤ 7 * m) (T : Tableau ℝ)
    (hT : T = forwardEuler ℝ ∨ T = heun ℝ) (steps : List ℝ) (hsteps : ∀ dt ∈ steps, 0 ≤ dt)
    (s s' : Solver ℝ (Fin n → ℝ)) (hrun : s.runE T (burgersRhs n dx bc) steps = .ok s')
    (hin : ∀ (j : ℕ) (hj : j < steps.length) r, s.runE T (burgersRhs n dx bc) (steps.take j) = .ok r →
      Between M m r.solution ∧ (T = heun ℝ → ∀ k, burgersRhs n dx bc r.time r.solution = .ok k →
        Between M m (r.solution + steps[j] • k))) :
    (steps.map fun dt => 1 + dt * (7 * m - M) / (12 * n ^ 2 * dx)).prod * deviation s.solution ≤
      deviation s'.solution := by
  induction steps generalizing s with
  | nil => cases hrun; simp
  | cons dt steps ih =>
    have hn0 : (0 : ℝ) < n := by exact_mod_cast hn
    have hdt : 0 ≤ dt := hsteps dt (by simp)
    obtain ⟨a1, a2⟩ := hin 0 (by simp) s rfl
    have hs : burgersRhs n dx bc s.time s.solution = .ok (slope dx s.solution) :=
      rhs_negative hn wall il ir bc hbc dx hdx.ne' _ _ fun i => lt_of_le_of_lt (a1 i).2 (by linarith)
    have hh : T = heun ℝ → Between M m (s.solution + dt • slope dx s.solution) := fun h => a2 h _ hs
    obtain ⟨e1, e2⟩ := step_runs hn wall il ir bc hbc dx hdx hm T hT s dt a1 hh
    set s1 := s.execute T (totalise (burgersRhs n dx bc)) dt with hs1
    have g : (1 + dt * (7 * m - M) / (12 * n ^ 2 * dx)) * deviation s.solution ≤ deviation s1.solution := by
      refine step_growth hn dx hdx hm hM hdt _ _ a1 ?_
      rw [e2]
      have q0 : 0 ≤ ∑ i, s.solution i * slope dx s.solution i := by
        refine le_trans ?_ (slope_growth hn dx hdx hm _ a1)
        have : 0 ≤ 7 * m - M := by linarith
        exact mul_nonneg (by positivity) (Finset.sum_nonneg fun _ _ => sq_nonneg _)
      split
      · rename_i hheun
        rw [heun_deviation hn]
        have q1 : 0 ≤ ∑ i, (s.solution + dt • slope dx s.solution) i *
            slope dx (s.solution + dt • slope dx s.solution) i := by
          refine le_trans ?_ (slope_growth hn dx hdx hm _ (hh hheun))
          have : 0 ≤ 7 * m - M := by linarith
          exact mul_nonneg (by positivity) (Finset.sum_nonneg fun _ _ => sq_nonneg _)
        have q2 : 0 ≤ dt ^ 2 / 4 * ∑ i, (slope dx s.solution i -
            slope dx (s.solution + dt • slope dx s.solution) i) ^ 2 :=
          mul_nonneg (by positivity) (Finset.sum_nonneg fun _ _ => sq_nonneg _)
        linarith [mul_nonneg hdt q1]
      · rw [deviation_add hn _ _ (slope_sum hn dx _)]
        have q2 : 0 ≤ dt ^ 2 * ∑ i, slope dx s.solution i ^ 2 :=
          mul_nonneg (by positivity) (Finset.sum_nonneg fun _ _ => sq_nonneg _)
        linarith [mul_nonneg hdt q0]
    have hrun' : s1.runE T (burgersRhs n dx bc) steps = .ok s' := by
      simpa only [Solver.runE, e1] using hrun
    have := ih (fun x hx => hsteps x (by simp [hx])) s1 hrun' (by
      intro j hj r hr
      have := hin (j + 1) (by simpa using hj) r (by
        simp only [List.take_succ_cons, Solver.runE, e1]; exact hr)
      simpa using this)
    rw [List.map_cons, List.prod_cons]
    have p : 0 ≤ (steps.map fun dt => 1 + dt * (7 * m - M) / (12 * n ^ 2 * dx)).prod := by
      apply List.prod_nonneg
      intro x hx
      obtain ⟨d, hd, rfl⟩ := List.mem_map.mp hx
      have h1 : 0 ≤ d := hsteps d (by simp [hd])
      have h2 : 0 ≤ 7 * m - M := by linarith
      positivity
    calc _ = (steps.map fun dt => 1 + dt * (7 * m - M) / (12 * n ^ 2 * dx)).prod *
          ((1 + dt * (7 * m - M) / (12 * n ^ 2 * dx)) * deviation s.solution) := by ring
      _ ≤ _ := mul_le_mul_of_nonneg_left g p
      _ ≤ _ := this

omit hbc in
theorem between_deviation {M m : ℝ} (u : Fin n → ℝ) (hu : Between M m u) :
    deviation u ≤ n * ((M - m) / 2) ^ 2 := by
  refine (deviation_le hn u (-(M + m) / 2)).trans ?_
  have : ∀ i ∈ Finset.univ, (u i - -(M + m) / 2) ^ 2 ≤ ((M - m) / 2) ^ 2 := by
    intro i _
    obtain ⟨a, b⟩ := hu i
    apply sq_le_sq'
    · linarith
    · linarith
  refine (Finset.sum_le_sum this).trans ?_
  simp

/-- C121.  Hence no run with data that are not constant stays negative and of the same size: with every fixed time step,
however short, the run leaves the interval `[-M, -m]`, whatever `M < 7 m` (with Heun possibly only the stage inside
of a step leaves it).  The exact solution stays between the bounds of the data. -/
theorem C121_leaves (hdx : 0 < dx) {M m : ℝ} (hm : 0 < m) (hM : M < 7 * m) (T : Tableau ℝ)
    (hT : T = forwardEuler ℝ ∨ T = heun ℝ) (dt : ℝ) (hdt : 0 < dt) (u : Fin n → ℝ) (hu : ∃ i j, u i ≠ u j) (t : ℝ) :
    ∃ (N : ℕ) (r : Solver ℝ (Fin n → ℝ)),
      (Solver.init u t).runE T (burgersRhs n dx bc) (List.replicate N dt) = .ok r ∧
      (¬ Between M m r.solution ∨ T = heun ℝ ∧ ∃ k, burgersRhs n dx bc r.time r.solution = .ok k ∧
        ¬ Between M m (r.solution + dt • k)) := by
  by_contra hcon
  push Not at hcon
  have hn0 : (0 : ℝ) < n := by exact_mod_cast hn
  have hok : ∀ N : ℕ, ∃ r, (Solver.init u t).runE T (burgersRhs n dx bc) (List.replicate N dt) = .ok r := by
    intro N
    induction N with
    | zero => exact ⟨_, rfl⟩
    | succ N ih =>
      obtain ⟨r, hr⟩ := ih
      obtain ⟨b1, b2⟩ := hcon N r hr
      have hs : burgersRhs n dx bc r.time r.solution = .ok (slope dx r.solution) :=
        rhs_negative hn wall il ir bc hbc dx hdx.ne' _ _ fun i => lt_of_le_of_lt (b1 i).2 (by linarith)
      obtain ⟨e1, -⟩ := step_runs hn wall il ir bc hbc dx hdx hm T hT r dt b1 fun h => b2 h _ hs
      refine ⟨r.execute T (totalise (burgersRhs n dx bc)) dt, ?_⟩
      rw [List.replicate_succ', EndToEnd.runE_append _ _ _ _ _ _ hr]
      simp only [Solver.runE, e1]
  have hγ : 0 < dt * (7 * m - M) / (12 * n ^ 2 * dx) := by
    have : 0 < 7 * m - M := by linarith
    positivity
  have hdev : 0 < deviation u := by
    obtain ⟨i, j, hij⟩ := hu
    refine lt_of_le_of_ne (Finset.sum_nonneg fun _ _ => sq_nonneg _) fun h => hij ?_
    have := (Finset.sum_eq_zero_iff_of_nonneg (fun i _ => sq_nonneg _)).mp h.symm
    have h1 := pow_eq_zero_iff (two_ne_zero) |>.mp (this i (Finset.mem_univ i))
    have h2 := pow_eq_zero_iff (two_ne_zero) |>.mp (this j (Finset.mem_univ j))
    linarith
  have hbound : ∀ N : ℕ, (1 + dt * (7 * m - M) / (12 * n ^ 2 * dx)) ^ N * deviation u ≤ n * ((M - m) / 2) ^ 2 := by
    intro N
    obtain ⟨r, hr⟩ := hok N
    have := C121_growth hn wall il ir bc hbc dx hdx hm hM.le T hT (List.replicate N dt)
      (by intro x hx; rw [List.eq_of_mem_replicate hx]; exact hdt.le) _ r hr (by
        intro j hj q hq
        rw [List.length_replicate] at hj
        rw [List.take_replicate, min_eq_left hj.le] at hq
        refine ⟨(hcon j q hq).1, fun h k hk => ?_⟩
        rw [List.getElem_replicate]
        exact (hcon j q hq).2 h k hk)
    rw [List.map_replicate, List.prod_replicate] at this
    exact this.trans (between_deviation hn _ (hcon N r hr).1)
  obtain ⟨N, hN⟩ := pow_unbounded_of_one_lt (n * ((M - m) / 2) ^ 2 / deviation u)
    (by linarith : 1 < 1 + dt * (7 * m - M) / (12 * n ^ 2 * dx))
  rw [div_lt_iff₀ hdev] at hN
  exact absurd (hbound N) (not_le.mpr hN)

/-! ### Waves of two cells -/

/-- A wave of two cells with amplitude `b` around the value `-c`. -/
def zigzag (n : ℕ) (c b : ℝ) (i : Fin n) : ℝ := -c + b * sawtooth n i

omit hn hbc in
theorem sawtooth_cases (i : Fin n) : sawtooth n i = 1 ∨ sawtooth n i = -1 := by
  unfold sawtooth; split <;> simp

omit hn hbc in
theorem wave_neg {c b : ℝ} (hb : 0 < b) (hc : b < c) (i : Fin n) : zigzag n c b i < 0 := by
  unfold zigzag
  rcases sawtooth_cases i with h | h <;> rw [h] <;> linarith

omit hbc in
theorem around_wave (h2 : n % 2 = 0) (c b : ℝ) (z : ℤ) :
    around (zigzag n c b) z = -c + b * (if z % 2 = 0 then 1 else -1) := by
  have := around_of_periodic hn (fun z : ℤ => -c + b * (if z % 2 = 0 then (1 : ℝ) else -1)) (by
    intro z
    have : (z + n) % 2 = z % 2 := by omega
    simp only [this]) z
  rw [← this]
  congr 1
  funext i
  unfold zigzag sawtooth
  have : ((i : ℕ) : ℤ) % 2 = 0 ↔ (i : ℕ) % 2 = 0 := by omega
  simp only [this]

omit hbc in
theorem slope_wave (h2 : n % 2 = 0) {c b : ℝ} (hb : 0 < b) :
    slope dx (zigzag n c b) = (2 * b * (c - b) / dx) • sawtooth n := by
  funext i
  have hs : sawtooth n i = if ((i : ℕ) : ℤ) % 2 = 0 then 1 else -1 := by
    have : ((i : ℕ) : ℤ) % 2 = 0 ↔ (i : ℕ) % 2 = 0 := by omega
    simp only [sawtooth, this]
  simp only [slope, around_wave hn h2, Pi.smul_apply, smul_eq_mul, hs, fluxB]
  by_cases h : ((i : ℕ) : ℤ) % 2 = 0
  · have h1 : ¬ (((i : ℕ) : ℤ) - 1) % 2 = 0 := by omega
    have h3 : ¬ (((i : ℕ) : ℤ) + 1) % 2 = 0 := by omega
    rw [if_pos h, if_neg h1, if_neg h3, max_eq_right (by linarith), max_eq_left (by linarith)]
    ring
  · have h1 : (((i : ℕ) : ℤ) - 1) % 2 = 0 := by omega
    have h3 : (((i : ℕ) : ℤ) + 1) % 2 = 0 := by omega
    rw [if_neg h, if_pos h1, if_pos h3, max_eq_left (by linarith), max_eq_right (by linarith)]
    ring

omit hn hbc in
theorem wave_add (c b a : ℝ) : zigzag n c b + a • sawtooth n = zigzag n c (b + a) := by
  funext i
  simp only [zigzag, Pi.add_apply, Pi.smul_apply, smul_eq_mul]
  ring

theorem rhs_wave (h2 : n % 2 = 0) (hdx : dx ≠ 0) (t : ℝ) {c b : ℝ} (hb : 0 < b) (hc : b < c) :
    burgersRhs n dx bc t (zigzag n c b) = .ok ((2 * b * (c - b) / dx) • sawtooth n) := by
  rw [rhs_negative hn wall il ir bc hbc dx hdx t _ (wave_neg hb hc), slope_wave hn dx h2 hb]

omit hn hbc in
theorem amplitude {c b ν : ℝ} (hb : 0 < b) (hc : b < c) (hν : 0 ≤ ν) (h : 2 * ν * c ≤ 1) :
    b ≤ b + 2 * ν * b * (c - b) ∧ b + 2 * ν * b * (c - b) < c ∧
      c - (b + 2 * ν * b * (c - b)) = (c - b) * (1 - 2 * ν * b) := by
  have h1 : 0 < c - b := by linarith
  refine ⟨?_, ?_, by ring⟩
  · have : 0 ≤ 2 * ν * b * (c - b) := by positivity
    linarith
  · have h2 : 0 < 1 - 2 * ν * b := by
      rcases hν.eq_or_lt with h0 | h0
      · rw [← h0]; simp
      · have : 2 * ν * b < 2 * ν * c := by gcongr
        linarith
    have : c - (b + 2 * ν * b * (c - b)) = (c - b) * (1 - 2 * ν * b) := by ring
    have := mul_pos h1 h2
    linarith

theorem wave_step (h2 : n % 2 = 0) (hdx : 0 < dx) {c b dt : ℝ} (hb : 0 < b) (hc : b < c) (hdt : 0 ≤ dt)
    (h : 2 * dt * c ≤ dx) (T : Tableau ℝ) (hT : T = forwardEuler ℝ ∨ T = heun ℝ ∨ T = ssp3 ℝ)
    (s : Solver ℝ (Fin n → ℝ)) (hs : s.solution = zigzag n c b) :
    ∃ s' b', s.executeE T (burgersRhs n dx bc) dt = .ok s' ∧ s'.solution = zigzag n c b' ∧ b ≤ b' ∧ b' < c ∧
      c - b' ≤ (c - b) * (1 - dt / dx * b) := by
  set S : Set (Fin n → ℝ) := {u | ∃ a, 0 < a ∧ a < c ∧ u = zigzag n c a} with hS
  have hν : 0 ≤ dt / dx := by positivity
  have hνc : 2 * (dt / dx) * c ≤ 1 := by
    rw [mul_div_assoc', div_mul_eq_mul_div, div_le_one hdx]; exact h
  have hconv : Convex ℝ S := by
    rintro u ⟨a, a0, a1, rfl⟩ v ⟨a', a0', a1', rfl⟩ p q hp hq hpq
    refine ⟨p * a + q * a', ?_, ?_, ?_⟩
    · rcases hp.eq_or_lt with h0 | h0
      · have : q = 1 := by linarith
        rw [← h0, this]; linarith
      · have := mul_pos h0 a0
        have := mul_nonneg hq a0'.le
        linarith
    · rcases hp.eq_or_lt with h0 | h0
      · have : q = 1 := by linarith
        rw [← h0, this]; linarith
      · have h3 := mul_lt_mul_of_pos_left a1 h0
        have h4 := mul_le_mul_of_nonneg_left a1'.le hq
        calc p * a + q * a' < p * c + q * c := by linarith
          _ = c := by rw [← add_mul, hpq, one_mul]
    · funext i
      have hq' : q = 1 - p := by linarith
      simp only [zigzag, Pi.add_apply, Pi.smul_apply, smul_eq_mul, hq']
      ring
  have euler : ∀ a, 0 < a → a < c → zigzag n c a + dt • ((2 * a * (c - a) / dx) • sawtooth n) =
      zigzag n c (a + 2 * (dt / dx) * a * (c - a)) := by
    intro a _ _
    rw [smul_smul, wave_add]
    congr 1
    ring
  have hE : ∀ t, ∀ u ∈ S, ∃ w, burgersRhs n dx bc t u = .ok w ∧ u + dt • w ∈ S := by
    rintro t u ⟨a, a0, a1, rfl⟩
    refine ⟨_, rhs_wave hn wall il ir bc hbc dx h2 hdx.ne' t a0 a1, ?_⟩
    rw [euler a a0 a1]
    obtain ⟨g1, g2, -⟩ := amplitude a0 a1 hν hνc
    exact ⟨_, by linarith, g2, rfl⟩
  have tot : ∀ t a, 0 < a → a < c →
      totalise (burgersRhs n dx bc) t (zigzag n c a) = (2 * a * (c - a) / dx) • sawtooth n := by
    intro t a a0 a1
    unfold totalise
    rw [rhs_wave hn wall il ir bc hbc dx h2 hdx.ne' t a0 a1]
  obtain ⟨E1, E2, E3⟩ := sspE_step (burgersRhs n dx bc) dt S hconv hE s ⟨b, hb, hc, hs⟩
  obtain ⟨g1, g2, g3⟩ := amplitude hb hc hν hνc
  set ν := dt / dx with hνdef
  have b1 : 0 < b + 2 * ν * b * (c - b) := by linarith
  obtain ⟨k1, k2, k3⟩ := amplitude b1 g2 hν hνc
  have hcb : 0 < c - b := by linarith
  have hνb : 0 ≤ ν * b := by positivity
  rcases hT with rfl | rfl | rfl
  · obtain ⟨s', e, -⟩ := E1
    refine ⟨s', b + 2 * ν * b * (c - b), e, ?_, g1, g2, ?_⟩
    · rw [executeE_eq _ _ _ _ _ e, execute_forwardEuler, hs, tot _ b hb hc, euler b hb hc]
    · rw [g3]
      apply mul_le_mul_of_nonneg_left _ hcb.le
      linarith
  · obtain ⟨s', e, -⟩ := E2
    set b2 := b + 2 * ν * b * (c - b) with hb2
    refine ⟨s', (b + (b2 + 2 * ν * b2 * (c - b2))) / 2, e, ?_, by linarith, by linarith, ?_⟩
    · rw [executeE_eq _ _ _ _ _ e, execute_heun, hs, tot _ b hb hc, euler b hb hc, tot _ b2 b1 g2,
        smul_smul, smul_smul, ← add_smul, smul_smul, wave_add]
      congr 1
      rw [hb2, hνdef]
      field_simp
      ring
    · have h3 : c - (b2 + 2 * ν * b2 * (c - b2)) ≤ (c - b) * (1 - 2 * ν * b) := by rw [← g3]; linarith
      nlinarith
  · obtain ⟨s', e, -⟩ := E3
    set b2 := b + 2 * ν * b * (c - b) with hb2
    set b3 := 3 / 4 * b + 1 / 4 * (b2 + 2 * ν * b2 * (c - b2)) with hb3
    have p1 : b ≤ b3 := by linarith
    have p2 : b3 < c := by linarith
    have p0 : 0 < b3 := by linarith
    obtain ⟨l1, l2, l3⟩ := amplitude p0 p2 hν hνc
    refine ⟨s', 1 / 3 * b + 2 / 3 * (b3 + 2 * ν * b3 * (c - b3)), e, ?_, by linarith, by linarith, ?_⟩
    · have st : zigzag n c b + dt • ((1 / 4 : ℝ) • (2 * b * (c - b) / dx) • sawtooth n +
          (1 / 4 : ℝ) • (2 * b2 * (c - b2) / dx) • sawtooth n) = zigzag n c b3 := by
        rw [smul_smul, smul_smul, ← add_smul, smul_smul, wave_add]
        congr 1
        rw [hb3, hb2, hνdef]
        field_simp
        ring
      rw [executeE_eq _ _ _ _ _ e, execute_ssp3, hs, tot _ b hb hc, euler b hb hc, tot _ b2 b1 g2, st,
        tot _ b3 p0 p2]
      rw [smul_smul, smul_smul, smul_smul, ← add_smul, ← add_smul, smul_smul, wave_add]
      congr 1
      rw [hb3, hb2, hνdef]
      field_simp
      ring
    · have h3 : c - (b3 + 2 * ν * b3 * (c - b3)) ≤ (c - b) * (1 - 2 * ν * b) := by
        rw [l3]
        have q1 : 1 - 2 * ν * b3 ≤ 1 - 2 * ν * b := by
          have := mul_le_mul_of_nonneg_left p1 hν
          linarith
        have q2 : 0 ≤ 1 - 2 * ν * b3 := by
          have := mul_le_mul_of_nonneg_left p2.le hν
          linarith
        exact mul_le_mul (by linarith) q1 q2 hcb.le
      nlinarith

/-- C121.  Waves of two cells are solutions of the scheme that grow until they fill all the space up to zero: from
`-c ± b` with `0 < b < c` and time steps `2 dt c ≤ dx`, each integrator keeps the form `-c ± b'`, without any exception,
with a larger amplitude `b' < c`, and the distance of `b'` from `c` is multiplied by at most `1 - b dt / dx` in each step. -/
theorem C121_wave (h2 : n % 2 = 0) (hdx : 0 < dx) {c b : ℝ} (hb : 0 < b) (hc : b < c) (T : Tableau ℝ)
    (hT : T = forwardEuler ℝ ∨ T = heun ℝ ∨ T = ssp3 ℝ) (steps : List ℝ)
    (hsteps : ∀ dt ∈ steps, 0 ≤ dt ∧ 2 * dt * c ≤ dx) (s : Solver ℝ (Fin n → ℝ))
    (hs : ∀ i, s.solution i = -c + b * sawtooth n i) :
    ∃ s' b', s.runE T (burgersRhs n dx bc) steps = .ok s' ∧ (∀ i, s'.solution i = -c + b' * sawtooth n i) ∧
      b ≤ b' ∧ b' < c ∧ c - b' ≤ (c - b) * (steps.map fun dt => 1 - b * (dt / dx)).prod := by
  induction steps generalizing s b with
  | nil => exact ⟨s, b, rfl, hs, le_rfl, hc, by simp⟩
  | cons dt steps ih =>
    obtain ⟨d1, d2⟩ := hsteps dt (by simp)
    obtain ⟨s1, b1, e1, e2, e3, e4, e5⟩ := wave_step hn wall il ir bc hbc dx h2 hdx hb hc d1 d2 T hT s (funext hs)
    obtain ⟨s', b', r1, r2, r3, r4, r5⟩ := ih (lt_of_lt_of_le hb e3) e4 (fun x hx => hsteps x (by simp [hx])) s1
      (fun i => congrFun e2 i)
    refine ⟨s', b', by simp only [Solver.runE, e1]; exact r1, r2, e3.trans r3, r4, ?_⟩
    rw [List.map_cons, List.prod_cons]
    have hf : ∀ a, 0 < a → a < c → ∀ x ∈ steps, 0 ≤ 1 - a * (x / dx) := by
      intro a a0 a1 x hx
      obtain ⟨x1, x2⟩ := hsteps x (by simp [hx])
      have h3 : a * x ≤ c * x := mul_le_mul_of_nonneg_right a1.le x1
      have : a * (x / dx) ≤ 1 := by
        rw [mul_div_assoc', div_le_one hdx]
        have : 0 ≤ c * x := mul_nonneg (hb.trans hc).le x1
        linarith
      linarith
    have p1 : (steps.map fun dt => 1 - b1 * (dt / dx)).prod ≤ (steps.map fun dt => 1 - b * (dt / dx)).prod := by
      apply List.prod_map_le_prod_map₀
      · exact fun x hx => hf b1 (lt_of_lt_of_le hb e3) e4 x hx
      · intro x hx
        obtain ⟨x1, x2⟩ := hsteps x (by simp [hx])
        have : b * (x / dx) ≤ b1 * (x / dx) := mul_le_mul_of_nonneg_right e3 (by positivity)
        linarith
    have p2 : 0 ≤ (steps.map fun dt => 1 - b * (dt / dx)).prod := by
      apply List.prod_nonneg
      intro x hx
      obtain ⟨d, hd, rfl⟩ := List.mem_map.mp hx
      exact hf b hb hc d hd
    calc c - b' ≤ (c - b1) * (steps.map fun dt => 1 - b1 * (dt / dx)).prod := r5
      _ ≤ (c - b1) * (steps.map fun dt => 1 - b * (dt / dx)).prod :=
          mul_le_mul_of_nonneg_left p1 (by linarith)
      _ ≤ ((c - b) * (1 - dt / dx * b)) * (steps.map fun dt => 1 - b * (dt / dx)).prod :=
          mul_le_mul_of_nonneg_right e5 p2
      _ = _ := by ring

/-! ### Whole runs -/

omit hn hbc in
/-- Runs of finite volume solvers whose steps keep a set of states: they end, without exception. -/
theorem kept_run {N : ℕ} (T : Tableau ℝ) (f : ℝ → List ℝ → Except Error (List ℝ)) (I : (Fin N → ℝ) → Prop)
    (dx cfl t0 t1 : ℝ) (hstep : 1 / 10 ^ 12 ≤ dx * cfl) (hdur : 1 / 10 ^ 12 ≤ t1 - t0)
    (hI : ∀ (s : Solver ℝ (Fin N → ℝ)) (dt : ℝ), 0 ≤ dt → dt ≤ dx * cfl → I s.solution →
      ∃ s', s.executeE T (vecRhs N f) dt = .ok s' ∧ I s'.solution) (u : Fin N → ℝ) (hu : I u) :
    let P := EndToEnd.fvParams N T f dx cfl t0 t1
    let run := solve P (Obj.make P ⟨u, t0, t1⟩)
    (∀ k : ℕ, t1 - t0 ≤ k * (dx * cfl) → (run (k + 1)).2 = .finished) ∧
    (∀ k, (run k).2 = .running ∨ (run k).2 = .finished) ∧
    (∀ k, (run k).2 = .finished →
      t1 - 1 / 10 ^ 12 < (run k).1.sol.sol.time ∧ (run k).1.sol.sol.time ≤ t1) := by
  intro P run
  have htol : (0 : ℝ) < 1 / 10 ^ 12 := by positivity
  have safe := C94_safe P (Obj.make P ⟨u, t0, t1⟩) (make_sync _ _) I hu rfl (fun _ _ => rfl)
    (fun s dt h1 h2 h3 => hI s dt (htol.le.trans h1) h2 h3)
  refine ⟨fun k hk => C94_terminates P (Obj.make P ⟨u, t0, t1⟩) (dx * cfl) hstep (fun _ _ => le_rfl) le_rfl hdur
      k hk (fun m e => (safe m).1 e), ?_, fun k hk => C94_end_time P ⟨u, t0, t1⟩ rfl k hk⟩
  intro k
  have hg : ∀ j, dx * cfl ≤ (schedule P (Obj.make P ⟨u, t0, t1⟩)).gen.call j := fun j => le_rfl
  have hnf : (clock P (Obj.make P ⟨u, t0, t1⟩) k).status ≠ .failed := by
    intro hf
    rcases TimeStepping.C03_failed_cause _ _ k hf with ⟨j, hj⟩ | h
    · exact absurd (hstep.trans (hg j)) (not_le.mpr hj)
    · exact absurd hdur (not_le.mpr h)
  obtain ⟨-, -, h3, -⟩ := link P (Obj.make P ⟨u, t0, t1⟩) k (safe k).1
  change statusOf (run k).2 = some _ at h3
  cases hs : (run k).2 with
  | running => exact Or.inl rfl
  | finished => exact Or.inr rfl
  | raised e => exact absurd hs ((safe k).1 e)
  | interrupted =>
    rw [hs] at h3
    simp only [statusOf, Option.some.injEq] at h3
    exact absurd h3.symm hnf

omit hn hbc in
/-- The steps of a run that does not raise: all but the last one have full length. -/
theorem full_steps {N : ℕ} (T : Tableau ℝ) (f : ℝ → List ℝ → Except Error (List ℝ)) (dx cfl t0 t1 : ℝ)
    (u : Fin N → ℝ) (k : ℕ) :
    let P := EndToEnd.fvParams N T f dx cfl t0 t1
    let run := solve P (Obj.make P ⟨u, t0, t1⟩)
    (∀ e, (run k).2 ≠ .raised e) →
    ∃ steps : List ℝ, (∀ dt ∈ steps, 0 ≤ dt ∧ dt ≤ dx * cfl) ∧
      (∀ (j : ℕ) (hj : j + 1 < steps.length), steps[j] = dx * cfl) ∧
      (Solver.init u t0).runE T (vecRhs N f) steps = .ok (run k).1.ode ∧
      (run k).1.sol.sol.value = (run k).1.ode.solution ∧
      (∀ i ≤ steps.length, ∃ s, (Solver.init u t0).runE T (vecRhs N f) (steps.take i) = .ok s ∧
        (run k).1.sol.values[i]? = some s.solution) ∧
      ((run k).2 = .finished → t1 - t0 - 1 / 10 ^ 12 < steps.sum) := by
  intro P run hr
  obtain ⟨steps, h1, h2, h3, h4, ⟨tl, vl, v1, v2, v3, v4, v5⟩, h6, h7, -⟩ :=
    C94_solve P (Obj.make P ⟨u, t0, t1⟩) (make_sync _ _) k hr
  have h4' : ∀ (j : ℕ) (hj : j < steps.length), steps[j] = min (dx * cfl) (t1 - (t0 + (steps.take j).sum)) ∧
      1 / 10 ^ 12 ≤ steps[j] := by
    intro j hj
    obtain ⟨s, -, q2, q3⟩ := h4 j hj
    exact ⟨q2, q3⟩
  have htol : (0 : ℝ) < 1 / 10 ^ 12 := by positivity
  refine ⟨steps, fun dt hdt => ?_, fun j hj => ?_, h1, h2.2, ?_, fun hh => (h7 hh).1⟩
  · obtain ⟨i, hi, rfl⟩ := List.getElem_of_mem hdt
    obtain ⟨q2, q3⟩ := h4' i hi
    exact ⟨htol.le.trans q3, by rw [q2]; exact min_le_left _ _⟩
  · obtain ⟨q1, -⟩ := h4' j (by omega)
    obtain ⟨q2, q3⟩ := h4' (j + 1) hj
    rcases min_choice (dx * cfl) (t1 - (t0 + (steps.take j).sum)) with hm | hm
    · rw [q1, hm]
    · exfalso
      have e : (steps.take (j + 1)).sum = (steps.take j).sum + steps[j] :=
        List.sum_take_succ steps j (by omega)
      have : steps[j + 1] ≤ t1 - (t0 + (steps.take (j + 1)).sum) := by rw [q2]; exact min_le_right _ _
      rw [e, q1, hm] at this
      linarith
  · intro i hi
    rcases i with _ | i
    · refine ⟨_, rfl, ?_⟩
      rw [show (run k).1.sol.values = _ from v2]
      rfl
    · obtain ⟨s, w1, -, w3, -⟩ := v5 i (by omega)
      refine ⟨s, w1, ?_⟩
      rw [show (run k).1.sol.values = _ from v2]
      have : (Obj.make P ⟨u, t0, t1⟩).sol.values.length = 1 := rfl
      rw [List.getElem?_append_right (by rw [this]; omega), this]
      simpa using w3

omit hn hbc in
theorem prod_full (cfl : ℝ) (hdx : 0 < dx) (h : ℝ → ℝ) (h0 : ∀ x, 0 ≤ x → x ≤ cfl → 0 ≤ h x ∧ h x ≤ 1) (steps : List ℝ)
    (hr : ∀ dt ∈ steps, 0 ≤ dt ∧ dt ≤ dx * cfl)
    (hs : ∀ (j : ℕ) (_ : j + 1 < steps.length), steps[j] = dx * cfl) (q : ℕ) (hq : q < steps.length) :
    0 ≤ (steps.map fun dt => h (dt / dx)).prod ∧ (steps.map fun dt => h (dt / dx)).prod ≤ h cfl ^ q := by
  induction steps generalizing q with
  | nil => simp at hq
  | cons dt steps ih =>
    rw [List.map_cons, List.prod_cons]
    obtain ⟨r1, r2⟩ := hr dt (by simp)
    have hx := h0 (dt / dx) (by positivity) (by rw [div_le_iff₀ hdx]; linarith)
    have hc := h0 cfl (by
      have : 0 ≤ dx * cfl := r1.trans r2
      exact (mul_nonneg_iff_of_pos_left hdx).mp this) le_rfl
    cases steps with
    | nil =>
      have : q = 0 := by simpa using hq
      subst this
      simpa using hx
    | cons dt' steps =>
      have hs' : ∀ (j : ℕ) (_ : j + 1 < (dt' :: steps).length), (dt' :: steps)[j] = dx * cfl := fun j hj =>
        hs (j + 1) (by simpa using hj)
      have hd : dt / dx = cfl := by
        rw [show dt = dx * cfl from hs 0 (by simp)]; field_simp
      rw [hd] at hx ⊢
      cases q with
      | zero =>
        obtain ⟨i1, i2⟩ := ih (fun x hx => hr x (by simp [hx])) hs' 0 (by simp)
        rw [pow_zero] at *
        exact ⟨mul_nonneg hc.1 i1, mul_le_one₀ hc.2 i1 i2⟩
      | succ q =>
        obtain ⟨i1, i2⟩ := ih (fun x hx => hr x (by simp [hx])) hs' q (by simpa using hq)
        rw [pow_succ']
        exact ⟨mul_nonneg hc.1 i1, mul_le_mul_of_nonneg_left i2 hc.1⟩

omit hn hbc in
theorem enough_steps (cfl D : ℝ) (hstep : 1 / 10 ^ 12 ≤ dx * cfl) (steps : List ℝ)
    (hr : ∀ dt ∈ steps, 0 ≤ dt ∧ dt ≤ dx * cfl) (hD : D - 1 / 10 ^ 12 < steps.sum) (q : ℕ)
    (hq : q * (dx * cfl) + 1 / 10 ^ 12 ≤ D) : q < steps.length := by
  by_contra hlt
  have hlen : steps.length ≤ q := by omega
  have hsum : steps.sum ≤ steps.length * (dx * cfl) := by
    rw [← nsmul_eq_mul]
    exact List.sum_le_card_nsmul _ _ fun x hx => (hr x hx).2
  have hc : 0 ≤ dx * cfl := le_trans (by positivity) hstep
  have : (steps.length : ℝ) * (dx * cfl) ≤ q * (dx * cfl) :=
    mul_le_mul_of_nonneg_right (by exact_mod_cast hlen) hc
  linarith

/-- C121.  Whole runs from a wave of two cells `-c ± b`, `0 < b < c`, with `2 c cfl ≤ 1`: nothing is ever raised, the run
ends, and its result is again such a wave, whose amplitude `b'` is larger and differs from `c` by at most
`(c - b) (1 - b cfl)^q` if `q` time steps fit into the duration.  So on fine meshes the result is close to `-c ± c`,
however small `b` was. -/
theorem C121_solve (h2 : n % 2 = 0) (hdx : 0 < dx) {c b : ℝ} (hb : 0 < b) (hc : b < c) (T : Tableau ℝ)
    (hT : T = forwardEuler ℝ ∨ T = heun ℝ ∨ T = ssp3 ℝ) (cfl t0 t1 : ℝ) (hcfl : 2 * c * cfl ≤ 1)
    (hstep : 1 / 10 ^ 12 ≤ dx * cfl) (hdur : 1 / 10 ^ 12 ≤ t1 - t0) :
    let P := EndToEnd.fvParams n T (rhs (laxFriedrichs Problem.burgers.riemann) dx bc) dx cfl t0 t1
    let run := Verif.Solver.solve P (Obj.make P ⟨fun i => -c + b * sawtooth n i, t0, t1⟩)
    (∀ k : ℕ, t1 - t0 ≤ k * (dx * cfl) → (run (k + 1)).2 = .finished) ∧
    (∀ k, (run k).2 = .running ∨ (run k).2 = .finished) ∧
    ∀ k, ∃ b', (∀ i, (run k).1.sol.sol.value i = -c + b' * sawtooth n i) ∧ b ≤ b' ∧ b' < c ∧
      ((run k).2 = .finished → ∀ q : ℕ, q * (dx * cfl) + 1 / 10 ^ 12 ≤ t1 - t0 →
        c - b' ≤ (c - b) * (1 - b * cfl) ^ q) := by
  intro P run
  have cpos : 0 < cfl := by
    have : (0 : ℝ) < dx * cfl := lt_of_lt_of_le (by positivity) hstep
    exact (pos_iff_pos_of_mul_pos this).mp hdx
  have hc0 : 0 < c := hb.trans hc
  have hlim : ∀ dt, dt ≤ dx * cfl → 2 * dt * c ≤ dx := by
    intro dt hdt
    calc 2 * dt * c ≤ 2 * (dx * cfl) * c := by gcongr
      _ = dx * (2 * c * cfl) := by ring
      _ ≤ dx * 1 := mul_le_mul_of_nonneg_left hcfl hdx.le
      _ = dx := mul_one _
  obtain ⟨r1, r2, -⟩ := kept_run (N := n) T (rhs (laxFriedrichs Problem.burgers.riemann) dx bc)
    (fun u => ∃ a, 0 < a ∧ a < c ∧ u = zigzag n c a) dx cfl t0 t1 hstep hdur (by
      rintro s dt d1 d2 ⟨a, a0, a1, hs⟩
      obtain ⟨s', b', e1, e2, e3, e4, -⟩ :=
        wave_step hn wall il ir bc hbc dx h2 hdx a0 a1 d1 (hlim dt d2) T hT s hs
      exact ⟨s', e1, b', lt_of_lt_of_le a0 e3, e4, e2⟩) (fun i => -c + b * sawtooth n i) ⟨b, hb, hc, rfl⟩
  refine ⟨r1, r2, fun k => ?_⟩
  obtain ⟨steps, z1, z2, z3, z4, -, z6⟩ := full_steps (n := n) (N := n) T (rhs (laxFriedrichs Problem.burgers.riemann) dx bc) dx cfl
    t0 t1 (fun i => -c + b * sawtooth n i) k (by
      intro e he
      rcases r2 k with hh | hh <;> rw [show _ = _ from he] at hh <;> cases hh)
  obtain ⟨s', b', w1, w2, w3, w4, w5⟩ := C121_wave hn wall il ir bc hbc dx h2 hdx hb hc T hT steps
    (fun dt hdt => ⟨(z1 dt hdt).1, hlim dt (z1 dt hdt).2⟩) (Solver.init (fun i => -c + b * sawtooth n i) t0) (fun _ => rfl)
  have hS : s' = (run k).1.ode := Except.ok.inj (w1.symm.trans z3)
  refine ⟨b', fun i => ?_, w3, w4, fun hk q hq => ?_⟩
  · rw [show (run k).1.sol.sol.value = s'.solution by rw [hS]; exact z4]
    exact w2 i
  · refine w5.trans (mul_le_mul_of_nonneg_left ?_ (by linarith))
    refine (prod_full (n := n) dx cfl hdx (fun x => 1 - b * x) (fun x x0 x1 => ⟨?_, ?_⟩) steps z1 z2 q
      (enough_steps dx cfl (t1 - t0) hstep steps z1 (z6 hk) q hq)).2
    · have h3 : b * x ≤ c * cfl := mul_le_mul hc.le x1 x0 hc0.le
      have : 0 ≤ c * cfl := by positivity
      linarith
    · have : 0 ≤ b * x := by positivity
      linarith

/-- C121.  Whole runs with forward Euler from data that are not constant: if `q` time steps fit into the duration, where
`q` is so large that the deviation would become larger than possible between the bounds, and nothing is
raised, then an entry of the history has left the interval `[-M, -m]`. -/
theorem C121_history (hdx : 0 < dx) {M m : ℝ} (hm : 0 < m) (hM : M ≤ 7 * m) (cfl t0 t1 : ℝ)
    (hstep : 1 / 10 ^ 12 ≤ dx * cfl) (u : Fin n → ℝ) (q : ℕ)
    (hq : q * (dx * cfl) + 1 / 10 ^ 12 ≤ t1 - t0)
    (hlarge : n * ((M - m) / 2) ^ 2 < (1 + cfl * (7 * m - M) / (12 * n ^ 2)) ^ q * deviation u) :
    let P := EndToEnd.fvParams n (forwardEuler ℝ) (rhs (laxFriedrichs Problem.burgers.riemann) dx bc) dx cfl t0 t1
    let run := Verif.Solver.solve P (Obj.make P ⟨u, t0, t1⟩)
    ∀ k, (run k).2 = .finished → ∃ v ∈ (run k).1.sol.values, ¬ Between M m v := by
  intro P run k hk
  by_contra hcon
  push Not at hcon
  have hn0 : (0 : ℝ) < n := by exact_mod_cast hn
  have cpos : 0 < cfl := by
    have : (0 : ℝ) < dx * cfl := lt_of_lt_of_le (by positivity) hstep
    exact (pos_iff_pos_of_mul_pos this).mp hdx
  obtain ⟨steps, z1, z2, -, -, z5, z6⟩ := full_steps (n := n) (N := n) (forwardEuler ℝ)
    (rhs (laxFriedrichs Problem.burgers.riemann) dx bc) dx cfl t0 t1 u k (by
      intro e he
      rw [show _ = _ from he] at hk
      cases hk)
  have hlen := enough_steps dx cfl (t1 - t0) hstep steps z1 (z6 hk) q hq
  have hb : ∀ i ≤ steps.length, ∀ r, (Solver.init u t0).runE (forwardEuler ℝ) (burgersRhs n dx bc) (steps.take i) = .ok r →
      Between M m r.solution := by
    intro i hi r hr
    obtain ⟨s, e1, e2⟩ := z5 i hi
    have : s = r := Except.ok.inj (e1.symm.trans hr)
    subst this
    exact hcon _ (List.mem_of_getElem? e2)
  obtain ⟨r, hr, -⟩ := z5 q hlen.le
  have htake : steps.take q = List.replicate q (dx * cfl) := by
    apply List.ext_getElem
    · simp [hlen.le]
    · intro i h1 h3
      rw [List.getElem_replicate, List.getElem_take]
      exact z2 i (by simp at h3; omega)
  have hne : forwardEuler ℝ ≠ heun ℝ := fun h => absurd (congrArg Tableau.size h) (by decide)
  have g := C121_growth hn wall il ir bc hbc dx hdx hm hM (forwardEuler ℝ) (Or.inl rfl) (steps.take q)
    (fun dt hdt => (z1 dt (List.mem_of_mem_take hdt)).1) _ r hr (by
      intro j hj p hp
      rw [List.length_take, lt_min_iff] at hj
      rw [List.take_take, min_eq_left hj.1.le] at hp
      exact ⟨hb j hj.2.le p hp, fun h => absurd h hne⟩)
  rw [htake, List.map_replicate, List.prod_replicate] at g
  have e : dx * cfl * (7 * m - M) / (12 * n ^ 2 * dx) = cfl * (7 * m - M) / (12 * n ^ 2) := by field_simp
  rw [e] at g
  exact absurd (hlarge.trans_le (g.trans (between_deviation hn _ (hb q hlen.le r hr)))) (lt_irrefl _)

end Scheme

/-- Non-vacuity: the values `-1/2` and `-3/2` on twelve cells are close to `0` and `-2` at time 2, with CFL number `1/2` and Heun. -/
example : ∃ bc : BC ℝ ℝ, build none ["periodic"] 1 none none = .ok bc ∧
    let P := EndToEnd.fvParams 12 (heun ℝ) (rhs (laxFriedrichs Problem.burgers.riemann) (1 / 12) bc) (1 / 12) (1 / 2) 0 2
    let run := Verif.Solver.solve P (Obj.make P ⟨fun i => -1 + 1 / 2 * sawtooth 12 i, 0, 2⟩)
    ∃ k, (run k).2 = .finished ∧ (run k).1.sol.sol.value 1 < -2 + 1 / 1000 := by
  obtain ⟨bc, hbc⟩ : ∃ bc : BC ℝ ℝ, build none ["periodic"] 1 none none = .ok bc := ⟨_, rfl⟩
  refine ⟨bc, hbc, ?_⟩
  intro P run
  obtain ⟨r1, -, r3⟩ := C121_solve (n := 12) (by norm_num) none none none bc hbc (1 / 12) rfl (by norm_num)
    (c := 1) (b := 1 / 2) (by norm_num) (by norm_num) (heun ℝ) (Or.inr (Or.inl rfl)) (1 / 2) 0 2 (by norm_num)
    (by norm_num) (by norm_num)
  have hk := r1 48 (by norm_num)
  refine ⟨49, hk, ?_⟩
  obtain ⟨b', e1, -, -, e4⟩ := r3 49
  have h := e4 hk 47 (by norm_num)
  have e := e1 1
  have hs : sawtooth 12 1 = -1 := by simp [sawtooth]
  rw [hs] at e
  rw [e]
  have : (1 - 1 / 2 : ℝ) * (1 - 1 / 2 * (1 / 2)) ^ 47 < 1 / 1000 := by norm_num
  linarith

/-- Non-vacuity of the growth: on two cells, values `-1` and `-2`, one step doubles the difference. -/
example : ∃ bc : BC ℝ ℝ, build none ["periodic"] 1 none none = .ok bc ∧
    Between 2 1 (zigzag 2 (3 / 2) (1 / 2)) ∧ (2 : ℝ) < 7 * 1 ∧ deviation (zigzag 2 (3 / 2) (1 / 2)) = 1 / 2 ∧
    ∃ s', (Solver.init (zigzag 2 (3 / 2) (1 / 2)) 0).runE (forwardEuler ℝ) (burgersRhs 2 1 bc) [1 / 2] = .ok s' ∧
      deviation s'.solution = 2 := by
  obtain ⟨bc, hbc⟩ : ∃ bc : BC ℝ ℝ, build none ["periodic"] 1 none none = .ok bc := ⟨_, rfl⟩
  refine ⟨bc, hbc, ?_, by norm_num, ?_, ?_⟩
  · intro i
    unfold zigzag
    rcases sawtooth_cases i with h | h <;> rw [h] <;> norm_num
  · simp [deviation, Fin.sum_univ_two, zigzag, sawtooth]; norm_num
  · obtain ⟨s', e1, -, e3⟩ := euler_execute (burgersRhs 2 1 bc) (Solver.init (zigzag 2 (3 / 2) (1 / 2)) 0) (1 / 2) _
      (rhs_wave (n := 2) (by norm_num) none none none bc hbc 1 rfl one_ne_zero 0 (by norm_num) (by norm_num))
    refine ⟨s', by simp only [Solver.runE, e1], ?_⟩
    rw [e3, smul_smul, show (Solver.init (zigzag 2 (3 / 2) (1 / 2)) (0 : ℝ)).solution = zigzag 2 (3 / 2) (1 / 2) from rfl, wave_add]
    simp [deviation, Fin.sum_univ_two, zigzag, sawtooth]; norm_num

end Verif.Negative
