import Verif.Props.FERuns
import Verif.Props.BurgersConvergence

/-!
C112: the low order finite element solver with linear elements (`finite_element/scalar/solver/cg_low.py`)
computes the same as the Lax-Friedrichs finite volume solver
(`finite_volume/scalar/solver/lax_friedrichs.py`), with the nodes in the role of the cells.
-/

set_option linter.unusedSectionVars false

namespace Verif.FE

open Verif.Py Verif.Boundary Verif.FV Verif.ODE Verif.Scalar
open Verif.Interpolate Verif.Quadrature
open Verif.Mesh hiding Error

/-! ### Helper lemmas: the two neighbours of a node -/

theorem neighbours (n i : ℕ) (h3 : 3 ≤ n) (hi : i < n) :
    (i + 1) % n < n ∧ (i + n - 1) % n < n ∧ (i + 1) % n ≠ i ∧ (i + n - 1) % n ≠ i ∧
      (i + 1) % n ≠ (i + n - 1) % n ∧ ((i + n - 1) % n + 1) % n = i := by
  have hq := Nat.mod_lt (i + n - 1) (show 0 < n by omega)
  have k := (succ_mod_eq n i hi _ hq).mpr rfl
  refine ⟨Nat.mod_lt _ (by omega), hq, ?_, ?_, ?_, k⟩ <;>
  · have e1 : (i + 1) % n = if i + 1 = n then 0 else i + 1 := by
      split_ifs with h
      · rw [h, Nat.mod_self]
      · exact Nat.mod_eq_of_lt (by omega)
    have e2 : (i + n - 1) % n = if i = 0 then n - 1 else i - 1 := by
      split_ifs with h
      · subst h; rw [Nat.zero_add]; exact Nat.mod_eq_of_lt (by omega)
      · rw [show i + n - 1 = (i - 1) + n by omega, Nat.add_mod_right]; exact Nat.mod_eq_of_lt (by omega)
    first
      | (rw [e1, e2]; split_ifs <;> omega)
      | (rw [e1]; split_ifs <;> omega)
      | (rw [e2]; split_ifs <;> omega)

theorem linear_entry {gauss d n s m C} (h : Setup gauss d n 1 s m C) (h3 : 3 ≤ n) (i : ℕ) (hi : i < n) :
    C.lil i ((i + 1) % n) = 1 / 2 ∧ C.lil i ((i + n - 1) % n) = -1 / 2 ∧
      ∀ j < n, j ≠ (i + 1) % n → j ≠ (i + n - 1) % n → C.lil i j = 0 := by
  obtain ⟨b1, b2, b3, b4, b5, b6⟩ := neighbours n i h3 hi
  refine ⟨?_, ?_, ?_⟩
  · rw [linear_gradient h i _ hi b1, if_pos rfl, if_neg, sub_zero]
    intro hh
    exact b5 ((succ_mod_eq n i hi _ b1).mp hh)
  · rw [linear_gradient h i _ hi b2, if_neg b5, if_pos b6]; norm_num
  · intro j hj h1 h2
    rw [linear_gradient h i j hi hj, if_neg (fun e => h1 e.symm),
      if_neg (fun e => h2 ((succ_mod_eq n i hi j hj).mp e)), sub_zero]

/-- The largest of the absolute speeds of two states. -/
noncomputable def absSpeed (p : Problem) (x y : ℝ) : ℝ := max |p.fluxPrime x| |p.fluxPrime y|

/-- The flux between two nodes. -/
noncomputable def nodeFlux (p : Problem) (x y : ℝ) : ℝ :=
  (p.flux x + p.flux y) / 2 - absSpeed p x y / 2 * (y - x)

theorem diffusion_entry (p : Problem) (N : ℕ) (C : SysMatrix ℝ) (hC : Conv N C) (u : List ℝ)
    (hu : u.length = N) (D : SysMatrix ℝ) (hD : diffusion p C u = .ok D) (i j : ℕ) (hij : i ≠ j) :
    D.lil i j = |C.lil i j| * absSpeed p (u.getD i 0) (u.getD j 0) := by
  cases p with
  | advection =>
    obtain rfl := (Except.ok.inj hD)
    simp [upwind, withDiagonal, SysMatrix.updateCsr, hij, absSpeed, Problem.fluxPrime]
  | burgers =>
    unfold diffusion burgersDiffusion at hD
    rw [if_pos (by rw [hu, hC.dim])] at hD
    obtain rfl := (Except.ok.inj hD)
    simp only [withDiagonal, SysMatrix.updateCsr, hij, if_false, absSpeed, Problem.fluxPrime]
    rw [abs_mul, abs_mul, hC.anti j i, abs_neg, max_comm,
      mul_max_of_nonneg _ _ (abs_nonneg _)]

/-- C112.  The right-hand side of the low order finite element scheme with linear elements on at least
three cells: differences of a two-point flux between neighbouring nodes. -/
theorem C112_flux {gauss d n s m C} (h : Setup gauss d n 1 s m C) (h3 : 3 ≤ n) (p : Problem)
    (u : List ℝ) (hu : u.length = n) :
    lowRhs p m C u = .ok ((List.range n).map fun i => 1 / ((d.b - d.a) / n) *
      (nodeFlux p (u.getD ((i + n - 1) % n) 0) (u.getD i 0) -
        nodeFlux p (u.getD i 0) (u.getD ((i + 1) % n) 0))) := by
  obtain ⟨s1, s2, s3, -⟩ := setup_facts h
  have hC := setup_conv h
  obtain ⟨hm, -⟩ := lumped_spec gauss h.isGauss s (by omega) m h.mass
  rw [mul_one] at s3
  rw [s3] at hC hm
  obtain ⟨D, d1, -⟩ := diffusion_spec p n C hC u hu
  have hpos := (C68_masses h (Or.inl (by norm_num))).2
  obtain ⟨w, w1, w2, w3⟩ := lowRhs_spec p n C hC u m hu hm (fun x hx => (hpos x hx).ne') D d1
  rw [w1]
  congr 1
  refine List.ext_getElem (by simp [w2]) fun i i1 i2 => ?_
  have hi : i < n := by omega
  have := w3 i hi
  rw [List.getD_eq_getElem _ _ i1] at this
  rw [this, List.getElem_map, List.getElem_range, linear_mass h i hi]
  obtain ⟨b1, b2, b3, b4, b5, b6⟩ := neighbours n i h3 hi
  obtain ⟨c1, c2, c3⟩ := linear_entry h h3 i hi
  have hsub : ({(i + 1) % n, (i + n - 1) % n} : Finset ℕ) ⊆ (Finset.range n).erase i := by
    intro j hj
    simp only [Finset.mem_insert, Finset.mem_singleton] at hj
    rcases hj with rfl | rfl
    · exact Finset.mem_erase.mpr ⟨b3, Finset.mem_range.mpr b1⟩
    · exact Finset.mem_erase.mpr ⟨b4, Finset.mem_range.mpr b2⟩
  rw [← Finset.sum_subset hsub, Finset.sum_pair b5]
  · rw [diffusion_entry p n C hC u hu D d1 i _ b3.symm, diffusion_entry p n C hC u hu D d1 i _ b4.symm,
      c1, c2]
    have hs : absSpeed p (u.getD i 0) (u.getD ((i + n - 1) % n) 0) =
        absSpeed p (u.getD ((i + n - 1) % n) 0) (u.getD i 0) := max_comm _ _
    rw [hs]
    unfold nodeFlux
    rw [show |(1 : ℝ) / 2| = 1 / 2 by norm_num, show |(-1 : ℝ) / 2| = 1 / 2 by norm_num]
    rw [div_eq_mul_one_div, mul_comm]
    congr 1
    ring
  · intro j hj hjn
    simp only [Finset.mem_insert, Finset.mem_singleton, not_or] at hjn
    have hj' := Finset.mem_erase.mp hj
    rw [diffusion_entry p n C hC u hu D d1 i j hj'.1.symm,
      c3 j (Finset.mem_range.mp hj'.2) hjn.1 hjn.2]
    simp

/-- C112.  The same numbers as the right-hand side of the Lax-Friedrichs solver on the same mesh: for
the advection equation for all values, for Burgers' equation for positive values. -/
theorem C112_equal {gauss d n s m C} (h : Setup gauss d n 1 s m C) (h3 : 3 ≤ n) (p : Problem)
    (wall il ir : Option (ℝ → ℝ)) (bc : BC ℝ ℝ) (hbc : build wall ["periodic"] 1 il ir = .ok bc) (t : ℝ)
    (u : List ℝ) (hu : u.length = n) (hpos : p = .burgers → ∀ x ∈ u, 0 < x) :
    lowRhs p m C u = rhs (laxFriedrichs p.riemann) ((d.b - d.a) / n) bc t u := by
  have hn0 : (0 : ℝ) < n := by exact_mod_cast h.meshSize
  have hdx : (d.b - d.a) / n ≠ 0 := (div_pos (by linarith [h.domain]) hn0).ne'
  have hext := periodic_extend wall 1 il ir bc hbc u (by omega) (some t)
  have g : ∀ j, j < n + 2 → ((List.range (u.length + 2 * 1)).map
      (fun i => u.getD ((i + u.length - 1) % u.length) 0)).getD j 0 = u.getD ((j + n - 1) % n) 0 := by
    intro j hj
    rw [List.getD_eq_getElem _ _ (by simpa [hu] using hj)]
    simp [hu]
  have hmem : ∀ k, u.getD (k % n) 0 ∈ u := by
    intro k
    have hk : k % n < u.length := by rw [hu]; exact Nat.mod_lt _ (by omega)
    rw [List.getD_eq_getElem _ _ hk]
    exact List.getElem_mem _
  have hs : ∀ x ∈ u, ∀ y ∈ u, 0 < p.speed x y ∧ lfFlux p x y = nodeFlux p x y := by
    intro x hx y hy
    unfold lfFlux llf nodeFlux absSpeed
    cases p with
    | advection => simp [Problem.speed, Problem.waveSpeed, Problem.fluxPrime, Problem.flux]
    | burgers =>
      have h1 := hpos rfl x hx
      have h2 := hpos rfl y hy
      simp only [Problem.speed, Problem.waveSpeed, Problem.fluxPrime, abs_of_pos h1, abs_of_pos h2]
      exact ⟨lt_of_lt_of_le h1 (le_max_left _ _), trivial⟩
  rw [lf_rhs p _ hdx bc t u _ hext n (by simp [hu]) (by
    intro j hj
    rw [g j (by omega), g (j + 1) (by omega)]
    exact (hs _ (hmem _) _ (hmem _)).1), C112_flux h h3 p u hu]
  congr 1
  refine List.map_congr_left fun i hi => ?_
  have hi' := List.mem_range.mp hi
  rw [g i (by omega), g (i + 1) (by omega), g (i + 2) (by omega)]
  have e : (i + 1 + n - 1) % n = i := by
    rw [show i + 1 + n - 1 = i + n by omega, Nat.add_mod_right, Nat.mod_eq_of_lt hi']
  have e2 : (i + 2 + n - 1) % n = (i + 1) % n := by
    rw [show i + 2 + n - 1 = i + 1 + n by omega, Nat.add_mod_right]
  have hmi : u.getD i 0 ∈ u := by
    have := hmem i
    rwa [Nat.mod_eq_of_lt hi'] at this
  rw [e, e2, (hs _ (hmem _) _ hmi).2, (hs _ hmi _ (hmem _)).2]

/-! ### Runs -/

section Congr

variable {E ε : Type*} [AddCommGroup E] [Module ℝ E]

theorem run_congr (f g : ℝ → E → Except ε E) (S : Set E) (hS : Convex ℝ S)
    (hfg : ∀ t, ∀ u ∈ S, f t u = g t u) (steps : List ℝ)
    (hE : ∀ dt ∈ steps, ∀ t, ∀ u ∈ S, ∃ w, f t u = .ok w ∧ u + dt • w ∈ S) (T : Tableau ℝ)
    (hT : T = forwardEuler ℝ ∨ T = heun ℝ ∨ T = ssp3 ℝ) (s : Solver ℝ E) (hs : s.solution ∈ S) :
    s.runE T f steps = s.runE T g steps := by
  have hc : checked (fun _ u => u ∈ S) f = checked (fun _ u => u ∈ S) g := by
    funext t u
    unfold checked
    split_ifs with h
    · rw [hfg t u h]
    · rfl
  induction steps generalizing s with
  | nil => rfl
  | cons dt steps ih =>
    have hstep := sspE_step (checked (fun _ u => u ∈ S) f) dt S hS (by
      intro t u hu
      obtain ⟨w, h1, h2⟩ := hE dt List.mem_cons_self t u hu
      exact ⟨w, by simp only [checked, if_pos hu, h1, Except.mapError], h2⟩) s hs
    have : ∃ s', s.executeE T (checked (fun _ u => u ∈ S) f) dt = .ok s' ∧ s'.solution ∈ S := by
      rcases hT with rfl | rfl | rfl
      · exact hstep.1
      · exact hstep.2.1
      · exact hstep.2.2
    obtain ⟨s', h1, h2⟩ := this
    have key : ∀ F : ℝ → E → Except ε E, s.executeE T (checked (fun _ u => u ∈ S) F) dt = .ok s' →
        s.executeE T F dt = .ok s' := by
      intro F hF
      rcases checked_execute T (fun _ u => u ∈ S) F dt s with h | ⟨h, -⟩
      · rw [h] at hF; cases hF
      · rw [hF] at h
        cases hx : s.executeE T F dt with
        | error e => rw [hx] at h; cases h
        | ok y => rw [hx] at h; cases h; rfl
    unfold Solver.runE
    rw [key f h1, key g (hc ▸ h1)]
    exact ih (fun x hx => hE x (List.mem_cons_of_mem _ hx)) s' h2

end Congr

theorem vecRhs_congr {n : ℕ} (f g : ℝ → List ℝ → Except Error (List ℝ)) (t : ℝ) (u : Fin n → ℝ)
    (h : f t (List.ofFn u) = g t (List.ofFn u)) : vecRhs n f t u = vecRhs n g t u := by
  unfold vecRhs; rw [h]

/-- A forward Euler step of the low order scheme with linear elements stays between bounds of the data. -/
theorem linear_euler {gauss d n s m C} (h : Setup gauss d n 1 s m C) (p : Problem) (lo hi B : ℝ)
    (hB : 0 < B) (ha : p = .advection → 1 ≤ B) (dt : ℝ) (h0 : 0 ≤ dt)
    (hdt : 2 * dt * B ≤ (d.b - d.a) / n) (t : ℝ) (u : Fin n → ℝ) (hu : ∀ i, lo ≤ u i ∧ u i ≤ hi)
    (hb : ∀ i, |u i| ≤ B) :
    ∃ w, vecRhs n (fun _ => lowRhs p m C) t u = .ok w ∧ ∀ i, lo ≤ (u + dt • w) i ∧ (u + dt • w) i ≤ hi := by
  obtain ⟨s1, s2, s3, -⟩ := setup_facts h
  rw [mul_one] at s3
  subst s3
  have hpos := (C68_masses h (Or.inl (by norm_num))).2
  obtain ⟨τ, t1, t2⟩ := linear_step h p u B hB ha hb
  obtain ⟨τ', t1', w, w1, w2, w3⟩ := low_safe h hpos p (List.ofFn u) (by simp)
  obtain rfl : τ' = τ := Except.ok.inj (t1'.symm.trans t1)
  have hn0 : (0 : ℝ) < s.dimension := by exact_mod_cast h.meshSize
  have hat : AtMost dt τ' := by
    intro x hx
    refine le_trans ?_ (t2 x hx)
    rw [le_div_iff₀ (by positivity)]
    rw [le_div_iff₀ hn0] at hdt
    linarith
  obtain ⟨v, v1, v2⟩ := box_of_local s (lowRhs p m C) lo hi dt u hu ⟨w, w1, w2, w3 dt h0 hat⟩ t
  exact ⟨v, v1, v2⟩

/-- C112.  Runs from the same values with the same steps end with the same values: for the advection
equation with any steps, for Burgers' equation with values in `[lo, hi]`, `lo > 0`, and steps with
`2 dt hi ≤ dx`. -/
theorem C112_runs {gauss d n s m C} (h : Setup gauss d n 1 s m C) (h3 : 3 ≤ n) (p : Problem)
    (wall il ir : Option (ℝ → ℝ)) (bc : BC ℝ ℝ) (hbc : build wall ["periodic"] 1 il ir = .ok bc)
    (T : Tableau ℝ) (hT : T = forwardEuler ℝ ∨ T = heun ℝ ∨ T = ssp3 ℝ) (steps : List ℝ)
    (S : Solver ℝ (Fin n → ℝ)) (lo hi : ℝ)
    (hp : p = .burgers → 0 < lo ∧ (∀ i, lo ≤ S.solution i ∧ S.solution i ≤ hi) ∧
      ∀ dt ∈ steps, 0 ≤ dt ∧ 2 * dt * hi ≤ (d.b - d.a) / n) :
    S.runE T (vecRhs n fun _ => lowRhs p m C) steps =
      S.runE T (vecRhs n (rhs (laxFriedrichs p.riemann) ((d.b - d.a) / n) bc)) steps := by
  cases p with
  | advection =>
    congr 1
    funext t u
    exact vecRhs_congr _ _ t u (C112_equal h h3 .advection wall il ir bc hbc t (List.ofFn u) (by simp)
      (fun e => by cases e))
  | burgers =>
    obtain ⟨p1, p2, p3⟩ := hp rfl
    refine run_congr _ _ (boxSet n lo hi) (boxSet_convex n lo hi) ?_ steps ?_ T hT S p2
    · intro t u hu
      refine vecRhs_congr _ _ t u (C112_equal h h3 .burgers wall il ir bc hbc t (List.ofFn u) (by simp) ?_)
      intro _ x hx
      obtain ⟨i, rfl⟩ := (List.mem_ofFn' _ _).mp hx
      exact p1.trans_le (hu i).1
    · intro dt hdt t u hu
      have hhi : 0 < hi := by
        have := hu ⟨0, by omega⟩
        linarith [this.1, this.2]
      obtain ⟨q1, q2⟩ := p3 dt hdt
      obtain ⟨w, w1, w2⟩ := linear_euler h .burgers lo hi hi hhi (fun e => by cases e) dt q1 q2 t u hu
        (fun i => by rw [abs_of_pos (p1.trans_le (hu i).1)]; exact (hu i).2)
      exact ⟨w, w1, w2⟩

/-- C112.  On one or two cells the equality fails: the right-hand side of the finite element scheme is zero,
so that the solution never changes. -/
theorem C112_small {gauss d n s m C} (h : Setup gauss d n 1 s m C) (h2 : n ≤ 2) (p : Problem)
    (u : List ℝ) (hu : u.length = n) : lowRhs p m C u = .ok (List.replicate n 0) := by
  obtain ⟨s1, s2, s3, -⟩ := setup_facts h
  have hC := setup_conv h
  obtain ⟨hm, -⟩ := lumped_spec gauss h.isGauss s (by omega) m h.mass
  rw [mul_one] at s3
  rw [s3] at hC hm
  obtain ⟨D, d1, -⟩ := diffusion_spec p n C hC u hu
  have hpos := (C68_masses h (Or.inl (by norm_num))).2
  obtain ⟨w, w1, w2, w3⟩ := lowRhs_spec p n C hC u m hu hm (fun x hx => (hpos x hx).ne') D d1
  rw [w1]
  congr 1
  refine List.ext_getElem (by simp [w2]) fun i i1 i2 => ?_
  have hi : i < n := by omega
  have := w3 i hi
  rw [List.getD_eq_getElem _ _ i1] at this
  rw [this, List.getElem_replicate, Finset.sum_eq_zero, zero_div]
  intro j hj
  have hj' := Finset.mem_erase.mp hj
  have hjn := Finset.mem_range.mp hj'.2
  have hrow := linear_rows h i hi
  rw [if_neg (by omega)] at hrow
  unfold rowSize at hrow
  have h0 := (Finset.sum_eq_zero_iff_of_nonneg fun j _ => abs_nonneg _).mp hrow j hj
  rw [diffusion_entry p n C hC u hu D d1 i j hj'.1.symm, h0, abs_eq_zero.mp h0]
  ring

/-- Three cells of `[0, 3]`, Burgers' equation with the node values 1, 2, 4. -/
example : ∃ gauss s m C, Setup gauss ⟨0, 3⟩ 3 1 s m C ∧
    lowRhs .burgers m C [1, 2, 4] = .ok [10, -3 / 4, -37 / 4] := by
  obtain ⟨gauss, s, m, C, h⟩ := exists_setup ⟨0, 3⟩ (by norm_num) 3 1 (by norm_num) one_pos
  refine ⟨gauss, s, m, C, h, ?_⟩
  rw [C112_flux h le_rfl .burgers [1, 2, 4] rfl]
  simp [List.range_succ, nodeFlux, absSpeed, Problem.flux, Problem.fluxPrime]
  norm_num

/-- The same values with the finite volume scheme. -/
example (bc : BC ℝ ℝ) (hbc : build none ["periodic"] 1 none none = .ok bc) :
    ∃ gauss s m C, Setup gauss ⟨0, 3⟩ 3 1 s m C ∧
    lowRhs .burgers m C [1, 2, 4] = rhs (laxFriedrichs Problem.burgers.riemann) (((3 : ℝ) - 0) / (3 : ℕ)) bc 0 [1, 2, 4] := by
  obtain ⟨gauss, s, m, C, h⟩ := exists_setup ⟨0, 3⟩ (by norm_num) 3 1 (by norm_num) one_pos
  exact ⟨gauss, s, m, C, h, C112_equal h le_rfl .burgers none none none bc hbc 0 [1, 2, 4] rfl (fun _ => by simp)⟩

end Verif.FE
