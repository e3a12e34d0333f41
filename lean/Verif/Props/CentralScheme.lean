import Verif.Props.CGAdvection

/-!
C120: the central scheme (`finite_volume/scalar/solver/central.py`) for linear advection with periodic
boundary: how the `L²` energy changes in runs with each of the three integrators, that the method is not stable
with the first and the second order one for any CFL number, and is stable with the third order one up to a CFL
number of the square root of three.
-/

set_option linter.unusedSectionVars false

namespace Verif.FE

open Verif.Py Verif.ODE Verif.Scalar Verif.Convergence Verif.Solver Verif.FV
open Verif.Boundary
open Verif.Mesh hiding Error

/-! ### Specification -/

/-- The integrators to choose from (`core/solver.py` lines 168-172), each with the factor by which the energy of
waves of four cells changes in a step whose quotient of time step and cell width is `ν`. -/
inductive WaveGrowth : Tableau ℝ → (ℝ → ℝ) → Prop
  | euler : WaveGrowth (forwardEuler ℝ) fun ν => 1 + ν ^ 2
  | heun : WaveGrowth (heun ℝ) fun ν => 1 + ν ^ 4 / 4
  | ssp3 : WaveGrowth (ssp3 ℝ) fun ν => 1 - ν ^ 4 / 12 + ν ^ 6 / 36

/-- The values `1, 0, -1, 0, 1, ...`. -/
def fourWave (n : ℕ) (i : Fin n) : ℝ := if (i : ℕ) % 4 = 0 then 1 else if (i : ℕ) % 4 = 2 then -1 else 0

/-! ### The operator -/

variable {n : ℕ}

/-- Central differences. -/
noncomputable def centralOp (dx : ℝ) : (Fin n → ℝ) →ₗ[ℝ] (Fin n → ℝ) where
  toFun u i := (around u (i - 1) - around u (i + 1)) / (2 * dx)
  map_add' u v := by funext i; simp only [around_add, Pi.add_apply]; ring
  map_smul' c u := by funext i; simp only [around_smul, Pi.smul_apply, smul_eq_mul, RingHom.id_apply]; ring

/-- The dot product. -/
noncomputable def dotForm (n : ℕ) : (Fin n → ℝ) →ₗ[ℝ] (Fin n → ℝ) →ₗ[ℝ] ℝ :=
  LinearMap.mk₂ ℝ (fun u v => ∑ i : Fin n, u i * v i)
    (by intros; simp only [Pi.add_apply, add_mul, Finset.sum_add_distrib])
    (by intros; simp only [Pi.smul_apply, smul_eq_mul, Finset.mul_sum, mul_assoc])
    (by intros; simp only [Pi.add_apply, mul_add, Finset.sum_add_distrib])
    (by
      intro c u v
      simp only [Pi.smul_apply, smul_eq_mul, Finset.mul_sum]
      exact Finset.sum_congr rfl fun i _ => by ring)

theorem dotForm_self (u : Fin n → ℝ) : dotForm n u u = ∑ i, u i ^ 2 := by
  simp only [sq]; rfl

theorem around_central (hn : 0 < n) (dx : ℝ) (u : Fin n → ℝ) (z : ℤ) :
    around (centralOp dx u) z = (around u (z - 1) - around u (z + 1)) / (2 * dx) := by
  obtain ⟨i, q, rfl⟩ := around_exists hn z
  rw [around_shift, around_cell, show (i : ℤ) + q * n - 1 = (i - 1) + q * n by ring, around_shift,
    show (i : ℤ) + q * n + 1 = (i + 1) + q * n by ring, around_shift]
  rfl

theorem sum_around (u : Fin n → ℝ) (g : ℝ → ℝ → ℝ) (v : Fin n → ℝ) :
    ∑ i : Fin n, g (u i) (v i) = ∑ c ∈ Finset.range n, g (around u c) (around v c) := by
  rw [Finset.sum_range]
  exact Finset.sum_congr rfl fun i _ => by rw [around_cell, around_cell]

theorem shift_around (g : ℤ → ℝ) (hg : ∀ z, g (z + n) = g z) :
    ∑ c ∈ Finset.range n, g c = ∑ c ∈ Finset.range n, g (c - 1) := by
  have := sum_shift n (fun z => g (z - 1)) (by
    change g (n - 1) = g (0 - 1)
    rw [← hg (0 - 1)]; congr 1)
  simpa using this

theorem central_skew (hn : 0 < n) (dx : ℝ) : SkewForm (dotForm n) (centralOp dx) where
  symm u v := by
    change ∑ i, u i * v i = ∑ i, v i * u i
    exact Finset.sum_congr rfl fun i _ => mul_comm _ _
  nonneg u := by rw [dotForm_self]; positivity
  definite u h := by
    rw [dotForm_self, Finset.sum_eq_zero_iff_of_nonneg (fun i _ => sq_nonneg _)] at h
    funext i
    exact pow_eq_zero_iff (two_ne_zero) |>.mp (h i (Finset.mem_univ i))
  skew u v := by
    have e1 : dotForm n (centralOp dx u) v = ∑ c ∈ Finset.range n,
        (around u (c - 1) - around u (c + 1)) / (2 * dx) * around v c := by
      refine (sum_around (centralOp dx u) (· * ·) v).trans ?_
      simp only [around_central hn]
    have e2 : dotForm n u (centralOp dx v) = ∑ c ∈ Finset.range n,
        around u c * ((around v (c - 1) - around v (c + 1)) / (2 * dx)) := by
      refine (sum_around u (· * ·) (centralOp dx v)).trans ?_
      simp only [around_central hn]
    rw [e1, e2]
    have s1 := shift_around (n := n) (fun z => around u z * around v (z + 1) / (2 * dx)) (by
      intro z
      rw [around_periodic, show z + (n : ℤ) + 1 = z + 1 + n by ring, around_periodic])
    have s2 := shift_around (n := n) (fun z => around u (z + 1) * around v z / (2 * dx)) (by
      intro z
      rw [around_periodic, show z + (n : ℤ) + 1 = z + 1 + n by ring, around_periodic])
    simp only [sub_add_cancel] at s1 s2
    have l : ∑ c ∈ Finset.range n, (around u (c - 1) - around u (c + 1)) / (2 * dx) * around v c =
        ∑ c ∈ Finset.range n, around u (c - 1) * around v c / (2 * dx) -
        ∑ c ∈ Finset.range n, around u (c + 1) * around v c / (2 * dx) := by
      rw [← Finset.sum_sub_distrib]
      exact Finset.sum_congr rfl fun c _ => by ring
    have r : ∑ c ∈ Finset.range n, around u c * ((around v (c - 1) - around v (c + 1)) / (2 * dx)) =
        ∑ c ∈ Finset.range n, around u c * around v (c - 1) / (2 * dx) -
        ∑ c ∈ Finset.range n, around u c * around v (c + 1) / (2 * dx) := by
      rw [← Finset.sum_sub_distrib]
      exact Finset.sum_congr rfl fun c _ => by ring
    rw [l, r]
    linarith

theorem central_bound (hn : 0 < n) (dx : ℝ) (hdx : 0 < dx) (u : Fin n → ℝ) :
    dotForm n (centralOp dx u) (centralOp dx u) ≤ (1 / dx) ^ 2 * dotForm n u u := by
  have e1 : dotForm n (centralOp dx u) (centralOp dx u) = ∑ c ∈ Finset.range n,
      ((around u (c - 1) - around u (c + 1)) / (2 * dx)) ^ 2 := by
    refine (sum_around (centralOp dx u) (· * ·) (centralOp dx u)).trans ?_
    simp only [around_central hn, sq]
  have e2 : dotForm n u u = ∑ c ∈ Finset.range n, around u c ^ 2 := by
    refine (sum_around u (· * ·) u).trans ?_
    simp only [sq]
  have s1 := shift_around (n := n) (fun z => around u z ^ 2) (by intro z; rw [around_periodic])
  have s2 := shift_around (n := n) (fun z => around u (z + 1) ^ 2) (by
    intro z
    rw [show z + (n : ℤ) + 1 = z + 1 + n by ring, around_periodic])
  simp only [sub_add_cancel] at s1 s2
  have key : ∑ c ∈ Finset.range n, ((around u (c - 1) - around u (c + 1)) / (2 * dx)) ^ 2 ≤
      ∑ c ∈ Finset.range n, (1 / 2 * (1 / dx) ^ 2) * (around u (c - 1) ^ 2 + around u (c + 1) ^ 2) := by
    apply Finset.sum_le_sum
    intro c _
    have : ((around u (c - 1) - around u (c + 1)) / (2 * dx)) ^ 2 =
        (1 / 4 * (1 / dx) ^ 2) * (around u (c - 1) - around u (c + 1)) ^ 2 := by
      field_simp; ring
    rw [this]
    have p : 0 ≤ (1 / dx) ^ 2 := sq_nonneg _
    nlinarith [mul_nonneg p (sq_nonneg (around u (c - 1) + around u (c + 1)))]
  rw [e1]
  refine key.trans (le_of_eq ?_)
  rw [← Finset.mul_sum, Finset.sum_add_distrib, ← s1, s2, e2]
  ring

/-! ### The right-hand side -/

section Scheme

variable (hn : 0 < n) (wall : Option (ℝ → ℝ)) (il ir : Option (ℝ → ℝ)) (bc : BC ℝ ℝ)
  (hbc : build wall ["periodic"] 1 il ir = .ok bc) (dx : ℝ)
include hn hbc

theorem rhs_central (hdx : dx ≠ 0) (t : ℝ) (u : Fin n → ℝ) :
    vecRhs n (rhs (central ℝ Problem.advection.riemann.flux) dx bc) t u = .ok (centralOp dx u) := by
  have hext := periodic_extend wall 1 il ir bc hbc (List.ofFn u)
    (by simpa using Nat.succ_le_of_lt hn) (some t)
  have g : ∀ j, j < n + 2 → ((List.range ((List.ofFn u).length + 2 * 1)).map
      (fun i => (List.ofFn u).getD ((i + (List.ofFn u).length - 1) % (List.ofFn u).length) 0)).getD j 0 =
      around u (j - 1) := by
    intro j hj
    rw [List.getD_eq_getElem _ _ (by simpa using hj)]
    simp only [List.length_ofFn, List.getElem_map, List.getElem_range]
    unfold around
    have e : (((j : ℤ) - 1) % n).toNat = (j + n - 1) % n := by
      rw [← Int.add_emod_right]
      have : (j : ℤ) - 1 + n = ((j + n - 1 : ℕ) : ℤ) := by omega
      rw [this, ← Int.natCast_mod, Int.toNat_natCast]
    have hlt : (j + n - 1) % n < n := Nat.mod_lt _ hn
    simp only [e, dif_pos hlt]
    rw [List.getD_eq_getElem _ _ (by simpa using hlt)]
    simp
  have hl := rhs_twoPoint (centralNode ℝ Problem.advection.riemann.flux) dx hdx bc t (List.ofFn u) _ hext n (by simp)
    (fun j => 1 / 2 * (around u (j - 1) + around u j)) (by
      intro j hj
      have h1 := g j (by omega)
      have h2 := g (j + 1) (by omega)
      rw [List.getD_eq_getElem _ _ (by simp; omega)] at h1 h2
      rw [h1, h2]
      simp [centralNode, Problem.riemann, Problem.flux])
  rw [central, SWE.vecRhs_range _ t u _ hl]
  congr 1
  funext i
  simp only [centralOp, LinearMap.coe_mk, AddHom.coe_mk, smul_eq_mul]
  push_cast
  rw [add_sub_cancel_right]
  field_simp
  ring

/-- C120.  The time derivative in a cell is the central difference of the values of its two neighbours, across
the boundary too. -/
theorem C120_scheme (hdx : dx ≠ 0) (t : ℝ) (u : Fin n → ℝ) :
    vecRhs n (rhs (central ℝ Problem.advection.riemann.flux) dx bc) t u = .ok fun i =>
      (u ⟨(i + (n - 1)) % n, Nat.mod_lt _ hn⟩ - u ⟨(i + 1) % n, Nat.mod_lt _ hn⟩) / (2 * dx) := by
  rw [rhs_central hn wall il ir bc hbc dx hdx]
  congr 1
  funext i
  have e1 : around u ((i : ℤ) - 1) = u ⟨(i + (n - 1)) % n, Nat.mod_lt _ hn⟩ := by
    unfold around
    have : (((i : ℤ) - 1) % n).toNat = (i + (n - 1)) % n := by
      rw [← Int.add_emod_right]
      have : (i : ℤ) - 1 + n = ((i + (n - 1) : ℕ) : ℤ) := by omega
      rw [this, ← Int.natCast_mod, Int.toNat_natCast]
    simp only [this, dif_pos (Nat.mod_lt _ hn)]
  have e2 : around u ((i : ℤ) + 1) = u ⟨(i + 1) % n, Nat.mod_lt _ hn⟩ := by
    unfold around
    have : (((i : ℤ) + 1) % n).toNat = (i + 1) % n := by
      have : (i : ℤ) + 1 = ((i + 1 : ℕ) : ℤ) := by omega
      rw [this, ← Int.natCast_mod, Int.toNat_natCast]
    simp only [this, dif_pos (Nat.mod_lt _ hn)]
  simp only [centralOp, LinearMap.coe_mk, AddHom.coe_mk, e1, e2]

omit hn hbc in
/-- A step of an integrator with a skew operator of norm at most `1 / dx`. -/
theorem growth_step {E ε : Type*} [AddCommGroup E] [Module ℝ E] {B : E →ₗ[ℝ] E →ₗ[ℝ] ℝ} {A : E →ₗ[ℝ] E}
    (h : SkewForm B A) (hdx : 0 < dx) (hb : ∀ u, B (A u) (A u) ≤ (1 / dx) ^ 2 * B u u)
    (f : ℝ → E → Except ε E) (hf : ∀ t u, f t u = .ok (A u)) {T g} (hT : WaveGrowth T g)
    (S : Solver ℝ E) (dt : ℝ) :
    ∃ S', S.executeE T f dt = .ok S' ∧
      B S'.solution S'.solution ≤ max 1 (g (dt / dx)) * B S.solution S.solution ∧
      (T ≠ ssp3 ℝ → B S.solution S.solution ≤ B S'.solution S'.solution) ∧
      (A (A S.solution) = (-(1 / dx) ^ 2) • S.solution →
        A (A S'.solution) = (-(1 / dx) ^ 2) • S'.solution ∧
        B S'.solution S'.solution = g (dt / dx) * B S.solution S.solution) := by
  have hE := h.nonneg S.solution
  have p1 : 0 ≤ (1 / dx) ^ 2 := sq_nonneg _
  have b1 := hb S.solution
  have n1 := h.nonneg (A S.solution)
  have n2 := h.nonneg (A (A S.solution))
  have n3 := h.nonneg (A (A (A S.solution)))
  have b2 : B (A (A S.solution)) (A (A S.solution)) ≤ (1 / dx) ^ 4 * B S.solution S.solution := by
    refine (hb _).trans ((mul_le_mul_of_nonneg_left b1 p1).trans (le_of_eq ?_)); ring
  have b3 := hb (A (A S.solution))
  have hν : dt / dx = dt * (1 / dx) := by ring
  rw [hν]
  generalize 1 / dx = r at *
  have w1 : A (A S.solution) = (-r ^ 2) • S.solution →
      B (A S.solution) (A S.solution) = r ^ 2 * B S.solution S.solution := by
    intro w
    have := h.skew S.solution (A S.solution)
    rw [w, map_smul, smul_eq_mul] at this
    linarith
  cases hT with
  | euler =>
    refine ⟨_, linear_total f A hf _ S dt, ?_⟩
    rw [execute_forwardEuler]
    have e : B (S.solution + dt • A S.solution) (S.solution + dt • A S.solution) =
        B S.solution S.solution + dt ^ 2 * B (A S.solution) (A S.solution) := by
      have o := h.orth S.solution
      have o' := h.symm S.solution (A S.solution)
      simp only [map_add, map_smul, LinearMap.add_apply, LinearMap.smul_apply, smul_eq_mul]
      rw [o', o]; ring
    rw [e]
    refine ⟨?_, fun _ => by nlinarith [mul_nonneg (sq_nonneg dt) n1], fun w => ⟨?_, ?_⟩⟩
    · refine le_trans ?_ (mul_le_mul_of_nonneg_right (le_max_right _ _) hE)
      nlinarith [mul_le_mul_of_nonneg_left b1 (sq_nonneg dt)]
    · simp only [map_add, map_smul, w, smul_add]
      module
    · rw [w1 w]; ring
  | heun =>
    obtain ⟨S', e1, -, e2⟩ := linear_heun f A hf S dt
    refine ⟨S', e1, ?_⟩
    rw [e2, h.heun_energy]
    have p4 : 0 ≤ dt ^ 4 / 4 := by positivity
    refine ⟨?_, fun _ => by nlinarith [mul_nonneg p4 n2], fun w => ⟨?_, ?_⟩⟩
    · refine le_trans ?_ (mul_le_mul_of_nonneg_right (le_max_right _ _) hE)
      nlinarith [mul_le_mul_of_nonneg_left b2 p4]
    · rw [heunMap_apply]
      simp only [map_add, map_smul, w, smul_add]
      module
    · rw [w]
      simp only [map_smul, LinearMap.smul_apply, smul_eq_mul]
      ring
  | ssp3 =>
    obtain ⟨S', e1, -, e2⟩ := linear_ssp f A hf S dt
    refine ⟨S', e1, ?_⟩
    rw [e2, h.ssp_energy]
    refine ⟨?_, fun hne => absurd rfl hne, fun w => ⟨?_, ?_⟩⟩
    · have p6 : 0 ≤ dt ^ 6 / 36 := by positivity
      have p4 : 0 ≤ dt ^ 4 / 36 := by positivity
      have k1 : B S.solution S.solution - dt ^ 4 / 12 * B (A (A S.solution)) (A (A S.solution)) +
          dt ^ 6 / 36 * B (A (A (A S.solution))) (A (A (A S.solution))) ≤
          B S.solution S.solution + dt ^ 4 / 36 * ((dt * r) ^ 2 - 3) * B (A (A S.solution)) (A (A S.solution)) := by
        nlinarith [mul_le_mul_of_nonneg_left b3 p6]
      refine k1.trans ?_
      rcases le_or_gt ((dt * r) ^ 2) 3 with hc | hc
      · refine le_trans ?_ (mul_le_mul_of_nonneg_right (le_max_left _ _) hE)
        nlinarith [mul_nonneg (mul_nonneg p4 (sub_nonneg.mpr hc)) n2]
      · refine le_trans ?_ (mul_le_mul_of_nonneg_right (le_max_right _ _) hE)
        have := mul_le_mul_of_nonneg_left b2 (mul_nonneg p4 (sub_pos.mpr hc).le)
        nlinarith
    · rw [sspMap_apply]
      simp only [map_add, map_smul, w, smul_add]
      module
    · have w3 : A (A (A S.solution)) = (-r ^ 2) • A S.solution := by rw [w, map_smul]
      rw [w3, w]
      simp only [map_smul, LinearMap.smul_apply, smul_eq_mul]
      rw [w1 w]
      ring

/-- C120.  Runs of the central scheme for linear advection, periodic, over any list of time steps: nothing is ever
raised; the energy does not shrink with the first and the second order integrator; and it is multiplied by at
most the product of the larger of one and the growth factors of waves of four cells.  In particular with the
third order integrator it does not grow if the time steps are at most the square root of three times the cell
width. -/
theorem C120_growth (hdx : 0 < dx) {T g} (hT : WaveGrowth T g) (steps : List ℝ) (S : Solver ℝ (Fin n → ℝ)) :
    ∃ S', S.runE T (vecRhs n (rhs (central ℝ Problem.advection.riemann.flux) dx bc)) steps = .ok S' ∧
      (T ≠ ssp3 ℝ → ∑ i, S.solution i ^ 2 ≤ ∑ i, S'.solution i ^ 2) ∧
      ∑ i, S'.solution i ^ 2 ≤ (steps.map fun dt => max 1 (g (dt / dx))).prod * ∑ i, S.solution i ^ 2 ∧
      (T = ssp3 ℝ → (∀ dt ∈ steps, (dt / dx) ^ 2 ≤ 3) → ∑ i, S'.solution i ^ 2 ≤ ∑ i, S.solution i ^ 2) := by
  have hf := rhs_central hn wall il ir bc hbc dx hdx.ne'
  have hprod : ∀ steps : List ℝ, T = ssp3 ℝ → (∀ dt ∈ steps, (dt / dx) ^ 2 ≤ 3) →
      (steps.map fun dt => max 1 (g (dt / dx))).prod = 1 := by
    intro steps hs h3
    apply List.prod_eq_one
    intro x hx
    obtain ⟨dt, hdt, rfl⟩ := List.mem_map.mp hx
    apply max_eq_left
    cases hT with
    | euler => exact absurd (congrArg Tableau.size hs) (by decide)
    | heun => exact absurd (congrArg Tableau.size hs) (by decide)
    | ssp3 =>
      have := h3 dt hdt
      beta_reduce
      nlinarith [mul_nonneg (sq_nonneg ((dt / dx) ^ 2)) (sub_nonneg.mpr this)]
  suffices key : ∃ S', S.runE T (vecRhs n (rhs (central ℝ Problem.advection.riemann.flux) dx bc)) steps = .ok S' ∧
      (T ≠ ssp3 ℝ → ∑ i, S.solution i ^ 2 ≤ ∑ i, S'.solution i ^ 2) ∧
      ∑ i, S'.solution i ^ 2 ≤ (steps.map fun dt => max 1 (g (dt / dx))).prod * ∑ i, S.solution i ^ 2 by
    obtain ⟨S', a1, a2, a3⟩ := key
    refine ⟨S', a1, a2, a3, fun hs h3 => ?_⟩
    rw [hprod steps hs h3, one_mul] at a3
    exact a3
  induction steps generalizing S with
  | nil => exact ⟨S, rfl, fun _ => le_rfl, by simp⟩
  | cons dt steps ih =>
    obtain ⟨S1, e1, e2, e3, -⟩ := growth_step dx (central_skew hn dx) hdx (central_bound hn dx hdx) _ hf hT S dt
    simp only [dotForm_self] at e2 e3
    obtain ⟨S', f1, f2, f3⟩ := ih S1
    refine ⟨S', ?_, fun hne => (e3 hne).trans (f2 hne), ?_⟩
    · simp only [Solver.runE, e1]; exact f1
    · rw [List.map_cons, List.prod_cons]
      have pos : 0 ≤ (steps.map fun dt => max 1 (g (dt / dx))).prod := by
        apply List.prod_nonneg
        intro x hx
        obtain ⟨y, -, rfl⟩ := List.mem_map.mp hx
        exact zero_le_one.trans (le_max_left _ _)
      refine f3.trans ((mul_le_mul_of_nonneg_left e2 pos).trans (le_of_eq ?_))
      ring

omit hbc in
theorem fourWave_operator (h4 : 4 ∣ n) :
    centralOp dx (centralOp dx (fourWave n)) = (-(1 / dx) ^ 2) • fourWave n := by
  obtain ⟨k, hk⟩ := h4
  let φ : ℤ → ℝ := fun z => if z % 4 = 0 then 1 else if z % 4 = 2 then -1 else 0
  have e0 : fourWave n = fun i : Fin n => φ i := by
    funext i
    have h1 : ((i : ℕ) % 4 = 0) ↔ (((i : ℕ) : ℤ) % 4 = 0) := by omega
    have h2 : ((i : ℕ) % 4 = 2) ↔ (((i : ℕ) : ℤ) % 4 = 2) := by omega
    simp only [fourWave, φ, h1, h2]
  have per : ∀ z, φ (z + n) = φ z := by
    intro z
    have : (z + (n : ℤ)) % 4 = z % 4 := by rw [hk]; push_cast; omega
    simp only [φ, this]
  have a := around_of_periodic hn φ per
  funext i
  have hi : (centralOp dx (centralOp dx (fourWave n))) i =
      (around (centralOp dx (fourWave n)) (i - 1) - around (centralOp dx (fourWave n)) (i + 1)) / (2 * dx) := rfl
  rw [hi, around_central hn, around_central hn, e0, a, a, a, a, Pi.smul_apply, smul_eq_mul]
  have shift : ∀ z : ℤ, φ (z + 2) = -φ z := by
    intro z
    have : z % 4 = 0 ∨ z % 4 = 1 ∨ z % 4 = 2 ∨ z % 4 = 3 := by omega
    simp only [φ]
    rcases this with h | h | h | h
    · have h1 : (z + 2) % 4 = 2 := by omega
      simp [h, h1]
    · have h1 : (z + 2) % 4 = 3 := by omega
      simp [h, h1]
    · have h1 : (z + 2) % 4 = 0 := by omega
      simp [h, h1]
    · have h1 : (z + 2) % 4 = 1 := by omega
      simp [h, h1]
  have s1 := shift (i - 1 - 1)
  have s2 := shift i
  rw [show (i : ℤ) - 1 - 1 + 2 = i by ring] at s1
  rw [show (i : ℤ) + 1 + 1 = i + 2 by ring, s2, show (i : ℤ) - 1 + 1 = i by ring,
    show (i : ℤ) + 1 - 1 = i by ring, show φ (i - 1 - 1) = -φ i by rw [s1]; ring]
  field_simp
  ring

/-- C120.  On meshes whose number of cells is a multiple of four the energy of the values `1, 0, -1, 0, 1, ...` is
multiplied by exactly the growth factors. -/
theorem C120_attained (hdx : 0 < dx) {T g} (hT : WaveGrowth T g) (h4 : 4 ∣ n) (steps : List ℝ) (t₀ : ℝ) :
    ∃ S', (Solver.init (fourWave n) t₀).runE T
        (vecRhs n (rhs (central ℝ Problem.advection.riemann.flux) dx bc)) steps = .ok S' ∧
      ∑ i, S'.solution i ^ 2 = (steps.map fun dt => g (dt / dx)).prod * ∑ i, fourWave n i ^ 2 := by
  have hf := rhs_central hn wall il ir bc hbc dx hdx.ne'
  have key : ∀ (steps : List ℝ) (S : Solver ℝ (Fin n → ℝ)),
      centralOp dx (centralOp dx S.solution) = (-(1 / dx) ^ 2) • S.solution →
      ∃ S', S.runE T (vecRhs n (rhs (central ℝ Problem.advection.riemann.flux) dx bc)) steps = .ok S' ∧
        ∑ i, S'.solution i ^ 2 = (steps.map fun dt => g (dt / dx)).prod * ∑ i, S.solution i ^ 2 := by
    intro steps
    induction steps with
    | nil => intro S _; exact ⟨S, rfl, by simp⟩
    | cons dt steps ih =>
      intro S hS
      obtain ⟨S1, e1, -, -, e4⟩ := growth_step dx (central_skew hn dx) hdx (central_bound hn dx hdx) _ hf hT S dt
      obtain ⟨e5, e6⟩ := e4 hS
      simp only [dotForm_self] at e6
      obtain ⟨S', f1, f2⟩ := ih S1 e5
      refine ⟨S', ?_, ?_⟩
      · simp only [Solver.runE, e1]; exact f1
      · rw [f2, List.map_cons, List.prod_cons, e6]; ring
  exact key steps (Solver.init (fourWave n) t₀) (fourWave_operator hn dx h4)

/-- C120.  Runs of the solver for advection, periodic, with a positive CFL number such that a time step is not
below `1e-12`: nothing is ever raised, the run ends after at most as many steps as the duration has time steps
and reaches the end time up to less than `1e-12`.  With the first and the second order integrator no value of
the history has more energy than a later one; with the third order integrator and a CFL number up to the square
root of three none has less. -/
theorem C120_solve (hdx : 0 < dx) {T g} (hT : WaveGrowth T g) (cfl t0 t1 : ℝ) (hstep : 1 / 10 ^ 12 ≤ dx * cfl)
    (hdur : 1 / 10 ^ 12 ≤ t1 - t0) (u : Fin n → ℝ) :
    let P := EndToEnd.fvParams n T (rhs (central ℝ Problem.advection.riemann.flux) dx bc) dx cfl t0 t1
    let run := Verif.Solver.solve P (Obj.make P ⟨u, t0, t1⟩)
    (∀ k : ℕ, t1 - t0 ≤ k * (dx * cfl) → (run (k + 1)).2 = .finished) ∧
    (∀ k, (run k).2 = .running ∨ (run k).2 = .finished) ∧
    (∀ k, (run k).2 = .finished →
      t1 - 1 / 10 ^ 12 < (run k).1.sol.sol.time ∧ (run k).1.sol.sol.time ≤ t1) ∧
    ∀ (k i j : ℕ) v w, i ≤ j → (run k).1.sol.values[i]? = some v → (run k).1.sol.values[j]? = some w →
      (T ≠ ssp3 ℝ → ∑ c, v c ^ 2 ≤ ∑ c, w c ^ 2) ∧
      (T = ssp3 ℝ → cfl ^ 2 ≤ 3 → ∑ c, w c ^ 2 ≤ ∑ c, v c ^ 2) := by
  intro P run
  have hf := rhs_central hn wall il ir bc hbc dx hdx.ne'
  obtain ⟨r1, r2, r3⟩ := linear_run T _ (centralOp dx) hf dx cfl t0 t1 hstep hdur u
  refine ⟨r1, r2, r3, ?_⟩
  intro k i j v w hij hv hw
  have htol : (0 : ℝ) < 1 / 10 ^ 12 := by positivity
  obtain ⟨steps, q1, q2, -, q4⟩ := EndToEnd.recorded P ⟨u, t0, t1⟩ k (by
    intro e he
    rcases r2 k with hh | hh <;> rw [show _ = _ from he] at hh <;> cases hh)
  have hj : j < steps.length + 1 := by
    have : j < (run k).1.sol.values.length := (List.getElem?_eq_some_iff.mp hw).1
    have e : (run k).1.sol.values.length = steps.length + 1 := q2
    omega
  obtain ⟨S, a1, a2, -⟩ := q4 i (by omega)
  obtain ⟨S', b1, b2, -⟩ := q4 j (by omega)
  have ev : v = S.solution := Option.some.inj (hv.symm.trans a2)
  have ew : w = S'.solution := Option.some.inj (hw.symm.trans b2)
  have hsplit : steps.take j = steps.take i ++ (steps.take j).drop i := by
    conv_lhs => rw [← List.take_append_drop i (steps.take j)]
    rw [List.take_take, min_eq_left hij]
  rw [hsplit, EndToEnd.runE_append _ _ _ _ _ S a1] at b1
  obtain ⟨S2, c1, c2, -, c4⟩ := C120_growth hn wall il ir bc hbc dx hdx hT ((steps.take j).drop i) S
  have hS2 : S2 = S' := Except.ok.inj (c1.symm.trans b1)
  subst hS2
  subst ev ew
  refine ⟨c2, fun hs h3 => c4 hs fun dt hdt => ?_⟩
  obtain ⟨z1, z2⟩ := q1 dt (List.mem_of_mem_take (List.mem_of_mem_drop hdt))
  have z3 : dt ≤ dx * cfl := z2 rfl
  have y1 : 0 ≤ dt / dx := div_nonneg (htol.le.trans z1) hdx.le
  have y2 : dt / dx ≤ cfl := by rw [div_le_iff₀ hdx]; linarith
  exact (pow_le_pow_left₀ y1 y2 2).trans h3

omit hn hbc in
theorem growth_prod {T g} (hT : WaveGrowth T g) (hdx : 0 < dx) (cfl : ℝ) (hg : 1 ≤ g cfl) (steps : List ℝ)
    (hs : ∀ (j : ℕ) (_ : j + 1 < steps.length), steps[j] = dx * cfl) (q : ℕ) (hq : q + 1 ≤ steps.length) :
    8 / 9 * g cfl ^ q ≤ (steps.map fun dt => g (dt / dx)).prod := by
  have low : ∀ ν, 8 / 9 ≤ g ν := by
    intro ν
    cases hT with
    | euler => nlinarith [sq_nonneg ν]
    | heun => nlinarith [sq_nonneg (ν ^ 2)]
    | ssp3 =>
      beta_reduce
      have : 1 - ν ^ 4 / 12 + ν ^ 6 / 36 - 8 / 9 = (ν ^ 2 - 2) ^ 2 * (ν ^ 2 + 1) / 36 := by ring
      have p : 0 ≤ (ν ^ 2 - 2) ^ 2 * (ν ^ 2 + 1) / 36 := by positivity
      linarith
  have ν : dx * cfl / dx = cfl := by field_simp
  induction steps generalizing q with
  | nil => simp at hq
  | cons dt steps ih =>
    rw [List.map_cons, List.prod_cons]
    cases steps with
    | nil =>
      have : q = 0 := by simpa using hq
      subst this
      simpa using low _
    | cons dt' steps =>
      rw [show dt = dx * cfl from hs 0 (by simp), ν]
      have hs' : ∀ (j : ℕ) (_ : j + 1 < (dt' :: steps).length), (dt' :: steps)[j] = dx * cfl := fun j hj =>
        hs (j + 1) (by simpa using hj)
      cases q with
      | zero =>
        have := ih hs' 0 (by simp)
        rw [pow_zero] at *
        nlinarith
      | succ q =>
        have := ih hs' q (by simpa using hq)
        rw [pow_succ']
        nlinarith

/-- C120.  When the number of cells is a multiple of four, the run from the values `1, 0, -1, 0, 1, ...` ends with
at least `8/9 · growth ^ q` times the initial energy, for every `q` such that `q` time steps fit into the duration,
if the growth factor is at least one: with the first and the second order integrator for every CFL number, with
the third order one for those beyond the square root of three.  For fixed CFL number and duration this is
exponential in the number of cells. -/
theorem C120_unstable (hdx : 0 < dx) {T g} (hT : WaveGrowth T g) (h4 : 4 ∣ n) (cfl t0 t1 : ℝ)
    (hstep : 1 / 10 ^ 12 ≤ dx * cfl) (hdur : 1 / 10 ^ 12 ≤ t1 - t0) (q : ℕ)
    (hq : q * (dx * cfl) + 1 / 10 ^ 12 ≤ t1 - t0) (hg : T = ssp3 ℝ → 3 ≤ cfl ^ 2) :
    let P := EndToEnd.fvParams n T (rhs (central ℝ Problem.advection.riemann.flux) dx bc) dx cfl t0 t1
    let run := Verif.Solver.solve P (Obj.make P ⟨fourWave n, t0, t1⟩)
    1 ≤ g cfl ∧ (∑ c, fourWave n c ^ 2 : ℝ) = n / 2 ∧
    ∀ k, (run k).2 = .finished →
      8 / 9 * g cfl ^ q * ∑ c, fourWave n c ^ 2 ≤ ∑ c, (run k).1.sol.sol.value c ^ 2 := by
  intro P run
  have hf := rhs_central hn wall il ir bc hbc dx hdx.ne'
  have one : 1 ≤ g cfl := by
    cases hT with
    | euler => nlinarith [sq_nonneg cfl]
    | heun => nlinarith [sq_nonneg (cfl ^ 2)]
    | ssp3 => nlinarith [mul_nonneg (sq_nonneg (cfl ^ 2)) (sub_nonneg.mpr (hg rfl))]
  refine ⟨one, ?_, ?_⟩
  · obtain ⟨m, rfl⟩ := h4
    have e : (∑ c, fourWave (4 * m) c ^ 2 : ℝ) =
        ∑ c ∈ Finset.range (4 * m), (if c % 4 = 0 then (1 : ℝ) else if c % 4 = 2 then -1 else 0) ^ 2 := by
      rw [Finset.sum_range]; rfl
    rw [e]
    clear * -
    induction m with
    | zero => simp
    | succ m ih =>
      rw [show 4 * (m + 1) = 4 * m + 1 + 1 + 1 + 1 by ring, Finset.sum_range_succ, Finset.sum_range_succ,
        Finset.sum_range_succ, Finset.sum_range_succ, ih]
      have h0 : (4 * m) % 4 = 0 := by omega
      have h1 : (4 * m + 1) % 4 = 1 := by omega
      have h2 : (4 * m + 1 + 1) % 4 = 2 := by omega
      have h3 : (4 * m + 1 + 1 + 1) % 4 = 3 := by omega
      rw [h0, h1, h2, h3]
      push_cast
      norm_num
      ring
  intro k hk
  obtain ⟨steps, z1, z2, z3, z4, z5, z6, z7⟩ := linear_steps T _ (centralOp dx) hf dx cfl t0 t1 hstep hdur (fourWave n) k
  obtain ⟨S', e1, e2⟩ := C120_attained hn wall il ir bc hbc dx hdx hT h4 steps t0
  have hS : S' = (run k).1.ode := Except.ok.inj (e1.symm.trans z3)
  rw [show (run k).1.sol.sol.value = S'.solution by rw [hS]; exact z4, e2]
  apply mul_le_mul_of_nonneg_right _ (by positivity)
  refine growth_prod (n := n) dx hT hdx cfl one steps z2 q ?_
  by_contra hlt
  have hlen : steps.length ≤ q := by omega
  have hsum : steps.sum ≤ steps.length * (dx * cfl) := by
    rw [← nsmul_eq_mul]
    exact List.sum_le_card_nsmul _ _ fun x hx => (z1 x hx).2
  have hfin := z7 hk
  have hc : 0 ≤ dx * cfl := le_trans (by positivity) hstep
  have : (steps.length : ℝ) * (dx * cfl) ≤ q * (dx * cfl) :=
    mul_le_mul_of_nonneg_right (by exact_mod_cast hlen) hc
  linarith

end Scheme

/-! ### Concrete cases -/

/-- With the default integrator and CFL number one on the unit interval with 12 cells until time 1, the energy at
the end is more than ten times the initial energy, which is not zero. -/
example : ∃ bc : BC ℝ ℝ, build none ["periodic"] 1 none none = .ok bc ∧
    let P := EndToEnd.fvParams 12 (heun ℝ) (rhs (central ℝ Problem.advection.riemann.flux) (1 / 12) bc)
      (1 / 12) 1 0 1
    let run := Verif.Solver.solve P (Obj.make P ⟨fourWave 12, 0, 1⟩)
    0 < ∑ c, fourWave 12 c ^ 2 ∧
    ∃ k, (run k).2 = .finished ∧ 10 * ∑ c, fourWave 12 c ^ 2 < ∑ c, (run k).1.sol.sol.value c ^ 2 := by
  obtain ⟨bc, hbc⟩ : ∃ bc : BC ℝ ℝ, build none ["periodic"] 1 none none = .ok bc := ⟨_, rfl⟩
  refine ⟨bc, hbc, ?_⟩
  intro P run
  have r := C120_solve (n := 12) (by norm_num) none none none bc hbc (1 / 12) (by norm_num) .heun 1 0 1
    (by norm_num) (by norm_num) (fourWave 12)
  obtain ⟨-, e1, e2⟩ := C120_unstable (n := 12) (by norm_num) none none none bc hbc (1 / 12) (by norm_num) .heun
    (by norm_num) 1 0 1 (by norm_num) (by norm_num) 11 (by norm_num)
    (fun h => absurd (congrArg Tableau.size h) (by simp [heun, ssp3]))
  obtain ⟨k, hk⟩ : ∃ k, (run k).2 = .finished := ⟨_, r.1 12 (by norm_num)⟩
  have e3 := e2 k hk
  have pos : (0 : ℝ) < ∑ c, fourWave 12 c ^ 2 := by rw [e1]; norm_num
  refine ⟨pos, k, hk, lt_of_lt_of_le ?_ e3⟩
  exact mul_lt_mul_of_pos_right (by norm_num) pos

/-- The energy of a step of each integrator on four cells with a time step of the cell width: the factors are
`2`, `5/4` and `17/18`. -/
example : ∃ bc : BC ℝ ℝ, build none ["periodic"] 1 none none = .ok bc ∧
    ∀ T g, WaveGrowth T g → ∃ S', (Solver.init (fourWave 4) 0).runE T
        (vecRhs 4 (rhs (central ℝ Problem.advection.riemann.flux) 1 bc)) [1] = .ok S' ∧
      ∑ i, S'.solution i ^ 2 = g 1 * 2 := by
  obtain ⟨bc, hbc⟩ : ∃ bc : BC ℝ ℝ, build none ["periodic"] 1 none none = .ok bc := ⟨_, rfl⟩
  refine ⟨bc, hbc, fun T g hT => ?_⟩
  obtain ⟨S', e1, e2⟩ := C120_attained (n := 4) (by norm_num) none none none bc hbc 1 one_pos hT (dvd_refl 4) [1] 0
  refine ⟨S', e1, ?_⟩
  rw [e2]
  simp [fourWave, Fin.sum_univ_four]
  norm_num

end Verif.FE
