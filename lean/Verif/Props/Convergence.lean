import Verif.Props.EndToEnd
import Verif.Props.SWEPositivity
import Verif.Props.Commands

/-!
C103: convergence of the Lax-Friedrichs solver for linear advection.
-/

set_option linter.unusedSectionVars false

namespace Verif.Convergence

open Verif.Py Verif.Boundary Verif.FV Verif.ODE Verif.Scalar

/-! ### Specification -/

/-- The values of `n` cells around a circle. -/
def around {n : ℕ} (u : Fin n → ℝ) (z : ℤ) : ℝ :=
  if h : (z % n).toNat < n then u ⟨(z % n).toNat, h⟩ else 0

/-- `w` is an average of shifted copies of `v`, with non-negative weights, mean shift `m` and variance
of the shifts at most `m`. -/
def Spread (m : ℝ) (v w : ℤ → ℝ) : Prop :=
  ∃ (ι : Type) (_ : Fintype ι) (c : ι → ℝ) (k : ι → ℕ), (∀ a, 0 ≤ c a) ∧ ∑ a, c a = 1 ∧
    ∑ a, c a * k a = m ∧ ∑ a, c a * (k a - m) ^ 2 ≤ m ∧ ∀ z, w z = ∑ a, c a * v (z - k a)

/-! ### Averages -/

theorem Spread.refl (v : ℤ → ℝ) : Spread 0 v v :=
  ⟨Unit, inferInstance, fun _ => 1, fun _ => 0, by simp, by simp, by simp, by simp, by simp⟩

theorem Spread.trans {m m' : ℝ} {v w x : ℤ → ℝ} (h : Spread m v w) (h' : Spread m' w x) :
    Spread (m + m') v x := by
  obtain ⟨ι, _, c, k, c0, c1, c2, c3, c4⟩ := h
  obtain ⟨κ, _, d, l, d0, d1, d2, d3, d4⟩ := h'
  have prod : ∀ (f : ι → ℝ) (g : κ → ℝ), ∑ p : κ × ι, g p.1 * f p.2 = (∑ b, g b) * ∑ a, f a := by
    intro f g
    rw [Fintype.sum_prod_type, Finset.sum_mul_sum]
  refine ⟨κ × ι, inferInstance, fun p => d p.1 * c p.2, fun p => l p.1 + k p.2, ?_, ?_, ?_, ?_, ?_⟩
  · exact fun p => mul_nonneg (d0 _) (c0 _)
  · rw [prod, c1, d1, one_mul]
  · calc ∑ p : κ × ι, d p.1 * c p.2 * ((l p.1 + k p.2 : ℕ) : ℝ) =
        ∑ p : κ × ι, (d p.1 * l p.1) * c p.2 + ∑ p : κ × ι, d p.1 * (c p.2 * k p.2) := by
          rw [← Finset.sum_add_distrib]
          apply Finset.sum_congr rfl
          intro p _
          push_cast; ring
      _ = m + m' := by
          rw [prod c fun b => d b * l b, prod (fun a => c a * k a) d, c1, c2, d1, d2]; ring
  · calc ∑ p : κ × ι, d p.1 * c p.2 * (((l p.1 + k p.2 : ℕ) : ℝ) - (m + m')) ^ 2 =
        ∑ p : κ × ι, (d p.1 * (l p.1 - m') ^ 2) * c p.2 + ∑ p : κ × ι, d p.1 * (c p.2 * (k p.2 - m) ^ 2)
          + 2 * ∑ p : κ × ι, (d p.1 * l p.1 - m' * d p.1) * (c p.2 * k p.2 - m * c p.2) := by
          rw [Finset.mul_sum, ← Finset.sum_add_distrib, ← Finset.sum_add_distrib]
          apply Finset.sum_congr rfl
          intro p _
          push_cast; ring
      _ = (∑ b, d b * (l b - m') ^ 2) + ∑ a, c a * (k a - m) ^ 2 := by
          rw [prod c fun b => d b * (l b - m') ^ 2, prod (fun a => c a * (k a - m) ^ 2) d,
            prod (fun a => c a * k a - m * c a) fun b => d b * l b - m' * d b, c1, d1,
            Finset.sum_sub_distrib, ← Finset.mul_sum, d1, d2]
          ring
      _ ≤ m + m' := by linarith
  · intro z
    rw [d4, Fintype.sum_prod_type]
    apply Finset.sum_congr rfl
    intro b _
    rw [c4, Finset.mul_sum]
    apply Finset.sum_congr rfl
    intro a _
    push_cast
    rw [mul_assoc, sub_sub]

/-! ### The scheme -/

variable {n : ℕ}

theorem around_cell (u : Fin n → ℝ) (i : Fin n) : around u i = u i := by
  unfold around
  have : ((i : ℤ) % n).toNat = i := by
    rw [Int.emod_eq_of_lt (by omega) (by have := i.2; omega)]; simp
  simp [this]

theorem around_periodic (u : Fin n → ℝ) (z : ℤ) : around u (z + n) = around u z := by
  unfold around
  simp only [Int.add_emod_right]

/-- Every position is a cell. -/
theorem around_exists (hn : 0 < n) (z : ℤ) : ∃ (i : Fin n) (q : ℤ), z = i + q * n := by
  have h1 := Int.emod_nonneg z (by omega : (n : ℤ) ≠ 0)
  have h2 := Int.emod_lt_of_pos z (by omega : (0 : ℤ) < n)
  refine ⟨⟨(z % n).toNat, by omega⟩, z / n, ?_⟩
  have := Int.emod_add_mul_ediv z n
  simp only [Int.toNat_of_nonneg h1]
  linarith [mul_comm (n : ℤ) (z / n)]

theorem around_shift (u : Fin n → ℝ) (z q : ℤ) : around u (z + q * n) = around u z := by
  unfold around
  simp only [Int.add_mul_emod_self_right]

theorem around_add (u v : Fin n → ℝ) (z : ℤ) : around (u + v) z = around u z + around v z := by
  unfold around
  split <;> simp

theorem around_smul (a : ℝ) (u : Fin n → ℝ) (z : ℤ) : around (a • u) z = a * around u z := by
  unfold around
  split <;> simp

/-- The right-hand side of the Lax-Friedrichs scheme for linear advection: upwind differences. -/
noncomputable def upwind (dx : ℝ) (u : Fin n → ℝ) (i : Fin n) : ℝ := (1 / dx) * (around u (i - 1) - u i)

theorem around_upwind (hn : 0 < n) (dx : ℝ) (u : Fin n → ℝ) (z : ℤ) :
    around (upwind dx u) z = (1 / dx) * (around u (z - 1) - around u z) := by
  obtain ⟨i, q, rfl⟩ := around_exists hn z
  rw [around_shift, around_shift, around_cell, around_cell, upwind,
    show (i : ℤ) + q * n - 1 = (i - 1) + q * n by ring, around_shift]

theorem rhs_upwind (hn : 0 < n) (wall : Option (ℝ → ℝ)) (il ir : Option (ℝ → ℝ)) (bc : BC ℝ ℝ)
    (hbc : build wall ["periodic"] 1 il ir = .ok bc) (dx : ℝ) (hdx : dx ≠ 0) (t : ℝ) (u : Fin n → ℝ) :
    vecRhs n (rhs (laxFriedrichs Problem.advection.riemann) dx bc) t u = .ok (upwind dx u) := by
  have hext := periodic_extend wall 1 il ir bc hbc (List.ofFn u)
    (by simpa using Nat.succ_le_of_lt hn) (some t)
  have hl := lf_rhs Problem.advection dx hdx bc t (List.ofFn u) _ hext n (by simp) (by
    intro j _
    simp [Problem.speed, Problem.waveSpeed, Problem.fluxPrime])
  rw [SWE.vecRhs_range _ t u _ hl]
  congr 1
  funext i
  have hi := i.2
  have flux : ∀ x y : ℝ, lfFlux Problem.advection x y = x := by
    intro x y
    unfold lfFlux llf
    simp only [Problem.flux, Problem.speed, Problem.waveSpeed, Problem.fluxPrime, max_self]
    ring
  have g : ∀ j, j < n + 2 → ((List.range ((List.ofFn u).length + 2 * 1)).map
      (fun i => (List.ofFn u).getD ((i + (List.ofFn u).length - 1) % (List.ofFn u).length) 0)).getD j 0 =
      around u (j - 1) := by
    intro j hj
    rw [List.getD_eq_getElem _ _ (by simpa using hj)]
    simp only [List.length_ofFn, List.getElem_map, List.getElem_range]
    unfold around
    have e : (((j : ℤ) - 1) % n).toNat = (j + n - 1) % n := by
      rw [← Int.add_emod_right]
      have : (j : ℤ) - 1 + n = ((j + n - 1 : ℕ) : ℤ) := by omega
      rw [this, ← Int.natCast_mod, Int.toNat_natCast]
    have hlt : (j + n - 1) % n < n := Nat.mod_lt _ hn
    simp only [e, dif_pos hlt]
    rw [List.getD_eq_getElem _ _ (by simpa using hlt)]
    simp
  rw [flux, flux, g i (by omega), g (i + 1) (by omega), upwind]
  congr 2
  push_cast
  rw [add_sub_cancel_right, around_cell]

/-- One step of forward Euler, Heun or SSP3. -/
theorem step_spread (hn : 0 < n) (f : ℝ → (Fin n → ℝ) → Except Error (Fin n → ℝ)) (dx : ℝ) (hdx : 0 < dx)
    (hf : ∀ t u, f t u = .ok (upwind dx u)) (T : Tableau ℝ)
    (hT : T = forwardEuler ℝ ∨ T = heun ℝ ∨ T = ssp3 ℝ) (dt : ℝ) (h0 : 0 ≤ dt) (h1 : dt ≤ dx)
    (s : Solver ℝ (Fin n → ℝ)) :
    Spread (dt / dx) (around s.solution) (around (s.execute T (totalise f) dt).solution) := by
  have hf' : ∀ t u, totalise f t u = upwind dx u := by
    intro t u
    unfold totalise
    rw [hf]
  set ν := dt / dx with hν
  have n0 : 0 ≤ ν := div_nonneg h0 hdx.le
  have n1 : ν ≤ 1 := (div_le_one hdx).mpr h1
  have hdt : dt * (1 / dx) = ν := by rw [hν]; ring
  have m0 : 0 ≤ 1 - ν := by linarith
  set u := s.solution with hu
  rcases hT with rfl | rfl | rfl
  · refine ⟨Fin 2, inferInstance, ![1 - ν, ν], ![0, 1], ?_, ?_, ?_, ?_, ?_⟩
    · intro a; fin_cases a <;> simp <;> assumption
    · simp [Fin.sum_univ_two]
    · simp [Fin.sum_univ_two]
    · simp [Fin.sum_univ_two]; nlinarith [mul_nonneg n0 n0]
    · intro z
      rw [execute_forwardEuler, hf', around_add, around_smul, around_upwind hn, ← mul_assoc, hdt]
      simp [Fin.sum_univ_two]
      ring
  · refine ⟨Fin 3, inferInstance, ![1 / 2 + (1 - ν) ^ 2 / 2, ν * (1 - ν), ν ^ 2 / 2], ![0, 1, 2],
      ?_, ?_, ?_, ?_, ?_⟩
    · intro a; fin_cases a <;> simp <;> positivity
    · simp [Fin.sum_univ_three]; ring
    · simp [Fin.sum_univ_three]; ring
    · simp [Fin.sum_univ_three]; apply le_of_eq; ring
    · intro z
      rw [execute_heun]
      simp only [hf', ← hu]
      simp only [around_add, around_smul, around_upwind hn]
      have e2 : z - 1 - 1 = z - 2 := by ring
      simp only [e2, Fin.sum_univ_three, Matrix.cons_val_zero, Matrix.cons_val_one, Matrix.cons_val,
        Nat.cast_zero, Nat.cast_one, Nat.cast_ofNat, sub_zero, ← hdt]
      ring
  · refine ⟨Fin 4, inferInstance, ![1 / 3 + (1 - ν) / 2 + (1 - ν) ^ 3 / 6, ν / 2 + ν * (1 - ν) ^ 2 / 2,
      ν ^ 2 * (1 - ν) / 2, ν ^ 3 / 6], ![0, 1, 2, 3], ?_, ?_, ?_, ?_, ?_⟩
    · intro a; fin_cases a <;> simp <;> positivity
    · simp [Fin.sum_univ_four]; ring
    · simp [Fin.sum_univ_four]; ring
    · simp [Fin.sum_univ_four]; apply le_of_eq; ring
    · intro z
      rw [execute_ssp3]
      simp only [hf', ← hu]
      simp only [around_add, around_smul, around_upwind hn]
      have e2 : z - 1 - 1 = z - 2 := by ring
      have e3 : z - 2 - 1 = z - 3 := by ring
      simp only [e2, e3, Fin.sum_univ_four, Matrix.cons_val_zero, Matrix.cons_val_one, Matrix.cons_val,
        Nat.cast_zero, Nat.cast_one, Nat.cast_ofNat, sub_zero, ← hdt]
      ring

/-- C103.  A run of the Lax-Friedrichs solver for linear advection on a periodic mesh with steps of at
most one cell width averages shifted initial values: weights are non-negative with sum 1, the mean of
the shifts is the time over the cell width (the solution is transported with speed 1), and their variance
is at most as large (the smearing). -/
theorem C103_average (hn : 0 < n) (wall : Option (ℝ → ℝ)) (il ir : Option (ℝ → ℝ)) (bc : BC ℝ ℝ)
    (hbc : build wall ["periodic"] 1 il ir = .ok bc) (dx : ℝ) (hdx : 0 < dx) (T : Tableau ℝ)
    (hT : T = forwardEuler ℝ ∨ T = heun ℝ ∨ T = ssp3 ℝ) (steps : List ℝ)
    (hsteps : ∀ dt ∈ steps, 0 ≤ dt ∧ dt ≤ dx) (s : Solver ℝ (Fin n → ℝ)) :
    ∃ s', s.runE T (vecRhs n (rhs (laxFriedrichs Problem.advection.riemann) dx bc)) steps = .ok s' ∧
      s'.time = s.time + steps.sum ∧
      Spread (steps.sum / dx) (around s.solution) (around s'.solution) := by
  set f := vecRhs n (rhs (laxFriedrichs Problem.advection.riemann) dx bc) with hf0
  have hf : ∀ t u, f t u = .ok (upwind dx u) := fun t u => rhs_upwind hn wall il ir bc hbc dx hdx.ne' t u
  induction steps generalizing s with
  | nil => exact ⟨s, rfl, by simp, by simpa using Spread.refl _⟩
  | cons dt steps ih =>
    have h1 := executeE_ok T f s dt (fun i _ => ⟨_, hf _ _⟩)
    obtain ⟨d0, d1⟩ := hsteps dt List.mem_cons_self
    have h2 := step_spread hn f dx hdx hf T hT dt d0 d1 s
    obtain ⟨s', g1, g2, g3⟩ := ih (fun d hd => hsteps d (List.mem_cons_of_mem _ hd))
      (s.execute T (totalise f) dt)
    refine ⟨s', ?_, ?_, ?_⟩
    · simp only [Solver.runE, h1, g1]
    · rw [g2]; simp only [Solver.execute, List.sum_cons]; ring
    · rw [List.sum_cons, add_div]
      exact h2.trans g3

/-! ### Errors of averages -/

/-- The mean deviation of the shifts from `r` is at most the root of the variance plus the distance of
`r` from the mean. -/
theorem deviation {ι : Type} [Fintype ι] (c : ι → ℝ) (k : ι → ℕ) (m r : ℝ) (h0 : ∀ a, 0 ≤ c a)
    (h1 : ∑ a, c a = 1) (h3 : ∑ a, c a * (k a - m) ^ 2 ≤ m) :
    ∑ a, c a * |(k a : ℝ) - r| ≤ Real.sqrt m + |m - r| := by
  have cs := Finset.sum_mul_sq_le_sq_mul_sq Finset.univ (fun a => Real.sqrt (c a))
    (fun a => Real.sqrt (c a) * |(k a : ℝ) - m|)
  have e1 : ∀ a, Real.sqrt (c a) * (Real.sqrt (c a) * |(k a : ℝ) - m|) = c a * |(k a : ℝ) - m| := by
    intro a
    rw [← mul_assoc, Real.mul_self_sqrt (h0 a)]
  have e2 : ∀ a, Real.sqrt (c a) ^ 2 = c a := fun a => Real.sq_sqrt (h0 a)
  have e3 : ∀ a, (Real.sqrt (c a) * |(k a : ℝ) - m|) ^ 2 = c a * (k a - m) ^ 2 := by
    intro a
    rw [mul_pow, e2, sq_abs]
  simp only [e1, e2, e3, h1, one_mul] at cs
  have hr : ∑ a, c a * |(k a : ℝ) - m| ≤ Real.sqrt m := by
    apply Real.le_sqrt_of_sq_le
    exact cs.trans h3
  calc ∑ a, c a * |(k a : ℝ) - r| ≤ ∑ a, (c a * |(k a : ℝ) - m| + |m - r| * c a) := by
        apply Finset.sum_le_sum
        intro a _
        have := abs_sub_le (k a : ℝ) m r
        nlinarith [h0 a]
    _ = ∑ a, c a * |(k a : ℝ) - m| + |m - r| := by
        rw [Finset.sum_add_distrib, ← Finset.mul_sum, h1, mul_one]
    _ ≤ _ := by linarith

theorem spread_error {m : ℝ} {v w : ℤ → ℝ} (h : Spread m v w) (g : ℕ → ℤ → ℝ) (y : ℤ → ℝ)
    (hg : ∀ (k : ℕ) (z : ℤ), |v (z - k) - y z| ≤ g k z) (z : ℤ) :
    ∃ (ι : Type) (_ : Fintype ι) (c : ι → ℝ) (k : ι → ℕ), (∀ a, 0 ≤ c a) ∧ ∑ a, c a = 1 ∧
      ∑ a, c a * (k a - m) ^ 2 ≤ m ∧ |w z - y z| ≤ ∑ a, c a * g (k a) z := by
  obtain ⟨ι, _, c, k, c0, c1, -, c3, c4⟩ := h
  refine ⟨ι, inferInstance, c, k, c0, c1, c3, ?_⟩
  have : w z - y z = ∑ a, c a * (v (z - k a) - y z) := by
    rw [c4]
    simp only [mul_sub, Finset.sum_sub_distrib, ← Finset.sum_mul, c1, one_mul]
  rw [this]
  refine (Finset.abs_sum_le_sum_abs _ _).trans (Finset.sum_le_sum fun a _ => ?_)
  rw [abs_mul, abs_of_nonneg (c0 a)]
  exact mul_le_mul_of_nonneg_left (hg _ _) (c0 a)

/-- Lipschitz continuous data. -/
theorem spread_lipschitz {m : ℝ} {v w : ℤ → ℝ} (h : Spread m v w) (A : ℝ → ℝ) (L x₀ dx τ : ℝ)
    (hL : 0 ≤ L) (hdx : 0 < dx) (hA : ∀ x y, |A x - A y| ≤ L * |x - y|) (hv : ∀ z : ℤ, v z = A (x₀ + z * dx))
    (z : ℤ) : |w z - A (x₀ + z * dx - τ)| ≤ L * (dx * Real.sqrt m + |m * dx - τ|) := by
  obtain ⟨ι, _, c, k, c0, c1, c3, hw⟩ := spread_error h (fun k _ => L * dx * |(k : ℝ) - τ / dx|)
    (fun z => A (x₀ + z * dx - τ)) (by
      intro k z
      rw [hv]
      refine (hA _ _).trans (le_of_eq ?_)
      have : x₀ + ((z - k : ℤ) : ℝ) * dx - (x₀ + z * dx - τ) = -(dx * ((k : ℝ) - τ / dx)) := by
        push_cast; field_simp; ring
      rw [this, abs_neg, abs_mul, abs_of_pos hdx, mul_assoc]) z
  refine hw.trans ?_
  have e : ∀ a, c a * (L * dx * |(k a : ℝ) - τ / dx|) = L * dx * (c a * |(k a : ℝ) - τ / dx|) :=
    fun a => by ring
  simp only [e, ← Finset.mul_sum]
  have d := deviation c k m (τ / dx) c0 c1 c3
  have e2 : |m * dx - τ| = dx * |m - τ / dx| := by
    rw [← abs_of_pos hdx, ← abs_mul, abs_of_pos hdx]; congr 1; field_simp
  rw [e2, ← mul_add, mul_assoc]
  exact mul_le_mul_of_nonneg_left (mul_le_mul_of_nonneg_left d hdx.le) hL

/-- Differentiable data whose derivative is Lipschitz continuous (`D` is the derivative). -/
theorem spread_smooth {m : ℝ} {v w : ℤ → ℝ} (h : Spread m v w) (A D : ℝ → ℝ) (M x₀ dx : ℝ)
    (hA : ∀ x y, |A y - A x - D x * (y - x)| ≤ M / 2 * (y - x) ^ 2)
    (hM : 0 ≤ M) (hv : ∀ z : ℤ, v z = A (x₀ + z * dx)) (z : ℤ) :
    |w z - A (x₀ + z * dx - m * dx)| ≤ M / 2 * dx ^ 2 * m := by
  obtain ⟨ι, _, c, k, c0, c1, c2, c3, c4⟩ := h
  set x := x₀ + z * dx - m * dx with hx
  have e1 : w z - A x = ∑ a, c a * (A (x₀ + ((z - k a : ℤ) : ℝ) * dx) - A x -
      D x * (x₀ + ((z - k a : ℤ) : ℝ) * dx - x)) := by
    have e2 : ∀ a, c a * (A (x₀ + ((z - k a : ℤ) : ℝ) * dx) - A x -
        D x * (x₀ + ((z - k a : ℤ) : ℝ) * dx - x)) = c a * v (z - k a) - A x * c a -
          D x * dx * (m * c a - c a * k a) := by
      intro a
      rw [hv, hx]; push_cast; ring
    simp only [e2, Finset.sum_sub_distrib, ← Finset.mul_sum, c1, c2, ← c4]
    ring
  rw [e1]
  calc |∑ a, c a * (A (x₀ + ((z - k a : ℤ) : ℝ) * dx) - A x - D x * (x₀ + ((z - k a : ℤ) : ℝ) * dx - x))|
      ≤ ∑ a, c a * (M / 2 * (dx * (m - k a)) ^ 2) := by
        refine (Finset.abs_sum_le_sum_abs _ _).trans (Finset.sum_le_sum fun a _ => ?_)
        rw [abs_mul, abs_of_nonneg (c0 a)]
        refine mul_le_mul_of_nonneg_left ((hA _ _).trans (le_of_eq ?_)) (c0 a)
        rw [hx]; push_cast; ring
    _ = M / 2 * dx ^ 2 * ∑ a, c a * (k a - m) ^ 2 := by
        rw [Finset.mul_sum]
        exact Finset.sum_congr rfl fun a _ => by ring
    _ ≤ _ := mul_le_mul_of_nonneg_left c3 (by positivity)

/-- `G` majorises the variation of `A`, and increases by `V` over each period `P`: `A` has total
variation at most `V` over a period. -/
structure Majorant (A G : ℝ → ℝ) (P V : ℝ) : Prop where
  bound : ∀ x y, x ≤ y → |A y - A x| ≤ G y - G x
  period : ∀ x, G (x + P) = G x + V

theorem Majorant.mono {A G : ℝ → ℝ} {P V : ℝ} (h : Majorant A G P V) : Monotone G := fun x y hxy => by
  linarith [h.bound x y hxy, abs_nonneg (A y - A x)]

theorem Majorant.sum_step {A G : ℝ → ℝ} {n : ℕ} {dx V : ℝ} (h : Majorant A G (n * dx) V) (x : ℝ) (l : ℕ) :
    ∑ z ∈ Finset.range n, (G (x + z * dx + l * dx) - G (x + z * dx)) = l * V := by
  induction l with
  | zero => simp
  | succ l ih =>
    have e : ∑ z ∈ Finset.range n, (G (x + z * dx + (l + 1 : ℕ) * dx) - G (x + z * dx)) =
        ∑ z ∈ Finset.range n, (G (x + z * dx + l * dx) - G (x + z * dx)) +
        ∑ z ∈ Finset.range n, (G (x + l * dx + (z + 1 : ℕ) * dx) - G (x + l * dx + (z : ℕ) * dx)) := by
      rw [← Finset.sum_add_distrib]
      apply Finset.sum_congr rfl
      intro z _
      rw [show x + z * dx + (l + 1 : ℕ) * dx = x + l * dx + (z + 1 : ℕ) * dx by push_cast; ring,
        show x + l * dx + z * dx = x + z * dx + l * dx by ring]
      ring
    rw [e, ih, Finset.sum_range_sub (fun z : ℕ => G (x + l * dx + z * dx)), h.period]
    push_cast; ring

/-- Samples at distance at most `r` cells. -/
theorem Majorant.sum_abs {A G : ℝ → ℝ} {n : ℕ} {dx V : ℝ} (h : Majorant A G (n * dx) V) (hdx : 0 < dx)
    (x y : ℝ) :
    ∑ z ∈ Finset.range n, |A (x + z * dx) - A (y + z * dx)| ≤ (|x - y| / dx + 1) * V := by
  wlog hxy : y ≤ x generalizing x y
  · rw [abs_sub_comm x y]
    refine le_trans (le_of_eq (Finset.sum_congr rfl fun z _ => abs_sub_comm _ _)) (this y x (by linarith))
  have hV : 0 ≤ V := by
    have := h.period 0
    have h2 := h.mono (show (0 : ℝ) ≤ 0 + n * dx by positivity)
    linarith
  set q := ⌈(x - y) / dx⌉₊ with hq
  have q1 : x - y ≤ q * dx := by
    have := Nat.le_ceil ((x - y) / dx)
    rwa [div_le_iff₀ hdx] at this
  have q2 : (q : ℝ) ≤ (x - y) / dx + 1 :=
    (Nat.ceil_lt_add_one (div_nonneg (by linarith) hdx.le)).le
  rw [abs_of_nonneg (by linarith : 0 ≤ x - y)]
  calc ∑ z ∈ Finset.range n, |A (x + z * dx) - A (y + z * dx)|
      ≤ ∑ z ∈ Finset.range n, (G (y + z * dx + q * dx) - G (y + z * dx)) := by
        apply Finset.sum_le_sum
        intro z _
        have a1 := h.bound (y + z * dx) (x + z * dx) (by linarith)
        have a2 := h.mono (show x + z * dx ≤ y + z * dx + q * dx by linarith)
        linarith
    _ = q * V := h.sum_step y q
    _ ≤ _ := mul_le_mul_of_nonneg_right q2 hV

/-- Data of bounded variation: the mean error. -/
theorem spread_variation {m : ℝ} {v w : ℤ → ℝ} (h : Spread m v w) (A G : ℝ → ℝ) (V x₀ dx τ : ℝ) (n : ℕ)
    (hdx : 0 < dx) (hA : Majorant A G (n * dx) V) (hv : ∀ z : ℤ, v z = A (x₀ + z * dx)) :
    ∑ z ∈ Finset.range n, |w z - A (x₀ + z * dx - τ)| ≤ V * (Real.sqrt m + |m - τ / dx| + 1) := by
  have hV : 0 ≤ V := by
    have := hA.period 0
    have h2 := hA.mono (show (0 : ℝ) ≤ 0 + n * dx by positivity)
    linarith
  obtain ⟨ι, _, c, k, c0, c1, -, c3, c4⟩ := h
  calc ∑ z ∈ Finset.range n, |w z - A (x₀ + z * dx - τ)|
      ≤ ∑ z ∈ Finset.range n, ∑ a, c a * |A (x₀ - k a * dx + z * dx) - A (x₀ - τ + z * dx)| := by
        apply Finset.sum_le_sum
        intro z _
        have e : w z - A (x₀ + z * dx - τ) =
            ∑ a, c a * (A (x₀ - k a * dx + z * dx) - A (x₀ - τ + z * dx)) := by
          rw [c4]
          simp only [mul_sub, Finset.sum_sub_distrib, ← Finset.sum_mul, c1, one_mul]
          congr 1
          · apply Finset.sum_congr rfl
            intro a _
            rw [hv]; congr 2; push_cast; ring
          · congr 1; ring
        rw [e]
        refine (Finset.abs_sum_le_sum_abs _ _).trans (Finset.sum_le_sum fun a _ => ?_)
        rw [abs_mul, abs_of_nonneg (c0 a)]
    _ = ∑ a, c a * ∑ z ∈ Finset.range n, |A (x₀ - k a * dx + z * dx) - A (x₀ - τ + z * dx)| := by
        rw [Finset.sum_comm]
        exact Finset.sum_congr rfl fun a _ => (Finset.mul_sum _ _ _).symm
    _ ≤ ∑ a, c a * ((|(k a : ℝ) - τ / dx| + 1) * V) := by
        apply Finset.sum_le_sum
        intro a _
        refine mul_le_mul_of_nonneg_left ((hA.sum_abs hdx _ _).trans (le_of_eq ?_)) (c0 a)
        congr 2
        rw [show x₀ - k a * dx - (x₀ - τ) = -(dx * (k a - τ / dx)) by field_simp; ring, abs_neg, abs_mul,
          abs_of_pos hdx]
        field_simp
    _ = V * (∑ a, c a * |(k a : ℝ) - τ / dx| + 1) := by
        have e : ∀ a, c a * ((|(k a : ℝ) - τ / dx| + 1) * V) =
          V * (c a * |(k a : ℝ) - τ / dx|) + V * c a := fun a => by ring
        simp only [e, Finset.sum_add_distrib, ← Finset.mul_sum, c1]
        ring
    _ ≤ _ := by
        have := deviation c k m (τ / dx) c0 c1 c3
        exact mul_le_mul_of_nonneg_left (by linarith) hV

end Verif.Convergence
