import Verif.Core.CGModes
import Verif.Props.CGAdvection
import Mathlib.Analysis.Complex.ExponentialBounds
import Mathlib.Analysis.Real.Pi.Bounds

/-!
C119: the error of the continuous Galerkin solver with linear elements and Heun's method (the defaults) for
linear advection, from trigonometric polynomials.
-/

set_option linter.unusedSectionVars false

namespace Verif.FE

open Verif.Py Verif.ODE Verif.Scalar Verif.Convergence Verif.Solver
open Verif.Interpolate Verif.Quadrature Verif.Bench
open Verif.Mesh hiding Error

/-- A trigonometric polynomial with period `L`. -/
noncomputable def trigonometric (L : ℝ) (Q : ℕ) (α β : ℕ → ℝ) (x : ℝ) : ℝ :=
  ∑ q ∈ Finset.range (Q + 1), (α q * Real.cos (2 * Real.pi * q / L * x) + β q * Real.sin (2 * Real.pi * q / L * x))

/-- What a wave with wave number `ω` and amplitude one contributes to the error after the time `S`, when time
steps are at most `H` and cells have the length `dx`. -/
noncomputable def waveError (ω dx H S : ℝ) : ℝ :=
  Real.exp (ω ^ 4 * H ^ 3 * S / 8) * (S * (ω ^ 3 * H ^ 2 / 6 + ω ^ 5 * dx ^ 4 / 60)) + ω ^ 2 * dx ^ 2 / 8

/-! ### Helper lemmas -/

theorem trigonometric_eq (L : ℝ) (Q : ℕ) (α β : ℕ → ℝ) (x : ℝ) :
    trigonometric L Q α β x = ∑ q ∈ Finset.range (Q + 1), wave (2 * Real.pi * q / L) ⟨α q, -β q⟩ x := by
  unfold trigonometric wave
  exact Finset.sum_congr rfl fun q _ => by ring

theorem wave_periodic (L : ℝ) (hL : L ≠ 0) (q : ℕ) (c : ℂ) (x : ℝ) :
    wave (2 * Real.pi * q / L) c (x + L) = wave (2 * Real.pi * q / L) c x := by
  unfold wave
  have e : 2 * Real.pi * q / L * (x + L) = 2 * Real.pi * q / L * x + q * (2 * Real.pi) := by
    field_simp
  rw [e, Real.cos_add_nat_mul_two_pi, Real.sin_add_nat_mul_two_pi]

theorem wave_stencil (ω dx : ℝ) (hdx : 0 < dx) (c : ℂ) (x : ℝ) :
    dx / 6 * (waveNumber (ω * dx) / dx * wave ω (-Complex.I * c) (x - dx) +
      4 * (waveNumber (ω * dx) / dx * wave ω (-Complex.I * c) x) +
      waveNumber (ω * dx) / dx * wave ω (-Complex.I * c) (x + dx)) = (wave ω c (x - dx) - wave ω c (x + dx)) / 2 := by
  have hc := Real.neg_one_le_cos (ω * dx)
  have hpos : 0 < 2 + Real.cos (ω * dx) := by linarith
  unfold wave waveNumber
  simp only [Complex.mul_re, Complex.mul_im, Complex.neg_re, Complex.neg_im, Complex.I_re, Complex.I_im]
  rw [show ω * (x - dx) = ω * x - ω * dx by ring, show ω * (x + dx) = ω * x + ω * dx by ring,
    Real.cos_sub, Real.sin_sub, Real.cos_add, Real.sin_add]
  generalize Real.cos (ω * dx) = C at *
  generalize Real.sin (ω * dx) = S at *
  field_simp
  ring

section Modes

variable {gauss : ℕ → List (ℝ × ℝ)} {d : Interval ℝ} {n : ℕ} {s : Space ℝ} {m : List ℝ} {C : SysMatrix ℝ}
  (h : Setup gauss d n 1 s m C) (solve : SysMatrix ℝ → List ℝ → Except Error (List ℝ)) (hsolve : Solves solve)
  (M : SysMatrix ℝ) (hM : massMatrix gauss s = .ok M) (exact : Bool)
include h hsolve hM

theorem wave_operator {B A} (hA : IsOperator gauss s M C n (cgRhs solve gauss s M C .advection exact) B A)
    (q : ℕ) (c : ℂ) :
    A (fun i : Fin n => wave (2 * Real.pi * q / (d.b - d.a)) c (d.a + i * ((d.b - d.a) / n))) =
      (waveNumber (2 * Real.pi * q / (d.b - d.a) * ((d.b - d.a) / n)) / ((d.b - d.a) / n)) •
        fun i : Fin n => wave (2 * Real.pi * q / (d.b - d.a)) (-Complex.I * c) (d.a + i * ((d.b - d.a) / n)) := by
  have hn := h.meshSize
  have hd := h.domain
  have hdx : 0 < (d.b - d.a) / n := div_pos (by linarith) (by exact_mod_cast hn)
  have hL : d.b - d.a ≠ 0 := by linarith
  apply operator_eq h hA
  intro z
  have a1 := around_nodes hd hn (wave (2 * Real.pi * q / (d.b - d.a)) c) (wave_periodic _ hL q c)
  have a2 := around_nodes hd hn (wave (2 * Real.pi * q / (d.b - d.a)) (-Complex.I * c)) (wave_periodic _ hL q _)
  simp only [around_smul, a1, a2]
  have := wave_stencil (2 * Real.pi * q / (d.b - d.a)) _ hdx c (d.a + z * ((d.b - d.a) / n))
  push_cast
  rw [show d.a + ((z : ℝ) - 1) * ((d.b - d.a) / n) = d.a + z * ((d.b - d.a) / n) - (d.b - d.a) / n by ring,
    show d.a + ((z : ℝ) + 1) * ((d.b - d.a) / n) = d.a + z * ((d.b - d.a) / n) + (d.b - d.a) / n by ring]
  exact this

theorem wave_step {B A} (hA : IsOperator gauss s M C n (cgRhs solve gauss s M C .advection exact) B A)
    (q : ℕ) (c : ℂ) (dt : ℝ) :
    heunMap A dt (fun i : Fin n => wave (2 * Real.pi * q / (d.b - d.a)) c (d.a + i * ((d.b - d.a) / n))) =
      fun i : Fin n => wave (2 * Real.pi * q / (d.b - d.a))
        (heunFactor (waveNumber (2 * Real.pi * q / (d.b - d.a) * ((d.b - d.a) / n)) / ((d.b - d.a) / n) * dt) * c)
        (d.a + i * ((d.b - d.a) / n)) := by
  rw [heunMap_apply]
  simp only [wave_operator h solve hsolve M hM exact hA, map_smul]
  funext i
  simp only [Pi.add_apply, Pi.smul_apply, smul_eq_mul, wave_heun]
  have e : -Complex.I * (-Complex.I * c) = -c := by
    linear_combination c * Complex.I_mul_I
  rw [e]
  have e2 : ∀ (ω x : ℝ), wave ω (-c) x = -wave ω c x := by
    intro ω x; unfold wave; rw [Complex.neg_re, Complex.neg_im]; ring
  rw [e2]
  ring

theorem waves_run {B A} (hA : IsOperator gauss s M C n (cgRhs solve gauss s M C .advection exact) B A)
    (F : Finset ℕ) (steps : List ℝ) (c : ℕ → ℂ) (S : Solver ℝ (Fin n → ℝ))
    (hS : S.solution = fun i : Fin n => ∑ q ∈ F, wave (2 * Real.pi * q / (d.b - d.a)) (c q)
      (d.a + i * ((d.b - d.a) / n))) :
    ∃ S', S.runE (heun ℝ) (vecRhs n fun _ => cgRhs solve gauss s M C .advection exact) steps = .ok S' ∧
      S'.solution = fun i : Fin n => ∑ q ∈ F, wave (2 * Real.pi * q / (d.b - d.a))
        ((steps.map fun dt => heunFactor (waveNumber (2 * Real.pi * q / (d.b - d.a) * ((d.b - d.a) / n)) /
          ((d.b - d.a) / n) * dt)).prod * c q) (d.a + i * ((d.b - d.a) / n)) := by
  induction steps generalizing c S with
  | nil => exact ⟨S, rfl, by simpa using hS⟩
  | cons dt steps ih =>
    obtain ⟨S1, e1, -, e2⟩ := linear_heun _ A hA.rhs S dt
    have e3 : S.solution = ∑ q ∈ F, fun i : Fin n => wave (2 * Real.pi * q / (d.b - d.a)) (c q)
        (d.a + i * ((d.b - d.a) / n)) := by
      rw [hS]; funext i; rw [Finset.sum_apply]
    rw [e3, map_sum] at e2
    simp only [wave_step h solve hsolve M hM exact hA] at e2
    obtain ⟨S', e4, e5⟩ := ih (fun q => heunFactor (waveNumber (2 * Real.pi * q / (d.b - d.a) * ((d.b - d.a) / n)) /
      ((d.b - d.a) / n) * dt) * c q) S1 (by rw [e2]; funext i; rw [Finset.sum_apply])
    refine ⟨S', ?_, ?_⟩
    · simp only [Solver.runE, e1]; exact e4
    · rw [e5]
      funext i
      refine Finset.sum_congr rfl fun q _ => ?_
      rw [List.map_cons, List.prod_cons]
      congr 1
      ring

/-- C119.  The error after a run with time steps of at most `H`, from the nodal values of a trigonometric
polynomial all of whose waves are resolved (`2 Q ≤ n`), everywhere in the domain.  (`τ` is the time at which the exact
solution is taken; the run has the time `steps.sum`.) -/
theorem C119_steps (Q : ℕ) (hQ : 2 * Q ≤ n) (α β : ℕ → ℝ) (H : ℝ) (steps : List ℝ)
    (hsteps : ∀ dt ∈ steps, 0 ≤ dt ∧ dt ≤ H) (t₀ τ : ℝ) :
    ∃ S' U, (Solver.init (fun i : Fin n => trigonometric (d.b - d.a) Q α β (d.a + i * ((d.b - d.a) / n)))
        t₀).runE (heun ℝ) (vecRhs n fun _ => cgRhs solve gauss s M C .advection exact) steps = .ok S' ∧
      Values s (List.ofFn S'.solution) U ∧
      ∀ (c : Fin n) (x : ℝ), InCell d n c x → |U c x - trigonometric (d.b - d.a) Q α β (x - τ)| ≤
        ∑ q ∈ Finset.range (Q + 1), Real.sqrt (α q ^ 2 + β q ^ 2) *
          (waveError (2 * Real.pi * q / (d.b - d.a)) ((d.b - d.a) / n) H steps.sum +
            2 * Real.pi * q / (d.b - d.a) * |steps.sum - τ|) := by
  obtain ⟨s1, s2, s3, s4⟩ := setup_facts h
  rw [mul_one] at s3
  have hn := h.meshSize
  have hd := h.domain
  have hn0 : (0 : ℝ) < n := by exact_mod_cast hn
  have hL : 0 < d.b - d.a := by linarith
  have hdx : 0 < (d.b - d.a) / n := div_pos hL hn0
  obtain ⟨B, A, hA⟩ := operator h solve hsolve M hM exact n s3
  obtain ⟨S', r1, r2⟩ := waves_run h solve hsolve M hM exact hA (Finset.range (Q + 1)) steps
    (fun q => ⟨α q, -β q⟩)
    (Solver.init (fun i : Fin n => trigonometric (d.b - d.a) Q α β (d.a + i * ((d.b - d.a) / n))) t₀) (by
      funext i; exact trigonometric_eq _ _ _ _ _)
  refine ⟨S', _, r1, linear_value h _, fun c x hx => ?_⟩
  set S := steps.sum with hSdef
  have hS0 : 0 ≤ S := List.sum_nonneg fun x hx => (hsteps x hx).1
  set ω : ℕ → ℝ := fun q => 2 * Real.pi * q / (d.b - d.a) with hω
  set k : ℕ → ℂ := fun q => ⟨α q, -β q⟩ with hk
  set P : ℕ → ℂ := fun q => (steps.map fun dt => heunFactor (waveNumber (ω q * ((d.b - d.a) / n)) /
      ((d.b - d.a) / n) * dt)).prod with hP
  have hω0 : ∀ q, 0 ≤ ω q := fun q => by
    have := Real.pi_pos
    positivity
  have hnorm : ∀ q, ‖k q‖ = Real.sqrt (α q ^ 2 + β q ^ 2) := by
    intro q
    rw [Complex.norm_def, Complex.normSq_apply]
    congr 1
    simp only [hk]
    ring
  have htrig : ∀ y, trigonometric (d.b - d.a) Q α β y = ∑ q ∈ Finset.range (Q + 1), wave (ω q) (k q) y :=
    fun y => trigonometric_eq _ _ _ _ _
  -- the nodes
  set δ : ℕ → ℝ := fun q => Real.exp (ω q ^ 4 * H ^ 3 * S / 8) *
    (S * (ω q ^ 3 * H ^ 2 / 6 + ω q ^ 5 * ((d.b - d.a) / n) ^ 4 / 60)) with hδ
  have hamp : ∀ q ∈ Finset.range (Q + 1), ‖P q - Complex.exp (-(Complex.I * ((ω q * S : ℝ) : ℂ)))‖ ≤ δ q := by
    intro q hq
    have hq' : q ≤ Q := by have := Finset.mem_range.mp hq; omega
    have t0 : 0 ≤ ω q * ((d.b - d.a) / n) := mul_nonneg (hω0 q) hdx.le
    have t1 : ω q * ((d.b - d.a) / n) ≤ Real.pi := by
      have e : ω q * ((d.b - d.a) / n) = Real.pi * (2 * q) / n := by
        simp only [hω]; field_simp
      rw [e, div_le_iff₀ hn0]
      apply mul_le_mul_of_nonneg_left _ Real.pi_pos.le
      exact_mod_cast (by omega : 2 * q ≤ n)
    obtain ⟨w1, w2, w3⟩ := waveNumber_bounds _ t0 t1
    have w4 : waveNumber (ω q * ((d.b - d.a) / n)) / ((d.b - d.a) / n) ≤ ω q := by
      rw [div_le_iff₀ hdx]; exact w2
    have w5 : |waveNumber (ω q * ((d.b - d.a) / n)) / ((d.b - d.a) / n) - ω q| ≤
        ω q ^ 5 * ((d.b - d.a) / n) ^ 4 / 60 := by
      have e : waveNumber (ω q * ((d.b - d.a) / n)) / ((d.b - d.a) / n) - ω q =
          (waveNumber (ω q * ((d.b - d.a) / n)) - ω q * ((d.b - d.a) / n)) / ((d.b - d.a) / n) := by
        generalize waveNumber (ω q * ((d.b - d.a) / n)) = w
        generalize (d.b - d.a) / (n : ℝ) = dx at hdx
        field_simp
      rw [e, abs_div, abs_of_pos hdx, div_le_iff₀ hdx]
      refine w3.trans (le_of_eq ?_)
      ring
    refine (heun_amplitude (ω q) _ H (div_nonneg w1 hdx.le) w4 steps hsteps).trans ?_
    apply mul_le_mul_of_nonneg_left _ (Real.exp_pos _).le
    apply mul_le_mul_of_nonneg_left _ hS0
    linarith
  have hnode : ∀ z : ℤ, |around S'.solution z - trigonometric (d.b - d.a) Q α β (d.a + z * ((d.b - d.a) / n) - S)| ≤
      ∑ q ∈ Finset.range (Q + 1), Real.sqrt (α q ^ 2 + β q ^ 2) * δ q := by
    intro z
    have e := around_nodes hd hn (fun y => ∑ q ∈ Finset.range (Q + 1), wave (ω q) (P q * k q) y) (by
      intro y
      exact Finset.sum_congr rfl fun q _ => wave_periodic _ hL.ne' q _ y) z
    rw [r2]
    refine le_trans (le_of_eq (congrArg abs (congrArg₂ (· - ·) e (htrig _)))) ?_
    rw [← Finset.sum_sub_distrib]
    refine (Finset.abs_sum_le_sum_abs _ _).trans (Finset.sum_le_sum fun q hq => ?_)
    rw [← wave_shift, wave_sub, ← sub_mul]
    refine (wave_le _ _ _).trans ?_
    rw [norm_mul, mul_comm, hnorm]
    exact mul_le_mul_of_nonneg_left (hamp q hq) (Real.sqrt_nonneg _)
  -- between the nodes
  set N : ℝ := ∑ q ∈ Finset.range (Q + 1), ω q ^ 2 * Real.sqrt (α q ^ 2 + β q ^ 2) with hN
  have hN0 : 0 ≤ N := Finset.sum_nonneg fun q _ => by positivity
  have hlip : ∀ y z, |∑ q ∈ Finset.range (Q + 1), wave (ω q) (Complex.I * ω q * k q) y -
      ∑ q ∈ Finset.range (Q + 1), wave (ω q) (Complex.I * ω q * k q) z| ≤ N * |y - z| := by
    intro y z
    rw [← Finset.sum_sub_distrib, hN, Finset.sum_mul]
    refine (Finset.abs_sum_le_sum_abs _ _).trans (Finset.sum_le_sum fun q hq => ?_)
    refine (wave_lipschitz (ω q) (hω0 q) _ y z).trans (le_of_eq ?_)
    rw [norm_mul, norm_mul, Complex.norm_I, one_mul, Complex.norm_of_nonneg (hω0 q), hnorm]
    ring
  have hder : ∀ y, HasDerivAt (trigonometric (d.b - d.a) Q α β)
      (∑ q ∈ Finset.range (Q + 1), wave (ω q) (Complex.I * ω q * k q) y) y := by
    intro y
    have := HasDerivAt.fun_sum (u := Finset.range (Q + 1)) (A := fun q => wave (ω q) (k q))
      (A' := fun q => wave (ω q) (Complex.I * ω q * k q) y) (x := y) fun q _ => wave_deriv (ω q) (k q) y
    rwa [show (fun y => ∑ q ∈ Finset.range (Q + 1), wave (ω q) (k q) y) = trigonometric (d.b - d.a) Q α β from
      funext fun y => (htrig y).symm] at this
  have htay := taylor_bound _ _ N hder hlip
  have e1 := value_error hd hn S'.solution (fun x => trigonometric (d.b - d.a) Q α β (x - S)) hx
  have e2 := interpolation_smooth hd hn (fun x => trigonometric (d.b - d.a) Q α β (x - S))
    (fun x => ∑ q ∈ Finset.range (Q + 1), wave (ω q) (Complex.I * ω q * k q) (x - S)) N hN0
    (fun x y => by
      have := htay (x - S) (y - S)
      rwa [sub_sub_sub_cancel_right] at this) hx
  obtain ⟨p0, p1, -⟩ := place_bounds hd hn hx
  have k0 := hnode (c : ℕ)
  have k1 := hnode ((c : ℕ) + 1)
  push_cast at k0 k1
  have j0 := mul_le_mul_of_nonneg_left k0 (by linarith : 0 ≤ 1 - place d n c x)
  have j1 := mul_le_mul_of_nonneg_left k1 p0
  have e4 : |trigonometric (d.b - d.a) Q α β (x - S) - trigonometric (d.b - d.a) Q α β (x - τ)| ≤
      ∑ q ∈ Finset.range (Q + 1), Real.sqrt (α q ^ 2 + β q ^ 2) * (ω q * |S - τ|) := by
    rw [htrig, htrig, ← Finset.sum_sub_distrib]
    refine (Finset.abs_sum_le_sum_abs _ _).trans (Finset.sum_le_sum fun q hq => ?_)
    refine (wave_lipschitz (ω q) (hω0 q) _ _ _).trans (le_of_eq ?_)
    rw [hnorm, show x - S - (x - τ) = -(S - τ) by ring, abs_neg]
    ring
  have e5 := abs_sub_le (linearValue d n S'.solution c x) (trigonometric (d.b - d.a) Q α β (x - S))
    (trigonometric (d.b - d.a) Q α β (x - τ))
  have e6 : ∑ q ∈ Finset.range (Q + 1), Real.sqrt (α q ^ 2 + β q ^ 2) *
      (waveError (ω q) ((d.b - d.a) / n) H S + ω q * |S - τ|) =
      (∑ q ∈ Finset.range (Q + 1), Real.sqrt (α q ^ 2 + β q ^ 2) * δ q) + N / 8 * ((d.b - d.a) / n) ^ 2 +
      ∑ q ∈ Finset.range (Q + 1), Real.sqrt (α q ^ 2 + β q ^ 2) * (ω q * |S - τ|) := by
    rw [hN, Finset.sum_div, Finset.sum_mul, ← Finset.sum_add_distrib, ← Finset.sum_add_distrib]
    refine Finset.sum_congr rfl fun q _ => ?_
    simp only [waveError, hδ]
    ring
  change _ ≤ ∑ q ∈ Finset.range (Q + 1), Real.sqrt (α q ^ 2 + β q ^ 2) *
      (waveError (ω q) ((d.b - d.a) / n) H S + ω q * |S - τ|)
  rw [e6]
  linarith

/-- C119.  The error at every moment of a run of the solver with default degree and integrator, from the nodal values
of a trigonometric polynomial.  (That the run raises nothing and ends is `C118_solve`.) -/
theorem C119_solve (Q : ℕ) (hQ : 2 * Q ≤ n) (α β : ℕ → ℝ) (cfl t0 t1 : ℝ)
    (hstep : 1 / 10 ^ 12 ≤ (d.b - d.a) / n * cfl) (hdur : 1 / 10 ^ 12 ≤ t1 - t0) (k : ℕ) (τ : ℝ) :
    let u : Fin n → ℝ := fun i => trigonometric (d.b - d.a) Q α β (d.a + i * ((d.b - d.a) / n))
    let P := cgParams n (heun ℝ) (cgRhs solve gauss s M C .advection exact) ((d.b - d.a) / n) cfl t0 t1
    let v := (Verif.Solver.solve P (Obj.make P ⟨u, t0, t1⟩) k).1.sol.sol
    0 ≤ v.time - t0 ∧ v.time ≤ t1 ∧
    ∃ U, Values s (List.ofFn v.value) U ∧
      ∀ (c : Fin n) (x : ℝ), InCell d n c x → |U c x - trigonometric (d.b - d.a) Q α β (x - τ)| ≤
        ∑ q ∈ Finset.range (Q + 1), Real.sqrt (α q ^ 2 + β q ^ 2) *
          (waveError (2 * Real.pi * q / (d.b - d.a)) ((d.b - d.a) / n) ((d.b - d.a) / n * cfl) (v.time - t0) +
            2 * Real.pi * q / (d.b - d.a) * |v.time - t0 - τ|) := by
  intro u P v
  obtain ⟨s1, s2, s3, s4⟩ := setup_facts h
  rw [mul_one] at s3
  obtain ⟨B, A, hA⟩ := operator h solve hsolve M hM exact n s3
  obtain ⟨steps, z1, -, z3, z4, z5, z6, -⟩ := cg_steps (heun ℝ) _ A hA.rhs _ cfl t0 t1 hstep hdur u k
  obtain ⟨S', U, e1, e2, e3⟩ := C119_steps h solve hsolve M hM exact Q hQ α β _ steps z1 t0 τ
  have hS := Except.ok.inj (e1.symm.trans z3)
  have ev : v.value = S'.solution := by rw [hS]; exact z4
  have et : v.time = t0 + steps.sum := z5
  have et' : v.time - t0 = steps.sum := by rw [et]; ring
  rw [et', ev]
  exact ⟨List.sum_nonneg fun x hx => (z1 x hx).1, by rw [et]; linarith, U, e2, e3⟩

end Modes

theorem cosine_trigonometric (x : ℝ) :
    profile .cosine x = trigonometric 1 1 (fun q => if q = 1 then -1 else 0) (fun _ => 0) x := by
  rw [cosine_profile]
  unfold trigonometric
  rw [Finset.sum_range_succ, Finset.sum_range_one]
  simp only [Nat.cast_one, Nat.cast_zero, if_true, zero_mul, add_zero, mul_zero, mul_one, div_one]
  norm_num
  rw [show 2 * Real.pi * (x - 1 / 2) = 2 * Real.pi * x - Real.pi by ring, Real.cos_sub_pi]

/-- C119.  The cosine benchmark of advection with the continuous Galerkin solver, default degree and integrator: second
order, at every moment and everywhere in the domain. -/
theorem C119_cosine {gauss : ℕ → List (ℝ × ℝ)} {n : ℕ} {s : Space ℝ} {m : List ℝ} {C : SysMatrix ℝ}
    (h : Setup gauss Advection.cosine.domain n 1 s m C) (solve : SysMatrix ℝ → List ℝ → Except Error (List ℝ))
    (hsolve : Solves solve) (M : SysMatrix ℝ) (hM : massMatrix gauss s = .ok M) (exact : Bool) (hn2 : 2 ≤ n)
    (cfl t1 : ℝ) (hstep : 1 / 10 ^ 12 ≤ cfl / n) (hdur : 1 / 10 ^ 12 ≤ t1) (k : ℕ) (τ : ℝ) :
    let u : Fin n → ℝ := fun i => Advection.cosine.initial (i / n)
    let P := cgParams n (heun ℝ) (cgRhs solve gauss s M C .advection exact) (1 / n) cfl 0 t1
    let run := Verif.Solver.solve P (Obj.make P ⟨u, 0, t1⟩)
    let v := (run k).1.sol.sol
    ((run k).2 = .running ∨ (run k).2 = .finished) ∧ (t1 * n ≤ k * cfl → (run (k + 1)).2 = .finished) ∧
    ((run k).2 = .finished → t1 - 1 / 10 ^ 12 < v.time ∧ v.time ≤ t1) ∧ 0 ≤ v.time ∧ v.time ≤ t1 ∧
    ∃ U, Values s (List.ofFn v.value) U ∧
      ∀ (c : Fin n) (x : ℝ), InCell Advection.cosine.domain n c x → |U c x - Advection.cosine.exact x τ| ≤
        Real.exp (2 * Real.pi ^ 4 * cfl ^ 3 * v.time / n ^ 3) *
            (v.time * (4 * Real.pi ^ 3 * cfl ^ 2 / (3 * n ^ 2) + 8 * Real.pi ^ 5 / (15 * n ^ 4))) +
          Real.pi ^ 2 / (2 * n ^ 2) + 2 * Real.pi * |v.time - τ| := by
  intro u P run v
  have hn := h.meshSize
  have hn0 : (0 : ℝ) < n := by exact_mod_cast hn
  have hlen : Advection.cosine.domain.b - Advection.cosine.domain.a = 1 := by norm_num [Advection.domain]
  have hstep' : 1 / 10 ^ 12 ≤ (Advection.cosine.domain.b - Advection.cosine.domain.a) / n * cfl := by
    rw [hlen]; refine hstep.trans (le_of_eq ?_); ring
  have hdur' : 1 / 10 ^ 12 ≤ t1 - 0 := by rwa [sub_zero]
  obtain ⟨r1, r2, r3, -⟩ := C118_solve h solve hsolve M hM exact cfl 0 t1 hstep' hdur' u
  have r4 := C119_solve h solve hsolve M hM exact 1 (by omega) (fun q => if q = 1 then -1 else 0) (fun _ => 0)
    cfl 0 t1 hstep' hdur' k τ
  have hu : u = fun i : Fin n => trigonometric 1 1 (fun q => if q = 1 then -1 else 0) (fun _ => 0)
      (Advection.cosine.domain.a + i * (1 / n)) := by
    funext i
    rw [← cosine_trigonometric]
    have := profile_node .cosine i
    rw [hlen] at this
    exact this.symm
  simp only at r1 r2 r3 r4
  rw [hlen] at r1 r2 r3 r4
  rw [← hu] at r4
  obtain ⟨r5, r6, U, r7, r8⟩ := r4
  refine ⟨r2 k, fun hk => r1 k ?_, r3 k, by rwa [sub_zero] at r5, r6, U, r7, fun c x hx => ?_⟩
  · rw [sub_zero, ← mul_assoc, mul_one_div, div_mul_eq_mul_div, le_div_iff₀ hn0]
    exact hk
  · have e := r8 c x hx
    rw [← cosine_trigonometric, ← exact_profile] at e
    refine e.trans (le_of_eq ?_)
    rw [Finset.sum_range_succ, Finset.sum_range_one]
    norm_num
    unfold waveError
    have ev : (Verif.Solver.solve (cgParams n (heun ℝ) (cgRhs solve gauss s M C .advection exact) (n : ℝ)⁻¹ cfl 0 t1)
      (Obj.make (cgParams n (heun ℝ) (cgRhs solve gauss s M C .advection exact) (n : ℝ)⁻¹ cfl 0 t1) ⟨u, 0, t1⟩)
      k).1.sol.sol.time = v.time := by simp only [v, run, P, one_div]
    rw [ev]
    have e1 : (2 * Real.pi) ^ 4 * ((n : ℝ)⁻¹ * cfl) ^ 3 * v.time / 8 = 2 * Real.pi ^ 4 * cfl ^ 3 * v.time / n ^ 3 := by
      field_simp; ring
    rw [e1]
    generalize Real.exp _ = X
    generalize |v.time - τ| = Y
    generalize v.time = t
    field_simp
    ring

/-- C119.  The errors at the end of a run on the cosine benchmark as the `eoc` command computes them
(`command/error.py` lines 71-105, any quadrature rule with positive weights): second order in all three norms. -/
theorem C119_errors {gauss : ℕ → List (ℝ × ℝ)} {n : ℕ} {s : Space ℝ} {m : List ℝ} {C : SysMatrix ℝ}
    (h : Setup gauss Advection.cosine.domain n 1 s m C) (solve : SysMatrix ℝ → List ℝ → Except Error (List ℝ))
    (hsolve : Solves solve) (M : SysMatrix ℝ) (hM : massMatrix gauss s = .ok M) (exact : Bool) (hn2 : 2 ≤ n)
    (cfl t1 : ℝ) (hstep : 1 / 10 ^ 12 ≤ cfl / n) (hdur : 1 / 10 ^ 12 ≤ t1) (quad : List (ℝ × ℝ))
    (hq : AveragingRule quad) (mesh : UMesh ℝ) (hmesh : uniformMesh Advection.cosine.domain n = .ok mesh) (k : ℕ) :
    let u : Fin n → ℝ := fun i => Advection.cosine.initial (i / n)
    let P := cgParams n (heun ℝ) (cgRhs solve gauss s M C .advection exact) (1 / n) cfl 0 t1
    let run := Verif.Solver.solve P (Obj.make P ⟨u, 0, t1⟩)
    (run k).2 = .finished →
    ∃ U, Values s (List.ofFn (run k).1.sol.sol.value) U ∧
      ∃ e3, linf 10 mesh (fun c x => Advection.cosine.exact x t1 - U c x) = .ok e3 ∧
        ∀ e ∈ [l1 quad mesh (fun c x => Advection.cosine.exact x t1 - U c x),
            l2 quad mesh (fun c x => Advection.cosine.exact x t1 - U c x), e3],
          e ≤ Real.exp (2 * Real.pi ^ 4 * cfl ^ 3 * t1 / n ^ 3) *
              (t1 * (4 * Real.pi ^ 3 * cfl ^ 2 / (3 * n ^ 2) + 8 * Real.pi ^ 5 / (15 * n ^ 4))) +
            Real.pi ^ 2 / (2 * n ^ 2) + 2 * Real.pi / 10 ^ 12 := by
  intro u P run hk
  obtain ⟨-, -, r3, r4, r5, U, r6, r7⟩ := C119_cosine h solve hsolve M hM exact hn2 cfl t1 hstep hdur k t1
  obtain ⟨e1, e2⟩ := r3 hk
  have hn := h.meshSize
  have hn0 : (0 : ℝ) < n := by exact_mod_cast hn
  have hd := h.domain
  have hlen : Advection.cosine.domain.b - Advection.cosine.domain.a = 1 := by norm_num [Advection.domain]
  have hpi := Real.pi_pos
  have hcfl : 0 ≤ cfl := by
    have : 0 ≤ cfl / n := le_trans (by positivity) hstep
    rw [le_div_iff₀ hn0, zero_mul] at this
    exact this
  have ht0 : 0 ≤ t1 := le_trans (by positivity) hdur
  refine ⟨U, r6, ?_⟩
  set B := Real.exp (2 * Real.pi ^ 4 * cfl ^ 3 * t1 / n ^ 3) *
    (t1 * (4 * Real.pi ^ 3 * cfl ^ 2 / (3 * n ^ 2) + 8 * Real.pi ^ 5 / (15 * n ^ 4))) +
    Real.pi ^ 2 / (2 * n ^ 2) + 2 * Real.pi / 10 ^ 12 with hB
  obtain ⟨a1, a2, e3, a3, a4⟩ := norms_le hq hd hn hmesh (fun c x => Advection.cosine.exact x t1 - U c x) B
    (by positivity) (fun c x hx => by
      rw [abs_sub_comm]
      refine (r7 c x hx).trans ?_
      have hdiff : |(run k).1.sol.sol.time - t1| ≤ 1 / 10 ^ 12 := by
        have a1 : t1 - 1 / 10 ^ 12 < (run k).1.sol.sol.time := e1
        have a2 : (run k).1.sol.sol.time ≤ t1 := e2
        rw [abs_sub_comm, abs_of_nonneg (by linarith)]
        linarith
      have ht : (run k).1.sol.sol.time ≤ t1 := e2
      have h5 : 2 * Real.pi * |(run k).1.sol.sol.time - t1| ≤ 2 * Real.pi * (1 / 10 ^ 12) :=
        mul_le_mul_of_nonneg_left hdiff (by positivity)
      rw [mul_one_div] at h5
      refine add_le_add (add_le_add ?_ le_rfl) h5
      apply mul_le_mul _ _ (mul_nonneg r4 (by positivity)) (Real.exp_pos _).le
      · refine Real.exp_le_exp.mpr (div_le_div_of_nonneg_right ?_ (by positivity))
        exact mul_le_mul_of_nonneg_left ht (by positivity)
      · exact mul_le_mul_of_nonneg_right ht (by positivity)) 10 (by norm_num)
  rw [hlen, one_mul] at a1
  rw [hlen, Real.sqrt_one, one_mul] at a2
  refine ⟨e3, a3, fun e he => ?_⟩
  simp only [List.mem_cons, List.not_mem_nil, or_false] at he
  rcases he with rfl | rfl | rfl
  · exact a1
  · exact a2
  · exact a4

/-- The cosine benchmark with 100 cells and the default CFL number until time 1: the error is below a
thousandth. -/
example : ∃ gauss s m C M solve, Setup gauss Advection.cosine.domain 100 1 s m C ∧ massMatrix gauss s = .ok M ∧
    Solves solve ∧
    let u : Fin 100 → ℝ := fun i => Advection.cosine.initial (i / (100 : ℕ))
    let P := cgParams 100 (heun ℝ) (cgRhs solve gauss s M C .advection true) (1 / (100 : ℕ)) (1 / 10) 0 1
    let run := Verif.Solver.solve P (Obj.make P ⟨u, 0, 1⟩)
    ∃ k U, (run k).2 = .finished ∧ Values s (List.ofFn (run k).1.sol.sol.value) U ∧
      ∀ (c : Fin 100) (x : ℝ), InCell Advection.cosine.domain 100 c x →
        |U c x - Advection.cosine.exact x 1| ≤ 1 / 1000 := by
  obtain ⟨gauss, s, m, C, h⟩ := exists_setup Advection.cosine.domain (by norm_num [Advection.domain]) 100 1
    (by norm_num) (by norm_num)
  obtain ⟨solve, hsolve⟩ := exists_solves
  obtain ⟨s1, s2, s3, s4⟩ := setup_facts h
  obtain ⟨M, hM, -⟩ := mass_spec gauss s (by omega)
  refine ⟨gauss, s, m, C, M, solve, h, hM, hsolve, ?_⟩
  intro u P run
  obtain ⟨k, hk⟩ : ∃ k, (run k).2 = .finished :=
    ⟨_, (C119_cosine h solve hsolve M hM true (by norm_num) (1 / 10) 1 (by norm_num) (by norm_num) 1000 1).2.1
      (by norm_num)⟩
  obtain ⟨-, -, r3, r4, r5, U, r6, r7⟩ := C119_cosine h solve hsolve M hM true (by norm_num) (1 / 10) 1 (by norm_num)
    (by norm_num) k 1
  refine ⟨k, U, hk, r6, fun c x hx => (r7 c x hx).trans ?_⟩
  obtain ⟨e1, e2⟩ := r3 hk
  generalize hv : (run k).1.sol.sol.time = t at *
  change t ≤ 1 at r5
  change 0 ≤ t at r4
  change 1 - 1 / 10 ^ 12 < t at e1
  have hpi := Real.pi_pos
  have hpi' : Real.pi < 3.15 := Real.pi_lt_d2
  have p2 : Real.pi ^ 2 ≤ 10 := by nlinarith
  have p3 : Real.pi ^ 3 ≤ 32 := by nlinarith
  have p4 : Real.pi ^ 4 ≤ 100 := by nlinarith
  have p5 : Real.pi ^ 5 ≤ 320 := by nlinarith
  have hd : |t - 1| ≤ 1 / 10 ^ 12 := by rw [abs_sub_comm, abs_of_nonneg (by linarith)]; linarith
  have hexp : Real.exp (2 * Real.pi ^ 4 * (1 / 10) ^ 3 * t / ((100 : ℕ) : ℝ) ^ 3) ≤ 3 := by
    refine le_trans (Real.exp_le_exp.mpr ?_) Real.exp_one_lt_three.le
    norm_num
    nlinarith
  have hmain : t * (4 * Real.pi ^ 3 * (1 / 10) ^ 2 / (3 * ((100 : ℕ) : ℝ) ^ 2) +
      8 * Real.pi ^ 5 / (15 * ((100 : ℕ) : ℝ) ^ 4)) ≤ 1 * (1 / 10000) := by
    apply mul_le_mul r5 _ (by positivity) (by norm_num)
    norm_num
    linarith
  have hprod := mul_le_mul hexp hmain (mul_nonneg r4 (by positivity)) (by norm_num)
  have h8 : 2 * Real.pi * |t - 1| ≤ 8 * (1 / 10 ^ 12) :=
    mul_le_mul (by linarith) hd (abs_nonneg _) (by norm_num)
  have h9 : Real.pi ^ 2 / (2 * ((100 : ℕ) : ℝ) ^ 2) ≤ 10 / 20000 := by
    norm_num
    linarith
  have : (3 : ℝ) * (1 * (1 / 10000)) + 10 / 20000 + 8 * (1 / 10 ^ 12) ≤ 1 / 1000 := by norm_num
  linarith

end Verif.FE
