import Verif.Core.CGEnergy
import Verif.Props.FECG
import Verif.Props.FELowRuns

/-!
C118: the continuous Galerkin solver (`finite_element/scalar/solver/cg.py`) for linear advection: how the
`L²` energy changes in a step, that the default method is not stable for fixed CFL number, and the error
for smooth data.
-/

set_option linter.unusedSectionVars false

namespace Verif.FE

open Verif.Py Verif.ODE Verif.Scalar Verif.Convergence Verif.Solver
open Verif.Interpolate Verif.Quadrature Verif.Bench
open Verif.Mesh hiding Error

/-! ### The operator of the right-hand side -/

/-- The bilinear form of a matrix. -/
noncomputable def formOf (N : ℕ) (a : ℕ → ℕ → ℝ) : (Fin N → ℝ) →ₗ[ℝ] (Fin N → ℝ) →ₗ[ℝ] ℝ :=
  LinearMap.mk₂ ℝ (fun u v => ∑ i : Fin N, ∑ j : Fin N, u i * a i j * v j)
    (by intros; simp only [Pi.add_apply, add_mul, Finset.sum_add_distrib])
    (by intros; simp only [Pi.smul_apply, smul_eq_mul, Finset.mul_sum, mul_assoc])
    (by intros; simp only [Pi.add_apply, mul_add, Finset.sum_add_distrib])
    (by
      intro c u v
      simp only [Pi.smul_apply, smul_eq_mul, Finset.mul_sum]
      exact Finset.sum_congr rfl fun i _ => Finset.sum_congr rfl fun j _ => by ring)

theorem formOf_eq (N : ℕ) (a : ℕ → ℕ → ℝ) (u v : Fin N → ℝ) :
    formOf N a u v = bilinear N a (List.ofFn u) (List.ofFn v) := by
  have g : ∀ (w : Fin N → ℝ) (i : Fin N), (List.ofFn w).getD i 0 = w i := by
    intro w i
    rw [List.getD_eq_getElem _ _ (by simp), List.getElem_ofFn]
  unfold bilinear
  simp only [Finset.sum_range, g]
  rfl

theorem ofFn_getD (N : ℕ) (w : List ℝ) (hw : w.length = N) :
    List.ofFn (fun i : Fin N => w.getD i 0) = w := by
  subst hw
  refine List.ext_getElem (by simp) fun i h1 h2 => ?_
  rw [List.getElem_ofFn, List.getD_eq_getElem _ _ h2]

/-- What is known of the right-hand side for linear advection: a linear operator that is skew in the `L²`
product, and the weak form. -/
structure IsOperator (gauss : ℕ → List (ℝ × ℝ)) (s : Space ℝ) (M C : SysMatrix ℝ) (N : ℕ)
    (rhs : List ℝ → Except Error (List ℝ)) (B : (Fin N → ℝ) →ₗ[ℝ] (Fin N → ℝ) →ₗ[ℝ] ℝ)
    (A : (Fin N → ℝ) →ₗ[ℝ] (Fin N → ℝ)) : Prop where
  form : SkewForm B A
  rhs : ∀ (t : ℝ) u, vecRhs N (fun _ => rhs) t u = .ok (A u)
  product : ∀ u v U V, Values s (List.ofFn u) U → Values s (List.ofFn v) V →
    B u v = integral s fun c x => U c x * V c x
  weak : ∀ u v U V, Values s (List.ofFn u) U → Derivatives s (List.ofFn v) V →
    B (A u) v = integral s fun c x => U c x * V c x

theorem operator {gauss d n p s m C} (h : Setup gauss d n p s m C)
    (solve : SysMatrix ℝ → List ℝ → Except Error (List ℝ)) (hsolve : Solves solve) (M : SysMatrix ℝ)
    (hM : massMatrix gauss s = .ok M) (exact : Bool) (N : ℕ) (hN : s.dimension = N) :
    ∃ B A, IsOperator gauss s M C N (cgRhs solve gauss s M C .advection exact) B A := by
  obtain ⟨s1, s2, s3, s4⟩ := setup_facts h
  have hp0 := h.degree
  have hp : 0 < s.degree := by omega
  subst hN
  set N := s.dimension with hN
  obtain ⟨M', q1, q2, a, q3, q4, q5, q6⟩ := C65_spd gauss h.isGauss s hp s4
  obtain rfl : M' = M := Except.ok.inj (q1.symm.trans hM)
  have hab : ∀ u v : List ℝ, bilinear N a u v = bilinear N M'.lil u v := by
    intro u v
    apply bilinear_congr
    intro i hi j hj
    have := q3 i j hi hj
    rw [get_lil M' i j (by omega) (by omega)] at this
    exact (Except.ok.inj this).symm
  let B := formOf N M'.lil
  let G := formOf N C.lil
  have hdef : ∀ u : Fin N → ℝ, ∃ w : List ℝ,
      cgRhs solve gauss s M' C .advection exact (List.ofFn u) = .ok w ∧ w.length = N := fun u =>
    C87_defined h solve hsolve M' hM .advection exact _ (by simp [N])
  choose W hW hWl using hdef
  let A0 : (Fin N → ℝ) → (Fin N → ℝ) := fun u i => (W u).getD i 0
  have hA0 : ∀ u, List.ofFn (A0 u) = W u := fun u => ofFn_getD N _ (hWl u)
  have hflux : ∀ (u : Fin N → ℝ) U, Values s (List.ofFn u) U → TestedFlux s .advection exact (List.ofFn u) U := by
    intro u U hU
    cases exact with
    | true => exact ⟨U, hU, fun c x => rfl⟩
    | false =>
      have e : (List.ofFn u).map Problem.advection.flux = List.ofFn u := by
        have : (Problem.advection.flux : ℝ → ℝ) = id := rfl
        rw [this, List.map_id]
      change Values s ((List.ofFn u).map Problem.advection.flux) U
      rw [e]; exact hU
  have hval : ∀ u : Fin N → ℝ, ∃ U, Values s (List.ofFn u) U := fun u =>
    ⟨_, values_poly s hp _ (by simp [N])⟩
  have hder : ∀ u : Fin N → ℝ, ∃ U, Derivatives s (List.ofFn u) U := fun u =>
    ⟨_, derivatives_poly s hp _ (by simp [N])⟩
  have hprod : ∀ u v U V, Values s (List.ofFn u) U → Values s (List.ofFn v) V →
      B u v = integral s fun c x => U c x * V c x := by
    intro u v U V hU hV
    change formOf N M'.lil u v = _
    rw [formOf_eq]
    exact mass_bilinear gauss h.isGauss s hp s4 M' hM _ _ U V hU hV
  have hgrad : ∀ u v U V, Values s (List.ofFn u) U → Derivatives s (List.ofFn v) V →
      G u v = integral s fun c x => U c x * V c x := by
    intro u v U V hU hV
    change formOf N C.lil u v = _
    rw [formOf_eq]
    exact gradient_bilinear gauss h.isGauss s hp s4 C h.gradient _ _ U V hU hV
  have hBG : ∀ u v, B (A0 u) v = G u v := by
    intro u v
    obtain ⟨U, hU⟩ := hval u
    obtain ⟨R, hR⟩ := hval (A0 u)
    obtain ⟨V, hV⟩ := hval v
    obtain ⟨V', hV'⟩ := hder v
    rw [hprod _ _ _ _ hR hV, hgrad _ _ _ _ hU hV']
    rw [hA0] at hR
    exact C87_weak h solve hsolve M' hM .advection exact _ _ (by simp [N]) (hW u) U (hflux u U hU) R hR _ V V' hV hV'
  have hsymm : ∀ u v, B u v = B v u := by
    intro u v
    change formOf N M'.lil u v = formOf N M'.lil v u
    rw [formOf_eq, formOf_eq]
    exact bilinear_symm _ _ (mass_symm gauss s hp M' hM) _ _
  have hanti : ∀ u v, G u v = -G v u := by
    intro u v
    change formOf N C.lil u v = -formOf N C.lil v u
    rw [formOf_eq, formOf_eq]
    exact bilinear_antisymm _ _ (gradient_antisymm gauss h.isGauss s hp C h.gradient) _ _
  have hnn : ∀ u, 0 ≤ B u u := by
    intro u
    change 0 ≤ formOf N M'.lil u u
    rw [formOf_eq, ← hab]
    exact q5 _ (by simp [N])
  have hdefi : ∀ u, B u u = 0 → u = 0 := by
    intro u hu
    change formOf N M'.lil u u = 0 at hu
    rw [formOf_eq, ← hab] at hu
    have := q6 (List.ofFn u) (by simp [N]) hu
    funext i
    exact this (u i) (by simp [List.mem_ofFn])
  have huniq : ∀ x y : Fin N → ℝ, (∀ z, B x z = B y z) → x = y := by
    intro x y hxy
    have : B (x - y) (x - y) = 0 := by
      rw [B.map_sub, LinearMap.sub_apply, hxy, sub_self]
    exact sub_eq_zero.mp (hdefi _ this)
  let A : (Fin N → ℝ) →ₗ[ℝ] (Fin N → ℝ) :=
    { toFun := A0
      map_add' := by
        intro u v
        apply huniq
        intro z
        rw [B.map_add, LinearMap.add_apply, hBG, hBG, hBG, G.map_add, LinearMap.add_apply]
      map_smul' := by
        intro c u
        apply huniq
        intro z
        rw [RingHom.id_apply, B.map_smul, LinearMap.smul_apply, hBG, hBG, G.map_smul, LinearMap.smul_apply] }
  refine ⟨B, A, ⟨hsymm, hnn, hdefi, ?_⟩, ?_, hprod, ?_⟩
  · intro u v
    change B (A0 u) v = -B u (A0 v)
    rw [hBG, hsymm u, hBG, hanti]
  · intro t u
    unfold vecRhs
    simp only [hW u]
    rw [dif_pos (hWl u)]
    congr 1
    funext i
    change _ = (W u).getD i 0
    rw [List.getD_eq_getElem]
  · intro u v U V hU hV
    change B (A0 u) v = _
    rw [hBG]
    exact hgrad u v U V hU hV

/-! ### Linear elements -/

theorem integral_quadratic (α β γ : ℝ) : ∫ x in (0 : ℝ)..1, (α + β * x + γ * x ^ 2) = α + β / 2 + γ / 3 := by
  rw [intervalIntegral.integral_add, intervalIntegral.integral_add, intervalIntegral.integral_const_mul,
    intervalIntegral.integral_const_mul, integral_id, integral_pow]
  · simp
    ring
  all_goals exact Continuous.intervalIntegrable (by fun_prop) _ _

theorem sum_shift (n : ℕ) (g : ℤ → ℝ) (hg : g n = g 0) :
    ∑ c ∈ Finset.range n, g (c + 1) = ∑ c ∈ Finset.range n, g c := by
  have h1 := Finset.sum_range_succ (fun c : ℕ => g c) n
  have h2 := Finset.sum_range_succ' (fun c : ℕ => g c) n
  simp only [Nat.cast_add, Nat.cast_one, Nat.cast_zero] at h1 h2
  linarith

theorem linear_derivative {gauss d n s m C} (h : Setup gauss d n 1 s m C) (u : Fin n → ℝ) :
    Derivatives s (List.ofFn u)
      (fun c _ => affineInverseDerivative (s.cell c) * (around u (c + 1) - around u c)) := by
  obtain ⟨s1, s2, s3, -⟩ := setup_facts h
  rw [mul_one] at s3
  have hn := h.meshSize
  refine ⟨by simp [s3], fun c hc x => ?_⟩
  rw [derivative_eq s (by omega) _ (by simp [s3]) c hc]
  congr 1
  obtain ⟨i0, i1⟩ := linear_idx s s1 c hc
  unfold Space.poly
  rw [s1, Finset.sum_range_succ, Finset.sum_range_one, i0, i1, basis_one_zero, basis_one_one, s2]
  have e := around_nat u (c + 1) hn
  have e0 := around_nat u c hn
  rw [Nat.mod_eq_of_lt (by omega)] at e0
  push_cast at e
  beta_reduce
  rw [e0, e]
  simp only [Polynomial.derivative_add, Polynomial.derivative_C_mul, Polynomial.derivative_sub,
    Polynomial.derivative_one, Polynomial.derivative_X, Polynomial.eval_add, Polynomial.eval_mul,
    Polynomial.eval_C, Polynomial.eval_sub, Polynomial.eval_one, Polynomial.eval_zero]
  ring

section LinearElements

variable {gauss : ℕ → List (ℝ × ℝ)} {d : Interval ℝ} {n : ℕ} {s : Space ℝ} {m : List ℝ} {M C : SysMatrix ℝ}
  {rhs : List ℝ → Except Error (List ℝ)} {B : (Fin n → ℝ) →ₗ[ℝ] (Fin n → ℝ) →ₗ[ℝ] ℝ}
  {A : (Fin n → ℝ) →ₗ[ℝ] (Fin n → ℝ)}

theorem linear_form (h : Setup gauss d n 1 s m C) (hA : IsOperator gauss s M C n rhs B A) (u v : Fin n → ℝ) :
    B u v = ((d.b - d.a) / n) / 6 * ∑ c ∈ Finset.range n, (2 * (around u c * around v c) +
      around u c * around v (c + 1) + around u (c + 1) * around v c +
      2 * (around u (c + 1) * around v (c + 1))) := by
  obtain ⟨s1, s2, s3, s4⟩ := setup_facts h
  obtain ⟨-, -, -, -, s5⟩ := make_spec d h.domain n 1 h.meshSize s h.space
  have hn : (n : ℝ) ≠ 0 := by have := h.meshSize; positivity
  rw [hA.product u v _ _ (linear_value h u) (linear_value h v)]
  unfold integral
  rw [s2, Finset.mul_sum]
  apply Finset.sum_congr rfl
  intro c hc
  have hc' := Finset.mem_range.mp hc
  have hlen : (s.cell c).length = (d.b - d.a) / n := by
    rw [s5 c hc']
    simp only [Interval.length, Mesh.node]
    push_cast
    field_simp
    ring
  have hx : ∀ x, place d n c x = affineInverse x (s.cell c) := by
    intro x
    rw [s5 c hc']
    unfold affineInverse place Interval.length Mesh.node
    push_cast
    congr 1
    ring
  unfold linearValue
  simp only [hx]
  rw [integral_affineInverse (s.cell c) (s4 c (by omega)) (fun x => ((1 - x) * around u c + x * around u (c + 1)) *
    ((1 - x) * around v c + x * around v (c + 1))), hlen]
  have e : ∀ x : ℝ, ((1 - x) * around u c + x * around u (c + 1)) *
      ((1 - x) * around v c + x * around v (c + 1)) = around u c * around v c +
      (around u c * (around v (c + 1) - around v c) + (around u (c + 1) - around u c) * around v c) * x +
      ((around u (c + 1) - around u c) * (around v (c + 1) - around v c)) * x ^ 2 := by
    intro x; ring
  simp only [e]
  rw [integral_quadratic]
  ring

theorem linear_weak (h : Setup gauss d n 1 s m C) (hA : IsOperator gauss s M C n rhs B A) (u v : Fin n → ℝ) :
    B (A u) v = ∑ c ∈ Finset.range n, (around u c + around u (c + 1)) / 2 *
      (around v (c + 1) - around v c) := by
  obtain ⟨s1, s2, s3, s4⟩ := setup_facts h
  obtain ⟨-, -, -, -, s5⟩ := make_spec d h.domain n 1 h.meshSize s h.space
  have hn : (n : ℝ) ≠ 0 := by have := h.meshSize; positivity
  rw [hA.weak u v _ _ (linear_value h u) (linear_derivative h v)]
  unfold integral
  rw [s2]
  apply Finset.sum_congr rfl
  intro c hc
  have hc' := Finset.mem_range.mp hc
  have hx : ∀ x, place d n c x = affineInverse x (s.cell c) := by
    intro x
    rw [s5 c hc']
    unfold affineInverse place Interval.length Mesh.node
    push_cast
    congr 1
    ring
  unfold linearValue
  simp only [hx]
  rw [integral_cell_derivative (s.cell c) (s4 c (by omega)) (fun x => ((1 - x) * around u c + x * around u (c + 1)))
    (fun _ => around v (c + 1) - around v c)]
  have e : ∀ x : ℝ, ((1 - x) * around u c + x * around u (c + 1)) * (around v (c + 1) - around v c) =
      around u c * (around v (c + 1) - around v c) +
      ((around u (c + 1) - around u c) * (around v (c + 1) - around v c)) * x + 0 * x ^ 2 := by
    intro x; ring
  simp only [e]
  rw [integral_quadratic]
  ring

theorem around_n (u : Fin n → ℝ) (k : ℤ) : around u (n + k) = around u k := by
  rw [add_comm]; exact around_periodic u k

theorem linear_form_stencil (h : Setup gauss d n 1 s m C) (hA : IsOperator gauss s M C n rhs B A)
    (u v : Fin n → ℝ) :
    B u v = ∑ c ∈ Finset.range n, around v c * (((d.b - d.a) / n) / 6 *
      (around u (c - 1) + 4 * around u c + around u (c + 1))) := by
  rw [linear_form h hA]
  have k1 := sum_shift n (fun z => around u z * around v z) (by
    simpa using congrArg₂ (· * ·) (around_n u 0) (around_n v 0))
  have k2 := sum_shift n (fun z => around u (z - 1) * around v z) (by
    have := congrArg₂ (· * ·) (around_n u (-1)) (around_n v 0)
    simpa [sub_eq_add_neg] using this)
  simp only [add_sub_cancel_right] at k2
  have e : ∀ c : ℕ, around v c * (((d.b - d.a) / n) / 6 *
      (around u (c - 1) + 4 * around u c + around u (c + 1))) = ((d.b - d.a) / n) / 6 *
      (around u (c - 1) * around v c + 4 * (around u c * around v c) + around u (c + 1) * around v c) := by
    intro c; ring
  simp only [e]
  rw [← Finset.mul_sum]
  congr 1
  simp only [Finset.sum_add_distrib, ← Finset.mul_sum]
  rw [k1, k2]
  ring

theorem linear_weak_stencil (h : Setup gauss d n 1 s m C) (hA : IsOperator gauss s M C n rhs B A)
    (u v : Fin n → ℝ) :
    B (A u) v = ∑ c ∈ Finset.range n, around v c * ((around u (c - 1) - around u (c + 1)) / 2) := by
  rw [linear_weak h hA]
  have k1 := sum_shift n (fun z => around u z * around v z) (by
    simpa using congrArg₂ (· * ·) (around_n u 0) (around_n v 0))
  have k2 := sum_shift n (fun z => around u (z - 1) * around v z) (by
    have := congrArg₂ (· * ·) (around_n u (-1)) (around_n v 0)
    simpa [sub_eq_add_neg] using this)
  simp only [add_sub_cancel_right] at k2
  have e1 : ∀ c : ℕ, around v c * ((around u (c - 1) - around u (c + 1)) / 2) =
      1 / 2 * (around u (c - 1) * around v c) - 1 / 2 * (around u (c + 1) * around v c) := by
    intro c; ring
  have e2 : ∀ c : ℕ, (around u c + around u (c + 1)) / 2 * (around v (c + 1) - around v c) =
      1 / 2 * (around u c * around v (c + 1)) + 1 / 2 * (around u (c + 1) * around v (c + 1)) -
      1 / 2 * (around u c * around v c) - 1 / 2 * (around u (c + 1) * around v c) := by
    intro c; ring
  simp only [e1, e2, Finset.sum_add_distrib, Finset.sum_sub_distrib, ← Finset.mul_sum]
  rw [k1, k2]
  ring

theorem linear_energy (h : Setup gauss d n 1 s m C) (hA : IsOperator gauss s M C n rhs B A) (u : Fin n → ℝ) :
    B u u = ((d.b - d.a) / n) / 3 * ∑ c ∈ Finset.range n, (around u c ^ 2 + around u c * around u (c + 1) +
      around u (c + 1) ^ 2) := by
  rw [linear_form h hA, Finset.mul_sum, Finset.mul_sum]
  exact Finset.sum_congr rfl fun c _ => by ring

theorem sum_squares (u : Fin n → ℝ) :
    ∑ c ∈ Finset.range n, around u (c + 1) ^ 2 = ∑ c ∈ Finset.range n, around u c ^ 2 :=
  sum_shift n (fun z => around u z ^ 2) (by
    have := congrArg (· ^ 2) (around_n u 0)
    simpa using this)

theorem linear_lower (h : Setup gauss d n 1 s m C) (hA : IsOperator gauss s M C n rhs B A) (u : Fin n → ℝ) :
    ((d.b - d.a) / n) / 3 * ∑ c ∈ Finset.range n, around u c ^ 2 ≤ B u u := by
  have hdx : 0 < (d.b - d.a) / n :=
    div_pos (by linarith [h.domain]) (by exact_mod_cast h.meshSize)
  rw [linear_energy h hA]
  apply mul_le_mul_of_nonneg_left _ (by positivity)
  have : ∑ c ∈ Finset.range n, around u c ^ 2 =
      ∑ c ∈ Finset.range n, (1 / 2 * around u c ^ 2 + 1 / 2 * around u (c + 1) ^ 2) := by
    rw [Finset.sum_add_distrib, ← Finset.mul_sum, ← Finset.mul_sum, sum_squares]; ring
  rw [this]
  apply Finset.sum_le_sum
  intro c _
  nlinarith [sq_nonneg (around u c + around u (c + 1))]

theorem linear_upper (h : Setup gauss d n 1 s m C) (hA : IsOperator gauss s M C n rhs B A) (u : Fin n → ℝ) :
    B u u ≤ ((d.b - d.a) / n) * ∑ c ∈ Finset.range n, around u c ^ 2 := by
  have hdx : 0 < (d.b - d.a) / n :=
    div_pos (by linarith [h.domain]) (by exact_mod_cast h.meshSize)
  rw [linear_energy h hA]
  have : ((d.b - d.a) / n) * ∑ c ∈ Finset.range n, around u c ^ 2 = ((d.b - d.a) / n) / 3 *
      ∑ c ∈ Finset.range n, (3 / 2 * around u c ^ 2 + 3 / 2 * around u (c + 1) ^ 2) := by
    rw [Finset.sum_add_distrib, ← Finset.mul_sum, ← Finset.mul_sum, sum_squares]; ring
  rw [this]
  apply mul_le_mul_of_nonneg_left _ (by positivity)
  apply Finset.sum_le_sum
  intro c _
  nlinarith [sq_nonneg (around u c - around u (c + 1))]

/-- The inverse estimate, with the best constant. -/
theorem linear_inverse (h : Setup gauss d n 1 s m C) (hA : IsOperator gauss s M C n rhs B A) (u : Fin n → ℝ) :
    B (A u) (A u) ≤ 3 / ((d.b - d.a) / n) ^ 2 * B u u := by
  have hdx : 0 < (d.b - d.a) / n :=
    div_pos (by linarith [h.domain]) (by exact_mod_cast h.meshSize)
  set dx := (d.b - d.a) / n with hdxd
  have h3 : Real.sqrt 3 ^ 2 = 3 := Real.sq_sqrt (by norm_num)
  have h0 : 0 < Real.sqrt 3 := Real.sqrt_pos.mpr (by norm_num)
  have key : ∀ v : Fin n → ℝ, 2 * Real.sqrt 3 * B (A u) v ≤ 3 / dx * (B u u + B v v) := by
    intro v
    have e : B (A u) v = ∑ c ∈ Finset.range n, 1 / 2 * (around u c * around v (c + 1) - around u (c + 1) * around v c) := by
      rw [linear_weak h hA]
      have k1 := sum_shift n (fun z => around u z * around v z) (by
        simpa using congrArg₂ (· * ·) (around_n u 0) (around_n v 0))
      have e2 : ∀ c : ℕ, (around u c + around u (c + 1)) / 2 * (around v (c + 1) - around v c) =
          1 / 2 * (around u (c + 1) * around v (c + 1)) - 1 / 2 * (around u c * around v c) +
          1 / 2 * (around u c * around v (c + 1) - around u (c + 1) * around v c) := by
        intro c; ring
      simp only [e2, Finset.sum_add_distrib, Finset.sum_sub_distrib, ← Finset.mul_sum]
      rw [k1]; ring
    rw [e, linear_energy h hA u, linear_energy h hA v, ← hdxd, ← mul_add, ← Finset.sum_add_distrib,
      ← mul_assoc, show 3 / dx * (dx / 3) = 1 by field_simp, one_mul, Finset.mul_sum]
    apply Finset.sum_le_sum
    intro c _
    set a := around u c
    set b := around v c
    set p := around u (c + 1)
    set q := around v (c + 1)
    nlinarith [sq_nonneg (a + p / 2 - Real.sqrt 3 / 2 * q), sq_nonneg (b + q / 2 + Real.sqrt 3 / 2 * p)]
  have k := key ((dx / Real.sqrt 3) • A u)
  simp only [map_smul, LinearMap.smul_apply, smul_eq_mul] at k
  set r := B (A u) (A u)
  have e1 : 2 * Real.sqrt 3 * (dx / Real.sqrt 3 * r) = 2 * dx * r := by field_simp
  have e2 : 3 / dx * (B u u + dx / Real.sqrt 3 * (dx / Real.sqrt 3 * r)) = 3 / dx * B u u + dx * r := by
    have : dx / Real.sqrt 3 * (dx / Real.sqrt 3 * r) = dx ^ 2 * r / Real.sqrt 3 ^ 2 := by
      field_simp
    rw [this, h3]
    field_simp
  rw [e1, e2] at k
  have k2 : dx * r ≤ 3 / dx * B u u := by linarith
  calc r = 1 / dx * (dx * r) := by field_simp
    _ ≤ 1 / dx * (3 / dx * B u u) := mul_le_mul_of_nonneg_left k2 (by positivity)
    _ = _ := by field_simp

theorem operator_eq (h : Setup gauss d n 1 s m C) (hA : IsOperator gauss s M C n rhs B A) (u w : Fin n → ℝ)
    (hw : ∀ c : ℤ, ((d.b - d.a) / n) / 6 * (around w (c - 1) + 4 * around w c + around w (c + 1)) =
      (around u (c - 1) - around u (c + 1)) / 2) : A u = w := by
  have : ∀ v, B (A u) v = B w v := by
    intro v
    rw [linear_weak_stencil h hA, linear_form_stencil h hA]
    exact Finset.sum_congr rfl fun c _ => by rw [hw]
  have e : B (A u - w) (A u - w) = 0 := by
    rw [B.map_sub, LinearMap.sub_apply, this, sub_self]
  exact sub_eq_zero.mp (hA.form.definite _ e)

theorem around_of_periodic (hn : 0 < n) (φ : ℤ → ℝ) (hφ : ∀ z, φ (z + n) = φ z) (z : ℤ) :
    around (fun i : Fin n => φ i) z = φ z := by
  obtain ⟨i, q, rfl⟩ := around_exists hn z
  rw [around_shift, around_cell]
  have : Function.Periodic φ (n : ℤ) := hφ
  exact (this.int_mul q i).symm

end LinearElements

/-! ### Whole runs -/

/-- `ContinuousGalerkinSolver.__init__` (cg.py 46-86): the right-hand side `f`, the integrator
(`build_optimal_ode_solver`), and time steps of `cfl` times the length `dx` of the cells
(core/time_stepping.py 166-174); there is no CFL checker. -/
def cgParams (N : ℕ) (T : Tableau ℝ) (f : List ℝ → Except Error (List ℝ)) (dx cfl t0 t1 : ℝ) :
    Params ℝ (Fin N → ℝ) where
  tab := T
  rhs := vecRhs N fun _ => f
  finite := fun _ => true
  optimal := fun _ _ => dx
  cfl := cfl
  adaptive := false
  startTime := t0
  endTime := t1
  checker := none

theorem linear_run {N : ℕ} (T : Tableau ℝ) (f : ℝ → List ℝ → Except Error (List ℝ)) (A : (Fin N → ℝ) →ₗ[ℝ] (Fin N → ℝ))
    (hf : ∀ (t : ℝ) u, vecRhs N f t u = .ok (A u)) (dx cfl t0 t1 : ℝ)
    (hstep : 1 / 10 ^ 12 ≤ dx * cfl) (hdur : 1 / 10 ^ 12 ≤ t1 - t0) (u : Fin N → ℝ) :
    let P := EndToEnd.fvParams N T f dx cfl t0 t1
    let run := solve P (Obj.make P ⟨u, t0, t1⟩)
    (∀ k : ℕ, t1 - t0 ≤ k * (dx * cfl) → (run (k + 1)).2 = .finished) ∧
    (∀ k, (run k).2 = .running ∨ (run k).2 = .finished) ∧
    (∀ k, (run k).2 = .finished →
      t1 - 1 / 10 ^ 12 < (run k).1.sol.sol.time ∧ (run k).1.sol.sol.time ≤ t1) := by
  intro P run
  have safe := C94_safe P (Obj.make P ⟨u, t0, t1⟩) (make_sync _ _) (fun _ => True)
    trivial rfl (fun _ _ => rfl) (fun s dt _ _ _ => ⟨_, linear_total _ A hf T s dt, trivial⟩)
  refine ⟨fun k hk => C94_terminates P (Obj.make P ⟨u, t0, t1⟩) (dx * cfl) hstep (fun _ _ => le_rfl) le_rfl hdur
      k hk (fun m e => (safe m).1 e), ?_, fun k hk => C94_end_time P ⟨u, t0, t1⟩ rfl k hk⟩
  intro k
  have hg : ∀ j, dx * cfl ≤ (schedule P (Obj.make P ⟨u, t0, t1⟩)).gen.call j := fun j => le_rfl
  have hnf : (clock P (Obj.make P ⟨u, t0, t1⟩) k).status ≠ .failed := by
    intro hf
    rcases TimeStepping.C03_failed_cause _ _ k hf with ⟨j, hj⟩ | h
    · exact absurd (hstep.trans (hg j)) (not_le.mpr hj)
    · exact absurd hdur (not_le.mpr h)
  obtain ⟨-, -, h3, -⟩ := link P (Obj.make P ⟨u, t0, t1⟩) k (safe k).1
  change statusOf (run k).2 = some _ at h3
  cases hs : (run k).2 with
  | running => exact Or.inl rfl
  | finished => exact Or.inr rfl
  | raised e => exact absurd hs ((safe k).1 e)
  | interrupted =>
    rw [hs] at h3
    simp only [statusOf, Option.some.injEq] at h3
    exact absurd h3.symm hnf

theorem linear_steps {N : ℕ} (T : Tableau ℝ) (f : ℝ → List ℝ → Except Error (List ℝ)) (A : (Fin N → ℝ) →ₗ[ℝ] (Fin N → ℝ))
    (hf : ∀ (t : ℝ) u, vecRhs N f t u = .ok (A u)) (dx cfl t0 t1 : ℝ)
    (hstep : 1 / 10 ^ 12 ≤ dx * cfl) (hdur : 1 / 10 ^ 12 ≤ t1 - t0) (u : Fin N → ℝ) (k : ℕ) :
    let P := EndToEnd.fvParams N T f dx cfl t0 t1
    let run := solve P (Obj.make P ⟨u, t0, t1⟩)
    ∃ steps : List ℝ, (∀ dt ∈ steps, 0 ≤ dt ∧ dt ≤ dx * cfl) ∧
      (∀ (j : ℕ) (hj : j + 1 < steps.length), steps[j] = dx * cfl) ∧
      (Solver.init u t0).runE T (vecRhs N f) steps = .ok (run k).1.ode ∧
      (run k).1.sol.sol.value = (run k).1.ode.solution ∧ (run k).1.sol.sol.time = t0 + steps.sum ∧
      steps.sum ≤ t1 - t0 ∧ ((run k).2 = .finished → t1 - t0 - 1 / 10 ^ 12 < steps.sum) := by
  intro P run
  have hr : ∀ e, (run k).2 ≠ .raised e := by
    intro e he
    rcases (linear_run T f A hf dx cfl t0 t1 hstep hdur u).2.1 k with h | h <;> rw [show _ = _ from he] at h <;> cases h
  obtain ⟨steps, h1, h2, h3, h4, -, h6, h7, -⟩ := C94_solve P (Obj.make P ⟨u, t0, t1⟩) (make_sync _ _) k hr
  have h4' : ∀ (j : ℕ) (hj : j < steps.length), steps[j] = min (dx * cfl) (t1 - (t0 + (steps.take j).sum)) ∧
      1 / 10 ^ 12 ≤ steps[j] := by
    intro j hj
    obtain ⟨s, -, q2, q3⟩ := h4 j hj
    exact ⟨q2, q3⟩
  have htol : (0 : ℝ) < 1 / 10 ^ 12 := by positivity
  refine ⟨steps, fun dt hdt => ?_, fun j hj => ?_, h1, h2.2, h3, ?_, fun hh => (h7 hh).1⟩
  · obtain ⟨i, hi, rfl⟩ := List.getElem_of_mem hdt
    obtain ⟨q2, q3⟩ := h4' i hi
    exact ⟨htol.le.trans q3, by rw [q2]; exact min_le_left _ _⟩
  · obtain ⟨q1, -⟩ := h4' j (by omega)
    obtain ⟨q2, q3⟩ := h4' (j + 1) hj
    rcases min_choice (dx * cfl) (t1 - (t0 + (steps.take j).sum)) with hm | hm
    · rw [q1, hm]
    · exfalso
      have e : (steps.take (j + 1)).sum = (steps.take j).sum + steps[j] :=
        List.sum_take_succ steps j (by omega)
      have : steps[j + 1] ≤ t1 - (t0 + (steps.take (j + 1)).sum) := by rw [q2]; exact min_le_right _ _
      rw [e, q1, hm] at this
      linarith
  · by_cases hs : steps = []
    · rw [hs]; simp; linarith
    · exact h6 hs

theorem cg_run {N : ℕ} (T : Tableau ℝ) (f : List ℝ → Except Error (List ℝ)) (A : (Fin N → ℝ) →ₗ[ℝ] (Fin N → ℝ))
    (hf : ∀ (t : ℝ) u, vecRhs N (fun _ => f) t u = .ok (A u)) (dx cfl t0 t1 : ℝ)
    (hstep : 1 / 10 ^ 12 ≤ dx * cfl) (hdur : 1 / 10 ^ 12 ≤ t1 - t0) (u : Fin N → ℝ) :
    let P := cgParams N T f dx cfl t0 t1
    let run := solve P (Obj.make P ⟨u, t0, t1⟩)
    (∀ k : ℕ, t1 - t0 ≤ k * (dx * cfl) → (run (k + 1)).2 = .finished) ∧
    (∀ k, (run k).2 = .running ∨ (run k).2 = .finished) ∧
    (∀ k, (run k).2 = .finished →
      t1 - 1 / 10 ^ 12 < (run k).1.sol.sol.time ∧ (run k).1.sol.sol.time ≤ t1) :=
  linear_run T (fun _ => f) A hf dx cfl t0 t1 hstep hdur u

theorem cg_steps {N : ℕ} (T : Tableau ℝ) (f : List ℝ → Except Error (List ℝ)) (A : (Fin N → ℝ) →ₗ[ℝ] (Fin N → ℝ))
    (hf : ∀ (t : ℝ) u, vecRhs N (fun _ => f) t u = .ok (A u)) (dx cfl t0 t1 : ℝ)
    (hstep : 1 / 10 ^ 12 ≤ dx * cfl) (hdur : 1 / 10 ^ 12 ≤ t1 - t0) (u : Fin N → ℝ) (k : ℕ) :
    let P := cgParams N T f dx cfl t0 t1
    let run := solve P (Obj.make P ⟨u, t0, t1⟩)
    ∃ steps : List ℝ, (∀ dt ∈ steps, 0 ≤ dt ∧ dt ≤ dx * cfl) ∧
      (∀ (j : ℕ) (hj : j + 1 < steps.length), steps[j] = dx * cfl) ∧
      (Solver.init u t0).runE T (vecRhs N fun _ => f) steps = .ok (run k).1.ode ∧
      (run k).1.sol.sol.value = (run k).1.ode.solution ∧ (run k).1.sol.sol.time = t0 + steps.sum ∧
      steps.sum ≤ t1 - t0 ∧ ((run k).2 = .finished → t1 - t0 - 1 / 10 ^ 12 < steps.sum) :=
  linear_steps T (fun _ => f) A hf dx cfl t0 t1 hstep hdur u k

/-! ### Energy -/

section Degree

variable {gauss : ℕ → List (ℝ × ℝ)} {d : Interval ℝ} {n p : ℕ} {s : Space ℝ} {m : List ℝ} {C : SysMatrix ℝ}
  (h : Setup gauss d n p s m C) (solve : SysMatrix ℝ → List ℝ → Except Error (List ℝ)) (hsolve : Solves solve)
  (M : SysMatrix ℝ) (hM : massMatrix gauss s = .ok M) (exact : Bool)
include h hsolve hM

theorem operator_list {N : ℕ} (hN : s.dimension = N) {B A}
    (hA : IsOperator gauss s M C N (cgRhs solve gauss s M C .advection exact) B A) (u : Fin N → ℝ) :
    cgRhs solve gauss s M C .advection exact (List.ofFn u) = .ok (List.ofFn (A u)) := by
  obtain ⟨w, hw, hl⟩ := C87_defined h solve hsolve M hM .advection exact (List.ofFn u) (by simp [hN])
  have := hA.rhs 0 u
  unfold vecRhs at this
  simp only [hw] at this
  rw [dif_pos (hl.trans hN)] at this
  rw [hw, ← Except.ok.inj this]
  congr 1
  refine List.ext_getElem (by simp [hl, hN]) fun i h1 h2 => ?_
  rw [List.getElem_ofFn]

/-- C118.  A step of Heun's method for linear advection, any degree: it always succeeds, and the energy
grows by `dt⁴/4` times the energy of the twice applied right-hand side. -/
theorem C118_heun (S : Solver ℝ (Fin s.dimension → ℝ)) (dt : ℝ) :
    ∃ S' w w2, S.executeE (heun ℝ)
        (vecRhs s.dimension fun _ => cgRhs solve gauss s M C .advection exact) dt = .ok S' ∧
      cgRhs solve gauss s M C .advection exact (List.ofFn S.solution) = .ok w ∧
      cgRhs solve gauss s M C .advection exact w = .ok w2 ∧
      ∀ U U' R, Values s (List.ofFn S.solution) U → Values s (List.ofFn S'.solution) U' → Values s w2 R →
        integral s (fun c x => U' c x ^ 2) =
          integral s (fun c x => U c x ^ 2) + dt ^ 4 / 4 * integral s fun c x => R c x ^ 2 := by
  obtain ⟨B, A, hA⟩ := operator h solve hsolve M hM exact _ rfl
  obtain ⟨S', e1, -, e2⟩ := linear_heun _ A hA.rhs S dt
  refine ⟨S', _, _, e1, operator_list h solve hsolve M hM exact rfl hA _,
    operator_list h solve hsolve M hM exact rfl hA _, fun U U' R hU hU' hR => ?_⟩
  simp only [sq]
  rw [← hA.product _ _ _ _ hU hU, ← hA.product _ _ _ _ hU' hU', ← hA.product _ _ _ _ hR hR, e2]
  exact hA.form.heun_energy dt _

/-- C118.  A step of the third order method, any degree. -/
theorem C118_ssp (S : Solver ℝ (Fin s.dimension → ℝ)) (dt : ℝ) :
    ∃ S' w w2 w3, S.executeE (ssp3 ℝ)
        (vecRhs s.dimension fun _ => cgRhs solve gauss s M C .advection exact) dt = .ok S' ∧
      cgRhs solve gauss s M C .advection exact (List.ofFn S.solution) = .ok w ∧
      cgRhs solve gauss s M C .advection exact w = .ok w2 ∧
      cgRhs solve gauss s M C .advection exact w2 = .ok w3 ∧
      ∀ U U' R Q, Values s (List.ofFn S.solution) U → Values s (List.ofFn S'.solution) U' → Values s w2 R →
        Values s w3 Q →
        integral s (fun c x => U' c x ^ 2) = integral s (fun c x => U c x ^ 2) -
          dt ^ 4 / 12 * integral s (fun c x => R c x ^ 2) + dt ^ 6 / 36 * integral s fun c x => Q c x ^ 2 := by
  obtain ⟨B, A, hA⟩ := operator h solve hsolve M hM exact _ rfl
  obtain ⟨S', e1, -, e2⟩ := linear_ssp _ A hA.rhs S dt
  refine ⟨S', _, _, _, e1, operator_list h solve hsolve M hM exact rfl hA _,
    operator_list h solve hsolve M hM exact rfl hA _, operator_list h solve hsolve M hM exact rfl hA _,
    fun U U' R Q hU hU' hR hQ => ?_⟩
  simp only [sq]
  rw [← hA.product _ _ _ _ hU hU, ← hA.product _ _ _ _ hU' hU', ← hA.product _ _ _ _ hR hR,
    ← hA.product _ _ _ _ hQ hQ, e2]
  exact hA.form.ssp_energy dt _

end Degree

/-! ### Quadratic elements -/

theorem integral_quartic (α β γ δ ε : ℝ) :
    ∫ x in (0 : ℝ)..1, (α + β * x + γ * x ^ 2 + δ * x ^ 3 + ε * x ^ 4) = α + β / 2 + γ / 3 + δ / 4 + ε / 5 := by
  rw [intervalIntegral.integral_add, intervalIntegral.integral_add, integral_quadratic,
    intervalIntegral.integral_const_mul, intervalIntegral.integral_const_mul, integral_pow, integral_pow]
  · norm_num
    ring
  all_goals exact Continuous.intervalIntegrable (by fun_prop) _ _

/-- On the reference cell, for polynomials of degree two: the inverse inequality with the constant 60, in the
form needed below. -/
theorem quadratic_cell (p q : Polynomial ℝ) (hp : p.natDegree ≤ 2) (hq : q.natDegree ≤ 2) (t : ℝ) (ht : 0 < t) :
    ∫ x in (0 : ℝ)..1, p.eval x * q.derivative.eval x ≤
      30 / t * (∫ x in (0 : ℝ)..1, p.eval x * p.eval x) + t / 2 * ∫ x in (0 : ℝ)..1, q.eval x * q.eval x := by
  have form : ∀ r : Polynomial ℝ, r.natDegree ≤ 2 → ∃ a b c : ℝ,
      (∀ x, r.eval x = a + b * x + c * x ^ 2) ∧ ∀ x, r.derivative.eval x = b + 2 * c * x := by
    intro r hr
    refine ⟨r.coeff 0, r.coeff 1, r.coeff 2, fun x => ?_, fun x => ?_⟩
    · rw [Polynomial.eval_eq_sum_range' (by omega : r.natDegree < 3)]
      simp [Finset.sum_range_succ]
    · rw [Polynomial.eval_eq_sum_range' (n := 2)]
      · simp only [Finset.sum_range_succ, Finset.sum_range_zero, Polynomial.coeff_derivative]
        push_cast
        ring
      · have := Polynomial.natDegree_derivative_le r
        omega
  obtain ⟨a, b, c, p1, -⟩ := form p hp
  obtain ⟨a', b', c', q1, q2⟩ := form q hq
  simp only [p1, q1, q2]
  have e1 : ∀ x : ℝ, (a + b * x + c * x ^ 2) * (b' + 2 * c' * x) = a * b' + (b * b' + 2 * a * c') * x +
      (c * b' + 2 * b * c') * x ^ 2 + 2 * c * c' * x ^ 3 + 0 * x ^ 4 := by intro x; ring
  have e2 : ∀ a b c x : ℝ, (a + b * x + c * x ^ 2) * (a + b * x + c * x ^ 2) = a ^ 2 + 2 * a * b * x +
      (b ^ 2 + 2 * a * c) * x ^ 2 + 2 * b * c * x ^ 3 + c ^ 2 * x ^ 4 := by intro a b c x; ring
  simp only [e1, e2]
  simp only [integral_quartic]
  obtain ⟨α, rfl⟩ : ∃ α, a = α - b / 2 - c / 3 := ⟨a + b / 2 + c / 3, by ring⟩
  obtain ⟨β, rfl⟩ : ∃ β, b = 2 * β - c := ⟨(b + c) / 2, by ring⟩
  obtain ⟨α', rfl⟩ : ∃ α, a' = α - b' / 2 - c' / 3 := ⟨a' + b' / 2 + c' / 3, by ring⟩
  obtain ⟨β', rfl⟩ : ∃ β, b' = 2 * β - c' := ⟨(b' + c') / 2, by ring⟩
  rw [← sub_nonneg]
  have e : 30 / t * ((α - (2 * β - c) / 2 - c / 3) ^ 2 + 2 * (α - (2 * β - c) / 2 - c / 3) * (2 * β - c) / 2 +
      ((2 * β - c) ^ 2 + 2 * (α - (2 * β - c) / 2 - c / 3) * c) / 3 + 2 * (2 * β - c) * c / 4 + c ^ 2 / 5) +
      t / 2 * ((α' - (2 * β' - c') / 2 - c' / 3) ^ 2 +
        2 * (α' - (2 * β' - c') / 2 - c' / 3) * (2 * β' - c') / 2 +
      ((2 * β' - c') ^ 2 + 2 * (α' - (2 * β' - c') / 2 - c' / 3) * c') / 3 +
        2 * (2 * β' - c') * c' / 4 + c' ^ 2 / 5) -
      ((α - (2 * β - c) / 2 - c / 3) * (2 * β' - c') + ((2 * β - c) * (2 * β' - c') +
        2 * (α - (2 * β - c) / 2 - c / 3) * c') / 2 +
      (c * (2 * β' - c') + 2 * (2 * β - c) * c') / 3 + 2 * c * c' / 4 + 0 / 5) =
      (24 * α ^ 2 + 6 * (α - t * β' / 6) ^ 2 + 10 * (β - t * c' / 60) ^ 2 + c ^ 2 / 6) / t + t / 2 * α' ^ 2 := by
    field_simp
    ring
  rw [e]
  positivity

section Quadratic

variable {gauss : ℕ → List (ℝ × ℝ)} {d : Interval ℝ} {n : ℕ} {s : Space ℝ} {m : List ℝ} {C : SysMatrix ℝ}
  (h : Setup gauss d n 2 s m C) (solve : SysMatrix ℝ → List ℝ → Except Error (List ℝ)) (hsolve : Solves solve)
  (M : SysMatrix ℝ) (hM : massMatrix gauss s = .ok M) (exact : Bool)
include h hsolve hM

theorem quadratic_inverse {B A}
    (hA : IsOperator gauss s M C s.dimension (cgRhs solve gauss s M C .advection exact) B A)
    (u : Fin s.dimension → ℝ) : B (A u) (A u) ≤ 60 / ((d.b - d.a) / n) ^ 2 * B u u := by
  obtain ⟨s1, s2, s3, s4⟩ := setup_facts h
  obtain ⟨-, -, -, -, s5⟩ := make_spec d h.domain n 2 h.meshSize s h.space
  have hn : (n : ℝ) ≠ 0 := by have := h.meshSize; positivity
  have hdx : 0 < (d.b - d.a) / n :=
    div_pos (by linarith [h.domain]) (by exact_mod_cast h.meshSize)
  have hp : 0 < s.degree := by omega
  have hv := values_poly s hp (List.ofFn u) (by simp)
  have hv' := values_poly s hp (List.ofFn (A u)) (by simp)
  have hd' := derivatives_poly s hp (List.ofFn (A u)) (by simp)
  have e1 := hA.weak u (A u) _ _ hv hd'
  have e2 := hA.product u u _ _ hv hv
  have e3 := hA.product (A u) (A u) _ _ hv' hv'
  have key : B (A u) (A u) ≤ 30 / ((d.b - d.a) / n) ^ 2 * B u u + 1 / 2 * B (A u) (A u) := by
    conv_lhs => rw [e1]
    rw [e2, e3]
    unfold integral
    rw [Finset.mul_sum, Finset.mul_sum, ← Finset.sum_add_distrib]
    apply Finset.sum_le_sum
    intro c hc
    have hc' := Finset.mem_range.mp hc
    have hlen : (s.cell c).length = (d.b - d.a) / n := by
      rw [s5 c (by omega)]
      simp only [Interval.length, Mesh.node]
      push_cast
      field_simp
      ring
    have hI := s4 c hc'
    rw [integral_cell_derivative (s.cell c) hI (fun x => (s.poly (List.ofFn u) c).eval x)
        (fun x => (s.poly (List.ofFn (A u)) c).derivative.eval x),
      integral_affineInverse (s.cell c) hI (fun x => (s.poly (List.ofFn u) c).eval x *
        (s.poly (List.ofFn u) c).eval x),
      integral_affineInverse (s.cell c) hI (fun x => (s.poly (List.ofFn (A u)) c).eval x *
        (s.poly (List.ofFn (A u)) c).eval x), hlen]
    refine (quadratic_cell _ _ (s1 ▸ natDegree_poly s hp _ c) (s1 ▸ natDegree_poly s hp _ c) _ hdx).trans
      (le_of_eq ?_)
    generalize (d.b - d.a) / (n : ℝ) = dx at hdx
    field_simp
  have e : 60 / ((d.b - d.a) / (n : ℝ)) ^ 2 * B u u = 2 * (30 / ((d.b - d.a) / (n : ℝ)) ^ 2 * B u u) := by ring
  linarith

/-- C118.  Quadratic elements with SSP3: when `20 dt² ≤ dx²` for all steps, in particular for steps of the default CFL
number, the energy never grows. -/
theorem C118_quadratic (steps : List ℝ) (hs : ∀ dt ∈ steps, 20 * (dt / ((d.b - d.a) / n)) ^ 2 ≤ 1)
    (S : Solver ℝ (Fin s.dimension → ℝ)) :
    ∃ S', S.runE (ssp3 ℝ) (vecRhs s.dimension fun _ => cgRhs solve gauss s M C .advection exact) steps = .ok S' ∧
      ∀ U U', Values s (List.ofFn S.solution) U → Values s (List.ofFn S'.solution) U' →
        integral s (fun c x => U' c x ^ 2) ≤ integral s (fun c x => U c x ^ 2) := by
  have hdx : 0 < (d.b - d.a) / n :=
    div_pos (by linarith [h.domain]) (by exact_mod_cast h.meshSize)
  obtain ⟨B, A, hA⟩ := operator h solve hsolve M hM exact _ rfl
  have key : ∀ (steps : List ℝ) (_ : ∀ dt ∈ steps, 20 * (dt / ((d.b - d.a) / n)) ^ 2 ≤ 1)
      (S : Solver ℝ (Fin s.dimension → ℝ)),
      ∃ S', S.runE (ssp3 ℝ) (vecRhs s.dimension fun _ => cgRhs solve gauss s M C .advection exact) steps =
          .ok S' ∧ B S'.solution S'.solution ≤ B S.solution S.solution := by
    intro steps
    induction steps with
    | nil => intro _ S; exact ⟨S, rfl, le_rfl⟩
    | cons dt steps ih =>
      intro hs S
      obtain ⟨S1, e1, -, e2⟩ := linear_ssp _ A hA.rhs S dt
      obtain ⟨S', e3, e4⟩ := ih (fun x hx => hs x (List.mem_cons_of_mem _ hx)) S1
      refine ⟨S', ?_, e4.trans ?_⟩
      · simp only [Solver.runE, e1]; exact e3
      · rw [e2, hA.form.ssp_energy]
        have k1 := quadratic_inverse h solve hsolve M hM exact hA (A (A S.solution))
        have k2 := hA.form.nonneg (A (A S.solution))
        have k3 := hs dt (List.mem_cons_self ..)
        have k4 := mul_le_mul_of_nonneg_left k1 (by positivity : 0 ≤ dt ^ 6 / 36)
        have e : dt ^ 6 / 36 * (60 / ((d.b - d.a) / (n : ℝ)) ^ 2 * B (A (A S.solution)) (A (A S.solution))) =
            dt ^ 4 / 12 * B (A (A S.solution)) (A (A S.solution)) * (20 * (dt / ((d.b - d.a) / n)) ^ 2) := by
          generalize (d.b - d.a) / (n : ℝ) = dx at hdx
          field_simp
          ring
        rw [e] at k4
        have k5 : dt ^ 4 / 12 * B (A (A S.solution)) (A (A S.solution)) * (20 * (dt / ((d.b - d.a) / n)) ^ 2) ≤
            dt ^ 4 / 12 * B (A (A S.solution)) (A (A S.solution)) * 1 :=
          mul_le_mul_of_nonneg_left k3 (by positivity)
        linarith
  obtain ⟨S', e1, e2⟩ := key steps hs S
  refine ⟨S', e1, fun U U' hU hU' => ?_⟩
  simp only [sq]
  rw [← hA.product _ _ _ _ hU hU, ← hA.product _ _ _ _ hU' hU']
  exact e2

/-- C118.  Runs of the solver with degree two and its default integrator for advection, periodic, with a CFL
number `cfl` such that `20 cfl² ≤ 1` and a time step is not below `1e-12`: nothing is ever raised, the run
ends at the end time, and the energy of the values of the history does not increase. -/
theorem C118_quadratic_solve (cfl t0 t1 : ℝ) (hcfl : 20 * cfl ^ 2 ≤ 1)
    (hstep : 1 / 10 ^ 12 ≤ (d.b - d.a) / n * cfl) (hdur : 1 / 10 ^ 12 ≤ t1 - t0) (u : Fin s.dimension → ℝ) :
    let P := cgParams s.dimension (ssp3 ℝ) (cgRhs solve gauss s M C .advection exact) ((d.b - d.a) / n) cfl t0 t1
    let run := Verif.Solver.solve P (Obj.make P ⟨u, t0, t1⟩)
    (∀ k : ℕ, t1 - t0 ≤ k * ((d.b - d.a) / n * cfl) → (run (k + 1)).2 = .finished) ∧
    (∀ k, (run k).2 = .running ∨ (run k).2 = .finished) ∧
    (∀ k, (run k).2 = .finished →
      t1 - 1 / 10 ^ 12 < (run k).1.sol.sol.time ∧ (run k).1.sol.sol.time ≤ t1) ∧
    ∀ (k i j : ℕ) v w V W, i ≤ j → (run k).1.sol.values[i]? = some v → (run k).1.sol.values[j]? = some w →
      Values s (List.ofFn v) V → Values s (List.ofFn w) W →
      integral s (fun c x => W c x ^ 2) ≤ integral s (fun c x => V c x ^ 2) := by
  intro P run
  have hdx : 0 < (d.b - d.a) / n :=
    div_pos (by linarith [h.domain]) (by exact_mod_cast h.meshSize)
  obtain ⟨B, A, hA⟩ := operator h solve hsolve M hM exact _ rfl
  obtain ⟨r1, r2, r3⟩ := cg_run (ssp3 ℝ) _ A hA.rhs _ cfl t0 t1 hstep hdur u
  refine ⟨r1, r2, r3, ?_⟩
  intro k i j v w V W hij hv hw hV hW
  have htol : (0 : ℝ) < 1 / 10 ^ 12 := by positivity
  obtain ⟨steps, q1, q2, -, q4⟩ := EndToEnd.recorded P ⟨u, t0, t1⟩ k (by
    intro e he
    rcases r2 k with hh | hh <;> rw [show _ = _ from he] at hh <;> cases hh)
  have hj : j < steps.length + 1 := by
    have : j < (run k).1.sol.values.length := (List.getElem?_eq_some_iff.mp hw).1
    have e : (run k).1.sol.values.length = steps.length + 1 := q2
    omega
  obtain ⟨S, a1, a2, -⟩ := q4 i (by omega)
  obtain ⟨S', b1, b2, -⟩ := q4 j (by omega)
  have ev : v = S.solution := Option.some.inj (hv.symm.trans a2)
  have ew : w = S'.solution := Option.some.inj (hw.symm.trans b2)
  have hsplit : steps.take j = steps.take i ++ (steps.take j).drop i := by
    conv_lhs => rw [← List.take_append_drop i (steps.take j)]
    rw [List.take_take, min_eq_left hij]
  rw [hsplit, EndToEnd.runE_append _ _ _ _ _ S a1] at b1
  obtain ⟨S2, c1, c2⟩ := C118_quadratic h solve hsolve M hM exact ((steps.take j).drop i) (by
    intro dt hdt
    obtain ⟨z1, z2⟩ := q1 dt (List.mem_of_mem_take (List.mem_of_mem_drop hdt))
    have z3 : dt ≤ (d.b - d.a) / n * cfl := z2 rfl
    have z4 : 0 ≤ dt / ((d.b - d.a) / n) := div_nonneg (htol.le.trans z1) hdx.le
    have z5 : dt / ((d.b - d.a) / n) ≤ cfl := by rw [div_le_iff₀ hdx]; linarith
    nlinarith [pow_le_pow_left₀ z4 z5 2]) S
  have hS2 : S2 = S' := Except.ok.inj (c1.symm.trans b1)
  subst hS2
  subst ev ew
  exact c2 V W hV hW

end Quadratic

section Default

variable {gauss : ℕ → List (ℝ × ℝ)} {d : Interval ℝ} {n : ℕ} {s : Space ℝ} {m : List ℝ} {C : SysMatrix ℝ}
  (h : Setup gauss d n 1 s m C) (solve : SysMatrix ℝ → List ℝ → Except Error (List ℝ)) (hsolve : Solves solve)
  (M : SysMatrix ℝ) (hM : massMatrix gauss s = .ok M) (exact : Bool)
include h hsolve hM

/-- C118.  The scheme with linear elements: a compact difference formula for the derivative. -/
theorem C118_scheme (u : Fin n → ℝ) :
    ∃ w : Fin n → ℝ, cgRhs solve gauss s M C .advection exact (List.ofFn u) = .ok (List.ofFn w) ∧
      ∀ i : Fin n, (around w (i - 1) + 4 * w i + around w (i + 1)) / 6 =
        (around u (i - 1) - around u (i + 1)) / (2 * ((d.b - d.a) / n)) := by
  obtain ⟨s1, s2, s3, s4⟩ := setup_facts h
  rw [mul_one] at s3
  have hn := h.meshSize
  have hdx : 0 < (d.b - d.a) / n :=
    div_pos (by linarith [h.domain]) (by exact_mod_cast h.meshSize)
  obtain ⟨B, A, hA⟩ := operator h solve hsolve M hM exact n s3
  refine ⟨A u, operator_list h solve hsolve M hM exact s3 hA u, fun i => ?_⟩
  have e := (linear_form_stencil h hA (A u) (Pi.single i 1)).symm.trans
    (linear_weak_stencil h hA u (Pi.single i 1))
  have g : ∀ c ∈ Finset.range n, around (Pi.single i 1 : Fin n → ℝ) c = if c = (i : ℕ) then 1 else 0 := by
    intro c hc
    have := around_cell (Pi.single i 1 : Fin n → ℝ) ⟨c, Finset.mem_range.mp hc⟩
    simp only at this
    rw [this, Pi.single_apply]
    simp [Fin.ext_iff]
  have gs : ∀ F : ℕ → ℝ, ∑ c ∈ Finset.range n, around (Pi.single i 1 : Fin n → ℝ) c * F c = F i := by
    intro F
    rw [Finset.sum_congr rfl fun c hc => by rw [g c hc]]
    simp
  rw [gs fun c => ((d.b - d.a) / n) / 6 * (around (A u) (c - 1) + 4 * around (A u) c + around (A u) (c + 1)),
    gs fun c => (around u (c - 1) - around u (c + 1)) / 2] at e
  rw [← around_cell (A u) i]
  generalize (d.b - d.a) / (n : ℝ) = dx at e hdx
  rw [eq_div_iff (by positivity)]
  beta_reduce at e
  linarith

theorem heun_factor {B A} (hA : IsOperator gauss s M C n (cgRhs solve gauss s M C .advection exact) B A)
    (dt : ℝ) (u : Fin n → ℝ) :
    B u u ≤ B (heunMap A dt u) (heunMap A dt u) ∧
    B (heunMap A dt u) (heunMap A dt u) ≤ (1 + 9 / 4 * (dt / ((d.b - d.a) / n)) ^ 4) * B u u := by
  have hdx : 0 < (d.b - d.a) / n :=
    div_pos (by linarith [h.domain]) (by exact_mod_cast h.meshSize)
  have k1 := linear_inverse h hA u
  have k2 := linear_inverse h hA (A u)
  have k3 := hA.form.nonneg (A (A u))
  rw [hA.form.heun_energy]
  set dx := (d.b - d.a) / n
  have h4 : 0 ≤ dt ^ 4 / 4 := by positivity
  refine ⟨by nlinarith, ?_⟩
  have k4 : B (A (A u)) (A (A u)) ≤ 3 / dx ^ 2 * (3 / dx ^ 2 * B u u) :=
    k2.trans (mul_le_mul_of_nonneg_left k1 (by positivity))
  have k5 := mul_le_mul_of_nonneg_left k4 h4
  have e : dt ^ 4 / 4 * (3 / dx ^ 2 * (3 / dx ^ 2 * B u u)) = 9 / 4 * (dt / dx) ^ 4 * B u u := by
    field_simp
    ring
  rw [e] at k5
  linarith

/-- C118.  A run of the default method (linear elements, Heun): it always succeeds, the energy does not
fall, and each step of length `dt` lets it grow by the factor `1 + 9/4 (dt/dx)⁴` at most. -/
theorem C118_growth (steps : List ℝ) (S : Solver ℝ (Fin n → ℝ)) :
    ∃ S', S.runE (heun ℝ) (vecRhs n fun _ => cgRhs solve gauss s M C .advection exact) steps = .ok S' ∧
      ∀ U U', Values s (List.ofFn S.solution) U → Values s (List.ofFn S'.solution) U' →
        integral s (fun c x => U c x ^ 2) ≤ integral s (fun c x => U' c x ^ 2) ∧
        integral s (fun c x => U' c x ^ 2) ≤
          (steps.map fun dt => 1 + 9 / 4 * (dt / ((d.b - d.a) / n)) ^ 4).prod *
            integral s fun c x => U c x ^ 2 := by
  obtain ⟨s1, s2, s3, s4⟩ := setup_facts h
  rw [mul_one] at s3
  obtain ⟨B, A, hA⟩ := operator h solve hsolve M hM exact n s3
  have key : ∀ (steps : List ℝ) (S : Solver ℝ (Fin n → ℝ)),
      ∃ S', S.runE (heun ℝ) (vecRhs n fun _ => cgRhs solve gauss s M C .advection exact) steps = .ok S' ∧
        B S.solution S.solution ≤ B S'.solution S'.solution ∧
        B S'.solution S'.solution ≤ (steps.map fun dt => 1 + 9 / 4 * (dt / ((d.b - d.a) / n)) ^ 4).prod *
          B S.solution S.solution := by
    intro steps
    induction steps with
    | nil => intro S; exact ⟨S, rfl, le_rfl, by simp⟩
    | cons dt steps ih =>
      intro S
      obtain ⟨S1, e1, -, e2⟩ := linear_heun _ A hA.rhs S dt
      obtain ⟨S', e3, e4, e5⟩ := ih S1
      obtain ⟨f1, f2⟩ := heun_factor h solve hsolve M hM exact hA dt S.solution
      rw [← e2] at f1 f2
      refine ⟨S', ?_, f1.trans e4, e5.trans ?_⟩
      · simp only [Solver.runE, e1]; exact e3
      · rw [List.map_cons, List.prod_cons, mul_comm (1 + _), mul_assoc]
        apply mul_le_mul_of_nonneg_left f2
        apply List.prod_nonneg
        intro x hx
        obtain ⟨y, -, rfl⟩ := List.mem_map.mp hx
        positivity
  obtain ⟨S', e1, e2, e3⟩ := key steps S
  refine ⟨S', e1, fun U U' hU hU' => ?_⟩
  simp only [sq]
  rw [← hA.product _ _ _ _ hU hU, ← hA.product _ _ _ _ hU' hU']
  exact ⟨e2, e3⟩

/-- The mode that grows fastest: 2, -1, -1, 2, -1, -1, ... -/
noncomputable def saw (z : ℤ) : ℝ := if z % 3 = 0 then 2 else -1

/-- Its derivative, up to a factor: 0, 1, -1, 0, 1, -1, ... -/
noncomputable def saw' (z : ℤ) : ℝ := if z % 3 = 0 then 0 else if z % 3 = 1 then 1 else -1

omit h hsolve hM in
theorem saw_values (z : ℤ) :
    (saw' (z - 1) + 4 * saw' z + saw' (z + 1)) / 6 * 3 = (saw (z - 1) - saw (z + 1)) / 2 ∧
    (saw (z - 1) + 4 * saw z + saw (z + 1)) / 6 * (-1) = (saw' (z - 1) - saw' (z + 1)) / 2 := by
  have : z % 3 = 0 ∨ z % 3 = 1 ∨ z % 3 = 2 := by omega
  unfold saw saw'
  rcases this with h | h | h
  · have h1 : (z - 1) % 3 = 2 := by omega
    have h2 : (z + 1) % 3 = 1 := by omega
    simp only [h, h1, h2]; norm_num
  · have h1 : (z - 1) % 3 = 0 := by omega
    have h2 : (z + 1) % 3 = 2 := by omega
    simp only [h, h1, h2]; norm_num
  · have h1 : (z - 1) % 3 = 1 := by omega
    have h2 : (z + 1) % 3 = 0 := by omega
    simp only [h, h1, h2]; norm_num

theorem saw_operator {B A} (hA : IsOperator gauss s M C n (cgRhs solve gauss s M C .advection exact) B A)
    (h3 : 3 ∣ n) :
    A (A fun i : Fin n => saw i) = (-(3 / ((d.b - d.a) / n) ^ 2)) • fun i : Fin n => saw i := by
  have hn := h.meshSize
  have hdx : 0 < (d.b - d.a) / n :=
    div_pos (by linarith [h.domain]) (by exact_mod_cast h.meshSize)
  obtain ⟨k, hk⟩ := h3
  have p1 : ∀ z, saw (z + n) = saw z := by
    intro z; unfold saw; congr 2; rw [hk]; push_cast; omega
  have p2 : ∀ z, saw' (z + n) = saw' z := by
    intro z
    have : (z + (n : ℤ)) % 3 = z % 3 := by rw [hk]; push_cast; omega
    unfold saw'; rw [this]
  have a1 := around_of_periodic hn saw p1
  have a2 := around_of_periodic hn saw' p2
  set dx := (d.b - d.a) / n with hdx'
  have e1 : A (fun i : Fin n => saw i) = (3 / dx) • fun i : Fin n => saw' i := by
    apply operator_eq h hA
    intro c
    simp only [around_smul, a1, a2]
    rw [← (saw_values c).1, ← hdx']
    field_simp
  have e2 : A (fun i : Fin n => saw' i) = (-(1 / dx)) • fun i : Fin n => saw i := by
    apply operator_eq h hA
    intro c
    simp only [around_smul, a1, a2]
    rw [← (saw_values c).2, ← hdx']
    field_simp
    ring
  rw [e1, map_smul, e2, smul_smul]
  congr 1
  field_simp

/-- C118.  On meshes whose number of cells is a multiple of three the growth of `C118_growth` is attained,
in all steps of a run. -/
theorem C118_attained (h3 : 3 ∣ n) (steps : List ℝ) (t₀ : ℝ) :
    ∃ S', (Solver.init (fun i : Fin n => if (i : ℕ) % 3 = 0 then (2 : ℝ) else -1) t₀).runE (heun ℝ)
        (vecRhs n fun _ => cgRhs solve gauss s M C .advection exact) steps = .ok S' ∧
      ∀ U U', Values s (List.ofFn fun i : Fin n => if (i : ℕ) % 3 = 0 then (2 : ℝ) else -1) U →
        Values s (List.ofFn S'.solution) U' →
        0 < integral s (fun c x => U c x ^ 2) ∧
        integral s (fun c x => U' c x ^ 2) =
          (steps.map fun dt => 1 + 9 / 4 * (dt / ((d.b - d.a) / n)) ^ 4).prod *
            integral s fun c x => U c x ^ 2 := by
  obtain ⟨s1, s2, s3, s4⟩ := setup_facts h
  rw [mul_one] at s3
  have hn := h.meshSize
  have hdx : 0 < (d.b - d.a) / n :=
    div_pos (by linarith [h.domain]) (by exact_mod_cast h.meshSize)
  obtain ⟨B, A, hA⟩ := operator h solve hsolve M hM exact n s3
  have e0 : (fun i : Fin n => if (i : ℕ) % 3 = 0 then (2 : ℝ) else -1) = fun i : Fin n => saw i := by
    funext i
    unfold saw
    have : ((i : ℕ) % 3 = 0) ↔ (((i : ℕ) : ℤ) % 3 = 0) := by omega
    simp only [this]
  rw [e0]
  have key : ∀ (steps : List ℝ) (S : Solver ℝ (Fin n → ℝ)),
      A (A S.solution) = (-(3 / ((d.b - d.a) / n) ^ 2)) • S.solution →
      ∃ S', S.runE (heun ℝ) (vecRhs n fun _ => cgRhs solve gauss s M C .advection exact) steps = .ok S' ∧
        B S'.solution S'.solution = (steps.map fun dt => 1 + 9 / 4 * (dt / ((d.b - d.a) / n)) ^ 4).prod *
          B S.solution S.solution := by
    intro steps
    induction steps with
    | nil => intro S _; exact ⟨S, rfl, by simp⟩
    | cons dt steps ih =>
      intro S hS
      obtain ⟨S1, e1, -, e2⟩ := linear_heun _ A hA.rhs S dt
      obtain ⟨S', e3, e4⟩ := ih S1 (by
        rw [e2, heunMap_apply]
        simp only [map_add, map_smul, hS, smul_add]
        module)
      refine ⟨S', ?_, ?_⟩
      · simp only [Solver.runE, e1]; exact e3
      · rw [e4, List.map_cons, List.prod_cons, e2, hA.form.heun_energy, hS]
        simp only [map_smul, LinearMap.smul_apply, smul_eq_mul]
        generalize (List.map (fun dt : ℝ => 1 + 9 / 4 * (dt / ((d.b - d.a) / n)) ^ 4) steps).prod = P
        generalize (d.b - d.a) / (n : ℝ) = dx at hdx
        field_simp
        ring
  obtain ⟨S', e1, e2⟩ := key steps (Solver.init (fun i : Fin n => saw i) t₀)
    (saw_operator h solve hsolve M hM exact hA h3)
  refine ⟨S', e1, fun U U' hU hU' => ?_⟩
  simp only [sq]
  rw [← hA.product _ _ _ _ hU hU, ← hA.product _ _ _ _ hU' hU']
  refine ⟨?_, e2⟩
  refine lt_of_le_of_ne (hA.form.nonneg _) fun hz => ?_
  have := congrFun (hA.form.definite _ hz.symm) ⟨0, hn⟩
  simp [saw] at this

omit h hsolve hM in
theorem prod_exp (cfl dx : ℝ) (hdx : 0 < dx) (steps : List ℝ) (hs : ∀ dt ∈ steps, 0 ≤ dt ∧ dt ≤ dx * cfl) :
    (steps.map fun dt => 1 + 9 / 4 * (dt / dx) ^ 4).prod ≤ Real.exp (9 / 4 * cfl ^ 3 * steps.sum / dx) := by
  induction steps with
  | nil => simp
  | cons dt steps ih =>
    obtain ⟨h1, h2⟩ := hs dt (List.mem_cons_self ..)
    have ih' := ih fun x hx => hs x (List.mem_cons_of_mem _ hx)
    rw [List.map_cons, List.prod_cons, List.sum_cons]
    have e : 9 / 4 * cfl ^ 3 * (dt + steps.sum) / dx =
        9 / 4 * cfl ^ 3 * (dt / dx) + 9 / 4 * cfl ^ 3 * steps.sum / dx := by
      field_simp
    rw [e, Real.exp_add]
    have hν : 0 ≤ dt / dx := by positivity
    have hc : dt / dx ≤ cfl := by rw [div_le_iff₀ hdx]; linarith
    have k : 1 + 9 / 4 * (dt / dx) ^ 4 ≤ Real.exp (9 / 4 * cfl ^ 3 * (dt / dx)) := by
      have k1 : (dt / dx) ^ 3 ≤ cfl ^ 3 := pow_le_pow_left₀ hν hc 3
      have k2 : (dt / dx) ^ 4 ≤ cfl ^ 3 * (dt / dx) := by nlinarith
      linarith [Real.add_one_le_exp (9 / 4 * cfl ^ 3 * (dt / dx))]
    apply mul_le_mul k ih' _ (Real.exp_pos _).le
    apply List.prod_nonneg
    intro x hx
    obtain ⟨y, -, rfl⟩ := List.mem_map.mp hx
    positivity

/-- C118.  Runs of the solver with default degree and integrator for advection, periodic, with a positive CFL number such
that a time step is not below `1e-12`: nothing is ever raised, the run ends after at most as many steps as the
duration has time steps and reaches the end time up to less than `1e-12`.  Of two values of the history the
later one has at least the energy of the earlier one, and at most `exp (9/4 cfl³ (t' - t) / dx)` times
that. -/
theorem C118_solve (cfl t0 t1 : ℝ) (hstep : 1 / 10 ^ 12 ≤ (d.b - d.a) / n * cfl) (hdur : 1 / 10 ^ 12 ≤ t1 - t0)
    (u : Fin n → ℝ) :
    let P := cgParams n (heun ℝ) (cgRhs solve gauss s M C .advection exact) ((d.b - d.a) / n) cfl t0 t1
    let run := Verif.Solver.solve P (Obj.make P ⟨u, t0, t1⟩)
    (∀ k : ℕ, t1 - t0 ≤ k * ((d.b - d.a) / n * cfl) → (run (k + 1)).2 = .finished) ∧
    (∀ k, (run k).2 = .running ∨ (run k).2 = .finished) ∧
    (∀ k, (run k).2 = .finished →
      t1 - 1 / 10 ^ 12 < (run k).1.sol.sol.time ∧ (run k).1.sol.sol.time ≤ t1) ∧
    ∀ (k i j : ℕ) v w t t' V W, i ≤ j → (run k).1.sol.values[i]? = some v → (run k).1.sol.values[j]? = some w →
      (run k).1.sol.times[i]? = some t → (run k).1.sol.times[j]? = some t' →
      Values s (List.ofFn v) V → Values s (List.ofFn w) W →
      integral s (fun c x => V c x ^ 2) ≤ integral s (fun c x => W c x ^ 2) ∧
      integral s (fun c x => W c x ^ 2) ≤ Real.exp (9 / 4 * cfl ^ 3 * (t' - t) / ((d.b - d.a) / n)) *
        integral s (fun c x => V c x ^ 2) := by
  intro P run
  obtain ⟨s1, s2, s3, s4⟩ := setup_facts h
  rw [mul_one] at s3
  have hdx : 0 < (d.b - d.a) / n :=
    div_pos (by linarith [h.domain]) (by exact_mod_cast h.meshSize)
  obtain ⟨B, A, hA⟩ := operator h solve hsolve M hM exact n s3
  obtain ⟨r1, r2, r3⟩ := cg_run (heun ℝ) _ A hA.rhs _ cfl t0 t1 hstep hdur u
  refine ⟨r1, r2, r3, ?_⟩
  intro k i j v w t t' V W hij hv hw ht ht' hV hW
  have htol : (0 : ℝ) < 1 / 10 ^ 12 := by positivity
  obtain ⟨steps, q1, q2, -, q4⟩ := EndToEnd.recorded P ⟨u, t0, t1⟩ k (by
    intro e he
    rcases r2 k with hh | hh <;> rw [show _ = _ from he] at hh <;> cases hh)
  have hj : j < steps.length + 1 := by
    have : j < (run k).1.sol.values.length := (List.getElem?_eq_some_iff.mp hw).1
    have e : (run k).1.sol.values.length = steps.length + 1 := q2
    omega
  obtain ⟨S, a1, a2, a3⟩ := q4 i (by omega)
  obtain ⟨S', b1, b2, b3⟩ := q4 j (by omega)
  have ev : v = S.solution := Option.some.inj (hv.symm.trans a2)
  have ew : w = S'.solution := Option.some.inj (hw.symm.trans b2)
  have et : t = S.time := Option.some.inj (ht.symm.trans a3)
  have et' : t' = S'.time := Option.some.inj (ht'.symm.trans b3)
  have hsplit : steps.take j = steps.take i ++ (steps.take j).drop i := by
    conv_lhs => rw [← List.take_append_drop i (steps.take j)]
    rw [List.take_take, min_eq_left hij]
  rw [hsplit, EndToEnd.runE_append _ _ _ _ _ S a1] at b1
  obtain ⟨S2, c1, c2⟩ := C118_growth h solve hsolve M hM exact ((steps.take j).drop i) S
  have hS2 : S2 = S' := Except.ok.inj (c1.symm.trans b1)
  subst hS2
  subst ev ew et et'
  obtain ⟨c3, c4⟩ := c2 V W hV hW
  refine ⟨c3, c4.trans ?_⟩
  rw [show S2.time - S.time = ((steps.take j).drop i).sum by
    rw [runE_time _ _ _ _ _ c1]; ring]
  apply mul_le_mul_of_nonneg_right
  · apply prod_exp cfl _ hdx
    intro dt hdt
    obtain ⟨z1, z2⟩ := q1 dt (List.mem_of_mem_take (List.mem_of_mem_drop hdt))
    exact ⟨htol.le.trans z1, z2 rfl⟩
  · simp only [sq]
    rw [← hA.product _ _ _ _ hV hV]
    exact hA.form.nonneg _

omit h hsolve hM in
theorem prod_const (dx cfl : ℝ) (hdx : 0 < dx) (steps : List ℝ)
    (hs : ∀ (j : ℕ) (_ : j + 1 < steps.length), steps[j] = dx * cfl) (q : ℕ) (hq : q + 1 ≤ steps.length) :
    (1 + 9 / 4 * cfl ^ 4) ^ q ≤ (steps.map fun dt => 1 + 9 / 4 * (dt / dx) ^ 4).prod := by
  induction steps generalizing q with
  | nil => simp at hq
  | cons dt steps ih =>
    have one : ∀ l : List ℝ, 1 ≤ (l.map fun dt => 1 + 9 / 4 * (dt / dx) ^ 4).prod := by
      intro l
      induction l with
      | nil => simp
      | cons x l ih =>
        rw [List.map_cons, List.prod_cons]
        have : 0 ≤ 9 / 4 * (x / dx) ^ 4 := by positivity
        nlinarith
    cases q with
    | zero => rw [pow_zero]; exact one _
    | succ q =>
      rw [List.length_cons] at hq
      rw [List.map_cons, List.prod_cons, pow_succ', show dt = dx * cfl from hs 0 (by rw [List.length_cons]; omega)]
      rw [show dx * cfl / dx = cfl by field_simp]
      apply mul_le_mul_of_nonneg_left _ (by positivity)
      apply ih _ q (by omega)
      intro j hj
      exact hs (j + 1) (by simpa using hj)

/-- C118.  The method is not stable: when the number of cells is a multiple of three, the run from the nodal
values `2, -1, -1, 2, ...` ends with at least `(1 + 9/4 cfl⁴) ^ q` times the initial energy, for every `q`
such that `q + 1` time steps fit into the duration.  For fixed CFL number and duration this is exponential
in the number of cells. -/
theorem C118_unstable (h3 : 3 ∣ n) (cfl t0 t1 : ℝ) (hstep : 1 / 10 ^ 12 ≤ (d.b - d.a) / n * cfl)
    (hdur : 1 / 10 ^ 12 ≤ t1 - t0) (q : ℕ)
    (hq : (q + 1) * ((d.b - d.a) / n * cfl) + 1 / 10 ^ 12 ≤ t1 - t0) :
    let u := fun i : Fin n => if (i : ℕ) % 3 = 0 then (2 : ℝ) else -1
    let P := cgParams n (heun ℝ) (cgRhs solve gauss s M C .advection exact) ((d.b - d.a) / n) cfl t0 t1
    let run := Verif.Solver.solve P (Obj.make P ⟨u, t0, t1⟩)
    ∀ k V W, (run k).2 = .finished → Values s (List.ofFn u) V →
      Values s (List.ofFn (run k).1.sol.sol.value) W →
      0 < integral s (fun c x => V c x ^ 2) ∧
      (1 + 9 / 4 * cfl ^ 4) ^ q * integral s (fun c x => V c x ^ 2) ≤ integral s (fun c x => W c x ^ 2) := by
  intro u P run k V W hk hV hW
  obtain ⟨s1, s2, s3, s4⟩ := setup_facts h
  rw [mul_one] at s3
  have hdx : 0 < (d.b - d.a) / n :=
    div_pos (by linarith [h.domain]) (by exact_mod_cast h.meshSize)
  obtain ⟨B, A, hA⟩ := operator h solve hsolve M hM exact n s3
  obtain ⟨steps, z1, z2, z3, z4, z5, z6, z7⟩ := cg_steps (heun ℝ) _ A hA.rhs _ cfl t0 t1 hstep hdur u k
  obtain ⟨S', e1, e2⟩ := C118_attained h solve hsolve M hM exact h3 steps t0
  have hS : S' = (run k).1.ode := Except.ok.inj (e1.symm.trans z3)
  rw [show (run k).1.sol.sol.value = S'.solution by rw [hS]; exact z4] at hW
  obtain ⟨e3, e4⟩ := e2 V W hV hW
  refine ⟨e3, ?_⟩
  rw [e4]
  apply mul_le_mul_of_nonneg_right _ e3.le
  apply prod_const _ _ hdx _ z2
  by_contra hlt
  have hlen : steps.length ≤ q := by omega
  have hsum : steps.sum ≤ steps.length * ((d.b - d.a) / n * cfl) := by
    rw [← nsmul_eq_mul]
    exact List.sum_le_card_nsmul _ _ fun x hx => (z1 x hx).2
  have hfin := z7 hk
  have hc : 0 ≤ (d.b - d.a) / n * cfl := le_trans (by positivity) hstep
  have : (steps.length : ℝ) * ((d.b - d.a) / n * cfl) ≤ q * ((d.b - d.a) / n * cfl) :=
    mul_le_mul_of_nonneg_right (by exact_mod_cast hlen) hc
  linarith

end Default

/-! ### Concrete cases -/

/-- With default degree, CFL number and integrator, on the unit interval with 3000 cells until time 1: the
energy at the end is more than seven times the initial energy. -/
example : ∃ gauss s m C M solve, Setup gauss ⟨0, 1⟩ 3000 1 s m C ∧ massMatrix gauss s = .ok M ∧ Solves solve ∧
    let u := fun i : Fin 3000 => if (i : ℕ) % 3 = 0 then (2 : ℝ) else -1
    let P := cgParams 3000 (heun ℝ) (cgRhs solve gauss s M C .advection true) (1 / 3000) (1 / 10) 0 1
    let run := Verif.Solver.solve P (Obj.make P ⟨u, 0, 1⟩)
    ∃ k V W, (run k).2 = .finished ∧ Values s (List.ofFn u) V ∧
      Values s (List.ofFn (run k).1.sol.sol.value) W ∧
      7 * integral s (fun c x => V c x ^ 2) < integral s (fun c x => W c x ^ 2) := by
  obtain ⟨gauss, s, m, C, h⟩ := exists_setup ⟨0, 1⟩ (by norm_num) 3000 1 (by norm_num) (by norm_num)
  obtain ⟨solve, hsolve⟩ := exists_solves
  obtain ⟨s1, s2, s3, s4⟩ := setup_facts h
  obtain ⟨M, hM, -⟩ := mass_spec gauss s (by omega)
  refine ⟨gauss, s, m, C, M, solve, h, hM, hsolve, ?_⟩
  intro u P run
  have r := C118_solve h solve hsolve M hM true (1 / 10) 0 1 (by norm_num) (by norm_num) u
  have e := C118_unstable h solve hsolve M hM true (by norm_num) (1 / 10) 0 1 (by norm_num) (by norm_num) 29998
    (by norm_num)
  have hP : cgParams 3000 (heun ℝ) (cgRhs solve gauss s M C .advection true) ((1 - 0) / (3000 : ℕ)) (1 / 10) 0 1 =
      P := by
    simp only [P]
    congr 1
    norm_num
  simp only at r e
  rw [hP] at r e
  obtain ⟨r1, -⟩ := r
  obtain ⟨k, hfin⟩ : ∃ k, (run k).2 = .finished := ⟨_, r1 30000 (by norm_num)⟩
  have hv := values_poly s (by omega) (List.ofFn u) (by rw [List.length_ofFn, s3])
  have hw := values_poly s (by omega) (List.ofFn (run k).1.sol.sol.value) (by rw [List.length_ofFn, s3])
  refine ⟨k, _, _, hfin, hv, hw, ?_⟩
  obtain ⟨e1, e2⟩ := e k _ _ hfin hv hw
  have b := one_add_mul_le_pow (a := 9 / 4 * (1 / 10 : ℝ) ^ 4) (by norm_num) 29998
  have b' : (7 : ℝ) < (1 + 9 / 4 * (1 / 10) ^ 4) ^ 29998 := lt_of_lt_of_le (by norm_num) b
  exact lt_of_lt_of_le (mul_lt_mul_of_pos_right b' e1) e2

/-- Quadratic elements with the default CFL number on the unit interval with 100 cells until time 1. -/
example : ∃ gauss s m C M solve, Setup gauss ⟨0, 1⟩ 100 2 s m C ∧ massMatrix gauss s = .ok M ∧ Solves solve ∧
    ∀ u : Fin s.dimension → ℝ,
    let P := cgParams s.dimension (ssp3 ℝ) (cgRhs solve gauss s M C .advection true) (1 / 100) (1 / 10) 0 1
    let run := Verif.Solver.solve P (Obj.make P ⟨u, 0, 1⟩)
    (run 1001).2 = .finished := by
  obtain ⟨gauss, s, m, C, h⟩ := exists_setup ⟨0, 1⟩ (by norm_num) 100 2 (by norm_num) (by norm_num)
  obtain ⟨solve, hsolve⟩ := exists_solves
  obtain ⟨s1, s2, s3, s4⟩ := setup_facts h
  obtain ⟨M, hM, -⟩ := mass_spec gauss s (by omega)
  refine ⟨gauss, s, m, C, M, solve, h, hM, hsolve, ?_⟩
  intro u P run
  have r := C118_quadratic_solve h solve hsolve M hM true (1 / 10) 0 1 (by norm_num) (by norm_num) (by norm_num) u
  have hP : cgParams s.dimension (ssp3 ℝ) (cgRhs solve gauss s M C .advection true) ((1 - 0) / (100 : ℕ)) (1 / 10)
      0 1 = P := by
    simp only [P]
    congr 1
    norm_num
  simp only at r
  rw [hP] at r
  exact r.1 1000 (by norm_num)

end Verif.FE
