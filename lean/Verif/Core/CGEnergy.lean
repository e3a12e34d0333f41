import Verif.Core.SSP
import Mathlib.LinearAlgebra.BilinearForm.Basic
import Mathlib.Algebra.QuadraticDiscriminant
import Mathlib.Analysis.SpecialFunctions.Pow.Real
import Mathlib.Analysis.Calculus.MeanValue
import Mathlib.Analysis.Calculus.Deriv.Pow

/-!
Helper lemmas for the continuous Galerkin method: Runge-Kutta steps for linear right-hand sides, energies
of skew operators, norms from bilinear forms, remainders of Taylor's and of Simpson's formula.
-/

set_option linter.unusedSectionVars false

namespace Verif.FE

open Verif.ODE

/-! ### Runge-Kutta steps for linear right-hand sides -/

section Linear

variable {E ε : Type*} [AddCommGroup E] [Module ℝ E]

/-- The map of a step of Heun's method. -/
noncomputable def heunMap (A : E →ₗ[ℝ] E) (dt : ℝ) : E →ₗ[ℝ] E :=
  LinearMap.id + dt • A + (dt ^ 2 / 2) • (A.comp A)

/-- The map of a step of the third order method. -/
noncomputable def sspMap (A : E →ₗ[ℝ] E) (dt : ℝ) : E →ₗ[ℝ] E :=
  LinearMap.id + dt • A + (dt ^ 2 / 2) • (A.comp A) + (dt ^ 3 / 6) • (A.comp (A.comp A))

theorem heunMap_apply (A : E →ₗ[ℝ] E) (dt : ℝ) (u : E) :
    heunMap A dt u = u + dt • A u + (dt ^ 2 / 2) • A (A u) := by
  simp [heunMap]

theorem sspMap_apply (A : E →ₗ[ℝ] E) (dt : ℝ) (u : E) :
    sspMap A dt u = u + dt • A u + (dt ^ 2 / 2) • A (A u) + (dt ^ 3 / 6) • A (A (A u)) := by
  simp [sspMap]

variable (f : ℝ → E → Except ε E) (A : E →ₗ[ℝ] E) (hf : ∀ t u, f t u = .ok (A u))
include hf

theorem linear_total (T : Tableau ℝ) (s : Solver ℝ E) (dt : ℝ) :
    s.executeE T f dt = .ok (s.execute T (fun _ => A) dt) := by
  have e : totalise f = fun _ u => A u := by
    funext t u; simp [totalise, hf]
  rw [executeE_ok T f s dt (fun i _ => ⟨_, hf _ _⟩), e]

theorem linear_heun (s : Solver ℝ E) (dt : ℝ) :
    ∃ s', s.executeE (heun ℝ) f dt = .ok s' ∧ s'.time = s.time + dt ∧
      s'.solution = heunMap A dt s.solution := by
  refine ⟨_, linear_total f A hf _ s dt, rfl, ?_⟩
  rw [execute_heun, heunMap_apply]
  simp only [map_add, map_smul]
  module

theorem linear_ssp (s : Solver ℝ E) (dt : ℝ) :
    ∃ s', s.executeE (ssp3 ℝ) f dt = .ok s' ∧ s'.time = s.time + dt ∧
      s'.solution = sspMap A dt s.solution := by
  refine ⟨_, linear_total f A hf _ s dt, rfl, ?_⟩
  rw [execute_ssp3, sspMap_apply]
  simp only [map_add, map_smul]
  module

end Linear

/-! ### Energies -/

section Form

variable {E : Type*} [AddCommGroup E] [Module ℝ E]

/-- A scalar product in which the operator `A` is skew. -/
structure SkewForm (B : E →ₗ[ℝ] E →ₗ[ℝ] ℝ) (A : E →ₗ[ℝ] E) : Prop where
  symm : ∀ u v, B u v = B v u
  nonneg : ∀ u, 0 ≤ B u u
  definite : ∀ u, B u u = 0 → u = 0
  skew : ∀ u v, B (A u) v = -B u (A v)

variable {B : E →ₗ[ℝ] E →ₗ[ℝ] ℝ} {A : E →ₗ[ℝ] E} (h : SkewForm B A)
include h

theorem SkewForm.orth (u : E) : B (A u) u = 0 := by
  have := h.skew u u
  rw [h.symm u (A u)] at this
  linarith

theorem SkewForm.heun_energy (dt : ℝ) (u : E) :
    B (heunMap A dt u) (heunMap A dt u) = B u u + dt ^ 4 / 4 * B (A (A u)) (A (A u)) := by
  have e1 := h.orth u
  have e2 := h.orth (A u)
  have e3 := h.skew (A u) u
  have s1 := h.symm u (A u)
  have s2 := h.symm u (A (A u))
  have s3 := h.symm (A u) (A (A u))
  rw [heunMap_apply]
  simp only [map_add, map_smul, LinearMap.add_apply, LinearMap.smul_apply, smul_eq_mul]
  rw [s1, s2, s3, e1, e2, e3]
  ring

theorem SkewForm.ssp_energy (dt : ℝ) (u : E) :
    B (sspMap A dt u) (sspMap A dt u) = B u u - dt ^ 4 / 12 * B (A (A u)) (A (A u)) +
      dt ^ 6 / 36 * B (A (A (A u))) (A (A (A u))) := by
  have e1 := h.orth u
  have e2 := h.orth (A u)
  have e2' := h.orth (A (A u))
  have e3 := h.skew (A u) u
  have e4 := h.skew (A (A u)) u
  have e5 := h.skew (A (A u)) (A u)
  have s1 := h.symm u (A u)
  have s2 := h.symm u (A (A u))
  have s3 := h.symm (A u) (A (A u))
  have s4 := h.symm u (A (A (A u)))
  have s5 := h.symm (A u) (A (A (A u)))
  have s6 := h.symm (A (A u)) (A (A (A u)))
  rw [sspMap_apply]
  simp only [map_add, map_smul, LinearMap.add_apply, LinearMap.smul_apply, smul_eq_mul]
  rw [s1, s2, s3, s4, s5, s6, e1, e2, e2', e3, e4, e5, e2]
  ring

/-- The norm of the scalar product. -/
noncomputable def formNorm (B : E →ₗ[ℝ] E →ₗ[ℝ] ℝ) (u : E) : ℝ := Real.sqrt (B u u)

theorem SkewForm.norm_sq (u : E) : formNorm B u ^ 2 = B u u := Real.sq_sqrt (h.nonneg u)

theorem SkewForm.cauchy (u v : E) : B u v ≤ formNorm B u * formNorm B v := by
  have key : B u v ^ 2 ≤ B u u * B v v := by
    have hq : ∀ t : ℝ, 0 ≤ B v v * (t * t) + 2 * B u v * t + B u u := by
      intro t
      have := h.nonneg (u + t • v)
      simp only [map_add, map_smul, LinearMap.add_apply, LinearMap.smul_apply, smul_eq_mul] at this
      rw [h.symm v u] at this
      linarith
    have := discrim_le_zero hq
    unfold discrim at this
    nlinarith
  unfold formNorm
  rw [← Real.sqrt_mul (h.nonneg u)]
  exact Real.le_sqrt_of_sq_le key

theorem SkewForm.triangle (u v : E) : formNorm B (u + v) ≤ formNorm B u + formNorm B v := by
  have h0 : 0 ≤ formNorm B u := Real.sqrt_nonneg _
  have h1 : 0 ≤ formNorm B v := Real.sqrt_nonneg _
  apply Real.sqrt_le_iff.mpr
  refine ⟨by positivity, ?_⟩
  have e : B (u + v) (u + v) = B u u + 2 * B u v + B v v := by
    simp only [map_add, LinearMap.add_apply]
    rw [h.symm v u]; ring
  rw [e, ← h.norm_sq u, ← h.norm_sq v]
  nlinarith [h.cauchy u v]

theorem SkewForm.norm_smul (t : ℝ) (u : E) : formNorm B (t • u) = |t| * formNorm B u := by
  unfold formNorm
  rw [← Real.sqrt_sq_eq_abs, ← Real.sqrt_mul (sq_nonneg t)]
  congr 1
  simp only [map_smul, LinearMap.smul_apply, smul_eq_mul]
  ring

theorem SkewForm.norm_le (u : E) (c : ℝ) (hc : 0 ≤ c) (hu : B u u ≤ c ^ 2) : formNorm B u ≤ c :=
  Real.sqrt_le_iff.mpr ⟨hc, hu⟩

end Form

/-! ### Remainders -/

theorem bound_of_deriv (F F' : ℝ → ℝ) (hF : ∀ s, HasDerivAt F (F' s) s) (h0 : F 0 = 0) (c : ℝ) (k : ℕ)
    (hb : ∀ s, 0 ≤ s → |F' s| ≤ c * s ^ k) (s : ℝ) (hs : 0 ≤ s) :
    |F s| ≤ c / (k + 1) * s ^ (k + 1) := by
  have hk : (k : ℝ) + 1 ≠ 0 := by positivity
  have hB : ∀ x, HasDerivAt (fun x : ℝ => c / (k + 1) * x ^ (k + 1)) (c * x ^ k) x := by
    intro x
    have := ((hasDerivAt_id' x).pow (k + 1)).const_mul (c / ((k : ℝ) + 1))
    refine this.congr_deriv ?_
    push_cast
    field_simp
  have := image_norm_le_of_norm_deriv_right_le_deriv_boundary (f := F) (f' := F') (a := 0) (b := s)
    (B := fun x => c / (k + 1) * x ^ (k + 1)) (B' := fun x => c * x ^ k)
    (fun x _ => (hF x).continuousAt.continuousWithinAt)
    (fun x _ => (hF x).hasDerivWithinAt) (by simp [h0]) hB
    (fun x hx => by rw [Real.norm_eq_abs]; exact hb x hx.1) (x := s) ⟨hs, le_rfl⟩
  rwa [Real.norm_eq_abs] at this

/-- Taylor's formula backwards. -/
theorem taylor_back (f f1 f2 : ℝ → ℝ) (h1 : ∀ x, HasDerivAt f (f1 x) x) (h2 : ∀ x, HasDerivAt f1 (f2 x) x)
    (M : ℝ) (hM : ∀ x y, |f2 x - f2 y| ≤ M * |x - y|) (x s : ℝ) (hs : 0 ≤ s) :
    |f (x - s) - (f x - s * f1 x + s ^ 2 / 2 * f2 x)| ≤ M / 6 * s ^ 3 := by
  have sub : ∀ s, HasDerivAt (fun s : ℝ => x - s) (-1) s := fun s => by
    simpa using (hasDerivAt_id' s).const_sub x
  have d1 : ∀ s, HasDerivAt (fun s => f1 x - f1 (x - s) - s * f2 x) (f2 (x - s) - f2 x) s := by
    intro s
    have := (((h2 (x - s)).comp s (sub s)).const_sub (f1 x)).sub ((hasDerivAt_id' s).mul_const (f2 x))
    refine this.congr_deriv ?_
    simp
  have d0 : ∀ s, HasDerivAt (fun s => f (x - s) - (f x - s * f1 x + s ^ 2 / 2 * f2 x))
      (f1 x - f1 (x - s) - s * f2 x) s := by
    intro s
    have := ((h1 (x - s)).comp s (sub s)).sub
      ((((hasDerivAt_id' s).mul_const (f1 x)).const_sub (f x)).add
        ((((hasDerivAt_id' s).pow 2).div_const 2).mul_const (f2 x)))
    refine this.congr_deriv ?_
    simp only [Pi.add_apply, Pi.sub_apply, Nat.cast_ofNat, mul_neg, mul_one]
    ring
  have b1 : ∀ s, 0 ≤ s → |f1 x - f1 (x - s) - s * f2 x| ≤ M / 2 * s ^ 2 := by
    intro s hs
    have := bound_of_deriv _ _ d1 (by simp) M 1 (fun s hs => by
      have := hM (x - s) x
      rw [show x - s - x = -s by ring, abs_neg, abs_of_nonneg hs] at this
      rwa [pow_one]) s hs
    convert this using 2
    push_cast; ring
  have := bound_of_deriv _ _ d0 (by simp) (M / 2) 2 b1 s hs
  convert this using 2
  push_cast; ring

/-- The remainder of Simpson's formula. -/
theorem simpson (g g1 g2 g3 g4 : ℝ → ℝ) (h1 : ∀ x, HasDerivAt g (g1 x) x) (h2 : ∀ x, HasDerivAt g1 (g2 x) x)
    (h3 : ∀ x, HasDerivAt g2 (g3 x) x) (h4 : ∀ x, HasDerivAt g3 (g4 x) x) (M : ℝ)
    (hM : ∀ x y, |g4 x - g4 y| ≤ M * |x - y|) (x s : ℝ) (hs : 0 ≤ s) :
    |g (x + s) - g (x - s) - s / 3 * (g1 (x - s) + 4 * g1 x + g1 (x + s))| ≤ M / 90 * s ^ 5 := by
  have sub : ∀ s, HasDerivAt (fun s : ℝ => x - s) (-1) s := fun s => by
    simpa using (hasDerivAt_id' s).const_sub x
  have add : ∀ s, HasDerivAt (fun s : ℝ => x + s) 1 s := fun s => by
    simpa using (hasDerivAt_id' s).const_add x
  have p : ∀ (q q' : ℝ → ℝ), (∀ x, HasDerivAt q (q' x) x) → ∀ s, HasDerivAt (fun s => q (x + s)) (q' (x + s)) s := by
    intro q q' hq s
    have := (hq (x + s)).comp s (add s)
    rwa [mul_one] at this
  have m : ∀ (q q' : ℝ → ℝ), (∀ x, HasDerivAt q (q' x) x) →
      ∀ s, HasDerivAt (fun s => q (x - s)) (-q' (x - s)) s := by
    intro q q' hq s
    have := (hq (x - s)).comp s (sub s)
    rwa [mul_neg_one] at this
  have idd : ∀ s : ℝ, HasDerivAt (fun s : ℝ => s / 3) (1 / 3) s := fun s => (hasDerivAt_id' s).div_const 3
  have d2 : ∀ s, HasDerivAt (fun s => 1 / 3 * (g2 (x + s) - g2 (x - s)) - s / 3 * (g3 (x + s) + g3 (x - s)))
      (-(s / 3 * (g4 (x + s) - g4 (x - s)))) s := by
    intro s
    have := (((p g2 g3 h3 s).sub (m g2 g3 h3 s)).const_mul (1 / 3)).sub
      ((idd s).mul ((p g3 g4 h4 s).add (m g3 g4 h4 s)))
    refine this.congr_deriv ?_
    simp only [Pi.add_apply, Pi.sub_apply, Nat.cast_ofNat, mul_neg, mul_one]
    ring
  have d1 : ∀ s, HasDerivAt (fun s => g1 (x + s) + g1 (x - s) - 1 / 3 * (g1 (x - s) + 4 * g1 x + g1 (x + s)) -
      s / 3 * (g2 (x + s) - g2 (x - s)))
      (1 / 3 * (g2 (x + s) - g2 (x - s)) - s / 3 * (g3 (x + s) + g3 (x - s))) s := by
    intro s
    have := (((p g1 g2 h2 s).add (m g1 g2 h2 s)).sub
      (((((m g1 g2 h2 s).add_const (4 * g1 x))).add (p g1 g2 h2 s)).const_mul (1 / 3))).sub
      ((idd s).mul ((p g2 g3 h3 s).sub (m g2 g3 h3 s)))
    refine this.congr_deriv ?_
    simp only [Pi.add_apply, Pi.sub_apply, Nat.cast_ofNat, mul_neg, mul_one]
    ring
  have d0 : ∀ s, HasDerivAt (fun s => g (x + s) - g (x - s) - s / 3 * (g1 (x - s) + 4 * g1 x + g1 (x + s)))
      (g1 (x + s) + g1 (x - s) - 1 / 3 * (g1 (x - s) + 4 * g1 x + g1 (x + s)) -
      s / 3 * (g2 (x + s) - g2 (x - s))) s := by
    intro s
    have := ((p g g1 h1 s).sub (m g g1 h1 s)).sub
      ((idd s).mul (((m g1 g2 h2 s).add_const (4 * g1 x)).add (p g1 g2 h2 s)))
    refine this.congr_deriv ?_
    simp only [Pi.add_apply, Pi.sub_apply, Nat.cast_ofNat, mul_neg, mul_one]
    ring
  have b2 : ∀ s, 0 ≤ s → |1 / 3 * (g2 (x + s) - g2 (x - s)) - s / 3 * (g3 (x + s) + g3 (x - s))| ≤
      2 * M / 9 * s ^ 3 := by
    intro s hs
    have := bound_of_deriv _ _ d2 (by simp) (2 * M / 3) 2 (fun s hs => by
      have := hM (x + s) (x - s)
      rw [show x + s - (x - s) = 2 * s by ring, abs_of_nonneg (by linarith : 0 ≤ 2 * s)] at this
      rw [abs_neg, abs_mul, abs_of_nonneg (by linarith : 0 ≤ s / 3)]
      calc s / 3 * |g4 (x + s) - g4 (x - s)| ≤ s / 3 * (M * (2 * s)) :=
            mul_le_mul_of_nonneg_left this (by linarith)
        _ = 2 * M / 3 * s ^ 2 := by ring) s hs
    convert this using 2
    push_cast; ring
  have b1 : ∀ s, 0 ≤ s → |g1 (x + s) + g1 (x - s) - 1 / 3 * (g1 (x - s) + 4 * g1 x + g1 (x + s)) -
      s / 3 * (g2 (x + s) - g2 (x - s))| ≤ M / 18 * s ^ 4 := by
    intro s hs
    have := bound_of_deriv _ _ d1 (by simp; ring) (2 * M / 9) 3 b2 s hs
    convert this using 2
    push_cast; ring
  have := bound_of_deriv _ _ d0 (by simp) (M / 18) 4 b1 s hs
  convert this using 2
  push_cast; ring

end Verif.FE
