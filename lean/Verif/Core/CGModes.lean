import Verif.Core.CGEnergy
import Mathlib.Analysis.SpecialFunctions.Trigonometric.Bounds
import Mathlib.Analysis.SpecialFunctions.Trigonometric.Deriv
import Mathlib.Analysis.Complex.Trigonometric

/-!
Helper lemmas about waves under the continuous Galerkin method with Heun's method: the factor of a step, its
distance from the exact factor, and the wave number of the method.  Nothing here models code of its own.
-/

namespace Verif.FE

open Complex in
/-- The factor of one step of Heun's method for `c' = -i ω c`, where `s = ω dt`. -/
noncomputable def heunFactor (s : ℝ) : ℂ := 1 - I * s - s ^ 2 / 2

theorem heunFactor_zero : heunFactor 0 = 1 := by simp [heunFactor]

theorem norm_heunFactor (s : ℝ) : ‖heunFactor s‖ ≤ Real.exp (s ^ 4 / 8) := by
  have h : ‖heunFactor s‖ ^ 2 = 1 + s ^ 4 / 4 := by
    rw [Complex.sq_norm, Complex.normSq_apply]
    have e1 : (heunFactor s).re = 1 - s ^ 2 / 2 := by
      unfold heunFactor
      have : ((s : ℂ) ^ 2 / 2) = ((s ^ 2 / 2 : ℝ) : ℂ) := by push_cast; rfl
      rw [this]
      simp only [Complex.sub_re, Complex.one_re, Complex.mul_re, Complex.I_re, Complex.I_im, Complex.ofReal_re,
        Complex.ofReal_im]
      ring
    have e2 : (heunFactor s).im = -s := by
      unfold heunFactor
      have : ((s : ℂ) ^ 2 / 2) = ((s ^ 2 / 2 : ℝ) : ℂ) := by push_cast; rfl
      rw [this]
      simp only [Complex.sub_im, Complex.one_im, Complex.mul_im, Complex.I_re, Complex.I_im, Complex.ofReal_re,
        Complex.ofReal_im]
      ring
    rw [e1, e2]; ring
  have h2 : (Real.exp (s ^ 4 / 8)) ^ 2 = Real.exp (s ^ 4 / 4) := by
    rw [← Real.exp_nat_mul]; congr 1; push_cast; ring
  refine (pow_le_pow_iff_left₀ (norm_nonneg _) (Real.exp_pos _).le two_ne_zero).mp ?_
  rw [h, h2]
  linarith [Real.add_one_le_exp (s ^ 4 / 4)]

/-- The Taylor remainder of the exponential on the imaginary axis. -/
theorem heunFactor_exp (s : ℝ) (hs : 0 ≤ s) :
    ‖heunFactor s - Complex.exp (-(Complex.I * s))‖ ≤ s ^ 3 / 6 := by
  have key : ∀ (F F' : ℝ → ℂ) (c : ℝ) (k : ℕ), (∀ x, HasDerivAt F (F' x) x) → F 0 = 0 →
      (∀ x, 0 ≤ x → ‖F' x‖ ≤ c * x ^ k) → ∀ x, 0 ≤ x → ‖F x‖ ≤ c / (k + 1) * x ^ (k + 1) := by
    intro F F' c k hF h0 hb x hx
    have hk : (k : ℝ) + 1 ≠ 0 := by positivity
    have hB : ∀ x, HasDerivAt (fun x : ℝ => c / (k + 1) * x ^ (k + 1)) (c * x ^ k) x := by
      intro x
      refine (((hasDerivAt_id' x).pow (k + 1)).const_mul (c / ((k : ℝ) + 1))).congr_deriv ?_
      simp only [Nat.add_sub_cancel, mul_one]
      push_cast
      field_simp
    exact image_norm_le_of_norm_deriv_right_le_deriv_boundary (a := 0) (b := x)
      (fun y _ => (hF y).continuousAt.continuousWithinAt) (fun y _ => (hF y).hasDerivWithinAt)
      (by rw [h0]; simp) hB (fun y hy => hb y hy.1) ⟨hx, le_rfl⟩
  have dE : ∀ x : ℝ, HasDerivAt (fun x : ℝ => Complex.exp (-(Complex.I * x)))
      (-Complex.I * Complex.exp (-(Complex.I * x))) x := by
    intro x
    have h1 : HasDerivAt (fun x : ℝ => -(Complex.I * (x : ℂ))) (-Complex.I) x := by
      have := ((hasDerivAt_id' x).ofReal_comp.const_mul Complex.I).neg
      exact this.congr_deriv (by simp)
    exact h1.cexp.congr_deriv (by ring)
  have dx : ∀ x : ℝ, HasDerivAt (fun x : ℝ => (x : ℂ)) 1 x := fun x => by
    simpa using (hasDerivAt_id' x).ofReal_comp
  -- first derivative of the remainder, and its derivative
  have b0 : ∀ x : ℝ, 0 ≤ x → ‖1 - Complex.exp (-(Complex.I * x))‖ ≤ 1 * x ^ 1 := by
    intro x hx
    have := Real.norm_exp_I_mul_ofReal_sub_one_le (x := -x)
    rw [norm_sub_rev]
    rw [norm_neg, Real.norm_of_nonneg hx] at this
    rw [one_mul, pow_one]
    refine le_trans (le_of_eq ?_) this
    congr 3
    push_cast
    ring
  have b1 : ∀ x : ℝ, 0 ≤ x → ‖x + Complex.I * (1 - Complex.exp (-(Complex.I * x)))‖ ≤ 1 / 2 * x ^ 2 := by
    intro x hx
    have := key (fun x : ℝ => (x : ℂ) + Complex.I * (1 - Complex.exp (-(Complex.I * x))))
      (fun x => 1 - Complex.exp (-(Complex.I * x))) 1 1 (by
        intro y
        refine ((dx y).add (((dE y).const_sub 1).const_mul Complex.I)).congr_deriv ?_
        linear_combination (Complex.exp (-(Complex.I * y))) * Complex.I_mul_I) (by simp) b0 x hx
    norm_num at this ⊢
    exact this
  have b2 := key (fun x : ℝ => heunFactor x - Complex.exp (-(Complex.I * x)))
    (fun x => -(x + Complex.I * (1 - Complex.exp (-(Complex.I * x))))) (1 / 2) 2 (by
      intro y
      unfold heunFactor
      refine (((((dx y).const_mul Complex.I).const_sub 1).sub (((dx y).pow 2).div_const 2)).sub (dE y)).congr_deriv ?_
      push_cast
      ring) (by simp [heunFactor]) (by
      intro y hy
      rw [norm_neg]
      exact b1 y hy) s hs
  norm_num at b2
  linarith

theorem heunFactor_local (s r : ℝ) (hs : 0 ≤ s) :
    ‖heunFactor s - Complex.exp (-(Complex.I * r))‖ ≤ |s - r| + s ^ 3 / 6 := by
  have h1 := heunFactor_exp s hs
  have h2 : ‖Complex.exp (-(Complex.I * s)) - Complex.exp (-(Complex.I * r))‖ ≤ |s - r| := by
    have e : Complex.exp (-(Complex.I * s)) - Complex.exp (-(Complex.I * r)) =
        Complex.exp (-(Complex.I * r)) * (Complex.exp (Complex.I * ((r - s : ℝ) : ℂ)) - 1) := by
      rw [mul_sub, ← Complex.exp_add, mul_one]
      congr 2
      push_cast
      ring
    have e1 : ‖Complex.exp (-(Complex.I * r))‖ = 1 := by
      rw [show -(Complex.I * (r : ℂ)) = ((-r : ℝ) : ℂ) * Complex.I by push_cast; ring,
        Complex.norm_exp_ofReal_mul_I]
    rw [e, norm_mul, e1, one_mul, abs_sub_comm]
    exact Real.norm_exp_I_mul_ofReal_sub_one_le
  calc ‖heunFactor s - Complex.exp (-(Complex.I * r))‖
      = ‖(heunFactor s - Complex.exp (-(Complex.I * s))) +
        (Complex.exp (-(Complex.I * s)) - Complex.exp (-(Complex.I * r)))‖ := by congr 1; ring
    _ ≤ _ := norm_add_le _ _
    _ ≤ _ := by linarith

/-- The error of the amplitude and the phase after a run. -/
theorem heun_amplitude (ω ω' H : ℝ) (hω : 0 ≤ ω') (hω' : ω' ≤ ω) (steps : List ℝ)
    (hs : ∀ dt ∈ steps, 0 ≤ dt ∧ dt ≤ H) :
    ‖(steps.map fun dt => heunFactor (ω' * dt)).prod - Complex.exp (-(Complex.I * ((ω * steps.sum : ℝ) : ℂ)))‖ ≤
      Real.exp (ω ^ 4 * H ^ 3 * steps.sum / 8) * (steps.sum * (|ω' - ω| + ω ^ 3 * H ^ 2 / 6)) := by
  induction steps with
  | nil => simp
  | cons dt steps ih =>
    obtain ⟨h1, h2⟩ := hs dt (List.mem_cons_self ..)
    have ih' := ih fun x hx => hs x (List.mem_cons_of_mem _ hx)
    have hS : 0 ≤ steps.sum := List.sum_nonneg fun x hx => (hs x (List.mem_cons_of_mem _ hx)).1
    rw [List.map_cons, List.prod_cons, List.sum_cons]
    set S := steps.sum
    set P := (steps.map fun dt => heunFactor (ω' * dt)).prod
    set δ := |ω' - ω| + ω ^ 3 * H ^ 2 / 6 with hδ
    have hω0 : 0 ≤ ω := hω.trans hω'
    have hH : 0 ≤ H := h1.trans h2
    have hδ0 : 0 ≤ δ := by positivity
    have hsplit : Complex.exp (-(Complex.I * ((ω * (dt + S) : ℝ) : ℂ))) =
        Complex.exp (-(Complex.I * ((ω * dt : ℝ) : ℂ))) * Complex.exp (-(Complex.I * ((ω * S : ℝ) : ℂ))) := by
      rw [← Complex.exp_add]
      congr 1
      push_cast
      ring
    set E := Complex.exp (-(Complex.I * ((ω * S : ℝ) : ℂ))) with hE
    have hE1 : ‖E‖ = 1 := by
      rw [hE, show -(Complex.I * ((ω * S : ℝ) : ℂ)) = ((-(ω * S) : ℝ) : ℂ) * Complex.I by push_cast; ring,
        Complex.norm_exp_ofReal_mul_I]
    have hx0 : 0 ≤ ω' * dt := by positivity
    have k1 : ω' * dt ≤ ω * dt := mul_le_mul_of_nonneg_right hω' h1
    have hloc : ‖heunFactor (ω' * dt) - Complex.exp (-(Complex.I * ((ω * dt : ℝ) : ℂ)))‖ ≤ dt * δ := by
      refine (heunFactor_local _ _ hx0).trans ?_
      rw [← sub_mul, abs_mul, abs_of_nonneg h1]
      have k2 : (ω' * dt) ^ 3 ≤ (ω * dt) ^ 3 := pow_le_pow_left₀ hx0 k1 3
      have k3 : dt ^ 2 ≤ H ^ 2 := pow_le_pow_left₀ h1 h2 2
      have k4 : (ω * dt) ^ 3 ≤ dt * (ω ^ 3 * H ^ 2) := by
        have : ω ^ 3 * dt * dt ^ 2 ≤ ω ^ 3 * dt * H ^ 2 := mul_le_mul_of_nonneg_left k3 (by positivity)
        nlinarith
      rw [hδ]
      nlinarith
    have hgrow : ‖heunFactor (ω' * dt)‖ ≤ Real.exp (ω ^ 4 * H ^ 3 * dt / 8) := by
      refine (norm_heunFactor _).trans (Real.exp_le_exp.mpr ?_)
      have k2 : (ω' * dt) ^ 4 ≤ (ω * dt) ^ 4 := pow_le_pow_left₀ hx0 k1 4
      have k3 : dt ^ 3 ≤ H ^ 3 := pow_le_pow_left₀ h1 h2 3
      have : ω ^ 4 * dt * dt ^ 3 ≤ ω ^ 4 * dt * H ^ 3 := mul_le_mul_of_nonneg_left k3 (by positivity)
      nlinarith
    rw [hsplit]
    have e : heunFactor (ω' * dt) * P - Complex.exp (-(Complex.I * ((ω * dt : ℝ) : ℂ))) * E =
        heunFactor (ω' * dt) * (P - E) +
          (heunFactor (ω' * dt) - Complex.exp (-(Complex.I * ((ω * dt : ℝ) : ℂ)))) * E := by ring
    rw [e]
    refine (norm_add_le _ _).trans ?_
    rw [norm_mul, norm_mul, hE1, mul_one]
    have m1 : ‖heunFactor (ω' * dt)‖ * ‖P - E‖ ≤ Real.exp (ω ^ 4 * H ^ 3 * dt / 8) *
        (Real.exp (ω ^ 4 * H ^ 3 * S / 8) * (S * δ)) :=
      mul_le_mul hgrow ih' (norm_nonneg _) (Real.exp_pos _).le
    have m2 : Real.exp (ω ^ 4 * H ^ 3 * (dt + S) / 8) =
        Real.exp (ω ^ 4 * H ^ 3 * dt / 8) * Real.exp (ω ^ 4 * H ^ 3 * S / 8) := by
      rw [← Real.exp_add]; congr 1; ring
    have m3 : 1 ≤ Real.exp (ω ^ 4 * H ^ 3 * (dt + S) / 8) := Real.one_le_exp (by positivity)
    have m4 : 1 * (dt * δ) ≤ Real.exp (ω ^ 4 * H ^ 3 * (dt + S) / 8) * (dt * δ) :=
      mul_le_mul_of_nonneg_right m3 (by positivity)
    rw [← mul_assoc, ← m2] at m1
    calc _ ≤ _ := add_le_add m1 hloc
      _ ≤ _ := by rw [add_mul dt S δ]; linarith

/-- The inequality of Cusa and Huygens. -/
theorem cusa (θ : ℝ) (h0 : 0 ≤ θ) (h1 : θ ≤ Real.pi) : 3 * Real.sin θ ≤ θ * (2 + Real.cos θ) := by
  have mono : ∀ F F' : ℝ → ℝ, (∀ x, HasDerivAt F (F' x) x) → F 0 = 0 →
      (∀ x, 0 ≤ x → x ≤ Real.pi → 0 ≤ F' x) → ∀ x, 0 ≤ x → x ≤ Real.pi → 0 ≤ F x := by
    intro F F' hF hF0 hF' x hx hx'
    have : MonotoneOn F (Set.Icc 0 Real.pi) := by
      apply monotoneOn_of_deriv_nonneg (convex_Icc _ _)
      · exact fun y _ => (hF y).continuousAt.continuousWithinAt
      · exact fun y _ => (hF y).differentiableAt.differentiableWithinAt
      · intro y hy
        rw [interior_Icc] at hy
        rw [(hF y).deriv]
        exact hF' y hy.1.le hy.2.le
    rw [← hF0]
    exact this ⟨le_rfl, Real.pi_pos.le⟩ ⟨hx, hx'⟩ hx
  have p2 := mono (fun x => Real.sin x - x * Real.cos x) (fun x => x * Real.sin x) (by
    intro x
    exact ((Real.hasDerivAt_sin x).sub ((hasDerivAt_id' x).mul (Real.hasDerivAt_cos x))).congr_deriv (by ring))
    (by simp) (fun x hx hx' => mul_nonneg hx (Real.sin_nonneg_of_nonneg_of_le_pi hx hx'))
  have p1 := mono (fun x => 2 - 2 * Real.cos x - x * Real.sin x) (fun x => Real.sin x - x * Real.cos x) (by
    intro x
    exact ((((Real.hasDerivAt_cos x).const_mul 2).const_sub 2).sub
      ((hasDerivAt_id' x).mul (Real.hasDerivAt_sin x))).congr_deriv (by ring)) (by simp) p2
  have p0 := mono (fun x => x * (2 + Real.cos x) - 3 * Real.sin x) (fun x => 2 - 2 * Real.cos x - x * Real.sin x) (by
    intro x
    exact (((hasDerivAt_id' x).mul ((Real.hasDerivAt_cos x).const_add 2)).sub
      ((Real.hasDerivAt_sin x).const_mul 3)).congr_deriv (by ring)) (by simp) p1
  linarith [p0 θ h0 h1]

/-- The wave number of the method, times the length of a cell. -/
noncomputable def waveNumber (θ : ℝ) : ℝ := 3 * Real.sin θ / (2 + Real.cos θ)

theorem waveNumber_bounds (θ : ℝ) (h0 : 0 ≤ θ) (h1 : θ ≤ Real.pi) :
    0 ≤ waveNumber θ ∧ waveNumber θ ≤ θ ∧ |waveNumber θ - θ| ≤ θ ^ 5 / 60 := by
  have hc := Real.neg_one_le_cos θ
  have hpos : 0 < 2 + Real.cos θ := by linarith
  refine ⟨?_, ?_, ?_⟩
  · exact div_nonneg (mul_nonneg (by norm_num) (Real.sin_nonneg_of_nonneg_of_le_pi h0 h1)) hpos.le
  · unfold waveNumber
    rw [div_le_iff₀ hpos]
    exact cusa θ h0 h1
  · have := simpson Real.sin Real.cos (fun x => -Real.sin x) (fun x => -Real.cos x) Real.sin
      Real.hasDerivAt_sin Real.hasDerivAt_cos (fun x => (Real.hasDerivAt_sin x).neg)
      (fun x => (Real.hasDerivAt_cos x).neg.congr_deriv (by ring)) 1
      (fun x y => by rw [one_mul]; exact Real.abs_sin_sub_sin_le x y) 0 θ h0
    simp only [zero_add, zero_sub, Real.sin_neg, Real.cos_neg, Real.cos_zero] at this
    have e : waveNumber θ - θ = (Real.sin θ - -Real.sin θ - θ / 3 * (Real.cos θ + 4 * 1 + Real.cos θ)) *
        (3 / 2 / (2 + Real.cos θ)) := by
      unfold waveNumber
      field_simp
      ring
    rw [e, abs_mul, abs_of_pos (by positivity : 0 < 3 / 2 / (2 + Real.cos θ))]
    have k : 3 / 2 / (2 + Real.cos θ) ≤ 3 / 2 := by
      rw [div_le_iff₀ hpos]; linarith
    calc _ ≤ 1 / 90 * θ ^ 5 * (3 / 2) := mul_le_mul this k (by positivity) (by positivity)
      _ = _ := by ring

/-- A wave: the real part of `c exp (i ω x)`. -/
noncomputable def wave (ω : ℝ) (c : ℂ) (x : ℝ) : ℝ := c.re * Real.cos (ω * x) - c.im * Real.sin (ω * x)

theorem wave_eq (ω : ℝ) (c : ℂ) (x : ℝ) : wave ω c x = (c * Complex.exp (((ω * x : ℝ) : ℂ) * Complex.I)).re := by
  rw [Complex.mul_re, Complex.exp_ofReal_mul_I_re, Complex.exp_ofReal_mul_I_im]
  rfl

theorem wave_le (ω : ℝ) (c : ℂ) (x : ℝ) : |wave ω c x| ≤ ‖c‖ := by
  rw [wave_eq]
  refine (Complex.abs_re_le_norm _).trans (le_of_eq ?_)
  rw [norm_mul, Complex.norm_exp_ofReal_mul_I, mul_one]

theorem wave_sub (ω : ℝ) (c c' : ℂ) (x : ℝ) : wave ω c x - wave ω c' x = wave ω (c - c') x := by
  unfold wave; rw [Complex.sub_re, Complex.sub_im]; ring

theorem wave_shift (ω : ℝ) (c : ℂ) (x τ : ℝ) :
    wave ω (Complex.exp (-(Complex.I * ((ω * τ : ℝ) : ℂ))) * c) x = wave ω c (x - τ) := by
  rw [wave_eq, wave_eq]
  congr 1
  rw [mul_comm _ c, mul_assoc, ← Complex.exp_add]
  congr 2
  push_cast
  ring

theorem wave_heun (ω : ℝ) (c : ℂ) (s x : ℝ) :
    wave ω (heunFactor s * c) x = wave ω c x + s * wave ω (-Complex.I * c) x - s ^ 2 / 2 * wave ω c x := by
  have e : ((s : ℂ) ^ 2 / 2) = ((s ^ 2 / 2 : ℝ) : ℂ) := by push_cast; rfl
  have e1 : heunFactor s * c = c + (s : ℂ) * (-Complex.I * c) - ((s ^ 2 / 2 : ℝ) : ℂ) * c := by
    unfold heunFactor; rw [← e]; ring
  rw [e1]
  unfold wave
  simp only [Complex.sub_re, Complex.sub_im, Complex.add_re, Complex.add_im, Complex.re_ofReal_mul,
    Complex.im_ofReal_mul]
  ring

theorem wave_deriv (ω : ℝ) (c : ℂ) (x : ℝ) :
    HasDerivAt (wave ω c) (wave ω (Complex.I * ω * c) x) x := by
  unfold wave
  have h1 := ((hasDerivAt_id' x).const_mul ω).cos.const_mul c.re
  have h2 := ((hasDerivAt_id' x).const_mul ω).sin.const_mul c.im
  refine (h1.sub h2).congr_deriv ?_
  simp only [Complex.mul_re, Complex.mul_im, Complex.I_re, Complex.I_im, Complex.ofReal_re, Complex.ofReal_im]
  ring

theorem wave_lipschitz (ω : ℝ) (hω : 0 ≤ ω) (c : ℂ) (x y : ℝ) :
    |wave ω c x - wave ω c y| ≤ ω * ‖c‖ * |x - y| := by
  have := Convex.norm_image_sub_le_of_norm_hasDerivWithin_le (f := wave ω c) (s := Set.univ) (x := y) (y := x)
    (C := ω * ‖c‖) (fun z _ => (wave_deriv ω c z).hasDerivWithinAt) (fun z _ => by
      refine (wave_le ω _ z).trans (le_of_eq ?_)
      rw [norm_mul, norm_mul, Complex.norm_I, one_mul, Complex.norm_of_nonneg hω]) convex_univ trivial trivial
  exact this

end Verif.FE
