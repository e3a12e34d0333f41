import Verif.Core.BurgersWave
import Verif.Props.EOC

/-!
Property C110: convergence of the Lax-Friedrichs solver for Burgers' equation with positive data to the
exact solution given by the method of characteristics, before the first shock.
-/

set_option linter.unusedSectionVars false

namespace Verif.Convergence

open Verif.Py Verif.Boundary Verif.FV Verif.ODE Verif.Scalar
open Verif.Interpolate Verif.Quadrature Verif.Bench
open Verif.Mesh hiding Error

/-! ### Specification -/

/-- The exact solution by characteristics, as the benchmarks for Burgers' equation define it: the value
`u` at `(x, t)` is a root of `u - f (x - u t)`. -/
def Characteristics (f : ℝ → ℝ) (S : ℝ) (u : ℝ → ℝ → ℝ) : Prop :=
  ∀ t, 0 ≤ t → t ≤ S → ∀ x, u t x = f (x - u t x * t)

/-- Smooth positive data whose characteristics do not meet up to time `S`: period `P`, values in `[m, M]`,
derivative `f'` at most `L` and Lipschitz continuous with constant `B`, and `1 + S f' ≥ c > 0`. -/
structure BeforeShock (P m M L B c S : ℝ) (f f' : ℝ → ℝ) : Prop where
  pos : 0 < m
  range : ∀ x, m ≤ f x ∧ f x ≤ M
  period : ∀ x, f (x + P) = f x
  deriv : ∀ x, HasDerivAt f (f' x) x
  slope : ∀ x, |f' x| ≤ L
  smooth : ∀ x y, |f' x - f' y| ≤ B * |x - y|
  cpos : 0 < c
  c1 : c ≤ 1
  meet : ∀ x, c ≤ 1 + S * f' x

/-! ### Helper lemmas: characteristics -/

section Characteristics

variable {P m M L B c S : ℝ} {f f' : ℝ → ℝ} {u : ℝ → ℝ → ℝ}

namespace BeforeShock

variable (h : BeforeShock P m M L B c S f f')
include h

theorem meet' (t : ℝ) (h0 : 0 ≤ t) (h1 : t ≤ S) (x : ℝ) : c ≤ 1 + t * f' x := by
  rcases le_total 0 (f' x) with hf | hf
  · nlinarith [h.c1, mul_nonneg h0 hf]
  · nlinarith [h.meet x]

/-- Positions of the characteristics spread at least by the factor `c`. -/
theorem spread (t : ℝ) (h0 : 0 ≤ t) (h1 : t ≤ S) {x y : ℝ} (hxy : x ≤ y) :
    c * (y - x) ≤ (y + f y * t) - (x + f x * t) := by
  have hd : ∀ z, HasDerivAt (fun z => z + f z * t - c * z) (1 + f' z * t - c) z := fun z => by
    have := ((hasDerivAt_id z).add ((h.deriv z).mul_const t)).sub ((hasDerivAt_id z).const_mul c)
    rw [mul_one] at this
    exact this
  have mono : Monotone fun z => z + f z * t - c * z := by
    refine monotone_of_deriv_nonneg (fun z => (hd z).differentiableAt) fun z => ?_
    rw [(hd z).deriv]
    have := h.meet' t h0 h1 z
    linarith
  have := mono hxy
  simp only at this
  linarith

theorem spread_abs (t : ℝ) (h0 : 0 ≤ t) (h1 : t ≤ S) (x y : ℝ) :
    c * |x - y| ≤ |(x + f x * t) - (y + f y * t)| := by
  rcases le_total x y with hxy | hxy
  · rw [abs_sub_comm x y, abs_of_nonneg (sub_nonneg.mpr hxy), abs_sub_comm]
    exact (h.spread t h0 h1 hxy).trans (le_abs_self _)
  · rw [abs_of_nonneg (sub_nonneg.mpr hxy)]
    exact (h.spread t h0 h1 hxy).trans (le_abs_self _)

theorem foot_unique (t : ℝ) (h0 : 0 ≤ t) (h1 : t ≤ S) (x y : ℝ) (e : x + f x * t = y + f y * t) : x = y := by
  have := h.spread_abs t h0 h1 x y
  rw [e, sub_self, abs_zero] at this
  have h2 : |x - y| ≤ 0 := by
    by_contra hc
    push Not at hc
    have := mul_pos h.cpos hc
    linarith
  exact sub_eq_zero.mp (abs_nonpos_iff.mp h2)

/-- The exact solution exists. -/
theorem exists_exact : ∃ u, Characteristics f S u := by
  have hcont : Continuous f := continuous_iff_continuousAt.mpr fun x => (h.deriv x).continuousAt
  have : ∀ t x, 0 ≤ t → ∃ y, y + f y * t = x := by
    intro t x h0
    have hc : Continuous fun y => y + f y * t := continuous_id.add (hcont.mul continuous_const)
    have hM : 0 ≤ M := h.pos.le.trans ((h.range 0).1.trans (h.range 0).2)
    have := mem_range_of_exists_le_of_exists_ge hc (c := x)
      ⟨x - M * t, by nlinarith [(h.range (x - M * t)).2]⟩
      ⟨x, by nlinarith [(h.range x).1, h.pos]⟩
    obtain ⟨y, hy⟩ := this
    exact ⟨y, hy⟩
  choose! foot hfoot using this
  refine ⟨fun t x => f (foot t x), fun t h0 _ x => ?_⟩
  have := hfoot t x h0
  rw [show x - f (foot t x) * t = foot t x by linarith]

/-- The exact solution is a wave. -/
theorem wave (hu : Characteristics f S u) :
    Wave P m M (L / c) (B / c ^ 3) S u (fun t x => f' (x - u t x * t) / (1 + t * f' (x - u t x * t))) where
  pos := h.pos
  range t h0 h1 x := by rw [hu t h0 h1 x]; exact h.range _
  period t h0 h1 x := by
    rw [hu t h0 h1 (x + P), hu t h0 h1 x]
    have e : x + P - u t (x + P) * t = x - u t x * t + P := by
      refine h.foot_unique t h0 h1 _ _ ?_
      rw [h.period, ← hu t h0 h1 x, ← hu t h0 h1 (x + P)]
      ring
    rw [e, h.period]
  deriv t h0 h1 x := by
    set ξ := fun x => x - u t x * t with hξ
    have hfoot : ∀ x, ξ x + f (ξ x) * t = x := by
      intro x
      have := hu t h0 h1 x
      simp only [hξ]
      rw [← this]; ring
    have hlip : ∀ x y, |ξ x - ξ y| ≤ 1 / c * |x - y| := by
      intro x y
      have := h.spread_abs t h0 h1 (ξ x) (ξ y)
      rw [hfoot, hfoot] at this
      rw [one_div, inv_mul_eq_div, le_div_iff₀ h.cpos, mul_comm]
      exact this
    have hcont : Continuous ξ := by
      have : LipschitzWith (Real.toNNReal (1 / c)) ξ := by
        refine LipschitzWith.of_dist_le_mul fun x y => ?_
        rw [Real.dist_eq, Real.dist_eq, Real.coe_toNNReal _ (one_div_nonneg.mpr h.cpos.le)]
        exact hlip x y
      exact this.continuous
    have hpos : 0 < 1 + t * f' (ξ x) := h.cpos.trans_le (h.meet' t h0 h1 _)
    have hg : HasDerivAt (fun z => z + f z * t) (1 + t * f' (ξ x)) (ξ x) := by
      have := (hasDerivAt_id (ξ x)).add ((h.deriv (ξ x)).mul_const t)
      rw [mul_comm t]
      exact this
    have hinv : HasDerivAt ξ (1 + t * f' (ξ x))⁻¹ x :=
      HasDerivAt.of_local_left_inverse (f := fun z => z + f z * t) hcont.continuousAt hg hpos.ne'
        (Filter.Eventually.of_forall hfoot)
    have hcomp := (h.deriv (ξ x)).comp x hinv
    have e : f ∘ ξ = u t := by
      funext y
      exact (hu t h0 h1 y).symm
    rw [e, ← div_eq_mul_inv] at hcomp
    exact hcomp
  slope t h0 h1 x := by
    have hm := h.meet' t h0 h1 (x - u t x * t)
    rw [abs_div, abs_of_pos (h.cpos.trans_le hm)]
    exact div_le_div₀ ((abs_nonneg _).trans (h.slope 0)) (h.slope _) h.cpos hm
  smooth t h0 h1 x y := by
    have hx := h.meet' t h0 h1 (x - u t x * t)
    have hy := h.meet' t h0 h1 (y - u t y * t)
    have hs := h.spread_abs t h0 h1 (x - u t x * t) (y - u t y * t)
    rw [← hu t h0 h1 x, ← hu t h0 h1 y, sub_add_cancel, sub_add_cancel] at hs
    have hB : 0 ≤ B := by
      have := (abs_nonneg _).trans (h.smooth 1 0)
      simpa using this
    have h3 := h.smooth (x - u t x * t) (y - u t y * t)
    have hc := h.cpos
    generalize x - u t x * t = p at *
    generalize y - u t y * t = q at *
    have px : 0 < 1 + t * f' p := hc.trans_le hx
    have py : 0 < 1 + t * f' q := hc.trans_le hy
    have e : f' p / (1 + t * f' p) - f' q / (1 + t * f' q) =
        (f' p - f' q) / ((1 + t * f' p) * (1 + t * f' q)) := by
      rw [div_sub_div _ _ px.ne' py.ne']
      congr 1
      ring
    rw [e, abs_div, abs_of_pos (mul_pos px py), div_le_iff₀ (mul_pos px py)]
    have k1 : c * c ≤ (1 + t * f' p) * (1 + t * f' q) := mul_le_mul hx hy hc.le px.le
    calc |f' p - f' q| ≤ B * |p - q| := h3
      _ ≤ B * (|x - y| / c) := by
          refine mul_le_mul_of_nonneg_left ?_ hB
          rw [le_div_iff₀ hc, mul_comm]; exact hs
      _ = B / c ^ 3 * |x - y| * (c * c) := by field_simp
      _ ≤ _ := mul_le_mul_of_nonneg_left k1 (by positivity)
  transport t τ h0 hτ h1 x := by
    have ht : t ≤ S := by linarith
    rw [hu t h0 ht (x - τ * u (t + τ) x)]
    have e := hu (t + τ) (by linarith) h1 x
    conv_lhs => rw [e]
    congr 1
    refine h.foot_unique t h0 ht _ _ ?_
    rw [← e, ← hu t h0 ht (x - τ * u (t + τ) x)]
    ring

end BeforeShock

end Characteristics

/-! ### Helper lemmas: one step -/

variable {n : ℕ}

theorem distance_tri (a b c : Fin n → ℝ) : distance a c ≤ distance a b + distance b c := by
  unfold distance
  rw [← Finset.sum_add_distrib]
  exact Finset.sum_le_sum fun i _ => abs_sub_le _ _ _

theorem distance_cells (a b : Fin n → ℝ) (e : ℝ) (h : ∀ i, |a i - b i| ≤ e) : distance a b ≤ n * e := by
  unfold distance
  refine (Finset.sum_le_sum fun i _ => h i).trans (le_of_eq ?_)
  rw [Finset.sum_const, Finset.card_univ, Fintype.card_fin, nsmul_eq_mul]

theorem distance_combo (p q : ℝ) (hp : 0 ≤ p) (hq : 0 ≤ q) (a b a' b' : Fin n → ℝ) :
    distance (p • a + q • b) (p • a' + q • b') ≤ p * distance a a' + q * distance b b' := by
  unfold distance
  rw [Finset.mul_sum, Finset.mul_sum, ← Finset.sum_add_distrib]
  refine Finset.sum_le_sum fun i _ => ?_
  simp only [Pi.add_apply, Pi.smul_apply, smul_eq_mul]
  exact abs_combo _ _ _ _ _ _ hp hq

/-- The results of a step of the three strong stability preserving integrators, written with forward
Euler steps `N`. -/
theorem ssp_forms {E ε : Type*} [AddCommGroup E] [Module ℝ E] (f : ℝ → E → Except ε E) (dt : ℝ) (X : Set E)
    (hX : Convex ℝ X) (N : E → E) (hN : ∀ t, ∀ u ∈ X, ∃ w, f t u = .ok w ∧ u + dt • w = N u)
    (hNX : ∀ u ∈ X, N u ∈ X) (T : Tableau ℝ) (hT : T = forwardEuler ℝ ∨ T = heun ℝ ∨ T = ssp3 ℝ)
    (s : Solver ℝ E) (hs : s.solution ∈ X) :
    ∃ s', s.executeE T f dt = .ok s' ∧ s'.time = s.time + dt ∧ s'.solution ∈ X ∧
      (s'.solution = N s.solution ∨
        s'.solution = (1 / 2 : ℝ) • s.solution + (1 / 2 : ℝ) • N (N s.solution) ∨
        (s'.solution = (1 / 3 : ℝ) • s.solution + (2 / 3 : ℝ) • N ((3 / 4 : ℝ) • s.solution +
          (1 / 4 : ℝ) • N (N s.solution)) ∧
          (3 / 4 : ℝ) • s.solution + (1 / 4 : ℝ) • N (N s.solution) ∈ X)) := by
  have key := sspE_step f dt X hX (fun t u hu => by
    obtain ⟨w, h1, h2⟩ := hN t u hu
    exact ⟨w, h1, h2 ▸ hNX u hu⟩) s hs
  have tot : ∀ t, ∀ u ∈ X, u + dt • totalise f t u = N u := by
    intro t u hu
    obtain ⟨w, h1, h2⟩ := hN t u hu
    simpa [totalise, h1] using h2
  have n1 := hNX _ hs
  have n2 := hNX _ n1
  have n3 := hX hs n2 (a := 3 / 4) (b := 1 / 4) (by norm_num) (by norm_num) (by norm_num)
  rcases hT with rfl | rfl | rfl
  · obtain ⟨s', h1, h2⟩ := key.1
    have e := executeE_eq _ _ _ _ _ h1
    refine ⟨s', h1, by rw [e]; rfl, h2, Or.inl ?_⟩
    rw [e, execute_forwardEuler, tot _ _ hs]
  · obtain ⟨s', h1, h2⟩ := key.2.1
    have e := executeE_eq _ _ _ _ _ h1
    refine ⟨s', h1, by rw [e]; rfl, h2, Or.inr (Or.inl ?_)⟩
    rw [e, execute_heun, ← tot (s.time + dt) _ n1, ← tot s.time _ hs]
    module
  · obtain ⟨s', h1, h2⟩ := key.2.2
    have e := executeE_eq _ _ _ _ _ h1
    refine ⟨s', h1, by rw [e]; rfl, h2, Or.inr (Or.inr ⟨?_, n3⟩)⟩
    rw [e, execute_ssp3]
    have e3 : s.solution + dt • (((1 : ℝ) / 4) • totalise f s.time s.solution + ((1 : ℝ) / 4) •
        totalise f (s.time + dt) (s.solution + dt • totalise f s.time s.solution)) =
        (3 / 4 : ℝ) • s.solution + (1 / 4 : ℝ) • N (N s.solution) := by
      rw [← tot (s.time + dt) _ n1, ← tot s.time _ hs]
      module
    rw [e3, ← tot (s.time + 1 / 2 * dt) _ n3]
    generalize totalise f (s.time + 1 / 2 * dt) _ = k2
    rw [← tot (s.time + dt) _ n1, ← tot s.time _ hs]
    module

/-- The error of one step: `N` contracts, reproduces the curve `v` with slope `w` at time zero up to `e`
per forward Euler step. -/
theorem step_error (N : (Fin n → ℝ) → Fin n → ℝ) (X : Set (Fin n → ℝ)) (v : ℝ → Fin n → ℝ) (w : Fin n → ℝ)
    (dt e : ℝ) (hNX : ∀ u ∈ X, N u ∈ X) (hv : ∀ τ, 0 ≤ τ → τ ≤ dt → v τ ∈ X) (hdt : 0 ≤ dt)
    (hN : ∀ a ∈ X, ∀ b ∈ X, distance (N a) (N b) ≤ distance a b)
    (h0 : distance (N (v 0)) (v 0 + dt • w) ≤ e)
    (h1 : distance (N (v dt)) (v dt + dt • w) ≤ 3 / 2 * e)
    (h2 : distance (N (v (1 / 2 * dt))) (v (1 / 2 * dt) + dt • w) ≤ 5 / 4 * e)
    (k1 : distance (v dt) (v 0 + dt • w) ≤ 1 / 4 * e)
    (k2 : distance (v (1 / 2 * dt)) (v 0 + (1 / 2 * dt) • w) ≤ 1 / 4 * e) (z z' : Fin n → ℝ) (hz : z ∈ X)
    (hz' : z' = N z ∨ z' = (1 / 2 : ℝ) • z + (1 / 2 : ℝ) • N (N z) ∨
      (z' = (1 / 3 : ℝ) • z + (2 / 3 : ℝ) • N ((3 / 4 : ℝ) • z + (1 / 4 : ℝ) • N (N z)) ∧
        (3 / 4 : ℝ) • z + (1 / 4 : ℝ) • N (N z) ∈ X)) :
    distance z' (v dt) ≤ distance z (v 0) + 2 * e := by
  have he : 0 ≤ e := (Finset.sum_nonneg fun _ _ => abs_nonneg _).trans h0
  have sym : ∀ a b : Fin n → ℝ, distance a b = distance b a := fun a b => by
    unfold distance
    exact Finset.sum_congr rfl fun i _ => abs_sub_comm _ _
  have m0 : v 0 ∈ X := hv 0 le_rfl hdt
  have m1 : v dt ∈ X := hv dt hdt le_rfl
  have m2 : v (1 / 2 * dt) ∈ X := hv _ (by linarith) (by linarith)
  have euler : ∀ (a b : Fin n → ℝ) (r : ℝ), a ∈ X → b ∈ X → distance (N b) (b + dt • w) ≤ r →
      distance (N a) (b + dt • w) ≤ distance a b + r := fun a b r ha hb hr =>
    (distance_tri _ (N b) _).trans (add_le_add (hN a ha b hb) hr)
  have a0 := euler z (v 0) _ hz m0 h0
  have a1 : distance (N z) (v dt) ≤ distance z (v 0) + 5 / 4 * e := by
    have := distance_tri (N z) (v 0 + dt • w) (v dt)
    rw [sym (v 0 + dt • w)] at this
    linarith
  have a2 := euler (N z) (v dt) _ (hNX _ hz) m1 h1
  rcases hz' with rfl | rfl | ⟨rfl, hmem⟩
  · linarith
  · have b1 := distance_combo (1 / 2) (1 / 2) (by norm_num) (by norm_num) z (N (N z)) (v 0) (v dt + dt • w)
    have b2 := distance_combo (1 / 2) (1 / 2) (by norm_num) (by norm_num) (v dt) (v 0 + dt • w)
      (v dt) (v dt)
    have b3 : distance (v dt) (v dt) = 0 := by simp [distance]
    have b4 : distance ((1 / 2 : ℝ) • v 0 + (1 / 2 : ℝ) • (v dt + dt • w)) (v dt) ≤ 1 / 8 * e := by
      have e1 : (1 / 2 : ℝ) • v 0 + (1 / 2 : ℝ) • (v dt + dt • w) =
          (1 / 2 : ℝ) • v dt + (1 / 2 : ℝ) • (v 0 + dt • w) := by module
      have e2 : v dt = (1 / 2 : ℝ) • v dt + (1 / 2 : ℝ) • v dt := by module
      rw [e1]
      rw [← e2, b3, sym (v 0 + dt • w)] at b2
      linarith
    have := distance_tri ((1 / 2 : ℝ) • z + (1 / 2 : ℝ) • N (N z))
      ((1 / 2 : ℝ) • v 0 + (1 / 2 : ℝ) • (v dt + dt • w)) (v dt)
    linarith
  · have b1 := distance_combo (3 / 4) (1 / 4) (by norm_num) (by norm_num) z (N (N z)) (v 0) (v dt + dt • w)
    have b2 : distance ((3 / 4 : ℝ) • v 0 + (1 / 4 : ℝ) • (v dt + dt • w)) (v (1 / 2 * dt)) ≤ 5 / 16 * e := by
      have e1 := distance_combo (3 / 4) (1 / 4) (by norm_num) (by norm_num) (v 0) (v dt + dt • w) (v 0)
        (v 0 + dt • w + dt • w)
      have e2 : distance (v dt + dt • w) (v 0 + dt • w + dt • w) = distance (v dt) (v 0 + dt • w) := by
        simp [distance]
      have e3 : (3 / 4 : ℝ) • v 0 + (1 / 4 : ℝ) • (v 0 + dt • w + dt • w) = v 0 + (1 / 2 * dt) • w := by module
      have e4 : distance (v 0) (v 0) = 0 := by simp [distance]
      rw [e2, e3, e4] at e1
      have := distance_tri ((3 / 4 : ℝ) • v 0 + (1 / 4 : ℝ) • (v dt + dt • w)) (v 0 + (1 / 2 * dt) • w)
        (v (1 / 2 * dt))
      rw [sym (v 0 + (1 / 2 * dt) • w)] at this
      linarith
    have b3 : distance ((3 / 4 : ℝ) • z + (1 / 4 : ℝ) • N (N z)) (v (1 / 2 * dt)) ≤ distance z (v 0) + e := by
      have := distance_tri ((3 / 4 : ℝ) • z + (1 / 4 : ℝ) • N (N z))
        ((3 / 4 : ℝ) • v 0 + (1 / 4 : ℝ) • (v dt + dt • w)) (v (1 / 2 * dt))
      linarith
    have b4 := euler _ (v (1 / 2 * dt)) _ hmem m2 h2
    have b5 := distance_combo (1 / 3) (2 / 3) (by norm_num) (by norm_num) z
      (N ((3 / 4 : ℝ) • z + (1 / 4 : ℝ) • N (N z))) (v 0) (v (1 / 2 * dt) + dt • w)
    have b6 : distance ((1 / 3 : ℝ) • v 0 + (2 / 3 : ℝ) • (v (1 / 2 * dt) + dt • w)) (v dt) ≤
        5 / 12 * e := by
      have e1 := distance_combo (1 / 3) (2 / 3) (by norm_num) (by norm_num) (v 0) (v (1 / 2 * dt) + dt • w)
        (v 0) (v 0 + (1 / 2 * dt) • w + dt • w)
      have e2 : distance (v (1 / 2 * dt) + dt • w) (v 0 + (1 / 2 * dt) • w + dt • w) =
          distance (v (1 / 2 * dt)) (v 0 + (1 / 2 * dt) • w) := by
        simp [distance]
      have e3 : (1 / 3 : ℝ) • v 0 + (2 / 3 : ℝ) • (v 0 + (1 / 2 * dt) • w + dt • w) = v 0 + dt • w := by
        module
      have e4 : distance (v 0) (v 0) = 0 := by simp [distance]
      rw [e2, e3, e4] at e1
      have := distance_tri ((1 / 3 : ℝ) • v 0 + (2 / 3 : ℝ) • (v (1 / 2 * dt) + dt • w)) (v 0 + dt • w) (v dt)
      rw [sym (v 0 + dt • w)] at this
      linarith
    have := distance_tri ((1 / 3 : ℝ) • z + (2 / 3 : ℝ) • N ((3 / 4 : ℝ) • z + (1 / 4 : ℝ) • N (N z)))
      ((1 / 3 : ℝ) • v 0 + (2 / 3 : ℝ) • (v (1 / 2 * dt) + dt • w)) (v dt)
    linarith

/-- Values at the centres `x₀ + i dx` of the cells. -/
def sample (u : ℝ → ℝ) (x₀ dx : ℝ) (n : ℕ) (i : Fin n) : ℝ := u (x₀ + i * dx)

theorem sample_cell (u : ℝ → ℝ) (x₀ dx : ℝ) (hn : 0 < n) (hper : ∀ x, u (x + n * dx) = u x) (g : ℕ → Fin n)
    (hmid : ∀ i : Fin n, g (i + 1) = i) (g0 : g n = g 0) (g1 : g (n + 1) = g 1) (j : ℕ) (hj : j ≤ n + 1) :
    sample u x₀ dx n (g j) = u (x₀ + ((j : ℝ) - 1) * dx) := by
  have mid : ∀ k, k < n → sample u x₀ dx n (g (k + 1)) = u (x₀ + (((k + 1 : ℕ) : ℝ) - 1) * dx) := by
    intro k hk
    have := hmid ⟨k, hk⟩
    simp only at this
    rw [this]
    unfold sample
    push_cast
    congr 1
    ring
  rcases j with _ | j
  · rw [← g0]
    obtain ⟨k, rfl⟩ : ∃ k, n = k + 1 := ⟨n - 1, by omega⟩
    rw [mid k (by omega), ← hper (x₀ + (((0 : ℕ) : ℝ) - 1) * dx)]
    congr 1
    push_cast
    ring
  · rcases Nat.lt_or_ge j n with h | h
    · exact mid j h
    · have : j = n := by omega
      subst this
      rw [g1, mid 0 hn, ← hper]
      congr 1
      push_cast
      ring

/-! ### C110 -/

section Run

variable {P m M L B S : ℝ} {u D : ℝ → ℝ → ℝ} (wv : Wave P m M L B S u D) (hP : 0 < P) (hn : 0 < n) (x₀ : ℝ)
  (wall il ir : Option (ℝ → ℝ)) (bc : BC ℝ ℝ) (hbc : build wall ["periodic"] 1 il ir = .ok bc) (T : Tableau ℝ)
  (hT : T = forwardEuler ℝ ∨ T = heun ℝ ∨ T = ssp3 ℝ)
include wv hP hn hbc hT

/-- One step of length `dt` from time `t`. -/
theorem wave_step (dt t : ℝ) (hdt : 0 ≤ dt) (hcfl : 2 * dt * M ≤ P / n) (h0 : 0 ≤ t) (h1 : t + dt ≤ S)
    (s : Solver ℝ (Fin n → ℝ)) (hs : ∀ i, m ≤ s.solution i ∧ s.solution i ≤ M) :
    ∃ s', s.executeE T (vecRhs n (rhs (laxFriedrichs Problem.burgers.riemann) (P / n) bc)) dt = .ok s' ∧
      s'.time = s.time + dt ∧ (∀ i, m ≤ s'.solution i ∧ s'.solution i ≤ M) ∧
      distance s'.solution (sample (u (t + dt)) x₀ (P / n) n) ≤
        distance s.solution (sample (u t) x₀ (P / n) n) +
          2 * (n * ((2 * L ^ 2 + M * B) * (P / n) * dt)) := by
  have hn0 : (0 : ℝ) < n := by exact_mod_cast hn
  have hPn : (n : ℝ) * (P / n) = P := by field_simp
  set dx := P / n with hdx'
  have hdx : 0 < dx := div_pos hP hn0
  have hS : 0 ≤ S := by linarith
  have hL := wv.L_nonneg hS
  have hB := wv.B_nonneg hS
  have hM := wv.M_pos hS
  have hmM : m ≤ M := (wv.range 0 le_rfl hS 0).1.trans (wv.range 0 le_rfl hS 0).2
  obtain ⟨g, hg, g0, g1⟩ := cells_periodic n hn wall il ir bc hbc
  have hc : Monotonic Problem.burgers m M dx dt := ⟨hdt, (fun h => by cases h), fun _ => ⟨wv.pos, hcfl⟩⟩
  set N : (Fin n → ℝ) → Fin n → ℝ := newCell .burgers (dt / dx) g with hNdef
  have hNX : ∀ z ∈ box n m M, N z ∈ box n m M := by
    intro z hz i
    have const : ∀ c : ℝ, newCell .burgers (dt / dx) g (fun _ => c) i = c := by
      intro c
      simp [newCell, eulerCell]
    constructor
    · have := newCell_mono .burgers m M dx dt hdx hc g (fun _ => m) z (fun _ => le_rfl)
        (fun j => (hz j).1) (fun j => (hz j).2) i
      rwa [const] at this
    · have := newCell_mono .burgers m M dx dt hdx hc g z (fun _ => M) (fun j => (hz j).1)
        (fun j => (hz j).2) (fun _ => le_rfl) i
      rwa [const] at this
  obtain ⟨s', e1, e2, e3, e4⟩ := ssp_forms
    (vecRhs n (rhs (laxFriedrichs Problem.burgers.riemann) dx bc)) dt (box n m M) (box_convex n m M) N
    (fun t z hz => newCell_eq .burgers n bc g hg dx hdx m dt (fun _ => wv.pos) t z (fun i => (hz i).1))
    hNX T hT s hs
  refine ⟨s', e1, e2, e3, ?_⟩
  set C := 2 * L ^ 2 + M * B with hC
  have hC0 : 0 ≤ C := by positivity
  have hMC : M * dt ≤ dx / 2 := by linarith
  -- forward Euler from the wave
  have euler : ∀ τ, 0 ≤ τ → τ ≤ dt → distance (N (sample (u (t + τ)) x₀ dx n))
      (sample (u (t + τ)) x₀ dx n + dt • fun i : Fin n => -(u t (x₀ + i * dx) * D t (x₀ + i * dx))) ≤
        n * (dt * (C * dx + M * C * τ)) := by
    intro τ hτ hτ'
    have t0 : 0 ≤ t + τ := by linarith
    have t1 : t + τ ≤ S := by linarith
    refine distance_cells _ _ _ fun i => ?_
    have hper : ∀ x, u (t + τ) (x + n * dx) = u (t + τ) x := by
      intro x; rw [hPn]; exact wv.period _ t0 t1 x
    have i0 := sample_cell (u (t + τ)) x₀ dx hn hper g hg.middle g0 g1 i (by omega)
    have i1 := sample_cell (u (t + τ)) x₀ dx hn hper g hg.middle g0 g1 (i + 1) (by omega)
    have i2 := sample_cell (u (t + τ)) x₀ dx hn hper g hg.middle g0 g1 (i + 2) (by omega)
    set x := x₀ + (i : ℕ) * dx with hx
    rw [show x₀ + (((i : ℕ) : ℝ) - 1) * dx = x - dx by rw [hx]; ring] at i0
    rw [show x₀ + (((i + 1 : ℕ) : ℝ) - 1) * dx = x by rw [hx]; push_cast; ring] at i1
    rw [show x₀ + (((i + 2 : ℕ) : ℝ) - 1) * dx = x + dx by rw [hx]; push_cast; ring] at i2
    have hi : sample (u (t + τ)) x₀ dx n i = u (t + τ) x := rfl
    have hr := wv.range _ t0 t1 x
    have f1 := wv.taylor _ t0 t1 x (x + dx)
    have f2 := wv.taylor _ t0 t1 x (x - dx)
    have f3 := wv.lip _ t0 t1 (x + dx) x
    have f4 := wv.lip _ t0 t1 x (x - dx)
    rw [show x + dx - x = dx by ring] at f1 f3
    rw [show x - dx - x = -dx by ring, neg_sq, mul_neg, sub_neg_eq_add] at f2
    rw [show x - (x - dx) = dx by ring] at f4
    rw [abs_of_pos hdx] at f3 f4
    have cons := flux_consistent (u (t + τ) (x - dx)) (u (t + τ) x) (u (t + τ) (x + dx)) (D (t + τ) x) dx M L B
      hdx hL (wv.pos.le.trans hr.1) hr.2 f1 f2 f3 f4
    have rate := wv.rate_time h0 hτ t1 x
    rw [← hC] at cons rate
    simp only [Pi.add_apply, Pi.smul_apply, smul_eq_mul, hNdef, newCell, eulerCell]
    rw [i0, i1, i2, hi, ← hx]
    have e : u (t + τ) x + dt / dx * (lfFlux .burgers (u (t + τ) (x - dx)) (u (t + τ) x) -
        lfFlux .burgers (u (t + τ) x) (u (t + τ) (x + dx))) - (u (t + τ) x + dt * -(u t x * D t x)) =
        dt * ((1 / dx * (lfFlux .burgers (u (t + τ) (x - dx)) (u (t + τ) x) -
          lfFlux .burgers (u (t + τ) x) (u (t + τ) (x + dx))) - -(u (t + τ) x * D (t + τ) x)) +
          (-(u (t + τ) x * D (t + τ) x) - -(u t x * D t x))) := by ring
    rw [e, abs_mul, abs_of_nonneg hdt]
    exact mul_le_mul_of_nonneg_left ((abs_add_le _ _).trans (add_le_add cons rate)) hdt
  have curve : ∀ τ, 0 ≤ τ → τ ≤ dt → distance (sample (u (t + τ)) x₀ dx n)
      (sample (u (t + 0)) x₀ dx n + τ • fun i : Fin n => -(u t (x₀ + i * dx) * D t (x₀ + i * dx))) ≤
        n * (M * C / 2 * τ ^ 2) := by
    intro τ hτ hτ'
    refine distance_cells _ _ _ fun i => ?_
    rw [add_zero]
    exact wv.time_taylor h0 hτ (by linarith) _
  have small : ∀ τ, 0 ≤ τ → τ ≤ dt → n * (M * C / 2 * τ ^ 2) ≤ 1 / 4 * (n * (C * dx * dt)) := by
    intro τ hτ hτ'
    have k1 : τ ^ 2 ≤ dt ^ 2 := pow_le_pow_left₀ hτ hτ' 2
    have k2 : M * C / 2 * τ ^ 2 ≤ M * C / 2 * dt ^ 2 := mul_le_mul_of_nonneg_left k1 (by positivity)
    have k3 : M * dt * (C * dt) ≤ dx / 2 * (C * dt) := mul_le_mul_of_nonneg_right hMC (by positivity)
    have k4 : M * C / 2 * τ ^ 2 ≤ 1 / 4 * (C * dx * dt) := by nlinarith
    calc n * (M * C / 2 * τ ^ 2) ≤ n * (1 / 4 * (C * dx * dt)) := mul_le_mul_of_nonneg_left k4 hn0.le
      _ = _ := by ring
  have big : ∀ τ r, 0 ≤ τ → M * τ ≤ r * dx → n * (dt * (C * dx + M * C * τ)) ≤ (1 + r) * (n * (C * dx * dt)) := by
    intro τ r hτ hr
    have k1 : M * τ * C ≤ r * dx * C := mul_le_mul_of_nonneg_right hr hC0
    have k2 : dt * (C * dx + M * C * τ) ≤ dt * ((1 + r) * (C * dx)) :=
      mul_le_mul_of_nonneg_left (by linarith) hdt
    calc n * (dt * (C * dx + M * C * τ)) ≤ n * (dt * ((1 + r) * (C * dx))) :=
          mul_le_mul_of_nonneg_left k2 hn0.le
      _ = _ := by ring
  have key := step_error N (box n m M) (fun τ => sample (u (t + τ)) x₀ dx n)
    (fun i : Fin n => -(u t (x₀ + i * dx) * D t (x₀ + i * dx))) dt (n * (C * dx * dt)) hNX
    (fun τ hτ hτ' i => wv.range _ (by linarith) (by linarith) _) hdt
    (fun a ha b hb => distance_step .burgers m M dx dt hdx hc g hg.middle g0 g1 a b ha hb)
    (by
      have := (euler 0 le_rfl hdt).trans (big 0 0 le_rfl (by simp))
      simpa using this)
    (by
      have := (euler dt hdt le_rfl).trans (big dt (1 / 2) hdt (by linarith))
      norm_num at this ⊢
      exact this)
    (by
      have := (euler (1 / 2 * dt) (by linarith) (by linarith)).trans
        (big (1 / 2 * dt) (1 / 4) (by linarith) (by linarith))
      norm_num at this ⊢
      exact this)
    ((curve dt hdt le_rfl).trans (small dt hdt le_rfl))
    ((curve (1 / 2 * dt) (by linarith) (by linarith)).trans (small _ (by linarith) (by linarith)))
    s.solution s'.solution hs e4
  simpa using key

/-- Whole runs. -/
theorem wave_run (steps : List ℝ) (hsteps : ∀ dt ∈ steps, 0 ≤ dt ∧ 2 * dt * M ≤ P / n) (t : ℝ) (h0 : 0 ≤ t)
    (h1 : t + steps.sum ≤ S) (s : Solver ℝ (Fin n → ℝ)) (hs : ∀ i, m ≤ s.solution i ∧ s.solution i ≤ M) :
    ∃ s', s.runE T (vecRhs n (rhs (laxFriedrichs Problem.burgers.riemann) (P / n) bc)) steps = .ok s' ∧
      s'.time = s.time + steps.sum ∧ (∀ i, m ≤ s'.solution i ∧ s'.solution i ≤ M) ∧
      distance s'.solution (sample (u (t + steps.sum)) x₀ (P / n) n) ≤
        distance s.solution (sample (u t) x₀ (P / n) n) +
          2 * (n * ((2 * L ^ 2 + M * B) * (P / n) * steps.sum)) := by
  induction steps generalizing t s with
  | nil => exact ⟨s, rfl, by simp, hs, by simp⟩
  | cons dt steps ih =>
    have hd := hsteps dt (by simp)
    have hrest : 0 ≤ steps.sum := List.sum_nonneg fun x hx => (hsteps x (by simp [hx])).1
    rw [List.sum_cons] at h1
    obtain ⟨s1, a1, a2, a3, a4⟩ := wave_step wv hP hn x₀ wall il ir bc hbc T hT dt t hd.1 hd.2 h0
      (by linarith) s hs
    obtain ⟨s2, b1, b2, b3, b4⟩ := ih (fun x hx => hsteps x (by simp [hx])) (t + dt) (by linarith [hd.1])
      (by linarith) s1 a3
    refine ⟨s2, by simp only [Solver.runE, a1, b1], by rw [b2, a2, List.sum_cons]; ring, b3, ?_⟩
    rw [List.sum_cons, ← add_assoc]
    calc _ ≤ _ := b4
      _ ≤ _ := add_le_add_left a4 _
      _ = _ := by ring

end Run

/-- C110.  Convergence of order one before the shock.  Data `f` are positive, periodic and smooth, and the
characteristics do not meet up to time `S`; `u` is the exact solution by characteristics.  From the cell
averages of `f`, with forward Euler, Heun or SSP3 and steps `dt` with `2 dt M ≤ dx`, the mean error at time
`t = steps.sum ≤ S` is at most `(L' + 2 C t) dx` per length, `C = 2 L'² + M B'`, with bounds `L' = L / c` and
`B' = B / c³` for the slope of the exact solution and its Lipschitz constant, whichever points of the cells
are compared. -/
theorem C110_convergence {m M L B c S : ℝ} {f f' : ℝ → ℝ} {u : ℝ → ℝ → ℝ} {points : List (ℝ × ℝ)}
    (hp : AveragingRule points) {d : Interval ℝ} (hd : d.a < d.b) (hn : 0 < n)
    (hf : BeforeShock (d.b - d.a) m M L B c S f f') (hu : Characteristics f S u) {mesh : UMesh ℝ}
    (hmesh : uniformMesh d n = .ok mesh) (wall il ir : Option (ℝ → ℝ)) (bc : BC ℝ ℝ)
    (hbc : build wall ["periodic"] 1 il ir = .ok bc) (T : Tableau ℝ)
    (hT : T = forwardEuler ℝ ∨ T = heun ℝ ∨ T = ssp3 ℝ) (steps : List ℝ)
    (hsteps : ∀ dt ∈ steps, 0 ≤ dt ∧ 2 * dt * M ≤ (d.b - d.a) / n) (h1 : steps.sum ≤ S) (t₀ : ℝ) :
    ∃ s', (Solver.init (fun i : Fin n => (cellAverages points mesh f).getD i 0) t₀).runE T
        (vecRhs n (rhs (laxFriedrichs Problem.burgers.riemann) ((d.b - d.a) / n) bc)) steps = .ok s' ∧
      s'.time = t₀ + steps.sum ∧ (∀ i, m ≤ s'.solution i ∧ s'.solution i ≤ M) ∧
      ∀ x : Fin n → ℝ, (∀ i : Fin n, InCell d n i (x i)) →
        (d.b - d.a) / n * ∑ i, |s'.solution i - u steps.sum (x i)| ≤
          (d.b - d.a) * ((L / c + 2 * (2 * (L / c) ^ 2 + M * (B / c ^ 3)) * steps.sum) *
            ((d.b - d.a) / n)) := by
  have hn0 : (0 : ℝ) < n := by exact_mod_cast hn
  have hP : 0 < d.b - d.a := by linarith
  have wv := hf.wave hu
  have hsum : 0 ≤ steps.sum := List.sum_nonneg fun x hx => (hsteps x hx).1
  have hS : 0 ≤ S := hsum.trans h1
  have hu0 : u 0 = f := by
    funext x
    have := hu 0 le_rfl hS x
    simpa using this
  have hL := wv.L_nonneg hS
  obtain ⟨hcells, hlt, -⟩ := uniform_cells hd hn hmesh
  have hrange : ∀ i : Fin n, m ≤ (cellAverages points mesh f).getD i 0 ∧
      (cellAverages points mesh f).getD i 0 ≤ M := fun i =>
    (C58_basic points mesh hlt hp.sum hp.pos hp.inside f).2.2.1 i (by rw [hcells]; exact i.2) m M
      fun x _ _ => hf.range x
  obtain ⟨s', r1, r2, r3, r4⟩ := wave_run wv hP hn (d.a + (d.b - d.a) / n / 2) wall il ir bc hbc T hT steps
    hsteps 0 le_rfl (by linarith) (Solver.init (fun i : Fin n => (cellAverages points mesh f).getD i 0) t₀)
    hrange
  refine ⟨s', r1, r2, r3, fun x hx => ?_⟩
  rw [zero_add] at r4
  have hcen : ∀ i : Fin n, |x i - (d.a + (d.b - d.a) / n / 2 + (i : ℕ) * ((d.b - d.a) / n))| ≤
      (d.b - d.a) / n / 2 := fun i => inCell_center (hx i)
  have hPn : (n : ℝ) * ((d.b - d.a) / n) = d.b - d.a := by field_simp
  have hdx : 0 < (d.b - d.a) / n := div_pos hP hn0
  have k1 : distance (Solver.init (fun i : Fin n => (cellAverages points mesh f).getD i 0) t₀).solution
      (sample (u 0) (d.a + (d.b - d.a) / n / 2) ((d.b - d.a) / n) n) ≤
        n * (L / c * ((d.b - d.a) / n / 2)) := by
    refine distance_cells _ _ _ fun i => ?_
    have a1 := around_average hp hd hn hmesh f hf.period i
    rw [around_cell] at a1
    show |(cellAverages points mesh f).getD i 0 - sample (u 0) _ _ n i| ≤ _
    rw [a1, hu0]
    unfold sample
    push_cast
    refine mean_near hp _ (by positivity) f _ _ _ fun z hz => ?_
    have := wv.lip 0 le_rfl hS z (d.a + (d.b - d.a) / n / 2 + (i : ℕ) * ((d.b - d.a) / n))
    rw [hu0] at this
    exact this.trans (mul_le_mul_of_nonneg_left hz hL)
  have k2 : distance (sample (u steps.sum) (d.a + (d.b - d.a) / n / 2) ((d.b - d.a) / n) n)
      (fun i => u steps.sum (x i)) ≤ n * (L / c * ((d.b - d.a) / n / 2)) := by
    refine distance_cells _ _ _ fun i => ?_
    refine (wv.lip _ hsum h1 _ _).trans (mul_le_mul_of_nonneg_left ?_ hL)
    rw [abs_sub_comm]
    exact hcen i
  have k3 := distance_tri s'.solution (sample (u steps.sum) (d.a + (d.b - d.a) / n / 2) ((d.b - d.a) / n) n)
    (fun i => u steps.sum (x i))
  generalize (d.b - d.a) / n = dx at *
  have k4 : ∑ i, |s'.solution i - u steps.sum (x i)| ≤
      n * ((L / c + 2 * (2 * (L / c) ^ 2 + M * (B / c ^ 3)) * steps.sum) * dx) := by
    refine k3.trans ?_
    calc _ ≤ (n * (L / c * (dx / 2)) + 2 * (n * ((2 * (L / c) ^ 2 + M * (B / c ^ 3)) * dx * steps.sum))) +
          n * (L / c * (dx / 2)) := add_le_add (r4.trans (add_le_add_left k1 _)) k2
      _ = _ := by ring
  calc _ ≤ dx * (n * ((L / c + 2 * (2 * (L / c) ^ 2 + M * (B / c ^ 3)) * steps.sum) * dx)) :=
        mul_le_mul_of_nonneg_left k4 hdx.le
    _ = (n * dx) * ((L / c + 2 * (2 * (L / c) ^ 2 + M * (B / c ^ 3)) * steps.sum) * dx) := by ring
    _ = _ := by rw [hPn]

/-- C110.  The exact solution exists and is unique. -/
theorem C110_exact {P m M L B c S : ℝ} {f f' : ℝ → ℝ} (hf : BeforeShock P m M L B c S f f') :
    (∃ u, Characteristics f S u) ∧
    ∀ u v, Characteristics f S u → Characteristics f S v → ∀ t, 0 ≤ t → t ≤ S → u t = v t := by
  refine ⟨hf.exists_exact, fun u v hu hv t h0 h1 => funext fun x => ?_⟩
  rw [hu t h0 h1 x, hv t h0 h1 x]
  congr 1
  refine hf.foot_unique t h0 h1 _ _ ?_
  rw [← hu t h0 h1 x, ← hv t h0 h1 x]
  ring

open Verif.Commands EndToEnd Verif.Solver

/-- C110.  A whole run of the solver, up to its end time `t1 ≤ S`, and its L1 error as the `eoc` command
computes it: at most `length (3/2 L' + 2 C t1) dx`. -/
theorem C110_error {m M L B c S : ℝ} {f f' : ℝ → ℝ} {u : ℝ → ℝ → ℝ} {points quad : List (ℝ × ℝ)}
    (hp : AveragingRule points) (hq : AveragingRule quad) {d : Interval ℝ} (hd : d.a < d.b) (hn : 0 < n)
    (hf : BeforeShock (d.b - d.a) m M L B c S f f') (hu : Characteristics f S u) {mesh : UMesh ℝ}
    (hmesh : uniformMesh d n = .ok mesh) (bc : BC ℝ ℝ) (hbc : build none ["periodic"] 1 none none = .ok bc)
    (T : Tableau ℝ) (hT : T = forwardEuler ℝ ∨ T = heun ℝ ∨ T = ssp3 ℝ) (cfl t1 : ℝ)
    (hcfl : 2 * cfl * M ≤ 1) (hstep : 1 / 10 ^ 12 ≤ (d.b - d.a) / n * cfl) (hdur : 1 / 10 ^ 12 ≤ t1)
    (ht1 : t1 ≤ S) :
    let v : Fin n → ℝ := fun i => (cellAverages points mesh f).getD i 0
    let P := fvParams n T (rhs (laxFriedrichs Problem.burgers.riemann) ((d.b - d.a) / n) bc)
      ((d.b - d.a) / n) cfl 0 t1
    (∀ k, (solve P (Obj.make P ⟨v, 0, t1⟩) k).2 = .running ∨ (solve P (Obj.make P ⟨v, 0, t1⟩) k).2 = .finished) ∧
    (∃ k, (solve P (Obj.make P ⟨v, 0, t1⟩) k).2 = .finished) ∧
    ∀ k, (solve P (Obj.make P ⟨v, 0, t1⟩) k).2 = .finished →
      ∃ e1 e2 e3, errorRow quad mesh (u t1) (List.ofFn (solve P (Obj.make P ⟨v, 0, t1⟩) k).1.sol.sol.value) =
          .ok [e1, e2, e3] ∧
        e1 ≤ (d.b - d.a) * ((3 / 2 * (L / c) + 2 * (2 * (L / c) ^ 2 + M * (B / c ^ 3)) * t1) *
          ((d.b - d.a) / n)) := by
  intro v P
  have hn0 : (0 : ℝ) < n := by exact_mod_cast hn
  have hdx : 0 < (d.b - d.a) / n := div_pos (by linarith) hn0
  have ht0 : 0 < t1 := lt_of_lt_of_le (by positivity) hdur
  have hcfl0 : 0 < cfl := by
    have : (0 : ℝ) < (d.b - d.a) / n * cfl := lt_of_lt_of_le (by positivity) hstep
    exact (pos_iff_pos_of_mul_pos this).mp hdx
  have wv := hf.wave hu
  have hS : 0 ≤ S := ht0.le.trans ht1
  have hM := wv.M_pos hS
  have hL := wv.L_nonneg hS
  have hcM : cfl * M ≤ 1 := by
    have : 0 < cfl * M := mul_pos hcfl0 hM
    linarith
  obtain ⟨hcells, hlt, -⟩ := uniform_cells hd hn hmesh
  have hrange : ∀ i : Fin n, m ≤ v i ∧ v i ≤ M := fun i =>
    (C58_basic points mesh hlt hp.sum hp.pos hp.inside f).2.2.1 i (by rw [hcells]; exact i.2) m M
      fun x _ _ => hf.range x
  obtain ⟨q1, q2, q3, -, -⟩ := C95_lax_friedrichs (K := ℝ) .burgers n hn none none bc "periodic" (Or.inl rfl) hbc
    T hT ((d.b - d.a) / n) cfl 0 t1 hdx hstep (by linarith) m M (fun h => by cases h)
    (fun _ => ⟨hf.pos, hcM⟩) v hrange
  refine ⟨q2, ?_, fun k hk => ?_⟩
  · obtain ⟨k, hk⟩ := exists_nat_ge ((t1 - 0) / ((d.b - d.a) / n * cfl))
    exact ⟨k + 1, q1 k (by rwa [div_le_iff₀ (mul_pos hdx hcfl0)] at hk)⟩
  · obtain ⟨steps, r1, r2, r3, r4⟩ := solve_steps T _ ((d.b - d.a) / n) cfl t1 v k
      (fun e he => by rw [show _ = _ from hk] at he; cases he)
    obtain ⟨e1, e2⟩ := q3 k hk
    have hsteps : ∀ dt ∈ steps, 0 ≤ dt ∧ 2 * dt * M ≤ (d.b - d.a) / n := by
      intro dt hdt
      refine ⟨(r1 dt hdt).1, ?_⟩
      calc 2 * dt * M ≤ 2 * ((d.b - d.a) / n * cfl) * M := by
            apply mul_le_mul_of_nonneg_right _ hM.le
            linarith [(r1 dt hdt).2]
        _ = (d.b - d.a) / n * (2 * cfl * M) := by ring
        _ ≤ _ := mul_le_of_le_one_right hdx.le hcfl
    have etime : (solve P (Obj.make P ⟨v, 0, t1⟩) k).1.sol.sol.time = steps.sum := r4
    have evalue : (solve P (Obj.make P ⟨v, 0, t1⟩) k).1.sol.sol.value =
      (solve P (Obj.make P ⟨v, 0, t1⟩) k).1.ode.solution := r3
    have e1' : t1 - 1 / 10 ^ 12 < steps.sum := by rw [← etime]; exact e1
    have e2' : steps.sum ≤ t1 := by rw [← etime]; exact e2
    obtain ⟨s', c1, -, -, c4⟩ := C110_convergence hp hd hn hf hu hmesh none none none bc hbc T hT steps hsteps
      (e2'.trans ht1) 0
    have hs' := Except.ok.inj (c1.symm.trans r2)
    have hval : ∀ (i : Fin n) (x : ℝ), element (List.ofFn (solve P (Obj.make P ⟨v, 0, t1⟩) k).1.sol.sol.value) i x =
        s'.solution i := by
      intro i x
      unfold element
      rw [List.getD_eq_getElem _ _ (by simp), List.getElem_ofFn, evalue, hs']
    generalize (solve P (Obj.make P ⟨v, 0, t1⟩) k).1.sol.sol.value = value at hval
    obtain ⟨E, hE, -⟩ := linf_ok 10 (by norm_num) mesh (by intro h; rw [h] at hcells; simp at hcells; omega)
      (fun i x => u t1 x - element (List.ofFn value) i x)
    refine ⟨l1 quad mesh fun i x => u t1 x - element (List.ofFn value) i x,
      l2 quad mesh fun i x => u t1 x - element (List.ofFn value) i x, E, by unfold errorRow; simp only [hE], ?_⟩
    refine l1_le hq hd hn hmesh _ _ fun x hx => ?_
    simp only [hval]
    have hsum : 0 ≤ steps.sum := List.sum_nonneg fun x hx => (hsteps x hx).1
    have k1 := c4 x hx
    have k2 : ∀ i : Fin n, |u t1 (x i) - u steps.sum (x i)| ≤ L / c * ((d.b - d.a) / n / 2) := by
      intro i
      have := wv.time_lip hsum (τ := t1 - steps.sum) (by linarith) (by linarith) (x i)
      rw [add_sub_cancel] at this
      refine this.trans ?_
      rw [mul_assoc]
      refine mul_le_mul_of_nonneg_left ?_ hL
      have h2 : M * (t1 - steps.sum) ≤ M * ((d.b - d.a) / n * cfl) :=
        mul_le_mul_of_nonneg_left (by linarith) hM.le
      have h3 : (d.b - d.a) / n * (2 * cfl * M) ≤ (d.b - d.a) / n * 1 :=
        mul_le_mul_of_nonneg_left hcfl hdx.le
      linarith
    have k3 : ∑ i : Fin n, |u t1 (x i) - s'.solution i| ≤
        ∑ i : Fin n, |s'.solution i - u steps.sum (x i)| + n * (L / c * ((d.b - d.a) / n / 2)) := by
      have a1 := distance_tri (fun i : Fin n => u t1 (x i)) (fun i => u steps.sum (x i)) s'.solution
      have a2 := distance_cells (fun i : Fin n => u t1 (x i)) (fun i => u steps.sum (x i)) _ k2
      unfold distance at a1 a2
      simp only [abs_sub_comm (s'.solution _)]
      linarith
    have hC : 0 ≤ 2 * (2 * (L / c) ^ 2 + M * (B / c ^ 3)) := by
      have := wv.B_nonneg hS
      positivity
    have hPn : (n : ℝ) * ((d.b - d.a) / n) = d.b - d.a := by field_simp
    have hP : 0 < d.b - d.a := by linarith
    generalize (d.b - d.a) / n = dx at *
    calc dx * ∑ i : Fin n, |u t1 (x i) - s'.solution i|
        ≤ dx * (∑ i : Fin n, |s'.solution i - u steps.sum (x i)| + n * (L / c * (dx / 2))) :=
          mul_le_mul_of_nonneg_left k3 hdx.le
      _ = dx * ∑ i : Fin n, |s'.solution i - u steps.sum (x i)| + (n * dx) * (L / c * (dx / 2)) := by ring
      _ ≤ (d.b - d.a) * ((L / c + 2 * (2 * (L / c) ^ 2 + M * (B / c ^ 3)) * steps.sum) * dx) +
          (d.b - d.a) * (L / c * (dx / 2)) := by rw [hPn]; exact add_le_add_left k1 _
      _ = (d.b - d.a) * ((3 / 2 * (L / c) + 2 * (2 * (L / c) ^ 2 + M * (B / c ^ 3)) * steps.sum) * dx) := by
          ring
      _ ≤ _ := by
          apply mul_le_mul_of_nonneg_left _ hP.le
          apply mul_le_mul_of_nonneg_right _ hdx.le
          have := mul_le_mul_of_nonneg_left e2' hC
          linarith

/-! ### Examples -/

/-- `2 + sin` up to time 1/2. -/
theorem example_data : BeforeShock (2 * Real.pi - 0) 1 3 1 1 (1 / 2) (1 / 2) (fun x => 2 + Real.sin x)
    Real.cos where
  pos := by norm_num
  range x := by
    have h1 := Real.neg_one_le_sin x
    have h2 := Real.sin_le_one x
    constructor <;> linarith
  period x := by rw [sub_zero, Real.sin_add_two_pi]
  deriv x := by simpa using (Real.hasDerivAt_sin x).const_add 2
  slope := Real.abs_cos_le_one
  smooth x y := by
    rw [one_mul]
    have := Convex.norm_image_sub_le_of_norm_hasDerivWithin_le (f := Real.cos) (f' := fun z => -Real.sin z)
      (s := Set.univ) (C := 1) (fun z _ => (Real.hasDerivAt_cos z).hasDerivWithinAt)
      (fun z _ => by simpa using Real.abs_sin_le_one z) convex_univ (Set.mem_univ y) (Set.mem_univ x)
    simpa using this
  cpos := by norm_num
  c1 := by norm_num
  meet x := by
    have := Real.neg_one_le_cos x
    linarith

/-- The theorem for `2 + sin` on `[0, 2 π]` with `n` cells, CFL number 1/6 up to time 1/2, Heun's method:
there is an exact solution and the L1 error is at most a constant times `1 / n`. -/
example (hn : 0 < n) (hn' : n ≤ 10 ^ 11) (mesh : UMesh ℝ) (hmesh : uniformMesh ⟨0, 2 * Real.pi⟩ n = .ok mesh)
    (bc : BC ℝ ℝ) (hbc : build none ["periodic"] 1 none none = .ok bc) :
    ∃ u, Characteristics (fun x => 2 + Real.sin x) (1 / 2) u ∧
      let v : Fin n → ℝ := fun i => (cellAverages [(0, 2)] mesh fun x => 2 + Real.sin x).getD i 0
      let P := fvParams n (heun ℝ) (rhs (laxFriedrichs Problem.burgers.riemann) ((2 * Real.pi - 0) / n) bc)
        ((2 * Real.pi - 0) / n) (1 / 6) 0 (1 / 2)
      ∃ k, (solve P (Obj.make P ⟨v, 0, 1 / 2⟩) k).2 = .finished ∧ ∃ e1 e2 e3, errorRow [(0, 2)] mesh (u (1 / 2))
        (List.ofFn (solve P (Obj.make P ⟨v, 0, 1 / 2⟩) k).1.sol.sol.value) = .ok [e1, e2, e3] ∧
        e1 ≤ 35 * (2 * Real.pi) ^ 2 / n := by
  obtain ⟨⟨u, hu⟩, -⟩ := C110_exact example_data
  have hpi := Real.two_le_pi
  have hn0 : (0 : ℝ) < n := by exact_mod_cast hn
  have hn1 : (n : ℝ) ≤ 10 ^ 11 := by exact_mod_cast hn'
  obtain ⟨-, ⟨k, hk⟩, h3⟩ := C110_error midpoint_rule midpoint_rule (d := ⟨0, 2 * Real.pi⟩) (by simp [Real.pi_pos]) hn
    example_data hu hmesh bc hbc (heun ℝ) (Or.inr (Or.inl rfl)) (1 / 6) (1 / 2) (by norm_num)
    (by
      rw [div_mul_eq_mul_div, le_div_iff₀ hn0]
      simp only [sub_zero]
      linarith) (by norm_num) le_rfl
  obtain ⟨e1, e2, e3, h4, h5⟩ := h3 k hk
  refine ⟨u, hu, k, hk, e1, e2, e3, h4, h5.trans (le_of_eq ?_)⟩
  simp only
  field_simp
  ring

end Verif.Convergence
