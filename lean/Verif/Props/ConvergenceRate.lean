import Verif.Props.Convergence

/-!
C103: convergence of the Lax-Friedrichs solver for linear advection to the exact solution, with rates.
-/

set_option linter.unusedSectionVars false

namespace Verif.Convergence

open Verif.Py Verif.Boundary Verif.FV Verif.ODE Verif.Scalar

variable {n : ℕ}

/-! ### Cell averages -/

open Verif.Interpolate Verif.Quadrature Verif.Bench
open Verif.Mesh hiding Error

/-- The mean value of `f` around `y` with a quadrature rule on `(-1, 1)`, scaled to radius `r`. -/
noncomputable def mean (points : List (ℝ × ℝ)) (r : ℝ) (f : ℝ → ℝ) (y : ℝ) : ℝ :=
  1 / 2 * (points.map fun p => p.2 * f (r * p.1 + y)).sum

section Mean

theorem list_sum_sub {α : Type*} (l : List α) (f g : α → ℝ) :
    (l.map fun x => f x - g x).sum = (l.map f).sum - (l.map g).sum := by
  induction l with
  | nil => simp
  | cons x l ih => simp only [List.map_cons, List.sum_cons, ih]; ring

variable {points : List (ℝ × ℝ)} (hp : AveragingRule points)
include hp

theorem rule_sum : (points.map fun p => p.2).sum = 2 := hp.sum

theorem rule_pos : ∀ p ∈ points, 0 ≤ p.2 := fun _ h => (hp.pos _ (List.mem_map_of_mem h)).le

theorem rule_inside : ∀ p ∈ points, |p.1| ≤ 1 := fun _ h => by
  have := hp.inside _ (List.mem_map_of_mem h)
  exact abs_le.mpr ⟨this.1.le, this.2.le⟩

theorem weighted_le (g h : ℝ × ℝ → ℝ) (hgh : ∀ p ∈ points, |g p| ≤ h p) :
    |1 / 2 * (points.map fun p => p.2 * g p).sum| ≤ 1 / 2 * (points.map fun p => p.2 * h p).sum := by
  rw [abs_mul, abs_of_pos (by norm_num : (0 : ℝ) < 1 / 2)]
  refine mul_le_mul_of_nonneg_left ?_ (by norm_num)
  have h0 := rule_pos hp
  clear hp
  induction points with
  | nil => simp
  | cons p ps ih =>
    simp only [List.map_cons, List.sum_cons]
    refine (abs_add_le _ _).trans (add_le_add ?_ (ih (fun q hq => hgh q (by simp [hq]))
      (fun q hq => h0 q (by simp [hq]))))
    rw [abs_mul, abs_of_nonneg (h0 p (by simp))]
    exact mul_le_mul_of_nonneg_left (hgh p (by simp)) (h0 p (by simp))

theorem weighted_const (c : ℝ) : 1 / 2 * (points.map fun p => p.2 * c).sum = c := by
  rw [List.sum_map_mul_right, rule_sum hp]; ring

theorem weighted_sub (g h : ℝ × ℝ → ℝ) :
    1 / 2 * (points.map fun p => p.2 * (g p - h p)).sum =
      1 / 2 * (points.map fun p => p.2 * g p).sum - 1 / 2 * (points.map fun p => p.2 * h p).sum := by
  rw [← mul_sub, ← list_sum_sub]
  congr 2
  exact List.map_congr_left fun p _ => mul_sub _ _ _

theorem mean_sub_le (r : ℝ) (f : ℝ → ℝ) (x y c B : ℝ)
    (h : ∀ p ∈ points, |f (r * p.1 + x) - f (r * p.1 + y) - c| ≤ B) :
    |mean points r f x - mean points r f y - c| ≤ B := by
  have e : mean points r f x - mean points r f y - c =
      1 / 2 * (points.map fun p => p.2 * (f (r * p.1 + x) - f (r * p.1 + y) - c)).sum := by
    rw [weighted_sub hp (fun p => f (r * p.1 + x) - f (r * p.1 + y)) (fun _ => c), weighted_const hp,
      weighted_sub hp (fun p => f (r * p.1 + x)) (fun p => f (r * p.1 + y))]
    rfl
  rw [e]
  refine (weighted_le hp _ (fun _ => B) h).trans (weighted_const hp B).le

/-- Means of a Lipschitz continuous function. -/
theorem mean_lipschitz (r : ℝ) (f : ℝ → ℝ) (L : ℝ) (hf : ∀ x y, |f x - f y| ≤ L * |x - y|) (x y : ℝ) :
    |mean points r f x - mean points r f y| ≤ L * |x - y| := by
  have := mean_sub_le hp r f x y 0 (L * |x - y|) fun p _ => by
    rw [sub_zero]
    refine (hf _ _).trans (le_of_eq ?_)
    congr 2; ring
  rwa [sub_zero] at this

theorem mean_near (r : ℝ) (hr : 0 ≤ r) (f : ℝ → ℝ) (B x y : ℝ)
    (hf : ∀ z, |z - y| ≤ r → |f z - f x| ≤ B) : |mean points r f y - f x| ≤ B := by
  have e : mean points r f y - f x = 1 / 2 * (points.map fun p => p.2 * (f (r * p.1 + y) - f x)).sum := by
    rw [weighted_sub hp (fun p => f (r * p.1 + y)) (fun _ => f x), weighted_const hp]
    rfl
  rw [e]
  refine (weighted_le hp _ (fun _ => B) fun p hpp => hf _ ?_).trans (weighted_const hp B).le
  rw [add_sub_cancel_right, abs_mul, abs_of_nonneg hr]
  exact mul_le_of_le_one_right hr (rule_inside hp p hpp)

/-- Means of a function with a second order Taylor bound. -/
theorem mean_smooth (r : ℝ) (f D : ℝ → ℝ) (M : ℝ)
    (hf : ∀ x y, |f y - f x - D x * (y - x)| ≤ M / 2 * (y - x) ^ 2) (x y : ℝ) :
    |mean points r f y - mean points r f x - mean points r D x * (y - x)| ≤ M / 2 * (y - x) ^ 2 := by
  have e : mean points r f y - mean points r f x - mean points r D x * (y - x) =
      1 / 2 * (points.map fun p => p.2 * (f (r * p.1 + y) - f (r * p.1 + x) -
        D (r * p.1 + x) * (y - x))).sum := by
    rw [weighted_sub hp (fun p => f (r * p.1 + y) - f (r * p.1 + x)) (fun p => D (r * p.1 + x) * (y - x)),
      weighted_sub hp (fun p => f (r * p.1 + y)) (fun p => f (r * p.1 + x))]
    unfold mean
    congr 1
    rw [mul_assoc, ← List.sum_map_mul_right]
    congr 2
    exact List.map_congr_left fun p _ => by ring
  rw [e]
  refine (weighted_le hp _ (fun _ => M / 2 * (y - x) ^ 2) fun p _ => ?_).trans (weighted_const hp _).le
  refine le_of_eq_of_le ?_ ((hf (r * p.1 + x) (r * p.1 + y)).trans (le_of_eq ?_))
  · congr 2; ring
  · congr 1; ring

/-- Means of a function of bounded variation. -/
theorem mean_majorant (r : ℝ) {f G : ℝ → ℝ} {P V : ℝ} (h : Majorant f G P V) :
    Majorant (mean points r f) (mean points r G) P V where
  bound x y hxy := by
    unfold mean
    rw [← weighted_sub hp (fun p => f (r * p.1 + y)) (fun p => f (r * p.1 + x)),
      ← weighted_sub hp (fun p => G (r * p.1 + y)) (fun p => G (r * p.1 + x))]
    exact weighted_le hp _ _ fun p _ => h.bound _ _ (by linarith)
  period x := by
    have e : mean points r G (x + P) = 1 / 2 * (points.map fun p => p.2 * (G (r * p.1 + x) - -V)).sum := by
      unfold mean
      congr 2
      exact List.map_congr_left fun p _ => by rw [← add_assoc, h.period]; ring
    rw [e, weighted_sub hp (fun p => G (r * p.1 + x)) (fun _ => -V), weighted_const hp]
    unfold mean
    ring

/-- Cell averages of a periodic function on a uniform mesh. -/
theorem around_average {d : Interval ℝ} (hd : d.a < d.b) (hn : 0 < n) {mesh : UMesh ℝ}
    (hmesh : uniformMesh d n = .ok mesh) (f : ℝ → ℝ) (hf : ∀ x, f (x + (d.b - d.a)) = f x) (z : ℤ) :
    around (fun i : Fin n => (cellAverages points mesh f).getD i 0) z =
      mean points ((d.b - d.a) / n / 2) f (d.a + (d.b - d.a) / n / 2 + z * ((d.b - d.a) / n)) := by
  have hn0 : (n : ℝ) ≠ 0 := by exact_mod_cast hn.ne'
  obtain ⟨hlen, hlt, hnode⟩ := uniform_cells hd hn hmesh
  have hfz : ∀ (q : ℤ) (x : ℝ), f (x + q * (d.b - d.a)) = f x := fun q x =>
    Function.Periodic.int_mul hf q x
  obtain ⟨i, q, rfl⟩ := around_exists hn z
  rw [around_shift, around_cell]
  have hi : (i : ℕ) < mesh.cells.length := by rw [hlen]; exact i.2
  have e : (cellAverages points mesh f).getD i 0 = cellAverage points f mesh.cells[(i : ℕ)] := by
    unfold cellAverages
    rw [List.getD_eq_getElem _ _ (by simpa using hi), List.getElem_map, List.getElem_range,
      List.getD_eq_getElem _ _ hi]
  rw [e, cellAverage_eq _ _ _ (hlt _ (List.getElem_mem hi)), (hnode i hi).1, (hnode i hi).2]
  unfold mean
  congr 2
  refine List.map_congr_left fun p _ => ?_
  congr 1
  rw [← hfz q]
  congr 1
  unfold Mesh.node
  push_cast
  field_simp
  ring

end Mean

/-! ### Errors of whole runs -/

/-- `x` lies in cell `i` of the uniform mesh of `n` cells. -/
def InCell (d : Interval ℝ) (n i : ℕ) (x : ℝ) : Prop := Mesh.node d n i ≤ x ∧ x ≤ Mesh.node d n (i + 1)

theorem inCell_center {d : Interval ℝ} {n i : ℕ} {x : ℝ} (h : InCell d n i x) :
    |x - (d.a + (d.b - d.a) / n / 2 + i * ((d.b - d.a) / n))| ≤ (d.b - d.a) / n / 2 := by
  unfold InCell Mesh.node at h
  push_cast at h
  rw [abs_le]
  constructor <;> nlinarith [h.1, h.2]

/-- Taylor's formula for a function with Lipschitz continuous derivative. -/
theorem taylor_bound (f D : ℝ → ℝ) (M : ℝ) (hD : ∀ x, HasDerivAt f (D x) x)
    (hM : ∀ x y, |D x - D y| ≤ M * |x - y|) (x y : ℝ) :
    |f y - f x - D x * (y - x)| ≤ M / 2 * (y - x) ^ 2 := by
  have key : ∀ e : ℝ, (e = 1 ∨ e = -1) → ∀ y, 0 ≤ M / 2 * (y - x) ^ 2 - e * (f y - f x - D x * (y - x)) := by
    intro e he y
    set g : ℝ → ℝ := fun y => M / 2 * (y - x) ^ 2 - e * (f y - f x - D x * (y - x)) with hg
    have hd : ∀ y, HasDerivAt g (M * (y - x) - e * (D y - D x)) y := by
      intro y
      have h1 : HasDerivAt (fun y => M / 2 * (y - x) ^ 2) (M / 2 * (2 * (y - x))) y := by
        have := (((hasDerivAt_id y).sub_const x).pow 2).const_mul (M / 2)
        simpa using this
      have h2 : HasDerivAt (fun y => e * (f y - f x - D x * (y - x))) (e * (D y - D x)) y := by
        have := (((hD y).sub_const (f x)).sub (((hasDerivAt_id y).sub_const x).const_mul (D x))).const_mul e
        simpa using this
      rw [show M * (y - x) = M / 2 * (2 * (y - x)) by ring]
      exact h1.sub h2
    have hb : ∀ y, |e * (D y - D x)| ≤ M * |y - x| := by
      intro y
      rw [abs_mul]
      have : |e| = 1 := by rcases he with rfl | rfl <;> simp
      rw [this, one_mul]
      exact hM y x
    have hc : Continuous g := continuous_iff_continuousAt.mpr fun y => (hd y).continuousAt
    have g0 : g x = 0 := by simp [hg]
    rcases le_total x y with h | h
    · have := monotoneOn_of_deriv_nonneg (convex_Ici x) hc.continuousOn
        (fun z _ => (hd z).differentiableAt.differentiableWithinAt) (fun z hz => by
          rw [interior_Ici] at hz
          rw [(hd z).deriv]
          have h1 := hb z
          rw [abs_of_pos (sub_pos.mpr hz)] at h1
          linarith [le_abs_self (e * (D z - D x))]) (Set.self_mem_Ici) (Set.mem_Ici.mpr h) h
      rwa [g0] at this
    · have := antitoneOn_of_deriv_nonpos (convex_Iic x) hc.continuousOn
        (fun z _ => (hd z).differentiableAt.differentiableWithinAt) (fun z hz => by
          rw [interior_Iic] at hz
          rw [(hd z).deriv]
          have h1 := hb z
          rw [abs_of_neg (sub_neg.mpr hz)] at h1
          linarith [neg_abs_le (e * (D z - D x))]) (Set.mem_Iic.mpr h) (Set.self_mem_Iic) h
      rwa [g0] at this
  have h1 := key 1 (Or.inl rfl) y
  have h2 := key (-1) (Or.inr rfl) y
  rw [abs_le]
  constructor <;> linarith

section Runs

variable {points : List (ℝ × ℝ)} (hp : AveragingRule points) {d : Interval ℝ} (hd : d.a < d.b) (hn : 0 < n)
  {mesh : UMesh ℝ} (hmesh : uniformMesh d n = .ok mesh) (wall il ir : Option (ℝ → ℝ)) (bc : BC ℝ ℝ)
  (hbc : build wall ["periodic"] 1 il ir = .ok bc) (T : Tableau ℝ)
  (hT : T = forwardEuler ℝ ∨ T = heun ℝ ∨ T = ssp3 ℝ) (steps : List ℝ)
  (hsteps : ∀ dt ∈ steps, 0 ≤ dt ∧ dt ≤ (d.b - d.a) / n)
  (f : ℝ → ℝ) (hf : ∀ x, f (x + (d.b - d.a)) = f x)

include hp hd hn hmesh hbc hT hsteps hf

/-- The run from the cell averages of `f`: every value is an average of means of `f` over cells. -/
theorem run_spread (t₀ : ℝ) :
    ∃ s', (Solver.init (fun i : Fin n => (cellAverages points mesh f).getD i 0) t₀).runE T
        (vecRhs n (rhs (laxFriedrichs Problem.advection.riemann) ((d.b - d.a) / n) bc)) steps = .ok s' ∧
      s'.time = t₀ + steps.sum ∧
      Spread (steps.sum / ((d.b - d.a) / n)) (fun z => mean points ((d.b - d.a) / n / 2) f
        (d.a + (d.b - d.a) / n / 2 + z * ((d.b - d.a) / n))) (around s'.solution) := by
  have hn0 : (0 : ℝ) < n := by exact_mod_cast hn
  have hdx : 0 < (d.b - d.a) / n := div_pos (by linarith) hn0
  obtain ⟨s', h1, h2, h3⟩ := C103_average hn wall il ir bc hbc _ hdx T hT steps hsteps
    (Solver.init (fun i : Fin n => (cellAverages points mesh f).getD i 0) t₀)
  refine ⟨s', h1, h2, ?_⟩
  have e : around (Solver.init (fun i : Fin n => (cellAverages points mesh f).getD i 0) t₀).solution =
      fun z : ℤ => mean points ((d.b - d.a) / n / 2) f
        (d.a + (d.b - d.a) / n / 2 + z * ((d.b - d.a) / n)) := by
    funext z
    exact around_average hp hd hn hmesh f hf z
  rwa [e] at h3

/-- C103.  Lipschitz continuous periodic data: the solution at time `T` differs from the exact solution
at time `τ` by at most `L (dx + √(T dx) + |T - τ|)`, at every point of every cell. -/
theorem C103_lipschitz (L : ℝ) (hL : ∀ x y, |f x - f y| ≤ L * |x - y|) (t₀ τ : ℝ) :
    ∃ s', (Solver.init (fun i : Fin n => (cellAverages points mesh f).getD i 0) t₀).runE T
        (vecRhs n (rhs (laxFriedrichs Problem.advection.riemann) ((d.b - d.a) / n) bc)) steps = .ok s' ∧
      s'.time = t₀ + steps.sum ∧
      ∀ (i : Fin n) (x : ℝ), InCell d n i x → |s'.solution i - f (x - τ)| ≤
        L * ((d.b - d.a) / n + Real.sqrt (steps.sum * ((d.b - d.a) / n)) + |steps.sum - τ|) := by
  obtain ⟨s', h1, h2, h3⟩ := run_spread hp hd hn hmesh wall il ir bc hbc T hT steps hsteps f hf t₀
  refine ⟨s', h1, h2, fun i x hx => ?_⟩
  have hn0 : (0 : ℝ) < n := by exact_mod_cast hn
  set dx := (d.b - d.a) / n with hdx'
  have hdx : 0 < dx := div_pos (by linarith) hn0
  have hL0 : 0 ≤ L := by
    have := (abs_nonneg _).trans (hL 1 0)
    simpa using this
  have hS : 0 ≤ steps.sum := List.sum_nonneg fun _ h => (hsteps _ h).1
  have k1 := spread_lipschitz h3 (mean points (dx / 2) f) L (d.a + dx / 2) dx τ hL0 hdx
    (mean_lipschitz hp _ f L hL) (fun _ => rfl) i
  rw [around_cell] at k1
  have hc := inCell_center hx
  have k2 : |mean points (dx / 2) f (d.a + dx / 2 + (i : ℕ) * dx - τ) - f (x - τ)| ≤ L * dx := by
    refine mean_near hp _ (by positivity) f _ _ _ fun z hz => (hL _ _).trans
      (mul_le_mul_of_nonneg_left ?_ hL0)
    rw [abs_le] at hz hc ⊢
    constructor <;> linarith [hz.1, hz.2, hc.1, hc.2]
  have e1 : dx * Real.sqrt (steps.sum / dx) = Real.sqrt (steps.sum * dx) := by
    symm
    rw [Real.sqrt_eq_iff_mul_self_eq (by positivity) (by positivity)]
    rw [mul_mul_mul_comm, Real.mul_self_sqrt (by positivity)]
    field_simp
  have e2 : steps.sum / dx * dx = steps.sum := by field_simp
  rw [e1, e2] at k1
  calc |s'.solution i - f (x - τ)| ≤ |s'.solution i - mean points (dx / 2) f (d.a + dx / 2 + (i : ℕ) * dx - τ)| +
      |mean points (dx / 2) f (d.a + dx / 2 + (i : ℕ) * dx - τ) - f (x - τ)| := abs_sub_le _ _ _
    _ ≤ L * (Real.sqrt (steps.sum * dx) + |steps.sum - τ|) + L * dx := add_le_add (by simpa using k1) k2
    _ = _ := by ring

/-- C103.  Smooth periodic data (Lipschitz continuous with constant `L`, and with derivative `D` that
is Lipschitz continuous with constant `M`): first order convergence. -/
theorem C103_smooth (L : ℝ) (hL : ∀ x y, |f x - f y| ≤ L * |x - y|) (D : ℝ → ℝ)
    (hD : ∀ x, HasDerivAt f (D x) x) (M : ℝ) (hM : ∀ x y, |D x - D y| ≤ M * |x - y|) (t₀ τ : ℝ) :
    ∃ s', (Solver.init (fun i : Fin n => (cellAverages points mesh f).getD i 0) t₀).runE T
        (vecRhs n (rhs (laxFriedrichs Problem.advection.riemann) ((d.b - d.a) / n) bc)) steps = .ok s' ∧
      s'.time = t₀ + steps.sum ∧
      (∀ i : Fin n, |s'.solution i - (cellAverages points mesh fun x => f (x - steps.sum)).getD i 0| ≤
        M / 2 * steps.sum * ((d.b - d.a) / n)) ∧
      ∀ (i : Fin n) (x : ℝ), InCell d n i x → |s'.solution i - f (x - τ)| ≤
        (L + M / 2 * steps.sum) * ((d.b - d.a) / n) + L * |steps.sum - τ| := by
  obtain ⟨s', h1, h2, h3⟩ := run_spread hp hd hn hmesh wall il ir bc hbc T hT steps hsteps f hf t₀
  have hn0 : (0 : ℝ) < n := by exact_mod_cast hn
  have hL0 : 0 ≤ L := by
    have := (abs_nonneg _).trans (hL 1 0)
    simpa using this
  have hM0 : 0 ≤ M := by
    have := (abs_nonneg _).trans (hM 1 0)
    simpa using this
  have hdx0 : 0 < (d.b - d.a) / n := div_pos (by linarith) hn0
  have k0 : ∀ i : Fin n, |s'.solution i - mean points ((d.b - d.a) / n / 2) f
      (d.a + (d.b - d.a) / n / 2 + (i : ℕ) * ((d.b - d.a) / n) - steps.sum)| ≤
        M / 2 * steps.sum * ((d.b - d.a) / n) := by
    intro i
    have k1 := spread_smooth h3 (mean points ((d.b - d.a) / n / 2) f)
      (mean points ((d.b - d.a) / n / 2) D) M _ _
      (mean_smooth hp _ f D M (taylor_bound f D M hD hM)) hM0 (fun _ => rfl) i
    rw [around_cell] at k1
    have e2 : steps.sum / ((d.b - d.a) / n) * ((d.b - d.a) / n) = steps.sum := div_mul_cancel₀ _ hdx0.ne'
    rw [e2] at k1
    refine le_trans (by simpa using k1) (le_of_eq ?_)
    generalize (d.b - d.a) / n = dx at hdx0
    field_simp
  refine ⟨s', h1, h2, fun i => ?_, fun i x hx => ?_⟩
  · have k1 := around_average (n := n) hp hd hn hmesh (fun x => f (x - steps.sum)) (fun x => by
      rw [show x + (d.b - d.a) - steps.sum = x - steps.sum + (d.b - d.a) by ring, hf]) i
    rw [around_cell] at k1
    rw [k1]
    have e : mean points ((d.b - d.a) / n / 2) (fun x => f (x - steps.sum))
        (d.a + (d.b - d.a) / n / 2 + ((i : ℕ) : ℤ) * ((d.b - d.a) / n)) =
        mean points ((d.b - d.a) / n / 2) f
          (d.a + (d.b - d.a) / n / 2 + (i : ℕ) * ((d.b - d.a) / n) - steps.sum) := by
      unfold mean
      congr 2
      refine List.map_congr_left fun p _ => ?_
      congr 2
      push_cast; ring
    rw [e]
    exact k0 i
  · have hc := inCell_center hx
    have k2 : |mean points ((d.b - d.a) / n / 2) f
        (d.a + (d.b - d.a) / n / 2 + (i : ℕ) * ((d.b - d.a) / n) - steps.sum) - f (x - steps.sum)| ≤
        L * ((d.b - d.a) / n) := by
      refine mean_near hp _ (by positivity) f _ _ _ fun z hz => (hL _ _).trans
        (mul_le_mul_of_nonneg_left ?_ hL0)
      rw [abs_le] at hz hc ⊢
      constructor <;> linarith [hz.1, hz.2, hc.1, hc.2]
    have k3 : |f (x - steps.sum) - f (x - τ)| ≤ L * |steps.sum - τ| := by
      refine (hL _ _).trans (le_of_eq ?_)
      rw [abs_sub_comm steps.sum τ]
      congr 2; ring
    have t1 := abs_sub_le (s'.solution i) (mean points ((d.b - d.a) / n / 2) f
        (d.a + (d.b - d.a) / n / 2 + (i : ℕ) * ((d.b - d.a) / n) - steps.sum)) (f (x - τ))
    have t2 := abs_sub_le (mean points ((d.b - d.a) / n / 2) f
        (d.a + (d.b - d.a) / n / 2 + (i : ℕ) * ((d.b - d.a) / n) - steps.sum)) (f (x - steps.sum)) (f (x - τ))
    linarith [k0 i]

/-- C103.  Periodic data of bounded variation (jumps are allowed): convergence in the mean, whichever
point is chosen in each cell. -/
theorem C103_variation (G : ℝ → ℝ) (V : ℝ) (hG : Majorant f G (d.b - d.a) V) (t₀ τ : ℝ) :
    ∃ s', (Solver.init (fun i : Fin n => (cellAverages points mesh f).getD i 0) t₀).runE T
        (vecRhs n (rhs (laxFriedrichs Problem.advection.riemann) ((d.b - d.a) / n) bc)) steps = .ok s' ∧
      s'.time = t₀ + steps.sum ∧
      ∀ x : Fin n → ℝ, (∀ i : Fin n, InCell d n i (x i)) →
        (d.b - d.a) / n * ∑ i, |s'.solution i - f (x i - τ)| ≤
          V * (Real.sqrt (steps.sum * ((d.b - d.a) / n)) + |steps.sum - τ| + 2 * ((d.b - d.a) / n)) := by
  obtain ⟨s', h1, h2, h3⟩ := run_spread hp hd hn hmesh wall il ir bc hbc T hT steps hsteps f hf t₀
  refine ⟨s', h1, h2, fun x hx => ?_⟩
  have hn0 : (0 : ℝ) < n := by exact_mod_cast hn
  have hS : 0 ≤ steps.sum := List.sum_nonneg fun _ h => (hsteps _ h).1
  have hG' : Majorant f G (n * ((d.b - d.a) / n)) V := by
    have : (n : ℝ) * ((d.b - d.a) / n) = d.b - d.a := by field_simp
    rwa [this]
  have hcen : ∀ i : Fin n, |x i - (d.a + (d.b - d.a) / n / 2 + (i : ℕ) * ((d.b - d.a) / n))| ≤
      (d.b - d.a) / n / 2 := fun i => inCell_center (hx i)
  have hdx : 0 < (d.b - d.a) / n := div_pos (by linarith) hn0
  generalize (d.b - d.a) / n = dx at *
  have k1 := spread_variation h3 (mean points (dx / 2) f) (mean points (dx / 2) G) V (d.a + dx / 2) dx τ n hdx
    (mean_majorant hp _ hG') (fun _ => rfl)
  rw [← Fin.sum_univ_eq_sum_range (fun z => |around s'.solution z -
    mean points (dx / 2) f (d.a + dx / 2 + ((z : ℕ) : ℝ) * dx - τ)|)] at k1
  simp only [around_cell] at k1
  have k2 : ∑ i : Fin n, |mean points (dx / 2) f (d.a + dx / 2 + (i : ℕ) * dx - τ) - f (x i - τ)| ≤ V := by
    have k3 := hG'.sum_step (d.a - τ) 1
    rw [Nat.cast_one, one_mul, one_mul] at k3
    rw [← k3, ← Fin.sum_univ_eq_sum_range (fun z => G (d.a - τ + (z : ℕ) * dx + dx) - G (d.a - τ + (z : ℕ) * dx))]
    refine Finset.sum_le_sum fun i _ => ?_
    refine mean_near hp _ (by positivity) f _ _ _ fun z hz => ?_
    have hc := hcen i
    rw [abs_le] at hz hc
    have mono := hG'.mono
    rcases le_total z (x i - τ) with h | h
    · rw [abs_sub_comm]
      refine (hG'.bound _ _ h).trans (sub_le_sub (mono ?_) (mono ?_)) <;>
        linarith [hz.1, hz.2, hc.1, hc.2]
    · refine (hG'.bound _ _ h).trans (sub_le_sub (mono ?_) (mono ?_)) <;>
        linarith [hz.1, hz.2, hc.1, hc.2]
  have k4 : ∑ i, |s'.solution i - f (x i - τ)| ≤ V * (Real.sqrt (steps.sum / dx) + |steps.sum / dx - τ / dx| + 1) + V := by
    refine le_trans ?_ (add_le_add k1 k2)
    rw [← Finset.sum_add_distrib]
    exact Finset.sum_le_sum fun i _ => abs_sub_le _ _ _
  have e1 : dx * Real.sqrt (steps.sum / dx) = Real.sqrt (steps.sum * dx) := by
    symm
    rw [Real.sqrt_eq_iff_mul_self_eq (by positivity) (by positivity)]
    rw [mul_mul_mul_comm, Real.mul_self_sqrt (by positivity)]
    field_simp
  have e2 : dx * |steps.sum / dx - τ / dx| = |steps.sum - τ| := by
    rw [← abs_of_pos hdx, ← abs_mul, abs_of_pos hdx]; congr 1; field_simp
  calc dx * ∑ i, |s'.solution i - f (x i - τ)|
      ≤ dx * (V * (Real.sqrt (steps.sum / dx) + |steps.sum / dx - τ / dx| + 1) + V) :=
        mul_le_mul_of_nonneg_left k4 hdx.le
    _ = V * (dx * Real.sqrt (steps.sum / dx) + dx * |steps.sum / dx - τ / dx| + 2 * dx) := by ring
    _ = _ := by rw [e1, e2]

end Runs

/-! ### Norms of errors -/

theorem node_affine {d : Interval ℝ} {i : ℕ} {x c : ℝ} (hn : 0 < n) (hd : d.a < d.b) {a b : ℝ}
    (ha : a = Mesh.node d n i) (hb : b = Mesh.node d n (i + 1)) (hx : x = affine c ⟨a, b⟩) (h0 : 0 ≤ c)
    (h1 : c ≤ 1) : InCell d n i x := by
  have hlt : a ≤ b := by rw [ha, hb]; exact (node_lt d hd hn (Nat.lt_succ_self i)).le
  rw [hx]
  unfold InCell affine Interval.length
  rw [← ha, ← hb]
  constructor <;> simp only <;> nlinarith

section Norms

variable {points : List (ℝ × ℝ)} (hp : AveragingRule points) {d : Interval ℝ} (hd : d.a < d.b) (hn : 0 < n)
  {mesh : UMesh ℝ} (hmesh : uniformMesh d n = .ok mesh)
include hp hd hn hmesh

/-- Sums over cells, one choice of points after the other. -/
theorem sumCells_uniform (g : ℝ → ℝ) (F : ℕ → ℝ → ℝ) :
    sumCells points g mesh F = 1 / 2 * (points.map fun p => p.2 * ((d.b - d.a) / n *
      ∑ i : Fin n, g (F i (affine ((p.1 + 1) / 2) (mesh.cells.getD i ⟨0, 0⟩))))).sum := by
  obtain ⟨hlen, hlt, hnode⟩ := uniform_cells hd hn hmesh
  unfold sumCells
  rw [Coarsen.list_sum_range, hlen, ← Fin.sum_univ_eq_sum_range (fun i =>
    normOnCell points g (mesh.cells.getD i ⟨0, 0⟩) (F i))]
  have hl : ∀ i : Fin n, (mesh.cells.getD i ⟨0, 0⟩).length = (d.b - d.a) / n := by
    intro i
    have hi : (i : ℕ) < mesh.cells.length := by rw [hlen]; exact i.2
    rw [List.getD_eq_getElem _ _ hi]
    unfold Interval.length
    rw [(hnode i hi).1, (hnode i hi).2]
    unfold Mesh.node
    push_cast
    ring
  simp only [normOnCell_eq, hl]
  clear hp
  induction points with
  | nil => simp
  | cons p ps ih =>
    simp only [List.map_cons, List.sum_cons, Finset.sum_add_distrib, ih, mul_add]
    congr 1
    rw [Finset.mul_sum, Finset.mul_sum, Finset.mul_sum]
    exact Finset.sum_congr rfl fun i _ => by ring

theorem point_inCell (p : ℝ × ℝ) (hpp : p ∈ points) (i : Fin n) :
    InCell d n i (affine ((p.1 + 1) / 2) (mesh.cells.getD i ⟨0, 0⟩)) := by
  obtain ⟨hlen, hlt, hnode⟩ := uniform_cells hd hn hmesh
  have hi : (i : ℕ) < mesh.cells.length := by rw [hlen]; exact i.2
  have := abs_le.mp (rule_inside hp p hpp)
  refine node_affine hn hd (hnode i hi).1 (hnode i hi).2 (c := (p.1 + 1) / 2) ?_ (by linarith) (by linarith)
  rw [List.getD_eq_getElem _ _ hi]

/-- A bound for all choices of points in the cells bounds the L1 norm. -/
theorem l1_le (F : ℕ → ℝ → ℝ) (B : ℝ)
    (h : ∀ x : Fin n → ℝ, (∀ i : Fin n, InCell d n i (x i)) → (d.b - d.a) / n * ∑ i : Fin n, |F i (x i)| ≤ B) :
    l1 points mesh F ≤ B := by
  unfold l1
  rw [sumCells_uniform hp hd hn hmesh, ← weighted_const hp B]
  refine mul_le_mul_of_nonneg_left (List.sum_le_sum fun p hpp => ?_) (by norm_num)
  exact mul_le_mul_of_nonneg_left (h _ (point_inCell hp hd hn hmesh p hpp)) (rule_pos hp p hpp)

/-- A pointwise bound bounds the three norms. -/
theorem norms_le (F : ℕ → ℝ → ℝ) (B : ℝ) (hB : 0 ≤ B)
    (h : ∀ (i : Fin n) (x : ℝ), InCell d n i x → |F i x| ≤ B) (m : ℕ) (hm : 0 < m) :
    l1 points mesh F ≤ (d.b - d.a) * B ∧ l2 points mesh F ≤ Real.sqrt (d.b - d.a) * B ∧
      ∃ M, linf m mesh F = .ok M ∧ M ≤ B := by
  obtain ⟨hlen, hlt, hnode⟩ := uniform_cells hd hn hmesh
  have hn0 : (0 : ℝ) < n := by exact_mod_cast hn
  have hdx : 0 < (d.b - d.a) / n := div_pos (by linarith) hn0
  refine ⟨l1_le hp hd hn hmesh F _ fun x hx => ?_, ?_, ?_⟩
  · calc (d.b - d.a) / n * ∑ i : Fin n, |F i (x i)| ≤ (d.b - d.a) / n * ∑ _i : Fin n, B :=
          mul_le_mul_of_nonneg_left (Finset.sum_le_sum fun i _ => h i _ (hx i)) hdx.le
      _ = _ := by rw [Finset.sum_const, Finset.card_univ, Fintype.card_fin, nsmul_eq_mul]; field_simp
  · unfold l2 l2sq
    rw [← Real.sqrt_sq hB, ← Real.sqrt_mul (by linarith)]
    apply Real.sqrt_le_sqrt
    rw [sumCells_uniform hp hd hn hmesh, ← weighted_const hp ((d.b - d.a) * B ^ 2)]
    refine mul_le_mul_of_nonneg_left (List.sum_le_sum fun p hpp => ?_) (by norm_num)
    refine mul_le_mul_of_nonneg_left ?_ (rule_pos hp p hpp)
    calc (d.b - d.a) / n * ∑ i : Fin n, (F i (affine ((p.1 + 1) / 2) (mesh.cells.getD i ⟨0, 0⟩))) ^ 2
        ≤ (d.b - d.a) / n * ∑ _i : Fin n, B ^ 2 := by
          refine mul_le_mul_of_nonneg_left (Finset.sum_le_sum fun i _ => ?_) hdx.le
          rw [← sq_abs]
          exact pow_le_pow_left₀ (abs_nonneg _) (h i _ (point_inCell hp hd hn hmesh p hpp i)) 2
      _ = _ := by rw [Finset.sum_const, Finset.card_univ, Fintype.card_fin, nsmul_eq_mul]; field_simp
  · have h0 : mesh.cells ≠ [] := by
      intro h; rw [h] at hlen; simp at hlen; omega
    obtain ⟨M, h1, h2⟩ := linf_ok m hm mesh h0 F
    refine ⟨M, h1, ?_⟩
    obtain ⟨i, hi, x, hx, rfl⟩ := h2.attained
    obtain ⟨_, _, _, _, _, _, _, _, _, _, _, _, hin⟩ := C59_linf m hm mesh hlt h0 F F 0
    have := (hin _ (List.getElem_mem hi)).2.2 x hx
    rw [(hnode i hi).1, (hnode i hi).2] at this
    exact h ⟨i, by rw [hlen] at hi; exact hi⟩ x this

end Norms

end Verif.Convergence
