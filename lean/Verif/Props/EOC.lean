import Verif.Props.ConvergenceRate
import Verif.Core.ErrorTable

/-!
C103: the benchmarks for linear advection, and the table of errors and orders of convergence of the `eoc` command.
-/

set_option linter.unusedSectionVars false
namespace Verif.Convergence
open Verif.Py Verif.Boundary Verif.FV Verif.ODE Verif.Scalar
variable {n : ℕ}
open Verif.Interpolate Verif.Quadrature Verif.Bench
open Verif.Mesh hiding Error

/-! ### Periodic data -/

/-- `v` majorises the variation of `g` on `[0, 1]`. -/
def Bounds (g v : ℝ → ℝ) : Prop := ∀ s t, 0 ≤ s → s ≤ t → t ≤ 1 → |g t - g s| ≤ v t - v s

theorem Bounds.add {g g' v v' : ℝ → ℝ} (h : Bounds g v) (h' : Bounds g' v') :
    Bounds (fun x => g x + g' x) (fun x => v x + v' x) := fun s t h0 hst h1 => by
  have := abs_add_le (g t - g s) (g' t - g' s)
  have e : g t + g' t - (g s + g' s) = g t - g s + (g' t - g' s) := by ring
  simp only
  rw [e]
  linarith [h s t h0 hst h1, h' s t h0 hst h1]

/-- The periodic extension of a function on `[0, 1]`. -/
theorem Bounds.periodic {g v : ℝ → ℝ} (h : Bounds g v) (h01 : g 0 = g 1) :
    Majorant (fun x => g (Int.fract x)) (fun x => (v 1 - v 0) * ⌊x⌋ + v (Int.fract x)) 1 (v 1 - v 0) where
  bound x y hxy := by
    have hx0 := Int.fract_nonneg x
    have hx1 := (Int.fract_lt_one x).le
    have hy0 := Int.fract_nonneg y
    have hy1 := (Int.fract_lt_one y).le
    have hV : 0 ≤ v 1 - v 0 := (abs_nonneg _).trans (h 0 1 le_rfl zero_le_one le_rfl)
    rcases (Int.floor_mono hxy).eq_or_lt with e | e
    · have hf : Int.fract x ≤ Int.fract y := by
        unfold Int.fract; rw [e]; linarith
      have := h _ _ hx0 hf hy1
      rw [e]
      linarith
    · have h1 := h _ _ hx0 hx1 le_rfl
      have h2 := h _ _ le_rfl hy0 hy1
      have h3 : (⌊x⌋ : ℝ) + 1 ≤ ⌊y⌋ := by exact_mod_cast e
      have h4 := abs_sub_le (g (Int.fract y)) (g 0) (g (Int.fract x))
      rw [h01] at h4 h2
      nlinarith
  period x := by
    rw [Int.floor_add_one, Int.fract_add_one]
    push_cast
    ring

/-- The periodic extension of a Lipschitz continuous function. -/
theorem lipschitz_periodic {g : ℝ → ℝ} {L : ℝ} (h : ∀ x y, |g x - g y| ≤ L * |x - y|) (h01 : g 0 = g 1)
    (x y : ℝ) : |g (Int.fract x) - g (Int.fract y)| ≤ L * |x - y| := by
  have hb : Bounds g (fun x => L * x) := fun s t _ hst _ => by
    refine (h t s).trans (le_of_eq ?_)
    rw [abs_of_nonneg (by linarith)]; ring
  have e : ∀ z, (L * 1 - L * 0) * ⌊z⌋ + L * Int.fract z = L * z := fun z => by
    rw [mul_one, mul_zero, sub_zero, ← mul_add, Int.floor_add_fract]
  rcases le_total x y with hxy | hxy
  · have := (hb.periodic h01).bound x y hxy
    simp only [e] at this
    rw [abs_sub_comm, abs_sub_comm x y, abs_of_nonneg (by linarith : 0 ≤ y - x)]
    linarith
  · have := (hb.periodic h01).bound y x hxy
    simp only [e] at this
    rw [abs_of_nonneg (by linarith : 0 ≤ x - y)]
    linarith

/-- A function that increases up to `c` and then decreases. -/
theorem bounds_bump {g : ℝ → ℝ} (c : ℝ) (up : ∀ s t, 0 ≤ s → s ≤ t → t ≤ c → g s ≤ g t)
    (down : ∀ s t, c ≤ s → s ≤ t → t ≤ 1 → g t ≤ g s) :
    Bounds g (fun x => if x ≤ c then g x else 2 * g c - g x) := fun s t h0 hst h1 => by
  simp only
  by_cases ht : t ≤ c
  · rw [if_pos ht, if_pos (hst.trans ht), abs_of_nonneg (by linarith [up s t h0 hst ht])]
  · rw [if_neg ht]
    push Not at ht
    by_cases hs : s ≤ c
    · rw [if_pos hs]
      have h2 := up s c h0 hs le_rfl
      have h3 := down c t le_rfl ht.le h1
      rw [abs_le]
      constructor <;> linarith
    · rw [if_neg hs]
      push Not at hs
      have := down s t hs.le hst h1
      rw [abs_sub_comm, abs_of_nonneg (by linarith)]
      linarith

/-! ### The data of the benchmarks -/

/-- The hill of `OneHillBenchmark`, and the middle hill of the two others. -/
theorem bounds_plateau (p q : ℝ) (hpq : p ≤ q) :
    ∃ v, Bounds (fun x => if x ≥ p ∧ x ≤ q then (1 : ℝ) else 0) v ∧
      (0 < p → q < 1 → v 1 - v 0 = 2) := by
  refine ⟨_, bounds_bump p ?_ ?_, ?_⟩
  · intro s t _ hst htp
    by_cases hs : s ≥ p ∧ s ≤ q
    · have : t = p := le_antisymm htp (hs.1.trans hst)
      rw [if_pos hs, if_pos ⟨by rw [this], by rw [this]; exact hpq⟩]
    · rw [if_neg hs]; split <;> norm_num
  · intro s t hps hst _
    by_cases ht : t ≥ p ∧ t ≤ q
    · rw [if_pos ht, if_pos ⟨hps, hst.trans ht.2⟩]
    · rw [if_neg ht]; split <;> norm_num
  · intro hp hq
    rw [if_neg (by push Not; linarith), if_pos hp.le, if_pos ⟨le_rfl, hpq⟩,
      if_neg (by push Not; intro _; linarith), if_neg (by push Not; intro h; linarith)]
    norm_num

theorem bounds_bell : ∃ v, Bounds (fun x => if x ≥ 25 / 1000 ∧ x < 275 / 1000 then
    Real.exp (-300 * (2 * x - 3 / 10) ^ 2) else (0 : ℝ)) v ∧ v 1 - v 0 = 2 := by
  refine ⟨_, bounds_bump (15 / 100) ?_ ?_, ?_⟩
  · intro s t _ hst htp
    by_cases hs : s ≥ 25 / 1000 ∧ s < 275 / 1000
    · rw [if_pos hs, if_pos ⟨hs.1.trans hst, by linarith⟩]
      exact Real.exp_le_exp.mpr (by nlinarith)
    · rw [if_neg hs]; split
      · exact (Real.exp_pos _).le
      · exact le_rfl
  · intro s t hps hst _
    by_cases ht : t ≥ 25 / 1000 ∧ t < 275 / 1000
    · rw [if_pos ht, if_pos ⟨by linarith, by linarith [ht.2]⟩]
      exact Real.exp_le_exp.mpr (by nlinarith)
    · rw [if_neg ht]; split
      · exact (Real.exp_pos _).le
      · exact le_rfl
  · norm_num

theorem bounds_circle : ∃ v, Bounds (fun x => if x > 7 / 10 ∧ x < 9 / 10 then
    Real.sqrt (1 - ((x - 8 / 10) / (1 / 10)) ^ 2) else (0 : ℝ)) v ∧ v 1 - v 0 = 2 := by
  refine ⟨_, bounds_bump (8 / 10) ?_ ?_, ?_⟩
  · intro s t _ hst htp
    by_cases hs : s > 7 / 10 ∧ s < 9 / 10
    · rw [if_pos hs, if_pos ⟨by linarith [hs.1], by linarith⟩]
      exact Real.sqrt_le_sqrt (by nlinarith)
    · rw [if_neg hs]; split
      · exact Real.sqrt_nonneg _
      · exact le_rfl
  · intro s t hps hst _
    by_cases ht : t > 7 / 10 ∧ t < 9 / 10
    · rw [if_pos ht, if_pos ⟨by linarith, by linarith [ht.2]⟩]
      exact Real.sqrt_le_sqrt (by nlinarith)
    · rw [if_neg ht]; split
      · exact Real.sqrt_nonneg _
      · exact le_rfl
  · norm_num

theorem compact_mono (s t : ℝ) (hs : 5 / 10 < s) (hs' : s < 9 / 10) (ht : 5 / 10 < t) (ht' : t < 9 / 10)
    (h : (s - 5 / 10) * (9 / 10 - s) ≤ (t - 5 / 10) * (9 / 10 - t)) :
    Real.exp 10 * Real.exp (-1 / (s - 5 / 10)) * Real.exp (1 / (s - 9 / 10)) ≤
      Real.exp 10 * Real.exp (-1 / (t - 5 / 10)) * Real.exp (1 / (t - 9 / 10)) := by
  have e : ∀ x : ℝ, 5 / 10 < x → x < 9 / 10 → 10 + -1 / (x - 5 / 10) + 1 / (x - 9 / 10) =
      10 - 4 / 10 / ((x - 5 / 10) * (9 / 10 - x)) := by
    intro x h1 h2
    have h3 : x - 5 / 10 ≠ 0 := by linarith
    have h5 : 9 / 10 - x ≠ 0 := by linarith
    have e3 : 1 / (x - 9 / 10) = -(1 / (9 / 10 - x)) := by
      rw [← neg_sub (9 / 10) x, one_div, one_div, inv_neg]
    have e4 : (4 / 10 : ℝ) = x - 5 / 10 + (9 / 10 - x) := by ring
    rw [e3, e4]
    generalize x - 5 / 10 = a at h3
    generalize 9 / 10 - x = b at h5
    field_simp
    ring
  rw [← Real.exp_add, ← Real.exp_add, ← Real.exp_add, ← Real.exp_add, Real.exp_le_exp, e s hs hs',
    e t ht ht']
  have hp : 0 < (s - 5 / 10) * (9 / 10 - s) := mul_pos (by linarith) (by linarith)
  linarith [div_le_div_of_nonneg_left (by norm_num : (0 : ℝ) ≤ 4 / 10) hp h]

theorem bounds_compact : ∃ v, Bounds (fun x => if x > 5 / 10 ∧ x < 9 / 10 then
    Real.exp 10 * Real.exp (-1 / (x - 5 / 10)) * Real.exp (1 / (x - 9 / 10)) else (0 : ℝ)) v ∧
      v 1 - v 0 = 2 := by
  refine ⟨_, bounds_bump (7 / 10) ?_ ?_, ?_⟩
  · intro s t _ hst htp
    by_cases hs : s > 5 / 10 ∧ s < 9 / 10
    · rw [if_pos hs, if_pos ⟨by linarith [hs.1], by linarith⟩]
      exact compact_mono s t hs.1 hs.2 (by linarith [hs.1]) (by linarith) (by nlinarith)
    · rw [if_neg hs]; split
      · positivity
      · exact le_rfl
  · intro s t hps hst _
    by_cases ht : t > 5 / 10 ∧ t < 9 / 10
    · rw [if_pos ht, if_pos ⟨by linarith, by linarith [ht.2]⟩]
      exact compact_mono t s ht.1 ht.2 (by linarith) (by linarith [ht.2]) (by nlinarith)
    · rw [if_neg ht]; split
      · positivity
      · exact le_rfl
  · norm_num [← Real.exp_add]

/-- Total variation of the three benchmarks with jumps. -/
def hills : Advection → Option ℕ
  | .oneHill => some 1
  | .twoHills => some 2
  | .threeHills => some 3
  | _ => none

theorem three_hills (x : ℝ) : Advection.threeHills.initial x =
    (if x ≥ 25 / 1000 ∧ x < 275 / 1000 then Real.exp (-300 * (2 * x - 3 / 10) ^ 2) else 0) +
    (if x ≥ 35 / 100 ∧ x ≤ 55 / 100 then 1 else 0) +
    (if x > 7 / 10 ∧ x < 9 / 10 then Real.sqrt (1 - ((x - 8 / 10) / (1 / 10)) ^ 2) else 0) := by
  simp only [Advection.initial]
  by_cases h1 : x ≥ 25 / 1000 ∧ x < 275 / 1000
  · rw [if_pos h1, if_pos h1, if_neg (fun h => by linarith [h.1, h1.2]),
      if_neg (fun h => by linarith [h.1, h1.2]), add_zero, add_zero]
  rw [if_neg h1, if_neg h1, zero_add]
  by_cases h2 : x ≥ 35 / 100 ∧ x ≤ 55 / 100
  · rw [if_pos h2, if_pos h2, if_neg (fun h => by linarith [h.1, h2.2]), add_zero]
  rw [if_neg h2, if_neg h2, zero_add]

theorem two_hills (x : ℝ) : Advection.twoHills.initial x =
    (if x > 5 / 10 ∧ x < 9 / 10 then
      Real.exp 10 * Real.exp (-1 / (x - 5 / 10)) * Real.exp (1 / (x - 9 / 10)) else 0) +
    (if x ≥ 2 / 10 ∧ x ≤ 4 / 10 then 1 else 0) := by
  simp only [Advection.initial]
  by_cases h1 : x > 5 / 10 ∧ x < 9 / 10
  · rw [if_pos h1, if_pos h1, if_neg (fun h => by linarith [h.2, h1.1]), add_zero]
  rw [if_neg h1, if_neg h1, zero_add]

theorem bench_bounds (b : Advection) (k : ℕ) (hb : hills b = some k) :
    ∃ v, Bounds b.initial v ∧ v 1 - v 0 = 2 * k := by
  obtain ⟨v1, h1, e1⟩ := bounds_bell
  obtain ⟨v3, h3, e3⟩ := bounds_circle
  obtain ⟨v4, h4, e4⟩ := bounds_compact
  cases b with
  | threeHills =>
    obtain ⟨v2, h2, e2⟩ := bounds_plateau (35 / 100) (55 / 100) (by norm_num)
    cases hb
    have e : Advection.threeHills.initial = _ := funext three_hills
    refine ⟨_, e ▸ (h1.add h2).add h3, ?_⟩
    · have := e2 (by norm_num) (by norm_num)
      push_cast; linarith
  | twoHills =>
    obtain ⟨v2, h2, e2⟩ := bounds_plateau (2 / 10) (4 / 10) (by norm_num)
    cases hb
    have e : Advection.twoHills.initial = _ := funext two_hills
    refine ⟨_, e ▸ h4.add h2, ?_⟩
    · have := e2 (by norm_num) (by norm_num)
      push_cast; linarith
  | oneHill =>
    obtain ⟨v2, h2, e2⟩ := bounds_plateau (1 / 10) (3 / 10) (by norm_num)
    cases hb
    refine ⟨v2, h2, ?_⟩
    have := e2 (by norm_num) (by norm_num)
    push_cast; linarith
  | cosine => cases hb
  | gaussianBell => cases hb

open Verif.Solver Verif.EndToEnd

/-- The initial data, continued periodically. -/
noncomputable def profile (b : Advection) (x : ℝ) : ℝ := b.initial (Int.fract x)

theorem exact_profile (b : Advection) (x t : ℝ) : b.exact x t = profile b (x - t) := b.exact_eq x t

theorem profile_periodic (b : Advection) (x : ℝ) : profile b (x + 1) = profile b x := by
  unfold profile; rw [Int.fract_add_one]

theorem profile_average (b : Advection) {points : List (ℝ × ℝ)} (hp : AveragingRule points) (hn : 0 < n)
    {mesh : UMesh ℝ} (hmesh : uniformMesh b.domain n = .ok mesh) :
    cellAverages points mesh b.initial = cellAverages points mesh (profile b) := by
  have hd : b.domain.a < b.domain.b := by norm_num [Advection.domain]
  have hn0 : (0 : ℝ) < n := by exact_mod_cast hn
  obtain ⟨hlen, hlt, hnode⟩ := uniform_cells hd hn hmesh
  unfold cellAverages
  refine List.map_congr_left fun i hi => ?_
  have hi' : i < mesh.cells.length := List.mem_range.mp hi
  rw [List.getD_eq_getElem _ _ hi', cellAverage_eq _ _ _ (hlt _ (List.getElem_mem hi')),
    cellAverage_eq _ _ _ (hlt _ (List.getElem_mem hi'))]
  congr 2
  refine List.map_congr_left fun p hpp => ?_
  congr 1
  have hin := abs_le.mp (rule_inside hp p hpp)
  have hc := hlt _ (List.getElem_mem hi')
  have ha : 0 ≤ mesh.cells[i].a := by
    rw [(hnode i hi').1]; unfold Mesh.node Advection.domain; positivity
  have hb : mesh.cells[i].b ≤ 1 := by
    rw [(hnode i hi').2]; unfold Mesh.node Advection.domain
    rw [hlen] at hi'
    have : ((i + 1 : ℕ) : ℝ) ≤ n := by exact_mod_cast hi'
    simp only [zero_add, sub_zero, mul_one_div]
    exact (div_le_one hn0).mpr this
  have h := C72_advection_initial b ((mesh.cells[i].b - mesh.cells[i].a) / 2 * p.1 +
    (mesh.cells[i].a + mesh.cells[i].b) / 2) (by nlinarith) (by nlinarith)
  rw [← h, exact_profile, sub_zero]

/-! Cosine -/

theorem cosine_profile (x : ℝ) : profile .cosine x = Real.cos (2 * Real.pi * (x - 5 / 10)) := by
  change Real.cos (2 * Real.pi * (Int.fract x - 5 / 10)) = _
  have : 2 * Real.pi * (Int.fract x - 5 / 10) = 2 * Real.pi * (x - 5 / 10) - ⌊x⌋ * (2 * Real.pi) := by
    unfold Int.fract; ring
  rw [this, Real.cos_sub_int_mul_two_pi]

theorem cosine_lipschitz (x y : ℝ) : |profile .cosine x - profile .cosine y| ≤ 2 * Real.pi * |x - y| := by
  rw [cosine_profile, cosine_profile]
  refine (Real.abs_cos_sub_cos_le _ _).trans (le_of_eq ?_)
  rw [← mul_sub, abs_mul, abs_of_pos Real.two_pi_pos]
  congr 2; ring

theorem cosine_deriv (x : ℝ) : HasDerivAt (profile .cosine)
    (-(2 * Real.pi) * Real.sin (2 * Real.pi * (x - 5 / 10))) x := by
  have e : profile .cosine = fun x => Real.cos (2 * Real.pi * (x - 5 / 10)) := funext cosine_profile
  rw [e]
  have h := (((hasDerivAt_id x).sub_const (5 / 10)).const_mul (2 * Real.pi)).cos
  simp only [id, mul_one] at h
  rw [show -(2 * Real.pi) * Real.sin (2 * Real.pi * (x - 5 / 10)) =
    -Real.sin (2 * Real.pi * (x - 5 / 10)) * (2 * Real.pi) by ring]
  exact h

theorem cosine_deriv_lipschitz (x y : ℝ) : |-(2 * Real.pi) * Real.sin (2 * Real.pi * (x - 5 / 10)) -
    -(2 * Real.pi) * Real.sin (2 * Real.pi * (y - 5 / 10))| ≤ 4 * Real.pi ^ 2 * |x - y| := by
  rw [← mul_sub, abs_mul, abs_neg, abs_of_pos Real.two_pi_pos]
  refine (mul_le_mul_of_nonneg_left (Real.abs_sin_sub_sin_le _ _) Real.two_pi_pos.le).trans (le_of_eq ?_)
  rw [← mul_sub, abs_mul, abs_of_pos Real.two_pi_pos]
  rw [show x - 5 / 10 - (y - 5 / 10) = x - y by ring]
  ring

/-! Gaussian bell -/

theorem bell_lipschitz (x y : ℝ) :
    |Advection.gaussianBell.initial x - Advection.gaussianBell.initial y| ≤ 10 * |x - y| := by
  have hd : ∀ x : ℝ, HasDerivAt Advection.gaussianBell.initial
      (Real.exp (-100 * (x - 5 / 10) ^ 2) * (-100 * (2 * (x - 5 / 10)))) x := by
    intro x
    have h := ((((hasDerivAt_id x).sub_const (5 / 10)).pow 2).const_mul (-100)).exp
    change HasDerivAt (fun x => Real.exp (-100 * (x - 5 / 10) ^ 2)) _ x
    simpa using h
  have hb : ∀ x : ℝ, ‖Real.exp (-100 * (x - 5 / 10) ^ 2) * (-100 * (2 * (x - 5 / 10)))‖ ≤ 10 := by
    intro x
    rw [Real.norm_eq_abs, abs_mul, abs_of_pos (Real.exp_pos _),
      show -100 * (x - 5 / 10) ^ 2 = -((10 * (x - 5 / 10)) ^ 2) by ring,
      show -100 * (2 * (x - 5 / 10)) = -(20 * (10 * (x - 5 / 10))) by ring, abs_neg, abs_mul,
      abs_of_pos (by norm_num : (0 : ℝ) < 20)]
    generalize 10 * (x - 5 / 10) = s
    have h1 : s ^ 2 + 1 ≤ Real.exp (s ^ 2) := Real.add_one_le_exp _
    have h2 : 2 * |s| ≤ s ^ 2 + 1 := by
      rw [← sq_abs]; nlinarith [sq_nonneg (|s| - 1)]
    rw [Real.exp_neg, inv_mul_le_iff₀ (Real.exp_pos _)]
    linarith
  have := Convex.norm_image_sub_le_of_norm_hasDerivWithin_le (s := Set.univ)
    (fun z _ => (hd z).hasDerivWithinAt) (fun z _ => hb z) convex_univ (Set.mem_univ y) (Set.mem_univ x)
  simpa [Real.norm_eq_abs] using this

theorem bell_profile_lipschitz (x y : ℝ) :
    |profile .gaussianBell x - profile .gaussianBell y| ≤ 10 * |x - y| :=
  lipschitz_periodic bell_lipschitz (Advection.initial_ends _) x y

/-! ### Whole runs of the benchmarks -/

theorem solve_steps (T : Tableau ℝ) (f : ℝ → List ℝ → Except Error (List ℝ)) (dx cfl t1 : ℝ)
    (u : Fin n → ℝ) (k : ℕ) :
    let P := fvParams n T f dx cfl 0 t1
    let run := solve P (Obj.make P ⟨u, 0, t1⟩)
    (∀ e, (run k).2 ≠ .raised e) →
    ∃ steps : List ℝ, (∀ dt ∈ steps, 0 ≤ dt ∧ dt ≤ dx * cfl) ∧
      (Solver.init u 0).runE T (vecRhs n f) steps = .ok (run k).1.ode ∧
      (run k).1.sol.sol.value = (run k).1.ode.solution ∧ (run k).1.sol.sol.time = steps.sum := by
  intro P run hr
  obtain ⟨steps, h1, h2, h3, h4, -⟩ := C94_solve P (Obj.make P ⟨u, 0, t1⟩) (make_sync _ _) k hr
  refine ⟨steps, fun dt hdt => ?_, h1, h2.2, ?_⟩
  · obtain ⟨i, hi, rfl⟩ := List.getElem_of_mem hdt
    obtain ⟨s, -, q2, q3⟩ := h4 i hi
    refine ⟨le_trans (by positivity) q3, ?_⟩
    rw [q2]
    exact min_le_left _ _
  · rw [h3]; simp [Obj.make, Solution.Hist.init]

/-- C103.  Every moment of a whole run of each benchmark for linear advection: the difference between
the solution and the exact solution. -/
theorem C103_benchmark (b : Advection) (points : List (ℝ × ℝ)) (hp : AveragingRule points) (hn : 0 < n)
    (mesh : UMesh ℝ) (hmesh : uniformMesh b.domain n = .ok mesh) (bc : BC ℝ ℝ)
    (hbc : build none ["periodic"] 1 none none = .ok bc) (T : Tableau ℝ)
    (hT : T = forwardEuler ℝ ∨ T = heun ℝ ∨ T = ssp3 ℝ) (cfl t1 : ℝ) (hcfl : cfl ≤ 1)
    (hstep : 1 / 10 ^ 12 ≤ 1 / n * cfl) (hdur : 1 / 10 ^ 12 ≤ t1) (k : ℕ) (τ : ℝ) :
    let u : Fin n → ℝ := fun i => (cellAverages points mesh b.initial).getD i 0
    let P := fvParams n T (rhs (laxFriedrichs Problem.advection.riemann) (1 / n) bc) (1 / n) cfl 0 t1
    let s := (solve P (Obj.make P ⟨u, 0, t1⟩) k).1.sol.sol
    0 ≤ s.time ∧
    (b = .cosine → ∀ (i : Fin n) (x : ℝ), InCell b.domain n i x → |s.value i - b.exact x τ| ≤
      (2 * Real.pi + 2 * Real.pi ^ 2 * s.time) / n + 2 * Real.pi * |s.time - τ|) ∧
    (b = .gaussianBell → ∀ (i : Fin n) (x : ℝ), InCell b.domain n i x → |s.value i - b.exact x τ| ≤
      10 * (1 / n + Real.sqrt (s.time / n) + |s.time - τ|)) ∧
    ∀ m : ℕ, hills b = some m → ∀ x : Fin n → ℝ, (∀ i : Fin n, InCell b.domain n i (x i)) →
      1 / n * ∑ i, |s.value i - b.exact (x i) τ| ≤
        2 * m * (Real.sqrt (s.time / n) + |s.time - τ| + 2 / n) := by
  intro u P s
  have hn0 : (0 : ℝ) < n := by exact_mod_cast hn
  have hd : b.domain.a < b.domain.b := by norm_num [Advection.domain]
  have hlen : b.domain.b - b.domain.a = 1 := by norm_num [Advection.domain]
  have hper : ∀ x, profile b (x + (b.domain.b - b.domain.a)) = profile b x := by
    intro x; rw [hlen]; exact profile_periodic b x
  have hu : u = fun i : Fin n => (cellAverages points mesh (profile b)).getD i 0 := by
    show (fun i : Fin n => (cellAverages points mesh b.initial).getD i 0) = _
    rw [profile_average b hp hn hmesh]
  obtain ⟨hcells, hlt, -⟩ := uniform_cells hd hn hmesh
  have hrange : ∀ i, -1 ≤ u i ∧ u i ≤ 1 := fun i =>
    (C58_basic points mesh hlt hp.sum hp.pos hp.inside b.initial).2.2.1 i (by rw [hcells]; exact i.2) (-1) 1
      fun x _ _ => ⟨(C72_advection_range b x).1, (C72_advection_range b x).2.1⟩
  have hr : ∀ e, (solve P (Obj.make P ⟨u, 0, t1⟩) k).2 ≠ .raised e := by
    intro e he
    rcases (C95_lax_friedrichs (K := ℝ) .advection n hn none none bc "periodic" (Or.inl rfl) hbc T hT (1 / n)
      cfl 0 t1 (by positivity) hstep (by linarith) (-1) 1 (fun _ => hcfl) (fun h => by cases h) u
      hrange).2.1 k with h | h <;> rw [show _ = _ from he] at h <;> cases h
  obtain ⟨steps, q1, q2, q3, q4⟩ := solve_steps T _ (1 / n) cfl t1 u k hr
  have hsteps : ∀ dt ∈ steps, 0 ≤ dt ∧ dt ≤ (b.domain.b - b.domain.a) / n := by
    intro dt hdt
    refine ⟨(q1 dt hdt).1, (q1 dt hdt).2.trans ?_⟩
    rw [hlen]
    exact mul_le_of_le_one_right (by positivity) hcfl
  have hS : 0 ≤ steps.sum := List.sum_nonneg fun _ h => (hsteps _ h).1
  have etime : s.time = steps.sum := q4
  have evalue : s.value = (solve P (Obj.make P ⟨u, 0, t1⟩) k).1.ode.solution := q3
  have q2' : (Solver.init (fun i : Fin n => (cellAverages points mesh (profile b)).getD i 0) 0).runE T
      (vecRhs n (rhs (laxFriedrichs Problem.advection.riemann) ((b.domain.b - b.domain.a) / n) bc)) steps =
      .ok (solve P (Obj.make P ⟨u, 0, t1⟩) k).1.ode := by
    rw [← hu, hlen]; exact q2
  rw [etime, evalue]
  refine ⟨hS, ?_, ?_, ?_⟩
  · rintro rfl i x hx
    obtain ⟨s', r1, -, -, r3⟩ := C103_smooth hp hd hn hmesh none none none bc hbc T hT steps hsteps _ hper
      _ cosine_lipschitz _ cosine_deriv _ cosine_deriv_lipschitz 0 τ
    rw [q2'] at r1
    rw [← Except.ok.inj r1] at r3
    rw [exact_profile]
    refine (r3 i x hx).trans (le_of_eq ?_)
    rw [hlen]; ring
  · rintro rfl i x hx
    obtain ⟨s', r1, -, r3⟩ := C103_lipschitz hp hd hn hmesh none none none bc hbc T hT steps hsteps _ hper
      _ bell_profile_lipschitz 0 τ
    rw [q2'] at r1
    rw [← Except.ok.inj r1] at r3
    rw [exact_profile]
    refine (r3 i x hx).trans (le_of_eq ?_)
    rw [hlen, mul_one_div]
  · intro m hm x hx
    obtain ⟨v, hv, hV⟩ := bench_bounds b m hm
    have hmaj := hv.periodic b.initial_ends
    rw [hV, ← hlen] at hmaj
    obtain ⟨s', r1, -, r3⟩ := C103_variation hp hd hn hmesh none none none bc hbc T hT steps hsteps _ hper
      _ _ hmaj 0 τ
    rw [q2'] at r1
    rw [← Except.ok.inj r1] at r3
    simp only [exact_profile]
    have := r3 x hx
    rw [hlen] at this
    refine this.trans (le_of_eq ?_)
    rw [mul_one_div, mul_one_div]

open Verif.Commands

/-- `n` is a number of cells for which the run of the benchmark on `n` cells gives these final values. -/
def FinalValues (b : Advection) (points : List (ℝ × ℝ)) (bc : BC ℝ ℝ) (T : Tableau ℝ) (cfl t1 : ℝ) (n : ℕ)
    (s : UMesh ℝ × List ℝ) : Prop :=
  uniformMesh b.domain n = .ok s.1 ∧
  let u : Fin n → ℝ := fun i => (cellAverages points s.1 b.initial).getD i 0
  let P := fvParams n T (rhs (laxFriedrichs Problem.advection.riemann) (1 / n) bc) (1 / n) cfl 0 t1
  ∃ k, (solve P (Obj.make P ⟨u, 0, t1⟩) k).2 = .finished ∧
    s.2 = List.ofFn (solve P (Obj.make P ⟨u, 0, t1⟩) k).1.sol.sol.value

/-- C103.  The errors of one run at the end time, as the `eoc` command computes them. -/
theorem C103_errors (b : Advection) (points quad : List (ℝ × ℝ)) (hp : AveragingRule points)
    (hq : AveragingRule quad) (hn : 0 < n) (bc : BC ℝ ℝ)
    (hbc : build none ["periodic"] 1 none none = .ok bc) (T : Tableau ℝ)
    (hT : T = forwardEuler ℝ ∨ T = heun ℝ ∨ T = ssp3 ℝ) (cfl t1 : ℝ) (hcfl : cfl ≤ 1)
    (hstep : 1 / 10 ^ 12 ≤ 1 / n * cfl) (hdur : 1 / 10 ^ 12 ≤ t1) (s : UMesh ℝ × List ℝ)
    (hs : FinalValues b points bc T cfl t1 n s) :
    ∃ e1 e2 e3, errorRow quad s.1 (fun x => b.exact x t1) s.2 = .ok [e1, e2, e3] ∧
      (b = .cosine → ∀ e ∈ [e1, e2, e3], e ≤ (4 * Real.pi + 2 * Real.pi ^ 2 * t1) / n) ∧
      (b = .gaussianBell → ∀ e ∈ [e1, e2, e3], e ≤ 10 * (2 / n + Real.sqrt (t1 / n))) ∧
      ∀ m : ℕ, hills b = some m → e1 ≤ 2 * m * (3 / n + Real.sqrt (t1 / n)) := by
  obtain ⟨mesh, values⟩ := s
  obtain ⟨hmesh, k, hk, hv⟩ := hs
  simp only at hmesh hv hk
  have hn0 : (0 : ℝ) < n := by exact_mod_cast hn
  have hd : b.domain.a < b.domain.b := by norm_num [Advection.domain]
  have hlen : b.domain.b - b.domain.a = 1 := by norm_num [Advection.domain]
  obtain ⟨r0, r1, r2, r3⟩ := C103_benchmark b points hp hn mesh hmesh bc hbc T hT cfl t1 hcfl hstep hdur k t1
  have hend := C94_end_time _ ⟨_, 0, t1⟩ rfl k hk
  set s := (solve (fvParams n T (rhs (laxFriedrichs Problem.advection.riemann) (1 / n) bc) (1 / n) cfl 0 t1)
    (Obj.make _ ⟨fun i : Fin n => (cellAverages points mesh b.initial).getD i 0, 0, t1⟩) k).1.sol.sol with hs
  have ht1 : s.time ≤ t1 := hend.2
  have ht0 : t1 - 1 / 10 ^ 12 < s.time := hend.1
  have hdiff : |s.time - t1| ≤ 1 / n := by
    rw [abs_sub_comm, abs_of_nonneg (by linarith)]
    have : 1 / n * cfl ≤ 1 / (n : ℝ) := mul_le_of_le_one_right (by positivity) hcfl
    linarith
  have hsqrt : Real.sqrt (s.time / n) ≤ Real.sqrt (t1 / n) :=
    Real.sqrt_le_sqrt (div_le_div_of_nonneg_right ht1 hn0.le)
  have hval : ∀ (i : Fin n) (x : ℝ), element values i x = s.value i := by
    intro i x
    unfold element
    rw [hv, List.getD_eq_getElem _ _ (by simp), List.getElem_ofFn]
  have hbound : ∀ B : ℝ, 0 ≤ B → (∀ (i : Fin n) (x : ℝ), InCell b.domain n i x → |s.value i - b.exact x t1| ≤ B) →
      l1 quad mesh (fun i x => b.exact x t1 - element values i x) ≤ B ∧
      l2 quad mesh (fun i x => b.exact x t1 - element values i x) ≤ B ∧
      ∃ M, linf 10 mesh (fun i x => b.exact x t1 - element values i x) = .ok M ∧ M ≤ B := by
    intro B hB h
    have := norms_le hq hd hn hmesh (fun i x => b.exact x t1 - element values i x) B hB (fun i x hx => by
      rw [hval, abs_sub_comm]; exact h i x hx) 10 (by norm_num)
    rwa [hlen, one_mul, Real.sqrt_one, one_mul] at this
  obtain ⟨hcells, -, -⟩ := uniform_cells hd hn hmesh
  obtain ⟨M, hM, -⟩ := linf_ok 10 (by norm_num) mesh (by intro h; rw [h] at hcells; simp at hcells; omega)
    (fun i x => b.exact x t1 - element values i x)
  refine ⟨l1 quad mesh fun i x => b.exact x t1 - element values i x,
    l2 quad mesh fun i x => b.exact x t1 - element values i x, M, by unfold errorRow; simp only [hM],
    ?_, ?_, ?_⟩
  · intro hb
    obtain ⟨h1, h2, M', h3, h4⟩ := hbound ((4 * Real.pi + 2 * Real.pi ^ 2 * t1) / n) (by
      have : 0 ≤ t1 := le_trans (by positivity) hdur
      have := Real.pi_pos
      positivity) (fun i x hx => (r1 hb i x hx).trans (by
        have hpi := Real.pi_pos
        have h5 : 2 * Real.pi * |s.time - t1| ≤ 2 * Real.pi * (1 / n) :=
          mul_le_mul_of_nonneg_left hdiff (by positivity)
        have h6 : (2 * Real.pi + 2 * Real.pi ^ 2 * s.time) / n ≤ (2 * Real.pi + 2 * Real.pi ^ 2 * t1) / n := by
          apply div_le_div_of_nonneg_right _ hn0.le
          nlinarith [sq_nonneg Real.pi]
        have h7 : (4 * Real.pi + 2 * Real.pi ^ 2 * t1) / n =
          (2 * Real.pi + 2 * Real.pi ^ 2 * t1) / n + 2 * Real.pi * (1 / n) := by ring
        rw [h7]
        exact add_le_add h6 h5))
    rw [h3] at hM
    rw [← Except.ok.inj hM]
    simp only [List.mem_cons, List.not_mem_nil, or_false, forall_eq_or_imp, forall_eq]
    exact ⟨h1, h2, h4⟩
  · intro hb
    obtain ⟨h1, h2, M', h3, h4⟩ := hbound (10 * (2 / n + Real.sqrt (t1 / n))) (by positivity)
      (fun i x hx => (r2 hb i x hx).trans (by
        have : (2 : ℝ) / n = 1 / n + 1 / n := by ring
        rw [this]
        linarith))
    rw [h3] at hM
    rw [← Except.ok.inj hM]
    simp only [List.mem_cons, List.not_mem_nil, or_false, forall_eq_or_imp, forall_eq]
    exact ⟨h1, h2, h4⟩
  · intro m hm
    refine l1_le hq hd hn hmesh _ _ fun x hx => ?_
    rw [hlen]
    simp only [hval]
    have := r3 m hm x hx
    simp only [abs_sub_comm (b.exact _ t1)]
    refine this.trans (mul_le_mul_of_nonneg_left ?_ (by positivity))
    have : (3 : ℝ) / n = 2 / n + 1 / n := by ring
    rw [this]
    linarith

theorem table_ok (quad : List (ℝ × ℝ)) (exact : ℝ → ℝ) (R : ℕ → UMesh ℝ × List ℝ → List ℝ → Prop)
    (solutions : List (UMesh ℝ × List ℝ))
    (h : ∀ (i : ℕ) (hi : i < solutions.length), ∃ row, errorRow quad solutions[i].1 exact solutions[i].2 = .ok row ∧
      R i solutions[i] row) :
    ∃ table, errorTable quad exact solutions = .ok table ∧ table.length = solutions.length ∧
      ∀ (i : ℕ) (hi : i < solutions.length), ∃ row, table[i]? = some (solutions[i].1.cells.length, row) ∧
        R i solutions[i] row := by
  induction solutions generalizing R with
  | nil => exact ⟨[], rfl, rfl, fun i hi => absurd hi (by simp)⟩
  | cons s l ih =>
    obtain ⟨row, h1, h2⟩ := h 0 (by simp)
    obtain ⟨table, t1, t2, t3⟩ := ih (fun i => R (i + 1)) (fun i hi => h (i + 1) (by simpa using hi))
    simp only [List.getElem_cons_zero] at h1 h2
    refine ⟨(s.1.cells.length, row) :: table, ?_, by simp [t2], ?_⟩
    · unfold errorTable at t1 ⊢
      rw [List.mapM_cons, h1, t1]
      rfl
    · intro i hi
      cases i with
      | zero => exact ⟨row, rfl, h2⟩
      | succ i =>
        obtain ⟨row', r1, r2⟩ := t3 i (by simpa using hi)
        exact ⟨row', by simpa using r1, r2⟩

/-- C103.  The table of the `eoc` command: the meshes have `m`, `2 m`, `4 m`, ... cells; errors of the
cosine benchmark are at most a constant divided by the number of cells, in all three norms; those of the
other benchmarks tend to zero at least like the square root (the hills in the L1 norm). -/
theorem C103_table (b : Advection) (points quad : List (ℝ × ℝ)) (hp : AveragingRule points)
    (hq : AveragingRule quad) (bc : BC ℝ ℝ) (hbc : build none ["periodic"] 1 none none = .ok bc)
    (T : Tableau ℝ) (hT : T = forwardEuler ℝ ∨ T = heun ℝ ∨ T = ssp3 ℝ) (cfl t1 : ℝ) (hcfl : cfl ≤ 1)
    (hdur : 1 / 10 ^ 12 ≤ t1) (size refine : ℕ) (hsize : 0 < size)
    (hstep : ∀ i < refine, 1 / 10 ^ 12 ≤ 1 / ((2 ^ i * size : ℕ) : ℝ) * cfl)
    (solutions : List (UMesh ℝ × List ℝ))
    (hsol : List.Forall₂ (FinalValues b points bc T cfl t1) (eocMeshSizes size refine) solutions) :
    ∃ table, errorTable quad (fun x => b.exact x t1) solutions = .ok table ∧ table.length = refine ∧
      ∀ i < refine, ∃ e1 e2 e3, table[i]? = some (2 ^ i * size, [e1, e2, e3]) ∧
        (b = .cosine → ∀ e ∈ [e1, e2, e3], e ≤ (4 * Real.pi + 2 * Real.pi ^ 2 * t1) / (2 ^ i * size)) ∧
        (b = .gaussianBell → ∀ e ∈ [e1, e2, e3],
          e ≤ 10 * (2 / (2 ^ i * size) + Real.sqrt (t1 / (2 ^ i * size)))) ∧
        ∀ m : ℕ, hills b = some m → e1 ≤ 2 * m * (3 / (2 ^ i * size) + Real.sqrt (t1 / (2 ^ i * size))) := by
  have hlen : solutions.length = refine := by
    rw [← hsol.length_eq]; simp [eocMeshSizes]
  have hget : ∀ (i : ℕ) (hi : i < solutions.length),
      FinalValues b points bc T cfl t1 (2 ^ i * size) solutions[i] := by
    intro i hi
    have := (List.forall₂_iff_get.mp hsol).2 i (by simpa [eocMeshSizes, hlen] using hi) hi
    simpa [eocMeshSizes] using this
  have hpos : ∀ i : ℕ, 0 < 2 ^ i * size := fun i => by positivity
  obtain ⟨table, h1, h2, h3⟩ := table_ok quad (fun x => b.exact x t1)
    (fun i _ row => ∃ e1 e2 e3, row = [e1, e2, e3] ∧
        (b = .cosine → ∀ e ∈ [e1, e2, e3], e ≤ (4 * Real.pi + 2 * Real.pi ^ 2 * t1) / (2 ^ i * size : ℕ)) ∧
        (b = .gaussianBell → ∀ e ∈ [e1, e2, e3],
          e ≤ 10 * (2 / (2 ^ i * size : ℕ) + Real.sqrt (t1 / (2 ^ i * size : ℕ)))) ∧
        ∀ m : ℕ, hills b = some m → e1 ≤ 2 * m * (3 / (2 ^ i * size : ℕ) + Real.sqrt (t1 / (2 ^ i * size : ℕ))))
    solutions (fun i hi => by
      obtain ⟨e1, e2, e3, q1, q2⟩ := C103_errors b points quad hp hq (hpos i) bc hbc T hT cfl t1 hcfl
        (hstep i (by rw [← hlen]; exact hi)) hdur _ (hget i hi)
      exact ⟨_, q1, e1, e2, e3, rfl, q2⟩)
  refine ⟨table, h1, h2.trans hlen, fun i hi => ?_⟩
  rw [← hlen] at hi
  obtain ⟨row, r1, e1, e2, e3, rfl, r2⟩ := h3 i hi
  refine ⟨e1, e2, e3, ?_, by simpa using r2⟩
  have hd : b.domain.a < b.domain.b := by norm_num [Advection.domain]
  rw [r1, (uniform_cells hd (hpos i) (hget i hi).1).1]

/-- C103.  The orders of convergence the command prints: when the errors in a norm are positive and at most
`C / N^p` on `N` cells, the printed orders add up to at least `p` for each refinement, apart from a
constant; so their mean is at least `p` in the limit. -/
theorem C103_orders (errors : List ℝ) (hpos : ∀ e ∈ errors, 0 < e) (C p : ℝ) (size : ℕ) (hsize : 0 < size)
    (r : ℕ) (hr : errors.length = r + 1)
    (hb : ∀ (i : ℕ) (hi : i < errors.length), errors[i] ≤ C / ((2 : ℝ) ^ i * size) ^ p) :
    ∃ orders : List ℝ, eocs errors = none :: orders.map some ∧ orders.length = r ∧
      r * p - Real.logb 2 (C / size ^ p / errors[0]) ≤ orders.sum := by
  obtain ⟨h1, h2, h3⟩ := C73_values errors hpos
  have hlog : ∀ (i : ℕ) (hi : i + 1 < errors.length), (eocs errors).getD (i + 1) none =
      some (Real.logb 2 (errors.getD i 0) - Real.logb 2 (errors.getD (i + 1) 0)) := by
    intro i hi
    obtain ⟨q, q1, q2⟩ := h3 i hi
    have hpos' : 0 < errors[i + 1] := hpos _ (List.getElem_mem hi)
    rw [q1, List.getD_eq_getElem _ _ (by omega), List.getD_eq_getElem _ _ hi, q2,
      Real.logb_mul (Real.rpow_pos_of_pos two_pos q).ne' hpos'.ne', Real.logb_rpow (by norm_num) (by norm_num)]
    congr 1
    ring
  refine ⟨(List.range r).map fun i => Real.logb 2 (errors.getD i 0) - Real.logb 2 (errors.getD (i + 1) 0),
    ?_, by simp, ?_⟩
  · apply List.ext_getElem
    · simp [h1, hr]
    · intro i hi hi'
      cases i with
      | zero =>
        have := h2 (by omega)
        rw [List.getD_eq_getElem _ _ hi] at this
        simpa using this
      | succ i =>
        have := hlog i (by rw [h1] at hi; exact hi)
        rw [List.getD_eq_getElem _ _ hi] at this
        simpa using this
  · have htel : ∀ k : ℕ, ((List.range k).map fun i => Real.logb 2 (errors.getD i 0) -
        Real.logb 2 (errors.getD (i + 1) 0)).sum = Real.logb 2 (errors.getD 0 0) -
          Real.logb 2 (errors.getD k 0) := by
      intro k
      induction k with
      | zero => simp
      | succ k ih =>
        rw [List.range_succ, List.map_append, List.sum_append, ih]
        simp
    have h0 : (0 : ℝ) < errors[0]'(by omega) := hpos _ (List.getElem_mem _)
    have hl : (0 : ℝ) < errors[r]'(by omega) := hpos _ (List.getElem_mem _)
    have hs0 : (0 : ℝ) < size := by exact_mod_cast hsize
    have hb' := hb r (by omega)
    rw [Real.mul_rpow (by positivity) hs0.le, mul_comm, ← div_div] at hb'
    have hsp : 0 < (size : ℝ) ^ p := Real.rpow_pos_of_pos hs0 p
    have h2p : 0 < ((2 : ℝ) ^ r) ^ p := Real.rpow_pos_of_pos (by positivity) p
    have hC : 0 < C / (size : ℝ) ^ p := by
      have := hl.trans_le hb'
      rwa [div_pos_iff_of_pos_right h2p] at this
    rw [htel, List.getD_eq_getElem _ _ (by omega), List.getD_eq_getElem _ _ (by omega),
      Real.logb_div hC.ne' h0.ne']
    have hm := Real.logb_le_logb_of_le (b := 2) (by norm_num) hl hb'
    rw [Real.logb_div hC.ne' h2p.ne', ← Real.rpow_natCast, ← Real.rpow_mul (by norm_num),
      Real.logb_rpow (by norm_num) (by norm_num)] at hm
    linarith

theorem column_get (table : List (ℕ × List ℝ)) (norm i : ℕ) (hi : i < (errorColumn table norm).length)
    (hi' : i < table.length) : (errorColumn table norm)[i] = table[i].2.getD norm 0 := by
  simp [errorColumn]

/-- C103.  The whole `eoc` command for the cosine benchmark (its default for advection): in each of the
three norms the printed orders add up to at least one for each refinement, apart from a constant. -/
theorem C103_cosine (points quad : List (ℝ × ℝ)) (hp : AveragingRule points)
    (hq : AveragingRule quad) (bc : BC ℝ ℝ) (hbc : build none ["periodic"] 1 none none = .ok bc)
    (T : Tableau ℝ) (hT : T = forwardEuler ℝ ∨ T = heun ℝ ∨ T = ssp3 ℝ) (cfl t1 : ℝ) (hcfl : cfl ≤ 1)
    (hdur : 1 / 10 ^ 12 ≤ t1) (size r : ℕ) (hsize : 0 < size)
    (hstep : ∀ i < r + 1, 1 / 10 ^ 12 ≤ 1 / ((2 ^ i * size : ℕ) : ℝ) * cfl)
    (solutions : List (UMesh ℝ × List ℝ))
    (hsol : List.Forall₂ (FinalValues .cosine points bc T cfl t1) (eocMeshSizes size (r + 1)) solutions) :
    ∃ table, errorTable quad (fun x => Advection.cosine.exact x t1) solutions = .ok table ∧
      ∀ norm < 3, (∀ e ∈ errorColumn table norm, 0 < e) →
        ∃ orders : List ℝ, eocs (errorColumn table norm) = none :: orders.map some ∧ orders.length = r ∧
          r - Real.logb 2 ((4 * Real.pi + 2 * Real.pi ^ 2 * t1) / size / (errorColumn table norm).getD 0 0) ≤
            orders.sum := by
  obtain ⟨table, h1, h2, h3⟩ := C103_table .cosine points quad hp hq bc hbc T hT cfl t1 hcfl hdur size (r + 1)
    hsize hstep solutions hsol
  refine ⟨table, h1, fun norm hnorm hpos => ?_⟩
  have hl : (errorColumn table norm).length = r + 1 := by simp [errorColumn, h2]
  obtain ⟨orders, o1, o2, o3⟩ := C103_orders (errorColumn table norm) hpos (4 * Real.pi + 2 * Real.pi ^ 2 * t1) 1
    size hsize r hl (fun i hi => by
      obtain ⟨e1, e2, e3, q1, q2, -⟩ := h3 i (by omega)
      have hrow : (errorColumn table norm)[i] = [e1, e2, e3].getD norm 0 := by
        rw [column_get table norm i hi (by omega)]
        have : table[i]'(by omega) = (2 ^ i * size, [e1, e2, e3]) := by
          rw [List.getElem?_eq_getElem (by omega)] at q1
          exact Option.some.inj q1
        rw [this]
      rw [hrow, Real.rpow_one]
      refine q2 rfl _ ?_
      rw [List.getD_eq_getElem _ _ (by simpa using hnorm)]
      exact List.getElem_mem _)
  refine ⟨orders, o1, o2, ?_⟩
  rw [Real.rpow_one, mul_one] at o3
  rw [List.getD_eq_getElem _ _ (by omega)]
  exact o3

/-- C103.  The same for the other benchmarks: a half for each refinement, for the Gaussian bell in all norms, for
the hills in the L1 norm. -/
theorem C103_half (b : Advection) (hb : b ≠ .cosine) (points quad : List (ℝ × ℝ)) (hp : AveragingRule points)
    (hq : AveragingRule quad) (bc : BC ℝ ℝ) (hbc : build none ["periodic"] 1 none none = .ok bc)
    (T : Tableau ℝ) (hT : T = forwardEuler ℝ ∨ T = heun ℝ ∨ T = ssp3 ℝ) (cfl t1 : ℝ) (hcfl : cfl ≤ 1)
    (hdur : 1 / 10 ^ 12 ≤ t1) (size r : ℕ) (hsize : 0 < size)
    (hstep : ∀ i < r + 1, 1 / 10 ^ 12 ≤ 1 / ((2 ^ i * size : ℕ) : ℝ) * cfl)
    (solutions : List (UMesh ℝ × List ℝ))
    (hsol : List.Forall₂ (FinalValues b points bc T cfl t1) (eocMeshSizes size (r + 1)) solutions) :
    ∃ table, errorTable quad (fun x => b.exact x t1) solutions = .ok table ∧
      ∀ norm < 3, (b = .gaussianBell ∨ norm = 0) → (∀ e ∈ errorColumn table norm, 0 < e) →
        ∃ orders : List ℝ, eocs (errorColumn table norm) = none :: orders.map some ∧ orders.length = r ∧
          r / 2 - Real.logb 2 (10 * (3 + Real.sqrt t1) / Real.sqrt size / (errorColumn table norm).getD 0 0) ≤
            orders.sum := by
  obtain ⟨table, h1, h2, h3⟩ := C103_table b points quad hp hq bc hbc T hT cfl t1 hcfl hdur size (r + 1)
    hsize hstep solutions hsol
  refine ⟨table, h1, fun norm hnorm hcase hpos => ?_⟩
  have hl : (errorColumn table norm).length = r + 1 := by simp [errorColumn, h2]
  have hs1 : (1 : ℝ) ≤ size := by exact_mod_cast hsize
  have ht : 0 ≤ t1 := le_trans (by positivity) hdur
  obtain ⟨orders, o1, o2, o3⟩ := C103_orders (errorColumn table norm) hpos (10 * (3 + Real.sqrt t1)) (1 / 2)
    size hsize r hl (fun i hi => by
      obtain ⟨e1, e2, e3, q1, -, q2, q3⟩ := h3 i (by omega)
      have hrow : (errorColumn table norm)[i] = [e1, e2, e3].getD norm 0 := by
        rw [column_get table norm i hi (by omega)]
        have : table[i]'(by omega) = (2 ^ i * size, [e1, e2, e3]) := by
          rw [List.getElem?_eq_getElem (by omega)] at q1
          exact Option.some.inj q1
        rw [this]
      rw [hrow, ← Real.sqrt_eq_rpow]
      have hN1 : (1 : ℝ) ≤ 2 ^ i * size := by
        have : (1 : ℝ) ≤ 2 ^ i := one_le_pow₀ (by norm_num)
        nlinarith
      generalize (2 : ℝ) ^ i * size = N at *
      have hN : 0 < N := by linarith
      have hsq : 0 < Real.sqrt N := Real.sqrt_pos.mpr hN
      have hle : Real.sqrt N ≤ N := by
        have := Real.mul_self_sqrt hN.le
        have : 1 ≤ Real.sqrt N := Real.one_le_sqrt.mpr hN1
        nlinarith
      have hinv : 1 / N ≤ 1 / Real.sqrt N := one_div_le_one_div_of_le hsq hle
      have hfin : ∀ c k : ℝ, 0 ≤ c → c ≤ 10 → 0 ≤ k → k ≤ 3 →
          c * (k / N + Real.sqrt (t1 / N)) ≤ 10 * (3 + Real.sqrt t1) / Real.sqrt N := by
        intro c k c0 c1 k0 k1
        rw [Real.sqrt_div ht, mul_div_assoc, add_div]
        refine mul_le_mul c1 (add_le_add ?_ le_rfl) (by positivity) (by norm_num)
        exact (div_le_div_of_nonneg_right k1 hN.le).trans (div_le_div_of_nonneg_left (by norm_num) hsq hle)
      by_cases hg : b = .gaussianBell
      · refine (q2 hg _ ?_).trans (hfin 10 2 (by norm_num) le_rfl (by norm_num) (by norm_num))
        rw [List.getD_eq_getElem _ _ (by simpa using hnorm)]
        exact List.getElem_mem _
      · have h0 : norm = 0 := hcase.resolve_left hg
        subst h0
        have hm : ∃ m : ℕ, hills b = some m ∧ m ≤ 3 := by
          cases b with
          | threeHills => exact ⟨3, rfl, le_rfl⟩
          | twoHills => exact ⟨2, rfl, by norm_num⟩
          | oneHill => exact ⟨1, rfl, by norm_num⟩
          | cosine => exact absurd rfl hb
          | gaussianBell => exact absurd rfl hg
        obtain ⟨m, hm1, hm2⟩ := hm
        have hm3 : (m : ℝ) ≤ 3 := by exact_mod_cast hm2
        exact (q3 m hm1).trans (hfin (2 * m) 3 (by positivity) (by linarith) (by norm_num) le_rfl))
  refine ⟨orders, o1, o2, ?_⟩
  rw [← Real.sqrt_eq_rpow, mul_one_div] at o3
  rw [List.getD_eq_getElem _ _ (by omega)]
  exact o3

/-- C103.  The runs the results above speak about exist: the solver ends on every mesh. -/
theorem C103_ends (b : Advection) (points : List (ℝ × ℝ)) (hp : AveragingRule points) (hn : 0 < n)
    (bc : BC ℝ ℝ) (hbc : build none ["periodic"] 1 none none = .ok bc) (T : Tableau ℝ)
    (hT : T = forwardEuler ℝ ∨ T = heun ℝ ∨ T = ssp3 ℝ) (cfl t1 : ℝ) (hcfl : cfl ≤ 1)
    (hstep : 1 / 10 ^ 12 ≤ 1 / n * cfl) (hdur : 1 / 10 ^ 12 ≤ t1) :
    ∃ s, FinalValues b points bc T cfl t1 n s := by
  have hn0 : (0 : ℝ) < n := by exact_mod_cast hn
  have hd : b.domain.a < b.domain.b := by norm_num [Advection.domain]
  obtain ⟨mesh, hmesh⟩ : ∃ mesh, uniformMesh b.domain n = .ok mesh := ⟨_, uniformMesh_eq _ hd hn⟩
  obtain ⟨hcells, hlt, -⟩ := uniform_cells hd hn hmesh
  have hrange : ∀ i : Fin n, -1 ≤ (cellAverages points mesh b.initial).getD i 0 ∧
      (cellAverages points mesh b.initial).getD i 0 ≤ 1 := fun i =>
    (C58_basic points mesh hlt hp.sum hp.pos hp.inside b.initial).2.2.1 i (by rw [hcells]; exact i.2) (-1) 1
      fun x _ _ => ⟨(C72_advection_range b x).1, (C72_advection_range b x).2.1⟩
  have hpos : 0 < 1 / n * cfl := lt_of_lt_of_le (by positivity) hstep
  obtain ⟨k, hk⟩ := exists_nat_ge (t1 / (1 / n * cfl))
  have := (C95_lax_friedrichs (K := ℝ) .advection n hn none none bc "periodic" (Or.inl rfl) hbc T hT (1 / n)
      cfl 0 t1 (by positivity) hstep (by linarith) (-1) 1 (fun _ => hcfl) (fun h => by cases h) _
      hrange).1 k (by rw [sub_zero]; exact (div_le_iff₀ hpos).mp hk)
  exact ⟨(mesh, List.ofFn (solve (fvParams n T (rhs (laxFriedrichs Problem.advection.riemann) (1 / n) bc) (1 / n)
    cfl 0 t1) (Obj.make _ ⟨fun i : Fin n => (cellAverages points mesh b.initial).getD i 0, 0, t1⟩)
    (k + 1)).1.sol.sol.value), hmesh, k + 1, this, rfl⟩

theorem midpoint_rule : AveragingRule [(0, 2)] :=
  ⟨by simp [Quadrature.specific, Quadrature.Rule.weights],
    by simp [Quadrature.specific, Quadrature.Rule.weights],
    by simp [Quadrature.specific, Quadrature.Rule.nodes]⟩

/-- The hypotheses of `C103_table`, `C103_cosine` and `C103_half` hold for the default parameters (Heun's method,
CFL number 1/10, end time 1, four meshes from 8 cells on), for every benchmark. -/
example (b : Advection) : ∃ (bc : BC ℝ ℝ) (solutions : List (UMesh ℝ × List ℝ)),
    build none ["periodic"] 1 none none = .ok bc ∧
    (∀ i < 4, (1 : ℝ) / 10 ^ 12 ≤ 1 / ((2 ^ i * 8 : ℕ) : ℝ) * (1 / 10)) ∧
    List.Forall₂ (FinalValues b [(0, 2)] bc (heun ℝ) (1 / 10) 1) (eocMeshSizes 8 4) solutions := by
  have hstep : ∀ i < 4, (1 : ℝ) / 10 ^ 12 ≤ 1 / ((2 ^ i * 8 : ℕ) : ℝ) * (1 / 10) := by
    intro i hi
    interval_cases i <;> norm_num
  obtain ⟨bc, hbc⟩ : ∃ bc : BC ℝ ℝ, build none ["periodic"] 1 none none = .ok bc := ⟨_, rfl⟩
  have hall : ∀ N ∈ eocMeshSizes 8 4, ∃ s, FinalValues b [(0, 2)] bc (heun ℝ) (1 / 10) 1 N s := by
    intro N hN
    obtain ⟨i, hi, rfl⟩ := List.mem_map.mp hN
    exact C103_ends b [(0, 2)] midpoint_rule (by positivity) bc hbc (heun ℝ) (Or.inr (Or.inl rfl)) (1 / 10) 1
      (by norm_num) (hstep i (List.mem_range.mp hi)) (by norm_num)
  have : ∃ solutions, List.Forall₂ (FinalValues b [(0, 2)] bc (heun ℝ) (1 / 10) 1) (eocMeshSizes 8 4) solutions := by
    generalize eocMeshSizes 8 4 = l at hall
    induction l with
    | nil => exact ⟨[], .nil⟩
    | cons N l ih =>
      obtain ⟨s, hs⟩ := hall N (by simp)
      obtain ⟨ss, hss⟩ := ih fun M hM => hall M (by simp [hM])
      exact ⟨s :: ss, .cons hs hss⟩
  obtain ⟨ss, hss⟩ := this
  exact ⟨bc, ss, hbc, hstep, hss⟩

/-- The hypotheses of `C103_lipschitz` and `C103_smooth` for a function other than the benchmarks: the sine
on `[0, 2 π]`. -/
example : (∀ x, Real.sin (x + (2 * Real.pi - 0)) = Real.sin x) ∧
    (∀ x y, |Real.sin x - Real.sin y| ≤ 1 * |x - y|) ∧ (∀ x, HasDerivAt Real.sin (Real.cos x) x) ∧
    ∀ x y, |Real.cos x - Real.cos y| ≤ 1 * |x - y| :=
  ⟨fun x => by rw [sub_zero, Real.sin_add_two_pi], fun x y => by rw [one_mul]; exact Real.abs_sin_sub_sin_le x y,
    Real.hasDerivAt_sin, fun x y => by rw [one_mul]; exact Real.abs_cos_sub_cos_le x y⟩

/-- The hypotheses of `C103_average`: two steps of half a cell. -/
example : (∃ bc : BC ℝ ℝ, build none ["periodic"] 1 none none = .ok bc) ∧
    ∀ dt ∈ [(1 : ℝ) / 20, 1 / 20], 0 ≤ dt ∧ dt ≤ 1 / 10 :=
  ⟨⟨_, rfl⟩, by intro dt h; simp at h; rw [h]; norm_num⟩

/-- The hypothesis of `C103_variation` with jumps: total variation 2 for the single hill. -/
example : ∃ G, Majorant (profile .oneHill) G 1 2 := by
  obtain ⟨v, hv, hV⟩ := bench_bounds .oneHill 1 rfl
  have := hv.periodic (Advection.initial_ends _)
  rw [hV] at this
  rw [Nat.cast_one, mul_one] at this
  exact ⟨_, this⟩

/-- The hypotheses of `C103_orders`: errors `1, 1/2, 1/4` on 1, 2 and 4 cells. -/
example : ∀ (i : ℕ) (hi : i < [1, 1 / 2, (1 : ℝ) / 4].length),
    [1, 1 / 2, (1 : ℝ) / 4][i] ≤ 1 / ((2 : ℝ) ^ i * (1 : ℕ)) ^ (1 : ℝ) := by
  intro i hi
  simp only [List.length_cons, List.length_nil] at hi
  interval_cases i <;> norm_num

end Verif.Convergence
