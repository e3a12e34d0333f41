import Verif.Props.FELowError
import Verif.Props.EOC

/-!
C113, whole runs of the low order finite element solver with linear elements: the benchmarks for linear
advection, and Burgers' equation before the shock, with the errors that the `eoc` command computes
(`command/error.py`).
-/

set_option linter.unusedSectionVars false

namespace Verif.FE

open Verif.Py Verif.Boundary Verif.FV Verif.ODE Verif.Scalar Verif.Convergence Verif.Solver
open Verif.Interpolate Verif.Quadrature Verif.Bench
open Verif.Mesh hiding Error
open Verif.FE hiding upwind

/-! ### Helper lemmas: the optimal step from above -/

theorem step_upper {gauss d n s m C} (h : Setup gauss d n 1 s m C) (h3 : 3 ≤ n) (p : Problem)
    (u : Fin n → ℝ) (i : Fin n) (κ : ℝ) (hκ : 0 < κ) (hi : κ ≤ |p.fluxPrime (u i)|) (horizon : ℝ) :
    2 * stepNumber p m C n horizon u * κ ≤ (d.b - d.a) / n := by
  obtain ⟨s1, s2, s3, -⟩ := setup_facts h
  have hC := setup_conv h
  obtain ⟨hm, -⟩ := lumped_spec gauss h.isGauss s (by omega) m h.mass
  rw [mul_one] at s3
  rw [s3] at hC hm
  have hpos := (C68_masses h (Or.inl (by norm_num))).2
  have hn0 : (0 : ℝ) < n := by exact_mod_cast h.meshSize
  have hdx : 0 < (d.b - d.a) / n := div_pos (by linarith [h.domain]) hn0
  obtain ⟨D, d1, d2, d3, d4, -⟩ := diffusion_spec p n C hC (List.ofFn u) (by simp)
  obtain ⟨τ, t1, t2⟩ := optimalStep_spec p n h.meshSize C hC (List.ofFn u) m (by simp) hm hpos D d1
  have hD : κ ≤ |D.lil i i| := by
    rw [laplacian_abs_diag d4 i i.2]
    obtain ⟨b1, b2, b3, b4, b5, b6⟩ := neighbours n i h3 i.2
    obtain ⟨c1, c2, c3⟩ := linear_entry h h3 i i.2
    have hsub : ({(i + 1) % n, (i + n - 1) % n} : Finset ℕ) ⊆ (Finset.range n).erase i := by
      intro j hj
      simp only [Finset.mem_insert, Finset.mem_singleton] at hj
      rcases hj with rfl | rfl
      · exact Finset.mem_erase.mpr ⟨b3, Finset.mem_range.mpr b1⟩
      · exact Finset.mem_erase.mpr ⟨b4, Finset.mem_range.mpr b2⟩
    refine le_trans ?_ (Finset.sum_le_sum_of_subset_of_nonneg hsub fun j hj _ =>
      d4.nonneg i i.2 j (Finset.mem_range.mp (Finset.mem_of_mem_erase hj)) (Finset.ne_of_mem_erase hj).symm)
    rw [Finset.sum_pair b5, diffusion_entry p n C hC _ (by simp) D d1 i _ b3.symm,
      diffusion_entry p n C hC _ (by simp) D d1 i _ b4.symm, c1, c2]
    have hu : (List.ofFn u).getD i 0 = u i := by
      rw [List.getD_eq_getElem _ _ (by simp), List.getElem_ofFn]
    have k : ∀ y, κ ≤ absSpeed p ((List.ofFn u).getD i 0) y := by
      intro y; rw [hu]; exact hi.trans (le_max_left _ _)
    have k1 := k ((List.ofFn u).getD ((i + 1) % n) 0)
    have k2 := k ((List.ofFn u).getD ((i + n - 1) % n) 0)
    rw [show |(1 : ℝ) / 2| = 1 / 2 by norm_num, show |(-1 : ℝ) / 2| = 1 / 2 by norm_num]
    linarith
  have key : ∀ dt, 0 ≤ dt → AtMost dt τ → 2 * dt * κ ≤ (d.b - d.a) / n := by
    intro dt h0 hdt
    have := (t2 dt).mp hdt i i.2
    rw [linear_mass h i i.2] at this
    have h5 : dt * κ ≤ dt * |D.lil i i| := mul_le_mul_of_nonneg_left hD h0
    linarith
  unfold stepNumber
  rw [t1]
  cases τ with
  | none =>
    have := key ((d.b - d.a) / n / κ) (by positivity) (fun t ht => by cases ht)
    rw [mul_assoc, div_mul_cancel₀ _ hκ.ne'] at this
    linarith
  | some t =>
    simp only
    rcases le_total t 0 with h0 | h0
    · have : t * κ ≤ 0 := mul_nonpos_of_nonpos_of_nonneg h0 hκ.le
      linarith
    · exact key t h0 fun t' ht' => by cases ht'; exact le_rfl

/-- The steps of a whole run. -/
theorem fe_steps {n : ℕ} (T : Tableau ℝ) (f : List ℝ → Except Error (List ℝ)) (p : Problem) (m : List ℝ)
    (C : SysMatrix ℝ) (cfl : ℝ) (hc : 0 < cfl) (adaptive : Bool) (t1 B : ℝ) (u : Fin n → ℝ)
    (hB : adaptive = false → stepNumber p m C n ((t1 - 0) / cfl) u * cfl ≤ B)
    (hB' : adaptive = true → ∀ v, stepNumber p m C n ((t1 - 0) / cfl) v * cfl ≤ B) (k : ℕ) :
    let P := feParams n T f p m C cfl adaptive 0 t1
    let run := solve P (Obj.make P ⟨u, 0, t1⟩)
    (∀ e, (run k).2 ≠ .raised e) →
    ∃ steps : List ℝ, (∀ dt ∈ steps, 0 ≤ dt ∧ dt ≤ B) ∧
      (Solver.init u 0).runE T (vecRhs n fun _ => f) steps = .ok (run k).1.ode ∧
      (run k).1.sol.sol.value = (run k).1.ode.solution ∧ (run k).1.sol.sol.time = steps.sum := by
  intro P run hr
  obtain ⟨steps, h1, h2, h3, h4, -⟩ := C94_solve P (Obj.make P ⟨u, 0, t1⟩) (make_sync _ _) k hr
  refine ⟨steps, fun dt hdt => ?_, h1, h2.2, ?_⟩
  · obtain ⟨i, hi, rfl⟩ := List.getElem_of_mem hdt
    obtain ⟨s, -, q2, q3⟩ := h4 i hi
    refine ⟨le_trans (by positivity) q3, ?_⟩
    rw [q2]
    refine (min_le_left _ _).trans ?_
    cases adaptive with
    | false => exact hB rfl
    | true => exact hB' rfl s.solution
  · rw [h3]; simp [Obj.make, Solution.Hist.init]

/-- Node values of the benchmarks. -/
theorem profile_node (b : Advection) {n : ℕ} (i : Fin n) :
    profile b (b.domain.a + i * ((b.domain.b - b.domain.a) / n)) = b.initial (i / n) := by
  have hn : (0 : ℝ) < n := by
    have := i.2
    exact_mod_cast (by omega : 0 < n)
  have hi : ((i : ℕ) : ℝ) < n := by exact_mod_cast i.2
  have e : b.domain.a + i * ((b.domain.b - b.domain.a) / n) = (i / n : ℝ) := by
    simp only [Advection.domain]; ring
  rw [e]
  unfold profile
  congr 1
  exact Int.fract_eq_self.mpr ⟨by positivity, (div_lt_one hn).mpr hi⟩

/-- C113.  A whole run of each benchmark for linear advection with the low order finite element solver,
linear elements, CFL number up to one (default), fixed or adaptive step: neither an exception nor a warning,
and at every moment the difference between the finite element function and the exact solution at time
`τ`. -/
theorem C113_benchmark (b : Advection) {gauss : ℕ → List (ℝ × ℝ)} {n : ℕ} {s : Space ℝ} {m : List ℝ}
    {C : SysMatrix ℝ} (h : Setup gauss b.domain n 1 s m C) (h3 : 3 ≤ n) (T : Tableau ℝ)
    (hT : T = forwardEuler ℝ ∨ T = heun ℝ ∨ T = ssp3 ℝ) (cfl t1 : ℝ) (hc : 0 < cfl) (hcfl : cfl ≤ 1)
    (adaptive : Bool) (hstep : 1 / 10 ^ 12 ≤ cfl * (1 / (2 * n))) (hdur : 1 / 10 ^ 12 ≤ t1) (k : ℕ) (τ : ℝ) :
    let u : Fin n → ℝ := fun i => b.initial (i / n)
    let P := feParams n T (lowRhs .advection m C) .advection m C cfl adaptive 0 t1
    let run := solve P (Obj.make P ⟨u, 0, t1⟩)
    let v := (run k).1.sol.sol
    ((run k).2 = .running ∨ (run k).2 = .finished) ∧ (t1 * (2 * n) ≤ k * cfl → (run (k + 1)).2 = .finished) ∧
    ((run k).2 = .finished → t1 - 1 / 10 ^ 12 < v.time ∧ v.time ≤ t1) ∧
    (run k).1.warnings = [] ∧ 0 ≤ v.time ∧
    ∃ U, Values s (List.ofFn v.value) U ∧
    (b = .cosine → ∀ (c : Fin n) (x : ℝ), InCell b.domain n c x → |U c x - b.exact x τ| ≤
      2 * Real.pi ^ 2 * v.time / n + Real.pi ^ 2 / 2 / n ^ 2 + 2 * Real.pi * |v.time - τ|) ∧
    (b = .gaussianBell → ∀ (c : Fin n) (x : ℝ), InCell b.domain n c x → |U c x - b.exact x τ| ≤
      10 * (1 / (2 * n) + Real.sqrt (v.time / n) + |v.time - τ|)) ∧
    ∀ q : ℕ, hills b = some q → ∀ x : Fin n → ℝ, (∀ c : Fin n, InCell b.domain n c (x c)) →
      1 / n * ∑ c : Fin n, |U c (x c) - b.exact (x c) τ| ≤
        2 * q * (2 * Real.sqrt (v.time / n) + 2 * |v.time - τ| + 3 / n) := by
  intro u P run v
  obtain ⟨s1, s2, s3, -⟩ := setup_facts h
  rw [mul_one] at s3
  have hn := h.meshSize
  have hn0 : (0 : ℝ) < n := by exact_mod_cast hn
  have hd : b.domain.a < b.domain.b := h.domain
  have hlen : b.domain.b - b.domain.a = 1 := by norm_num [Advection.domain]
  have hper : ∀ x, profile b (x + (b.domain.b - b.domain.a)) = profile b x := by
    intro x; rw [hlen]; exact profile_periodic b x
  have hu : u = fun i : Fin n => profile b (b.domain.a + i * ((b.domain.b - b.domain.a) / n)) := by
    funext i; exact (profile_node b i).symm
  have hrange : ∀ i, |u i| ≤ 1 := fun i =>
    abs_le.mpr ⟨(C72_advection_range b _).1, (C72_advection_range b _).2.1⟩
  have hok : RunOk m P u 0 t1 (cfl * (1 / (2 * n))) := by
    have : ∀ N, N = s.dimension → ∀ u : Fin N → ℝ, (∀ i, |u i| ≤ 1) →
        RunOk m (feParams N T (lowRhs .advection m C) .advection m C cfl adaptive 0 t1) u 0 t1
          (cfl * (1 / (2 * n))) := by
      rintro N rfl u hu
      have := C111_linear_low h .advection T hT cfl hc hcfl adaptive 0 t1 (by linarith) u 1 one_pos
        (fun _ => le_rfl) hu (by rw [hlen, mul_one]; exact hstep)
      rwa [hlen, mul_one] at this
    exact this n s3.symm u hrange
  have hstatus := hok.status k
  have hr : ∀ e, (run k).2 ≠ .raised e := by
    intro e he
    rcases hstatus with h | h <;> rw [show _ = _ from he] at h <;> cases h
  have hbound : ∀ w : Fin n → ℝ, stepNumber .advection m C n ((t1 - 0) / cfl) w * cfl ≤ 1 / n := by
    intro w
    have := step_upper h h3 .advection w ⟨0, hn⟩ 1 one_pos (by simp [Problem.fluxPrime]) ((t1 - 0) / cfl)
    rw [hlen, mul_one] at this
    have h5 : (0 : ℝ) < 1 / n := by positivity
    nlinarith
  obtain ⟨steps, q1, q2, q3, q4⟩ := fe_steps T (lowRhs .advection m C) .advection m C cfl hc adaptive t1 (1 / n) u
    (fun _ => hbound u) (fun _ => hbound) k hr
  have hsteps : ∀ dt ∈ steps, 0 ≤ dt ∧ dt ≤ (b.domain.b - b.domain.a) / n := by
    rw [hlen]; exact q1
  have hS : 0 ≤ steps.sum := List.sum_nonneg fun _ h => (hsteps _ h).1
  have etime : v.time = steps.sum := q4
  have evalue : v.value = (run k).1.ode.solution := q3
  have q2' : (Solver.init (fun i : Fin n => profile b (b.domain.a + i * ((b.domain.b - b.domain.a) / n))) 0).runE T
      (vecRhs n fun _ => lowRhs .advection m C) steps = .ok (run k).1.ode := by
    rw [← hu]; exact q2
  have hval : ∀ U V, Values s (List.ofFn (run k).1.ode.solution) U →
      Values s (List.ofFn (run k).1.ode.solution) V → ∀ (c : Fin n) x, U c x = V c x := by
    intro U V hU hV c x
    have a1 := hU.2 c (by rw [s2]; exact c.2) x
    have a2 := hV.2 c (by rw [s2]; exact c.2) x
    exact Except.ok.inj (a1.symm.trans a2)
  refine ⟨hstatus, fun hk => hok.ends k ?_, hok.reached k, hok.quiet k, by rw [etime]; exact hS,
    linearValue b.domain n v.value, linear_value h _, ?_, ?_, ?_⟩
  · have e : (k : ℝ) * (cfl * (1 / (2 * n))) = k * cfl / (2 * n) := by ring
    rw [e, le_div_iff₀ (by positivity), sub_zero]
    exact hk
  · rintro rfl c x hx
    obtain ⟨s', U, r1, -, r2, r3⟩ := C113_smooth h h3 T hT steps hsteps _ hper
      _ cosine_lipschitz _ cosine_deriv _ cosine_deriv_lipschitz 0 τ
    rw [q2'] at r1
    rw [← Except.ok.inj r1] at r2
    have e := hval _ _ (linear_value h _) r2 c x
    rw [exact_profile, evalue, e, etime]
    refine (r3 c x hx).trans (le_of_eq ?_)
    rw [hlen]; ring
  · rintro rfl c x hx
    obtain ⟨s', U, r1, -, r2, r3⟩ := C113_lipschitz h h3 T hT steps hsteps _ hper
      _ bell_profile_lipschitz 0 τ
    rw [q2'] at r1
    rw [← Except.ok.inj r1] at r2
    have e := hval _ _ (linear_value h _) r2 c x
    rw [exact_profile, evalue, e, etime]
    refine (r3 c x hx).trans (le_of_eq ?_)
    rw [hlen, mul_one_div, div_div, mul_comm (n : ℝ) 2]
  · intro q hq x hx
    obtain ⟨w, hw, hV⟩ := bench_bounds b q hq
    have hmaj := hw.periodic b.initial_ends
    rw [hV, ← hlen] at hmaj
    obtain ⟨s', U, r1, -, r2, r3⟩ := C113_variation h h3 T hT steps hsteps _ hper _ _ hmaj 0 τ
    rw [q2'] at r1
    rw [← Except.ok.inj r1] at r2
    have e := fun c => hval _ _ (linear_value h _) r2 c (x c)
    simp only [exact_profile, evalue, e, etime]
    have := r3 x hx
    rw [hlen] at this
    refine this.trans (le_of_eq ?_)
    rw [mul_one_div, mul_one_div]

/-- C113.  The errors at the end of a run as the `eoc` command computes them (`command/error.py` lines
71-105, any quadrature rule with positive weights): for the cosine benchmark first order in all three
norms. -/
theorem C113_errors {gauss : ℕ → List (ℝ × ℝ)} {n : ℕ} {s : Space ℝ} {m : List ℝ} {C : SysMatrix ℝ}
    (b : Advection) (h : Setup gauss b.domain n 1 s m C) (h3 : 3 ≤ n) (T : Tableau ℝ)
    (hT : T = forwardEuler ℝ ∨ T = heun ℝ ∨ T = ssp3 ℝ) (cfl t1 : ℝ) (hc : 0 < cfl) (hcfl : cfl ≤ 1)
    (adaptive : Bool) (hstep : 1 / 10 ^ 12 ≤ cfl * (1 / (2 * n))) (hdur : 1 / 10 ^ 12 ≤ t1)
    (quad : List (ℝ × ℝ)) (hq : AveragingRule quad) (mesh : UMesh ℝ) (hmesh : uniformMesh b.domain n = .ok mesh)
    (k : ℕ) :
    let u : Fin n → ℝ := fun i => b.initial (i / n)
    let P := feParams n T (lowRhs .advection m C) .advection m C cfl adaptive 0 t1
    let run := solve P (Obj.make P ⟨u, 0, t1⟩)
    (run k).2 = .finished →
    ∃ U, Values s (List.ofFn (run k).1.sol.sol.value) U ∧
      (b = .cosine → ∃ e3, linf 10 mesh (fun c x => b.exact x t1 - U c x) = .ok e3 ∧
        ∀ e ∈ [l1 quad mesh (fun c x => b.exact x t1 - U c x), l2 quad mesh (fun c x => b.exact x t1 - U c x), e3],
          e ≤ 2 * Real.pi ^ 2 * t1 / n + Real.pi ^ 2 / 2 / n ^ 2 + 2 * Real.pi / 10 ^ 12) ∧
      (b = .gaussianBell → ∃ e3, linf 10 mesh (fun c x => b.exact x t1 - U c x) = .ok e3 ∧
        ∀ e ∈ [l1 quad mesh (fun c x => b.exact x t1 - U c x), l2 quad mesh (fun c x => b.exact x t1 - U c x), e3],
          e ≤ 10 * (1 / (2 * n) + Real.sqrt (t1 / n) + 1 / 10 ^ 12)) ∧
      ∀ q : ℕ, hills b = some q → l1 quad mesh (fun c x => b.exact x t1 - U c x) ≤
        2 * q * (2 * Real.sqrt (t1 / n) + 2 / 10 ^ 12 + 3 / n) := by
  intro u P run hk
  obtain ⟨-, -, r3, -, r5, U, r6, r7, r8, r9⟩ := C113_benchmark b h h3 T hT cfl t1 hc hcfl adaptive hstep hdur k t1
  obtain ⟨e1, e2⟩ := r3 hk
  have hn := h.meshSize
  have hn0 : (0 : ℝ) < n := by exact_mod_cast hn
  have hd := h.domain
  have hlen : b.domain.b - b.domain.a = 1 := by norm_num [Advection.domain]
  have hdiff : |(run k).1.sol.sol.time - t1| ≤ 1 / 10 ^ 12 := by
    have a1 : t1 - 1 / 10 ^ 12 < (run k).1.sol.sol.time := e1
    have a2 : (run k).1.sol.sol.time ≤ t1 := e2
    rw [abs_sub_comm, abs_of_nonneg (by linarith)]
    linarith
  have ht1 : (run k).1.sol.sol.time ≤ t1 := e2
  have hsqrt : Real.sqrt ((run k).1.sol.sol.time / n) ≤ Real.sqrt (t1 / n) :=
    Real.sqrt_le_sqrt (div_le_div_of_nonneg_right ht1 hn0.le)
  have hpi := Real.pi_pos
  have ht0 : 0 ≤ t1 := le_trans (by positivity) hdur
  have hbound : ∀ B : ℝ, 0 ≤ B → (∀ (c : Fin n) (x : ℝ), InCell b.domain n c x → |U c x - b.exact x t1| ≤ B) →
      ∃ e3, linf 10 mesh (fun c x => b.exact x t1 - U c x) = .ok e3 ∧
        ∀ e ∈ [l1 quad mesh (fun c x => b.exact x t1 - U c x), l2 quad mesh (fun c x => b.exact x t1 - U c x), e3],
          e ≤ B := by
    intro B hB hh
    obtain ⟨a1, a2, e3, a3, a4⟩ := norms_le hq hd hn hmesh (fun c x => b.exact x t1 - U c x) B hB (fun c x hx => by
      rw [abs_sub_comm]; exact hh c x hx) 10 (by norm_num)
    rw [hlen, one_mul] at a1
    rw [hlen, Real.sqrt_one, one_mul] at a2
    refine ⟨e3, a3, fun e he => ?_⟩
    simp only [List.mem_cons, List.not_mem_nil, or_false] at he
    rcases he with rfl | rfl | rfl
    · exact a1
    · exact a2
    · exact a4
  refine ⟨U, r6, fun hb => hbound _ (by positivity) fun c x hx => (r7 hb c x hx).trans ?_,
    fun hb => hbound _ (by positivity) fun c x hx => (r8 hb c x hx).trans ?_, fun q hq' => ?_⟩
  · have h5 : 2 * Real.pi * |(run k).1.sol.sol.time - t1| ≤ 2 * Real.pi * (1 / 10 ^ 12) :=
      mul_le_mul_of_nonneg_left hdiff (by positivity)
    have h6 : 2 * Real.pi ^ 2 * (run k).1.sol.sol.time / n ≤ 2 * Real.pi ^ 2 * t1 / n :=
      div_le_div_of_nonneg_right (mul_le_mul_of_nonneg_left ht1 (by positivity)) hn0.le
    rw [mul_one_div] at h5
    exact add_le_add (add_le_add h6 le_rfl) h5
  · refine mul_le_mul_of_nonneg_left (add_le_add (add_le_add le_rfl hsqrt) hdiff) (by norm_num)
  · refine l1_le hq hd hn hmesh _ _ fun x hx => ?_
    have := r9 q hq' x hx
    rw [hlen]
    simp only [abs_sub_comm (b.exact _ _)]
    refine this.trans (mul_le_mul_of_nonneg_left ?_ (by positivity))
    have h5 : 2 * |(run k).1.sol.sol.time - t1| ≤ 2 * (1 / 10 ^ 12) :=
      mul_le_mul_of_nonneg_left hdiff (by norm_num)
    rw [mul_one_div] at h5
    exact add_le_add (add_le_add (mul_le_mul_of_nonneg_left hsqrt (by norm_num)) h5) le_rfl

/-- C113.  A whole run for Burgers' equation with the low order finite element solver, linear elements and
the fixed step (default), up to its end time `t1 ≤ S`: data as in C110, and `cfl M` is at most the largest
node value of `f`, which is close to its maximum `M`.  No exception and no warning, and the L1 error as the
`eoc` command computes it is at most `length (3 L' + 4 C t1) dx`. -/
theorem C113_burgers_run {gauss : ℕ → List (ℝ × ℝ)} {d : Interval ℝ} {n : ℕ} {s : Space ℝ} {m : List ℝ}
    {A : SysMatrix ℝ} (h : Setup gauss d n 1 s m A) (h3 : 3 ≤ n) {lo M L B c S : ℝ} {f f' : ℝ → ℝ}
    {w : ℝ → ℝ → ℝ} (hf : BeforeShock (d.b - d.a) lo M L B c S f f') (hw : Characteristics f S w)
    (T : Tableau ℝ) (hT : T = forwardEuler ℝ ∨ T = heun ℝ ∨ T = ssp3 ℝ) (cfl t1 : ℝ) (hc : 0 < cfl)
    (hcfl : cfl ≤ 1) (hmax : ∃ i : Fin n, cfl * M ≤ f (d.a + i * ((d.b - d.a) / n)))
    (hstep : 1 / 10 ^ 12 ≤ cfl * ((d.b - d.a) / (2 * n * M))) (hdur : 1 / 10 ^ 12 ≤ t1) (ht1 : t1 ≤ S)
    (quad : List (ℝ × ℝ)) (hq : AveragingRule quad) (mesh : UMesh ℝ) (hmesh : uniformMesh d n = .ok mesh) :
    let u : Fin n → ℝ := fun i => f (d.a + i * ((d.b - d.a) / n))
    let P := feParams n T (lowRhs .burgers m A) .burgers m A cfl false 0 t1
    let run := solve P (Obj.make P ⟨u, 0, t1⟩)
    (∀ k, (run k).2 = .running ∨ (run k).2 = .finished) ∧ (∃ k, (run k).2 = .finished) ∧
    (∀ k, (run k).1.warnings = []) ∧
    ∀ k, (run k).2 = .finished → ∃ U, Values s (List.ofFn (run k).1.sol.sol.value) U ∧
      l1 quad mesh (fun i x => w t1 x - U i x) ≤
        (d.b - d.a) * ((3 * (L / c) + 4 * (2 * (L / c) ^ 2 + M * (B / c ^ 3)) * t1) * ((d.b - d.a) / n)) := by
  intro u P run
  obtain ⟨s1, s2, s3, -⟩ := setup_facts h
  rw [mul_one] at s3
  have hn := h.meshSize
  have hn0 : (0 : ℝ) < n := by exact_mod_cast hn
  have hd := h.domain
  have hdx : 0 < (d.b - d.a) / n := div_pos (by linarith) hn0
  have ht0 : 0 < t1 := lt_of_lt_of_le (by positivity) hdur
  have wv := hf.wave hw
  have hS : 0 ≤ S := ht0.le.trans ht1
  have hM := wv.M_pos hS
  have hL := wv.L_nonneg hS
  have hrange : ∀ i, |u i| ≤ M := fun i => by
    have := hf.range (d.a + i * ((d.b - d.a) / n))
    show |f _| ≤ M
    rw [abs_of_pos (hf.pos.trans_le this.1)]
    exact this.2
  have hok : RunOk m P u 0 t1 (cfl * ((d.b - d.a) / (2 * n * M))) := by
    have : ∀ N, N = s.dimension → ∀ u : Fin N → ℝ, (∀ i, |u i| ≤ M) →
        RunOk m (feParams N T (lowRhs .burgers m A) .burgers m A cfl false 0 t1) u 0 t1
          (cfl * ((d.b - d.a) / (2 * n * M))) := by
      rintro N rfl u hu
      exact C111_linear_low h .burgers T hT cfl hc hcfl false 0 t1 (by linarith) u M hM
        (fun e => by cases e) hu hstep
    exact this n s3.symm u hrange
  refine ⟨hok.status, ?_, hok.quiet, fun k hk => ?_⟩
  · have hδ : 0 < cfl * ((d.b - d.a) / (2 * n * M)) := lt_of_lt_of_le (by positivity) hstep
    obtain ⟨k, hk⟩ := exists_nat_ge ((t1 - 0) / (cfl * ((d.b - d.a) / (2 * n * M))))
    exact ⟨k + 1, hok.ends k (by rwa [div_le_iff₀ hδ] at hk)⟩
  · have hr : ∀ e, (run k).2 ≠ .raised e := by
      intro e he
      rw [show _ = _ from hk] at he; cases he
    obtain ⟨i, hi⟩ := hmax
    have hb : stepNumber .burgers m A n ((t1 - 0) / cfl) u * cfl ≤ (d.b - d.a) / n / (2 * M) := by
      have := step_upper h h3 .burgers u i (cfl * M) (mul_pos hc hM) (hi.trans (le_abs_self _)) ((t1 - 0) / cfl)
      rw [le_div_iff₀ (by positivity)]
      linarith
    obtain ⟨steps, q1, q2, q3, q4⟩ := fe_steps T (lowRhs .burgers m A) .burgers m A cfl hc false t1 _ u
      (fun _ => hb) (fun e => by cases e) k hr
    have hsteps : ∀ dt ∈ steps, 0 ≤ dt ∧ 2 * dt * M ≤ (d.b - d.a) / n := by
      intro dt hdt
      obtain ⟨a1, a2⟩ := q1 dt hdt
      rw [le_div_iff₀ (by positivity)] at a2
      exact ⟨a1, by linarith⟩
    obtain ⟨e1, e2⟩ := hok.reached k hk
    have etime : (run k).1.sol.sol.time = steps.sum := q4
    have evalue : (run k).1.sol.sol.value = (run k).1.ode.solution := q3
    have e1' : t1 - 1 / 10 ^ 12 < steps.sum := by rw [← etime]; exact e1
    have e2' : steps.sum ≤ t1 := by rw [← etime]; exact e2
    have hsum : 0 ≤ steps.sum := List.sum_nonneg fun x hx => (hsteps x hx).1
    obtain ⟨s', U, c1, -, c3, c4⟩ := C113_burgers h h3 hf hw T hT steps hsteps (e2'.trans ht1) 0
    have hs' := Except.ok.inj (c1.symm.trans q2)
    refine ⟨U, by rw [evalue, ← hs']; exact c3, l1_le hq hd hn hmesh _ _ fun x hx => ?_⟩
    have k1 := c4 x hx
    have k2 : ∀ i : Fin n, |w t1 (x i) - w steps.sum (x i)| ≤ L / c * ((d.b - d.a) / n / 2) := by
      intro i
      have := wv.time_lip hsum (τ := t1 - steps.sum) (by linarith) (by linarith) (x i)
      rw [add_sub_cancel] at this
      refine this.trans ?_
      rw [mul_assoc]
      refine mul_le_mul_of_nonneg_left ?_ hL
      have h2 : M * (t1 - steps.sum) ≤ M * (cfl * ((d.b - d.a) / (2 * n * M))) :=
        mul_le_mul_of_nonneg_left (by linarith) hM.le
      have e : M * (cfl * ((d.b - d.a) / (2 * n * M))) = cfl * ((d.b - d.a) / n / 2) := by
        field_simp
      have h4 : cfl * ((d.b - d.a) / n / 2) ≤ 1 * ((d.b - d.a) / n / 2) :=
        mul_le_mul_of_nonneg_right hcfl (by positivity)
      linarith
    have k3 : ∑ i : Fin n, |w t1 (x i) - U i (x i)| ≤
        ∑ i : Fin n, |U i (x i) - w steps.sum (x i)| + n * (L / c * ((d.b - d.a) / n / 2)) := by
      have : ∀ i : Fin n, |w t1 (x i) - U i (x i)| ≤ |U i (x i) - w steps.sum (x i)| +
          L / c * ((d.b - d.a) / n / 2) := by
        intro i
        have a1 := abs_sub_le (w t1 (x i)) (w steps.sum (x i)) (U i (x i))
        rw [abs_sub_comm (w steps.sum (x i))] at a1
        linarith [k2 i]
      refine (Finset.sum_le_sum fun i _ => this i).trans (le_of_eq ?_)
      rw [Finset.sum_add_distrib, Finset.sum_const, Finset.card_univ, Fintype.card_fin, nsmul_eq_mul]
    have hC : 0 ≤ 2 * (L / c) ^ 2 + M * (B / c ^ 3) := by
      have hB0 : 0 ≤ B := by
        have := (abs_nonneg _).trans (hf.smooth 1 0)
        simpa using this
      have := hf.cpos
      positivity
    have k4 := mul_le_mul_of_nonneg_left k3 hdx.le
    refine k4.trans ?_
    set dx := (d.b - d.a) / n with hdx'
    have hnd : (n : ℝ) * dx = d.b - d.a := by rw [hdx']; field_simp
    have e6 : dx * (n * (L / c * (dx / 2))) = (d.b - d.a) * (L / c * dx / 2) := by
      rw [← hnd]; ring
    have k5 : (2 * (L / c) ^ 2 + M * (B / c ^ 3)) * steps.sum ≤ (2 * (L / c) ^ 2 + M * (B / c ^ 3)) * t1 :=
      mul_le_mul_of_nonneg_left e2' hC
    have k6 : (d.b - d.a) * ((5 / 2 * (L / c) + 4 * (2 * (L / c) ^ 2 + M * (B / c ^ 3)) * steps.sum) * dx) ≤
        (d.b - d.a) * ((5 / 2 * (L / c) + 4 * (2 * (L / c) ^ 2 + M * (B / c ^ 3)) * t1) * dx) :=
      mul_le_mul_of_nonneg_left (mul_le_mul_of_nonneg_right (by linarith) hdx.le) (by linarith)
    rw [mul_add, e6]
    have e7 : (d.b - d.a) * ((3 * (L / c) + 4 * (2 * (L / c) ^ 2 + M * (B / c ^ 3)) * t1) * dx) =
        (d.b - d.a) * ((5 / 2 * (L / c) + 4 * (2 * (L / c) ^ 2 + M * (B / c ^ 3)) * t1) * dx) +
          (d.b - d.a) * (L / c * dx / 2) := by ring
    rw [e7]
    linarith

/-! ### Examples -/

/-- The cosine benchmark on `n` cells with Heun's method and the defaults `cfl = 1` and end time 1: the run ends
within `2 n + 1` rounds without a warning, and the error is at most `40 / n` everywhere. -/
example (n : ℕ) (h3 : 3 ≤ n) (hn : n ≤ 10 ^ 11) : ∃ gauss s m C, Setup gauss (Advection.domain .cosine) n 1 s m C ∧
    let u : Fin n → ℝ := fun i => Advection.initial .cosine (i / n)
    let P := feParams n (heun ℝ) (lowRhs .advection m C) .advection m C 1 false 0 1
    let run := solve P (Obj.make P ⟨u, 0, 1⟩)
    (run (2 * n + 1)).2 = .finished ∧ (run (2 * n + 1)).1.warnings = [] ∧
      ∃ U, Values s (List.ofFn (run (2 * n + 1)).1.sol.sol.value) U ∧
        ∀ (c : Fin n) (x : ℝ), InCell (Advection.domain .cosine) n c x →
          |U c x - Advection.exact .cosine x 1| ≤ 40 / n := by
  have hn3 : (3 : ℝ) ≤ n := by exact_mod_cast h3
  have hn0 : (0 : ℝ) < n := by linarith
  have hn1 : (n : ℝ) ≤ 10 ^ 11 := by exact_mod_cast hn
  obtain ⟨gauss, s, m, C, h⟩ := exists_setup (Advection.domain .cosine) (by norm_num [Advection.domain]) n 1
    (by omega) one_pos
  refine ⟨gauss, s, m, C, h, ?_⟩
  intro u P run
  have hstep : (1 : ℝ) / 10 ^ 12 ≤ 1 * (1 / (2 * n)) := by
    rw [one_mul]
    exact one_div_le_one_div_of_le (by positivity) (by linarith)
  obtain ⟨-, b, -⟩ := C113_benchmark .cosine h h3 (heun ℝ) (Or.inr (Or.inl rfl)) 1 1 one_pos
    le_rfl false hstep (by norm_num) (2 * n) 1
  obtain ⟨-, -, c3, c4, c5, U, c6, c7, -⟩ := C113_benchmark .cosine h h3 (heun ℝ) (Or.inr (Or.inl rfl)) 1 1
    one_pos le_rfl false hstep (by norm_num) (2 * n + 1) 1
  have hfin : (run (2 * n + 1)).2 = .finished := b (by push_cast; linarith)
  obtain ⟨t0, t1⟩ := c3 hfin
  refine ⟨hfin, c4, U, c6, fun c x hx => (c7 rfl c x hx).trans ?_⟩
  have t0' : (1 : ℝ) - 1 / 10 ^ 12 < (run (2 * n + 1)).1.sol.sol.time := t0
  have t1' : (run (2 * n + 1)).1.sol.sol.time ≤ 1 := t1
  show 2 * Real.pi ^ 2 * (run (2 * n + 1)).1.sol.sol.time / n + Real.pi ^ 2 / 2 / n ^ 2 +
    2 * Real.pi * |(run (2 * n + 1)).1.sol.sol.time - 1| ≤ 40 / n
  generalize (run (2 * n + 1)).1.sol.sol.time = t at *
  have hpi := Real.pi_le_four
  have hpi0 := Real.pi_pos
  have hd : |t - 1| ≤ 1 / 10 ^ 12 := by
    rw [abs_sub_comm, abs_of_nonneg (by linarith)]; linarith
  have hsq : Real.pi ^ 2 ≤ 16 := by nlinarith
  have a1 : 2 * Real.pi ^ 2 * t / n ≤ 32 / n := by
    apply div_le_div_of_nonneg_right _ hn0.le
    have : 2 * Real.pi ^ 2 * t ≤ 2 * Real.pi ^ 2 * 1 := mul_le_mul_of_nonneg_left t1' (by positivity)
    linarith
  have a2 : 2 * Real.pi * |t - 1| ≤ 1 / n := by
    rw [le_div_iff₀ hn0]
    have : 2 * Real.pi * |t - 1| ≤ 8 * (1 / 10 ^ 12) :=
      mul_le_mul (by linarith) hd (abs_nonneg _) (by norm_num)
    have := mul_le_mul this hn1 hn0.le (by norm_num)
    linarith
  have a3 : Real.pi ^ 2 / 2 / n ^ 2 ≤ 3 / n := by
    rw [div_le_div_iff₀ (by positivity) hn0, pow_two (n : ℝ), ← mul_assoc]
    apply mul_le_mul_of_nonneg_right _ hn0.le
    linarith
  have e : (40 : ℝ) / n = 32 / n + 3 / n + 1 / n + 4 / n := by ring
  have : (0 : ℝ) < 4 / n := by positivity
  linarith

/-- `2 + sin` on `[0, 2 π]` with `4 q` cells and the default CFL number one, up to time 1/2. -/
example (q : ℕ) (hq : 0 < q) (hq' : q ≤ 10 ^ 10) (mesh : UMesh ℝ)
    (hmesh : uniformMesh ⟨0, 2 * Real.pi⟩ (4 * q) = .ok mesh) :
    ∃ gauss s m C w, Setup gauss ⟨0, 2 * Real.pi⟩ (4 * q) 1 s m C ∧
      Characteristics (fun x => 2 + Real.sin x) (1 / 2) w ∧
      let u : Fin (4 * q) → ℝ := fun i => 2 + Real.sin (0 + i * ((2 * Real.pi - 0) / (4 * q : ℕ)))
      let P := feParams (4 * q) (ssp3 ℝ) (lowRhs .burgers m C) .burgers m C 1 false 0 (1 / 2)
      ∃ k U, (solve P (Obj.make P ⟨u, 0, 1 / 2⟩) k).2 = .finished ∧
        Values s (List.ofFn (solve P (Obj.make P ⟨u, 0, 1 / 2⟩) k).1.sol.sol.value) U ∧
        l1 [(0, 2)] mesh (fun i x => w (1 / 2) x - U i x) ≤ 70 * (2 * Real.pi) ^ 2 / (4 * q : ℕ) := by
  have hpi := Real.two_le_pi
  have hq0 : (0 : ℝ) < q := by exact_mod_cast hq
  have hq1 : (q : ℝ) ≤ 10 ^ 10 := by exact_mod_cast hq'
  obtain ⟨gauss, s, m, C, h⟩ := exists_setup ⟨0, 2 * Real.pi⟩ (by simp [Real.pi_pos]) (4 * q) 1 (by omega) one_pos
  obtain ⟨⟨w, hw⟩, -⟩ := C110_exact example_data
  refine ⟨gauss, s, m, C, w, h, hw, ?_⟩
  obtain ⟨-, ⟨k, hk⟩, -, h4⟩ := C113_burgers_run h (by omega) example_data hw (ssp3 ℝ) (Or.inr (Or.inr rfl)) 1
    (1 / 2) one_pos le_rfl ⟨⟨q, by omega⟩, by
      have : (0 : ℝ) + q * ((2 * Real.pi - 0) / (4 * q : ℕ)) = Real.pi / 2 := by
        push_cast; field_simp; ring
      simp only [this, Real.sin_pi_div_two]
      norm_num⟩ (by
      push_cast
      rw [one_mul, le_div_iff₀ (by positivity)]
      linarith) (by norm_num) le_rfl [(0, 2)] midpoint_rule mesh hmesh
  obtain ⟨U, h5, h6⟩ := h4 k hk
  refine ⟨k, U, hk, h5, h6.trans (le_of_eq ?_)⟩
  push_cast
  field_simp
  ring

end Verif.FE
