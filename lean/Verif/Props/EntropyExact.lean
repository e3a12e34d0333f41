import Verif.Props.EntropyLimit

/-!
Property C132, continued: the exact solutions of the benchmarks are entropy solutions.
-/

set_option linter.unusedSectionVars false

namespace Verif.EntropyLimit

open Verif.Py Verif.Boundary Verif.FV Verif.ODE Verif.Scalar Verif.Convergence Verif.Weak
open Verif.Interpolate Verif.Quadrature Verif.Bench
open Verif.Mesh hiding Error
open MeasureTheory Set

/-! ### Helper lemmas -/

/-- The mean distance of a computed function to another one, by a bound for every cell. -/
theorem OnGrid.mean_error {q : ℝ → ℝ} {Λ m M V dx a t₀ : ℝ} {n : ℕ} {steps : List ℝ} {states : ℕ → Fin n → ℝ}
    {u : ℝ × ℝ → ℝ} {u0 : ℝ → ℝ} (h : OnGrid q Λ m M V dx a t₀ n steps states u u0) (hdx : 0 ≤ dx)
    (hpos : ∀ dt ∈ steps, 0 ≤ dt) {w : ℝ × ℝ → ℝ} (hw : IntegrableOn w (cell t₀ (t₀ + steps.sum) a (a + n * dx)))
    (b : ℕ → ℕ → ℝ) (e : ℝ)
    (hb : ∀ j < steps.length, ∀ i < n, ∀ z ∈ cell (after t₀ steps j) (after t₀ steps (j + 1)) (nodeAt a dx i)
      (nodeAt a dx (i + 1)), |u z - w z| ≤ b j i) (he : ∀ j < steps.length, ∑ i ∈ Finset.range n, b j i * dx ≤ e) :
    ∫ z in cell t₀ (t₀ + steps.sum) a (a + n * dx), |u z - w z| ≤ steps.sum * e := by
  have h0 : IntegrableOn u (cell t₀ (t₀ + steps.sum) a (a + n * dx)) :=
    h.integrable (fun v _ => v) fun v => continuous_const
  have ht := after_mono t₀ steps hpos
  have hx := nodeAt_mono a dx hdx
  have e1 := integral_grid (after t₀ steps) (nodeAt a dx) steps.length n (fun j _ => ht (Nat.le_succ j))
    (fun i _ => hx (Nat.le_succ i)) (g := fun z => |u z - w z|)
    (by rw [after_zero, after_length, nodeAt_zero]; exact (h0.sub hw).abs)
  rw [after_zero, after_length, nodeAt_zero] at e1
  refine e1.trans_le ?_
  have key : ∀ j < steps.length, ∑ i ∈ Finset.range n, ∫ z in cell (after t₀ steps j) (after t₀ steps (j + 1))
      (nodeAt a dx i) (nodeAt a dx (i + 1)), |u z - w z| ≤ (after t₀ steps (j + 1) - after t₀ steps j) * e := by
    intro j hj
    have hd : 0 ≤ after t₀ steps (j + 1) - after t₀ steps j := sub_nonneg.2 (ht (Nat.le_succ j))
    refine le_trans ?_ (mul_le_mul_of_nonneg_left (he j hj) hd)
    rw [Finset.mul_sum]
    refine Finset.sum_le_sum fun i hi => ?_
    rw [Finset.mem_range] at hi
    have c1 := norm_setIntegral_le_of_norm_le_const (μ := volume) (f := fun z => |u z - w z|) (C := b j i)
      (cell_finite (after t₀ steps j) (after t₀ steps (j + 1)) (nodeAt a dx i) (nodeAt a dx (i + 1)))
      (fun z hz => by rw [Real.norm_eq_abs, abs_abs]; exact hb j hj i hi z hz)
    rw [cell_real _ _ _ _ (ht (Nat.le_succ j)) (hx (Nat.le_succ i))] at c1
    have c2 : nodeAt a dx (i + 1) - nodeAt a dx i = dx := by unfold nodeAt; push_cast; ring
    rw [c2] at c1
    refine (le_abs_self _).trans ((Real.norm_eq_abs _ ▸ c1).trans (le_of_eq ?_))
    ring
  refine (Finset.sum_le_sum fun j hj => key j (Finset.mem_range.1 hj)).trans (le_of_eq ?_)
  rw [← Finset.sum_mul, Finset.sum_range_sub, after_length, after_zero]
  ring

/-- If the results of all runs are near `w` then `w` is an entropy solution. -/
theorem near_runs (p : Problem) (m M V t₀ S c : ℝ) (hm : p = .burgers → 0 < m) (hc : 0 < c)
    (hcm : ∀ dx dt, 0 ≤ dt → dt * c ≤ dx → Monotonic p m M dx dt) (hS : t₀ ≤ S)
    (d : Interval ℝ) (hd : d.a < d.b) (f G : ℝ → ℝ) (hfr : ∀ x, m ≤ f x ∧ f x ≤ M)
    (hf : ∀ x, f (x + (d.b - d.a)) = f x) (hG : Majorant f G (d.b - d.a) V)
    (w : ℝ × ℝ → ℝ) (hw : IntegrableOn w (Ioc t₀ S ×ˢ Ioc d.a d.b)) (ε : ℝ → ℝ) (hε : Filter.Tendsto ε (nhds 0) (nhds 0))
    (hrun : ∀ (n : ℕ) (_ : 0 < n) (mesh : UMesh ℝ) (_ : uniformMesh d n = .ok mesh) (bc : BC ℝ ℝ)
      (_ : build none ["periodic"] 1 none none = .ok bc) (steps : List ℝ) (dt : ℝ)
      (_ : ∀ τ ∈ steps, 0 ≤ τ ∧ τ * c ≤ (d.b - d.a) / n) (_ : 0 ≤ dt) (_ : dt * c ≤ (d.b - d.a) / n)
      (_ : t₀ + steps.sum + dt ≤ S),
      ∃ (s' : Solver ℝ (Fin n → ℝ)) (b : Fin n → ℝ), (Solver.init (fun i : Fin n => (cellAverages [(0, 2)] mesh f).getD i 0) t₀).runE (forwardEuler ℝ)
          (vecRhs n (rhs (laxFriedrichs p.riemann) ((d.b - d.a) / n) bc)) steps = .ok s' ∧ s'.time = t₀ + steps.sum ∧
        (∀ (i : Fin n) (t x : ℝ), s'.time < t → t ≤ s'.time + dt →
          d.a + i * ((d.b - d.a) / n) < x → x ≤ d.a + (i + 1) * ((d.b - d.a) / n) → |s'.solution i - w (t, x)| ≤ b i) ∧
        ∑ i : Fin n, b i * ((d.b - d.a) / n) ≤ ε ((d.b - d.a) / n)) :
    EntropySolution p.flux d.a (d.b - d.a) t₀ S w f := by
  obtain ⟨bc, hbc⟩ : ∃ bc : BC ℝ ℝ, build none ["periodic"] 1 none none = .ok bc := ⟨_, rfl⟩
  have hP0 : 0 < d.b - d.a := by linarith
  have hdx : ∀ r : ℕ, 0 < (d.b - d.a) / (r + 1 : ℕ) := fun r => div_pos hP0 (by positivity)
  have hmesh : ∀ r : ℕ, ∃ mesh, uniformMesh d (r + 1) = .ok mesh := fun r => ⟨_, uniformMesh_eq d hd (Nat.succ_pos r)⟩
  choose mesh hmesh using hmesh
  set q : ℕ → ℕ := fun r => ⌈(S - t₀) * c / ((d.b - d.a) / (r + 1 : ℕ))⌉₊ + 1 with hq
  set steps : ℕ → List ℝ := fun r => List.replicate (q r) ((S - t₀) / q r) with hst
  have hq0 : ∀ r, (0 : ℝ) < q r := fun r => by
    have : 0 < q r := Nat.succ_pos _
    exact_mod_cast this
  have hmem : ∀ r, ∀ dt ∈ steps r, 0 ≤ dt ∧ dt * c ≤ (d.b - d.a) / (r + 1 : ℕ) := by
    intro r dt h
    obtain rfl := List.eq_of_mem_replicate h
    refine ⟨div_nonneg (by linarith) (hq0 r).le, ?_⟩
    rw [div_mul_eq_mul_div, div_le_iff₀ (hq0 r), mul_comm _ (q r : ℝ), ← div_le_iff₀ (hdx r)]
    refine (Nat.le_ceil _).trans ?_
    simp only [hq]
    push_cast
    linarith
  have hmono : ∀ r, ∀ dt ∈ steps r, Monotonic p m M ((d.b - d.a) / (r + 1 : ℕ)) dt := fun r dt h =>
    hcm _ _ (hmem r dt h).1 (hmem r dt h).2
  have hsum : ∀ r, t₀ + (steps r).sum = S := fun r => by
    have := (hq0 r).ne'
    simp only [hst, List.sum_replicate, nsmul_eq_mul]
    field_simp
    ring
  have hinit : ∀ r, ∀ i : Fin (r + 1), m ≤ (cellAverages [(0, 2)] (mesh r) f).getD i 0 ∧
      (cellAverages [(0, 2)] (mesh r) f).getD i 0 ≤ M := fun r i => by
    obtain ⟨hcells, hlt, -⟩ := uniform_cells hd (Nat.succ_pos r) (hmesh r)
    exact (C58_basic [(0, 2)] (mesh r) hlt midpoint_rule.sum midpoint_rule.pos midpoint_rule.inside f).2.2.1 i
      (by rw [hcells]; exact i.2) m M fun x _ _ => hfr x
  have hex := fun r => C132_exists p (r + 1) (Nat.succ_pos r) none none none bc hbc d.a ((d.b - d.a) / (r + 1 : ℕ)) (hdx r) m M hm
    (forwardEuler ℝ) (Or.inl rfl) (steps r) (hmono r)
    (Solver.init (fun i : Fin (r + 1) => (cellAverages [(0, 2)] (mesh r) f).getD i 0) t₀) (hinit r)
  choose u u0 hu using hex
  refine C132_limit p m M V t₀ S hm [(0, 2)] midpoint_rule d hd f G hfr hf hG none none none bc hbc (fun r => r + 1)
    (fun r => Nat.succ_pos r) (Filter.tendsto_add_atTop_nat 1) mesh hmesh (fun _ => forwardEuler ℝ)
    (fun _ => Or.inl rfl) steps hmono hsum u u0 hu w hw ?_
  have bound : ∀ r, ∫ z in Ioc t₀ S ×ˢ Ioc d.a d.b, |u r z - w z| ≤ (S - t₀) * ε ((d.b - d.a) / (r + 1 : ℕ)) := by
    intro r
    obtain ⟨states, hg, -⟩ := on_grid hm (Nat.succ_pos r) (hdx r) none none none bc hbc (forwardEuler ℝ) (Or.inl rfl) V (steps r)
      (hmono r) _ (hinit r) (average_variation midpoint_rule hd (Nat.succ_pos r) (hmesh r) hf hG) (hu r)
    have hPn : ((r + 1 : ℕ) : ℝ) * ((d.b - d.a) / (r + 1 : ℕ)) = d.b - d.a := by
      have : ((r + 1 : ℕ) : ℝ) ≠ 0 := by positivity
      field_simp
    have hcell : cell t₀ (t₀ + (steps r).sum) d.a (d.a + (r + 1 : ℕ) * ((d.b - d.a) / (r + 1 : ℕ))) =
        Ioc t₀ S ×ˢ Ioc d.a d.b := by
      rw [hsum, hPn, show d.a + (d.b - d.a) = d.b by ring]; rfl
    have hj : ∀ j, ∃ b : Fin (r + 1) → ℝ, ∀ hj : j < (steps r).length,
        (∀ i : Fin (r + 1), ∀ z ∈ cell (after t₀ (steps r) j) (after t₀ (steps r) (j + 1))
          (nodeAt d.a ((d.b - d.a) / (r + 1 : ℕ)) i) (nodeAt d.a ((d.b - d.a) / (r + 1 : ℕ)) (i + 1)), |u r z - w z| ≤ b i) ∧
        ∑ i : Fin (r + 1), b i * ((d.b - d.a) / (r + 1 : ℕ)) ≤ ε ((d.b - d.a) / (r + 1 : ℕ)) := by
      intro j
      by_cases hj : j < (steps r).length
      · obtain ⟨s', a1, a2⟩ := (hu r).later j hj
        have hmj := hmem r _ (List.getElem_mem hj)
        obtain ⟨s'', b, b1, b2, b3, b4⟩ := hrun (r + 1) (Nat.succ_pos r) (mesh r) (hmesh r) bc hbc ((steps r).take j)
          (steps r)[j] (fun τ h => hmem r τ (List.mem_of_mem_take h)) hmj.1 hmj.2 (by
            have e1 := after_succ t₀ (steps r) j hj
            have e2 := after_mono t₀ (steps r) (fun τ h => (hmem r τ h).1) (show j + 1 ≤ (steps r).length from hj)
            rw [after_length, hsum, e1] at e2
            exact e2)
        have : Except.ok s' = (Except.ok s'' : Except Py.Error _) := a1.symm.trans b1
        obtain rfl : s' = s'' := by simpa using this
        refine ⟨b, fun _ => ⟨fun i z hz => ?_, b4⟩⟩
        obtain ⟨⟨z1, z2⟩, z3, z4⟩ := hz
        rw [after_succ _ _ _ hj] at z2
        rw [nodeAt_succ] at z4
        have t1 : s'.time < z.1 := by rw [b2]; exact z1
        have t2 : z.1 ≤ s'.time + (steps r)[j] := by rw [b2]; exact z2
        have := a2 i z.1 z.2 t1 t2 z3 z4
        rw [this]
        exact b3 i z.1 z.2 t1 t2 z3 z4
      · exact ⟨fun _ => 0, fun h => absurd h hj⟩
    choose b hb using hj
    have := hg.mean_error (hdx r).le (fun dt h => (hmem r dt h).1) (w := w) (hcell ▸ hw)
      (fun j i => if h : i < r + 1 then b j ⟨i, h⟩ else 0) (ε ((d.b - d.a) / (r + 1 : ℕ)))
      (fun j hj i hi z hz => by
        simp only [dif_pos hi]
        exact (hb j hj).1 ⟨i, hi⟩ z hz)
      (fun j hj => by
        rw [← Fin.sum_univ_eq_sum_range (fun i => (if h : i < r + 1 then b j ⟨i, h⟩ else 0) * ((d.b - d.a) / (r + 1 : ℕ)))]
        refine le_of_eq_of_le (Finset.sum_congr rfl fun i _ => ?_) (hb j hj).2
        rw [dif_pos i.2])
    have e : (steps r).sum = S - t₀ := by rw [← hsum r]; ring
    rw [← e, ← hcell]
    exact this
  have t1 : Filter.Tendsto (fun r : ℕ => (d.b - d.a) / ((r + 1 : ℕ) : ℝ)) Filter.atTop (nhds 0) :=
    Filter.Tendsto.const_div_atTop (tendsto_natCast_atTop_atTop.comp (Filter.tendsto_add_atTop_nat 1)) _
  have t2 := (hε.comp t1).const_mul (S - t₀)
  rw [mul_zero] at t2
  exact squeeze_zero (fun r => integral_nonneg fun z => abs_nonneg _) bound t2

/-! ### The property -/

/-- C132.  The exact solutions of the advection benchmarks, data `f` moved with speed one, are entropy solutions: for
Lipschitz continuous periodic data. -/
theorem C132_advection (L t₀ S : ℝ) (hS : t₀ ≤ S) (d : Interval ℝ) (hd : d.a < d.b) (f : ℝ → ℝ)
    (hf : ∀ x, f (x + (d.b - d.a)) = f x) (hL : ∀ x y, |f x - f y| ≤ L * |x - y|) :
    EntropySolution Problem.advection.flux d.a (d.b - d.a) t₀ S (fun z => f (z.2 - (z.1 - t₀))) f := by
  have hP0 : 0 < d.b - d.a := by linarith
  have hL0 : 0 ≤ L := by
    have := (abs_nonneg _).trans (hL 1 0)
    simpa using this
  have hcont : Continuous f := by
    have : LipschitzWith (Real.toNNReal L) f := LipschitzWith.of_dist_le_mul fun x y => by
      rw [Real.dist_eq, Real.dist_eq, Real.coe_toNNReal _ hL0]
      exact hL x y
    exact this.continuous
  have hr : ∀ x, f d.a - L * (d.b - d.a) ≤ f x ∧ f x ≤ f d.a + L * (d.b - d.a) := by
    intro x
    obtain ⟨y, hy, e⟩ := Function.Periodic.exists_mem_Ico hf hP0 x d.a
    have h1 := hL y d.a
    have h2 : L * |y - d.a| ≤ L * (d.b - d.a) := by
      refine mul_le_mul_of_nonneg_left ?_ hL0
      rw [abs_of_nonneg (by linarith [hy.1])]
      linarith [hy.2]
    rw [e]
    have := abs_le.1 (h1.trans h2)
    constructor <;> linarith [this.1, this.2]
  refine near_runs .advection _ _ (L * (d.b - d.a)) t₀ S 1 (by simp) one_pos
    (fun dx dt h0 h1 => ⟨h0, fun _ => by linarith, by simp⟩) hS d hd f (fun x => L * x) hr hf
    ⟨fun x y hxy => by
      have := hL y x
      rw [abs_of_nonneg (by linarith : 0 ≤ y - x)] at this
      linarith, fun x => by ring⟩ _
    (continuous_integrable (f := fun z : ℝ × ℝ => f (z.2 - (z.1 - t₀))) (by fun_prop) _ _ _ _)
    (fun dx => (d.b - d.a) * (L * (dx + Real.sqrt ((S - t₀) * dx) + dx))) ?_ ?_
  · have : Continuous fun dx => (d.b - d.a) * (L * (dx + Real.sqrt ((S - t₀) * dx) + dx)) := by fun_prop
    have h0 := this.tendsto 0
    simpa using h0
  · intro n hn mesh hmesh bc hbc steps dt hsteps hdt hdt' hsum
    have hn0 : (0 : ℝ) < n := by exact_mod_cast hn
    have hdx : 0 < (d.b - d.a) / n := div_pos hP0 hn0
    have hst : ∀ τ ∈ steps, 0 ≤ τ ∧ τ ≤ (d.b - d.a) / n := fun τ h => ⟨(hsteps τ h).1, by simpa using (hsteps τ h).2⟩
    have hs0 : 0 ≤ steps.sum := List.sum_nonneg fun x hx => (hst x hx).1
    have key := fun τ => C103_lipschitz midpoint_rule hd hn hmesh none none none bc hbc (forwardEuler ℝ) (Or.inl rfl) steps hst
      f hf L hL t₀ τ
    obtain ⟨s', a1, a2, -⟩ := key 0
    refine ⟨s', fun _ => L * ((d.b - d.a) / n + Real.sqrt ((S - t₀) * ((d.b - d.a) / n)) + (d.b - d.a) / n), a1, a2,
      fun i t x h1 h2 h3 h4 => ?_, ?_⟩
    · obtain ⟨s'', b1, -, b3⟩ := key (t - t₀)
      have : Except.ok s' = (Except.ok s'' : Except Py.Error _) := a1.symm.trans b1
      obtain rfl : s' = s'' := by simpa using this
      have hc : InCell d n i x := by
        unfold InCell Mesh.node
        push_cast
        constructor
        · refine le_trans (le_of_eq ?_) h3.le
          ring
        · refine h4.trans (le_of_eq ?_)
          ring
      refine (b3 i x hc).trans (mul_le_mul_of_nonneg_left ?_ hL0)
      have c1 : |steps.sum - (t - t₀)| ≤ (d.b - d.a) / n := by
        rw [a2] at h1 h2
        rw [abs_le]
        constructor <;> linarith
      have c2 : Real.sqrt (steps.sum * ((d.b - d.a) / n)) ≤ Real.sqrt ((S - t₀) * ((d.b - d.a) / n)) :=
        Real.sqrt_le_sqrt (mul_le_mul_of_nonneg_right (by linarith) hdx.le)
      linarith
    · rw [Finset.sum_const, Finset.card_univ, Fintype.card_fin, nsmul_eq_mul]
      refine le_of_eq ?_
      have : (n : ℝ) ≠ 0 := hn0.ne'
      field_simp

/-- C132.  The exact solutions of the benchmarks for Burgers' equation, given by characteristics before the first shock,
are entropy solutions. -/
theorem C132_characteristics (m M L B c S t₀ : ℝ) (hS : 0 ≤ S) (d : Interval ℝ) (hd : d.a < d.b) (f f' : ℝ → ℝ)
    (hf : BeforeShock (d.b - d.a) m M L B c S f f') (v : ℝ → ℝ → ℝ) (hv : Characteristics f S v) :
    EntropySolution Problem.burgers.flux d.a (d.b - d.a) t₀ (t₀ + S) (fun z => v (z.1 - t₀) z.2) f := by
  have hP0 : 0 < d.b - d.a := by linarith
  have wv := hf.wave hv
  have hL' := wv.L_nonneg hS
  have hM : 0 < M := hf.pos.trans_le ((hf.range 0).1.trans (hf.range 0).2)
  set L' := L / c with hLd
  set C := (L' + 2 * (2 * L' ^ 2 + M * (B / c ^ 3)) * S) with hC
  have hv0 : v 0 = f := by
    funext x
    have := hv 0 le_rfl hS x
    simpa using this
  have lip : ∀ x y, |f x - f y| ≤ L' * |x - y| := fun x y => by
    have := wv.lip 0 le_rfl hS x y
    rwa [hv0] at this
  have timelip : ∀ s t, 0 ≤ s → s ≤ t → t ≤ S → ∀ x, |v t x - v s x| ≤ L' * M * (t - s) := by
    intro s t h0 h1 h2 x
    have := wv.time_lip (t := s) (τ := t - s) h0 (by linarith) (by linarith) x
    rwa [show s + (t - s) = t by ring] at this
  have hB0 : 0 ≤ B / c ^ 3 := by
    have h1 := (abs_nonneg _).trans (hf.smooth 1 0)
    have : 0 ≤ B := by simpa using h1
    have := hf.cpos
    positivity
  have hcont : ContinuousOn (fun z : ℝ × ℝ => v (z.1 - t₀) z.2) (Icc t₀ (t₀ + S) ×ˢ Icc d.a d.b) := by
    have near : ∀ z ∈ Icc t₀ (t₀ + S) ×ˢ Icc d.a d.b, ∀ y ∈ Icc t₀ (t₀ + S) ×ˢ Icc d.a d.b,
        dist (v (z.1 - t₀) z.2) (v (y.1 - t₀) y.2) ≤ (L' * M + L') * dist z y := by
      rintro z ⟨⟨z1, z2⟩, -⟩ y ⟨⟨y1, y2⟩, -⟩
      have a1 : |v (z.1 - t₀) z.2 - v (y.1 - t₀) z.2| ≤ L' * M * |z.1 - y.1| := by
        rcases le_total y.1 z.1 with h | h
        · have := timelip (y.1 - t₀) (z.1 - t₀) (by linarith) (by linarith) (by linarith) z.2
          rw [abs_of_nonneg (by linarith : 0 ≤ z.1 - y.1)]
          refine this.trans (le_of_eq ?_)
          ring
        · have := timelip (z.1 - t₀) (y.1 - t₀) (by linarith) (by linarith) (by linarith) z.2
          rw [abs_sub_comm, abs_of_nonpos (by linarith : z.1 - y.1 ≤ 0)]
          refine this.trans (le_of_eq ?_)
          ring
      have a2 := wv.lip (y.1 - t₀) (by linarith) (by linarith) z.2 y.2
      have d1 : |z.1 - y.1| ≤ dist z y := by rw [Prod.dist_eq, ← Real.dist_eq]; exact le_max_left _ _
      have d2 : |z.2 - y.2| ≤ dist z y := by rw [Prod.dist_eq, ← Real.dist_eq]; exact le_max_right _ _
      rw [Real.dist_eq]
      refine (abs_sub_le _ (v (y.1 - t₀) z.2) _).trans ?_
      have e1 := mul_le_mul_of_nonneg_left d1 (mul_nonneg hL' hM.le)
      have e2 := mul_le_mul_of_nonneg_left d2 hL'
      rw [add_mul]
      exact add_le_add (a1.trans e1) (a2.trans e2)
    have : LipschitzOnWith (Real.toNNReal (L' * M + L')) (fun z : ℝ × ℝ => v (z.1 - t₀) z.2)
        (Icc t₀ (t₀ + S) ×ˢ Icc d.a d.b) := LipschitzOnWith.of_dist_le_mul fun z hz y hy => by
      rw [Real.coe_toNNReal _ (by positivity)]
      exact near z hz y hy
    exact this.continuousOn
  refine near_runs .burgers m M (L' * (d.b - d.a)) t₀ (t₀ + S) (2 * M) (fun _ => hf.pos) (by linarith)
    (fun dx dt h0 h1 => ⟨h0, by simp, fun _ => ⟨hf.pos, by linarith⟩⟩) (by linarith) d hd f (fun x => L' * x) hf.range
    hf.period ⟨fun x y hxy => by
      have := lip y x
      rw [abs_of_nonneg (by linarith : 0 ≤ y - x)] at this
      linarith, fun x => by ring⟩ _
    ((hcont.integrableOn_compact (isCompact_Icc.prod isCompact_Icc)).mono_set (cell_subset _ _ _ _))
    (fun dx => (d.b - d.a) * (C * dx) + (d.b - d.a) * (L' * dx + L' * dx)) ?_ ?_
  · have : Continuous fun dx => (d.b - d.a) * (C * dx) + (d.b - d.a) * (L' * dx + L' * dx) := by fun_prop
    have h0 := this.tendsto 0
    simpa using h0
  · intro n hn mesh hmesh bc hbc steps dt hsteps hdt hdt' hsum
    have hn0 : (0 : ℝ) < n := by exact_mod_cast hn
    have hdx : 0 < (d.b - d.a) / n := div_pos hP0 hn0
    have hs0 : 0 ≤ steps.sum := List.sum_nonneg fun x hx => (hsteps x hx).1
    obtain ⟨s', a1, a2, -, a4⟩ := C110_convergence midpoint_rule hd hn hf hv hmesh none none none bc hbc (forwardEuler ℝ)
      (Or.inl rfl) steps (fun τ h => ⟨(hsteps τ h).1, by linarith [(hsteps τ h).2]⟩) (by linarith) t₀
    have hin : ∀ (i : Fin n) (x : ℝ), d.a + i * ((d.b - d.a) / n) ≤ x → x ≤ d.a + (i + 1) * ((d.b - d.a) / n) →
        InCell d n i x := by
      intro i x h3 h4
      unfold InCell Mesh.node
      push_cast
      constructor
      · refine le_trans (le_of_eq ?_) h3
        ring
      · refine h4.trans (le_of_eq ?_)
        ring
    refine ⟨s', fun i => |s'.solution i - v steps.sum (d.a + i * ((d.b - d.a) / n))| +
      (L' * ((d.b - d.a) / n) + L' * ((d.b - d.a) / n)), a1, a2, fun i t x h1 h2 h3 h4 => ?_, ?_⟩
    · rw [a2] at h1 h2
      have e1 := wv.lip steps.sum hs0 (by linarith) (d.a + i * ((d.b - d.a) / n)) x
      have e2 := timelip steps.sum (t - t₀) hs0 (by linarith) (by linarith) x
      have e3 : L' * |d.a + i * ((d.b - d.a) / n) - x| ≤ L' * ((d.b - d.a) / n) := by
        refine mul_le_mul_of_nonneg_left ?_ hL'
        rw [abs_le]
        constructor <;> linarith
      have e4 : L' * M * (t - t₀ - steps.sum) ≤ L' * ((d.b - d.a) / n) := by
        rw [mul_assoc]
        refine mul_le_mul_of_nonneg_left ?_ hL'
        have f1 : M * (t - t₀ - steps.sum) ≤ M * dt := mul_le_mul_of_nonneg_left (by linarith) hM.le
        have f2 : 0 ≤ M * dt := mul_nonneg hM.le hdt
        linarith
      have e5 : s'.solution i - v (t - t₀) x = (s'.solution i - v steps.sum (d.a + i * ((d.b - d.a) / n))) +
          (v steps.sum (d.a + i * ((d.b - d.a) / n)) - v steps.sum x) - (v (t - t₀) x - v steps.sum x) := by ring
      show |s'.solution i - v (t - t₀) x| ≤ _
      rw [e5]
      refine (abs_sub _ _).trans ?_
      have e6 := abs_add_le (s'.solution i - v steps.sum (d.a + i * ((d.b - d.a) / n)))
        (v steps.sum (d.a + i * ((d.b - d.a) / n)) - v steps.sum x)
      linarith
    · have k := a4 (fun i => d.a + i * ((d.b - d.a) / n)) fun i => hin i _ le_rfl (by linarith)
      simp only [add_mul, Finset.sum_add_distrib]
      rw [Finset.sum_const, Finset.card_univ, Fintype.card_fin, nsmul_eq_mul, ← Finset.sum_mul]
      have hPn : (n : ℝ) * ((d.b - d.a) / n) = d.b - d.a := by field_simp
      have k2 : (d.b - d.a) * ((L' + 2 * (2 * L' ^ 2 + M * (B / c ^ 3)) * steps.sum) * ((d.b - d.a) / n)) ≤
          (d.b - d.a) * (C * ((d.b - d.a) / n)) := by
        refine mul_le_mul_of_nonneg_left (mul_le_mul_of_nonneg_right ?_ hdx.le) hP0.le
        rw [hC]
        have : 0 ≤ 2 * (2 * L' ^ 2 + M * (B / c ^ 3)) := by positivity
        have := mul_le_mul_of_nonneg_left (show steps.sum ≤ S by linarith) this
        linarith
      have k3 := k.trans k2
      generalize (d.b - d.a) / n = dx at *
      have e : (n : ℝ) * (L' * dx * dx) + n * (L' * dx * dx) = (n * dx) * (L' * dx + L' * dx) := by ring
      rw [e, hPn, mul_comm _ dx]
      linarith

/-- A test function for every final time, with period one. -/
theorem example_test (S : ℝ) : Test 1 S (2 * Real.pi) (4 * Real.pi ^ 2)
    (fun t x => Real.sin (t - S) ^ 2 * (2 + Real.sin (2 * Real.pi * x)))
    (fun t x => 2 * Real.sin (t - S) * Real.cos (t - S) * (2 + Real.sin (2 * Real.pi * x)))
    (fun t x => Real.sin (t - S) ^ 2 * (2 * Real.pi * Real.cos (2 * Real.pi * x))) where
  nonneg t _ x := mul_nonneg (sq_nonneg _) (by linarith [Real.neg_one_le_sin (2 * Real.pi * x)])
  final x := by simp
  periodic t x := by rw [show 2 * Real.pi * (x + 1) = 2 * Real.pi * x + 2 * Real.pi by ring, Real.sin_add_two_pi]
  time t x := by
    have h := ((((hasDerivAt_id t).sub_const S).sin).pow 2).mul_const (2 + Real.sin (2 * Real.pi * x))
    refine h.congr_deriv ?_
    simp
  space t x := by
    have h := ((((hasDerivAt_id x).const_mul (2 * Real.pi)).sin).const_add 2).const_mul (Real.sin (t - S) ^ 2)
    refine h.congr_deriv ?_
    simp only [id]
    ring
  continuous := by fun_prop
  slope t x := by
    rw [abs_mul, abs_mul, abs_of_nonneg (sq_nonneg _), abs_of_pos Real.two_pi_pos]
    have h1 := Real.abs_cos_le_one (2 * Real.pi * x)
    have h2 := Real.sin_sq_le_one (t - S)
    have h3 := Real.two_pi_pos
    have h4 : 2 * Real.pi * |Real.cos (2 * Real.pi * x)| ≤ 2 * Real.pi := mul_le_of_le_one_right h3.le h1
    calc _ ≤ 1 * (2 * Real.pi) := mul_le_mul h2 h4 (by positivity) (by norm_num)
      _ = _ := one_mul _
  lipschitz t s x y := by
    have lipsin : ∀ a b : ℝ, |Real.sin a - Real.sin b| ≤ |a - b| := fun a b => by
      have := Convex.norm_image_sub_le_of_norm_hasDerivWithin_le (f := Real.sin) (f' := Real.cos)
        (s := Set.univ) (C := 1) (fun z _ => (Real.hasDerivAt_sin z).hasDerivWithinAt)
        (fun z _ => by simpa using Real.abs_cos_le_one z) convex_univ (Set.mem_univ b) (Set.mem_univ a)
      simpa using this
    have lipcos : ∀ a b : ℝ, |Real.cos a - Real.cos b| ≤ |a - b| := fun a b => by
      have := Convex.norm_image_sub_le_of_norm_hasDerivWithin_le (f := Real.cos) (f' := fun z => -Real.sin z)
        (s := Set.univ) (C := 1) (fun z _ => (Real.hasDerivAt_cos z).hasDerivWithinAt)
        (fun z _ => by simpa using Real.abs_sin_le_one z) convex_univ (Set.mem_univ b) (Set.mem_univ a)
      simpa using this
    have hpi := Real.two_le_pi
    have h1 : |Real.sin (t - S) ^ 2 - Real.sin (s - S) ^ 2| ≤ 2 * |t - s| := by
      have e : Real.sin (t - S) ^ 2 - Real.sin (s - S) ^ 2 =
          (Real.sin (t - S) + Real.sin (s - S)) * (Real.sin (t - S) - Real.sin (s - S)) := by ring
      rw [e, abs_mul]
      have a1 : |Real.sin (t - S) + Real.sin (s - S)| ≤ 2 := (abs_add_le _ _).trans (by
        linarith [Real.abs_sin_le_one (t - S), Real.abs_sin_le_one (s - S)])
      have a2 := lipsin (t - S) (s - S)
      rw [sub_sub_sub_cancel_right] at a2
      exact mul_le_mul a1 a2 (abs_nonneg _) (by norm_num)
    have h2 : |Real.cos (2 * Real.pi * x) - Real.cos (2 * Real.pi * y)| ≤ 2 * Real.pi * |x - y| := by
      refine (lipcos _ _).trans (le_of_eq ?_)
      rw [← mul_sub, abs_mul, abs_of_pos Real.two_pi_pos]
    have h3 := Real.abs_cos_le_one (2 * Real.pi * x)
    have h4 : |Real.sin (s - S) ^ 2| ≤ 1 := by
      rw [abs_of_nonneg (sq_nonneg _)]
      exact Real.sin_sq_le_one _
    have e : Real.sin (t - S) ^ 2 * (2 * Real.pi * Real.cos (2 * Real.pi * x)) -
        Real.sin (s - S) ^ 2 * (2 * Real.pi * Real.cos (2 * Real.pi * y)) =
        2 * Real.pi * ((Real.sin (t - S) ^ 2 - Real.sin (s - S) ^ 2) * Real.cos (2 * Real.pi * x) +
          Real.sin (s - S) ^ 2 * (Real.cos (2 * Real.pi * x) - Real.cos (2 * Real.pi * y))) := by ring
    rw [e, abs_mul, abs_of_pos Real.two_pi_pos]
    have h5 : |(Real.sin (t - S) ^ 2 - Real.sin (s - S) ^ 2) * Real.cos (2 * Real.pi * x) +
          Real.sin (s - S) ^ 2 * (Real.cos (2 * Real.pi * x) - Real.cos (2 * Real.pi * y))| ≤
        2 * |t - s| * 1 + 1 * (2 * Real.pi * |x - y|) := by
      refine (abs_add_le _ _).trans ?_
      rw [abs_mul, abs_mul]
      exact add_le_add (mul_le_mul h1 h3 (abs_nonneg _) (by positivity)) (mul_le_mul h4 h2 (abs_nonneg _) (by norm_num))
    have h6 : 2 * |t - s| * 1 + 1 * (2 * Real.pi * |x - y|) ≤ 2 * Real.pi * (|t - s| + |x - y|) := by
      have := mul_le_mul_of_nonneg_right (show (1 : ℝ) ≤ Real.pi by linarith) (abs_nonneg (t - s))
      linarith
    calc _ ≤ 2 * Real.pi * (2 * Real.pi * (|t - s| + |x - y|)) :=
          mul_le_mul_of_nonneg_left (h5.trans h6) Real.two_pi_pos.le
      _ = _ := by ring

/-- The inequality for two steps of Burgers' equation on four cells with the values 1, 2, 3, 2, for the entropy
`|u - 2|`. -/
example (bc : BC ℝ ℝ) (hbc : build none ["periodic"] 1 none none = .ok bc) :
    ∃ u u0, Computed (ssp3 ℝ) (vecRhs 4 (rhs (laxFriedrichs Problem.burgers.riemann) (1 / 4) bc))
        (Solver.init ![1, 2, 3, 2] 0) [1 / 24, 1 / 30] 0 (1 / 4) u u0 ∧
      -(3 / 40 * (2 * (2 * Real.pi) * 3 * 4 * (1 / 4) + 5 / 2 * (4 * Real.pi ^ 2) * (2 * (1 / 24) + 3 * (1 / 4)))) ≤
        weakForm Problem.burgers.flux 2 0 1 0 (3 / 40) u u0
          (fun t x => Real.sin (t - 3 / 40) ^ 2 * (2 + Real.sin (2 * Real.pi * x)))
          (fun t x => 2 * Real.sin (t - 3 / 40) * Real.cos (t - 3 / 40) * (2 + Real.sin (2 * Real.pi * x)))
          (fun t x => Real.sin (t - 3 / 40) ^ 2 * (2 * Real.pi * Real.cos (2 * Real.pi * x))) := by
  obtain ⟨s, es⟩ : ∃ s : Solver ℝ (Fin 4 → ℝ), s = Solver.init ![1, 2, 3, 2] 0 := ⟨_, rfl⟩
  rw [← es]
  have hsteps : ∀ dt ∈ ([1 / 24, 1 / 30] : List ℝ), Monotonic .burgers 1 3 (1 / 4) dt ∧ dt ≤ 1 / 24 := by
    intro dt h
    simp only [List.mem_cons, List.not_mem_nil, or_false] at h
    rcases h with rfl | rfl <;> norm_num [Monotonic]
  have hs : ∀ i, (1 : ℝ) ≤ s.solution i ∧ s.solution i ≤ 3 := by
    intro i
    rw [es]
    fin_cases i <;> norm_num [Solver.init]
  have ht : s.time = 0 := by rw [es]; rfl
  obtain ⟨u, u0, hu⟩ := C132_exists .burgers 4 (by norm_num) none none none bc hbc 0 (1 / 4) (by norm_num) 1 3 (fun _ => by norm_num) (ssp3 ℝ)
    (Or.inr (Or.inr rfl)) [1 / 24, 1 / 30] (fun dt h => (hsteps dt h).1) s hs
  have hsum : ([1 / 24, 1 / 30] : List ℝ).sum = 3 / 40 := by norm_num
  have hp : ((4 : ℕ) : ℝ) * (1 / 4) = 1 := by norm_num
  have := C132_entropy .burgers 4 (by norm_num) none none none bc hbc 0 (1 / 4) (by norm_num) 1 3 (by norm_num) (ssp3 ℝ)
    (Or.inr (Or.inr rfl)) [1 / 24, 1 / 30] (1 / 24) hsteps s hs u u0 hu 2 (5 / 2)
    (fun v h1 h2 => by
      simp only [Problem.flux]
      rw [abs_le]
      constructor <;> nlinarith) (2 * Real.pi) (4 * Real.pi ^ 2) _ _ _
    (by rw [hsum, ht, zero_add, hp]; exact example_test (3 / 40))
  refine ⟨u, u0, hu, ?_⟩
  have hv : cyclicVariation (List.ofFn s.solution) = 4 := by
    rw [es]
    norm_num [Solver.init, cyclicVariation, variation, List.ofFn_succ]
  rw [hv, hsum, ht, zero_add, hp] at this
  simp only [Problem.fluxPrime, one_mul] at this
  exact this

/-- `2 + sin` on `[0, 2 π]`, up to time 1/2. -/
example : ∃ v, Characteristics (fun x => 2 + Real.sin x) (1 / 2) v ∧
    EntropySolution Problem.burgers.flux 0 (2 * Real.pi - 0) 0 (0 + 1 / 2) (fun z => v (z.1 - 0) z.2)
      fun x => 2 + Real.sin x := by
  obtain ⟨⟨v, hv⟩, -⟩ := C110_exact example_data
  exact ⟨v, hv, C132_characteristics 1 3 1 1 (1 / 2) (1 / 2) 0 (by norm_num) ⟨0, 2 * Real.pi⟩ (by simp [Real.pi_pos]) _ _
    example_data v hv⟩

end Verif.EntropyLimit
