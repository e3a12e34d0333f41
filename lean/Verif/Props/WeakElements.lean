import Verif.Props.ElementPieces
import Verif.Props.ShockSpeed
import Verif.Props.ElementConvergence

/-!
C140.  If the finite element functions with linear elements that are computed on finer and finer meshes converge, their limit
is a weak solution, and its shocks have the right speed, for the solvers of `finite_element/scalar/solver` on periodic
domains and the time stepping of `core/ode_solver.py`.
-/

set_option linter.unusedSectionVars false

namespace Verif.WeakLimit

open Verif.Py Verif.Scalar Verif.ODE Verif.Convergence Verif.Weak Verif.EntropyLimit
open Verif.Interpolate Verif.Quadrature
open Verif.Mesh hiding Error
open MeasureTheory Set Filter Topology

/-! ### Specification -/

/-- `u` is the finite element function that the time stepping computes from the system of one mesh, with the elements of
the space `space`: from time `t₀` to `S`, with steps of at most `c` times the mesh width, all values at the nodes being in
`D`, those of the stages as well.  Between two times it is the function at the first of them.  `u0` is the function at the
beginning. -/
def ElementsWithin {n : ℕ} (T : Tableau ℝ) (sys : ℝ → (Fin n → ℝ) → Except Py.Error (Fin n → ℝ)) (space : FE.Space ℝ)
    (D : Set ℝ) (c a dx t₀ S : ℝ) (u : ℝ × ℝ → ℝ) (u0 : ℝ → ℝ) : Prop :=
  ∃ (s : Solver ℝ (Fin n → ℝ)) (steps : List ℝ), s.time = t₀ ∧ t₀ + steps.sum = S ∧
    (∀ dt ∈ steps, 0 ≤ dt ∧ dt ≤ c * dx) ∧ (∀ i, s.solution i ∈ D) ∧
    (∀ j < steps.length, ∃ s', s.runE T sys (steps.take (j + 1)) = .ok s' ∧ (∀ i, s'.solution i ∈ D) ∧
      ∀ v ∈ s'.stageValues, ∀ i, v i ∈ D) ∧
    (∀ (i : Fin n) (x : ℝ), a + i * dx < x → x ≤ a + (i + 1) * dx →
      space.value (List.ofFn s.solution) i x = .ok (u0 x)) ∧
    ∀ j (hj : j < steps.length), ∃ s', s.runE T sys (steps.take j) = .ok s' ∧
      ∀ (i : Fin n) (t x : ℝ), s'.time < t → t ≤ s'.time + steps[j] → a + i * dx < x → x ≤ a + (i + 1) * dx →
        space.value (List.ofFn s'.solution) i x = .ok (u (t, x))

/-- `rhs` is the right-hand side of one of the solvers of `finite_element/scalar/solver` for linear elements on `n` cells
of the interval `d`: the low order solver (`cg_low.py` 31-60), the one with monolithic convex limiting (`mcl.py` 12-100), or
the Galerkin method (`cg.py` 9-42), the latter with either way of computing the flux. -/
def ElementSolver (p : Problem) (d : Interval ℝ) (n : ℕ) (space : FE.Space ℝ)
    (rhs : List ℝ → Except Py.Error (List ℝ)) : Prop :=
  (∃ gauss m C, FE.Setup gauss d n 1 space m C ∧ rhs = FE.lowRhs p m C) ∨
  (∃ gauss m M C nb, FE.MCLSetup gauss d n 1 space m M C nb ∧ rhs = FE.mclRhs space.map p m M C nb) ∨
  ∃ gauss m C M solve exact, FE.Setup gauss d n 1 space m C ∧ FE.Solves solve ∧ FE.massMatrix gauss space = .ok M ∧
    rhs = FE.cgRhs solve gauss space M C p exact

/-! ### Helper lemmas: the values at the nodes -/

/-- The piecewise constant functions with the values at the nodes are those of a run. -/
theorem nodal {n : ℕ} {T : Tableau ℝ} {sys : ℝ → (Fin n → ℝ) → Except Py.Error (Fin n → ℝ)} {space : FE.Space ℝ}
    {D : Set ℝ} {c t₀ S : ℝ} {d : Interval ℝ} (hd : d.a < d.b) (hn : 0 < n) (hcells : space.cells.length = n)
    (hval : ∀ v : Fin n → ℝ, FE.Values space (List.ofFn v) (FE.linearValue d n v)) {u : ℝ × ℝ → ℝ} {u0 : ℝ → ℝ}
    (h : ElementsWithin T sys space D c d.a ((d.b - d.a) / n) t₀ S u u0) :
    ∃ (v : ℝ × ℝ → ℝ) (v0 : ℝ → ℝ) (steps : List ℝ) (states : ℕ → Fin n → ℝ),
      RunWithin T sys D c d.a ((d.b - d.a) / n) t₀ S v v0 ∧ (∀ dt ∈ steps, 0 ≤ dt ∧ dt ≤ c * ((d.b - d.a) / n)) ∧
      t₀ + steps.sum = S ∧ GridValues D ((d.b - d.a) / n) d.a t₀ n steps states v v0 ∧
      (∀ j < steps.length, ∀ i : Fin n, ∀ z ∈ cell (after t₀ steps j) (after t₀ steps (j + 1))
        (nodeAt d.a ((d.b - d.a) / n) i) (nodeAt d.a ((d.b - d.a) / n) (i + 1)), u z = FE.linearValue d n (states j) i z.2) ∧
      ∀ i : Fin n, ∀ x ∈ Ioc (nodeAt d.a ((d.b - d.a) / n) i) (nodeAt d.a ((d.b - d.a) / n) (i + 1)),
        u0 x = FE.linearValue d n (states 0) i x := by
  obtain ⟨s, steps, ht, hS, hdt, h0, hrun, hu0, hu⟩ := h
  set dx := (d.b - d.a) / n with hdx'
  have hdx : 0 < dx := div_pos (by linarith) (by exact_mod_cast hn)
  have value : ∀ (q : Fin n → ℝ) (i : Fin n) (x y : ℝ), space.value (List.ofFn q) i x = .ok y →
      y = FE.linearValue d n q i x := by
    intro q i x y hy
    have := (hval q).2 i (by rw [hcells]; exact i.2) x
    rw [hy] at this
    simpa using this
  have all : ∀ j, ∃ s' : Solver ℝ (Fin n → ℝ), j ≤ steps.length → s.runE T sys (steps.take j) = .ok s' ∧
      (∀ i, s'.solution i ∈ D) := by
    intro j
    cases j with
    | zero => exact ⟨s, fun _ => ⟨by simp [Solver.runE], h0⟩⟩
    | succ j =>
      by_cases hj : j < steps.length
      · obtain ⟨s', h1, h2, -⟩ := hrun j hj
        exact ⟨s', fun _ => ⟨h1, h2⟩⟩
      · exact ⟨s, fun h => absurd h (by omega)⟩
  choose sv hsv using all
  have time : ∀ j ≤ steps.length, (sv j).time = after t₀ steps j := fun j hj => by
    rw [Verif.Solver.runE_time T sys s (sv j) _ (hsv j hj).1, ht]; rfl
  have first : (sv 0).solution = s.solution := by
    have e := (hsv 0 (Nat.zero_le _)).1
    simp only [List.take_zero, Solver.runE] at e
    rw [Except.ok.inj e]
  have hta := after_mono t₀ steps fun dt h => (hdt dt h).1
  have hx := nodeAt_mono d.a _ hdx.le
  classical
  have hv : ∀ (v : Fin n → ℝ) (i : Fin n) (x : ℝ), nodeAt d.a dx i < x → x ≤ nodeAt d.a dx (i + 1) →
      (if h : ∃ i : Fin n, nodeAt d.a dx i < x ∧ x ≤ nodeAt d.a dx (i + 1) then v h.choose else 0) = v i := by
    intro v i x b1 b2
    have h : ∃ i : Fin n, nodeAt d.a dx i < x ∧ x ≤ nodeAt d.a dx (i + 1) := ⟨i, b1, b2⟩
    rw [dif_pos h]
    congr 1
    exact Fin.ext (interval_unique _ hx x h.choose_spec ⟨b1, b2⟩)
  set v : ℝ × ℝ → ℝ := fun z => if h : ∃ j, after t₀ steps j < z.1 ∧ z.1 ≤ after t₀ steps (j + 1) then
      (if h' : ∃ i : Fin n, nodeAt d.a dx i < z.2 ∧ z.2 ≤ nodeAt d.a dx (i + 1) then (sv h.choose).solution h'.choose else 0)
      else 0 with hvd
  set v0 : ℝ → ℝ := fun x => if h : ∃ i : Fin n, nodeAt d.a dx i < x ∧ x ≤ nodeAt d.a dx (i + 1) then s.solution h.choose
      else 0 with hv0d
  have later : ∀ j < steps.length, ∀ i : Fin n, ∀ z ∈ cell (after t₀ steps j) (after t₀ steps (j + 1)) (nodeAt d.a dx i)
      (nodeAt d.a dx (i + 1)), v z = (sv j).solution i := by
    rintro j hj i z ⟨⟨z1, z2⟩, z3, z4⟩
    have h : ∃ j, after t₀ steps j < z.1 ∧ z.1 ≤ after t₀ steps (j + 1) := ⟨j, z1, z2⟩
    simp only [hvd]
    rw [dif_pos h, hv (sv h.choose).solution i z.2 z3 z4, interval_unique _ hta z.1 h.choose_spec ⟨z1, z2⟩]
  have initial : ∀ i : Fin n, ∀ x ∈ Ioc (nodeAt d.a dx i) (nodeAt d.a dx (i + 1)), v0 x = s.solution i :=
    fun i x hx => hv s.solution i x hx.1 hx.2
  have same : ∀ j (hj : j ≤ steps.length) s', s.runE T sys (steps.take j) = .ok s' → s' = sv j := by
    intro j hj s' e
    have := (hsv j hj).1
    rw [e] at this
    exact Except.ok.inj this
  refine ⟨v, v0, steps, fun j => (sv j).solution, ⟨s, steps, ht, hS, hdt, h0, hrun, ?_, ?_⟩, hdt, hS,
    ⟨fun j hj i => (hsv j hj).2 i, fun i x hx => by rw [initial i x hx, first], later⟩, ?_, ?_⟩
  · exact fun i x b1 b2 => initial i x ⟨b1, by rw [nodeAt_succ]; exact b2⟩
  · intro j hj
    refine ⟨sv j, (hsv j hj.le).1, fun i t x b1 b2 b3 b4 => later j hj i (t, x) ⟨⟨?_, ?_⟩, b3, ?_⟩⟩
    · rw [← time j hj.le]; exact b1
    · rw [after_succ _ _ _ hj, ← time j hj.le]; exact b2
    · rw [nodeAt_succ]; exact b4
  · rintro j hj i z ⟨⟨z1, z2⟩, z3, z4⟩
    obtain ⟨s', h1, h2⟩ := hu j hj
    obtain rfl := same j hj.le s' h1
    rw [nodeAt_succ] at z4
    rw [after_succ _ _ _ hj] at z2
    exact value _ i z.2 _ (h2 i z.1 z.2 (by rw [time j hj.le]; exact z1) (by rw [time j hj.le]; exact z2) z3 z4)
  · intro i x hx
    have := hx.2
    rw [nodeAt_succ] at this
    beta_reduce
    rw [first]
    exact value _ i x _ (hu0 i x hx.1 this)

/-! ### Helper lemmas: convergence of the values at the nodes -/

theorem linear_cells (d : Interval ℝ) (hd : d.a < d.b) {n : ℕ} (hn : 0 < n) (q : Fin n → ℝ) (i : Fin n) (γ t₁ t₂ : ℝ)
    (ht : t₁ ≤ t₂) :
    ∫ _ in cell t₁ t₂ (nodeAt d.a ((d.b - d.a) / n) i) (nodeAt d.a ((d.b - d.a) / n) (i + 1)), |q i - γ| ≤
      4 * ∫ z in cell t₁ t₂ (nodeAt d.a ((d.b - d.a) / n) i) (nodeAt d.a ((d.b - d.a) / n) (i + 1)),
        |FE.linearValue d n q i z.2 - γ| := by
  have hdx : 0 < (d.b - d.a) / n := div_pos (by linarith) (by exact_mod_cast hn)
  have hx : nodeAt d.a ((d.b - d.a) / n) i ≤ nodeAt d.a ((d.b - d.a) / n) (i + 1) := nodeAt_mono _ _ hdx.le (Nat.le_succ _)
  have e : ∫ z in cell t₁ t₂ (nodeAt d.a ((d.b - d.a) / n) i) (nodeAt d.a ((d.b - d.a) / n) (i + 1)),
      |FE.linearValue d n q i z.2 - γ| = (t₂ - t₁) * ∫ x in Ioc (nodeAt d.a ((d.b - d.a) / n) i)
        (nodeAt d.a ((d.b - d.a) / n) (i + 1)), |FE.linearValue d n q i x - γ| := by
    have := setIntegral_prod_mul (μ := (volume : Measure ℝ)) (ν := (volume : Measure ℝ)) (fun _ : ℝ => (1 : ℝ))
      (fun x => |FE.linearValue d n q i x - γ|) (Ioc t₁ t₂) (Ioc (nodeAt d.a ((d.b - d.a) / n) i)
        (nodeAt d.a ((d.b - d.a) / n) (i + 1)))
    simp only [one_mul] at this
    rw [setIntegral_const, measureReal_def, Real.volume_Ioc, ENNReal.toReal_ofReal (by linarith), smul_eq_mul, mul_one] at this
    exact this
  rw [e, setIntegral_const, cell_real _ _ _ _ ht hx, smul_eq_mul]
  have h1 := mul_le_mul_of_nonneg_left (linear_cell d hd hn q i γ) (by linarith : 0 ≤ t₂ - t₁)
  have e2 : nodeAt d.a ((d.b - d.a) / n) (i + 1) - nodeAt d.a ((d.b - d.a) / n) i = (d.b - d.a) / n := by
    unfold nodeAt; push_cast; ring
  rw [e2]
  linarith

theorem linear_continuous (d : Interval ℝ) (n : ℕ) (q : Fin n → ℝ) (i : ℕ) : Continuous (FE.linearValue d n q i) := by
  unfold FE.linearValue FE.place
  fun_prop

theorem interval_sum (a dx : ℝ) (hdx : 0 ≤ dx) (n : ℕ) (φ : ℝ → ℝ) (hφ : IntegrableOn φ (Ioc a (a + n * dx))) :
    ∫ x in Ioc a (a + n * dx), φ x = ∑ i ∈ Finset.range n, ∫ x in Ioc (nodeAt a dx i) (nodeAt a dx (i + 1)), φ x := by
  have hx := nodeAt_mono a dx hdx
  have hsub : ∀ i < n, Ioc (nodeAt a dx i) (nodeAt a dx (i + 1)) ⊆ Ioc a (a + n * dx) := fun i hi =>
    Ioc_subset_Ioc ((nodeAt_zero a dx).symm.le.trans (hx (Nat.zero_le _))) (hx (by omega : i + 1 ≤ n))
  have := intervalIntegral.sum_integral_adjacent_intervals (f := φ) (μ := volume) (a := nodeAt a dx) (n := n) fun i hi => by
    rw [intervalIntegrable_iff_integrableOn_Ioc_of_le (hx (Nat.le_succ _))]
    exact hφ.mono_set (hsub i hi)
  rw [nodeAt_zero, show nodeAt a dx n = a + n * dx from rfl, intervalIntegral.integral_of_le (by
    have : (0 : ℝ) ≤ n * dx := by positivity
    linarith)] at this
  rw [← this]
  exact Finset.sum_congr rfl fun i _ => (intervalIntegral.integral_of_le (hx (Nat.le_succ _)))

theorem elements_limit (T : Tableau ℝ) (hT : ∑ l ∈ Finset.range T.size, T.b l = 1) (p : Problem) {C lo up c t₀ S : ℝ}
    (hC : 0 ≤ C) (hc : 0 ≤ c) (d : Interval ℝ) (hd : d.a < d.b) (n : ℕ → ℕ) (hn : ∀ r, 0 < n r)
    (hlim : Tendsto n atTop atTop) (space : ℕ → FE.Space ℝ) (hcells : ∀ r, (space r).cells.length = n r)
    (hval : ∀ r, ∀ v : Fin (n r) → ℝ, FE.Values (space r) (List.ofFn v) (FE.linearValue d (n r) v))
    (sys : (r : ℕ) → ℝ → (Fin (n r) → ℝ) → Except Py.Error (Fin (n r) → ℝ))
    (hF : ∀ r, FluxForm (sys r) ((d.b - d.a) / n r) p.flux (Icc lo up) C) (u : ℕ → ℝ × ℝ → ℝ) (u0 : ℕ → ℝ → ℝ)
    (h : ∀ r, ElementsWithin T (sys r) (space r) (Icc lo up) c d.a ((d.b - d.a) / n r) t₀ S (u r) (u0 r))
    (w : ℝ × ℝ → ℝ) (f : ℝ → ℝ) (hw : IntegrableOn w (Ioc t₀ S ×ˢ Ioc d.a d.b)) (hf : IntegrableOn f (Ioc d.a d.b))
    (hlimw : Tendsto (fun r => ∫ z in Ioc t₀ S ×ˢ Ioc d.a d.b, |u r z - w z|) atTop (𝓝 0))
    (hlimf : Tendsto (fun r => ∫ x in Ioc d.a d.b, |u0 r x - f x|) atTop (𝓝 0)) :
    WeakSolution (law p) d.a (d.b - d.a) t₀ S w f := by
  have hab : d.a + (d.b - d.a) = d.b := by ring
  choose v v0 steps states hrun hdt hsum hG hlater hinit using fun r => nodal hd (hn r) (hcells r) (hval r) (h r)
  have hdx : ∀ r, 0 < (d.b - d.a) / (n r : ℝ) := fun r => div_pos (by linarith) (by exact_mod_cast hn r)
  have hNP : ∀ r, d.a + (n r : ℝ) * ((d.b - d.a) / n r) = d.b := fun r => by
    have : (n r : ℝ) ≠ 0 := by exact_mod_cast (hn r).ne'
    field_simp
    ring
  have hmesh : Tendsto (fun r => (c + 1) * ((d.b - d.a) / (n r : ℝ))) atTop (𝓝 0) := by
    have := ((tendsto_const_nhds (x := d.b - d.a)).div_atTop (tendsto_natCast_atTop_atTop.comp hlim)).const_mul (c + 1)
    rw [mul_zero] at this
    exact this
  have hmono := fun r => after_mono t₀ (steps r) fun dt h => (hdt r dt h).1
  have hnode := fun r => nodeAt_mono d.a _ (hdx r).le
  have hfin : (volume : Measure (ℝ × ℝ)) (Ioc t₀ S ×ˢ Ioc d.a d.b) ≠ ⊤ :=
    ((isCompact_Icc.prod isCompact_Icc).measure_lt_top.trans_le' (measure_mono
      (prod_mono Ioc_subset_Icc_self Ioc_subset_Icc_self))).ne
  have hcell : ∀ r, cell (after t₀ (steps r) 0) (after t₀ (steps r) (steps r).length) (nodeAt d.a ((d.b - d.a) / n r) 0)
      (nodeAt d.a ((d.b - d.a) / n r) (n r)) = Ioc t₀ S ×ˢ Ioc d.a d.b := by
    intro r
    rw [after_zero, after_length, nodeAt_zero, hsum, show nodeAt d.a ((d.b - d.a) / n r) (n r) = d.b from hNP r]
    rfl
  -- the functions are integrable
  have hvi : ∀ r, IntegrableOn (v r) (Ioc t₀ S ×ˢ Ioc d.a d.b) := by
    intro r
    have := (hG r).integrable (fun y _ => y) (fun y => continuous_const)
    rwa [hsum, hNP] at this
  have hui : ∀ r, IntegrableOn (u r) (Ioc t₀ S ×ˢ Ioc d.a d.b) := by
    intro r
    rw [← hcell r]
    refine cover_integrable _ _ _ _ fun j hj i hi => ?_
    refine (continuous_integrable (f := fun z : ℝ × ℝ => FE.linearValue d (n r) (states r j) i z.2)
      ((linear_continuous d (n r) (states r j) i).comp continuous_snd) _ _ _ _).congr_fun (fun z hz => ?_)
      (cell_measurable _ _ _ _)
    exact (hlater r j hj ⟨i, hi⟩ z hz).symm
  have hv0i : ∀ r, IntegrableOn (v0 r) (Ioc d.a d.b) := by
    intro r
    have := (hG r).initial_integrable (fun y _ => y) (fun y => continuous_const)
    rwa [hNP] at this
  have hu0i : ∀ r, IntegrableOn (u0 r) (Ioc d.a d.b) := by
    intro r
    have hsub : Ioc d.a d.b ⊆ ⋃ i ∈ Finset.range (n r), Ioc (nodeAt d.a ((d.b - d.a) / n r) i)
        (nodeAt d.a ((d.b - d.a) / n r) (i + 1)) := by
      rintro x ⟨b1, b2⟩
      rw [← nodeAt_zero d.a ((d.b - d.a) / n r)] at b1
      rw [← hNP r] at b2
      obtain ⟨i, hi, d1, d2⟩ := interval_cover (nodeAt d.a ((d.b - d.a) / n r)) (n r) x b1 b2
      simp only [mem_iUnion, Finset.mem_range]
      exact ⟨i, hi, d1, d2⟩
    refine IntegrableOn.mono_set ?_ hsub
    rw [integrableOn_finset_iUnion]
    intro i hi
    rw [Finset.mem_range] at hi
    refine IntegrableOn.congr_fun ((linear_continuous d (n r) (states r 0) i).integrableOn_Ioc) (fun x hx => ?_)
      measurableSet_Ioc
    exact (hinit r ⟨i, hi⟩ x hx).symm
  have width : ∀ r (i : ℕ), nodeAt d.a ((d.b - d.a) / n r) (i + 1) = nodeAt d.a ((d.b - d.a) / n r) i + (d.b - d.a) / n r := by
    intro r i
    unfold nodeAt; push_cast; ring
  have near : ∀ r (i : ℕ) x, x ∈ Ioc (nodeAt d.a ((d.b - d.a) / n r) i) (nodeAt d.a ((d.b - d.a) / n r) (i + 1)) →
      dist x (nodeAt d.a ((d.b - d.a) / n r) i) ≤ (c + 1) * ((d.b - d.a) / n r) := by
    intro r i x hx
    rw [width] at hx
    have h0 := hdx r
    have h1 := mul_nonneg hc h0.le
    rw [Real.dist_eq, abs_of_pos (by linarith [hx.1])]
    linarith [hx.2]
  -- the limits
  have lim2 : Tendsto (fun r => ∫ z in Ioc t₀ S ×ˢ Ioc d.a d.b, |v r z - w z|) atTop (𝓝 0) := by
    refine pieces_limit (ι := ℕ × ℕ) _ hfin w hw ?_ u v hui hvi _ hmesh (fun r => ?_) hlimw
    · intro ε hε
      obtain ⟨g, hgs, hgκ, hgc, hgi⟩ := Integrable.exists_hasCompactSupport_integral_sub_le
        (μ := volume.restrict (Ioc t₀ S ×ˢ Ioc d.a d.b)) hw hε
      refine ⟨g, hgs.uniformContinuous_of_continuous hgc, hgi, ?_⟩
      refine le_of_eq_of_le (integral_congr_ae (Eventually.of_forall fun z => ?_)) hgκ
      exact abs_sub_comm _ _
    · refine ⟨Finset.range (steps r).length ×ˢ Finset.range (n r), fun k => cell (after t₀ (steps r) k.1)
        (after t₀ (steps r) (k.1 + 1)) (nodeAt d.a ((d.b - d.a) / n r) k.2) (nodeAt d.a ((d.b - d.a) / n r) (k.2 + 1)),
        fun k => (after t₀ (steps r) k.1, nodeAt d.a ((d.b - d.a) / n r) k.2), ?_, ?_, ?_, ?_⟩
      · rintro ⟨j, i⟩ hk
        rw [Finset.mem_product, Finset.mem_range, Finset.mem_range] at hk
        refine ⟨cell_measurable _ _ _ _, ?_⟩
        rw [← hcell r]
        exact prod_mono (Ioc_subset_Ioc (hmono r (Nat.zero_le _)) (hmono r hk.1))
          (Ioc_subset_Ioc (hnode r (Nat.zero_le _)) (hnode r hk.2))
      · intro φ hφ
        rw [← hcell r] at hφ ⊢
        rw [integral_grid _ _ _ _ (fun j _ => hmono r (Nat.le_succ j)) (fun i _ => hnode r (Nat.le_succ i)) hφ,
          Finset.sum_product]
      · rintro ⟨j, i⟩ hk z hz
        rw [Finset.mem_product, Finset.mem_range, Finset.mem_range] at hk
        refine max_le ?_ (near r i z.2 hz.2)
        have hz1 := hz.1
        have hst := hdt r _ (List.getElem_mem hk.1)
        simp only [after_succ _ _ _ hk.1] at hz1
        have h0 := hdx r
        change dist z.1 (after t₀ (steps r) j) ≤ _
        rw [Real.dist_eq, abs_of_pos (by linarith [hz1.1])]
        linarith [hz1.2, hst.2]
      · rintro ⟨j, i⟩ hk γ
        rw [Finset.mem_product, Finset.mem_range, Finset.mem_range] at hk
        have key := linear_cells d hd (hn r) (states r j) ⟨i, hk.2⟩ γ _ _ (hmono r (Nat.le_succ j))
        have e1 := setIntegral_congr_fun (μ := (volume : Measure (ℝ × ℝ))) (f := fun z => |v r z - γ|)
          (g := fun _ => |states r j ⟨i, hk.2⟩ - γ|) (cell_measurable (after t₀ (steps r) j)
          (after t₀ (steps r) (j + 1)) (nodeAt d.a ((d.b - d.a) / n r) i) (nodeAt d.a ((d.b - d.a) / n r) (i + 1)))
          fun z hz => by simp only; rw [(hG r).later j hk.1 ⟨i, hk.2⟩ z hz]
        have e2 := setIntegral_congr_fun (μ := (volume : Measure (ℝ × ℝ))) (f := fun z => |u r z - γ|)
          (g := fun z => |FE.linearValue d (n r) (states r j) i z.2 - γ|) (cell_measurable (after t₀ (steps r) j)
          (after t₀ (steps r) (j + 1)) (nodeAt d.a ((d.b - d.a) / n r) i) (nodeAt d.a ((d.b - d.a) / n r) (i + 1)))
          fun z hz => by simp only; rw [hlater r j hk.1 ⟨i, hk.2⟩ z hz]
        rw [e1, e2]
        exact key
  have lim1 : Tendsto (fun r => ∫ x in Ioc d.a d.b, |v0 r x - f x|) atTop (𝓝 0) := by
    refine pieces_limit (ι := ℕ) _ (by simp) f hf ?_ u0 v0 hu0i hv0i _ hmesh (fun r => ?_) hlimf
    · intro ε hε
      obtain ⟨g, hgs, hgκ, hgc, hgi⟩ := Integrable.exists_hasCompactSupport_integral_sub_le
        (μ := volume.restrict (Ioc d.a d.b)) hf hε
      refine ⟨g, hgs.uniformContinuous_of_continuous hgc, hgi, ?_⟩
      refine le_of_eq_of_le (integral_congr_ae (Eventually.of_forall fun z => ?_)) hgκ
      exact abs_sub_comm _ _
    · refine ⟨Finset.range (n r), fun i => Ioc (nodeAt d.a ((d.b - d.a) / n r) i) (nodeAt d.a ((d.b - d.a) / n r) (i + 1)),
        fun i => nodeAt d.a ((d.b - d.a) / n r) i, ?_, ?_, fun i _ x hx => near r i x hx, ?_⟩
      · intro i hi
        rw [Finset.mem_range] at hi
        refine ⟨measurableSet_Ioc, Ioc_subset_Ioc ?_ ?_⟩
        · exact (nodeAt_zero d.a ((d.b - d.a) / n r)).symm.le.trans (hnode r (Nat.zero_le _))
        · exact (hnode r (show i + 1 ≤ n r from hi)).trans (hNP r).le
      · intro φ hφ
        rw [← hNP r] at hφ
        have := interval_sum d.a _ (hdx r).le (n r) φ hφ
        rwa [hNP r] at this
      · intro i hi γ
        rw [Finset.mem_range] at hi
        have key := linear_cell d hd (hn r) (states r 0) ⟨i, hi⟩ γ
        have e1 := setIntegral_congr_fun (μ := (volume : Measure ℝ)) (f := fun x => |v0 r x - γ|)
          (g := fun _ => |states r 0 ⟨i, hi⟩ - γ|) (measurableSet_Ioc (a := nodeAt d.a ((d.b - d.a) / n r) i)
          (b := nodeAt d.a ((d.b - d.a) / n r) (i + 1)))
          fun x hx => by simp only; rw [(hG r).initial ⟨i, hi⟩ x hx]
        have e2 := setIntegral_congr_fun (μ := (volume : Measure ℝ)) (f := fun x => |u0 r x - γ|)
          (g := fun x => |FE.linearValue d (n r) (states r 0) i x - γ|) (measurableSet_Ioc
          (a := nodeAt d.a ((d.b - d.a) / n r) i) (b := nodeAt d.a ((d.b - d.a) / n r) (i + 1)))
          fun x hx => by simp only; rw [hinit r ⟨i, hi⟩ x hx]
        rw [e1, e2, setIntegral_const, measureReal_def, Real.volume_Ioc, width, add_sub_cancel_left,
          ENNReal.toReal_ofReal (hdx r).le, smul_eq_mul, ← width]
        exact key
  -- the theorem of Lax and Wendroff
  rw [law_eq]
  have hs := slopeBound_pos lo up
  have hb : ∀ y ∈ Icc lo up, |y| ≤ slopeBound lo up := fun y hy => by
    have := value_bound hy
    unfold slopeBound
    linarith
  refine weak_limit T hT (R := slopeBound lo up ^ 2) (R' := slopeBound lo up) hC hs.le (by positivity) hc (by linarith)
    (flux_measurable p) ?_ hb isClosed_Icc (fun y hy y' hy' => scalar_lipschitz p y hy y' hy') n hlim hn sys hF v v0 hrun w f
    (by rwa [hab]) (by rwa [hab]) (by simp only [hab]; exact lim2) (by simp only [hab]; exact lim1)
  intro y hy
  have h1 := hb y hy
  have h2 : 1 ≤ slopeBound lo up := by
    unfold slopeBound
    linarith [abs_nonneg lo, abs_nonneg up]
  have h3 : y ^ 2 ≤ slopeBound lo up ^ 2 := sq_le_sq.2 (by rwa [abs_of_pos hs])
  rw [Real.norm_eq_abs]
  cases p with
  | advection => simp only [Problem.flux]; nlinarith
  | burgers =>
    simp only [Problem.flux]
    rw [abs_of_nonneg (by positivity)]
    nlinarith

theorem solver_facts {p : Problem} {d : Interval ℝ} {n : ℕ} {space : FE.Space ℝ} {rhs : List ℝ → Except Py.Error (List ℝ)}
    (h : ElementSolver p d n space rhs) (h3 : 3 ≤ n) (lo up : ℝ) : d.a < d.b ∧ space.cells.length = n ∧
      (∀ v : Fin n → ℝ, FE.Values space (List.ofFn v) (FE.linearValue d n v)) ∧
      FluxForm (vecRhs n fun _ => rhs) ((d.b - d.a) / n) p.flux (Icc lo up) (5 * slopeBound lo up) := by
  have hs := slopeBound_pos lo up
  have weaken : ∀ {sys : ℝ → (Fin n → ℝ) → Except Py.Error (Fin n → ℝ)} {C C' : ℝ}, C ≤ C' →
      FluxForm sys ((d.b - d.a) / n) p.flux (Icc lo up) C → FluxForm sys ((d.b - d.a) / n) p.flux (Icc lo up) C' := by
    intro sys C C' hC hF t v w hv hw
    obtain ⟨H, h1, h2, h4⟩ := hF t v w hv hw
    exact ⟨H, h1, h2, h4.trans (mul_le_mul_of_nonneg_right hC (jumps_nonneg v))⟩
  rcases h with ⟨gauss, m, C, h, rfl⟩ | ⟨gauss, m, M, C, nb, h, rfl⟩ | ⟨gauss, m, C, M, solve, exact, h, h1, h2, rfl⟩
  · exact ⟨h.domain, (FE.setup_facts h).2.1, FE.linear_value h, weaken (by linarith) (low_form h h3 p lo up)⟩
  · exact ⟨h.domain, (FE.setup_facts h.toSetup).2.1, FE.linear_value h.toSetup, limited_form h h3 p lo up⟩
  · exact ⟨h.domain, (FE.setup_facts h).2.1, FE.linear_value h, weaken (by linarith) (galerkin_form h solve h1 M h2 p exact lo up)⟩

/-! ### Helper lemmas: entropy solutions with values of any sign -/

theorem nodes_within {p : Problem} {K B V t₀ S : ℝ} (hS : t₀ ≤ S) {d : Interval ℝ} (hd : d.a < d.b) {f G : ℝ → ℝ}
    (hfr : ∀ x, -K ≤ f x ∧ f x ≤ K) (hf : ∀ x, f (x + (d.b - d.a)) = f x) (hG : Majorant f G (d.b - d.a) V) (hB : 0 < B)
    (n : ℕ) (h3 : 3 ≤ n) : ∃ gauss s mass C u u0, FE.Setup gauss d n 1 s mass C ∧
      GridRun p.flux (elementTop p K) (-K) K V B d.a (d.b - d.a) t₀ S f G n u u0 ∧
      RunWithin (forwardEuler ℝ) (vecRhs n fun _ => FE.lowRhs p mass C) (Icc (-K) K) B d.a ((d.b - d.a) / n) t₀ S u u0 := by
  have hn : 0 < n := by omega
  have hdx : 0 < (d.b - d.a) / n := div_pos (by linarith) (by exact_mod_cast hn)
  obtain ⟨gauss, s, mass, C, h⟩ := FE.exists_setup d hd n 1 hn one_pos
  obtain ⟨steps, hsteps, hsum⟩ := steps_exist (p := p) hS hd hfr hB (by linarith [(hfr 0).1, (hfr 0).2]) n hn
  have hfix := element_fixed (T := forwardEuler ℝ) h h3 (Or.inl rfl) (Solver.init (atNodes d f n) t₀) steps hsteps
  obtain ⟨v, v0, states, hg, hrun, hst⟩ := element_grid hd hfr hf hG h h3 (Or.inl rfl)
    (fun j hj => (hfix j hj.le).imp fun s' a => ⟨a.1, a.2 _ (hsteps _ (List.getElem_mem hj))⟩) hsum
  have h0 : states 0 = atNodes d f n := by
    obtain ⟨s', a1, a2, -⟩ := hst 0 (Nat.zero_le _)
    simp only [List.take_zero, Solver.runE] at a1
    rw [← a2, ← Except.ok.inj a1]
    rfl
  refine ⟨gauss, s, mass, C, v, v0, h, hrun, Solver.init (atNodes d f n) t₀, steps, rfl, hsum,
    fun dt hdt => ⟨(hsteps dt hdt).1, (hsteps dt hdt).2.1⟩, fun i => hfr _, ?_, ?_, ?_⟩
  · intro j hj
    obtain ⟨s1, a1, b1, -⟩ := hst j hj.le
    obtain ⟨s2, a2, b2, -⟩ := hst (j + 1) hj
    refine ⟨s2, a2, fun i => by rw [b2]; exact hg.range (j + 1) hj i, ?_⟩
    rw [List.take_add_one, List.getElem?_eq_getElem hj, Option.toList_some, Verif.Solver.runE_snoc, a1] at a2
    simp only [Solver.executeE] at a2
    split at a2
    · cases a2
    · cases a2
      intro v hv i
      simp only [forwardEuler, List.range_one, List.map_cons, List.map_nil, List.mem_singleton] at hv
      rw [hv, stageValue]
      simp only [List.range_zero, List.map_nil, List.sum_nil, smul_zero, add_zero]
      rw [b1]
      exact hg.range j hj.le i
  · intro i x b1 b2
    rw [hg.initial i x ⟨b1, by rw [nodeAt_succ]; exact b2⟩, h0]
    rfl
  · intro j hj
    obtain ⟨s', a1, a2, a3⟩ := hst j hj.le
    refine ⟨s', a1, fun i t x b1 b2 b3 b4 => ?_⟩
    rw [a3] at b1 b2
    rw [← after_succ _ _ _ hj] at b2
    rw [hg.later j hj i (t, x) ⟨⟨b1, b2⟩, b3, by rw [nodeAt_succ]; exact b4⟩, a2]

theorem initial_near {q : ℝ → ℝ} {Λ m M V c a P t₀ S : ℝ} {f G : ℝ → ℝ} {n : ℕ} {u : ℝ × ℝ → ℝ} {u0 : ℝ → ℝ}
    (hu : GridRun q Λ m M V c a P t₀ S f G n u u0) (i : Fin n) (x : ℝ)
    (hx : x ∈ Ioc (nodeAt a (P / n) i) (nodeAt a (P / n) (i + 1))) :
    |u0 x - f x| ≤ G (nodeAt a (P / n) (i + 1)) - G (nodeAt a (P / n) i) := by
  obtain ⟨steps, states, hg, -, -, hnear⟩ := hu
  rw [hg.initial i x hx]
  exact hnear i x hx

theorem data_near {V : ℝ} {d : Interval ℝ} (hd : d.a < d.b) {f G : ℝ → ℝ}
    (hG : Majorant f G (d.b - d.a) V) {n : ℕ} (hn : 0 < n) {u0 : ℝ → ℝ}
    (hu : ∀ i : Fin n, ∀ x ∈ Ioc (nodeAt d.a ((d.b - d.a) / n) i) (nodeAt d.a ((d.b - d.a) / n) (i + 1)),
      |u0 x - f x| ≤ G (nodeAt d.a ((d.b - d.a) / n) (i + 1)) - G (nodeAt d.a ((d.b - d.a) / n) i)) :
    ∫ x in Ioc d.a (d.a + (d.b - d.a)), |u0 x - f x| ≤ 2 * ((d.b - d.a) / n) * V := by
  have hn0 : (0 : ℝ) < n := by exact_mod_cast hn
  set dx := (d.b - d.a) / n with hdx'
  have hdx : 0 < dx := div_pos (by linarith) hn0
  obtain ⟨i1, i2⟩ := majorant_integral (by linarith) hG d.a dx
  rw [← i2]
  refine integral_mono_of_nonneg (Eventually.of_forall fun x => abs_nonneg _) i1 ?_
  filter_upwards [ae_restrict_mem measurableSet_Ioc] with x hx
  have hN : d.a + (d.b - d.a) = nodeAt d.a dx n := by
    simp only [nodeAt, hdx']
    field_simp
  obtain ⟨i, hi, d1, d2⟩ := interval_cover (nodeAt d.a dx) n x (by rw [nodeAt_zero]; exact hx.1) (by rw [← hN]; exact hx.2)
  refine (hu ⟨i, hi⟩ x ⟨d1, d2⟩).trans ?_
  have hs := nodeAt_succ d.a dx i
  have g1 : G (nodeAt d.a dx (i + 1)) ≤ G (x + dx) := hG.mono (by
    rw [hs]; have : nodeAt d.a dx i = d.a + i * dx := rfl
    linarith)
  have g2 : G (x - dx) ≤ G (nodeAt d.a dx i) := hG.mono (by
    rw [hs] at d2; have : nodeAt d.a dx i = d.a + i * dx := rfl
    linarith)
  exact sub_le_sub g1 g2

/-! ### The property -/

/-- C140.  Let the finite element functions with linear elements that one of the solvers computes on finer and finer meshes, with an
explicit Runge-Kutta method for which the weights add up to one and steps of at most a fixed multiple of the mesh width,
have values in a fixed interval at the nodes.  If these functions converge in the mean to `w` and those at the beginning to
`f`, then `w` is a weak solution of the conservation law for the data `f`. -/
theorem C140_weak (p : Problem) (T : Tableau ℝ) (hT : ∑ l ∈ Finset.range T.size, T.b l = 1) (lo up c t₀ S : ℝ)
    (hc : 0 ≤ c) (d : Interval ℝ) (n : ℕ → ℕ) (hn : ∀ r, 3 ≤ n r) (hlim : Tendsto n atTop atTop)
    (space : ℕ → FE.Space ℝ) (rhs : ℕ → List ℝ → Except Py.Error (List ℝ))
    (hrhs : ∀ r, ElementSolver p d (n r) (space r) (rhs r)) (u : ℕ → ℝ × ℝ → ℝ) (u0 : ℕ → ℝ → ℝ)
    (h : ∀ r, ElementsWithin T (vecRhs (n r) fun _ => rhs r) (space r) (Icc lo up) c d.a ((d.b - d.a) / n r) t₀ S (u r)
      (u0 r))
    (w : ℝ × ℝ → ℝ) (f : ℝ → ℝ) (hw : IntegrableOn w (Ioc t₀ S ×ˢ Ioc d.a d.b)) (hf : IntegrableOn f (Ioc d.a d.b))
    (hlimw : Tendsto (fun r => ∫ z in Ioc t₀ S ×ˢ Ioc d.a d.b, |u r z - w z|) atTop (𝓝 0))
    (hlimf : Tendsto (fun r => ∫ x in Ioc d.a d.b, |u0 r x - f x|) atTop (𝓝 0)) :
    WeakSolution (law p) d.a (d.b - d.a) t₀ S w f := by
  have hs := slopeBound_pos lo up
  have facts := fun r => solver_facts (hrhs r) (hn r) lo up
  exact elements_limit T hT p (C := 5 * slopeBound lo up) (by positivity) hc d (facts 0).1 n (fun r => by have := hn r; omega)
    hlim space (fun r => (facts r).2.1) (fun r => (facts r).2.2.1) _ (fun r => (facts r).2.2.2) u u0 h w f hw hf hlimw hlimf

/-- C140.  A shock of such a limit, with different values on its sides, moves with speed one for linear advection and with
the mean of the two values for Burgers' equation. -/
theorem C140_shock (p : Problem) (T : Tableau ℝ) (hT : ∑ l ∈ Finset.range T.size, T.b l = 1) (lo up c t₀ S : ℝ)
    (hc : 0 ≤ c) (d : Interval ℝ) (n : ℕ → ℕ) (hn : ∀ r, 3 ≤ n r) (hlim : Tendsto n atTop atTop)
    (space : ℕ → FE.Space ℝ) (rhs : ℕ → List ℝ → Except Py.Error (List ℝ))
    (hrhs : ∀ r, ElementSolver p d (n r) (space r) (rhs r)) (u : ℕ → ℝ × ℝ → ℝ) (u0 : ℕ → ℝ → ℝ)
    (h : ∀ r, ElementsWithin T (vecRhs (n r) fun _ => rhs r) (space r) (Icc lo up) c d.a ((d.b - d.a) / n r) t₀ S (u r)
      (u0 r))
    (w : ℝ × ℝ → ℝ) (f : ℝ → ℝ) (hw : IntegrableOn w (Ioc t₀ S ×ˢ Ioc d.a d.b)) (hf : IntegrableOn f (Ioc d.a d.b))
    (hlimw : Tendsto (fun r => ∫ z in Ioc t₀ S ×ˢ Ioc d.a d.b, |u r z - w z|) atTop (𝓝 0))
    (hlimf : Tendsto (fun r => ∫ x in Ioc d.a d.b, |u0 r x - f x|) atTop (𝓝 0))
    (t₁ t₂ x₀ σ δ l r : ℝ) (h01 : t₀ ≤ t₁) (h12 : t₁ < t₂) (h2S : t₂ ≤ S) (hδ : 0 < δ)
    (hin : ∀ t, t₁ < t → t < t₂ → d.a ≤ x₀ + σ * (t - t₁) - δ ∧ x₀ + σ * (t - t₁) + δ ≤ d.b)
    (hs : ShockIn w t₁ t₂ x₀ σ δ l r) (hlr : l ≠ r) :
    (p = .advection → σ = 1) ∧ (p = .burgers → σ = (l + r) / 2) := by
  have hd := (solver_facts (hrhs 0) (hn 0) lo up).1
  have hw' := C140_weak p T hT lo up c t₀ S hc d n hn hlim space rhs hrhs u u0 h w f hw hf hlimw hlimf
  have := jump_condition hw' (by linarith) h01 h12 h2S hδ (fun t h1 h2 => by
    obtain ⟨i1, i2⟩ := hin t h1 h2
    exact ⟨i1, by linarith⟩) hs
  have hne : l - r ≠ 0 := sub_ne_zero.2 hlr
  rw [smul_eq_mul] at this
  refine ⟨?_, ?_⟩ <;> rintro rfl
  · simp only [law] at this
    exact mul_right_cancel₀ hne (by linarith)
  · simp only [law] at this
    exact mul_right_cancel₀ hne (by linarith)

/-- C140.  The entropy solution to which the low order solver converges (C134) is a weak solution, for data of bounded
variation with values of any sign. -/
theorem C140_entropy (p : Problem) (K V t₀ S : ℝ) (hS : t₀ ≤ S) (d : Interval ℝ) (hd : d.a < d.b) (f G : ℝ → ℝ)
    (hfr : ∀ x, -K ≤ f x ∧ f x ≤ K) (hf : ∀ x, f (x + (d.b - d.a)) = f x) (hG : Majorant f G (d.b - d.a) V)
    (w : ℝ × ℝ → ℝ) (hw : EntropyLimit.Solves p (-K) K d f t₀ S w) : WeakSolution (law p) d.a (d.b - d.a) t₀ S w f := by
  have hab : d.a + (d.b - d.a) = d.b := by ring
  have hK : 0 ≤ K := by linarith [(hfr 0).1, (hfr 0).2]
  have hs := slopeBound_pos (-K) K
  choose gauss s mass C u u0 h1 h2 h3 using fun r : ℕ =>
    nodes_within (p := p) hS hd hfr hf hG one_pos (r + 3) (by omega)
  have hlim : Tendsto (fun r : ℕ => r + 3) atTop atTop := tendsto_add_atTop_nat 3
  have hfm := majorant_measurable hG
  have hb : ∀ y ∈ Icc (-K) K, |y| ≤ slopeBound (-K) K := fun y hy => by
    have := value_bound hy
    unfold slopeBound
    linarith
  rw [law_eq]
  refine weak_limit (forwardEuler ℝ) (by simp [forwardEuler]) (R := slopeBound (-K) K ^ 2) (R' := slopeBound (-K) K)
    (C := slopeBound (-K) K) (D := Icc (-K) K) hs.le hs.le (by positivity) zero_le_one (by linarith)
    (flux_measurable p) ?_ hb isClosed_Icc (fun y hy y' hy' => scalar_lipschitz p y hy y' hy') (fun r => r + 3) hlim
    (fun r => by omega) (fun r => vecRhs (r + 3) fun _ => FE.lowRhs p (mass r) (C r))
    (fun r => low_form (h1 r) (by omega) p _ _) u u0 h3 w f (by rw [hab]; exact hw.1) ?_ ?_ ?_
  · intro y hy
    have h1 := hb y hy
    have h2 : 1 ≤ slopeBound (-K) K := by
      unfold slopeBound
      linarith [abs_nonneg (-K), abs_nonneg K]
    have h3 : y ^ 2 ≤ slopeBound (-K) K ^ 2 := sq_le_sq.2 (by rwa [abs_of_pos hs])
    rw [Real.norm_eq_abs]
    cases p with
    | advection => simp only [Problem.flux]; nlinarith
    | burgers =>
      simp only [Problem.flux]
      rw [abs_of_nonneg (by positivity)]
      nlinarith
  · refine Measure.integrableOn_of_bounded (M := max |-K| |K|) measure_Ioc_lt_top.ne hfm.aestronglyMeasurable
      (Eventually.of_forall fun x => ?_)
    exact abs_le_max_abs_abs (hfr x).1 (hfr x).2
  · rw [hab, Metric.tendsto_atTop]
    intro η hη
    obtain ⟨N, hN⟩ := grid_converges (flux_measurable p) (node_slope p hK le_rfl le_rfl) hS (by linarith) hfr hG
      zero_le_one w (solves_law.1 hw) (η / 2) (by linarith)
    refine ⟨N, fun r hr => ?_⟩
    have := hN (r + 3) (by omega) (by omega) (u r) (u0 r) (h2 r)
    rw [hab] at this
    rw [Real.dist_eq, sub_zero, abs_of_nonneg (integral_nonneg fun z => norm_nonneg _)]
    exact lt_of_le_of_lt this (by linarith)
  · refine squeeze_zero (fun r => integral_nonneg fun x => norm_nonneg _)
      (fun r => data_near hd hG (by omega) (fun i x hx => initial_near (h2 r) i x hx)) ?_
    have h := (tendsto_const_div_atTop_nhds_zero_nat (2 * (d.b - d.a) * V)).comp hlim
    refine h.congr fun r => ?_
    simp only [Function.comp]
    ring

/-! ### A case that meets the hypotheses -/

/-- Runs of the low order solver. -/
theorem low_runs {p : Problem} {K V t₀ S : ℝ} (hS : t₀ ≤ S) {d : Interval ℝ} (hd : d.a < d.b) {f G : ℝ → ℝ}
    (hfr : ∀ x, -K ≤ f x ∧ f x ≤ K) (hf : ∀ x, f (x + (d.b - d.a)) = f x) (hG : Majorant f G (d.b - d.a) V)
    (n : ℕ) (h3 : 3 ≤ n) : ∃ space rhs u u0, ElementSolver p d n space rhs ∧ ElementsBy p 1 d f t₀ S n u ∧
      ElementsWithin (forwardEuler ℝ) (vecRhs n fun _ => rhs) space (Icc (-K) K) 1 d.a ((d.b - d.a) / n) t₀ S u u0 ∧
      ∀ i : Fin n, ∀ x ∈ Ioc (nodeAt d.a ((d.b - d.a) / n) i) (nodeAt d.a ((d.b - d.a) / n) (i + 1)),
        |u0 x - f x| ≤ G (nodeAt d.a ((d.b - d.a) / n) (i + 1)) - G (nodeAt d.a ((d.b - d.a) / n) i) := by
  have hn : 0 < n := by omega
  have hdx : 0 < (d.b - d.a) / n := div_pos (by linarith) (by exact_mod_cast hn)
  obtain ⟨gauss, s, mass, C, h⟩ := FE.exists_setup d hd n 1 hn one_pos
  obtain ⟨steps, hsteps, hsum⟩ := steps_exist (p := p) (B := 1) hS hd hfr one_pos (by linarith [(hfr 0).1, (hfr 0).2]) n hn
  have hfix := element_fixed (T := forwardEuler ℝ) h h3 (Or.inl rfl) (Solver.init (atNodes d f n) t₀) steps hsteps
  obtain ⟨v, v0, states, hg, hrun, hst⟩ := element_grid hd hfr hf hG h h3 (Or.inl rfl)
    (fun j hj => (hfix j hj.le).imp fun s' a => ⟨a.1, a.2 _ (hsteps _ (List.getElem_mem hj))⟩) hsum
  have ht := after_mono t₀ steps fun dt h => (hsteps dt h).1
  have hx := nodeAt_mono d.a _ hdx.le
  have hcells := (FE.setup_facts h).2.1
  classical
  set u : ℝ × ℝ → ℝ := fun z => if h : ∃ j, after t₀ steps j < z.1 ∧ z.1 ≤ after t₀ steps (j + 1) then
      (if h' : ∃ i : Fin n, nodeAt d.a ((d.b - d.a) / n) i < z.2 ∧ z.2 ≤ nodeAt d.a ((d.b - d.a) / n) (i + 1) then
        FE.linearValue d n (states h.choose) h'.choose z.2 else 0) else 0 with hu
  set u0 : ℝ → ℝ := fun x => if h' : ∃ i : Fin n, nodeAt d.a ((d.b - d.a) / n) i < x ∧
      x ≤ nodeAt d.a ((d.b - d.a) / n) (i + 1) then FE.linearValue d n (atNodes d f n) h'.choose x else 0 with hu0
  have later : ∀ j (hj : j < steps.length), ∃ s', (Solver.init (atNodes d f n) t₀).runE (forwardEuler ℝ)
      (vecRhs n fun _ => FE.lowRhs p mass C) (steps.take j) = .ok s' ∧
      ElementStep p 1 ((d.b - d.a) / n) s'.solution steps[j] ∧ ∀ (c : Fin n) (t x : ℝ), s'.time < t →
        t ≤ s'.time + steps[j] → d.a + c * ((d.b - d.a) / n) < x → x ≤ d.a + (c + 1) * ((d.b - d.a) / n) →
        u (t, x) = FE.linearValue d n s'.solution c x := by
    intro j hj
    obtain ⟨s', c1, c2, c3⟩ := hst j hj.le
    obtain ⟨s'', d1, d2⟩ := hfix j hj.le
    obtain rfl : s' = s'' := by
      rw [c1] at d1
      simpa using d1
    refine ⟨s', c1, d2 _ (hsteps _ (List.getElem_mem hj)), fun c t x b1 b2 b3 b4 => ?_⟩
    rw [c3] at b1 b2
    rw [← after_succ _ _ _ hj] at b2
    rw [← nodeAt_succ] at b4
    have e1 : ∃ j, after t₀ steps j < t ∧ t ≤ after t₀ steps (j + 1) := ⟨j, b1, b2⟩
    have e2 : ∃ i : Fin n, nodeAt d.a ((d.b - d.a) / n) i < x ∧ x ≤ nodeAt d.a ((d.b - d.a) / n) (i + 1) := ⟨c, b3, b4⟩
    simp only [hu]
    rw [dif_pos e1, dif_pos e2, c2, interval_unique _ ht t e1.choose_spec ⟨b1, b2⟩]
    rw [interval_unique _ hx x e2.choose_spec ⟨b3, b4⟩]
  have initial : ∀ i : Fin n, ∀ x ∈ Ioc (nodeAt d.a ((d.b - d.a) / n) i) (nodeAt d.a ((d.b - d.a) / n) (i + 1)),
      u0 x = FE.linearValue d n (atNodes d f n) i x := by
    intro i x hxi
    have e2 : ∃ i : Fin n, nodeAt d.a ((d.b - d.a) / n) i < x ∧ x ≤ nodeAt d.a ((d.b - d.a) / n) (i + 1) := ⟨i, hxi⟩
    simp only [hu0]
    rw [dif_pos e2, interval_unique _ hx x e2.choose_spec hxi]
  refine ⟨s, FE.lowRhs p mass C, u, u0, Or.inl ⟨gauss, mass, C, h, rfl⟩, ⟨gauss, s, mass, C, forwardEuler ℝ, steps, h,
    Or.inl rfl, hsum, fun j hj => ?_⟩, ⟨Solver.init (atNodes d f n) t₀, steps, rfl, hsum,
    fun dt hdt => ⟨(hsteps dt hdt).1, (hsteps dt hdt).2.1⟩, fun i => hfr _, ?_, ?_, ?_⟩, ?_⟩
  · obtain ⟨s', a1, a2, a3⟩ := later j hj
    exact ⟨s', _, a1, a2, FE.linear_value h _, a3⟩
  · intro j hj
    obtain ⟨s1, a1, b1, -⟩ := hst j hj.le
    obtain ⟨s2, a2, b2, -⟩ := hst (j + 1) hj
    refine ⟨s2, a2, fun i => by rw [b2]; exact hg.range (j + 1) hj i, ?_⟩
    rw [List.take_add_one, List.getElem?_eq_getElem hj, Option.toList_some, Verif.Solver.runE_snoc, a1] at a2
    simp only [Solver.executeE] at a2
    split at a2
    · cases a2
    · cases a2
      intro v hv i
      simp only [forwardEuler, List.range_one, List.map_cons, List.map_nil, List.mem_singleton] at hv
      rw [hv, stageValue]
      simp only [List.range_zero, List.map_nil, List.sum_nil, smul_zero, add_zero]
      rw [b1]
      exact hg.range j hj.le i
  · intro i x b1 b2
    rw [(FE.linear_value h _).2 i (by rw [hcells]; exact i.2), initial i x ⟨b1, by rw [nodeAt_succ]; exact b2⟩]
    rfl
  · intro j hj
    obtain ⟨s', a1, -, a3⟩ := later j hj
    refine ⟨s', a1, fun i t x b1 b2 b3 b4 => ?_⟩
    rw [(FE.linear_value h _).2 i (by rw [hcells]; exact i.2), a3 i t x b1 b2 b3 b4]
  · intro i x hxi
    rw [initial i x hxi]
    have hin : InCell d n i x := by
      obtain ⟨z3, z4⟩ := hxi
      unfold InCell Mesh.node
      rw [nodeAt_succ] at z4
      unfold nodeAt at z3
      push_cast
      exact ⟨z3.le, z4⟩
    obtain ⟨p0, p1, -⟩ := FE.place_bounds hd hn hin
    have n1 : |atNodes d f n i - f x| ≤ G (nodeAt d.a ((d.b - d.a) / n) (i + 1)) - G (nodeAt d.a ((d.b - d.a) / n) i) :=
      nodes_near hd hn hf hG i x hxi
    have n2 : |around (atNodes d f n) ((i : ℕ) + 1) - f x| ≤
        G (nodeAt d.a ((d.b - d.a) / n) (i + 1)) - G (nodeAt d.a ((d.b - d.a) / n) i) := by
      have e : around (atNodes d f n) ((i : ℕ) + 1) = f (nodeAt d.a ((d.b - d.a) / n) (i + 1)) := by
        unfold atNodes
        rw [FE.around_nodes hd hn f hf]
        unfold nodeAt
        push_cast
        rfl
      rw [e]
      have h1 := hG.bound x (nodeAt d.a ((d.b - d.a) / n) (i + 1)) hxi.2
      have h2 := hG.mono hxi.1.le
      exact h1.trans (by linarith)
    unfold FE.linearValue
    rw [around_cell]
    set θ := FE.place d n i x
    have e : (1 - θ) * atNodes d f n i + θ * around (atNodes d f n) ((i : ℕ) + 1) - f x =
        (1 - θ) * (atNodes d f n i - f x) + θ * (around (atNodes d f n) ((i : ℕ) + 1) - f x) := by ring
    rw [e]
    refine (abs_add_le _ _).trans ?_
    rw [abs_mul, abs_mul, abs_of_nonneg p0, abs_of_nonneg (by linarith : 0 ≤ 1 - θ)]
    nlinarith [mul_le_mul_of_nonneg_left n1 (by linarith : 0 ≤ 1 - θ), mul_le_mul_of_nonneg_left n2 p0]

/-- The hypotheses of `C140_weak` hold for runs of the low order solver from any data of bounded variation, with values of
any sign. -/
example (p : Problem) (K V t₀ S : ℝ) (hS : t₀ ≤ S) (d : Interval ℝ) (hd : d.a < d.b) (f G : ℝ → ℝ)
    (hfr : ∀ x, -K ≤ f x ∧ f x ≤ K) (hf : ∀ x, f (x + (d.b - d.a)) = f x) (hG : Majorant f G (d.b - d.a) V) :
    ∃ (space : ℕ → FE.Space ℝ) (rhs : ℕ → List ℝ → Except Py.Error (List ℝ)) (u : ℕ → ℝ × ℝ → ℝ) (u0 : ℕ → ℝ → ℝ)
      (w : ℝ × ℝ → ℝ), (∀ r, ElementSolver p d (r + 3) (space r) (rhs r)) ∧
      (∀ r, ElementsWithin (forwardEuler ℝ) (vecRhs (r + 3) fun _ => rhs r) (space r) (Icc (-K) K) 1 d.a
        ((d.b - d.a) / (r + 3 : ℕ)) t₀ S (u r) (u0 r)) ∧
      IntegrableOn w (Ioc t₀ S ×ˢ Ioc d.a d.b) ∧ IntegrableOn f (Ioc d.a d.b) ∧
      Tendsto (fun r => ∫ z in Ioc t₀ S ×ˢ Ioc d.a d.b, |u r z - w z|) atTop (𝓝 0) ∧
      Tendsto (fun r => ∫ x in Ioc d.a d.b, |u0 r x - f x|) atTop (𝓝 0) := by
  have hab : d.a + (d.b - d.a) = d.b := by ring
  obtain ⟨⟨w, hw⟩, -⟩ := C134_solution p K V t₀ S hS d hd f G hfr hf hG
  choose space rhs u u0 h1 h2 h3 h4 using fun r : ℕ => low_runs (p := p) hS hd hfr hf hG (r + 3) (by omega)
  have near : ∀ r, ∫ x in Ioc d.a d.b, |u0 r x - f x| ≤ 2 * ((d.b - d.a) / (r + 3 : ℕ)) * V := fun r => by
    have := data_near hd hG (by omega) (h4 r)
    rwa [hab] at this
  refine ⟨space, rhs, u, u0, w, h1, h3, hw.1, ?_, ?_, ?_⟩
  · refine Measure.integrableOn_of_bounded (M := max |-K| |K|) measure_Ioc_lt_top.ne
      (majorant_measurable hG).aestronglyMeasurable (Eventually.of_forall fun x => ?_)
    exact abs_le_max_abs_abs (hfr x).1 (hfr x).2
  · rw [Metric.tendsto_atTop]
    intro η hη
    obtain ⟨N, hN⟩ := C134_converges p K 1 V t₀ S zero_le_one hS d hd f G hfr hf hG w hw (η / 2) (by linarith)
    refine ⟨N, fun r hr => ?_⟩
    have := hN (r + 3) (by omega) (u r) (h2 r)
    rw [Real.dist_eq, sub_zero, abs_of_nonneg (integral_nonneg fun z => abs_nonneg _)]
    linarith
  · refine squeeze_zero (fun r => integral_nonneg fun x => abs_nonneg _)
      (fun r => near r) ?_
    have h := (tendsto_const_div_atTop_nhds_zero_nat (2 * (d.b - d.a) * V)).comp (tendsto_add_atTop_nat 3)
    refine h.congr fun r => ?_
    simp only [Function.comp]
    ring

/-- Constant states are steady for all three solvers. -/
theorem solver_constant {p : Problem} {d : Interval ℝ} {n : ℕ} {space : FE.Space ℝ} {rhs : List ℝ → Except Py.Error (List ℝ)}
    (h : ElementSolver p d n space rhs) (h3 : 3 ≤ n) (κ : ℝ) (l : List ℝ) (hl : l.length = n)
    (hr : rhs (List.ofFn fun _ : Fin n => κ) = .ok l) (t : ℝ) :
    vecRhs n (fun _ => rhs) t (fun _ => κ) = .ok 0 := by
  obtain ⟨-, -, -, hF⟩ := solver_facts h h3 κ κ
  have e : vecRhs n (fun _ => rhs) t (fun _ => κ) = .ok fun i => l[i.1]'(by omega) := by
    unfold vecRhs
    simp only [hr]
    rw [dif_pos hl]
  obtain ⟨H, h1, h2, h4⟩ := hF t _ _ (fun _ => ⟨le_rfl, le_rfl⟩) e
  have hj : jumps (fun _ : Fin n => κ) = 0 := by simp [jumps]
  rw [hj, mul_zero] at h4
  have hz : ∀ i : Fin n, H (i + 1) = p.flux κ := by
    intro i
    have := (Finset.sum_eq_zero_iff_of_nonneg fun i _ => norm_nonneg _).1
      (le_antisymm h4 (Finset.sum_nonneg fun i _ => norm_nonneg _)) i (Finset.mem_univ i)
    exact sub_eq_zero.1 (norm_eq_zero.1 this)
  have hz' : ∀ i : Fin n, H i = p.flux κ := by
    intro i
    rcases Nat.eq_zero_or_pos (i : ℕ) with h0 | h0
    · have := hz ⟨n - 1, by omega⟩
      simp only at this
      rw [h0, ← h1, ← this]
      congr 1
      omega
    · have := hz ⟨i - 1, by omega⟩
      simp only at this
      rw [← this]
      congr 1
      omega
  rw [e]
  congr 1
  funext i
  rw [h2, hz, hz', sub_self, smul_zero]
  rfl

theorem constant_run {n : ℕ} {sys : ℝ → (Fin n → ℝ) → Except Py.Error (Fin n → ℝ)} {κ : ℝ}
    (hsys : ∀ t, sys t (fun _ => κ) = .ok 0) (steps : List ℝ) (s : Solver ℝ (Fin n → ℝ))
    (hs : s.solution = fun _ => κ) : ∃ s', s.runE (forwardEuler ℝ) sys steps = .ok s' ∧ s'.solution = (fun _ => κ) ∧
      (steps ≠ [] → ∀ v ∈ s'.stageValues, v = fun _ => κ) := by
  induction steps generalizing s with
  | nil => exact ⟨s, rfl, hs, fun h => absurd rfl h⟩
  | cons dt steps ih =>
    have e : s.executeE (forwardEuler ℝ) sys dt = .ok ⟨s.time + dt, fun _ => κ,
        (List.range 1).map (timeNode (forwardEuler ℝ) s.time dt), [fun _ => κ]⟩ := by
      simp only [Solver.executeE, show (forwardEuler ℝ).size = 1 from rfl, stagesE, stageValue, List.range_zero, List.map_nil,
        List.sum_nil, smul_zero, add_zero, hs, hsys]
      congr 2
      · simp
      · simp [stageValue]
    obtain ⟨s', h1, h2, h3⟩ := ih ⟨s.time + dt, fun _ => κ, (List.range 1).map (timeNode (forwardEuler ℝ) s.time dt),
      [fun _ => κ]⟩ rfl
    refine ⟨s', by simp only [Solver.runE, e]; exact h1, h2, fun _ => ?_⟩
    cases steps with
    | nil =>
      simp only [Solver.runE] at h1
      obtain rfl := Except.ok.inj h1
      simp
    | cons => exact h3 (by simp)

/-- Constant functions are computed by all three solvers. -/
theorem constant_within {p : Problem} {d : Interval ℝ} {n : ℕ} {space : FE.Space ℝ} {rhs : List ℝ → Except Py.Error (List ℝ)}
    (h : ElementSolver p d n space rhs) (h3 : 3 ≤ n) (κ : ℝ) (l : List ℝ) (hl : l.length = n)
    (hr : rhs (List.ofFn fun _ : Fin n => κ) = .ok l) (t₀ S : ℝ) (hS : t₀ ≤ S) :
    ElementsWithin (forwardEuler ℝ) (vecRhs n fun _ => rhs) space (Icc κ κ) 1 d.a ((d.b - d.a) / n) t₀ S (fun _ => κ)
      (fun _ => κ) := by
  obtain ⟨hd, hcells, hval, -⟩ := solver_facts h h3 κ κ
  have hn : 0 < n := by omega
  have hdx : 0 < (d.b - d.a) / n := div_pos (by linarith) (by exact_mod_cast hn)
  have value : ∀ (i : Fin n) (x : ℝ), space.value (List.ofFn fun _ : Fin n => κ) i x = .ok κ := by
    intro i x
    rw [(hval _).2 i (by rw [hcells]; exact i.2)]
    congr 1
    unfold FE.linearValue
    have : ∀ z : ℤ, around (fun _ : Fin n => κ) z = κ := fun z => by
      obtain ⟨i, q, rfl⟩ := around_exists hn z
      rw [around_shift, around_cell]
    rw [this, this]
    ring
  have hrun := fun steps => constant_run (fun t => solver_constant h h3 κ l hl hr t) steps
    (Solver.init (fun _ : Fin n => κ) t₀) rfl
  obtain ⟨q, hq⟩ := exists_nat_gt ((S - t₀) / ((d.b - d.a) / n))
  have hq0 : (0 : ℝ) < q := lt_of_le_of_lt (div_nonneg (by linarith) hdx.le) hq
  rw [div_lt_iff₀ hdx] at hq
  refine ⟨Solver.init (fun _ => κ) t₀, List.replicate q ((S - t₀) / q), rfl, ?_, ?_, fun _ => ⟨le_rfl, le_rfl⟩, ?_,
    fun i x _ _ => value i x, ?_⟩
  · simp only [List.sum_replicate, nsmul_eq_mul]
    field_simp
    ring
  · intro dt hdt
    obtain rfl := List.eq_of_mem_replicate hdt
    refine ⟨div_nonneg (by linarith) hq0.le, ?_⟩
    rw [div_le_iff₀ hq0]
    linarith
  · intro j hj
    obtain ⟨s', h1, h2, h4⟩ := hrun ((List.replicate q ((S - t₀) / q)).take (j + 1))
    refine ⟨s', h1, fun i => by rw [h2]; exact ⟨le_rfl, le_rfl⟩, fun v hv i => ?_⟩
    rw [h4 (by
      rw [List.length_replicate] at hj
      intro h0
      have := congrArg List.length h0
      simp at this
      omega) v hv]
    exact ⟨le_rfl, le_rfl⟩
  · intro j hj
    obtain ⟨s', h1, h2, -⟩ := hrun ((List.replicate q ((S - t₀) / q)).take j)
    exact ⟨s', h1, fun i t x _ _ _ _ => by rw [h2]; exact value i x⟩

/-- Runs with the two other solvers, for any number of cells from three on. -/
example (p : Problem) (d : Interval ℝ) (hd : d.a < d.b) (n : ℕ) (h3 : 3 ≤ n) (κ t₀ S : ℝ) (hS : t₀ ≤ S) (exact : Bool) :
    (∃ gauss space m M C nb, FE.MCLSetup gauss d n 1 space m M C nb ∧
      ElementSolver p d n space (FE.mclRhs space.map p m M C nb) ∧
      ElementsWithin (forwardEuler ℝ) (vecRhs n fun _ => FE.mclRhs space.map p m M C nb) space (Icc κ κ) 1 d.a
        ((d.b - d.a) / n) t₀ S (fun _ => κ) (fun _ => κ)) ∧
    ∃ gauss space M C solve, ElementSolver p d n space (FE.cgRhs solve gauss space M C p exact) ∧
      ElementsWithin (forwardEuler ℝ) (vecRhs n fun _ => FE.cgRhs solve gauss space M C p exact) space (Icc κ κ) 1 d.a
        ((d.b - d.a) / n) t₀ S (fun _ => κ) (fun _ => κ) := by
  refine ⟨?_, ?_⟩
  · obtain ⟨gauss, space, m, M, C, nb, h⟩ := FE.exists_mclSetup d hd n 1 (by omega) one_pos
    obtain ⟨-, -, s3, -⟩ := FE.setup_facts h.toSetup
    rw [mul_one] at s3
    have hpos := (FE.C68_masses h.toSetup (Or.inl (by norm_num))).2
    obtain ⟨D, r, umax, umin, w, -, -, -, -, h1, h2, -⟩ := FE.mclRhs_spec h (fun x hx => (hpos x hx).ne') p
      (List.ofFn fun _ : Fin n => κ) (by simp [s3])
    have hs : ElementSolver p d n space (FE.mclRhs space.map p m M C nb) := Or.inr (Or.inl ⟨gauss, m, M, C, nb, h, rfl⟩)
    exact ⟨gauss, space, m, M, C, nb, h, hs, constant_within hs h3 κ w (by rw [h2, s3]) h1 t₀ S hS⟩
  · obtain ⟨gauss, space, m, M, C, nb, h⟩ := FE.exists_mclSetup d hd n 1 (by omega) one_pos
    obtain ⟨solve, hsolve⟩ := FE.exists_solves
    obtain ⟨-, -, s3, -⟩ := FE.setup_facts h.toSetup
    rw [mul_one] at s3
    have h1 := FE.C87_constant h.toSetup solve hsolve M h.massMatrix p exact κ
    have hs : ElementSolver p d n space (FE.cgRhs solve gauss space M C p exact) :=
      Or.inr (Or.inr ⟨gauss, m, C, M, solve, exact, h.toSetup, hsolve, h.massMatrix, rfl⟩)
    refine ⟨gauss, space, M, C, solve, hs, constant_within hs h3 κ (List.replicate space.dimension 0) (by simp [s3]) ?_ t₀ S hS⟩
    rw [← h1, s3, List.ofFn_const]

end Verif.WeakLimit
