import Verif.Props.WeakSchemes
import Verif.Props.SWEUniform
import Verif.Props.EndConvergence
import Mathlib.MeasureTheory.Function.ConvergenceInMeasure

/-!
C136.  If functions computed on finer and finer meshes converge, their limit is a weak solution: the theorem of Lax and
Wendroff, for the schemes of `finite_volume/scalar` and `finite_volume/shallow_water` on periodic domains with flat bottom
and the time stepping of `core/ode_solver.py`.
-/

set_option linter.unusedSectionVars false

namespace Verif.WeakLimit

open Verif.Py Verif.Boundary Verif.FV Verif.Scalar Verif.ODE Verif.Weak Verif.EntropyLimit
open Verif.Interpolate Verif.Quadrature Verif.Bench Verif.Convergence
open Verif.Mesh hiding Error
open MeasureTheory Set Filter Topology

variable {V : Type*} [NormedAddCommGroup V] [NormedSpace ℝ V]

/-! ### Specification -/

/-- Test functions of time and space for the times up to `S`: smooth, with period `P` in space, vanishing at time `S`.
They have any sign. -/
structure TestFunction (P S : ℝ) (φ φt φx : ℝ → ℝ → ℝ) : Prop where
  final : ∀ x, φ S x = 0
  periodic : ∀ t x, φ t (x + P) = φ t x
  time : ∀ t x, HasDerivAt (fun s => φ s x) (φt t x) t
  space : ∀ t x, HasDerivAt (φ t) (φx t x) x
  continuous : Continuous fun z : ℝ × ℝ => φt z.1 z.2
  bounded : ∃ A, ∀ t x, |φt t x| ≤ A ∧ |φx t x| ≤ A
  lipschitz : ∃ B, ∀ t s x y, |φx t x - φx s y| ≤ B * (|t - s| + |x - y|)

/-- Weak solutions `u` of the conservation law with flux `q`, for the data `u0` at time `t₀`, on the domain from `a` to
`a + P` that is continued periodically. -/
def WeakSolution (q : V → V) (a P t₀ S : ℝ) (u : ℝ × ℝ → V) (u0 : ℝ → V) : Prop :=
  ∀ φ φt φx, TestFunction P S φ φt φx →
    (∫ z in Ioc t₀ S ×ˢ Ioc a (a + P), (φt z.1 z.2 • u z + φx z.1 z.2 • q (u z))) + ∫ x in a..a + P, φ t₀ x • u0 x = 0

/-- `u` is a piecewise constant function that the time stepping computes from the system of one mesh: from time `t₀` to
`S`, with steps of at most `c` times the mesh width, all states and all values of the stages being in `D`.  Between two
times it has the values of the cells at the first of them.  `u0` are the values at the beginning. -/
def RunWithin {n : ℕ} (T : Tableau ℝ) (sys : ℝ → (Fin n → V) → Except Py.Error (Fin n → V)) (D : Set V)
    (c a dx t₀ S : ℝ) (u : ℝ × ℝ → V) (u0 : ℝ → V) : Prop :=
  ∃ (s : Solver ℝ (Fin n → V)) (steps : List ℝ), s.time = t₀ ∧ t₀ + steps.sum = S ∧
    (∀ dt ∈ steps, 0 ≤ dt ∧ dt ≤ c * dx) ∧ (∀ i, s.solution i ∈ D) ∧
    (∀ j < steps.length, ∃ s', s.runE T sys (steps.take (j + 1)) = .ok s' ∧ (∀ i, s'.solution i ∈ D) ∧
      ∀ v ∈ s'.stageValues, ∀ i, v i ∈ D) ∧
    (∀ (i : Fin n) (x : ℝ), a + i * dx < x → x ≤ a + (i + 1) * dx → u0 x = s.solution i) ∧
    ∀ j (hj : j < steps.length), ∃ s', s.runE T sys (steps.take j) = .ok s' ∧
      ∀ (i : Fin n) (t x : ℝ), s'.time < t → t ≤ s'.time + steps[j] → a + i * dx < x → x ≤ a + (i + 1) * dx →
        u (t, x) = s'.solution i

/-- The fluxes of the scalar conservation laws. -/
noncomputable def law : Problem → ℝ → ℝ
  | .advection => fun u => u
  | .burgers => fun u => u ^ 2 / 2

/-- The flux of the shallow water equations for height and discharge: discharge, and momentum with hydrostatic
pressure. -/
noncomputable def waterFlux (g : ℝ) (u : SWE.State ℝ) : SWE.State ℝ := (u.2, u.2 ^ 2 / u.1 + g * u.1 ^ 2 / 2)

/-! ### Helper lemmas: runs are in conservation form -/

theorem run_grid (T : Tableau ℝ) (hT : ∑ l ∈ Finset.range T.size, T.b l = 1) {Q : V → V} {D : Set V} {C L c : ℝ}
    (hC : 0 ≤ C) (hL : 0 ≤ L) (hc : 0 ≤ c) (hlip : ∀ v ∈ D, ∀ v' ∈ D, ‖Q v - Q v'‖ ≤ L * ‖v - v'‖) :
    ∃ C' : ℝ, 0 ≤ C' ∧ ∀ (n : ℕ) (sys : ℝ → (Fin n → V) → Except Py.Error (Fin n → V)) (a dx t₀ S : ℝ)
      (u : ℝ × ℝ → V) (u0 : ℝ → V), 0 < dx → FluxForm sys dx Q D C → RunWithin T sys D c a dx t₀ S u u0 →
      ∃ steps states, (∀ dt ∈ steps, 0 ≤ dt ∧ dt ≤ c * dx) ∧ t₀ + steps.sum = S ∧
        Grid Q D C' dx a t₀ n steps states u u0 := by
  obtain ⟨C', hC', hst⟩ := step_flux T hT hC hL hc hlip
  refine ⟨C', hC', ?_⟩
  rintro n sys a dx t₀ S u u0 hdx hF ⟨s, steps, ht, hS, hdt, h0, hrun, hu0, hu⟩
  have all : ∀ j, ∃ s' : Solver ℝ (Fin n → V), j ≤ steps.length → s.runE T sys (steps.take j) = .ok s' ∧
      (∀ i, s'.solution i ∈ D) ∧ (0 < j → ∀ v ∈ s'.stageValues, ∀ i, v i ∈ D) := by
    intro j
    cases j with
    | zero => exact ⟨s, fun _ => ⟨by simp [Solver.runE], h0, fun h => absurd h (lt_irrefl _)⟩⟩
    | succ j =>
      by_cases hj : j < steps.length
      · obtain ⟨s', h1, h2, h3⟩ := hrun j hj
        exact ⟨s', fun _ => ⟨h1, h2, fun _ => h3⟩⟩
      · exact ⟨s, fun h => absurd h (by omega)⟩
  choose sv hsv using all
  refine ⟨steps, fun j => (sv j).solution, hdt, hS, ⟨?_, ?_, ?_⟩, ?_⟩
  · exact fun j hj i => (hsv j hj).2.1 i
  · intro i x hx
    have e := (hsv 0 (Nat.zero_le _)).1
    simp only [List.take_zero, Solver.runE] at e
    rw [hu0 i x (by simpa [nodeAt] using hx.1) (by simpa [nodeAt] using hx.2)]
    rw [Except.ok.inj e]
  · intro j hj i z hz
    obtain ⟨s', h1, h2⟩ := hu j hj
    have e : s' = sv j := by
      have := (hsv j hj.le).1
      rw [h1] at this
      exact Except.ok.inj this
    have et : s'.time = after t₀ steps j := by
      rw [Verif.Solver.runE_time T sys s s' _ h1, ht]; rfl
    rw [← e]
    refine h2 i z.1 z.2 ?_ ?_ ?_ ?_
    · rw [et]; exact hz.1.1
    · rw [et, ← after_succ _ _ _ hj]; exact hz.1.2
    · simpa [nodeAt] using hz.2.1
    · simpa [nodeAt] using hz.2.2
  · intro j hj
    have h1 := (hsv j hj.le)
    have h2 := (hsv (j + 1) hj)
    have e : (sv j).executeE T sys steps[j] = .ok (sv (j + 1)) := by
      have := h2.1
      rw [List.take_add_one, List.getElem?_eq_getElem hj, Option.toList_some, Verif.Solver.runE_snoc, h1.1] at this
      exact this
    have hd := hdt _ (List.getElem_mem hj)
    exact hst n sys dx steps[j] (sv j) (sv (j + 1)) hdx hd.1 hd.2 hF e h1.2.1 (h2.2.2 (Nat.succ_pos j))

/-! ### Helper lemmas: limits of runs -/

variable [CompleteSpace V] [MeasurableSpace V] [BorelSpace V] [SecondCountableTopology V]

/-- Limits in the mean of functions with values in a closed set have values in it. -/
theorem limit_values {D : Set V} (hD : IsClosed D) {t₀ S a b : ℝ} (u : ℕ → ℝ × ℝ → V) (w : ℝ × ℝ → V)
    (hu : ∀ r, IntegrableOn (u r) (cell t₀ S a b)) (huD : ∀ r, ∀ z ∈ cell t₀ S a b, u r z ∈ D)
    (hw : IntegrableOn w (cell t₀ S a b))
    (hlim : Tendsto (fun r => ∫ z in cell t₀ S a b, ‖u r z - w z‖) atTop (𝓝 0)) :
    ∀ᵐ z ∂volume.restrict (cell t₀ S a b), w z ∈ D := by
  have hm : TendstoInMeasure (volume.restrict (cell t₀ S a b)) u atTop w := by
    refine tendstoInMeasure_of_tendsto_eLpNorm (p := 1) one_ne_zero (fun r => (hu r).aestronglyMeasurable)
      hw.aestronglyMeasurable ?_
    have e : ∀ r, eLpNorm (u r - w) 1 (volume.restrict (cell t₀ S a b)) =
        ENNReal.ofReal (∫ z in cell t₀ S a b, ‖u r z - w z‖) := by
      intro r
      rw [eLpNorm_one_eq_lintegral_enorm]
      exact (ofReal_integral_norm_eq_lintegral_enorm ((hu r).sub hw)).symm
    simp only [e]
    have := (ENNReal.continuous_ofReal.tendsto 0).comp hlim
    rwa [ENNReal.ofReal_zero] at this
  obtain ⟨ns, -, hae⟩ := hm.exists_seq_tendsto_ae
  filter_upwards [hae, ae_restrict_mem (cell_measurable t₀ S a b)] with z hz hzc
  exact hD.mem_of_tendsto hz (Eventually.of_forall fun r => huD _ z hzc)

/-- Test functions of any sign differ by a multiple of another one from some that are not negative. -/
theorem signed {P S : ℝ} {φ φt φx : ℝ → ℝ → ℝ} (h : TestFunction P S φ φt φx) : ∃ A B M : ℝ, 0 ≤ M ∧
    Test P S A B (fun t x => φ t x + M * (S - t)) (fun t x => φt t x - M) φx ∧
    Test P S A B (fun t _ => M * (S - t)) (fun _ _ => -M) (fun _ _ => 0) := by
  obtain ⟨A, hA⟩ := h.bounded
  obtain ⟨B, hB⟩ := h.lipschitz
  have hA0 : 0 ≤ A := (abs_nonneg _).trans (hA 0 0).1
  have hd : ∀ t : ℝ, HasDerivAt (fun s : ℝ => A * (S - s)) (-A) t := fun t => by
    have := ((hasDerivAt_id t).const_sub S).const_mul A
    simpa using this
  refine ⟨A, |B|, A, hA0, ⟨?_, ?_, ?_, ?_, ?_, ?_, fun t x => (hA t x).2, ?_⟩, ⟨?_, ?_, ?_, ?_, ?_, ?_, ?_, ?_⟩⟩
  · intro t ht x
    have hb : ‖φ S x - φ t x‖ ≤ A * ‖S - t‖ :=
      Convex.norm_image_sub_le_of_norm_hasDerivWithin_le (s := univ) (f := fun s => φ s x) (f' := fun s => φt s x)
        (fun s _ => (h.time s x).hasDerivWithinAt) (fun s _ => (hA s x).1) convex_univ (mem_univ _) (mem_univ _)
    rw [h.final, zero_sub, norm_neg, Real.norm_eq_abs, Real.norm_eq_abs, abs_of_nonneg (by linarith : 0 ≤ S - t)] at hb
    have := neg_abs_le (φ t x)
    show 0 ≤ φ t x + A * (S - t)
    linarith
  · intro x; simp [h.final]
  · intro t x; simp only [h.periodic]
  · intro t x
    have := (h.time t x).add (hd t)
    exact this
  · intro t x
    exact (h.space t x).add_const _
  · exact h.continuous.sub continuous_const
  · intro t s x y
    exact (hB t s x y).trans (mul_le_mul_of_nonneg_right (le_abs_self B) (by positivity))
  · intro t ht x
    exact mul_nonneg hA0 (by linarith)
  · intro x; simp
  · intro t x; rfl
  · intro t x; exact hd t
  · intro t x; exact hasDerivAt_const _ _
  · exact continuous_const
  · intro t x; simpa using hA0
  · intro t s x y
    simp only [sub_self, abs_zero]
    positivity

theorem weak_limit (T : Tableau ℝ) (hT : ∑ l ∈ Finset.range T.size, T.b l = 1) {Q : V → V} {D : Set V}
    {C L R R' c P a t₀ S : ℝ} (hC : 0 ≤ C) (hL : 0 ≤ L) (hR0 : 0 ≤ R) (hc : 0 ≤ c)
    (hP : 0 < P) (hQ : Measurable Q) (hR : ∀ v ∈ D, ‖Q v‖ ≤ R) (hR' : ∀ v ∈ D, ‖v‖ ≤ R') (hDc : IsClosed D)
    (hlip : ∀ v ∈ D, ∀ v' ∈ D, ‖Q v - Q v'‖ ≤ L * ‖v - v'‖)
    (N : ℕ → ℕ) (hN : Tendsto N atTop atTop) (hN0 : ∀ r, 0 < N r)
    (sys : (r : ℕ) → ℝ → (Fin (N r) → V) → Except Py.Error (Fin (N r) → V))
    (hF : ∀ r, FluxForm (sys r) (P / N r) Q D C) (u : ℕ → ℝ × ℝ → V) (u0 : ℕ → ℝ → V)
    (h : ∀ r, RunWithin T (sys r) D c a (P / N r) t₀ S (u r) (u0 r))
    (w : ℝ × ℝ → V) (f : ℝ → V) (hw : IntegrableOn w (Ioc t₀ S ×ˢ Ioc a (a + P))) (hf : IntegrableOn f (Ioc a (a + P)))
    (hlim : Tendsto (fun r => ∫ z in Ioc t₀ S ×ˢ Ioc a (a + P), ‖u r z - w z‖) atTop (𝓝 0))
    (hlim0 : Tendsto (fun r => ∫ x in Ioc a (a + P), ‖u0 r x - f x‖) atTop (𝓝 0)) : WeakSolution Q a P t₀ S w f := by
  obtain ⟨C', hC', hgrid⟩ := run_grid T hT hC hL hc hlip
  have hdx : ∀ r, 0 < P / (N r : ℝ) := fun r => div_pos hP (by exact_mod_cast hN0 r)
  have hNP : ∀ r, (N r : ℝ) * (P / N r) = P := fun r => by
    have : (N r : ℝ) ≠ 0 := by exact_mod_cast (hN0 r).ne'
    field_simp
  have G := fun r => hgrid (N r) (sys r) a (P / N r) t₀ S (u r) (u0 r) (hdx r) (hF r) (h r)
  choose steps states hsteps hsum hG using G
  change IntegrableOn w (cell t₀ S a (a + P)) at hw
  have hval : ∀ r, ∀ z ∈ cell t₀ S a (a + P), u r z ∈ D := by
    intro r z hz
    refine (hG r).values z ?_
    rwa [hsum, hNP]
  have hint : ∀ r, IntegrableOn (u r) (cell t₀ S a (a + P)) := by
    intro r
    have := (hG r).integrable (fun v _ => v) (fun v => continuous_const)
    rwa [hsum, hNP] at this
  have hwD := limit_values hDc u w hint hval hw hlim
  classical
  set w' : ℝ × ℝ → V := fun z => if w z ∈ D then w z else states 0 0 ⟨0, hN0 0⟩ with hw'
  have hww : w' =ᵐ[volume.restrict (cell t₀ S a (a + P))] w := by
    filter_upwards [hwD] with z hz
    rw [hw']
    exact if_pos hz
  have hwm : AEStronglyMeasurable w' (volume.restrict (cell t₀ S a (a + P))) :=
    hw.aestronglyMeasurable.congr hww.symm
  have hwD' : ∀ z ∈ cell t₀ S a (a + P), w' z ∈ D := by
    intro z _
    simp only [hw']
    split
    · assumption
    · exact (hG 0).range 0 (Nat.zero_le _) _
  have hlim' : Tendsto (fun r => ∫ z in cell t₀ S a (a + P), ‖u r z - w' z‖) atTop (𝓝 0) := by
    refine hlim.congr fun r => integral_congr_ae ?_
    filter_upwards [hww] with z hz
    rw [hz]
  have zero : ∀ {A B : ℝ} {φ φt φx : ℝ → ℝ → ℝ}, Test P S A B φ φt φx → defect Q a P t₀ S w' f φ φt φx = 0 :=
    fun hφ => grid_limit hC' hL hR0 hc hP hQ hR hR' hlip N hN steps states u u0 hN0 hsteps hsum hG w' f hwm hwD' hf hlim'
      hlim0 hφ
  intro φ φt φx hφ
  have e0 : (∫ z in Ioc t₀ S ×ˢ Ioc a (a + P), (φt z.1 z.2 • w z + φx z.1 z.2 • Q (w z))) =
      ∫ z in cell t₀ S a (a + P), (φt z.1 z.2 • w' z + φx z.1 z.2 • Q (w' z)) := by
    refine integral_congr_ae ?_
    filter_upwards [hww] with z hz
    rw [hz]
  obtain ⟨A, B, M, hM, h1, h2⟩ := signed hφ
  have z1 := zero h1
  have z2 := zero h2
  have i1 := (limit_integrable hQ hR hR' hwm hwD' hφ.continuous h1.slope_continuous).2
  have i2 := (limit_integrable hQ hR hR' hwm hwD' h2.continuous h2.slope_continuous).2
  have hfi : IntervalIntegrable f volume a (a + P) := by
    rw [intervalIntegrable_iff_integrableOn_Ioc_of_le (by linarith)]; exact hf
  have hφc : Continuous (φ t₀) := continuous_iff_continuousAt.2 fun x => (hφ.space t₀ x).continuousAt
  have j1 : IntervalIntegrable (fun x => φ t₀ x • f x) volume a (a + P) :=
    hfi.continuousOn_smul hφc.continuousOn
  have j2 : IntervalIntegrable (fun x => (M * (S - t₀)) • f x) volume a (a + P) := hfi.smul _
  unfold defect at z1 z2
  have s1 : (∫ z in Ioc t₀ S ×ˢ Ioc a (a + P), ((φt z.1 z.2 - M) • w' z + φx z.1 z.2 • Q (w' z))) =
      (∫ z in cell t₀ S a (a + P), (φt z.1 z.2 • w' z + φx z.1 z.2 • Q (w' z))) +
        ∫ z in cell t₀ S a (a + P), ((-M) • w' z + (0 : ℝ) • Q (w' z)) := by
    have := integral_add i1 i2
    rw [← this]
    refine integral_congr_ae (Eventually.of_forall fun z => ?_)
    simp only [sub_smul, neg_smul, zero_smul, add_zero]
    abel
  have s2 : (∫ x in a..a + P, (φ t₀ x + M * (S - t₀)) • f x) =
      (∫ x in a..a + P, φ t₀ x • f x) + ∫ x in a..a + P, (M * (S - t₀)) • f x := by
    rw [← intervalIntegral.integral_add j1 j2]
    exact intervalIntegral.integral_congr fun x _ => add_smul _ _ _
  rw [e0]
  rw [s1, s2] at z1
  have z2' : (∫ z in cell t₀ S a (a + P), ((-M) • w' z + (0 : ℝ) • Q (w' z))) +
      ∫ x in a..a + P, (M * (S - t₀)) • f x = 0 := z2
  rw [add_add_add_comm, z2', add_zero] at z1
  exact z1

/-! ### Helper lemmas: the fluxes -/

theorem law_eq (p : Problem) : law p = p.flux := by
  funext u
  cases p with
  | advection => rfl
  | burgers => simp only [law, Problem.flux]; ring

open Verif.SWE in
theorem waterFlux_eq {P : SWE.Params ℝ} {h0 H Q : ℝ} (he : P.eps ≤ h0) (u : State ℝ) (hu : u ∈ box h0 H Q) :
    fluxOf P u = waterFlux P.g u := by
  have : ¬u.1 < P.eps := not_lt.2 (he.trans hu.1)
  simp only [fluxOf, massFlux, momentumFlux, waterFlux, if_neg this]

open Verif.SWE in
theorem water_near {P : SWE.Params ℝ} {h0 H Q : ℝ} (hP : P.Good) (hrt : IsSqrt P.rt) (he : P.eps ≤ h0)
    (il ir : Option (ℝ → State ℝ)) (bc : BC ℝ (State ℝ)) (hbc : build (some reflect) ["periodic"] 1 il ir = .ok bc)
    (F : NumFlux (State ℝ)) (hF : F ∈ plainFluxes P ⟨none⟩ ++ (plainFluxes P ⟨none⟩).map (mcl P ⟨none⟩ bc)) :
    ∃ C : ℝ, ∀ n, 0 < n → F.dim / 2 = 1 ∧ NearFlux True F n (waterFlux P.g) (box h0 H Q) C := by
  have hg := hP.g_pos
  have plain : ∀ G ∈ plainFluxes P ⟨none⟩, ∃ C : ℝ, ∀ n, NearFlux True G n (fluxOf P) (box h0 H Q) C := by
    intro G hG
    simp only [plainFluxes, List.mem_cons, List.not_mem_nil, or_false] at hG
    rcases hG with rfl | rfl | rfl | rfl | rfl
    · exact ⟨_, near_lf hrt hg he⟩
    · exact ⟨_, near_low hP hrt he⟩
    · exact ⟨_, near_water_central hg he⟩
    · exact ⟨_, near_energy hg he⟩
    · exact ⟨_, near_diffusive hrt hg he⟩
  have hl : bc.left.length = 1 := build_radius ["periodic"] il ir bc hbc
  have spec := fun n hn => schemes_spec P hP none ⟨none⟩ rfl n hn bc hl
  have ends : ∀ G ∈ plainFluxes P ⟨none⟩, ∀ n, 0 < n → EndsAgree G n ∧ G.dim / 2 = 1 := by
    intro G hG n hn
    simp only [plainFluxes, List.mem_cons, List.not_mem_nil, or_false] at hG
    rcases hG with rfl | rfl | rfl | rfl | rfl
    · exact ((spec n hn).1 _ (by simp [twoPointSchemes])).2
    · exact ⟨lowOrder_endsAgree P hP ⟨none⟩ n (build_endsFlat P none ⟨none⟩ rfl n hn), by simp [lowOrder]⟩
    · exact ((spec n hn).1 _ (by simp [twoPointSchemes])).2
    · exact ((spec n hn).1 _ (by simp [twoPointSchemes])).2
    · exact ((spec n hn).1 _ (by simp [twoPointSchemes])).2
  rcases List.mem_append.1 hF with hF | hF
  · obtain ⟨C, hC⟩ := plain F hF
    exact ⟨C, fun n hn => ⟨(ends F hF n hn).2, (hC n).congr (waterFlux_eq he)⟩⟩
  · obtain ⟨G, hG, rfl⟩ := List.mem_map.1 hF
    obtain ⟨C, hC⟩ := plain G hG
    refine ⟨(fluxLip P h0 H Q + speedMax P h0 H Q) +
      (1 + 2 * barBound P h0 H Q) * (C + (fluxLip P h0 H Q + speedMax P h0 H Q)), fun n hn => ⟨(ends G hG n hn).2, ?_⟩⟩
    have hper := (SWE.periodic_extend il ir bc hbc [0] 1 one_pos rfl none).1
    exact ((near_mcl hP hrt he bc hl hn G (hC n)).of fun _ => ⟨hper, (ends G hG n hn).1⟩).congr (waterFlux_eq he)

/-! ### Helper lemmas: runs with the explicit Euler method -/

theorem euler_within {p : Problem} {m M dx : ℝ} {n : ℕ} (hm : p = .burgers → 0 < m) (hn : 0 < n) (hdx : 0 < dx)
    (wall il ir : Option (ℝ → ℝ)) (bc : BC ℝ ℝ) (hbc : build wall ["periodic"] 1 il ir = .ok bc) (steps : List ℝ)
    (hsteps : ∀ dt ∈ steps, Monotonic p m M dx dt) (s : Solver ℝ (Fin n → ℝ))
    (hs : ∀ i, m ≤ s.solution i ∧ s.solution i ≤ M) (a : ℝ) :
    ∃ u u0, Computed (forwardEuler ℝ) (vecRhs n (rhs (laxFriedrichs p.riemann) dx bc)) s steps a dx u u0 ∧
      RunWithin (forwardEuler ℝ) (vecRhs n (rhs (laxFriedrichs p.riemann) dx bc)) (Icc m M) (1 + |1 / M|) a dx s.time
        (s.time + steps.sum) u u0 := by
  have hmM : m ≤ M := (hs ⟨0, hn⟩).1.trans (hs ⟨0, hn⟩).2
  obtain ⟨g, hg, h0, h1⟩ := cells_periodic n hn wall il ir bc hbc
  obtain ⟨states, h⟩ := run_states (lf_twoPoint hm hmM).scheme _ g hg.middle h0 h1
    (fun dt t u hu => lf_system hm hdx bc g hg dt t u fun i => (hu i).1) (forwardEuler ℝ) (Or.inl rfl) _ steps
    (fun dt h => Monotonic.step hdx (hsteps dt h)) s ⟨hs, le_refl (EntropyLimit.jumps g s.solution)⟩
  obtain ⟨u, u0, hu⟩ := h.computed hdx (fun dt h => (hsteps dt h).1) a
  refine ⟨u, u0, hu, s, steps, rfl, rfl, fun dt h => ⟨(hsteps dt h).1, step_size hdx hmM (hsteps dt h)⟩, hs, ?_, hu.initial,
    hu.later⟩
  intro j hj
  obtain ⟨r1, s1, a1, b1, -⟩ := h.state j hj.le
  obtain ⟨r2, s2, a2, b2, -⟩ := h.state (j + 1) hj
  refine ⟨s2, a2, fun i => by rw [b2]; exact r2.1 i, ?_⟩
  rw [List.take_add_one, List.getElem?_eq_getElem hj, Option.toList_some, Verif.Solver.runE_snoc, a1] at a2
  simp only [Solver.executeE] at a2
  split at a2
  · cases a2
  · cases a2
    intro v hv i
    simp only [forwardEuler, List.range_one, List.map_cons, List.map_nil, List.mem_singleton] at hv
    rw [hv, stageValue]
    simp only [List.range_zero, List.map_nil, List.sum_nil, smul_zero, add_zero]
    rw [b1]
    exact r1.1 i

/-- The initial values of runs from cell averages. -/
theorem averages_near {V : ℝ} {points : List (ℝ × ℝ)}
    (hp : AveragingRule points) {d : Interval ℝ} (hd : d.a < d.b) {f G : ℝ → ℝ}
    (hf : ∀ x, f (x + (d.b - d.a)) = f x) (hG : Majorant f G (d.b - d.a) V) {n : ℕ} (hn : 0 < n) {mesh : UMesh ℝ}
    (hmesh : uniformMesh d n = .ok mesh) {u0 : ℝ → ℝ}
    (hu : ∀ (i : Fin n) (x : ℝ), d.a + i * ((d.b - d.a) / n) < x → x ≤ d.a + (i + 1) * ((d.b - d.a) / n) →
      u0 x = (cellAverages points mesh f).getD i 0) :
    ∫ x in Ioc d.a (d.a + (d.b - d.a)), |u0 x - f x| ≤ 2 * ((d.b - d.a) / n) * V := by
  have hn0 : (0 : ℝ) < n := by exact_mod_cast hn
  set dx := (d.b - d.a) / n with hdx'
  have hdx : 0 < dx := div_pos (by linarith) hn0
  obtain ⟨i1, i2⟩ := majorant_integral (by linarith) hG d.a dx
  rw [← i2]
  refine integral_mono_of_nonneg (Eventually.of_forall fun x => abs_nonneg _) i1 ?_
  filter_upwards [ae_restrict_mem measurableSet_Ioc] with x hx
  have hN : d.a + (d.b - d.a) = nodeAt d.a dx n := by
    simp only [nodeAt, hdx']
    field_simp
  obtain ⟨i, hi, d1, d2⟩ := interval_cover (nodeAt d.a dx) n x (by rw [nodeAt_zero]; exact hx.1) (by rw [← hN]; exact hx.2)
  have e := average_near hp hd hn hmesh hf hG ⟨i, hi⟩ x ⟨d1, d2⟩
  rw [hu ⟨i, hi⟩ x d1 (by rw [nodeAt_succ] at d2; exact d2)]
  refine e.trans ?_
  have hs := nodeAt_succ d.a dx i
  have g1 : G (nodeAt d.a dx (i + 1)) ≤ G (x + dx) := hG.mono (by
    rw [hs]; have : nodeAt d.a dx i = d.a + i * dx := rfl
    linarith)
  have g2 : G (x - dx) ≤ G (nodeAt d.a dx i) := hG.mono (by
    rw [hs] at d2; have : nodeAt d.a dx i = d.a + i * dx := rfl
    linarith)
  exact sub_le_sub g1 g2

/-! ### The property -/

/-- C136.  Theorem of Lax and Wendroff for the Lax-Friedrichs and the central scheme for linear advection and Burgers'
equation, with data of any sign and any Runge-Kutta method whose weights add up to one: if the computed functions stay
bounded and converge in the mean, and so do their initial values, then the limit is a weak solution with the limit of
the initial values as its data. -/
theorem C136_scalar (p : Problem) (F : NumFlux ℝ)
    (hF : F ∈ [laxFriedrichs (p.riemann : Riemann ℝ ℝ), central ℝ (p.riemann : Riemann ℝ ℝ).flux]) (T : Tableau ℝ)
    (hT : ∑ l ∈ Finset.range T.size, T.b l = 1) (m M c P a t₀ S : ℝ) (hc : 0 ≤ c) (hP : 0 < P)
    (wall : Option (ℝ → ℝ)) (il ir : Option (ℝ → ℝ)) (bc : BC ℝ ℝ) (hbc : build wall ["periodic"] 1 il ir = .ok bc)
    (n : ℕ → ℕ) (hn : ∀ r, 0 < n r) (hlim : Tendsto n atTop atTop) (u : ℕ → ℝ × ℝ → ℝ) (u0 : ℕ → ℝ → ℝ)
    (h : ∀ r, RunWithin T (vecRhs (n r) (rhs F (P / n r) bc)) (Icc m M) c a (P / n r) t₀ S (u r) (u0 r))
    (w : ℝ × ℝ → ℝ) (f : ℝ → ℝ) (hw : IntegrableOn w (Ioc t₀ S ×ˢ Ioc a (a + P))) (hf : IntegrableOn f (Ioc a (a + P)))
    (hlimw : Tendsto (fun r => ∫ z in Ioc t₀ S ×ˢ Ioc a (a + P), |u r z - w z|) atTop (𝓝 0))
    (hlimf : Tendsto (fun r => ∫ x in Ioc a (a + P), |u0 r x - f x|) atTop (𝓝 0)) :
    WeakSolution (law p) a P t₀ S w f := by
  rw [law_eq]
  have hs := slopeBound_pos m M
  have near : ∀ n, F.dim / 2 = 1 ∧ NearFlux True F n p.flux (Icc m M) (slopeBound m M) := by
    intro n
    simp only [List.mem_cons, List.not_mem_nil, or_false] at hF
    rcases hF with rfl | rfl
    · exact ⟨by simp [laxFriedrichs], near_laxFriedrichs p m M n⟩
    · exact ⟨by simp [central], near_central p m M n⟩
  have hb : ∀ v ∈ Icc m M, |v| ≤ slopeBound m M := fun v hv => by
    have := value_bound hv
    unfold slopeBound
    linarith
  refine weak_limit T hT (R := slopeBound m M ^ 2) (R' := slopeBound m M) hs.le hs.le (by positivity) hc hP (flux_measurable p) ?_ hb
    isClosed_Icc (fun v hv v' hv' => scalar_lipschitz p v hv v' hv') n hlim hn _
    (fun r => near_form (hn r) (near (n r)).1 (near (n r)).2 wall il ir bc hbc) u u0 h w f hw hf hlimw hlimf
  intro v hv
  have h1 := hb v hv
  have h2 : 1 ≤ slopeBound m M := by
    unfold slopeBound
    linarith [abs_nonneg m, abs_nonneg M]
  have h3 : v ^ 2 ≤ slopeBound m M ^ 2 := sq_le_sq.2 (by rwa [abs_of_pos hs])
  rw [Real.norm_eq_abs]
  cases p with
  | advection => simp only [Problem.flux]; nlinarith
  | burgers =>
    simp only [Problem.flux]
    rw [abs_of_nonneg (by positivity)]
    nlinarith

/-- C136.  The weights of the three integrators add up to one. -/
theorem C136_weights (T : Tableau ℝ) (hT : T ∈ [forwardEuler ℝ, heun ℝ, ssp3 ℝ]) :
    ∑ l ∈ Finset.range T.size, T.b l = 1 := by
  simp only [List.mem_cons, List.not_mem_nil, or_false] at hT
  rcases hT with rfl | rfl | rfl <;> norm_num [forwardEuler, heun, ssp3, Finset.sum_range_succ]

/-- C136.  The entropy solution to which the runs of C133 converge is a weak solution. -/
theorem C136_entropy (p : Problem) (m M V t₀ S : ℝ) (hm : p = .burgers → 0 < m) (hS : t₀ ≤ S) (d : Interval ℝ)
    (hd : d.a < d.b) (f G : ℝ → ℝ) (hfr : ∀ x, m ≤ f x ∧ f x ≤ M) (hf : ∀ x, f (x + (d.b - d.a)) = f x)
    (hG : Majorant f G (d.b - d.a) V) (w : ℝ × ℝ → ℝ) (hw : Solves p m M d f t₀ S w) :
    WeakSolution (law p) d.a (d.b - d.a) t₀ S w f := by
  obtain ⟨bc, hbc⟩ : ∃ bc : BC ℝ ℝ, build none ["periodic"] 1 none none = .ok bc := ⟨_, rfl⟩
  have hab : d.a + (d.b - d.a) = d.b := by ring
  have hrun : ∀ r : ℕ, ∃ u u0, ComputedBy p m M [(0, 2)] d f bc t₀ S (r + 1) u ∧
      RunWithin (forwardEuler ℝ) (vecRhs (r + 1) (rhs (laxFriedrichs p.riemann) ((d.b - d.a) / (r + 1 : ℕ)) bc)) (Icc m M)
        (1 + |1 / M|) d.a ((d.b - d.a) / (r + 1 : ℕ)) t₀ S u u0 ∧
      ∫ x in Ioc d.a (d.a + (d.b - d.a)), |u0 x - f x| ≤ 2 * ((d.b - d.a) / (r + 1 : ℕ)) * V := by
    intro r
    have hn : 0 < r + 1 := Nat.succ_pos r
    have hdx : 0 < (d.b - d.a) / (r + 1 : ℕ) := div_pos (by linarith) (by exact_mod_cast hn)
    obtain ⟨-, mesh, T, steps, -, hmesh, -, hmono, hsum, -⟩ :=
      runs_exist hm hS midpoint_rule hd hfr hf hG hbc (r + 1) hn
    have hinit : ∀ i : Fin (r + 1), m ≤ (cellAverages [(0, 2)] mesh f).getD i 0 ∧
        (cellAverages [(0, 2)] mesh f).getD i 0 ≤ M := fun i => by
      obtain ⟨hcells, hlt, -⟩ := uniform_cells hd hn hmesh
      exact (C58_basic [(0, 2)] mesh hlt midpoint_rule.sum midpoint_rule.pos midpoint_rule.inside f).2.2.1 i
        (by rw [hcells]; exact i.2) m M fun x _ _ => hfr x
    obtain ⟨u, u0, hu, hin⟩ := euler_within hm hn hdx none none none bc hbc steps hmono
      (Solver.init (fun i : Fin (r + 1) => (cellAverages [(0, 2)] mesh f).getD i 0) t₀) hinit d.a
    refine ⟨u, u0, ⟨mesh, _, steps, u0, hmesh, Or.inl rfl, hmono, hsum, hu⟩, ?_, ?_⟩
    · rw [← hsum]
      exact hin
    · exact averages_near midpoint_rule hd hf hG hn hmesh hu.initial
  choose u u0 h1 h2 h3 using hrun
  have hfm := majorant_measurable hG
  refine C136_scalar p _ (by simp) (forwardEuler ℝ) (by simp [forwardEuler]) m M (1 + |1 / M|) (d.b - d.a) d.a t₀ S
    (by positivity) (by linarith) none none none bc hbc (fun r => r + 1) (fun r => Nat.succ_pos r) (tendsto_add_atTop_nat 1)
    u u0 h2 w f (by rw [hab]; exact hw.1) ?_ ?_ ?_
  · refine Measure.integrableOn_of_bounded (M := max |m| |M|) measure_Ioc_lt_top.ne hfm.aestronglyMeasurable
      (Eventually.of_forall fun x => ?_)
    exact abs_le_max_abs_abs (hfr x).1 (hfr x).2
  · rw [hab, Metric.tendsto_atTop]
    intro η hη
    obtain ⟨N, hN⟩ := C133_converges p m M V t₀ S hm hS [(0, 2)] midpoint_rule d hd f G hfr hf hG none none none bc hbc w hw
      (η / 2) (by linarith)
    refine ⟨N, fun r hr => ?_⟩
    have := hN (r + 1) (by omega) (Nat.succ_pos r) (u r) (h1 r)
    rw [Real.dist_eq, sub_zero, abs_of_nonneg (integral_nonneg fun z => abs_nonneg _)]
    linarith
  · refine squeeze_zero (fun r => integral_nonneg fun x => abs_nonneg _) h3 ?_
    have h := (tendsto_const_div_atTop_nhds_zero_nat (2 * (d.b - d.a) * V)).comp (tendsto_add_atTop_nat 1)
    refine h.congr fun r => ?_
    simp only [Function.comp]
    ring

/-- C136.  Weak solutions conserve: on average over the time, there is as much as at the beginning. -/
theorem C136_total (q : V → V) (a P t₀ S : ℝ) (u : ℝ × ℝ → V) (u0 : ℝ → V) (h : WeakSolution q a P t₀ S u u0) :
    ∫ z in Ioc t₀ S ×ˢ Ioc a (a + P), u z = (S - t₀) • ∫ x in a..a + P, u0 x := by
  have := h (fun t _ => S - t) (fun _ _ => -1) (fun _ _ => 0)
    ⟨fun x => sub_self S, fun t x => rfl, fun t x => by simpa using (hasDerivAt_id t).const_sub S,
      fun t x => hasDerivAt_const _ _, continuous_const, ⟨1, fun t x => by simp⟩, ⟨0, fun t s x y => by simp⟩⟩
  simp only [zero_smul, add_zero, neg_smul, one_smul] at this
  rw [integral_neg, intervalIntegral.integral_smul] at this
  exact neg_add_eq_zero.1 this

open Verif.SWE in
/-- C136.  The same for the shallow water equations above a flat bottom: for the solvers `llf`, `low-order`, `central`,
`es`, `es1` and the limited solver with each of them as target, as long as the water is nowhere shallower than some
`h0 ≥ eps`. -/
theorem C136_water (P : SWE.Params ℝ) (hP : P.Good) (hrt : IsSqrt P.rt) (h0 H Q : ℝ) (he : P.eps ≤ h0)
    (il ir : Option (ℝ → State ℝ)) (bc : BC ℝ (State ℝ)) (hbc : build (some reflect) ["periodic"] 1 il ir = .ok bc)
    (F : NumFlux (State ℝ)) (hF : F ∈ plainFluxes P ⟨none⟩ ++ (plainFluxes P ⟨none⟩).map (mcl P ⟨none⟩ bc))
    (T : Tableau ℝ) (hT : ∑ l ∈ Finset.range T.size, T.b l = 1) (c L a t₀ S : ℝ) (hc : 0 ≤ c) (hL : 0 < L)
    (n : ℕ → ℕ) (hn : ∀ r, 0 < n r) (hlim : Tendsto n atTop atTop) (u : ℕ → ℝ × ℝ → State ℝ) (u0 : ℕ → ℝ → State ℝ)
    (h : ∀ r, RunWithin T (vecRhs (n r) (rhs F (L / n r) bc)) {v | h0 ≤ v.1 ∧ v.1 ≤ H ∧ |v.2| ≤ Q} c a (L / n r) t₀ S
      (u r) (u0 r))
    (w : ℝ × ℝ → State ℝ) (f : ℝ → State ℝ) (hw : IntegrableOn w (Ioc t₀ S ×ˢ Ioc a (a + L)))
    (hf : IntegrableOn f (Ioc a (a + L)))
    (hlimw : Tendsto (fun r => ∫ z in Ioc t₀ S ×ˢ Ioc a (a + L), ‖u r z - w z‖) atTop (𝓝 0))
    (hlimf : Tendsto (fun r => ∫ x in Ioc a (a + L), ‖u0 r x - f x‖) atTop (𝓝 0)) :
    WeakSolution (waterFlux P.g) a L t₀ S w f := by
  obtain ⟨C, hC⟩ := water_near (H := H) (Q := Q) hP hrt he il ir bc hbc F hF
  have hl : ∀ v ∈ box h0 H Q, ∀ v' ∈ box h0 H Q, ‖waterFlux P.g v - waterFlux P.g v'‖ ≤ fluxLip P h0 H Q * ‖v - v'‖ := by
    intro v hv v' hv'
    rw [← waterFlux_eq he v hv, ← waterFlux_eq he v' hv']
    exact water_lipschitz hP.g_pos he v hv v' hv'
  have hcl : IsClosed (box h0 H Q) :=
    (isClosed_le continuous_const continuous_fst).inter ((isClosed_le continuous_fst continuous_const).inter
      (isClosed_le continuous_snd.abs continuous_const))
  have hqm : Measurable (waterFlux P.g) := by
    unfold waterFlux
    fun_prop
  refine weak_limit T hT (C := |C|) (R := |fluxBound P h0 H Q|) (R' := |H| + |Q|) (abs_nonneg _) fluxLip_pos.le (abs_nonneg _) hc hL
    hqm (fun v hv => ?_) (fun v hv => ?_) hcl hl n hlim hn _ (fun r => near_form (hn r) (hC _ (hn r)).1 ((hC _ (hn r)).2.mono (le_abs_self C)) _ il ir bc hbc) u u0 h
    w f hw hf hlimw hlimf
  · rw [← waterFlux_eq he v hv]
    exact (flux_bounded hP.g_pos he hv).trans (le_abs_self _)
  · obtain ⟨b1, b2, b3⟩ := hv
    have : 0 ≤ v.1 := (P.eps_pos.trans_le (he.trans b1)).le
    rw [Prod.norm_def, Real.norm_eq_abs, Real.norm_eq_abs, abs_of_nonneg this]
    refine max_le ?_ ?_
    · linarith [le_abs_self H, abs_nonneg Q]
    · linarith [le_abs_self Q, abs_nonneg H]

/-! ### Examples -/

/-- Burgers' equation with the plateau on `[0, 1]` up to time 2, with a shock at the front edge: the entropy solution to
which the computed functions converge is a weak solution, and its total, on average over the time, is that of the data. -/
example : ∃ w, Solves .burgers 1 2 ⟨0, 1⟩ (fun x => plateau (Int.fract x)) 0 2 w ∧
    WeakSolution (law .burgers) 0 1 0 2 w (fun x => plateau (Int.fract x)) ∧
    ∫ z in Ioc 0 2 ×ˢ Ioc 0 (0 + 1), w z = ((2 : ℝ) - 0) • ∫ x in (0 : ℝ)..0 + 1, plateau (Int.fract x) := by
  have hr : ∀ x, (1 : ℝ) ≤ plateau (Int.fract x) ∧ plateau (Int.fract x) ≤ 2 := fun x => by
    unfold plateau
    split_ifs <;> norm_num
  have e : ((⟨0, 1⟩ : Interval ℝ).b - (⟨0, 1⟩ : Interval ℝ).a) = 1 := by simp
  have hper : ∀ x, plateau (Int.fract (x + ((⟨0, 1⟩ : Interval ℝ).b - (⟨0, 1⟩ : Interval ℝ).a))) = plateau (Int.fract x) :=
    fun x => by rw [e, Int.fract_add_one]
  have hG := plateau_majorant
  rw [← e] at hG
  obtain ⟨⟨w, hw⟩, -⟩ := C133_solution .burgers 1 2 2 0 2 (by norm_num) (by norm_num) ⟨0, 1⟩ (by norm_num) _ _ hr hper hG
  have := C136_entropy .burgers 1 2 2 0 2 (by norm_num) (by norm_num) ⟨0, 1⟩ (by norm_num) _ _ hr hper hG w hw
  rw [e] at this
  exact ⟨w, hw, this, C136_total _ _ _ _ _ _ _ this⟩

open Verif.SWE in
/-- Moving water of height 2 and discharge 1 above a flat bottom, computed with the limited solver and the target `es1`
and the explicit Euler method: the hypotheses of `C136_water` hold. -/
example (il ir : Option (ℝ → State ℝ)) (bc : BC ℝ (State ℝ)) (hbc : build (some reflect) ["periodic"] 1 il ir = .ok bc) :
    ∀ r : ℕ, RunWithin (forwardEuler ℝ) (vecRhs (r + 1) (rhs (mcl (realParams 1 (1 / 10) (by norm_num)) ⟨none⟩ bc
      (diffusiveFlux (realParams 1 (1 / 10) (by norm_num)) ⟨none⟩)) (1 / (r + 1 : ℕ)) bc))
      {v | 1 ≤ v.1 ∧ v.1 ≤ 3 ∧ |v.2| ≤ 1} 1 0 (1 / (r + 1 : ℕ)) 0 1 (fun _ => (2, 1)) (fun _ => (2, 1)) := by
  intro r
  have hn : 0 < r + 1 := Nat.succ_pos r
  have hn0 : ((r + 1 : ℕ) : ℝ) ≠ 0 := by exact_mod_cast hn.ne'
  have hdx : (1 : ℝ) / (r + 1 : ℕ) ≠ 0 := by positivity
  have hz := (C123_uniform (realParams 1 (1 / 10) (by norm_num)) (realParams_good _ _ (by norm_num) _) none (Or.inl rfl)
    ⟨none⟩ rfl (2, 1) (by norm_num) ["periodic"] il ir (Or.inl rfl) bc hbc (r + 1) hn
    (mcl (realParams 1 (1 / 10) (by norm_num)) ⟨none⟩ bc (diffusiveFlux (realParams 1 (1 / 10) (by norm_num)) ⟨none⟩))
    (List.mem_append_right _ (List.mem_map_of_mem (by simp [plainFluxes]))) _ hdx).1
  set sys := vecRhs (r + 1) (rhs (mcl (realParams 1 (1 / 10) (by norm_num)) ⟨none⟩ bc
      (diffusiveFlux (realParams 1 (1 / 10) (by norm_num)) ⟨none⟩)) (1 / ((r + 1 : ℕ) : ℝ)) bc) with hsys
  have hs : ∀ t, sys t (fun _ => ((2, 1) : State ℝ)) = .ok 0 := by
    intro t
    rw [hsys]
    unfold vecRhs
    rw [List.ofFn_const, hz t]
    simp only [List.length_replicate, dif_pos]
    congr 1
    funext i
    simp
  have hin : ∀ i : Fin (r + 1), ((fun _ => (2, 1) : Fin (r + 1) → State ℝ) i) ∈ {v : State ℝ | 1 ≤ v.1 ∧ v.1 ≤ 3 ∧ |v.2| ≤ 1} :=
    fun i => by norm_num
  have hrun := fun steps => runE_equilibrium (forwardEuler ℝ) sys (fun _ => ((2, 1) : State ℝ)) hs
    (Solver.init (fun _ => ((2, 1) : State ℝ)) 0) rfl steps
  refine ⟨Solver.init (fun _ => ((2, 1) : State ℝ)) 0, List.replicate (r + 1) (1 / ((r + 1 : ℕ) : ℝ)), rfl, ?_, ?_, hin, ?_, ?_, ?_⟩
  · simp only [List.sum_replicate, nsmul_eq_mul]
    field_simp
    ring
  · intro dt h
    obtain rfl := List.eq_of_mem_replicate h
    exact ⟨by positivity, by rw [one_mul]⟩
  · intro j hj
    obtain ⟨s1, a1, b1, -⟩ := hrun ((List.replicate (r + 1) (1 / ((r + 1 : ℕ) : ℝ))).take j)
    obtain ⟨s2, a2, b2, -⟩ := hrun ((List.replicate (r + 1) (1 / ((r + 1 : ℕ) : ℝ))).take (j + 1))
    refine ⟨s2, a2, fun i => by rw [b2]; exact hin i, ?_⟩
    rw [List.take_add_one, List.getElem?_eq_getElem hj, Option.toList_some, Verif.Solver.runE_snoc, a1] at a2
    simp only [Solver.executeE] at a2
    split at a2
    · cases a2
    · cases a2
      intro v hv i
      simp only [forwardEuler, List.range_one, List.map_cons, List.map_nil, List.mem_singleton] at hv
      rw [hv, stageValue]
      simp only [List.range_zero, List.map_nil, List.sum_nil, smul_zero, add_zero]
      rw [b1]
      exact hin i
  · exact fun i x _ _ => rfl
  · intro j hj
    obtain ⟨s1, a1, b1, -⟩ := hrun ((List.replicate (r + 1) (1 / ((r + 1 : ℕ) : ℝ))).take j)
    exact ⟨s1, a1, fun i t x _ _ _ _ => by rw [b1]⟩

end Verif.WeakLimit
