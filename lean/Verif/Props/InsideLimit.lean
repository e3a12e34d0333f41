import Verif.Props.WeakInside
import Verif.Props.LaxWendroff

/-!
Helper lemmas for C139: limits of computed functions away from the ends of the domain.
-/

set_option linter.unusedSectionVars false

namespace Verif.WeakLimit

open Verif.Py Verif.Boundary Verif.FV Verif.ODE Verif.Weak Verif.EntropyLimit
open MeasureTheory Set Filter Topology

variable {V : Type*} [NormedAddCommGroup V] [NormedSpace ℝ V] [CompleteSpace V]

/-- The defect of the computed function away from the ends. -/
theorem GridInside.defect_le {Q : V → V} {D : Set V} {C dx a t₀ : ℝ} {n : ℕ} {steps : List ℝ} {states : ℕ → Fin n → V}
    {u : ℝ × ℝ → V} {u0 : ℝ → V} (h : GridInside Q D C dx a t₀ n steps states u u0) (hC : 0 ≤ C)
    (hn : 0 < n) (hdx : 0 < dx) (hpos : ∀ dt ∈ steps, 0 ≤ dt) (δ : ℝ) (hδ : ∀ dt ∈ steps, dt ≤ δ) (hδ0 : 0 ≤ δ)
    (R : ℝ) (hR : ∀ v ∈ D, ‖Q v‖ ≤ R) (hR0 : 0 ≤ R)
    {A B : ℝ} {φ φt φx φ' φt' φx' : ℝ → ℝ → ℝ} (hφ : Test (n * dx) (t₀ + steps.sum) A B φ φt φx)
    (hφ' : Test (n * dx) (t₀ + steps.sum) A B φ' φt' φx') (htw : Twins a (a + n * dx) dx φt φx φt' φx') :
    ‖defect Q a (n * dx) t₀ (t₀ + steps.sum) u u0 φ φt φx - defect Q a (n * dx) t₀ (t₀ + steps.sum) u u0 φ' φt' φx'‖ ≤
      2 * (A * C * (∑ j ∈ Finset.range steps.length,
        (after t₀ steps (j + 1) - after t₀ steps j) * dx * (jumps (states j) + 1)) +
        steps.sum * (n * dx * R * (B * (2 * δ + 3 * dx)))) := by
  set d := defect Q a (n * dx) t₀ (t₀ + steps.sum) u u0 φ φt φx -
    defect Q a (n * dx) t₀ (t₀ + steps.sum) u u0 φ' φt' φx' with hd
  obtain ⟨l, hl, hl'⟩ := exists_dual_vector'' ℝ d
  have hA := hφ.nonneg_A
  have hB := hφ.nonneg_B
  have hP : 0 ≤ n * dx := by positivity
  have e1 : ∀ {φ φt φx : ℝ → ℝ → ℝ}, Test (n * dx) (t₀ + steps.sum) A B φ φt φx → _ := fun {φ φt φx} hφ =>
    component (-l) (Q := Q) hP
    (h.integrable (fun v z => φt z.1 z.2 • v + φx z.1 z.2 • Q v) fun v =>
      (hφ.continuous.smul continuous_const).add (hφ.slope_continuous.smul continuous_const))
    (h.initial_integrable (fun v x => φ t₀ x • v) fun v => (hφ.space_continuous t₀).smul continuous_const)
  have e2 := h.lower hn hdx hpos δ hδ R hR (-l) hφ hφ' htw
  rw [← e1 hφ, ← e1 hφ', norm_neg, ← map_sub] at e2
  have e3 : (-l) d = -‖d‖ := by
    rw [ContinuousLinearMap.neg_apply, hl']
    simp
  rw [e3] at e2
  have e4 := neg_le_neg_iff.1 e2
  refine e4.trans (mul_le_mul_of_nonneg_left (add_le_add ?_ ?_) (by norm_num))
  · refine mul_le_mul_of_nonneg_right ?_ (Finset.sum_nonneg fun j _ => ?_)
    · exact mul_le_mul_of_nonneg_left (mul_le_of_le_one_left hC hl) hA
    · exact mul_nonneg (mul_nonneg (sub_nonneg.2 (after_mono t₀ steps hpos (Nat.le_succ j))) hdx.le)
        (by linarith [jumps_nonneg (states j)])
  · have hs : 0 ≤ steps.sum := List.sum_nonneg hpos
    refine mul_le_mul_of_nonneg_left (mul_le_mul_of_nonneg_right ?_ (by positivity)) hs
    exact mul_le_mul_of_nonneg_left (mul_le_of_le_one_left hR0 hl) hP

variable [MeasurableSpace V] [BorelSpace V] [SecondCountableTopology V]

/-- Limits of the computed functions have the same defect for two test functions that differ by a constant near the
ends. -/
theorem grid_inside {Q : V → V} {D : Set V} {C L R R' c P a t₀ S : ℝ} (hC : 0 ≤ C) (hL : 0 ≤ L) (hR0 : 0 ≤ R) (hc : 0 ≤ c)
    (hP : 0 < P) (hQ : Measurable Q) (hR : ∀ v ∈ D, ‖Q v‖ ≤ R) (hR' : ∀ v ∈ D, ‖v‖ ≤ R')
    (hlip : ∀ v ∈ D, ∀ v' ∈ D, ‖Q v - Q v'‖ ≤ L * ‖v - v'‖)
    (N : ℕ → ℕ) (hN : Tendsto N atTop atTop) (steps : ℕ → List ℝ) (states : (r : ℕ) → ℕ → Fin (N r) → V)
    (u : ℕ → ℝ × ℝ → V) (u0 : ℕ → ℝ → V) (hN0 : ∀ r, 0 < N r)
    (hsteps : ∀ r, ∀ dt ∈ steps r, 0 ≤ dt ∧ dt ≤ c * (P / N r)) (hsum : ∀ r, t₀ + (steps r).sum = S)
    (h : ∀ r, GridInside Q D C (P / N r) a t₀ (N r) (steps r) (states r) (u r) (u0 r))
    (w : ℝ × ℝ → V) (f : ℝ → V) (hw : AEStronglyMeasurable w (volume.restrict (cell t₀ S a (a + P))))
    (hwD : ∀ z ∈ cell t₀ S a (a + P), w z ∈ D) (hf : IntegrableOn f (Ioc a (a + P)))
    (hlim : Tendsto (fun r => ∫ z in cell t₀ S a (a + P), ‖u r z - w z‖) atTop (𝓝 0))
    (hlim0 : Tendsto (fun r => ∫ x in Ioc a (a + P), ‖u0 r x - f x‖) atTop (𝓝 0))
    {A B : ℝ} {φ φt φx φ' φt' φx' : ℝ → ℝ → ℝ} (hφ : Test P S A B φ φt φx) (hφ' : Test P S A B φ' φt' φx')
    {δ₀ : ℝ} (hδ₀ : 0 < δ₀) (htw : Twins a (a + P) δ₀ φt φx φt' φx') :
    defect Q a P t₀ S w f φ φt φx - defect Q a P t₀ S w f φ' φt' φx' = 0 := by
  have hA := hφ.nonneg_A
  have hB := hφ.nonneg_B
  obtain ⟨hwi, hwd⟩ := limit_integrable hQ hR hR' hw hwD hφ.continuous hφ.slope_continuous
  obtain ⟨-, hwd'⟩ := limit_integrable hQ hR hR' hw hwD hφ'.continuous hφ'.slope_continuous
  have bt : ∀ {φ φt φx : ℝ → ℝ → ℝ}, Test P S A B φ φt φx → ∃ Ct Φ : ℝ, (∀ z ∈ Icc t₀ S ×ˢ Icc a (a + P),
      ‖φt z.1 z.2‖ ≤ Ct) ∧ ∀ x ∈ Icc a (a + P), ‖φ t₀ x‖ ≤ Φ := by
    intro φ φt φx hφ
    obtain ⟨Ct, hCt⟩ := (isCompact_Icc.prod isCompact_Icc :
      IsCompact (Icc t₀ S ×ˢ Icc a (a + P))).exists_bound_of_continuousOn hφ.continuous.continuousOn
    obtain ⟨Φ, hΦ⟩ := (isCompact_Icc : IsCompact (Icc a (a + P))).exists_bound_of_continuousOn
      (hφ.space_continuous t₀).continuousOn
    exact ⟨Ct, Φ, hCt, hΦ⟩
  obtain ⟨Ct, Φ, hCt, hΦ⟩ := bt hφ
  obtain ⟨Ct', Φ', hCt', hΦ'⟩ := bt hφ'
  have hNP : ∀ r, (N r : ℝ) * (P / N r) = P := fun r => by
    have : (N r : ℝ) ≠ 0 := by exact_mod_cast (hN0 r).ne'
    field_simp
  have hpos : ∀ r, 0 < P / (N r : ℝ) := fun r => div_pos hP (by exact_mod_cast hN0 r)
  have hdx : Tendsto (fun r => P / (N r : ℝ)) atTop (𝓝 0) :=
    (tendsto_const_nhds (x := P)).div_atTop (tendsto_natCast_atTop_atTop.comp hN)
  have bound : ∀ κ > 0, ‖defect Q a P t₀ S w f φ φt φx - defect Q a P t₀ S w f φ' φt' φx'‖ ≤
      2 * (A * C * (2 * κ + (S - t₀) * (2 * κ * P))) := by
    intro κ hκ
    obtain ⟨g, hgs, hgκ, hgc, hgi⟩ := Integrable.exists_hasCompactSupport_integral_sub_le
      (μ := volume.restrict (cell t₀ S a (a + P))) hwi hκ
    have huc := hgs.uniformContinuous_of_continuous hgc
    rw [Metric.uniformContinuous_iff] at huc
    obtain ⟨δ, hδ, hgδ⟩ := huc κ hκ
    have ev : ∀ᶠ r in atTop, ‖defect Q a P t₀ S w f φ φt φx - defect Q a P t₀ S w f φ' φt' φx'‖ ≤
        2 * (A * C * (2 * ((∫ z in cell t₀ S a (a + P), ‖u r z - w z‖) + κ) +
            (S - t₀) * (2 * κ * P + (2 * R' + 1) * (P / N r))) +
          (S - t₀) * (P * R * (B * (2 * (c * (P / N r)) + 3 * (P / N r))))) +
        (((Ct + A * L) * (∫ z in cell t₀ S a (a + P), ‖u r z - w z‖) + Φ * ∫ x in Ioc a (a + P), ‖u0 r x - f x‖) +
          ((Ct' + A * L) * (∫ z in cell t₀ S a (a + P), ‖u r z - w z‖) + Φ' * ∫ x in Ioc a (a + P), ‖u0 r x - f x‖)) := by
      have s1 : ∀ᶠ r in atTop, P / (N r : ℝ) < δ := hdx.eventually (gt_mem_nhds hδ)
      have s2 : ∀ᶠ r in atTop, c * (P / (N r : ℝ)) < δ := by
        have := hdx.const_mul c
        rw [mul_zero] at this
        exact this.eventually (gt_mem_nhds hδ)
      have s3 : ∀ᶠ r in atTop, P / (N r : ℝ) < δ₀ := hdx.eventually (gt_mem_nhds hδ₀)
      filter_upwards [s1, s2, s3] with r h1 h2 h3
      have hs : (steps r).sum = S - t₀ := by linarith [hsum r]
      have hr := h r
      have i1 := hr.integrable (fun v _ => v) fun v => continuous_const
      have i2 := hr.integrable (fun v z => φt z.1 z.2 • v + φx z.1 z.2 • Q v) fun v =>
        (hφ.continuous.smul continuous_const).add (hφ.slope_continuous.smul continuous_const)
      have i2' := hr.integrable (fun v z => φt' z.1 z.2 • v + φx' z.1 z.2 • Q v) fun v =>
        (hφ'.continuous.smul continuous_const).add (hφ'.slope_continuous.smul continuous_const)
      have i3 := hr.initial_integrable (fun v _ => v) fun v => continuous_const
      have hmem := hr.values
      have f1 : Test (N r * (P / N r)) (t₀ + (steps r).sum) A B φ φt φx := by rw [hNP, hsum]; exact hφ
      have f2 : Test (N r * (P / N r)) (t₀ + (steps r).sum) A B φ' φt' φx' := by rw [hNP, hsum]; exact hφ'
      have f3 : Twins a (a + N r * (P / N r)) (P / N r) φt φx φt' φx' := by
        rw [hNP]
        intro t x hx hx'
        exact htw t x hx (hx'.imp (fun h => by linarith) fun h => by linarith)
      have d1 := hr.defect_le hC (hN0 r) (hpos r) (fun dt hdt => (hsteps r dt hdt).1) (c * (P / N r))
        (fun dt hdt => (hsteps r dt hdt).2) (mul_nonneg hc (hpos r).le) R hR hR0 f1 f2 f3
      obtain ⟨δ', hδ'1, hδ'2⟩ : ∃ δ', max (P / (N r : ℝ)) (c * (P / N r)) ≤ δ' ∧ δ' < δ :=
        ⟨_, le_rfl, max_lt h1 h2⟩
      have d2 := hr.jumps_small (hN0 r) (hpos r).le (fun dt hdt => (hsteps r dt hdt).1) (c * (P / N r))
        (fun dt hdt => (hsteps r dt hdt).2) R' hR' g hgc κ δ'
        (fun z z' hz => by
          rw [← dist_eq_norm]
          exact (hgδ (lt_of_le_of_lt hz hδ'2)).le)
        ((le_max_left _ _).trans hδ'1) ((le_max_right _ _).trans hδ'1)
      rw [hNP, hsum] at i1 i2 i2' hmem d1 d2
      rw [hNP] at i3
      rw [hs] at d1 d2
      have d3 := defect_near hP.le hL hlip hφ i1 hwi i2 hwd hmem hwD i3 hf
        (fun z hz => hCt z (cell_subset _ _ _ _ hz)) (fun x hx => hΦ x (Ioc_subset_Icc_self hx))
      have d3' := defect_near hP.le hL hlip hφ' i1 hwi i2' hwd' hmem hwD i3 hf
        (fun z hz => hCt' z (cell_subset _ _ _ _ hz)) (fun x hx => hΦ' x (Ioc_subset_Icc_self hx))
      have d4 : ∫ z in cell t₀ S a (a + P), ‖u r z - g z‖ ≤
          (∫ z in cell t₀ S a (a + P), ‖u r z - w z‖) + κ := by
        refine le_trans ?_ (add_le_add le_rfl hgκ)
        have e := integral_add (i1.sub hwi).norm (hwi.sub hgi).norm
        refine le_trans ?_ (le_of_eq e)
        refine integral_mono (i1.sub hgi).norm ((i1.sub hwi).norm.add (hwi.sub hgi).norm) fun z => ?_
        have : u r z - g z = (u r z - w z) + (w z - g z) := by abel
        change ‖u r z - g z‖ ≤ ‖u r z - w z‖ + ‖w z - g z‖
        rw [this]
        exact norm_add_le _ _
      have hjs : ∑ j ∈ Finset.range (steps r).length, (after t₀ (steps r) (j + 1) - after t₀ (steps r) j) * (P / N r) *
          (jumps (states r j) + 1) = (∑ j ∈ Finset.range (steps r).length,
          (after t₀ (steps r) (j + 1) - after t₀ (steps r) j) * (P / N r) * jumps (states r j)) + (S - t₀) * (P / N r) := by
        have : (S - t₀) = ∑ j ∈ Finset.range (steps r).length, (after t₀ (steps r) (j + 1) - after t₀ (steps r) j) := by
          rw [Finset.sum_range_sub, after_zero, after_length, hsum]
        rw [this, Finset.sum_mul, ← Finset.sum_add_distrib]
        exact Finset.sum_congr rfl fun j _ => by ring
      rw [hjs] at d1
      have d5 : ‖defect Q a P t₀ S w f φ φt φx - defect Q a P t₀ S w f φ' φt' φx'‖ ≤
          ‖defect Q a P t₀ S (u r) (u0 r) φ φt φx - defect Q a P t₀ S (u r) (u0 r) φ' φt' φx'‖ +
          (‖defect Q a P t₀ S (u r) (u0 r) φ φt φx - defect Q a P t₀ S w f φ φt φx‖ +
            ‖defect Q a P t₀ S (u r) (u0 r) φ' φt' φx' - defect Q a P t₀ S w f φ' φt' φx'‖) := by
        set x := defect Q a P t₀ S (u r) (u0 r) φ φt φx
        set x' := defect Q a P t₀ S (u r) (u0 r) φ' φt' φx'
        set y := defect Q a P t₀ S w f φ φt φx
        set y' := defect Q a P t₀ S w f φ' φt' φx'
        have e : y - y' = (x - x') - ((x - y) - (x' - y')) := by abel
        rw [e]
        exact (norm_sub_le _ _).trans (add_le_add le_rfl (norm_sub_le _ _))
      refine d5.trans (add_le_add (d1.trans (mul_le_mul_of_nonneg_left
        (add_le_add (mul_le_mul_of_nonneg_left ?_ (mul_nonneg hA hC)) le_rfl) (by norm_num))) (add_le_add d3 d3'))
      linarith
    have lim : Tendsto (fun r =>
        2 * (A * C * (2 * ((∫ z in cell t₀ S a (a + P), ‖u r z - w z‖) + κ) +
            (S - t₀) * (2 * κ * P + (2 * R' + 1) * (P / N r))) +
          (S - t₀) * (P * R * (B * (2 * (c * (P / N r)) + 3 * (P / N r))))) +
        (((Ct + A * L) * (∫ z in cell t₀ S a (a + P), ‖u r z - w z‖) + Φ * ∫ x in Ioc a (a + P), ‖u0 r x - f x‖) +
          ((Ct' + A * L) * (∫ z in cell t₀ S a (a + P), ‖u r z - w z‖) + Φ' * ∫ x in Ioc a (a + P), ‖u0 r x - f x‖))) atTop
        (𝓝 (2 * (A * C * (2 * (0 + κ) + (S - t₀) * (2 * κ * P + (2 * R' + 1) * 0)) +
          (S - t₀) * (P * R * (B * (2 * (c * 0) + 3 * 0)))) + (((Ct + A * L) * 0 + Φ * 0) +
            ((Ct' + A * L) * 0 + Φ' * 0)))) := by
      refine Tendsto.add (Tendsto.const_mul _ (Tendsto.add ?_ ?_))
        (((hlim.const_mul _).add (hlim0.const_mul _)).add ((hlim.const_mul _).add (hlim0.const_mul _)))
      · exact (((hlim.add_const κ).const_mul 2).add ((((hdx.const_mul (2 * R' + 1)).const_add _)).const_mul _)).const_mul _
      · exact (((((hdx.const_mul c).const_mul 2).add (hdx.const_mul 3)).const_mul B).const_mul _).const_mul _
    refine (ge_of_tendsto lim ev).trans (le_of_eq ?_)
    ring
  have hST : 0 ≤ S - t₀ := by
    have := List.sum_nonneg fun dt hdt => (hsteps 0 dt hdt).1
    linarith [hsum 0]
  by_contra hne
  have hpos : 0 < ‖defect Q a P t₀ S w f φ φt φx - defect Q a P t₀ S w f φ' φt' φx'‖ := norm_pos_iff.2 hne
  set d := ‖defect Q a P t₀ S w f φ φt φx - defect Q a P t₀ S w f φ' φt' φx'‖ with hd
  set K := 2 * (A * C * (2 + (S - t₀) * (2 * P))) with hK
  have hK0 : 0 ≤ K := by positivity
  have := bound (d / (2 * (K + 1))) (by positivity)
  have e : 2 * (A * C * (2 * (d / (2 * (K + 1))) + (S - t₀) * (2 * (d / (2 * (K + 1))) * P))) = K * d / (2 * (K + 1)) := by
    rw [hK]; ring
  rw [e, le_div_iff₀ (by positivity)] at this
  nlinarith

/-! ### Runs -/

theorem run_inside (T : Tableau ℝ) (hT : ∑ l ∈ Finset.range T.size, T.b l = 1) {Q : V → V} {D : Set V} {C L c : ℝ}
    (hC : 0 ≤ C) (hL : 0 ≤ L) (hc : 0 ≤ c) (hlip : ∀ v ∈ D, ∀ v' ∈ D, ‖Q v - Q v'‖ ≤ L * ‖v - v'‖) :
    ∃ C' : ℝ, 0 ≤ C' ∧ ∀ (n : ℕ) (sys : ℝ → (Fin n → V) → Except Py.Error (Fin n → V)) (a dx t₀ S : ℝ)
      (u : ℝ × ℝ → V) (u0 : ℝ → V), 0 < n → 0 < dx → FluxInside sys dx Q D C → RunWithin T sys D c a dx t₀ S u u0 →
      ∃ steps states, (∀ dt ∈ steps, 0 ≤ dt ∧ dt ≤ c * dx) ∧ t₀ + steps.sum = S ∧
        GridInside Q D C' dx a t₀ n steps states u u0 := by
  obtain ⟨C', hC', hst⟩ := step_inside T hT hC hL hc hlip
  refine ⟨C', hC', ?_⟩
  rintro n sys a dx t₀ S u u0 hn hdx hF ⟨s, steps, ht, hS, hdt, h0, hrun, hu0, hu⟩
  have all : ∀ j, ∃ s' : Solver ℝ (Fin n → V), j ≤ steps.length → s.runE T sys (steps.take j) = .ok s' ∧
      (∀ i, s'.solution i ∈ D) ∧ (0 < j → ∀ v ∈ s'.stageValues, ∀ i, v i ∈ D) := by
    intro j
    cases j with
    | zero => exact ⟨s, fun _ => ⟨by simp [Solver.runE], h0, fun h => absurd h (lt_irrefl _)⟩⟩
    | succ j =>
      by_cases hj : j < steps.length
      · obtain ⟨s', h1, h2, h3⟩ := hrun j hj
        exact ⟨s', fun _ => ⟨h1, h2, fun _ => h3⟩⟩
      · exact ⟨s, fun h => absurd h (by omega)⟩
  choose sv hsv using all
  refine ⟨steps, fun j => (sv j).solution, hdt, hS, ⟨?_, ?_, ?_⟩, ?_⟩
  · exact fun j hj i => (hsv j hj).2.1 i
  · intro i x hx
    have e := (hsv 0 (Nat.zero_le _)).1
    simp only [List.take_zero, Solver.runE] at e
    rw [hu0 i x (by simpa [nodeAt] using hx.1) (by simpa [nodeAt] using hx.2)]
    rw [Except.ok.inj e]
  · intro j hj i z hz
    obtain ⟨s', h1, h2⟩ := hu j hj
    have e : s' = sv j := by
      have := (hsv j hj.le).1
      rw [h1] at this
      exact Except.ok.inj this
    have et : s'.time = after t₀ steps j := by
      rw [Verif.Solver.runE_time T sys s s' _ h1, ht]; rfl
    rw [← e]
    refine h2 i z.1 z.2 ?_ ?_ ?_ ?_
    · rw [et]; exact hz.1.1
    · rw [et, ← after_succ _ _ _ hj]; exact hz.1.2
    · simpa [nodeAt] using hz.2.1
    · simpa [nodeAt] using hz.2.2
  · intro j hj
    have h1 := (hsv j hj.le)
    have h2 := (hsv (j + 1) hj)
    have e : (sv j).executeE T sys steps[j] = .ok (sv (j + 1)) := by
      have := h2.1
      rw [List.take_add_one, List.getElem?_eq_getElem hj, Option.toList_some, Verif.Solver.runE_snoc, h1.1] at this
      exact this
    have hd := hdt _ (List.getElem_mem hj)
    exact hst n sys dx steps[j] (sv j) (sv (j + 1)) hn hdx hd.1 hd.2 hF e h1.2.1 (h2.2.2 (Nat.succ_pos j))

/-! ### Specification -/

/-- Weak solutions `u` of the conservation law with flux `q`, for the data `u0` at time `t₀`, between the ends `a` and
`a + P` of the domain: as `WeakSolution`, for the test functions that vanish near the two ends.  Nothing is said about what
happens at the ends. -/
def WeakInside (q : V → V) (a P t₀ S : ℝ) (u : ℝ × ℝ → V) (u0 : ℝ → V) : Prop :=
  ∀ φ φt φx, TestFunction P S φ φt φx →
    (∃ δ > 0, ∀ t x, a ≤ x → x ≤ a + P → x ≤ a + δ ∨ a + P - δ ≤ x → φ t x = 0) →
    (∫ z in Ioc t₀ S ×ˢ Ioc a (a + P), (φt z.1 z.2 • u z + φx z.1 z.2 • q (u z))) + ∫ x in a..a + P, φ t₀ x • u0 x = 0

/-! ### Helper lemmas: limits of runs -/

/-- Near the ends the derivatives of the test functions vanish. -/
theorem ends_twins {a P S : ℝ} (hP : 0 < P) {φ φt φx : ℝ → ℝ → ℝ} (h : TestFunction P S φ φt φx)
    (hends : ∃ δ > 0, ∀ t x, a ≤ x → x ≤ a + P → x ≤ a + δ ∨ a + P - δ ≤ x → φ t x = 0) (M : ℝ) :
    ∃ δ > 0, Twins a (a + P) δ (fun t x => φt t x - M) φx (fun _ _ => -M) fun _ _ => 0 := by
  obtain ⟨δ, hδ, hz⟩ := hends
  set η := min δ P with hη
  have h1 : 0 < η := lt_min hδ hP
  have h2 : η ≤ δ := min_le_left _ _
  have h3 : η ≤ P := min_le_right _ _
  refine ⟨η / 2, by linarith, ?_⟩
  intro t x hx hx'
  have zero : ∀ s, ∀ y, a < y → y < a + P + η → y < a + η ∨ a + P - η < y → φ s y = 0 := by
    intro s y y1 y2 y3
    by_cases hy : y ≤ a + P
    · exact hz s y y1.le hy (y3.imp (fun h => by linarith) fun h => by linarith)
    · have e : φ s y = φ s (y - P) := by
        have := h.periodic s (y - P)
        rwa [sub_add_cancel] at this
      rw [e]
      exact hz s _ (by linarith) (by linarith) (Or.inl (by linarith))
  have hxz : x < a + η ∨ a + P - η < x := hx'.imp (fun h => by linarith) fun h => by linarith
  have et : φt t x = 0 := by
    have e : (fun s => φ s x) = fun _ => 0 := funext fun s => zero s x hx.1 (by linarith [hx.2]) hxz
    have := h.time t x
    rw [e] at this
    exact this.unique (hasDerivAt_const t 0)
  have ex : φx t x = 0 := by
    have hev : φ t =ᶠ[𝓝 x] fun _ => 0 := by
      have n1 : ∀ᶠ y in 𝓝 x, a < y := lt_mem_nhds hx.1
      have n2 : ∀ᶠ y in 𝓝 x, y < a + P + η := gt_mem_nhds (by linarith [hx.2])
      have n3 : ∀ᶠ y in 𝓝 x, y < a + η ∨ a + P - η < y := by
        rcases hxz with h | h
        · filter_upwards [gt_mem_nhds h] with y hy using Or.inl hy
        · filter_upwards [lt_mem_nhds h] with y hy using Or.inr hy
      filter_upwards [n1, n2, n3] with y y1 y2 y3 using zero t y y1 y2 y3
    exact (h.space t x).unique ((hasDerivAt_const x 0).congr_of_eventuallyEq hev)
  refine ⟨?_, ex⟩
  change φt t x - M = -M
  rw [et, zero_sub]

theorem weak_inside (T : Tableau ℝ) (hT : ∑ l ∈ Finset.range T.size, T.b l = 1) {Q : V → V} {D : Set V}
    {C L R R' c P a t₀ S : ℝ} (hC : 0 ≤ C) (hL : 0 ≤ L) (hR0 : 0 ≤ R) (hc : 0 ≤ c)
    (hP : 0 < P) (hQ : Measurable Q) (hR : ∀ v ∈ D, ‖Q v‖ ≤ R) (hR' : ∀ v ∈ D, ‖v‖ ≤ R') (hDc : IsClosed D)
    (hlip : ∀ v ∈ D, ∀ v' ∈ D, ‖Q v - Q v'‖ ≤ L * ‖v - v'‖)
    (N : ℕ → ℕ) (hN : Tendsto N atTop atTop) (hN0 : ∀ r, 0 < N r)
    (sys : (r : ℕ) → ℝ → (Fin (N r) → V) → Except Py.Error (Fin (N r) → V))
    (hF : ∀ r, FluxInside (sys r) (P / N r) Q D C) (u : ℕ → ℝ × ℝ → V) (u0 : ℕ → ℝ → V)
    (h : ∀ r, RunWithin T (sys r) D c a (P / N r) t₀ S (u r) (u0 r))
    (w : ℝ × ℝ → V) (f : ℝ → V) (hw : IntegrableOn w (Ioc t₀ S ×ˢ Ioc a (a + P))) (hf : IntegrableOn f (Ioc a (a + P)))
    (hlim : Tendsto (fun r => ∫ z in Ioc t₀ S ×ˢ Ioc a (a + P), ‖u r z - w z‖) atTop (𝓝 0))
    (hlim0 : Tendsto (fun r => ∫ x in Ioc a (a + P), ‖u0 r x - f x‖) atTop (𝓝 0)) :
    WeakInside Q a P t₀ S w f := by
  obtain ⟨C', hC', hgrid⟩ := run_inside T hT hC hL hc hlip
  have hdx : ∀ r, 0 < P / (N r : ℝ) := fun r => div_pos hP (by exact_mod_cast hN0 r)
  have hNP : ∀ r, (N r : ℝ) * (P / N r) = P := fun r => by
    have : (N r : ℝ) ≠ 0 := by exact_mod_cast (hN0 r).ne'
    field_simp
  have G := fun r => hgrid (N r) (sys r) a (P / N r) t₀ S (u r) (u0 r) (hN0 r) (hdx r) (hF r) (h r)
  choose steps states hsteps hsum hG using G
  change IntegrableOn w (cell t₀ S a (a + P)) at hw
  have hval : ∀ r, ∀ z ∈ cell t₀ S a (a + P), u r z ∈ D := by
    intro r z hz
    refine (hG r).values z ?_
    rwa [hsum, hNP]
  have hint : ∀ r, IntegrableOn (u r) (cell t₀ S a (a + P)) := by
    intro r
    have := (hG r).integrable (fun v _ => v) (fun v => continuous_const)
    rwa [hsum, hNP] at this
  have hwD := limit_values hDc u w hint hval hw hlim
  classical
  set w' : ℝ × ℝ → V := fun z => if w z ∈ D then w z else states 0 0 ⟨0, hN0 0⟩ with hw'
  have hww : w' =ᵐ[volume.restrict (cell t₀ S a (a + P))] w := by
    filter_upwards [hwD] with z hz
    rw [hw']
    exact if_pos hz
  have hwm : AEStronglyMeasurable w' (volume.restrict (cell t₀ S a (a + P))) :=
    hw.aestronglyMeasurable.congr hww.symm
  have hwD' : ∀ z ∈ cell t₀ S a (a + P), w' z ∈ D := by
    intro z _
    simp only [hw']
    split
    · assumption
    · exact (hG 0).range 0 (Nat.zero_le _) _
  have hlim' : Tendsto (fun r => ∫ z in cell t₀ S a (a + P), ‖u r z - w' z‖) atTop (𝓝 0) := by
    refine hlim.congr fun r => integral_congr_ae ?_
    filter_upwards [hww] with z hz
    rw [hz]
  intro φ φt φx hφ hends
  have e0 : (∫ z in Ioc t₀ S ×ˢ Ioc a (a + P), (φt z.1 z.2 • w z + φx z.1 z.2 • Q (w z))) =
      ∫ z in cell t₀ S a (a + P), (φt z.1 z.2 • w' z + φx z.1 z.2 • Q (w' z)) := by
    refine integral_congr_ae ?_
    filter_upwards [hww] with z hz
    rw [hz]
  obtain ⟨A, B, M, hM, h1, h2⟩ := signed hφ
  obtain ⟨δ₀, hδ₀, htw⟩ := ends_twins hP hφ hends M
  have z := grid_inside hC' hL hR0 hc hP hQ hR hR' hlip N hN steps states u u0 hN0 hsteps hsum hG w' f hwm hwD' hf hlim'
    hlim0 h1 h2 hδ₀ htw
  have i1 := (limit_integrable hQ hR hR' hwm hwD' hφ.continuous h1.slope_continuous).2
  have i2 := (limit_integrable hQ hR hR' hwm hwD' h2.continuous h2.slope_continuous).2
  have hfi : IntervalIntegrable f volume a (a + P) := by
    rw [intervalIntegrable_iff_integrableOn_Ioc_of_le (by linarith)]; exact hf
  have hφc : Continuous (φ t₀) := continuous_iff_continuousAt.2 fun x => (hφ.space t₀ x).continuousAt
  have j1 : IntervalIntegrable (fun x => φ t₀ x • f x) volume a (a + P) :=
    hfi.continuousOn_smul hφc.continuousOn
  have j2 : IntervalIntegrable (fun x => (M * (S - t₀)) • f x) volume a (a + P) := hfi.smul _
  unfold defect at z
  have s1 : (∫ z in Ioc t₀ S ×ˢ Ioc a (a + P), ((φt z.1 z.2 - M) • w' z + φx z.1 z.2 • Q (w' z))) =
      (∫ z in cell t₀ S a (a + P), (φt z.1 z.2 • w' z + φx z.1 z.2 • Q (w' z))) +
        ∫ z in cell t₀ S a (a + P), ((-M) • w' z + (0 : ℝ) • Q (w' z)) := by
    have := integral_add i1 i2
    rw [← this]
    refine integral_congr_ae (Eventually.of_forall fun z => ?_)
    simp only [sub_smul, neg_smul, zero_smul, add_zero]
    abel
  have s2 : (∫ x in a..a + P, (φ t₀ x + M * (S - t₀)) • f x) =
      (∫ x in a..a + P, φ t₀ x • f x) + ∫ x in a..a + P, (M * (S - t₀)) • f x := by
    rw [← intervalIntegral.integral_add j1 j2]
    exact intervalIntegral.integral_congr fun x _ => add_smul _ _ _
  rw [e0]
  rw [s1, s2] at z
  have z' : ((∫ z in cell t₀ S a (a + P), (φt z.1 z.2 • w' z + φx z.1 z.2 • Q (w' z))) +
      (∫ z in cell t₀ S a (a + P), ((-M) • w' z + (0 : ℝ) • Q (w' z))) +
      ((∫ x in a..a + P, φ t₀ x • f x) + ∫ x in a..a + P, (M * (S - t₀)) • f x)) -
      ((∫ z in cell t₀ S a (a + P), ((-M) • w' z + (0 : ℝ) • Q (w' z))) + ∫ x in a..a + P, (M * (S - t₀)) • f x) = 0 := z
  rw [add_add_add_comm, add_sub_cancel_right] at z'
  exact z'

end Verif.WeakLimit
