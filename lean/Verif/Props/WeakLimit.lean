import Verif.Props.EntropyLimit
import Verif.Props.Butcher
import Mathlib.MeasureTheory.Function.ContinuousMapDense
import Mathlib.Analysis.Normed.Module.HahnBanach
import Mathlib.Topology.UniformSpace.HeineCantor
import Mathlib.Logic.Equiv.Fin.Rotate

/-!
Helper lemmas for C136: limits of the functions that a conservative scheme computes are weak solutions (the theorem of
Lax and Wendroff), in a form that knows nothing about the schemes.
-/

set_option linter.unusedSectionVars false

namespace Verif.WeakLimit

open Verif.Py Verif.ODE Verif.Weak Verif.EntropyLimit
open MeasureTheory Set

variable {V : Type*} [NormedAddCommGroup V] [NormedSpace ℝ V]

/-- The sum of the jumps between neighbours in a ring of cells. -/
noncomputable def jumps {n : ℕ} (v : Fin n → V) : ℝ := ∑ i, ‖v (finRotate n i) - v i‖

theorem jumps_nonneg {n : ℕ} (v : Fin n → V) : 0 ≤ jumps v := Finset.sum_nonneg fun _ _ => norm_nonneg _

/-- The jumps of two vectors differ by no more than twice their distance. -/
theorem jumps_near {n : ℕ} (v w : Fin n → V) : jumps v ≤ jumps w + 2 * ∑ i, ‖v i - w i‖ := by
  have h : ∀ i, ‖v (finRotate n i) - v i‖ ≤
      ‖w (finRotate n i) - w i‖ + (‖v (finRotate n i) - w (finRotate n i)‖ + ‖v i - w i‖) := by
    intro i
    have e : v (finRotate n i) - v i =
        (w (finRotate n i) - w i) + ((v (finRotate n i) - w (finRotate n i)) - (v i - w i)) := by abel
    rw [e]
    exact (norm_add_le _ _).trans (add_le_add le_rfl (norm_sub_le _ _))
  refine (Finset.sum_le_sum fun i _ => h i).trans ?_
  rw [Finset.sum_add_distrib, Finset.sum_add_distrib, Equiv.sum_comp (finRotate n) fun i => ‖v i - w i‖]
  unfold jumps
  linarith

theorem rotate_value {n : ℕ} (i : Fin n) : ((finRotate n i : Fin n) : ℕ) = if (i : ℕ) + 1 = n then 0 else (i : ℕ) + 1 := by
  cases n with
  | zero => exact i.elim0
  | succ m =>
    rcases eq_or_ne i (Fin.last m) with rfl | h
    · simp
    · rw [coe_finRotate_of_ne_last h, if_neg]
      intro h'
      exact h (Fin.ext (by simpa using h'))

theorem rotate_flux {n : ℕ} {H : ℕ → V} (h : H n = H 0) (i : Fin n) : H (finRotate n i : Fin n) = H (i + 1) := by
  rw [rotate_value]
  split_ifs with e
  · rw [e, h]
  · rfl

/-! ### The computed function on the grid -/

/-- What is known about a computed function: its values on the cells. -/
structure GridValues (D : Set V) (dx a t₀ : ℝ) (n : ℕ) (steps : List ℝ) (states : ℕ → Fin n → V)
    (u : ℝ × ℝ → V) (u0 : ℝ → V) : Prop where
  range : ∀ j ≤ steps.length, ∀ i, states j i ∈ D
  initial : ∀ (i : Fin n), ∀ x ∈ Ioc (nodeAt a dx i) (nodeAt a dx (i + 1)), u0 x = states 0 i
  later : ∀ j < steps.length, ∀ i : Fin n,
    ∀ z ∈ cell (after t₀ steps j) (after t₀ steps (j + 1)) (nodeAt a dx i) (nodeAt a dx (i + 1)), u z = states j i

/-- Moreover, every step is in conservation form with a flux near the one of the law. -/
structure Grid (Q : V → V) (D : Set V) (C dx a t₀ : ℝ) (n : ℕ) (steps : List ℝ) (states : ℕ → Fin n → V)
    (u : ℝ × ℝ → V) (u0 : ℝ → V) : Prop extends GridValues D dx a t₀ n steps states u u0 where
  step : ∀ j (hj : j < steps.length), ∃ H : ℕ → V, H n = H 0 ∧
    (∀ i : Fin n, states (j + 1) i = states j i - (steps[j] / dx) • (H (i + 1) - H i)) ∧
    ∑ i : Fin n, ‖H (i + 1) - Q (states j i)‖ ≤ C * jumps (states j)

/-- What a law says about a function, for one component. -/
noncomputable def balance (e q : V → ℝ) (a P t₀ S : ℝ) (u : ℝ × ℝ → V) (u0 : ℝ → V) (φ φt φx : ℝ → ℝ → ℝ) : ℝ :=
  (∫ z in cell t₀ S a (a + P), (e (u z) * φt z.1 z.2 + q (u z) * φx z.1 z.2)) + ∫ x in a..a + P, e (u0 x) * φ t₀ x

namespace GridValues

variable {D : Set V} {dx a t₀ : ℝ} {n : ℕ} {steps : List ℝ} {states : ℕ → Fin n → V}
  {u : ℝ × ℝ → V} {u0 : ℝ → V} (h : GridValues D dx a t₀ n steps states u u0)
include h

theorem values (z : ℝ × ℝ) (hz : z ∈ cell t₀ (t₀ + steps.sum) a (a + n * dx)) : u z ∈ D := by
  rw [← after_zero t₀ steps, ← after_length (after t₀ steps 0), ← nodeAt_zero a dx] at hz
  obtain ⟨⟨a1, a2⟩, b1, b2⟩ := hz
  rw [after_zero] at a2
  obtain ⟨j, hj, c1, c2⟩ := interval_cover _ _ z.1 a1 a2
  obtain ⟨i, hi, d1, d2⟩ := interval_cover (nodeAt a dx) n z.2 b1 (by rw [nodeAt_zero] at b2; exact b2)
  rw [h.later j hj ⟨i, hi⟩ z ⟨⟨c1, c2⟩, d1, d2⟩]
  exact h.range j hj.le _

/-- A continuous combination of the computed function is integrable. -/
theorem integrable {W : Type*} [NormedAddCommGroup W] (F : V → ℝ × ℝ → W) (hF : ∀ v, Continuous (F v)) :
    IntegrableOn (fun z => F (u z) z) (cell t₀ (t₀ + steps.sum) a (a + n * dx)) := by
  have : IntegrableOn (fun z => F (u z) z) (cell (after t₀ steps 0) (after t₀ steps steps.length)
      (nodeAt a dx 0) (nodeAt a dx n)) := by
    refine IntegrableOn.mono_set ?_ (cell_cover (after t₀ steps) (nodeAt a dx) steps.length n)
    rw [integrableOn_finset_iUnion]
    intro j hj
    rw [integrableOn_finset_iUnion]
    intro i hi
    rw [Finset.mem_range] at hj hi
    refine IntegrableOn.congr_fun (((hF (states j ⟨i, hi⟩)).continuousOn.integrableOn_compact
      (isCompact_Icc.prod isCompact_Icc)).mono_set (cell_subset _ _ _ _)) (fun z hz => ?_) (cell_measurable _ _ _ _)
    rw [h.later j hj ⟨i, hi⟩ z hz]
  rw [after_zero, after_length, nodeAt_zero] at this
  exact this

theorem initial_integrable {W : Type*} [NormedAddCommGroup W] (F : V → ℝ → W) (hF : ∀ v, Continuous (F v)) :
    IntegrableOn (fun x => F (u0 x) x) (Ioc a (a + n * dx)) := by
  have hsub : Ioc a (a + n * dx) ⊆ ⋃ i ∈ Finset.range n, Ioc (nodeAt a dx i) (nodeAt a dx (i + 1)) := by
    rintro x ⟨b1, b2⟩
    rw [← nodeAt_zero a dx] at b1
    obtain ⟨i, hi, d1, d2⟩ := interval_cover (nodeAt a dx) n x b1 b2
    simp only [mem_iUnion, Finset.mem_range]
    exact ⟨i, hi, d1, d2⟩
  refine IntegrableOn.mono_set ?_ hsub
  rw [integrableOn_finset_iUnion]
  intro i hi
  rw [Finset.mem_range] at hi
  refine IntegrableOn.congr_fun ((hF (states 0 ⟨i, hi⟩)).integrableOn_Ioc) (fun x hx => ?_) measurableSet_Ioc
  rw [h.initial ⟨i, hi⟩ x hx]

/-- The balance of the computed function is a sum over the cells. -/
theorem balance_eq (hn : 0 < n) (hdx : 0 ≤ dx) (hpos : ∀ dt ∈ steps, 0 ≤ dt) (e q : V → ℝ) {A B : ℝ}
    {φ φt φx : ℝ → ℝ → ℝ} (hφ : Test (n * dx) (t₀ + steps.sum) A B φ φt φx) :
    balance e q a (n * dx) t₀ (t₀ + steps.sum) u u0 φ φt φx =
      form a dx n steps.length (after t₀ steps) (fun j i => e (states j ⟨i % n, Nat.mod_lt _ hn⟩))
        (fun j i => q (states j ⟨i % n, Nat.mod_lt _ hn⟩)) φ φt φx := by
  have hg : ∀ i (hi : i < n), (⟨i % n, Nat.mod_lt _ hn⟩ : Fin n) = ⟨i, hi⟩ := fun i hi =>
    Fin.ext (Nat.mod_eq_of_lt hi)
  unfold balance form
  congr 1
  · have hint := h.integrable (fun v z => e v * φt z.1 z.2 + q v * φx z.1 z.2) fun v =>
      (continuous_const.mul hφ.continuous).add (continuous_const.mul hφ.slope_continuous)
    have e := integral_grid (after t₀ steps) (nodeAt a dx) steps.length n
      (fun j _ => after_mono t₀ steps hpos (Nat.le_succ j)) (fun i _ => nodeAt_mono a dx hdx (Nat.le_succ i))
      (g := fun z => e (u z) * φt z.1 z.2 + q (u z) * φx z.1 z.2)
      (by rw [after_zero, after_length, nodeAt_zero]; exact hint)
    rw [after_zero, after_length, nodeAt_zero] at e
    refine Eq.trans e (Finset.sum_congr rfl fun j hj => Finset.sum_congr rfl fun i hi => ?_)
    rw [Finset.mem_range] at hj hi
    rw [nodeAt_succ]
    refine setIntegral_congr_fun (cell_measurable _ _ _ _) fun z hz => ?_
    rw [← nodeAt_succ] at hz
    simp only
    rw [h.later j hj ⟨i, hi⟩ z hz, hg i hi]
  · have key : ∀ q ≤ n, ∫ x in a..nodeAt a dx q, e (u0 x) * φ t₀ x =
        ∑ i ∈ Finset.range q, ∫ x in a + i * dx..a + (i + 1) * dx,
          e (states 0 ⟨i % n, Nat.mod_lt _ hn⟩) * φ (after t₀ steps 0) x := by
      have hint := h.initial_integrable (fun v x => e v * φ t₀ x) fun v => continuous_const.mul (hφ.space_continuous t₀)
      have sub : ∀ i ≤ n, IntervalIntegrable (fun x => e (u0 x) * φ t₀ x) volume a (nodeAt a dx i) := by
        intro i hi
        have h1 := nodeAt_mono a dx hdx (Nat.zero_le i)
        rw [nodeAt_zero] at h1
        rw [intervalIntegrable_iff_integrableOn_Ioc_of_le h1]
        exact hint.mono_set (Ioc_subset_Ioc le_rfl (nodeAt_mono a dx hdx hi))
      intro q hq
      induction q with
      | zero => simp [nodeAt_zero]
      | succ q ih =>
        rw [Finset.sum_range_succ, ← ih (by omega), ← intervalIntegral.integral_add_adjacent_intervals (sub q (by omega))
          ((sub q (by omega)).symm.trans (sub (q + 1) hq))]
        congr 1
        rw [← nodeAt_succ]
        refine intervalIntegral.integral_congr_ae (Filter.Eventually.of_forall fun x hx => ?_)
        rw [uIoc_of_le (nodeAt_mono a dx hdx (Nat.le_succ q))] at hx
        rw [h.initial ⟨q, hq⟩ x hx, hg q hq, after_zero]
    exact key n le_rfl

/-- The jumps, summed over the time steps: they are small if the computed function is near a continuous one. -/
theorem jumps_small (hn : 0 < n) (hdx : 0 ≤ dx) (hpos : ∀ dt ∈ steps, 0 ≤ dt) (δ : ℝ) (hδ : ∀ dt ∈ steps, dt ≤ δ)
    (R : ℝ) (hR : ∀ v ∈ D, ‖v‖ ≤ R) (g : ℝ × ℝ → V) (hg : Continuous g) (ω δ' : ℝ)
    (hω : ∀ z z', dist z z' ≤ δ' → ‖g z - g z'‖ ≤ ω) (hdx' : dx ≤ δ') (hδ' : δ ≤ δ') :
    ∑ j ∈ Finset.range steps.length, (after t₀ steps (j + 1) - after t₀ steps j) * dx * jumps (states j) ≤
      2 * (∫ z in cell t₀ (t₀ + steps.sum) a (a + n * dx), ‖u z - g z‖) +
        steps.sum * (2 * ω * (n * dx) + 2 * R * dx) := by
  have hint := h.integrable (fun v z => ‖v - g z‖) fun v => (continuous_const.sub hg).norm
  have hgrid := integral_grid (after t₀ steps) (nodeAt a dx) steps.length n
    (fun j _ => after_mono t₀ steps hpos (Nat.le_succ j)) (fun i _ => nodeAt_mono a dx hdx (Nat.le_succ i))
    (g := fun z => ‖u z - g z‖) (by rw [after_zero, after_length, nodeAt_zero]; exact hint)
  rw [after_zero, after_length, nodeAt_zero] at hgrid
  have hsum : steps.sum = ∑ j ∈ Finset.range steps.length, (after t₀ steps (j + 1) - after t₀ steps j) := by
    rw [Finset.sum_range_sub, after_zero, after_length]; ring
  have hgrid' : ∫ z in cell t₀ (t₀ + steps.sum) a (a + n * dx), ‖u z - g z‖ =
      ∑ j ∈ Finset.range steps.length, ∑ i ∈ Finset.range n, ∫ z in cell (after t₀ steps j) (after t₀ steps (j + 1))
        (nodeAt a dx i) (nodeAt a dx (i + 1)), ‖u z - g z‖ := hgrid
  rw [hgrid', hsum, Finset.mul_sum, Finset.sum_mul, ← Finset.sum_add_distrib]
  refine Finset.sum_le_sum fun j hj => ?_
  rw [Finset.mem_range] at hj
  have ht : after t₀ steps (j + 1) - after t₀ steps j = steps[j] := by rw [after_succ _ _ _ hj]; ring
  have hdt : 0 ≤ steps[j] := hpos _ (List.getElem_mem hj)
  have hdt' : steps[j] ≤ δ := hδ _ (List.getElem_mem hj)
  rw [ht]
  set E : Fin n → ℝ := fun i => ∫ z in cell (after t₀ steps j) (after t₀ steps (j + 1))
        (nodeAt a dx i) (nodeAt a dx (i + 1)), ‖u z - g z‖ with hE
  have hE0 : ∀ i, 0 ≤ E i := fun i => integral_nonneg fun z => norm_nonneg _
  have hw : ∀ i : ℕ, nodeAt a dx (i + 1) - nodeAt a dx i = dx := fun i => by unfold nodeAt; push_cast; ring
  have near : ∀ (i : Fin n) (z₀ : ℝ × ℝ), (∀ z ∈ cell (after t₀ steps j) (after t₀ steps (j + 1)) (nodeAt a dx i)
      (nodeAt a dx (i + 1)), dist z z₀ ≤ δ') → steps[j] * dx * ‖states j i - g z₀‖ ≤ E i + ω * (steps[j] * dx) := by
    intro i z₀ hz₀
    set c := cell (after t₀ steps j) (after t₀ steps (j + 1)) (nodeAt a dx i) (nodeAt a dx (i + 1)) with hc
    have hvol : volume.real c = steps[j] * dx := by
      rw [hc, cell_real _ _ _ _ (after_mono t₀ steps hpos (Nat.le_succ j)) (nodeAt_mono a dx hdx (Nat.le_succ i)), ht, hw]
    have hci : ∀ b : ℝ, IntegrableOn (fun _ : ℝ × ℝ => b) c := fun b => continuous_integrable continuous_const _ _ _ _
    have hui : IntegrableOn (fun z => ‖u z - g z‖) c := by
      refine IntegrableOn.congr_fun (continuous_integrable (f := fun z => ‖states j i - g z‖)
        (continuous_const.sub hg).norm _ _ _ _) (fun z hz => ?_) (cell_measurable _ _ _ _)
      rw [h.later j hj i z hz]
    have e1 : steps[j] * dx * ‖states j i - g z₀‖ = ∫ _ in c, ‖states j i - g z₀‖ := by
      rw [setIntegral_const, hvol, smul_eq_mul]
    have e2 : E i + ω * (steps[j] * dx) = ∫ z in c, (‖u z - g z‖ + ω) := by
      rw [integral_add hui (hci ω), setIntegral_const, hvol, smul_eq_mul]
      ring
    rw [e1, e2]
    refine setIntegral_mono_on (hci _) (hui.add (hci ω)) (cell_measurable _ _ _ _) fun z hz => ?_
    have e3 : states j i - g z₀ = (u z - g z) + (g z - g z₀) := by rw [h.later j hj i z hz]; abel
    rw [e3]
    exact (norm_add_le _ _).trans (add_le_add le_rfl (hω _ _ (hz₀ z hz)))
  have pair : ∀ i : Fin n, steps[j] * dx * ‖states j (finRotate n i) - states j i‖ ≤
      (E i + E (finRotate n i) + 2 * ω * (steps[j] * dx)) + if (i : ℕ) + 1 = n then 2 * R * (steps[j] * dx) else 0 := by
    intro i
    have hω0 : 0 ≤ ω := (norm_nonneg _).trans (hω (0, 0) (0, 0) (by rw [dist_self]; exact hdx.trans hdx'))
    have harea : 0 ≤ steps[j] * dx := mul_nonneg hdt hdx
    split_ifs with hi
    · have e1 : ‖states j (finRotate n i) - states j i‖ ≤ 2 * R := by
        refine (norm_sub_le _ _).trans ?_
        linarith [hR _ (h.range j hj.le i), hR _ (h.range j hj.le (finRotate n i))]
      have e2 := mul_le_mul_of_nonneg_left e1 harea
      have e3 := mul_nonneg hω0 harea
      linarith [hE0 i, hE0 (finRotate n i)]
    · have hr := rotate_value i
      rw [if_neg hi] at hr
      have dist_le : ∀ (k : ℕ) (z : ℝ × ℝ), z ∈ cell (after t₀ steps j) (after t₀ steps (j + 1)) (nodeAt a dx k)
          (nodeAt a dx (k + 1)) → ∀ y, nodeAt a dx k ≤ y → y ≤ nodeAt a dx (k + 1) →
          dist z (after t₀ steps j, y) ≤ δ' := by
        rintro k z ⟨⟨z1, z2⟩, z3, z4⟩ y hy1 hy2
        have := hw k
        rw [Prod.dist_eq, Real.dist_eq, Real.dist_eq]
        refine max_le ?_ ?_ <;> rw [_root_.abs_le] <;> constructor <;> dsimp only <;> linarith
      have b1 := near i (after t₀ steps j, nodeAt a dx (i + 1)) fun z hz =>
        dist_le i z hz _ (nodeAt_mono a dx hdx (Nat.le_succ i)) le_rfl
      have b2 := near (finRotate n i) (after t₀ steps j, nodeAt a dx (i + 1)) fun z hz =>
        dist_le _ z hz _ (by rw [hr]) (by rw [hr]; exact nodeAt_mono a dx hdx (Nat.le_succ _))
      have e3 : states j (finRotate n i) - states j i = (states j (finRotate n i) - g (after t₀ steps j, nodeAt a dx (i + 1))) -
          (states j i - g (after t₀ steps j, nodeAt a dx (i + 1))) := by abel
      have e4 := mul_le_mul_of_nonneg_left (norm_sub_le (states j (finRotate n i) - g (after t₀ steps j, nodeAt a dx (i + 1)))
        (states j i - g (after t₀ steps j, nodeAt a dx (i + 1)))) harea
      rw [e3]
      linarith
  have hlast : ∑ i : Fin n, (if (i : ℕ) + 1 = n then 2 * R * (steps[j] * dx) else 0) ≤ steps[j] * (2 * R * dx) := by
    rw [Fin.sum_univ_eq_sum_range (fun i => if i + 1 = n then 2 * R * (steps[j] * dx) else 0) n]
    rcases n with _ | m
    · exact absurd hn (lt_irrefl 0)
    · simp
      apply le_of_eq; ring
  unfold jumps
  rw [Finset.mul_sum]
  refine (Finset.sum_le_sum fun i _ => pair i).trans ?_
  rw [Finset.sum_add_distrib, Finset.sum_add_distrib, Finset.sum_add_distrib, Equiv.sum_comp (finRotate n) E,
    ← Fin.sum_univ_eq_sum_range (fun i : ℕ => ∫ z in cell (after t₀ steps j) (after t₀ steps (j + 1)) (nodeAt a dx i)
      (nodeAt a dx (i + 1)), ‖u z - g z‖) n]
  have e1 : ∑ i : Fin n, 2 * ω * (steps[j] * dx) = n * (2 * ω * (steps[j] * dx)) := by simp
  rw [e1]
  have e2 : ∑ i, E i = ∑ i : Fin n, ∫ z in cell (after t₀ steps j) (after t₀ steps (j + 1)) (nodeAt a dx i)
      (nodeAt a dx (i + 1)), ‖u z - g z‖ := rfl
  rw [← e2]
  linarith

end GridValues

/-- What the computed function lacks of being a weak solution, from below. -/
theorem Grid.lower {Q : V → V} {D : Set V} {C dx a t₀ : ℝ} {n : ℕ} {steps : List ℝ} {states : ℕ → Fin n → V}
    {u : ℝ × ℝ → V} {u0 : ℝ → V} (h : Grid Q D C dx a t₀ n steps states u u0) (hn : 0 < n) (hdx : 0 < dx) (hpos : ∀ dt ∈ steps, 0 ≤ dt) (δ : ℝ) (hδ : ∀ dt ∈ steps, dt ≤ δ)
    (R : ℝ) (hR : ∀ v ∈ D, ‖Q v‖ ≤ R) (l : V →L[ℝ] ℝ)
    {A B : ℝ} {φ φt φx : ℝ → ℝ → ℝ} (hφ : Test (n * dx) (t₀ + steps.sum) A B φ φt φx) :
    -(A * (‖l‖ * C) * (∑ j ∈ Finset.range steps.length, (after t₀ steps (j + 1) - after t₀ steps j) * dx * jumps (states j)) +
        steps.sum * (n * dx * (‖l‖ * R) * (B * (2 * δ + 3 * dx)))) ≤
      balance l (fun v => l (Q v)) a (n * dx) t₀ (t₀ + steps.sum) u u0 φ φt φx := by
  rw [h.balance_eq hn hdx.le hpos _ _ hφ]
  have hg : ∀ i (hi : i < n), (⟨i % n, Nat.mod_lt _ hn⟩ : Fin n) = ⟨i, hi⟩ := fun i hi =>
    Fin.ext (Nat.mod_eq_of_lt hi)
  have key : ∀ j, ∃ H : ℕ → V, ∀ hj : j < steps.length, H n = H 0 ∧
      (∀ i : Fin n, states (j + 1) i = states j i - (steps[j] / dx) • (H (i + 1) - H i)) ∧
      ∑ i : Fin n, ‖H (i + 1) - Q (states j i)‖ ≤ C * jumps (states j) := by
    intro j
    by_cases hj : j < steps.length
    · obtain ⟨H, hH⟩ := h.step j hj
      exact ⟨H, fun _ => hH⟩
    · exact ⟨fun _ => 0, fun h => absurd h hj⟩
  choose H hH using key
  have step : ∀ j (hj : j < steps.length), after t₀ steps (j + 1) - after t₀ steps j = steps[j] := fun j hj => by
    rw [after_succ _ _ _ hj]; ring
  have := form_lower_sum hφ a dx n steps.length hdx rfl (after t₀ steps)
    (fun j _ => after_mono t₀ steps hpos (Nat.le_succ j)) (after_length _ _) δ
    (fun j hj => by rw [step j hj]; exact hδ _ (List.getElem_mem hj))
    (fun j i => l (states j ⟨i % n, Nat.mod_lt _ hn⟩)) (fun j i => l (Q (states j ⟨i % n, Nat.mod_lt _ hn⟩)))
    (fun j i => l (H j i))
    (fun j hj => by rw [(hH j hj).1])
    (fun j hj i hi => by
      have e1 := (hH j hj).2.1 ⟨i, hi⟩
      rw [hg i hi, e1, step j hj, map_sub, map_smul, map_sub]
      simp)
    (fun j => ‖l‖ * (C * jumps (states j))) (‖l‖ * R)
    (fun j hj => by
      rw [← Fin.sum_univ_eq_sum_range (fun i => |l (H j (i + 1)) - l (Q (states j ⟨i % n, Nat.mod_lt _ hn⟩))|)]
      refine le_trans ?_ (mul_le_mul_of_nonneg_left (hH j hj).2.2 (norm_nonneg l))
      rw [Finset.mul_sum]
      refine Finset.sum_le_sum fun i _ => ?_
      rw [hg i i.2, ← map_sub]
      exact l.le_opNorm _)
    (fun j hj i hi => (l.le_opNorm _).trans (mul_le_mul_of_nonneg_left (hR _ (h.range j hj.le _)) (norm_nonneg l)))
  rw [after_zero, add_sub_cancel_left] at this
  refine le_trans (le_of_eq ?_) this
  rw [neg_inj, Finset.mul_sum, Finset.mul_sum]
  congr 1
  exact Finset.sum_congr rfl fun j _ => by ring

/-! ### The limit -/

/-- What a function lacks of being a weak solution of the law with flux `Q`. -/
noncomputable def defect (Q : V → V) (a P t₀ S : ℝ) (u : ℝ × ℝ → V) (u0 : ℝ → V) (φ φt φx : ℝ → ℝ → ℝ) : V :=
  (∫ z in Ioc t₀ S ×ˢ Ioc a (a + P), (φt z.1 z.2 • u z + φx z.1 z.2 • Q (u z))) + ∫ x in a..a + P, φ t₀ x • u0 x

variable [CompleteSpace V]

theorem component (l : V →L[ℝ] ℝ) {Q : V → V} {a P t₀ S : ℝ} (hP : 0 ≤ P) {u : ℝ × ℝ → V} {u0 : ℝ → V}
    {φ φt φx : ℝ → ℝ → ℝ}
    (h : IntegrableOn (fun z => φt z.1 z.2 • u z + φx z.1 z.2 • Q (u z)) (cell t₀ S a (a + P)))
    (h0 : IntegrableOn (fun x => φ t₀ x • u0 x) (Ioc a (a + P))) :
    l (defect Q a P t₀ S u u0 φ φt φx) = balance l (fun v => l (Q v)) a P t₀ S u u0 φ φt φx := by
  unfold defect balance
  rw [map_add]
  congr 1
  · have := l.integral_comp_comm h
    refine this.symm.trans ?_
    refine integral_congr_ae (Filter.Eventually.of_forall fun z => ?_)
    simp only [map_add, map_smul, smul_eq_mul]
    ring
  · rw [intervalIntegral.integral_of_le (by linarith), intervalIntegral.integral_of_le (by linarith)]
    have := l.integral_comp_comm h0
    refine this.symm.trans ?_
    refine integral_congr_ae (Filter.Eventually.of_forall fun z => ?_)
    simp only [map_smul, smul_eq_mul]
    ring

/-- The defect of the computed function. -/
theorem Grid.defect_le {Q : V → V} {D : Set V} {C dx a t₀ : ℝ} {n : ℕ} {steps : List ℝ} {states : ℕ → Fin n → V}
    {u : ℝ × ℝ → V} {u0 : ℝ → V} (h : Grid Q D C dx a t₀ n steps states u u0) (hC : 0 ≤ C)
    (hn : 0 < n) (hdx : 0 < dx) (hpos : ∀ dt ∈ steps, 0 ≤ dt) (δ : ℝ) (hδ : ∀ dt ∈ steps, dt ≤ δ) (hδ0 : 0 ≤ δ)
    (R : ℝ) (hR : ∀ v ∈ D, ‖Q v‖ ≤ R) (hR0 : 0 ≤ R)
    {A B : ℝ} {φ φt φx : ℝ → ℝ → ℝ} (hφ : Test (n * dx) (t₀ + steps.sum) A B φ φt φx) :
    ‖defect Q a (n * dx) t₀ (t₀ + steps.sum) u u0 φ φt φx‖ ≤
      A * C * (∑ j ∈ Finset.range steps.length, (after t₀ steps (j + 1) - after t₀ steps j) * dx * jumps (states j)) +
        steps.sum * (n * dx * R * (B * (2 * δ + 3 * dx))) := by
  obtain ⟨l, hl, hl'⟩ := exists_dual_vector'' ℝ (defect Q a (n * dx) t₀ (t₀ + steps.sum) u u0 φ φt φx)
  have hA := hφ.nonneg_A
  have hB := hφ.nonneg_B
  have hP : 0 ≤ n * dx := by positivity
  have e1 := component (-l) hP
    (h.integrable (fun v z => φt z.1 z.2 • v + φx z.1 z.2 • Q v) fun v =>
      (hφ.continuous.smul continuous_const).add (hφ.slope_continuous.smul continuous_const))
    (h.initial_integrable (fun v x => φ t₀ x • v) fun v => (hφ.space_continuous t₀).smul continuous_const)
  have e2 := h.lower hn hdx hpos δ hδ R hR (-l) hφ
  rw [← e1, norm_neg] at e2
  have e3 : (-l) (defect Q a (n * dx) t₀ (t₀ + steps.sum) u u0 φ φt φx) =
      -‖defect Q a (n * dx) t₀ (t₀ + steps.sum) u u0 φ φt φx‖ := by
    rw [ContinuousLinearMap.neg_apply, hl']
    simp
  rw [e3] at e2
  have e4 := neg_le_neg_iff.1 e2
  refine e4.trans (add_le_add ?_ ?_)
  · refine mul_le_mul_of_nonneg_right ?_ (Finset.sum_nonneg fun j _ => ?_)
    · exact mul_le_mul_of_nonneg_left (mul_le_of_le_one_left hC hl) hA
    · exact mul_nonneg (mul_nonneg (sub_nonneg.2 (after_mono t₀ steps hpos (Nat.le_succ j))) hdx.le) (jumps_nonneg _)
  · have hs : 0 ≤ steps.sum := List.sum_nonneg hpos
    refine mul_le_mul_of_nonneg_left (mul_le_mul_of_nonneg_right ?_ (by positivity)) hs
    exact mul_le_mul_of_nonneg_left (mul_le_of_le_one_left hR0 hl) hP

variable [MeasurableSpace V] [BorelSpace V] [SecondCountableTopology V]

theorem limit_integrable {Q : V → V} {D : Set V} {R R' t₀ S a b : ℝ} (hQ : Measurable Q)
    (hR : ∀ v ∈ D, ‖Q v‖ ≤ R) (hR' : ∀ v ∈ D, ‖v‖ ≤ R') {w : ℝ × ℝ → V}
    (hw : AEStronglyMeasurable w (volume.restrict (cell t₀ S a b))) (hwD : ∀ z ∈ cell t₀ S a b, w z ∈ D)
    {ψ χ : ℝ × ℝ → ℝ} (hψ : Continuous ψ) (hχ : Continuous χ) :
    IntegrableOn w (cell t₀ S a b) ∧ IntegrableOn (fun z => ψ z • w z + χ z • Q (w z)) (cell t₀ S a b) := by
  have h1 : IntegrableOn w (cell t₀ S a b) := by
    refine ⟨hw, HasFiniteIntegral.restrict_of_bounded R' (cell_finite _ _ _ _) ?_⟩
    exact (ae_restrict_iff' (cell_measurable _ _ _ _)).2 (Filter.Eventually.of_forall fun z hz => hR' _ (hwD z hz))
  have h2 : IntegrableOn (fun z => Q (w z)) (cell t₀ S a b) := by
    refine ⟨(hQ.comp_aemeasurable hw.aemeasurable).aestronglyMeasurable,
      HasFiniteIntegral.restrict_of_bounded R (cell_finite _ _ _ _) ?_⟩
    exact (ae_restrict_iff' (cell_measurable _ _ _ _)).2 (Filter.Eventually.of_forall fun z hz => hR _ (hwD z hz))
  have key : ∀ {χ : ℝ × ℝ → ℝ}, Continuous χ → ∀ v : ℝ × ℝ → V, IntegrableOn v (cell t₀ S a b) →
      IntegrableOn (fun z => χ z • v z) (cell t₀ S a b) := by
    intro χ hχ v hv
    obtain ⟨K, hK⟩ := (isCompact_Icc.prod isCompact_Icc : IsCompact (Icc t₀ S ×ˢ Icc a b)).exists_bound_of_continuousOn
      hχ.continuousOn
    refine hv.bdd_smul K hχ.aestronglyMeasurable ?_
    exact (ae_restrict_iff' (cell_measurable _ _ _ _)).2
      (Filter.Eventually.of_forall fun z hz => hK z (cell_subset _ _ _ _ hz))
  exact ⟨h1, (key hψ _ h1).add (key hχ _ h2)⟩

/-- Functions that are near in the mean have defects that are near. -/
theorem defect_near {Q : V → V} {D : Set V} {L t₀ S a P : ℝ} (hP : 0 ≤ P) (hL : 0 ≤ L)
    (hlip : ∀ v ∈ D, ∀ v' ∈ D, ‖Q v - Q v'‖ ≤ L * ‖v - v'‖) {u w : ℝ × ℝ → V} {u0 f : ℝ → V}
    {A B : ℝ} {φ φt φx : ℝ → ℝ → ℝ} (hφ : Test P S A B φ φt φx)
    (hui : IntegrableOn u (cell t₀ S a (a + P))) (hwi : IntegrableOn w (cell t₀ S a (a + P)))
    (hu : IntegrableOn (fun z => φt z.1 z.2 • u z + φx z.1 z.2 • Q (u z)) (cell t₀ S a (a + P)))
    (hw : IntegrableOn (fun z => φt z.1 z.2 • w z + φx z.1 z.2 • Q (w z)) (cell t₀ S a (a + P)))
    (huD : ∀ z ∈ cell t₀ S a (a + P), u z ∈ D) (hwD : ∀ z ∈ cell t₀ S a (a + P), w z ∈ D)
    (hu0 : IntegrableOn u0 (Ioc a (a + P))) (hf : IntegrableOn f (Ioc a (a + P)))
    {Ct Φ : ℝ} (hCt : ∀ z ∈ cell t₀ S a (a + P), |φt z.1 z.2| ≤ Ct) (hΦ : ∀ x ∈ Ioc a (a + P), |φ t₀ x| ≤ Φ) :
    ‖defect Q a P t₀ S u u0 φ φt φx - defect Q a P t₀ S w f φ φt φx‖ ≤
      (Ct + A * L) * (∫ z in cell t₀ S a (a + P), ‖u z - w z‖) + Φ * ∫ x in Ioc a (a + P), ‖u0 x - f x‖ := by
  have key : ∀ v : ℝ → V, IntegrableOn v (Ioc a (a + P)) → IntegrableOn (fun x => φ t₀ x • v x) (Ioc a (a + P)) := by
    intro v hv
    refine hv.bdd_smul Φ (hφ.space_continuous t₀).aestronglyMeasurable ?_
    exact (ae_restrict_iff' measurableSet_Ioc).2 (Filter.Eventually.of_forall fun x hx => hΦ x hx)
  unfold defect
  change ‖((∫ z in cell t₀ S a (a + P), (φt z.1 z.2 • u z + φx z.1 z.2 • Q (u z))) + _) -
    ((∫ z in cell t₀ S a (a + P), (φt z.1 z.2 • w z + φx z.1 z.2 • Q (w z))) + _)‖ ≤ _
  rw [add_sub_add_comm, intervalIntegral.integral_of_le (by linarith), intervalIntegral.integral_of_le (by linarith),
    ← integral_sub hu hw, ← integral_sub (key u0 hu0) (key f hf), ← integral_const_mul, ← integral_const_mul]
  refine (norm_add_le _ _).trans (add_le_add ?_ ?_)
  · refine (norm_integral_le_integral_norm _).trans ?_
    refine setIntegral_mono_on (hu.sub hw).norm ((hui.sub hwi).norm.const_mul _) (cell_measurable _ _ _ _) fun z hz => ?_
    have e : φt z.1 z.2 • u z + φx z.1 z.2 • Q (u z) - (φt z.1 z.2 • w z + φx z.1 z.2 • Q (w z)) =
        φt z.1 z.2 • (u z - w z) + φx z.1 z.2 • (Q (u z) - Q (w z)) := by
      rw [smul_sub, smul_sub]; abel
    rw [e, add_mul]
    refine (norm_add_le _ _).trans (add_le_add ?_ ?_)
    · rw [norm_smul]
      exact mul_le_mul_of_nonneg_right (hCt z hz) (norm_nonneg _)
    · rw [norm_smul, mul_assoc]
      exact mul_le_mul (hφ.slope _ _) (hlip _ (huD z hz) _ (hwD z hz)) (norm_nonneg _) hφ.nonneg_A
  · refine (norm_integral_le_integral_norm _).trans ?_
    refine setIntegral_mono_on ((key u0 hu0).sub (key f hf)).norm ((hu0.sub hf).norm.const_mul _) measurableSet_Ioc
      fun x hx => ?_
    rw [← smul_sub, norm_smul]
    exact mul_le_mul_of_nonneg_right (hΦ x hx) (norm_nonneg _)

open Filter Topology in
/-- The theorem of Lax and Wendroff: limits of the computed functions are weak solutions. -/
theorem grid_limit {Q : V → V} {D : Set V} {C L R R' c P a t₀ S : ℝ} (hC : 0 ≤ C) (hL : 0 ≤ L) (hR0 : 0 ≤ R) (hc : 0 ≤ c)
    (hP : 0 < P) (hQ : Measurable Q) (hR : ∀ v ∈ D, ‖Q v‖ ≤ R) (hR' : ∀ v ∈ D, ‖v‖ ≤ R')
    (hlip : ∀ v ∈ D, ∀ v' ∈ D, ‖Q v - Q v'‖ ≤ L * ‖v - v'‖)
    (N : ℕ → ℕ) (hN : Tendsto N atTop atTop) (steps : ℕ → List ℝ) (states : (r : ℕ) → ℕ → Fin (N r) → V)
    (u : ℕ → ℝ × ℝ → V) (u0 : ℕ → ℝ → V) (hN0 : ∀ r, 0 < N r)
    (hsteps : ∀ r, ∀ dt ∈ steps r, 0 ≤ dt ∧ dt ≤ c * (P / N r)) (hsum : ∀ r, t₀ + (steps r).sum = S)
    (h : ∀ r, Grid Q D C (P / N r) a t₀ (N r) (steps r) (states r) (u r) (u0 r))
    (w : ℝ × ℝ → V) (f : ℝ → V) (hw : AEStronglyMeasurable w (volume.restrict (cell t₀ S a (a + P))))
    (hwD : ∀ z ∈ cell t₀ S a (a + P), w z ∈ D) (hf : IntegrableOn f (Ioc a (a + P)))
    (hlim : Tendsto (fun r => ∫ z in cell t₀ S a (a + P), ‖u r z - w z‖) atTop (𝓝 0))
    (hlim0 : Tendsto (fun r => ∫ x in Ioc a (a + P), ‖u0 r x - f x‖) atTop (𝓝 0))
    {A B : ℝ} {φ φt φx : ℝ → ℝ → ℝ} (hφ : Test P S A B φ φt φx) : defect Q a P t₀ S w f φ φt φx = 0 := by
  have hA := hφ.nonneg_A
  have hB := hφ.nonneg_B
  obtain ⟨hwi, hwd⟩ := limit_integrable hQ hR hR' hw hwD hφ.continuous hφ.slope_continuous
  obtain ⟨Ct, hCt⟩ := (isCompact_Icc.prod isCompact_Icc : IsCompact (Icc t₀ S ×ˢ Icc a (a + P))).exists_bound_of_continuousOn
    hφ.continuous.continuousOn
  obtain ⟨Φ, hΦ⟩ := (isCompact_Icc : IsCompact (Icc a (a + P))).exists_bound_of_continuousOn
    (hφ.space_continuous t₀).continuousOn
  have hNP : ∀ r, (N r : ℝ) * (P / N r) = P := fun r => by
    have : (N r : ℝ) ≠ 0 := by exact_mod_cast (hN0 r).ne'
    field_simp
  have hpos : ∀ r, 0 < P / (N r : ℝ) := fun r => div_pos hP (by exact_mod_cast hN0 r)
  have hdx : Tendsto (fun r => P / (N r : ℝ)) atTop (𝓝 0) :=
    (tendsto_const_nhds (x := P)).div_atTop (tendsto_natCast_atTop_atTop.comp hN)
  have bound : ∀ κ > 0, ‖defect Q a P t₀ S w f φ φt φx‖ ≤ A * C * (2 * κ + (S - t₀) * (2 * κ * P)) := by
    intro κ hκ
    obtain ⟨g, hgs, hgκ, hgc, hgi⟩ := Integrable.exists_hasCompactSupport_integral_sub_le
      (μ := volume.restrict (cell t₀ S a (a + P))) hwi hκ
    have huc := hgs.uniformContinuous_of_continuous hgc
    rw [Metric.uniformContinuous_iff] at huc
    obtain ⟨δ, hδ, hgδ⟩ := huc κ hκ
    have ev : ∀ᶠ r in atTop, ‖defect Q a P t₀ S w f φ φt φx‖ ≤
        (A * C * (2 * ((∫ z in cell t₀ S a (a + P), ‖u r z - w z‖) + κ) + (S - t₀) * (2 * κ * P + 2 * R' * (P / N r))) +
          (S - t₀) * (P * R * (B * (2 * (c * (P / N r)) + 3 * (P / N r))))) +
        ((Ct + A * L) * (∫ z in cell t₀ S a (a + P), ‖u r z - w z‖) + Φ * ∫ x in Ioc a (a + P), ‖u0 r x - f x‖) := by
      have s1 : ∀ᶠ r in atTop, P / (N r : ℝ) < δ := hdx.eventually (gt_mem_nhds hδ)
      have s2 : ∀ᶠ r in atTop, c * (P / (N r : ℝ)) < δ := by
        have := hdx.const_mul c
        rw [mul_zero] at this
        exact this.eventually (gt_mem_nhds hδ)
      filter_upwards [s1, s2] with r h1 h2
      have hs : (steps r).sum = S - t₀ := by linarith [hsum r]
      have hr := h r
      have i1 := hr.integrable (fun v _ => v) fun v => continuous_const
      have i2 := hr.integrable (fun v z => φt z.1 z.2 • v + φx z.1 z.2 • Q v) fun v =>
        (hφ.continuous.smul continuous_const).add (hφ.slope_continuous.smul continuous_const)
      have i3 := hr.initial_integrable (fun v _ => v) fun v => continuous_const
      have hmem := hr.values
      have hφ' : Test (N r * (P / N r)) (t₀ + (steps r).sum) A B φ φt φx := by rw [hNP, hsum]; exact hφ
      have d1 := hr.defect_le hC (hN0 r) (hpos r) (fun dt hdt => (hsteps r dt hdt).1) (c * (P / N r))
        (fun dt hdt => (hsteps r dt hdt).2) (mul_nonneg hc (hpos r).le) R hR hR0 hφ'
      obtain ⟨δ', hδ'1, hδ'2⟩ : ∃ δ', max (P / (N r : ℝ)) (c * (P / N r)) ≤ δ' ∧ δ' < δ :=
        ⟨_, le_rfl, max_lt h1 h2⟩
      have d2 := hr.jumps_small (hN0 r) (hpos r).le (fun dt hdt => (hsteps r dt hdt).1) (c * (P / N r))
        (fun dt hdt => (hsteps r dt hdt).2) R' hR' g hgc κ δ'
        (fun z z' hz => by
          rw [← dist_eq_norm]
          exact (hgδ (lt_of_le_of_lt hz hδ'2)).le)
        ((le_max_left _ _).trans hδ'1) ((le_max_right _ _).trans hδ'1)
      rw [hNP, hsum] at i1 i2 hmem d1 d2
      rw [hNP] at i3
      rw [hs] at d1 d2
      have d3 := defect_near hP.le hL hlip hφ i1 hwi i2 hwd hmem hwD i3 hf
        (fun z hz => hCt z (cell_subset _ _ _ _ hz)) (fun x hx => hΦ x (Ioc_subset_Icc_self hx))
      have d4 : ∫ z in cell t₀ S a (a + P), ‖u r z - g z‖ ≤
          (∫ z in cell t₀ S a (a + P), ‖u r z - w z‖) + κ := by
        refine le_trans ?_ (add_le_add le_rfl hgκ)
        have e := integral_add (i1.sub hwi).norm (hwi.sub hgi).norm
        refine le_trans ?_ (le_of_eq e)
        refine integral_mono (i1.sub hgi).norm ((i1.sub hwi).norm.add (hwi.sub hgi).norm) fun z => ?_
        have : u r z - g z = (u r z - w z) + (w z - g z) := by abel
        change ‖u r z - g z‖ ≤ ‖u r z - w z‖ + ‖w z - g z‖
        rw [this]
        exact norm_add_le _ _
      have d5 : ‖defect Q a P t₀ S w f φ φt φx‖ ≤ ‖defect Q a P t₀ S (u r) (u0 r) φ φt φx‖ +
          ‖defect Q a P t₀ S (u r) (u0 r) φ φt φx - defect Q a P t₀ S w f φ φt φx‖ := by
        have := norm_sub_le (defect Q a P t₀ S (u r) (u0 r) φ φt φx)
          (defect Q a P t₀ S (u r) (u0 r) φ φt φx - defect Q a P t₀ S w f φ φt φx)
        rwa [sub_sub_cancel] at this
      refine d5.trans (add_le_add (d1.trans (add_le_add (mul_le_mul_of_nonneg_left ?_ (mul_nonneg hA hC)) le_rfl)) d3)
      linarith
    have lim : Tendsto (fun r =>
        (A * C * (2 * ((∫ z in cell t₀ S a (a + P), ‖u r z - w z‖) + κ) + (S - t₀) * (2 * κ * P + 2 * R' * (P / N r))) +
          (S - t₀) * (P * R * (B * (2 * (c * (P / N r)) + 3 * (P / N r))))) +
        ((Ct + A * L) * (∫ z in cell t₀ S a (a + P), ‖u r z - w z‖) + Φ * ∫ x in Ioc a (a + P), ‖u0 r x - f x‖)) atTop
        (𝓝 ((A * C * (2 * (0 + κ) + (S - t₀) * (2 * κ * P + 2 * R' * 0)) +
          (S - t₀) * (P * R * (B * (2 * (c * 0) + 3 * 0)))) + ((Ct + A * L) * 0 + Φ * 0))) := by
      refine Tendsto.add (Tendsto.add ?_ ?_) ((hlim.const_mul _).add (hlim0.const_mul _))
      · exact (((hlim.add_const κ).const_mul 2).add ((((hdx.const_mul (2 * R')).const_add _)).const_mul _)).const_mul _
      · exact (((((hdx.const_mul c).const_mul 2).add (hdx.const_mul 3)).const_mul B).const_mul _).const_mul _
    refine (ge_of_tendsto lim ev).trans (le_of_eq ?_)
    ring
  have hST : 0 ≤ S - t₀ := by
    have := List.sum_nonneg fun dt hdt => (hsteps 0 dt hdt).1
    linarith [hsum 0]
  by_contra hne
  have hpos : 0 < ‖defect Q a P t₀ S w f φ φt φx‖ := norm_pos_iff.2 hne
  set d := ‖defect Q a P t₀ S w f φ φt φx‖ with hd
  set K := A * C * (2 + (S - t₀) * (2 * P)) with hK
  have hK0 : 0 ≤ K := by positivity
  have := bound (d / (2 * (K + 1))) (by positivity)
  have e : A * C * (2 * (d / (2 * (K + 1))) + (S - t₀) * (2 * (d / (2 * (K + 1))) * P)) = K * d / (2 * (K + 1)) := by
    rw [hK]; ring
  rw [e, le_div_iff₀ (by positivity)] at this
  nlinarith

end Verif.WeakLimit
