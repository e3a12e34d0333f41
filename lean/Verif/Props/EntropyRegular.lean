import Verif.Props.DoublingCompare
import Mathlib.MeasureTheory.Constructions.BorelSpace.Order

/-!
Helper lemmas for C133: how regular the computed functions are.
-/

set_option linter.unusedSectionVars false

namespace Verif.EntropyLimit

open Verif.Py Verif.Boundary Verif.FV Verif.ODE Verif.Scalar Verif.Convergence Verif.Weak
open MeasureTheory Set

/-! ### Functions that are constant on the cells -/

/-- A sum with given steps, over all integers. -/
theorem sum_exists (c : ℤ → ℝ) : ∃ H : ℤ → ℝ, ∀ j, H (j + 1) = H j + c j := by
  refine ⟨fun j => (∑ i ∈ Finset.range j.toNat, c i) - ∑ i ∈ Finset.range (-j).toNat, c (-((i : ℤ) + 1)), fun j => ?_⟩
  rcases lt_or_ge j 0 with h | h
  · have e1 : (j + 1).toNat = 0 := by omega
    have e2 : j.toNat = 0 := by omega
    have e3 : (-j).toNat = (-(j + 1)).toNat + 1 := by omega
    simp only [e1, e2, e3, Finset.sum_range_succ]
    have e4 : -(((-(j + 1)).toNat : ℤ) + 1) = j := by omega
    rw [e4]
    ring
  · have e1 : (j + 1).toNat = j.toNat + 1 := by omega
    have e2 : (-j).toNat = 0 := by omega
    have e3 : (-(j + 1)).toNat = 0 := by omega
    simp only [e1, e2, e3, Finset.sum_range_succ]
    have e4 : (j.toNat : ℤ) = j := by omega
    rw [e4]
    ring

/-- The function with the values `v` on the cells, repeated with the period. -/
noncomputable def row {n : ℕ} (a dx : ℝ) (v : Fin n → ℝ) (x : ℝ) : ℝ := around v (⌈(x - a) / dx⌉ - 1)

section Row

variable {n : ℕ} (hn : 0 < n) {a dx : ℝ} (hdx : 0 < dx) (v : Fin n → ℝ)

include hdx in
theorem row_cell (i : Fin n) (x : ℝ) (hx : x ∈ Ioc (nodeAt a dx i) (nodeAt a dx (i + 1))) : row a dx v x = v i := by
  unfold row
  rw [nodeAt_succ] at hx
  unfold nodeAt at hx
  have : ⌈(x - a) / dx⌉ = (i : ℤ) + 1 := by
    rw [Int.ceil_eq_iff]
    push_cast
    constructor
    · rw [lt_div_iff₀ hdx]; linarith [hx.1]
    · rw [div_le_iff₀ hdx]; linarith [hx.2]
  rw [this, add_sub_cancel_right, around_cell]

theorem row_measurable : Measurable (row a dx v) := by
  have h1 : Measurable fun x : ℝ => ⌈(x - a) / dx⌉ - 1 := by
    have : Measurable fun x : ℝ => ⌈(x - a) / dx⌉ := Int.measurable_ceil.comp ((measurable_id.sub_const a).div_const dx)
    exact (measurable_of_countable fun z : ℤ => z - 1).comp this
  exact (measurable_of_countable fun z : ℤ => around v z).comp h1

include hdx in
theorem row_periodic (x : ℝ) : row a dx v (x + n * dx) = row a dx v x := by
  unfold row
  have : (x + n * dx - a) / dx = (x - a) / dx + (n : ℤ) := by
    push_cast
    field_simp
    ring
  rw [this, Int.ceil_add_intCast, show ⌈(x - a) / dx⌉ + (n : ℤ) - 1 = ⌈(x - a) / dx⌉ - 1 + n by ring, around_periodic]

include hn in
theorem row_range {m M : ℝ} (h : ∀ i, m ≤ v i ∧ v i ≤ M) (x : ℝ) : m ≤ row a dx v x ∧ row a dx v x ≤ M := by
  unfold row
  obtain ⟨i, q, e⟩ := around_exists hn (⌈(x - a) / dx⌉ - 1)
  rw [e, around_shift, around_cell]
  exact h i

include hn hdx in
theorem row_majorant {V : ℝ} (hV : cyclicVariation (List.ofFn v) ≤ V) :
    ∃ G, Majorant (row a dx v) G (n * dx) V := by
  have hn0 : (0 : ℝ) < n := by exact_mod_cast hn
  obtain ⟨H, hH⟩ := sum_exists fun j => |around v (j + 1) - around v j|
  -- the increase over a period
  have hK : ∀ j, H (j + n) - H j = H n - H 0 := by
    intro j
    induction j using Int.induction_on with
    | zero => simp
    | succ k ih =>
      rw [show ((k : ℤ) + 1) + n = (k + n) + 1 by ring, hH, hH, show (k : ℤ) + n + 1 = k + 1 + n by ring,
        around_periodic, around_periodic]
      linarith
    | pred k ih =>
      have e1 := hH (-(k : ℤ) - 1 + n)
      have e2 := hH (-(k : ℤ) - 1)
      rw [show -(k : ℤ) - 1 + n + 1 = (-(k : ℤ)) + n by ring, around_periodic, around_periodic] at e1
      rw [show -(k : ℤ) - 1 + 1 = -(k : ℤ) by ring] at e2
      linarith
  have hsum : ∀ k : ℕ, H k - H 0 = ∑ j ∈ Finset.range k, |around v ((j : ℤ) + 1) - around v j| := by
    intro k
    induction k with
    | zero => simp
    | succ k ih =>
      rw [Finset.sum_range_succ, ← ih]
      push_cast
      rw [hH]
      ring
  have hcyc : H n - H 0 = cyclicVariation (List.ofFn v) := by
    rw [hsum, cyclicVariation_eq _ n (by simp) hn]
    have e : ∀ j : ℕ, around v (j : ℤ) = (List.ofFn v).getD (j % n) 0 := by
      intro j
      unfold around
      have h1 : ((j : ℤ) % n).toNat = j % n := by
        rw [← Int.natCast_mod]; exact Int.toNat_natCast _
      rw [dif_pos (by rw [h1]; exact Nat.mod_lt _ hn), List.getD_eq_getElem _ _ (by simpa using Nat.mod_lt _ hn),
        List.getElem_ofFn]
      simp only [h1]
    refine Finset.sum_congr rfl fun j _ => ?_
    rw [← e, ← e]
    push_cast
    rfl
  have hmono : ∀ i j : ℤ, i ≤ j → |around v j - around v i| ≤ H j - H i := by
    intro i j hij
    induction j, hij using Int.le_induction with
    | base => simp
    | succ j _ ih =>
      rw [hH]
      have := abs_sub_le (around v (j + 1)) (around v j) (around v i)
      linarith
  set W := cyclicVariation (List.ofFn v) with hW
  refine ⟨fun x => H (⌈(x - a) / dx⌉ - 1) + (V - W) / (n * dx) * x, fun x y hxy => ?_, fun x => ?_⟩
  · have h1 : ⌈(x - a) / dx⌉ - 1 ≤ ⌈(y - a) / dx⌉ - 1 := by
      have : ⌈(x - a) / dx⌉ ≤ ⌈(y - a) / dx⌉ := Int.ceil_le_ceil (by gcongr)
      omega
    have h2 := hmono _ _ h1
    have h3 : 0 ≤ (V - W) / (n * dx) := div_nonneg (by linarith) (by positivity)
    have h4 := mul_le_mul_of_nonneg_left hxy h3
    unfold row
    linarith
  · have : (x + n * dx - a) / dx = (x - a) / dx + (n : ℤ) := by
      push_cast
      field_simp
      ring
    rw [this, Int.ceil_add_intCast, show ⌈(x - a) / dx⌉ + (n : ℤ) - 1 = ⌈(x - a) / dx⌉ - 1 + n by ring]
    have h2 := hK (⌈(x - a) / dx⌉ - 1)
    rw [hcyc] at h2
    have h3 : (V - W) / (n * dx) * (x + n * dx) = (V - W) / (n * dx) * x + (V - W) := by
      field_simp
    rw [h3]
    linarith

include hn hdx in
/-- The distance of two such functions. -/
theorem row_distance (w : Fin n → ℝ) :
    ∫ x in Ioc a (a + n * dx), |row a dx v x - row a dx w x| = dx * distance v w := by
  have hmono := nodeAt_mono a dx hdx.le
  have mF : Measurable fun x => |row a dx v x - row a dx w x| :=
    continuous_abs.measurable.comp ((row_measurable v).sub (row_measurable w))
  obtain ⟨B, hB⟩ : ∃ B, ∀ x, |(|row a dx v x - row a dx w x|)| ≤ B := by
    refine ⟨∑ i, |v i - w i|, fun x => ?_⟩
    unfold row
    obtain ⟨i, q, e⟩ := around_exists hn (⌈(x - a) / dx⌉ - 1)
    rw [e, around_shift, around_cell, around_shift, around_cell, abs_abs]
    exact Finset.single_le_sum (f := fun i => |v i - w i|) (fun i _ => abs_nonneg _) (Finset.mem_univ i)
  have iF : ∀ b c, IntervalIntegrable (fun x => |row a dx v x - row a dx w x|) volume b c := fun b c => by
    rw [intervalIntegrable_iff, uIoc]
    exact bounded_integrable' mF (Filter.Eventually.of_forall hB)
  have hle : a ≤ a + n * dx := by
    have : 0 ≤ (n : ℝ) * dx := by positivity
    linarith
  rw [← intervalIntegral.integral_of_le hle]
  have e0 : a = nodeAt a dx 0 := (nodeAt_zero a dx).symm
  have en : a + n * dx = nodeAt a dx n := rfl
  rw [en]
  nth_rewrite 3 [e0]
  rw [← intervalIntegral.sum_integral_adjacent_intervals fun k _ => iF _ _, ← Fin.sum_univ_eq_sum_range
    (fun k => ∫ x in nodeAt a dx k..nodeAt a dx (k + 1), |row a dx v x - row a dx w x|), distance, Finset.mul_sum]
  refine Finset.sum_congr rfl fun i _ => ?_
  have hi : nodeAt a dx i ≤ nodeAt a dx (i + 1) := hmono (Nat.le_succ _)
  rw [intervalIntegral.integral_of_le hi, setIntegral_congr_fun measurableSet_Ioc (g := fun _ => |v i - w i|)
    (fun x hx => by simp only [row_cell hdx v i x hx, row_cell hdx w i x hx]), setIntegral_const, Measure.real,
    Real.volume_Ioc, ENNReal.toReal_ofReal (by linarith), smul_eq_mul]
  rw [nodeAt_succ]
  unfold nodeAt
  ring

end Row

/-! ### Computed functions -/

/-- The function with the states of a run on the cells, for all times and places. -/
noncomputable def filled {n : ℕ} (m a dx t₀ S : ℝ) (steps : List ℝ) (states : ℕ → Fin n → ℝ) (z : ℝ × ℝ) : ℝ :=
  if z.1 ∈ Ioc t₀ S then ∑ j ∈ Finset.range steps.length,
    (Ioc (after t₀ steps j) (after t₀ steps (j + 1))).indicator (fun _ => row a dx (states j) z.2) z.1 else m

section Filled

variable {n : ℕ} (hn : 0 < n) {m M a dx t₀ : ℝ} (hdx : 0 < dx) {steps : List ℝ} (hpos : ∀ dt ∈ steps, 0 ≤ dt)
  (states : ℕ → Fin n → ℝ)

theorem filled_measurable (S : ℝ) : Measurable (filled m a dx t₀ S steps states) := by
  unfold filled
  refine Measurable.ite (measurable_fst measurableSet_Ioc) ?_ measurable_const
  refine Finset.measurable_sum _ fun j _ => ?_
  have : (fun z : ℝ × ℝ => (Ioc (after t₀ steps j) (after t₀ steps (j + 1))).indicator (fun _ => row a dx (states j) z.2) z.1) =
      (Prod.fst ⁻¹' Ioc (after t₀ steps j) (after t₀ steps (j + 1))).indicator fun z : ℝ × ℝ => row a dx (states j) z.2 := by
    funext z
    simp only [indicator, mem_preimage]
  rw [this]
  exact ((row_measurable (states j)).comp measurable_snd).indicator (measurable_fst measurableSet_Ioc)

include hpos in
theorem filled_step (j : ℕ) (hj : j < steps.length) (t : ℝ) (ht : t ∈ Ioc (after t₀ steps j) (after t₀ steps (j + 1))) (x : ℝ) :
    filled m a dx t₀ (t₀ + steps.sum) steps states (t, x) = row a dx (states j) x := by
  have hm := after_mono t₀ steps hpos
  have hmem : t ∈ Ioc t₀ (t₀ + steps.sum) := by
    have h1 := hm (Nat.zero_le j)
    have h2 := hm (show j + 1 ≤ steps.length from hj)
    rw [after_zero] at h1
    rw [after_length] at h2
    exact ⟨by linarith [ht.1], by linarith [ht.2]⟩
  unfold filled
  rw [if_pos hmem, Finset.sum_eq_single j]
  · exact indicator_of_mem ht _
  · intro i _ hij
    have hnot : t ∉ Ioc (after t₀ steps i) (after t₀ steps (i + 1)) := fun h => hij (interval_unique _ hm t h ht)
    exact indicator_of_notMem hnot _
  · intro h
    exact absurd (Finset.mem_range.2 hj) h

theorem filled_exists (t : ℝ) (ht : t ∈ Ioc t₀ (t₀ + steps.sum)) :
    ∃ j < steps.length, t ∈ Ioc (after t₀ steps j) (after t₀ steps (j + 1)) := by
  obtain ⟨j, hj, h1, h2⟩ := interval_cover (after t₀ steps) steps.length t (by rw [after_zero]; exact ht.1)
    (by rw [after_length]; exact ht.2)
  exact ⟨j, hj, h1, h2⟩

end Filled

namespace OnGrid

variable {q : ℝ → ℝ} {Λ m M V dx a t₀ : ℝ} {n : ℕ} {steps : List ℝ} {states : ℕ → Fin n → ℝ}
    {u : ℝ × ℝ → ℝ} {u0 : ℝ → ℝ} (h : OnGrid q Λ m M V dx a t₀ n steps states u u0)
include h

theorem filled_eq (hdx : 0 < dx) (hpos : ∀ dt ∈ steps, 0 ≤ dt) (z : ℝ × ℝ)
    (hz : z ∈ cell t₀ (t₀ + steps.sum) a (a + n * dx)) : u z = filled m a dx t₀ (t₀ + steps.sum) steps states z := by
  obtain ⟨j, hj, hj'⟩ := filled_exists z.1 hz.1
  obtain ⟨i, hi, d1, d2⟩ := interval_cover (nodeAt a dx) n z.2 (by rw [nodeAt_zero]; exact hz.2.1) hz.2.2
  rw [show z = (z.1, z.2) from rfl, filled_step hpos states j hj z.1 hj' z.2, row_cell hdx (states j) ⟨i, hi⟩ z.2 ⟨d1, d2⟩]
  exact h.later j hj ⟨i, hi⟩ z ⟨hj', d1, d2⟩

theorem filled_range (hn : 0 < n) (hpos : ∀ dt ∈ steps, 0 ≤ dt) (z : ℝ × ℝ) :
    m ≤ filled m a dx t₀ (t₀ + steps.sum) steps states z ∧ filled m a dx t₀ (t₀ + steps.sum) steps states z ≤ M := by
  by_cases hz : z.1 ∈ Ioc t₀ (t₀ + steps.sum)
  · obtain ⟨j, hj, hj'⟩ := filled_exists z.1 hz
    rw [show z = (z.1, z.2) from rfl, filled_step hpos states j hj z.1 hj' z.2]
    exact row_range hn (states j) (h.range j hj.le) z.2
  · unfold filled
    rw [if_neg hz]
    have := h.range 0 (Nat.zero_le _) ⟨0, hn⟩
    exact ⟨le_rfl, this.1.trans this.2⟩

theorem start_eq (hdx : 0 < dx) (x : ℝ) (hx : x ∈ Ioc a (a + n * dx)) : u0 x = row a dx (states 0) x := by
  obtain ⟨i, hi, d1, d2⟩ := interval_cover (nodeAt a dx) n x (by rw [nodeAt_zero]; exact hx.1) hx.2
  rw [row_cell hdx (states 0) ⟨i, hi⟩ x ⟨d1, d2⟩]
  exact h.initial ⟨i, hi⟩ x ⟨d1, d2⟩

theorem distance_steps (hdx : 0 < dx) (i j : ℕ) (hij : i ≤ j) (hj : j ≤ steps.length) :
    dx * distance (states j) (states i) ≤ 2 * Λ * V * (after t₀ steps j - after t₀ steps i) := by
  induction j, hij using Nat.le_induction with
  | base => simp [distance]
  | succ j hij ih =>
    have h1 := ih (by omega)
    have h2 := h.moves j (by omega)
    have h3 := distance_tri (states (j + 1)) (states j) (states i)
    rw [after_succ _ _ _ (by omega)]
    have h4 : dx * distance (states (j + 1)) (states j) ≤ 2 * Λ * V * steps[j] := by
      refine (mul_le_mul_of_nonneg_left h2 hdx.le).trans (le_of_eq ?_)
      field_simp
    have h5 := mul_le_mul_of_nonneg_left h3 hdx.le
    linarith

theorem regular (hn : 0 < n) (hdx : 0 < dx) (hq : Slope q m M Λ) (hpos : ∀ dt ∈ steps, 0 ≤ dt) (δ : ℝ)
    (hδ0 : 0 ≤ δ) (hδ : ∀ dt ∈ steps, dt ≤ δ) :
    Regular a (n * dx) t₀ (t₀ + steps.sum) V (2 * Λ * V) δ (filled m a dx t₀ (t₀ + steps.sum) steps states)
      (row a dx (states 0)) := by
  have hmono := after_mono t₀ steps hpos
  have hmM : m ≤ M := by
    have := h.range 0 (Nat.zero_le _) ⟨0, hn⟩
    exact this.1.trans this.2
  have hV : 0 ≤ V := by
    obtain ⟨G, hG⟩ := row_majorant hn hdx (a := a) (states 0) (h.variation 0 (Nat.zero_le _))
    have h1 := hG.mono (show (0 : ℝ) ≤ 0 + n * dx by positivity)
    rw [hG.period] at h1
    linarith
  have hL : 0 ≤ 2 * Λ * V := by
    have := hq.nonneg
    positivity
  refine ⟨fun t ht => ?_, fun s hs t ht hst => ?_, fun t ht => ?_⟩
  · obtain ⟨j, hj, hj'⟩ := filled_exists t ht
    obtain ⟨G, hG⟩ := row_majorant hn hdx (a := a) (states j) (h.variation j hj.le)
    exact ⟨_, G, hG, row_periodic hdx (states j), fun x _ => filled_step hpos states j hj t hj' x⟩
  · obtain ⟨i, hi, hi'⟩ := filled_exists s hs
    obtain ⟨j, hj, hj'⟩ := filled_exists t ht
    have hij : i ≤ j := by
      by_contra hc
      have := hmono (show j + 1 ≤ i by omega)
      linarith [hi'.1, hj'.2]
    simp only [filled_step hpos states i hi s hi', filled_step hpos states j hj t hj']
    rw [row_distance hn hdx]
    refine (h.distance_steps hdx i j hij hj.le).trans (mul_le_mul_of_nonneg_left ?_ hL)
    have h1 := after_succ t₀ steps i hi
    have h2 := hδ _ (List.getElem_mem hi)
    linarith [hi'.2, hj'.1]
  · obtain ⟨j, hj, hj'⟩ := filled_exists t ht
    simp only [filled_step hpos states j hj t hj']
    rw [row_distance hn hdx]
    refine (h.distance_steps hdx 0 j (Nat.zero_le _) hj.le).trans (mul_le_mul_of_nonneg_left ?_ hL)
    rw [after_zero]
    linarith [hj'.1]

theorem approximate (hn : 0 < n) (hdx : 0 < dx) (hq : Slope q m M Λ) (hpos : ∀ dt ∈ steps, 0 ≤ dt) (δ : ℝ)
    (hδ : ∀ dt ∈ steps, dt ≤ δ) (hδ0 : 0 ≤ δ) :
    Approximate q a (n * dx) t₀ (t₀ + steps.sum) m M
      (steps.sum * (2 * Λ * V * dx + n * dx * (Λ * (M - m)) * (2 * δ + 3 * dx)))
      (filled m a dx t₀ (t₀ + steps.sum) steps states) (row a dx (states 0)) := by
  have hmM : m ≤ M := by
    have := h.range 0 (Nat.zero_le _) ⟨0, hn⟩
    exact this.1.trans this.2
  have hL := hq.nonneg
  have hV : 0 ≤ V := by
    obtain ⟨G, hG⟩ := row_majorant hn hdx (a := a) (states 0) (h.variation 0 (Nat.zero_le _))
    have h1 := hG.mono (show (0 : ℝ) ≤ 0 + n * dx by positivity)
    rw [hG.period] at h1
    linarith
  have hs0 : 0 ≤ steps.sum := List.sum_nonneg hpos
  intro k hk1 hk2 A B φ φt φx hφ
  have hA := hφ.nonneg_A
  have hB := hφ.nonneg_B
  have hQ : ∀ v, m ≤ v → v ≤ M → |q v - q k| ≤ Λ * (M - m) := by
    intro v h1 h2
    refine (hq.lipschitz v k ⟨h1, h2⟩ ⟨hk1, hk2⟩).trans (mul_le_mul_of_nonneg_left ?_ hL)
    rw [abs_le]
    constructor <;> linarith
  have low := h.lower hn hdx hmM hpos δ hδ k _ hQ hφ
  have e : weakForm q k a (n * dx) t₀ (t₀ + steps.sum) (filled m a dx t₀ (t₀ + steps.sum) steps states)
      (row a dx (states 0)) φ φt φx = weakForm q k a (n * dx) t₀ (t₀ + steps.sum) u u0 φ φt φx := by
    unfold weakForm
    have hle : a ≤ a + n * dx := by
      have : 0 ≤ (n : ℝ) * dx := by positivity
      linarith
    congr 1
    · refine setIntegral_congr_fun (cell_measurable _ _ _ _) fun z hz => ?_
      simp only [h.filled_eq hdx hpos z hz]
    · rw [intervalIntegral.integral_of_le hle, intervalIntegral.integral_of_le hle]
      refine setIntegral_congr_fun measurableSet_Ioc fun x hx => ?_
      simp only [h.start_eq hdx x hx]
  rw [e]
  refine le_trans (neg_le_neg ?_) low
  have h1 : 0 ≤ 2 * Λ * V * dx := by positivity
  have h2 : 0 ≤ n * dx * (Λ * (M - m)) * (2 * δ + 3 * dx) := by
    have : 0 ≤ M - m := by linarith
    positivity
  have h3 : A * (2 * Λ * V) * dx + n * dx * (Λ * (M - m)) * (B * (2 * δ + 3 * dx)) ≤
      (2 * Λ * V * dx + n * dx * (Λ * (M - m)) * (2 * δ + 3 * dx)) * (A + B) := by
    have h4 := mul_nonneg h1 hB
    have h5 := mul_nonneg h2 hA
    linarith
  calc _ ≤ steps.sum * ((2 * Λ * V * dx + n * dx * (Λ * (M - m)) * (2 * δ + 3 * dx)) * (A + B)) :=
        mul_le_mul_of_nonneg_left h3 hs0
    _ = _ := by ring

end OnGrid

end Verif.EntropyLimit
