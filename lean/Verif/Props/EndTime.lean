import Verif.Props.EntropyScheme

/-!
Helper lemmas for C135: the states at the end of the runs of a monotone scheme converge.
-/

set_option linter.unusedSectionVars false

namespace Verif.EntropyLimit

open Verif.Py Verif.ODE Verif.Scalar Verif.Convergence Verif.Weak
open MeasureTheory Set

/-- A run as in `GridRun`, with the function `r` of the state at its end. -/
def GridEnd (q : ℝ → ℝ) (Λ m M V c a P t₀ S : ℝ) (f G : ℝ → ℝ) (n : ℕ) (u : ℝ × ℝ → ℝ) (u0 r : ℝ → ℝ) : Prop :=
  ∃ (steps : List ℝ) (states : ℕ → Fin n → ℝ), OnGrid q Λ m M V (P / n) a t₀ n steps states u u0 ∧ t₀ + steps.sum = S ∧
    (∀ dt ∈ steps, 0 ≤ dt ∧ dt ≤ c * (P / n)) ∧
    (∀ (i : Fin n), ∀ x ∈ Ioc (nodeAt a (P / n) i) (nodeAt a (P / n) (i + 1)),
      |states 0 i - f x| ≤ G (nodeAt a (P / n) (i + 1)) - G (nodeAt a (P / n) i)) ∧
    ∀ (i : Fin n), ∀ x ∈ Ioc (nodeAt a (P / n) i) (nodeAt a (P / n) (i + 1)), r x = states steps.length i

section Data

variable {q : ℝ → ℝ} {Λ m M V c a P t₀ S : ℝ} (hqm : Measurable q) (hq : Slope q m M Λ) (hS : t₀ ≤ S) (hP0 : 0 < P)
  {f G : ℝ → ℝ} (hfr : ∀ x, m ≤ f x ∧ f x ≤ M) (hG : Majorant f G P V) (hc0 : 0 ≤ c)

theorem GridEnd.run {n : ℕ} {u : ℝ × ℝ → ℝ} {u0 r : ℝ → ℝ} (h : GridEnd q Λ m M V c a P t₀ S f G n u u0 r) :
    GridRun q Λ m M V c a P t₀ S f G n u u0 := by
  obtain ⟨steps, states, h1, h2, h3, h4, -⟩ := h
  exact ⟨steps, states, h1, h2, h3, h4⟩

include hq hP0 hG in
/-- The state at the end is near the computed function at the last times. -/
theorem end_near {n : ℕ} (hn : 0 < n) {u : ℝ × ℝ → ℝ} {u0 r : ℝ → ℝ} (h : GridEnd q Λ m M V c a P t₀ S f G n u u0 r) :
    ∃ r', Measurable r' ∧ (∀ x, m ≤ r' x ∧ r' x ≤ M) ∧ (∀ x ∈ Ioc a (a + P), r x = r' x) ∧
      ∀ t ∈ Ioc t₀ S, ∫ x in Ioc a (a + P), |r' x - u (t, x)| ≤ 2 * Λ * V * (S - t + c * (P / n)) := by
  obtain ⟨steps, states, hg, rfl, hsteps, -, hend⟩ := h
  have hn0 : (0 : ℝ) < n := by exact_mod_cast hn
  have hPn : (n : ℝ) * (P / n) = P := by field_simp
  set dx := P / n with hdx'
  have hdx : 0 < dx := div_pos hP0 hn0
  have hpos : ∀ dt ∈ steps, 0 ≤ dt := fun dt h => (hsteps dt h).1
  have hV : 0 ≤ V := by
    have h1 := hG.mono (show (0 : ℝ) ≤ 0 + P by linarith)
    rw [hG.period] at h1
    linarith
  have hL : 0 ≤ 2 * Λ * V := by
    have := hq.nonneg
    positivity
  refine ⟨row a dx (states steps.length), row_measurable _, row_range hn _ (hg.range _ le_rfl), fun x hx => ?_, fun t ht => ?_⟩
  · rw [← hPn] at hx
    obtain ⟨i, hi, d1, d2⟩ := interval_cover (nodeAt a dx) n x (by rw [nodeAt_zero]; exact hx.1) hx.2
    rw [row_cell hdx _ ⟨i, hi⟩ x ⟨d1, d2⟩]
    exact hend ⟨i, hi⟩ x ⟨d1, d2⟩
  · obtain ⟨j, hj, hj'⟩ := filled_exists t ht
    have e : ∫ x in Ioc a (a + P), |row a dx (states steps.length) x - u (t, x)| =
        ∫ x in Ioc a (a + P), |row a dx (states steps.length) x - row a dx (states j) x| := by
      refine setIntegral_congr_fun measurableSet_Ioc fun x hx => ?_
      have := hg.filled_eq hdx hpos (t, x) ⟨ht, by rw [hPn]; exact hx⟩
      rw [filled_step hpos states j hj t hj' x] at this
      simp only [this]
    rw [e, ← hPn, row_distance hn hdx]
    refine (hg.distance_steps hdx j steps.length hj.le le_rfl).trans (mul_le_mul_of_nonneg_left ?_ hL)
    rw [after_length]
    have h1 := after_succ t₀ steps j hj
    have h2 := (hsteps _ (List.getElem_mem hj)).2
    linarith [hj'.2]

/-- A measurable function with values in a range. -/
theorem space_integrable {r : ℝ → ℝ} {b₁ b₂ : ℝ} (mr : Measurable r) (hr : ∀ x, m ≤ r x ∧ r x ≤ M) :
    IntegrableOn r (Ioc b₁ b₂) := by
  haveI : IsFiniteMeasure (volume.restrict (Ioc b₁ b₂)) :=
    ⟨by rw [Measure.restrict_apply_univ]; exact measure_Ioc_lt_top⟩
  exact bounded_integrable' (C := |m| + |M|) mr (Filter.Eventually.of_forall fun x => by
    rw [_root_.abs_le]
    have := hr x
    constructor <;> linarith [neg_abs_le m, le_abs_self m, neg_abs_le M, le_abs_self M, abs_nonneg m, abs_nonneg M])

/-- The last times of the strip. -/
theorem last_times {D : Set ℝ} (h : ℝ) (h0 : 0 ≤ h) (F : ℝ × ℝ → ℝ)
    (hF : IntegrableOn F (Ioc (S - h) S ×ˢ D)) (B : ℝ) (hB : ∀ t ∈ Ioc (S - h) S, ∫ x in D, F (t, x) ≤ B) :
    ∫ z in Ioc (S - h) S ×ˢ D, F z ≤ h * B := by
  have hF' : Integrable F ((volume.restrict (Ioc (S - h) S)).prod (volume.restrict D)) := by
    rw [Measure.prod_restrict]; exact hF
  have e : ∫ z in Ioc (S - h) S ×ˢ D, F z = ∫ t in Ioc (S - h) S, ∫ x in D, F (t, x) := by
    rw [Measure.volume_eq_prod, ← Measure.prod_restrict, integral_prod _ hF']
  rw [e]
  have e2 : h * B = ∫ _ in Ioc (S - h) S, B := by
    rw [setIntegral_const, Measure.real, Real.volume_Ioc, ENNReal.toReal_ofReal (by linarith), smul_eq_mul]
    ring
  rw [e2]
  exact setIntegral_mono_on hF'.integral_prod_left (integrableOn_const measure_Ioc_lt_top.ne) measurableSet_Ioc hB

/-- The integral over the last times of a function of space. -/
theorem last_const {D : Set ℝ} (h : ℝ) (h0 : 0 ≤ h) (F : ℝ → ℝ) :
    ∫ z in Ioc (S - h) S ×ˢ D, F z.2 = h * ∫ x in D, F x := by
  rw [Measure.volume_eq_prod, ← Measure.prod_restrict]
  have := integral_prod_mul (μ := volume.restrict (Ioc (S - h) S)) (ν := volume.restrict D) (fun _ => (1 : ℝ)) F
  simp only [one_mul] at this
  rw [this, setIntegral_const, Measure.real, Real.volume_Ioc, ENNReal.toReal_ofReal (by linarith), smul_eq_mul]
  ring

theorem last_integrable {D : Set ℝ} (h : ℝ) {F : ℝ → ℝ} (hF : IntegrableOn F D) :
    IntegrableOn (fun z : ℝ × ℝ => F z.2) (Ioc (S - h) S ×ˢ D) := by
  unfold IntegrableOn
  rw [Measure.volume_eq_prod, ← Measure.prod_restrict]
  haveI : IsFiniteMeasure (volume.restrict (Ioc (S - h) S)) :=
    ⟨by rw [Measure.restrict_apply_univ]; exact measure_Ioc_lt_top⟩
  exact Integrable.comp_snd hF _

include hq hP0 hfr hG hc0 in
/-- The distance of the end of a run from a function of space, by the distance of the run from a function in the strip. -/
theorem end_distance {n : ℕ} (hn : 0 < n) {u : ℝ × ℝ → ℝ} {u0 r : ℝ → ℝ} (hu : GridEnd q Λ m M V c a P t₀ S f G n u u0 r)
    {w : ℝ × ℝ → ℝ} (hw : IntegrableOn w (Ioc t₀ S ×ˢ Ioc a (a + P))) {e : ℝ → ℝ} (he : IntegrableOn e (Ioc a (a + P)))
    (h : ℝ) (h0 : 0 < h) (h1 : h ≤ S - t₀) :
    h * ∫ x in Ioc a (a + P), |r x - e x| ≤ h * (2 * Λ * V * (h + c * (P / n))) +
      (∫ z in Ioc t₀ S ×ˢ Ioc a (a + P), |u z - w z|) + ∫ z in Ioc (S - h) S ×ˢ Ioc a (a + P), |w z - e z.2| := by
  obtain ⟨r', mr, hr, hrr, hnear⟩ := end_near hq hP0 hG hn hu
  have iu := grid_integrable hq hP0 hfr hG hc0 hn hu.run
  have hV : 0 ≤ V := by
    have h1 := hG.mono (show (0 : ℝ) ≤ 0 + P by linarith)
    rw [hG.period] at h1
    linarith
  have hL : 0 ≤ 2 * Λ * V := by
    have := hq.nonneg
    positivity
  have ir : IntegrableOn r' (Ioc a (a + P)) := space_integrable mr hr
  have hsub : Ioc (S - h) S ×ˢ Ioc a (a + P) ⊆ Ioc t₀ S ×ˢ Ioc a (a + P) :=
    Set.prod_mono (Ioc_subset_Ioc (by linarith) le_rfl) subset_rfl
  have e0 : ∫ x in Ioc a (a + P), |r x - e x| = ∫ x in Ioc a (a + P), |r' x - e x| :=
    setIntegral_congr_fun measurableSet_Ioc fun x hx => by simp only [hrr x hx]
  rw [e0, ← last_const h h0.le (fun x => |r' x - e x|)]
  have iu' := iu.mono_set hsub
  have iw' := hw.mono_set hsub
  have ir' := last_integrable (S := S) h ir
  have ie' := last_integrable (S := S) h he
  have j1 : IntegrableOn (fun z : ℝ × ℝ => |r' z.2 - u z|) (Ioc (S - h) S ×ˢ Ioc a (a + P)) := (ir'.sub iu').abs
  have j2 : IntegrableOn (fun z : ℝ × ℝ => |u z - w z|) (Ioc (S - h) S ×ˢ Ioc a (a + P)) := (iu'.sub iw').abs
  have j3 : IntegrableOn (fun z : ℝ × ℝ => |w z - e z.2|) (Ioc (S - h) S ×ˢ Ioc a (a + P)) := (iw'.sub ie').abs
  have j4 : IntegrableOn (fun z : ℝ × ℝ => |r' z.2 - e z.2|) (Ioc (S - h) S ×ˢ Ioc a (a + P)) := (ir'.sub ie').abs
  have tri := integral_mono j4 ((j1.add j2).add j3) fun z => by
    simp only [Pi.add_apply]
    have t1 := abs_sub_le (r' z.2) (u z) (e z.2)
    have t2 := abs_sub_le (u z) (w z) (e z.2)
    linarith
  rw [integral_add' (j1.add j2) j3, integral_add' j1 j2] at tri
  have k1 := last_times h h0.le (fun z => |r' z.2 - u z|) j1
    (2 * Λ * V * (h + c * (P / n))) fun t ht => by
      refine (hnear t ⟨by linarith [ht.1], ht.2⟩).trans (mul_le_mul_of_nonneg_left ?_ hL)
      linarith [ht.1]
  have k2 : ∫ z in Ioc (S - h) S ×ˢ Ioc a (a + P), |u z - w z| ≤ ∫ z in Ioc t₀ S ×ˢ Ioc a (a + P), |u z - w z| :=
    setIntegral_mono_set (iu.sub hw).abs (Filter.Eventually.of_forall fun z => abs_nonneg _)
      (HasSubset.Subset.eventuallyLE hsub)
  linarith

include hq hP0 hfr hG hc0 in
/-- The distance in the last times of a function from a function of space, by the distance from a run and its end. -/
theorem end_value {n : ℕ} (hn : 0 < n) {u : ℝ × ℝ → ℝ} {u0 r : ℝ → ℝ} (hu : GridEnd q Λ m M V c a P t₀ S f G n u u0 r)
    {w : ℝ × ℝ → ℝ} (hw : IntegrableOn w (Ioc t₀ S ×ˢ Ioc a (a + P))) {e : ℝ → ℝ} (he : IntegrableOn e (Ioc a (a + P)))
    (h : ℝ) (h0 : 0 < h) (h1 : h ≤ S - t₀) :
    ∫ z in Ioc (S - h) S ×ˢ Ioc a (a + P), |w z - e z.2| ≤ h * (2 * Λ * V * (h + c * (P / n))) +
      (∫ z in Ioc t₀ S ×ˢ Ioc a (a + P), |u z - w z|) + h * ∫ x in Ioc a (a + P), |r x - e x| := by
  obtain ⟨r', mr, hr, hrr, hnear⟩ := end_near hq hP0 hG hn hu
  have iu := grid_integrable hq hP0 hfr hG hc0 hn hu.run
  have hV : 0 ≤ V := by
    have h1 := hG.mono (show (0 : ℝ) ≤ 0 + P by linarith)
    rw [hG.period] at h1
    linarith
  have hL : 0 ≤ 2 * Λ * V := by
    have := hq.nonneg
    positivity
  have ir : IntegrableOn r' (Ioc a (a + P)) := space_integrable mr hr
  have hsub : Ioc (S - h) S ×ˢ Ioc a (a + P) ⊆ Ioc t₀ S ×ˢ Ioc a (a + P) :=
    Set.prod_mono (Ioc_subset_Ioc (by linarith) le_rfl) subset_rfl
  have e0 : ∫ x in Ioc a (a + P), |r x - e x| = ∫ x in Ioc a (a + P), |r' x - e x| :=
    setIntegral_congr_fun measurableSet_Ioc fun x hx => by simp only [hrr x hx]
  rw [e0, ← last_const h h0.le (fun x => |r' x - e x|)]
  have iu' := iu.mono_set hsub
  have iw' := hw.mono_set hsub
  have ir' := last_integrable (S := S) h ir
  have ie' := last_integrable (S := S) h he
  have j1 : IntegrableOn (fun z : ℝ × ℝ => |r' z.2 - u z|) (Ioc (S - h) S ×ˢ Ioc a (a + P)) := (ir'.sub iu').abs
  have j2 : IntegrableOn (fun z : ℝ × ℝ => |u z - w z|) (Ioc (S - h) S ×ˢ Ioc a (a + P)) := (iu'.sub iw').abs
  have j3 : IntegrableOn (fun z : ℝ × ℝ => |w z - e z.2|) (Ioc (S - h) S ×ˢ Ioc a (a + P)) := (iw'.sub ie').abs
  have j4 : IntegrableOn (fun z : ℝ × ℝ => |r' z.2 - e z.2|) (Ioc (S - h) S ×ˢ Ioc a (a + P)) := (ir'.sub ie').abs
  have tri := integral_mono j3 ((j1.add j2).add j4) fun z => by
    simp only [Pi.add_apply]
    have t1 := abs_sub_le (w z) (u z) (e z.2)
    have t2 := abs_sub_le (u z) (r' z.2) (e z.2)
    rw [abs_sub_comm (w z) (u z)] at t1
    rw [abs_sub_comm (u z) (r' z.2)] at t2
    linarith
  rw [integral_add' (j1.add j2) j4, integral_add' j1 j2] at tri
  have k1 := last_times h h0.le (fun z => |r' z.2 - u z|) j1
    (2 * Λ * V * (h + c * (P / n))) fun t ht => by
      refine (hnear t ⟨by linarith [ht.1], ht.2⟩).trans (mul_le_mul_of_nonneg_left ?_ hL)
      linarith [ht.1]
  have k2 : ∫ z in Ioc (S - h) S ×ˢ Ioc a (a + P), |u z - w z| ≤ ∫ z in Ioc t₀ S ×ˢ Ioc a (a + P), |u z - w z| :=
    setIntegral_mono_set (iu.sub hw).abs (Filter.Eventually.of_forall fun z => abs_nonneg _)
      (HasSubset.Subset.eventuallyLE hsub)
  linarith

/-- `e` is the value of `w` at the end. -/
def EndsLaw (a P t₀ S : ℝ) (w : ℝ × ℝ → ℝ) (e : ℝ → ℝ) : Prop :=
  IntegrableOn e (Ioc a (a + P)) ∧ ∀ η > 0, ∃ h₀ > 0, ∀ h, 0 < h → h ≤ h₀ → h ≤ S - t₀ →
    ∫ z in Ioc (S - h) S ×ˢ Ioc a (a + P), |w z - e z.2| ≤ η * h

/-- A mesh width below a bound. -/
theorem fine_mesh (hP0 : 0 < P) (hc0 : 0 ≤ c) (L η : ℝ) (hL : 0 ≤ L) (hη : 0 < η) :
    ∃ N : ℕ, ∀ n : ℕ, N ≤ n → 0 < n → L * (c * (P / n)) ≤ η := by
  refine ⟨⌈L * c * P / η⌉₊, fun n h hn => ?_⟩
  have hn0 : (0 : ℝ) < n := by exact_mod_cast hn
  have := (Nat.le_ceil _).trans (by exact_mod_cast h : (⌈L * c * P / η⌉₊ : ℝ) ≤ n)
  rw [div_le_iff₀ hη] at this
  rw [show L * (c * (P / n)) = L * c * P / n by ring, div_le_iff₀ hn0]
  linarith

include hqm hq hP0 hfr hG hc0 in
/-- The states at the end converge. -/
theorem end_converges (hS : t₀ < S) (w : ℝ × ℝ → ℝ) (hw : SolvesLaw q m M a P f t₀ S w) (e : ℝ → ℝ)
    (he : EndsLaw a P t₀ S w e) (η : ℝ) (hη : 0 < η) :
    ∃ N : ℕ, ∀ n : ℕ, N ≤ n → 0 < n → ∀ u u0 r, GridEnd q Λ m M V c a P t₀ S f G n u u0 r →
      ∫ x in Ioc a (a + P), |r x - e x| ≤ η := by
  have hV : 0 ≤ V := by
    have h1 := hG.mono (show (0 : ℝ) ≤ 0 + P by linarith)
    rw [hG.period] at h1
    linarith
  have hL : 0 ≤ 2 * Λ * V := by
    have := hq.nonneg
    positivity
  obtain ⟨h₀, hh₀, hh⟩ := he.2 (η / 4) (by linarith)
  set L := 2 * Λ * V with hLd
  set h := min (min h₀ (S - t₀)) (η / (4 * (L + 1))) with hhd
  have h0 : 0 < h := lt_min (lt_min hh₀ (by linarith)) (by positivity)
  have h1 : h ≤ S - t₀ := (min_le_left _ _).trans (min_le_right _ _)
  have h2 : L * h ≤ η / 4 := by
    have : h ≤ η / (4 * (L + 1)) := min_le_right _ _
    rw [le_div_iff₀ (by positivity)] at this
    linarith
  obtain ⟨N, hN⟩ := grid_converges hqm hq hS.le hP0 hfr hG hc0 w hw (η / 4 * h) (by positivity)
  obtain ⟨N', hN'⟩ := fine_mesh hP0 hc0 L (η / 4) hL (by linarith)
  refine ⟨max N N', fun n hn hn0 u u0 r hu => ?_⟩
  have a1 := hN n ((le_max_left _ _).trans hn) hn0 u u0 hu.run
  have a2 := hN' n ((le_max_right _ _).trans hn) hn0
  have a3 := hh h h0 ((min_le_left _ _).trans (min_le_left _ _)) h1
  have a4 := end_distance hq hP0 hfr hG hc0 hn0 hu hw.1 he.1 h h0 h1
  rw [← hLd, mul_add L] at a4
  have a5 : h * (L * h + L * (c * (P / n))) ≤ h * (η / 4 + η / 4) := mul_le_mul_of_nonneg_left (by linarith) h0.le
  refine le_of_mul_le_mul_left ?_ h0
  linarith

include hqm hq hP0 hfr hG hc0 in
/-- The states at the end form a Cauchy sequence. -/
theorem end_cauchy (hS : t₀ < S) (w : ℝ × ℝ → ℝ) (hw : SolvesLaw q m M a P f t₀ S w) (η : ℝ) (hη : 0 < η) :
    ∃ N : ℕ, ∀ n n' : ℕ, N ≤ n → N ≤ n' → 0 < n → 0 < n' → ∀ u u0 r u' u0' r', GridEnd q Λ m M V c a P t₀ S f G n u u0 r →
      GridEnd q Λ m M V c a P t₀ S f G n' u' u0' r' → ∫ x in Ioc a (a + P), |r x - r' x| ≤ η := by
  have hV : 0 ≤ V := by
    have h1 := hG.mono (show (0 : ℝ) ≤ 0 + P by linarith)
    rw [hG.period] at h1
    linarith
  have hL : 0 ≤ 2 * Λ * V := by
    have := hq.nonneg
    positivity
  set L := 2 * Λ * V with hLd
  set h := min (S - t₀) (η / (8 * (L + 1))) with hhd
  have h0 : 0 < h := lt_min (by linarith) (by positivity)
  have h1 : h ≤ S - t₀ := min_le_left _ _
  have h2 : L * h ≤ η / 8 := by
    have : h ≤ η / (8 * (L + 1)) := min_le_right _ _
    rw [le_div_iff₀ (by positivity)] at this
    linarith
  obtain ⟨N, hN⟩ := grid_converges hqm hq hS.le hP0 hfr hG hc0 w hw (η / 8 * h) (by positivity)
  obtain ⟨N', hN'⟩ := fine_mesh hP0 hc0 L (η / 8) hL (by linarith)
  refine ⟨max N N', fun n n' hn hn' hn0 hn0' u u0 r u' u0' r' hu hu' => ?_⟩
  obtain ⟨r₁, mr, hr, hrr, -⟩ := end_near hq hP0 hG hn0' hu'
  have ir : IntegrableOn r' (Ioc a (a + P)) :=
    (space_integrable mr hr).congr_fun (fun x hx => (hrr x hx).symm) measurableSet_Ioc
  have a1 := hN n ((le_max_left _ _).trans hn) hn0 u u0 hu.run
  have a1' := hN n' ((le_max_left _ _).trans hn') hn0' u' u0' hu'.run
  have a2 := hN' n ((le_max_right _ _).trans hn) hn0
  have a2' := hN' n' ((le_max_right _ _).trans hn') hn0'
  have a4 := end_distance hq hP0 hfr hG hc0 hn0 hu hw.1 ir h h0 h1
  have a4' := end_value hq hP0 hfr hG hc0 hn0' hu' hw.1 ir h h0 h1
  simp only [sub_self, abs_zero, integral_zero, mul_zero, add_zero] at a4'
  rw [← hLd, mul_add L] at a4 a4'
  have a5 : h * (L * h + L * (c * (P / n))) ≤ h * (η / 8 + η / 8) := mul_le_mul_of_nonneg_left (by linarith) h0.le
  have a5' : h * (L * h + L * (c * (P / n'))) ≤ h * (η / 8 + η / 8) := mul_le_mul_of_nonneg_left (by linarith) h0.le
  refine le_of_mul_le_mul_left ?_ h0
  have := mul_pos h0 hη
  linarith

include hqm hq hP0 hfr hG hc0 in
/-- The entropy solution has a value at the end. -/
theorem end_exists (hS : t₀ < S) (N₀ : ℕ) (hex : ∀ n, N₀ < n → ∃ u u0 r, GridEnd q Λ m M V c a P t₀ S f G n u u0 r)
    (w : ℝ × ℝ → ℝ) (hw : SolvesLaw q m M a P f t₀ S w) :
    ∃ e, IntegrableOn e (Ioc a (a + P)) ∧ ∀ h, 0 < h → h ≤ S - t₀ →
      ∫ z in Ioc (S - h) S ×ˢ Ioc a (a + P), |w z - e z.2| ≤ 2 * Λ * V * h ^ 2 := by
  have hV : 0 ≤ V := by
    have h1 := hG.mono (show (0 : ℝ) ≤ 0 + P by linarith)
    rw [hG.period] at h1
    linarith
  have hL : 0 ≤ 2 * Λ * V := by
    have := hq.nonneg
    positivity
  have hpos : ∀ l : ℕ, 0 < l + N₀ + 1 := fun l => Nat.succ_pos _
  have hex' := fun l : ℕ => hex (l + N₀ + 1) (by omega)
  choose u u0 r hu using hex'
  set D := Ioc a (a + P) with hD
  have ir : ∀ l, Integrable (r l) (volume.restrict D) := fun l => by
    obtain ⟨r₁, mr, hr, hrr, -⟩ := end_near hq hP0 hG (hpos l) (hu l)
    have : IntegrableOn (r l) (Ioc a (a + P)) :=
      (space_integrable mr hr).congr_fun (fun x hx => (hrr x hx).symm) measurableSet_Ioc
    exact this
  set F : ℕ → Lp ℝ 1 (volume.restrict D) := fun l => (ir l).toL1 (r l) with hF
  have hdist : ∀ l l', dist (F l) (F l') = ∫ x in D, |r l x - r l' x| := by
    intro l l'
    rw [dist_eq_norm, hF]
    simp only
    rw [← Integrable.toL1_sub, L1.norm_of_fun_eq_integral_norm]
    rfl
  have hc : CauchySeq F := by
    rw [Metric.cauchySeq_iff]
    intro η hη
    obtain ⟨N, hN⟩ := end_cauchy hqm hq hP0 hfr hG hc0 hS w hw (η / 2) (by linarith)
    refine ⟨N, fun l hl l' hl' => ?_⟩
    rw [hdist]
    have := hN (l + N₀ + 1) (l' + N₀ + 1) (by omega) (by omega) (hpos l) (hpos l') _ _ _ _ _ _ (hu l) (hu l')
    linarith
  obtain ⟨g, hg⟩ := cauchySeq_tendsto_of_complete hc
  have ig : Integrable (fun x => g x) (volume.restrict D) := L1.integrable_coeFn g
  refine ⟨fun x => g x, ig, fun h h0 h1 => ?_⟩
  have hlim : ∀ η > 0, ∃ N, ∀ l, N ≤ l → ∫ x in D, |r l x - g x| ≤ η := by
    intro η hη
    rw [tendsto_iff_dist_tendsto_zero, Metric.tendsto_atTop] at hg
    obtain ⟨N, hN⟩ := hg η hη
    refine ⟨N, fun l hl => ?_⟩
    have e : dist (F l) g = ∫ x in D, |r l x - g x| := by
      rw [dist_eq_norm, L1.norm_eq_integral_norm]
      refine integral_congr_ae ?_
      filter_upwards [Lp.coeFn_sub (F l) g, (ir l).coeFn_toL1] with z h1 h2
      rw [h1, Pi.sub_apply, Real.norm_eq_abs]
      simp only [hF]
      rw [h2]
    have := hN l hl
    rw [Real.dist_eq, sub_zero, abs_of_nonneg dist_nonneg, e] at this
    exact this.le
  refine le_of_forall_pos_le_add fun η hη => ?_
  obtain ⟨N, hN⟩ := hlim (η / (3 * h)) (by positivity)
  obtain ⟨N', hN'⟩ := grid_converges hqm hq hS.le hP0 hfr hG hc0 w hw (η / 3) (by linarith)
  obtain ⟨N'', hN''⟩ := fine_mesh hP0 hc0 (2 * Λ * V) (η / (3 * h)) hL (by positivity)
  set l := N + N' + N'' with hl
  have a1 := hN l (by omega)
  have a2 := hN' (l + N₀ + 1) (by omega) (hpos l) _ _ (hu l).run
  have a3 := hN'' (l + N₀ + 1) (by omega) (hpos l)
  have a4 := end_value hq hP0 hfr hG hc0 (hpos l) (hu l) hw.1 ig h h0 h1
  have a5 := mul_le_mul_of_nonneg_left a1 h0.le
  have a6 := mul_le_mul_of_nonneg_left a3 h0.le
  have a7 : h * (η / (3 * h)) = η / 3 := by field_simp
  rw [a7] at a5 a6
  rw [mul_add (2 * Λ * V), mul_add h] at a4
  have a8 : h * (2 * Λ * V * h) = 2 * Λ * V * h ^ 2 := by ring
  rw [a8] at a4
  linarith

end Data

end Verif.EntropyLimit
