import Verif.Props.EntropyRegular
import Mathlib.MeasureTheory.Function.L1Space.AEEqFun

/-!
Helper lemmas for C133 and C134: the runs of a monotone scheme converge to the entropy solution, which exists and is
unique.
-/

set_option linter.unusedSectionVars false

namespace Verif.EntropyLimit

open Verif.Py Verif.ODE Verif.Scalar Verif.Convergence Verif.Weak
open MeasureTheory Set

/-- `w` is an entropy solution of the conservation law with flux `q`, with the data `f` and values between `m` and `M`. -/
def SolvesLaw (q : ℝ → ℝ) (m M a P : ℝ) (f : ℝ → ℝ) (t₀ S : ℝ) (w : ℝ × ℝ → ℝ) : Prop :=
  IntegrableOn w (Ioc t₀ S ×ˢ Ioc a (a + P)) ∧
    (∀ᵐ z ∂volume.restrict (Ioc t₀ S ×ˢ Ioc a (a + P)), m ≤ w z ∧ w z ≤ M) ∧ EntropySolution q a P t₀ S w f

section Data

variable {q : ℝ → ℝ} {Λ m M V c a P t₀ S : ℝ} (hqm : Measurable q) (hq : Slope q m M Λ) (hS : t₀ ≤ S) (hP0 : 0 < P)
  {f G : ℝ → ℝ} (hfr : ∀ x, m ≤ f x ∧ f x ≤ M) (hG : Majorant f G P V) (hc0 : 0 ≤ c)

include hq hP0 hfr hG hc0 in
/-- What is known about a computed function. -/
theorem grid_data {n : ℕ} (hn : 0 < n) {u : ℝ × ℝ → ℝ} {u0 : ℝ → ℝ} (hu : GridRun q Λ m M V c a P t₀ S f G n u u0) :
    ∃ (v : ℝ × ℝ → ℝ) (v0 : ℝ → ℝ), Measurable v ∧ Measurable v0 ∧ (∀ z, m ≤ v z ∧ v z ≤ M) ∧ (∀ x, m ≤ v0 x ∧ v0 x ≤ M) ∧
      (∀ z ∈ cell t₀ S a (a + P), u z = v z) ∧
      Regular a P t₀ S V (2 * Λ * V) (c * (P / n)) v v0 ∧
      Approximate q a P t₀ S m M ((S - t₀) * (2 * Λ * V +
        P * (Λ * (M - m)) * (2 * c + 3)) * (P / n)) v v0 ∧
      ∫ x in Ioc a (a + P), |v0 x - f x| ≤ V * (P / n) := by
  obtain ⟨steps, states, hg, rfl, hsteps, hnear⟩ := hu
  have hmM : m ≤ M := (hfr 0).1.trans (hfr 0).2
  have hn0 : (0 : ℝ) < n := by exact_mod_cast hn
  set dx := P / n with hdx'
  have hdx : 0 < dx := div_pos hP0 hn0
  have hPn : (n : ℝ) * dx = P := by rw [hdx']; field_simp
  have hpos : ∀ dt ∈ steps, 0 ≤ dt := fun dt h => (hsteps dt h).1
  have hδ : ∀ dt ∈ steps, dt ≤ c * dx := fun dt h => (hsteps dt h).2
  have hδ0 : 0 ≤ c * dx := by positivity
  have r1 := hg.regular hn hdx hq hpos _ hδ0 hδ
  have r2 := hg.approximate hn hdx hq hpos _ hδ hδ0
  have r3 : ∀ z ∈ cell t₀ (t₀ + steps.sum) a (a + P), u z = filled m a dx t₀ (t₀ + steps.sum) steps states z := by
    intro z hz
    rw [← hPn] at hz
    exact hg.filled_eq hdx hpos z hz
  rw [hPn] at r1 r2
  refine ⟨_, _, filled_measurable states _, row_measurable (states 0), hg.filled_range hn hpos,
    row_range hn (states 0) (hg.range 0 (Nat.zero_le _)), r3, r1, ?_, ?_⟩
  · convert r2 using 1
    ring
  · have mf := majorant_measurable hG
    have mF : Measurable fun x => |row a dx (states 0) x - f x| :=
      continuous_abs.measurable.comp ((row_measurable (states 0)).sub mf)
    have iF : ∀ b c, IntervalIntegrable (fun x => |row a dx (states 0) x - f x|) volume b c := fun b c => by
      rw [intervalIntegrable_iff, uIoc]
      exact bounded_integrable' (C := M - m) mF (Filter.Eventually.of_forall fun x => by
        rw [abs_abs]
        exact range_diff (row_range hn (states 0) (hg.range 0 (Nat.zero_le _)) x) (hfr x))
    have hmono := nodeAt_mono a dx hdx.le
    have key : ∀ i : Fin n, ∫ x in nodeAt a dx i..nodeAt a dx (i + 1), |row a dx (states 0) x - f x| ≤
        dx * (G (nodeAt a dx (i + 1)) - G (nodeAt a dx i)) := by
      intro i
      have hi : nodeAt a dx i ≤ nodeAt a dx (i + 1) := hmono (Nat.le_succ _)
      have hwid : nodeAt a dx (i + 1) - nodeAt a dx i = dx := by
        rw [nodeAt_succ]; unfold nodeAt; ring
      have e : dx * (G (nodeAt a dx (i + 1)) - G (nodeAt a dx i)) =
          ∫ _ in nodeAt a dx i..nodeAt a dx (i + 1), (G (nodeAt a dx (i + 1)) - G (nodeAt a dx i)) := by
        rw [intervalIntegral.integral_const, hwid, smul_eq_mul]
      rw [e, intervalIntegral.integral_of_le hi, intervalIntegral.integral_of_le hi]
      refine setIntegral_mono_on ((intervalIntegrable_iff_integrableOn_Ioc_of_le hi).1 (iF _ _))
        (integrableOn_const (measure_Ioc_lt_top).ne) measurableSet_Ioc fun x hx => ?_
      rw [row_cell hdx (states 0) i x hx]
      exact hnear i x hx
    rw [← intervalIntegral.integral_of_le (by linarith)]
    have en : a + P = nodeAt a dx n := by unfold nodeAt; rw [hPn]
    have e0 : ∀ F : ℝ → ℝ, ∫ x in a..a + P, F x = ∫ x in nodeAt a dx 0..nodeAt a dx n, F x := fun F => by
      rw [nodeAt_zero, en]
    rw [e0, ← intervalIntegral.sum_integral_adjacent_intervals fun k _ => iF _ _, ← Fin.sum_univ_eq_sum_range
      (fun k => ∫ x in nodeAt a dx k..nodeAt a dx (k + 1), |row a dx (states 0) x - f x|)]
    refine (Finset.sum_le_sum fun i _ => key i).trans (le_of_eq ?_)
    rw [Fin.sum_univ_eq_sum_range (fun k => dx * (G (nodeAt a dx (k + 1)) - G (nodeAt a dx k))), ← Finset.mul_sum,
      Finset.sum_range_sub (fun k => G (nodeAt a dx k)), ← en, nodeAt_zero, hG.period]
    ring

include hqm hq hS hP0 hfr hG hc0 in
/-- Runs on fine meshes are near every function that almost satisfies the entropy inequalities. -/
theorem grid_close (η : ℝ) (hη : 0 < η) : ∃ N : ℕ, ∃ e > 0, ∀ n : ℕ, N ≤ n → 0 < n → ∀ u u0, GridRun q Λ m M V c a P t₀ S f G n u u0 →
    ∀ (v : ℝ × ℝ → ℝ) (v0 : ℝ → ℝ) (Ev : ℝ), Measurable v → (∀ z, m ≤ v z ∧ v z ≤ M) → Measurable v0 →
      (∀ x, m ≤ v0 x ∧ v0 x ≤ M) → Ev ≤ e → Approximate q a P t₀ S m M Ev v v0 →
      ∫ z in Ioc t₀ S ×ˢ Ioc a (a + P), |u z - v z| ≤ (S - t₀) * (∫ x in Ioc a (a + P), |v0 x - f x|) + η := by
  have hmM : m ≤ M := (hfr 0).1.trans (hfr 0).2
  have htop := hq.nonneg
  have hV : 0 ≤ V := by
    have h1 := hG.mono (show (0 : ℝ) ≤ 0 + P by linarith)
    rw [hG.period] at h1
    linarith
  have hT : 0 ≤ S - t₀ := by linarith
  have hMm : 0 ≤ M - m := by linarith
  set L := 2 * Λ * V with hL
  have hL0 : 0 ≤ L := by positivity
  set A0 := (M - m) * P + 2 * (S - t₀) * (L + 2 * V) with hA0
  have hA0' : 0 ≤ A0 := by positivity
  set ε := min (P / 2) (η / (2 * (A0 + 1))) with hε
  have hε0 : 0 < ε := lt_min (by linarith) (by positivity)
  have hεA : A0 * ε ≤ η / 2 := by
    have h1 : ε ≤ η / (2 * (A0 + 1)) := min_le_right _ _
    calc A0 * ε ≤ A0 * (η / (2 * (A0 + 1))) := mul_le_mul_of_nonneg_left h1 hA0'
      _ = (A0 / (A0 + 1)) * (η / 2) := by field_simp
      _ ≤ 1 * (η / 2) := by
          refine mul_le_mul_of_nonneg_right ?_ (by linarith)
          rw [div_le_one (by linarith)]; linarith
      _ = η / 2 := one_mul _
  obtain ⟨C, ω, ω', hω⟩ := timeKernel_exists ε hε0
  obtain ⟨C', Ω, Ω', hΩ⟩ := spaceKernel_exists P ε hP0 hε0 (min_le_left _ _)
  have hC := hω.nonneg_C
  have hC' := hΩ.nonneg_C
  set K := 2 * ((S - t₀ + 2) * C * C') * ((S - t₀) * P) with hK
  have hK0 : 0 ≤ K := by positivity
  set E := (S - t₀) * (2 * Λ * V + P * (Λ * (M - m)) * (2 * c + 3)) with hE
  have hE0 : 0 ≤ E := by positivity
  set A1 := (S - t₀) * V + 2 * (S - t₀) * L * c + K * E with hA1
  have hA1' : 0 ≤ A1 := by positivity
  set A2 := K with hA2
  have hA2' : 0 ≤ A2 := by positivity
  refine ⟨⌈4 * A1 * P / η⌉₊, η / (4 * (A2 + 1)), by positivity, fun n hN hn u u0 hu v v0 Ev hv hvr hv0 hv0r hEv happ => ?_⟩
  have hn0 : (0 : ℝ) < n := by exact_mod_cast hn
  obtain ⟨w, w0, mw, mw0, hwr, hw0r, hwu, hreg, hwapp, hw0⟩ := grid_data hq hP0 hfr hG hc0 hn hu
  set dx := P / n with hdx
  have hdx0 : 0 < dx := div_pos hP0 hn0
  have hQ : ∀ x y, m ≤ x → x ≤ M → m ≤ y → y ≤ M → |q x - q y| ≤ Λ * (M - m) := by
    intro x y h1 h2 h3 h4
    exact (hq.lipschitz x y ⟨h1, h2⟩ ⟨h3, h4⟩).trans (mul_le_mul_of_nonneg_left (range_diff ⟨h1, h2⟩ ⟨h3, h4⟩) htop)
  have main := compare hqm hP0 hS hQ hε0.le (by positivity : 0 ≤ c * dx) hL0 hω hΩ mw hv hwr hvr mw0 hw0r hv0 hv0r hreg
    hwapp happ
  have e1 : ∫ z in Ioc t₀ S ×ˢ Ioc a (a + P), |u z - v z| = ∫ z in cell t₀ S a (a + P), |w z - v z| := by
    refine setIntegral_congr_fun (cell_measurable _ _ _ _) fun z hz => ?_
    rw [hwu z hz]
  rw [e1]
  refine main.trans ?_
  have mf := majorant_measurable hG
  have e2 : ∫ x in Ioc a (a + P), |w0 x - v0 x| ≤ V * dx + ∫ x in Ioc a (a + P), |v0 x - f x| := by
    have j1 : IntegrableOn (fun x => |w0 x - v0 x|) (Ioc a (a + P)) :=
      bounded_integrable' (C := M - m) (continuous_abs.measurable.comp (mw0.sub hv0))
        (Filter.Eventually.of_forall fun x => by rw [abs_abs]; exact range_diff (hw0r x) (hv0r x))
    have j2 : IntegrableOn (fun x => |w0 x - f x|) (Ioc a (a + P)) :=
      bounded_integrable' (C := M - m) (continuous_abs.measurable.comp (mw0.sub mf))
        (Filter.Eventually.of_forall fun x => by rw [abs_abs]; exact range_diff (hw0r x) (hfr x))
    have j3 : IntegrableOn (fun x => |v0 x - f x|) (Ioc a (a + P)) :=
      bounded_integrable' (C := M - m) (continuous_abs.measurable.comp (hv0.sub mf))
        (Filter.Eventually.of_forall fun x => by rw [abs_abs]; exact range_diff (hv0r x) (hfr x))
    have := integral_mono j1 (j2.add j3) (fun x => by
      simp only [Pi.add_apply]
      have := abs_sub_le (w0 x) (f x) (v0 x)
      rw [abs_sub_comm (f x) (v0 x)] at this
      exact this)
    rw [integral_add' j2 j3] at this
    linarith
  have e3 : A1 * dx ≤ η / 4 := by
    have h1 := (Nat.le_ceil (4 * A1 * P / η)).trans (show ((⌈4 * A1 * P / η⌉₊ : ℕ) : ℝ) ≤ n by exact_mod_cast hN)
    rw [div_le_iff₀ hη] at h1
    rw [hdx, mul_div_assoc', div_le_iff₀ hn0]
    linarith
  have e4 : A2 * (η / (4 * (A2 + 1))) ≤ η / 4 := by
    calc A2 * (η / (4 * (A2 + 1))) = (A2 / (A2 + 1)) * (η / 4) := by field_simp
      _ ≤ 1 * (η / 4) := by
          refine mul_le_mul_of_nonneg_right ?_ (by linarith)
          rw [div_le_one (by linarith)]; linarith
      _ = η / 4 := one_mul _
  have e5 := mul_le_mul_of_nonneg_left e2 hT
  have e6 := mul_le_mul_of_nonneg_left hEv hK0
  calc _ ≤ (S - t₀) * (V * dx + ∫ x in Ioc a (a + P), |v0 x - f x|) + (M - m) * (ε * P) +
        2 * (S - t₀) * (L * (ε + c * dx) + 2 * ε * V) + (K * (E * dx) + K * (η / (4 * (A2 + 1)))) := by
        rw [← hK, ← hE, mul_add K]
        linarith
    _ = (S - t₀) * (∫ x in Ioc a (a + P), |v0 x - f x|) + (A0 * ε + A1 * dx + A2 * (η / (4 * (A2 + 1)))) := by
        simp only [hA0, hA1, hA2]; ring
    _ ≤ (S - t₀) * (∫ x in Ioc a (a + P), |v0 x - f x|) + η := by linarith

/-- A function with values in the range almost everywhere has a measurable version with all values in the range. -/
theorem version {D : Set (ℝ × ℝ)} {w : ℝ × ℝ → ℝ} (hmM : m ≤ M) (hw : IntegrableOn w D)
    (hwr : ∀ᵐ z ∂volume.restrict D, m ≤ w z ∧ w z ≤ M) :
    ∃ v, Measurable v ∧ (∀ z, m ≤ v z ∧ v z ≤ M) ∧ v =ᵐ[volume.restrict D] w := by
  have hs := hw.aestronglyMeasurable
  refine ⟨fun z => max m (min M (hs.mk w z)), measurable_const.max (measurable_const.min hs.stronglyMeasurable_mk.measurable),
    fun z => ⟨le_max_left _ _, max_le hmM (min_le_left _ _)⟩, ?_⟩
  filter_upwards [hs.ae_eq_mk, hwr] with z h1 h2
  rw [← h1, min_eq_right h2.2, max_eq_right h2.1]

include hqm hq hS hP0 hfr hG hc0 in
/-- Runs on fine meshes are as near entropy solutions as their data are near. -/
theorem grid_close_solution (w : ℝ × ℝ → ℝ) (g : ℝ → ℝ) (hg : Measurable g) (hgr : ∀ x, m ≤ g x ∧ g x ≤ M)
    (hw : SolvesLaw q m M a P g t₀ S w) (η : ℝ) (hη : 0 < η) :
    ∃ N : ℕ, ∀ n : ℕ, N ≤ n → 0 < n → ∀ u u0, GridRun q Λ m M V c a P t₀ S f G n u u0 →
      ∫ z in Ioc t₀ S ×ˢ Ioc a (a + P), |u z - w z| ≤ (S - t₀) * (∫ x in Ioc a (a + P), |g x - f x|) + η := by
  obtain ⟨h1, h2, h3⟩ := hw
  obtain ⟨v, mv, hvr, hvw⟩ := version ((hfr 0).1.trans (hfr 0).2) h1 h2
  obtain ⟨N, e, he, hN⟩ := grid_close hqm hq hS hP0 hfr hG hc0 η hη
  refine ⟨N, fun n h hn u u0 hu => ?_⟩
  have app : Approximate q a P t₀ S m M 0 v g := by
    intro k _ _ A B φ φt φx hφ
    have := h3 k A B φ φt φx hφ
    rw [zero_mul, neg_zero]
    refine this.trans (le_of_eq ?_)
    unfold weakForm
    congr 1
    refine integral_congr_ae ?_
    filter_upwards [hvw] with z hz
    simp only [hz]
  have := hN n h hn u u0 hu v g 0 mv hvr hg hgr he.le app
  refine le_of_eq_of_le (integral_congr_ae ?_) this
  filter_upwards [hvw] with z hz
  simp only [hz]

include hq hP0 hfr hG hc0 in
theorem grid_integrable {n : ℕ} (hn : 0 < n) {u : ℝ × ℝ → ℝ} {u0 : ℝ → ℝ} (hu : GridRun q Λ m M V c a P t₀ S f G n u u0) :
    IntegrableOn u (Ioc t₀ S ×ˢ Ioc a (a + P)) := by
  obtain ⟨w, w0, mw, -, hwr, -, hwu, -⟩ := grid_data hq hP0 hfr hG hc0 hn hu
  have : IntegrableOn w (cell t₀ S a (a + P)) :=
    bounded_integrable' (C := |m| + |M|) mw (Filter.Eventually.of_forall fun z => by
      rw [abs_le]
      have := hwr z
      constructor <;> linarith [neg_abs_le m, le_abs_self m, neg_abs_le M, le_abs_self M, abs_nonneg m, abs_nonneg M])
  exact this.congr_fun (fun z hz => (hwu z hz).symm) (cell_measurable _ _ _ _)

include hqm hq hS hP0 hfr hG hc0 in
/-- The runs form a Cauchy sequence. -/
theorem grid_cauchy (η : ℝ) (hη : 0 < η) : ∃ N : ℕ, ∀ n n' : ℕ, N ≤ n → N ≤ n' → 0 < n → 0 < n' → ∀ u u0 u' u0',
    GridRun q Λ m M V c a P t₀ S f G n u u0 → GridRun q Λ m M V c a P t₀ S f G n' u' u0' →
      ∫ z in Ioc t₀ S ×ˢ Ioc a (a + P), |u z - u' z| ≤ η := by
  have hmM : m ≤ M := (hfr 0).1.trans (hfr 0).2
  have htop := hq.nonneg
  have hV : 0 ≤ V := by
    have h1 := hG.mono (show (0 : ℝ) ≤ 0 + P by linarith)
    rw [hG.period] at h1
    linarith
  obtain ⟨N, e', he', hN⟩ := grid_close hqm hq hS hP0 hfr hG hc0 (η / 2) (by linarith)
  set e := min e' (η / 2) with hee
  have he : 0 < e := lt_min he' (by linarith)
  set W := (S - t₀) * V with hW
  have hW0 : 0 ≤ W := mul_nonneg (by linarith) hV
  set B := (S - t₀) * (2 * Λ * V + P * (Λ * (M - m)) * (2 * c + 3)) with hB
  have hB0 : 0 ≤ B := by
    have h1 : 0 ≤ S - t₀ := by linarith
    have h2 : 0 ≤ M - m := by linarith
    have h3 : 0 ≤ P := hP0.le
    positivity
  refine ⟨max N ⌈(B + W) * P / e⌉₊, fun n n' h h' hn hn' u u0 u' u0' hu hu' => ?_⟩
  obtain ⟨w, w0, mw, mw0, hwr, hw0r, hwu, -, hwapp, hw0⟩ := grid_data hq hP0 hfr hG hc0 hn' hu'
  have hn0 : (0 : ℝ) < n' := by exact_mod_cast hn'
  have hsmall : (B + W) * (P / n') ≤ e := by
    have h1 := (Nat.le_ceil ((B + W) * P / e)).trans
      (show ((⌈(B + W) * P / e⌉₊ : ℕ) : ℝ) ≤ n' by exact_mod_cast (le_max_right _ _).trans h')
    rw [div_le_iff₀ he] at h1
    rw [mul_div_assoc', div_le_iff₀ hn0]
    linarith
  have hd0 : 0 ≤ P / n' := by positivity
  have s1 : B * (P / n') ≤ e := by
    have := mul_nonneg hW0 hd0
    linarith
  have s2 : W * (P / n') ≤ e := by
    have := mul_nonneg hB0 hd0
    linarith
  have := hN n ((le_max_left _ _).trans h) hn u u0 hu w w0 _ mw hwr mw0 hw0r (s1.trans (min_le_left _ _)) hwapp
  have s3 := mul_le_mul_of_nonneg_left hw0 (show 0 ≤ S - t₀ by linarith)
  have s4 := s2.trans (min_le_right _ _)
  rw [hW] at s4
  refine le_of_eq_of_le (setIntegral_congr_fun (cell_measurable t₀ S a (a + P)) fun z hz => ?_) (this.trans (by linarith))
  rw [hwu z hz]

include hqm hq hS hP0 hfr hG hc0 in
/-- The runs have a limit, if there are runs on all fine meshes, and it is an entropy solution. -/
theorem grid_solution (N₀ : ℕ) (hex : ∀ n, N₀ < n → ∃ u u0, GridRun q Λ m M V c a P t₀ S f G n u u0) :
    ∃ w, SolvesLaw q m M a P f t₀ S w := by
  have hmM : m ≤ M := (hfr 0).1.trans (hfr 0).2
  have hpos : ∀ r : ℕ, 0 < r + N₀ + 1 := fun r => Nat.succ_pos _
  have hex' := fun r : ℕ => hex (r + N₀ + 1) (by omega)
  choose u u0 hu using hex'
  set D := Ioc t₀ S ×ˢ Ioc a (a + P) with hD
  have iu : ∀ r, Integrable (u r) (volume.restrict D) := fun r => grid_integrable hq hP0 hfr hG hc0 (hpos r) (hu r)
  set F : ℕ → Lp ℝ 1 (volume.restrict D) := fun r => (iu r).toL1 (u r) with hF
  have hdist : ∀ r l, dist (F r) (F l) = ∫ z in D, |u r z - u l z| := by
    intro r l
    rw [dist_eq_norm, hF]
    simp only
    rw [← Integrable.toL1_sub, L1.norm_of_fun_eq_integral_norm]
    rfl
  have hc : CauchySeq F := by
    rw [Metric.cauchySeq_iff]
    intro η hη
    obtain ⟨N, hN⟩ := grid_cauchy hqm hq hS hP0 hfr hG hc0 (η / 2) (by linarith)
    refine ⟨N, fun r hr l hl => ?_⟩
    rw [hdist]
    have := hN (r + N₀ + 1) (l + N₀ + 1) (by omega) (by omega) (hpos r) (hpos l) _ _ _ _ (hu r) (hu l)
    linarith
  obtain ⟨g, hg⟩ := cauchySeq_tendsto_of_complete hc
  set w : ℝ × ℝ → ℝ := fun z => max m (min M (g z)) with hw
  have mg : Measurable fun z => g z := (Lp.stronglyMeasurable g).measurable
  have mw : Measurable w := measurable_const.max (measurable_const.min mg)
  have hwr : ∀ z, m ≤ w z ∧ w z ≤ M := fun z => ⟨le_max_left _ _, max_le hmM (min_le_left _ _)⟩
  have iw : IntegrableOn w D := by
    have : IntegrableOn w (cell t₀ S a (a + P)) :=
      bounded_integrable' (C := |m| + |M|) mw (Filter.Eventually.of_forall fun z => by
        rw [abs_le]
        have := hwr z
        constructor <;> linarith [neg_abs_le m, le_abs_self m, neg_abs_le M, le_abs_self M, abs_nonneg m, abs_nonneg M])
    exact this
  have ig : Integrable (fun z => g z) (volume.restrict D) := L1.integrable_coeFn g
  have hlim : Filter.Tendsto (fun r => ∫ z in D, |u r z - w z|) Filter.atTop (nhds 0) := by
    rw [tendsto_iff_dist_tendsto_zero] at hg
    refine squeeze_zero (fun r => integral_nonneg fun z => abs_nonneg _) (fun r => ?_) hg
    have e : dist (F r) g = ∫ z in D, |u r z - g z| := by
      rw [dist_eq_norm, L1.norm_eq_integral_norm]
      refine integral_congr_ae ?_
      filter_upwards [Lp.coeFn_sub (F r) g, (iu r).coeFn_toL1] with z h1 h2
      rw [h1, Pi.sub_apply, Real.norm_eq_abs]
      simp only [hF]
      rw [h2]
    rw [e]
    obtain ⟨v, -, -, -, hvr, -, hvu, -⟩ := grid_data hq hP0 hfr hG hc0 (hpos r) (hu r)
    refine setIntegral_mono_on ((iu r).sub iw).abs ((iu r).sub ig).abs (cell_measurable t₀ S a (a + P)) fun z hz => ?_
    have h1 : m ≤ u r z ∧ u r z ≤ M := by rw [hvu z hz]; exact hvr z
    simp only [Pi.sub_apply, hw]
    rcases le_total (g z) M with h2 | h2
    · rw [min_eq_right h2]
      rcases le_total m (g z) with h3 | h3
      · rw [max_eq_right h3]
      · rw [max_eq_left h3, abs_of_nonneg (by linarith [h1.1]), abs_of_nonneg (by linarith [h1.1])]
        linarith
    · rw [min_eq_left h2, max_eq_right hmM, abs_of_nonpos (by linarith [h1.2]), abs_of_nonpos (by linarith [h1.2])]
      linarith
  refine ⟨w, iw, Filter.Eventually.of_forall hwr, ?_⟩
  exact grid_limit hqm hq hmM hP0 hG (fun r => r + N₀ + 1) hpos
    (Filter.tendsto_atTop_mono (fun r => (by omega : r ≤ r + N₀ + 1)) Filter.tendsto_id) u u0 hu w iw hlim

include hqm hq hS hP0 hfr hG hc0 in
/-- The runs converge to the entropy solution. -/
theorem grid_converges (w : ℝ × ℝ → ℝ) (hw : SolvesLaw q m M a P f t₀ S w) (η : ℝ) (hη : 0 < η) :
    ∃ N : ℕ, ∀ n : ℕ, N ≤ n → 0 < n → ∀ u u0, GridRun q Λ m M V c a P t₀ S f G n u u0 →
      ∫ z in Ioc t₀ S ×ˢ Ioc a (a + P), |u z - w z| ≤ η := by
  obtain ⟨N, hN⟩ := grid_close_solution hqm hq hS hP0 hfr hG hc0 w f (majorant_measurable hG) hfr hw η hη
  refine ⟨N, fun n h hn u u0 hu => (hN n h hn u u0 hu).trans (le_of_eq ?_)⟩
  simp only [sub_self, abs_zero, integral_zero, mul_zero, zero_add]

include hqm hq hS hP0 hfr hG hc0 in
/-- Entropy solutions depend on the data. -/
theorem grid_stable (N₀ : ℕ) (hex : ∀ n, N₀ < n → ∃ u u0, GridRun q Λ m M V c a P t₀ S f G n u u0) (g : ℝ → ℝ)
    (hg : Measurable g) (hgr : ∀ x, m ≤ g x ∧ g x ≤ M) (w w' : ℝ × ℝ → ℝ) (hw : SolvesLaw q m M a P f t₀ S w)
    (hw' : SolvesLaw q m M a P g t₀ S w') :
    ∫ z in Ioc t₀ S ×ˢ Ioc a (a + P), |w z - w' z| ≤ (S - t₀) * ∫ x in Ioc a (a + P), |f x - g x| := by
  refine le_of_forall_pos_le_add fun η hη => ?_
  obtain ⟨N, hN⟩ := grid_converges hqm hq hS hP0 hfr hG hc0 w hw (η / 2) (by linarith)
  obtain ⟨N', hN'⟩ := grid_close_solution hqm hq hS hP0 hfr hG hc0 w' g hg hgr hw' (η / 2) (by linarith)
  obtain ⟨u, u0, hu⟩ := hex (N + N' + N₀ + 1) (by omega)
  have h1 := hN _ (by omega) (Nat.succ_pos _) u u0 hu
  have h2 := hN' _ (by omega) (Nat.succ_pos _) u u0 hu
  have iu := grid_integrable hq hP0 hfr hG hc0 (Nat.succ_pos _) hu
  have j1 : IntegrableOn (fun z => |w z - w' z|) (Ioc t₀ S ×ˢ Ioc a (a + P)) := (hw.1.sub hw'.1).abs
  have j2 : IntegrableOn (fun z => |u z - w z|) (Ioc t₀ S ×ˢ Ioc a (a + P)) := (iu.sub hw.1).abs
  have j3 : IntegrableOn (fun z => |u z - w' z|) (Ioc t₀ S ×ˢ Ioc a (a + P)) := (iu.sub hw'.1).abs
  have := integral_mono j1 (j2.add j3) (fun z => by
    simp only [Pi.add_apply]
    have := abs_sub_le (w z) (u z) (w' z)
    rw [abs_sub_comm (w z) (u z)] at this
    exact this)
  rw [integral_add' j2 j3] at this
  have e : ∫ x in Ioc a (a + P), |f x - g x| = ∫ x in Ioc a (a + P), |g x - f x| := by
    simp only [abs_sub_comm]
  rw [e]
  linarith

include hqm hq hS hP0 hfr hG hc0 in
theorem grid_unique (N₀ : ℕ) (hex : ∀ n, N₀ < n → ∃ u u0, GridRun q Λ m M V c a P t₀ S f G n u u0) (w w' : ℝ × ℝ → ℝ)
    (hw : SolvesLaw q m M a P f t₀ S w) (hw' : SolvesLaw q m M a P f t₀ S w') :
    ∀ᵐ z ∂volume.restrict (Ioc t₀ S ×ˢ Ioc a (a + P)), w z = w' z := by
  have h0 : ∫ z in Ioc t₀ S ×ˢ Ioc a (a + P), |w z - w' z| = 0 := by
    refine le_antisymm ?_ (integral_nonneg fun _ => abs_nonneg _)
    have := grid_stable hqm hq hS hP0 hfr hG hc0 N₀ hex f (majorant_measurable hG) hfr w w' hw hw'
    simpa using this
  rw [integral_eq_zero_iff_of_nonneg (fun _ => abs_nonneg _)
    (show Integrable (fun z => |w z - w' z|) _ from (hw.1.sub hw'.1).abs)] at h0
  filter_upwards [h0] with z hz
  have : |w z - w' z| = 0 := hz
  linarith [abs_eq_zero.1 this]

end Data

end Verif.EntropyLimit
