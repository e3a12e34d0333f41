import Verif.Core.BenchmarkSWE
import Mathlib.Analysis.SpecialFunctions.Integrals.Basic
import Mathlib.Analysis.SpecialFunctions.Trigonometric.Bounds
import Mathlib.Tactic.LinearCombination

/-!
Properties C84 and C85: the oscillation benchmarks of the shallow water equations, their parameters and
the random variants.
-/

set_option linter.unusedSectionVars false

namespace Verif.Bench

open Verif.Py
open Verif.Mesh hiding Error

/-! ### Specification -/

/-- A periodic, wet and subcritical initial state on `[0, 100]` with the gravitational acceleration of
`defaults.py`: the velocity is less than the speed of the waves. -/
structure Admissible (data : ℝ → ℝ × ℝ) : Prop where
  wet : ∀ x, 0 < (data x).1
  periodic : ∀ x, data (x + 100) = data x
  subcritical : ∀ x, ((data x).2 / (data x).1) ^ 2 < 9812 / 1000 * (data x).1

/-- What is supposed of the random number generator: a draw lies in the half open interval. -/
structure InRange {σ : Type*} (r : Rng σ) : Prop where
  uniform : ∀ low high s, low < high →
    low ≤ (r.uniform low high s).1 ∧ (r.uniform low high s).1 < high
  integers : ∀ low high s, low < high →
    low ≤ (r.integers low high s).1 ∧ (r.integers low high s).1 < high

/-- A generator that counts its draws and returns the lower end at the first one, the middle at all
others. -/
noncomputable def countingRng : Rng ℕ where
  seeded _ := 0
  uniform low high s := (if s = 0 then low else (low + high) / 2, s + 1)
  integers low _ s := (low, s + 1)

theorem countingRng_inRange : InRange countingRng := by
  constructor
  · intro low high s h
    change low ≤ (if s = 0 then low else (low + high) / 2) ∧
      (if s = 0 then low else (low + high) / 2) < high
    split_ifs
    · exact ⟨le_refl _, h⟩
    · constructor <;> linarith
  · intro low high s h
    exact ⟨le_refl _, h⟩

/-! ### Helper lemmas -/

theorem osc_length : oscillationDomain.length = 100 := by
  unfold oscillationDomain Interval.length; norm_num

theorem amplitude_le (A s : ℝ) (h1 : -1 ≤ s) (h2 : s ≤ 1) : -|A| ≤ A * s ∧ A * s ≤ |A| := by
  have h : |A * s| ≤ |A| := by
    rw [abs_mul]
    exact mul_le_of_le_one_right (abs_nonneg _) (abs_le.mpr ⟨h1, h2⟩)
  exact abs_le.mp h

theorem sin_shift (k : ℤ) (p x : ℝ) :
    Real.sin (k * 2 * Real.pi * (x + 100) / 100 + p) = Real.sin (k * 2 * Real.pi * x / 100 + p) := by
  have h : (k : ℝ) * 2 * Real.pi * (x + 100) / 100 + p =
      (k * 2 * Real.pi * x / 100 + p) + k * (2 * Real.pi) := by ring
  rw [h, Real.sin_add_int_mul_two_pi]

/-! ### C84 -/

/-- C84.  The height lies between average minus and average plus amplitude, the velocity likewise, and
the discharge is height times velocity. -/
theorem C84_range (b : Oscillation) (x : ℝ) :
    b.heightAverage - |b.heightAmplitude| ≤ (b.initial x).1 ∧
    (b.initial x).1 ≤ b.heightAverage + |b.heightAmplitude| ∧
    ∃ u, (b.initial x).2 = (b.initial x).1 * u ∧
      b.velocityAverage - |b.velocityAmplitude| ≤ u ∧
      u ≤ b.velocityAverage + |b.velocityAmplitude| := by
  have h := amplitude_le b.heightAmplitude
    (Real.sin (b.heightWaveNumber * 2 * Real.pi * x / oscillationDomain.length +
      b.heightPhaseShift)) (Real.neg_one_le_sin _) (Real.sin_le_one _)
  have hv := amplitude_le b.velocityAmplitude
    (Real.sin (b.velocityWaveNumber * 2 * Real.pi * x / oscillationDomain.length +
      b.velocityPhaseShift)) (Real.neg_one_le_sin _) (Real.sin_le_one _)
  unfold Oscillation.initial
  dsimp only
  refine ⟨by linarith [h.1], by linarith [h.2], _, rfl, by linarith [hv.1], by linarith [hv.2]⟩

/-- C84.  The bounds of the height are attained if the wave number is not zero, so that the water is
positive everywhere exactly if the amplitude is smaller than the average. -/
theorem C84_wet_iff (b : Oscillation) (hk : b.heightWaveNumber ≠ 0) :
    (∀ x, 0 < (b.initial x).1) ↔ |b.heightAmplitude| < b.heightAverage := by
  constructor
  · intro h
    have key : ∀ s : ℝ, ∃ x : ℝ,
        b.heightWaveNumber * 2 * Real.pi * x / oscillationDomain.length + b.heightPhaseShift = s := by
      intro s
      refine ⟨(s - b.heightPhaseShift) * 100 / (b.heightWaveNumber * 2 * Real.pi), ?_⟩
      rw [osc_length]
      have := Real.pi_ne_zero
      field_simp
      ring
    rcases le_total 0 b.heightAmplitude with h0 | h0
    · obtain ⟨x, hx⟩ := key (-(Real.pi / 2))
      have := h x
      unfold Oscillation.initial at this
      dsimp only at this
      rw [hx, Real.sin_neg, Real.sin_pi_div_two] at this
      rw [abs_of_nonneg h0]; linarith
    · obtain ⟨x, hx⟩ := key (Real.pi / 2)
      have := h x
      unfold Oscillation.initial at this
      dsimp only at this
      rw [hx, Real.sin_pi_div_two] at this
      rw [abs_of_nonpos h0]; linarith
  · intro h x
    linarith [(C84_range b x).1]

/-- C84.  With whole wave numbers the initial data is periodic on the domain. -/
theorem C84_periodic (b : Oscillation) (hh : ∃ k : ℤ, b.heightWaveNumber = k)
    (hv : ∃ k : ℤ, b.velocityWaveNumber = k) (x : ℝ) :
    b.initial (x + oscillationDomain.length) = b.initial x := by
  obtain ⟨k, hk⟩ := hh
  obtain ⟨l, hl⟩ := hv
  unfold Oscillation.initial
  dsimp only
  rw [osc_length, hk, hl, sin_shift, sin_shift]

theorem integral_sin_mul_add (a p : ℝ) (ha : a ≠ 0) :
    ∫ x in (0 : ℝ)..100, Real.sin (a * x + p) = (Real.cos p - Real.cos (a * 100 + p)) / a := by
  rw [intervalIntegral.integral_comp_mul_add (fun y => Real.sin y) ha p, integral_sin]
  simp only [mul_zero, zero_add, smul_eq_mul]
  field_simp

/-- C84.  With a whole wave number that is not zero the mass of the water is the average height times the
length of the domain. -/
theorem C84_mass (b : Oscillation) (k : ℤ) (hk : b.heightWaveNumber = k) (hk0 : k ≠ 0) :
    ∫ x in (0 : ℝ)..100, (b.initial x).1 = b.heightAverage * 100 := by
  have hk' : (k : ℝ) ≠ 0 := by exact_mod_cast hk0
  have ha : (k * 2 * Real.pi / 100 : ℝ) ≠ 0 := by
    have := Real.pi_ne_zero
    positivity
  have hfun : ∀ x, (b.initial x).1 = b.heightAverage + b.heightAmplitude *
      Real.sin (k * 2 * Real.pi / 100 * x + b.heightPhaseShift) := by
    intro x
    unfold Oscillation.initial
    dsimp only
    rw [osc_length, hk]
    congr 3; ring
  simp only [hfun]
  rw [intervalIntegral.integral_add, intervalIntegral.integral_const,
    intervalIntegral.integral_const_mul, integral_sin_mul_add _ _ ha]
  · have h : (k * 2 * Real.pi / 100 * 100 + b.heightPhaseShift : ℝ) =
        b.heightPhaseShift + k * (2 * Real.pi) := by ring
    rw [h, Real.cos_add_int_mul_two_pi, sub_self, zero_div, mul_zero, add_zero, sub_zero,
      smul_eq_mul, mul_comm]
  · exact intervalIntegrable_const
  · apply Continuous.intervalIntegrable
    fun_prop

/-- The benchmark data is admissible if amplitudes and averages are in range. -/
theorem admissible_of (b : Oscillation) (hh : ∃ k : ℤ, b.heightWaveNumber = k)
    (hv : ∃ k : ℤ, b.velocityWaveNumber = k) (h1 : 14 / 10 ≤ b.heightAverage - |b.heightAmplitude|)
    (h2 : b.velocityAverage + |b.velocityAmplitude| ≤ 26 / 10)
    (h3 : -(26 / 10) ≤ b.velocityAverage - |b.velocityAmplitude|) : Admissible b.initial := by
  refine ⟨fun x => ?_, fun x => ?_, fun x => ?_⟩
  · linarith [(C84_range b x).1]
  · have := C84_periodic b hh hv x
    rwa [osc_length] at this
  · obtain ⟨ha, hb, u, hu, hc, hd⟩ := C84_range b x
    have hpos : 0 < (b.initial x).1 := by linarith
    rw [hu, mul_div_cancel_left₀ _ hpos.ne']
    have : u ^ 2 ≤ (26 / 10) ^ 2 := sq_le_sq' (by linarith) (by linarith)
    nlinarith

/-- C84.  The default oscillation and the five numbered benchmarks are wet, periodic and subcritical. -/
theorem C84_named (n : Named) (t : ℝ) : Admissible (n.make t).initial := by
  have e1 : |(1 / 10 * 2 : ℝ)| = 1 / 10 * 2 := abs_of_pos (by norm_num)
  have e2 : |(5 / 10 : ℝ)| = 5 / 10 := abs_of_pos (by norm_num)
  have e3 : |(45 / 100 : ℝ)| = 45 / 100 := abs_of_pos (by norm_num)
  cases n <;> apply admissible_of <;>
    simp only [Named.make, firstBenchmark, secondBenchmark, thirdBenchmark, fourthBenchmark,
      fifthBenchmark, Oscillation.make, ifNotNone, e1, e2, e3, abs_zero]
  all_goals first
    | (norm_num; done)
    | (refine ⟨1, ?_⟩; norm_num; done)
    | (refine ⟨3, ?_⟩; norm_num; done)
    | (refine ⟨4, ?_⟩; norm_num; done)

/-- C84.  What the numbered benchmarks vary: the first and third start with constant velocity 1, the
second with constant height 2. -/
theorem C84_numbered (t x : ℝ) :
    ((firstBenchmark t).initial x).2 = ((firstBenchmark t).initial x).1 ∧
    ((thirdBenchmark t).initial x).2 = ((thirdBenchmark t).initial x).1 ∧
    ((secondBenchmark t).initial x).1 = 2 := by
  simp [firstBenchmark, secondBenchmark, thirdBenchmark, Oscillation.initial, Oscillation.make,
    ifNotNone]

/-! ### C84 and C85: random benchmarks -/

theorem orDraw_cases {σ : Type*} (x : Option ℝ) (draw : σ → ℝ × σ) (s : σ) :
    (x = none ∨ x = some 0) ∧ orDraw x draw s = draw s ∨
      ∃ v, v ≠ 0 ∧ x = some v ∧ orDraw x draw s = (v, s) := by
  cases x with
  | none => exact Or.inl ⟨Or.inl rfl, rfl⟩
  | some v =>
    by_cases h : v = 0
    · exact Or.inl ⟨Or.inr (by rw [h]), by simp [orDraw, h]⟩
    · exact Or.inr ⟨v, h, rfl, by simp [orDraw, h]⟩

/-- What an argument of the random benchmark means: a value that is not zero is taken, otherwise the
parameter satisfies `P`. -/
def TakenOr (arg : Option ℝ) (param : ℝ) (P : ℝ → Prop) : Prop :=
  (∀ v, arg = some v → v ≠ 0 → param = v) ∧ ((arg = none ∨ arg = some 0) → P param)

theorem takenOr_draw {σ : Type*} (x : Option ℝ) (draw : σ → ℝ × σ) (s : σ) (P : ℝ → Prop)
    (h : P (draw s).1) : TakenOr x (orDraw x draw s).1 P := by
  rcases orDraw_cases x draw s with ⟨h1, h2⟩ | ⟨v, h1, h2, h3⟩
  · rw [h2]
    refine ⟨fun v hv hv0 => ?_, fun _ => h⟩
    rcases h1 with h1 | h1 <;> rw [h1] at hv
    · exact absurd hv (by simp)
    · exact absurd (Option.some.inj hv).symm hv0
  · rw [h3]
    refine ⟨fun w hw _ => by rw [h2] at hw; exact Option.some.inj hw, fun h4 => ?_⟩
    rcases h4 with h4 | h4 <;> rw [h2] at h4
    · exact absurd h4 (by simp)
    · exact absurd (Option.some.inj h4) h1

/-- C85.  Explicit parameters of the random benchmark: one that is not zero is taken; one that is missing
or zero is drawn from its range (the average height is then 2). -/
theorem C85_random_parameters {σ : Type*} (r : Rng σ) (hr : InRange r) (seed : ℤ) (t : ℝ)
    (a : OscillationArgs) :
    let b := Oscillation.random r seed t a
    b.endTime = t ∧
    TakenOr a.heightAverage b.heightAverage (fun p => p = 2) ∧
    TakenOr a.heightAmplitude b.heightAmplitude (fun p => 2 / 10 ≤ p ∧ p < 6 / 10) ∧
    TakenOr a.heightPhaseShift b.heightPhaseShift (fun p => 0 ≤ p ∧ p < 2 * Real.pi) ∧
    TakenOr a.heightWaveNumber b.heightWaveNumber (fun p => ∃ k : ℤ, 1 ≤ k ∧ k ≤ 5 ∧ p = k) ∧
    TakenOr a.velocityAverage b.velocityAverage (fun p => 1 ≤ p ∧ p < 2) ∧
    TakenOr a.velocityAmplitude b.velocityAmplitude (fun p => 2 / 10 ≤ p ∧ p < 6 / 10) ∧
    TakenOr a.velocityPhaseShift b.velocityPhaseShift (fun p => 0 ≤ p ∧ p < 2 * Real.pi) ∧
    TakenOr a.velocityWaveNumber b.velocityWaveNumber (fun p => ∃ k : ℤ, 1 ≤ k ∧ k ≤ 4 ∧ p = k) := by
  have hpi : (0 : ℝ) < 2 * Real.pi := by have := Real.pi_pos; positivity
  have hint : ∀ (m : ℤ) (s : σ), 1 < m + 1 → ∃ k : ℤ, 1 ≤ k ∧ k ≤ m ∧ (drawInt r 1 (m + 1) s).1 = k := by
    intro m s hm
    have := hr.integers 1 (m + 1) s hm
    exact ⟨_, this.1, by omega, rfl⟩
  refine ⟨rfl, ?_, ?_, ?_, ?_, ?_, ?_, ?_, ?_⟩ <;>
    simp only [Oscillation.random, Oscillation.make, ifNotNone] <;> apply takenOr_draw
  · rfl
  · exact hr.uniform _ _ _ (by norm_num)
  · exact hr.uniform _ _ _ hpi
  · exact hint 5 _ (by norm_num)
  · exact hr.uniform _ _ _ (by norm_num)
  · exact hr.uniform _ _ _ (by norm_num)
  · exact hr.uniform _ _ _ hpi
  · exact hint 4 _ (by norm_num)

/-- C84.  Every random benchmark without explicit parameters is wet, periodic and subcritical, with mean
height 2, whatever the seed. -/
theorem C84_random {σ : Type*} (r : Rng σ) (hr : InRange r) (seed : ℤ) (t : ℝ) :
    Admissible (Oscillation.random r seed t {}).initial ∧
    ∫ x in (0 : ℝ)..100, ((Oscillation.random r seed t {}).initial x).1 = 200 := by
  obtain ⟨_, h1, h2, _, h3, h4, h5, _, h6⟩ := C85_random_parameters r hr seed t {}
  have a1 := h1.2 (Or.inl rfl)
  have a2 := h2.2 (Or.inl rfl)
  have a3 := h3.2 (Or.inl rfl)
  have a4 := h4.2 (Or.inl rfl)
  have a5 := h5.2 (Or.inl rfl)
  have a6 := h6.2 (Or.inl rfl)
  obtain ⟨k, hk1, _, hk⟩ := a3
  obtain ⟨l, _, _, hl⟩ := a6
  generalize Oscillation.random r seed t {} = b at *
  have e1 : |b.heightAmplitude| = b.heightAmplitude := abs_of_nonneg (by linarith [a2.1])
  have e2 : |b.velocityAmplitude| = b.velocityAmplitude := abs_of_nonneg (by linarith [a5.1])
  constructor
  · apply admissible_of b ⟨k, hk⟩ ⟨l, hl⟩
    · rw [a1, e1]; linarith [a2.2]
    · rw [e2]; linarith [a4.2, a5.2]
    · rw [e2]; linarith [a4.1, a5.2]
  · rw [C84_mass b k hk (by omega), a1]; norm_num

/-- C84: the hypotheses are satisfiable. -/
example : Admissible (Oscillation.random countingRng 7 40 {}).initial :=
  (C84_random countingRng countingRng_inRange 7 40).1

/-- C85.  The benchmark without random numbers takes every explicit parameter, also zero. -/
theorem C85_explicit (t : ℝ) (a : OscillationArgs) :
    let b := Oscillation.make t a
    b.endTime = t ∧
    (∀ v, a.heightAverage = some v → b.heightAverage = v) ∧
    (∀ v, a.heightAmplitude = some v → b.heightAmplitude = v) ∧
    (∀ v, a.heightPhaseShift = some v → b.heightPhaseShift = v) ∧
    (∀ v, a.heightWaveNumber = some v → b.heightWaveNumber = v) ∧
    (∀ v, a.velocityAverage = some v → b.velocityAverage = v) ∧
    (∀ v, a.velocityAmplitude = some v → b.velocityAmplitude = v) ∧
    (∀ v, a.velocityPhaseShift = some v → b.velocityPhaseShift = v) ∧
    (∀ v, a.velocityWaveNumber = some v → b.velocityWaveNumber = v) := by
  refine ⟨rfl, ?_, ?_, ?_, ?_, ?_, ?_, ?_, ?_⟩ <;> intro v hv <;>
    simp only [Oscillation.make, hv, ifNotNone]

/-- C85.  So a zero amplitude gives a flat surface in one class and waves of at least 20 cm in the other. -/
theorem C85_zero_amplitude {σ : Type*} (r : Rng σ) (hr : InRange r) (seed : ℤ) (t : ℝ) :
    (∀ x, ((Oscillation.make t { heightAmplitude := some 0 }).initial x).1 = 2) ∧
    ∃ x, ((Oscillation.random r seed t { heightAmplitude := some 0 }).initial x).1 ≤ 2 - 2 / 10 := by
  constructor
  · intro x
    simp [Oscillation.initial, Oscillation.make, ifNotNone]
  · obtain ⟨_, h1, h2, _, h3, _⟩ :=
      C85_random_parameters r hr seed t { heightAmplitude := some 0 }
    have a1 := h1.2 (Or.inl rfl)
    have a2 := h2.2 (Or.inr rfl)
    obtain ⟨k, hk1, _, hk⟩ := h3.2 (Or.inl rfl)
    generalize Oscillation.random r seed t { heightAmplitude := some 0 } = b at *
    by_contra hcon
    push Not at hcon
    have hne : (k : ℝ) ≠ 0 := by
      have : (1 : ℝ) ≤ k := by exact_mod_cast hk1
      linarith
    have := (C84_wet_iff { b with heightAverage := 2 / 10 } (by simpa [hk] using hne)).mp (by
      intro x
      have := hcon x
      unfold Oscillation.initial at this ⊢
      dsimp only at this ⊢
      rw [a1] at this
      linarith)
    dsimp only at this
    rw [abs_of_nonneg (by linarith [a2.1])] at this
    linarith [a2.1]

/-- C85.  A parameter that is given takes no number from the generator: with the same seed the other
parameters may change. -/
theorem C85_shift :
    (Oscillation.random countingRng 1 40 {}).heightPhaseShift = Real.pi ∧
    (Oscillation.random countingRng 1 40 { heightAmplitude := some (1 / 2) }).heightPhaseShift = 0 := by
  constructor
  · simp only [Oscillation.random, Oscillation.make, ifNotNone, orDraw, countingRng]
    norm_num
  · simp only [Oscillation.random, Oscillation.make, ifNotNone, orDraw, countingRng]
    norm_num

/-- C85.  The generator of benchmarks: a seed that is given and not zero is the seed of the benchmark and
leaves the sequence of drawn seeds as it is; a missing or zero seed is drawn. -/
theorem C85_generator {σ : Type*} (r : Rng σ) (hr : InRange r) (g : RandomGenerator σ) :
    (∀ v, v ≠ 0 → g.call r (some v) = (v, Oscillation.random r v g.endTime g.args, g)) ∧
    (∀ s, s = none ∨ s = some 0 → ∃ v, 0 ≤ v ∧ v < 10 ^ 9 ∧
      (g.call r s).1 = v ∧ (g.call r s).2.1 = Oscillation.random r v g.endTime g.args ∧
      (g.call r s) = g.call r none) := by
  constructor
  · intro v hv
    simp [RandomGenerator.call, hv]
  · intro s hs
    have h := hr.integers 0 1000000000 g.state (by norm_num)
    refine ⟨(r.integers 0 1000000000 g.state).1, h.1, by simpa using h.2, ?_⟩
    rcases hs with rfl | rfl <;> simp [RandomGenerator.call]

/-- C85.  Calls with explicit seeds that are not zero can be left out without changing the benchmarks of
the other calls. -/
theorem C85_explicit_calls {σ : Type*} (r : Rng σ) (g : RandomGenerator σ) (l : List (Option ℤ)) :
    let isDrawn : Option ℤ → Bool := fun s => s = none ∨ s = some 0
    (((g.calls r l).zip l).filter fun p => isDrawn p.2).map Prod.fst =
      g.calls r (l.filter isDrawn) := by
  intro isDrawn
  induction l generalizing g with
  | nil => rfl
  | cons s ss ih =>
    by_cases hs : s = none ∨ s = some 0
    · have hd : isDrawn s = true := by simpa [isDrawn] using hs
      simp only [RandomGenerator.calls, List.zip_cons_cons, List.filter_cons, hd, if_true,
        List.map_cons]
      rw [ih]
    · have hd : isDrawn s = false := by simpa [isDrawn] using hs
      simp only [RandomGenerator.calls, List.zip_cons_cons, List.filter_cons, hd,
        Bool.false_eq_true, if_false]
      have hg : (g.call r s).2.2 = g := by
        cases s with
        | none => exact absurd (Or.inl rfl) hs
        | some v =>
          have hv : v ≠ 0 := fun h => hs (Or.inr (by rw [h]))
          simp [RandomGenerator.call, hv]
      rw [hg, ih]

/-- C85.  The end time of the benchmarks is the one given, or 40 if none or zero is given. -/
theorem C85_end_time {σ : Type*} (r : Rng σ) (seed : ℤ) (e : Option ℝ) (a : OscillationArgs)
    (l : List (Option ℤ)) (p : ℤ × Oscillation)
    (hp : p ∈ (RandomGenerator.make r seed e a).calls r l) :
    (∀ t, e = some t → t ≠ 0 → p.2.endTime = t) ∧ (e = none ∨ e = some 0 → p.2.endTime = 40) := by
  have key : ∀ (l : List (Option ℤ)) (g : RandomGenerator σ),
      p ∈ g.calls r l → p.2.endTime = g.endTime := by
    intro l
    induction l with
    | nil => intro g h; simp [RandomGenerator.calls] at h
    | cons s ss ih =>
      intro g h
      simp only [RandomGenerator.calls, List.mem_cons] at h
      rcases h with h | h
      · rw [h]; rfl
      · exact (ih (g.call r s).2.2 h).trans rfl
  rw [key l _ hp]
  refine ⟨fun t h h0 => ?_, fun h => ?_⟩
  · subst h; simp [RandomGenerator.make, h0]
  · rcases h with rfl | rfl <;> simp [RandomGenerator.make]

/-- C85: a sequence of calls, one with an explicit seed. -/
example : ((RandomGenerator.make countingRng 3 none {}).calls countingRng
    [none, some 5, some 0]).map Prod.fst = [0, 5, 0] := by
  simp [RandomGenerator.make, RandomGenerator.calls, RandomGenerator.call, countingRng]

/-- The numbers of consecutive draws. -/
def consecutive {α σ : Type*} : List (σ → α × σ) → σ → List α
  | [], _ => []
  | d :: ds, s => (d s).1 :: consecutive ds (d s).2

/-- An argument for which a number is drawn: missing or zero. -/
noncomputable def isDrawn (x : Option ℝ) : Bool := open Classical in decide (x = none ∨ x = some 0)

/-- C85.  The drawn parameters are consecutive draws of one generator started from the seed of the
benchmark, in the order amplitude, phase shift, wave number of the height, average, amplitude, phase
shift, wave number of the velocity; parameters that are given are left out of the sequence. -/
theorem C85_draws {σ : Type*} (r : Rng σ) (seed : ℤ) (t : ℝ) (a : OscillationArgs) :
    let b := Oscillation.random r seed t a
    let table : List (Option ℝ × ℝ × (σ → ℝ × σ)) :=
      [(a.heightAmplitude, b.heightAmplitude, r.uniform (2 / 10) (6 / 10)),
        (a.heightPhaseShift, b.heightPhaseShift, r.uniform 0 (2 * Real.pi)),
        (a.heightWaveNumber, b.heightWaveNumber, drawInt r 1 6),
        (a.velocityAverage, b.velocityAverage, r.uniform 1 2),
        (a.velocityAmplitude, b.velocityAmplitude, r.uniform (2 / 10) (6 / 10)),
        (a.velocityPhaseShift, b.velocityPhaseShift, r.uniform 0 (2 * Real.pi)),
        (a.velocityWaveNumber, b.velocityWaveNumber, drawInt r 1 5)]
    (table.filter fun e => isDrawn e.1).map (fun e => e.2.1) =
      consecutive ((table.filter fun e => isDrawn e.1).map fun e => e.2.2) (r.seeded seed) := by
  -- one parameter at a time
  have step : ∀ (x : Option ℝ) (d : σ → ℝ × σ) (s : σ) (rest : List (Option ℝ × ℝ × (σ → ℝ × σ))),
      (rest.filter fun e => isDrawn e.1).map (fun e => e.2.1) =
        consecutive ((rest.filter fun e => isDrawn e.1).map fun e => e.2.2) (orDraw x d s).2 →
      (((x, (orDraw x d s).1, d) :: rest).filter fun e => isDrawn e.1).map (fun e => e.2.1) =
        consecutive ((((x, (orDraw x d s).1, d) :: rest).filter fun e => isDrawn e.1).map
          fun e => e.2.2) s := by
    intro x d s rest h
    rcases orDraw_cases x d s with ⟨h1, h2⟩ | ⟨v, h1, h2, h3⟩
    · have hx : isDrawn x = true := by simpa [isDrawn] using h1
      rw [h2] at h ⊢
      simp only [List.filter_cons, hx, if_true, List.map_cons, consecutive, h]
    · have hx : isDrawn x = false := by simp [isDrawn, h2, h1]
      rw [h3] at h
      simp only [List.filter_cons, hx, Bool.false_eq_true, if_false]
      exact h
  intro b table
  exact step _ _ _ _ (step _ _ _ _ (step _ _ _ _ (step _ _ _ _ (step _ _ _ _ (step _ _ _ _
    (step _ _ _ _ rfl))))))

/-- C85.  The seeds of benchmarks asked for without a seed are consecutive draws of the generator of
seeds, below one billion; benchmarks asked for with seeds that are not zero do not take part
(`C85_explicit_calls`). -/
theorem C85_seeds {σ : Type*} (r : Rng σ) (seed : ℤ) (e : Option ℝ) (a : OscillationArgs) (n : ℕ) :
    ((RandomGenerator.make r seed e a).calls r (List.replicate n none)).map Prod.fst =
      consecutive (List.replicate n (r.integers 0 (10 ^ 9))) (r.seeded seed) := by
  have key : ∀ g : RandomGenerator σ, (g.calls r (List.replicate n none)).map Prod.fst =
      consecutive (List.replicate n (r.integers 0 (10 ^ 9))) g.state := by
    induction n with
    | zero => intro g; rfl
    | succ n ih =>
      intro g
      simp only [List.replicate_succ, RandomGenerator.calls, List.map_cons, consecutive, ih]
      norm_num [RandomGenerator.call]
  exact key _

/-- C85: a generator that counts its draws; the second drawn parameter is the second draw. -/
example : consecutive [countingRng.uniform 0 1, countingRng.uniform 0 1] (countingRng.seeded 1) ≠
    consecutive [countingRng.uniform 0 1, countingRng.uniform 0 1] ((countingRng.uniform 0 1
      (countingRng.seeded 1)).2) := by
  simp [consecutive, countingRng]

end Verif.Bench
