import Verif.Core.Benchmark

/-!
Model of `core/benchmark.py` and of the remaining benchmarks in `benchmark/shallow_water.py`: lakes at
rest, moving water, oscillations without topography and their random variants.

`np.random.Generator` is a parameter of the model (`Rng`): a state with the two kinds of draws the
code uses.  Wave numbers are real numbers like the other parameters.
-/

namespace Verif.Bench

open Verif.Py
open Verif.Mesh hiding Error

/-! ### `core/benchmark.py` -/

/-- `_boundary_conditions`, line 16: one name or a pair. -/
inductive BoundarySpec where
  | single : String → BoundarySpec
  | pair : String → String → BoundarySpec

/-- The property `boundary_conditions`, lines 18-23. -/
def BoundarySpec.conditions : BoundarySpec → List String
  | .single s => [s]
  | .pair l r => [l, r]

/-- `inflow_left`, `inflow_right` and `exact_solution` of the base class, lines 33-40: a benchmark that
does not define them raises. -/
def baseMethod {X V : Type*} (own : Option (X → V)) (x : X) : Except Error V :=
  match own with
  | none => .error .attributeError
  | some f => .ok (f x)

/-! ### Benchmarks with given bathymetry -/

/-- The benchmarks of `benchmark/shallow_water.py` lines 33-98 without parameters. -/
inductive Lake where
  | noBathymetry
  | bump
  | perturbed
  | moving

/-- `domain`, lines 34, 51, 68, 85. -/
def Lake.domain : Lake → Interval ℝ
  | .noBathymetry => ⟨0, 20⟩
  | .bump => ⟨0, 20⟩
  | .perturbed => ⟨0, 20⟩
  | .moving => ⟨0, 100⟩

/-- `_boundary_conditions`, lines 35, 52, 69, 86. -/
def Lake.boundary : Lake → BoundarySpec
  | .noBathymetry => .single "periodic"
  | .bump => .pair "outflow" "outflow"
  | .perturbed => .pair "outflow" "outflow"
  | .moving => .single "periodic"

/-- `bathymetry`, lines 40-41, 57-58, 74-75, 91-92. -/
noncomputable def Lake.bathymetry : Lake → ℝ → ℝ
  | .noBathymetry, _ => 0
  | .bump, x => if x ≥ 8 ∧ x < 12 then (4 - (x - 10) ^ 2) / 20 else 0
  | .perturbed, x => if x ≥ 8 ∧ x < 12 then (4 - (x - 10) ^ 2) / 20 else 0
  | .moving, _ => 0

/-- `initial_data`, lines 43-44, 60-61, 77-81, 94-95: height and discharge. -/
noncomputable def Lake.initial : Lake → ℝ → ℝ × ℝ
  | .noBathymetry, _ => (1, 0)
  | .bump, x => (2 - Lake.bathymetry .bump x, 0)
  | .perturbed, x =>
    if x ≥ 575 / 100 ∧ x < 625 / 100 then (101 / 100 - Lake.bathymetry .perturbed x, 0)
    else (1 - Lake.bathymetry .perturbed x, 0)
  | .moving, _ => (2, 1)

/-- `exact_solution`, lines 46-47, 63-64, 97-98; the perturbed lake has none. -/
noncomputable def Lake.exact : Lake → Option (ℝ × ℝ → ℝ × ℝ)
  | .noBathymetry => some fun p => Lake.initial .noBathymetry p.1
  | .bump => some fun p => Lake.initial .bump p.1
  | .perturbed => none
  | .moving => some fun p => Lake.initial .moving p.1

/-! ### Moving water over a bump -/

/-- `MovingWaterBumpBathymetryBenchmark`, lines 101-118. -/
structure MovingBump where
  g : ℝ
  K1 : ℝ
  K2 : ℝ

/-- `bathymetry`, lines 120-124; `x in Interval(-0.1, 0.1)` includes both ends
(`core/mesh.py` line 27). -/
noncomputable def MovingBump.bathymetry (_ : MovingBump) (x : ℝ) : ℝ :=
  if -(1 / 10) ≤ x ∧ x ≤ 1 / 10 then (Real.cos (10 * Real.pi * (x + 1)) + 1) / 4 else 0

/-- The function whose root is sought, lines 128-132.  A height of zero gives a division by zero in
python; here the value of the quotient is then zero, which no theorem uses. -/
noncomputable def MovingBump.f (b : MovingBump) (x h : ℝ) : ℝ :=
  b.K1 ^ 2 / (2 * h ^ 2) + b.g * (h + b.bathymetry x) - b.K2

/-- `initial_data`, lines 126-133. -/
noncomputable def MovingBump.initial (newton : (ℝ → ℝ) → ℝ → Except Error ℝ) (b : MovingBump)
    (x : ℝ) : Except Error (ℝ × ℝ) :=
  match newton (b.f x) (25 / 10) with
  | .error e => .error e
  | .ok h => .ok (h, b.K1)

/-- `exact_solution`, lines 135-136. -/
noncomputable def MovingBump.exact (newton : (ℝ → ℝ) → ℝ → Except Error ℝ) (b : MovingBump)
    (x _t : ℝ) : Except Error (ℝ × ℝ) := b.initial newton x

/-! ### Oscillations -/

/-- Attributes of `OscillationNoTopographyBenchmark`, lines 139-148. -/
structure Oscillation where
  endTime : ℝ
  heightAverage : ℝ
  heightAmplitude : ℝ
  heightPhaseShift : ℝ
  heightWaveNumber : ℝ
  velocityAverage : ℝ
  velocityAmplitude : ℝ
  velocityPhaseShift : ℝ
  velocityWaveNumber : ℝ

/-- The optional arguments of the constructors, lines 152-163 and 227-239. -/
structure OscillationArgs where
  heightAverage : Option ℝ := none
  heightAmplitude : Option ℝ := none
  heightPhaseShift : Option ℝ := none
  heightWaveNumber : Option ℝ := none
  velocityAverage : Option ℝ := none
  velocityAmplitude : Option ℝ := none
  velocityPhaseShift : Option ℝ := none
  velocityWaveNumber : Option ℝ := none

/-- `x if x is not None else d`. -/
def ifNotNone (x : Option ℝ) (d : ℝ) : ℝ :=
  match x with
  | none => d
  | some v => v

/-- `OscillationNoTopographyBenchmark.__init__`, lines 152-193, with the constants of lines 9-17. -/
noncomputable def Oscillation.make (endTime : ℝ) (a : OscillationArgs) : Oscillation where
  endTime := endTime
  heightAverage := ifNotNone a.heightAverage 2
  heightAmplitude := ifNotNone a.heightAmplitude (1 / 10 * 2)
  heightPhaseShift := ifNotNone a.heightPhaseShift 0
  heightWaveNumber := ifNotNone a.heightWaveNumber 3
  velocityAverage := ifNotNone a.velocityAverage 1
  velocityAmplitude := ifNotNone a.velocityAmplitude (5 / 10)
  velocityPhaseShift := ifNotNone a.velocityPhaseShift (Real.pi / 2)
  velocityWaveNumber := ifNotNone a.velocityWaveNumber 1

/-- `domain`, line 140, with `LENGTH` of line 9. -/
def oscillationDomain : Interval ℝ := ⟨0, 100⟩

/-- `initial_data`, lines 198-208. -/
noncomputable def Oscillation.initial (b : Oscillation) (x : ℝ) : ℝ × ℝ :=
  let height := b.heightAverage + b.heightAmplitude *
    Real.sin (b.heightWaveNumber * 2 * Real.pi * x / oscillationDomain.length + b.heightPhaseShift)
  let velocity := b.velocityAverage + b.velocityAmplitude *
    Real.sin (b.velocityWaveNumber * 2 * Real.pi * x / oscillationDomain.length +
      b.velocityPhaseShift)
  (height, height * velocity)

/-- `bathymetry`, lines 195-196. -/
def oscillationBathymetry (_x : ℝ) : ℝ := 0

/-! ### Random oscillations -/

/-- `numpy.random.Generator`: `default_rng(seed)`, `uniform(low, high)` and `integers(low, high)`. -/
structure Rng (σ : Type*) where
  seeded : ℤ → σ
  uniform : ℝ → ℝ → σ → ℝ × σ
  integers : ℤ → ℤ → σ → ℤ × σ

/-- `x or draw()`: the draw is made for `None` and for zero. -/
noncomputable def orDraw {σ : Type*} (x : Option ℝ) (draw : σ → ℝ × σ) (s : σ) : ℝ × σ :=
  match x with
  | none => draw s
  | some v => if v = 0 then draw s else (v, s)

/-- A draw of an integer used as a number. -/
def drawInt {σ : Type*} (r : Rng σ) (low high : ℤ) (s : σ) : ℝ × σ :=
  ((r.integers low high s).1, (r.integers low high s).2)

/-- `RandomOscillationNoTopographyBenchmark.__init__`, lines 227-255: the arguments are evaluated in
the order of the call. -/
noncomputable def Oscillation.random {σ : Type*} (r : Rng σ) (seed : ℤ) (endTime : ℝ)
    (a : OscillationArgs) : Oscillation :=
  let s0 := r.seeded seed
  let h0 := (orDraw a.heightAverage (fun s => (2, s)) s0).1
  let d1 := orDraw a.heightAmplitude (r.uniform (2 / 10) (6 / 10)) s0
  let d2 := orDraw a.heightPhaseShift (r.uniform 0 (2 * Real.pi)) d1.2
  let d3 := orDraw a.heightWaveNumber (drawInt r 1 6) d2.2
  let d4 := orDraw a.velocityAverage (r.uniform 1 2) d3.2
  let d5 := orDraw a.velocityAmplitude (r.uniform (2 / 10) (6 / 10)) d4.2
  let d6 := orDraw a.velocityPhaseShift (r.uniform 0 (2 * Real.pi)) d5.2
  let d7 := orDraw a.velocityWaveNumber (drawInt r 1 5) d6.2
  Oscillation.make endTime
    { heightAverage := some h0
      heightAmplitude := some d1.1
      heightPhaseShift := some d2.1
      heightWaveNumber := some d3.1
      velocityAverage := some d4.1
      velocityAmplitude := some d5.1
      velocityPhaseShift := some d6.1
      velocityWaveNumber := some d7.1 }

/-- `RandomBenchmarkGenerator.__init__`, lines 265-267: the state of the seed generator and the
arguments of the benchmarks. -/
structure RandomGenerator (σ : Type*) where
  state : σ
  endTime : ℝ
  args : OscillationArgs

/-- `RandomBenchmarkGenerator(seed, end_time, **kwargs)`, lines 265-267; `end_time or 40.0`. -/
noncomputable def RandomGenerator.make {σ : Type*} (r : Rng σ) (seed : ℤ) (endTime : Option ℝ)
    (args : OscillationArgs) : RandomGenerator σ :=
  { state := r.seeded seed
    endTime := match endTime with
      | none => 40
      | some t => if t = 0 then 40 else t
    args := args }

/-- `RandomBenchmarkGenerator.__call__`, lines 269-271: the seed used, the benchmark, and the generator
after the call. -/
noncomputable def RandomGenerator.call {σ : Type*} (r : Rng σ) (g : RandomGenerator σ)
    (seed : Option ℤ) : ℤ × Oscillation × RandomGenerator σ :=
  let d : ℤ × σ := match seed with
    | none => r.integers 0 1000000000 g.state
    | some v => if v = 0 then r.integers 0 1000000000 g.state else (v, g.state)
  (d.1, Oscillation.random r d.1 g.endTime g.args, { g with state := d.2 })

/-- Benchmarks from a sequence of calls. -/
noncomputable def RandomGenerator.calls {σ : Type*} (r : Rng σ) :
    RandomGenerator σ → List (Option ℤ) → List (ℤ × Oscillation)
  | _, [] => []
  | g, s :: ss =>
    let c := g.call r s
    (c.1, c.2.1) :: RandomGenerator.calls r c.2.2 ss

/-! ### The numbered benchmarks -/

/-- `FirstBenchmark`, lines 277-279. -/
noncomputable def firstBenchmark (endTime : ℝ) : Oscillation :=
  Oscillation.make endTime { heightWaveNumber := some 1, velocityAmplitude := some 0 }

/-- `SecondBenchmark`, lines 282-284. -/
noncomputable def secondBenchmark (endTime : ℝ) : Oscillation :=
  Oscillation.make endTime { heightAmplitude := some 0, velocityPhaseShift := some 0 }

/-- `ThirdBenchmark`, lines 287-289. -/
noncomputable def thirdBenchmark (endTime : ℝ) : Oscillation :=
  Oscillation.make endTime { heightWaveNumber := some 3, velocityAmplitude := some 0 }

/-- `FourthBenchmark`, lines 292-303. -/
noncomputable def fourthBenchmark (endTime : ℝ) : Oscillation :=
  Oscillation.make endTime
    { heightAmplitude := some (45 / 100), heightWaveNumber := some 4,
      heightPhaseShift := some (278 / 100), velocityAverage := some (11 / 10),
      velocityAmplitude := some (5 / 10), velocityPhaseShift := some (45 / 10),
      velocityWaveNumber := some 3 }

/-- `FifthBenchmark`, lines 306-317. -/
noncomputable def fifthBenchmark (endTime : ℝ) : Oscillation :=
  Oscillation.make endTime
    { heightAmplitude := some (45 / 100), heightWaveNumber := some 3,
      heightPhaseShift := some (278 / 100), velocityAverage := some (11 / 10),
      velocityAmplitude := some (5 / 10), velocityPhaseShift := some (45 / 10),
      velocityWaveNumber := some 4 }

/-- The defaults of `OscillationNoTopographyBenchmark` and the numbered benchmarks. -/
inductive Named where
  | default
  | first
  | second
  | third
  | fourth
  | fifth

noncomputable def Named.make : Named → ℝ → Oscillation
  | .default, t => Oscillation.make t {}
  | .first, t => firstBenchmark t
  | .second, t => secondBenchmark t
  | .third, t => thirdBenchmark t
  | .fourth, t => fourthBenchmark t
  | .fifth, t => fifthBenchmark t

end Verif.Bench
