import Verif.Core.Py
import Verif.Core.Mesh
import Mathlib.Analysis.SpecialFunctions.Trigonometric.Basic
import Mathlib.Analysis.SpecialFunctions.Sqrt
import Mathlib.Data.Real.Sqrt

/-!
Model of `benchmark/advection.py`, `benchmark/burgers.py` and `benchmark/shallow_water.py`.

`scipy.optimize.newton` is a parameter of the model: a function that returns a value or raises.  The
theorems suppose that a value it returns is a root; python stops at a tolerance.
A value of the shallow water equations is a pair of height and discharge.
-/

namespace Verif.Bench

open Verif.Py
open Verif.Mesh hiding Error

/-- `a % m` of python for `m > 0`. -/
noncomputable def pyMod (a m : ℝ) : ℝ := a - m * ⌊a / m⌋

/-! ### `benchmark/advection.py` -/

/-- The five benchmarks, lines 19-66. -/
inductive Advection where
  | threeHills
  | twoHills
  | oneHill
  | cosine
  | gaussianBell

/-- `domain`, line 9. -/
def Advection.domain (_ : Advection) : Interval ℝ := ⟨0, 1⟩

/-- `initial_data`, lines 22-30, 36-42, 48-52, 58-59, 65-66. -/
noncomputable def Advection.initial : Advection → ℝ → ℝ
  | .threeHills, x =>
    if x ≥ 25 / 1000 ∧ x < 275 / 1000 then Real.exp (-300 * (2 * x - 3 / 10) ^ 2)
    else if x ≥ 35 / 100 ∧ x ≤ 55 / 100 then 1
    else if x > 7 / 10 ∧ x < 9 / 10 then Real.sqrt (1 - ((x - 8 / 10) / (1 / 10)) ^ 2)
    else 0
  | .twoHills, x =>
    if x > 5 / 10 ∧ x < 9 / 10 then
      Real.exp 10 * Real.exp (-1 / (x - 5 / 10)) * Real.exp (1 / (x - 9 / 10))
    else if x ≥ 2 / 10 ∧ x ≤ 4 / 10 then 1
    else 0
  | .oneHill, x => if x ≥ 1 / 10 ∧ x ≤ 3 / 10 then 1 else 0
  | .cosine, x => Real.cos (2 * Real.pi * (x - 5 / 10))
  | .gaussianBell, x => Real.exp (-100 * (x - 5 / 10) ^ 2)

/-- `exact_solution`, lines 14-16. -/
noncomputable def Advection.exact (b : Advection) (x t : ℝ) : ℝ :=
  b.initial (pyMod (x - t) b.domain.length)

/-! ### `benchmark/burgers.py` -/

/-- The two benchmarks, lines 34-57. -/
inductive Burgers where
  | shock
  | smooth

/-- `domain`, lines 35 and 48. -/
noncomputable def Burgers.domain : Burgers → Interval ℝ
  | .shock => ⟨0, 1⟩
  | .smooth => ⟨0, 2 * Real.pi⟩

/-- `_critical_time`, lines 38 and 51. -/
noncomputable def Burgers.criticalTime : Burgers → ℝ
  | .shock => 1 / (2 * Real.pi)
  | .smooth => 1

/-- `initial_data`, lines 40-41 and 53-54. -/
noncomputable def Burgers.initial : Burgers → ℝ → ℝ
  | .shock, x => Real.sin (2 * Real.pi * x)
  | .smooth, x => Real.sin x + 5 / 10

/-- `initial_data_derivaitive`, lines 43-44 and 56-57. -/
noncomputable def Burgers.initialDerivative : Burgers → ℝ → ℝ
  | .shock, x => 2 * Real.pi * Real.cos (2 * Real.pi * x)
  | .smooth, x => Real.cos x

/-- `func` and `fprime`, lines 23-24. -/
noncomputable def Burgers.func (b : Burgers) (x t u : ℝ) : ℝ := b.initial (x - u * t) - u

noncomputable def Burgers.fprime (b : Burgers) (x t u : ℝ) : ℝ :=
  -t * b.initialDerivative (x - u * t) - 1

/-- `exact_solution` and `_check_shock_formation`, lines 20-31; `newton` gets a function, a start value
and the derivative. -/
noncomputable def Burgers.exact (newton : (ℝ → ℝ) → ℝ → (ℝ → ℝ) → Except Error ℝ) (b : Burgers)
    (endTime x t : ℝ) : Except Error ℝ :=
  if endTime > b.criticalTime + 1 / 10 ^ 15 then .error .attributeError
  else newton (b.func x t) (b.initial x) (b.fprime x t)

/-! ### `benchmark/shallow_water.py` -/

/-- `DammBreakBenchmark`, lines 319-343. -/
structure DamBreak where
  xDam : ℝ
  g : ℝ
  hLeft : ℝ
  hRight : ℝ
  cLeft : ℝ
  cRight : ℝ
  cMid : ℝ
  hMid : ℝ
  uMid : ℝ
  v : ℝ

/-- `func` of `_get_c_mid`, lines 347-353. -/
noncomputable def damPolynomial (cLeft cRight x : ℝ) : ℝ :=
  x ^ 6 - 9 * cRight ^ 2 * x ^ 4 + 16 * cLeft * cRight ^ 2 * x ^ 3 -
    cRight ^ 2 * (cRight ^ 2 + 8 * cLeft ^ 2) * x ^ 2 + cRight ^ 6

/-- `__init__`, lines 330-344.  Roots of negative numbers and divisions by zero give `nan` or `inf`
and are reported as an error. -/
noncomputable def DamBreak.make (newton : (ℝ → ℝ) → ℝ → Except Error ℝ) (hLeft hRight xDam g : ℝ) :
    Except Error DamBreak :=
  if hLeft > hRight then
    if 0 ≤ g * hLeft ∧ 0 ≤ g * hRight then
      let cLeft := Real.sqrt (g * hLeft)
      let cRight := Real.sqrt (g * hRight)
      match newton (damPolynomial cLeft cRight) ((cLeft + cRight) / 2) with
      | .error e => .error e
      | .ok cMid =>
        let hMid := cMid ^ 2 / g
        if g = 0 ∨ hMid - hRight = 0 then .error .nonFinite
        else
          let uMid := 2 * (cLeft - cMid)
          .ok { xDam := xDam, g := g, hLeft := hLeft, hRight := hRight, cLeft := cLeft,
                cRight := cRight, cMid := cMid, hMid := hMid, uMid := uMid,
                v := hMid * uMid / (hMid - hRight) }
    else .error .nonFinite
  else .error .assertionError

/-- `initial_data`, lines 359-362. -/
noncomputable def DamBreak.initial (b : DamBreak) (x : ℝ) : ℝ × ℝ :=
  (if x ≤ b.xDam then b.hLeft else b.hRight, 0)

/-- `exact_solution`, lines 364-381. -/
noncomputable def DamBreak.exact (b : DamBreak) (x t : ℝ) : Except Error (ℝ × ℝ) :=
  let xA := b.xDam - t * b.cLeft
  let xB := b.xDam + t * (2 * b.cLeft - 3 * b.cMid)
  let xC := b.xDam + b.v * t
  if x ≤ xA then .ok (b.hLeft, 0)
  else if x ≤ xB then
    if t = 0 then .error .nonFinite
    else
      let h := 4 / (9 * b.g) * (b.cLeft - (x - b.xDam) / (2 * t)) ^ 2
      let u := 2 / 3 * ((x - b.xDam) / t + b.cLeft)
      .ok (h, h * u)
  else if x ≤ xC then .ok (b.hMid, b.hMid * b.uMid)
  else .ok (b.hRight, 0)

end Verif.Bench
