import Verif.Core.Network
import Verif.Props.Training
import Mathlib.Tactic.IntervalCases

/-!
C107: the networks of the reduced solvers as functions of the stencil.
-/

set_option linter.unusedSectionVars false

namespace Verif.Network

open Verif.Py Verif.Training Verif.FV Verif.SWE

variable {K : Type*} [Field K] [LinearOrder K] [IsStrictOrderedRing K]

/-- Specification: the layers can be applied one after the other to `a` numbers and return `b`. -/
def Fits : List (Layer K) → ℕ → ℕ → Prop
  | [], a, b => a = b
  | .linear a' b' _ :: ls, a, b => a = a' ∧ Fits ls b' b
  | .leakyReLU :: ls, a, b => Fits ls a b

/-- The largest sum of absolute values in a row of the weights. -/
def rowNorm {a b : ℕ} (l : Linear K a b) : K :=
  (List.ofFn fun i => ∑ j, |l.weight i j|).foldr max 0

/-- The product of the row norms of the linear layers. -/
def lip : List (Layer K) → K
  | [] => 1
  | .linear _ _ l :: ls => rowNorm l * lip ls
  | .leakyReLU :: ls => lip ls

theorem le_foldr_max (l : List K) (x : K) (h : x ∈ l) : x ≤ l.foldr max 0 := by
  induction l with
  | nil => cases h
  | cons y l ih =>
    rcases List.mem_cons.mp h with rfl | h
    · exact le_max_left _ _
    · exact (ih h).trans (le_max_right _ _)

theorem foldr_max_nonneg (l : List K) : 0 ≤ l.foldr max 0 := by
  cases l with
  | nil => exact le_rfl
  | cons y l =>
    induction l generalizing y with
    | nil => exact le_max_right _ _
    | cons z l ih => exact (ih z).trans (le_max_right _ _)

theorem row_le {a b : ℕ} (l : Linear K a b) (i : Fin b) : ∑ j, |l.weight i j| ≤ rowNorm l :=
  le_foldr_max _ _ (List.mem_ofFn.mpr ⟨i, rfl⟩)

theorem rowNorm_nonneg {a b : ℕ} (l : Linear K a b) : 0 ≤ rowNorm l := foldr_max_nonneg _

theorem lip_nonneg (layers : List (Layer K)) : 0 ≤ lip layers := by
  induction layers with
  | nil => exact zero_le_one
  | cons l ls ih =>
    cases l with
    | linear a b l => exact mul_nonneg (rowNorm_nonneg l) ih
    | leakyReLU => exact ih

/-- Leaky ReLU brings numbers closer together. -/
theorem leaky_lipschitz (x y : K) : |leaky x - leaky y| ≤ |x - y| := by
  unfold leaky
  rcases le_total 0 x with hx | hx <;> rcases le_total 0 y with hy | hy <;>
    simp only [hx, hy, max_eq_left, max_eq_right, min_eq_left, min_eq_right] <;>
    (rw [abs_le]; constructor <;> rcases abs_cases (x - y) with ⟨h1, h2⟩ | ⟨h1, h2⟩ <;> rw [h1] <;>
      linarith)

theorem getD_map_leaky (x : List K) (i : ℕ) : (x.map leaky).getD i 0 = leaky (x.getD i 0) := by
  have h0 : leaky (0 : K) = 0 := by simp [leaky]
  by_cases hi : i < x.length
  · rw [List.getD_eq_getElem _ _ (by simpa using hi), List.getD_eq_getElem _ _ hi]; simp
  · rw [List.getD_eq_default _ _ (by simpa using hi), List.getD_eq_default _ _ (by simpa using hi), h0]

/-- C107.  Layers that fit together map every row of the right width to a row of the right width. -/
theorem C107_width (layers : List (Layer K)) (a b : ℕ) (h : Fits layers a b) (x : List K)
    (hx : x.length = a) : ∃ y, sequential layers x = .ok y ∧ y.length = b := by
  induction layers generalizing a x with
  | nil => exact ⟨x, rfl, hx.trans h⟩
  | cons l ls ih =>
    cases l with
    | linear a' b' l =>
      obtain ⟨rfl, h2⟩ := h
      obtain ⟨y, h3, h4⟩ := ih b' h2 (List.ofFn fun i => ∑ j, l.weight i j * x.getD j 0 + l.bias i)
        (by simp)
      refine ⟨y, ?_, h4⟩
      simp only [sequential, Layer.forward, Linear.forward, if_pos hx]
      exact h3
    | leakyReLU =>
      obtain ⟨y, h3, h4⟩ := ih a h (x.map leaky) (by simpa using hx)
      exact ⟨y, h3, h4⟩

/-- C107.  The two modules of the reduced solvers take eight numbers to two, whatever the weights; rows
of another width are a `RuntimeError`. -/
theorem C107_modules (x : List K) :
    (∀ l0 l1 l2, if x.length = 8 then ∃ h q, sequential (llfModule l0 l1 l2) x = .ok [h, q]
      else sequential (llfModule l0 l1 l2) x = .error .runtimeError) ∧
    ∀ l0 l1 l2 l3, if x.length = 8 then ∃ h q, sequential (llf2Module l0 l1 l2 l3) x = .ok [h, q]
      else sequential (llf2Module l0 l1 l2 l3) x = .error .runtimeError := by
  have two : ∀ y : List K, y.length = 2 → ∃ h q, y = [h, q] := by
    intro y hy
    match y, hy with
    | [h, q], _ => exact ⟨h, q, rfl⟩
  constructor
  · intro l0 l1 l2
    split
    · rename_i h
      obtain ⟨y, h1, h2⟩ := C107_width (llfModule l0 l1 l2) 8 2 ⟨rfl, rfl, rfl, rfl⟩ x h
      obtain ⟨a, b, rfl⟩ := two y h2
      exact ⟨a, b, h1⟩
    · rename_i h
      simp [llfModule, sequential, Layer.forward, Linear.forward, h]
  · intro l0 l1 l2 l3
    split
    · rename_i h
      obtain ⟨y, h1, h2⟩ := C107_width (llf2Module l0 l1 l2 l3) 8 2 ⟨rfl, rfl, rfl, rfl, rfl⟩ x h
      obtain ⟨a, b, rfl⟩ := two y h2
      exact ⟨a, b, h1⟩
    · rename_i h
      simp [llf2Module, sequential, Layer.forward, Linear.forward, h]

/-- An affine map, as a matrix and a vector. -/
def Linear.map {a b : ℕ} (l : Linear K a b) (x : Fin a → K) (i : Fin b) : K := ∑ j, l.weight i j * x j + l.bias i

theorem Linear.forward_ofFn {a b : ℕ} (l : Linear K a b) (x : Fin a → K) :
    l.forward (List.ofFn x) = .ok (List.ofFn (l.map x)) := by
  unfold Linear.forward Linear.map
  rw [if_pos (by simp)]
  congr 2
  funext i
  congr 1
  refine Finset.sum_congr rfl fun j _ => ?_
  congr 1
  rw [List.getD_eq_getElem _ _ (by simp)]
  simp

/-- C107.  What the modules compute: affine maps with `x ↦ max(0, x) + 0.01 min(0, x)` in between, two of them hidden
for the first module and three for the second, none after the last affine map. -/
theorem C107_formula (x : Fin 8 → K) :
    let φ := fun z : K => max 0 z + 1 / 100 * min 0 z
    (∀ l0 l1 l2, sequential (llfModule l0 l1 l2) (List.ofFn x) =
      .ok (List.ofFn (l2.map (φ ∘ l1.map (φ ∘ l0.map x))))) ∧
    ∀ l0 l1 l2 l3, sequential (llf2Module l0 l1 l2 l3) (List.ofFn x) =
      .ok (List.ofFn (l3.map (φ ∘ l2.map (φ ∘ l1.map (φ ∘ l0.map x))))) := by
  intro φ
  have hl : ∀ {n : ℕ} (z : Fin n → K), (List.ofFn z).map leaky = List.ofFn (φ ∘ z) := by
    intro n z
    rw [List.map_ofFn]
    rfl
  constructor
  · intro l0 l1 l2
    simp only [llfModule, sequential, Layer.forward, Linear.forward_ofFn, hl]
  · intro l0 l1 l2 l3
    simp only [llf2Module, sequential, Layer.forward, Linear.forward_ofFn, hl]

theorem linear_lipschitz {a b : ℕ} (l : Linear K a b) (x y : List K) (d : K)
    (hd : ∀ j < a, |x.getD j 0 - y.getD j 0| ≤ d) (i : Fin b) :
    |(∑ j, l.weight i j * x.getD j 0 + l.bias i) - (∑ j, l.weight i j * y.getD j 0 + l.bias i)| ≤
      (∑ j, |l.weight i j|) * d := by
  have e : (∑ j, l.weight i j * x.getD j 0 + l.bias i) - (∑ j, l.weight i j * y.getD j 0 + l.bias i) =
      ∑ j : Fin a, l.weight i j * (x.getD j 0 - y.getD j 0) := by
    simp only [mul_sub, Finset.sum_sub_distrib]
    ring
  rw [e, Finset.sum_mul]
  refine (Finset.abs_sum_le_sum_abs _ _).trans (Finset.sum_le_sum fun j _ => ?_)
  rw [abs_mul]
  exact mul_le_mul_of_nonneg_left (hd j j.isLt) (abs_nonneg _)

/-- C107.  Sensitivity of a network: if two inputs differ in no entry by more than `d`, the outputs
differ in no entry by more than `d` times the product of the largest row sums of absolute weights. -/
theorem C107_lipschitz (layers : List (Layer K)) (a b : ℕ) (h : Fits layers a b) (x y x' y' : List K)
    (hx : x.length = a) (hy : y.length = a) (hx' : sequential layers x = .ok x')
    (hy' : sequential layers y = .ok y') (d : K) (hd0 : 0 ≤ d)
    (hd : ∀ j < a, |x.getD j 0 - y.getD j 0| ≤ d) :
    ∀ i < b, |x'.getD i 0 - y'.getD i 0| ≤ lip layers * d := by
  induction layers generalizing a x y d with
  | nil =>
    cases hx'
    cases hy'
    intro i hi
    rw [lip, one_mul]
    exact hd i (by rw [show a = b from h]; exact hi)
  | cons l ls ih =>
    cases l with
    | linear a' b' l =>
      obtain ⟨rfl, h2⟩ := h
      simp only [sequential, Layer.forward, Linear.forward, if_pos hx] at hx'
      simp only [sequential, Layer.forward, Linear.forward, if_pos hy] at hy'
      have := ih b' h2 _ _ (by simp) (by simp) hx' hy' (rowNorm l * d)
        (mul_nonneg (rowNorm_nonneg l) hd0) (fun j hj => by
          rw [List.getD_eq_getElem _ _ (by simpa using hj), List.getD_eq_getElem _ _ (by simpa using hj),
            List.getElem_ofFn, List.getElem_ofFn]
          exact (linear_lipschitz l x y d hd ⟨j, hj⟩).trans
            (mul_le_mul_of_nonneg_right (row_le l _) hd0))
      intro i hi
      refine (this i hi).trans (le_of_eq ?_)
      rw [lip]
      ring
    | leakyReLU =>
      exact ih a h _ _ (by simpa using hx) (by simpa using hy) hx' hy' d hd0 (fun j hj => by
        rw [getD_map_leaky, getD_map_leaky]
        exact (leaky_lipschitz _ _).trans (hd j hj))

/-- C107.  The sensitivity bound is attained: for a single linear layer with row sum `c` in absolute
values there are inputs at distance 1 whose outputs have distance `c`. -/
theorem C107_sharp {a b : ℕ} (l : Linear K a b) (i : Fin b) :
    ∃ x y x' y' : List K, x.length = a ∧ y.length = a ∧ (∀ j < a, |x.getD j 0 - y.getD j 0| ≤ 1) ∧
      sequential [.linear a b l] x = .ok x' ∧ sequential [.linear a b l] y = .ok y' ∧
      |x'.getD i 0 - y'.getD i 0| = ∑ j, |l.weight i j| := by
  let s : Fin a → K := fun j => if 0 ≤ l.weight i j then 1 else -1
  refine ⟨List.ofFn s, List.replicate a 0,
    List.ofFn fun i => ∑ j, l.weight i j * (List.ofFn s).getD j 0 + l.bias i,
    List.ofFn fun i => ∑ j, l.weight i j * (List.replicate a (0 : K)).getD j 0 + l.bias i,
    by simp, by simp, ?_, ?_, ?_, ?_⟩
  · intro j hj
    rw [List.getD_eq_getElem _ _ (by simpa using hj), List.getD_eq_getElem _ _ (by simpa using hj)]
    simp only [List.getElem_ofFn, List.getElem_replicate, sub_zero, s]
    split <;> simp
  · simp only [sequential, Layer.forward, Linear.forward, List.length_ofFn, if_true]
  · simp only [sequential, Layer.forward, Linear.forward, List.length_replicate, if_true]
  · rw [List.getD_eq_getElem _ _ (by simp), List.getD_eq_getElem _ _ (by simp),
      List.getElem_ofFn, List.getElem_ofFn]
    have e : ∀ j : Fin a, l.weight i j * (List.ofFn s).getD j 0 = |l.weight i j| := by
      intro j
      rw [List.getD_eq_getElem _ _ (by simp), List.getElem_ofFn]
      simp only [s]
      split
      · rw [abs_of_nonneg ‹_›, mul_one]
      · rw [abs_of_neg (not_le.mp ‹_›), mul_neg_one]
    have e0 : ∀ j : Fin a, l.weight i j * (List.replicate a (0 : K)).getD j 0 = 0 := by
      intro j
      rw [List.getD_eq_getElem _ _ (by simp)]
      simp
    simp only [e, e0, Finset.sum_const_zero, Fin.eta]
    rw [zero_add, add_sub_cancel_right]
    exact abs_of_nonneg (Finset.sum_nonneg fun _ _ => abs_nonneg _)

/-- C107.  `predict` with fitted scalers: rows of the width the input scaler was fitted to give rows of
the width of the output scaler, other rows a `ValueError`; and if the scales of the inputs are at least
`s` and those of the outputs at most `S`, then outputs differ by at most `S lip / s` times the distance
of the inputs. -/
theorem C107_predict (layers : List (Layer K)) (a b : ℕ) (h : Fits layers a b) (si so : Scaler K)
    (hsi : Good si a) (hso : Good so b) :
    (∀ x : List K, x.length = a → ∃ y, predict layers si so x = .ok y ∧ y.length = b) ∧
    (∀ x : List K, x.length ≠ a → predict layers si so x = .error .valueError) ∧
    ∀ s S, 0 < s → (∀ j < a, s ≤ |si.scale.getD j 0|) → (∀ j < b, |so.scale.getD j 0| ≤ S) →
      ∀ (x y x' y' : List K) d, x.length = a → y.length = a → 0 ≤ d →
        (∀ j < a, |x.getD j 0 - y.getD j 0| ≤ d) → predict layers si so x = .ok x' →
        predict layers si so y = .ok y' →
        ∀ i < b, |x'.getD i 0 - y'.getD i 0| ≤ S * lip layers / s * d := by
  have ht : ∀ x : List K, x.length = a → si.transform x =
      .ok ((List.range a).map fun j => (x.getD j 0 - si.mean.getD j 0) / si.scale.getD j 0) := by
    intro x hx
    rw [Scaler.transform, if_pos (by rw [hx, hsi.mean]), hx]
  have hi : ∀ y : List K, y.length = b → so.inverse y =
      .ok ((List.range b).map fun j => y.getD j 0 * so.scale.getD j 0 + so.mean.getD j 0) := by
    intro y hy
    rw [Scaler.inverse, if_pos (by rw [hy, hso.mean]), hy]
  have hok : ∀ x : List K, x.length = a → ∃ z, sequential layers ((List.range a).map fun j =>
      (x.getD j 0 - si.mean.getD j 0) / si.scale.getD j 0) = .ok z ∧ z.length = b ∧
      predict layers si so x = .ok ((List.range b).map fun j =>
        z.getD j 0 * so.scale.getD j 0 + so.mean.getD j 0) := by
    intro x hx
    obtain ⟨z, h1, h2⟩ := C107_width layers a b h ((List.range a).map fun j =>
      (x.getD j 0 - si.mean.getD j 0) / si.scale.getD j 0) (by simp)
    refine ⟨z, h1, h2, ?_⟩
    simp only [predict, ht x hx, h1]
    exact hi z h2
  refine ⟨fun x hx => ?_, fun x hx => ?_, ?_⟩
  · obtain ⟨z, -, -, h3⟩ := hok x hx
    exact ⟨_, h3, by simp⟩
  · simp only [predict, Scaler.transform]
    rw [if_neg (by rw [hsi.mean]; exact hx)]
  · intro s S hs hsi' hso' x y x' y' d hx hy hd0 hd hx' hy' i hib
    obtain ⟨z, h1, h2, h3⟩ := hok x hx
    obtain ⟨w, g1, g2, g3⟩ := hok y hy
    rw [h3] at hx'
    rw [g3] at hy'
    cases hx'
    cases hy'
    have key := C107_lipschitz layers a b h _ _ z w (by simp) (by simp) h1 g1 (d / s)
      (div_nonneg hd0 hs.le) (fun j hj => by
        have hne := hsi.ne j hj
        rw [List.getD_eq_getElem _ _ (by simpa using hj), List.getD_eq_getElem _ _ (by simpa using hj)]
        simp only [List.getElem_map, List.getElem_range]
        rw [← sub_div, sub_sub_sub_cancel_right, abs_div]
        exact div_le_div₀ hd0 (hd j hj) hs (hsi' j hj)) i hib
    rw [List.getD_eq_getElem _ _ (by simpa using hib), List.getD_eq_getElem _ _ (by simpa using hib)]
    simp only [List.getElem_map, List.getElem_range]
    rw [add_sub_add_right_eq_sub, ← sub_mul, abs_mul, mul_comm]
    have hS : 0 ≤ S := (abs_nonneg _).trans (hso' i hib)
    calc |so.scale.getD i 0| * |z.getD i 0 - w.getD i 0| ≤ S * (lip layers * (d / s)) :=
          mul_le_mul (hso' i hib) key (abs_nonneg _) hS
      _ = S * lip layers / s * d := by ring

/-! Examples. -/

/-- A layer with two inputs and one output. -/
def exampleLayer : Linear ℚ 2 1 := ⟨fun _ j => if j = 0 then 2 else -3, fun _ => 1⟩

example : sequential [.linear 2 1 exampleLayer, .leakyReLU] [1, 2] = .ok [-(3 / 100)] ∧
    sequential [.linear 2 1 exampleLayer, .leakyReLU] [2, 1] = .ok [2] ∧
    sequential [.linear 2 1 exampleLayer, .leakyReLU] [1] = .error .runtimeError ∧
    lip [.linear 2 1 exampleLayer, .leakyReLU] = 5 := by
  decide +kernel

example (l0 : Linear ℚ 8 32) (l1 : Linear ℚ 32 32) (l2 : Linear ℚ 32 2) :
    Fits (llfModule l0 l1 l2) 8 2 ∧
    lip (llfModule l0 l1 l2) = rowNorm l0 * (rowNorm l1 * (rowNorm l2 * 1)) ∧
    Good (⟨List.replicate 8 1, List.replicate 8 (1 / 2)⟩ : Scaler ℚ) 8 ∧
    Good (⟨[0, 3], [2, 1 / 7]⟩ : Scaler ℚ) 2 := by
  refine ⟨⟨rfl, rfl, rfl, rfl⟩, rfl, ⟨by simp, by simp, ?_⟩, ⟨rfl, rfl, ?_⟩⟩ <;>
    (intro j hj; interval_cases j <;> simp)

end Verif.Network
