import Verif.Core.WeakForm
import Verif.Props.BurgersConvergence
import Mathlib.Data.Real.Sign

/-!
Helper lemmas: Kruzhkov's entropy inequality for a step of the three integrators, with a numerical entropy flux near the
entropy flux of the state at the beginning of the step.
-/

set_option linter.unusedSectionVars false

namespace Verif.EntropyLimit

open Verif.Py Verif.Boundary Verif.FV Verif.ODE Verif.Scalar Verif.Convergence

/-- Kruzhkov's entropy flux for the entropy `|u - k|`. -/
noncomputable def kruzhkovFlux (f : ℝ → ℝ) (k u : ℝ) : ℝ := Real.sign (u - k) * (f u - f k)

/-- The largest speed of states up to `M`. -/
noncomputable def top (p : Problem) (M : ℝ) : ℝ := p.fluxPrime M

/-- The flux `f` has the slope `Λ` at most for the values from `m` to `M`. -/
structure Slope (f : ℝ → ℝ) (m M Λ : ℝ) : Prop where
  nonneg : 0 ≤ Λ
  lipschitz : ∀ a b, m ≤ a ∧ a ≤ M → m ≤ b ∧ b ≤ M → |f a - f b| ≤ Λ * |a - b|

/-- `F` is a numerical flux for `f`, and forward Euler steps `dt` with `dt / dx * c ≤ 1` are monotone. -/
structure TwoPoint (f : ℝ → ℝ) (F : ℝ → ℝ → ℝ) (m M Λ c : ℝ) : Prop extends Slope f m M Λ where
  le : Λ ≤ c
  consistent : ∀ a, F a a = f a
  right : ∀ a b, m ≤ a ∧ a ≤ M → m ≤ b ∧ b ≤ M → |F a b - F a a| ≤ Λ * |b - a|
  left : ∀ a b, m ≤ a ∧ a ≤ M → m ≤ b ∧ b ≤ M → |F a b - F b b| ≤ Λ * |a - b|
  mono : ∀ lam, 0 ≤ lam → lam * c ≤ 1 → ∀ x y z x' y' z', m ≤ x ∧ x ≤ x' ∧ x' ≤ M → m ≤ y ∧ y ≤ y' ∧ y' ≤ M →
    m ≤ z ∧ z ≤ z' ∧ z' ≤ M → y + lam * (F x y - F y z) ≤ y' + lam * (F x' y' - F y' z')

/-- The numerical entropy flux. -/
def crossFlux (F : ℝ → ℝ → ℝ) (k a b : ℝ) : ℝ := F (max a k) (max b k) - F (min a k) (min b k)

/-- The new value of a cell after a forward Euler step. -/
def cellMap (F : ℝ → ℝ → ℝ) (lam : ℝ) {n : ℕ} (g : ℕ → Fin n) (u : Fin n → ℝ) (i : Fin n) : ℝ :=
  u (g (i + 1)) + lam * (F (u (g i)) (u (g (i + 1))) - F (u (g (i + 1))) (u (g (i + 2))))

/-! ### Kruzhkov's flux -/

theorem kruzhkov_above (f : ℝ → ℝ) (k v : ℝ) (h : k ≤ v) : kruzhkovFlux f k v = f v - f k := by
  unfold kruzhkovFlux
  rcases h.eq_or_lt with rfl | h
  · simp
  · rw [Real.sign_of_pos (by linarith), one_mul]

theorem kruzhkov_below (f : ℝ → ℝ) (k v : ℝ) (h : v ≤ k) : kruzhkovFlux f k v = f k - f v := by
  unfold kruzhkovFlux
  rcases h.eq_or_lt with rfl | h
  · simp
  · rw [Real.sign_of_neg (by linarith)]; ring

theorem kruzhkov_extrema (f : ℝ → ℝ) (k v : ℝ) : kruzhkovFlux f k v = f (max v k) - f (min v k) := by
  rcases le_total k v with h | h
  · rw [kruzhkov_above f k v h, max_eq_left h, min_eq_right h]
  · rw [kruzhkov_below f k v h, max_eq_right h, min_eq_left h]

theorem extrema_distance (a b k : ℝ) : |max b k - max a k| + |min b k - min a k| = |b - a| := by
  rcases le_total a k with h | h <;> rcases le_total b k with h' | h'
  · rw [max_eq_right h, max_eq_right h', min_eq_left h, min_eq_left h']; simp
  · rw [max_eq_right h, max_eq_left h', min_eq_left h, min_eq_right h', abs_of_nonneg (by linarith),
      abs_of_nonneg (by linarith), abs_of_nonneg (by linarith)]; ring
  · rw [max_eq_left h, max_eq_right h', min_eq_right h, min_eq_left h', abs_of_nonpos (by linarith),
      abs_of_nonpos (by linarith), abs_of_nonpos (by linarith)]; ring
  · rw [max_eq_left h, max_eq_left h', min_eq_right h, min_eq_right h']; simp

/-- Kruzhkov's flux has the same slope. -/
theorem Slope.kruzhkov {f : ℝ → ℝ} {m M Λ : ℝ} (h : Slope f m M Λ) (k a b : ℝ) (hk : m ≤ k ∧ k ≤ M)
    (ha : m ≤ a ∧ a ≤ M) (hb : m ≤ b ∧ b ≤ M) : |kruzhkovFlux f k a - kruzhkovFlux f k b| ≤ Λ * |a - b| := by
  rw [kruzhkov_extrema, kruzhkov_extrema, ← extrema_distance b a k, mul_add]
  have h1 := h.lipschitz (max a k) (max b k) ⟨ha.1.trans (le_max_left _ _), max_le ha.2 hk.2⟩
    ⟨hb.1.trans (le_max_left _ _), max_le hb.2 hk.2⟩
  have h2 := h.lipschitz (min a k) (min b k) ⟨le_min ha.1 hk.1, (min_le_left _ _).trans ha.2⟩
    ⟨le_min hb.1 hk.1, (min_le_left _ _).trans hb.2⟩
  refine le_trans (le_of_eq ?_) ((abs_sub _ _).trans (add_le_add h1 h2))
  congr 1
  ring

theorem TwoPoint.cross {f : ℝ → ℝ} {F : ℝ → ℝ → ℝ} {m M Λ c : ℝ} (hF : TwoPoint f F m M Λ c) (k a b : ℝ)
    (hk : m ≤ k ∧ k ≤ M) (ha : m ≤ a ∧ a ≤ M) (hb : m ≤ b ∧ b ≤ M) :
    |crossFlux F k a b - kruzhkovFlux f k a| ≤ Λ * |b - a| := by
  rw [kruzhkov_extrema, ← hF.consistent, ← hF.consistent]
  unfold crossFlux
  have h1 := hF.right (max a k) (max b k) ⟨ha.1.trans (le_max_left _ _), max_le ha.2 hk.2⟩
    ⟨hb.1.trans (le_max_left _ _), max_le hb.2 hk.2⟩
  have h2 := hF.right (min a k) (min b k) ⟨le_min ha.1 hk.1, (min_le_left _ _).trans ha.2⟩
    ⟨le_min hb.1 hk.1, (min_le_left _ _).trans hb.2⟩
  rw [← extrema_distance a b k, mul_add]
  refine le_trans (le_of_eq ?_) ((abs_sub _ _).trans (add_le_add h1 h2))
  congr 1
  ring

/-! ### The Lax-Friedrichs flux -/

section Flux

variable {p : Problem} {m M : ℝ} (hm : p = .burgers → 0 < m)

/-- The number `c` of the condition on the time steps. -/
noncomputable def stepNumber (p : Problem) (M : ℝ) : ℝ := match p with
  | .advection => 1
  | .burgers => 2 * M

theorem Monotonic.step {dx dt : ℝ} (hdx : 0 < dx) (hc : Monotonic p m M dx dt) :
    0 ≤ dt / dx ∧ dt / dx * stepNumber p M ≤ 1 := by
  obtain ⟨d0, d1, d2⟩ := hc
  refine ⟨div_nonneg d0 hdx.le, ?_⟩
  rw [div_mul_eq_mul_div, div_le_one hdx]
  cases p with
  | advection => simpa [stepNumber] using d1 rfl
  | burgers =>
    have := (d2 rfl).2
    simp only [stepNumber]
    linarith

include hm

theorem top_nonneg (h : m ≤ M) : 0 ≤ top p M := by
  cases p with
  | advection => simp [top, Problem.fluxPrime]
  | burgers => simp only [top, Problem.fluxPrime]; linarith [hm rfl]

theorem flux_lipschitz (a b : ℝ) (ha : m ≤ a ∧ a ≤ M) (hb : m ≤ b ∧ b ≤ M) :
    |p.flux a - p.flux b| ≤ top p M * |a - b| := by
  cases p with
  | advection => simp [top, Problem.fluxPrime, Problem.flux]
  | burgers =>
    have := hm rfl
    simp only [top, Problem.fluxPrime, Problem.flux]
    have e : 1 / 2 * a ^ 2 - 1 / 2 * b ^ 2 = (a + b) / 2 * (a - b) := by ring
    rw [e, abs_mul, abs_of_nonneg (by linarith)]
    exact mul_le_mul_of_nonneg_right (by linarith) (abs_nonneg _)

theorem flux_slope (h : m ≤ M) : Slope p.flux m M (top p M) := ⟨top_nonneg hm h, flux_lipschitz hm⟩

theorem lfFlux_right (a b : ℝ) (ha : m ≤ a ∧ a ≤ M) (hb : m ≤ b ∧ b ≤ M) :
    |lfFlux p a b - lfFlux p a a| ≤ top p M * |b - a| := by
  cases p with
  | advection =>
    simp only [lfFlux_advection, sub_self, abs_zero, top, Problem.fluxPrime]
    positivity
  | burgers =>
    have := hm rfl
    simp only [lfFlux_burgers, top, Problem.fluxPrime]
    rcases le_total a b with h | h
    · rw [max_eq_right h, max_self, abs_of_nonneg (by linarith : 0 ≤ b - a), abs_le]
      constructor <;> nlinarith
    · rw [max_eq_left h, max_self, abs_of_nonpos (by linarith : b - a ≤ 0), abs_le]
      constructor <;> nlinarith

theorem lfFlux_left (a b : ℝ) (ha : m ≤ a ∧ a ≤ M) (hb : m ≤ b ∧ b ≤ M) :
    |lfFlux p a b - lfFlux p b b| ≤ top p M * |a - b| := by
  cases p with
  | advection =>
    simp [lfFlux_advection, top, Problem.fluxPrime]
  | burgers =>
    have := hm rfl
    simp only [lfFlux_burgers, top, Problem.fluxPrime]
    rcases le_total a b with h | h
    · rw [max_eq_right h, max_self, abs_of_nonpos (by linarith : a - b ≤ 0), abs_le]
      constructor <;> nlinarith
    · rw [max_eq_left h, max_self, abs_of_nonneg (by linarith : 0 ≤ a - b), abs_le]
      constructor <;> nlinarith

theorem lf_twoPoint (hmM : m ≤ M) : TwoPoint p.flux (lfFlux p) m M (top p M) (stepNumber p M) where
  toSlope := flux_slope hm hmM
  le := by
    cases p with
    | advection => simp [top, stepNumber, Problem.fluxPrime]
    | burgers =>
      have := hm rfl
      simp only [top, stepNumber, Problem.fluxPrime]
      linarith
  consistent a := by
    cases p with
    | advection => simp [lfFlux_advection, Problem.flux]
    | burgers => simp only [lfFlux_burgers, Problem.flux]; ring
  right := lfFlux_right hm
  left := lfFlux_left hm
  mono lam h0 h1 x y z x' y' z' hx hy hz := by
    have := eulerCell_mono p m M 1 lam one_pos ⟨h0, fun h => by subst h; simpa [stepNumber] using h1,
      fun h => ⟨hm h, by subst h; simp only [stepNumber] at h1; linarith⟩⟩ x y z x' y' z' hx hy hz
    rw [div_one] at this
    exact this

theorem lf_system {dx : ℝ} (hdx : 0 < dx) {n : ℕ} (bc : BC ℝ ℝ) (g : ℕ → Fin n) (hg : Cells bc n g) (dt t : ℝ)
    (u : Fin n → ℝ) (hu : ∀ i, m ≤ u i) :
    ∃ w, vecRhs n (rhs (laxFriedrichs p.riemann) dx bc) t u = .ok w ∧ u + dt • w = cellMap (lfFlux p) (dt / dx) g u :=
  newCell_eq p n bc g hg dx hdx m dt hm t u hu

end Flux

/-! ### The variation around the circle -/

section Monotone

variable {f : ℝ → ℝ} {F : ℝ → ℝ → ℝ} {m M Λ c lam : ℝ} {n : ℕ} (hF : TwoPoint f F m M Λ c) (hl0 : 0 ≤ lam)
  (hl : lam * c ≤ 1) (g : ℕ → Fin n)
include hF hl0 hl

theorem TwoPoint.cell_mono (u v : Fin n → ℝ) (hu : ∀ i, m ≤ u i) (huv : u ≤ v) (hv : ∀ i, v i ≤ M) :
    cellMap F lam g u ≤ cellMap F lam g v := fun _ =>
  hF.mono lam hl0 hl _ _ _ _ _ _ ⟨hu _, huv _, hv _⟩ ⟨hu _, huv _, hv _⟩ ⟨hu _, huv _, hv _⟩

theorem TwoPoint.cell_abs (hmid : ∀ i : Fin n, g (i + 1) = i) (u v : Fin n → ℝ)
    (hu : ∀ i, m ≤ u i ∧ u i ≤ M) (hv : ∀ i, m ≤ v i ∧ v i ≤ M) (i : Fin n) :
    |cellMap F lam g u i - cellMap F lam g v i| ≤ |u i - v i| +
      lam * ((F (max (u (g i)) (v (g i))) (max (u (g (i + 1))) (v (g (i + 1)))) -
          F (min (u (g i)) (v (g i))) (min (u (g (i + 1))) (v (g (i + 1))))) -
        (F (max (u (g (i + 1))) (v (g (i + 1)))) (max (u (g (i + 2))) (v (g (i + 2)))) -
          F (min (u (g (i + 1))) (v (g (i + 1)))) (min (u (g (i + 2))) (v (g (i + 2)))))) := by
  have up : ∀ j, max (u j) (v j) ≤ M := fun j => max_le (hu j).2 (hv j).2
  have lo : ∀ j, m ≤ min (u j) (v j) := fun j => le_min (hu j).1 (hv j).1
  have a1 := hF.cell_mono hl0 hl g u (fun j => max (u j) (v j)) (fun j => (hu j).1) (fun j => le_max_left _ _) up i
  have a2 := hF.cell_mono hl0 hl g v (fun j => max (u j) (v j)) (fun j => (hv j).1) (fun j => le_max_right _ _) up i
  have a3 := hF.cell_mono hl0 hl g (fun j => min (u j) (v j)) u lo (fun j => min_le_left _ _) (fun j => (hu j).2) i
  have a4 := hF.cell_mono hl0 hl g (fun j => min (u j) (v j)) v lo (fun j => min_le_right _ _) (fun j => (hv j).2) i
  have b : |cellMap F lam g u i - cellMap F lam g v i| ≤
      cellMap F lam g (fun j => max (u j) (v j)) i - cellMap F lam g (fun j => min (u j) (v j)) i := by
    rw [abs_le]; constructor <;> linarith
  refine b.trans (le_of_eq ?_)
  rw [← max_sub_min_eq_abs']
  simp only [cellMap, hmid i]
  ring

theorem TwoPoint.distance_step (hmid : ∀ i : Fin n, g (i + 1) = i) (h0 : g n = g 0) (h1 : g (n + 1) = g 1)
    (u v : Fin n → ℝ) (hu : ∀ i, m ≤ u i ∧ u i ≤ M) (hv : ∀ i, m ≤ v i ∧ v i ≤ M) :
    distance (cellMap F lam g u) (cellMap F lam g v) ≤ distance u v := by
  unfold distance
  set q : ℕ → ℝ := fun j => F (max (u (g j)) (v (g j))) (max (u (g (j + 1))) (v (g (j + 1)))) -
      F (min (u (g j)) (v (g j))) (min (u (g (j + 1))) (v (g (j + 1)))) with hq
  calc _ ≤ ∑ i : Fin n, (|u i - v i| + lam * (q i - q (i + 1))) :=
        Finset.sum_le_sum (fun i _ => hF.cell_abs hl0 hl g hmid u v hu hv i)
    _ = ∑ i, |u i - v i| := by
        rw [Finset.sum_add_distrib, ← Finset.mul_sum, sum_flux n q (by simp only [hq, h0, h1, zero_add]),
          mul_zero, add_zero]

end Monotone

section Step

variable {f : ℝ → ℝ} {F : ℝ → ℝ → ℝ} {m M Λ c lam : ℝ} {n : ℕ} (hF : TwoPoint f F m M Λ c) (hl0 : 0 ≤ lam)
  (hl : lam * c ≤ 1) (g : ℕ → Fin n)
  (hmid : ∀ i : Fin n, g (i + 1) = i) (h0 : g n = g 0) (h1 : g (n + 1) = g 1)

/-- The state moved by one cell. -/
def moved (u : Fin n → ℝ) (i : Fin n) : ℝ := u (g (i + 2))

/-- The sum of the jumps around the circle. -/
noncomputable def jumps (u : Fin n → ℝ) : ℝ := distance (moved g u) u

include hmid h0 h1

theorem next_cell (j : ℕ) (hj : j ≤ n + 1) : g (g j + 2) = if j = n + 1 then g 2 else g (j + 1) := by
  have hn : 0 < n := (g 0).pos
  by_cases h : j = n + 1
  · rw [if_pos h, h, h1]
    have := hmid ⟨0, hn⟩
    rw [show g 1 = ⟨0, hn⟩ from this]
  · rw [if_neg h]
    rcases Nat.eq_zero_or_pos j with rfl | hpos
    · have := hmid ⟨n - 1, by omega⟩
      have e : g 0 = ⟨n - 1, by omega⟩ := by
        rw [← h0, ← this]
        congr 1
        simp
        omega
      rw [e, zero_add, ← h1]
      congr 1
      simp
      omega
    · have := hmid ⟨j - 1, by omega⟩
      have e : g j = ⟨j - 1, by omega⟩ := by
        rw [← this]
        congr 1
        simp
        omega
      rw [e]
      congr 1
      simp
      omega

theorem moved_cell (u : Fin n → ℝ) (lam : ℝ) : moved g (cellMap F lam g u) = cellMap F lam g (moved g u) := by
  funext i
  have hi := i.2
  have a0 := next_cell g hmid h0 h1 i (by omega)
  have a1 := next_cell g hmid h0 h1 (i + 1) (by omega)
  have a2 := next_cell g hmid h0 h1 (i + 2) (by omega)
  rw [if_neg (by omega)] at a0 a1
  simp only [moved, cellMap, a0, a1, a2]
  by_cases h : (i : ℕ) + 2 = n + 1
  · have b : g (i + 2) = g 1 := by rw [h, h1]
    have hn : 0 < n := (g 0).pos
    have b' : ((g (i + 2) : Fin n) : ℕ) = 0 := by
      rw [b]
      have := hmid ⟨0, hn⟩
      rw [show g 1 = ⟨0, hn⟩ from this]
    rw [if_pos h, b']
    have e : g (i + 1) = g 0 := by rw [← h0]; congr 1; omega
    simp only [zero_add, e]
    rw [show (i : ℕ) + 1 + 1 = n + 1 by omega, h1]
  · rw [if_neg h]
    have b' : ((g (i + 2) : Fin n) : ℕ) = i + 1 := by
      have := hmid ⟨i + 1, by omega⟩
      rw [show g (i + 2) = ⟨i + 1, by omega⟩ from this]
    simp only [b']

theorem jumps_nonneg (u : Fin n → ℝ) : 0 ≤ jumps g u := by
  unfold jumps distance
  exact Finset.sum_nonneg fun _ _ => abs_nonneg _

include hF hl0 hl

theorem jumps_step (u : Fin n → ℝ) (hu : ∀ i, m ≤ u i ∧ u i ≤ M) :
    jumps g (cellMap F lam g u) ≤ jumps g u := by
  unfold jumps
  rw [moved_cell g hmid h0 h1]
  exact hF.distance_step hl0 hl g hmid h0 h1 _ _ (fun i => hu _) hu

end Step

theorem jumps_convex {n : ℕ} (g : ℕ → Fin n) (C : ℝ) : Convex ℝ {u : Fin n → ℝ | jumps g u ≤ C} := by
  intro u hu v hv a b ha hb hab
  have := distance_convex n C (x := (moved g u, u)) hu (y := (moved g v, v)) hv ha hb hab
  exact this

/-! ### A step -/

section Inequality

variable {f : ℝ → ℝ} {F : ℝ → ℝ → ℝ} {m M Λ c lam : ℝ} {n : ℕ} (hF : TwoPoint f F m M Λ c) (hl0 : 0 ≤ lam)
  (hl : lam * c ≤ 1) (g : ℕ → Fin n)
  (hmid : ∀ i : Fin n, g (i + 1) = i) (h0 : g n = g 0) (h1 : g (n + 1) = g 1)

/-- The numerical entropy flux at a node. -/
noncomputable def nodeFlux (H : ℝ → ℝ → ℝ → ℝ) (g : ℕ → Fin n) (k : ℝ) (w : Fin n → ℝ) (j : ℕ) : ℝ :=
  H k (w (g j)) (w (g (j + 1)))

/-- Values in the range of the data, with bounded jumps. -/
def States (g : ℕ → Fin n) (m M V : ℝ) : Set (Fin n → ℝ) := box n m M ∩ {u | jumps g u ≤ V}

theorem states_convex (V : ℝ) : Convex ℝ (States g m M V) := (box_convex n m M).inter (jumps_convex g V)

include hF hl0 hl

theorem cell_box (u : Fin n → ℝ) (hu : ∀ i, m ≤ u i ∧ u i ≤ M) (i : Fin n) :
    m ≤ cellMap F lam g u i ∧ cellMap F lam g u i ≤ M := by
  have const : ∀ c : ℝ, cellMap F lam g (fun _ => c) i = c := by
    intro c
    simp [cellMap]
  constructor
  · have := hF.cell_mono hl0 hl g (fun _ => m) u (fun _ => le_rfl)
      (fun j => (hu j).1) (fun j => (hu j).2) i
    rwa [const] at this
  · have := hF.cell_mono hl0 hl g u (fun _ => M) (fun j => (hu j).1)
      (fun j => (hu j).2) (fun _ => le_rfl) i
    rwa [const] at this

include hmid

theorem cell_entropy (k : ℝ) (hk : m ≤ k ∧ k ≤ M) (w : Fin n → ℝ) (hw : ∀ i, m ≤ w i ∧ w i ≤ M) (i : Fin n) :
    |cellMap F lam g w i - k| ≤ |w i - k| - lam * (nodeFlux (crossFlux F) g k w (i + 1) - nodeFlux (crossFlux F) g k w i) := by
  have h4 := hF.cell_abs hl0 hl g hmid w (fun _ => k) hw (fun _ => hk) i
  have const : cellMap F lam g (fun _ => k) i = k := by simp [cellMap]
  rw [const] at h4
  unfold nodeFlux crossFlux
  linarith

end Inequality

/-! ### Schemes with entropy inequalities -/

/-- What is used of the numerical flux `F`: steps `dt` with `dt / dx * c ≤ 1` keep the range, do not enlarge the sum of the
jumps and satisfy the entropy inequality with the numerical entropy flux `H`. -/
structure Scheme (f : ℝ → ℝ) (F : ℝ → ℝ → ℝ) (H : ℝ → ℝ → ℝ → ℝ) (m M Λ c : ℝ) : Prop extends Slope f m M Λ where
  le : Λ ≤ c
  right : ∀ a b, m ≤ a ∧ a ≤ M → m ≤ b ∧ b ≤ M → |F a b - F a a| ≤ Λ * |b - a|
  left : ∀ a b, m ≤ a ∧ a ≤ M → m ≤ b ∧ b ≤ M → |F a b - F b b| ≤ Λ * |a - b|
  cross : ∀ k a b, m ≤ k ∧ k ≤ M → m ≤ a ∧ a ≤ M → m ≤ b ∧ b ≤ M → |H k a b - kruzhkovFlux f k a| ≤ Λ * |b - a|
  cell_box : ∀ {lam : ℝ}, 0 ≤ lam → lam * c ≤ 1 → ∀ {n : ℕ} (g : ℕ → Fin n), (∀ i : Fin n, g (i + 1) = i) →
    ∀ u : Fin n → ℝ, (∀ i, m ≤ u i ∧ u i ≤ M) → ∀ i, m ≤ cellMap F lam g u i ∧ cellMap F lam g u i ≤ M
  jumps_step : ∀ {lam : ℝ}, 0 ≤ lam → lam * c ≤ 1 → ∀ {n : ℕ} (g : ℕ → Fin n), (∀ i : Fin n, g (i + 1) = i) →
    g n = g 0 → g (n + 1) = g 1 → ∀ u : Fin n → ℝ, (∀ i, m ≤ u i ∧ u i ≤ M) → jumps g (cellMap F lam g u) ≤ jumps g u
  cell_entropy : ∀ {lam : ℝ}, 0 ≤ lam → lam * c ≤ 1 → ∀ {n : ℕ} (g : ℕ → Fin n), (∀ i : Fin n, g (i + 1) = i) →
    ∀ k, m ≤ k ∧ k ≤ M → ∀ w : Fin n → ℝ, (∀ i, m ≤ w i ∧ w i ≤ M) → ∀ i : Fin n,
      |cellMap F lam g w i - k| ≤ |w i - k| - lam * (nodeFlux H g k w (i + 1) - nodeFlux H g k w i)

theorem TwoPoint.scheme {f : ℝ → ℝ} {F : ℝ → ℝ → ℝ} {m M Λ c : ℝ} (hF : TwoPoint f F m M Λ c) :
    Scheme f F (crossFlux F) m M Λ c where
  toSlope := hF.toSlope
  le := hF.le
  right := hF.right
  left := hF.left
  cross := hF.cross
  cell_box h0 h1 _ g _ u hu i := cell_box hF h0 h1 g u hu i
  jumps_step h0 h1 _ g hmid e0 e1 u hu := jumps_step hF h0 h1 g hmid e0 e1 u hu
  cell_entropy h0 h1 _ g hmid k hk w hw i := cell_entropy hF h0 h1 g hmid k hk w hw i

section Stages

variable {f : ℝ → ℝ} {F : ℝ → ℝ → ℝ} {H : ℝ → ℝ → ℝ → ℝ} {m M Λ c lam : ℝ} {n : ℕ} (hF : Scheme f F H m M Λ c)
  (hl0 : 0 ≤ lam) (hl : lam * c ≤ 1) (g : ℕ → Fin n)
  (hmid : ∀ i : Fin n, g (i + 1) = i) (h0 : g n = g 0) (h1 : g (n + 1) = g 1)
include hF hl0 hl

theorem speed_bound : lam * Λ ≤ 1 := (mul_le_mul_of_nonneg_left hF.le hl0).trans hl

include hmid h0 h1

theorem states_step (V : ℝ) (u : Fin n → ℝ) (hu : u ∈ States g m M V) :
    cellMap F lam g u ∈ States g m M V :=
  ⟨hF.cell_box hl0 hl g hmid u hu.1, (hF.jumps_step hl0 hl g hmid h0 h1 u hu.1).trans hu.2⟩

/-- The jumps to the left are the jumps to the right. -/
theorem jumps_left (u : Fin n → ℝ) : ∑ i : Fin n, |u (g i) - u i| = jumps g u := by
  have e1 : ∑ i : Fin n, |u (g i) - u i| = ∑ j ∈ Finset.range n, |u (g j) - u (g (j + 1))| := by
    rw [← Fin.sum_univ_eq_sum_range (fun j => |u (g j) - u (g (j + 1))|)]
    exact Finset.sum_congr rfl fun i _ => by rw [hmid i]
  have e2 : jumps g u = ∑ j ∈ Finset.range n, |u (g (j + 1)) - u (g (j + 1 + 1))| := by
    rw [← Fin.sum_univ_eq_sum_range (fun j => |u (g (j + 1)) - u (g (j + 1 + 1))|)]
    unfold jumps distance moved
    exact Finset.sum_congr rfl fun i _ => by rw [hmid i, abs_sub_comm]
  rw [e1, e2]
  have s1 := Finset.sum_range_succ (fun j => |u (g j) - u (g (j + 1))|) n
  have s2 := Finset.sum_range_succ' (fun j => |u (g j) - u (g (j + 1))|) n
  rw [h0, h1] at s1
  rw [s1] at s2
  simp only [zero_add] at s2
  linarith

/-- How far a forward Euler step moves a state. -/
theorem step_distance (u : Fin n → ℝ) (hu : ∀ i, m ≤ u i ∧ u i ≤ M) :
    distance (cellMap F lam g u) u ≤ 2 * (lam * Λ) * jumps g u := by
  have hn : 0 < n := (g 0).pos
  have hmM : m ≤ M := (hu ⟨0, hn⟩).1.trans (hu ⟨0, hn⟩).2
  have key : ∀ i : Fin n, |cellMap F lam g u i - u i| ≤
      lam * Λ * (|u (g i) - u i| + |moved g u i - u i|) := by
    intro i
    have a1 := hF.left (u (g i)) (u i) (hu _) (hu _)
    have a2 := hF.right (u i) (u (g (i + 2))) (hu _) (hu _)
    simp only [cellMap, hmid i, moved]
    rw [add_sub_cancel_left, abs_mul, abs_of_nonneg hl0]
    have a3 : |F (u (g i)) (u i) - F (u i) (u (g (i + 2)))| ≤
        Λ * (|u (g i) - u i| + |u (g (i + 2)) - u i|) := by
      calc _ = |(F (u (g i)) (u i) - F (u i) (u i)) -
            (F (u i) (u (g (i + 2))) - F (u i) (u i))| := by congr 1; ring
        _ ≤ _ := abs_sub _ _
        _ ≤ _ := add_le_add a1 a2
        _ = _ := by ring
    calc _ ≤ lam * (Λ * (|u (g i) - u i| + |u (g (i + 2)) - u i|)) := mul_le_mul_of_nonneg_left a3 hl0
      _ = lam * Λ * (|u (g i) - u i| + |u (g (i + 2)) - u i|) := by ring
  calc _ ≤ ∑ i : Fin n, lam * Λ * (|u (g i) - u i| + |moved g u i - u i|) := Finset.sum_le_sum fun i _ => key i
    _ = lam * Λ * (jumps g u + jumps g u) := by
      rw [← Finset.mul_sum, Finset.sum_add_distrib, jumps_left hF hl0 hl g hmid h0 h1]; rfl
    _ = _ := by ring

/-- A forward Euler step moves a state by at most twice its jumps. -/
theorem step_moves (u : Fin n → ℝ) (hu : ∀ i, m ≤ u i ∧ u i ≤ M) :
    distance (cellMap F lam g u) u ≤ 2 * jumps g u := by
  have hn : 0 < n := (g 0).pos
  have hmM : m ≤ M := (hu ⟨0, hn⟩).1.trans (hu ⟨0, hn⟩).2
  have hl' := speed_bound hF hl0 hl
  refine (step_distance hF hl0 hl g hmid h0 h1 u hu).trans
    (mul_le_mul_of_nonneg_right (by linarith) (jumps_nonneg g hmid h0 h1 u))

/-- The numerical entropy flux of a stage is near the entropy flux of the state at the beginning. -/
theorem stage_flux (k : ℝ) (hk : m ≤ k ∧ k ≤ M) (u w : Fin n → ℝ) (hu : ∀ i, m ≤ u i ∧ u i ≤ M)
    (hw : ∀ i, m ≤ w i ∧ w i ≤ M) :
    ∑ i : Fin n, |nodeFlux H g k w (i + 1) - kruzhkovFlux f k (u i)| ≤ Λ * (jumps g w + distance w u) := by
  rw [mul_add, jumps, distance, distance, Finset.mul_sum, Finset.mul_sum, ← Finset.sum_add_distrib]
  refine Finset.sum_le_sum fun i _ => ?_
  have a1 := hF.cross k (w i) (w (g (i + 2))) hk (hw _) (hw _)
  have a2 := hF.kruzhkov k (w i) (u i) hk (hw _) (hu _)
  have e : nodeFlux H g k w (i + 1) = H k (w i) (w (g (i + 2))) := by
    unfold nodeFlux
    rw [hmid i]
  rw [e]
  calc _ = |(H k (w i) (w (g (i + 2))) - kruzhkovFlux f k (w i)) + (kruzhkovFlux f k (w i) - kruzhkovFlux f k (u i))| := by
        congr 1; ring
    _ ≤ _ := abs_add_le _ _
    _ ≤ _ := add_le_add a1 a2

end Stages

/-- What the entropy inequality of a step says: from `u` to `u'` with a flux `G` at the nodes. -/
def Dissipates (f : ℝ → ℝ) (n : ℕ) (lam k C : ℝ) (u u' : Fin n → ℝ) : Prop :=
  ∃ G : ℕ → ℝ, G n = G 0 ∧ (∀ i : Fin n, |u' i - k| ≤ |u i - k| - lam * (G (i + 1) - G i)) ∧
    ∑ i : Fin n, |G (i + 1) - kruzhkovFlux f k (u i)| ≤ C

theorem abs_combine (a b x y k : ℝ) (ha : 0 ≤ a) (hb : 0 ≤ b) (hab : a + b = 1) :
    |a * x + b * y - k| ≤ a * |x - k| + b * |y - k| := by
  have e : a * x + b * y - k = a * (x - k) + b * (y - k) := by
    linear_combination k * hab
  rw [e]
  refine (abs_add_le _ _).trans ?_
  rw [abs_mul, abs_mul, abs_of_nonneg ha, abs_of_nonneg hb]

/-- The inequality for a step of the three integrators. -/
theorem dissipates_step {f : ℝ → ℝ} {F : ℝ → ℝ → ℝ} {H : ℝ → ℝ → ℝ → ℝ} {m M Λ c lam dt : ℝ} {n : ℕ}
    (hF : Scheme f F H m M Λ c) (hl0 : 0 ≤ lam)
    (hl : lam * c ≤ 1) (sys : ℝ → (Fin n → ℝ) → Except Py.Error (Fin n → ℝ)) (g : ℕ → Fin n)
    (hmid : ∀ i : Fin n, g (i + 1) = i) (h0 : g n = g 0) (h1 : g (n + 1) = g 1)
    (hsys : ∀ t u, (∀ i, m ≤ u i ∧ u i ≤ M) → ∃ w, sys t u = .ok w ∧ u + dt • w = cellMap F lam g u) (T : Tableau ℝ)
    (hT : T = forwardEuler ℝ ∨ T = heun ℝ ∨ T = ssp3 ℝ) (V : ℝ) (s : Solver ℝ (Fin n → ℝ))
    (hs : s.solution ∈ States g m M V) :
    ∃ s', s.executeE T sys dt = .ok s' ∧ s'.time = s.time + dt ∧
      s'.solution ∈ States g m M V ∧ distance s'.solution s.solution ≤ 2 * (lam * Λ) * V ∧
      ∀ k, m ≤ k → k ≤ M → Dissipates f n lam k (2 * Λ * V) s.solution s'.solution := by
  have hn : 0 < n := (g 0).pos
  have hL := hF.nonneg
  set N := cellMap F lam g with hN
  have hNX : ∀ u ∈ States g m M V, N u ∈ States g m M V := fun u hu => states_step hF hl0 hl g hmid h0 h1 V u hu
  have hV : 0 ≤ V := (jumps_nonneg g hmid h0 h1 s.solution).trans hs.2
  obtain ⟨s', e1, e2, e3, e4⟩ := ssp_forms sys dt (States g m M V)
    (states_convex g V) N (fun t u hu => hsys t u hu.1) hNX T hT s hs
  have moves : distance s'.solution s.solution ≤ 2 * (lam * Λ) * V := by
    have hlt : 0 ≤ 2 * (lam * Λ) := by positivity
    have dist : ∀ w ∈ States g m M V, distance (N w) w ≤ 2 * (lam * Λ) * V := fun w hw =>
      (step_distance hF hl0 hl g hmid h0 h1 w hw.1).trans (mul_le_mul_of_nonneg_left hw.2 hlt)
    have part : ∀ (c : ℝ) (v w : Fin n → ℝ), 0 ≤ c → distance ((1 - c) • v + c • w) v = c * distance w v := by
      intro c v w hc0
      unfold distance
      rw [Finset.mul_sum]
      refine Finset.sum_congr rfl fun i _ => ?_
      have : ((1 - c) • v + c • w) i - v i = c * (w i - v i) := by
        simp only [Pi.add_apply, Pi.smul_apply, smul_eq_mul]; ring
      rw [this, abs_mul, abs_of_nonneg hc0]
    set κ := 2 * (lam * Λ) * V with hκ
    have q1 := dist _ hs
    have q2 := dist _ (hNX _ hs)
    have q3 := distance_tri (N (N s.solution)) (N s.solution) s.solution
    rcases e4 with e4 | e4 | ⟨e4, hw2⟩
    · rw [e4]; exact q1
    · have := part (1 / 2) s.solution (N (N s.solution)) (by norm_num)
      rw [show (1 : ℝ) - 1 / 2 = 1 / 2 by norm_num] at this
      rw [e4, this]
      linarith
    · have p1 := part (1 / 4) s.solution (N (N s.solution)) (by norm_num)
      rw [show (1 : ℝ) - 1 / 4 = 3 / 4 by norm_num] at p1
      have p2 := part (2 / 3) s.solution (N ((3 / 4 : ℝ) • s.solution + (1 / 4 : ℝ) • N (N s.solution))) (by norm_num)
      rw [show (1 : ℝ) - 2 / 3 = 1 / 3 by norm_num] at p2
      have q4 := dist _ hw2
      have q5 := distance_tri (N ((3 / 4 : ℝ) • s.solution + (1 / 4 : ℝ) • N (N s.solution)))
        ((3 / 4 : ℝ) • s.solution + (1 / 4 : ℝ) • N (N s.solution)) s.solution
      rw [e4, p2]
      linarith
  refine ⟨s', e1, e2, e3, moves, fun k hk1 hk2 => ?_⟩
  have hk : m ≤ k ∧ k ≤ M := ⟨hk1, hk2⟩
  set u := s.solution with hu
  have cyc : ∀ w : Fin n → ℝ, nodeFlux H g k w n = nodeFlux H g k w 0 := by
    intro w
    unfold nodeFlux
    rw [h0, h1]
  have ent : ∀ w ∈ States g m M V, ∀ i : Fin n, |N w i - k| ≤ |w i - k| -
      lam * (nodeFlux H g k w (i + 1) - nodeFlux H g k w i) := fun w hw i =>
    hF.cell_entropy hl0 hl g hmid k hk w hw.1 i
  have sumf : ∀ w ∈ States g m M V, ∑ i : Fin n, |nodeFlux H g k w (i + 1) - kruzhkovFlux f k (u i)| ≤
      Λ * (V + distance w u) := fun w hw =>
    (stage_flux hF hl0 hl g hmid h0 h1 k hk u w hs.1 hw.1).trans
      (mul_le_mul_of_nonneg_left (add_le_add hw.2 le_rfl) hL)
  have du : distance u u = 0 := by simp [distance]
  have hNu := hNX u hs
  have d1 : distance (N u) u ≤ 2 * V :=
    (step_moves hF hl0 hl g hmid h0 h1 u hs.1).trans (mul_le_mul_of_nonneg_left hs.2 (by norm_num))
  have f0 := sumf u hs
  have f1 := sumf (N u) hNu
  rw [du, add_zero] at f0
  rcases e4 with e4 | e4 | ⟨e4, hw2⟩
  · refine ⟨nodeFlux H g k u, cyc u, fun i => ?_, f0.trans ?_⟩
    · rw [e4]; exact ent u hs i
    · nlinarith [mul_nonneg hL hV]
  · refine ⟨fun j => 1 / 2 * nodeFlux H g k u j + 1 / 2 * nodeFlux H g k (N u) j, ?_, fun i => ?_, ?_⟩
    · simp only [cyc]
    · rw [e4]
      have a1 := ent u hs i
      have a2 := ent (N u) hNu i
      have a3 := abs_combine (1 / 2) (1 / 2) (u i) (N (N u) i) k (by norm_num) (by norm_num) (by norm_num)
      simp only [Pi.add_apply, Pi.smul_apply, smul_eq_mul]
      nlinarith
    · calc _ ≤ ∑ i : Fin n, (1 / 2 * |nodeFlux H g k u (i + 1) - kruzhkovFlux f k (u i)| +
            1 / 2 * |nodeFlux H g k (N u) (i + 1) - kruzhkovFlux f k (u i)|) := by
            refine Finset.sum_le_sum fun i _ => ?_
            exact abs_combine (1 / 2) (1 / 2) _ _ _ (by norm_num) (by norm_num) (by norm_num)
        _ ≤ 1 / 2 * (Λ * V) + 1 / 2 * (Λ * (V + 2 * V)) := by
            rw [Finset.sum_add_distrib, ← Finset.mul_sum, ← Finset.mul_sum]
            have := f1.trans (mul_le_mul_of_nonneg_left (add_le_add le_rfl d1) hL)
            linarith
        _ = _ := by ring
  · set w2 := (3 / 4 : ℝ) • u + (1 / 4 : ℝ) • N (N u) with hw2d
    have d2 : distance w2 u ≤ V := by
      have a1 : distance (N (N u)) (N u) ≤ 2 * V :=
        (step_moves hF hl0 hl g hmid h0 h1 (N u) hNu.1).trans (mul_le_mul_of_nonneg_left hNu.2 (by norm_num))
      have a2 := distance_tri (N (N u)) (N u) u
      have a3 : distance w2 u = 1 / 4 * distance (N (N u)) u := by
        unfold distance
        rw [Finset.mul_sum]
        refine Finset.sum_congr rfl fun i _ => ?_
        have : w2 i - u i = 1 / 4 * (N (N u) i - u i) := by
          simp only [hw2d, Pi.add_apply, Pi.smul_apply, smul_eq_mul]; ring
        rw [this, abs_mul, abs_of_nonneg (by norm_num : (0 : ℝ) ≤ 1 / 4)]
      rw [a3]; linarith
    have f2 := (sumf w2 hw2).trans (mul_le_mul_of_nonneg_left (add_le_add le_rfl d2) hL)
    refine ⟨fun j => 1 / 6 * nodeFlux H g k u j + 1 / 6 * nodeFlux H g k (N u) j + 2 / 3 * nodeFlux H g k w2 j, ?_,
      fun i => ?_, ?_⟩
    · simp only [cyc]
    · rw [e4]
      have a1 := ent u hs i
      have a2 := ent (N u) hNu i
      have a3 := ent w2 hw2 i
      have b1 := abs_combine (1 / 3) (2 / 3) (u i) (N w2 i) k (by norm_num) (by norm_num) (by norm_num)
      have b2 := abs_combine (3 / 4) (1 / 4) (u i) (N (N u) i) k (by norm_num) (by norm_num) (by norm_num)
      have b3 : w2 i = 3 / 4 * u i + 1 / 4 * N (N u) i := by
        simp only [hw2d, Pi.add_apply, Pi.smul_apply, smul_eq_mul]
      rw [← b3] at b2
      simp only [Pi.add_apply, Pi.smul_apply, smul_eq_mul]
      nlinarith
    · calc _ ≤ ∑ i : Fin n, (1 / 6 * |nodeFlux H g k u (i + 1) - kruzhkovFlux f k (u i)| +
            1 / 6 * |nodeFlux H g k (N u) (i + 1) - kruzhkovFlux f k (u i)| +
            2 / 3 * |nodeFlux H g k w2 (i + 1) - kruzhkovFlux f k (u i)|) := by
            refine Finset.sum_le_sum fun i _ => ?_
            have c1 : ∀ x y z o : ℝ, 1 / 6 * x + 1 / 6 * y + 2 / 3 * z - o =
                1 / 6 * (x - o) + 1 / 6 * (y - o) + 2 / 3 * (z - o) := by intros; ring
            rw [c1]
            refine (abs_add_three _ _ _).trans ?_
            rw [abs_mul, abs_mul, abs_mul, abs_of_nonneg (by norm_num : (0 : ℝ) ≤ 1 / 6),
              abs_of_nonneg (by norm_num : (0 : ℝ) ≤ 2 / 3)]
        _ ≤ 1 / 6 * (Λ * V) + 1 / 6 * (Λ * (V + 2 * V)) + 2 / 3 * (Λ * (V + V)) := by
            rw [Finset.sum_add_distrib, Finset.sum_add_distrib, ← Finset.mul_sum, ← Finset.mul_sum, ← Finset.mul_sum]
            have := f1.trans (mul_le_mul_of_nonneg_left (add_le_add le_rfl d1) hL)
            linarith
        _ = _ := by ring

end Verif.EntropyLimit
