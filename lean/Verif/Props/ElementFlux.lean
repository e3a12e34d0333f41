import Verif.Props.EntropyRuns
import Verif.Props.FELowFV

/-!
Helper lemmas for C134: the low order finite element scheme with linear elements satisfies entropy inequalities and does
not enlarge the sum of the jumps, also for Burgers' equation with values of both signs.  The step is a convex combination of
the old value and two averaged values, one for each neighbour; the scheme need not be monotone.
-/

set_option linter.unusedSectionVars false

namespace Verif.EntropyLimit

open Verif.Py Verif.Boundary Verif.FV Verif.ODE Verif.Scalar Verif.Convergence

/-! ### Burgers' equation -/

/-- The flux between two nodes for Burgers' equation. -/
theorem burgers_node (x y : ℝ) : FE.nodeFlux .burgers x y = (x ^ 2 + y ^ 2) / 4 - max |x| |y| / 2 * (y - x) := by
  unfold FE.nodeFlux FE.absSpeed
  simp only [Problem.flux, Problem.fluxPrime]
  ring

section Bounded

variable {K : ℝ}

theorem burgers_near (a b : ℝ) (ha : |a| ≤ K) (hb : |b| ≤ K) :
    |FE.nodeFlux .burgers a b - FE.nodeFlux .burgers a a| ≤ K * |b - a| ∧
      |FE.nodeFlux .burgers a b - FE.nodeFlux .burgers b b| ≤ K * |a - b| := by
  have hm1 := le_max_left |a| |b|
  have hm2 := le_max_right |a| |b|
  have hm3 := max_le ha hb
  have a1 := le_abs_self a
  have a2 := neg_abs_le a
  have b1 := le_abs_self b
  have b2 := neg_abs_le b
  rw [burgers_node, burgers_node, burgers_node, max_self, max_self]
  constructor
  · have e : (a ^ 2 + b ^ 2) / 4 - max |a| |b| / 2 * (b - a) - ((a ^ 2 + a ^ 2) / 4 - |a| / 2 * (a - a)) =
        ((a + b) / 4 - max |a| |b| / 2) * (b - a) := by ring
    rw [e, abs_mul]
    refine mul_le_mul_of_nonneg_right ?_ (abs_nonneg _)
    rw [_root_.abs_le]
    constructor <;> linarith
  · have e : (a ^ 2 + b ^ 2) / 4 - max |a| |b| / 2 * (b - a) - ((b ^ 2 + b ^ 2) / 4 - |b| / 2 * (b - b)) =
        ((a + b) / 4 + max |a| |b| / 2) * (a - b) := by ring
    rw [e, abs_mul]
    refine mul_le_mul_of_nonneg_right ?_ (abs_nonneg _)
    rw [_root_.abs_le]
    constructor <;> linarith

/-- The numerical entropy flux. -/
noncomputable def barFlux (k a b : ℝ) : ℝ :=
  (kruzhkovFlux Problem.burgers.flux k a + kruzhkovFlux Problem.burgers.flux k b) / 2 -
    max |a| |b| / 2 * (|b - k| - |a - k|)

/-- The entropy inequality of an averaged value. -/
theorem bar_entropy (k a b d : ℝ) (ha : |a| ≤ d) (hb : |b| ≤ d) :
    |d * ((a + b) / 2 - k) - (b ^ 2 - a ^ 2) / 4| ≤ d * (|a - k| + |b - k|) / 2 -
      (kruzhkovFlux Problem.burgers.flux k b - kruzhkovFlux Problem.burgers.flux k a) / 2 := by
  rw [_root_.abs_le] at ha hb
  rcases le_total k a with h1 | h1 <;> rcases le_total k b with h2 | h2
  · rw [kruzhkov_above _ _ _ h1, kruzhkov_above _ _ _ h2, abs_of_nonneg (by linarith : 0 ≤ a - k),
      abs_of_nonneg (by linarith : 0 ≤ b - k), _root_.abs_le]
    simp only [Problem.flux]
    constructor
    · rcases le_total a b with h | h <;> nlinarith
    · linarith
  · rw [kruzhkov_above _ _ _ h1, kruzhkov_below _ _ _ h2, abs_of_nonneg (by linarith : 0 ≤ a - k),
      abs_of_nonpos (by linarith : b - k ≤ 0), _root_.abs_le]
    simp only [Problem.flux]
    constructor <;> nlinarith
  · rw [kruzhkov_below _ _ _ h1, kruzhkov_above _ _ _ h2, abs_of_nonpos (by linarith : a - k ≤ 0),
      abs_of_nonneg (by linarith : 0 ≤ b - k), _root_.abs_le]
    simp only [Problem.flux]
    constructor <;> nlinarith
  · rw [kruzhkov_below _ _ _ h1, kruzhkov_below _ _ _ h2, abs_of_nonpos (by linarith : a - k ≤ 0),
      abs_of_nonpos (by linarith : b - k ≤ 0), _root_.abs_le]
    simp only [Problem.flux]
    constructor
    · linarith
    · nlinarith

theorem max_bounds (a b : ℝ) : |a| ≤ max |a| |b| ∧ |b| ≤ max |a| |b| ∧ -max |a| |b| ≤ (a + b) / 2 ∧
    (a + b) / 2 ≤ max |a| |b| := by
  have h1 := le_max_left |a| |b|
  have h2 := le_max_right |a| |b|
  have a1 := _root_.abs_le.1 h1
  have b1 := _root_.abs_le.1 h2
  exact ⟨h1, h2, by linarith [a1.1, b1.1], by linarith [a1.2, b1.2]⟩

theorem bar_step (lam k x y z : ℝ) (hl0 : 0 ≤ lam) (hl : lam * (2 * K) ≤ 1) (hx : |x| ≤ K) (hy : |y| ≤ K) (hz : |z| ≤ K) :
    |y + lam * (FE.nodeFlux .burgers x y - FE.nodeFlux .burgers y z) - k| ≤
      |y - k| - lam * (barFlux k y z - barFlux k x y) := by
  rw [burgers_node, burgers_node]
  unfold barFlux
  obtain ⟨a1, a2, -, -⟩ := max_bounds x y
  obtain ⟨b1, b2, -, -⟩ := max_bounds y z
  have a3 := max_le hx hy
  have b3 := max_le hy hz
  have e1 := bar_entropy k x y _ a1 a2
  have e2 := bar_entropy k y z _ b1 b2
  set d1 := max |x| |y|
  set d2 := max |y| |z|
  have h1 : 0 ≤ 1 - lam * (d1 + d2) := by
    have := mul_le_mul_of_nonneg_left (add_le_add a3 b3) hl0
    linarith
  have e : y + lam * ((x ^ 2 + y ^ 2) / 4 - d1 / 2 * (y - x) - ((y ^ 2 + z ^ 2) / 4 - d2 / 2 * (z - y))) - k =
      (1 - lam * (d1 + d2)) * (y - k) + (lam * (d1 * ((x + y) / 2 - k) - (y ^ 2 - x ^ 2) / 4) +
        lam * (d2 * ((y + z) / 2 - k) - (z ^ 2 - y ^ 2) / 4)) := by ring
  rw [e]
  refine ((abs_add_le _ _).trans (add_le_add le_rfl (abs_add_le _ _))).trans ?_
  rw [abs_mul, abs_mul, abs_mul, abs_of_nonneg h1, abs_of_nonneg hl0]
  have f1 := mul_le_mul_of_nonneg_left e1 hl0
  have f2 := mul_le_mul_of_nonneg_left e2 hl0
  linarith

/-- The parts of the two neighbours in the step. -/
noncomputable def forwardPart (a b : ℝ) : ℝ := (max |a| |b| - (a + b) / 2) / 2

noncomputable def backwardPart (a b : ℝ) : ℝ := (max |a| |b| + (a + b) / 2) / 2

theorem parts (a b : ℝ) (ha : |a| ≤ K) (hb : |b| ≤ K) : 0 ≤ forwardPart a b ∧ 0 ≤ backwardPart a b ∧
    forwardPart a b ≤ K ∧ backwardPart a b ≤ K ∧ forwardPart a b + backwardPart a b ≤ K := by
  unfold forwardPart backwardPart
  obtain ⟨-, -, h1, h2⟩ := max_bounds a b
  have h3 := max_le ha hb
  refine ⟨?_, ?_, ?_, ?_, ?_⟩ <;> linarith

theorem parts_step (lam x y z : ℝ) : y + lam * (FE.nodeFlux .burgers x y - FE.nodeFlux .burgers y z) =
    y + lam * forwardPart y z * (z - y) + lam * backwardPart x y * (x - y) := by
  rw [burgers_node, burgers_node]
  unfold forwardPart backwardPart
  ring

theorem bar_range (lam x y z m M : ℝ) (hl0 : 0 ≤ lam) (hl : lam * (2 * K) ≤ 1) (hKm : -K ≤ m) (hKM : M ≤ K)
    (hx : m ≤ x ∧ x ≤ M) (hy : m ≤ y ∧ y ≤ M) (hz : m ≤ z ∧ z ≤ M) :
    m ≤ y + lam * (FE.nodeFlux .burgers x y - FE.nodeFlux .burgers y z) ∧
      y + lam * (FE.nodeFlux .burgers x y - FE.nodeFlux .burgers y z) ≤ M := by
  rw [parts_step]
  have hb : ∀ a, m ≤ a ∧ a ≤ M → |a| ≤ K := fun a h => _root_.abs_le.2 ⟨by linarith [h.1], by linarith [h.2]⟩
  obtain ⟨f0, -, f1, -⟩ := parts y z (hb y hy) (hb z hz)
  obtain ⟨-, b0, -, b1, -⟩ := parts x y (hb x hx) (hb y hy)
  have h1 := mul_le_mul_of_nonneg_left (add_le_add f1 b1) hl0
  have g1 := mul_nonneg hl0 f0
  have g2 := mul_nonneg hl0 b0
  have g3 : lam * forwardPart y z + lam * backwardPart x y ≤ 1 := by linarith
  generalize lam * forwardPart y z = α at *
  generalize lam * backwardPart x y = β at *
  constructor
  · nlinarith [mul_nonneg g1 (by linarith [hz.1] : 0 ≤ z - m), mul_nonneg g2 (by linarith [hx.1] : 0 ≤ x - m),
      mul_nonneg (by linarith : 0 ≤ 1 - α - β) (by linarith [hy.1] : 0 ≤ y - m)]
  · nlinarith [mul_nonneg g1 (by linarith [hz.2] : 0 ≤ M - z), mul_nonneg g2 (by linarith [hx.2] : 0 ≤ M - x),
      mul_nonneg (by linarith : 0 ≤ 1 - α - β) (by linarith [hy.2] : 0 ≤ M - y)]

/-- The jump between two new values. -/
theorem bar_jump (lam x y z w : ℝ) (hl0 : 0 ≤ lam) (hl : lam * (2 * K) ≤ 1) (hy : |y| ≤ K) (hz : |z| ≤ K)
    (hx : |x| ≤ K) (hw : |w| ≤ K) :
    |z + lam * (FE.nodeFlux .burgers y z - FE.nodeFlux .burgers z w) -
        (y + lam * (FE.nodeFlux .burgers x y - FE.nodeFlux .burgers y z))| ≤
      |z - y| + lam * (forwardPart z w * |w - z| - forwardPart y z * |z - y|) +
        lam * (backwardPart x y * |y - x| - backwardPart y z * |z - y|) := by
  rw [parts_step, parts_step]
  obtain ⟨f0, b0, -, -, fb⟩ := parts y z hy hz
  obtain ⟨f1, -⟩ := parts z w hz hw
  obtain ⟨-, b1, -⟩ := parts x y hx hy
  have hK : 0 ≤ K := (abs_nonneg _).trans hx
  have h1 : 0 ≤ 1 - lam * (forwardPart y z + backwardPart y z) := by
    have := mul_le_mul_of_nonneg_left fb hl0
    have := mul_nonneg hl0 hK
    linarith
  have e : z + lam * forwardPart z w * (w - z) + lam * backwardPart y z * (y - z) -
      (y + lam * forwardPart y z * (z - y) + lam * backwardPart x y * (x - y)) =
      (1 - lam * (forwardPart y z + backwardPart y z)) * (z - y) +
        (lam * forwardPart z w * (w - z) + lam * backwardPart x y * (y - x)) := by ring
  rw [e]
  refine ((abs_add_le _ _).trans (add_le_add le_rfl (abs_add_le _ _))).trans (le_of_eq ?_)
  rw [abs_mul, abs_mul (lam * forwardPart z w), abs_mul (lam * backwardPart x y), abs_of_nonneg h1,
    abs_of_nonneg (mul_nonneg hl0 f1), abs_of_nonneg (mul_nonneg hl0 b1)]
  ring

theorem bar_jumps {lam : ℝ} (hl0 : 0 ≤ lam) (hl : lam * (2 * K) ≤ 1) {n : ℕ} (g : ℕ → Fin n)
    (hmid : ∀ i : Fin n, g (i + 1) = i) (h0 : g n = g 0) (h1 : g (n + 1) = g 1) (u : Fin n → ℝ) (hu : ∀ i, |u i| ≤ K) :
    jumps g (cellMap (FE.nodeFlux .burgers) lam g u) ≤ jumps g u := by
  unfold jumps
  rw [moved_cell g hmid h0 h1]
  set v := moved g u with hv
  unfold distance
  set C : ℕ → ℝ := fun j => forwardPart (u (g (j + 1))) (v (g (j + 1))) * |v (g (j + 1)) - u (g (j + 1))| with hC
  set D : ℕ → ℝ := fun j => backwardPart (u (g j)) (u (g (j + 1))) * |u (g (j + 1)) - u (g j)| with hD
  have key : ∀ i : Fin n, |cellMap (FE.nodeFlux .burgers) lam g v i - cellMap (FE.nodeFlux .burgers) lam g u i| ≤
      |v i - u i| + lam * (D i - D (i + 1)) - lam * (C i - C (i + 1)) := by
    intro i
    have hi := i.2
    have e0 : v (g i) = u (g (i + 1)) := by
      have := next_cell g hmid h0 h1 i (by omega)
      rw [if_neg (by omega)] at this
      simp only [hv, moved, this]
    have e1 : v (g (i + 1)) = u (g (i + 2)) := by rw [hmid i]; rfl
    have e2 : v i = u (g (i + 2)) := rfl
    have := bar_jump lam (u (g i)) (u (g (i + 1))) (u (g (i + 2))) (v (g (i + 2))) hl0 hl (hu _) (hu _) (hu _) (hu _)
    simp only [cellMap, hC, hD]
    rw [e0, e1, e2]
    have e3 : u i = u (g (i + 1)) := by rw [hmid i]
    rw [e3]
    refine this.trans (le_of_eq ?_)
    ring
  refine (Finset.sum_le_sum fun i _ => key i).trans (le_of_eq ?_)
  rw [Finset.sum_sub_distrib, Finset.sum_add_distrib, ← Finset.mul_sum, ← Finset.mul_sum,
    sum_flux n C (by simp only [hC, h1, zero_add]), sum_flux n D (by simp only [hD, h0, h1, zero_add])]
  ring

end Bounded

/-! ### Both equations -/

/-- The largest speed of states with absolute values up to `K`. -/
noncomputable def elementTop (p : Problem) (K : ℝ) : ℝ := match p with
  | .advection => 1
  | .burgers => K

/-- The number of the condition on the time steps. -/
noncomputable def elementStep (p : Problem) (K : ℝ) : ℝ := match p with
  | .advection => 1
  | .burgers => 2 * K

theorem advection_node (x y : ℝ) : FE.nodeFlux .advection x y = x := by
  unfold FE.nodeFlux FE.absSpeed
  simp only [Problem.flux, Problem.fluxPrime, abs_one, max_self]
  ring

theorem node_slope (p : Problem) {m M K : ℝ} (hK : 0 ≤ K) (hm : -K ≤ m) (hM : M ≤ K) :
    Slope p.flux m M (elementTop p K) := by
  cases p with
  | advection => exact ⟨zero_le_one, fun a b _ _ => by simp [elementTop, Problem.flux]⟩
  | burgers =>
    refine ⟨hK, fun a b ha hb => ?_⟩
    simp only [elementTop, Problem.flux]
    have e : 1 / 2 * a ^ 2 - 1 / 2 * b ^ 2 = (a + b) / 2 * (a - b) := by ring
    rw [e, abs_mul]
    refine mul_le_mul_of_nonneg_right ?_ (abs_nonneg _)
    rw [_root_.abs_le]
    constructor <;> linarith [ha.1, ha.2, hb.1, hb.2]

/-- The scheme has a numerical entropy flux. -/
theorem node_scheme (p : Problem) {m M K : ℝ} (hK : 0 ≤ K) (hm : -K ≤ m) (hM : M ≤ K) :
    ∃ H, Scheme p.flux (FE.nodeFlux p) H m M (elementTop p K) (elementStep p K) := by
  have hb : ∀ a, m ≤ a ∧ a ≤ M → |a| ≤ K := fun a h => _root_.abs_le.2 ⟨by linarith [h.1], by linarith [h.2]⟩
  have hs := node_slope p hK hm hM
  cases p with
  | advection =>
    refine ⟨_, TwoPoint.scheme (c := 1) ⟨hs, le_rfl, fun a => ?_, fun a b _ _ => ?_, fun a b _ _ => ?_,
      fun lam h0 h1 x y z x' y' z' hx hy hz => ?_⟩⟩
    · simp [advection_node, Problem.flux]
    · rw [advection_node, advection_node]
      simpa [elementTop] using abs_nonneg _
    · rw [advection_node, advection_node]
      simp [elementTop]
    · simp only [advection_node]
      nlinarith [mul_le_mul_of_nonneg_left hx.2.1 h0]
  | burgers =>
    refine ⟨barFlux, hs, ?_, fun a b ha hb' => (burgers_near a b (hb a ha) (hb b hb')).1,
      fun a b ha hb' => (burgers_near a b (hb a ha) (hb b hb')).2, fun k a b hk ha hb' => ?_,
      fun h0 h1 n g hmid u hu i => bar_range _ _ _ _ m M h0 h1 hm hM (hu _) (hu _) (hu _),
      fun h0 h1 n g hmid e0 e1 u hu => bar_jumps h0 h1 g hmid e0 e1 u fun i => hb _ (hu i),
      fun {lam} h0 h1 n g hmid k hk w hw i => ?_⟩
    · simp only [elementTop, elementStep]; linarith
    · unfold barFlux
      have h1 := hs.kruzhkov k b a hk hb' ha
      have h2 := abs_abs_sub_abs_le (b - k) (a - k)
      rw [show b - k - (a - k) = b - a by ring] at h2
      have h3 := max_le (hb a ha) (hb b hb')
      have h4 : 0 ≤ max |a| |b| := (abs_nonneg a).trans (le_max_left _ _)
      simp only [elementTop] at h1 ⊢
      have e : (kruzhkovFlux Problem.burgers.flux k a + kruzhkovFlux Problem.burgers.flux k b) / 2 -
          max |a| |b| / 2 * (|b - k| - |a - k|) - kruzhkovFlux Problem.burgers.flux k a =
          (kruzhkovFlux Problem.burgers.flux k b - kruzhkovFlux Problem.burgers.flux k a) / 2 -
            max |a| |b| * (|b - k| - |a - k|) / 2 := by ring
      rw [e]
      refine (abs_sub _ _).trans ?_
      rw [abs_div, abs_div, abs_mul, abs_of_nonneg h4, abs_two]
      have h5 := mul_le_mul h3 h2 (abs_nonneg _) hK
      linarith
    · have := bar_step lam k (w (g i)) (w (g (i + 1))) (w (g (i + 2))) h0 h1 (hb _ (hw _)) (hb _ (hw _)) (hb _ (hw _))
      unfold nodeFlux cellMap
      rw [show w i = w (g (i + 1)) by rw [hmid i]]
      exact this

/-! ### The right-hand side -/

/-- The nodes around the circle. -/
def aroundNode (n : ℕ) (hn : 0 < n) (i : ℕ) : Fin n := ⟨(i + n - 1) % n, Nat.mod_lt _ hn⟩

theorem aroundNode_mid (n : ℕ) (hn : 0 < n) (i : Fin n) : aroundNode n hn (i + 1) = i := by
  refine Fin.ext ?_
  simp only [aroundNode]
  rw [show (i : ℕ) + 1 + n - 1 = i + n by omega, Nat.add_mod_right, Nat.mod_eq_of_lt i.2]

theorem aroundNode_ends (n : ℕ) (hn : 0 < n) :
    aroundNode n hn n = aroundNode n hn 0 ∧ aroundNode n hn (n + 1) = aroundNode n hn 1 := by
  constructor <;> refine Fin.ext ?_ <;> simp only [aroundNode]
  · rw [show n + n - 1 = (0 + n - 1) + n by omega, Nat.add_mod_right]
  · rw [show n + 1 + n - 1 = (1 + n - 1) + n by omega, Nat.add_mod_right]

theorem node_system {gauss d n s m C} (h : FE.Setup gauss d n 1 s m C) (h3 : 3 ≤ n) (p : Problem) (hn : 0 < n) (dt t : ℝ)
    (u : Fin n → ℝ) :
    ∃ w, vecRhs n (fun _ => FE.lowRhs p m C) t u = .ok w ∧
      u + dt • w = cellMap (FE.nodeFlux p) (dt / ((d.b - d.a) / n)) (aroundNode n hn) u := by
  have e := FE.C112_flux h h3 p (List.ofFn u) (by simp)
  have hget : ∀ j (hj : j < n), (List.ofFn u).getD j 0 = u ⟨j, hj⟩ := fun j hj => by
    rw [List.getD_eq_getElem _ _ (by simpa using hj), List.getElem_ofFn]
  refine ⟨fun i => 1 / ((d.b - d.a) / n) * (FE.nodeFlux p (u (aroundNode n hn i)) (u i) -
    FE.nodeFlux p (u i) (u (aroundNode n hn (i + 2)))), ?_, ?_⟩
  · unfold vecRhs
    dsimp only
    rw [e]
    simp only [List.length_map, List.length_range, dite_true]
    congr 1
    funext i
    rw [List.getElem_map, List.getElem_range, hget _ (Nat.mod_lt _ hn), hget _ i.2, hget _ (Nat.mod_lt _ hn)]
    have e2 : (⟨((i : ℕ) + 1) % n, Nat.mod_lt _ hn⟩ : Fin n) = aroundNode n hn (i + 2) := by
      refine Fin.ext ?_
      simp only [aroundNode]
      rw [show (i : ℕ) + 2 + n - 1 = i + 1 + n by omega, Nat.add_mod_right]
    rw [e2]
    rfl
  · funext i
    unfold cellMap
    rw [aroundNode_mid n hn i]
    simp only [Pi.add_apply, Pi.smul_apply, smul_eq_mul]
    ring

end Verif.EntropyLimit
