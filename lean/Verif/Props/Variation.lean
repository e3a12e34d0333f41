import Verif.Props.Scalar
import Verif.Core.Translation
import Verif.Props.Symmetry

/-!
Properties C90 and C91: total variation, monotonicity and energy of the schemes for scalar equations.

`lfFlux`, `Admissible`, `lf_rhs` and `box` are those of C28.
-/

set_option linter.unusedSectionVars false

namespace Verif.Scalar

open Verif.Py Verif.Boundary Verif.FV Verif.ODE

variable {K : Type*} [Field K] [LinearOrder K] [IsStrictOrderedRing K]

/-! ### Specification -/

/-- The total variation of a list of values: the sum of the absolute differences of neighbours. -/
def variation : List K → K
  | [] => 0
  | [_] => 0
  | x :: y :: l => |y - x| + variation (y :: l)

/-- The total variation around a circle: the first value follows the last one. -/
def cyclicVariation (l : List K) : K := variation (l ++ l.take 1)

/-! ### Helper lemmas -/

theorem variation_eq (l : List K) :
    variation l = ∑ j ∈ Finset.range (l.length - 1), |l.getD (j + 1) 0 - l.getD j 0| := by
  induction l with
  | nil => simp [variation]
  | cons x l ih =>
    cases l with
    | nil => simp [variation]
    | cons y l =>
      simp only [variation, ih, List.length_cons, Nat.add_sub_cancel]
      rw [Finset.sum_range_succ']
      simp only [List.getD_cons_succ, List.getD_cons_zero]
      rw [add_comm]

theorem cyclicVariation_eq (l : List K) (n : ℕ) (hn : l.length = n) (h0 : 0 < n) :
    cyclicVariation l = ∑ j ∈ Finset.range n, |l.getD ((j + 1) % n) 0 - l.getD (j % n) 0| := by
  have hlen : (l ++ l.take 1).length = n + 1 := by
    simp [hn]; omega
  rw [cyclicVariation, variation_eq, hlen, Nat.add_sub_cancel]
  apply Finset.sum_congr rfl
  intro j hj
  rw [Finset.mem_range] at hj
  have e1 : (l ++ l.take 1).getD j 0 = l.getD j 0 := by
    rw [List.getD_append _ _ _ _ (by omega)]
  have e2 : (l ++ l.take 1).getD (j + 1) 0 = l.getD ((j + 1) % n) 0 := by
    by_cases h : j + 1 < n
    · rw [List.getD_append _ _ _ _ (by omega), Nat.mod_eq_of_lt h]
    · have : j + 1 = n := by omega
      rw [this, Nat.mod_self, List.getD_append_right _ _ _ _ (by omega), hn, Nat.sub_self]
      cases l with
      | nil => simp at hn; omega
      | cons x l => simp
  rw [e1, e2, Nat.mod_eq_of_lt hj]

/-- The two parts of the jump at a node that leave to the right and to the left. -/
theorem split_abs (a d g : K) (ha : 0 ≤ a) (h : |g| ≤ a * |d|) :
    |(a * d - g) / 2| + |(a * d + g) / 2| = a * |d| ∧ (0 ≤ d → 0 ≤ a * d - g ∧ 0 ≤ a * d + g) ∧
      (d ≤ 0 → a * d - g ≤ 0 ∧ a * d + g ≤ 0) := by
  obtain ⟨h1, h2⟩ := abs_le.mp h
  have hp : 0 ≤ d → 0 ≤ a * d - g ∧ 0 ≤ a * d + g := by
    intro hd
    rw [abs_of_nonneg hd] at h1 h2
    exact ⟨by linarith, by linarith⟩
  have hm : d ≤ 0 → a * d - g ≤ 0 ∧ a * d + g ≤ 0 := by
    intro hd
    rw [abs_of_nonpos hd] at h1 h2
    exact ⟨by linarith, by linarith⟩
  refine ⟨?_, hp, hm⟩
  rcases le_total 0 d with hd | hd
  · obtain ⟨c1, c2⟩ := hp hd
    rw [abs_of_nonneg (by linarith), abs_of_nonneg (by linarith), abs_of_nonneg hd]
    ring
  · obtain ⟨c1, c2⟩ := hm hd
    rw [abs_of_nonpos (by linarith), abs_of_nonpos (by linarith), abs_of_nonpos hd]
    ring

/-- The part of a jump that moves to the cell on the left of the node. -/
def moveLeft (p : Problem) (x y : K) : K := (p.speed x y * (y - x) - (p.flux y - p.flux x)) / 2

/-- The part of a jump that moves to the cell on the right of the node. -/
def moveRight (p : Problem) (x y : K) : K := (p.speed x y * (y - x) + (p.flux y - p.flux x)) / 2

/-- A forward Euler step of the Lax-Friedrichs scheme in one cell with value `y`. -/
def eulerCell (p : Problem) (lam x y z : K) : K := y + lam * (lfFlux p x y - lfFlux p y z)

theorem eulerCell_eq (p : Problem) (lam x y z : K) :
    eulerCell p lam x y z = y - lam * moveRight p x y + lam * moveLeft p y z := by
  unfold eulerCell lfFlux llf moveRight moveLeft
  ring

theorem moves_abs (p : Problem) (x y : K) (h : Admissible p x y) :
    |moveLeft p x y| + |moveRight p x y| = p.speed x y * |y - x| :=
  (split_abs _ _ _ h.1.le h.2).1

theorem jump_eq (p : Problem) (lam x y z q : K) :
    eulerCell p lam y z q - eulerCell p lam x y z = (1 - lam * p.speed y z) * (z - y) +
      lam * moveRight p x y + lam * moveLeft p z q := by
  rw [eulerCell_eq, eulerCell_eq]
  unfold moveRight moveLeft
  ring

/-- The jump between two neighbouring cells after the step. -/
theorem jump_abs (p : Problem) (lam x y z q : K) (h0 : 0 ≤ lam) (h : Admissible p y z)
    (hc : lam * p.speed y z ≤ 1) :
    |eulerCell p lam y z q - eulerCell p lam x y z| ≤
      |z - y| - lam * (|moveLeft p y z| + |moveRight p y z|) + lam * |moveRight p x y| +
        lam * |moveLeft p z q| := by
  rw [jump_eq, moves_abs p y z h]
  calc _ ≤ |(1 - lam * p.speed y z) * (z - y)| + |lam * moveRight p x y| + |lam * moveLeft p z q| :=
        abs_add_three _ _ _
    _ = _ := by
        rw [abs_mul, abs_mul, abs_mul, abs_of_nonneg (by linarith : 0 ≤ 1 - lam * p.speed y z),
          abs_of_nonneg h0]
        ring

/-- Signs of the jumps. -/
theorem jump_nonneg (p : Problem) (lam x y z q : K) (h0 : 0 ≤ lam) (hxy : Admissible p x y)
    (hzq : Admissible p z q) (hc : lam * p.speed y z ≤ 1) :
    (x ≤ y → y ≤ z → z ≤ q → eulerCell p lam x y z ≤ eulerCell p lam y z q) ∧
    (y ≤ x → z ≤ y → q ≤ z → eulerCell p lam y z q ≤ eulerCell p lam x y z) := by
  obtain ⟨_, a1, a2⟩ := split_abs _ _ _ hxy.1.le hxy.2
  obtain ⟨_, c1, c2⟩ := split_abs _ _ _ hzq.1.le hzq.2
  have e := jump_eq p lam x y z q
  have hc' : 0 ≤ 1 - lam * p.speed y z := by linarith
  constructor
  · intro h1 h2 h3
    have m1 : 0 ≤ lam * moveRight p x y := mul_nonneg h0 (by
      have := (a1 (by linarith)).2; unfold moveRight; linarith)
    have m2 : 0 ≤ lam * moveLeft p z q := mul_nonneg h0 (by
      have := (c1 (by linarith)).1; unfold moveLeft; linarith)
    have m3 : 0 ≤ (1 - lam * p.speed y z) * (z - y) := mul_nonneg hc' (by linarith)
    linarith
  · intro h1 h2 h3
    have m1 : 0 ≤ lam * (-moveRight p x y) := mul_nonneg h0 (by
      have := (a2 (by linarith)).2; unfold moveRight; linarith)
    have m2 : 0 ≤ lam * (-moveLeft p z q) := mul_nonneg h0 (by
      have := (c2 (by linarith)).1; unfold moveLeft; linarith)
    have m3 : 0 ≤ (1 - lam * p.speed y z) * (y - z) := mul_nonneg hc' (by linarith)
    linarith

/-- The scheme along a sequence of values: variation of the `n` new cell values. -/
theorem sequence_step (p : Problem) (lam : K) (h0 : 0 ≤ lam) (e : ℕ → K) (n : ℕ)
    (hadm : ∀ j < n + 2, Admissible p (e j) (e (j + 1)))
    (hc : ∀ j < n + 2, lam * p.speed (e j) (e (j + 1)) ≤ 1) :
    ∑ j ∈ Finset.range n, |eulerCell p lam (e (j + 1)) (e (j + 2)) (e (j + 3)) -
        eulerCell p lam (e j) (e (j + 1)) (e (j + 2))| ≤
      ∑ j ∈ Finset.range n, |e (j + 2) - e (j + 1)| +
        lam * |moveRight p (e 0) (e 1)| - lam * |moveRight p (e n) (e (n + 1))| +
        lam * |moveLeft p (e (n + 1)) (e (n + 2))| - lam * |moveLeft p (e 1) (e 2)| := by
  induction n with
  | zero => simp
  | succ n ih =>
    have ih := ih (fun j hj => hadm j (by omega)) (fun j hj => hc j (by omega))
    rw [Finset.sum_range_succ, Finset.sum_range_succ]
    have := jump_abs p lam (e n) (e (n + 1)) (e (n + 2)) (e (n + 3)) h0 (hadm (n + 1) (by omega))
      (hc (n + 1) (by omega))
    have e1 : n + 1 + 1 = n + 2 := rfl
    have e2 : n + 1 + 2 = n + 3 := rfl
    rw [e1, e2]
    linarith

/-- The entries of a forward Euler step. -/
theorem euler_getD (p : Problem) (dx dt : K) (ext : List K) (n : ℕ) (v : List K)
    (hv : v.length = n) (hcell : ∀ i < n, ext.getD (i + 1) 0 = v.getD i 0) (w : List K)
    (hw : w = (List.range n).map (fun i => (1 / dx) *
      (lfFlux p (ext.getD i 0) (ext.getD (i + 1) 0) -
        lfFlux p (ext.getD (i + 1) 0) (ext.getD (i + 2) 0)))) (i : ℕ) (hi : i < n) :
    (List.zipWith (fun x k => x + dt * k) v w).getD i 0 =
      eulerCell p (dt / dx) (ext.getD i 0) (ext.getD (i + 1) 0) (ext.getD (i + 2) 0) := by
  have hwl : w.length = n := by rw [hw]; simp
  rw [List.getD_eq_getElem _ _ (by simp; omega), List.getElem_zipWith]
  have h1 : v[i]'(by omega) = ext.getD (i + 1) 0 := by
    rw [hcell i hi, List.getD_eq_getElem]
  have h2 : w[i]'(by omega) = w.getD i 0 := (List.getD_eq_getElem _ _ _).symm
  rw [h1, h2, hw, range_map_getD _ _ _ hi]
  unfold eulerCell
  rw [← mul_assoc, mul_one_div]

/-- The extended vector of any boundary conditions of radius 1 contains the cells in the middle. -/
theorem extend_middle (bc : BC K K) (t : K) (v ext : List K) (n : ℕ) (hv : v.length = n)
    (hl : bc.left.length = 1) (hr : bc.right.length = 1)
    (hext : bc.extend v (some t) = .ok ext) :
    ext.length = n + 2 ∧ ∀ i < n, ext.getD (i + 1) 0 = v.getD i 0 := by
  unfold BC.extend at hext
  cases hL : bc.left.mapM (fun c => c.eval v (some t)) with
  | error e => rw [hL] at hext; cases hext
  | ok a =>
    cases hR : bc.right.mapM (fun c => c.eval v (some t)) with
    | error e => rw [hL, hR] at hext; cases hext
    | ok b =>
      rw [hL, hR] at hext
      have hext := Except.ok.inj hext
      have la := (List.Forall₂.length_eq ((mapM_iff_forall₂ _ _ _).mp hL)).symm
      have lb := (List.Forall₂.length_eq ((mapM_iff_forall₂ _ _ _).mp hR)).symm
      rw [hl] at la
      rw [hr] at lb
      obtain ⟨a0, rfl⟩ := List.length_eq_one_iff.mp la
      obtain ⟨b0, rfl⟩ := List.length_eq_one_iff.mp lb
      subst hext
      refine ⟨by simp; omega, ?_⟩
      intro i hi
      simp only [List.cons_append, List.nil_append, List.getD_cons_succ]
      rw [List.getD_append _ _ _ _ (by omega)]

/-! ### C90: one step -/

/-- C90, one step with any boundary conditions: if the time step times each wave speed is at most
the cell width, the total variation of the cells after a forward Euler step is at most the total
variation of the cells and the two ghost cells before it. -/
theorem C90_step (p : Problem) (dx dt : K) (hdx : 0 < dx) (hdt : 0 ≤ dt)
    (bc : BC K K) (hl : bc.left.length = 1) (hr : bc.right.length = 1) (t : K) (v ext : List K)
    (hext : bc.extend v (some t) = .ok ext)
    (hadm : ∀ j < v.length + 1, Admissible p (ext.getD j 0) (ext.getD (j + 1) 0))
    (hcfl : ∀ j < v.length + 1, dt * p.speed (ext.getD j 0) (ext.getD (j + 1) 0) ≤ dx) :
    ∃ w, rhs (laxFriedrichs p.riemann) dx bc t v = .ok w ∧ w.length = v.length ∧
      variation (List.zipWith (fun x k => x + dt * k) v w) ≤ variation ext := by
  obtain ⟨hlen, hcell⟩ := extend_middle bc t v ext v.length rfl hl hr hext
  refine ⟨_, lf_rhs p dx hdx.ne' bc t v ext hext v.length hlen (fun j hj => (hadm j hj).1),
    by simp, ?_⟩
  rw [variation_eq, variation_eq, hlen]
  simp only [List.length_zipWith, List.length_map, List.length_range, min_self]
  set n := v.length with hn
  rcases Nat.eq_zero_or_pos n with hz | hpos
  · rw [hz]
    simp only [Nat.zero_sub, Finset.range_zero, Finset.sum_empty]
    exact Finset.sum_nonneg (fun _ _ => abs_nonneg _)
  obtain ⟨m, hm⟩ : ∃ m, n = m + 1 := ⟨n - 1, by omega⟩
  have hlam : 0 ≤ dt / dx := by positivity
  have hc : ∀ j < m + 2, dt / dx * p.speed (ext.getD j 0) (ext.getD (j + 1) 0) ≤ 1 := by
    intro j hj
    rw [div_mul_eq_mul_div, div_le_one hdx]
    exact hcfl j (by omega)
  have key := sequence_step p (dt / dx) hlam (fun j => ext.getD j 0) m
    (fun j hj => hadm j (by omega)) hc
  have hsum : ∑ j ∈ Finset.range (n - 1),
      |(List.zipWith (fun x k => x + dt * k) v ((List.range n).map (fun i => (1 / dx) *
          (lfFlux p (ext.getD i 0) (ext.getD (i + 1) 0) -
            lfFlux p (ext.getD (i + 1) 0) (ext.getD (i + 2) 0))))).getD (j + 1) 0 -
        (List.zipWith (fun x k => x + dt * k) v ((List.range n).map (fun i => (1 / dx) *
          (lfFlux p (ext.getD i 0) (ext.getD (i + 1) 0) -
            lfFlux p (ext.getD (i + 1) 0) (ext.getD (i + 2) 0))))).getD j 0| =
      ∑ j ∈ Finset.range m, |eulerCell p (dt / dx) (ext.getD (j + 1) 0) (ext.getD (j + 2) 0)
        (ext.getD (j + 3) 0) -
        eulerCell p (dt / dx) (ext.getD j 0) (ext.getD (j + 1) 0) (ext.getD (j + 2) 0)| := by
    rw [hm, Nat.add_sub_cancel]
    apply Finset.sum_congr rfl
    intro j hj
    rw [Finset.mem_range] at hj
    rw [← hm, euler_getD p dx dt ext n v rfl hcell _ rfl (j + 1) (by omega),
      euler_getD p dx dt ext n v rfl hcell _ rfl j (by omega)]
  rw [hsum, hm, show m + 1 + 2 - 1 = m + 2 from rfl, Finset.sum_range_succ, Finset.sum_range_succ']
  have b1 : dt / dx * |moveRight p (ext.getD 0 0) (ext.getD 1 0)| ≤ |ext.getD 1 0 - ext.getD 0 0| := by
    have h1 := moves_abs p _ _ (hadm 0 (by omega))
    have h2 := mul_le_mul_of_nonneg_right (hc 0 (by omega)) (abs_nonneg (ext.getD 1 0 - ext.getD 0 0))
    have h3 := abs_nonneg (moveLeft p (ext.getD 0 0) (ext.getD 1 0))
    have h4 : |moveRight p (ext.getD 0 0) (ext.getD 1 0)| ≤
        p.speed (ext.getD 0 0) (ext.getD 1 0) * |ext.getD 1 0 - ext.getD 0 0| := by
      simp only [Nat.zero_add] at h1
      linarith
    have h5 := mul_le_mul_of_nonneg_left h4 hlam
    simp only [Nat.zero_add] at h2
    linarith
  have b2 : dt / dx * |moveLeft p (ext.getD (m + 1) 0) (ext.getD (m + 2) 0)| ≤
      |ext.getD (m + 2) 0 - ext.getD (m + 1) 0| := by
    have h1 := moves_abs p _ _ (hadm (m + 1) (by omega))
    have h2 := mul_le_mul_of_nonneg_right (hc (m + 1) (by omega))
      (abs_nonneg (ext.getD (m + 2) 0 - ext.getD (m + 1) 0))
    have h3 := abs_nonneg (moveRight p (ext.getD (m + 1) 0) (ext.getD (m + 2) 0))
    have h4 : |moveLeft p (ext.getD (m + 1) 0) (ext.getD (m + 2) 0)| ≤
        p.speed (ext.getD (m + 1) 0) (ext.getD (m + 2) 0) *
          |ext.getD (m + 2) 0 - ext.getD (m + 1) 0| := by
      rw [show m + 1 + 1 = m + 2 from rfl] at h1
      linarith
    have h5 := mul_le_mul_of_nonneg_left h4 hlam
    rw [show m + 1 + 1 = m + 2 from rfl] at h2
    linarith
  have n1 : 0 ≤ dt / dx * |moveRight p (ext.getD m 0) (ext.getD (m + 1) 0)| := by positivity
  have n2 : 0 ≤ dt / dx * |moveLeft p (ext.getD 1 0) (ext.getD 2 0)| := by positivity
  simp only [Nat.zero_add] at key ⊢
  linarith

/-- C90, one step on a periodic mesh: the variation around the circle does not grow. -/
theorem C90_step_periodic (p : Problem) (dx dt : K) (hdx : 0 < dx) (hdt : 0 ≤ dt)
    (wall : Option (K → K)) (il ir : Option (K → K)) (bc : BC K K)
    (hbc : build wall ["periodic"] 1 il ir = .ok bc) (t : K) (v : List K) (hv : v ≠ [])
    (hadm : ∀ i, Admissible p (v.getD (i % v.length) 0) (v.getD ((i + 1) % v.length) 0))
    (hcfl : ∀ i, dt * p.speed (v.getD (i % v.length) 0) (v.getD ((i + 1) % v.length) 0) ≤ dx) :
    ∃ w, rhs (laxFriedrichs p.riemann) dx bc t v = .ok w ∧ w.length = v.length ∧
      cyclicVariation (List.zipWith (fun x k => x + dt * k) v w) ≤ cyclicVariation v := by
  have hpos := List.length_pos_iff.mpr hv
  have he := periodic_extend wall 1 il ir bc hbc v (by omega) (some t)
  set n := v.length with hn
  set e : ℕ → K := fun j => v.getD ((j + n - 1) % n) 0 with hedef
  have hsucc : ∀ j, e (j + 1) = v.getD (j % n) 0 := by
    intro j
    simp only [hedef]
    rw [show j + 1 + n - 1 = j + n by omega, Nat.add_mod_right]
  have hper : ∀ j k, j % n = k % n → e j = e k := by
    intro j k hjk
    simp only [hedef]
    congr 1
    rw [show j + n - 1 = j + (n - 1) by omega, show k + n - 1 = k + (n - 1) by omega,
      Nat.add_mod, hjk, ← Nat.add_mod]
  have hadm' : ∀ j, Admissible p (e j) (e (j + 1)) := by
    intro j
    have := hadm (j + n - 1)
    rw [show j + n - 1 + 1 = j + n by omega, Nat.add_mod_right] at this
    rw [hsucc]
    exact this
  have hc' : ∀ j, dt / dx * p.speed (e j) (e (j + 1)) ≤ 1 := by
    intro j
    have := hcfl (j + n - 1)
    rw [show j + n - 1 + 1 = j + n by omega, Nat.add_mod_right] at this
    rw [hsucc, div_mul_eq_mul_div, div_le_one hdx]
    exact this
  set ext := (List.range (n + 2 * 1)).map e with hextdef
  have hlen : ext.length = n + 2 := by simp [hextdef]
  have hget : ∀ j < n + 2, ext.getD j 0 = e j := fun j hj => range_map_getD _ _ _ hj
  have hcell : ∀ i < n, ext.getD (i + 1) 0 = v.getD i 0 := by
    intro i hi
    rw [hget _ (by omega), hsucc, Nat.mod_eq_of_lt hi]
  refine ⟨_, lf_rhs p dx hdx.ne' bc t v ext he n hlen (fun j hj => ?_), by simp, ?_⟩
  · rw [hget j (by omega), hget (j + 1) (by omega)]
    exact (hadm' j).1
  set w := (List.range n).map (fun i => (1 / dx) *
      (lfFlux p (ext.getD i 0) (ext.getD (i + 1) 0) -
        lfFlux p (ext.getD (i + 1) 0) (ext.getD (i + 2) 0))) with hw
  rw [cyclicVariation_eq _ n (by simp [hw, ← hn]) hpos, cyclicVariation_eq v n rfl hpos]
  have hu : ∀ j, (List.zipWith (fun x k => x + dt * k) v w).getD (j % n) 0 =
      eulerCell p (dt / dx) (e j) (e (j + 1)) (e (j + 2)) := by
    intro j
    have hlt := Nat.mod_lt j hpos
    rw [euler_getD p dx dt ext n v rfl hcell w hw (j % n) hlt, hget _ (by omega),
      hget _ (by omega), hget _ (by omega), hper (j % n) j (Nat.mod_mod _ _),
      hper (j % n + 1) (j + 1) (Nat.mod_add_mod _ _ _), hper (j % n + 2) (j + 2) (Nat.mod_add_mod _ _ _)]
  simp only [hu, ← hsucc]
  have key := sequence_step p (dt / dx) (by positivity) e n (fun j _ => hadm' j) (fun j _ => hc' j)
  rw [hper n 0 (by simp), hper (n + 1) 1 (by rw [Nat.add_mod_left]),
    hper (n + 2) 2 (by rw [Nat.add_mod_left])] at key
  simp only [Nat.add_assoc, Nat.reduceAdd] at key ⊢
  linarith

/-! ### Runs -/

theorem ofFn_step {n : ℕ} (u : Fin n → K) (dt : K) (w : List K) (hw : w.length = n) :
    List.ofFn (u + dt • (fun i : Fin n => w.getD i 0)) =
      List.zipWith (fun x k => x + dt * k) (List.ofFn u) w := by
  apply List.ext_getElem
  · simp [hw]
  · intro i h1 h2
    simp only [List.getElem_ofFn, Pi.add_apply, Pi.smul_apply, smul_eq_mul, List.getElem_zipWith]
    rw [List.getD_eq_getElem]

theorem getD_ofFn_combo {n : ℕ} (u v : Fin n → K) (a b : K) (j : ℕ) :
    (List.ofFn (a • u + b • v)).getD j 0 =
      a * (List.ofFn u).getD j 0 + b * (List.ofFn v).getD j 0 := by
  by_cases hj : j < n
  · rw [List.getD_eq_getElem _ _ (by simpa using hj), List.getD_eq_getElem _ _ (by simpa using hj),
      List.getD_eq_getElem _ _ (by simpa using hj)]
    simp
  · rw [List.getD_eq_default _ _ (by simpa using hj), List.getD_eq_default _ _ (by simpa using hj),
      List.getD_eq_default _ _ (by simpa using hj)]
    simp

theorem abs_combo (a b x y x' y' : K) (ha : 0 ≤ a) (hb : 0 ≤ b) :
    |a * x + b * y - (a * x' + b * y')| ≤ a * |x - x'| + b * |y - y'| := by
  rw [show a * x + b * y - (a * x' + b * y') = a * (x - x') + b * (y - y') by ring]
  refine (abs_add_le _ _).trans ?_
  rw [abs_mul, abs_mul, abs_of_nonneg ha, abs_of_nonneg hb]

theorem variation_convex (n : ℕ) (C : K) :
    Convex K {u : Fin n → K | variation (List.ofFn u) ≤ C} := by
  intro u hu v hv a b ha hb hab
  simp only [Set.mem_setOf_eq, variation_eq, List.length_ofFn] at hu hv ⊢
  calc _ ≤ ∑ j ∈ Finset.range (n - 1), (a * |(List.ofFn u).getD (j + 1) 0 - (List.ofFn u).getD j 0| +
        b * |(List.ofFn v).getD (j + 1) 0 - (List.ofFn v).getD j 0|) := by
        apply Finset.sum_le_sum
        intro j _
        rw [getD_ofFn_combo, getD_ofFn_combo]
        exact abs_combo _ _ _ _ _ _ ha hb
    _ ≤ a * C + b * C := by
        rw [Finset.sum_add_distrib, ← Finset.mul_sum, ← Finset.mul_sum]
        exact add_le_add (mul_le_mul_of_nonneg_left hu ha) (mul_le_mul_of_nonneg_left hv hb)
    _ = C := by rw [← add_mul, hab, one_mul]

theorem cyclicVariation_convex (n : ℕ) (hn : 0 < n) (C : K) :
    Convex K {u : Fin n → K | cyclicVariation (List.ofFn u) ≤ C} := by
  intro u hu v hv a b ha hb hab
  simp only [Set.mem_setOf_eq, cyclicVariation_eq _ n List.length_ofFn hn] at hu hv ⊢
  calc _ ≤ ∑ j ∈ Finset.range n,
        (a * |(List.ofFn u).getD ((j + 1) % n) 0 - (List.ofFn u).getD (j % n) 0| +
        b * |(List.ofFn v).getD ((j + 1) % n) 0 - (List.ofFn v).getD (j % n) 0|) := by
        apply Finset.sum_le_sum
        intro j _
        rw [getD_ofFn_combo, getD_ofFn_combo]
        exact abs_combo _ _ _ _ _ _ ha hb
    _ ≤ a * C + b * C := by
        rw [Finset.sum_add_distrib, ← Finset.mul_sum, ← Finset.mul_sum]
        exact add_le_add (mul_le_mul_of_nonneg_left hu ha) (mul_le_mul_of_nonneg_left hv hb)
    _ = C := by rw [← add_mul, hab, one_mul]

theorem monotone_convex (n : ℕ) : Convex K {u : Fin n → K | Monotone u} := by
  intro u hu v hv a b ha hb _ i j hij
  simp only [Pi.add_apply, Pi.smul_apply, smul_eq_mul]
  exact add_le_add (mul_le_mul_of_nonneg_left (hu hij) ha) (mul_le_mul_of_nonneg_left (hv hij) hb)

theorem antitone_convex (n : ℕ) : Convex K {u : Fin n → K | Antitone u} := by
  intro u hu v hv a b ha hb _ i j hij
  simp only [Pi.add_apply, Pi.smul_apply, smul_eq_mul]
  exact add_le_add (mul_le_mul_of_nonneg_left (hu hij) ha) (mul_le_mul_of_nonneg_left (hv hij) hb)

/-- Values in a box are admissible and satisfy the step restriction. -/
theorem box_admissible (p : Problem) (m M dx dt : K) (hdt : 0 ≤ dt) (hm : p = .burgers → 0 < m)
    (d1 : p = .advection → dt ≤ dx) (d2 : p = .burgers → dt * M ≤ dx) (x y : K)
    (hx : m ≤ x ∧ x ≤ M) (hy : m ≤ y ∧ y ≤ M) :
    Admissible p x y ∧ dt * p.speed x y ≤ dx := by
  cases p with
  | advection =>
    refine ⟨admissible_advection x y, ?_⟩
    simpa [Problem.speed, Problem.waveSpeed, Problem.fluxPrime] using d1 rfl
  | burgers =>
    have h0 := hm rfl
    refine ⟨admissible_burgers x y (by linarith [hx.1]) (by linarith [hy.1]) (Or.inl (by linarith [hx.1])), ?_⟩
    simp only [Problem.speed, Problem.waveSpeed, Problem.fluxPrime]
    exact (mul_le_mul_of_nonneg_left (max_le hx.2 hy.2) hdt).trans (d2 rfl)

/-- A convex set that is kept by forward Euler steps within the range of the data is kept by runs. -/
theorem box_run (p : Problem) (n : ℕ) (hn : 0 < n) (wall : Option (K → K)) (il ir : Option (K → K))
    (bc : BC K K) (name : String) (hname : name = "periodic" ∨ name = "outflow")
    (hbc : build wall [name] 1 il ir = .ok bc) (dx : K) (hdx : 0 < dx) (m M : K)
    (hm : p = .burgers → 0 < m) (steps : List K)
    (hsteps : ∀ dt ∈ steps, 0 ≤ dt ∧ (p = .advection → dt ≤ dx) ∧ (p = .burgers → dt * M ≤ dx))
    (T : Tableau K) (hT : T = forwardEuler K ∨ T = heun K ∨ T = ssp3 K)
    (S : Set (Fin n → K)) (hS : Convex K S)
    (hstep : ∀ dt ∈ steps, ∀ t, ∀ u ∈ S, (∀ i, m ≤ u i ∧ u i ≤ M) → ∃ w,
      rhs (laxFriedrichs p.riemann) dx bc t (List.ofFn u) = .ok w ∧ w.length = n ∧
      u + dt • (fun i : Fin n => w.getD i 0) ∈ S)
    (s : Solver K (Fin n → K)) (hs : ∀ i, m ≤ s.solution i ∧ s.solution i ≤ M)
    (hsS : s.solution ∈ S) :
    ∃ s', s.runE T (vecRhs n (rhs (laxFriedrichs p.riemann) dx bc)) steps = .ok s' ∧
      s'.solution ∈ S := by
  obtain ⟨s', h1, h2⟩ := sspE_run (vecRhs n (rhs (laxFriedrichs p.riemann) dx bc)) (box n m M ∩ S)
    ((box_convex n m M).inter hS) steps (by
      intro dt hdt t u hu
      obtain ⟨w, w1, w2, w3⟩ := hstep dt hdt t u hu.2 hu.1
      refine ⟨_, vecRhs_ok _ t u w w1 w2, ?_, w3⟩
      obtain ⟨d0, d1, d2⟩ := hsteps dt hdt
      obtain ⟨w', r1, r2⟩ := lf_box_step p n hn wall il ir bc name hname hbc dx hdx m M hm dt d0 d1 d2
        t u hu.1
      rw [vecRhs_ok _ t u w w1 w2] at r1
      rw [Except.ok.inj r1]
      exact r2) s ⟨hs, hsS⟩ T hT
  exact ⟨s', h1, h2.2⟩

/-- C90, runs on a periodic mesh: with forward Euler, Heun or SSP3 and any number of steps with
`dt a ≤ dx`, where `a = 1` for advection and `a = M` for Burgers' equation with data in `[m, M]`,
`m > 0`, the total variation around the circle never exceeds that of the initial state. -/
theorem C90_run_periodic (p : Problem) (n : ℕ) (hn : 0 < n) (wall : Option (K → K))
    (il ir : Option (K → K)) (bc : BC K K) (hbc : build wall ["periodic"] 1 il ir = .ok bc)
    (dx : K) (hdx : 0 < dx) (m M : K) (hm : p = .burgers → 0 < m) (steps : List K)
    (hsteps : ∀ dt ∈ steps, 0 ≤ dt ∧ (p = .advection → dt ≤ dx) ∧ (p = .burgers → dt * M ≤ dx))
    (T : Tableau K) (hT : T = forwardEuler K ∨ T = heun K ∨ T = ssp3 K)
    (s : Solver K (Fin n → K)) (hs : ∀ i, m ≤ s.solution i ∧ s.solution i ≤ M) :
    ∃ s', s.runE T (vecRhs n (rhs (laxFriedrichs p.riemann) dx bc)) steps = .ok s' ∧
      cyclicVariation (List.ofFn s'.solution) ≤ cyclicVariation (List.ofFn s.solution) := by
  refine box_run p n hn wall il ir bc "periodic" (Or.inl rfl) hbc dx hdx m M hm steps hsteps T hT _
    (cyclicVariation_convex n hn (cyclicVariation (List.ofFn s.solution))) ?_ s hs le_rfl
  intro dt hdt t u hu hbox
  obtain ⟨d0, d1, d2⟩ := hsteps dt hdt
  have hmem : ∀ i, m ≤ (List.ofFn u).getD (i % (List.ofFn u).length) 0 ∧
      (List.ofFn u).getD (i % (List.ofFn u).length) 0 ≤ M := by
    intro i
    have hlt : i % (List.ofFn u).length < (List.ofFn u).length := Nat.mod_lt _ (by simpa using hn)
    rw [List.getD_eq_getElem _ _ hlt, List.getElem_ofFn]
    exact hbox _
  obtain ⟨w, w1, w2, w3⟩ := C90_step_periodic p dx dt hdx d0 wall il ir bc hbc t (List.ofFn u)
    (by intro h; have := congrArg List.length h; simp at this; omega)
    (fun i => (box_admissible p m M dx dt d0 hm d1 d2 _ _ (hmem i) (hmem (i + 1))).1)
    (fun i => (box_admissible p m M dx dt d0 hm d1 d2 _ _ (hmem i) (hmem (i + 1))).2)
  rw [List.length_ofFn] at w2
  refine ⟨w, w1, w2, ?_⟩
  rw [Set.mem_setOf_eq, ofFn_step u dt w w2]
  exact w3.trans hu

theorem variation_outflow (v : List K) (hv : v ≠ []) :
    variation (v.head hv :: v ++ [v.getLast hv]) = variation v := by
  rw [variation_eq, variation_eq]
  have hpos := List.length_pos_iff.mpr hv
  obtain ⟨m, hm⟩ : ∃ m, v.length = m + 1 := ⟨v.length - 1, by omega⟩
  simp only [List.cons_append, List.length_cons, List.length_append, List.length_nil, hm,
    Nat.add_sub_cancel]
  rw [show m + 1 + (0 + 1) = m + 2 from rfl, Finset.sum_range_succ, Finset.sum_range_succ']
  have h0 : (v ++ [v.getLast hv]).getD 0 0 = v.head hv := by
    rw [List.getD_append _ _ _ _ hpos, List.getD_eq_getElem _ _ hpos, List.head_eq_getElem]
  have h1 : (v ++ [v.getLast hv]).getD m 0 = v.getLast hv := by
    rw [List.getD_append _ _ _ _ (by omega), List.getD_eq_getElem _ _ (by omega),
      List.getLast_eq_getElem]
    simp [hm]
  have h2 : (v ++ [v.getLast hv]).getD (m + 1) 0 = v.getLast hv := by
    rw [List.getD_append_right _ _ _ _ (by omega), hm, Nat.sub_self]
    rfl
  simp only [List.getD_cons_succ, List.getD_cons_zero, h0, h1, h2, sub_self, abs_zero, add_zero]
  apply Finset.sum_congr rfl
  intro j hj
  rw [Finset.mem_range] at hj
  rw [List.getD_append _ _ _ _ (by omega), List.getD_append _ _ _ _ (by omega)]

/-- The extended vector of outflow boundary conditions. -/
theorem outflow_extend (wall : Option (K → K)) (il ir : Option (K → K)) (bc : BC K K)
    (hbc : build wall ["outflow"] 1 il ir = .ok bc) (v : List K) (hv : v ≠ []) (t : K) :
    bc.extend v (some t) = .ok (v.head hv :: v ++ [v.getLast hv]) := by
  obtain ⟨b, h1, h2⟩ := C20_outflow wall 1 il ir v hv (some t)
  rw [hbc] at h1
  cases h1
  simpa using h2

/-- C90, runs with outflow boundaries: the total variation of the cells never exceeds that of the
initial state. -/
theorem C90_run_outflow (p : Problem) (n : ℕ) (hn : 0 < n) (wall : Option (K → K))
    (il ir : Option (K → K)) (bc : BC K K) (hbc : build wall ["outflow"] 1 il ir = .ok bc)
    (dx : K) (hdx : 0 < dx) (m M : K) (hm : p = .burgers → 0 < m) (steps : List K)
    (hsteps : ∀ dt ∈ steps, 0 ≤ dt ∧ (p = .advection → dt ≤ dx) ∧ (p = .burgers → dt * M ≤ dx))
    (T : Tableau K) (hT : T = forwardEuler K ∨ T = heun K ∨ T = ssp3 K)
    (s : Solver K (Fin n → K)) (hs : ∀ i, m ≤ s.solution i ∧ s.solution i ≤ M) :
    ∃ s', s.runE T (vecRhs n (rhs (laxFriedrichs p.riemann) dx bc)) steps = .ok s' ∧
      variation (List.ofFn s'.solution) ≤ variation (List.ofFn s.solution) := by
  refine box_run p n hn wall il ir bc "outflow" (Or.inr rfl) hbc dx hdx m M hm steps hsteps T hT _
    (variation_convex n (variation (List.ofFn s.solution))) ?_ s hs le_rfl
  intro dt hdt t u hu hbox
  obtain ⟨d0, d1, d2⟩ := hsteps dt hdt
  have hv : List.ofFn u ≠ [] := by
    intro h; have := congrArg List.length h; simp at this; omega
  have hext := outflow_extend wall il ir bc hbc (List.ofFn u) hv t
  have hmem : ∀ x ∈ (List.ofFn u).head hv :: List.ofFn u ++ [(List.ofFn u).getLast hv],
      m ≤ x ∧ x ≤ M := by
    have h1 : ∀ x ∈ List.ofFn u, m ≤ x ∧ x ≤ M := by
      intro x hx
      obtain ⟨i, rfl⟩ := (List.mem_ofFn' _ _).mp hx
      exact hbox i
    intro x hx
    simp only [List.cons_append, List.mem_cons, List.mem_append, List.not_mem_nil, or_false] at hx
    rcases hx with rfl | hx | rfl
    · exact h1 _ (List.head_mem hv)
    · exact h1 _ hx
    · exact h1 _ (List.getLast_mem hv)
  have hget : ∀ j < n + 2, m ≤ ((List.ofFn u).head hv :: List.ofFn u ++
      [(List.ofFn u).getLast hv]).getD j 0 ∧ ((List.ofFn u).head hv :: List.ofFn u ++
      [(List.ofFn u).getLast hv]).getD j 0 ≤ M := by
    intro j hj
    rw [List.getD_eq_getElem _ _ (by simp; omega)]
    exact hmem _ (List.getElem_mem _)
  obtain ⟨l1, l2⟩ := build_lengths _ _ _ _ _ bc hbc
  obtain ⟨w, w1, w2, w3⟩ := C90_step p dx dt hdx d0 bc l1 l2 t (List.ofFn u) _ hext
    (fun j hj => (box_admissible p m M dx dt d0 hm d1 d2 _ _ (hget j (by simp at hj; omega))
      (hget (j + 1) (by simp at hj; omega))).1)
    (fun j hj => (box_admissible p m M dx dt d0 hm d1 d2 _ _ (hget j (by simp at hj; omega))
      (hget (j + 1) (by simp at hj; omega))).2)
  rw [List.length_ofFn] at w2
  refine ⟨w, w1, w2, ?_⟩
  rw [Set.mem_setOf_eq, ofFn_step u dt w w2]
  exact (w3.trans (variation_outflow _ hv).le).trans hu

/-- C90, monotone data: with outflow boundaries a run from nondecreasing (nonincreasing) data stays
nondecreasing (nonincreasing); no new extrema appear. -/
theorem C90_monotone (p : Problem) (n : ℕ) (hn : 0 < n) (wall : Option (K → K))
    (il ir : Option (K → K)) (bc : BC K K) (hbc : build wall ["outflow"] 1 il ir = .ok bc)
    (dx : K) (hdx : 0 < dx) (m M : K) (hm : p = .burgers → 0 < m) (steps : List K)
    (hsteps : ∀ dt ∈ steps, 0 ≤ dt ∧ (p = .advection → dt ≤ dx) ∧ (p = .burgers → dt * M ≤ dx))
    (T : Tableau K) (hT : T = forwardEuler K ∨ T = heun K ∨ T = ssp3 K)
    (s : Solver K (Fin n → K)) (hs : ∀ i, m ≤ s.solution i ∧ s.solution i ≤ M) :
    ∃ s', s.runE T (vecRhs n (rhs (laxFriedrichs p.riemann) dx bc)) steps = .ok s' ∧
      (Monotone s.solution → Monotone s'.solution) ∧
      (Antitone s.solution → Antitone s'.solution) := by
  obtain ⟨k, rfl⟩ : ∃ k, n = k + 1 := ⟨n - 1, by omega⟩
  have step : ∀ dt ∈ steps, ∀ t, ∀ u : Fin (k + 1) → K, (∀ i, m ≤ u i ∧ u i ≤ M) → ∃ w,
      rhs (laxFriedrichs p.riemann) dx bc t (List.ofFn u) = .ok w ∧ w.length = k + 1 ∧
      (Monotone u → Monotone (u + dt • (fun i : Fin (k + 1) => w.getD i 0))) ∧
      (Antitone u → Antitone (u + dt • (fun i : Fin (k + 1) => w.getD i 0))) := by
    intro dt hdt t u hbox
    obtain ⟨d0, d1, d2⟩ := hsteps dt hdt
    have hv : List.ofFn u ≠ [] := by
      intro h; have := congrArg List.length h; simp at this
    have hext := outflow_extend wall il ir bc hbc (List.ofFn u) hv t
    obtain ⟨l1, l2⟩ := build_lengths _ _ _ _ _ bc hbc
    obtain ⟨hlen, hcell⟩ := extend_middle bc t (List.ofFn u) _ (k + 1) (by simp) l1 l2 hext
    set ext := (List.ofFn u).head hv :: List.ofFn u ++ [(List.ofFn u).getLast hv] with hedef
    have hcell' : ∀ i (hi : i < k + 1), ext.getD (i + 1) 0 = u ⟨i, hi⟩ := by
      intro i hi
      rw [hcell i hi, List.getD_eq_getElem _ _ (by simpa using hi), List.getElem_ofFn]
    have hfirst : ext.getD 0 0 = u ⟨0, hn⟩ := by
      simp [hedef, List.head_eq_getElem]
    have hlast : ext.getD (k + 2) 0 = u ⟨k, by omega⟩ := by
      simp only [hedef, List.cons_append, List.getD_cons_succ]
      rw [List.getD_append_right _ _ _ _ (by simp), List.length_ofFn, Nat.sub_self]
      change (List.ofFn u).getLast hv = _
      rw [List.getLast_eq_getElem, List.getElem_ofFn]
      congr 2
      simp
    have hget : ∀ j < k + 3, ∃ i, ext.getD j 0 = u i := by
      intro j hj
      rcases Nat.eq_zero_or_pos j with rfl | hj0
      · exact ⟨_, hfirst⟩
      · by_cases h : j = k + 2
        · subst h; exact ⟨_, hlast⟩
        · obtain ⟨i, rfl⟩ : ∃ i, j = i + 1 := ⟨j - 1, by omega⟩
          exact ⟨_, hcell' i (by omega)⟩
    have hadm : ∀ j < k + 2, Admissible p (ext.getD j 0) (ext.getD (j + 1) 0) ∧
        dt * p.speed (ext.getD j 0) (ext.getD (j + 1) 0) ≤ dx := by
      intro j hj
      obtain ⟨i, e1⟩ := hget j (by omega)
      obtain ⟨i', e2⟩ := hget (j + 1) (by omega)
      rw [e1, e2]
      exact box_admissible p m M dx dt d0 hm d1 d2 _ _ (hbox i) (hbox i')
    refine ⟨_, lf_rhs p dx hdx.ne' bc t (List.ofFn u) ext hext (k + 1) hlen
      (fun j hj => (hadm j hj).1.1), by simp, ?_⟩
    set w := (List.range (k + 1)).map (fun i => (1 / dx) *
      (lfFlux p (ext.getD i 0) (ext.getD (i + 1) 0) -
        lfFlux p (ext.getD (i + 1) 0) (ext.getD (i + 2) 0))) with hw
    have hnew : ∀ i (hi : i < k + 1), (u + dt • (fun i : Fin (k + 1) => w.getD i 0)) ⟨i, hi⟩ =
        eulerCell p (dt / dx) (ext.getD i 0) (ext.getD (i + 1) 0) (ext.getD (i + 2) 0) := by
      intro i hi
      rw [← euler_getD p dx dt ext (k + 1) (List.ofFn u) (by simp) hcell w hw i hi,
        ← ofFn_step u dt w (by simp [hw]), List.getD_eq_getElem _ _ (by simpa using hi),
        List.getElem_ofFn]
    have hlam : 0 ≤ dt / dx := by positivity
    have hc : ∀ j < k + 2, dt / dx * p.speed (ext.getD j 0) (ext.getD (j + 1) 0) ≤ 1 := by
      intro j hj
      rw [div_mul_eq_mul_div, div_le_one hdx]
      exact (hadm j hj).2
    constructor
    · intro hmono
      have hle : ∀ j < k + 2, ext.getD j 0 ≤ ext.getD (j + 1) 0 := by
        intro j hj
        rcases Nat.eq_zero_or_pos j with rfl | hj0
        · rw [hfirst, hcell' 0 hn]
        · obtain ⟨i, rfl⟩ : ∃ i, j = i + 1 := ⟨j - 1, by omega⟩
          rw [hcell' i (by omega)]
          by_cases h : i + 1 < k + 1
          · rw [hcell' (i + 1) h]
            exact hmono (by simp)
          · have : i = k := by omega
            subst this
            rw [hlast]
      rw [Fin.monotone_iff_le_succ]
      intro i
      have hi := i.2
      refine (hnew i.1 (by omega)).le.trans (le_trans ?_ (hnew (i.1 + 1) (by omega)).ge)
      exact (jump_nonneg p (dt / dx) _ _ _ _ hlam (hadm i.1 (by omega)).1 (hadm (i.1 + 2) (by omega)).1
        (hc (i.1 + 1) (by omega))).1 (hle _ (by omega)) (hle _ (by omega)) (hle _ (by omega))
    · intro hmono
      have hle : ∀ j < k + 2, ext.getD (j + 1) 0 ≤ ext.getD j 0 := by
        intro j hj
        rcases Nat.eq_zero_or_pos j with rfl | hj0
        · rw [hfirst, hcell' 0 hn]
        · obtain ⟨i, rfl⟩ : ∃ i, j = i + 1 := ⟨j - 1, by omega⟩
          rw [hcell' i (by omega)]
          by_cases h : i + 1 < k + 1
          · rw [hcell' (i + 1) h]
            exact hmono (by simp)
          · have : i = k := by omega
            subst this
            rw [hlast]
      rw [Fin.antitone_iff_succ_le]
      intro i
      have hi := i.2
      refine (hnew (i.1 + 1) (by omega)).le.trans (le_trans ?_ (hnew i.1 (by omega)).ge)
      exact (jump_nonneg p (dt / dx) _ _ _ _ hlam (hadm i.1 (by omega)).1 (hadm (i.1 + 2) (by omega)).1
        (hc (i.1 + 1) (by omega))).2 (hle _ (by omega)) (hle _ (by omega)) (hle _ (by omega))
  obtain ⟨s', r1, _⟩ := C28_run p (k + 1) hn wall il ir bc "outflow" (Or.inr rfl) hbc dx hdx m M hm
    steps hsteps T hT s hs
  refine ⟨s', r1, ?_, ?_⟩
  · intro hmono
    obtain ⟨s'', q1, q2⟩ := box_run p (k + 1) hn wall il ir bc "outflow" (Or.inr rfl) hbc dx hdx m M hm
      steps hsteps T hT _ (monotone_convex (k + 1)) (by
        intro dt hdt t u hu hb
        obtain ⟨w, w1, w2, w3, _⟩ := step dt hdt t u hb
        exact ⟨w, w1, w2, w3 hu⟩) s hs hmono
    rw [r1] at q1
    cases q1
    exact q2
  · intro hmono
    obtain ⟨s'', q1, q2⟩ := box_run p (k + 1) hn wall il ir bc "outflow" (Or.inr rfl) hbc dx hdx m M hm
      steps hsteps T hT _ (antitone_convex (k + 1)) (by
        intro dt hdt t u hu hb
        obtain ⟨w, w1, w2, _, w3⟩ := step dt hdt t u hb
        exact ⟨w, w1, w2, w3 hu⟩) s hs hmono
    rw [r1] at q1
    cases q1
    exact q2

/-- The claims C90 need data of one sign: for Burgers' equation with negative data one small forward
Euler step increases the variation. -/
theorem C90_negative_counterexample :
    okAnd (rhs (K := ℚ) (laxFriedrichs (Problem.burgers.riemann (K := ℚ))) 1
      ⟨[.copy (-1)], [.copy 0], true⟩ 0 [-1, -2, -1]) (fun w =>
        decide (cyclicVariation [-1, -2, -1] <
          cyclicVariation (List.zipWith (fun x k => x + 1 / 100 * k) [-1, -2, -1] w))) = true := by
  decide +kernel

/-- The central scheme does not have the property. -/
theorem C90_central_counterexample :
    okAnd (rhs (K := ℚ) (central ℚ (Problem.advection.riemann (K := ℚ)).flux) 1
      ⟨[.copy 0], [.copy (-1)], false⟩ 0 [0, 0, 1, 1]) (fun w =>
        decide (variation [0, 0, 1, 1] <
          variation (List.zipWith (fun x k => x + 1 / 100 * k) [0, 0, 1, 1] w))) = true := by
  decide +kernel

/-- Non-vacuity: Burgers' equation with an increasing and with an oscillating state. -/
example : okAnd ((Solver.init ![1, 2, 4] 0 : Solver ℚ (Fin 3 → ℚ)).runE (heun ℚ)
    (vecRhs 3 (rhs (K := ℚ) (laxFriedrichs (Problem.burgers.riemann (K := ℚ))) 1
      ⟨[.copy 0], [.copy (-1)], false⟩)) [1 / 4, 1 / 8])
    (fun s => decide (variation (List.ofFn s.solution) ≤ 3 ∧ s.solution 0 < s.solution 1 ∧
      s.solution 1 < s.solution 2)) = true := by decide +kernel

example : okAnd ((Solver.init ![1, 4, 2] 0 : Solver ℚ (Fin 3 → ℚ)).runE (ssp3 ℚ)
    (vecRhs 3 (rhs (K := ℚ) (laxFriedrichs (Problem.burgers.riemann (K := ℚ))) 1
      ⟨[.copy (-1)], [.copy 0], true⟩)) [1 / 4])
    (fun s => decide (0 < cyclicVariation (List.ofFn s.solution) ∧
      cyclicVariation (List.ofFn s.solution) < cyclicVariation [(1 : ℚ), 4, 2])) = true := by
  decide +kernel

end Verif.Scalar
