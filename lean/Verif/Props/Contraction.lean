import Verif.Props.Variation
import Verif.Props.SWEPositivity
import Verif.Props.EndToEnd
import Verif.Core.Majorize

/-!
Property C104: two runs of the Lax-Friedrichs solver for a scalar equation from different data.

`lfFlux`, `lf_rhs` and `box` are those of C28, `eulerCell` that of C90.
-/

set_option linter.unusedSectionVars false

namespace Verif.Scalar

open Verif.Py Verif.Boundary Verif.FV Verif.ODE

variable {K : Type*} [Field K] [LinearOrder K] [IsStrictOrderedRing K]

/-! ### Specification -/

/-- The distance of two states: the sum of the absolute differences of their cells. -/
def distance {n : ℕ} (u v : Fin n → K) : K := ∑ i, |u i - v i|

/-- The numerical flux of Kruzhkov's entropy `|u - k|` that belongs to a numerical flux. -/
def entropyFlux (p : Problem) (k a b : K) : K :=
  lfFlux p (max a k) (max b k) - lfFlux p (min a k) (min b k)

/-- The restriction of the time step that makes the scheme monotone: `dt ≤ dx` for advection and
`2 dt M ≤ dx` for Burgers' equation with values in `[m, M]`, `0 < m`. -/
def Monotonic (p : Problem) (m M dx dt : K) : Prop :=
  0 ≤ dt ∧ (p = .advection → dt ≤ dx) ∧ (p = .burgers → 0 < m ∧ 2 * dt * M ≤ dx)

/-! ### Helper lemmas: monotonicity of the flux and of a step -/

theorem lfFlux_advection (x y : K) : lfFlux .advection x y = x := by
  unfold lfFlux llf
  simp only [Problem.flux, Problem.speed, Problem.waveSpeed, Problem.fluxPrime, max_self]
  ring

theorem lfFlux_burgers (x y : K) : lfFlux .burgers x y = (x ^ 2 + y ^ 2) / 4 - max x y / 2 * (y - x) := by
  unfold lfFlux llf
  simp only [Problem.flux, Problem.speed, Problem.waveSpeed, Problem.fluxPrime]
  ring

theorem burgers_mono_left (x x' y : K) (hx : 0 ≤ x) (hy : 0 ≤ y) (h : x ≤ x') :
    lfFlux .burgers x y ≤ lfFlux .burgers x' y := by
  rw [lfFlux_burgers, lfFlux_burgers]
  rcases le_total x y with h1 | h1 <;> rcases le_total x' y with h2 | h2
  · rw [max_eq_right h1, max_eq_right h2]; nlinarith
  · rw [max_eq_right h1, max_eq_left h2]; nlinarith
  · have : x = x' := le_antisymm h (h2.trans h1)
    rw [this]
  · rw [max_eq_left h1, max_eq_left h2]; nlinarith

theorem burgers_mono_right (x y y' : K) (hx : 0 ≤ x) (hy : 0 ≤ y) (h : y ≤ y') :
    lfFlux .burgers x y' ≤ lfFlux .burgers x y := by
  rw [lfFlux_burgers, lfFlux_burgers]
  rcases le_total x y with h1 | h1 <;> rcases le_total x y' with h2 | h2
  · rw [max_eq_right h1, max_eq_right h2]; nlinarith
  · have : y = y' := le_antisymm h (h2.trans h1)
    rw [this]
  · rw [max_eq_left h1, max_eq_right h2]; nlinarith
  · rw [max_eq_left h1, max_eq_left h2]; nlinarith

/-- The flux into a cell minus the flux out of it, as a function of the cell, has slope at least `-2M`. -/
theorem burgers_middle (x y y' z M : K) (hx : 0 ≤ x) (hy : 0 ≤ y) (hz : 0 ≤ z) (h : y ≤ y')
    (hxM : x ≤ M) (hM : y' ≤ M) (hzM : z ≤ M) :
    lfFlux .burgers x y - lfFlux .burgers y z - (lfFlux .burgers x y' - lfFlux .burgers y' z) ≤
      2 * M * (y' - y) := by
  have piece : ∀ a b : K, 0 ≤ a → a ≤ b → b ≤ M → (x ≤ a ∨ b ≤ x) → (z ≤ a ∨ b ≤ z) →
      lfFlux .burgers x a - lfFlux .burgers a z - (lfFlux .burgers x b - lfFlux .burgers b z) ≤
        2 * M * (b - a) := by
    intro a b ha hab hb h1 h2
    have d : 0 ≤ b - a := by linarith
    simp only [lfFlux_burgers]
    rcases h1 with h1 | h1 <;> rcases h2 with h2 | h2
    · rw [max_eq_right h1, max_eq_right (h1.trans hab), max_eq_left h2, max_eq_left (h2.trans hab)]
      have : 0 ≤ (b - a) * (2 * M - (a + b) + x / 2 + z / 2) := mul_nonneg d (by linarith)
      linarith
    · rw [max_eq_right h1, max_eq_right (h1.trans hab), max_eq_right h2, max_eq_right (hab.trans h2)]
      have : 0 ≤ (b - a) * (2 * M - (a + b) / 2 + x / 2 - z / 2) := mul_nonneg d (by linarith)
      linarith
    · rw [max_eq_left h1, max_eq_left (hab.trans h1), max_eq_left h2, max_eq_left (h2.trans hab)]
      have : 0 ≤ (b - a) * (2 * M - (a + b) / 2 - x / 2 + z / 2) := mul_nonneg d (by linarith)
      linarith
    · rw [max_eq_left h1, max_eq_left (hab.trans h1), max_eq_right h2, max_eq_right (hab.trans h2)]
      have : 0 ≤ (b - a) * (2 * M - x / 2 - z / 2) := mul_nonneg d (by linarith)
      linarith
  have piece' : ∀ a b : K, 0 ≤ a → a ≤ b → b ≤ M → (x ≤ a ∨ b ≤ x) →
      lfFlux .burgers x a - lfFlux .burgers a z - (lfFlux .burgers x b - lfFlux .burgers b z) ≤
        2 * M * (b - a) := by
    intro a b ha hab hb h1
    rcases le_total z a with h2 | h2
    · exact piece a b ha hab hb h1 (Or.inl h2)
    rcases le_total b z with h3 | h3
    · exact piece a b ha hab hb h1 (Or.inr h3)
    have q1 := piece a z ha h2 hzM (h1.imp id h3.trans) (Or.inr le_rfl)
    have q2 := piece z b hz h3 hb (h1.imp (fun h => h.trans h2) id) (Or.inl le_rfl)
    linarith
  rcases le_total x y with h2 | h2
  · exact piece' y y' hy h hM (Or.inl h2)
  rcases le_total y' x with h3 | h3
  · exact piece' y y' hy h hM (Or.inr h3)
  have q1 := piece' y x hy h2 hxM (Or.inr le_rfl)
  have q2 := piece' x y' hx h3 hM (Or.inl le_rfl)
  linarith

/-- A forward Euler step in one cell grows with each of the three old values. -/
theorem eulerCell_mono (p : Problem) (m M dx dt : K) (hdx : 0 < dx) (hc : Monotonic p m M dx dt)
    (x y z x' y' z' : K) (hx : m ≤ x ∧ x ≤ x' ∧ x' ≤ M) (hy : m ≤ y ∧ y ≤ y' ∧ y' ≤ M)
    (hz : m ≤ z ∧ z ≤ z' ∧ z' ≤ M) :
    eulerCell p (dt / dx) x y z ≤ eulerCell p (dt / dx) x' y' z' := by
  obtain ⟨c0, c1, c2⟩ := hc
  have l0 : 0 ≤ dt / dx := div_nonneg c0 hdx.le
  unfold eulerCell
  cases p with
  | advection =>
    simp only [lfFlux_advection]
    have l1 : dt / dx ≤ 1 := (div_le_one hdx).mpr (c1 rfl)
    nlinarith [mul_le_mul_of_nonneg_left hx.2.1 l0,
      mul_nonneg (sub_nonneg.mpr l1) (sub_nonneg.mpr hy.2.1)]
  | burgers =>
    obtain ⟨c3, c4⟩ := c2 rfl
    have l1 : dt / dx * (2 * M) ≤ 1 := by
      rw [div_mul_eq_mul_div, div_le_one hdx]; linarith
    have a1 := burgers_mono_left x x' y (by linarith) (by linarith) hx.2.1
    have a2 := burgers_middle x' y y' z M (by linarith) (by linarith) (by linarith) hy.2.1 hx.2.2 hy.2.2
      (by linarith)
    have a3 := burgers_mono_right y' z z' (by linarith) (by linarith) hz.2.1
    have b1 := mul_le_mul_of_nonneg_left a1 l0
    have b2 := mul_le_mul_of_nonneg_left a2 l0
    have b3 := mul_le_mul_of_nonneg_left a3 l0
    have b4 := mul_nonneg (sub_nonneg.mpr l1) (sub_nonneg.mpr hy.2.1)
    nlinarith

/-! ### Helper lemmas: the cells used by a step -/

/-- The cells (ghost cells included) a boundary condition reads. -/
structure Cells (bc : BC K K) (n : ℕ) (g : ℕ → Fin n) : Prop where
  extend : ∀ t u, bc.extend (List.ofFn u) (some t) = .ok ((List.range (n + 2)).map (fun j => u (g j)))
  middle : ∀ i : Fin n, g (i + 1) = i

theorem cells_periodic (n : ℕ) (hn : 0 < n) (wall : Option (K → K)) (il ir : Option (K → K))
    (bc : BC K K) (hbc : build wall ["periodic"] 1 il ir = .ok bc) :
    ∃ g : ℕ → Fin n, Cells bc n g ∧ g n = g 0 ∧ g (n + 1) = g 1 := by
  refine ⟨fun j => ⟨(j + n - 1) % n, Nat.mod_lt _ hn⟩, ⟨?_, ?_⟩, ?_, ?_⟩
  · intro t u
    rw [periodic_extend wall 1 il ir bc hbc (List.ofFn u) (by simpa using Nat.succ_le_of_lt hn)]
    congr 1
    rw [List.length_ofFn]
    apply List.map_congr_left
    intro j _
    rw [List.getD_eq_getElem _ _ (by simpa using Nat.mod_lt _ hn), List.getElem_ofFn]
  · intro i
    apply Fin.ext
    simp only
    rw [show i.1 + 1 + n - 1 = i.1 + n by omega, Nat.add_mod_right, Nat.mod_eq_of_lt i.2]
  · apply Fin.ext
    simp only
    rw [show n + n - 1 = 0 + n - 1 + n by omega, Nat.add_mod_right]
  · apply Fin.ext
    simp only
    rw [show n + 1 + n - 1 = 1 + n - 1 + n by omega, Nat.add_mod_right]

theorem cells_outflow (n : ℕ) (hn : 0 < n) (wall : Option (K → K)) (il ir : Option (K → K))
    (bc : BC K K) (hbc : build wall ["outflow"] 1 il ir = .ok bc) :
    ∃ g : ℕ → Fin n, Cells bc n g ∧ g 0 = g 1 ∧ g (n + 1) = g n := by
  refine ⟨fun j => ⟨min (j - 1) (n - 1), by omega⟩, ⟨?_, ?_⟩, ?_, ?_⟩
  · intro t u
    have hv : List.ofFn u ≠ [] := by
      intro h; have := congrArg List.length h; simp at this; omega
    rw [outflow_extend wall il ir bc hbc (List.ofFn u) hv t]
    congr 1
    apply List.ext_getElem
    · simp
    · intro j h1 h2
      simp only [List.length_map, List.length_range] at h2
      rw [List.getElem_map, List.getElem_range]
      rcases j with _ | j
      · simp only [List.cons_append, List.getElem_cons_zero]
        rw [List.head_eq_getElem, List.getElem_ofFn]
        congr 1
      · simp only [List.cons_append, List.getElem_cons_succ]
        by_cases hj : j < n
        · rw [List.getElem_append_left (by simpa using hj), List.getElem_ofFn]
          congr 1
          apply Fin.ext
          simp only
          omega
        · rw [List.getElem_append_right (by simp; omega)]
          simp only [List.length_ofFn, List.getElem_singleton]
          rw [List.getLast_eq_getElem, List.getElem_ofFn]
          congr 1
          apply Fin.ext
          simp only [List.length_ofFn]
          omega
  · intro i
    apply Fin.ext
    simp only
    omega
  · apply Fin.ext
    simp
  · apply Fin.ext
    simp

/-- The new value of a cell after a forward Euler step. -/
def newCell (p : Problem) (lam : K) {n : ℕ} (g : ℕ → Fin n) (u : Fin n → K) (i : Fin n) : K :=
  eulerCell p lam (u (g i)) (u (g (i + 1))) (u (g (i + 2)))

theorem newCell_eq (p : Problem) (n : ℕ) (bc : BC K K) (g : ℕ → Fin n) (hg : Cells bc n g) (dx : K)
    (hdx : 0 < dx) (m dt : K) (hm : p = .burgers → 0 < m) (t : K) (u : Fin n → K) (hu : ∀ i, m ≤ u i) :
    ∃ w, vecRhs n (rhs (laxFriedrichs p.riemann) dx bc) t u = .ok w ∧
      u + dt • w = newCell p (dt / dx) g u := by
  have hget : ∀ j < n + 2, ((List.range (n + 2)).map (fun j => u (g j))).getD j 0 = u (g j) :=
    fun j hj => range_map_getD _ _ _ hj
  have h := lf_rhs p dx hdx.ne' bc t (List.ofFn u) _ (hg.extend t u) n (by simp) (by
    intro j hj
    rw [hget j (by omega), hget (j + 1) (by omega)]
    cases p with
    | advection => simp [Problem.speed, Problem.waveSpeed, Problem.fluxPrime]
    | burgers =>
      simp only [Problem.speed, Problem.waveSpeed, Problem.fluxPrime]
      exact lt_max_of_lt_left ((hm rfl).trans_le (hu _)))
  refine ⟨_, SWE.vecRhs_range _ t u _ h, ?_⟩
  funext i
  have hi := i.2
  simp only [Pi.add_apply, Pi.smul_apply, smul_eq_mul, newCell, eulerCell]
  rw [hget i (by omega), hget (i + 1) (by omega), hget (i + 2) (by omega), hg.middle i,
    ← mul_assoc, mul_one_div]

/-! ### One step -/

theorem newCell_mono (p : Problem) (m M dx dt : K) (hdx : 0 < dx) (hc : Monotonic p m M dx dt) {n : ℕ}
    (g : ℕ → Fin n) (u v : Fin n → K) (hu : ∀ i, m ≤ u i) (huv : u ≤ v) (hv : ∀ i, v i ≤ M) :
    newCell p (dt / dx) g u ≤ newCell p (dt / dx) g v := fun _ =>
  eulerCell_mono p m M dx dt hdx hc _ _ _ _ _ _ ⟨hu _, huv _, hv _⟩ ⟨hu _, huv _, hv _⟩
    ⟨hu _, huv _, hv _⟩

theorem newCell_abs (p : Problem) (m M dx dt : K) (hdx : 0 < dx) (hc : Monotonic p m M dx dt) {n : ℕ}
    (g : ℕ → Fin n) (hmid : ∀ i : Fin n, g (i + 1) = i) (u v : Fin n → K)
    (hu : ∀ i, m ≤ u i ∧ u i ≤ M) (hv : ∀ i, m ≤ v i ∧ v i ≤ M) (i : Fin n) :
    |newCell p (dt / dx) g u i - newCell p (dt / dx) g v i| ≤ |u i - v i| +
      dt / dx * ((lfFlux p (max (u (g i)) (v (g i))) (max (u (g (i + 1))) (v (g (i + 1)))) -
          lfFlux p (min (u (g i)) (v (g i))) (min (u (g (i + 1))) (v (g (i + 1))))) -
        (lfFlux p (max (u (g (i + 1))) (v (g (i + 1)))) (max (u (g (i + 2))) (v (g (i + 2)))) -
          lfFlux p (min (u (g (i + 1))) (v (g (i + 1)))) (min (u (g (i + 2))) (v (g (i + 2)))))) := by
  have up : ∀ j, max (u j) (v j) ≤ M := fun j => max_le (hu j).2 (hv j).2
  have lo : ∀ j, m ≤ min (u j) (v j) := fun j => le_min (hu j).1 (hv j).1
  have a1 := newCell_mono p m M dx dt hdx hc g u (fun j => max (u j) (v j)) (fun j => (hu j).1)
    (fun j => le_max_left _ _) up i
  have a2 := newCell_mono p m M dx dt hdx hc g v (fun j => max (u j) (v j)) (fun j => (hv j).1)
    (fun j => le_max_right _ _) up i
  have a3 := newCell_mono p m M dx dt hdx hc g (fun j => min (u j) (v j)) u lo
    (fun j => min_le_left _ _) (fun j => (hu j).2) i
  have a4 := newCell_mono p m M dx dt hdx hc g (fun j => min (u j) (v j)) v lo
    (fun j => min_le_right _ _) (fun j => (hv j).2) i
  have b : |newCell p (dt / dx) g u i - newCell p (dt / dx) g v i| ≤
      newCell p (dt / dx) g (fun j => max (u j) (v j)) i -
        newCell p (dt / dx) g (fun j => min (u j) (v j)) i := by
    rw [abs_le]; constructor <;> linarith
  refine b.trans (le_of_eq ?_)
  rw [← max_sub_min_eq_abs']
  simp only [newCell, eulerCell, hmid i]
  ring

/-- Summation over a periodic mesh: the flux differences cancel. -/
theorem sum_flux (n : ℕ) (q : ℕ → K) (h : q n = q 0) : ∑ i : Fin n, (q i - q (i + 1)) = 0 := by
  rw [Fin.sum_univ_eq_sum_range (fun i => q i - q (i + 1)), Finset.sum_range_sub', h, sub_self]

theorem distance_step (p : Problem) (m M dx dt : K) (hdx : 0 < dx) (hc : Monotonic p m M dx dt) {n : ℕ}
    (g : ℕ → Fin n) (hmid : ∀ i : Fin n, g (i + 1) = i) (h0 : g n = g 0) (h1 : g (n + 1) = g 1)
    (u v : Fin n → K) (hu : ∀ i, m ≤ u i ∧ u i ≤ M) (hv : ∀ i, m ≤ v i ∧ v i ≤ M) :
    distance (newCell p (dt / dx) g u) (newCell p (dt / dx) g v) ≤ distance u v := by
  unfold distance
  set q : ℕ → K := fun j => lfFlux p (max (u (g j)) (v (g j))) (max (u (g (j + 1))) (v (g (j + 1)))) -
      lfFlux p (min (u (g j)) (v (g j))) (min (u (g (j + 1))) (v (g (j + 1)))) with hq
  calc _ ≤ ∑ i : Fin n, (|u i - v i| + dt / dx * (q i - q (i + 1))) :=
        Finset.sum_le_sum (fun i _ => newCell_abs p m M dx dt hdx hc g hmid u v hu hv i)
    _ = ∑ i, |u i - v i| := by
        rw [Finset.sum_add_distrib, ← Finset.mul_sum, sum_flux n q (by simp only [hq, h0, h1, zero_add]),
          mul_zero, add_zero]

theorem distance_convex (n : ℕ) (C : K) :
    Convex K {w : (Fin n → K) × (Fin n → K) | distance w.1 w.2 ≤ C} := by
  intro w hw z hz a b ha hb hab
  simp only [Set.mem_setOf_eq, distance] at hw hz ⊢
  calc _ ≤ ∑ i, (a * |w.1 i - w.2 i| + b * |z.1 i - z.2 i|) := by
        apply Finset.sum_le_sum
        intro i _
        simp only [Prod.fst_add, Prod.smul_fst, Prod.snd_add, Prod.smul_snd, Pi.add_apply,
          Pi.smul_apply, smul_eq_mul]
        exact abs_combo _ _ _ _ _ _ ha hb
    _ ≤ a * C + b * C := by
        rw [Finset.sum_add_distrib, ← Finset.mul_sum, ← Finset.mul_sum]
        exact add_le_add (mul_le_mul_of_nonneg_left hw ha) (mul_le_mul_of_nonneg_left hz hb)
    _ = C := by rw [← add_mul, hab, one_mul]

theorem ordered_convex (n : ℕ) : Convex K {w : (Fin n → K) × (Fin n → K) | w.1 ≤ w.2} := by
  intro w hw z hz a b ha hb _ i
  exact add_le_add (mul_le_mul_of_nonneg_left (hw i) ha) (mul_le_mul_of_nonneg_left (hz i) hb)

/-! ### Helper lemmas: two runs at once -/

/-- Two problems side by side. -/
def pairRhs {E ε : Type*} (f : K → E → Except ε E) (t : K) (w : E × E) : Except ε (E × E) :=
  match f t w.1 with
  | .error e => .error e
  | .ok a => match f t w.2 with
    | .error e => .error e
    | .ok b => .ok (a, b)

theorem pairRhs_ok {E ε : Type*} (f : K → E → Except ε E) (t : K) (w k : E × E)
    (h : pairRhs f t w = .ok k) : f t w.1 = .ok k.1 ∧ f t w.2 = .ok k.2 := by
  unfold pairRhs at h
  split at h
  · cases h
  · split at h
    · cases h
    · next h1 _ _ h2 => cases h; exact ⟨h1, h2⟩

/-- A run depends on time and solution only. -/
theorem runE_same {E ε : Type*} [AddCommGroup E] [Module K E] (T : Tableau K) (f : K → E → Except ε E)
    (s r : Solver K E) (ht : s.time = r.time) (hu : s.solution = r.solution) (steps : List K)
    (s' : Solver K E) (h : s.runE T f steps = .ok s') :
    ∃ r', r.runE T f steps = .ok r' ∧ r'.solution = s'.solution := by
  cases steps with
  | nil => cases h; exact ⟨r, rfl, hu.symm⟩
  | cons dt steps =>
    refine ⟨s', ?_, rfl⟩
    have e : r.executeE T f dt = s.executeE T f dt := by
      unfold Solver.executeE
      rw [ht, hu]
    rw [← h]
    simp only [Solver.runE, e]

/-- Strong stability preserving integrators keep convex sets of pairs that forward Euler keeps. -/
theorem pair_run {E ε : Type*} [AddCommGroup E] [Module K E] (f : K → E → Except ε E) (S : Set (E × E))
    (hS : Convex K S) (steps : List K)
    (hE : ∀ dt ∈ steps, ∀ t, ∀ w ∈ S, ∃ a b, f t w.1 = .ok a ∧ f t w.2 = .ok b ∧
      (w.1 + dt • a, w.2 + dt • b) ∈ S) (T : Tableau K)
    (hT : T = forwardEuler K ∨ T = heun K ∨ T = ssp3 K) (s r : Solver K E) (ht : s.time = r.time)
    (hs : (s.solution, r.solution) ∈ S) :
    ∃ s' r', s.runE T f steps = .ok s' ∧ r.runE T f steps = .ok r' ∧ (s'.solution, r'.solution) ∈ S := by
  obtain ⟨z, h1, h2⟩ := sspE_run (pairRhs f) S hS steps (by
    intro dt hdt t w hw
    obtain ⟨a, b, ha, hb, hab⟩ := hE dt hdt t w hw
    refine ⟨(a, b), ?_, hab⟩
    unfold pairRhs
    rw [ha, hb]) ⟨s.time, (s.solution, r.solution), [], []⟩ hs T hT
  have g1 := runE_map (LinearMap.fst K E E) T (pairRhs f) f (fun t u w h => (pairRhs_ok f t u w h).1) _ _
    steps h1
  have g2 := runE_map (LinearMap.snd K E E) T (pairRhs f) f (fun t u w h => (pairRhs_ok f t u w h).2) _ _
    steps h1
  obtain ⟨s', i1, i2⟩ := runE_same T f (Solver.image (LinearMap.fst K E E) _) s rfl rfl steps _ g1
  obtain ⟨r', j1, j2⟩ := runE_same T f
    (Solver.image (LinearMap.snd K E E) ⟨s.time, (s.solution, r.solution), [], []⟩) r ht rfl steps _ g2
  refine ⟨s', r', i1, j1, ?_⟩
  rw [i2, j2]
  exact h2

/-- Pairs of runs of the Lax-Friedrichs scheme. -/
theorem lf_pair_run (p : Problem) (n : ℕ) (hn : 0 < n) (bc : BC K K) (g : ℕ → Fin n)
    (hg : Cells bc n g) (dx : K) (hdx : 0 < dx) (m M : K) (steps : List K)
    (hsteps : ∀ dt ∈ steps, Monotonic p m M dx dt) (T : Tableau K)
    (hT : T = forwardEuler K ∨ T = heun K ∨ T = ssp3 K) (S : Set ((Fin n → K) × (Fin n → K)))
    (hS : Convex K S)
    (hstep : ∀ dt ∈ steps, ∀ u v : Fin n → K, (∀ i, m ≤ u i ∧ u i ≤ M) → (∀ i, m ≤ v i ∧ v i ≤ M) →
      (u, v) ∈ S → (newCell p (dt / dx) g u, newCell p (dt / dx) g v) ∈ S)
    (s r : Solver K (Fin n → K)) (ht : s.time = r.time) (hs : ∀ i, m ≤ s.solution i ∧ s.solution i ≤ M)
    (hr : ∀ i, m ≤ r.solution i ∧ r.solution i ≤ M) (hsr : (s.solution, r.solution) ∈ S) :
    ∃ s' r', s.runE T (vecRhs n (rhs (laxFriedrichs p.riemann) dx bc)) steps = .ok s' ∧
      r.runE T (vecRhs n (rhs (laxFriedrichs p.riemann) dx bc)) steps = .ok r' ∧
      (s'.solution, r'.solution) ∈ S ∧ ∀ i, m ≤ s'.solution i ∧ s'.solution i ≤ M := by
  have hbox : ∀ dt ∈ steps, ∀ u : Fin n → K, (∀ i, m ≤ u i ∧ u i ≤ M) →
      ∀ i, m ≤ newCell p (dt / dx) g u i ∧ newCell p (dt / dx) g u i ≤ M := by
    intro dt hdt u hu i
    have hmM : m ≤ M := (hu ⟨0, hn⟩).1.trans (hu ⟨0, hn⟩).2
    have const : ∀ c : K, newCell p (dt / dx) g (fun _ => c) i = c := by
      intro c
      simp [newCell, eulerCell]
    constructor
    · have := newCell_mono p m M dx dt hdx (hsteps dt hdt) g (fun _ => m) u (fun _ => le_rfl)
        (fun j => (hu j).1) (fun j => (hu j).2) i
      rwa [const] at this
    · have := newCell_mono p m M dx dt hdx (hsteps dt hdt) g u (fun _ => M) (fun j => (hu j).1)
        (fun j => (hu j).2) (fun _ => le_rfl) i
      rwa [const] at this
  obtain ⟨s', r', h1, h2, h3⟩ := pair_run (vecRhs n (rhs (laxFriedrichs p.riemann) dx bc))
    ((box n m M ×ˢ box n m M) ∩ S) (((box_convex n m M).prod (box_convex n m M)).inter hS) steps (by
      rintro dt hdt t ⟨u, v⟩ ⟨⟨hu, hv⟩, huv⟩
      obtain ⟨a, ha, ha'⟩ := newCell_eq p n bc g hg dx hdx m dt
        (fun h => ((hsteps dt hdt).2.2 h).1) t u (fun i => (hu i).1)
      obtain ⟨b, hb, hb'⟩ := newCell_eq p n bc g hg dx hdx m dt
        (fun h => ((hsteps dt hdt).2.2 h).1) t v (fun i => (hv i).1)
      refine ⟨a, b, ha, hb, ?_⟩
      rw [ha', hb']
      exact ⟨⟨hbox dt hdt u hu, hbox dt hdt v hv⟩, hstep dt hdt u v hu hv huv⟩) T hT s r ht
    ⟨⟨hs, hr⟩, hsr⟩
  exact ⟨s', r', h1, h2, h3.2, h3.1.1⟩

/-! ### C104 -/

/-- C104.  Two runs with the same steps keep the order of their initial states, cell by cell: with
periodic or outflow boundaries, forward Euler, Heun or SSP3, and steps with `dt ≤ dx` for advection and
`2 dt M ≤ dx` for Burgers' equation with data in `[m, M]`, `m > 0`. -/
theorem C104_order (p : Problem) (n : ℕ) (hn : 0 < n) (wall : Option (K → K)) (il ir : Option (K → K))
    (bc : BC K K) (name : String) (hname : name = "periodic" ∨ name = "outflow")
    (hbc : build wall [name] 1 il ir = .ok bc) (dx : K) (hdx : 0 < dx) (m M : K) (steps : List K)
    (hsteps : ∀ dt ∈ steps, Monotonic p m M dx dt) (T : Tableau K)
    (hT : T = forwardEuler K ∨ T = heun K ∨ T = ssp3 K) (s r : Solver K (Fin n → K))
    (ht : s.time = r.time) (hs : ∀ i, m ≤ s.solution i) (hr : ∀ i, r.solution i ≤ M)
    (hsr : ∀ i, s.solution i ≤ r.solution i) :
    ∃ s' r', s.runE T (vecRhs n (rhs (laxFriedrichs p.riemann) dx bc)) steps = .ok s' ∧
      r.runE T (vecRhs n (rhs (laxFriedrichs p.riemann) dx bc)) steps = .ok r' ∧
      ∀ i, s'.solution i ≤ r'.solution i := by
  have hg : ∃ g : ℕ → Fin n, Cells bc n g := by
    rcases hname with rfl | rfl
    · obtain ⟨g, hg, -⟩ := cells_periodic n hn wall il ir bc hbc; exact ⟨g, hg⟩
    · obtain ⟨g, hg, -⟩ := cells_outflow n hn wall il ir bc hbc; exact ⟨g, hg⟩
  obtain ⟨g, hg⟩ := hg
  obtain ⟨s', r', q1, q2, q3, -⟩ := lf_pair_run p n hn bc g hg dx hdx m M steps hsteps T hT _ (ordered_convex n)
    (fun dt hdt u v hu hv huv =>
      newCell_mono p m M dx dt hdx (hsteps dt hdt) g u v (fun i => (hu i).1) huv (fun i => (hv i).2))
    s r ht (fun i => ⟨hs i, (hsr i).trans (hr i)⟩) (fun i => ⟨(hs i).trans (hsr i), hr i⟩) hsr
  exact ⟨s', r', q1, q2, q3⟩

/-- C104.  On a periodic mesh the distance of two runs with the same steps never exceeds the distance of
their initial states. -/
theorem C104_contraction (p : Problem) (n : ℕ) (hn : 0 < n) (wall : Option (K → K))
    (il ir : Option (K → K)) (bc : BC K K) (hbc : build wall ["periodic"] 1 il ir = .ok bc) (dx : K)
    (hdx : 0 < dx) (m M : K) (steps : List K) (hsteps : ∀ dt ∈ steps, Monotonic p m M dx dt)
    (T : Tableau K) (hT : T = forwardEuler K ∨ T = heun K ∨ T = ssp3 K) (s r : Solver K (Fin n → K))
    (ht : s.time = r.time) (hs : ∀ i, m ≤ s.solution i ∧ s.solution i ≤ M)
    (hr : ∀ i, m ≤ r.solution i ∧ r.solution i ≤ M) :
    ∃ s' r', s.runE T (vecRhs n (rhs (laxFriedrichs p.riemann) dx bc)) steps = .ok s' ∧
      r.runE T (vecRhs n (rhs (laxFriedrichs p.riemann) dx bc)) steps = .ok r' ∧
      distance s'.solution r'.solution ≤ distance s.solution r.solution := by
  obtain ⟨g, hg, h0, h1⟩ := cells_periodic n hn wall il ir bc hbc
  obtain ⟨s', r', q1, q2, q3, -⟩ := lf_pair_run p n hn bc g hg dx hdx m M steps hsteps T hT _
    (distance_convex n (distance s.solution r.solution))
    (fun dt hdt u v hu hv huv =>
      (distance_step p m M dx dt hdx (hsteps dt hdt) g hg.middle h0 h1 u v hu hv).trans huv)
    s r ht hs hr le_rfl
  exact ⟨s', r', q1, q2, q3⟩

/-- C104.  The entropy inequality: a forward Euler step satisfies Kruzhkov's inequality in every cell,
for every constant `k` in the range of the data. -/
theorem C104_entropy (p : Problem) (n : ℕ) (hn : 0 < n) (wall : Option (K → K)) (il ir : Option (K → K))
    (bc : BC K K) (name : String) (hname : name = "periodic" ∨ name = "outflow")
    (hbc : build wall [name] 1 il ir = .ok bc) (dx : K) (hdx : 0 < dx) (m M dt : K)
    (hc : Monotonic p m M dx dt) (t : K) (u : Fin n → K) (hu : ∀ i, m ≤ u i ∧ u i ≤ M) (k : K)
    (hk : m ≤ k ∧ k ≤ M) :
    ∃ ext w, bc.extend (List.ofFn u) (some t) = .ok ext ∧ ext.length = n + 2 ∧
      vecRhs n (rhs (laxFriedrichs p.riemann) dx bc) t u = .ok w ∧
      ∀ i : Fin n, |u i + dt * w i - k| ≤ |u i - k| -
        dt / dx * (entropyFlux p k (ext.getD (i + 1) 0) (ext.getD (i + 2) 0) -
          entropyFlux p k (ext.getD i 0) (ext.getD (i + 1) 0)) := by
  have hg : ∃ g : ℕ → Fin n, Cells bc n g := by
    rcases hname with rfl | rfl
    · obtain ⟨g, hg, -⟩ := cells_periodic n hn wall il ir bc hbc; exact ⟨g, hg⟩
    · obtain ⟨g, hg, -⟩ := cells_outflow n hn wall il ir bc hbc; exact ⟨g, hg⟩
  obtain ⟨g, hg⟩ := hg
  obtain ⟨w, h1, h2⟩ := newCell_eq p n bc g hg dx hdx m dt (fun h => (hc.2.2 h).1) t u (fun i => (hu i).1)
  refine ⟨_, w, hg.extend t u, by simp, h1, ?_⟩
  intro i
  have hi := i.2
  have hget : ∀ j < n + 2, ((List.range (n + 2)).map (fun j => u (g j))).getD j 0 = u (g j) :=
    fun j hj => range_map_getD _ _ _ hj
  rw [hget i (by omega), hget (i + 1) (by omega), hget (i + 2) (by omega)]
  have h3 := congrFun h2 i
  simp only [Pi.add_apply, Pi.smul_apply, smul_eq_mul] at h3
  have h4 := newCell_abs p m M dx dt hdx hc g hg.middle u (fun _ => k) hu (fun _ => hk) i
  have const : newCell p (dt / dx) g (fun _ => k) i = k := by simp [newCell, eulerCell]
  rw [const, ← h3] at h4
  unfold entropyFlux
  linarith

/-- C104.  The entropy flux is that of the entropy `|u - k|`: between equal states it is the absolute
difference of the fluxes. -/
theorem C104_entropy_flux (p : Problem) (k a : K) (hp : p = .burgers → 0 ≤ k ∧ 0 ≤ a) :
    entropyFlux p k a a = |p.flux a - p.flux k| := by
  unfold entropyFlux
  cases p with
  | advection =>
    simp only [lfFlux_advection, Problem.flux]
    exact max_sub_min_eq_abs' a k
  | burgers =>
    obtain ⟨hk, ha⟩ := hp rfl
    simp only [lfFlux_burgers, Problem.flux]
    rcases le_total a k with h | h
    · rw [max_eq_right h, min_eq_left h, abs_of_nonpos (by nlinarith)]
      ring
    · rw [max_eq_left h, min_eq_right h, abs_of_nonneg (by nlinarith)]
      ring

theorem level_abs (x k : K) : max (x - k) 0 = (|x - k| + (x - k)) / 2 := by
  rcases le_total (x - k) 0 with h | h
  · rw [max_eq_right h, abs_of_nonpos h]; ring
  · rw [max_eq_left h, abs_of_nonneg h]; ring

/-- C104.  On a periodic mesh the amount above any level `k` never grows. -/
theorem C104_levels (p : Problem) (n : ℕ) (hn : 0 < n) (wall : Option (K → K))
    (il ir : Option (K → K)) (bc : BC K K) (hbc : build wall ["periodic"] 1 il ir = .ok bc) (dx : K)
    (hdx : 0 < dx) (m M : K) (steps : List K) (hsteps : ∀ dt ∈ steps, Monotonic p m M dx dt)
    (T : Tableau K) (hT : T = forwardEuler K ∨ T = heun K ∨ T = ssp3 K) (s : Solver K (Fin n → K))
    (hs : ∀ i, m ≤ s.solution i ∧ s.solution i ≤ M) :
    ∃ s', s.runE T (vecRhs n (rhs (laxFriedrichs p.riemann) dx bc)) steps = .ok s' ∧
      (∀ i, m ≤ s'.solution i ∧ s'.solution i ≤ M) ∧ ∑ i, s'.solution i = ∑ i, s.solution i ∧
      ∀ k, ∑ i, max (s'.solution i - k) 0 ≤ ∑ i, max (s.solution i - k) 0 := by
  obtain ⟨g, hg, h0, h1⟩ := cells_periodic n hn wall il ir bc hbc
  have hmM : m ≤ M := (hs ⟨0, hn⟩).1.trans (hs ⟨0, hn⟩).2
  have run : ∀ k, m ≤ k ∧ k ≤ M →
      ∃ s', s.runE T (vecRhs n (rhs (laxFriedrichs p.riemann) dx bc)) steps = .ok s' ∧
        (∀ i, m ≤ s'.solution i ∧ s'.solution i ≤ M) ∧
        ∑ i, |s'.solution i - k| ≤ ∑ i, |s.solution i - k| := by
    intro k hk
    have hconv : Convex K ({w : (Fin n → K) × (Fin n → K) |
        distance w.1 w.2 ≤ ∑ i, |s.solution i - k|} ∩ {w | w.2 = fun _ => k}) := by
      refine (distance_convex n _).inter ?_
      intro w hw z hz a b _ _ hab
      simp only [Set.mem_setOf_eq] at hw hz ⊢
      funext i
      simp only [Prod.snd_add, Prod.smul_snd, hw, hz, Pi.add_apply, Pi.smul_apply, smul_eq_mul]
      rw [← add_mul, hab, one_mul]
    obtain ⟨s', r', q1, -, ⟨q2, q3⟩, q4⟩ := lf_pair_run p n hn bc g hg dx hdx m M steps hsteps T hT _ hconv
      (by
        intro dt hdt u v hu hv huv
        refine ⟨(distance_step p m M dx dt hdx (hsteps dt hdt) g hg.middle h0 h1 u v hu hv).trans huv.1, ?_⟩
        have hv' : v = fun _ => k := huv.2
        simp only [Set.mem_setOf_eq, hv']
        funext i
        simp [newCell, eulerCell])
      s ⟨s.time, fun _ => k, [], []⟩ rfl hs (fun _ => hk) ⟨le_rfl, rfl⟩
    refine ⟨s', q1, q4, ?_⟩
    have q3' : r'.solution = fun _ => k := q3
    have q2' : distance s'.solution r'.solution ≤ _ := q2
    rw [q3'] at q2'
    exact q2'
  obtain ⟨s', q1, hbound, -⟩ := run m ⟨le_rfl, hmM⟩
  have hmass : ∑ i, s'.solution i = ∑ i, s.solution i := by
    have := C24_two_point_schemes p.riemann.nodeFlux dx wall il ir bc hbc n T s s' steps q1
    simpa only [List.sum_ofFn] using this
  refine ⟨s', q1, hbound, hmass, ?_⟩
  intro k
  simp only [level_abs, ← Finset.sum_div, Finset.sum_add_distrib, Finset.sum_sub_distrib, hmass]
  have habs : ∑ i, |s'.solution i - k| ≤ ∑ i, |s.solution i - k| := by
    by_cases hk : m ≤ k ∧ k ≤ M
    · obtain ⟨s'', q2, -, q3⟩ := run k hk
      rw [q1] at q2
      cases q2
      exact q3
    rcases lt_or_ge k m with h | h
    · have e : ∀ v : Fin n → K, (∀ i, m ≤ v i) → ∑ i, |v i - k| = ∑ i, v i - ∑ _i : Fin n, k := by
        intro v hv
        rw [← Finset.sum_sub_distrib]
        exact Finset.sum_congr rfl fun i _ => abs_of_nonneg (by linarith [hv i])
      rw [e _ fun i => (hbound i).1, e _ fun i => (hs i).1, hmass]
    · have h' : M < k := not_le.mp fun hc => hk ⟨h, hc⟩
      have e : ∀ v : Fin n → K, (∀ i, v i ≤ M) → ∑ i, |v i - k| = ∑ _i : Fin n, k - ∑ i, v i := by
        intro v hv
        rw [← Finset.sum_sub_distrib]
        exact Finset.sum_congr rfl fun i _ => by rw [abs_of_nonpos (by linarith [hv i])]; ring
      rw [e _ fun i => (hbound i).2, e _ fun i => (hs i).2, hmass]
  linarith

/-- C104.  Every convex function of the cells has a sum that never grows: each is an entropy of the
scheme.  The square gives the energy. -/
theorem C104_convex (p : Problem) (n : ℕ) (hn : 0 < n) (wall : Option (K → K))
    (il ir : Option (K → K)) (bc : BC K K) (hbc : build wall ["periodic"] 1 il ir = .ok bc) (dx : K)
    (hdx : 0 < dx) (m M : K) (steps : List K) (hsteps : ∀ dt ∈ steps, Monotonic p m M dx dt)
    (T : Tableau K) (hT : T = forwardEuler K ∨ T = heun K ∨ T = ssp3 K) (s : Solver K (Fin n → K))
    (hs : ∀ i, m ≤ s.solution i ∧ s.solution i ≤ M) (η : K → K) (hη : ConvexOn K (Set.Icc m M) η) :
    ∃ s', s.runE T (vecRhs n (rhs (laxFriedrichs p.riemann) dx bc)) steps = .ok s' ∧
      ∑ i, η (s'.solution i) ≤ ∑ i, η (s.solution i) := by
  obtain ⟨s', h1, h2, h3, h4⟩ := C104_levels p n hn wall il ir bc hbc dx hdx m M steps hsteps T hT s hs
  exact ⟨s', h1, Majorize.sum_convex _ _ h3 h4 _ η hη h2 hs⟩

/-- C104.  The bound of the time step is sharp for Burgers' equation: for every larger ratio up to the
bound that keeps the range of the data (C28) there are ordered states on three periodic cells whose order
is lost in one step. -/
theorem C104_sharp (il ir : Option (K → K)) (bc : BC K K)
    (hbc : build none ["periodic"] 1 il ir = .ok bc) (dx : K) (hdx : 0 < dx) (dt : K)
    (hdt : dx < 2 * dt) :
    ∃ (u v : Fin 3 → K) (a b : Fin 3 → K) (m : K), 0 < m ∧ (∀ i, m ≤ u i ∧ u i ≤ v i ∧ v i ≤ 1) ∧
      vecRhs 3 (rhs (laxFriedrichs Problem.burgers.riemann) dx bc) 0 u = .ok a ∧
      vecRhs 3 (rhs (laxFriedrichs Problem.burgers.riemann) dx bc) 0 v = .ok b ∧
      v 1 + dt * b 1 < u 1 + dt * a 1 := by
  obtain ⟨g, hg, -⟩ := cells_periodic 3 (by norm_num) none il ir bc hbc
  have hd : 0 < dt := by linarith
  have hl : 1 < 2 * (dt / dx) := by rw [← mul_div_assoc, one_lt_div hdx]; exact hdt
  have hl0 : 0 < dt / dx := by positivity
  set lam := dt / dx with hlam
  set d : K := (1 - 1 / (2 * lam)) / 2 with hdef
  have hdl : 2 * lam * (1 - d) = lam + 1 / 2 := by
    rw [hdef]; field_simp; ring
  have d0 : 0 < d := by
    have : 1 / (2 * lam) < 1 := (div_lt_one (by linarith)).mpr hl
    rw [hdef]; linarith
  have d1 : d < 1 / 2 := by
    have : 0 < 1 / (2 * lam) := by positivity
    rw [hdef]; linarith
  obtain ⟨a, ha, ha'⟩ := newCell_eq .burgers 3 bc g hg dx hdx d dt (fun _ => d0) 0 ![d, 1 - d, d] (by
    intro i; fin_cases i <;> simp; linarith)
  obtain ⟨b, hb, hb'⟩ := newCell_eq .burgers 3 bc g hg dx hdx d dt (fun _ => d0) 0 ![d, 1, d] (by
    intro i; fin_cases i <;> simp; linarith)
  refine ⟨_, _, a, b, d, d0, ?_, ha, hb, ?_⟩
  · intro i
    fin_cases i <;> simp <;> (try constructor) <;> linarith
  have e1 := congrFun ha' 1
  have e2 := congrFun hb' 1
  have g1 : g 1 = 0 := hg.middle 0
  have g2 : g 2 = 1 := hg.middle 1
  have g3 : g 3 = 2 := hg.middle 2
  simp only [Pi.add_apply, Pi.smul_apply, smul_eq_mul] at e1 e2
  rw [e1, e2]
  simp only [newCell, eulerCell, Fin.val_one, Nat.reduceAdd, g1, g2, g3, lfFlux_burgers, Matrix.cons_val_zero,
    Matrix.cons_val_one, Matrix.cons_val]
  rw [max_eq_right (by linarith : d ≤ 1), max_eq_left (by linarith : d ≤ 1),
    max_eq_right (by linarith : d ≤ 1 - d), max_eq_left (by linarith : d ≤ 1 - d)]
  have : 0 < d * (2 * lam * (1 - d) - 1) := mul_pos d0 (by rw [hdl]; linarith)
  nlinarith

/-- C104, whole runs of the solver.  Two solvers for the same problem on a periodic mesh, with CFL number
at most 1 for advection, `m > 0` and CFL number times `M` at most 1/2 for Burgers' equation, from cell
values `u` and `v` in `[m, M]`.  After every number of passes through the loop both are in the same phase
and at the same time, their values are not further apart than `u` and `v`, and if `u ≤ v` the values are
ordered as well. -/
theorem C104_solve (p : Problem) (n : ℕ) (hn : 0 < n) (il ir : Option (K → K)) (bc : BC K K)
    (hbc : build none ["periodic"] 1 il ir = .ok bc) (T : Tableau K)
    (hT : T = forwardEuler K ∨ T = heun K ∨ T = ssp3 K) (dx cfl t0 t1 : K) (hdx : 0 < dx)
    (hstep : 1 / 10 ^ 12 ≤ dx * cfl) (hdur : 1 / 10 ^ 12 ≤ t1 - t0) (m M : K)
    (ha : p = .advection → cfl ≤ 1) (hb : p = .burgers → 0 < m ∧ 2 * cfl * M ≤ 1)
    (u v : Fin n → K) (hu : ∀ i, m ≤ u i ∧ u i ≤ M) (hv : ∀ i, m ≤ v i ∧ v i ≤ M) (k : ℕ) :
    let P := EndToEnd.fvParams n T (rhs (laxFriedrichs p.riemann) dx bc) dx cfl t0 t1
    let x := Solver.solve P (Solver.Obj.make P ⟨u, t0, t1⟩) k
    let y := Solver.solve P (Solver.Obj.make P ⟨v, t0, t1⟩) k
    x.2 = y.2 ∧ x.1.sol.sol.time = y.1.sol.sol.time ∧
    distance x.1.sol.sol.value y.1.sol.sol.value ≤ distance u v ∧
    ((∀ i, u i ≤ v i) → ∀ i, x.1.sol.sol.value i ≤ y.1.sol.sol.value i) := by
  intro P x y
  have hcfl : 0 < cfl := by
    have : (0 : K) < dx * cfl := lt_of_lt_of_le (by positivity) hstep
    exact (pos_iff_pos_of_mul_pos this).mp hdx
  have hb' : p = .burgers → 0 < m ∧ cfl * M ≤ 1 := by
    intro hp
    obtain ⟨b1, b2⟩ := hb hp
    have hM : 0 < M := b1.trans_le ((hu ⟨0, hn⟩).1.trans (hu ⟨0, hn⟩).2)
    have : 0 < cfl * M := mul_pos hcfl hM
    exact ⟨b1, by linarith⟩
  have ok : ∀ w : Fin n → K, (∀ i, m ≤ w i ∧ w i ≤ M) → ∀ e,
      (Solver.solve P (Solver.Obj.make P ⟨w, t0, t1⟩) k).2 ≠ .raised e := by
    intro w hw e he
    rcases (EndToEnd.C95_lax_friedrichs p n hn il ir bc "periodic" (Or.inl rfl) hbc T hT dx cfl t0 t1 hdx
      hstep hdur m M ha hb' w hw).2.1 k with h | h <;> rw [show _ = _ from he] at h <;> cases h
  obtain ⟨c1, -, c3, -⟩ := Solver.link P (Solver.Obj.make P ⟨u, t0, t1⟩) k (ok u hu)
  obtain ⟨d1, -, d3, -⟩ := Solver.link P (Solver.Obj.make P ⟨v, t0, t1⟩) k (ok v hv)
  have hclock : Solver.clock P (Solver.Obj.make P ⟨v, t0, t1⟩) k =
      Solver.clock P (Solver.Obj.make P ⟨u, t0, t1⟩) k := rfl
  rw [hclock] at d1 d3
  have hsteps : ∀ dt ∈ (Solver.clock P (Solver.Obj.make P ⟨u, t0, t1⟩) k).steps,
      Monotonic p m M dx dt := by
    intro dt hdt
    have h1 : 1 / 10 ^ 12 ≤ dt := (TimeStepping.C01_times_increase_to_end _ _ k).2.2.1 _ hdt
    obtain ⟨i, hi, rfl⟩ := List.getElem_of_mem hdt
    have h2 : (Solver.clock P (Solver.Obj.make P ⟨u, t0, t1⟩) k).steps[i] ≤ dx * cfl := by
      have := TimeStepping.C01_steps_exact (Solver.schedule P (Solver.Obj.make P ⟨u, t0, t1⟩))
        (Solver.start P) k i hi
      exact this.le.trans (min_le_left _ _)
    have h0 : 0 ≤ (Solver.clock P (Solver.Obj.make P ⟨u, t0, t1⟩) k).steps[i] :=
      le_trans (by positivity) h1
    refine ⟨h0, fun hp => ?_, fun hp => ?_⟩
    · exact h2.trans (mul_le_of_le_one_right hdx.le (ha hp))
    · obtain ⟨b1, b2⟩ := hb hp
      have hM : 0 ≤ M := b1.le.trans ((hu ⟨0, hn⟩).1.trans (hu ⟨0, hn⟩).2)
      refine ⟨b1, ?_⟩
      calc _ ≤ 2 * (dx * cfl) * M := by
            apply mul_le_mul_of_nonneg_right _ hM
            linarith
        _ = dx * (2 * cfl * M) := by ring
        _ ≤ dx := mul_le_of_le_one_right hdx.le b2
  have sx := Solver.course_sync c1 (Solver.make_sync P _)
  have sy := Solver.course_sync d1 (Solver.make_sync P _)
  refine ⟨?_, ?_, ?_, ?_⟩
  · have := c3.trans d3.symm
    change Solver.statusOf x.2 = Solver.statusOf y.2 at this
    have h1 := ok u hu
    have h2 := ok v hv
    change ∀ e, x.2 ≠ .raised e at h1
    change ∀ e, y.2 ≠ .raised e at h2
    cases hx : x.2 <;> cases hy : y.2 <;> rw [hx] at h1 <;> rw [hy] at h2 <;> rw [hx, hy] at this <;>
      simp [Solver.statusOf] at this h1 h2 ⊢
  · exact c1.time.trans d1.time.symm
  · obtain ⟨s', r', q1, q2, q3⟩ := C104_contraction p n hn none il ir bc hbc dx hdx m M _ hsteps T hT
      (Solver.Obj.make P ⟨u, t0, t1⟩).ode (Solver.Obj.make P ⟨v, t0, t1⟩).ode rfl hu hv
    have e1 := Except.ok.inj (q1.symm.trans c1.ode)
    have e2 := Except.ok.inj (q2.symm.trans d1.ode)
    rw [e1, e2] at q3
    rw [sx.2, sy.2]
    exact q3
  · intro huv
    obtain ⟨s', r', q1, q2, q3⟩ := C104_order p n hn none il ir bc "periodic" (Or.inl rfl) hbc dx hdx m M _
      hsteps T hT (Solver.Obj.make P ⟨u, t0, t1⟩).ode (Solver.Obj.make P ⟨v, t0, t1⟩).ode rfl
      (fun i => (hu i).1) (fun i => (hv i).2) huv
    have e1 := Except.ok.inj (q1.symm.trans c1.ode)
    have e2 := Except.ok.inj (q2.symm.trans d1.ode)
    rw [e1, e2] at q3
    rw [sx.2, sy.2]
    exact q3

/-! ### Examples -/

/-- The periodic boundary conditions of radius 1. -/
def exampleCircle : BC ℚ ℚ := ⟨[.copy (-1)], [.copy 0], true⟩

example : build none ["periodic"] 1 none none = .ok exampleCircle := rfl

/-- Contraction needs the smaller step as well: for Burgers' equation with steps twice as large (CFL
number 1) the distance of two states grows from 1/2. -/
theorem C104_contraction_counterexample :
    okAnd ((Solver.init ![1 / 100, 1, 1 / 100] 0 : Solver ℚ (Fin 3 → ℚ)).runE (forwardEuler ℚ)
      (vecRhs 3 (rhs (K := ℚ) (laxFriedrichs (Problem.burgers.riemann (K := ℚ))) 1 exampleCircle)) [1])
    (fun s => okAnd ((Solver.init ![1 / 100, 1 / 2, 1 / 100] 0 : Solver ℚ (Fin 3 → ℚ)).runE (forwardEuler ℚ)
      (vecRhs 3 (rhs (K := ℚ) (laxFriedrichs (Problem.burgers.riemann (K := ℚ))) 1 exampleCircle)) [1])
    (fun r => decide (distance ![1 / 100, 1, 1 / 100] ![1 / 100, 1 / 2, (1 / 100 : ℚ)] = 1 / 2 ∧
      9 / 10 < distance s.solution r.solution))) = true := by decide +kernel

/-- Non-vacuity: the steps of the next example are admissible. -/
example : ∀ dt ∈ [(1 / 4 : ℚ), 1 / 8], Monotonic .burgers (1 / 4) 2 1 dt := by
  intro dt hdt
  simp only [List.mem_cons, List.not_mem_nil, or_false] at hdt
  rcases hdt with rfl | rfl <;> norm_num [Monotonic]

/-- Non-vacuity: two Heun steps for Burgers' equation on three periodic cells; the states are not
ordered, and their distance falls. -/
example : okAnd ((Solver.init ![1, 1 / 2, 1 / 4] 0 : Solver ℚ (Fin 3 → ℚ)).runE (heun ℚ)
      (vecRhs 3 (rhs (K := ℚ) (laxFriedrichs (Problem.burgers.riemann (K := ℚ))) 1 exampleCircle))
      [1 / 4, 1 / 8])
    (fun s => okAnd ((Solver.init ![2, 1 / 4, 1 / 2] 0 : Solver ℚ (Fin 3 → ℚ)).runE (heun ℚ)
      (vecRhs 3 (rhs (K := ℚ) (laxFriedrichs (Problem.burgers.riemann (K := ℚ))) 1 exampleCircle))
      [1 / 4, 1 / 8])
    (fun r => decide (0 < distance s.solution r.solution ∧
      distance s.solution r.solution <
        distance ![1, 1 / 2, 1 / 4] ![2, 1 / 4, (1 / 2 : ℚ)]))) = true := by decide +kernel

/-- Non-vacuity: the same for ordered states. -/
example : okAnd ((Solver.init ![1, 1 / 2, 1 / 4] 0 : Solver ℚ (Fin 3 → ℚ)).runE (ssp3 ℚ)
      (vecRhs 3 (rhs (K := ℚ) (laxFriedrichs (Problem.burgers.riemann (K := ℚ))) 1 exampleCircle))
      [1 / 4, 1 / 8])
    (fun s => okAnd ((Solver.init ![2, 1 / 2, 1 / 2] 0 : Solver ℚ (Fin 3 → ℚ)).runE (ssp3 ℚ)
      (vecRhs 3 (rhs (K := ℚ) (laxFriedrichs (Problem.burgers.riemann (K := ℚ))) 1 exampleCircle))
      [1 / 4, 1 / 8])
    (fun r => decide (∀ i, s.solution i < r.solution i))) = true := by decide +kernel

/-- Non-vacuity: a convex function. -/
example : ConvexOn ℚ (Set.Icc (1 / 4) 2) (fun x : ℚ => |x - 1|) :=
  ⟨convex_Icc _ _, fun x _ y _ a b ha hb hab => by
    simp only [smul_eq_mul]
    have : a * x + b * y - 1 = a * (x - 1) + b * (y - 1) := by linear_combination hab
    rw [this]
    refine (abs_add_le _ _).trans ?_
    rw [abs_mul, abs_mul, abs_of_nonneg ha, abs_of_nonneg hb]⟩

end Verif.Scalar
