import Verif.Props.EntropyRuns
import Mathlib.Topology.Order.Compact

/-!
Property C132: what the solutions computed with the Lax-Friedrichs flux converge to is the entropy solution.
-/

set_option linter.unusedSectionVars false

namespace Verif.EntropyLimit

open Verif.Py Verif.Boundary Verif.FV Verif.ODE Verif.Scalar Verif.Convergence Verif.Weak
open Verif.Interpolate Verif.Quadrature Verif.Bench
open Verif.Mesh hiding Error
open MeasureTheory Set

/-! ### Specification -/

/-- The weak form of the entropy inequality for the times from `t₀` to `S` on the interval of length `P` that begins
at `a`: `u` is a function of time and space, `u0` are the data at time `t₀`. -/
noncomputable def weakForm (f : ℝ → ℝ) (k a P t₀ S : ℝ) (u : ℝ × ℝ → ℝ) (u0 : ℝ → ℝ) (φ φt φx : ℝ → ℝ → ℝ) : ℝ :=
  (∫ z in Ioc t₀ S ×ˢ Ioc a (a + P), (|u z - k| * φt z.1 z.2 + kruzhkovFlux f k (u z) * φx z.1 z.2)) +
    ∫ x in a..a + P, |u0 x - k| * φ t₀ x

/-- Entropy solutions of the conservation law with flux `f`, period `P` in space and data `u0`. -/
def EntropySolution (f : ℝ → ℝ) (a P t₀ S : ℝ) (u : ℝ × ℝ → ℝ) (u0 : ℝ → ℝ) : Prop :=
  ∀ k A B φ φt φx, Test P S A B φ φt φx → 0 ≤ weakForm f k a P t₀ S u u0 φ φt φx

/-- `u` is the piecewise constant function that a run computes: between two time steps it has the values of the cells
at the first of them.  `u0` are the values at the beginning. -/
structure Computed {n : ℕ} (T : Tableau ℝ) (sys : ℝ → (Fin n → ℝ) → Except Py.Error (Fin n → ℝ))
    (s : Solver ℝ (Fin n → ℝ)) (steps : List ℝ) (a dx : ℝ) (u : ℝ × ℝ → ℝ) (u0 : ℝ → ℝ) : Prop where
  initial : ∀ (i : Fin n) (x : ℝ), a + i * dx < x → x ≤ a + (i + 1) * dx → u0 x = s.solution i
  later : ∀ j (hj : j < steps.length), ∃ s', s.runE T sys (steps.take j) = .ok s' ∧
    ∀ (i : Fin n) (t x : ℝ), s'.time < t → t ≤ s'.time + steps[j] → a + i * dx < x → x ≤ a + (i + 1) * dx →
      u (t, x) = s'.solution i

/-! ### Helper lemmas: entropies outside of the range of the data -/

section Entropies

variable {q : ℝ → ℝ} {m M Λ : ℝ}

/-- Every entropy differs by constants from one that belongs to a value in the range of the data. -/
theorem inside (q : ℝ → ℝ) (hmM : m ≤ M) (k : ℝ) : ∃ k' c₁ c₂ : ℝ, m ≤ k' ∧ k' ≤ M ∧ ∀ v, m ≤ v → v ≤ M →
    |v - k| = |v - k'| + c₁ ∧ kruzhkovFlux q k v = kruzhkovFlux q k' v + c₂ := by
  rcases lt_or_ge k m with h | h
  · refine ⟨m, m - k, q m - q k, le_rfl, hmM, fun v h1 h2 => ⟨?_, ?_⟩⟩
    · rw [abs_of_nonneg (by linarith), abs_of_nonneg (by linarith)]; ring
    · rw [kruzhkov_above q k v (by linarith), kruzhkov_above q m v h1]; ring
  · rcases le_or_gt k M with h' | h'
    · exact ⟨k, 0, 0, h, h', fun v h1 _ => ⟨by ring, by ring⟩⟩
    · refine ⟨M, k - M, q k - q M, hmM, le_rfl, fun v h1 h2 => ⟨?_, ?_⟩⟩
      · rw [abs_of_nonpos (by linarith), abs_of_nonpos (by linarith)]; ring
      · rw [kruzhkov_below q k v (by linarith), kruzhkov_below q M v h2]; ring

theorem kruzhkov_lipschitz (hq : Slope q m M Λ) (hmM : m ≤ M) (k a b : ℝ) (ha : m ≤ a ∧ a ≤ M) (hb : m ≤ b ∧ b ≤ M) :
    |kruzhkovFlux q k a - kruzhkovFlux q k b| ≤ Λ * |a - b| := by
  obtain ⟨k', c₁, c₂, h1, h2, h⟩ := inside q hmM k
  rw [(h a ha.1 ha.2).2, (h b hb.1 hb.2).2, add_sub_add_right_eq_sub]
  exact hq.kruzhkov k' a b ⟨h1, h2⟩ ha hb

theorem kruzhkov_bound (k Q v : ℝ) (hQ : |q v - q k| ≤ Q) : |kruzhkovFlux q k v| ≤ Q := by
  unfold kruzhkovFlux
  rw [abs_mul]
  rcases Real.sign_apply_eq (v - k) with h | h | h <;> rw [h]
  · simpa using hQ
  · simpa using (abs_nonneg _).trans hQ
  · simpa using hQ

end Entropies

/-- The entropy inequality of a step, for all entropies. -/
theorem dissipates_all {q : ℝ → ℝ} {m M lam C : ℝ} {n : ℕ} (hmM : m ≤ M)
    (u u' : Fin n → ℝ) (hu : ∀ i, m ≤ u i ∧ u i ≤ M) (hu' : ∀ i, m ≤ u' i ∧ u' i ≤ M)
    (h : ∀ k, m ≤ k → k ≤ M → Dissipates q n lam k C u u') (k : ℝ) :
    ∃ G : ℕ → ℝ, G n = G 0 ∧ (∀ i : Fin n, |u' i - k| ≤ |u i - k| - lam * (G (i + 1) - G i)) ∧
      ∑ i : Fin n, |G (i + 1) - kruzhkovFlux q k (u i)| ≤ C := by
  obtain ⟨k', c₁, c₂, h1, h2, h3⟩ := inside q hmM k
  obtain ⟨G, g1, g2, g3⟩ := h k' h1 h2
  refine ⟨fun j => G j + c₂, by simp only [g1], fun i => ?_, ?_⟩
  · have := g2 i
    rw [(h3 _ (hu i).1 (hu i).2).1, (h3 _ (hu' i).1 (hu' i).2).1]
    have e : (G (i + 1) + c₂) - (G i + c₂) = G (i + 1) - G i := by ring
    rw [e]
    linarith
  · refine le_of_eq_of_le (Finset.sum_congr rfl fun i _ => ?_) g3
    rw [(h3 _ (hu i).1 (hu i).2).2, add_sub_add_right_eq_sub]

/-! ### Helper lemmas: the states of a run -/

/-- The time after `j` steps. -/
def after (t₀ : ℝ) (steps : List ℝ) (j : ℕ) : ℝ := t₀ + (steps.take j).sum

theorem after_zero (t₀ : ℝ) (steps : List ℝ) : after t₀ steps 0 = t₀ := by simp [after]

theorem after_succ (t₀ : ℝ) (steps : List ℝ) (j : ℕ) (hj : j < steps.length) :
    after t₀ steps (j + 1) = after t₀ steps j + steps[j] := by
  unfold after
  rw [List.take_add_one, List.getElem?_eq_getElem hj, List.sum_append, Option.toList_some, List.sum_singleton]
  ring

theorem after_length (t₀ : ℝ) (steps : List ℝ) : after t₀ steps steps.length = t₀ + steps.sum := by
  unfold after
  rw [List.take_length]

theorem after_mono (t₀ : ℝ) (steps : List ℝ) (h : ∀ dt ∈ steps, 0 ≤ dt) : Monotone (after t₀ steps) := by
  refine monotone_nat_of_le_succ fun j => ?_
  rcases lt_or_ge j steps.length with hj | hj
  · rw [after_succ _ _ _ hj]
    linarith [h _ (List.getElem_mem hj)]
  · unfold after
    rw [List.take_of_length_le hj, List.take_of_length_le (hj.trans (Nat.le_succ _))]

/-- The states of a run: they stay in the range with bounded jumps, and every step satisfies the entropy inequality. -/
structure RunStates (q : ℝ → ℝ) (Λ m M V dx : ℝ) {n : ℕ} (g : ℕ → Fin n)
    (sys : ℝ → (Fin n → ℝ) → Except Py.Error (Fin n → ℝ)) (T : Tableau ℝ) (s : Solver ℝ (Fin n → ℝ)) (steps : List ℝ)
    (states : ℕ → Fin n → ℝ) : Prop where
  start : states 0 = s.solution
  state : ∀ j ≤ steps.length, states j ∈ States g m M V ∧
    ∃ s', s.runE T sys (steps.take j) = .ok s' ∧ s'.solution = states j ∧ s'.time = after s.time steps j
  moves : ∀ j (hj : j < steps.length), distance (states (j + 1)) (states j) ≤ 2 * (steps[j] / dx * Λ) * V
  dissipates : ∀ j (hj : j < steps.length), ∀ k, m ≤ k → k ≤ M →
    Dissipates q n (steps[j] / dx) k (2 * Λ * V) (states j) (states (j + 1))

/-- A run all of whose steps are as they should be; whether a step is may depend on the state. -/
theorem run_along {q : ℝ → ℝ} {m M Λ V dx : ℝ} {n : ℕ} (sys : ℝ → (Fin n → ℝ) → Except Py.Error (Fin n → ℝ))
    (g : ℕ → Fin n) (T : Tableau ℝ) (ok : ℝ → (Fin n → ℝ) → Prop)
    (hone : ∀ dt (s : Solver ℝ (Fin n → ℝ)), ok dt s.solution → s.solution ∈ States g m M V →
      ∃ s', s.executeE T sys dt = .ok s' ∧ s'.time = s.time + dt ∧ s'.solution ∈ States g m M V ∧
        distance s'.solution s.solution ≤ 2 * (dt / dx * Λ) * V ∧
        ∀ k, m ≤ k → k ≤ M → Dissipates q n (dt / dx) k (2 * Λ * V) s.solution s'.solution)
    (steps : List ℝ) (s : Solver ℝ (Fin n → ℝ)) (hs : s.solution ∈ States g m M V)
    (hsteps : ∀ j (hj : j < steps.length), ∀ s', s.runE T sys (steps.take j) = .ok s' → ok steps[j] s'.solution) :
    ∃ states : ℕ → Fin n → ℝ, RunStates q Λ m M V dx g sys T s steps states := by
  induction steps generalizing s with
  | nil =>
    refine ⟨fun _ => s.solution, rfl, fun j hj => ⟨hs, s, ?_, rfl, ?_⟩, fun j hj => absurd hj (by simp),
      fun j hj => absurd hj (by simp)⟩
    · simp [Solver.runE]
    · simp [after]
  | cons dt steps ih =>
    obtain ⟨s1, a1, a2, a3, a4, a5⟩ := hone dt s (hsteps 0 (by simp) s (by simp [Solver.runE])) hs
    obtain ⟨states, b1, b2, b3, b4⟩ := ih s1 a3 fun j hj s' h => by
      have := hsteps (j + 1) (by simpa using hj) s' (by
        rw [List.take_succ_cons]
        simp only [Solver.runE, a1]
        exact h)
      simpa using this
    refine ⟨fun j => j.casesOn s.solution states, rfl, fun j hj => ?_, fun j hj => ?_, fun j hj => ?_⟩
    · cases j with
      | zero => exact ⟨hs, s, by simp [Solver.runE], rfl, by simp [after]⟩
      | succ j =>
        obtain ⟨c1, s', c2, c3, c4⟩ := b2 j (by simpa using hj)
        refine ⟨c1, s', ?_, c3, ?_⟩
        · rw [List.take_succ_cons]
          simp only [Solver.runE, a1]
          exact c2
        · rw [c4, after, after, a2, List.take_succ_cons, List.sum_cons]; ring
    · cases j with
      | zero => simpa [b1] using a4
      | succ j => simpa using b3 j (by simpa using hj)
    · cases j with
      | zero => simpa [b1] using a5
      | succ j => simpa using b4 j (by simpa using hj)

theorem run_states {q : ℝ → ℝ} {F : ℝ → ℝ → ℝ} {H : ℝ → ℝ → ℝ → ℝ} {m M Λ c dx : ℝ} {n : ℕ} (hF : Scheme q F H m M Λ c)
    (sys : ℝ → (Fin n → ℝ) → Except Py.Error (Fin n → ℝ)) (g : ℕ → Fin n) (hmid : ∀ i : Fin n, g (i + 1) = i)
    (h0 : g n = g 0) (h1 : g (n + 1) = g 1)
    (hsys : ∀ dt t u, (∀ i, m ≤ u i ∧ u i ≤ M) → ∃ w, sys t u = .ok w ∧ u + dt • w = cellMap F (dt / dx) g u) (T : Tableau ℝ)
    (hT : T = forwardEuler ℝ ∨ T = heun ℝ ∨ T = ssp3 ℝ) (V : ℝ) (steps : List ℝ)
    (hsteps : ∀ dt ∈ steps, 0 ≤ dt / dx ∧ dt / dx * c ≤ 1) (s : Solver ℝ (Fin n → ℝ)) (hs : s.solution ∈ States g m M V) :
    ∃ states : ℕ → Fin n → ℝ, RunStates q Λ m M V dx g sys T s steps states :=
  run_along sys g T (fun dt _ => 0 ≤ dt / dx ∧ dt / dx * c ≤ 1)
    (fun dt s h hs => dissipates_step hF h.1 h.2 sys g hmid h0 h1 (hsys dt) T hT V s hs) steps s hs
    fun _ hj _ _ => hsteps _ (List.getElem_mem hj)

theorem cyclic_jumps {n : ℕ} (hn : 0 < n) (g : ℕ → Fin n) (hmid : ∀ i : Fin n, g (i + 1) = i) (h1 : g (n + 1) = g 1)
    (u : Fin n → ℝ) : cyclicVariation (List.ofFn u) = jumps g u := by
  rw [cyclicVariation_eq _ n (by simp) hn, ← Fin.sum_univ_eq_sum_range
    (fun j => |(List.ofFn u).getD ((j + 1) % n) 0 - (List.ofFn u).getD (j % n) 0|)]
  unfold jumps distance moved
  refine Finset.sum_congr rfl fun i _ => ?_
  have e : ∀ j, (List.ofFn u).getD (j % n) 0 = u ⟨j % n, Nat.mod_lt _ hn⟩ := by
    intro j
    rw [List.getD_eq_getElem _ _ (by simpa using Nat.mod_lt _ hn), List.getElem_ofFn]
  rw [e, e]
  have e1 : (⟨(i : ℕ) % n, Nat.mod_lt _ hn⟩ : Fin n) = i := Fin.ext (Nat.mod_eq_of_lt i.2)
  rw [e1]
  by_cases h : (i : ℕ) + 1 < n
  · have := hmid ⟨i + 1, h⟩
    rw [show g (i + 2) = ⟨i + 1, h⟩ from this]
    congr 3
    exact Fin.ext (Nat.mod_eq_of_lt h)
  · have hi : (i : ℕ) + 1 = n := by have := i.2; omega
    have := hmid ⟨0, hn⟩
    rw [show (i : ℕ) + 2 = n + 1 by omega, h1, show g 1 = ⟨0, hn⟩ from this]
    congr 3
    exact Fin.ext (by simp [hi])

/-! ### Helper lemmas: the grid covers the strip -/

theorem interval_cover (t : ℕ → ℝ) (N : ℕ) (x : ℝ) (h0 : t 0 < x) (h1 : x ≤ t N) :
    ∃ j < N, t j < x ∧ x ≤ t (j + 1) := by
  induction N with
  | zero => exact absurd h1 (not_le.2 h0)
  | succ N ih =>
    rcases le_or_gt x (t N) with h | h
    · obtain ⟨j, hj, a⟩ := ih h
      exact ⟨j, by omega, a⟩
    · exact ⟨N, by omega, h, h1⟩

theorem interval_unique (t : ℕ → ℝ) (ht : Monotone t) (x : ℝ) {i j : ℕ} (hi : t i < x ∧ x ≤ t (i + 1))
    (hj : t j < x ∧ x ≤ t (j + 1)) : i = j := by
  by_contra h
  rcases lt_or_gt_of_ne h with h | h
  · have := ht (show i + 1 ≤ j by omega)
    linarith [hi.2, hj.1]
  · have := ht (show j + 1 ≤ i by omega)
    linarith [hi.1, hj.2]

theorem cell_cover (t x : ℕ → ℝ) (N n : ℕ) :
    cell (t 0) (t N) (x 0) (x n) ⊆ ⋃ j ∈ Finset.range N, ⋃ i ∈ Finset.range n,
      cell (t j) (t (j + 1)) (x i) (x (i + 1)) := by
  rintro ⟨z, y⟩ ⟨⟨a1, a2⟩, b1, b2⟩
  obtain ⟨j, hj, c1, c2⟩ := interval_cover t N z a1 a2
  obtain ⟨i, hi, d1, d2⟩ := interval_cover x n y b1 b2
  simp only [mem_iUnion, Finset.mem_range]
  exact ⟨j, hj, i, hi, ⟨c1, c2⟩, d1, d2⟩

/-- Functions that are integrable on the cells. -/
theorem cover_integrable {f : ℝ × ℝ → ℝ} (t x : ℕ → ℝ) (N n : ℕ)
    (h : ∀ j < N, ∀ i < n, IntegrableOn f (cell (t j) (t (j + 1)) (x i) (x (i + 1)))) :
    IntegrableOn f (cell (t 0) (t N) (x 0) (x n)) := by
  refine IntegrableOn.mono_set ?_ (cell_cover t x N n)
  rw [integrableOn_finset_iUnion]
  intro j hj
  rw [integrableOn_finset_iUnion]
  exact fun i hi => h j (Finset.mem_range.1 hj) i (Finset.mem_range.1 hi)

/-- The nodes of the grid in space. -/
def nodeAt (a dx : ℝ) (i : ℕ) : ℝ := a + i * dx

theorem nodeAt_zero (a dx : ℝ) : nodeAt a dx 0 = a := by simp [nodeAt]

theorem nodeAt_succ (a dx : ℝ) (i : ℕ) : nodeAt a dx (i + 1) = a + ((i : ℝ) + 1) * dx := by
  simp [nodeAt]

theorem nodeAt_mono (a dx : ℝ) (h : 0 ≤ dx) : Monotone (nodeAt a dx) := by
  intro i j hij
  unfold nodeAt
  have : (i : ℝ) ≤ j := by exact_mod_cast hij
  nlinarith

/-! ### Helper lemmas: the computed function on the grid -/

/-- What is known about a computed function: its values on the cells, with the inequalities of every step. -/
structure OnGrid (q : ℝ → ℝ) (Λ m M V dx a t₀ : ℝ) (n : ℕ) (steps : List ℝ) (states : ℕ → Fin n → ℝ)
    (u : ℝ × ℝ → ℝ) (u0 : ℝ → ℝ) : Prop where
  range : ∀ j ≤ steps.length, ∀ i, m ≤ states j i ∧ states j i ≤ M
  initial : ∀ (i : Fin n), ∀ x ∈ Ioc (nodeAt a dx i) (nodeAt a dx (i + 1)), u0 x = states 0 i
  later : ∀ j < steps.length, ∀ i : Fin n,
    ∀ z ∈ cell (after t₀ steps j) (after t₀ steps (j + 1)) (nodeAt a dx i) (nodeAt a dx (i + 1)), u z = states j i
  variation : ∀ j ≤ steps.length, cyclicVariation (List.ofFn (states j)) ≤ V
  moves : ∀ j (hj : j < steps.length), distance (states (j + 1)) (states j) ≤ 2 * (steps[j] / dx * Λ) * V
  dissipates : ∀ j (hj : j < steps.length), ∀ k, m ≤ k → k ≤ M →
    Dissipates q n (steps[j] / dx) k (2 * Λ * V) (states j) (states (j + 1))

/-- The computed function of a run. -/
theorem RunStates.on_grid {q : ℝ → ℝ} {Λ m M V dx : ℝ} {n : ℕ} {g : ℕ → Fin n} (hmid : ∀ i : Fin n, g (i + 1) = i)
    (h1 : g (n + 1) = g 1) {sys : ℝ → (Fin n → ℝ) → Except Py.Error (Fin n → ℝ)} {T : Tableau ℝ}
    {s : Solver ℝ (Fin n → ℝ)} {steps : List ℝ} {states : ℕ → Fin n → ℝ}
    (h : RunStates q Λ m M V dx g sys T s steps states) {a : ℝ} {u : ℝ × ℝ → ℝ} {u0 : ℝ → ℝ}
    (hu : Computed T sys s steps a dx u u0) : OnGrid q Λ m M V dx a s.time n steps states u u0 := by
  have hn : 0 < n := (g 0).pos
  refine ⟨fun j hj => (h.state j hj).1.1, fun i x hx => ?_, fun j hj i z hz => ?_, fun j hj => ?_, h.moves, h.dissipates⟩
  · rw [h.start]
    rw [nodeAt_succ] at hx
    exact hu.initial i x hx.1 hx.2
  · obtain ⟨s', b1, b2⟩ := hu.later j hj
    obtain ⟨-, s'', c1, c2, c3⟩ := h.state j hj.le
    rw [b1] at c1
    obtain rfl : s' = s'' := by simpa using c1
    obtain ⟨⟨z1, z2⟩, z3, z4⟩ := hz
    rw [after_succ _ _ _ hj] at z2
    rw [nodeAt_succ] at z4
    rw [← c2]
    exact b2 i z.1 z.2 (by rw [c3]; exact z1) (by rw [c3]; exact z2) z3 z4
  · rw [cyclic_jumps hn g hmid h1]
    exact (h.state j hj).1.2

/-- The computed function of a run of a scheme. -/
theorem grid_run {q : ℝ → ℝ} {F : ℝ → ℝ → ℝ} {H : ℝ → ℝ → ℝ → ℝ} {m M Λ c dx : ℝ} {n : ℕ} (hF : Scheme q F H m M Λ c)
    (sys : ℝ → (Fin n → ℝ) → Except Py.Error (Fin n → ℝ)) (g : ℕ → Fin n) (hmid : ∀ i : Fin n, g (i + 1) = i)
    (h0 : g n = g 0) (h1 : g (n + 1) = g 1)
    (hsys : ∀ dt t u, (∀ i, m ≤ u i ∧ u i ≤ M) → ∃ w, sys t u = .ok w ∧ u + dt • w = cellMap F (dt / dx) g u) (T : Tableau ℝ)
    (hT : T = forwardEuler ℝ ∨ T = heun ℝ ∨ T = ssp3 ℝ) (V : ℝ) (steps : List ℝ)
    (hsteps : ∀ dt ∈ steps, 0 ≤ dt / dx ∧ dt / dx * c ≤ 1) (s : Solver ℝ (Fin n → ℝ))
    (hs : ∀ i, m ≤ s.solution i ∧ s.solution i ≤ M) (hV : cyclicVariation (List.ofFn s.solution) ≤ V)
    {a : ℝ} {u : ℝ × ℝ → ℝ} {u0 : ℝ → ℝ} (hu : Computed T sys s steps a dx u u0) :
    ∃ states, OnGrid q Λ m M V dx a s.time n steps states u u0 ∧ states 0 = s.solution ∧
      ∃ s', s.runE T sys steps = .ok s' ∧ s'.solution = states steps.length := by
  have hn : 0 < n := (g 0).pos
  rw [cyclic_jumps hn g hmid h1] at hV
  obtain ⟨states, h⟩ := run_states hF sys g hmid h0 h1 hsys T hT V steps hsteps s ⟨hs, hV⟩
  obtain ⟨-, s', a1, a2, -⟩ := h.state steps.length le_rfl
  rw [List.take_length] at a1
  exact ⟨states, h.on_grid hmid h1 hu, h.start, s', a1, a2⟩

theorem on_grid {p : Problem} {m M dx : ℝ} {n : ℕ} (hm : p = .burgers → 0 < m) (hn : 0 < n) (hdx : 0 < dx)
    (wall il ir : Option (ℝ → ℝ))
    (bc : BC ℝ ℝ) (hbc : build wall ["periodic"] 1 il ir = .ok bc) (T : Tableau ℝ)
    (hT : T = forwardEuler ℝ ∨ T = heun ℝ ∨ T = ssp3 ℝ) (V : ℝ) (steps : List ℝ)
    (hsteps : ∀ dt ∈ steps, Monotonic p m M dx dt) (s : Solver ℝ (Fin n → ℝ))
    (hs : ∀ i, m ≤ s.solution i ∧ s.solution i ≤ M) (hV : cyclicVariation (List.ofFn s.solution) ≤ V)
    {a : ℝ} {u : ℝ × ℝ → ℝ} {u0 : ℝ → ℝ}
    (hu : Computed T (vecRhs n (rhs (laxFriedrichs p.riemann) dx bc)) s steps a dx u u0) :
    ∃ states, OnGrid p.flux (top p M) m M V dx a s.time n steps states u u0 ∧ states 0 = s.solution ∧
      ∃ s', s.runE T (vecRhs n (rhs (laxFriedrichs p.riemann) dx bc)) steps = .ok s' ∧ s'.solution = states steps.length := by
  obtain ⟨g, hg, h0, h1⟩ := cells_periodic n hn wall il ir bc hbc
  exact grid_run (lf_twoPoint hm ((hs ⟨0, hn⟩).1.trans (hs ⟨0, hn⟩).2)).scheme _ g hg.middle h0 h1
    (fun dt t u hu => lf_system hm hdx bc g hg dt t u fun i => (hu i).1) T hT V steps
    (fun dt h => Monotonic.step hdx (hsteps dt h)) s hs hV hu

namespace OnGrid

variable {q : ℝ → ℝ} {Λ m M V dx a t₀ : ℝ} {n : ℕ} {steps : List ℝ} {states : ℕ → Fin n → ℝ}
    {u : ℝ × ℝ → ℝ} {u0 : ℝ → ℝ} (h : OnGrid q Λ m M V dx a t₀ n steps states u u0)
include h

theorem values (z : ℝ × ℝ) (hz : z ∈ cell t₀ (t₀ + steps.sum) a (a + n * dx)) : m ≤ u z ∧ u z ≤ M := by
  rw [← after_zero t₀ steps, ← after_length (after t₀ steps 0), ← nodeAt_zero a dx] at hz
  obtain ⟨⟨a1, a2⟩, b1, b2⟩ := hz
  rw [after_zero] at a2
  obtain ⟨j, hj, c1, c2⟩ := interval_cover _ _ z.1 a1 a2
  obtain ⟨i, hi, d1, d2⟩ := interval_cover (nodeAt a dx) n z.2 b1 (by rw [nodeAt_zero] at b2; exact b2)
  rw [h.later j hj ⟨i, hi⟩ z ⟨⟨c1, c2⟩, d1, d2⟩]
  exact h.range j hj.le _

theorem initial_values (x : ℝ) (hx : x ∈ Ioc a (a + n * dx)) : m ≤ u0 x ∧ u0 x ≤ M := by
  obtain ⟨b1, b2⟩ := hx
  rw [← nodeAt_zero a dx] at b1
  obtain ⟨i, hi, d1, d2⟩ := interval_cover (nodeAt a dx) n x b1 b2
  rw [h.initial ⟨i, hi⟩ x ⟨d1, d2⟩]
  exact h.range 0 (Nat.zero_le _) _

/-- A continuous combination of the computed function is integrable. -/
theorem integrable (F : ℝ → ℝ × ℝ → ℝ) (hF : ∀ v, Continuous (F v)) :
    IntegrableOn (fun z => F (u z) z) (cell t₀ (t₀ + steps.sum) a (a + n * dx)) := by
  have := cover_integrable (f := fun z => F (u z) z) (after t₀ steps) (nodeAt a dx) steps.length n fun j hj i hi => by
    refine IntegrableOn.congr_fun (continuous_integrable (hF (states j ⟨i, hi⟩)) _ _ _ _) (fun z hz => ?_)
      (cell_measurable _ _ _ _)
    rw [h.later j hj ⟨i, hi⟩ z hz]
  rw [after_zero, after_length, nodeAt_zero] at this
  exact this

theorem initial_integrable (F : ℝ → ℝ → ℝ) (hF : ∀ v, Continuous (F v)) :
    IntegrableOn (fun x => F (u0 x) x) (Ioc a (a + n * dx)) := by
  have hsub : Ioc a (a + n * dx) ⊆ ⋃ i ∈ Finset.range n, Ioc (nodeAt a dx i) (nodeAt a dx (i + 1)) := by
    rintro x ⟨b1, b2⟩
    rw [← nodeAt_zero a dx] at b1
    obtain ⟨i, hi, d1, d2⟩ := interval_cover (nodeAt a dx) n x b1 b2
    simp only [mem_iUnion, Finset.mem_range]
    exact ⟨i, hi, d1, d2⟩
  refine IntegrableOn.mono_set ?_ hsub
  rw [integrableOn_finset_iUnion]
  intro i hi
  rw [Finset.mem_range] at hi
  refine IntegrableOn.congr_fun ((hF (states 0 ⟨i, hi⟩)).integrableOn_Ioc) (fun x hx => ?_) measurableSet_Ioc
  rw [h.initial ⟨i, hi⟩ x hx]

/-- The weak form of the computed function is a sum over the cells. -/
theorem weakForm_eq (hdx : 0 ≤ dx) (hpos : ∀ dt ∈ steps, 0 ≤ dt) (k : ℝ) {A B : ℝ} {φ φt φx : ℝ → ℝ → ℝ}
    (hφ : Test (n * dx) (t₀ + steps.sum) A B φ φt φx) (g : ℕ → Fin n) (hg : ∀ i : Fin n, g (i + 1) = i) :
    weakForm q k a (n * dx) t₀ (t₀ + steps.sum) u u0 φ φt φx =
      form a dx n steps.length (after t₀ steps) (fun j i => |states j (g (i + 1)) - k|)
        (fun j i => kruzhkovFlux q k (states j (g (i + 1)))) φ φt φx := by
  have hg' : ∀ i (hi : i < n), g (i + 1) = ⟨i, hi⟩ := fun i hi => hg ⟨i, hi⟩
  unfold weakForm form
  congr 1
  · have hint := h.integrable (fun v z => |v - k| * φt z.1 z.2 + kruzhkovFlux q k v * φx z.1 z.2) fun v =>
      (continuous_const.mul hφ.continuous).add (continuous_const.mul hφ.slope_continuous)
    have e := integral_grid (after t₀ steps) (nodeAt a dx) steps.length n
      (fun j _ => after_mono t₀ steps hpos (Nat.le_succ j)) (fun i _ => nodeAt_mono a dx hdx (Nat.le_succ i))
      (g := fun z => |u z - k| * φt z.1 z.2 + kruzhkovFlux q k (u z) * φx z.1 z.2)
      (by rw [after_zero, after_length, nodeAt_zero]; exact hint)
    rw [after_zero, after_length, nodeAt_zero] at e
    refine Eq.trans e (Finset.sum_congr rfl fun j hj => Finset.sum_congr rfl fun i hi => ?_)
    rw [Finset.mem_range] at hj hi
    rw [nodeAt_succ]
    refine setIntegral_congr_fun (cell_measurable _ _ _ _) fun z hz => ?_
    rw [← nodeAt_succ] at hz
    simp only
    rw [h.later j hj ⟨i, hi⟩ z hz, hg' i hi]
  · have key : ∀ q ≤ n, ∫ x in a..nodeAt a dx q, |u0 x - k| * φ t₀ x =
        ∑ i ∈ Finset.range q, ∫ x in a + i * dx..a + (i + 1) * dx,
          |states 0 (g (i + 1)) - k| * φ (after t₀ steps 0) x := by
      have hint := h.initial_integrable (fun v x => |v - k| * φ t₀ x) fun v => continuous_const.mul (hφ.space_continuous t₀)
      have sub : ∀ i ≤ n, IntervalIntegrable (fun x => |u0 x - k| * φ t₀ x) volume a (nodeAt a dx i) := by
        intro i hi
        have h1 := nodeAt_mono a dx hdx (Nat.zero_le i)
        rw [nodeAt_zero] at h1
        rw [intervalIntegrable_iff_integrableOn_Ioc_of_le h1]
        exact hint.mono_set (Ioc_subset_Ioc le_rfl (nodeAt_mono a dx hdx hi))
      intro q hq
      induction q with
      | zero => simp [nodeAt_zero]
      | succ q ih =>
        rw [Finset.sum_range_succ, ← ih (by omega), ← intervalIntegral.integral_add_adjacent_intervals (sub q (by omega))
          ((sub q (by omega)).symm.trans (sub (q + 1) hq))]
        congr 1
        rw [← nodeAt_succ]
        refine intervalIntegral.integral_congr_ae (Filter.Eventually.of_forall fun x hx => ?_)
        rw [uIoc_of_le (nodeAt_mono a dx hdx (Nat.le_succ q))] at hx
        rw [h.initial ⟨q, hq⟩ x hx, hg' q hq, after_zero]
    exact key n le_rfl

/-- The entropy inequality. -/
theorem lower (hn : 0 < n) (hdx : 0 < dx) (hmM : m ≤ M) (hpos : ∀ dt ∈ steps, 0 ≤ dt)
    (δ : ℝ) (hδ : ∀ dt ∈ steps, dt ≤ δ) (k Q : ℝ) (hQ : ∀ v, m ≤ v → v ≤ M → |q v - q k| ≤ Q)
    {A B : ℝ} {φ φt φx : ℝ → ℝ → ℝ} (hφ : Test (n * dx) (t₀ + steps.sum) A B φ φt φx) :
    -(steps.sum * (A * (2 * Λ * V) * dx + n * dx * Q * (B * (2 * δ + 3 * dx)))) ≤
      weakForm q k a (n * dx) t₀ (t₀ + steps.sum) u u0 φ φt φx := by
  set g : ℕ → Fin n := fun i => ⟨(i - 1) % n, Nat.mod_lt _ hn⟩ with hg
  have hg1 : ∀ i : Fin n, g (i + 1) = i := fun i => Fin.ext (by simp [hg, Nat.mod_eq_of_lt i.2])
  have hg' : ∀ i (hi : i < n), g (i + 1) = ⟨i, hi⟩ := fun i hi => hg1 ⟨i, hi⟩
  rw [h.weakForm_eq hdx.le hpos k hφ g hg1]
  have key : ∀ j, ∃ G : ℕ → ℝ, ∀ hj : j < steps.length, G n = G 0 ∧
      (∀ i : Fin n, |states (j + 1) i - k| ≤ |states j i - k| - steps[j] / dx * (G (i + 1) - G i)) ∧
      ∑ i : Fin n, |G (i + 1) - kruzhkovFlux q k (states j i)| ≤ 2 * Λ * V := by
    intro j
    by_cases hj : j < steps.length
    · obtain ⟨G, hG⟩ := dissipates_all hmM _ _ (h.range j hj.le) (h.range (j + 1) hj) (h.dissipates j hj) k
      exact ⟨G, fun _ => hG⟩
    · exact ⟨fun _ => 0, fun h => absurd h hj⟩
  choose G hG using key
  have step : ∀ j (hj : j < steps.length), after t₀ steps (j + 1) - after t₀ steps j = steps[j] := fun j hj => by
    rw [after_succ _ _ _ hj]; ring
  have := form_lower hφ a dx n steps.length hdx rfl (after t₀ steps)
    (fun j _ => after_mono t₀ steps hpos (Nat.le_succ j)) (after_length _ _) δ
    (fun j hj => by rw [step j hj]; exact hδ _ (List.getElem_mem hj))
    (fun j i => |states j (g (i + 1)) - k|) (fun j i => kruzhkovFlux q k (states j (g (i + 1)))) G
    (fun j hj => (hG j hj).1)
    (fun j hj i hi => by
      rw [step j hj, hg' i hi]
      exact (hG j hj).2.1 ⟨i, hi⟩)
    (2 * Λ * V) Q
    (fun j hj => by
      rw [← Fin.sum_univ_eq_sum_range (fun i => |G j (i + 1) - kruzhkovFlux q k (states j (g (i + 1)))|)]
      refine le_of_eq_of_le (Finset.sum_congr rfl fun i _ => ?_) (hG j hj).2.2
      rw [hg1])
    (fun j hj i hi => kruzhkov_bound k Q _ (hQ _ (h.range j hj.le _).1 (h.range j hj.le _).2))
  rw [after_zero, add_sub_cancel_left] at this
  exact this

end OnGrid

/-! ### Helper lemmas: data of bounded variation -/

section Data

variable {points : List (ℝ × ℝ)} (hp : AveragingRule points) {d : Interval ℝ} (hd : d.a < d.b) {n : ℕ} (hn : 0 < n)
  {mesh : UMesh ℝ} (hmesh : uniformMesh d n = .ok mesh) {f G : ℝ → ℝ} {V : ℝ} (hf : ∀ x, f (x + (d.b - d.a)) = f x)
  (hG : Majorant f G (d.b - d.a) V)
include hp hd hn hmesh hf hG

theorem average_variation :
    cyclicVariation (List.ofFn fun i : Fin n => (cellAverages points mesh f).getD i 0) ≤ V := by
  have hn0 : (0 : ℝ) < n := by exact_mod_cast hn
  set v : Fin n → ℝ := fun i => (cellAverages points mesh f).getD i 0 with hv
  set dx := (d.b - d.a) / n with hdx'
  have hdx : 0 < dx := div_pos (by linarith) hn0
  have hP : (n : ℝ) * dx = d.b - d.a := by rw [hdx']; field_simp
  have e : ∀ j : ℕ, (List.ofFn v).getD (j % n) 0 = mean points (dx / 2) f (d.a + dx / 2 + j * dx) := by
    intro j
    have := around_average hp hd hn hmesh f hf (j : ℤ)
    push_cast at this
    rw [← this]
    unfold around
    have h1 : ((j : ℤ) % n).toNat = j % n := by
      rw [← Int.natCast_mod]; exact Int.toNat_natCast _
    rw [dif_pos (by rw [h1]; exact Nat.mod_lt _ hn), List.getD_eq_getElem _ _ (by simpa using Nat.mod_lt _ hn),
      List.getElem_ofFn]
    simp only [hv, h1]
  rw [cyclicVariation_eq _ n (by simp) hn]
  have hM := mean_majorant hp (dx / 2) (hP.symm ▸ hG)
  have hs := hM.sum_step (d.a + dx / 2) 1
  push_cast at hs
  simp only [one_mul] at hs
  rw [← hs]
  refine Finset.sum_le_sum fun j _ => ?_
  rw [e, e]
  have := hM.bound (d.a + dx / 2 + j * dx) (d.a + dx / 2 + j * dx + dx) (by linarith)
  rw [show d.a + dx / 2 + ((j + 1 : ℕ) : ℝ) * dx = d.a + dx / 2 + j * dx + dx by push_cast; ring]
  exact this

theorem average_near (i : Fin n) (x : ℝ)
    (hx : x ∈ Ioc (nodeAt d.a ((d.b - d.a) / n) i) (nodeAt d.a ((d.b - d.a) / n) (i + 1))) :
    |(cellAverages points mesh f).getD i 0 - f x| ≤
      G (nodeAt d.a ((d.b - d.a) / n) (i + 1)) - G (nodeAt d.a ((d.b - d.a) / n) i) := by
  have hn0 : (0 : ℝ) < n := by exact_mod_cast hn
  have a1 := around_average hp hd hn hmesh f hf i
  rw [around_cell] at a1
  rw [a1]
  set dx := (d.b - d.a) / n with hdx'
  have hdx : 0 < dx := div_pos (by linarith) hn0
  rw [nodeAt_succ] at hx ⊢
  unfold nodeAt at hx ⊢
  push_cast
  refine mean_near hp _ (by positivity) f _ _ _ fun z hz => ?_
  rw [abs_le] at hz
  have hz1 : d.a + i * dx ≤ z := by linarith [hz.1]
  have hz2 : z ≤ d.a + (i + 1) * dx := by linarith [hz.2]
  have m1 := hG.mono hz1
  have m2 := hG.mono hz2
  have m3 := hG.mono hx.1.le
  have m4 := hG.mono hx.2
  rcases le_total x z with h | h
  · linarith [hG.bound x z h]
  · have := hG.bound z x h
    rw [abs_sub_comm] at this
    linarith

end Data

theorem majorant_measurable {f G : ℝ → ℝ} {P V : ℝ} (h : Majorant f G P V) : Measurable f := by
  have h1 : Monotone fun x => f x + G x := fun x y hxy => by
    have := h.bound x y hxy
    rw [abs_le] at this
    simp only
    linarith [this.1]
  have e : f = fun x => (f x + G x) - G x := by funext x; ring
  rw [e]
  exact h1.measurable.sub h.mono.measurable

theorem flux_measurable (p : Problem) : Measurable (p.flux : ℝ → ℝ) := by
  cases p with
  | advection => exact measurable_id
  | burgers =>
    show Measurable fun u : ℝ => 1 / 2 * u ^ 2
    fun_prop

theorem kruzhkov_measurable {q : ℝ → ℝ} (hq : Measurable q) (k : ℝ) : Measurable (kruzhkovFlux q k) := by
  have h2 : Measurable Real.sign := by
    unfold Real.sign
    exact Measurable.ite measurableSet_Iio measurable_const (Measurable.ite measurableSet_Ioi measurable_const measurable_const)
  exact (h2.comp (measurable_id.sub_const k)).mul (hq.sub_const _)

/-- There is a computed function for every run. -/
theorem RunStates.computed {q : ℝ → ℝ} {Λ m M V dx : ℝ} (hdx : 0 < dx) {n : ℕ} {g : ℕ → Fin n}
    {sys : ℝ → (Fin n → ℝ) → Except Py.Error (Fin n → ℝ)} {T : Tableau ℝ} {s : Solver ℝ (Fin n → ℝ)} {steps : List ℝ}
    {states : ℕ → Fin n → ℝ} (hpos : ∀ dt ∈ steps, 0 ≤ dt) (h : RunStates q Λ m M V dx g sys T s steps states) (a : ℝ) :
    ∃ u u0, Computed T sys s steps a dx u u0 := by
  classical
  have a1 := h.state
  have ht := after_mono s.time steps hpos
  have hx := nodeAt_mono a dx hdx.le
  have hv : ∀ (v : Fin n → ℝ) (i : Fin n) (x : ℝ), nodeAt a dx i < x → x ≤ nodeAt a dx (i + 1) →
      (if h : ∃ i : Fin n, nodeAt a dx i < x ∧ x ≤ nodeAt a dx (i + 1) then v h.choose else 0) = v i := by
    intro v i x b1 b2
    have h : ∃ i : Fin n, nodeAt a dx i < x ∧ x ≤ nodeAt a dx (i + 1) := ⟨i, b1, b2⟩
    rw [dif_pos h]
    congr 1
    exact Fin.ext (interval_unique _ hx x h.choose_spec ⟨b1, b2⟩)
  refine ⟨fun z => if h : ∃ j, after s.time steps j < z.1 ∧ z.1 ≤ after s.time steps (j + 1) then
      (if h' : ∃ i : Fin n, nodeAt a dx i < z.2 ∧ z.2 ≤ nodeAt a dx (i + 1) then states h.choose h'.choose else 0) else 0,
    fun x => if h : ∃ i : Fin n, nodeAt a dx i < x ∧ x ≤ nodeAt a dx (i + 1) then s.solution h.choose else 0,
    fun i x b1 b2 => ?_, fun j hj => ?_⟩
  · exact hv s.solution i x b1 (by rw [nodeAt_succ]; exact b2)
  · obtain ⟨-, s', c1, c2, c3⟩ := a1 j hj.le
    refine ⟨s', c1, fun i t x b1 b2 b3 b4 => ?_⟩
    rw [c3] at b1 b2
    rw [← after_succ _ _ _ hj] at b2
    have h : ∃ j, after s.time steps j < t ∧ t ≤ after s.time steps (j + 1) := ⟨j, b1, b2⟩
    rw [dif_pos h, hv (states h.choose) i x b3 (by rw [nodeAt_succ]; exact b4), c2,
      interval_unique _ ht t h.choose_spec ⟨b1, b2⟩]

theorem computed_exists {q : ℝ → ℝ} {F : ℝ → ℝ → ℝ} {H : ℝ → ℝ → ℝ → ℝ} {m M Λ c dx : ℝ} {n : ℕ} (hdx : 0 < dx)
    (hF : Scheme q F H m M Λ c)
    (sys : ℝ → (Fin n → ℝ) → Except Py.Error (Fin n → ℝ)) (g : ℕ → Fin n) (hmid : ∀ i : Fin n, g (i + 1) = i)
    (h0 : g n = g 0) (h1 : g (n + 1) = g 1)
    (hsys : ∀ dt t u, (∀ i, m ≤ u i ∧ u i ≤ M) → ∃ w, sys t u = .ok w ∧ u + dt • w = cellMap F (dt / dx) g u) (T : Tableau ℝ)
    (hT : T = forwardEuler ℝ ∨ T = heun ℝ ∨ T = ssp3 ℝ) (steps : List ℝ) (hpos : ∀ dt ∈ steps, 0 ≤ dt)
    (hsteps : ∀ dt ∈ steps, 0 ≤ dt / dx ∧ dt / dx * c ≤ 1) (s : Solver ℝ (Fin n → ℝ))
    (hs : ∀ i, m ≤ s.solution i ∧ s.solution i ≤ M) (a : ℝ) : ∃ u u0, Computed T sys s steps a dx u u0 := by
  obtain ⟨states, h⟩ := run_states hF sys g hmid h0 h1 hsys T hT _ steps hsteps s ⟨hs, le_refl (jumps g s.solution)⟩
  exact h.computed hdx hpos a

/-! ### The property -/

/-- C132.  A run of the Lax-Friedrichs solver, for advection and for Burgers' equation with positive data, with one of
the three strong stability preserving integrators, satisfies all of Kruzhkov's entropy inequalities in the weak sense up
to an error of first order in the mesh width `dx` and the largest time step `δ`. -/
theorem C132_entropy (p : Problem) (n : ℕ) (hn : 0 < n) (wall il ir : Option (ℝ → ℝ)) (bc : BC ℝ ℝ)
    (hbc : build wall ["periodic"] 1 il ir = .ok bc) (a dx : ℝ) (hdx : 0 < dx) (m M : ℝ)
    (hm : p = .burgers → 0 < m) (T : Tableau ℝ) (hT : T = forwardEuler ℝ ∨ T = heun ℝ ∨ T = ssp3 ℝ) (steps : List ℝ)
    (δ : ℝ) (hsteps : ∀ dt ∈ steps, Monotonic p m M dx dt ∧ dt ≤ δ) (s : Solver ℝ (Fin n → ℝ))
    (hs : ∀ i, m ≤ s.solution i ∧ s.solution i ≤ M) (u : ℝ × ℝ → ℝ) (u0 : ℝ → ℝ)
    (hu : Computed T (vecRhs n (rhs (laxFriedrichs p.riemann) dx bc)) s steps a dx u u0)
    (k Q : ℝ) (hQ : ∀ v, m ≤ v → v ≤ M → |p.flux v - p.flux k| ≤ Q)
    (A B : ℝ) (φ φt φx : ℝ → ℝ → ℝ) (hφ : Test (n * dx) (s.time + steps.sum) A B φ φt φx) :
    -(steps.sum * (2 * A * p.fluxPrime M * cyclicVariation (List.ofFn s.solution) * dx +
        n * dx * Q * B * (2 * δ + 3 * dx))) ≤
      weakForm p.flux k a (n * dx) s.time (s.time + steps.sum) u u0 φ φt φx := by
  obtain ⟨states, h, -⟩ := on_grid hm hn hdx wall il ir bc hbc T hT _ steps (fun dt h => (hsteps dt h).1) s hs le_rfl hu
  have hmM : m ≤ M := (hs ⟨0, hn⟩).1.trans (hs ⟨0, hn⟩).2
  refine le_of_eq_of_le ?_ (h.lower hn hdx hmM (fun dt h => (hsteps dt h).1.1) δ (fun dt h => (hsteps dt h).2) k Q hQ hφ)
  unfold top
  ring

/-- C132.  There is such a function for every run. -/
theorem C132_exists (p : Problem) (n : ℕ) (hn : 0 < n) (wall il ir : Option (ℝ → ℝ)) (bc : BC ℝ ℝ)
    (hbc : build wall ["periodic"] 1 il ir = .ok bc) (a dx : ℝ) (hdx : 0 < dx) (m M : ℝ) (hm : p = .burgers → 0 < m) (T : Tableau ℝ)
    (hT : T = forwardEuler ℝ ∨ T = heun ℝ ∨ T = ssp3 ℝ) (steps : List ℝ)
    (hsteps : ∀ dt ∈ steps, Monotonic p m M dx dt) (s : Solver ℝ (Fin n → ℝ))
    (hs : ∀ i, m ≤ s.solution i ∧ s.solution i ≤ M) :
    ∃ u u0, Computed T (vecRhs n (rhs (laxFriedrichs p.riemann) dx bc)) s steps a dx u u0 := by
  obtain ⟨g, hg, h0, h1⟩ := cells_periodic n hn wall il ir bc hbc
  exact computed_exists hdx (lf_twoPoint hm ((hs ⟨0, hn⟩).1.trans (hs ⟨0, hn⟩).2)).scheme _ g hg.middle h0 h1
    (fun dt t u hu => lf_system hm hdx bc g hg dt t u fun i => (hu i).1) T hT steps (fun dt h => (hsteps dt h).1)
    (fun dt h => Monotonic.step hdx (hsteps dt h)) s hs a

/-! ### Helper lemmas: the limit -/

namespace OnGrid

variable {q : ℝ → ℝ} {Λ m M V dx a t₀ : ℝ} {n : ℕ} {steps : List ℝ} {states : ℕ → Fin n → ℝ}
    {u : ℝ × ℝ → ℝ} {u0 : ℝ → ℝ} (h : OnGrid q Λ m M V dx a t₀ n steps states u u0)
include h

/-- How much the first part of the weak form changes. -/
theorem first_part (hqm : Measurable q) (hq : Slope q m M Λ) (hmM : m ≤ M) (k : ℝ) {w : ℝ × ℝ → ℝ}
    (hw : IntegrableOn w (cell t₀ (t₀ + steps.sum) a (a + n * dx)))
    (hwr : ∀ᵐ z ∂volume.restrict (cell t₀ (t₀ + steps.sum) a (a + n * dx)), m ≤ w z ∧ w z ≤ M)
    {A B C : ℝ} {φ φt φx : ℝ → ℝ → ℝ} (hφ : Test (n * dx) (t₀ + steps.sum) A B φ φt φx)
    (hC : ∀ z ∈ cell t₀ (t₀ + steps.sum) a (a + n * dx), |φt z.1 z.2| ≤ C) :
    |(∫ z in cell t₀ (t₀ + steps.sum) a (a + n * dx), (|u z - k| * φt z.1 z.2 + kruzhkovFlux q k (u z) * φx z.1 z.2)) -
      ∫ z in cell t₀ (t₀ + steps.sum) a (a + n * dx), (|w z - k| * φt z.1 z.2 + kruzhkovFlux q k (w z) * φx z.1 z.2)| ≤
      (C + Λ * A) * ∫ z in cell t₀ (t₀ + steps.sum) a (a + n * dx), |u z - w z| := by
  set D := cell t₀ (t₀ + steps.sum) a (a + n * dx) with hD
  have hL := hq.nonneg
  have h1 := h.integrable (fun v z => |v - k| * φt z.1 z.2 + kruzhkovFlux q k v * φx z.1 z.2) fun v =>
      (continuous_const.mul hφ.continuous).add (continuous_const.mul hφ.slope_continuous)
  have h0 : IntegrableOn u D := h.integrable (fun v _ => v) fun v => continuous_const
  have h3 : IntegrableOn (fun z => |u z - w z|) D := (h0.sub hw).abs
  have bound : ∀ᵐ z ∂volume.restrict D, ‖(|u z - k| * φt z.1 z.2 + kruzhkovFlux q k (u z) * φx z.1 z.2) -
      (|w z - k| * φt z.1 z.2 + kruzhkovFlux q k (w z) * φx z.1 z.2)‖ ≤ (C + Λ * A) * |u z - w z| := by
    filter_upwards [hwr, ae_restrict_mem (cell_measurable _ _ _ _)] with z hz1 hz2
    rw [Real.norm_eq_abs]
    have a1 := abs_abs_sub_abs_le_abs_sub (u z - k) (w z - k)
    rw [sub_sub_sub_cancel_right] at a1
    have a2 := kruzhkov_lipschitz hq hmM k (u z) (w z) (h.values z hz2) hz1
    calc _ = |(|u z - k| - |w z - k|) * φt z.1 z.2 +
          (kruzhkovFlux q k (u z) - kruzhkovFlux q k (w z)) * φx z.1 z.2| := by congr 1; ring
      _ ≤ |(|u z - k| - |w z - k|)| * |φt z.1 z.2| +
          |kruzhkovFlux q k (u z) - kruzhkovFlux q k (w z)| * |φx z.1 z.2| := by
          refine (abs_add_le _ _).trans ?_
          rw [abs_mul, abs_mul]
      _ ≤ |u z - w z| * C + Λ * |u z - w z| * A :=
          add_le_add (mul_le_mul a1 (hC z hz2) (abs_nonneg _) (abs_nonneg _))
            (mul_le_mul a2 (hφ.slope _ _) (abs_nonneg _) (mul_nonneg hL (abs_nonneg _)))
      _ = _ := by ring
  have hwm := hw.aestronglyMeasurable.aemeasurable
  have h2m : AEStronglyMeasurable (fun z => |w z - k| * φt z.1 z.2 + kruzhkovFlux q k (w z) * φx z.1 z.2)
      (volume.restrict D) := by
    have b1 : AEMeasurable (fun z => |w z - k|) (volume.restrict D) :=
      continuous_abs.measurable.comp_aemeasurable (hwm.sub_const k)
    have b2 := (kruzhkov_measurable hqm k).comp_aemeasurable hwm
    exact ((b1.mul hφ.continuous.measurable.aemeasurable).add
      (b2.mul hφ.slope_continuous.measurable.aemeasurable)).aestronglyMeasurable
  have h12 := (h3.const_mul (C + Λ * A)).mono' (h1.aestronglyMeasurable.sub h2m) bound
  have h2 : IntegrableOn (fun z => |w z - k| * φt z.1 z.2 + kruzhkovFlux q k (w z) * φx z.1 z.2) D := by
    have := h1.sub h12
    refine this.congr (Filter.Eventually.of_forall fun z => ?_)
    simp
  rw [← integral_sub h1 h2, ← integral_const_mul, ← Real.norm_eq_abs]
  exact norm_integral_le_of_norm_le (h3.const_mul _) bound

/-- How much the second part changes. -/
theorem second_part (hdx : 0 ≤ dx) (k : ℝ) {f G : ℝ → ℝ} (hG : Majorant f G (n * dx) V)
    (hf : ∀ (i : Fin n), ∀ x ∈ Ioc (nodeAt a dx i) (nodeAt a dx (i + 1)),
      |u0 x - f x| ≤ G (nodeAt a dx (i + 1)) - G (nodeAt a dx i)) {C : ℝ} {ψ : ℝ → ℝ} (hψ : Continuous ψ)
    (hC : ∀ x ∈ Ioc a (a + n * dx), |ψ x| ≤ C) :
    |(∫ x in a..a + n * dx, |u0 x - k| * ψ x) - ∫ x in a..a + n * dx, |f x - k| * ψ x| ≤ C * V * dx := by
  have hsub : ∀ q ≤ n, Ioc a (nodeAt a dx q) ⊆ Ioc a (a + n * dx) := fun q hq =>
    Ioc_subset_Ioc le_rfl (nodeAt_mono a dx hdx hq)
  have hle : ∀ q, a ≤ nodeAt a dx q := fun q => by
    have := nodeAt_mono a dx hdx (Nat.zero_le q)
    rwa [nodeAt_zero] at this
  have hfm := majorant_measurable hG
  have i1 := h.initial_integrable (fun v x => |v - k| * ψ x) fun v => continuous_const.mul hψ
  have i2 : IntegrableOn (fun x => |f x - k| * ψ x) (Ioc a (a + n * dx)) := by
    refine Measure.integrableOn_of_bounded (M := (|f a - k| + |V|) * C) measure_Ioc_lt_top.ne
      ((continuous_abs.measurable.comp (hfm.sub_const k)).mul hψ.measurable).aestronglyMeasurable
      (ae_restrict_of_forall_mem measurableSet_Ioc fun x hx => ?_)
    rw [Real.norm_eq_abs, abs_mul, abs_abs]
    refine mul_le_mul ?_ (hC x hx) (abs_nonneg _) (by positivity)
    have b1 := hG.bound a x hx.1.le
    have b2 := hG.mono hx.2
    have b3 := hG.period a
    have b4 := le_abs_self V
    have e : f x - k = (f a - k) + (f x - f a) := by ring
    rw [e]
    refine (abs_add_le _ _).trans ?_
    linarith
  have int : ∀ q ≤ n, IntervalIntegrable (fun x => |u0 x - k| * ψ x - |f x - k| * ψ x) volume a (nodeAt a dx q) := by
    intro q hq
    rw [intervalIntegrable_iff_integrableOn_Ioc_of_le (hle q)]
    exact (i1.sub i2).mono_set (hsub q hq)
  have key : ∀ q ≤ n, |∫ x in a..nodeAt a dx q, (|u0 x - k| * ψ x - |f x - k| * ψ x)| ≤
      C * (G (nodeAt a dx q) - G a) * dx := by
    intro q hq
    induction q with
    | zero => simp [nodeAt_zero]
    | succ q ih =>
      have hqle := nodeAt_mono a dx hdx (Nat.le_succ q)
      rw [← intervalIntegral.integral_add_adjacent_intervals (int q (by omega))
        ((int q (by omega)).symm.trans (int (q + 1) hq))]
      have c1 := ih (by omega)
      have c2 : ‖∫ x in nodeAt a dx q..nodeAt a dx (q + 1), (|u0 x - k| * ψ x - |f x - k| * ψ x)‖ ≤
          C * (G (nodeAt a dx (q + 1)) - G (nodeAt a dx q)) * |nodeAt a dx (q + 1) - nodeAt a dx q| := by
        refine intervalIntegral.norm_integral_le_of_norm_le_const fun x hx => ?_
        rw [uIoc_of_le hqle] at hx
        have b1 := hf ⟨q, hq⟩ x hx
        have b2 := hC x (hsub (q + 1) hq ⟨(hle q).trans_lt hx.1, hx.2⟩)
        have b3 := abs_abs_sub_abs_le_abs_sub (u0 x - k) (f x - k)
        rw [sub_sub_sub_cancel_right] at b3
        rw [Real.norm_eq_abs, ← sub_mul, abs_mul, mul_comm C]
        exact mul_le_mul (b3.trans b1) b2 (abs_nonneg _) ((abs_nonneg _).trans b1)
      have c3 : nodeAt a dx (q + 1) - nodeAt a dx q = dx := by unfold nodeAt; push_cast; ring
      rw [c3, abs_of_nonneg hdx, Real.norm_eq_abs] at c2
      refine (abs_add_le _ _).trans ?_
      calc _ ≤ C * (G (nodeAt a dx q) - G a) * dx + C * (G (nodeAt a dx (q + 1)) - G (nodeAt a dx q)) * dx := add_le_add c1 c2
        _ = _ := by ring
  have e := key n le_rfl
  have hP := hG.period a
  have en : nodeAt a dx n = a + n * dx := rfl
  rw [en, hP, add_sub_cancel_left] at e
  rw [← intervalIntegral.integral_sub]
  · exact e
  · rw [intervalIntegrable_iff_integrableOn_Ioc_of_le (show a ≤ a + n * dx from hle n)]; exact i1
  · rw [intervalIntegrable_iff_integrableOn_Ioc_of_le (show a ≤ a + n * dx from hle n)]; exact i2

end OnGrid

/-- A run of a monotone scheme on `n` cells of the interval of length `P` that begins at `a`: the time steps are at most
`c` times the mesh width, and the values at the beginning are near the data `f`. -/
def GridRun (q : ℝ → ℝ) (Λ m M V c a P t₀ S : ℝ) (f G : ℝ → ℝ) (n : ℕ) (u : ℝ × ℝ → ℝ) (u0 : ℝ → ℝ) : Prop :=
  ∃ (steps : List ℝ) (states : ℕ → Fin n → ℝ), OnGrid q Λ m M V (P / n) a t₀ n steps states u u0 ∧ t₀ + steps.sum = S ∧
    (∀ dt ∈ steps, 0 ≤ dt ∧ dt ≤ c * (P / n)) ∧
    ∀ (i : Fin n), ∀ x ∈ Ioc (nodeAt a (P / n) i) (nodeAt a (P / n) (i + 1)),
      |states 0 i - f x| ≤ G (nodeAt a (P / n) (i + 1)) - G (nodeAt a (P / n) i)

/-- Limits of the runs of a monotone scheme are entropy solutions. -/
theorem grid_limit {q : ℝ → ℝ} {Λ m M V c a P t₀ S : ℝ} (hqm : Measurable q) (hq : Slope q m M Λ) (hmM : m ≤ M)
    (hP0 : 0 < P) {f G : ℝ → ℝ} (hG : Majorant f G P V) (n : ℕ → ℕ) (hn : ∀ r, 0 < n r)
    (hlim : Filter.Tendsto n Filter.atTop Filter.atTop) (u : ℕ → ℝ × ℝ → ℝ) (u0 : ℕ → ℝ → ℝ)
    (hu : ∀ r, GridRun q Λ m M V c a P t₀ S f G (n r) (u r) (u0 r)) (w : ℝ × ℝ → ℝ)
    (hw : IntegrableOn w (Ioc t₀ S ×ˢ Ioc a (a + P)))
    (hconv : Filter.Tendsto (fun r => ∫ z in Ioc t₀ S ×ˢ Ioc a (a + P), |u r z - w z|) Filter.atTop (nhds 0)) :
    EntropySolution q a P t₀ S w f := by
  intro k A B φ φt φx hφ
  have hL := hq.nonneg
  have hdx : ∀ r, 0 < P / n r := fun r => div_pos hP0 (by exact_mod_cast hn r)
  have hPn : ∀ r, (n r : ℝ) * (P / n r) = P := fun r => by
    have : (n r : ℝ) ≠ 0 := by exact_mod_cast (hn r).ne'
    field_simp
  -- bounds of the test function
  obtain ⟨Ct, hCt⟩ := (isCompact_Icc.prod isCompact_Icc : IsCompact (Icc t₀ S ×ˢ Icc a (a + P))).exists_bound_of_continuousOn
    hφ.continuous.continuousOn
  obtain ⟨C0, hC0⟩ := (isCompact_Icc : IsCompact (Icc a (a + P))).exists_bound_of_continuousOn
    (hφ.space_continuous t₀).continuousOn
  obtain ⟨Q, hQ⟩ : ∃ Q, ∀ v, m ≤ v → v ≤ M → |q v - q k| ≤ Q := by
    refine ⟨|q m - q k| + Λ * (M - m), fun v h1 h2 => ?_⟩
    have a1 := hq.lipschitz v m ⟨h1, h2⟩ ⟨le_rfl, hmM⟩
    have a2 : Λ * |v - m| ≤ Λ * (M - m) :=
      mul_le_mul_of_nonneg_left (by rw [abs_of_nonneg (by linarith)]; linarith) hL
    have e : q v - q k = (q m - q k) + (q v - q m) := by ring
    rw [e]
    exact (abs_add_le _ _).trans (add_le_add le_rfl (a1.trans a2))
  choose steps states hgrid hS hsteps hnear using hu
  have hcell : ∀ r, cell t₀ (t₀ + (steps r).sum) a (a + n r * (P / n r)) = Ioc t₀ S ×ˢ Ioc a (a + P) := fun r => by
    rw [hS, hPn]; rfl
  -- the limit has values in the range of the data
  have hwr : ∀ᵐ z ∂volume.restrict (Ioc t₀ S ×ˢ Ioc a (a + P)), m ≤ w z ∧ w z ≤ M := by
    have g1 : IntegrableOn (fun z => max (m - w z) 0) (Ioc t₀ S ×ˢ Ioc a (a + P)) := by
      have : IntegrableOn (fun _ : ℝ × ℝ => m) (cell t₀ S a (a + P)) := continuous_integrable continuous_const _ _ _ _
      exact (Integrable.sub this hw).pos_part
    have g2 : IntegrableOn (fun z => max (w z - M) 0) (Ioc t₀ S ×ˢ Ioc a (a + P)) := by
      have : IntegrableOn (fun _ : ℝ × ℝ => M) (cell t₀ S a (a + P)) := continuous_integrable continuous_const _ _ _ _
      exact (Integrable.sub hw this).pos_part
    have le : ∀ r, ∫ z in Ioc t₀ S ×ˢ Ioc a (a + P), (max (m - w z) 0 + max (w z - M) 0) ≤
        ∫ z in Ioc t₀ S ×ˢ Ioc a (a + P), |u r z - w z| := by
      intro r
      have i0 : IntegrableOn (u r) (Ioc t₀ S ×ˢ Ioc a (a + P)) := by
        rw [← hcell r]; exact (hgrid r).integrable (fun v _ => v) fun v => continuous_const
      refine setIntegral_mono_on (g1.add g2) (i0.sub hw).abs (cell_measurable t₀ S a (a + P)) fun z hz => ?_
      rw [← hcell r] at hz
      obtain ⟨v1, v2⟩ := (hgrid r).values z hz
      rcases le_total (w z) m with h | h
      · rw [max_eq_left (by linarith), max_eq_right (by linarith), add_zero]
        exact (by linarith : m - w z ≤ u r z - w z).trans (le_abs_self _)
      · rw [max_eq_right (by linarith), zero_add]
        refine max_le ?_ (abs_nonneg _)
        rw [abs_sub_comm]
        exact (by linarith : w z - M ≤ w z - u r z).trans (le_abs_self _)
    have zero : ∫ z in Ioc t₀ S ×ˢ Ioc a (a + P), (max (m - w z) 0 + max (w z - M) 0) = 0 := by
      refine le_antisymm (ge_of_tendsto' hconv le) (integral_nonneg fun z => ?_)
      positivity
    have g12 : IntegrableOn (fun z => max (m - w z) 0 + max (w z - M) 0) (Ioc t₀ S ×ˢ Ioc a (a + P)) := g1.add g2
    rw [integral_eq_zero_iff_of_nonneg (fun z => add_nonneg (le_max_right _ _) (le_max_right _ _)) g12] at zero
    filter_upwards [zero] with z hz
    simp only [Pi.zero_apply] at hz
    have p1 := le_max_right (m - w z) 0
    have p2 := le_max_right (w z - M) 0
    have p3 := le_max_left (m - w z) 0
    have p4 := le_max_left (w z - M) 0
    constructor <;> linarith
  -- the inequality
  have main : ∀ r, -((S - t₀) * (A * (2 * Λ * V) * (P / n r) +
      P * Q * (B * (2 * (c * (P / n r)) + 3 * (P / n r)))) +
      (Ct + Λ * A) * (∫ z in Ioc t₀ S ×ˢ Ioc a (a + P), |u r z - w z|) + C0 * V * (P / n r)) ≤
      weakForm q k a P t₀ S w f φ φt φx := by
    intro r
    have hφr : Test (n r * (P / n r)) (t₀ + (steps r).sum) A B φ φt φx := by rw [hPn, hS]; exact hφ
    have c1 := (hgrid r).lower (hn r) (hdx r) hmM (fun dt h => (hsteps r dt h).1) _ (fun dt h => (hsteps r dt h).2) k Q hQ hφr
    have c2 := (hgrid r).first_part hqm hq hmM k (w := w) (by rw [hcell]; exact hw) (by rw [hcell]; exact hwr) (C := Ct) hφr
      (fun z hz => hCt z (cell_subset t₀ S a (a + P) (by rw [hcell] at hz; exact hz)))
    have c3 := (hgrid r).second_part (hdx r).le k (by rw [hPn]; exact hG)
      (fun i x hx => by
        rw [(hgrid r).initial i x hx]
        exact hnear r i x hx)
      (hφ.space_continuous t₀)
      (fun x hx => by
        rw [hPn] at hx
        exact hC0 x (Ioc_subset_Icc_self hx))
    unfold weakForm at c1 ⊢
    rw [hcell] at c2
    have e : (steps r).sum = S - t₀ := by rw [← hS r]; ring
    rw [hPn, hS, e] at c1
    rw [hPn] at c3
    rw [abs_le] at c2 c3
    linarith [c2.2, c3.2]
  refine le_of_tendsto' (f := fun r => -((S - t₀) * (A * (2 * Λ * V) * (P / n r) +
      P * Q * (B * (2 * (c * (P / n r)) + 3 * (P / n r)))) +
      (Ct + Λ * A) * (∫ z in Ioc t₀ S ×ˢ Ioc a (a + P), |u r z - w z|) + C0 * V * (P / n r))) (x := Filter.atTop) ?_ main
  have t1 : Filter.Tendsto (fun r => P / (n r : ℝ)) Filter.atTop (nhds 0) :=
    Filter.Tendsto.const_div_atTop (tendsto_natCast_atTop_atTop.comp hlim) P
  have t2 := ((t1.const_mul ((S - t₀) * (A * (2 * Λ * V) + P * Q * (B * (2 * c + 3))) + C0 * V)).add
    (hconv.const_mul (Ct + Λ * A))).neg
  simp only [mul_zero, add_zero, neg_zero] at t2
  refine t2.congr fun r => ?_
  ring

theorem step_size {p : Problem} {m M dx dt : ℝ} (hdx : 0 < dx) (hmM : m ≤ M) (h : Monotonic p m M dx dt) :
    dt ≤ (1 + |1 / M|) * dx := by
  obtain ⟨b0, b1, b2⟩ := h
  cases p with
  | advection =>
    have c1 := b1 rfl
    have c2 : 0 ≤ |1 / M| * dx := by positivity
    linarith
  | burgers =>
    obtain ⟨c1, c2⟩ := b2 rfl
    have hM : 0 < M := by linarith
    rw [abs_of_pos (by positivity)]
    have c3 : dt ≤ 1 / M * dx := by
      rw [one_div, inv_mul_eq_div, le_div_iff₀ hM]
      have : 0 ≤ dt * M := mul_nonneg b0 hM.le
      linarith
    linarith

/-- The runs of the Lax-Friedrichs solver from the cell averages. -/
theorem lf_grid {p : Problem} {m M V t₀ S : ℝ} (hm : p = .burgers → 0 < m) {points : List (ℝ × ℝ)}
    (hp : AveragingRule points) {d : Interval ℝ} (hd : d.a < d.b) {f G : ℝ → ℝ} (hfr : ∀ x, m ≤ f x ∧ f x ≤ M)
    (hf : ∀ x, f (x + (d.b - d.a)) = f x) (hG : Majorant f G (d.b - d.a) V) {wall il ir : Option (ℝ → ℝ)} {bc : BC ℝ ℝ}
    (hbc : build wall ["periodic"] 1 il ir = .ok bc) {n : ℕ} (hn : 0 < n) {mesh : UMesh ℝ}
    (hmesh : uniformMesh d n = .ok mesh) {T : Tableau ℝ} (hT : T = forwardEuler ℝ ∨ T = heun ℝ ∨ T = ssp3 ℝ)
    {steps : List ℝ} (hsteps : ∀ dt ∈ steps, Monotonic p m M ((d.b - d.a) / n) dt) (hS : t₀ + steps.sum = S)
    {u : ℝ × ℝ → ℝ} {u0 : ℝ → ℝ}
    (hu : Computed T (vecRhs n (rhs (laxFriedrichs p.riemann) ((d.b - d.a) / n) bc))
      (Solver.init (fun i : Fin n => (cellAverages points mesh f).getD i 0) t₀) steps d.a ((d.b - d.a) / n) u u0) :
    GridRun p.flux (top p M) m M V (1 + |1 / M|) d.a (d.b - d.a) t₀ S f G n u u0 := by
  have hmM : m ≤ M := (hfr 0).1.trans (hfr 0).2
  have hdx : 0 < (d.b - d.a) / n := div_pos (by linarith) (by exact_mod_cast hn)
  obtain ⟨hcells, hlt, -⟩ := uniform_cells hd hn hmesh
  obtain ⟨states, hg, h0, -⟩ := on_grid hm hn hdx wall il ir bc hbc T hT V steps hsteps _ (fun i =>
      (C58_basic points mesh hlt hp.sum hp.pos hp.inside f).2.2.1 i (by rw [hcells]; exact i.2) m M
        fun x _ _ => hfr x) (average_variation hp hd hn hmesh hf hG) hu
  refine ⟨steps, states, hg, hS, fun dt h => ⟨(hsteps dt h).1, step_size hdx hmM (hsteps dt h)⟩, fun i x hx => ?_⟩
  rw [h0]
  exact average_near hp hd hn hmesh hf hG i x hx

/-- C132.  The Lax-Wendroff theorem.  Given are data `f` of bounded variation and period `d.b - d.a`, and runs of the
solver from the cell averages of `f`, up to the same time `S`, on finer and finer meshes.  If the computed functions
converge in the mean to a function `w`, then `w` is an entropy solution with the data `f`. -/
theorem C132_limit (p : Problem) (m M V t₀ S : ℝ) (hm : p = .burgers → 0 < m) (points : List (ℝ × ℝ))
    (hp : AveragingRule points) (d : Interval ℝ) (hd : d.a < d.b) (f G : ℝ → ℝ) (hfr : ∀ x, m ≤ f x ∧ f x ≤ M)
    (hf : ∀ x, f (x + (d.b - d.a)) = f x) (hG : Majorant f G (d.b - d.a) V) (wall il ir : Option (ℝ → ℝ)) (bc : BC ℝ ℝ)
    (hbc : build wall ["periodic"] 1 il ir = .ok bc) (n : ℕ → ℕ) (hn : ∀ r, 0 < n r)
    (hlim : Filter.Tendsto n Filter.atTop Filter.atTop) (mesh : ℕ → UMesh ℝ)
    (hmesh : ∀ r, uniformMesh d (n r) = .ok (mesh r)) (T : ℕ → Tableau ℝ)
    (hT : ∀ r, T r = forwardEuler ℝ ∨ T r = heun ℝ ∨ T r = ssp3 ℝ) (steps : ℕ → List ℝ)
    (hsteps : ∀ r, ∀ dt ∈ steps r, Monotonic p m M ((d.b - d.a) / n r) dt) (hS : ∀ r, t₀ + (steps r).sum = S)
    (u : ℕ → ℝ × ℝ → ℝ) (u0 : ℕ → ℝ → ℝ)
    (hu : ∀ r, Computed (T r) (vecRhs (n r) (rhs (laxFriedrichs p.riemann) ((d.b - d.a) / n r) bc))
      (Solver.init (fun i : Fin (n r) => (cellAverages points (mesh r) f).getD i 0) t₀) (steps r) d.a
      ((d.b - d.a) / n r) (u r) (u0 r))
    (w : ℝ × ℝ → ℝ) (hw : IntegrableOn w (Ioc t₀ S ×ˢ Ioc d.a d.b))
    (hconv : Filter.Tendsto (fun r => ∫ z in Ioc t₀ S ×ˢ Ioc d.a d.b, |u r z - w z|) Filter.atTop (nhds 0)) :
    EntropySolution p.flux d.a (d.b - d.a) t₀ S w f := by
  have hab : d.a + (d.b - d.a) = d.b := by ring
  have hmM : m ≤ M := (hfr 0).1.trans (hfr 0).2
  refine grid_limit (flux_measurable p) (flux_slope hm hmM) hmM (by linarith) hG n hn hlim u u0
    (fun r => lf_grid hm hp hd hfr hf hG hbc (hn r) (hmesh r) (hT r) (hsteps r) (hS r) (hu r)) w ?_ ?_
  · rw [hab]; exact hw
  · rw [hab]; exact hconv

end Verif.EntropyLimit
