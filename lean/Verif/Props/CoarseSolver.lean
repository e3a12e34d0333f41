import Verif.Core.CoarseSolver
import Verif.Props.Solver
import Verif.Props.Coarsen
import Verif.Props.EndToEnd
import Mathlib.Analysis.Convex.Jensen

/-!
C105: the coarsened solver (`finite_volume/shallow_water/solver/coarse.py`) shows, for whole runs, the
cell averages of the solver on the fine mesh.
-/

set_option linter.unusedSectionVars false

namespace Verif.CoarseSolver

open Verif.TimeStepping hiding Status
open Verif.Solution Verif.Solver

variable {K : Type*} [Field K] [LinearOrder K] [IsStrictOrderedRing K]
variable {W : Type*} [AddCommGroup W] [Module K W] {n : ℕ}

/-- Specification: the state shown by a coarsened solution is the coarsening of a fine solution with
history: same time, current value, and (if recorded) the same times with coarsened values. -/
structure Coarsened (k : ℕ) (c : CSol K W) (h : Hist K (Fin n → W)) : Prop where
  time : c.time = h.sol.time
  value : c.value k = Coarsen.coarsen K k (List.ofFn h.sol.value)
  value_ok : ∃ u, c.value k = .ok u ∧ u.length * k = n
  history : ∀ r, c = .hist r → r.times = h.times ∧
    r.values.map Except.ok = h.values.map (fun v => Coarsen.coarsen K k (List.ofFn v))

/-- The solution records a history. -/
def CSol.records : CSol K W → Bool
  | .plain _ => false
  | .hist _ => true

theorem Shows.coarsened {k : ℕ} (hk : 0 < k) (hd : k ∣ n) {c : CSol K W} {h : Hist K (Fin n → W)}
    (hc : c.Shows k h) : Coarsened k c h := by
  obtain ⟨m, hm⟩ := hd
  have hd : k ∣ n := ⟨m, hm⟩
  refine ⟨?_, ?_, ⟨_, Shows.value hk hd hc, ?_⟩, ?_⟩
  · cases c with
    | plain s => simp only [CSol.Shows] at hc; subst hc; rfl
    | hist c => obtain ⟨h1, -, -⟩ := hc; simp [CSol.time, h1]
  · rw [Shows.value hk hd hc, coarsen_ok hk hd]
  · rw [Coarsen.coarsenVector_length hk (n := m) (by simp [hm, mul_comm]), hm, mul_comm]
  · rintro r rfl
    obtain ⟨-, h2, h3⟩ := hc
    refine ⟨h2, ?_⟩
    simp only [h3, List.map_map]
    apply List.map_congr_left
    intro v _
    exact (coarsen_ok hk hd v).symm

/-- C105.  If the coarsening degree divides the mesh size, the coarsened solver is constructed, and after
any number of steps its loop stands as that of the solver with history on the fine mesh (running,
finished, interrupted or raised with the same exception, same warnings), and its solution is the
coarsening of the fine solution: same time, coarsened value, same recorded times, coarsened recorded
values. -/
theorem C105_solve (p : Params K (Fin n → W)) (hp : p.adaptive = false) (d : Option ℕ)
    (hd : degree d ∣ n) (save : Bool) (b : Bench K (Fin n → W)) :
    ∃ c, CObj.make p d save b = .ok c ∧ ∀ N,
      (csolve p (degree d) c N).2 = (solve p (Obj.make p b) N).2 ∧
      (csolve p (degree d) c N).1.warnings = (solve p (Obj.make p b) N).1.warnings ∧
      Coarsened (degree d) (csolve p (degree d) c N).1.sol (solve p (Obj.make p b) N).1.sol := by
  obtain ⟨c, h1, h2⟩ := make_rel p d hd save b
  refine ⟨c, h1, fun N => ?_⟩
  obtain ⟨h3, h4⟩ := solve_rel (degree_pos d) hd p hp h2 N
  exact ⟨h3, h4.warnings, Shows.coarsened (degree_pos d) hd h4.sol⟩

/-- C105.  If the coarsening degree does not divide the mesh size, the solver with history cannot be
constructed, and without history `solve` raises before the first step. -/
theorem C105_not_divisible (p : Params K (Fin n → W)) (d : Option ℕ) (hd : ¬ degree d ∣ n)
    (b : Bench K (Fin n → W)) :
    CObj.make p d true b = .error .notDivisible ∧
    ∃ c, CObj.make p d false b = .ok c ∧
      ∀ N, csolve p (degree d) c N = (c, .raised (.solution .notDivisible)) := by
  refine ⟨by simp [CObj.make, CHist.init, coarsen_error (degree_pos d) hd], _, rfl, fun N => ?_⟩
  induction N with
  | zero => simp [csolve, CSol.value, coarseValue, coarsen_error (degree_pos d) hd]
  | succ N ih => rw [csolve, ih]; rfl

/-- C105.  The coarsening degree is the given one; nothing and 0 mean the default. -/
theorem C105_degree (d : Option ℕ) :
    degree d = 8 ∧ (d = none ∨ d = some 0) ∨ d = some (degree d) ∧ degree d ≠ 0 := by
  match d with
  | none => simp [degree]
  | some 0 => simp [degree]
  | some (k + 1) => simp [degree]

/-! ### Reinitialisation -/

/-- Coarsened solvers that a program can have obtained from benchmarks with start time `t0`. -/
inductive CReachable (p : Params K (Fin n → W)) (d : Option ℕ) (save : Bool) (t0 : K) :
    CObj K W n → Prop
  | make (b : Bench K (Fin n → W)) (hb : b.startTime = t0) (c : CObj K W n)
      (h : CObj.make p d save b = .ok c) : CReachable p d save t0 c
  | solve (c : CObj K W n) (N : ℕ) (h : CReachable p d save t0 c) :
      CReachable p d save t0 (csolve p (degree d) c N).1
  | reinitialize (c : CObj K W n) (b : Bench K (Fin n → W)) (hb : b.startTime = t0)
      (h : CReachable p d save t0 c) : CReachable p d save t0 (c.reinitialize p (degree d) b).1

theorem reachable_rel (p : Params K (Fin n → W)) (hp : p.adaptive = false) (d : Option ℕ)
    (hd : degree d ∣ n) (save : Bool) (t0 : K) (c : CObj K W n) (h : CReachable p d save t0 c) :
    ∃ o, Reachable p t0 o ∧ Rel (degree d) c o := by
  induction h with
  | make b hb c h =>
    obtain ⟨c', h1, h2⟩ := make_rel p d hd save b
    rw [h1] at h
    obtain rfl : c' = c := by simpa using h
    exact ⟨_, .make b hb, h2⟩
  | solve c N _ ih =>
    obtain ⟨o, h1, h2⟩ := ih
    exact ⟨_, .solve o N h1, (solve_rel (degree_pos d) hd p hp h2 N).2⟩
  | reinitialize c b hb _ ih =>
    obtain ⟨o, h1, h2⟩ := ih
    exact ⟨_, .reinitialize o b hb h1, (reinitialize_rel (degree_pos d) hd p h2 b).2⟩

/-- C105.  One coarsened solver used for a series of benchmarks with the same start time (data
generation): whatever was done with it before, also if a run or a reinitialisation failed, each
benchmark is solved as by the fine solver newly constructed for it, and the solution shows the
coarsened values. -/
theorem C105_series (p : Params K (Fin n → W)) (hp : p.adaptive = false)
    (hstep : ∀ t u t' u', p.optimal t u = p.optimal t' u') (d : Option ℕ) (hd : degree d ∣ n)
    (save : Bool) (t0 : K) (c : CObj K W n) (h : CReachable p d save t0 c)
    (b : Bench K (Fin n → W)) (hb : b.startTime = t0) (hfin : p.finite b.initial = true) :
    ∃ c', c.reinitialize p (degree d) b = (c', none) ∧ ∀ N,
      (csolve p (degree d) c' N).2 = (solve p (Obj.make p b) N).2 ∧
      Coarsened (degree d) (csolve p (degree d) c' N).1.sol (solve p (Obj.make p b) N).1.sol := by
  obtain ⟨o, ho, hr⟩ := reachable_rel p hp d hd save t0 c h
  obtain ⟨h1, h2⟩ := reinitialize_rel (degree_pos d) hd p hr b
  refine ⟨(c.reinitialize p (degree d) b).1, ?_, fun N => ?_⟩
  · ext1
    · rfl
    · rw [h1, reinitialize_ok p o b hfin]
  · obtain ⟨h3, h4⟩ := solve_rel (degree_pos d) hd p hp h2 N
    obtain ⟨h5, h6⟩ := C93_series p t0 o ho b hb hfin (Or.inr hstep) N
    refine ⟨h3.trans h5, ?_⟩
    rw [← h6]
    exact Shows.coarsened (degree_pos d) hd h4.sol

/-! ### What the coarsened values inherit -/

theorem block_mem_convex {k m : ℕ} (hk : 0 < k) (v : List W) (hv : v.length = m * k) (S : Set W)
    (hS : Convex K S) (h : ∀ x ∈ v, x ∈ S) (I : ℕ) (hI : I < m) :
    Coarsen.block K k v I ∈ S := by
  have hk' : (k : K) ≠ 0 := by exact_mod_cast hk.ne'
  unfold Coarsen.block
  rw [Finset.smul_sum]
  refine hS.sum_mem (fun _ _ => by positivity) ?_ ?_
  · rw [Finset.sum_const, Finset.card_range, nsmul_eq_mul]; field_simp
  · intro i hi
    rw [Finset.mem_range] at hi
    have hlt : k * I + i < v.length := by
      rw [hv]
      calc k * I + i < k * I + k := by omega
        _ = (I + 1) * k := by ring
        _ ≤ m * k := Nat.mul_le_mul_right k hI
    rw [List.getD_eq_getElem _ _ hlt]
    exact h _ (List.getElem_mem hlt)

theorem block_jensen {k m : ℕ} (hk : 0 < k) (v : List W) (hv : v.length = m * k) (S : Set W)
    (η : W → K) (hη : ConvexOn K S η) (h : ∀ x ∈ v, x ∈ S) :
    (k : K) * ((Coarsen.coarsenVector K k v).map η).sum ≤ (v.map η).sum := by
  have hk' : (0 : K) < k := by exact_mod_cast hk
  have e1 : ((Coarsen.coarsenVector K k v).map η).sum =
      ∑ I ∈ Finset.range m, η (Coarsen.block K k v I) := by
    rw [Coarsen.coarsenVector_eq hk hv, List.map_map]
    exact Coarsen.list_sum_range _ _
  have e2 : (v.map η).sum =
      ∑ I ∈ Finset.range m, ∑ i ∈ Finset.range k, η (v.getD (k * I + i) 0) := by
    rw [← Coarsen.sum_blocks (fun j => η (v.getD j 0)), ← Coarsen.list_sum_range]
    congr 1
    apply List.ext_getElem
    · simp [hv, mul_comm]
    · intro i h1 h2
      have h1 : i < v.length := by simpa using h1
      simp [h1]
  rw [e1, e2, Finset.mul_sum]
  refine Finset.sum_le_sum fun I hI => ?_
  rw [Finset.mem_range] at hI
  have := hη.map_sum_le (t := Finset.range k) (w := fun _ => (1 : K) / k)
    (p := fun i => v.getD (k * I + i) 0) (fun _ _ => by positivity)
    (by rw [Finset.sum_const, Finset.card_range, nsmul_eq_mul]; field_simp) (by
      intro i hi
      rw [Finset.mem_range] at hi
      have hlt : k * I + i < v.length := by
        rw [hv]
        calc k * I + i < k * I + k := by omega
          _ = (I + 1) * k := by ring
          _ ≤ m * k := Nat.mul_le_mul_right k hI
      rw [List.getD_eq_getElem _ _ hlt]
      exact h _ (List.getElem_mem hlt))
  unfold Coarsen.block
  rw [Finset.smul_sum]
  calc (k : K) * η (∑ i ∈ Finset.range k, ((1 : K) / k) • v.getD (k * I + i) 0)
      ≤ k * ∑ i ∈ Finset.range k, ((1 : K) / k) • η (v.getD (k * I + i) 0) :=
        mul_le_mul_of_nonneg_left this hk'.le
    _ = _ := by
        rw [← Finset.smul_sum, smul_eq_mul]; field_simp

/-- C105.  Every vector recorded by the coarsened solver is the coarsening of a vector recorded by the
fine solver at the same position.  Hence the total is that of the fine vector (divided by the degree,
as the cells are wider), values in a convex set stay there (bounds, positive heights), and the total of
a convex function (entropy, energy) is at most that of the fine solution. -/
theorem C105_inherit (p : Params K (Fin n → W)) (hp : p.adaptive = false) (d : Option ℕ)
    (hd : degree d ∣ n) (b : Bench K (Fin n → W)) (c : CObj K W n)
    (hc : CObj.make p d true b = .ok c) (N : ℕ) :
    ∃ r, (csolve p (degree d) c N).1.sol = .hist r ∧
      r.values.length = (solve p (Obj.make p b) N).1.sol.values.length ∧
      ∀ (i : ℕ) (u : List W), r.values[i]? = some u →
        ∃ v, (solve p (Obj.make p b) N).1.sol.values[i]? = some v ∧ u.length * degree d = n ∧
          (degree d : K) • u.sum = (List.ofFn v).sum ∧
          ∀ S : Set W, (∀ j, v j ∈ S) → Convex K S → (∀ x ∈ u, x ∈ S) ∧
            ∀ η : W → K, ConvexOn K S η →
              (degree d : K) * (u.map η).sum ≤ ((List.ofFn v).map η).sum := by
  obtain ⟨c', h1, h2⟩ := make_rel p d hd true b
  rw [h1] at hc
  obtain rfl : c' = c := by simpa using hc
  have hmake : c'.sol.records = true := by
    simp only [CObj.make, if_true] at h1
    split at h1
    · obtain rfl := Except.ok.inj h1; rfl
    · cases h1
  obtain ⟨-, h4⟩ := solve_rel (degree_pos d) hd p hp h2 N
  have hrec : (csolve p (degree d) c' N).1.sol.records = true := by
    have hupd : ∀ (o : CObj K W n) (dt : K), o.sol.records = true →
        (o.update p (degree d) dt).1.sol.records = true := by
      intro o dt ho
      have hs : ∀ (s : CSol K W) (a : K) (l : List W), s.records = true →
          (s.update (listFinite p) (degree d) a l).1.records = true := by
        rintro (s | s) a l hs
        · cases hs
        · rfl
      have ht : ∀ (s : CSol K W) (l : List W), s.records = true → (s.touch l).records = true := by
        rintro (s | s) l hs
        · cases hs
        · rfl
      unfold CObj.update
      split
      · exact ho
      · rename_i ode _
        have hch : ∀ e, (CObj.check p { o with ode := ode } dt) = e → e.1.sol.records = true := by
          rintro e rfl
          unfold CObj.check
          split
          · exact ho
          · split <;> exact ho
        split
        · rename_i o' e he; exact hch _ he
        · rename_i o' he
          have ho' := hch _ he
          unfold CObj.updateSolution
          have := hs o'.sol dt (List.ofFn o'.ode.solution) ho'
          split
          · rename_i s hs'; rw [hs'] at this; exact this
          · rename_i s e hs'; rw [hs'] at this
            simp only
            split
            · exact ht _ _ this
            · exact this
    induction N with
    | zero =>
      simp only [csolve]
      split <;> exact hmake
    | succ N ih =>
      have ih := ih (solve_rel (degree_pos d) hd p hp h2 N).2
      simp only [csolve]
      unfold cpass
      split
      · split
        · exact ih
        · exact ih
        · rename_i ts dt _
          have := hupd { (csolve p (degree d) c' N).1 with ts := ts } dt ih
          split
          · rename_i o ho; rw [ho] at this; exact this
          · rename_i o e ho; rw [ho] at this; exact this
      · exact ih
  have hsh := h4.sol
  cases hsol : (csolve p (degree d) c' N).1.sol with
  | plain s => rw [hsol] at hrec; cases hrec
  | hist r =>
    rw [hsol] at hsh
    obtain ⟨-, -, hvals⟩ := hsh
    refine ⟨r, rfl, by simp [hvals], fun i u hu => ?_⟩
    rw [hvals, List.getElem?_map] at hu
    obtain ⟨v, hv, rfl⟩ := Option.map_eq_some_iff.mp hu
    obtain ⟨m, hm⟩ := hd
    have hlen : (List.ofFn v).length = m * degree d := by simp [hm, mul_comm]
    refine ⟨v, hv, ?_, ?_, fun S hS hconv => ⟨?_, fun η hη => ?_⟩⟩
    · rw [Coarsen.coarsenVector_length (degree_pos d) hlen, hm, mul_comm]
    · exact Coarsen.C13_mass _ _ _ (coarsen_ok (degree_pos d) ⟨m, hm⟩ v)
    · intro x hx
      rw [Coarsen.coarsenVector_eq (degree_pos d) hlen] at hx
      obtain ⟨I, hI, rfl⟩ := List.mem_map.mp hx
      exact block_mem_convex (degree_pos d) _ hlen S hconv (by
        intro x hx
        obtain ⟨j, rfl⟩ := List.mem_ofFn.mp hx
        exact hS j) I (List.mem_range.mp hI)
    · exact block_jensen (degree_pos d) _ hlen S η hη (by
        intro x hx
        obtain ⟨j, rfl⟩ := List.mem_ofFn.mp hx
        exact hS j)

/-! ### Examples -/

section Examples

open Verif.EndToEnd Verif.ODE Verif.FV Verif.Scalar

/-- A coarsened solver for Burgers' equation on 6 cells with degree 2. -/
def exParams : Params ℚ (Fin 6 → ℚ) :=
  fvParams 6 (heun ℚ) (rhs (laxFriedrichs Problem.burgers.riemann) 1 ⟨[.copy (-1)], [.copy 0], true⟩)
    1 (1 / 4) 0 (1 / 2)

example : degree (some 2) ∣ 6 ∧ ¬ degree none ∣ 6 ∧ exParams.adaptive = false ∧
    (∀ t u t' u', exParams.optimal t u = exParams.optimal t' u') ∧
    exParams.finite ![1, 2, 3, 3, 2, 2] = true :=
  ⟨⟨3, rfl⟩, by decide, rfl, fun _ _ _ _ => rfl, rfl⟩

/-- The history, if there is one. -/
def exHist (l : CObj ℚ ℚ 6 × Solver.Status) : List ℚ × List (List ℚ) :=
  match l.1.sol with
  | .plain _ => ([], [])
  | .hist r => (r.times, r.values)

example : Py.okAnd (CObj.make exParams (some 2) true ⟨![1, 2, 3, 3, 2, 2], 0, 1 / 2⟩) (fun c =>
    let l := csolve exParams 2 c 3
    decide (l.2 = .finished) && decide ((exHist l).1 = [0, 1 / 4, 1 / 2]) &&
    decide ((exHist l).2.map List.sum = [13 / 2, 13 / 2, 13 / 2]) &&
    decide ((exHist l).2.map List.length = [3, 3, 3]) &&
    decide ((exHist l).2.take 1 = [[3 / 2, 3, 2]])) = true := by
  decide +kernel

end Examples

end Verif.CoarseSolver
