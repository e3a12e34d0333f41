import Verif.Core.Perturb
import Verif.Props.Subgrid
import Verif.Props.EndToEnd
import Verif.Core.PerturbSolve

/-!
C106: how far a reduced solver (coarse mesh, fluxes corrected by a network) is from the coarsened solver
on the fine mesh, if its fluxes are only approximately those of the fine solver.
-/

set_option linter.unusedSectionVars false

namespace Verif.ReducedError

open Verif.Py Verif.Boundary Verif.FV Verif.ODE Verif.Subgrid

section Size

variable {K : Type*} [Field K] [LinearOrder K] [IsStrictOrderedRing K]
variable {V : Type*} [AddCommGroup V] [Module K V]

/-- The largest size of a cell value. -/
def maxSize (ν : V → K) {n : ℕ} (v : Fin n → V) : K := (List.ofFn fun i => ν (v i)).foldr max 0

theorem foldr_max_le (l : List K) (c : K) : l.foldr max 0 ≤ c ↔ 0 ≤ c ∧ ∀ x ∈ l, x ≤ c := by
  induction l with
  | nil => simp
  | cons a l ih =>
    simp only [List.foldr_cons, max_le_iff, ih, List.mem_cons, forall_eq_or_imp]
    tauto

theorem maxSize_le (ν : V → K) {n : ℕ} (v : Fin n → V) (c : K) :
    maxSize ν v ≤ c ↔ 0 ≤ c ∧ ∀ i, ν (v i) ≤ c := by
  unfold maxSize
  rw [foldr_max_le]
  simp

theorem le_maxSize (ν : V → K) {n : ℕ} (v : Fin n → V) (i : Fin n) : ν (v i) ≤ maxSize ν v :=
  ((maxSize_le ν v _).mp le_rfl).2 i

theorem maxSize_nonneg (ν : V → K) {n : ℕ} (v : Fin n → V) : 0 ≤ maxSize ν v :=
  ((maxSize_le ν v _).mp le_rfl).1

theorem maxSize_size {ν : V → K} (h : Size ν) (n : ℕ) : Size (maxSize ν (n := n)) where
  add a b := by
    rw [maxSize_le]
    refine ⟨add_nonneg (maxSize_nonneg _ _) (maxSize_nonneg _ _), fun i => ?_⟩
    exact (h.add _ _).trans (add_le_add (le_maxSize ν a i) (le_maxSize ν b i))
  smul c a := by
    apply le_antisymm
    · rw [maxSize_le]
      refine ⟨mul_nonneg (abs_nonneg c) (maxSize_nonneg _ _), fun i => ?_⟩
      rw [Pi.smul_apply, h.smul]
      exact mul_le_mul_of_nonneg_left (le_maxSize ν a i) (abs_nonneg c)
    · by_cases hc : c = 0
      · subst hc
        rw [abs_zero, zero_mul]
        exact maxSize_nonneg _ _
      · have hc' : 0 < |c| := abs_pos.mpr hc
        rw [mul_comm, ← le_div_iff₀ hc', maxSize_le]
        refine ⟨div_nonneg (maxSize_nonneg _ _) hc'.le, fun i => ?_⟩
        rw [le_div_iff₀ hc', mul_comm, ← h.smul]
        exact le_maxSize ν (c • a) i

end Size

section Rhs

variable {K : Type*} [Field K] [LinearOrder K] [IsStrictOrderedRing K]
variable {V : Type*} [AddCommGroup V] [Module K V]

/-- Specification: near the coarsened state `A x` of the fine state `x` the fluxes of the reduced scheme
differ from those of the fine scheme by at most `Lf` times the distance plus `δ`. -/
def Approximates (ν : V → K) (F R : NumFlux V) (bf bc : BC K V) (n k : ℕ) (Lf δ r : K) (t : K)
    (x : Fin (n * k) → V) : Prop :=
  ∀ v : Fin n → V, maxSize ν (v - coarsenMap K n k x) ≤ r →
    ∃ e : ℕ → V, Closes F R bf bc k e t (List.ofFn x) (List.ofFn v) ∧
      ∀ j ≤ n, ν (e j) ≤ Lf * maxSize ν (v - coarsenMap K n k x) + δ

/-- The right-hand side of the reduced scheme at any coarse state, compared with the coarsened right-hand
side of the fine scheme at any fine state. -/
theorem reduced_rhs (F R : NumFlux V) (hF : Conservative F) (hR : Conservative R) (n k : ℕ) (hk : 0 < k)
    (dx : K) (hdx : dx ≠ 0) (bf bc : BC K V) (t : K) (x : Fin (n * k) → V) (v : Fin n → V) (e : ℕ → V)
    (h : Closes F R bf bc k e t (List.ofFn x) (List.ofFn v)) :
    ∃ a b, vecRhs (n * k) (rhs F dx bf) t x = .ok a ∧ vecRhs n (rhs R (k * dx) bc) t v = .ok b ∧
      ∀ i : Fin n, b i = coarsenMap K n k a i + (1 / (k * dx)) • (e i - e (i + 1)) := by
  obtain ⟨vf, vc, fl, fr, cl, cr, h1, h2, h3, h4, h5, h6, h7⟩ := h
  have hk0 : (k : K) ≠ 0 := Nat.cast_ne_zero.mpr hk.ne'
  simp only [List.length_ofFn] at h3 h6 h7
  have hw := rhs_conservative F hF dx hdx bf t _ vf fl fr h1 h2 (n * k) h3
  have hz := rhs_conservative R hR (k * dx) (mul_ne_zero hk0 hdx) bc t _ vc cl cr h4 h5 n h6
  refine ⟨fun i => (1 / dx) • (fr.getD i 0 - fr.getD (i + 1) 0),
    fun i => (1 / (k * dx)) • (cr.getD i 0 - cr.getD (i + 1) 0), ?_, ?_, ?_⟩
  · unfold vecRhs
    rw [hw]
    simp
  · unfold vecRhs
    rw [hz]
    simp
  · intro i
    have hb := block_telescope k hk dx fr n i i.2
    have hl : (List.ofFn fun i : Fin (n * k) => (1 / dx) • (fr.getD i 0 - fr.getD (i + 1) 0)) =
        (List.range (n * k)).map fun i => (1 / dx) • (fr.getD i 0 - fr.getD (i + 1) 0) := by
      apply List.ext_getElem (by simp)
      intro j hj hj'
      simp
    change _ = Coarsen.block K k (List.ofFn fun i : Fin (n * k) =>
      (1 / dx) • (fr.getD i 0 - fr.getD (i + 1) 0)) i + _
    beta_reduce
    rw [hl, hb, h7 i (by omega), h7 (i + 1) (by omega), ← smul_add]
    congr 1
    abel

/-- The reduced right-hand side is near the fine one in the sense of `Near`. -/
theorem approximates_near {ν : V → K} (hν : Size ν) (F R : NumFlux V) (hF : Conservative F)
    (hR : Conservative R) (n k : ℕ) (hk : 0 < k) (dx : K) (hdx : 0 < dx) (bf bc : BC K V)
    (Lf δ r : K) (hLf : 0 ≤ Lf) (hδ : 0 ≤ δ) :
    Near (coarsenMap K n k) (maxSize ν (n := n))
      (only (Approximates ν F R bf bc n k Lf δ r) (vecRhs (n * k) (rhs F dx bf)))
      (vecRhs n (rhs R (k * dx) bc)) (2 * Lf / (k * dx)) (2 * δ / (k * dx)) r := by
  intro t x a ha v hv
  unfold only at ha
  split at ha
  swap
  · cases ha
  rename_i happ
  obtain ⟨e, h1, h2⟩ := happ v hv
  obtain ⟨a', b, h3, h4, h5⟩ := reduced_rhs F R hF hR n k hk dx hdx.ne' bf bc t x v e h1
  rw [ha] at h3
  obtain rfl := Except.ok.inj h3
  have hkdx : 0 < (k : K) * dx := mul_pos (Nat.cast_pos.mpr hk) hdx
  set D := maxSize ν (v - coarsenMap K n k x) with hD
  have hD0 : 0 ≤ D := maxSize_nonneg _ _
  refine ⟨b, h4, ?_⟩
  rw [maxSize_le]
  refine ⟨by positivity, fun i => ?_⟩
  have e1 : (b - coarsenMap K n k a) i = (1 / (k * dx)) • (e i - e (i + 1)) := by
    rw [Pi.sub_apply, h5 i]; abel
  rw [e1, hν.smul_nonneg (by positivity)]
  have h6 : ν (e i - e (i + 1)) ≤ 2 * (Lf * D + δ) := by
    rw [sub_eq_add_neg]
    refine (hν.add _ _).trans ?_
    rw [hν.neg]
    have := h2 i (by omega)
    have := h2 (i + 1) (by omega)
    linarith
  calc 1 / (k * dx) * ν (e i - e (i + 1)) ≤ 1 / (k * dx) * (2 * (Lf * D + δ)) :=
        mul_le_mul_of_nonneg_left h6 (by positivity)
    _ = _ := by field_simp

/-- C106.  Runs of the integrators: if at every state at which the fine run evaluates its right-hand side
the fluxes of the reduced scheme, at all coarse states within `r` of the coarsened fine state, are those
of the fine scheme up to `Lf` times the distance plus `δ`, then the reduced run with the same steps does
not raise and its distance to the coarsened fine run, plus `δ / Lf`, has grown at most by the factors
`1 + z + ...` (`z = 2 Lf dt / (k dx)`, as many terms as stages, the beginning of the exponential series)
of the steps; provided this keeps the distance below `r`. -/
theorem C106_run {ν : V → K} (hν : Size ν) (F R : NumFlux V) (hF : Conservative F)
    (hR : Conservative R) (n k : ℕ) (hk : 0 < k) (dx : K) (hdx : 0 < dx) (bf bc : BC K V)
    (Lf δ r d : K) (hLf : 0 < Lf) (hδ : 0 ≤ δ) (T : Tableau K)
    (hT : T = forwardEuler K ∨ T = heun K ∨ T = ssp3 K) (steps : List K)
    (hsteps : ∀ dt ∈ steps, 0 ≤ dt) (s s' : Solver K (Fin (n * k) → V))
    (h : s.runE T (only (Approximates ν F R bf bc n k Lf δ r) (vecRhs (n * k) (rhs F dx bf))) steps =
      .ok s')
    (v : Solver K (Fin n → V)) (hvt : v.time = s.time)
    (hv : maxSize ν (v.solution - coarsenMap K n k s.solution) ≤ d)
    (hr : (steps.map fun dt => ∑ i ∈ Finset.range (T.size + 1),
      (2 * Lf / (k * dx) * dt) ^ i / (i.factorial : K)).prod * (d + δ / Lf) ≤ r + δ / Lf) :
    s.runE T (vecRhs (n * k) (rhs F dx bf)) steps = .ok s' ∧
    ∃ v', v.runE T (vecRhs n (rhs R (k * dx) bc)) steps = .ok v' ∧ v'.time = s'.time ∧
      ∀ i, ν (v'.solution i - coarsenMap K n k s'.solution i) ≤
        (steps.map fun dt => ∑ i ∈ Finset.range (T.size + 1),
          (2 * Lf / (k * dx) * dt) ^ i / (i.factorial : K)).prod * (d + δ / Lf) - δ / Lf := by
  have hkdx : 0 < (k : K) * dx := mul_pos (Nat.cast_pos.mpr hk) hdx
  have hg : ∀ steps : List K, (steps.map fun dt => ∑ i ∈ Finset.range (T.size + 1),
      (2 * Lf / (k * dx) * dt) ^ i / (i.factorial : K)).prod =
        growth T.size (2 * Lf / (k * dx)) steps := by
    intro steps
    induction steps with
    | nil => rfl
    | cons a l ih => simp only [List.map_cons, List.prod_cons, growth, amp, ih]
  rw [hg] at hr ⊢
  constructor
  · have := runE_map (LinearMap.id : (Fin (n * k) → V) →ₗ[K] _) T _ (vecRhs (n * k) (rhs F dx bf))
      (fun t u w hw => by
        unfold only at hw
        split at hw
        · simpa using hw
        · cases hw) s s' steps h
    simpa [Solver.image] using this
  set L := 2 * Lf / (k * dx) with hLdef
  have hL : 0 < L := by positivity
  have hδ' : 2 * δ / (k * dx) = L * (δ / Lf) := by rw [hLdef]; field_simp
  obtain ⟨v', h1, h2, h3⟩ := near_run (maxSize_size hν n) hL (by positivity)
    (approximates_near hν F R hF hR n k hk dx hdx bf bc Lf δ r hLf.le hδ) T hT steps hsteps s s' h v hvt
    (y := L * (d + δ / Lf)) (by
      rw [hδ', mul_add]
      have := mul_le_mul_of_nonneg_left hv hL.le
      linarith) (by
      rw [hδ', ← mul_add]
      calc growth T.size L steps * (L * (d + δ / Lf)) = L * (growth T.size L steps * (d + δ / Lf)) := by
            ring
        _ ≤ _ := mul_le_mul_of_nonneg_left hr hL.le)
  refine ⟨v', h1, h2, fun i => ?_⟩
  have h4 : L * (maxSize ν (v'.solution - coarsenMap K n k s'.solution) + δ / Lf) ≤
      L * (growth T.size L steps * (d + δ / Lf)) := by
    rw [hδ'] at h3
    calc _ = L * maxSize ν (v'.solution - coarsenMap K n k s'.solution) + L * (δ / Lf) := by ring
      _ ≤ _ := h3
      _ = _ := by ring
  have h5 := le_of_mul_le_mul_left h4 hL
  have h6 := le_maxSize ν (v'.solution - coarsenMap K n k s'.solution) i
  rw [Pi.sub_apply] at h6
  linarith

end Rhs

section Solve

variable {V : Type*} [AddCommGroup V] [Module ℝ V]

/-- C106.  Whole runs of the solvers.  The fine solver has `n * k` cells of width `dx` and CFL number
`cfl`, the reduced solver `n` cells of width `k dx` and the CFL number `cfl / k` (the default of its
parser), so that the time steps agree.  If the fine run does not raise and the fluxes of the reduced
solver approximate those of the fine solver (`Approximates`) at every state at which the fine solver
evaluates its right-hand side, then after every number of passes through the loop both solvers are in
the same phase and have recorded the same times, and every value recorded by the reduced solver at time
`t` differs in no cell by more than `exp(2 Lf (t - t0) / (k dx)) (d + δ / Lf) - δ / Lf` from the
coarsened value recorded by the fine solver, where `d` bounds the difference of the initial values. -/
theorem C106_solve {ν : V → ℝ} (hν : Size ν) (F R : NumFlux V) (hF : Conservative F)
    (hR : Conservative R) (n k : ℕ) (hk : 0 < k) (dx cfl t0 t1 : ℝ) (hdx : 0 < dx) (bf bc : BC ℝ V)
    (Lf δ r d : ℝ) (hLf : 0 < Lf) (hδ : 0 ≤ δ) (T : Tableau ℝ)
    (hT : T = forwardEuler ℝ ∨ T = heun ℝ ∨ T = ssp3 ℝ) (x : Fin (n * k) → V) (v : Fin n → V)
    (hd : ∀ i, ν (v i - coarsenMap ℝ n k x i) ≤ d) (hd0 : 0 ≤ d)
    (hr : Real.exp (2 * Lf / (k * dx) * (t1 - t0)) * (d + δ / Lf) ≤ r + δ / Lf) (N : ℕ) :
    let P := EndToEnd.fvParams (n * k) T (rhs F dx bf) dx cfl t0 t1
    let G := { P with rhs := only (Approximates ν F R bf bc n k Lf δ r) P.rhs }
    let Q := EndToEnd.fvParams n T (rhs R (k * dx) bc) (k * dx) (cfl / k) t0 t1
    let fine := Solver.solve P (Solver.Obj.make P ⟨x, t0, t1⟩) N
    let reduced := Solver.solve Q (Solver.Obj.make Q ⟨v, t0, t1⟩) N
    (∀ e, (Solver.solve G (Solver.Obj.make G ⟨x, t0, t1⟩) N).2 ≠ .raised e) →
      reduced.2 = fine.2 ∧ (∀ e, fine.2 ≠ .raised e) ∧
      reduced.1.sol.times = fine.1.sol.times ∧
      reduced.1.sol.values.length = fine.1.sol.times.length ∧
      fine.1.sol.values.length = fine.1.sol.times.length ∧
      ∀ (i : ℕ) t a b, fine.1.sol.times[i]? = some t → fine.1.sol.values[i]? = some a →
        reduced.1.sol.values[i]? = some b →
        ∀ j, ν (b j - coarsenMap ℝ n k a j) ≤
          Real.exp (2 * Lf / (k * dx) * (t - t0)) * (d + δ / Lf) - δ / Lf := by
  intro P G Q fine reduced hno
  have hkpos : (0 : ℝ) < k := Nat.cast_pos.mpr hk
  have hkdx : 0 < (k : ℝ) * dx := mul_pos hkpos hdx
  have hfine : fine = Solver.solve G (Solver.Obj.make G ⟨x, t0, t1⟩) N :=
    Solver.solve_guard P (only (Approximates ν F R bf bc n k Lf δ r) P.rhs) (by
      intro t u w hw
      unfold only at hw
      split at hw
      · exact hw
      · cases hw) (Solver.Obj.make P ⟨x, t0, t1⟩) N hno
  set L := 2 * Lf / (k * dx) with hLdef
  have hL : 0 < L := by positivity
  have hδ' : 2 * δ / (k * dx) = L * (δ / Lf) := by rw [hLdef]; field_simp
  obtain ⟨h1, h2⟩ := Solver.solve_prel (maxSize_size hν n) (p := G) (p' := Q) hL
    (δ := 2 * δ / (k * dx)) (r := r) (by positivity) ⟨rfl, rfl, fun _ => rfl⟩ ⟨rfl, rfl, fun _ => rfl⟩
    ⟨rfl, rfl, rfl⟩ (approximates_near hν F R hF hR n k hk dx hdx bf bc Lf δ r hLf.le hδ) hT
    ⟨x, t0, t1⟩ ⟨v, t0, t1⟩ rfl rfl
    (by change (k : ℝ) * dx * (cfl / k) = dx * cfl; field_simp) d
    ((maxSize_le ν _ _).mpr ⟨hd0, fun i => hd i⟩)
    (by
      change Real.exp (L * (t1 - t0)) * _ ≤ _
      rw [hδ', ← mul_add, ← mul_add]
      calc Real.exp (L * (t1 - t0)) * (L * (d + δ / Lf)) =
            L * (Real.exp (L * (t1 - t0)) * (d + δ / Lf)) := by ring
        _ ≤ _ := mul_le_mul_of_nonneg_left hr hL.le) N hno
  rw [hfine]
  refine ⟨h1, hno, h2.times, h2.len', h2.len, fun i t a b hi1 hi2 hi3 j => ?_⟩
  have h3 := h2.hist i t a b hi1 hi2 hi3
  unfold Solver.Bound at h3
  change L * maxSize ν (b - coarsenMap ℝ n k a) + 2 * δ / (k * dx) ≤
    Real.exp (L * (t - t0)) * (L * d + 2 * δ / (k * dx)) at h3
  rw [hδ'] at h3
  have h4 : L * (maxSize ν (b - coarsenMap ℝ n k a) + δ / Lf) ≤
      L * (Real.exp (L * (t - t0)) * (d + δ / Lf)) := by
    calc _ = L * maxSize ν (b - coarsenMap ℝ n k a) + L * (δ / Lf) := by ring
      _ ≤ _ := h3
      _ = _ := by ring
  have h5 := le_of_mul_le_mul_left h4 hL
  have h6 := le_maxSize ν (b - coarsenMap ℝ n k a) j
  rw [Pi.sub_apply] at h6
  linarith

end Solve

section Examples

/-- Upwind flux. -/
def upwind : NumFlux ℝ := twoPoint fun a _ => .ok a

/-- Periodic boundary conditions for two-point fluxes. -/
def ring : BC ℝ ℝ := ⟨[.copy (-1)], [.copy 0], true⟩

theorem abs_size : Size (K := ℝ) (fun x : ℝ => |x|) :=
  ⟨abs_add_le, fun c a => by rw [smul_eq_mul, abs_mul]⟩

/-- Two coarse cells of two fine cells each: the upwind flux of the coarse cells approximates the fine
flux with `Lf = 1` and `δ = 1/2` for values between 0 and 1. -/
theorem example_approximates (r t : ℝ) (x : Fin (2 * 2) → ℝ) (hx : ∀ i, 0 ≤ x i ∧ x i ≤ 1) :
    Approximates (fun x : ℝ => |x|) upwind upwind ring ring 2 2 1 (1 / 2) r t x := by
  intro v _
  have hl : List.ofFn x = [x 0, x 1, x 2, x 3] := by simp [List.ofFn_succ]
  have hv : List.ofFn v = [v 0, v 1] := by simp [List.ofFn_succ]
  have c0 : coarsenMap ℝ 2 2 x 0 = (x 0 + x 1) / 2 := by
    change Coarsen.block ℝ 2 (List.ofFn x) 0 = _
    rw [hl]
    simp [Coarsen.block, Finset.sum_range_succ]
    ring
  have c1 : coarsenMap ℝ 2 2 x 1 = (x 2 + x 3) / 2 := by
    change Coarsen.block ℝ 2 (List.ofFn x) 1 = _
    rw [hl]
    simp [Coarsen.block, Finset.sum_range_succ]
    ring
  have d0 := le_maxSize (fun x : ℝ => |x|) (v - coarsenMap ℝ 2 2 x) 0
  have d1 := le_maxSize (fun x : ℝ => |x|) (v - coarsenMap ℝ 2 2 x) 1
  simp only [Pi.sub_apply, c0, c1] at d0 d1
  refine ⟨fun j => if j = 1 then v 0 - x 1 else v 1 - x 3, ?_, ?_⟩
  · rw [hl, hv]
    refine ⟨[[x 3, x 0, x 1, x 2, x 3], [x 0, x 1, x 2, x 3, x 0]], [[v 1, v 0, v 1], [v 0, v 1, v 0]],
      [-x 3, -x 0, -x 1, -x 2, -x 3], [x 3, x 0, x 1, x 2, x 3], [-v 1, -v 0, -v 1], [v 1, v 0, v 1],
      ?_, ?_, rfl, ?_, ?_, rfl, ?_⟩
    · rfl
    · rfl
    · rfl
    · rfl
    · intro j hj
      have : j = 0 ∨ j = 1 ∨ j = 2 := by simp at hj; omega
      rcases this with rfl | rfl | rfl <;> simp
  · intro j _
    have h0 := hx 0
    have h1 := hx 1
    have h2 := hx 2
    have h3 := hx 3
    rw [one_mul]
    simp only
    split
    · have e : v 0 - x 1 = (v 0 - (x 0 + x 1) / 2) + (x 0 - x 1) / 2 := by ring
      rw [e]
      refine (abs_add_le _ _).trans (add_le_add d0 ?_)
      rw [abs_le]
      constructor <;> linarith
    · have e : v 1 - x 3 = (v 1 - (x 2 + x 3) / 2) + (x 2 - x 3) / 2 := by ring
      rw [e]
      refine (abs_add_le _ _).trans (add_le_add d1 ?_)
      rw [abs_le]
      constructor <;> linarith

/-- The hypotheses of `C106_run` and `C106_solve`: upwind scheme on four cells of width 1, values between
0 and 1, steps up to 1.  The run does not raise. -/
theorem example_run (r : ℝ) (T : Tableau ℝ) (hT : T = forwardEuler ℝ ∨ T = heun ℝ ∨ T = ssp3 ℝ)
    (steps : List ℝ) (hs : ∀ dt ∈ steps, 0 ≤ dt ∧ dt ≤ 1) (s : Solver ℝ (Fin (2 * 2) → ℝ))
    (hx : ∀ i, 0 ≤ s.solution i ∧ s.solution i ≤ 1) :
    ∃ s', s.runE T (only (Approximates (fun x : ℝ => |x|) upwind upwind ring ring 2 2 1 (1 / 2) r)
      (vecRhs (2 * 2) (rhs upwind 1 ring))) steps = .ok s' ∧
      ∀ i, 0 ≤ s'.solution i ∧ s'.solution i ≤ 1 := by
  have hconv : Convex ℝ {x : Fin (2 * 2) → ℝ | ∀ i, 0 ≤ x i ∧ x i ≤ 1} := by
    intro x hx y hy a b ha hb hab i
    have h1 := hx i
    have h2 := hy i
    simp only [Pi.add_apply, Pi.smul_apply, smul_eq_mul]
    constructor
    · have := mul_nonneg ha h1.1; have := mul_nonneg hb h2.1; linarith
    · have := mul_le_mul_of_nonneg_left h1.2 ha; have := mul_le_mul_of_nonneg_left h2.2 hb; linarith
  obtain ⟨s', h1, h2⟩ := sspE_run (only (Approximates (fun x : ℝ => |x|) upwind upwind ring ring 2 2 1
    (1 / 2) r) (vecRhs (2 * 2) (rhs upwind 1 ring))) {x | ∀ i, 0 ≤ x i ∧ x i ≤ 1} hconv steps (by
      intro dt hdt t x hx
      obtain ⟨hd0, hd1⟩ := hs dt hdt
      have hl : List.ofFn x = [x 0, x 1, x 2, x 3] := by simp [List.ofFn_succ]
      refine ⟨![x 3 - x 0, x 0 - x 1, x 1 - x 2, x 2 - x 3], ?_, ?_⟩
      · unfold only
        rw [if_pos (example_approximates r t x hx)]
        have hr : rhs upwind 1 ring t (List.ofFn x) =
            .ok [x 3 - x 0, x 0 - x 1, x 1 - x 2, x 2 - x 3] := by
          rw [hl]
          have hn : ring.nodeNeighbours [x 0, x 1, x 2, x 3] (upwind.dim / 2) (some t) =
              .ok [[x 3, x 0, x 1, x 2, x 3], [x 0, x 1, x 2, x 3, x 0]] := rfl
          have hc : upwind.call [[x 3, x 0, x 1, x 2, x 3], [x 0, x 1, x 2, x 3, x 0]] =
              .ok ([-x 3, -x 0, -x 1, -x 2, -x 3], [x 3, x 0, x 1, x 2, x 3]) := rfl
          rw [rhs_conservative upwind (twoPoint_conservative _) 1 one_ne_zero ring t _ _ _ _ hn hc 4 rfl]
          simp [List.range_succ]
        unfold vecRhs
        rw [hr]
        simp only [List.length_cons, List.length_nil, dif_pos]
        congr 1
        funext i
        fin_cases i <;> rfl
      · intro i
        have h0 := hx 0
        have h1 := hx 1
        have h2 := hx 2
        have h3 := hx 3
        fin_cases i <;> simp <;> constructor <;> nlinarith) s hx T hT
  exact ⟨s', h1, h2⟩

example (s : Solver ℝ (Fin (2 * 2) → ℝ)) (hx : ∀ i, 0 ≤ s.solution i ∧ s.solution i ≤ 1)
    (v : Solver ℝ (Fin 2 → ℝ)) (hv : v.time = s.time)
    (hd : maxSize (fun x : ℝ => |x|) (v.solution - coarsenMap ℝ 2 2 s.solution) ≤ 1 / 10) :
    ∃ s' v', s.runE (heun ℝ) (vecRhs (2 * 2) (rhs upwind 1 ring)) [1 / 2, 1 / 2] = .ok s' ∧
      v.runE (heun ℝ) (vecRhs 2 (rhs upwind 2 ring)) [1 / 2, 1 / 2] = .ok v' ∧
      ∀ i, |v'.solution i - coarsenMap ℝ 2 2 s'.solution i| ≤ 2 := by
  obtain ⟨s', h1, -⟩ := example_run 2 (heun ℝ) (Or.inr (Or.inl rfl)) [1 / 2, 1 / 2]
    (by intro dt hdt; simp at hdt; subst hdt; norm_num) s hx
  obtain ⟨h2, v', h3, -, h4⟩ := C106_run abs_size upwind upwind (twoPoint_conservative _)
    (twoPoint_conservative _) 2 2 (by norm_num) 1 one_pos ring ring 1 (1 / 2) 2 (1 / 10) one_pos
    (by norm_num) (heun ℝ) (Or.inr (Or.inl rfl)) [1 / 2, 1 / 2]
    (by intro dt hdt; simp at hdt; subst hdt; norm_num) s s' h1 v hv hd (by
      norm_num [heun, Finset.sum_range_succ, Nat.factorial])
  refine ⟨s', v', h2, by simpa using h3, fun i => (h4 i).trans ?_⟩
  norm_num [heun, Finset.sum_range_succ, Nat.factorial]

end Examples

end Verif.ReducedError
