import Verif.Core.Rounding
import Verif.Core.Scalar
import Verif.Core.ODEExcept
import Mathlib.Algebra.Order.BigOperators.Group.Finset

/-!
Finite volume schemes for scalar equations in floating point arithmetic: each arithmetic operation of
`core/riemann_solver.py`, `finite_volume/numerical_flux.py` and `core/ode_solver.py` is followed by a rounding, in the
order of the code.  A change of sign is exact.  With exact arithmetic these are the models of `Core/FV.lean` and
`Core/ODEExcept.lean` (`rhsFl_exact`, `nodeFluxFl_exact`, `executeFl_exact`).
-/

set_option linter.unusedSectionVars false

namespace Verif.FVFl

open Verif.Rounding Verif.FV Verif.ODE Verif.Scalar Verif.Boundary Verif.Py

variable {K : Type*} [Field K] [LinearOrder K] [IsStrictOrderedRing K]

/-! ### Fluxes -/

/-- `RiemannSolver.solve` (`core/riemann_solver.py` lines 25-42), the flux returned; `P` are the flux and the wave speeds
as they are computed. -/
def nodeFluxFl (R : Rounding K) (P : Riemann K K) (uL uR : K) : Except Error K :=
  match P.flux uL, P.flux uR, P.waveSpeed uL uR with
  | .ok fL, .ok fR, .ok (wL, wR) =>
    let d := R.fl (wR - wL)
    if d = 0 then .error .nonFinite
    else
      let factor := R.fl (1 / d)
      let state := R.fl (factor * R.fl (R.fl (R.fl (wR * uR) - R.fl (wL * uL)) - R.fl (fR - fL)))
      .ok (R.fl (fL - R.fl (wL * R.fl (uL - state))))
  | .error e, _, _ => .error e
  | _, .error e, _ => .error e
  | _, _, .error e => .error e

/-- `LaxFriedrichsFlux`, `finite_volume/numerical_flux.py` lines 85-95. -/
def laxFriedrichsFl (R : Rounding K) (P : Riemann K K) : NumFlux K := twoPoint (nodeFluxFl R P)

/-- `get_riemann_solver`, `finite_volume/scalar/core.py` lines 8-47, with the flux `1 / 2 * u**2` of Burgers' equation
rounded twice; the other functions do no arithmetic that rounds. -/
def riemannFl (R : Rounding K) : Problem → Riemann K K
  | .advection => Problem.riemann .advection
  | .burgers => ⟨fun u => .ok (R.fl (1 / 2 * R.fl (u ^ 2))), (Problem.riemann .burgers).waveSpeed⟩

/-- Flux of `CentralFlux` for one node, line 108. -/
def centralNodeFl (R : Rounding K) (f : K → Except Error K) (uL uR : K) : Except Error K :=
  match f uL, f uR with
  | .ok a, .ok b => .ok (R.fl (R.fl (a + b) / 2))
  | .error e, _ => .error e
  | _, .error e => .error e

/-- `NumericalFluxDependentRightHandSide.__call__`, lines 168-186; `F` is the flux as it is computed. -/
def rhsFl (R : Rounding K) (F : NumFlux K) (dx : K) (bc : BC K K) (t : K) (v : List K) : Except Error (List K) :=
  match bc.nodeNeighbours v (F.dim / 2) (some t) with
  | .error e => .error e
  | .ok values =>
    match F.call values with
    | .error e => .error e
    | .ok (fl, fr) =>
      if dx = 0 then .error .nonFinite
      else .ok (List.zipWith (fun a b => R.fl (R.fl (a + b) / dx)) fr.dropLast fl.tail)

/-! ### Runge-Kutta methods -/

/-- `np.sum(..., axis=0)` for one entry: the rows are added in their order. -/
def sumFl (R : Rounding K) (l : List K) : K := l.foldl (fun a b => R.fl (a + b)) 0

/-- The coefficients as they are stored: `1 / 6` is a rounded number. -/
def roundTableau (R : Rounding K) (T : Tableau K) : Tableau K where
  size := T.size
  A := fun i j => R.fl (T.A i j)
  b := fun i => R.fl (T.b i)
  c := fun i => R.fl (T.c i)

/-- `x + time_step * np.sum([w_j * stages[j] for j < m])`, `core/ode_solver.py` lines 75-83 and 89-92. -/
def updateFl {n : ℕ} (R : Rounding K) (dt : K) (u : Fin n → K) (w : ℕ → K) (ks : List (Fin n → K)) (m : ℕ) : Fin n → K :=
  fun c => R.fl (u c + R.fl (dt * sumFl R ((List.range m).map (fun j => R.fl (w j * ks.getD j 0 c)))))

/-- `time_node`, line 74. -/
def timeNodeFl (R : Rounding K) (T : Tableau K) (t dt : K) (i : ℕ) : K := R.fl (t + R.fl (T.c i * dt))

/-- `stages` after `m` passes of the loop in lines 73-87. -/
def stagesFl {n : ℕ} {ε : Type*} (R : Rounding K) (T : Tableau K) (f : K → (Fin n → K) → Except ε (Fin n → K)) (t dt : K)
    (u : Fin n → K) : ℕ → Except ε (List (Fin n → K))
  | 0 => .ok []
  | m + 1 =>
    match stagesFl R T f t dt u m with
    | .error e => .error e
    | .ok ks =>
      match f (timeNodeFl R T t dt m) (updateFl R dt u (T.A m) ks m) with
      | .error e => .error e
      | .ok k => .ok (ks ++ [k])

/-- `execute`, lines 63-93. -/
def executeFl {n : ℕ} {ε : Type*} (R : Rounding K) (T : Tableau K) (f : K → (Fin n → K) → Except ε (Fin n → K))
    (s : Solver K (Fin n → K)) (dt : K) : Except ε (Solver K (Fin n → K)) :=
  match stagesFl R T f s.time dt s.solution T.size with
  | .error e => .error e
  | .ok ks => .ok
    { time := R.fl (s.time + dt)
      solution := updateFl R dt s.solution T.b ks T.size
      timeNodes := (List.range T.size).map (timeNodeFl R T s.time dt)
      stageValues := (List.range T.size).map (fun i => updateFl R dt s.solution (T.A i) ks i) }

/-- A run over a list of steps, ended by the first exception. -/
def runFl {n : ℕ} {ε : Type*} (R : Rounding K) (T : Tableau K) (f : K → (Fin n → K) → Except ε (Fin n → K))
    (s : Solver K (Fin n → K)) : List K → Except ε (Solver K (Fin n → K))
  | [] => .ok s
  | dt :: steps =>
    match executeFl R T f s dt with
    | .error e => .error e
    | .ok s' => runFl R T f s' steps

/-! ### Exact arithmetic -/

theorem exact_fl (x : K) : (exact K).fl x = x := rfl

theorem nodeFluxFl_exact (P : Riemann K K) (uL uR : K) : nodeFluxFl (exact K) P uL uR = P.nodeFlux uL uR := by
  unfold nodeFluxFl Riemann.nodeFlux Riemann.solve
  simp only [exact_fl]
  cases P.flux uL <;> cases P.flux uR <;> cases P.waveSpeed uL uR <;> simp only
  split_ifs with h <;> simp [h]

theorem riemannFl_exact (p : Problem) : riemannFl (exact K) p = p.riemann := by
  cases p <;> rfl

theorem rhsFl_exact (F : NumFlux K) (dx : K) (bc : BC K K) (t : K) (v : List K) :
    rhsFl (exact K) F dx bc t v = rhs F dx bc t v := by
  unfold rhsFl rhs
  simp only [exact_fl]
  cases bc.nodeNeighbours v (F.dim / 2) (some t) with
  | error e => rfl
  | ok values =>
    simp only
    cases F.call values with
    | error e => rfl
    | ok p =>
      obtain ⟨fl, fr⟩ := p
      simp only
      split_ifs
      · rfl
      · congr 2
        funext a b
        rw [smul_eq_mul]
        ring

theorem sumFl_exact (l : List K) : sumFl (exact K) l = l.sum := by
  unfold sumFl
  simp only [exact_fl]
  rw [List.sum_eq_foldl]

theorem updateFl_exact {n : ℕ} (dt : K) (u : Fin n → K) (w : ℕ → K) (ks : List (Fin n → K)) (m : ℕ) :
    updateFl (exact K) dt u w ks m = u + dt • ((List.range m).map (fun j => w j • ks.getD j 0)).sum := by
  funext c
  unfold updateFl
  rw [sumFl_exact]
  simp only [exact_fl, Pi.add_apply, Pi.smul_apply, smul_eq_mul]
  congr 2
  generalize List.range m = l
  induction l with
  | nil => simp
  | cons a l ih => rw [List.map_cons, List.sum_cons, List.map_cons, List.sum_cons, Pi.add_apply, ih]; rfl

theorem stagesFl_exact {n : ℕ} {ε : Type*} (T : Tableau K) (f : K → (Fin n → K) → Except ε (Fin n → K)) (t dt : K)
    (u : Fin n → K) (m : ℕ) : stagesFl (exact K) T f t dt u m = stagesE T f t dt u m := by
  induction m with
  | zero => rfl
  | succ m ih =>
    unfold stagesFl stagesE
    rw [ih]
    cases stagesE T f t dt u m with
    | error e => rfl
    | ok ks =>
      have e : f (timeNodeFl (exact K) T t dt m) (updateFl (exact K) dt u (T.A m) ks m) =
          f (timeNode T t dt m) (stageValue T dt u ks m) := by rw [updateFl_exact]; rfl
      simp only [e]
      cases f (timeNode T t dt m) (stageValue T dt u ks m) <;> rfl

/-- With exact arithmetic a step is the one of the model without roundings. -/
theorem executeFl_exact {n : ℕ} {ε : Type*} (T : Tableau K) (f : K → (Fin n → K) → Except ε (Fin n → K))
    (s : Solver K (Fin n → K)) (dt : K) : executeFl (exact K) T f s dt = s.executeE T f dt := by
  unfold executeFl Solver.executeE
  rw [stagesFl_exact]
  simp only [updateFl_exact]
  cases stagesE T f s.time dt s.solution T.size <;> rfl

/-! ### Errors of roundings -/

/-- `a` comes from `b` by at most `k` roundings of terms whose absolute values sum up to `c`. -/
def Near (R : Rounding K) (k : ℕ) (c a b : K) : Prop := |b| ≤ c ∧ |a - b| ≤ ((1 + R.u) ^ k - 1) * c

theorem Near.nonneg {R : Rounding K} {k : ℕ} {c a b : K} (h : Near R k c a b) : 0 ≤ c := (abs_nonneg b).trans h.1

theorem pow_one_le (R : Rounding K) (k : ℕ) : 1 ≤ (1 + R.u) ^ k := one_le_pow₀ (by have := R.nonneg; linarith)

theorem Near.refl (R : Rounding K) {c b : K} (h : |b| ≤ c) : Near R 0 c b b := ⟨h, by simp⟩

theorem Near.mono {R : Rounding K} {k k' : ℕ} {c c' a b : K} (h : Near R k c a b) (hk : k ≤ k') (hc : c ≤ c') :
    Near R k' c' a b := by
  refine ⟨h.1.trans hc, h.2.trans ?_⟩
  have h1 : (1 + R.u) ^ k ≤ (1 + R.u) ^ k' := pow_le_pow_right₀ (by have := R.nonneg; linarith) hk
  have h2 := pow_one_le R k
  exact mul_le_mul (by linarith) hc h.nonneg (by linarith)

theorem Near.abs_le {R : Rounding K} {k : ℕ} {c a b : K} (h : Near R k c a b) : |a| ≤ (1 + R.u) ^ k * c := by
  have h1 : |a| ≤ |a - b| + |b| := by simpa using abs_add_le (a - b) b
  have := h.1
  have := h.2
  linarith

theorem Near.fl {R : Rounding K} {k : ℕ} {c a b : K} (h : Near R k c a b) : Near R (k + 1) c (R.fl a) b := by
  refine ⟨h.1, ?_⟩
  have h1 : |R.fl a - b| ≤ |R.fl a - a| + |a - b| := by simpa using abs_add_le (R.fl a - a) (a - b)
  have h2 := R.near a
  have h3 := mul_le_mul_of_nonneg_left h.abs_le R.nonneg
  have h4 := h.2
  rw [pow_succ]
  nlinarith

theorem Near.add {R : Rounding K} {k : ℕ} {c a b c' a' b' : K} (h : Near R k c a b) (h' : Near R k c' a' b') :
    Near R k (c + c') (a + a') (b + b') := by
  refine ⟨(abs_add_le _ _).trans (add_le_add h.1 h'.1), ?_⟩
  have h1 : |a + a' - (b + b')| ≤ |a - b| + |a' - b'| := by
    rw [show a + a' - (b + b') = (a - b) + (a' - b') by ring]; exact abs_add_le _ _
  have h2 := h.2
  have h3 := h'.2
  rw [mul_add]
  linarith

theorem Near.neg {R : Rounding K} {k : ℕ} {c a b : K} (h : Near R k c a b) : Near R k c (-a) (-b) := by
  refine ⟨by rw [abs_neg]; exact h.1, ?_⟩
  rw [show -a - -b = -(a - b) by ring, abs_neg]
  exact h.2

theorem Near.sub {R : Rounding K} {k : ℕ} {c a b c' a' b' : K} (h : Near R k c a b) (h' : Near R k c' a' b') :
    Near R k (c + c') (a - a') (b - b') := by
  rw [sub_eq_add_neg, sub_eq_add_neg]
  exact h.add h'.neg

theorem Near.mul {R : Rounding K} {k : ℕ} {c a b : K} (h : Near R k c a b) (w : K) :
    Near R k (|w| * c) (w * a) (w * b) := by
  refine ⟨by rw [abs_mul]; exact mul_le_mul_of_nonneg_left h.1 (abs_nonneg w), ?_⟩
  rw [← mul_sub, abs_mul]
  have := mul_le_mul_of_nonneg_left h.2 (abs_nonneg w)
  linarith

theorem Near.div {R : Rounding K} {k : ℕ} {c a b : K} (h : Near R k c a b) {w : K} (hw : 0 < w) :
    Near R k (c / w) (a / w) (b / w) := by
  have := h.mul (1 / w)
  rw [abs_of_pos (by positivity)] at this
  simpa [div_eq_mul_inv, mul_comm] using this

/-- A product with a rounded coefficient. -/
theorem Near.coefficient {R : Rounding K} {k : ℕ} {c a b : K} (h : Near R k c a b) (w : K) :
    Near R (k + 1) (|w| * c) (R.fl w * a) (w * b) := by
  refine ⟨by rw [abs_mul]; exact mul_le_mul_of_nonneg_left h.1 (abs_nonneg w), ?_⟩
  have h1 : |R.fl w * a - w * b| ≤ |R.fl w - w| * |a| + |w| * |a - b| := by
    rw [show R.fl w * a - w * b = (R.fl w - w) * a + w * (a - b) by ring, ← abs_mul, ← abs_mul]
    exact abs_add_le _ _
  have h2 := mul_le_mul (R.near w) h.abs_le (abs_nonneg a) (mul_nonneg R.nonneg (abs_nonneg w))
  have h3 := mul_le_mul_of_nonneg_left h.2 (abs_nonneg w)
  rw [pow_succ]
  nlinarith

theorem sumFl_succ (R : Rounding K) (f : ℕ → K) (m : ℕ) :
    sumFl R ((List.range (m + 1)).map f) = R.fl (sumFl R ((List.range m).map f) + f m) := by
  unfold sumFl
  rw [List.range_succ, List.map_append, List.foldl_append]
  rfl

theorem Near.sum {R : Rounding K} {k : ℕ} (c a b : ℕ → K) (m : ℕ) (h : ∀ j < m, Near R k (c j) (a j) (b j)) :
    Near R (k + m) (∑ j ∈ Finset.range m, c j) (sumFl R ((List.range m).map a)) (∑ j ∈ Finset.range m, b j) := by
  induction m with
  | zero => simpa [sumFl] using (Near.refl R (c := 0) (b := 0) (by simp)).mono (Nat.zero_le k) le_rfl
  | succ m ih =>
    rw [sumFl_succ, Finset.sum_range_succ, Finset.sum_range_succ]
    exact ((ih (fun j hj => h j (by omega))).add ((h m (by omega)).mono (Nat.le_add_right k m) le_rfl)).fl

theorem list_sum_range {M : Type*} [AddCommMonoid M] (f : ℕ → M) (m : ℕ) :
    ((List.range m).map f).sum = ∑ j ∈ Finset.range m, f j := by
  induction m with
  | zero => simp
  | succ m ih => rw [List.range_succ, List.map_append, List.sum_append, ih, Finset.sum_range_succ]; simp

end Verif.FVFl
