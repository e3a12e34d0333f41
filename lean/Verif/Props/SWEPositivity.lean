import Verif.Core.SWEMcl
import Verif.Core.SWEDiffusive
import Verif.Props.SWEBasic

/-!
Properties C41, C42, C49 and C50: heights stay non-negative and within bounds, velocities of the MCL
scheme.
-/

set_option linter.unusedSectionVars false

namespace Verif.SWE

open Verif.Py Verif.Boundary Verif.FV Verif.ODE

variable {K : Type*} [Field K] [LinearOrder K] [IsStrictOrderedRing K]

/-! ### Specification -/

/-- Wave speed of node `j` of an extended vector. -/
def speedAt (P : Params K) (ext : List (State K)) (j : ℕ) : K :=
  maxSpeed P (ext.getD j 0) (ext.getD (j + 1) 0)

/-- The condition on step and state under which the schemes are claimed to work: no two neighbouring
cells (ghost cells included) are both dry, and the step is at most `dx` over the sum of the two wave
speeds at each cell. -/
def StepCondition (P : Params K) (bc : BC K (State K)) (n : ℕ) (dx dt t : K) (u : Fin n → State K) :
    Prop :=
  ∀ ext, bc.extend (List.ofFn u) (some t) = .ok ext →
    (∀ j < n + 1, 0 < (ext.getD j 0).1 ∨ 0 < (ext.getD (j + 1) 0).1) ∧
    ∀ i < n, dt * (speedAt P ext i + speedAt P ext (i + 1)) ≤ dx

/-- States with non-negative heights. -/
def nonneg (K : Type*) [Field K] [LinearOrder K] (n : ℕ) : Set (Fin n → State K) :=
  {u | ∀ i, 0 ≤ (u i).1}

theorem nonneg_convex (n : ℕ) : Convex K (nonneg K n) := by
  intro u hu v hv a b ha hb hab i
  simp only [Pi.add_apply, Pi.smul_apply, Prod.fst_add, Prod.smul_fst, smul_eq_mul]
  exact add_nonneg (mul_nonneg ha (hu i)) (mul_nonneg hb (hv i))

/-! ### Fluxes in bar form -/

/-- The height parts of the node fluxes are `w (a - h_right) + f_right` and `w (b - h_left) - f_left`
with bar heights `a`, `b`. -/
def BarForm (P : Params K) (ext : List (State K)) (gl gr : ℕ → State K) (a b : ℕ → K) (j : ℕ) :
    Prop :=
  (gr j).1 = speedAt P ext j * (a j - (ext.getD (j + 1) 0).1) + massFlux P (ext.getD (j + 1) 0) ∧
  (gl j).1 = speedAt P ext j * (b j - (ext.getD j 0).1) - massFlux P (ext.getD j 0)

theorem getD_nonneg (ext : List (State K)) (h : ∀ x ∈ ext, 0 ≤ x.1) (j : ℕ) :
    0 ≤ (ext.getD j 0).1 := by
  by_cases hj : j < ext.length
  · rw [List.getD_eq_getElem _ _ hj]; exact h _ (List.getElem_mem _)
  · rw [List.getD_eq_default _ _ (not_lt.mp hj)]; simp

theorem bar_step (w1 w2 h a b f dt dx : K) (hdx : dx ≠ 0) :
    h + dt * (1 / dx * ((w1 * (a - h) + f) + (w2 * (b - h) - f))) =
      (1 - dt * (w1 + w2) / dx) * h + dt * w1 / dx * a + dt * w2 / dx * b := by
  field_simp
  ring

theorem bar_step_bounds (w1 w2 h a b f dt dx m M : K) (hdx : 0 < dx) (hdt : 0 ≤ dt) (h1 : 0 ≤ w1)
    (h2 : 0 ≤ w2) (hc : dt * (w1 + w2) ≤ dx) (hh : m ≤ h ∧ h ≤ M) (ha : m ≤ a ∧ a ≤ M)
    (hb : m ≤ b ∧ b ≤ M) :
    m ≤ h + dt * (1 / dx * ((w1 * (a - h) + f) + (w2 * (b - h) - f))) ∧
    h + dt * (1 / dx * ((w1 * (a - h) + f) + (w2 * (b - h) - f))) ≤ M := by
  rw [bar_step w1 w2 h a b f dt dx hdx.ne']
  have c1 : 0 ≤ dt * w1 / dx := div_nonneg (mul_nonneg hdt h1) hdx.le
  have c2 : 0 ≤ dt * w2 / dx := div_nonneg (mul_nonneg hdt h2) hdx.le
  have c0 : 0 ≤ 1 - dt * (w1 + w2) / dx := by
    rw [sub_nonneg, div_le_one hdx]; exact hc
  have hsum : (1 - dt * (w1 + w2) / dx) + dt * w1 / dx + dt * w2 / dx = 1 := by
    field_simp; ring
  set α := 1 - dt * (w1 + w2) / dx
  set β := dt * w1 / dx
  set γ := dt * w2 / dx
  constructor
  · have := mul_le_mul_of_nonneg_left hh.1 c0
    have := mul_le_mul_of_nonneg_left ha.1 c1
    have := mul_le_mul_of_nonneg_left hb.1 c2
    have e : m = α * m + β * m + γ * m := by rw [← add_mul, ← add_mul, hsum, one_mul]
    linarith
  · have := mul_le_mul_of_nonneg_left hh.2 c0
    have := mul_le_mul_of_nonneg_left ha.2 c1
    have := mul_le_mul_of_nonneg_left hb.2 c2
    have e : M = α * M + β * M + γ * M := by rw [← add_mul, ← add_mul, hsum, one_mul]
    linarith

/-- A flux whose node fluxes have non-negative bar heights whenever heights are non-negative and no
two neighbouring cells are dry. -/
def HasBars (P : Params K) (F : NumFlux (State K)) (n : ℕ) : Prop :=
  ∀ ext : List (State K), ext.length = n + 2 → (∀ x ∈ ext, 0 ≤ x.1) →
    (∀ j < n + 1, 0 < (ext.getD j 0).1 ∨ 0 < (ext.getD (j + 1) 0).1) →
    ∃ gl gr a b, F.call [ext.dropLast, ext.tail] =
      .ok ((List.range (n + 1)).map gl, (List.range (n + 1)).map gr) ∧
      ∀ j < n + 1, 0 ≤ a j ∧ 0 ≤ b j ∧ BarForm P ext gl gr a b j

theorem vecRhs_range {n : ℕ} {V : Type*} (f : K → List V → Except Error (List V)) (t : K)
    (u : Fin n → V) (g : ℕ → V) (h : f t (List.ofFn u) = .ok ((List.range n).map g)) :
    vecRhs n f t u = .ok (fun i => g i) := by
  unfold vecRhs
  simp only [h, List.length_map, List.length_range, dif_pos]
  congr 1
  funext i
  simp

theorem ext_getD {n : ℕ} (u : Fin n → State K) (a b : State K) (i : Fin n) :
    (a :: List.ofFn u ++ [b]).getD (i + 1) 0 = u i := by
  rw [List.getD_eq_getElem _ _ (by simp)]
  simp

/-- One forward Euler step with a flux in bar form keeps heights non-negative. -/
theorem bars_step (P : Params K) (hP : P.Good) (F : NumFlux (State K)) (hdim : F.dim / 2 = 1) (n : ℕ)
    (hF : HasBars P F n) (bc : BC K (State K)) (hbc : Extends bc n (fun x => 0 ≤ x.1)) (dx dt t : K)
    (hdx : 0 < dx) (hdt : 0 ≤ dt) (u : Fin n → State K) (hu : u ∈ nonneg K n)
    (hadm : StepCondition P bc n dx dt t u) :
    ∃ w, vecRhs n (rhs F dx bc) t u = .ok w ∧ u + dt • w ∈ nonneg K n := by
  have hmem : ∀ x ∈ List.ofFn u, 0 ≤ x.1 := by
    intro x hx
    obtain ⟨i, rfl⟩ := (List.mem_ofFn' _ _).mp hx
    exact hu i
  obtain ⟨x, y, hx, hy, hext⟩ := hbc t (List.ofFn u) (by simp) hmem
  have hall : ∀ z ∈ x :: List.ofFn u ++ [y], 0 ≤ z.1 := by
    intro z hz
    simp only [List.cons_append, List.mem_cons, List.mem_append, List.mem_singleton,
      List.not_mem_nil, or_false] at hz
    rcases hz with rfl | hz | rfl
    · exact hx
    · exact hmem z hz
    · exact hy
  obtain ⟨hd, hc⟩ := hadm _ hext
  have hlen : (x :: List.ofFn u ++ [y]).length = n + 2 := by simp
  obtain ⟨gl, gr, a, b, hcall, hbar⟩ := hF _ hlen hall hd
  have hr := rhs_of_call F hdim dx hdx.ne' bc t _ _ hext n hlen gl gr hcall
  refine ⟨_, vecRhs_range (rhs F dx bc) t u _ hr, ?_⟩
  intro i
  obtain ⟨ha, _, h1, _⟩ := hbar i (by omega)
  obtain ⟨_, hb, _, h2⟩ := hbar (i + 1) (by omega)
  have hs : ∀ j, 0 ≤ speedAt P (x :: List.ofFn u ++ [y]) j :=
    fun j => maxSpeed_nonneg P hP _ _ (getD_nonneg _ hall _)
  simp only [Pi.add_apply, Pi.smul_apply, Prod.fst_add, Prod.smul_fst, smul_eq_mul]
  rw [h1, h2, ext_getD]
  have key := bar_step_bounds (speedAt P (x :: List.ofFn u ++ [y]) i)
    (speedAt P (x :: List.ofFn u ++ [y]) (i + 1)) (u i).1 (a i) (b (i + 1)) (massFlux P (u i)) dt dx
    0 (max (u i).1 (max (a i) (b (i + 1)))) hdx hdt (hs _) (hs _) (hc i i.2)
    ⟨hu i, le_max_left _ _⟩ ⟨ha, (le_max_left _ _).trans (le_max_right _ _)⟩
    ⟨hb, (le_max_right _ _).trans (le_max_right _ _)⟩
  exact key.1

/-- Runs with a flux in bar form: either the step condition is violated at some stage, or the run
does not raise and heights are non-negative at the end. -/
theorem bars_run (P : Params K) (hP : P.Good) (F : NumFlux (State K)) (hdim : F.dim / 2 = 1) (n : ℕ)
    (hF : HasBars P F n) (bc : BC K (State K)) (hbc : Extends bc n (fun x => 0 ≤ x.1)) (dx : K)
    (hdx : 0 < dx) (T : Tableau K) (hT : T = forwardEuler K ∨ T = heun K ∨ T = ssp3 K)
    (s : Solver K (Fin n → State K)) (hs : s.solution ∈ nonneg K n) (steps : List K)
    (hsteps : ∀ dt ∈ steps, 0 ≤ dt) :
    s.runChecked T (StepCondition P bc n dx) (vecRhs n (rhs F dx bc)) steps = .error none ∨
    ∃ s', s.runChecked T (StepCondition P bc n dx) (vecRhs n (rhs F dx bc)) steps = .ok s' ∧
      s.runE T (vecRhs n (rhs F dx bc)) steps = .ok s' ∧ s'.solution ∈ nonneg K n := by
  apply runChecked_spec T hT _ _ _ (nonneg_convex n) steps _ s hs
  intro dt hdt t u hu hadm
  exact bars_step P hP F hdim n hF bc hbc dx dt t hdx (hsteps dt hdt) u hu hadm

/-! ### C41 -/

theorem lf_call (P : Params K) (hP : P.Good) (B : Bathymetry K) (n : ℕ) (ext : List (State K))
    (hlen : ext.length = n + 2) (hall : ∀ x ∈ ext, 0 ≤ x.1)
    (hd : ∀ j < n + 1, 0 < (ext.getD j 0).1 ∨ 0 < (ext.getD (j + 1) 0).1) (ds : List K)
    (hds : B.steps (n + 1) = .ok ds) :
    (lfFlux P B).call [ext.dropLast, ext.tail] =
      .ok ((List.range (n + 1)).map (fun j => -llf P (ext.getD j 0) (ext.getD (j + 1) 0) +
          -source P (ext.getD j 0) (ext.getD (j + 1) 0) (ds.getD j 0)),
        (List.range (n + 1)).map (fun j => llf P (ext.getD j 0) (ext.getD (j + 1) 0) +
          -source P (ext.getD j 0) (ext.getD (j + 1) 0) (ds.getD j 0))) := by
  apply withSource_call P B (laxFriedrichs (riemann P)) n ext hlen ds hds
  apply twoPoint_call _ n ext hlen
  intro j hj
  simp only [Riemann.nodeFlux]
  rw [solve_ok P _ _ (getD_nonneg ext hall j) (getD_nonneg ext hall (j + 1))
    (maxSpeed_pos P hP _ _ (hd j hj))]

theorem lf_bars (P : Params K) (hP : P.Good) (B : Bathymetry K) (n : ℕ) (ds : List K)
    (hds : B.steps (n + 1) = .ok ds) : HasBars P (lfFlux P B) n := by
  intro ext hlen hall hd
  refine ⟨_, _, fun j => (barState P (ext.getD j 0) (ext.getD (j + 1) 0)).1,
    fun j => (barState P (ext.getD j 0) (ext.getD (j + 1) 0)).1,
    lf_call P hP B n ext hlen hall hd ds hds, ?_⟩
  intro j hj
  have hw := maxSpeed_pos P hP _ _ (hd j hj)
  have hb := barState_height P hP _ _ (getD_nonneg ext hall j) (getD_nonneg ext hall (j + 1)) hw
  have e1 := congrArg Prod.fst (llf_left P (ext.getD j 0) (ext.getD (j + 1) 0) hw.ne')
  have e2 := congrArg Prod.fst (llf_right P (ext.getD j 0) (ext.getD (j + 1) 0) hw.ne')
  refine ⟨hb, hb, ?_, ?_⟩
  · simpa [source, fluxOf, speedAt] using e2
  · simpa [source, fluxOf, speedAt] using e1

/-- C41.  Local Lax-Friedrichs, any bathymetry, any combination of boundary conditions (inflow
heights non-negative): if heights are non-negative, no two neighbouring cells are dry and
`dt (w_i + w_{i+1}) ≤ dx`, then the right-hand side does not raise and the forward Euler step has
non-negative heights. -/
theorem C41_step (P : Params K) (hP : P.Good) (b : Option (List K)) (n : ℕ) (hn : 0 < n)
    (hb : ∀ l, b = some l → l.length = n) (B : Bathymetry K) (hB : buildBathymetry P b = .ok B)
    (conditions : List String) (il ir : Option (K → State K))
    (hil : ∀ g, il = some g → ∀ t, 0 ≤ (g t).1) (hir : ∀ g, ir = some g → ∀ t, 0 ≤ (g t).1)
    (bc : BC K (State K)) (hbc : build (some reflect) conditions 1 il ir = .ok bc)
    (dx dt t : K) (hdx : 0 < dx) (hdt : 0 ≤ dt) (u : Fin n → State K) (hu : ∀ i, 0 ≤ (u i).1)
    (hadm : StepCondition P bc n dx dt t u) :
    ∃ w, vecRhs n (rhs (lfFlux P B) dx bc) t u = .ok w ∧ ∀ i, 0 ≤ ((u + dt • w) i).1 := by
  obtain ⟨ds, hds, _⟩ := steps_of_build P b n hn hb B hB
  exact bars_step P hP _ (by simp [lfFlux, withSource, laxFriedrichs]) n (lf_bars P hP B n ds hds) bc
    (build_extends conditions il ir bc hbc n hn _ (fun x hx => hx) hil hir) dx dt t hdx hdt u hu hadm

/-- C41 for runs with forward Euler, Heun or SSP3: either the step condition was violated before some
evaluation of the right-hand side, or the run does not raise and the heights are non-negative. -/
theorem C41_run (P : Params K) (hP : P.Good) (b : Option (List K)) (n : ℕ) (hn : 0 < n)
    (hb : ∀ l, b = some l → l.length = n) (B : Bathymetry K) (hB : buildBathymetry P b = .ok B)
    (conditions : List String) (il ir : Option (K → State K))
    (hil : ∀ g, il = some g → ∀ t, 0 ≤ (g t).1) (hir : ∀ g, ir = some g → ∀ t, 0 ≤ (g t).1)
    (bc : BC K (State K)) (hbc : build (some reflect) conditions 1 il ir = .ok bc)
    (dx : K) (hdx : 0 < dx) (T : Tableau K) (hT : T = forwardEuler K ∨ T = heun K ∨ T = ssp3 K)
    (s : Solver K (Fin n → State K)) (hs : ∀ i, 0 ≤ (s.solution i).1) (steps : List K)
    (hsteps : ∀ dt ∈ steps, 0 ≤ dt) :
    let f := vecRhs n (rhs (lfFlux P B) dx bc)
    s.runChecked T (StepCondition P bc n dx) f steps = .error none ∨
    ∃ s', s.runChecked T (StepCondition P bc n dx) f steps = .ok s' ∧
      s.runE T f steps = .ok s' ∧ ∀ i, 0 ≤ (s'.solution i).1 := by
  obtain ⟨ds, hds, _⟩ := steps_of_build P b n hn hb B hB
  exact bars_run P hP _ (by simp [lfFlux, withSource, laxFriedrichs]) n (lf_bars P hP B n ds hds) bc
    (build_extends conditions il ir bc hbc n hn _ (fun x hx => hx) hil hir) dx hdx T hT s hs steps
    hsteps

/-- The condition on dry cells is needed: if `rt 0 = 0`, two neighbouring dry cells make the Riemann
solver divide by zero, so the right-hand side is not finite. -/
theorem C41_dry_pair (P : Params K) (h0 : P.rt 0 = 0) (q1 q2 : K) :
    (riemann P).nodeFlux (0, q1) (0, q2) = .error .nonFinite := by
  have hv : ∀ q, velocity P ((0 : K), q) = 0 := fun q => by simp [velocity]
  have hw : maxSpeed P ((0 : K), q1) (0, q2) = 0 := by simp [maxSpeed, hv, h0]
  have hf : ∀ q : K, flux P (0, q) = .ok (0, 0) := fun q => by
    unfold flux; simp [P.eps_pos]
  simp [Riemann.nodeFlux, Riemann.solve, riemann, hf, hw]

/-- Non-vacuity of C41: three cells, one of them dry, a bathymetry and a wall; the step condition
holds for `dt = 1/100` and the step gives non-negative heights. -/
def exampleState : Fin 3 → State ℚ := ![(4, 1), (0, 0), (1, -1)]

def exampleBC : BC ℚ (State ℚ) := ⟨[.reflect 0 reflect], [.copy (-1)], false⟩

example : build (some reflect) ["wall", "outflow"] 1 none none = .ok exampleBC := by
  simp [build, buildLeft, buildRight, exampleBC, BC.make, pure, Except.pure, bind, Except.bind]

example : StepCondition exampleParams exampleBC 3 1 (1 / 100) 0 exampleState := by
  intro ext hext
  have : exampleBC.extend (List.ofFn exampleState) (some 0) =
      .ok [(4, -1), (4, 1), (0, 0), (1, -1), (1, -1)] := by decide +kernel
  rw [this] at hext
  cases hext
  decide +kernel

example : okAnd ((buildBathymetry exampleParams (some [0, 1, 2])).bind (fun B =>
    rhs (lfFlux exampleParams B) 1 exampleBC 0 (List.ofFn exampleState)))
    (fun w => decide (w.length = 3 ∧ w.getD 1 0 ≠ 0)) = true := by decide +kernel

/-! ### C42 -/

/-- The bar state a left node flux belongs to: `flux = w (bar - u_left) - f(u_left)`. -/
def barLeft (P : Params K) (ext fl : List (State K)) (j : ℕ) : State K :=
  ext.getD j 0 + (1 / speedAt P ext j) • (fl.getD j 0 + fluxOf P (ext.getD j 0))

/-- The bar state a right node flux belongs to: `flux = w (bar - u_right) + f(u_right)`. -/
def barRight (P : Params K) (ext fr : List (State K)) (j : ℕ) : State K :=
  ext.getD (j + 1) 0 + (1 / speedAt P ext j) • (fr.getD j 0 - fluxOf P (ext.getD (j + 1) 0))

theorem bar_of_flux (w : K) (hw : w ≠ 0) (x u f l : State K) :
    u + (1 / w) • (w • (x + -u) + -f + l + f) = x + (1 / w) • l := by
  have : w • (x + -u) + -f + l + f = w • (x + -u) + l := by abel
  rw [this, smul_add, smul_smul, one_div_mul_cancel hw, one_smul]
  abel

theorem bar_of_flux' (w : K) (hw : w ≠ 0) (x u f l : State K) :
    u + (1 / w) • (w • (x + -u) + f + l - f) = x + (1 / w) • l := by
  have : w • (x + -u) + f + l - f = w • (x + -u) + l := by abel
  rw [this, smul_add, smul_smul, one_div_mul_cancel hw, one_smul]
  abel

theorem barLeft_low (P : Params K) (ext : List (State K)) (n : ℕ) (ds : List K) (l : ℕ → State K)
    (j : ℕ) (hj : j < n + 1) (hw : speedAt P ext j ≠ 0) :
    let N := low P (ext.getD j 0) (ext.getD (j + 1) 0) (ds.getD j 0)
    barLeft P ext ((List.range (n + 1)).map (fun j =>
      (low P (ext.getD j 0) (ext.getD (j + 1) 0) (ds.getD j 0)).fluxLeft + l j)) j =
      (N.heightLeft, N.dischargeLeft) + (1 / speedAt P ext j) • l j := by
  intro N
  unfold barLeft
  rw [range_getD _ _ _ _ hj]
  exact bar_of_flux _ hw (N.heightLeft, N.dischargeLeft) _ _ _

theorem barRight_low (P : Params K) (ext : List (State K)) (n : ℕ) (ds : List K) (l : ℕ → State K)
    (j : ℕ) (hj : j < n + 1) (hw : speedAt P ext j ≠ 0) :
    let N := low P (ext.getD j 0) (ext.getD (j + 1) 0) (ds.getD j 0)
    barRight P ext ((List.range (n + 1)).map (fun j =>
      (low P (ext.getD j 0) (ext.getD (j + 1) 0) (ds.getD j 0)).fluxRight + l j)) j =
      (N.heightRight, N.dischargeRight) + (1 / speedAt P ext j) • l j := by
  intro N
  unfold barRight
  rw [range_getD _ _ _ _ hj]
  exact bar_of_flux' _ hw (N.heightRight, N.dischargeRight) _ _ _

theorem sgn_cases (x : K) : (x < 0 ∧ sgn x = -1) ∨ (x = 0 ∧ sgn x = 0) ∨ (0 < x ∧ sgn x = 1) := by
  unfold sgn
  rcases lt_trichotomy x 0 with h | h | h
  · simp [h]
  · simp [h]
  · simp [h, not_lt.mpr h.le]

theorem positivityFix_spec (bar step : K) (hb : 0 ≤ bar) :
    |positivityFix bar step| ≤ bar ∧ |positivityFix bar step| ≤ |step| / 2 ∧
    (|step| / 2 ≤ bar → positivityFix bar step = step / 2) := by
  have hm : 0 ≤ min (|step| / 2) bar := le_min (by positivity) hb
  have m1 : min (|step| / 2) bar ≤ bar := min_le_right _ _
  have m2 : min (|step| / 2) bar ≤ |step| / 2 := min_le_left _ _
  unfold positivityFix
  rcases sgn_cases step with ⟨h, e⟩ | ⟨h, e⟩ | ⟨h, e⟩ <;> rw [e]
  · rw [mul_neg_one, abs_neg, abs_of_nonneg hm]
    refine ⟨m1, m2, fun hle => ?_⟩
    rw [min_eq_left hle, abs_of_neg h]; ring
  · simp [h, hb]
  · rw [mul_one, abs_of_nonneg hm]
    refine ⟨m1, m2, fun hle => ?_⟩
    rw [min_eq_left hle, abs_of_pos h]

theorem low_heights (P : Params K) (hP : P.Good) (uL uR : State K) (step : K) (hL : 0 ≤ uL.1)
    (hR : 0 ≤ uR.1) (hw : 0 < maxSpeed P uL uR) :
    0 ≤ (low P uL uR step).heightLeft ∧ 0 ≤ (low P uL uR step).heightRight := by
  have hb := barState_height P hP uL uR hL hR hw
  have h := (positivityFix_spec (barState P uL uR).1 step hb).1
  rw [abs_le] at h
  simp only [low]
  constructor <;> linarith [h.1, h.2]

/-- C42.  The bar heights of the low-order flux are non-negative; both are shifted from the
(non-negative) HLL height by the same amount in opposite directions, which is half of the bathymetry
step if the HLL height is at least its modulus, and never more. -/
theorem C42_bar_heights (P : Params K) (hP : P.Good) (B : Bathymetry K) (n : ℕ)
    (ext : List (State K)) (hlen : ext.length = n + 2) (fl fr : List (State K))
    (h : (lowOrder P B).call [ext.dropLast, ext.tail] = .ok (fl, fr)) :
    ∃ ds, B.steps (n + 1) = .ok ds ∧ fl.length = n + 1 ∧ fr.length = n + 1 ∧ ∀ j < n + 1,
      let hll := (barState P (ext.getD j 0) (ext.getD (j + 1) 0)).1
      0 ≤ hll ∧ 0 ≤ (barLeft P ext fl j).1 ∧ 0 ≤ (barRight P ext fr j).1 ∧
      (barLeft P ext fl j).1 + (barRight P ext fr j).1 = 2 * hll ∧
      |(barLeft P ext fl j).1 - hll| ≤ |ds.getD j 0| / 2 ∧
      (|ds.getD j 0| / 2 ≤ hll → (barLeft P ext fl j).1 = hll + ds.getD j 0 / 2) := by
  obtain ⟨ds, hds, hall, rfl, rfl⟩ := lowOrder_inv P hP B n ext hlen fl fr h
  refine ⟨ds, hds, by simp, by simp, ?_⟩
  intro j hj hll
  obtain ⟨h1, h2, hw⟩ := hall j hj
  have hb := barState_height P hP _ _ h1 h2 hw
  obtain ⟨p1, p2, p3⟩ := positivityFix_spec hll (ds.getD j 0) hb
  obtain ⟨l1, l2⟩ := low_heights P hP _ _ (ds.getD j 0) h1 h2 hw
  have eL := barLeft_low P ext n ds (fun _ => 0) j hj hw.ne'
  have eR := barRight_low P ext n ds (fun _ => 0) j hj hw.ne'
  simp only [add_zero, smul_zero] at eL eR
  rw [eL, eR]
  refine ⟨hb, l1, l2, low_sum P _ _ _, ?_, ?_⟩
  · have : (low P (ext.getD j 0) (ext.getD (j + 1) 0) (ds.getD j 0)).heightLeft - hll =
        positivityFix hll (ds.getD j 0) := by simp [low, hll]
    simp only
    rw [this]
    exact p2
  · intro hle
    have : (low P (ext.getD j 0) (ext.getD (j + 1) 0) (ds.getD j 0)).heightLeft =
        hll + positivityFix hll (ds.getD j 0) := by simp [low, hll]
    simp only
    rw [this, p3 hle]

theorem lowOrder_call (P : Params K) (hP : P.Good) (B : Bathymetry K) (n : ℕ) (ext : List (State K))
    (hlen : ext.length = n + 2) (hall : ∀ x ∈ ext, 0 ≤ x.1)
    (hd : ∀ j < n + 1, 0 < (ext.getD j 0).1 ∨ 0 < (ext.getD (j + 1) 0).1) (ds : List K)
    (hds : B.steps (n + 1) = .ok ds) :
    (lowOrder P B).call [ext.dropLast, ext.tail] =
      .ok ((List.range (n + 1)).map (fun j =>
        (low P (ext.getD j 0) (ext.getD (j + 1) 0) (ds.getD j 0)).fluxLeft),
       (List.range (n + 1)).map (fun j =>
        (low P (ext.getD j 0) (ext.getD (j + 1) 0) (ds.getD j 0)).fluxRight)) := by
  simp only [lowOrder]
  rw [nodesE_ok B (lowNode P) n ext hlen ds hds
    (fun j => low P (ext.getD j 0) (ext.getD (j + 1) 0) (ds.getD j 0))
    (fun j hj => lowNode_ok P _ _ _ (getD_nonneg ext hall j) (getD_nonneg ext hall (j + 1))
      (maxSpeed_pos P hP _ _ (hd j hj)))]
  simp [Function.comp_def]

theorem lowOrder_bars (P : Params K) (hP : P.Good) (B : Bathymetry K) (n : ℕ) (ds : List K)
    (hds : B.steps (n + 1) = .ok ds) : HasBars P (lowOrder P B) n := by
  intro ext hlen hall hd
  refine ⟨_, _, fun j => (low P (ext.getD j 0) (ext.getD (j + 1) 0) (ds.getD j 0)).heightRight,
    fun j => (low P (ext.getD j 0) (ext.getD (j + 1) 0) (ds.getD j 0)).heightLeft,
    lowOrder_call P hP B n ext hlen hall hd ds hds, ?_⟩
  intro j hj
  have hw := maxSpeed_pos P hP _ _ (hd j hj)
  obtain ⟨l1, l2⟩ := low_heights P hP _ _ (ds.getD j 0) (getD_nonneg ext hall j)
    (getD_nonneg ext hall (j + 1)) hw
  refine ⟨l2, l1, ?_, ?_⟩
  · simp only [low, Prod.fst_add, Prod.smul_fst, Prod.fst_neg, smul_eq_mul, fluxOf, speedAt]
    ring
  · simp only [low, Prod.fst_add, Prod.smul_fst, Prod.fst_neg, smul_eq_mul, fluxOf, speedAt]
    ring

/-- C42.  The low-order scheme, any bathymetry, any combination of boundary conditions: under the
step condition a forward Euler step is defined and has non-negative heights. -/
theorem C42_step (P : Params K) (hP : P.Good) (b : Option (List K)) (n : ℕ) (hn : 0 < n)
    (hb : ∀ l, b = some l → l.length = n) (B : Bathymetry K) (hB : buildBathymetry P b = .ok B)
    (conditions : List String) (il ir : Option (K → State K))
    (hil : ∀ g, il = some g → ∀ t, 0 ≤ (g t).1) (hir : ∀ g, ir = some g → ∀ t, 0 ≤ (g t).1)
    (bc : BC K (State K)) (hbc : build (some reflect) conditions 1 il ir = .ok bc)
    (dx dt t : K) (hdx : 0 < dx) (hdt : 0 ≤ dt) (u : Fin n → State K) (hu : ∀ i, 0 ≤ (u i).1)
    (hadm : StepCondition P bc n dx dt t u) :
    ∃ w, vecRhs n (rhs (lowOrder P B) dx bc) t u = .ok w ∧ ∀ i, 0 ≤ ((u + dt • w) i).1 := by
  obtain ⟨ds, hds, _⟩ := steps_of_build P b n hn hb B hB
  exact bars_step P hP _ (by simp [lowOrder]) n (lowOrder_bars P hP B n ds hds) bc
    (build_extends conditions il ir bc hbc n hn _ (fun x hx => hx) hil hir) dx dt t hdx hdt u hu hadm

/-- C42 for runs. -/
theorem C42_run (P : Params K) (hP : P.Good) (b : Option (List K)) (n : ℕ) (hn : 0 < n)
    (hb : ∀ l, b = some l → l.length = n) (B : Bathymetry K) (hB : buildBathymetry P b = .ok B)
    (conditions : List String) (il ir : Option (K → State K))
    (hil : ∀ g, il = some g → ∀ t, 0 ≤ (g t).1) (hir : ∀ g, ir = some g → ∀ t, 0 ≤ (g t).1)
    (bc : BC K (State K)) (hbc : build (some reflect) conditions 1 il ir = .ok bc)
    (dx : K) (hdx : 0 < dx) (T : Tableau K) (hT : T = forwardEuler K ∨ T = heun K ∨ T = ssp3 K)
    (s : Solver K (Fin n → State K)) (hs : ∀ i, 0 ≤ (s.solution i).1) (steps : List K)
    (hsteps : ∀ dt ∈ steps, 0 ≤ dt) :
    let f := vecRhs n (rhs (lowOrder P B) dx bc)
    s.runChecked T (StepCondition P bc n dx) f steps = .error none ∨
    ∃ s', s.runChecked T (StepCondition P bc n dx) f steps = .ok s' ∧
      s.runE T f steps = .ok s' ∧ ∀ i, 0 ≤ (s'.solution i).1 := by
  obtain ⟨ds, hds, _⟩ := steps_of_build P b n hn hb B hB
  exact bars_run P hP _ (by simp [lowOrder]) n (lowOrder_bars P hP B n ds hds) bc
    (build_extends conditions il ir bc hbc n hn _ (fun x hx => hx) hil hir) dx hdx T hT s hs steps
    hsteps

/-- Non-vacuity of C42: a step next to a bathymetry jump higher than the water. -/
example : okAnd ((buildBathymetry exampleParams (some [0, 10, 2])).bind (fun B =>
    rhs (lowOrder exampleParams B) 1 exampleBC 0 (List.ofFn exampleState)))
    (fun w => decide (w.length = 3 ∧ 0 ≤ (exampleState 1).1 + 1 / 100 * (w.getD 1 0).1)) = true := by
  decide +kernel

/-! ### C49 -/

theorem limited_height (n : LowNode K) (vb : K) (anti : State K) (HL HR hL hR VL VR vL vR : K)
    (hw : 0 < n.w) (h1 : hL ≤ n.heightLeft ∧ n.heightLeft ≤ HL)
    (h2 : hR ≤ n.heightRight ∧ n.heightRight ≤ HR) :
    let f := (limitedNode n vb anti HL HR hL hR VL VR vL vR).1
    (hR ≤ n.heightRight + f / n.w ∧ n.heightRight + f / n.w ≤ HR) ∧
    (hL ≤ n.heightLeft - f / n.w ∧ n.heightLeft - f / n.w ≤ HL) ∧
    ((0 ≤ anti.1 → 0 ≤ f ∧ f ≤ anti.1) ∧ (anti.1 ≤ 0 → anti.1 ≤ f ∧ f ≤ 0)) :=
  Scalar.limitNode_spec anti.1 n.w n.heightLeft n.heightRight HL HR hL hR hw h1 h2

/-- `x` lies between `a` and `b`. -/
def Between (x a b : K) : Prop := min a b ≤ x ∧ x ≤ max a b

/-- C49.  Whatever the target flux: the bar heights of the MCL flux in the cell between node `j` and
node `j + 1` lie between the two low-order bar heights of this cell, and all bar heights are
non-negative. -/
theorem C49_bar_heights (P : Params K) (hP : P.Good) (B : Bathymetry K) (bc : BC K (State K))
    (hbc : bc.left.length = 1) (F : NumFlux (State K)) (n : ℕ) (hn : 0 < n) (ext : List (State K))
    (hlen : ext.length = n + 2) (values : List (List (State K)))
    (hval : requiredValues 2 values = .ok [ext.dropLast, ext.tail]) (fl fr : List (State K))
    (h : (mcl P B bc F).call values = .ok (fl, fr)) :
    ∃ ll lr, (lowOrder P B).call [ext.dropLast, ext.tail] = .ok (ll, lr) ∧ fl.length = n + 1 ∧
      fr.length = n + 1 ∧
      (∀ j < n, Between (barRight P ext fr j).1 (barRight P ext lr j).1 (barLeft P ext ll (j + 1)).1 ∧
        Between (barLeft P ext fl (j + 1)).1 (barRight P ext lr j).1
          (barLeft P ext ll (j + 1)).1) ∧
      (∀ j < n + 1, 0 ≤ (barRight P ext fr j).1 ∧ 0 ≤ (barLeft P ext fl j).1 ∧
        (fl.getD j 0).1 = -(fr.getD j 0).1) := by
  obtain ⟨ds, hl, high, hds, hF, hhl, hall, rfl, rfl⟩ :=
    mcl_inv P hP B bc hbc F n hn ext hlen values hval fl fr h
  set N := fun j => low P (ext.getD j 0) (ext.getD (j + 1) 0) (ds.getD j 0) with hN
  set lim := limOf bc.periodic n N (fun j => high.getD j 0) with hlim
  have hlow : (lowOrder P B).call [ext.dropLast, ext.tail] =
      .ok ((List.range (n + 1)).map (fun j => (N j).fluxLeft + 0),
       (List.range (n + 1)).map (fun j => (N j).fluxRight + 0)) := by
    simp only [lowOrder]
    rw [nodesE_ok B (lowNode P) n ext hlen ds hds N
      (fun j hj => lowNode_ok P _ _ _ (hall j hj).1 (hall j hj).2.1 (hall j hj).2.2.1)]
    simp [Function.comp_def]
  have hnw : ∀ j, (N j).w = speedAt P ext j := fun j => rfl
  have eR : ∀ j < n + 1, (barRight P ext ((List.range (n + 1)).map
      (fun j => (N j).fluxRight + lim j)) j).1 = (N j).heightRight + (lim j).1 / (N j).w := by
    intro j hj
    have := barRight_low P ext n ds lim j hj (hall j hj).2.2.1.ne'
    rw [this, hnw]
    simp only [Prod.fst_add, Prod.smul_fst, smul_eq_mul]
    ring
  have eL : ∀ j < n + 1, (barLeft P ext ((List.range (n + 1)).map
      (fun j => (N j).fluxLeft + -lim j)) j).1 = (N j).heightLeft - (lim j).1 / (N j).w := by
    intro j hj
    have := barLeft_low P ext n ds (fun j => -lim j) j hj (hall j hj).2.2.1.ne'
    rw [this, hnw]
    simp only [Prod.fst_add, Prod.smul_fst, smul_eq_mul, Prod.fst_neg]
    ring
  have fR : ∀ j < n + 1, (barRight P ext ((List.range (n + 1)).map
      (fun j => (N j).fluxRight + 0)) j).1 = (N j).heightRight := by
    intro j hj
    have := barRight_low P ext n ds (fun _ => 0) j hj (hall j hj).2.2.1.ne'
    rw [this]
    simp [hN]
  have fL : ∀ j < n + 1, (barLeft P ext ((List.range (n + 1)).map
      (fun j => (N j).fluxLeft + 0)) j).1 = (N j).heightLeft := by
    intro j hj
    have := barLeft_low P ext n ds (fun _ => 0) j hj (hall j hj).2.2.1.ne'
    rw [this]
    simp [hN]
  have spec := fun j (hj : j < n + 1) => limited_height (N j) (vbarOf (N j))
    (high.getD j 0 + -(N j).fluxRight) (hMax bc.periodic n N j) (hMax bc.periodic n N (j + 1))
    (hMin bc.periodic n N j) (hMin bc.periodic n N (j + 1)) (vMax bc.periodic n N j)
    (vMax bc.periodic n N (j + 1)) (vMin bc.periodic n N j) (vMin bc.periodic n N (j + 1))
    (by rw [hnw]; exact (hall j hj).2.2.1) (hMax_left bc.periodic n N j hj)
    (hMax_right bc.periodic n N j)
  have hin : ∀ j < n, hMin bc.periodic n N (j + 1) = min (N j).heightRight (N (j + 1)).heightLeft ∧
      hMax bc.periodic n N (j + 1) = max (N j).heightRight (N (j + 1)).heightLeft := by
    intro j hj
    simp only [hMin, hMax, leftOf, rightOf]
    rw [if_neg (by omega), if_neg (by omega)]
    simp
  have hpos : ∀ j < n + 1, 0 ≤ (N j).heightLeft ∧ 0 ≤ (N j).heightRight := fun j hj =>
    low_heights P hP _ _ _ (hall j hj).1 (hall j hj).2.1 (hall j hj).2.2.1
  have hmin0 : ∀ i < n + 2, 0 ≤ hMin bc.periodic n N i := by
    intro i hi
    unfold hMin leftOf rightOf
    apply le_min
    · split_ifs
      · exact (hpos _ (by omega)).2
      · exact (hpos _ (by omega)).2
      · exact (hpos _ (by omega)).2
    · split_ifs
      · exact (hpos _ (by omega)).1
      · exact (hpos _ (by omega)).1
      · exact (hpos _ (by omega)).1
  refine ⟨_, _, hlow, by simp, by simp, ?_, ?_⟩
  · intro j hj
    rw [eR j (by omega), eL (j + 1) (by omega), fR j (by omega), fL (j + 1) (by omega)]
    unfold Between
    rw [← (hin j hj).1, ← (hin j hj).2]
    exact ⟨(spec j (by omega)).1, (spec (j + 1) (by omega)).2.1⟩
  · intro j hj
    rw [eR j hj, eL j hj]
    refine ⟨(hmin0 _ (by omega)).trans (spec j hj).1.1,
      (hmin0 _ (by omega)).trans (spec j hj).2.1.1, ?_⟩
    rw [range_getD _ _ _ _ hj, range_getD _ _ _ _ hj]
    simp only [hN, low, Prod.fst_add, Prod.smul_fst, Prod.fst_neg, smul_eq_mul, fluxOf]
    have hw := (hall j hj).2.2.1.ne'
    have e : maxSpeed P (ext.getD j 0) (ext.getD (j + 1) 0) *
        (barState P (ext.getD j 0) (ext.getD (j + 1) 0)).1 =
        maxSpeed P (ext.getD j 0) (ext.getD (j + 1) 0) *
          ((ext.getD j 0).1 + (ext.getD (j + 1) 0).1) / 2 -
        (massFlux P (ext.getD (j + 1) 0) - massFlux P (ext.getD j 0)) / 2 := by
      simp only [barState, fluxOf, Prod.fst_sub, Prod.smul_fst, Prod.fst_add, smul_eq_mul]
      field_simp
    linear_combination 2 * e

theorem barState_pos (P : Params K) (hP : P.Good) (uL uR : State K) (hL : 0 ≤ uL.1) (hR : 0 ≤ uR.1)
    (h : 0 < uL.1 ∨ 0 < uR.1) : 0 < (barState P uL uR).1 := by
  have hw := maxSpeed_pos P hP uL uR h
  have h1 := massFlux_bound P uL hL _ (maxSpeed_left P hP uL uR hL)
  have h2 := massFlux_bound P uR hR _ (maxSpeed_right P hP uL uR hR)
  have key : ∀ u : State K, 0 < u.1 → |velocity P u| + P.rt (P.g * u.1) ≤ maxSpeed P uL uR →
      |massFlux P u| < maxSpeed P uL uR * u.1 := by
    intro u hu hle
    have hc := hP.rt_pos _ (mul_pos hP.g_pos hu)
    have := massFlux_bound P u hu.le |velocity P u| le_rfl
    have h3 : |velocity P u| * u.1 < maxSpeed P uL uR * u.1 :=
      mul_lt_mul_of_pos_right (by linarith) hu
    linarith
  have e : (barState P uL uR).1 =
      ((maxSpeed P uL uR * uL.1 + massFlux P uL) + (maxSpeed P uL uR * uR.1 - massFlux P uR)) /
        (2 * maxSpeed P uL uR) := by
    simp only [barState, fluxOf, Prod.fst_sub, Prod.smul_fst, Prod.fst_add, smul_eq_mul]
    field_simp
    ring
  rw [e]
  apply div_pos _ (by linarith)
  rw [abs_le] at h1 h2
  rcases h with h | h
  · have := key uL h (le_max_left _ _)
    rw [abs_lt] at this
    linarith [this.1, h2.2]
  · have := key uR h (le_max_right _ _)
    rw [abs_lt] at this
    linarith [this.2, h1.1]

/-- A target flux that is defined on all extended vectors with non-negative heights and no two
neighbouring dry cells. -/
def Defined (F : NumFlux (State K)) (n : ℕ) : Prop :=
  ∀ ext : List (State K), ext.length = n + 2 → (∀ x ∈ ext, 0 ≤ x.1) →
    (∀ j < n + 1, 0 < (ext.getD j 0).1 ∨ 0 < (ext.getD (j + 1) 0).1) →
    ∃ hl high, F.call [ext.dropLast, ext.tail] = .ok (hl, (List.range (n + 1)).map high)

theorem mcl_defined (P : Params K) (hP : P.Good) (B : Bathymetry K) (bc : BC K (State K))
    (hbc : bc.left.length = 1) (F : NumFlux (State K)) (n : ℕ) (hn : 0 < n) (hF : Defined F n)
    (ds : List K) (hds : B.steps (n + 1) = .ok ds) (ext : List (State K))
    (hlen : ext.length = n + 2) (hall : ∀ x ∈ ext, 0 ≤ x.1)
    (hd : ∀ j < n + 1, 0 < (ext.getD j 0).1 ∨ 0 < (ext.getD (j + 1) 0).1) :
    ∃ gl gr : ℕ → State K, (mcl P B bc F).call [ext.dropLast, ext.tail] =
      .ok ((List.range (n + 1)).map gl, (List.range (n + 1)).map gr) := by
  obtain ⟨hl, high, hcall⟩ := hF ext hlen hall hd
  have hpos : ∀ j < n + 1, 0 < (barState P (ext.getD j 0) (ext.getD (j + 1) 0)).1 := fun j hj =>
    barState_pos P hP _ _ (getD_nonneg ext hall j) (getD_nonneg ext hall (j + 1)) (hd j hj)
  have := mcl_call P B bc hbc F n hn ext hlen _ (requiredValues_two _ _) ds hds
    (fun j => low P (ext.getD j 0) (ext.getD (j + 1) 0) (ds.getD j 0))
    (fun j hj => lowNode_ok P _ _ _ (getD_nonneg ext hall j) (getD_nonneg ext hall (j + 1))
      (maxSpeed_pos P hP _ _ (hd j hj)))
    (fun j hj => (hpos j hj).ne')
    (fun j hj => by rw [low_sum]; exact (mul_pos two_pos (hpos j hj)).ne') hl high hcall
  exact ⟨_, _, this⟩

theorem barForm_of_bars (P : Params K) (ext : List (State K)) (n : ℕ) (gl gr : ℕ → State K) (j : ℕ)
    (hj : j < n + 1) (hw : speedAt P ext j ≠ 0) :
    BarForm P ext gl gr (fun j => (barRight P ext ((List.range (n + 1)).map gr) j).1)
      (fun j => (barLeft P ext ((List.range (n + 1)).map gl) j).1) j := by
  unfold BarForm barRight barLeft
  beta_reduce
  rw [range_getD _ _ _ _ hj, range_getD _ _ _ _ hj]
  simp only [Prod.fst_add, Prod.smul_fst, smul_eq_mul, Prod.fst_sub, fluxOf]
  constructor <;> field_simp <;> ring

theorem mcl_bars (P : Params K) (hP : P.Good) (B : Bathymetry K) (bc : BC K (State K))
    (hbc : bc.left.length = 1) (F : NumFlux (State K)) (n : ℕ) (hn : 0 < n) (hF : Defined F n)
    (ds : List K) (hds : B.steps (n + 1) = .ok ds) : HasBars P (mcl P B bc F) n := by
  intro ext hlen hall hd
  obtain ⟨gl, gr, hcall⟩ := mcl_defined P hP B bc hbc F n hn hF ds hds ext hlen hall hd
  obtain ⟨ll, lr, _, _, _, _, hpos⟩ := C49_bar_heights P hP B bc hbc F n hn ext hlen _
    (requiredValues_two _ _) _ _ hcall
  refine ⟨gl, gr, _, _, hcall, fun j hj => ⟨(hpos j hj).1, (hpos j hj).2.1, ?_⟩⟩
  exact barForm_of_bars P ext n gl gr j hj (maxSpeed_pos P hP _ _ (hd j hj)).ne'

/-- C49.  One forward Euler step of the MCL scheme with any target flux, any bathymetry and any
boundary conditions: under the step condition the step is defined, heights stay non-negative, and the
new height of a cell lies in the interval spanned by its old height and its two low-order bar
heights. -/
theorem C49_step (P : Params K) (hP : P.Good) (b : Option (List K)) (n : ℕ) (hn : 0 < n)
    (hb : ∀ l, b = some l → l.length = n) (B : Bathymetry K) (hB : buildBathymetry P b = .ok B)
    (conditions : List String) (il ir : Option (K → State K))
    (hil : ∀ g, il = some g → ∀ t, 0 ≤ (g t).1) (hir : ∀ g, ir = some g → ∀ t, 0 ≤ (g t).1)
    (bc : BC K (State K)) (hbc : build (some reflect) conditions 1 il ir = .ok bc)
    (F : NumFlux (State K)) (hdim : F.dim = 2) (hF : Defined F n)
    (dx dt t : K) (hdx : 0 < dx) (hdt : 0 ≤ dt) (u : Fin n → State K) (hu : ∀ i, 0 ≤ (u i).1)
    (hadm : StepCondition P bc n dx dt t u) :
    ∃ w ext ll lr, vecRhs n (rhs (mcl P B bc F) dx bc) t u = .ok w ∧
      bc.extend (List.ofFn u) (some t) = .ok ext ∧
      (lowOrder P B).call [ext.dropLast, ext.tail] = .ok (ll, lr) ∧
      ∀ i : Fin n, 0 ≤ ((u + dt • w) i).1 ∧
        min (u i).1 (min (barRight P ext lr i).1 (barLeft P ext ll (i + 1)).1) ≤
          ((u + dt • w) i).1 ∧
        ((u + dt • w) i).1 ≤
          max (u i).1 (max (barRight P ext lr i).1 (barLeft P ext ll (i + 1)).1) := by
  obtain ⟨ds, hds, _⟩ := steps_of_build P b n hn hb B hB
  have hbc1 : bc.left.length = 1 := build_radius conditions il ir bc hbc
  have hmem : ∀ x ∈ List.ofFn u, 0 ≤ x.1 := by
    intro x hx
    obtain ⟨i, rfl⟩ := (List.mem_ofFn' _ _).mp hx
    exact hu i
  obtain ⟨x, y, hx, hy, hext⟩ := build_extends conditions il ir bc hbc n hn (fun x => 0 ≤ x.1)
    (fun x hx => hx) hil hir t (List.ofFn u) (by simp) hmem
  have hall : ∀ z ∈ x :: List.ofFn u ++ [y], 0 ≤ z.1 := by
    intro z hz
    simp only [List.cons_append, List.mem_cons, List.mem_append, List.mem_singleton,
      List.not_mem_nil, or_false] at hz
    rcases hz with rfl | hz | rfl
    · exact hx
    · exact hmem z hz
    · exact hy
  obtain ⟨hd, hc⟩ := hadm _ hext
  have hlen : (x :: List.ofFn u ++ [y]).length = n + 2 := by simp
  obtain ⟨gl, gr, hcall⟩ := mcl_defined P hP B bc hbc1 F n hn hF ds hds _ hlen hall hd
  obtain ⟨ll, lr, hlow, _, _, hbet, hpos⟩ := C49_bar_heights P hP B bc hbc1 F n hn _ hlen _
    (requiredValues_two _ _) _ _ hcall
  have hmd : (mcl P B bc F).dim / 2 = 1 := by simp [mcl, hdim]
  have hr := rhs_of_call (mcl P B bc F) hmd dx hdx.ne' bc t _ _ hext n hlen gl gr hcall
  refine ⟨_, _, ll, lr, vecRhs_range (rhs (mcl P B bc F) dx bc) t u _ hr, hext, hlow, ?_⟩
  intro i
  have hws : ∀ j < n + 1, 0 < speedAt P (x :: List.ofFn u ++ [y]) j :=
    fun j hj => maxSpeed_pos P hP _ _ (hd j hj)
  obtain ⟨h1, _⟩ := barForm_of_bars P _ n gl gr i (by omega) (hws i (by omega)).ne'
  obtain ⟨_, h2⟩ := barForm_of_bars P _ n gl gr (i + 1) (by omega) (hws (i + 1) (by omega)).ne'
  obtain ⟨b1, b2⟩ := hbet i i.2
  have p1 := (hpos i (by omega)).1
  have p2 := (hpos (i + 1) (by omega)).2.1
  simp only [Pi.add_apply, Pi.smul_apply, Prod.fst_add, Prod.smul_fst, smul_eq_mul]
  rw [h1, h2, ext_getD]
  set A := (barRight P (x :: List.ofFn u ++ [y]) ((List.range (n + 1)).map gr) i).1
  set C := (barLeft P (x :: List.ofFn u ++ [y]) ((List.range (n + 1)).map gl) (i + 1)).1
  set R := (barRight P (x :: List.ofFn u ++ [y]) lr i).1
  set L := (barLeft P (x :: List.ofFn u ++ [y]) ll (i + 1)).1
  have key := fun m M hm1 hm2 hm3 => bar_step_bounds (speedAt P (x :: List.ofFn u ++ [y]) i)
    (speedAt P (x :: List.ofFn u ++ [y]) (i + 1)) (u i).1 A C (massFlux P (u i)) dt dx
    m M hdx hdt (hws i (by omega)).le (hws (i + 1) (by omega)).le (hc i i.2) hm1 hm2 hm3
  refine ⟨(key 0 (max (u i).1 (max A C)) ⟨hu i, le_max_left _ _⟩
      ⟨p1, (le_max_left _ _).trans (le_max_right _ _)⟩
      ⟨p2, (le_max_right _ _).trans (le_max_right _ _)⟩).1, ?_⟩
  exact key _ _ ⟨min_le_left _ _, le_max_left _ _⟩
    ⟨(min_le_right _ _).trans b1.1, b1.2.trans (le_max_right _ _)⟩
    ⟨(min_le_right _ _).trans b2.1, b2.2.trans (le_max_right _ _)⟩

/-- C49 for runs: heights of the MCL scheme stay non-negative, whatever the target flux. -/
theorem C49_run (P : Params K) (hP : P.Good) (b : Option (List K)) (n : ℕ) (hn : 0 < n)
    (hb : ∀ l, b = some l → l.length = n) (B : Bathymetry K) (hB : buildBathymetry P b = .ok B)
    (conditions : List String) (il ir : Option (K → State K))
    (hil : ∀ g, il = some g → ∀ t, 0 ≤ (g t).1) (hir : ∀ g, ir = some g → ∀ t, 0 ≤ (g t).1)
    (bc : BC K (State K)) (hbc : build (some reflect) conditions 1 il ir = .ok bc)
    (F : NumFlux (State K)) (hdim : F.dim = 2) (hF : Defined F n)
    (dx : K) (hdx : 0 < dx) (T : Tableau K) (hT : T = forwardEuler K ∨ T = heun K ∨ T = ssp3 K)
    (s : Solver K (Fin n → State K)) (hs : ∀ i, 0 ≤ (s.solution i).1) (steps : List K)
    (hsteps : ∀ dt ∈ steps, 0 ≤ dt) :
    let f := vecRhs n (rhs (mcl P B bc F) dx bc)
    s.runChecked T (StepCondition P bc n dx) f steps = .error none ∨
    ∃ s', s.runChecked T (StepCondition P bc n dx) f steps = .ok s' ∧
      s.runE T f steps = .ok s' ∧ ∀ i, 0 ≤ (s'.solution i).1 := by
  obtain ⟨ds, hds, _⟩ := steps_of_build P b n hn hb B hB
  exact bars_run P hP _ (by simp [mcl, hdim]) n
    (mcl_bars P hP B bc (build_radius conditions il ir bc hbc) F n hn hF ds hds) bc
    (build_extends conditions il ir bc hbc n hn _ (fun x hx => hx) hil hir) dx hdx T hT s hs steps
    hsteps

theorem central_call (P : Params K) (B : Bathymetry K) (n : ℕ) (ext : List (State K))
    (hlen : ext.length = n + 2) (hall : ∀ x ∈ ext, 0 ≤ x.1) (ds : List K)
    (hds : B.steps (n + 1) = .ok ds) :
    (centralFlux P B).call [ext.dropLast, ext.tail] =
      .ok ((List.range (n + 1)).map (fun j =>
          -((1 / 2 : K) • (fluxOf P (ext.getD j 0) + fluxOf P (ext.getD (j + 1) 0))) +
          -source P (ext.getD j 0) (ext.getD (j + 1) 0) (ds.getD j 0)),
        (List.range (n + 1)).map (fun j =>
          (1 / 2 : K) • (fluxOf P (ext.getD j 0) + fluxOf P (ext.getD (j + 1) 0)) +
          -source P (ext.getD j 0) (ext.getD (j + 1) 0) (ds.getD j 0))) := by
  apply withSource_call P B (central K (flux P)) n ext hlen ds hds
  apply twoPoint_call _ n ext hlen
  intro j hj
  simp only [centralNode]
  rw [flux_ok P _ (getD_nonneg ext hall j), flux_ok P _ (getD_nonneg ext hall (j + 1))]

/-- The fluxes of all solvers that do not need a trained network are admissible targets: central (the default),
Lax-Friedrichs, low-order and both energy stable ones. -/
theorem C49_targets (P : Params K) (hP : P.Good) (b : Option (List K)) (n : ℕ) (hn : 0 < n)
    (hb : ∀ l, b = some l → l.length = n) (B : Bathymetry K) (hB : buildBathymetry P b = .ok B) :
    ∀ F ∈ [centralFlux P B, lfFlux P B, lowOrder P B, energyStableFlux P B, diffusiveFlux P B],
      Defined F n ∧ F.dim = 2 := by
  obtain ⟨ds, hds, _⟩ := steps_of_build P b n hn hb B hB
  intro F hF
  simp only [List.mem_cons, List.not_mem_nil, or_false] at hF
  rcases hF with rfl | rfl | rfl | rfl | rfl
  · refine ⟨?_, rfl⟩
    intro ext hlen hall _
    exact ⟨_, _, central_call P B n ext hlen hall ds hds⟩
  · refine ⟨?_, rfl⟩
    intro ext hlen hall hd
    exact ⟨_, _, lf_call P hP B n ext hlen hall hd ds hds⟩
  · refine ⟨?_, rfl⟩
    intro ext hlen hall hd
    exact ⟨_, _, lowOrder_call P hP B n ext hlen hall hd ds hds⟩
  · refine ⟨?_, rfl⟩
    intro ext hlen hall _
    obtain ⟨gl, gr, h⟩ := energyStable_call P B n ext hlen hall ds hds
    exact ⟨_, _, h⟩
  · refine ⟨?_, rfl⟩
    intro ext hlen hall _
    obtain ⟨fl, fr, h⟩ := diffusive_call P hP B n ext hlen hall ds hds
    obtain ⟨_, _, _, e⟩ := diffusive_inv P B n ext hlen _ (requiredValues_two _ _) fl fr h
    rw [h, e]
    exact ⟨_, _, rfl⟩

/-- Non-vacuity of C49: the MCL scheme with central target on three cells with bathymetry. -/
example : okAnd ((buildBathymetry exampleParams (some [0, 1, 2])).bind (fun B =>
    rhs (mcl exampleParams B exampleBC (centralFlux exampleParams B)) 1 exampleBC 0
      (List.ofFn exampleState)))
    (fun w => decide (w.length = 3 ∧ 0 ≤ (exampleState 1).1 + 1 / 100 * (w.getD 1 0).1)) = true := by
  decide +kernel

/-! ### C50 -/

/-- The velocity of a bar state. -/
def barVelocity (u : State K) : K := u.2 / u.1

/-- The state of the counterexample to C50, with outflow ghost cells. -/
def badExt : List (State ℚ) := [(1, -2), (1, -2), (1 / 4, -2), (16, 2), (16, 2)]

/-- C50 is false of the code: on flat ground, for the states `(1, -2), (1/4, -2), (16, 2)` with outflow
boundaries and the central target, the limited velocity left of the node between the second and third
cell is `-4679/340`, below both low-order bar velocities of the cell, `-1457/340` and `-3591/4292`. -/
theorem C50_counterexample :
    okAnd ((mcl exampleParams ⟨none⟩ ⟨[.copy 0], [.copy (-1)], false⟩
      (centralFlux exampleParams ⟨none⟩)).call [badExt.dropLast, badExt.tail]) (fun f =>
    okAnd ((lowOrder exampleParams ⟨none⟩).call [badExt.dropLast, badExt.tail]) (fun l =>
      decide (barVelocity (barLeft exampleParams badExt f.1 2) <
        min (barVelocity (barRight exampleParams badExt l.2 1))
          (barVelocity (barLeft exampleParams badExt l.1 2))))) = true := by
  decide +kernel

theorem positivityFix_flat (x : K) : positivityFix x 0 = 0 := by
  simp [positivityFix, sgn]

theorem limited_velocity (n : LowNode K) (anti : State K) (HL HR hL hR VL VR vL vR : K)
    (hw : 0 < n.w) (h1 : n.heightLeft = n.heightHLL) (h2 : n.heightRight = n.heightHLL)
    (hd : n.dischargeRight = n.dischargeLeft) (hH : 0 < n.heightHLL)
    (hl : vL ≤ n.dischargeLeft / n.heightHLL ∧ n.dischargeLeft / n.heightHLL ≤ VL)
    (hr : vR ≤ n.dischargeLeft / n.heightHLL ∧ n.dischargeLeft / n.heightHLL ≤ VR) :
    let vb := n.dischargeLeft / n.heightHLL
    let f := limitedNode n vb anti HL HR hL hR VL VR vL vR
    let R : State K := (n.heightRight, n.dischargeRight) + (1 / n.w) • f
    let L : State K := (n.heightLeft, n.dischargeLeft) + (1 / n.w) • -f
    (0 < R.1 → vR ≤ R.2 / R.1 ∧ R.2 / R.1 ≤ VR) ∧
    (0 ≤ R.1 → R.1 ≤ L.1 → 0 < L.1 → vL ≤ L.2 / L.1 ∧ L.2 / L.1 ≤ VL) := by
  intro vb f R L
  set fh := Scalar.limitNode anti.1 n.w n.heightLeft n.heightRight HL HR hL hR with hfh
  set H := n.heightHLL + fh / n.w with hHdef
  set vflux := anti.2 + n.w * (n.dischargeRight + -H * vb) with hvf
  set vmax := n.w * min (H * (VR - vb)) (H * (vb - vL)) with hvmax
  set vmin := n.w * max (H * (vR - vb)) (H * (vb - VL)) with hvmin
  set fv := max vmin (min vmax vflux) with hfv
  have hf : f = (fh, fv + -n.w * (n.dischargeRight + -H * vb)) := rfl
  have hvb : n.dischargeLeft = n.heightHLL * vb := by
    simp only [vb]; field_simp
  have R1 : R.1 = H := by
    simp only [R, hf, Prod.fst_add, Prod.smul_fst, smul_eq_mul, h2, hHdef]; ring
  have R2 : R.2 = H * vb + fv / n.w := by
    simp only [R, hf, Prod.snd_add, Prod.smul_snd, smul_eq_mul]
    field_simp; ring
  have L1 : L.1 = 2 * n.heightHLL - H := by
    simp only [L, hf, Prod.fst_add, Prod.smul_fst, smul_eq_mul, h1, hHdef, Prod.fst_neg]; ring
  have L2 : L.2 = L.1 * vb - fv / n.w := by
    rw [L1]
    simp only [L, hf, Prod.snd_add, Prod.smul_snd, smul_eq_mul, Prod.snd_neg]
    rw [hd, hvb]
    field_simp; ring
  have bounds : 0 ≤ H → fv / n.w ≤ H * (VR - vb) ∧ fv / n.w ≤ H * (vb - vL) ∧
      H * (vR - vb) ≤ fv / n.w ∧ H * (vb - VL) ≤ fv / n.w := by
    intro h0
    have a1 : 0 ≤ H * (VR - vb) := mul_nonneg h0 (by linarith [hr.2])
    have a2 : 0 ≤ H * (vb - vL) := mul_nonneg h0 (by linarith [hl.1])
    have a3 : H * (vR - vb) ≤ 0 := mul_nonpos_of_nonneg_of_nonpos h0 (by linarith [hr.1])
    have a4 : H * (vb - VL) ≤ 0 := mul_nonpos_of_nonneg_of_nonpos h0 (by linarith [hl.2])
    have m1 : vmin ≤ 0 := mul_nonpos_of_nonneg_of_nonpos hw.le (max_le a3 a4)
    have m2 : 0 ≤ vmax := mul_nonneg hw.le (le_min a1 a2)
    have u1 : fv ≤ vmax := max_le (m1.trans m2) (min_le_left _ _)
    have u2 : vmin ≤ fv := le_max_left _ _
    have c1 : fv / n.w ≤ min (H * (VR - vb)) (H * (vb - vL)) := by
      rw [div_le_iff₀ hw, mul_comm]; exact u1
    have c2 : max (H * (vR - vb)) (H * (vb - VL)) ≤ fv / n.w := by
      rw [le_div_iff₀ hw, mul_comm]; exact u2
    exact ⟨c1.trans (min_le_left _ _), c1.trans (min_le_right _ _), (le_max_left _ _).trans c2,
      (le_max_right _ _).trans c2⟩
  constructor
  · intro hpos
    rw [R1] at hpos
    obtain ⟨b1, _, b3, _⟩ := bounds hpos.le
    rw [R1, R2, le_div_iff₀ hpos, div_le_iff₀ hpos]
    constructor <;> linarith [mul_comm H vb, mul_comm H vR, mul_comm H VR,
      mul_sub H vR vb, mul_sub H VR vb]
  · intro h0 hle hpos
    rw [R1] at h0 hle
    obtain ⟨_, b2, _, b4⟩ := bounds h0
    have e2 : H * (vb - vL) ≤ L.1 * (vb - vL) := mul_le_mul_of_nonneg_right hle (by linarith [hl.1])
    have e4 : L.1 * (vb - VL) ≤ H * (vb - VL) :=
      mul_le_mul_of_nonpos_right hle (by linarith [hl.2])
    rw [L2, le_div_iff₀ hpos, div_le_iff₀ hpos]
    constructor <;> linarith [mul_comm L.1 vb, mul_comm L.1 vL, mul_comm L.1 VL,
      mul_sub L.1 vb vL, mul_sub L.1 vb VL]

/-- C50, partial: on flat ground and for every target flux, the limited bar velocity on the right
of a node lies between the two low-order bar velocities of the cell there; the one on the left
does so if limiting leaves the left bar height at least the right one.  Missing: the left velocity
is not bounded in general (see `C50_counterexample`), and bathymetry. -/
theorem C50_velocities_partial (P : Params K) (hP : P.Good) (bc : BC K (State K))
    (hbc : bc.left.length = 1) (F : NumFlux (State K)) (n : ℕ) (hn : 0 < n) (ext : List (State K))
    (hlen : ext.length = n + 2) (values : List (List (State K)))
    (hval : requiredValues 2 values = .ok [ext.dropLast, ext.tail]) (fl fr : List (State K))
    (h : (mcl P ⟨none⟩ bc F).call values = .ok (fl, fr)) :
    ∃ ll lr, (lowOrder P ⟨none⟩).call [ext.dropLast, ext.tail] = .ok (ll, lr) ∧
      ∀ j < n,
        (0 < (barRight P ext fr j).1 → Between (barVelocity (barRight P ext fr j))
          (barVelocity (barRight P ext lr j)) (barVelocity (barLeft P ext ll (j + 1)))) ∧
        ((barRight P ext fr (j + 1)).1 ≤ (barLeft P ext fl (j + 1)).1 →
          0 < (barLeft P ext fl (j + 1)).1 → Between (barVelocity (barLeft P ext fl (j + 1)))
          (barVelocity (barRight P ext lr j)) (barVelocity (barLeft P ext ll (j + 1)))) := by
  obtain ⟨ll, lr, hlow, _, _, _, hpos⟩ :=
    C49_bar_heights P hP ⟨none⟩ bc hbc F n hn ext hlen values hval fl fr h
  refine ⟨ll, lr, hlow, ?_⟩
  obtain ⟨ds', hds', _, rfl, rfl⟩ := lowOrder_inv P hP ⟨none⟩ n ext hlen ll lr hlow
  obtain ⟨ds, hl, high, hds, hF, hhl, hall, rfl, rfl⟩ :=
    mcl_inv P hP ⟨none⟩ bc hbc F n hn ext hlen values hval fl fr h
  rw [hds] at hds'
  obtain rfl := Except.ok.inj hds'
  have hd0 : ∀ j, ds.getD j 0 = 0 := by
    intro j
    cases hds
    by_cases hj : j < n + 1
    · rw [List.getD_eq_getElem _ _ (by simpa using hj)]; simp
    · rw [List.getD_eq_default _ _ (by simpa using hj)]
  set N := fun j => low P (ext.getD j 0) (ext.getD (j + 1) 0) (ds.getD j 0) with hN
  set lim := limOf bc.periodic n N (fun j => high.getD j 0) with hlim
  have n1 : ∀ j, (N j).heightLeft = (N j).heightHLL := by
    intro j; simp only [hN, low, hd0, positivityFix_flat]; simp
  have n2 : ∀ j, (N j).heightRight = (N j).heightHLL := by
    intro j; simp only [hN, low, hd0, positivityFix_flat]; simp
  have n3 : ∀ j, (N j).dischargeRight = (N j).dischargeLeft := by
    intro j; simp only [hN, low, hd0, positivityFix_flat]; simp
  have hH : ∀ j < n + 1, 0 < (N j).heightHLL := by
    intro j hj
    obtain ⟨a, b, c, d⟩ := hall j hj
    exact lt_of_le_of_ne (barState_height P hP _ _ a b c) (Ne.symm d)
  have hv : ∀ j < n + 1, vbarOf (N j) = (N j).dischargeLeft / (N j).heightHLL := by
    intro j hj
    simp only [vbarOf, n1, n2, n3]
    have := (hH j hj).ne'
    field_simp
  have hnw : ∀ j, (N j).w = speedAt P ext j := fun j => rfl
  have eR : ∀ j < n + 1, barRight P ext ((List.range (n + 1)).map
      (fun j => (N j).fluxRight + lim j)) j =
      ((N j).heightRight, (N j).dischargeRight) + (1 / (N j).w) • lim j := by
    intro j hj
    exact barRight_low P ext n ds lim j hj (hall j hj).2.2.1.ne'
  have eL : ∀ j < n + 1, barLeft P ext ((List.range (n + 1)).map
      (fun j => (N j).fluxLeft + -lim j)) j =
      ((N j).heightLeft, (N j).dischargeLeft) + (1 / (N j).w) • -lim j := by
    intro j hj
    exact barLeft_low P ext n ds (fun j => -lim j) j hj (hall j hj).2.2.1.ne'
  have gR : ∀ j < n + 1, barVelocity (barRight P ext ((List.range (n + 1)).map
      (fun j => (N j).fluxRight)) j) = (N j).dischargeLeft / (N j).heightHLL := by
    intro j hj
    have := barRight_low P ext n ds (fun _ => 0) j hj (hall j hj).2.2.1.ne'
    simp only [add_zero, smul_zero] at this
    rw [this]
    simp only [barVelocity]
    rw [← n2 j, ← n3 j]
  have gL : ∀ j < n + 1, barVelocity (barLeft P ext ((List.range (n + 1)).map
      (fun j => (N j).fluxLeft)) j) = (N j).dischargeLeft / (N j).heightHLL := by
    intro j hj
    have := barLeft_low P ext n ds (fun _ => 0) j hj (hall j hj).2.2.1.ne'
    simp only [add_zero, smul_zero] at this
    rw [this]
    simp only [barVelocity]
    rw [← n1 j]
  -- bounds of the cells contain the velocities of their nodes
  have cl : ∀ j < n + 1, vMin bc.periodic n N j ≤ (N j).dischargeLeft / (N j).heightHLL ∧
      (N j).dischargeLeft / (N j).heightHLL ≤ vMax bc.periodic n N j := by
    intro j hj
    have e : rightOf bc.periodic n (fun j => vbarOf (N j)) j =
        (N j).dischargeLeft / (N j).heightHLL := by
      simp only [rightOf]; rw [if_neg (by omega), hv j hj]
    rw [← e]
    exact ⟨(min_le_right _ _).trans (min_le_left _ _), (le_max_left _ _).trans (le_max_right _ _)⟩
  have cr : ∀ j < n + 1, vMin bc.periodic n N (j + 1) ≤ (N j).dischargeLeft / (N j).heightHLL ∧
      (N j).dischargeLeft / (N j).heightHLL ≤ vMax bc.periodic n N (j + 1) := by
    intro j hj
    have e : leftOf bc.periodic n (fun j => vbarOf (N j)) (j + 1) =
        (N j).dischargeLeft / (N j).heightHLL := by
      simp only [leftOf]
      rw [if_neg (by omega), Nat.add_sub_cancel, hv j hj]
    rw [← e]
    exact ⟨min_le_left _ _, le_max_left _ _⟩
  have ci : ∀ j < n, vMin bc.periodic n N (j + 1) = min ((N j).dischargeLeft / (N j).heightHLL)
        ((N (j + 1)).dischargeLeft / (N (j + 1)).heightHLL) ∧
      vMax bc.periodic n N (j + 1) = max ((N j).dischargeLeft / (N j).heightHLL)
        ((N (j + 1)).dischargeLeft / (N (j + 1)).heightHLL) := by
    intro j hj
    simp only [vMin, vMax, leftOf, rightOf]
    simp only [if_neg (show ¬ j + 1 = 0 by omega), if_neg (show ¬ j + 1 = n + 1 by omega),
      Nat.add_sub_cancel]
    rw [hv j (by omega), hv (j + 1) (by omega), n3 j]
    constructor
    · simp [min_left_comm, min_comm]
    · simp [max_left_comm, max_comm]
  have spec := fun j (hj : j < n + 1) => limited_velocity (N j)
    (high.getD j 0 + -(N j).fluxRight) (hMax bc.periodic n N j) (hMax bc.periodic n N (j + 1))
    (hMin bc.periodic n N j) (hMin bc.periodic n N (j + 1)) (vMax bc.periodic n N j)
    (vMax bc.periodic n N (j + 1)) (vMin bc.periodic n N j) (vMin bc.periodic n N (j + 1))
    (by rw [hnw]; exact (hall j hj).2.2.1) (n1 j) (n2 j) (n3 j) (hH j hj) (cl j hj) (cr j hj)
  have hlimj : ∀ j < n + 1, lim j = limitedNode (N j) ((N j).dischargeLeft / (N j).heightHLL)
      (high.getD j 0 + -(N j).fluxRight) (hMax bc.periodic n N j) (hMax bc.periodic n N (j + 1))
      (hMin bc.periodic n N j) (hMin bc.periodic n N (j + 1)) (vMax bc.periodic n N j)
      (vMax bc.periodic n N (j + 1)) (vMin bc.periodic n N j) (vMin bc.periodic n N (j + 1)) := by
    intro j hj
    rw [← hv j hj]
    rfl
  intro j hj
  have p1 := (hpos (j + 1) (by omega)).1
  rw [eR j (by omega), eL (j + 1) (by omega), gR j (by omega), gL (j + 1) (by omega),
    eR (j + 1) (by omega)]
  rw [eR (j + 1) (by omega)] at p1
  have s1 := (spec j (by omega)).1
  have s2 := (spec (j + 1) (by omega)).2
  rw [← hlimj j (by omega)] at s1
  rw [← hlimj (j + 1) (by omega)] at s2
  unfold Between
  rw [← (ci j hj).1, ← (ci j hj).2]
  exact ⟨s1, s2 p1⟩

/-- Non-vacuity of the partial result: in the example above the velocity right of the first node
between different states is bounded. -/
example : okAnd ((mcl exampleParams ⟨none⟩ ⟨[.copy 0], [.copy (-1)], false⟩
      (centralFlux exampleParams ⟨none⟩)).call [badExt.dropLast, badExt.tail]) (fun f =>
      decide (0 < (barRight exampleParams badExt f.2 1).1 ∧
        (barRight exampleParams badExt f.2 1).1 ≤ (barLeft exampleParams badExt f.1 1).1)) = true := by
  decide +kernel

end Verif.SWE
