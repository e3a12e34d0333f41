import Verif.Core.SWE
import Verif.Props.FV
import Verif.Core.SSP
import Verif.Core.ScalarLemmas
import Mathlib.Analysis.Real.Sqrt

/-!
Lemmas about the shallow water model.
-/

set_option linter.unusedSectionVars false

namespace Verif.SWE

open Verif.Py Verif.Boundary Verif.FV Verif.ODE

variable {K : Type*} [Field K] [LinearOrder K] [IsStrictOrderedRing K]

/-- The properties of gravity and of the square root that are used. -/
structure Params.Good (P : Params K) : Prop where
  g_pos : 0 < P.g
  rt_nonneg : ∀ x, 0 ≤ x → 0 ≤ P.rt x
  rt_pos : ∀ x, 0 < x → 0 < P.rt x

/-- Parameters over the real numbers with the real square root. -/
noncomputable def realParams (g eps : ℝ) (h : 0 < eps) : Params ℝ := ⟨g, eps, h, Real.sqrt⟩

theorem realParams_good (g eps : ℝ) (hg : 0 < g) (h : 0 < eps) : (realParams g eps h).Good :=
  ⟨hg, fun x _ => Real.sqrt_nonneg x, fun x hx => Real.sqrt_pos.mpr hx⟩

theorem velocity_den_pos (P : Params K) (h : K) : 0 < h ^ 2 + max h P.eps ^ 2 := by
  have h1 : 0 < max h P.eps := lt_of_lt_of_le P.eps_pos (le_max_right _ _)
  positivity

theorem velocity_wet (P : Params K) (h q : K) (hw : P.eps ≤ h) : velocity P (h, q) = q / h := by
  have hpos : 0 < h := lt_of_lt_of_le P.eps_pos hw
  simp only [velocity, max_eq_left hw]
  field_simp
  ring

theorem velocity_zero (P : Params K) (h : K) : velocity P (h, 0) = 0 := by simp [velocity]

/-- Mass flux of a state: the discharge, or zero if the cell is dry. -/
def massFlux (P : Params K) (u : State K) : K := if u.1 < P.eps then 0 else u.2

/-- Momentum flux. -/
def momentumFlux (P : Params K) (u : State K) : K :=
  if u.1 < P.eps then 0 else u.2 ^ 2 / u.1 + P.g * u.1 ^ 2 / 2

/-- The flux of a state as a total function. -/
def fluxOf (P : Params K) (u : State K) : State K := (massFlux P u, momentumFlux P u)

theorem flux_ok (P : Params K) (u : State K) (h : 0 ≤ u.1) : flux P u = .ok (fluxOf P u) := by
  unfold flux fluxOf massFlux momentumFlux
  rw [if_neg (not_lt.mpr h)]
  split <;> rfl

theorem massFlux_eq (P : Params K) (u : State K) : massFlux P u = velocity P u * u.1 ∨
    massFlux P u = 0 := by
  unfold massFlux
  split
  · exact Or.inr rfl
  · rename_i h
    left
    have h' := not_lt.mp h
    have hpos : 0 < u.1 := lt_of_lt_of_le P.eps_pos h'
    rw [show u = (u.1, u.2) from rfl, velocity_wet P _ _ h']
    field_simp

theorem massFlux_bound (P : Params K) (u : State K) (h : 0 ≤ u.1) (w : K)
    (hw : |velocity P u| ≤ w) : |massFlux P u| ≤ w * u.1 := by
  rcases massFlux_eq P u with e | e
  · rw [e, abs_mul, abs_of_nonneg h]
    exact mul_le_mul_of_nonneg_right hw h
  · rw [e, abs_zero]
    exact mul_nonneg ((abs_nonneg _).trans hw) h

theorem maxSpeed_left (P : Params K) (hP : P.Good) (uL uR : State K) (hL : 0 ≤ uL.1) :
    |velocity P uL| ≤ maxSpeed P uL uR := by
  have := hP.rt_nonneg _ (mul_nonneg hP.g_pos.le hL)
  exact le_trans (by linarith) (le_max_left _ _)

theorem maxSpeed_right (P : Params K) (hP : P.Good) (uL uR : State K) (hR : 0 ≤ uR.1) :
    |velocity P uR| ≤ maxSpeed P uL uR := by
  have := hP.rt_nonneg _ (mul_nonneg hP.g_pos.le hR)
  exact le_trans (by linarith) (le_max_right _ _)

theorem maxSpeed_nonneg (P : Params K) (hP : P.Good) (uL uR : State K) (hL : 0 ≤ uL.1) :
    0 ≤ maxSpeed P uL uR := (abs_nonneg _).trans (maxSpeed_left P hP uL uR hL)

theorem maxSpeed_pos (P : Params K) (hP : P.Good) (uL uR : State K) (h : 0 < uL.1 ∨ 0 < uR.1) :
    0 < maxSpeed P uL uR := by
  rcases h with h | h
  · have := hP.rt_pos _ (mul_pos hP.g_pos h)
    exact lt_of_lt_of_le (by linarith [abs_nonneg (velocity P uL)]) (le_max_left _ _)
  · have := hP.rt_pos _ (mul_pos hP.g_pos h)
    exact lt_of_lt_of_le (by linarith [abs_nonneg (velocity P uR)]) (le_max_right _ _)

/-- The intermediate state. -/
def barState (P : Params K) (uL uR : State K) : State K :=
  (1 / 2 : K) • (uL + uR) - (1 / (2 * maxSpeed P uL uR)) • (fluxOf P uR - fluxOf P uL)

/-- The Lax-Friedrichs flux. -/
def llf (P : Params K) (uL uR : State K) : State K :=
  (1 / 2 : K) • (fluxOf P uL + fluxOf P uR) - (maxSpeed P uL uR / 2) • (uR - uL)

theorem solve_ok (P : Params K) (uL uR : State K) (hL : 0 ≤ uL.1) (hR : 0 ≤ uR.1)
    (hw : 0 < maxSpeed P uL uR) :
    (riemann P).solve uL uR = .ok ⟨llf P uL uR, barState P uL uR, fluxOf P uL, fluxOf P uR,
      -maxSpeed P uL uR, maxSpeed P uL uR⟩ := by
  have h1 : maxSpeed P uL uR - -maxSpeed P uL uR ≠ 0 := by intro h; linarith
  have h3 : maxSpeed P uL uR - -maxSpeed P uL uR = 2 * maxSpeed P uL uR := by ring
  have h2 := hw.ne'
  simp only [Riemann.solve, riemann, flux_ok P uL hL, flux_ok P uR hR, if_neg h1]
  rw [h3]
  congr 2
  · unfold llf
    ext
    · simp only [Prod.fst_sub, Prod.smul_fst, Prod.fst_add, smul_eq_mul]
      field_simp
      ring
    · simp only [Prod.snd_sub, Prod.smul_snd, Prod.snd_add, smul_eq_mul]
      field_simp
      ring
  · unfold barState
    ext
    · simp only [Prod.fst_sub, Prod.smul_fst, Prod.fst_add, smul_eq_mul]
      field_simp
      ring
    · simp only [Prod.snd_sub, Prod.smul_snd, Prod.snd_add, smul_eq_mul]
      field_simp
      ring

/-- If the solver gives a result, heights are non-negative and speeds different. -/
theorem solve_inv (P : Params K) (uL uR : State K) (r : RiemannResult K (State K))
    (h : (riemann P).solve uL uR = .ok r) :
    0 ≤ uL.1 ∧ 0 ≤ uR.1 ∧ maxSpeed P uL uR ≠ 0 := by
  have key : ∀ u : State K, u.1 < 0 → flux P u = .error .valueError := fun u hu => if_pos hu
  refine ⟨?_, ?_, ?_⟩
  · by_contra hn
    simp only [Riemann.solve, riemann, key uL (not_le.mp hn)] at h
    cases h
  · by_contra hn
    simp only [Riemann.solve, riemann, key uR (not_le.mp hn)] at h
    cases h' : flux P uL with
    | error e => rw [h'] at h; cases h
    | ok f => rw [h'] at h; cases h
  · intro h0
    simp only [Riemann.solve, riemann, h0, neg_zero, sub_zero, if_true] at h
    cases h1 : flux P uL with
    | error e => rw [h1] at h; cases h
    | ok f =>
      cases h2 : flux P uR with
      | error e => rw [h1, h2] at h; cases h
      | ok f => rw [h1, h2] at h; simp at h

theorem llf_left (P : Params K) (uL uR : State K) (hw : maxSpeed P uL uR ≠ 0) :
    -llf P uL uR = maxSpeed P uL uR • (barState P uL uR - uL) - fluxOf P uL := by
  unfold llf barState
  ext
  · simp only [Prod.fst_sub, Prod.smul_fst, Prod.fst_add, smul_eq_mul, Prod.fst_neg]
    field_simp
    ring
  · simp only [Prod.snd_sub, Prod.smul_snd, Prod.snd_add, smul_eq_mul, Prod.snd_neg]
    field_simp
    ring

theorem llf_right (P : Params K) (uL uR : State K) (hw : maxSpeed P uL uR ≠ 0) :
    llf P uL uR = maxSpeed P uL uR • (barState P uL uR - uR) + fluxOf P uR := by
  unfold llf barState
  ext
  · simp only [Prod.fst_sub, Prod.smul_fst, Prod.fst_add, smul_eq_mul]
    field_simp
    ring
  · simp only [Prod.snd_sub, Prod.smul_snd, Prod.snd_add, smul_eq_mul]
    field_simp
    ring

/-- Bar heights are non-negative. -/
theorem barState_height (P : Params K) (hP : P.Good) (uL uR : State K) (hL : 0 ≤ uL.1)
    (hR : 0 ≤ uR.1) (hw : 0 < maxSpeed P uL uR) : 0 ≤ (barState P uL uR).1 := by
  have h1 := massFlux_bound P uL hL _ (maxSpeed_left P hP uL uR hL)
  have h2 := massFlux_bound P uR hR _ (maxSpeed_right P hP uL uR hR)
  rw [abs_le] at h1 h2
  simp only [barState, fluxOf, Prod.fst_sub, Prod.smul_fst, Prod.fst_add, smul_eq_mul]
  have e : (1 / 2 : K) * (uL.1 + uR.1) - 1 / (2 * maxSpeed P uL uR) *
      (massFlux P uR - massFlux P uL) =
      ((maxSpeed P uL uR * uL.1 + massFlux P uL) + (maxSpeed P uL uR * uR.1 - massFlux P uR)) /
        (2 * maxSpeed P uL uR) := by
    field_simp
    ring
  rw [e]
  exact div_nonneg (by linarith) (by linarith)

/-! ### Nodes of an extended vector -/

theorem steps_length (B : Bathymetry K) (n : ℕ) (ds : List K) (hds : B.steps n = .ok ds) :
    ds.length = n := by
  unfold Bathymetry.steps at hds
  cases hv : B.values with
  | none => rw [hv] at hds; cases hds; simp
  | some b =>
    rw [hv] at hds
    simp only at hds
    split at hds
    · rename_i h; cases hds; exact h
    · cases hds

theorem nodesE_ok {γ : Type*} (B : Bathymetry K) (f : State K → State K → K → Except Error γ)
    (n : ℕ) (ext : List (State K)) (hlen : ext.length = n + 2) (ds : List K)
    (hds : B.steps (n + 1) = .ok ds) (g : ℕ → γ)
    (hg : ∀ j < n + 1, f (ext.getD j 0) (ext.getD (j + 1) 0) (ds.getD j 0) = .ok (g j)) :
    nodesE B f ext.dropLast ext.tail = .ok ((List.range (n + 1)).map g) := by
  have hl : (ext.dropLast.zip ext.tail).length = n + 1 := by simp [hlen]
  have hdl := steps_length B (n + 1) ds hds
  have hnode : ∀ i (hi : i < n + 1), (ext.dropLast.zip ext.tail)[i]'(by omega) =
      (ext.getD i 0, ext.getD (i + 1) 0) := by
    intro i hi
    rw [List.getElem_zip, List.getElem_dropLast, List.getElem_tail,
      List.getD_eq_getElem _ _ (by omega), List.getD_eq_getElem _ _ (by omega)]
  unfold nodesE
  rw [hl, hds]
  simp only
  obtain ⟨fs, hfs⟩ := zipE_ok (fun p d => f p.1 p.2 d) (ext.dropLast.zip ext.tail) ds (by
    intro i h2 h3
    refine ⟨g i, ?_⟩
    rw [hnode i (by omega), ← List.getD_eq_getElem ds 0]
    exact hg i (by omega))
  obtain ⟨h1, h2⟩ := zipE_ok_iff _ _ _ fs hfs
  rw [hfs]
  congr 1
  apply List.ext_getElem
  · simp [h1, hl, hdl]
  · intro i hi1 hi2
    have := h2 i hi1 (by omega) (by omega)
    rw [hnode i (by omega), ← List.getD_eq_getElem ds 0, hg i (by omega)] at this
    simp only [List.getElem_map, List.getElem_range]
    exact (Except.ok.inj this).symm

theorem nodesE_inv {γ : Type*} (B : Bathymetry K) (f : State K → State K → K → Except Error γ)
    (n : ℕ) (ext : List (State K)) (hlen : ext.length = n + 2) (gs : List γ)
    (h : nodesE B f ext.dropLast ext.tail = .ok gs) :
    ∃ ds, B.steps (n + 1) = .ok ds ∧ ds.length = n + 1 ∧ gs.length = n + 1 ∧
      ∀ j (hj : j < gs.length),
        f (ext.getD j 0) (ext.getD (j + 1) 0) (ds.getD j 0) = .ok gs[j] := by
  have hl : (ext.dropLast.zip ext.tail).length = n + 1 := by simp [hlen]
  unfold nodesE at h
  rw [hl] at h
  cases hds : B.steps (n + 1) with
  | error e => rw [hds] at h; cases h
  | ok ds =>
    rw [hds] at h
    simp only at h
    have hdl := steps_length B (n + 1) ds hds
    obtain ⟨h1, h2⟩ := zipE_ok_iff _ _ _ gs h
    refine ⟨ds, rfl, hdl, by omega, ?_⟩
    intro j hj
    have := h2 j hj (by omega) (by omega)
    rw [List.getElem_zip, List.getElem_dropLast, List.getElem_tail,
      ← List.getD_eq_getElem ext 0, ← List.getD_eq_getElem ext 0, ← List.getD_eq_getElem ds 0]
      at this
    exact this

theorem requiredValues_two {α : Type*} (l r : α) : requiredValues 2 [l, r] = .ok [l, r] := by
  simp [requiredValues]

/-- A flux with source term on an extended vector. -/
theorem withSource_call (P : Params K) (B : Bathymetry K) (F : NumFlux (State K)) (n : ℕ)
    (ext : List (State K)) (hlen : ext.length = n + 2) (ds : List K)
    (hds : B.steps (n + 1) = .ok ds) (gl gr : ℕ → State K)
    (hF : F.call [ext.dropLast, ext.tail] =
      .ok ((List.range (n + 1)).map gl, (List.range (n + 1)).map gr)) :
    (withSource P B F).call [ext.dropLast, ext.tail] =
      .ok ((List.range (n + 1)).map (fun j =>
          gl j + -source P (ext.getD j 0) (ext.getD (j + 1) 0) (ds.getD j 0)),
        (List.range (n + 1)).map (fun j =>
          gr j + -source P (ext.getD j 0) (ext.getD (j + 1) 0) (ds.getD j 0))) := by
  simp only [withSource, hF, requiredValues_two]
  rw [nodesE_ok B (fun a b d => .ok (source P a b d)) n ext hlen ds hds
    (fun j => source P (ext.getD j 0) (ext.getD (j + 1) 0) (ds.getD j 0)) (fun j _ => rfl)]
  simp only
  congr 2
  · apply List.ext_getElem
    · simp
    · intro i _ _; simp
  · apply List.ext_getElem
    · simp
    · intro i _ _; simp

theorem twoPoint_call (F : State K → State K → Except Error (State K)) (n : ℕ)
    (ext : List (State K)) (hlen : ext.length = n + 2) (g : ℕ → State K)
    (hg : ∀ j < n + 1, F (ext.getD j 0) (ext.getD (j + 1) 0) = .ok (g j)) :
    (twoPoint F).call [ext.dropLast, ext.tail] =
      .ok ((List.range (n + 1)).map (fun j => -g j), (List.range (n + 1)).map g) := by
  have hz : zipE F ext.dropLast ext.tail = .ok ((List.range (n + 1)).map g) := by
    obtain ⟨fs, hfs⟩ := zipE_ok F ext.dropLast ext.tail (by
      intro i h2 h3
      rw [List.length_dropLast] at h2
      refine ⟨g i, ?_⟩
      rw [List.getElem_dropLast, List.getElem_tail, ← List.getD_eq_getElem ext 0,
        ← List.getD_eq_getElem ext 0]
      exact hg i (by omega))
    obtain ⟨h1, h2⟩ := zipE_ok_iff F _ _ fs hfs
    rw [hfs]
    congr 1
    have hl : fs.length = n + 1 := by rw [h1]; simp [hlen]
    apply List.ext_getElem
    · simp [hl]
    · intro i hi1 hi2
      have := h2 i hi1 (by simp; omega) (by simp; omega)
      rw [List.getElem_dropLast, List.getElem_tail, ← List.getD_eq_getElem ext 0,
        ← List.getD_eq_getElem ext 0, hg i (by omega)] at this
      simp only [List.getElem_map, List.getElem_range]
      exact (Except.ok.inj this).symm
  simp only [twoPoint, hz, List.map_map]
  rfl

/-- The node values of the low order scheme. -/
def low (P : Params K) (uL uR : State K) (step : K) : LowNode K :=
  let w := maxSpeed P uL uR
  let hH := (barState P uL uR).1
  let qH := (barState P uL uR).2
  let fix := positivityFix hH step
  let src := -(P.g * average uL.1 uR.1 * fix / w)
  let v := average (velocity P uL) (velocity P uR)
  { w := w, heightHLL := hH, dischargeHLL := qH, fix := fix, heightLeft := hH + fix,
    heightRight := hH + -fix, dischargeLeft := qH + v * fix + src,
    dischargeRight := qH + -v * fix + src,
    fluxLeft := w • ((hH + fix, qH + v * fix + src) + -uL) + -fluxOf P uL,
    fluxRight := w • ((hH + -fix, qH + -v * fix + src) + -uR) + fluxOf P uR }

theorem lowNode_ok (P : Params K) (uL uR : State K) (step : K) (hL : 0 ≤ uL.1) (hR : 0 ≤ uR.1)
    (hw : 0 < maxSpeed P uL uR) : lowNode P uL uR step = .ok (low P uL uR step) := by
  simp only [lowNode, solve_ok P uL uR hL hR hw]
  rfl

/-! ### Boundary conditions -/

/-- The reflection used by walls. -/
def reflect (u : State K) : State K := (u.1, u.2 * -1)

/-- Ghost cells with a given property, one on each side. -/
def Extends (bc : BC K (State K)) (n : ℕ) (A : State K → Prop) : Prop :=
  ∀ (t : K) (v : List (State K)), v.length = n → (∀ x ∈ v, A x) →
    ∃ a b, A a ∧ A b ∧ bc.extend v (some t) = .ok (a :: v ++ [b])

theorem ghost_left (cl : String) (il : Option (K → State K)) (c : Ghost K (State K))
    (hc : buildLeft (some reflect) cl 0 il = .ok c) (A : State K → Prop)
    (hA : ∀ x, A x → A (reflect x)) (hil : ∀ g, il = some g → ∀ t, A (g t)) (t : K)
    (v : List (State K)) (hv : v ≠ []) (hall : ∀ x ∈ v, A x) :
    ∃ a, A a ∧ c.eval v (some t) = .ok a := by
  have hpos := List.length_pos_iff.mpr hv
  have h0 : Py.get v 0 = .ok (v[0]) := by simpa using get_nat v (i := 0) hpos
  have h1 : Py.get v (-1) = .ok (v[v.length - 1]) := by
    have := get_neg v (i := 0) hpos
    simpa using this
  unfold buildLeft at hc
  by_cases hcw : cl = "wall"
  · simp only [hcw, decide_true] at hc
    cases hc
    exact ⟨reflect v[0], hA _ (hall _ (List.getElem_mem _)), by simp [Ghost.eval, h0]⟩
  · simp only [hcw, decide_false] at hc
    split_ifs at hc
    · cases hc
      exact ⟨_, hall _ (List.getElem_mem _), by simpa [Ghost.eval] using h1⟩
    · cases hc
      exact ⟨_, hall _ (List.getElem_mem _), by simpa [Ghost.eval] using h0⟩
    · cases il with
      | none => simp at hc
      | some g =>
        simp only at hc
        cases hc
        exact ⟨g t, hil g rfl t, rfl⟩

theorem ghost_right (cr : String) (ir : Option (K → State K)) (c : Ghost K (State K))
    (hc : buildRight (some reflect) cr 0 ir = .ok c) (A : State K → Prop)
    (hA : ∀ x, A x → A (reflect x)) (hir : ∀ g, ir = some g → ∀ t, A (g t)) (t : K)
    (v : List (State K)) (hv : v ≠ []) (hall : ∀ x ∈ v, A x) :
    ∃ a, A a ∧ c.eval v (some t) = .ok a := by
  have hpos := List.length_pos_iff.mpr hv
  have h0 : Py.get v 0 = .ok (v[0]) := by simpa using get_nat v (i := 0) hpos
  have h1 : Py.get v (-1) = .ok (v[v.length - 1]) := by
    have := get_neg v (i := 0) hpos
    simpa using this
  unfold buildRight at hc
  by_cases hcw : cr = "wall"
  · simp only [hcw, decide_true] at hc
    cases hc
    exact ⟨reflect v[v.length - 1], hA _ (hall _ (List.getElem_mem _)), by simp [Ghost.eval, h1]⟩
  · simp only [hcw, decide_false] at hc
    split_ifs at hc
    · cases hc
      exact ⟨_, hall _ (List.getElem_mem _), by simpa [Ghost.eval] using h0⟩
    · cases hc
      exact ⟨_, hall _ (List.getElem_mem _), by simpa [Ghost.eval] using h1⟩
    · cases ir with
      | none => simp at hc
      | some g =>
        simp only at hc
        cases hc
        exact ⟨g t, hir g rfl t, rfl⟩

/-- All boundary conditions of radius 1 extend vectors by one value on each side that inherits each
property of the cells that reflection and inflow data have. -/
theorem build_extends (conditions : List String) (il ir : Option (K → State K))
    (bc : BC K (State K)) (hbc : build (some reflect) conditions 1 il ir = .ok bc) (n : ℕ)
    (hn : 0 < n) (A : State K → Prop) (hA : ∀ x, A x → A (reflect x))
    (hil : ∀ g, il = some g → ∀ t, A (g t)) (hir : ∀ g, ir = some g → ∀ t, A (g t)) :
    Extends bc n A := by
  intro t v hv hall
  have hne : v ≠ [] := by rintro rfl; simp at hv; omega
  unfold build at hbc
  cases conditions with
  | nil => cases hbc
  | cons cl rest =>
    simp only [List.range_one, List.mapM_cons, List.mapM_nil, Nat.sub_self, Nat.sub_zero] at hbc
    cases hcl : buildLeft (some reflect) cl 0 il with
    | error e => rw [hcl] at hbc; cases hbc
    | ok c =>
      cases hcr : buildRight (some reflect) (rest.headD cl) 0 ir with
      | error e => rw [hcl, hcr] at hbc; cases hbc
      | ok d =>
        rw [hcl, hcr] at hbc
        have := make_append [c] [d] rfl (decide (cl :: rest = ["periodic"]))
        change BC.make ([c] ++ [d]) _ = _ at hbc
        rw [this] at hbc
        cases hbc
        obtain ⟨a, ha, ea⟩ := ghost_left cl il c hcl A hA hil t v hne hall
        obtain ⟨b, hb, eb⟩ := ghost_right _ ir d hcr A hA hir t v hne hall
        refine ⟨a, b, ha, hb, ?_⟩
        simp only [BC.extend, List.mapM_cons, List.mapM_nil, ea, eb]
        rfl

theorem build_radius (conditions : List String) (il ir : Option (K → State K))
    (bc : BC K (State K)) (hbc : build (some reflect) conditions 1 il ir = .ok bc) :
    bc.left.length = 1 := by
  unfold build at hbc
  cases conditions with
  | nil => cases hbc
  | cons cl rest =>
    simp only [List.range_one, List.mapM_cons, List.mapM_nil, Nat.sub_self, Nat.sub_zero] at hbc
    cases hcl : buildLeft (some reflect) cl 0 il with
    | error e => rw [hcl] at hbc; cases hbc
    | ok c =>
      cases hcr : buildRight (some reflect) (rest.headD cl) 0 ir with
      | error e => rw [hcl, hcr] at hbc; cases hbc
      | ok d =>
        rw [hcl, hcr] at hbc
        have := make_append [c] [d] rfl (decide (cl :: rest = ["periodic"]))
        change BC.make ([c] ++ [d]) _ = _ at hbc
        rw [this] at hbc
        cases hbc
        rfl

end Verif.SWE
