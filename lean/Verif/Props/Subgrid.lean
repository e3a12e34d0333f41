import Verif.Core.Symmetry
import Verif.Props.Coarsen
import Verif.Props.Commands
import Verif.Props.SWEReduced

/-!
C100: reduced models reproduce the coarsened fine solution if their fluxes are those of the fine scheme.
-/

set_option linter.unusedSectionVars false

namespace Verif.Subgrid

open Verif.Py Verif.Boundary Verif.FV Verif.ODE

section General
variable {K : Type*} [Field K] [LinearOrder K] [IsStrictOrderedRing K]
variable {V : Type*} [AddCommGroup V] [Module K V]

/-- The left fluxes are the negative right fluxes. -/
def Conservative (F : NumFlux V) : Prop :=
  ∀ values fl fr, F.call values = .ok (fl, fr) → fl = fr.map fun x => -x

/-- At every coarse node `j` the flux of the coarse scheme `R` for the coarse values `u` is the flux of
the fine scheme `F` for the fine values `v` at the same place, fine node `k j`, up to the error `e j`. -/
def Closes (F R : NumFlux V) (bf bc : BC K V) (k : ℕ) (e : ℕ → V) (t : K) (v u : List V) : Prop :=
  ∃ vf vc fl fr cl cr,
    bf.nodeNeighbours v (F.dim / 2) (some t) = .ok vf ∧ F.call vf = .ok (fl, fr) ∧
    fr.length = v.length + 1 ∧
    bc.nodeNeighbours u (R.dim / 2) (some t) = .ok vc ∧ R.call vc = .ok (cl, cr) ∧
    cr.length = u.length + 1 ∧
    ∀ j ≤ u.length, cr.getD j 0 = fr.getD (k * j) 0 + e j

theorem rhs_conservative (F : NumFlux V) (hF : Conservative F) (dx : K) (hdx : dx ≠ 0) (bc : BC K V)
    (t : K) (v : List V) (vs : List (List V)) (fl fr : List V)
    (h1 : bc.nodeNeighbours v (F.dim / 2) (some t) = .ok vs) (h2 : F.call vs = .ok (fl, fr)) (n : ℕ)
    (hn : fr.length = n + 1) :
    rhs F dx bc t v =
      .ok ((List.range n).map fun i => (1 / dx) • (fr.getD i 0 - fr.getD (i + 1) 0)) := by
  simp only [rhs, h1, h2, if_neg hdx, hF vs fl fr h2]
  congr 1
  apply List.ext_getElem
  · simp [hn]
  · intro i hi1 hi2
    have hi : i < n := by simpa using hi2
    simp only [List.getElem_zipWith, List.getElem_dropLast, List.getElem_tail, List.getElem_map,
      List.getElem_range]
    rw [List.getD_eq_getElem _ _ (by omega), List.getD_eq_getElem _ _ (by omega), sub_eq_add_neg]

theorem block_telescope (k : ℕ) (hk : 0 < k) (dx : K) (fr : List V) (n : ℕ) (I : ℕ) (hI : I < n) :
    Coarsen.block K k
      ((List.range (n * k)).map fun i => (1 / dx) • (fr.getD i 0 - fr.getD (i + 1) 0)) I =
      (1 / (k * dx)) • (fr.getD (k * I) 0 - fr.getD (k * (I + 1)) 0) := by
  unfold Coarsen.block
  have h : ∀ i ∈ Finset.range k,
      ((List.range (n * k)).map fun i => (1 / dx) • (fr.getD i 0 - fr.getD (i + 1) 0)).getD (k * I + i) 0 =
        (1 / dx) • (fr.getD (k * I + i) 0 - fr.getD (k * I + (i + 1)) 0) := by
    intro i hi
    rw [Finset.mem_range] at hi
    rw [List.getD_eq_getElem _ _ (by
      simp only [List.length_map, List.length_range]
      have : k * (I + 1) ≤ n * k := by rw [mul_comm n]; exact Nat.mul_le_mul_left _ hI
      nlinarith)]
    simp only [List.getElem_map, List.getElem_range]
    rfl
  rw [Finset.sum_congr rfl h, ← Finset.smul_sum,
    Finset.sum_range_sub' (fun i => fr.getD (k * I + i) 0), smul_smul]
  congr 1
  rw [one_div_mul_one_div]

/-- C100.  Cell by cell the right-hand side of the coarse scheme is the coarsened right-hand side of the
fine scheme plus the difference of the flux errors at the two nodes of the cell, divided by the coarse
mesh width.  Both are computed without exception. -/
theorem C100_rhs (F R : NumFlux V) (hF : Conservative F) (hR : Conservative R) (k : ℕ) (hk : 0 < k)
    (dx : K) (hdx : dx ≠ 0) (bf bc : BC K V) (t : K) (v u : List V) (hu : Coarsen.coarsen K k v = .ok u)
    (e : ℕ → V) (h : Closes F R bf bc k e t v u) :
    ∃ w w' z, rhs F dx bf t v = .ok w ∧ Coarsen.coarsen K k w = .ok w' ∧
      rhs R (k * dx) bc t u = .ok z ∧ w'.length = u.length ∧ z.length = u.length ∧
      ∀ i < u.length, z.getD i 0 = w'.getD i 0 + (1 / (k * dx)) • (e i - e (i + 1)) := by
  obtain ⟨vf, vc, fl, fr, cl, cr, h1, h2, h3, h4, h5, h6, h7⟩ := h
  have hk0 : (k : K) ≠ 0 := Nat.cast_ne_zero.mpr hk.ne'
  obtain ⟨n, hn⟩ : ∃ n, v.length = n * k := by
    unfold Coarsen.coarsen at hu
    rw [if_neg hk.ne'] at hu
    split at hu
    · cases hu
    · rename_i hmod
      exact ⟨v.length / k, (Nat.div_mul_cancel (Nat.dvd_of_mod_eq_zero (not_not.mp hmod))).symm⟩
  have hul : u.length = n := by
    unfold Coarsen.coarsen at hu
    rw [if_neg hk.ne', if_neg (by rw [hn]; simp)] at hu
    cases hu
    exact Coarsen.coarsenVector_length hk hn
  have hw := rhs_conservative F hF dx hdx bf t v vf fl fr h1 h2 v.length h3
  have hz := rhs_conservative R hR (k * dx) (mul_ne_zero hk0 hdx) bc t u vc cl cr h4 h5 u.length h6
  have hwl : ((List.range v.length).map fun i => (1 / dx) • (fr.getD i 0 - fr.getD (i + 1) 0)).length =
      n * k := by simp [hn]
  refine ⟨_, Coarsen.coarsenVector K k
    ((List.range v.length).map fun i => (1 / dx) • (fr.getD i 0 - fr.getD (i + 1) 0)), _, hw, ?_, hz,
    ?_, by simp, ?_⟩
  · unfold Coarsen.coarsen
    rw [if_neg hk.ne', if_neg (by rw [hwl]; simp)]
  · rw [Coarsen.coarsenVector_length hk hwl, hul]
  · intro i hi
    rw [Coarsen.coarsenVector_eq hk hwl, List.getD_eq_getElem _ _ (by simpa using hi),
      List.getD_eq_getElem _ _ (by simp; omega)]
    simp only [List.getElem_map, List.getElem_range, hn]
    rw [block_telescope k hk dx fr n i (by omega), h7 i (by omega), h7 (i + 1) (by omega), ← smul_add]
    congr 1
    abel

/-- C100.  Without flux errors the right-hand side of the coarse scheme is the coarsened right-hand side
of the fine scheme. -/
theorem C100_closure (F R : NumFlux V) (hF : Conservative F) (hR : Conservative R) (k : ℕ) (hk : 0 < k)
    (dx : K) (hdx : dx ≠ 0) (bf bc : BC K V) (t : K) (v u : List V) (hu : Coarsen.coarsen K k v = .ok u)
    (h : Closes F R bf bc k (fun _ => 0) t v u) :
    ∃ w w', rhs F dx bf t v = .ok w ∧ Coarsen.coarsen K k w = .ok w' ∧
      rhs R (k * dx) bc t u = .ok w' := by
  obtain ⟨w, w', z, h1, h2, h3, h4, h5, h6⟩ := C100_rhs F R hF hR k hk dx hdx bf bc t v u hu _ h
  refine ⟨w, w', h1, h2, h3.trans ?_⟩
  congr 1
  apply List.ext_getElem (by omega)
  intro i hi hi'
  have := h6 i (by omega)
  rw [List.getD_eq_getElem _ _ hi, List.getD_eq_getElem _ _ hi'] at this
  simpa using this

/-- Coarsening as a linear map. -/
def coarsenMap (K : Type*) [Field K] {V : Type*} [AddCommGroup V] [Module K V] (n k : ℕ) :
    (Fin (n * k) → V) →ₗ[K] (Fin n → V) where
  toFun x I := Coarsen.block K k (List.ofFn x) I
  map_add' x y := by
    funext I
    simp only [Coarsen.block, Pi.add_apply, ← smul_add, ← Finset.sum_add_distrib]
    congr 1
    apply Finset.sum_congr rfl
    intro i _
    by_cases h : k * I + i < n * k
    · rw [List.getD_eq_getElem _ _ (by simpa using h), List.getD_eq_getElem _ _ (by simpa using h),
        List.getD_eq_getElem _ _ (by simpa using h)]
      simp
    · rw [List.getD_eq_default _ _ (by simpa using h), List.getD_eq_default _ _ (by simpa using h),
        List.getD_eq_default _ _ (by simpa using h), add_zero]
  map_smul' c x := by
    funext I
    simp only [Coarsen.block, Pi.smul_apply, RingHom.id_apply]
    rw [smul_comm c]
    congr 1
    rw [Finset.smul_sum]
    apply Finset.sum_congr rfl
    intro i _
    by_cases h : k * I + i < n * k
    · rw [List.getD_eq_getElem _ _ (by simpa using h), List.getD_eq_getElem _ _ (by simpa using h)]
      simp
    · rw [List.getD_eq_default _ _ (by simpa using h), List.getD_eq_default _ _ (by simpa using h),
        smul_zero]

/-- `coarsenMap` is the coarsening of the project. -/
theorem coarsenMap_spec (n k : ℕ) (hk : 0 < k) (x : Fin (n * k) → V) :
    Coarsen.coarsen K k (List.ofFn x) = .ok (List.ofFn (coarsenMap K n k x)) := by
  have hl : (List.ofFn x).length = n * k := by simp
  unfold Coarsen.coarsen
  rw [if_neg hk.ne', if_neg (by rw [hl]; simp), Coarsen.coarsenVector_eq hk hl]
  congr 1
  apply List.ext_getElem (by simp)
  intro i hi hi'
  simp [coarsenMap]

/-- A right-hand side that may only be used at states satisfying `S`. -/
noncomputable def only {E : Type*} (S : K → E → Prop) (f : K → E → Except Error E) (t : K) (x : E) :
    Except Error E :=
  open Classical in if S t x then f t x else .error .assertionError

/-- C100.  Whole runs: if at every state the fine run evaluates its right-hand side at (all stages of
all steps) the fluxes of the coarse scheme for the coarsened state are those of the fine scheme, then
the coarse run with the same steps, started with the coarsened initial values, raises nothing and ends
with the coarsened fine solution.  Any Runge-Kutta method. -/
theorem C100_run (F R : NumFlux V) (hF : Conservative F) (hR : Conservative R) (n k : ℕ) (hk : 0 < k)
    (dx : K) (hdx : dx ≠ 0) (bf bc : BC K V) (T : Tableau K) (s s' : Solver K (Fin (n * k) → V))
    (steps : List K)
    (h : s.runE T (only (fun t x => Closes F R bf bc k (fun _ => 0) t (List.ofFn x)
      (List.ofFn (coarsenMap K n k x))) (vecRhs (n * k) (rhs F dx bf))) steps = .ok s') :
    s.runE T (vecRhs (n * k) (rhs F dx bf)) steps = .ok s' ∧
    (s.image (coarsenMap K n k)).runE T (vecRhs n (rhs R (k * dx) bc)) steps =
      .ok (s'.image (coarsenMap K n k)) := by
  constructor
  · have := runE_map (LinearMap.id : (Fin (n * k) → V) →ₗ[K] _) T _ (vecRhs (n * k) (rhs F dx bf))
      (fun t u w hw => by
        unfold only at hw
        split at hw
        · simpa using hw
        · cases hw) s s' steps h
    simpa [Solver.image] using this
  · apply runE_map (coarsenMap K n k) T _ _ _ s s' steps h
    intro t x y hy
    unfold only at hy
    split at hy
    swap
    · cases hy
    rename_i hc
    obtain ⟨w, w', h1, h2, h3⟩ := C100_closure F R hF hR k hk dx hdx bf bc t _ _
      (coarsenMap_spec n k hk x) hc
    unfold vecRhs at hy ⊢
    rw [h1] at hy
    rw [h3]
    simp only at hy ⊢
    split at hy
    swap
    · cases hy
    rename_i hwl
    have hy := Except.ok.inj hy
    have hw : w = List.ofFn y := by
      rw [← hy]
      apply List.ext_getElem (by simp [hwl])
      intro i hi hi'
      simp
    rw [hw, coarsenMap_spec n k hk y] at h2
    have h2 := Except.ok.inj h2
    subst h2
    simp

/-! ### The fluxes of the project -/

theorem twoPoint_conservative (G : V → V → Except Error V) : Conservative (twoPoint G) := by
  intro values fl fr h
  unfold twoPoint at h
  simp only at h
  split at h
  · split at h
    · obtain ⟨rfl, rfl⟩ := Prod.mk.inj (Except.ok.inj h)
      rfl
    · cases h
  · cases h

theorem zipWith_neg (a b : List V) :
    List.zipWith (· + ·) (a.map fun x => -x) (b.map fun x => -x) =
      (List.zipWith (· + ·) a b).map fun x => -x := by
  induction a generalizing b with
  | nil => simp
  | cons x a ih =>
    cases b with
    | nil => simp
    | cons y b => simp [ih b, add_comm]

theorem corrected_conservative (F G : NumFlux V) (hF : Conservative F) (hG : Conservative G) :
    Conservative (F.corrected G) := by
  intro values fl fr h
  obtain ⟨vs, ws, al, ar, bl, br, -, h2, -, h4, rfl, rfl⟩ := SWE.corrected_inv F G values fl fr h
  rw [hF _ _ _ h2, hG _ _ _ h4, zipWith_neg]

/-- A correction of the upwind flux that depends on four cells. -/
def exampleNet : NumFlux ℚ where
  dim := 4
  call := fun
    | [_, b, _, _] => .ok (b.map fun x => -(x / 3), b.map fun x => x / 3)
    | _ => .error .typeError

/-- Two coarse cells of two fine cells each.  Upwind flux, corrected by a network which is right for
this state: the step of the coarse scheme is the coarsened step of the fine scheme. -/
theorem example_closes : let F := twoPoint (V := ℚ) (fun a _ => .ok a)
    let R := F.corrected exampleNet
    Closes F R ⟨[.copy (-1)], [.copy 0], true⟩ ⟨[.copy (-2), .copy (-1)], [.copy 0, .copy 1], true⟩ 2
      (fun _ => 0) (0 : ℚ) [1, 2, 4, 8] [3 / 2, 6] ∧
    Coarsen.coarsen ℚ 2 [(1 : ℚ), 2, 4, 8] = .ok [3 / 2, 6] ∧
    rhs F (1 : ℚ) ⟨[.copy (-1)], [.copy 0], true⟩ 0 [1, 2, 4, 8] = .ok [7, -1, -2, -4] ∧
    rhs R (2 : ℚ) ⟨[.copy (-2), .copy (-1)], [.copy 0, .copy 1], true⟩ 0 [3 / 2, 6] = .ok [3, -3] := by
  refine ⟨⟨[[8, 1, 2, 4, 8], [1, 2, 4, 8, 1]], [[3 / 2, 6, 3 / 2], [6, 3 / 2, 6], [3 / 2, 6, 3 / 2],
    [6, 3 / 2, 6]], [-8, -1, -2, -4, -8], [8, 1, 2, 4, 8], [-8, -2, -8], [8, 2, 8], by decide +kernel,
    by decide +kernel, rfl, by decide +kernel, by decide +kernel, rfl, ?_⟩, by decide +kernel,
    by decide +kernel, by decide +kernel⟩
  intro j hj
  have : j = 0 ∨ j = 1 ∨ j = 2 := by simp at hj; omega
  rcases this with rfl | rfl | rfl <;> simp

theorem euler_step {E ε : Type*} [AddCommGroup E] [Module K E] (f : K → E → Except ε E) (t : K) (u w : E)
    (dt : K) (h : f t u = .ok w) :
    ∃ s', (Solver.init u t : Solver K E).runE (forwardEuler K) f [dt] = .ok s' ∧
      s'.solution = u + dt • w := by
  refine ⟨⟨t + dt, u + dt • w, [t], [u]⟩, ?_, rfl⟩
  simp [Solver.runE, Solver.executeE, forwardEuler, stagesE, stageValue, timeNode, Solver.init, h]

/-- The hypothesis of `C100_run` for an Euler step from that state. -/
example : let F := twoPoint (V := ℚ) (fun a _ => .ok a)
    let R := F.corrected exampleNet
    let bf : BC ℚ ℚ := ⟨[.copy (-1)], [.copy 0], true⟩
    let bc : BC ℚ ℚ := ⟨[.copy (-2), .copy (-1)], [.copy 0, .copy 1], true⟩
    ∃ s', (Solver.init ![1, 2, 4, 8] 0 : Solver ℚ (Fin (2 * 2) → ℚ)).runE (forwardEuler ℚ)
      (only (fun t x => Closes F R bf bc 2 (fun _ => 0) t (List.ofFn x)
        (List.ofFn (coarsenMap ℚ 2 2 x))) (vecRhs (2 * 2) (rhs F (1 : ℚ) bf))) [1 / 10] = .ok s' ∧
      s'.solution = ![17 / 10, 19 / 10, 38 / 10, 76 / 10] := by
  intro F R bf bc
  obtain ⟨h1, -, h2, -⟩ := example_closes
  have hc : coarsenMap ℚ 2 2 (![1, 2, 4, 8] : Fin (2 * 2) → ℚ) = ![3 / 2, 6] := by
    funext i
    fin_cases i <;> decide +kernel
  have hv : vecRhs (2 * 2) (rhs F (1 : ℚ) bf) 0 ![1, 2, 4, 8] = .ok ![7, -1, -2, -4] := by
    have : List.ofFn (![1, 2, 4, 8] : Fin (2 * 2) → ℚ) = [1, 2, 4, 8] := by simp [List.ofFn_succ]
    unfold vecRhs
    rw [this, h2]
    simp only [List.length_cons, List.length_nil, dif_pos]
    congr 1
    funext i
    fin_cases i <;> rfl
  have ho : only (fun t x => Closes F R bf bc 2 (fun _ => 0) t (List.ofFn x)
        (List.ofFn (coarsenMap ℚ 2 2 x))) (vecRhs (2 * 2) (rhs F (1 : ℚ) bf)) 0 ![1, 2, 4, 8] =
      .ok ![7, -1, -2, -4] := by
    unfold only
    rw [if_pos, hv]
    simp only [hc]
    convert h1 using 1 <;> simp [List.ofFn_succ]
  obtain ⟨s', e1, e2⟩ := euler_step _ _ _ _ (1 / 10) ho
  refine ⟨s', e1, ?_⟩
  rw [e2]
  funext i
  fin_cases i <;> norm_num [Matrix.cons_val]

end General

section ShallowWater
open Verif.SWE
variable {K : Type*} [Field K] [LinearOrder K] [IsStrictOrderedRing K]

theorem subgrid_conservative (dim : ℕ) (net : List (State K) → State K) :
    Conservative (subgrid dim net) := by
  intro values fl fr h
  unfold subgrid at h
  simp only at h
  split at h
  · cases h
  · split at h
    · obtain ⟨rfl, rfl⟩ := Prod.mk.inj (Except.ok.inj h)
      rfl
    · cases h

theorem zip_source (P : Params K) (l : List (State K × State K)) (m : ℕ) (s : List (State K))
    (h : zipE (fun p d => (.ok (source P p.1 p.2 d) : Except Error (State K))) l
      (List.replicate m (0 : K)) = .ok s) : ∀ x ∈ s, x = 0 := by
  obtain ⟨h1, h2⟩ := zipE_ok_iff _ _ _ _ h
  intro x hx
  obtain ⟨i, hi, rfl⟩ := List.getElem_of_mem hx
  have := h2 i hi (by omega) (by simp at h1 ⊢; omega)
  rw [← Except.ok.inj this]
  simp [source]

theorem withSource_conservative (P : Params K) (F : NumFlux (State K)) (hF : Conservative F) :
    Conservative (withSource P ⟨none⟩ F) := by
  intro values fl fr h
  unfold withSource at h
  simp only at h
  split at h
  · cases h
  · cases h
  · rename_i al ar l r h1 _
    unfold nodesE Bathymetry.steps at h
    simp only at h
    split at h
    · cases h
    · rename_i s hs
      have hz := zip_source P _ _ s hs
      obtain ⟨rfl, rfl⟩ := Prod.mk.inj (Except.ok.inj h)
      rw [hF _ _ _ h1]
      clear h h1 hs
      induction ar generalizing s with
      | nil => simp
      | cons a ar ih =>
        cases s with
        | nil => simp
        | cons x s =>
          have := hz x (by simp)
          subst this
          simp [ih s (fun y hy => hz y (List.mem_cons_of_mem _ hy))]
  · cases h

/-- C100.  Without bathymetry the Lax-Friedrichs, central and energy stable fluxes and every reduced
flux based on one of them have opposite left and right values, whatever the network. -/
theorem C100_conservative (P : Params K) :
    (∀ G : State K → State K → Except Error (State K), Conservative (withSource P ⟨none⟩ (twoPoint G))) ∧
    ∀ G dim net, Conservative (reduced P ⟨none⟩ (withSource P ⟨none⟩ (twoPoint G)) dim net) :=
  ⟨fun G => withSource_conservative P _ (twoPoint_conservative G), fun G dim net =>
    withSource_conservative P _ (corrected_conservative _ _
      (withSource_conservative P _ (twoPoint_conservative G)) (subgrid_conservative dim net))⟩

/-- C100.  What the network has to return: without bathymetry the reduced flux at a node is `x` exactly
if the network returns, for the stencil around the node, `x` minus the base flux of the coarse values
beside it.  For the flux of the fine scheme `x` this is the training target (C79). -/
theorem C100_network (P : Params K) (G : State K → State K → Except Error (State K)) (dim : ℕ)
    (hd : 2 ≤ dim) (he : dim % 2 = 0) (net : List (State K) → State K) (n : ℕ) (ext : List (State K))
    (hlen : ext.length = n + 2) (values : List (List (State K)))
    (hval : requiredValues 2 values = .ok [ext.dropLast, ext.tail]) (fl fr : List (State K))
    (h : (reduced P ⟨none⟩ (withSource P ⟨none⟩ (twoPoint G)) dim net).call values = .ok (fl, fr)) :
    ∃ ws, requiredValues dim values = .ok ws ∧ fr.length = n + 1 ∧
      ∀ j < n + 1, ∃ f, G (ext.getD j 0) (ext.getD (j + 1) 0) = .ok f ∧
        ∀ x, fr.getD j 0 = x ↔ net (ws.map fun a => a.getD j 0) = x - f := by
  obtain ⟨ws, ds, h1, h2, -, h4, h5⟩ := C77_source_twice P ⟨none⟩ G dim hd he net n ext hlen values hval
    fl fr h
  refine ⟨ws, h1, h4, fun j hj => ?_⟩
  obtain ⟨f, e1, -, e3⟩ := h5 j hj
  refine ⟨f, e1, fun x => ?_⟩
  have hds : ds = List.replicate (n + 1) 0 := by
    simpa [Bathymetry.steps, eq_comm] using h2
  have h0 : ds.getD j 0 = 0 := by rw [hds, List.getD_eq_getElem _ _ (by simpa using hj)]; simp
  have e3 : fr.getD j 0 = f + net (ws.map fun a => a.getD j 0) := by
    rw [e3, h0, mul_zero, show ((0, 0) : State K) = 0 from rfl, sub_zero]
  rw [e3, eq_sub_iff_add_eq']

/-- Parameters for which the square roots below are exact. -/
def params : Params ℚ where
  g := 2
  eps := 1 / 1000
  eps_pos := by norm_num
  rt := fun x => if x = 4 then 2 else if 0 ≤ x then x + 1 else 0

/-- C100.  The data for the energy stable solver with first order diffusion are wrong: its flux is not
computed from the stencil at one node, it takes differences between neighbouring entries of its arrays,
and in the history of a node these are different times. -/
theorem C100_energy_stable :
    ¬ ∃ G, Commands.RightFlux (diffusiveFlux params ⟨none⟩) G := by
  rintro ⟨G, h⟩
  have e1 : (diffusiveFlux params ⟨none⟩).call [[(2, 0)], [(2, 2)]] =
      .ok ([(-7 / 8, -55 / 16)], [(7 / 8, 55 / 16)]) := by
    decide +kernel
  have e2 : (diffusiveFlux params ⟨none⟩).call [[(2, 0), (2, 4)], [(2, 2), (2, 2)]] =
      .ok ([(-1, -21 / 8), (-27 / 8, -161 / 16)], [(1, 21 / 8), (27 / 8, 161 / 16)]) := by
    decide +kernel
  have h1 := h _ _ _ rfl (by simp) e1
  have h2 := h _ _ _ rfl (by simp) e2
  simp only [stencils, List.headD_cons, List.length_cons, List.length_nil, List.range_succ,
    List.range_zero, List.nil_append, List.map_append, List.map_cons, List.map_nil, List.cons_append,
    List.getD_cons_zero, List.getD_cons_succ, List.cons.injEq, and_true] at h1 h2
  have := h1.trans h2.1.symm
  norm_num at this

/-- C100.  In particular the first target changes when a second state is recorded. -/
theorem C100_energy_stable_target :
    let w : Commands.Window := ⟨1, 1, 2, 1⟩
    let F := diffusiveFlux params ⟨none⟩
    let v : List (State ℚ) := [(2, 0), (2, 2), (2, 0), (2, 0)]
    let v' : List (State ℚ) := [(2, 0), (2, 4), (2, 0), (2, 0)]
    okAnd (Commands.InputData.init w ⟨(0 : ℚ), v⟩) (fun d => okAnd (d.update w 1 v') (fun d' =>
      okAnd (Commands.subgridData F F w d) (fun a => okAnd (Commands.subgridData F F w d') (fun b =>
        decide (a.1.map (·.getD 0 0) = b.1.map (·.getD 0 0) ∧ a.2.getD 0 0 ≠ b.2.getD 0 0))))) =
      true := by
  decide +kernel

end ShallowWater

end Verif.Subgrid
