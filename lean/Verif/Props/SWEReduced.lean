import Verif.Core.SWEReduced
import Verif.Props.SWELake

/-!
Properties C77 (reduced model), C78 (Lax-Wendroff solver) and C82 (antidiffusive solver).
-/

set_option linter.unusedSectionVars false

namespace Verif.SWE

open Verif.Py Verif.Boundary Verif.FV Verif.ODE

variable {K : Type*} [Field K] [LinearOrder K] [IsStrictOrderedRing K]

/-! ### C77 -/

/-- C77.  What the reduced flux returns at node `j`, for every network, base flux and bathymetry:
base flux plus network flux, with both signs, minus twice the bathymetry source. -/
theorem C77_source_twice (P : Params K) (B : Bathymetry K)
    (G : State K → State K → Except Error (State K)) (dim : ℕ) (hd : 2 ≤ dim) (he : dim % 2 = 0)
    (net : List (State K) → State K) (n : ℕ) (ext : List (State K)) (hlen : ext.length = n + 2)
    (values : List (List (State K)))
    (hval : requiredValues 2 values = .ok [ext.dropLast, ext.tail]) (fl fr : List (State K))
    (h : (reduced P B (withSource P B (twoPoint G)) dim net).call values = .ok (fl, fr)) :
    ∃ ws ds, requiredValues dim values = .ok ws ∧ B.steps (n + 1) = .ok ds ∧
      fl.length = n + 1 ∧ fr.length = n + 1 ∧
      ∀ j < n + 1, ∃ f, G (ext.getD j 0) (ext.getD (j + 1) 0) = .ok f ∧
        let total := f + net (ws.map (fun a => a.getD j 0))
        let force : State K :=
          (0, P.g * (((ext.getD j 0).1 + (ext.getD (j + 1) 0).1) / 2) * ds.getD j 0)
        fl.getD j 0 = -total - force ∧ fr.getD j 0 = total - force := by
  obtain ⟨ds, g, ws, hds, hws, hg, rfl, rfl⟩ := reduced_inv P B G dim hd he net n ext hlen values hval
    fl fr h
  refine ⟨ws, ds, hws, hds, by simp, by simp, ?_⟩
  intro j hj
  refine ⟨g j, hg j hj, ?_⟩
  have e : (2 : K) • source P (ext.getD j 0) (ext.getD (j + 1) 0) (ds.getD j 0) =
      (0, P.g * (((ext.getD j 0).1 + (ext.getD (j + 1) 0).1) / 2) * ds.getD j 0) := by
    simp only [source, average]
    ext
    · simp
    · simp only [Prod.smul_snd, smul_eq_mul]; ring
  simp only
  rw [range_getD _ _ _ _ hj, range_getD _ _ _ _ hj, e]
  exact ⟨rfl, rfl⟩

/-- C77.  With periodic boundaries and any network the right-hand side of the reduced model has total
height zero; without bathymetry total discharge zero; else `dx` times the total discharge is minus
twice the force of the bottom. -/
theorem C77_totals (P : Params K) (b : Option (List K)) (B : Bathymetry K)
    (hB : buildBathymetry P b = .ok B) (G : State K → State K → Except Error (State K)) (dim : ℕ)
    (hd : 2 ≤ dim) (he : dim % 2 = 0) (net : List (State K) → State K) (n : ℕ) (hn : 0 < n)
    (il ir : Option (K → State K)) (bc : BC K (State K))
    (hbc : build (some reflect) ["periodic"] (dim / 2) il ir = .ok bc) (dx t : K)
    (v w : List (State K)) (hv : v.length = n)
    (h : rhs (reduced P B (withSource P B (twoPoint G)) dim net) dx bc t v = .ok w) :
    totalHeight w = 0 ∧
    ((b = none ∨ ∃ l, b = some l ∧ isConstant P l = .ok true) → totalDischarge w = 0) ∧
    (∀ l, b = some l → isConstant P l = .ok false →
      dx * totalDischarge w = -(2 * bottomForce P.g v l (fun _ => 1))) := by
  have hdim : (reduced P B (withSource P B (twoPoint G)) dim net).dim = dim := by
    simp only [reduced, withSource, NumFlux.corrected, subgrid, twoPoint]
    omega
  have hdx : dx ≠ 0 := by
    obtain ⟨_, _, _, _, _, hdx, _⟩ := rhs_inv _ dx bc t v w h
    exact hdx
  obtain ⟨a1, ds, θ, hds, hθ, a2⟩ := periodic_rhs P B _ n hn {2} (reduced_balanced P B G dim hd he net n)
    (reduced_endsAgree P B G dim hd he net n (build_endsFlat P b B hB n hn)) (by rw [hdim]; omega) dx
    il ir bc (by rw [hdim]; exact hbc) t v w hv h
  obtain ⟨f1, f2⟩ := force_sum P b B hB n hn ds hds θ v hv
  refine ⟨a1, ?_, ?_⟩
  · intro hc
    rw [f2 hc, neg_zero] at a2
    exact (mul_eq_zero.mp a2).resolve_left hdx
  · intro l hl hc
    rw [a2, f1 l hl hc]
    unfold bottomForce
    rw [Finset.mul_sum]
    congr 1
    apply Finset.sum_congr rfl
    intro i hi
    rw [Finset.mem_range, hv] at hi
    have : θ (i + 1) = 2 := hθ (i + 1) (by omega)
    beta_reduce
    rw [this]
    ring

/-- C77.  Runs of the reduced model with periodic boundaries conserve water, for every network. -/
theorem C77_water (P : Params K) (b : Option (List K)) (B : Bathymetry K)
    (hB : buildBathymetry P b = .ok B) (G : State K → State K → Except Error (State K)) (dim : ℕ)
    (hd : 2 ≤ dim) (he : dim % 2 = 0) (net : List (State K) → State K) (n : ℕ) (hn : 0 < n)
    (il ir : Option (K → State K)) (bc : BC K (State K))
    (hbc : build (some reflect) ["periodic"] (dim / 2) il ir = .ok bc) (dx : K)
    (T : Tableau K) (s s' : Solver K (Fin n → State K)) (steps : List K)
    (h : s.runE T (vecRhs n (rhs (reduced P B (withSource P B (twoPoint G)) dim net) dx bc)) steps =
      .ok s') :
    totalHeight (List.ofFn s'.solution) = totalHeight (List.ofFn s.solution) := by
  rw [runE_eq T _ s s' steps h, ← heightMap_eq, ← heightMap_eq]
  exact C53_linear_invariant T _ (heightMap K n) (height_totalise n _ (fun t v w hv hw =>
    (C77_totals P b B hB G dim hd he net n hn il ir bc hbc dx t v w hv hw).1)) s steps

/-- C77.  A network that returns zero does not give back the base solver: the central solver keeps
this lake at rest, the reduced model with central base flux and zero network does not. -/
theorem C77_counterexample :
    ∃ B bc bc2, buildBathymetry exampleParams (some [0, 1, 1, 0]) = .ok B ∧
      build (K := ℚ) (some reflect) ["periodic"] 1 none none = .ok bc ∧
      build (K := ℚ) (some reflect) ["periodic"] 2 none none = .ok bc2 ∧
      rhs (centralFlux exampleParams B) 1 bc 0 (lake 5 [0, 1, 1, 0]) = .ok [0, 0, 0, 0] ∧
      okAnd (rhs (reduced exampleParams B (centralFlux exampleParams B) 4 (fun _ => 0)) 1 bc2 0
        (lake 5 [0, 1, 1, 0])) (fun w => decide (w.getD 0 0 = (0, -9 / 4))) = true := by
  refine ⟨⟨some [0, 0, 1, 1, 0, 0]⟩, ⟨[.copy (-1)], [.copy 0], true⟩,
    ⟨[.copy (-2), .copy (-1)], [.copy 0, .copy 1], true⟩, by decide +kernel, rfl, rfl, by decide +kernel,
    by decide +kernel⟩

/-- Non-vacuity of `C77_totals` and `C77_water`: a step of the reduced model with a network that is
not zero, over an uneven bottom. -/
example : okAnd ((Solver.init ![(4, 1), (4, 0), (1, 2), (9, 3)] 0 : Solver ℚ (Fin 4 → State ℚ)).runE
    (forwardEuler ℚ) (vecRhs 4 (rhs (reduced exampleParams ⟨some [0, 0, 1, 1, 0, 0]⟩
      (lfFlux exampleParams ⟨some [0, 0, 1, 1, 0, 0]⟩) 4 (fun l => (l.getD 0 0) - 3 • (l.getD 3 0))) 1
        ⟨[.copy (-2), .copy (-1)], [.copy 0, .copy 1], true⟩)) [1 / 10])
    (fun s => decide (s.solution 0 ≠ (4, 1))) = true := by decide +kernel

/-! ### C78 -/

/-- C78.  The node flux of the Lax-Wendroff solver: mean of the fluxes, minus the jump times half the
maximal wave speed, reduced by the speed times the mesh ratio. -/
theorem C78_node_flux (P : Params K) (hP : P.Good) (dt dx : K) (hdx : dx ≠ 0) (uL uR : State K)
    (hL : 0 ≤ uL.1) (hR : 0 ≤ uR.1) (hw : 0 < uL.1 ∨ 0 < uR.1) :
    ∃ fL fR, flux P uL = .ok fL ∧ flux P uR = .ok fR ∧
      laxWendroffNode (riemann P) (maxSpeed P) dt dx uL uR = .ok ((1 / 2 : K) • (fL + fR) -
        (maxSpeed P uL uR / 2 - maxSpeed P uL uR * (dt / dx)) • (uR - uL)) := by
  refine ⟨_, _, flux_ok P uL hL, flux_ok P uR hR, ?_⟩
  simp only [laxWendroffNode, Riemann.nodeFlux, solve_ok P uL uR hL hR (maxSpeed_pos P hP uL uR hw),
    if_neg hdx]
  congr 1
  unfold llf
  rw [smul_smul, sub_smul]
  have : 1 / dx * (dt * maxSpeed P uL uR) = maxSpeed P uL uR * (dt / dx) := by ring
  rw [this]
  abel

/-- Scalar linear problem with flux `a u` and wave speeds `±|a|`. -/
def linearRiemann (a : K) : Riemann K K where
  flux := fun u => .ok (a * u)
  waveSpeed := fun _ _ => .ok (-|a|, |a|)

/-- The Lax-Wendroff flux of a linear problem. -/
def trueLaxWendroff (a dt dx uL uR : K) : K :=
  a * (uL + uR) / 2 - a ^ 2 * dt / (2 * dx) * (uR - uL)

/-- C78.  For a linear flux the solver's flux is the Lax-Wendroff flux only if the states agree or
`dt (2 + |a|) = dx` (for `a = 0` the Riemann solver divides by zero). -/
theorem C78_linear_iff (a dt dx uL uR : K) (ha : a ≠ 0) (hdx : dx ≠ 0) :
    laxWendroffNode (linearRiemann a) (fun _ _ => |a|) dt dx uL uR =
        .ok (trueLaxWendroff a dt dx uL uR) ↔ uL = uR ∨ dt * (2 + |a|) = dx := by
  have ha' : 0 < |a| := abs_pos.mpr ha
  have h2 : |a| - -|a| ≠ 0 := by intro h; linarith
  have hn : laxWendroffNode (linearRiemann a) (fun _ _ => |a|) dt dx uL uR =
      .ok (a * (uL + uR) / 2 - (|a| / 2 - |a| * dt / dx) * (uR - uL)) := by
    simp only [laxWendroffNode, Riemann.nodeFlux, Riemann.solve, linearRiemann, if_neg h2, if_neg hdx,
      smul_eq_mul]
    congr 1
    have h3 : |a| - -|a| = 2 * |a| := by ring
    rw [h3]
    have := ha'.ne'
    field_simp
    ring
  rw [hn, Except.ok.injEq, trueLaxWendroff, ← sub_eq_zero]
  have hsq : a ^ 2 = |a| ^ 2 := (sq_abs a).symm
  have e : a * (uL + uR) / 2 - (|a| / 2 - |a| * dt / dx) * (uR - uL) -
      (a * (uL + uR) / 2 - a ^ 2 * dt / (2 * dx) * (uR - uL)) =
      |a| / (2 * dx) * (uR - uL) * (dt * (2 + |a|) - dx) := by
    rw [hsq]
    field_simp
    ring
  rw [e, mul_eq_zero, mul_eq_zero, sub_eq_zero, sub_eq_zero, div_eq_zero_iff]
  constructor
  · rintro ((h | h) | h)
    · rcases h with h | h
      · exact absurd h ha'.ne'
      · exact absurd h (mul_ne_zero two_ne_zero hdx)
    · exact Or.inl h.symm
    · exact Or.inr h
  · rintro (h | h)
    · exact Or.inl (Or.inr h.symm)
    · exact Or.inr h

/-- C78.  Not the Lax-Wendroff flux: `a = 1`, `dt = 1/10`, `dx = 1`, states 0 and 1. -/
theorem C78_counterexample :
    laxWendroffNode (linearRiemann (1 : ℚ)) (fun _ _ => |1|) (1 / 10) 1 0 1 ≠
      .ok (trueLaxWendroff 1 (1 / 10) 1 0 1) := by
  rw [Ne, C78_linear_iff _ _ _ _ _ one_ne_zero one_ne_zero]
  norm_num

/-- Non-vacuity of `C78_linear_iff`: the flux is right for `a = 2`, `dt = 1/4`, `dx = 1`. -/
example : laxWendroffNode (linearRiemann (2 : ℚ)) (fun _ _ => |2|) (1 / 4) 1 0 1 =
    .ok (trueLaxWendroff 2 (1 / 4) 1 0 1) :=
  (C78_linear_iff _ _ _ _ _ two_ne_zero one_ne_zero).mpr (Or.inr (by norm_num))

/-- C78.  Runs of the Lax-Wendroff solver with periodic boundaries keep total water height and total
discharge, whatever the bathymetry of the problem. -/
theorem C78_conserves (P : Params K) (n : ℕ) (dx : K) (il ir : Option (K → State K))
    (bc : BC K (State K)) (hbc : build (some reflect) ["periodic"] 1 il ir = .ok bc)
    (s s' : Solver K (Fin n → State K)) (steps : List K)
    (h : laxWendroffRun P n dx bc s steps = .ok s') :
    totalHeight (List.ofFn s'.solution) = totalHeight (List.ofFn s.solution) ∧
    totalDischarge (List.ofFn s'.solution) = totalDischarge (List.ofFn s.solution) := by
  have key : (List.ofFn s'.solution).sum = (List.ofFn s.solution).sum := by
    induction steps generalizing s with
    | nil => cases h; rfl
    | cons dt steps ih =>
      simp only [laxWendroffRun] at h
      cases h1 : s.executeE (forwardEuler K) (vecRhs n (rhs (laxWendroff P dt dx) dx bc)) dt with
      | error e => rw [h1] at h; cases h
      | ok s1 =>
        rw [h1] at h
        rw [ih s1 h]
        exact C24_two_point_schemes (laxWendroffNode (riemann P) (maxSpeed P) dt dx) dx (some reflect) il ir bc hbc n (forwardEuler K) s s1 [dt]
          (by
            have h1' : s.executeE (forwardEuler K) (vecRhs n (rhs (twoPoint (laxWendroffNode (riemann P)
              (maxSpeed P) dt dx)) dx bc)) dt = .ok s1 := h1
            simp only [Solver.runE, h1'])
  rw [totalHeight_eq, totalHeight_eq, totalDischarge_eq, totalDischarge_eq, key]
  exact ⟨rfl, rfl⟩

/-- C78.  The solver has no bathymetry source: with outflow or walls and any time step, a lake at
rest has right-hand side zero exactly if the bottom is flat. -/
theorem C78_lake_iff (P : Params K) (hP : P.Good) (c : K) (b : List K) (hb : b ≠ [])
    (hwet : ∀ x ∈ b, P.eps ≤ c - x) (conditions : List String) (hc : Closed conditions)
    (il ir : Option (K → State K)) (bc : BC K (State K))
    (hbc : build (some reflect) conditions 1 il ir = .ok bc) (dt dx : K) (hdx : dx ≠ 0) (t : K) :
    rhs (laxWendroff P dt dx) dx bc t (lake c b) = .ok (List.replicate b.length 0) ↔
      ∀ x ∈ b, ∀ y ∈ b, x = y := by
  have hn := List.length_pos_iff.mpr hb
  obtain ⟨_, hext⟩ := closed_extend conditions hc il ir bc hbc (lake c b) _ hn (lake_length c b)
    (lake_rest c b) (some t)
  rw [lake_flat_iff c b hb]
  set ext := (lake c b).getD 0 0 :: lake c b ++ [(lake c b).getD (b.length - 1) 0] with hE
  have hlen : ext.length = b.length + 2 := by simp [hE, lake_length]
  have hp := lake_pad c b b.length hn rfl
  have hmem : ∀ j < b.length + 2, (pad b).getD j 0 ∈ b := by
    intro j hj
    rcases j with _ | j
    · rw [pad_zero b hb]; exact getD_mem_of_lt _ _ _ (by omega)
    · by_cases h' : j < b.length
      · rw [pad_succ b j (by omega)]; exact getD_mem_of_lt _ _ _ (by omega)
      · have : j = b.length := by omega
        subst this
        rw [pad_last b hb]; exact getD_mem_of_lt _ _ _ (by omega)
  have wet : ∀ j < b.length + 2, P.eps ≤ (ext.getD j 0).1 := by
    intro j hj
    rw [hE, hp j hj]
    exact hwet _ (hmem j hj)
  have rest : ∀ j < b.length + 2, (ext.getD j 0).2 = 0 := by
    intro j hj
    rw [hE, hp j hj]
  have pos : ∀ j < b.length + 2, 0 < (ext.getD j 0).1 :=
    fun j hj => lt_of_lt_of_le P.eps_pos (wet j hj)
  set w := fun j => maxSpeed P (ext.getD j 0) (ext.getD (j + 1) 0) with hw
  set g := fun j => ((-(w j / 2 - w j * (dt / dx)) * ((ext.getD (j + 1) 0).1 - (ext.getD j 0).1),
    P.g / 4 * ((ext.getD j 0).1 ^ 2 + (ext.getD (j + 1) 0).1 ^ 2)) : State K) with hg
  have hnode : ∀ j < b.length + 1, laxWendroffNode (riemann P) (maxSpeed P) dt dx (ext.getD j 0)
      (ext.getD (j + 1) 0) = .ok (g j) := by
    intro j hj
    obtain ⟨fL, fR, h1, h2, h3⟩ := C78_node_flux P hP dt dx hdx (ext.getD j 0) (ext.getD (j + 1) 0)
      (pos j (by omega)).le (pos (j + 1) (by omega)).le (Or.inl (pos j (by omega)))
    rw [flux_ok P _ (pos j (by omega)).le, fluxOf_rest P _ (wet j (by omega)) (rest j (by omega))] at h1
    rw [flux_ok P _ (pos (j + 1) (by omega)).le,
      fluxOf_rest P _ (wet (j + 1) (by omega)) (rest (j + 1) (by omega))] at h2
    rw [h3, ← Except.ok.inj h1, ← Except.ok.inj h2]
    congr 1
    ext
    · simp only [hg, hw, Prod.fst_sub, Prod.smul_fst, Prod.fst_add, smul_eq_mul]; ring
    · simp only [hg, hw, Prod.snd_sub, Prod.smul_snd, Prod.snd_add, smul_eq_mul, rest j (by omega),
        rest (j + 1) (by omega)]
      ring
  have hrhs := rhs_of_call (laxWendroff P dt dx) (by simp [laxWendroff, twoPoint]) dx hdx bc t _ _
    hext b.length hlen _ _ (twoPoint_call _ b.length ext hlen g hnode)
  rw [hrhs, replicate_eq_range]
  constructor
  · intro hz
    have hz' := Except.ok.inj hz
    have hstep : ∀ i < b.length, (ext.getD (i + 2) 0).1 = (ext.getD i 0).1 := by
      intro i hi
      have e := congrArg (fun l => (l.getD i 0)) hz'
      beta_reduce at e
      rw [range_getD _ _ _ _ hi, range_getD _ _ _ _ hi] at e
      have e' := congrArg Prod.snd e
      simp only [hg, Prod.smul_snd, Prod.snd_add, Prod.snd_neg, smul_eq_mul, Prod.snd_zero] at e'
      have hg' := hP.g_pos
      have p0 := pos i (by omega)
      have p2 := pos (i + 2) (by omega)
      have e1 : P.g / 4 * ((ext.getD i 0).1 ^ 2 - (ext.getD (i + 2) 0).1 ^ 2) = 0 := by
        rcases mul_eq_zero.mp e' with h | h
        · exact absurd h (one_div_ne_zero hdx)
        · linear_combination h
      have e2 : (ext.getD (i + 2) 0).1 ^ 2 = (ext.getD i 0).1 ^ 2 := by
        rcases mul_eq_zero.mp e1 with h | h
        · exfalso; linarith
        · linarith
      exact (sq_eq_sq₀ p2.le p0.le).mp e2
    have h01 : (ext.getD 1 0).1 = (ext.getD 0 0).1 := by
      rw [hE, hp 1 (by omega), hp 0 (by omega), pad_zero b hb, pad_succ b 0 (by omega)]
    intro j
    induction j with
    | zero => intro _; exact h01
    | succ j ih =>
      intro hj
      have := ih (by omega)
      rw [hstep j (by omega), this]
  · intro hflat
    congr 1
    apply List.map_congr_left
    intro i hi
    have hi' := List.mem_range.mp hi
    have f1 := hflat i (by omega)
    have f2 := hflat (i + 1) (by omega)
    ext
    · simp only [hg, f2, f1, Prod.smul_fst, Prod.fst_add, Prod.fst_neg, smul_eq_mul, Prod.fst_zero]
      ring
    · simp only [hg, f2, f1, Prod.smul_snd, Prod.snd_add, Prod.snd_neg, smul_eq_mul, Prod.snd_zero]
      ring

/-- Non-vacuity of `C78_conserves`: two steps of different size change a periodic state. -/
example : okAnd (laxWendroffRun exampleParams 3 1 ⟨[.copy (-1)], [.copy 0], true⟩
    (Solver.init ![(4, 1), (1, 0), (1, 2)] 0 : Solver ℚ (Fin 3 → State ℚ)) [1 / 10, 1 / 20])
    (fun s => decide (s.solution 0 ≠ (4, 1))) = true := by decide +kernel

/-! ### C82 -/

/-- C82.  Solver with linear antidiffusion, periodic boundaries: the right-hand side has total height
zero, and its total discharge is that of the base flux (zero without bathymetry, else minus the force
of the bottom). -/
theorem C82_totals (P : Params K) (b : Option (List K)) (B : Bathymetry K)
    (hB : buildBathymetry P b = .ok B) (G : State K → State K → Except Error (State K)) (γ dx : K)
    (n : ℕ) (hn : 0 < n) (il ir : Option (K → State K)) (bc : BC K (State K))
    (hbc : build (some reflect) ["periodic"] 1 il ir = .ok bc) (t : K)
    (v w : List (State K)) (hv : v.length = n)
    (h : rhs (antidiffusive γ dx (withSource P B (twoPoint G))) dx bc t v = .ok w) :
    totalHeight w = 0 ∧
    ((b = none ∨ ∃ l, b = some l ∧ isConstant P l = .ok true) → totalDischarge w = 0) ∧
    (∀ l, b = some l → isConstant P l = .ok false →
      dx * totalDischarge w = -bottomForce P.g v l (fun _ => 1)) := by
  have hdim : (antidiffusive γ dx (withSource P B (twoPoint G))).dim = 2 := by
    simp [antidiffusive, withSource, NumFlux.corrected, linearAntidiffusive, twoPoint]
  have hdx : dx ≠ 0 := by
    obtain ⟨_, _, _, _, _, hdx, _⟩ := rhs_inv _ dx bc t v w h
    exact hdx
  obtain ⟨a1, ds, θ, hds, hθ, a2⟩ := periodic_rhs P B _ n hn {1} (antidiffusive_balanced P B G γ dx n)
    (antidiffusive_endsAgree P B G γ dx n (build_endsFlat P b B hB n hn)) (by rw [hdim]; omega) dx
    il ir bc (by rw [hdim]; exact hbc) t v w hv h
  obtain ⟨f1, f2⟩ := force_sum P b B hB n hn ds hds θ v hv
  refine ⟨a1, ?_, ?_⟩
  · intro hc
    rw [f2 hc, neg_zero] at a2
    exact (mul_eq_zero.mp a2).resolve_left hdx
  · intro l hl hc
    rw [a2, f1 l hl hc]
    unfold bottomForce
    congr 1
    apply Finset.sum_congr rfl
    intro i hi
    rw [Finset.mem_range, hv] at hi
    have : θ (i + 1) = 1 := hθ (i + 1) (by omega)
    beta_reduce
    rw [this]

/-- C82.  Runs of the antidiffusive solver with periodic boundaries conserve water. -/
theorem C82_water (P : Params K) (b : Option (List K)) (B : Bathymetry K)
    (hB : buildBathymetry P b = .ok B) (G : State K → State K → Except Error (State K)) (γ dx : K)
    (n : ℕ) (hn : 0 < n) (il ir : Option (K → State K)) (bc : BC K (State K))
    (hbc : build (some reflect) ["periodic"] 1 il ir = .ok bc)
    (T : Tableau K) (s s' : Solver K (Fin n → State K)) (steps : List K)
    (h : s.runE T (vecRhs n (rhs (antidiffusive γ dx (withSource P B (twoPoint G))) dx bc)) steps =
      .ok s') :
    totalHeight (List.ofFn s'.solution) = totalHeight (List.ofFn s.solution) := by
  rw [runE_eq T _ s s' steps h, ← heightMap_eq, ← heightMap_eq]
  exact C53_linear_invariant T _ (heightMap K n) (height_totalise n _ (fun t v w hv hw =>
    (C82_totals P b B hB G γ dx n hn il ir bc hbc t v w hv hw).1)) s steps

/-- C82.  With `γ = w dx / 2` at a node the antidiffusion removes exactly the diffusion of the
Lax-Friedrichs flux there: what is left is the central flux. -/
theorem C82_compensates (P : Params K) (B : Bathymetry K) (γ dx : K) (n : ℕ) (ext : List (State K))
    (hlen : ext.length = n + 2) (fl fr : List (State K))
    (h : (antidiffusive γ dx (lfFlux P B)).call [ext.dropLast, ext.tail] = .ok (fl, fr))
    (cl cr : List (State K)) (hc : (centralFlux P B).call [ext.dropLast, ext.tail] = .ok (cl, cr))
    (hdx : dx ≠ 0) (j : ℕ) (hj : j < n + 1)
    (hγ : γ = maxSpeed P (ext.getD j 0) (ext.getD (j + 1) 0) * dx / 2) :
    fl.getD j 0 = cl.getD j 0 ∧ fr.getD j 0 = cr.getD j 0 := by
  obtain ⟨ds, g, hds, hg, rfl, rfl⟩ := antidiffusive_inv P B _ γ dx n ext hlen _
    (requiredValues_two _ _) fl fr h
  obtain ⟨ds', g', hds', hg', rfl, rfl⟩ := withSource_inv P B _ n ext hlen _
    (requiredValues_two _ _) cl cr hc
  rw [hds] at hds'
  obtain rfl := Except.ok.inj hds'
  have e1 := hg j hj
  have e2 := hg' j hj
  rw [range_getD _ _ _ _ hj, range_getD _ _ _ _ hj, range_getD _ _ _ _ hj, range_getD _ _ _ _ hj]
  have key : g j + (γ / dx) • (ext.getD (j + 1) 0 - ext.getD j 0) = g' j := by
    simp only [Riemann.nodeFlux, Riemann.solve, riemann] at e1
    simp only [centralNode] at e2
    cases h1 : flux P (ext.getD j 0) with
    | error e => rw [h1] at e2; cases e2
    | ok f1 =>
      cases h2 : flux P (ext.getD (j + 1) 0) with
      | error e => rw [h1, h2] at e2; cases e2
      | ok f2 =>
        rw [h1, h2] at e1 e2
        simp only at e1 e2
        by_cases hz : maxSpeed P (ext.getD j 0) (ext.getD (j + 1) 0) -
            -maxSpeed P (ext.getD j 0) (ext.getD (j + 1) 0) = 0
        · rw [if_pos hz] at e1; cases e1
        · rw [if_neg hz] at e1
          rw [← Except.ok.inj e1, ← Except.ok.inj e2, hγ]
          have h3 : maxSpeed P (ext.getD j 0) (ext.getD (j + 1) 0) -
              -maxSpeed P (ext.getD j 0) (ext.getD (j + 1) 0) =
              2 * maxSpeed P (ext.getD j 0) (ext.getD (j + 1) 0) := by ring
          rw [h3] at hz ⊢
          have h4 : maxSpeed P (ext.getD j 0) (ext.getD (j + 1) 0) ≠ 0 := by
            intro h; rw [h, mul_zero] at hz; exact hz rfl
          ext
          · simp only [Prod.fst_sub, Prod.smul_fst, Prod.fst_add, smul_eq_mul]
            field_simp
            ring
          · simp only [Prod.snd_sub, Prod.smul_snd, Prod.snd_add, smul_eq_mul]
            field_simp
            ring
  rw [key, sub_eq_add_neg, sub_eq_add_neg]
  exact ⟨rfl, rfl⟩

/-- Non-vacuity of C82. -/
example : okAnd ((Solver.init ![(4, 1), (1, 0), (1, 2)] 0 : Solver ℚ (Fin 3 → State ℚ)).runE (heun ℚ)
    (vecRhs 3 (rhs (antidiffusive (1 / 2) 1 (lfFlux exampleParams ⟨some [0, 0, 1, 1, 1]⟩)) 1
      ⟨[.copy (-1)], [.copy 0], true⟩)) [1 / 10]) (fun s => decide (s.solution 0 ≠ (4, 1))) = true := by
  decide +kernel

end Verif.SWE
