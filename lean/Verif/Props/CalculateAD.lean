import Verif.Core.CalculateAD
import Verif.Props.CalculateSWE
import Verif.Props.SWEReduced

/-!
C143: `calculate swe` with the solver `antidiffusion`.
-/

set_option linter.unusedSectionVars false

namespace Verif.SWE

open Verif.Py Verif.Boundary Verif.FV Verif.ODE Verif.Solver EndToEnd

variable {K : Type*} [Field K] [LinearOrder K] [IsStrictOrderedRing K]

/-! ### Helper lemmas: a flux with antidiffusion -/

theorem add_getD {V : Type*} [AddCommGroup V] (a b : List V) (n : ℕ) (ha : a.length = n) (hb : b.length = n) (j : ℕ)
    (hj : j < n) : (List.zipWith (· + ·) a b).getD j 0 = a.getD j 0 + b.getD j 0 := by
  rw [List.getD_eq_getElem _ _ (by simp; omega), List.getD_eq_getElem _ _ (by omega), List.getD_eq_getElem _ _ (by omega),
    List.getElem_zipWith]

/-- What a flux with antidiffusion returns. -/
theorem sharp_inv (F : NumFlux (State K)) (hF : F.dim = 2) (γ dx : K) (n : ℕ) (ext : List (State K))
    (hlen : ext.length = n + 2) (values : List (List (State K)))
    (hval : requiredValues 2 values = .ok [ext.dropLast, ext.tail]) (fl fr : List (State K))
    (h : (antidiffusive γ dx F).call values = .ok (fl, fr)) :
    ∃ al ar, F.call [ext.dropLast, ext.tail] = .ok (al, ar) ∧
      fl = List.zipWith (· + ·) al ((List.range (n + 1)).map fun j => -((γ / dx) • (ext.getD (j + 1) 0 - ext.getD j 0))) ∧
      fr = List.zipWith (· + ·) ar ((List.range (n + 1)).map fun j => (γ / dx) • (ext.getD (j + 1) 0 - ext.getD j 0)) := by
  obtain ⟨vs, ws, al, ar, bl, br, h1, h2, h3, h4, rfl, rfl⟩ := corrected_inv _ _ _ _ _ h
  rw [hF] at h1
  have e3 : requiredValues 2 values = .ok ws := h3
  rw [hval] at h1 e3
  obtain rfl := Except.ok.inj h1
  obtain rfl := Except.ok.inj e3
  have hdx : dx ≠ 0 := by
    intro h0
    simp only [linearAntidiffusive, twoPoint, h0, if_true] at h4
    cases hz : zipE (fun (_ _ : State K) => (Except.error Error.nonFinite : Except Error (State K)))
        ext.dropLast ext.tail with
    | error e => rw [hz] at h4; cases h4
    | ok fs =>
      obtain ⟨k1, k2⟩ := zipE_ok_iff _ _ _ fs hz
      have := k2 0 (by rw [k1]; simp [hlen]) (by simp [hlen]) (by simp [hlen])
      cases this
  have hc := twoPoint_call (fun uL uR : State K => if dx = 0 then .error .nonFinite else
    .ok ((1 / dx) • (γ • (uR + -uL)))) n ext hlen
    (fun j => (1 / dx) • (γ • (ext.getD (j + 1) 0 + -ext.getD j 0)))
    (fun j _ => by simp only [if_neg hdx])
  have h4' : (linearAntidiffusive γ dx).call [ext.dropLast, ext.tail] = .ok (bl, br) := h4
  rw [show (linearAntidiffusive γ dx : NumFlux (State K)) = twoPoint (fun uL uR : State K =>
    if dx = 0 then .error .nonFinite else .ok ((1 / dx) • (γ • (uR + -uL)))) from rfl, hc] at h4'
  obtain ⟨rfl, rfl⟩ := Prod.mk.inj (Except.ok.inj h4')
  refine ⟨al, ar, h2, ?_, ?_⟩ <;> congr 1 <;> apply List.map_congr_left <;> intro j _ <;>
    rw [smul_smul, one_div_mul_eq_div, sub_eq_add_neg]

theorem sharp_dim (F : NumFlux (State K)) (hF : F.dim = 2) (γ dx : K) : (antidiffusive γ dx F).dim = 2 := by
  simp [antidiffusive, NumFlux.corrected, linearAntidiffusive, twoPoint, hF]

theorem sharp_balanced (P : Params K) (B : Bathymetry K) (F : NumFlux (State K)) (hF : F.dim = 2) (n : ℕ) (Θ : Set K)
    (hb : Balanced P B F n Θ) (γ dx : K) : Balanced P B (antidiffusive γ dx F) n Θ := by
  intro ext values fl fr hlen hval h
  obtain ⟨al, ar, hcall, rfl, rfl⟩ := sharp_inv F hF γ dx n ext hlen values hval fl fr h
  obtain ⟨ds, hds, hl, hr, hj⟩ := hb ext _ al ar hlen (requiredValues_two _ _) hcall
  refine ⟨ds, hds, by simp [hl], by simp [hr], fun j hjn => ?_⟩
  obtain ⟨h1, θ, hθ, h2⟩ := hj j hjn
  rw [add_getD _ _ (n + 1) hl (by simp) j hjn, add_getD _ _ (n + 1) hr (by simp) j hjn, range_getD _ _ _ _ hjn,
    range_getD _ _ _ _ hjn]
  refine ⟨by rw [Prod.fst_add, Prod.fst_add, h1, Prod.fst_neg]; ring, θ, hθ, ?_⟩
  rw [← h2, Prod.snd_add, Prod.snd_add, Prod.snd_neg]
  ring

theorem sharp_endsAgree (P : Params K) (B : Bathymetry K) (F : NumFlux (State K)) (hF : F.dim = 2) (n : ℕ) (Θ : Set K)
    (hb : Balanced P B F n Θ) (he : EndsAgree F n) (γ dx : K) : EndsAgree (antidiffusive γ dx F) n := by
  intro ext values fl fr hlen hval hends h0 h1 h
  obtain ⟨al, ar, hcall, rfl, rfl⟩ := sharp_inv F hF γ dx n ext hlen values hval fl fr h
  obtain ⟨ds, hds, hl, hr, hj⟩ := hb ext _ al ar hlen (requiredValues_two _ _) hcall
  have := he ext _ al ar hlen (requiredValues_two _ _) (by
    intro a ha
    simp only [List.mem_cons, List.not_mem_nil, or_false] at ha
    rcases ha with rfl | rfl
    · rw [List.getD_eq_getElem _ _ (by simp [hlen]), List.getD_eq_getElem _ _ (by simp [hlen]), List.getElem_dropLast,
        List.getElem_dropLast, ← List.getD_eq_getElem _ 0, ← List.getD_eq_getElem _ 0]
      exact h0
    · rw [List.getD_eq_getElem _ _ (by simp [hlen]), List.getD_eq_getElem _ _ (by simp [hlen]), List.getElem_tail,
        List.getElem_tail, ← List.getD_eq_getElem _ 0, ← List.getD_eq_getElem _ 0]
      exact h1) h0 h1 hcall
  rw [add_getD _ _ (n + 1) hr (by simp) 0 (by omega), add_getD _ _ (n + 1) hr (by simp) n (by omega),
    range_getD _ _ _ _ (by omega), range_getD _ _ _ _ (by omega), this, h0, h1]

theorem sharp_wall (P : Params K) (B : Bathymetry K) (F : NumFlux (State K)) (hF : F.dim = 2) (n : ℕ) (Θ : Set K)
    (hb : Balanced P B F n Θ) (hw : WallTight F n) (γ dx : K) : WallTight (antidiffusive γ dx F) n := by
  intro ext fl fr hlen h j hj hr
  obtain ⟨al, ar, hcall, rfl, rfl⟩ := sharp_inv F hF γ dx n ext hlen _ (requiredValues_two _ _) fl fr h
  obtain ⟨ds, hds, hl, hr', -⟩ := hb ext _ al ar hlen (requiredValues_two _ _) hcall
  have hjn : j < n + 1 := by omega
  rw [add_getD _ _ (n + 1) hr' (by simp) j hjn, range_getD _ _ _ _ hjn, Prod.fst_add, hw ext al ar hlen hcall j hj hr]
  rcases hr with hr | hr <;> rw [hr] <;> simp [reflect]

/-- The fluxes that need no network. -/
theorem plain_facts (P : Params K) (hP : P.Good) (b : Option (List K)) (B : Bathymetry K)
    (hB : buildBathymetry P b = .ok B) (n : ℕ) (hn : 0 < n) (G : NumFlux (State K)) (hG : G ∈ plainFluxes P B) :
    ∃ Θ, Balanced P B G n Θ ∧ G.dim = 2 ∧ WallTight G n ∧ EndsAgree G n := by
  have hE := build_endsFlat P b B hB n hn
  simp only [plainFluxes, List.mem_cons, List.not_mem_nil, or_false] at hG
  rcases hG with rfl | rfl | rfl | rfl | rfl
  · exact ⟨_, withSource_balanced P B _ n, rfl, lf_wall P hP B n, withSource_endsAgree P B _ n hE⟩
  · exact ⟨_, lowOrder_balanced P hP B n, rfl, lowOrder_wall P hP B n hE, lowOrder_endsAgree P hP B n hE⟩
  · exact ⟨_, withSource_balanced P B _ n, rfl, central_wall P B n, withSource_endsAgree P B _ n hE⟩
  · exact ⟨_, withSource_balanced P B _ n, rfl, energyStable_wall P B n, withSource_endsAgree P B _ n hE⟩
  · exact ⟨_, diffusive_balanced P B n, rfl, diffusive_wall P B n hE, diffusive_endsAgree P B n hE⟩

/-- Between walls the right-hand side of a flux that is tight there has total height zero. -/
theorem tight_total (P : Params K) (B : Bathymetry K) (F : NumFlux (State K)) (n : ℕ) (hn : 0 < n) (Θ : Set K)
    (hbal : Balanced P B F n Θ) (hdim : F.dim = 2) (htight : WallTight F n) (il ir : Option (K → State K))
    (bc : BC K (State K)) (hbc : build (some reflect) ["wall"] 1 il ir = .ok bc) (dx t : K) (v w : List (State K))
    (hv : v.length = n) (h : rhs F dx bc t v = .ok w) : totalHeight w = 0 := by
  obtain ⟨values, fl, fr, hnb, hcall, hdx, rfl⟩ := rhs_inv F dx bc t v w h
  rw [hdim] at hnb
  have hext := wall_extend il ir bc hbc v n hn hv (some t)
  set ext := reflect (v.getD 0 0) :: v ++ [reflect (v.getD (n - 1) 0)] with hedef
  have hlen : ext.length = n + 2 := by simp [hedef, hv]
  have hvals : values = [ext.dropLast, ext.tail] := by
    simp only [BC.nodeNeighbours, hext] at hnb
    rw [nodeSlices_one ext (by intro h0; rw [h0] at hlen; simp at hlen)] at hnb
    exact (Except.ok.inj hnb).symm
  subst hvals
  have t0 := htight ext fl fr hlen hcall 0 (Or.inl rfl) (Or.inl (by
    rw [hedef]
    simp only [List.cons_append, List.getD_cons_succ, List.getD_cons_zero, zero_add]
    congr 1
    rw [List.getD_append _ _ _ _ (by omega)]))
  have tn := htight ext fl fr hlen hcall n (Or.inr rfl) (Or.inr (by
    rw [hedef]
    obtain ⟨m, rfl⟩ : ∃ m, n = m + 1 := ⟨n - 1, by omega⟩
    simp only [List.cons_append, List.getD_cons_succ, Nat.add_sub_cancel]
    have a1 : (v ++ [reflect (v.getD m 0)]).getD m 0 = v.getD m 0 := by
      rw [List.getD_append _ _ _ _ (by omega)]
    rw [a1, List.getD_eq_getElem (v ++ _) _ (by simp; omega), List.getElem_append_right (by omega)]
    simp))
  have hsum := (balanced_totals P B F n Θ hbal ext hlen _ (requiredValues_two _ _) fl fr hcall dx
    hdx).1
  rw [t0, tn, sub_self] at hsum
  exact (mul_eq_zero.mp hsum).resolve_left hdx

/-- Runs with antidiffusion keep the amount of water. -/
theorem sharp_water (P : Params K) (hP : P.Good) (b : Option (List K)) (B : Bathymetry K)
    (hB : buildBathymetry P b = .ok B) (n : ℕ) (hn : 0 < n) (G : NumFlux (State K)) (hG : G ∈ plainFluxes P B) (γ dx : K)
    (il ir : Option (K → State K)) (bc : BC K (State K))
    (hbc : build (some reflect) ["periodic"] 1 il ir = .ok bc ∨ build (some reflect) ["wall"] 1 il ir = .ok bc)
    (T : Tableau K) (s s' : Solver K (Fin n → State K)) (steps : List K)
    (h : s.runE T (vecRhs n (rhs (antidiffusive γ dx G) dx bc)) steps = .ok s') :
    totalHeight (List.ofFn s'.solution) = totalHeight (List.ofFn s.solution) := by
  obtain ⟨Θ, h1, h2, h3, h4⟩ := plain_facts P hP b B hB n hn G hG
  have hdim := sharp_dim G h2 γ dx
  have hb := sharp_balanced P B G h2 n Θ h1 γ dx
  rw [runE_eq T _ s s' steps h, ← heightMap_eq, ← heightMap_eq]
  refine C53_linear_invariant T _ (heightMap K n) (height_totalise n _ (fun t v w hv hw => ?_)) s steps
  rcases hbc with hbc | hbc
  · exact (periodic_rhs P B _ n hn Θ hb (sharp_endsAgree P B G h2 n Θ h1 h4 γ dx) (by rw [hdim]; omega) dx il ir bc
      (by rw [hdim]; exact hbc) t v w hv hw).1
  · exact tight_total P B _ n hn Θ hb hdim (sharp_wall P B G h2 n Θ h1 h3 γ dx) il ir bc hbc dx t v w hv hw

/-- What antidiffusion adds to the right-hand side. -/
theorem sharp_effect (P : Params K) (hP : P.Good) (b : Option (List K)) (B : Bathymetry K)
    (hB : buildBathymetry P b = .ok B) (n : ℕ) (hn : 0 < n) (G : NumFlux (State K)) (hG : G ∈ plainFluxes P B) (γ dx : K)
    (bc : BC K (State K)) (t : K) (v ext w : List (State K)) (hext : bc.extend v (some t) = .ok ext)
    (hlen : ext.length = n + 2) (h : rhs (antidiffusive γ dx G) dx bc t v = .ok w) :
    w.length = n ∧ ∃ a, rhs G dx bc t v = .ok a ∧ a.length = n ∧ ∀ i < n, w.getD i 0 = a.getD i 0 +
      (γ / dx ^ 2) • ((2 : K) • ext.getD (i + 1) 0 - ext.getD i 0 - ext.getD (i + 2) 0) := by
  obtain ⟨Θ, h1, h2, -, -⟩ := plain_facts P hP b B hB n hn G hG
  obtain ⟨values, fl, fr, hnb, hcall, hdx, rfl⟩ := rhs_inv _ dx bc t v w h
  rw [sharp_dim G h2] at hnb
  have hvals : values = [ext.dropLast, ext.tail] := by
    simp only [BC.nodeNeighbours, hext] at hnb
    rw [nodeSlices_one ext (by intro h0; rw [h0] at hlen; simp at hlen)] at hnb
    exact (Except.ok.inj hnb).symm
  subst hvals
  obtain ⟨al, ar, hc, rfl, rfl⟩ := sharp_inv G h2 γ dx n ext hlen _ (requiredValues_two _ _) fl fr hcall
  obtain ⟨ds, -, hl, hr, -⟩ := h1 ext _ al ar hlen (requiredValues_two _ _) hc
  have hbase : rhs G dx bc t v = .ok (List.zipWith (fun a b => (1 / dx) • (a + b)) ar.dropLast al.tail) := by
    unfold rhs
    rw [h2, hnb]
    simp only [hc, if_neg hdx]
  refine ⟨by simp [hl, hr], _, hbase, by simp [hl, hr], fun i hi => ?_⟩
  rw [List.getD_eq_getElem _ _ (by simp [hl, hr]; omega), List.getD_eq_getElem _ _ (by simp [hl, hr]; omega)]
  simp only [List.getElem_zipWith, List.getElem_dropLast, List.getElem_tail, List.getElem_map, List.getElem_range]
  match_scalars <;> field_simp <;> ring

/-- Uniform flow stays as it is. -/
theorem sharp_uniform (P : Params K) (hP : P.Good) (b : Option (List K))
    (hb : b = none ∨ ∃ x l, b = some (x :: l) ∧ ∀ y ∈ l, |y - x| < P.eps) (B : Bathymetry K)
    (hB : buildBathymetry P b = .ok B) (c : State K) (hc : 0 < c.1) (conditions : List String)
    (il ir : Option (K → State K)) (hm : Matches conditions il ir c) (bc : BC K (State K))
    (hbc : build (some reflect) conditions 1 il ir = .ok bc) (n : ℕ) (hn : 0 < n) (G : NumFlux (State K))
    (hG : G ∈ plainFluxes P B) (γ dx : K) (hdx : dx ≠ 0) (T : Tableau K) (cfl t0 t1 : K) (hstep : 1 / 10 ^ 12 ≤ dx * cfl)
    (hdur : 1 / 10 ^ 12 ≤ t1 - t0) :
    Unchanged (fvParams n T (rhs (antidiffusive γ dx G) dx bc) dx cfl t0 t1) (fun _ => c) (dx * cfl) t0 t1 := by
  obtain rfl := flat_none P b hb B hB
  obtain ⟨hdim, hcall⟩ := plain_uniform P hP n c hc G hG
  have hr : ∀ j < n + 2, (List.replicate (n + 2) c).getD j 0 = c := fun j hj => by
    rw [List.getD_eq_getElem _ _ (by simpa using hj), List.getElem_replicate]
  have hanti : (linearAntidiffusive γ dx : NumFlux (State K)).call
      [(List.replicate (n + 2) c).dropLast, (List.replicate (n + 2) c).tail] =
      .ok ((List.range (n + 1)).map (fun _ => -0), (List.range (n + 1)).map (fun _ => 0)) :=
    twoPoint_call _ n _ (by simp) (fun _ => 0) (fun j hj => by
      rw [hr j (by omega), hr (j + 1) (by omega), if_neg hdx]; simp)
  have hsum : (antidiffusive γ dx G).call [(List.replicate (n + 2) c).dropLast, (List.replicate (n + 2) c).tail] =
      .ok ((List.range (n + 1)).map (fun _ => -fluxOf P c + -0), (List.range (n + 1)).map (fun _ => fluxOf P c + 0)) := by
    simp only [antidiffusive, NumFlux.corrected, NumFlux.arbitraryInput, hdim,
      show (linearAntidiffusive γ dx : NumFlux (State K)).dim = 2 from rfl, requiredValues_two, hcall, hanti,
      zipWith_map_range]
  have hz : ∀ t, rhs (antidiffusive γ dx G) dx bc t (List.replicate n c) = .ok (List.replicate n 0) := fun t =>
    rhs_zero _ (by rw [sharp_dim G hdim]) dx hdx bc t _ _ (matches_extend conditions il ir c hm bc hbc n hn t) n (by simp) _ _
      hsum fun i _ => by simp
  refine unchanged_of_zero T _ _ (fun t => ?_) dx cfl t0 t1 hstep hdur
  unfold vecRhs
  rw [List.ofFn_const, hz t]
  simp only [List.length_replicate, dif_pos]
  congr 1
  funext i
  simp

end Verif.SWE

namespace Verif.CalculateSWE

open Verif.Py Verif.Boundary Verif.FV Verif.ODE Verif.Solver Verif.Interpolate Verif.Quadrature Verif.Bench Verif.SWE
open Verif.Registry Verif.Options Verif.Utilities EndToEnd Verif.Calculate
open Verif.Mesh hiding Error

/-! ### C143 -/

/-- C143.  The parameters of the solver `antidiffusion` on a command line as in `C124_words`: the parameter `gamma` written
last in the group, or 1/10 if there is none or it is zero, and the flux written last, or the Lax-Friedrichs flux. -/
theorem C143_words (c : Conversions ℝ) (newton : (ℝ → ℝ) → ℝ → Except Error ℝ) (name : Option String)
    (endTime : Option ℝ) (history : Bool) (groups : List (Key × List (Assignment (Val ℝ))))
    (hk : ∀ g ∈ groups, g.1 ∈ sweKeys) (hv : ∀ g ∈ groups, ∀ a ∈ g.2, a.Valid (options c g.1))
    (hc : ∀ g ∈ groups, ∃ vs, g.2.mapM Assignment.value = .ok vs) (words : List String)
    (hcut : CutInto ["llf", "lw", "low-order", "central", "es", "es1", "mcl", "reduced-llf", "reduced-llf-2",
      "antidiffusion", "coarse"] words (groups.map fun g => prog g.1 :: g.2.flatMap Assignment.words))
    (w : Water) (l : List (Key × Settings ℝ)) (h : commandLine c newton name endTime history words = .ok (w, l)) :
    List.Forall₂ (fun g e => e.1 = g.1 ∧ (g.1 = .sweAntidiffusion → ∀ vs, g.2.mapM Assignment.value = .ok vs →
      (meant "gamma" g.2 vs (.num (.fin (1 / 10))) = .num (.fin 0) → e.2.gamma = .num (.fin (1 / 10))) ∧
      (meant "gamma" g.2 vs (.num (.fin (1 / 10))) ≠ .num (.fin 0) →
        e.2.gamma = meant "gamma" g.2 vs (.num (.fin (1 / 10)))) ∧
      (meant "flux_getter" g.2 vs .none = .none → e.2.flux = .flux "llf") ∧
      (meant "flux_getter" g.2 vs .none ≠ .none → e.2.flux = meant "flux_getter" g.2 vs .none))) groups l := by
  obtain ⟨l', hl, hf⟩ := solvers_words c sweKeys (by simp [sweKeys, prog]) history groups hk hv hc words
    (by simpa [sweKeys, prog] using hcut)
  obtain rfl : l' = l := by
    unfold commandLine at h
    simp only [hl] at h
    split at h
    · cases h
    · cases h
    · exact congrArg Prod.snd (Except.ok.inj h)
  refine hf.imp fun g e he => ?_
  obtain ⟨e1, ns, h5, key⟩ := he
  refine ⟨e1, fun hg vs hvs => ?_⟩
  have d1 : ((options c g.1).map fun o => (o.dest, o.default)).lookup "gamma" = some (.num (.fin (1 / 10))) := by
    rw [hg]
    simp [options, ownOptions, nameOption, shortOption, meshOption, cflOption, odeOption, fluxOption, gammaOption,
      List.lookup]
  have d2 : ((options c g.1).map fun o => (o.dest, o.default)).lookup "flux_getter" = some .none := by
    rw [hg]
    simp [options, ownOptions, nameOption, shortOption, meshOption, cflOption, odeOption, fluxOption, gammaOption,
      List.lookup]
  obtain ⟨v, g1, g2⟩ := h5.gamma hg
  have hgam := key vs hvs _ _ _ g1 d1
  have hfl : (meant "flux_getter" g.2 vs .none = .none ∧ e.2.flux = .flux "llf") ∨
      (e.2.flux ≠ .none ∧ e.2.flux = meant "flux_getter" g.2 vs .none) := by
    rcases h5.flux (by rw [hg]; simp [optionNames]) with ⟨h1, h2⟩ | ⟨h1, h2⟩
    · exact Or.inl ⟨(key vs hvs _ _ _ h1 d2).symm, by rw [h2, hg]; rfl⟩
    · exact Or.inr ⟨h1, key vs hvs _ _ _ h2 d2⟩
  rw [← hgam]
  refine ⟨fun h0 => by rw [g2, if_pos h0], fun h0 => by rw [g2, if_neg h0], fun h0 => ?_, fun h0 => ?_⟩
  · rcases hfl with ⟨-, h2⟩ | ⟨h1, h2⟩
    · exact h2
    · exact absurd (h2.trans h0) h1
  · rcases hfl with ⟨h1, -⟩ | ⟨-, h2⟩
    · exact absurd h1 h0
    · exact h2

/-- What the solver `antidiffusion` with the parameter `γ` and the flux `key` promises for the benchmark `name`.

* The mesh divides the domain into cells of the same width, all cells are wet in the beginning.
* `effect`: the right-hand side is that of the solver with the flux alone, plus `γ` times the negative second difference.
* `water`: with periodic boundaries and between walls a run without an exception keeps the amount of water.
* `still`: water at rest and uniform flow over flat ground are kept, without any condition on the time step.
* `mirror`: for the cylindrical dam breaks a run without an exception with the Lax-Friedrichs or the central flux stays
  symmetric. -/
structure SharpPromises (name : String) (w : Water) (γ : ℝ) (key : String) (points : List (ℝ × ℝ)) (j : WaterJob) :
    Prop where
  mesh : uniformMesh w.bench.domain j.n = .ok j.mesh
  dx : j.dx = (w.bench.domain.b - w.bench.domain.a) / j.n
  endTime : j.endTime = w.bench.endTime
  start : (j.run 0).1.sol.values = [j.initial]
  initial : ∀ f : ℝ → ℝ × ℝ, (∀ x, w.bench.initial x = .ok (f x)) →
    List.ofFn j.initial = List.zip (cellAverages points j.mesh fun x => (f x).1) (cellAverages points j.mesh fun x => (f x).2)
  wet : ∀ i, 0 < (j.initial i).1
  boundary : build (some reflect) w.bench.boundary.conditions 1 w.bench.inflowLeft w.bench.inflowRight = .ok j.boundary
  effect : ∃ B G, buildBathymetry (params w.gravity) (some (cellAverages points j.mesh w.bottom)) = .ok B ∧
    getter (params w.gravity) B key = .ok G ∧ ∀ t v ext u, v.length = j.n → j.boundary.extend v (some t) = .ok ext →
      rhs j.flux j.dx j.boundary t v = .ok u → u.length = j.n ∧ ∃ a, rhs G j.dx j.boundary t v = .ok a ∧
        a.length = j.n ∧ ∀ i < j.n, u.getD i 0 = a.getD i 0 +
          (γ / j.dx ^ 2) • ((2 : ℝ) • ext.getD (i + 1) 0 - ext.getD i 0 - ext.getD (i + 2) 0)
  water : w.bench.boundary.conditions = ["periodic"] ∨ w.bench.boundary.conditions = ["wall", "wall"] → ∀ q,
    (∀ e, (j.run q).2 ≠ .raised e) → ∀ v ∈ (j.run q).1.sol.values,
      totalHeight (List.ofFn v) = totalHeight (List.ofFn j.initial)
  still : (name = "lake-at-rest-no-bathymetry" ∨ name = "moving-water-no-bathymetry") →
    1 / 10 ^ 12 ≤ j.dx * j.cfl → 1 / 10 ^ 12 ≤ j.endTime →
    Unchanged j.params j.initial (j.dx * j.cfl) 0 j.endTime
  mirror : (name = "cylindrical-damm-break" ∨ name = "cylindrical-damm-break-with-wall") → key = "llf" ∨ key = "central" →
    Symmetric points → ∀ q, (∀ e, (j.run q).2 ≠ .raised e) → ∀ v ∈ (j.run q).1.sol.values, ∀ i : Fin j.n,
      (v i.rev).1 = (v i).1 ∧ (v i.rev).2 = -(v i).2

theorem getter_plain (P : SWE.Params ℝ) (B : Bathymetry ℝ) (key : String)
    (hkey : key ∈ ["central", "es", "es1", "llf", "low-order"]) :
    ∃ G ∈ plainFluxes P B, getter P B key = .ok G ∧ G.dim = 2 ∧ (key = "llf" → G = lfFlux P B) ∧
      (key = "central" → G = centralFlux P B) := by
  simp only [List.mem_cons, List.not_mem_nil, or_false] at hkey
  rcases hkey with rfl | rfl | rfl | rfl | rfl
  · exact ⟨centralFlux P B, by simp [plainFluxes], by simp [getter], rfl, by simp, by simp⟩
  · exact ⟨energyStableFlux P B, by simp [plainFluxes], by simp [getter], rfl, by simp, by simp⟩
  · exact ⟨diffusiveFlux P B, by simp [plainFluxes], by simp [getter], rfl, by simp, by simp⟩
  · exact ⟨lfFlux P B, by simp [plainFluxes], by simp [getter], rfl, by simp, by simp⟩
  · exact ⟨lowOrder P B, by simp [plainFluxes], by simp [getter], rfl, by simp, by simp⟩

theorem plain_key (key : String)
    (h : key ∈ ["central", "es", "es1", "llf", "low-order", "reduced-llf", "reduced-llf-2"]) (h1 : key ≠ "reduced-llf")
    (h2 : key ≠ "reduced-llf-2") : key ∈ ["central", "es", "es1", "llf", "low-order"] := by
  simp only [List.mem_cons, List.not_mem_nil, or_false] at h ⊢
  tauto

theorem build_ends (conditions : List String) (il ir : Option (ℝ → State ℝ)) (bc : BC ℝ (State ℝ))
    (hbc : build (some reflect) conditions 1 il ir = .ok bc) (t : Option ℝ) (v ext : List (State ℝ))
    (h : bc.extend v t = .ok ext) : ext.length = v.length + 2 := by
  obtain ⟨h1, h2⟩ := build_lengths _ _ 1 _ _ bc hbc
  rw [extend_length bc v ext t h, h1, h2]
  omega

/-- C143.  The solver `antidiffusion` of an accepted command line.  Its parameter `gamma` is a number other than zero, and
its flux is one of the seven that can be chosen.  For a finite `gamma` and a flux without a network: construction fails if,
and with the exception with which, the initial data cannot be evaluated, which is only possible for the flow over a bump;
otherwise `solve` raises `ValueError` for the CFL number `nan`, and for a finite number, and for infinity, which means one
step over the whole duration, the run keeps the promises. -/
theorem C143_run (c : Conversions ℝ) (newton : (ℝ → ℝ) → ℝ → Except Error ℝ) (name : Option String)
    (endTime : Option ℝ) (history : Bool) (words : List String) (w : Water) (l : List (Key × Settings ℝ))
    (h : commandLine c newton name endTime history words = .ok (w, l)) (points : List (ℝ × ℝ))
    (hp : AveragingRule points)
    (hbump : name = some "moving-water-bump-bathymetry" → ∀ f h, newton f (25 / 10) = .ok h → 0 < h)
    (s : Settings ℝ) (hks : (.sweAntidiffusion, s) ∈ l) :
    ∃ (m : ℕ) (x : PyFloat ℝ) (g : PyFloat ℝ) (key : String), 0 < m ∧ s.meshSize = .int m ∧ s.cfl = .num x ∧
      s.gamma = .num g ∧ g ≠ .fin 0 ∧ s.flux = .flux key ∧
      key ∈ ["central", "es", "es1", "llf", "low-order", "reduced-llf", "reduced-llf-2"] ∧ ∃ mesh,
      uniformMesh w.bench.domain m = .ok mesh ∧
      (∀ e, initialValues points mesh w.bench.initial = .error e → sharpJob points w s = .error e) ∧
      (name ≠ some "moving-water-bump-bathymetry" → ∃ v, initialValues points mesh w.bench.initial = .ok v) ∧
      ∀ v, initialValues points mesh w.bench.initial = .ok v → ∀ γ, g = .fin γ → key ≠ "reduced-llf" →
        key ≠ "reduced-llf-2" →
        (x = .nan → sharpJob points w s = .error .valueError) ∧
        ∀ y, (x = .fin y ∨ (x = .posInf ∧ y = w.bench.endTime / ((w.bench.domain.b - w.bench.domain.a) / m))) →
          ∃ j, sharpJob points w s = .ok j ∧ j.n = m ∧ j.cfl = y ∧
            SharpPromises (name.getD "oscillation") w γ key points j := by
  obtain ⟨⟨e, he, en, e1, e2, e3, e4, e5⟩, hl⟩ := C124_accepted c newton name endTime history words w l h
  obtain ⟨-, ⟨z, hz, hs⟩, ⟨x, -, hx⟩, -, ⟨o, ho, -⟩, -⟩ := hl _ s hks
  obtain ⟨m, rfl⟩ : ∃ m : ℕ, z = m := ⟨z.toNat, by omega⟩
  have hm : 0 < m := by exact_mod_cast hz
  have hm0 : (0 : ℝ) < m := by exact_mod_cast hm
  unfold commandLine at h
  simp only [defaultWater] at h
  cases hb : parseBenchmark (shallowWaterTable newton) (name.getD "oscillation") with
  | usage => rw [hb] at h; cases h
  | raised e => rw [hb] at h; cases h
  | value b =>
  rw [hb] at h
  simp only at h
  cases hso : solvers c sweKeys history words with
  | error e => rw [hso] at h; cases h
  | ok l' =>
  rw [hso] at h
  simp only [Except.ok.injEq, Prod.mk.injEq] at h
  obtain ⟨hw, rfl⟩ := h
  obtain ⟨-, args, ns, hparse, -, heff⟩ := solvers_accepted c sweKeys history words l' hso .sweAntidiffusion s hks
  obtain ⟨-, hval⟩ := C117_values c _ args ns hparse
  have hgamma : ∃ g : PyFloat ℝ, s.gamma = .num g ∧ g ≠ .fin 0 := by
    obtain ⟨u, g1, g2⟩ := heff.gamma rfl
    obtain ⟨g, rfl⟩ := (hval _ _ g1).2.2.2.2.2.2.2.2.1 rfl
    by_cases h0 : (.num g : Val ℝ) = .num (.fin 0)
    · exact ⟨_, by rw [g2, if_pos h0], by norm_num⟩
    · exact ⟨g, by rw [g2, if_neg h0], fun h => h0 (by rw [h])⟩
  have hkey : ∃ key ∈ ["central", "es", "es1", "llf", "low-order", "reduced-llf", "reduced-llf-2"], s.flux = .flux key := by
    rcases heff.flux (by simp [optionNames]) with ⟨-, h2⟩ | ⟨h1, h2⟩
    · exact ⟨"llf", by simp, h2⟩
    · rcases (hval _ _ h2).2.2.2.2.2.2.2.1 rfl with h3 | h3
      · exact absurd h3 h1
      · exact h3
  obtain ⟨g, hg, hg0⟩ := hgamma
  obtain ⟨key, hkey, hflux⟩ := hkey
  obtain ⟨a1, a2, a3, a4, a5, a6⟩ := adjust_fields endTime b
  obtain ⟨-, p1, p2, p3, p4, p5, p6, p7⟩ := parsed_entry newton _ b hb
  have hname : ∀ t : String, t ≠ "oscillation" → name.getD "oscillation" = t → name = some t := by
    intro t ht h
    cases name with
    | none => exact absurd h.symm ht
    | some n => simpa using h
  obtain ⟨hd, -, hghost, hinit⟩ := (C102_shallow_water newton _).2.2.2.2 b hb fun h => hbump (hname _ (by decide) h)
  have w1 : w.bench.domain = b.domain := by rw [← hw]; exact a1
  have w2 : w.bench.boundary = b.boundary := by rw [← hw]; exact a2
  have w3 : w.bench.inflowLeft = b.inflowLeft := by rw [← hw]; exact a3
  have w4 : w.bench.inflowRight = b.inflowRight := by rw [← hw]; exact a4
  have w5 : w.bench.initial = b.initial := by rw [← hw]; exact a5
  clear hw a1 a2 a3 a4 a5 a6 hb
  rw [← w1] at hd hinit
  rw [← w2, ← w3, ← w4] at hghost
  rw [← w5] at p3 hinit
  simp only [← w3, ← w4, ← w5] at p4 p5 p6 p7
  clear w1 w2 w3 w4 w5
  have hmesh := uniformMesh_eq w.bench.domain hd hm
  set D := w.bench.domain.b - w.bench.domain.a with hD
  have hdx : 0 < D / m := div_pos (by rw [hD]; linarith) hm0
  obtain ⟨mesh, hmesh, hstep⟩ : ∃ mesh, uniformMesh w.bench.domain m = .ok mesh ∧ mesh.step = some (D / m) :=
    ⟨_, hmesh, rfl⟩
  obtain ⟨hcells, hlt, -⟩ := uniform_cells hd hm hmesh
  obtain ⟨bc, hbc, -⟩ := hghost 1
  refine ⟨m, x, g, key, hm, hs, hx, hg, hg0, hflux, hkey, mesh, hmesh, ?_, ?_, ?_⟩
  · intro e he
    unfold sharpJob
    rw [hs, hx, ho]
    simp only [Int.toNat_natCast, hmesh, hstep, he, bind, Except.bind]
  · intro hne
    obtain ⟨f, hf⟩ := p3 fun h => hne (hname _ (by decide) h)
    exact ⟨_, by rw [hf]; exact initialValues_ok points mesh f⟩
  intro v hv γ hγ n1 n2
  subst hγ
  obtain ⟨B, hB⟩ := bottom_built (params w.gravity) points mesh (by omega) w.bottom
  obtain ⟨G, hG, f1, f2, f3, f4⟩ := getter_plain (params w.gravity) B key (plain_key key hkey n1 n2)
  have hjob : sharpJob points w s = (cflNumber (D / m) w.bench.endTime x).map fun cfl =>
      ⟨m, mesh, D / m, cfl, Calculate.tableau o, antidiffusive γ (D / m) G, bc, w.bench.endTime, fun i => v.getD i 0⟩ := by
    unfold sharpJob
    rw [hs, hx, ho]
    simp only [Int.toNat_natCast, hmesh, hstep, hv, hB, hg, hflux, sharpened, f1, Except.map, sharp_dim G f2, hbc, bind,
      Except.bind]
  rw [hjob]
  refine ⟨fun hnan => by rw [hnan]; rfl, fun y hy => ⟨⟨m, mesh, D / m, y, Calculate.tableau o, antidiffusive γ (D / m) G, bc,
    w.bench.endTime, fun i => v.getD i 0⟩, ?_, rfl, rfl, ?_⟩⟩
  · rcases hy with rfl | ⟨rfl, rfl⟩ <;> rfl
  obtain ⟨c1, c2, -, c4, c5, hgrav⟩ := entry_facts e he
  have hP : (params w.gravity).Good := realParams_good _ _ (by rw [e4]; exact hgrav) _
  have hwet := initial_wet points hp w.bench.domain hd m hm mesh hmesh w.bench.initial hinit v hv
  have hdisc : ∀ f : ℝ → ℝ × ℝ, w.bench.initial = (fun x => .ok (f x)) → v = discretize points mesh f := by
    intro f hf
    rw [hf, initialValues_ok] at hv
    exact (Except.ok.inj hv).symm
  have hconst : ∀ a : ℝ, cellAverages points mesh (fun _ => a) = List.replicate m a := by
    intro a
    rw [← hcells]
    exact (C58_basic points mesh hlt hp.sum hp.pos hp.inside (fun _ => (0 : ℝ))).2.1 a
  refine ⟨hmesh, rfl, rfl, rfl, ?_, hwet, hbc, ⟨B, G, hB, f1, ?_⟩, ?_, ?_, ?_⟩
  · intro f hf
    rw [hdisc f (funext hf)]
    change List.ofFn (fun i : Fin m => (discretize points mesh f).getD i 0) = discretize points mesh f
    have hlen : (discretize points mesh f).length = m := by simp [discretize, cellAverages, hcells]
    apply List.ext_getElem
    · simp [hlen]
    · intro i h1 h2
      simp only [List.getElem_ofFn]
      rw [List.getD_eq_getElem _ _ h2]
  · intro t u ext r hu hext hr
    have hlen := build_ends _ _ _ bc hbc (some t) u ext hext
    change u.length = m at hu
    rw [hu] at hlen
    exact sharp_effect _ hP _ B hB m hm G hG γ (D / m) bc t u ext r hext hlen hr
  · intro hcond q hq
    refine history_of_runs m _ _ (fun u => totalHeight (List.ofFn u) = _) ?_ q hq
    intro steps s' hrun
    refine sharp_water (params w.gravity) hP _ B hB m hm G hG γ (D / m) w.bench.inflowLeft w.bench.inflowRight bc ?_
      _ _ s' steps hrun
    rcases hcond with hcond | hcond <;> rw [hcond] at hbc
    · exact Or.inl hbc
    · rw [build_pair _ _ (by decide)] at hbc
      exact Or.inr hbc
  · intro hcase hy1 hT
    have hcase' : ∃ c : State ℝ, 0 < c.1 ∧ w.bench.boundary.conditions = ["periodic"] ∧
        w.bench.initial = (fun _ => .ok c) ∧ e.bottom = fun _ => 0 := by
      rcases hcase with hcase | hcase
      · exact ⟨(1, 0), one_pos, e2.trans (c1 (en.trans hcase)).1, (p4 hcase).2.2, (c1 (en.trans hcase)).2⟩
      · exact ⟨(2, 1), two_pos, e2.trans (c2 (en.trans hcase)).1, (p5 hcase).2.2, (c2 (en.trans hcase)).2⟩
    obtain ⟨c, k1, k2, k3, k4⟩ := hcase'
    have hrep : (fun i : Fin m => v.getD i 0) = fun _ => c := by
      funext i
      rw [hdisc (fun _ => c) k3, discretize, hconst, hconst, List.zip_replicate, min_self,
        List.getD_eq_getElem _ _ (by simp)]
      simp
    change Unchanged (fvParams m (Calculate.tableau o) (rhs (antidiffusive γ (D / m) G) (D / m) bc) (D / m) y 0
      w.bench.endTime) (fun i : Fin m => v.getD i 0) (D / m * y) 0 w.bench.endTime
    rw [hrep]
    rw [k2] at hbc
    rw [e5, k4, hconst] at hB
    refine sharp_uniform _ hP _ (Or.inr ⟨0, List.replicate (m - 1) 0, ?_, ?_⟩) B hB c k1 ["periodic"] _ _ (Or.inl rfl) bc
      hbc m hm G hG γ (D / m) hdx.ne' _ y 0 _ hy1 (by simpa using hT)
    · rw [← List.replicate_succ, Nat.sub_add_cancel hm]
    · intro z hz
      rw [(List.mem_replicate.1 hz).2]
      simpa using (params w.gravity).eps_pos
  · intro hcase hkc hsym q hq
    obtain ⟨q1, q2, q3⟩ := p7 hcase
    have hS : ∃ S ∈ symmetricSchemes (params w.gravity) γ (D / m), antidiffusive γ (D / m) G = S B := by
      rcases hkc with hkc | hkc
      · exact ⟨fun B => antidiffusive γ (D / m) (lfFlux (params w.gravity) B), by simp [symmetricSchemes],
          congrArg (antidiffusive γ (D / m)) (f3 hkc)⟩
      · exact ⟨fun B => antidiffusive γ (D / m) (centralFlux (params w.gravity) B), by simp [symmetricSchemes],
          congrArg (antidiffusive γ (D / m)) (f4 hkc)⟩
    obtain ⟨S, hS, hSB⟩ := hS
    refine history_of_runs m _ _ (fun u => ∀ i : Fin m, (u i.rev).1 = (u i).1 ∧ (u i.rev).2 = -(u i).2) ?_ q hq
    intro steps s' hrun
    change (ODE.Solver.init (fun i : Fin m => v.getD i 0) 0).runE (Calculate.tableau o)
      (vecRhs m (rhs (antidiffusive γ (D / m) G) (D / m) bc)) steps = .ok s' at hrun
    rw [hSB] at hrun
    rw [q1, q2] at hbc
    have hv' := hdisc _ q3
    subst hv'
    have hcyl : ∃ cond : String, (cond = "outflow" ∨ cond = "wall") ∧ e.conditions = [cond, cond] ∧
        e.bottom = (fun _ => 0) ∧ e.domain = cylinderDomain := by
      rcases hcase with hcase | hcase
      · exact ⟨"outflow", Or.inl rfl, c4 (en.trans hcase)⟩
      · exact ⟨"wall", Or.inr rfl, c5 (en.trans hcase)⟩
    obtain ⟨cond, g0, g1, g2, g3⟩ := hcyl
    rw [e2, g1] at hbc
    rw [e5, g2] at hB
    rw [e1, g3] at hmesh
    exact (C102_cylinder_run points hp hsym m hm mesh hmesh _ hP cond g0 bc hbc B hB γ (D / m) S hS _ 0 steps s' hrun).1

/-! ### An example -/

/-- The words `antidiffusion` for uniform flow: 400 cells, the CFL number 1/10, the parameter 1/10 and the Lax-Friedrichs
flux; the flow is kept. -/
theorem example_sharp (newton : (ℝ → ℝ) → ℝ → Except Error ℝ) (points : List (ℝ × ℝ)) (hp : AveragingRule points) :
    ∃ w s j, commandLine Calculate.exampleConversions newton (some "moving-water-no-bathymetry") none true
        ["antidiffusion"] = .ok (w, [(.sweAntidiffusion, s)]) ∧ sharpJob points w s = .ok j ∧ j.n = 400 ∧ j.cfl = 1 / 10 ∧
      SharpPromises "moving-water-no-bathymetry" w (1 / 10) "llf" points j := by
  have hcut : CutInto ["llf", "lw", "low-order", "central", "es", "es1", "mcl", "reduced-llf", "reduced-llf-2",
      "antidiffusion", "coarse"] ["antidiffusion"] (([(.sweAntidiffusion, [])] :
        List (Key × List (Assignment (Val ℝ)))).map fun g => prog g.1 :: g.2.flatMap Assignment.words) := {
      join := by simp [prog]
      nonempty := by simp [prog]
      inside := by simp [prog, Cut]
      between := by simp [prog, Cut] }
  obtain ⟨w, l, h, hf⟩ := C124_words Calculate.exampleConversions newton (some "moving-water-no-bathymetry")
    (by simp [catalogue]) (by simp) none true
    [(.sweAntidiffusion, [])] (by simp [sweKeys]) (by simp) (by simp [pure, Except.pure]) ["antidiffusion"] hcut
  have hf2 := C143_words Calculate.exampleConversions newton (some "moving-water-no-bathymetry") none true
    [(.sweAntidiffusion, [])] (by simp [sweKeys]) (by simp) (by simp [pure, Except.pure]) ["antidiffusion"] hcut w l h
  cases hf with
  | @cons _ e1 _ l1 h1 hf =>
  cases hf
  cases hf2 with
  | cons h2 _ =>
  obtain ⟨k1, s1⟩ := e1
  obtain ⟨rfl, h1⟩ := h1
  obtain ⟨m1, c1, -⟩ := h1 [] rfl
  obtain ⟨-, g1, g2, -⟩ := h2.2 rfl [] rfl
  simp [meant, lastValue] at m1 c1 g1 g2
  obtain ⟨m, x, g, key, -, r3, r4, r5, -, r6, -, mesh, -, -, r7, r8⟩ := C143_run _ _ _ _ _ _ _ _ h points hp (by simp) s1
    (by simp)
  obtain rfl : m = 400 := by rw [m1] at r3; simp at r3; omega
  rw [c1] at r4
  rw [g1] at r5
  rw [g2] at r6
  obtain ⟨v, hv⟩ := r7 (by simp)
  obtain rfl : "llf" = key := by simpa using r6
  obtain ⟨j, q1, q2, q3, q4⟩ := (r8 v hv (1 / 10) (by simpa using (Val.num.inj r5).symm) (by decide) (by decide)).2 (1 / 10)
    (Or.inl (by simpa using (Val.num.inj r4).symm))
  exact ⟨w, s1, j, h, q1, q2, q3, q4⟩

end Verif.CalculateSWE
