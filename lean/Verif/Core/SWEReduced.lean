import Verif.Core.SWEConserve

/-!
Model of `solver/reduced_model.py` (flux getter and subgrid flux), `solver/antidiffusion.py` and the
Lax-Wendroff solver (`solver/lax_wendroff.py`) of `finite_volume/shallow_water`.

The network is an arbitrary function of the stencil; float32 rounding and the scalers are part of it.
-/

set_option linter.unusedSectionVars false

namespace Verif.SWE

open Verif.Py Verif.Boundary Verif.FV Verif.ODE

variable {K : Type*} [Field K] [LinearOrder K] [IsStrictOrderedRing K]

/-- `ApproximatedSubgridFlux`, `reduced_model.py` lines 151-171: the network is applied to each row
of the concatenated stencil arrays.  `np.concatenate` raises on no arrays or on arrays of different
lengths. -/
def subgrid (dim : ℕ) (net : List (State K) → State K) : NumFlux (State K) where
  dim := dim
  call := fun values =>
    match values with
    | [] => .error .valueError
    | v :: vs =>
      if ∀ a ∈ vs, a.length = v.length then
        let f := (List.range v.length).map (fun j => net (values.map (fun a => a.getD j 0)))
        .ok (f.map (fun x => -x), f)
      else .error .valueError

/-- `ReducedFluxGetter.__call__`, lines 187-205, for the base flux getter that returns `base`. -/
def reduced (P : Params K) (B : Bathymetry K) (base : NumFlux (State K)) (dim : ℕ)
    (net : List (State K) → State K) : NumFlux (State K) :=
  withSource P B (base.corrected (subgrid dim net))

/-- `LinearAntidiffusiveSolver.flux_getter`, `antidiffusion.py` lines 26-37, for the raw flux getter
that returns `base`. -/
def antidiffusive (γ dx : K) (base : NumFlux (State K)) : NumFlux (State K) :=
  base.corrected (linearAntidiffusive γ dx)

/-- `LaxWendroffFlux`, `lax_wendroff.py` lines 10-40, after `set_time_step(dt)`. -/
def laxWendroff (P : Params K) (dt dx : K) : NumFlux (State K) :=
  twoPoint (laxWendroffNode (riemann P) (maxSpeed P) dt dx)

/-- `LaxWendroffSolver`, lines 64-110: right-hand side without bathymetry, forward Euler, and the time
step passed to the flux before each update. -/
def laxWendroffRun (P : Params K) (n : ℕ) (dx : K) (bc : BC K (State K))
    (s : Solver K (Fin n → State K)) : List K → Except Error (Solver K (Fin n → State K))
  | [] => .ok s
  | dt :: steps =>
    match s.executeE (forwardEuler K) (vecRhs n (rhs (laxWendroff P dt dx) dx bc)) dt with
    | .error e => .error e
    | .ok s' => laxWendroffRun P n dx bc s' steps

/-! ### Lemmas -/

theorem corrected_inv {V : Type*} [AddCommGroup V] (F G : NumFlux V) (values : List (List V))
    (fl fr : List V) (h : (F.corrected G).call values = .ok (fl, fr)) :
    ∃ vs ws al ar bl br, requiredValues F.dim values = .ok vs ∧ F.call vs = .ok (al, ar) ∧
      requiredValues G.dim values = .ok ws ∧ G.call ws = .ok (bl, br) ∧
      fl = List.zipWith (· + ·) al bl ∧ fr = List.zipWith (· + ·) ar br := by
  simp only [NumFlux.corrected, NumFlux.arbitraryInput] at h
  cases h1 : requiredValues F.dim values with
  | error e => rw [h1] at h; cases h
  | ok vs =>
    simp only [h1] at h
    cases h2 : F.call vs with
    | error e => rw [h2] at h; cases h
    | ok a =>
      simp only [h2] at h
      cases h3 : requiredValues G.dim values with
      | error e => rw [h3] at h; cases h
      | ok ws =>
        simp only [h3] at h
        cases h4 : G.call ws with
        | error e => rw [h4] at h; cases h
        | ok b =>
          simp only [h4] at h
          cases h
          exact ⟨vs, ws, a.1, a.2, b.1, b.2, rfl, h2, rfl, h4, rfl, rfl⟩

theorem requiredValues_sub {α : Type*} (dim : ℕ) (values vs : List α)
    (h : requiredValues dim values = .ok vs) : ∀ a ∈ vs, a ∈ values := by
  unfold requiredValues at h
  split at h
  · cases h
  · split at h
    · cases h
      intro a ha
      exact List.mem_of_mem_take (List.mem_of_mem_drop ha)
    · cases h

/-- The middle values of a sub-stencil are the middle values. -/
theorem requiredValues_two_of {α : Type*} (dim : ℕ) (hd : 2 ≤ dim) (he : dim % 2 = 0)
    (values vs : List α) (h : requiredValues dim values = .ok vs) (p q : α)
    (hval : requiredValues 2 values = .ok [p, q]) : requiredValues 2 vs = .ok [p, q] := by
  unfold requiredValues at h hval ⊢
  split at h
  · cases h
  · rename_i h1
    split at h
    · rename_i h2
      cases h
      rw [if_neg (by omega), if_pos h2] at hval
      have e := Except.ok.inj hval
      have hl : ((values.take (values.length - (values.length - dim) / 2)).drop
          ((values.length - dim) / 2)).length = dim := by
        simp only [List.length_drop, List.length_take]; omega
      rw [if_neg (by omega), if_pos (by omega), hl]
      rw [← e]
      show Except.ok _ = Except.ok _
      congr 1
      rw [List.take_drop, List.drop_drop, List.take_take]
      congr 1
      · omega
      · congr 1
        omega
    · cases h

/-- The middle arrays are among the arrays. -/
theorem mem_of_required {α : Type*} (values : List α) (p q : α)
    (hval : requiredValues 2 values = .ok [p, q]) : p ∈ values ∧ q ∈ values :=
  ⟨requiredValues_sub 2 values _ hval p (by simp), requiredValues_sub 2 values _ hval q (by simp)⟩

theorem subgrid_inv (dim : ℕ) (net : List (State K) → State K) (values : List (List (State K)))
    (fl fr : List (State K)) (h : (subgrid dim net).call values = .ok (fl, fr)) :
    ∃ m, (∀ a ∈ values, a.length = m) ∧
      fl = (List.range m).map (fun j => -net (values.map (fun a => a.getD j 0))) ∧
      fr = (List.range m).map (fun j => net (values.map (fun a => a.getD j 0))) := by
  cases values with
  | nil => cases h
  | cons v vs =>
    simp only [subgrid] at h
    split at h
    · rename_i hall
      cases h
      refine ⟨v.length, ?_, ?_, rfl⟩
      · intro a ha
        rcases List.mem_cons.mp ha with rfl | ha
        · rfl
        · exact hall a ha
      · rw [List.map_map]; rfl
    · cases h

theorem outerSource_inv (P : Params K) (B : Bathymetry K) (F : NumFlux (State K)) (n : ℕ)
    (ext : List (State K)) (hlen : ext.length = n + 2) (values : List (List (State K)))
    (hval : requiredValues 2 values = .ok [ext.dropLast, ext.tail]) (fl fr : List (State K))
    (h : (withSource P B F).call values = .ok (fl, fr)) :
    ∃ (ds : List K) (gl gr : List (State K)), B.steps (n + 1) = .ok ds ∧
      F.call values = .ok (gl, gr) ∧
      fl = List.zipWith (fun a b => a + -b) gl ((List.range (n + 1)).map (fun j =>
          source P (ext.getD j 0) (ext.getD (j + 1) 0) (ds.getD j 0))) ∧
      fr = List.zipWith (fun a b => a + -b) gr ((List.range (n + 1)).map (fun j =>
          source P (ext.getD j 0) (ext.getD (j + 1) 0) (ds.getD j 0))) := by
  simp only [withSource, hval] at h
  cases hF : F.call values with
  | error e => rw [hF] at h; cases h
  | ok p =>
    obtain ⟨a, b⟩ := p
    rw [hF] at h
    simp only at h
    cases hs : nodesE B (fun a b d => .ok (source P a b d)) ext.dropLast ext.tail with
    | error e => rw [hs] at h; cases h
    | ok s =>
      obtain ⟨ds, hds, _⟩ := nodesE_inv B _ n ext hlen s hs
      have e := nodesE_ok B (fun a b d => .ok (source P a b d)) n ext hlen ds hds
        (fun j => source P (ext.getD j 0) (ext.getD (j + 1) 0) (ds.getD j 0)) (fun j _ => rfl)
      rw [e] at h
      cases h
      exact ⟨ds, a, b, hds, rfl, rfl, rfl⟩

theorem zipWith_map_range {α β γ : Type*} (m : ℕ) (f : α → β → γ) (a : ℕ → α) (b : ℕ → β) :
    List.zipWith f ((List.range m).map a) ((List.range m).map b) =
      (List.range m).map (fun j => f (a j) (b j)) := by
  apply List.ext_getElem
  · simp
  · intro i _ _; simp

/-- What the reduced flux returns, for a base flux of two point type with its own source. -/
theorem reduced_inv (P : Params K) (B : Bathymetry K)
    (G : State K → State K → Except Error (State K)) (dim : ℕ) (hd : 2 ≤ dim) (he : dim % 2 = 0)
    (net : List (State K) → State K) (n : ℕ) (ext : List (State K)) (hlen : ext.length = n + 2)
    (values : List (List (State K)))
    (hval : requiredValues 2 values = .ok [ext.dropLast, ext.tail]) (fl fr : List (State K))
    (h : (reduced P B (withSource P B (twoPoint G)) dim net).call values = .ok (fl, fr)) :
    ∃ (ds : List K) (g : ℕ → State K) (ws : List (List (State K))), B.steps (n + 1) = .ok ds ∧
      requiredValues dim values = .ok ws ∧
      (∀ j < n + 1, G (ext.getD j 0) (ext.getD (j + 1) 0) = .ok (g j)) ∧
      fl = (List.range (n + 1)).map (fun j =>
          -(g j + net (ws.map (fun a => a.getD j 0))) -
            (2 : K) • source P (ext.getD j 0) (ext.getD (j + 1) 0) (ds.getD j 0)) ∧
      fr = (List.range (n + 1)).map (fun j =>
          g j + net (ws.map (fun a => a.getD j 0)) -
            (2 : K) • source P (ext.getD j 0) (ext.getD (j + 1) 0) (ds.getD j 0)) := by
  obtain ⟨ds, gl, gr, hds, hcor, rfl, rfl⟩ := outerSource_inv P B _ n ext hlen values hval fl fr h
  obtain ⟨vs, ws, al, ar, bl, br, h1, h2, h3, h4, rfl, rfl⟩ := corrected_inv _ _ _ _ _ hcor
  have e2 : requiredValues 2 values = .ok vs := h1
  rw [hval] at e2
  obtain rfl := Except.ok.inj e2
  obtain ⟨ds', g, hds', hg, rfl, rfl⟩ := withSource_inv P B G n ext hlen _ (requiredValues_two _ _)
    al ar h2
  rw [hds] at hds'
  obtain rfl := Except.ok.inj hds'
  obtain ⟨m, hm, rfl, rfl⟩ := subgrid_inv dim net ws bl br h4
  have hw2 := requiredValues_two_of dim hd he values ws h3 _ _ hval
  have hmem := mem_of_required ws _ _ hw2
  have hmn : m = n + 1 := by
    rw [← hm _ hmem.2]; simp [hlen]
  subst hmn
  refine ⟨ds, g, ws, hds, h3, hg, ?_, ?_⟩
  · rw [zipWith_map_range, zipWith_map_range]
    apply List.map_congr_left
    intro j _
    rw [two_smul]
    abel
  · rw [zipWith_map_range, zipWith_map_range]
    apply List.map_congr_left
    intro j _
    rw [two_smul]
    abel

theorem reduced_balanced (P : Params K) (B : Bathymetry K)
    (G : State K → State K → Except Error (State K)) (dim : ℕ) (hd : 2 ≤ dim) (he : dim % 2 = 0)
    (net : List (State K) → State K) (n : ℕ) :
    Balanced P B (reduced P B (withSource P B (twoPoint G)) dim net) n {2} := by
  intro ext values fl fr hlen hval h
  obtain ⟨ds, g, ws, hds, _, _, rfl, rfl⟩ := reduced_inv P B G dim hd he net n ext hlen values hval fl
    fr h
  refine ⟨ds, hds, by simp, by simp, ?_⟩
  intro j hj
  rw [range_getD _ _ _ _ hj, range_getD _ _ _ _ hj]
  refine ⟨by simp [source], 2, rfl, ?_⟩
  simp only [Prod.snd_add, Prod.snd_sub, Prod.snd_neg, Prod.smul_snd, smul_eq_mul, source, average]
  ring

theorem reduced_endsAgree (P : Params K) (B : Bathymetry K)
    (G : State K → State K → Except Error (State K)) (dim : ℕ) (hd : 2 ≤ dim) (he : dim % 2 = 0)
    (net : List (State K) → State K) (n : ℕ) (hB : EndsFlat B n) :
    EndsAgree (reduced P B (withSource P B (twoPoint G)) dim net) n := by
  intro ext values fl fr hlen hval hends h0 h1 h
  obtain ⟨ds, g, ws, hds, hws, hg, rfl, rfl⟩ := reduced_inv P B G dim hd he net n ext hlen values hval
    fl fr h
  obtain ⟨d0, dn⟩ := hB ds hds
  have hmap : ws.map (fun a => a.getD 0 0) = ws.map (fun a => a.getD n 0) :=
    List.map_congr_left (fun a ha => hends a (requiredValues_sub _ _ _ hws a ha))
  rw [range_getD _ _ _ _ (by omega), range_getD _ _ _ _ (by omega), d0, dn, hmap, h0, h1]
  have g0 := hg 0 (by omega)
  have gn := hg n (by omega)
  rw [h0, h1, gn] at g0
  rw [Except.ok.inj g0]

/-- What the antidiffusive flux returns. -/
theorem antidiffusive_inv (P : Params K) (B : Bathymetry K)
    (G : State K → State K → Except Error (State K)) (γ dx : K) (n : ℕ) (ext : List (State K))
    (hlen : ext.length = n + 2) (values : List (List (State K)))
    (hval : requiredValues 2 values = .ok [ext.dropLast, ext.tail]) (fl fr : List (State K))
    (h : (antidiffusive γ dx (withSource P B (twoPoint G))).call values = .ok (fl, fr)) :
    ∃ (ds : List K) (g : ℕ → State K), B.steps (n + 1) = .ok ds ∧
      (∀ j < n + 1, G (ext.getD j 0) (ext.getD (j + 1) 0) = .ok (g j)) ∧
      fl = (List.range (n + 1)).map (fun j =>
          -(g j + (γ / dx) • (ext.getD (j + 1) 0 - ext.getD j 0)) -
            source P (ext.getD j 0) (ext.getD (j + 1) 0) (ds.getD j 0)) ∧
      fr = (List.range (n + 1)).map (fun j =>
          g j + (γ / dx) • (ext.getD (j + 1) 0 - ext.getD j 0) -
            source P (ext.getD j 0) (ext.getD (j + 1) 0) (ds.getD j 0)) := by
  obtain ⟨vs, ws, al, ar, bl, br, h1, h2, h3, h4, rfl, rfl⟩ := corrected_inv _ _ _ _ _ h
  have e2 : requiredValues 2 values = .ok vs := h1
  have e3 : requiredValues 2 values = .ok ws := h3
  rw [hval] at e2 e3
  obtain rfl := Except.ok.inj e2
  obtain rfl := Except.ok.inj e3
  obtain ⟨ds, g, hds, hg, rfl, rfl⟩ := withSource_inv P B G n ext hlen _ (requiredValues_two _ _)
    al ar h2
  have hdx : dx ≠ 0 := by
    intro h0
    simp only [linearAntidiffusive, twoPoint, h0, if_true] at h4
    have hlen1 : ext.dropLast.length = n + 1 := by simp [hlen]
    cases hz : zipE (fun (_ _ : State K) => (Except.error Error.nonFinite : Except Error (State K)))
        ext.dropLast ext.tail with
    | error e => rw [hz] at h4; cases h4
    | ok fs =>
      obtain ⟨k1, k2⟩ := zipE_ok_iff _ _ _ fs hz
      have := k2 0 (by rw [k1]; simp [hlen]) (by simp [hlen]) (by simp [hlen])
      cases this
  have hc := twoPoint_call (fun uL uR : State K => if dx = 0 then .error .nonFinite else
    .ok ((1 / dx) • (γ • (uR + -uL)))) n ext hlen
    (fun j => (1 / dx) • (γ • (ext.getD (j + 1) 0 + -ext.getD j 0)))
    (fun j _ => by simp only [if_neg hdx])
  have h4' : (linearAntidiffusive γ dx).call [ext.dropLast, ext.tail] = .ok (bl, br) := h4
  rw [show (linearAntidiffusive γ dx : NumFlux (State K)) = twoPoint (fun uL uR : State K =>
    if dx = 0 then .error .nonFinite else .ok ((1 / dx) • (γ • (uR + -uL)))) from rfl, hc] at h4'
  obtain ⟨rfl, rfl⟩ := Prod.mk.inj (Except.ok.inj h4')
  refine ⟨ds, g, hds, hg, ?_, ?_⟩
  · rw [zipWith_map_range]
    apply List.map_congr_left
    intro j _
    rw [smul_smul, one_div_mul_eq_div]
    simp only [sub_eq_add_neg]
    abel
  · rw [zipWith_map_range]
    apply List.map_congr_left
    intro j _
    rw [smul_smul, one_div_mul_eq_div]
    simp only [sub_eq_add_neg]
    abel

theorem antidiffusive_balanced (P : Params K) (B : Bathymetry K)
    (G : State K → State K → Except Error (State K)) (γ dx : K) (n : ℕ) :
    Balanced P B (antidiffusive γ dx (withSource P B (twoPoint G))) n {1} := by
  intro ext values fl fr hlen hval h
  obtain ⟨ds, g, hds, _, rfl, rfl⟩ := antidiffusive_inv P B G γ dx n ext hlen values hval fl fr h
  refine ⟨ds, hds, by simp, by simp, ?_⟩
  intro j hj
  rw [range_getD _ _ _ _ hj, range_getD _ _ _ _ hj]
  refine ⟨by simp [source], 1, rfl, ?_⟩
  simp only [Prod.snd_add, Prod.snd_sub, Prod.snd_neg, source, average]
  ring

theorem antidiffusive_endsAgree (P : Params K) (B : Bathymetry K)
    (G : State K → State K → Except Error (State K)) (γ dx : K) (n : ℕ) (hB : EndsFlat B n) :
    EndsAgree (antidiffusive γ dx (withSource P B (twoPoint G))) n := by
  intro ext values fl fr hlen hval hends h0 h1 h
  obtain ⟨ds, g, hds, hg, rfl, rfl⟩ := antidiffusive_inv P B G γ dx n ext hlen values hval fl fr h
  obtain ⟨d0, dn⟩ := hB ds hds
  rw [range_getD _ _ _ _ (by omega), range_getD _ _ _ _ (by omega), d0, dn, h0, h1]
  have g0 := hg 0 (by omega)
  have gn := hg n (by omega)
  rw [h0, h1, gn] at g0
  rw [Except.ok.inj g0]

end Verif.SWE
