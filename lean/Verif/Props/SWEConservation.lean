import Verif.Core.SWEConserve
import Verif.Core.SWEDiffusive
import Verif.Props.SWEPositivity
import Verif.Props.FV

/-!
Properties C23 and C48: solid walls, and conservation of water.
-/

set_option linter.unusedSectionVars false

namespace Verif.SWE

open Verif.Py Verif.Boundary Verif.FV Verif.ODE

variable {K : Type*} [Field K] [LinearOrder K] [IsStrictOrderedRing K]

/-! ### Specification -/

/-- Total water height (the volume is `dx` times this). -/
def totalHeight (v : List (State K)) : K := (v.map (·.1)).sum

/-- Total discharge. -/
def totalDischarge (v : List (State K)) : K := (v.map (·.2)).sum

/-- Force of the bottom on the water: at each inner face gravity times mean height times step of the
bathymetry, weighted by `θ`. -/
def bottomForce (g : K) (v : List (State K)) (b : List K) (θ : ℕ → K) : K :=
  ∑ i ∈ Finset.range (v.length - 1),
    θ i * (g * ((v.getD i 0).1 + (v.getD (i + 1) 0).1) / 2 * (b.getD (i + 1) 0 - b.getD i 0))

theorem totalHeight_eq (v : List (State K)) : totalHeight v = v.sum.1 := by
  unfold totalHeight
  induction v with
  | nil => simp
  | cons x v ih => simp [ih]

theorem totalDischarge_eq (v : List (State K)) : totalDischarge v = v.sum.2 := by
  unfold totalDischarge
  induction v with
  | nil => simp
  | cons x v ih => simp [ih]

theorem fst_sum {ι : Type*} (s : Finset ι) (f : ι → State K) :
    (∑ i ∈ s, f i).1 = ∑ i ∈ s, (f i).1 := Prod.fst_sum

theorem snd_sum {ι : Type*} (s : Finset ι) (f : ι → State K) :
    (∑ i ∈ s, f i).2 = ∑ i ∈ s, (f i).2 := Prod.snd_sum

/-- Totals of a balanced right-hand side. -/
theorem balanced_totals (P : Params K) (B : Bathymetry K) (F : NumFlux (State K)) (n : ℕ) (Θ : Set K)
    (hF : Balanced P B F n Θ) (ext : List (State K)) (hlen : ext.length = n + 2)
    (values : List (List (State K)))
    (hval : requiredValues 2 values = .ok [ext.dropLast, ext.tail]) (fl fr : List (State K))
    (hcall : F.call values = .ok (fl, fr)) (dx : K) (hdx : dx ≠ 0) :
    let w := List.zipWith (fun a b => (1 / dx) • (a + b)) fr.dropLast fl.tail
    dx * totalHeight w = (fr.getD 0 0).1 - (fr.getD n 0).1 ∧
    ∃ (ds : List K) (θ : ℕ → K), B.steps (n + 1) = .ok ds ∧ (∀ j < n + 1, θ j ∈ Θ) ∧
      dx * totalDischarge w = (fr.getD 0 0).2 - (fr.getD n 0).2 -
        ∑ i ∈ Finset.range n, θ (i + 1) * (P.g * ((ext.getD (i + 1) 0).1 +
          (ext.getD (i + 2) 0).1) / 2 * ds.getD (i + 1) 0) := by
  intro w
  obtain ⟨ds, hds, hl, hr, hj⟩ := hF ext values fl fr hlen hval hcall
  have hs := zip_sum n fl fr dx hdx hl hr
  constructor
  · have := congrArg Prod.fst hs
    simp only [Prod.smul_fst, smul_eq_mul, Prod.fst_add, Prod.fst_sub, fst_sum] at this
    rw [totalHeight_eq, this, Finset.sum_eq_zero, add_zero]
    intro i hi
    rw [Finset.mem_range] at hi
    rw [(hj (i + 1) (by omega)).1]
    ring
  · choose! θ hθ he using fun j hj' => (hj j hj').2
    refine ⟨ds, θ, hds, hθ, ?_⟩
    have := congrArg Prod.snd hs
    simp only [Prod.smul_snd, smul_eq_mul, Prod.snd_add, Prod.snd_sub, snd_sum] at this
    rw [totalDischarge_eq, this, sub_eq_add_neg _ (Finset.sum _ _), ← Finset.sum_neg_distrib]
    congr 1
    apply Finset.sum_congr rfl
    intro i hi
    rw [Finset.mem_range] at hi
    exact he (i + 1) (by omega)

/-! ### C48 -/

/-- Right-hand sides with periodic boundaries, for every balanced flux of any stencil width. -/
theorem periodic_rhs (P : Params K) (B : Bathymetry K) (F : NumFlux (State K)) (n : ℕ) (hn : 0 < n)
    (Θ : Set K) (hF : Balanced P B F n Θ) (hE : EndsAgree F n) (hdim : 0 < F.dim / 2) (dx : K)
    (il ir : Option (K → State K)) (bc : BC K (State K))
    (hbc : build (some reflect) ["periodic"] (F.dim / 2) il ir = .ok bc) (t : K)
    (v w : List (State K)) (hv : v.length = n) (h : rhs F dx bc t v = .ok w) :
    totalHeight w = 0 ∧
    ∃ (ds : List K) (θ : ℕ → K), B.steps (n + 1) = .ok ds ∧ (∀ j < n + 1, θ j ∈ Θ) ∧
      dx * totalDischarge w = -∑ i ∈ Finset.range n, θ (i + 1) * (P.g * ((v.getD i 0).1 +
        ((v ++ [v.getD 0 0]).getD (i + 1) 0).1) / 2 * ds.getD (i + 1) 0) := by
  obtain ⟨values, fl, fr, hnb, hcall, hdx, rfl⟩ := rhs_inv F dx bc t v w h
  obtain ⟨hval, hends⟩ := periodic_values (some reflect) (F.dim / 2) hdim il ir bc hbc v n hn hv
    (some t) values hnb
  set ext := v.getD (n - 1) 0 :: v ++ [v.getD 0 0] with hext
  have hlen : ext.length = n + 2 := by simp [hext, hv]
  have e0 : ext.getD 0 0 = ext.getD n 0 := by
    rw [hext]
    obtain ⟨m, rfl⟩ : ∃ m, n = m + 1 := ⟨n - 1, by omega⟩
    simp only [List.cons_append, List.getD_cons_succ, List.getD_cons_zero, Nat.add_sub_cancel]
    rw [List.getD_eq_getElem _ _ (by omega), List.getD_eq_getElem _ _ (by simp; omega),
      List.getElem_append_left (by omega)]
  have e1 : ext.getD 1 0 = ext.getD (n + 1) 0 := by
    rw [hext]
    simp only [List.cons_append, List.getD_cons_succ]
    rw [List.getD_eq_getElem (v ++ [_]) _ (by simp), List.getD_eq_getElem (v ++ [_]) _ (by simp; omega),
      List.getElem_append_left (by omega), List.getElem_append_right (by omega)]
    simp only [hv, Nat.sub_self, List.getElem_cons_zero]
    rw [List.getD_eq_getElem _ _ (by omega)]
  have hagree := hE ext values fl fr hlen hval hends e0 e1 hcall
  obtain ⟨t1, ds, θ, hds, hθ, t2⟩ :=
    balanced_totals P B F n Θ hF ext hlen values hval fl fr hcall dx hdx
  constructor
  · rw [hagree, sub_self] at t1
    rcases mul_eq_zero.mp t1 with h0 | h0
    · exact absurd h0 hdx
    · exact h0
  · refine ⟨ds, θ, hds, hθ, ?_⟩
    rw [hagree, sub_self, zero_sub] at t2
    rw [t2]
    congr 1
    apply Finset.sum_congr rfl
    intro i hi
    rw [Finset.mem_range] at hi
    have a1 : ext.getD (i + 1) 0 = v.getD i 0 := by
      rw [hext]
      simp only [List.cons_append, List.getD_cons_succ]
      rw [List.getD_append _ _ _ _ (by omega)]
    have a2 : ext.getD (i + 2) 0 = (v ++ [v.getD 0 0]).getD (i + 1) 0 := by
      rw [hext]
      simp only [List.cons_append, List.getD_cons_succ]
    rw [a1, a2]

/-- The bottom force in terms of the bathymetry. -/
theorem force_sum (P : Params K) (b : Option (List K)) (B : Bathymetry K)
    (hB : buildBathymetry P b = .ok B) (n : ℕ) (hn : 0 < n) (ds : List K)
    (hds : B.steps (n + 1) = .ok ds) (θ : ℕ → K) (v : List (State K)) (hv : v.length = n) :
    (∀ l, b = some l → isConstant P l = .ok false →
      ∑ i ∈ Finset.range n, θ (i + 1) * (P.g * ((v.getD i 0).1 +
        ((v ++ [v.getD 0 0]).getD (i + 1) 0).1) / 2 * ds.getD (i + 1) 0) =
        bottomForce P.g v l (fun i => θ (i + 1))) ∧
    ((b = none ∨ ∃ l, b = some l ∧ isConstant P l = .ok true) →
      ∑ i ∈ Finset.range n, θ (i + 1) * (P.g * ((v.getD i 0).1 +
        ((v ++ [v.getD 0 0]).getD (i + 1) 0).1) / 2 * ds.getD (i + 1) 0) = 0) := by
  constructor
  · rintro l rfl hl
    have hBv : B.values = some (pad l) := by
      simp only [buildBathymetry, hl] at hB
      cases hB
      rfl
    have hln : l.length = n := by
      simp only [Bathymetry.steps, hBv] at hds
      split at hds
      · rename_i hd
        simp [diff, pad_length] at hd
        exact hd
      · cases hds
    obtain ⟨ds', h1, _, _, dn, h3⟩ := steps_of_build P (some l) n hn
      (fun l' hl' => by cases hl'; exact hln) B hB
    rw [hds] at h1
    obtain rfl := Except.ok.inj h1
    rcases h3 with ⟨h3, _⟩ | ⟨l', hl', _, _, hd⟩
    · rw [hBv] at h3; cases h3
    · cases hl'
      obtain ⟨m, rfl⟩ : ∃ m, n = m + 1 := ⟨n - 1, by omega⟩
      rw [Finset.sum_range_succ, dn, mul_zero, mul_zero, add_zero]
      unfold bottomForce
      rw [hv, Nat.add_sub_cancel]
      apply Finset.sum_congr rfl
      intro i hi
      rw [Finset.mem_range] at hi
      rw [hd (i + 1) (by omega), pad_succ l (i + 1) (by omega), pad_succ l i (by omega)]
      have e : (v ++ [v.getD 0 0]).getD (i + 1) 0 = v.getD (i + 1) 0 := by
        rw [List.getD_append _ _ _ _ (by omega)]
      rw [e]
  · intro hb
    have hBv : B.values = none := by
      rcases hb with rfl | ⟨l, rfl, hl⟩
      · cases hB; rfl
      · simp only [buildBathymetry, hl] at hB
        cases hB
        rfl
    simp only [Bathymetry.steps, hBv] at hds
    cases hds
    apply Finset.sum_eq_zero
    intro i hi
    rw [Finset.mem_range] at hi
    rw [List.getD_eq_getElem (List.replicate _ _) _ (by simpa using hi)]
    simp

/-- The fluxes of the solvers `llf`, `central`, `es` and `es1`, with the full source at each node. -/
def twoPointSchemes (P : Params K) (B : Bathymetry K) : List (NumFlux (State K)) :=
  [lfFlux P B, centralFlux P B, energyStableFlux P B, diffusiveFlux P B]

/-- The fluxes of the solvers `llf`, `low-order`, `central`, `es` and `es1`, which are also the targets of the limited
solver that do not need a trained network. -/
def plainFluxes (P : Params K) (B : Bathymetry K) : List (NumFlux (State K)) :=
  [lfFlux P B, lowOrder P B, centralFlux P B, energyStableFlux P B, diffusiveFlux P B]

/-- Low-order solver and MCL with each of the targets above. -/
def limitedSchemes (P : Params K) (B : Bathymetry K) (bc : BC K (State K)) :
    List (NumFlux (State K)) :=
  lowOrder P B :: (plainFluxes P B).map (mcl P B bc)

theorem schemes_spec (P : Params K) (hP : P.Good) (b : Option (List K)) (B : Bathymetry K)
    (hB : buildBathymetry P b = .ok B) (n : ℕ) (hn : 0 < n) (bc : BC K (State K))
    (hbc : bc.left.length = 1) :
    (∀ F ∈ twoPointSchemes P B, Balanced P B F n {1} ∧ EndsAgree F n ∧ F.dim / 2 = 1) ∧
    (∀ F ∈ limitedSchemes P B bc, Balanced P B F n (Set.Icc 0 1) ∧
      (bc.periodic = true → EndsAgree F n) ∧ F.dim / 2 = 1) := by
  have hE := build_endsFlat P b B hB n hn
  have h1 : ∀ F ∈ twoPointSchemes P B, Balanced P B F n {1} ∧ EndsAgree F n ∧ F.dim / 2 = 1 := by
    intro F hF
    simp only [twoPointSchemes, List.mem_cons, List.not_mem_nil, or_false] at hF
    rcases hF with rfl | rfl | rfl | rfl
    · exact ⟨withSource_balanced P B _ n, withSource_endsAgree P B _ n hE, by
        simp [lfFlux, centralFlux, energyStableFlux, withSource, laxFriedrichs, central, energyStable]⟩
    · exact ⟨withSource_balanced P B _ n, withSource_endsAgree P B _ n hE, by
        simp [lfFlux, centralFlux, energyStableFlux, withSource, laxFriedrichs, central, energyStable]⟩
    · exact ⟨withSource_balanced P B _ n, withSource_endsAgree P B _ n hE, by
        simp [lfFlux, centralFlux, energyStableFlux, withSource, laxFriedrichs, central, energyStable]⟩
    · exact ⟨diffusive_balanced P B n, diffusive_endsAgree P B n hE, by simp [diffusiveFlux]⟩
  refine ⟨h1, ?_⟩
  have h2 : ∀ G ∈ plainFluxes P B, EndsAgree G n ∧ G.dim / 2 = 1 := by
    intro G hG
    by_cases hG' : G ∈ twoPointSchemes P B
    · exact (h1 G hG').2
    · have : G = lowOrder P B := by
        simp only [plainFluxes, twoPointSchemes, List.mem_cons, List.not_mem_nil, or_false] at hG hG'
        tauto
      rw [this]
      exact ⟨lowOrder_endsAgree P hP B n hE, by simp [lowOrder]⟩
  intro F hF
  simp only [limitedSchemes, List.mem_cons, List.mem_map] at hF
  rcases hF with rfl | ⟨G, hG, rfl⟩
  · exact ⟨lowOrder_balanced P hP B n, fun _ => lowOrder_endsAgree P hP B n hE, by simp [lowOrder]⟩
  · exact ⟨mcl_balanced P hP B bc hbc G n hn,
      fun hper => mcl_endsAgree P hP B bc hbc hper G n hn hE (h2 G hG).1, (h2 G hG).2⟩

/-- C48.  Which bottoms count as flat: those whose values differ by less than `eps`, in either direction, from the first
one.  The solvers then work without bathymetry; otherwise with the given values, of which the first and the last one are
repeated in the ghost cells. -/
theorem C48_bottom (P : Params K) (b : K) (bs : List K) :
    ((∀ x ∈ bs, -P.eps < x - b ∧ x - b < P.eps) →
      isConstant P (b :: bs) = .ok true ∧ buildBathymetry P (some (b :: bs)) = .ok ⟨none⟩) ∧
    ((∃ x ∈ bs, x ≤ b - P.eps ∨ b + P.eps ≤ x) → isConstant P (b :: bs) = .ok false ∧
      buildBathymetry P (some (b :: bs)) =
        .ok ⟨some (b :: (b :: bs) ++ [(b :: bs).getLast (by simp)])⟩) ∧
    buildBathymetry P (some []) = .error .indexError ∧ buildBathymetry P none = .ok ⟨none⟩ := by
  refine ⟨fun h => ?_, fun ⟨x, hx, h⟩ => ?_, rfl, rfl⟩
  · have : isConstant P (b :: bs) = .ok true := by
      simp only [isConstant, Except.ok.injEq, List.all_eq_true, decide_eq_true_eq]
      intro x hx
      rcases List.mem_cons.1 hx with rfl | hx
      · simpa using P.eps_pos
      · exact abs_lt.2 (h x hx)
    exact ⟨this, by simp [buildBathymetry, this]⟩
  · have : isConstant P (b :: bs) = .ok false := by
      simp only [isConstant, Except.ok.injEq, List.all_eq_false, decide_eq_true_eq]
      refine ⟨x, by simp [hx], fun ha => ?_⟩
      have := abs_lt.1 ha
      rcases h with h | h <;> linarith [this.1, this.2]
    refine ⟨this, ?_⟩
    simp only [buildBathymetry, this]
    simp [List.getLastD_eq_getLast?, List.getLast?_eq_getLast_of_ne_nil]

/-- C48, right-hand sides.  With periodic boundaries and any bathymetry the right-hand side of each
solver (Lax-Friedrichs, central, both energy stable ones, low-order, MCL with each target) has total height
zero.  Without bathymetry (or with one judged constant) its total discharge is zero too; else `dx`
times the total discharge is minus the force of the bottom, with factors in `[0, 1]` at the faces for
low-order and MCL, and factor 1 for the others. -/
theorem C48_totals (P : Params K) (hP : P.Good) (b : Option (List K)) (B : Bathymetry K)
    (hB : buildBathymetry P b = .ok B) (n : ℕ) (hn : 0 < n) (il ir : Option (K → State K))
    (bc : BC K (State K)) (hbc : build (some reflect) ["periodic"] 1 il ir = .ok bc) (dx t : K)
    (F : NumFlux (State K)) (hF : F ∈ twoPointSchemes P B ∨ F ∈ limitedSchemes P B bc)
    (v w : List (State K)) (hv : v.length = n) (h : rhs F dx bc t v = .ok w) :
    totalHeight w = 0 ∧
    ((b = none ∨ ∃ l, b = some l ∧ isConstant P l = .ok true) → totalDischarge w = 0) ∧
    (∀ l, b = some l → isConstant P l = .ok false →
      ∃ θ : ℕ → K, (∀ i < n, θ i ∈ Set.Icc (0 : K) 1) ∧
        (F ∈ twoPointSchemes P B → ∀ i < n, θ i = 1) ∧
        dx * totalDischarge w = -bottomForce P.g v l θ) := by
  have hb1 := build_radius _ _ _ bc hbc
  have hper : bc.periodic = true := by
    rw [build_periodic] at hbc
    cases hbc
    rfl
  obtain ⟨s1, s2⟩ := schemes_spec P hP b B hB n hn bc hb1
  have hdx : dx ≠ 0 := by
    obtain ⟨_, _, _, _, _, hdx, _⟩ := rhs_inv F dx bc t v w h
    exact hdx
  have key : ∀ Θ : Set K, Balanced P B F n Θ → EndsAgree F n → F.dim / 2 = 1 →
      totalHeight w = 0 ∧
      ((b = none ∨ ∃ l, b = some l ∧ isConstant P l = .ok true) → totalDischarge w = 0) ∧
      (∀ l, b = some l → isConstant P l = .ok false →
        ∃ θ : ℕ → K, (∀ i < n, θ i ∈ Θ) ∧ dx * totalDischarge w = -bottomForce P.g v l θ) := by
    intro Θ h1 h2 h3
    obtain ⟨a1, ds, θ, hds, hθ, a2⟩ := periodic_rhs P B F n hn Θ h1 h2 (by omega) dx il ir bc
      (by rw [h3]; exact hbc) t v w hv h
    obtain ⟨f1, f2⟩ := force_sum P b B hB n hn ds hds θ v hv
    refine ⟨a1, ?_, ?_⟩
    · intro hc
      rw [f2 hc, neg_zero] at a2
      exact (mul_eq_zero.mp a2).resolve_left hdx
    · intro l hl hc
      exact ⟨fun i => θ (i + 1), fun i hi => hθ _ (by omega), by rw [a2, f1 l hl hc]⟩
  by_cases hF' : F ∈ twoPointSchemes P B
  · obtain ⟨h1, h2, h3⟩ := s1 F hF'
    obtain ⟨k1, k2, k3⟩ := key _ h1 h2 h3
    refine ⟨k1, k2, fun l hl hc => ?_⟩
    obtain ⟨θ, hθ, e⟩ := k3 l hl hc
    refine ⟨θ, fun i hi => ?_, fun _ i hi => hθ i hi, e⟩
    rw [hθ i hi]; exact ⟨zero_le_one, le_refl _⟩
  · obtain ⟨h1, h2, h3⟩ := s2 F (hF.resolve_left hF')
    obtain ⟨k1, k2, k3⟩ := key _ h1 (h2 hper) h3
    refine ⟨k1, k2, fun l hl hc => ?_⟩
    obtain ⟨θ, hθ, e⟩ := k3 l hl hc
    exact ⟨θ, hθ, fun hm => absurd hm hF', e⟩

/-- Total height as a linear map. -/
def heightMap (K : Type*) [Field K] (n : ℕ) : (Fin n → State K) →ₗ[K] K where
  toFun u := ∑ i, (u i).1
  map_add' u v := by simp [Finset.sum_add_distrib]
  map_smul' c u := by simp [Finset.mul_sum]

theorem heightMap_eq (n : ℕ) (u : Fin n → State K) : heightMap K n u = totalHeight (List.ofFn u) := by
  rw [totalHeight_eq, List.sum_ofFn, fst_sum]
  rfl

theorem height_totalise (n : ℕ) (f : K → List (State K) → Except Error (List (State K)))
    (hf : ∀ t v w, v.length = n → f t v = .ok w → totalHeight w = 0) (t : K) (u : Fin n → State K) :
    heightMap K n (totalise (vecRhs n f) t u) = 0 := by
  unfold totalise vecRhs
  cases h : f t (List.ofFn u) with
  | error e => simp
  | ok w =>
    simp only
    by_cases hl : w.length = n
    · simp only [dif_pos hl]
      subst hl
      rw [heightMap_eq]
      have : List.ofFn (fun i : Fin w.length => w[i.1]) = w := List.ofFn_getElem
      rw [this]
      exact hf t _ w (by simp) h
    · simp [dif_neg hl]

/-- C48.  Every run with periodic boundaries (any explicit Runge-Kutta tableau, any steps, any
bathymetry) of these solvers that ends without exception keeps the total water height. -/
theorem C48_water (P : Params K) (hP : P.Good) (b : Option (List K)) (B : Bathymetry K)
    (hB : buildBathymetry P b = .ok B) (n : ℕ) (hn : 0 < n) (il ir : Option (K → State K))
    (bc : BC K (State K)) (hbc : build (some reflect) ["periodic"] 1 il ir = .ok bc) (dx : K)
    (F : NumFlux (State K)) (hF : F ∈ twoPointSchemes P B ∨ F ∈ limitedSchemes P B bc)
    (T : Tableau K) (s s' : Solver K (Fin n → State K)) (steps : List K)
    (h : s.runE T (vecRhs n (rhs F dx bc)) steps = .ok s') :
    totalHeight (List.ofFn s'.solution) = totalHeight (List.ofFn s.solution) := by
  rw [runE_eq T _ s s' steps h, ← heightMap_eq, ← heightMap_eq]
  exact C53_linear_invariant T _ (heightMap K n) (height_totalise n _ (fun t v w hv hw =>
    (C48_totals P hP b B hB n hn il ir bc hbc dx t F hF v w hv hw).1)) s steps

/-- C48 for MCL with any target of any stencil width that gives equal fluxes to equal stencils at the
ends of a periodic mesh. -/
theorem C48_mcl_any_target (P : Params K) (hP : P.Good) (b : Option (List K)) (B : Bathymetry K)
    (hB : buildBathymetry P b = .ok B) (n : ℕ) (hn : 0 < n) (il ir : Option (K → State K))
    (F : NumFlux (State K)) (hF : EndsAgree F n) (hdim : 0 < F.dim / 2) (bc1 bc : BC K (State K))
    (hbc1 : build (some reflect) ["periodic"] 1 il ir = .ok bc1)
    (hbc : build (some reflect) ["periodic"] (F.dim / 2) il ir = .ok bc) (dx : K)
    (T : Tableau K) (s s' : Solver K (Fin n → State K)) (steps : List K)
    (h : s.runE T (vecRhs n (rhs (mcl P B bc1 F) dx bc)) steps = .ok s') :
    totalHeight (List.ofFn s'.solution) = totalHeight (List.ofFn s.solution) := by
  have hb1 := build_radius _ _ _ bc1 hbc1
  have hper : bc1.periodic = true := by
    rw [build_periodic] at hbc1
    cases hbc1
    rfl
  have hE := build_endsFlat P b B hB n hn
  rw [runE_eq T _ s s' steps h, ← heightMap_eq, ← heightMap_eq]
  exact C53_linear_invariant T _ (heightMap K n) (height_totalise n _ (fun t v w hv hw =>
    (periodic_rhs P B (mcl P B bc1 F) n hn _ (mcl_balanced P hP B bc1 hb1 F n hn)
      (mcl_endsAgree P hP B bc1 hb1 hper F n hn hE hF) hdim dx il ir bc hbc t v w hv hw).1)) s steps

def examplePeriodic : BC ℚ (State ℚ) := ⟨[.copy (-1)], [.copy 0], true⟩

example : build (some reflect) ["periodic"] 1 none none = .ok examplePeriodic :=
  build_periodic (some reflect) 1 none none

/-- Non-vacuity: two Heun steps of MCL on three periodic cells over uneven ground run without
exception and change heights and total discharge. -/
example : okAnd ((buildBathymetry exampleParams (some [0, 1, 3])).bind (fun B =>
    (Solver.init ![(4, 1), (2, 0), (1, -1)] 0 : Solver ℚ (Fin 3 → State ℚ)).runE (heun ℚ)
      (vecRhs 3 (rhs (mcl exampleParams B examplePeriodic (centralFlux exampleParams B)) 1
        examplePeriodic)) [1 / 100, 1 / 100]))
    (fun s => decide ((s.solution 0).1 ≠ 4 ∧ totalDischarge (List.ofFn s.solution) ≠ 0)) = true := by
  decide +kernel

example : isConstant exampleParams [0, 1, 3] = .ok false := by decide +kernel

/-! ### C23 -/

/-- Walls on both sides: what vectors are extended to. -/
theorem wall_extend (il ir : Option (K → State K)) (bc : BC K (State K))
    (hbc : build (some reflect) ["wall"] 1 il ir = .ok bc) (v : List (State K)) (n : ℕ) (hn : 0 < n)
    (hv : v.length = n) (t : Option K) :
    bc.extend v t = .ok (reflect (v.getD 0 0) :: v ++ [reflect (v.getD (n - 1) 0)]) := by
  have : bc = ⟨[.reflect 0 reflect], [.reflect (-1) reflect], false⟩ := by
    simp [build, buildLeft, buildRight, BC.make, pure, Except.pure, bind, Except.bind] at hbc
    exact hbc.symm
  subst this
  have h0 : Py.get v 0 = .ok (v[0]) := by simpa using get_nat v (i := 0) (by omega)
  have h1 : Py.get v (-1) = .ok (v[v.length - 1]) := by
    have := get_neg v (i := 0) (by omega)
    simpa using this
  simp only [BC.extend, List.mapM_cons, List.mapM_nil, Ghost.eval, h0, h1, pure, Except.pure, bind,
    Except.bind]
  rw [List.getD_eq_getElem _ _ (by omega), List.getD_eq_getElem _ _ (by omega)]
  simp [hv]

theorem massFlux_reflect (P : Params K) (u : State K) : massFlux P (reflect u) = -massFlux P u := by
  unfold massFlux reflect
  simp only
  split <;> simp

theorem llf_wall (P : Params K) (u : State K) :
    (llf P (reflect u) u).1 = 0 ∧ (llf P u (reflect u)).1 = 0 := by
  unfold llf
  simp only [Prod.fst_sub, Prod.smul_fst, Prod.fst_add, smul_eq_mul, fluxOf, massFlux_reflect]
  simp [reflect]

theorem low_wall (P : Params K) (uL uR : State K) (hw : maxSpeed P uL uR ≠ 0) :
    (low P uL uR 0).fluxRight.1 = (llf P uL uR).1 := by
  rw [llf_right P uL uR hw]
  simp [low, positivityFix_flat, sub_eq_add_neg]

/-- A flux without mass flux through a node where one state is the reflection of the other and the
bottom is flat. -/
def WallTight (F : NumFlux (State K)) (n : ℕ) : Prop :=
  ∀ (ext : List (State K)) (fl fr : List (State K)), ext.length = n + 2 →
    F.call [ext.dropLast, ext.tail] = .ok (fl, fr) → ∀ j, j = 0 ∨ j = n →
    (ext.getD j 0 = reflect (ext.getD (j + 1) 0) ∨ ext.getD (j + 1) 0 = reflect (ext.getD j 0)) →
    (fr.getD j 0).1 = 0

theorem llf_reflected (P : Params K) (uL uR : State K) (h : uL = reflect uR ∨ uR = reflect uL) :
    (llf P uL uR).1 = 0 := by
  rcases h with rfl | rfl
  · exact (llf_wall P uR).1
  · exact (llf_wall P uL).2

theorem average_neg (x : K) : average (-x) x = 0 ∧ average x (-x) = 0 := by
  constructor <;> simp [average]

theorem average_same (x : K) : average x x = x := by
  unfold average; ring

/-- Between a state and its reflection there is no flux of water, with and without diffusion. -/
theorem middle_wall (P : Params K) (uL uR : State K) (h : uL = reflect uR ∨ uR = reflect uL) :
    (fluxOf P (middle uL uR)).1 = 0 ∧ (diffusion P uL uR (entropyStep P uL uR 0)).1 = 0 := by
  have hm : ∃ x : K, middle uL uR = (x, 0) ∧ uL.1 = uR.1 ∧ uL.2 = -uR.2 := by
    rcases h with rfl | rfl
    · exact ⟨uR.1, by simp [middle, reflect, average_same, average_neg], rfl, by simp [reflect]⟩
    · exact ⟨uL.1, by simp [middle, reflect, average_same, average_neg], rfl, by simp [reflect]⟩
  obtain ⟨x, hx, h1, h2⟩ := hm
  have hv : velocity P (x, 0) = 0 := by simp [velocity]
  have hv2 : velocity P uL = -velocity P uR := by
    unfold velocity
    rw [h1, h2, mul_neg, neg_div]
  constructor
  · rw [hx]
    simp only [fluxOf, massFlux]
    split <;> rfl
  · have e : entropyStep P uL uR 0 = (0, velocity P uR - velocity P uL) := by
      ext
      · simp [entropyStep, entropy, h1, hv2]
      · simp [entropyStep, entropy]
    have ea : (average uL.1 uR.1, average uL.2 uR.2) = ((x, 0) : State K) := hx
    rw [e]
    simp only [diffusion, diffusionMatrix, ea, hv]
    simp only [zero_sub, zero_add, abs_neg]
    ring

theorem lf_wall (P : Params K) (hP : P.Good) (B : Bathymetry K) (n : ℕ) :
    WallTight (lfFlux P B) n := by
  intro ext fl fr hlen h j hj hr
  obtain ⟨ds, g, hds, hg, rfl, rfl⟩ := withSource_inv P B _ n ext hlen _
    (requiredValues_two _ _) fl fr h
  rw [range_getD _ _ _ _ (by omega)]
  have hgj := hg j (by omega)
  have hll : g j = llf P (ext.getD j 0) (ext.getD (j + 1) 0) := by
    simp only [Riemann.nodeFlux] at hgj
    cases hs : (riemann P).solve (ext.getD j 0) (ext.getD (j + 1) 0) with
    | error e => rw [hs] at hgj; cases hgj
    | ok r =>
      obtain ⟨h1, h2, h3⟩ := solve_inv P _ _ r hs
      have hw := lt_of_le_of_ne (maxSpeed_nonneg P hP _ (ext.getD (j + 1) 0) h1) (Ne.symm h3)
      rw [solve_ok P _ _ h1 h2 hw] at hgj
      exact (Except.ok.inj hgj).symm
  rw [Prod.fst_add, hll, llf_reflected P _ _ hr]
  simp [source]

theorem central_wall (P : Params K) (B : Bathymetry K) (n : ℕ) : WallTight (centralFlux P B) n := by
  intro ext fl fr hlen h j hj hr
  obtain ⟨ds, g, hds, hg, rfl, rfl⟩ := withSource_inv P B _ n ext hlen _
    (requiredValues_two _ _) fl fr h
  rw [range_getD _ _ _ _ (by omega)]
  have hgj := hg j (by omega)
  have hfl : ∀ u f, flux P u = .ok f → f = fluxOf P u := by
    intro u f hf
    by_cases hu : u.1 < 0
    · rw [flux, if_pos hu] at hf; cases hf
    · rw [flux_ok P u (not_lt.mp hu)] at hf
      exact (Except.ok.inj hf).symm
  have hc : g j = (1 / 2 : K) • (fluxOf P (ext.getD j 0) + fluxOf P (ext.getD (j + 1) 0)) := by
    simp only [centralNode] at hgj
    cases h1 : flux P (ext.getD j 0) with
    | error e => rw [h1] at hgj; cases hgj
    | ok a =>
      cases h2 : flux P (ext.getD (j + 1) 0) with
      | error e => rw [h1, h2] at hgj; cases hgj
      | ok b =>
        rw [h1, h2] at hgj
        rw [← hfl _ _ h1, ← hfl _ _ h2]
        exact (Except.ok.inj hgj).symm
  have : massFlux P (ext.getD j 0) + massFlux P (ext.getD (j + 1) 0) = 0 := by
    rcases hr with hr | hr <;> rw [hr, massFlux_reflect] <;> ring
  rw [Prod.fst_add, hc]
  simp only [Prod.smul_fst, Prod.fst_add, fluxOf, smul_eq_mul, this, source, Prod.fst_neg]
  simp

theorem low_node_wall (P : Params K) (uL uR : State K) (hw : 0 < maxSpeed P uL uR)
    (h : uL = reflect uR ∨ uR = reflect uL) : (low P uL uR 0).fluxRight.1 = 0 := by
  rw [low_wall P _ _ hw.ne', llf_reflected P _ _ h]

theorem lowOrder_wall (P : Params K) (hP : P.Good) (B : Bathymetry K) (n : ℕ) (hB : EndsFlat B n) :
    WallTight (lowOrder P B) n := by
  intro ext fl fr hlen h j hj hr
  obtain ⟨ds, hds, hall, rfl, rfl⟩ := lowOrder_inv P hP B n ext hlen fl fr h
  obtain ⟨d0, dn⟩ := hB ds hds
  rw [range_getD _ _ _ _ (by omega)]
  have hd : ds.getD j 0 = 0 := by rcases hj with rfl | rfl <;> assumption
  rw [hd]
  exact low_node_wall P _ _ (hall j (by omega)).2.2 hr

theorem mcl_wall (P : Params K) (hP : P.Good) (B : Bathymetry K) (n : ℕ) (hn : 0 < n)
    (hB : EndsFlat B n) (bc : BC K (State K)) (hbc : bc.left.length = 1) (F : NumFlux (State K))
    (hF : WallTight F n) : WallTight (mcl P B bc F) n := by
  intro ext fl fr hlen h j hj hr
  obtain ⟨ds, hl, high, hds, hcall, _, hall, rfl, rfl⟩ :=
    mcl_inv P hP B bc hbc F n hn ext hlen _ (requiredValues_two _ _) fl fr h
  obtain ⟨d0, dn⟩ := hB ds hds
  rw [range_getD _ _ _ _ (by omega)]
  have hd : ds.getD j 0 = 0 := by rcases hj with rfl | rfl <;> assumption
  have hhigh := hF ext hl high hlen hcall j hj hr
  have hlow := low_node_wall P _ _ (hall j (by omega)).2.2.1 hr
  set N := fun j => low P (ext.getD j 0) (ext.getD (j + 1) 0) (ds.getD j 0) with hNdef
  have hN : (N j).fluxRight.1 = 0 := by simp only [hNdef]; rw [hd]; exact hlow
  have hanti : (high.getD j 0 + -(N j).fluxRight).1 = 0 := by
    rw [Prod.fst_add, Prod.fst_neg, hN, hhigh]; ring
  have := (limited_height (N j) (vbarOf (N j)) (high.getD j 0 + -(N j).fluxRight)
    (hMax bc.periodic n N j) (hMax bc.periodic n N (j + 1)) (hMin bc.periodic n N j)
    (hMin bc.periodic n N (j + 1)) (vMax bc.periodic n N j) (vMax bc.periodic n N (j + 1))
    (vMin bc.periodic n N j) (vMin bc.periodic n N (j + 1)) (hall j (by omega)).2.2.1
    (hMax_left _ n N j (by omega)) (hMax_right _ n N j)).2.2
  rw [hanti] at this
  have h0 := this.1 (le_refl 0)
  have : (limOf bc.periodic n N (fun j => high.getD j 0) j).1 = 0 := le_antisymm h0.2 h0.1
  rw [Prod.fst_add, hN, this, add_zero]

theorem energyStable_wall (P : Params K) (B : Bathymetry K) (n : ℕ) : WallTight (energyStableFlux P B) n := by
  intro ext fl fr hlen h j hj hr
  obtain ⟨ds, g, hds, hg, rfl, rfl⟩ := withSource_inv P B _ n ext hlen _
    (requiredValues_two _ _) fl fr h
  rw [range_getD _ _ _ _ (by omega), flux_inv P _ _ (hg j (by omega))]
  have := middle_wall P _ _ hr
  unfold middle at this
  rw [Prod.fst_add, this.1]
  simp [source]

theorem diffusive_wall (P : Params K) (B : Bathymetry K) (n : ℕ) (hB : EndsFlat B n) :
    WallTight (diffusiveFlux P B) n := by
  intro ext fl fr hlen h j hj hr
  obtain ⟨ds, hds, rfl, rfl⟩ := diffusive_inv P B n ext hlen _ (requiredValues_two _ _) fl fr h
  obtain ⟨d0, dn⟩ := hB ds hds
  rw [range_getD _ _ _ _ (by omega)]
  have hd : ds.getD j 0 = 0 := by rcases hj with rfl | rfl <;> assumption
  rw [hd]
  obtain ⟨m1, m2⟩ := middle_wall P _ _ hr
  rw [Prod.fst_sub, Prod.fst_sub, m1, m2]
  simp [source]

/-- Solvers of which C23 speaks: Lax-Friedrichs, low-order, central, both energy stable ones, and MCL with one of these
targets. -/
def wallSchemes (P : Params K) (B : Bathymetry K) (bc : BC K (State K)) : List (NumFlux (State K)) :=
  plainFluxes P B ++ (plainFluxes P B).map (mcl P B bc)

/-- C23.  With walls the ghost states have the heights of the boundary cells and the opposite
discharges, the mass fluxes of each of these solvers at both walls are zero, and so the right-hand
side has total height zero. -/
theorem C23_walls (P : Params K) (hP : P.Good) (b : Option (List K)) (B : Bathymetry K)
    (hB : buildBathymetry P b = .ok B) (n : ℕ) (hn : 0 < n) (il ir : Option (K → State K))
    (bc : BC K (State K)) (hbc : build (some reflect) ["wall"] 1 il ir = .ok bc) (dx t : K)
    (F : NumFlux (State K)) (hF : F ∈ wallSchemes P B bc) (v w : List (State K)) (hv : v.length = n)
    (h : rhs F dx bc t v = .ok w) :
    ∃ ghostL ghostR fl fr,
      ghostL = ((v.getD 0 0).1, -(v.getD 0 0).2) ∧
      ghostR = ((v.getD (n - 1) 0).1, -(v.getD (n - 1) 0).2) ∧
      F.call [ghostL :: v, v ++ [ghostR]] = .ok (fl, fr) ∧
      fl.length = n + 1 ∧ fr.length = n + 1 ∧
      (fl.getD 0 0).1 = 0 ∧ (fr.getD 0 0).1 = 0 ∧ (fl.getD n 0).1 = 0 ∧ (fr.getD n 0).1 = 0 ∧
      totalHeight w = 0 := by
  have hb1 := build_radius _ _ _ bc hbc
  have hE := build_endsFlat P b B hB n hn
  have hplain : ∀ G ∈ plainFluxes P B, ∃ Θ, Balanced P B G n Θ ∧ G.dim / 2 = 1 ∧ WallTight G n := by
    intro G hG
    simp only [plainFluxes, List.mem_cons, List.not_mem_nil, or_false] at hG
    rcases hG with rfl | rfl | rfl | rfl | rfl
    · exact ⟨_, withSource_balanced P B _ n, by simp [lfFlux, withSource, laxFriedrichs],
        lf_wall P hP B n⟩
    · exact ⟨_, lowOrder_balanced P hP B n, by simp [lowOrder], lowOrder_wall P hP B n hE⟩
    · exact ⟨_, withSource_balanced P B _ n, by simp [centralFlux, withSource, central],
        central_wall P B n⟩
    · exact ⟨_, withSource_balanced P B _ n, by simp [energyStableFlux, withSource, energyStable],
        energyStable_wall P B n⟩
    · exact ⟨_, diffusive_balanced P B n, by simp [diffusiveFlux], diffusive_wall P B n hE⟩
  have hspec : ∃ Θ, Balanced P B F n Θ ∧ F.dim / 2 = 1 ∧ WallTight F n := by
    rcases List.mem_append.1 hF with hF | hF
    · exact hplain F hF
    · obtain ⟨G, hG, rfl⟩ := List.mem_map.1 hF
      obtain ⟨-, -, h2, h3⟩ := hplain G hG
      exact ⟨_, mcl_balanced P hP B bc hb1 _ n hn, h2, mcl_wall P hP B n hn hE bc hb1 _ h3⟩
  obtain ⟨Θ, hbal, hdim, htight⟩ := hspec
  obtain ⟨values, fl, fr, hnb, hcall, hdx, rfl⟩ := rhs_inv F dx bc t v w h
  rw [hdim] at hnb
  have hext := wall_extend il ir bc hbc v n hn hv (some t)
  set ext := reflect (v.getD 0 0) :: v ++ [reflect (v.getD (n - 1) 0)] with hedef
  have hlen : ext.length = n + 2 := by simp [hedef, hv]
  have hvals : values = [ext.dropLast, ext.tail] := by
    simp only [BC.nodeNeighbours, hext] at hnb
    rw [nodeSlices_one ext (by intro h0; rw [h0] at hlen; simp at hlen)] at hnb
    exact (Except.ok.inj hnb).symm
  subst hvals
  obtain ⟨ds, _, hl, hr, hj⟩ := hbal ext _ fl fr hlen (requiredValues_two _ _) hcall
  have t0 := htight ext fl fr hlen hcall 0 (Or.inl rfl) (Or.inl (by
    rw [hedef]
    simp only [List.cons_append, List.getD_cons_succ, List.getD_cons_zero, zero_add]
    congr 1
    rw [List.getD_append _ _ _ _ (by omega)]))
  have tn := htight ext fl fr hlen hcall n (Or.inr rfl) (Or.inr (by
    rw [hedef]
    obtain ⟨m, rfl⟩ : ∃ m, n = m + 1 := ⟨n - 1, by omega⟩
    simp only [List.cons_append, List.getD_cons_succ, Nat.add_sub_cancel]
    have a1 : (v ++ [reflect (v.getD m 0)]).getD m 0 = v.getD m 0 := by
      rw [List.getD_append _ _ _ _ (by omega)]
    rw [a1, List.getD_eq_getElem (v ++ _) _ (by simp; omega), List.getElem_append_right (by omega)]
    simp))
  have hsum := (balanced_totals P B F n Θ hbal ext hlen _ (requiredValues_two _ _) fl fr hcall dx
    hdx).1
  rw [t0, tn, sub_self] at hsum
  refine ⟨reflect (v.getD 0 0), reflect (v.getD (n - 1) 0), fl, fr, by simp [reflect],
    by simp [reflect], ?_, hl, hr, ?_, t0, ?_, tn, (mul_eq_zero.mp hsum).resolve_left hdx⟩
  · have e1 : ext.dropLast = reflect (v.getD 0 0) :: v := by
      rw [hedef, List.dropLast_concat]
    have e2 : ext.tail = v ++ [reflect (v.getD (n - 1) 0)] := rfl
    rw [← hcall, e1, e2]
  · rw [(hj 0 (by omega)).1, t0, neg_zero]
  · rw [(hj n (by omega)).1, tn, neg_zero]

/-- C23, runs: between walls the total water height is kept. -/
theorem C23_water_between_walls (P : Params K) (hP : P.Good) (b : Option (List K)) (B : Bathymetry K)
    (hB : buildBathymetry P b = .ok B) (n : ℕ) (hn : 0 < n) (il ir : Option (K → State K))
    (bc : BC K (State K)) (hbc : build (some reflect) ["wall"] 1 il ir = .ok bc) (dx : K)
    (F : NumFlux (State K)) (hF : F ∈ wallSchemes P B bc)
    (T : Tableau K) (s s' : Solver K (Fin n → State K)) (steps : List K)
    (h : s.runE T (vecRhs n (rhs F dx bc)) steps = .ok s') :
    totalHeight (List.ofFn s'.solution) = totalHeight (List.ofFn s.solution) := by
  rw [runE_eq T _ s s' steps h, ← heightMap_eq, ← heightMap_eq]
  refine C53_linear_invariant T _ (heightMap K n) (height_totalise n _ (fun t v w hv hw => ?_)) s steps
  obtain ⟨_, _, _, _, _, _, _, _, _, _, _, _, _, h0⟩ :=
    C23_walls P hP b B hB n hn il ir bc hbc dx t F hF v w hv hw
  exact h0

def exampleWalls : BC ℚ (State ℚ) := ⟨[.reflect 0 reflect], [.reflect (-1) reflect], false⟩

example : build (some reflect) ["wall"] 1 none none = .ok exampleWalls := by
  simp [build, buildLeft, buildRight, exampleWalls, BC.make, pure, Except.pure, bind, Except.bind]

/-- Non-vacuity: Heun steps of the low-order scheme between walls, with water moving. -/
example : okAnd ((buildBathymetry exampleParams (some [0, 1, 3])).bind (fun B =>
    (Solver.init ![(4, 1), (2, 0), (1, -1)] 0 : Solver ℚ (Fin 3 → State ℚ)).runE (heun ℚ)
      (vecRhs 3 (rhs (lowOrder exampleParams B) 1 exampleWalls)) [1 / 100, 1 / 100]))
    (fun s => decide ((s.solution 0).1 ≠ 4 ∧ (s.solution 0).2 ≠ 1)) = true := by
  decide +kernel

end Verif.SWE
