import Verif.Props.InsideLimit
import Verif.Props.ShockSpeed

/-!
C139.  Away from the ends of the domain, limits of computed functions are weak solutions for all boundary conditions, and
their shocks move with the speed given by the jump condition.
-/

set_option linter.unusedSectionVars false

namespace Verif.WeakLimit

open Verif.Py Verif.Boundary Verif.FV Verif.Scalar Verif.ODE Verif.Weak Verif.EntropyLimit
open MeasureTheory Set Filter Topology

variable {V : Type*} [NormedAddCommGroup V] [NormedSpace ℝ V]

/-! ### Helper lemmas: boundary conditions -/

/-- Ghost cells with values in `D`, one on each side. -/
def ExtendsIn (bc : BC ℝ V) (n : ℕ) (D : Set V) : Prop :=
  ∀ (t : ℝ) (v : List V), v.length = n → (∀ x ∈ v, x ∈ D) →
    ∃ a ∈ D, ∃ b ∈ D, bc.extend v (some t) = .ok (a :: v ++ [b])

theorem ghost_in_left (wall : Option (V → V)) (cl : String) (il : Option (ℝ → V)) (c : Ghost ℝ V)
    (hc : buildLeft wall cl 0 il = .ok c) (D : Set V) (hw : ∀ g, wall = some g → ∀ x ∈ D, g x ∈ D)
    (hil : ∀ g, il = some g → ∀ t, g t ∈ D) (t : ℝ) (v : List V) (hv : v ≠ []) (hall : ∀ x ∈ v, x ∈ D) :
    ∃ a ∈ D, c.eval v (some t) = .ok a := by
  have hpos := List.length_pos_iff.mpr hv
  have h0 : Py.get v 0 = .ok (v[0]) := by simpa using get_nat v (i := 0) hpos
  have h1 : Py.get v (-1) = .ok (v[v.length - 1]) := by
    have := get_neg v (i := 0) hpos
    simpa using this
  have rest : ∀ d : Ghost ℝ V, (d = .copy (-((0 : ℕ) : ℤ) - 1) ∨ d = .copy 0 ∨ ∃ g, il = some g ∧ d = .inflow g) →
      ∃ a ∈ D, d.eval v (some t) = .ok a := by
    rintro d (rfl | rfl | ⟨g, hg, rfl⟩)
    · exact ⟨_, hall _ (List.getElem_mem _), by simpa [Ghost.eval] using h1⟩
    · exact ⟨_, hall _ (List.getElem_mem _), by simpa [Ghost.eval] using h0⟩
    · exact ⟨g t, hil g hg t, rfl⟩
  have refl : ∀ g, wall = some g → ∃ a ∈ D, (Ghost.reflect 0 g : Ghost ℝ V).eval v (some t) = .ok a := fun g hg =>
    ⟨g v[0], hw g hg _ (hall _ (List.getElem_mem _)), by simp [Ghost.eval, h0]⟩
  have cases : (c = .copy (-((0 : ℕ) : ℤ) - 1) ∨ c = .copy 0 ∨ ∃ g, il = some g ∧ c = .inflow g) ∨
      ∃ g, wall = some g ∧ c = .reflect 0 g := by
    unfold buildLeft at hc
    split at hc
    · exact Or.inr ⟨_, rfl, (Except.ok.inj hc).symm⟩
    · refine Or.inl ?_
      split_ifs at hc
      · exact Or.inl (Except.ok.inj hc).symm
      · exact Or.inr (Or.inl (Except.ok.inj hc).symm)
      · cases il with
        | none => cases hc
        | some g => exact Or.inr (Or.inr ⟨g, rfl, (Except.ok.inj hc).symm⟩)
  rcases cases with h | ⟨g, hg, rfl⟩
  · exact rest c h
  · exact refl g hg

theorem ghost_in_right (wall : Option (V → V)) (cr : String) (ir : Option (ℝ → V)) (c : Ghost ℝ V)
    (hc : buildRight wall cr 0 ir = .ok c) (D : Set V) (hw : ∀ g, wall = some g → ∀ x ∈ D, g x ∈ D)
    (hir : ∀ g, ir = some g → ∀ t, g t ∈ D) (t : ℝ) (v : List V) (hv : v ≠ []) (hall : ∀ x ∈ v, x ∈ D) :
    ∃ a ∈ D, c.eval v (some t) = .ok a := by
  have hpos := List.length_pos_iff.mpr hv
  have h0 : Py.get v 0 = .ok (v[0]) := by simpa using get_nat v (i := 0) hpos
  have h1 : Py.get v (-1) = .ok (v[v.length - 1]) := by
    have := get_neg v (i := 0) hpos
    simpa using this
  have rest : ∀ d : Ghost ℝ V, (d = .copy ((0 : ℕ) : ℤ) ∨ d = .copy (-1) ∨ ∃ g, ir = some g ∧ d = .inflow g) →
      ∃ a ∈ D, d.eval v (some t) = .ok a := by
    rintro d (rfl | rfl | ⟨g, hg, rfl⟩)
    · exact ⟨_, hall _ (List.getElem_mem _), by simpa [Ghost.eval] using h0⟩
    · exact ⟨_, hall _ (List.getElem_mem _), by simpa [Ghost.eval] using h1⟩
    · exact ⟨g t, hir g hg t, rfl⟩
  have refl : ∀ g, wall = some g → ∃ a ∈ D, (Ghost.reflect (-1) g : Ghost ℝ V).eval v (some t) = .ok a := fun g hg =>
    ⟨g v[v.length - 1], hw g hg _ (hall _ (List.getElem_mem _)), by simp [Ghost.eval, h1]⟩
  have cases : (c = .copy (((0 : ℕ) : ℤ)) ∨ c = .copy (-1) ∨ ∃ g, ir = some g ∧ c = .inflow g) ∨
      ∃ g, wall = some g ∧ c = .reflect (-1) g := by
    unfold buildRight at hc
    split at hc
    · exact Or.inr ⟨_, rfl, (Except.ok.inj hc).symm⟩
    · refine Or.inl ?_
      split_ifs at hc
      · exact Or.inl (Except.ok.inj hc).symm
      · exact Or.inr (Or.inl (Except.ok.inj hc).symm)
      · cases ir with
        | none => cases hc
        | some g => exact Or.inr (Or.inr ⟨g, rfl, (Except.ok.inj hc).symm⟩)
  rcases cases with h | ⟨g, hg, rfl⟩
  · exact rest c h
  · exact refl g hg

theorem build_in (wall : Option (V → V)) (conditions : List String) (il ir : Option (ℝ → V)) (bc : BC ℝ V)
    (hbc : build wall conditions 1 il ir = .ok bc) (n : ℕ) (hn : 0 < n) (D : Set V)
    (hw : ∀ g, wall = some g → ∀ x ∈ D, g x ∈ D) (hil : ∀ g, il = some g → ∀ t, g t ∈ D)
    (hir : ∀ g, ir = some g → ∀ t, g t ∈ D) : ExtendsIn bc n D := by
  intro t v hv hall
  have hne : v ≠ [] := by rintro rfl; simp at hv; omega
  unfold build at hbc
  cases conditions with
  | nil => cases hbc
  | cons cl rest =>
    simp only [List.range_one, List.mapM_cons, List.mapM_nil, Nat.sub_self, Nat.sub_zero] at hbc
    cases hcl : buildLeft wall cl 0 il with
    | error e => rw [hcl] at hbc; cases hbc
    | ok c =>
      cases hcr : buildRight wall (rest.headD cl) 0 ir with
      | error e => rw [hcl, hcr] at hbc; cases hbc
      | ok d =>
        rw [hcl, hcr] at hbc
        have := make_append [c] [d] rfl (decide (cl :: rest = ["periodic"]))
        change BC.make ([c] ++ [d]) _ = _ at hbc
        rw [this] at hbc
        cases hbc
        obtain ⟨a, ha, ea⟩ := ghost_in_left wall cl il c hcl D hw hil t v hne hall
        obtain ⟨b, hb, eb⟩ := ghost_in_right wall _ ir d hcr D hw hir t v hne hall
        refine ⟨a, ha, b, hb, ?_⟩
        simp only [BC.extend, List.mapM_cons, List.mapM_nil, ea, eb]
        rfl

/-- The fluxes of the schemes with any boundary conditions. -/
theorem near_inside {F : NumFlux V} {n : ℕ} (hn : 0 < n) {Q : V → V} {D : Set V} {C R R' dx : ℝ} (hC : 0 ≤ C)
    (hR : ∀ v ∈ D, ‖Q v‖ ≤ R) (hR' : ∀ v ∈ D, ‖v‖ ≤ R') (hdim : F.dim / 2 = 1) {per : Prop} (hF : NearFlux per F n Q D C)
    (bc : BC ℝ V) (hbc : ExtendsIn bc n D) :
    FluxInside (vecRhs n (rhs F dx bc)) dx Q D (C + 4 * (C * R') + 2 * R) := by
  intro t v w hv hw
  obtain ⟨a, ha, b, hb, hext⟩ := hbc t (List.ofFn v) List.length_ofFn (by
    intro x hx
    obtain ⟨i, rfl⟩ := List.mem_ofFn.1 hx
    exact hv i)
  set ext := a :: List.ofFn v ++ [b] with hE
  have hlen : ext.length = n + 2 := by simp [hE]
  have hlow : ∀ i (hi : i < n), ext.getD (i + 1) 0 = v ⟨i, hi⟩ := by
    intro i hi
    rw [List.getD_eq_getElem _ _ (by omega)]
    simp [hE, List.getElem_append, hi]
  have mem : ∀ x ∈ ext, x ∈ D := by
    intro x hx
    simp only [hE, List.cons_append, List.mem_cons, List.mem_append, List.not_mem_nil, or_false] at hx
    rcases hx with rfl | hx | rfl
    · exact ha
    · obtain ⟨i, rfl⟩ := List.mem_ofFn.1 hx
      exact hv i
    · exact hb
  have hall : ∀ j < n + 2, ext.getD j 0 ∈ D := by
    intro j hj
    rw [List.getD_eq_getElem _ _ (by omega)]
    exact mem _ (List.getElem_mem _)
  have hne : ext ≠ [] := by intro h; rw [h] at hlen; simp at hlen
  have hRp : 0 ≤ R' := (norm_nonneg _).trans (hR' _ (hv ⟨0, hn⟩))
  have hR0 : 0 ≤ R := (norm_nonneg _).trans (hR _ (hv ⟨0, hn⟩))
  have hCR : 0 ≤ C * R' := mul_nonneg hC hRp
  unfold vecRhs at hw
  cases hr : rhs F dx bc t (List.ofFn v) with
  | error e => rw [hr] at hw; cases hw
  | ok ws =>
    rw [hr] at hw
    obtain ⟨values, fl, fr, hval, hcall, hdx, rfl⟩ := SWE.rhs_inv F dx bc t _ _ hr
    have hvals : values = [ext.dropLast, ext.tail] := by
      rw [hdim] at hval
      simp only [BC.nodeNeighbours, hext] at hval
      rw [nodeSlices_one ext hne] at hval
      exact (Except.ok.inj hval).symm
    subst hvals
    obtain ⟨H, rfl, rfl, -, hnear⟩ := hF ext fl fr hlen hall hcall
    have hstep : ∀ j < n + 1, ‖H j - Q (ext.getD j 0)‖ ≤ 2 * (C * R') := by
      intro j hj
      refine (hnear j hj).trans ?_
      have h1 := norm_sub_le (ext.getD (j + 1) 0) (ext.getD j 0)
      have h2 := hR' _ (hall (j + 1) (by omega))
      have h3 := hR' _ (hall j (by omega))
      have := mul_le_mul_of_nonneg_left (show ‖ext.getD (j + 1) 0 - ext.getD j 0‖ ≤ 2 * R' by linarith) hC
      linarith
    refine ⟨H, ?_, ?_, ?_⟩
    · have hval : ∀ j < n + 1, ‖H j‖ ≤ 2 * (C * R') + R := by
        intro j hj
        have h1 := norm_add_le (H j - Q (ext.getD j 0)) (Q (ext.getD j 0))
        rw [sub_add_cancel] at h1
        have h2 := hR _ (hall j (by omega))
        have h3 := hstep j hj
        linarith
      have h1 := norm_sub_le (H 0) (H n)
      have h2 := hval 0 (by omega)
      have h3 := hval n (by omega)
      linarith
    · intro i
      dsimp only at hw
      split at hw
      · rename_i hl
        have e := congrFun (Except.ok.inj hw) i
        rw [← e]
        simp [sub_eq_add_neg]
      · cases hw
    · have key : ∀ i : Fin n, ‖H (i + 1) - Q (v i)‖ ≤
          C * ‖v (finRotate n i) - v i‖ + if i = ⟨n - 1, by omega⟩ then 2 * (C * R') else 0 := by
        intro i
        by_cases hi : (i : ℕ) + 1 = n
        · rw [if_pos (Fin.ext (by simp only; omega))]
          have := hstep (i + 1) (by omega)
          rw [hlow i i.2] at this
          have h2 := mul_nonneg hC (norm_nonneg (v (finRotate n i) - v i))
          linarith
        · rw [if_neg (fun h => hi (by rw [h]; simp only; omega)), add_zero]
          have := hnear (i + 1) (by omega)
          rw [hlow i i.2, hlow (i + 1) (by omega)] at this
          have e : v (finRotate n i) = v ⟨(i : ℕ) + 1, by omega⟩ := by
            congr 1
            apply Fin.ext
            rw [rotate_value, if_neg hi]
          rw [e]
          exact this
      refine (Finset.sum_le_sum fun i _ => key i).trans ?_
      rw [Finset.sum_add_distrib, ← Finset.mul_sum]
      have e3 : ∑ i : Fin n, (if i = ⟨n - 1, by omega⟩ then 2 * (C * R') else 0) = 2 * (C * R') := by simp
      rw [e3]
      change C * jumps v + 2 * (C * R') ≤ _
      have hj := jumps_nonneg v
      nlinarith [mul_nonneg hCR hj, mul_nonneg hR0 hj]

/-! ### Helper lemmas: the scalar limited scheme -/

theorem near_limited (p : Problem) {m M : ℝ} (hm : p = .burgers → 0 < m) {n : ℕ} (per : Bool) (F : NumFlux ℝ)
    (hF : mclOf p n per = .ok F) : F.dim / 2 = 1 ∧ NearFlux False F n p.flux (Icc m M) (slopeBound m M) := by
  obtain ⟨nb, hnb⟩ := neighbourArray_ok (n + 2) (by omega) per
  unfold mclOf at hF
  rw [hnb] at hF
  cases hF
  refine ⟨mcl_radius _ _ _, ?_⟩
  intro ext fl fr hlen hD hcall
  have hadm : ∀ j < n + 1, Admissible p (ext.getD j 0) (ext.getD (j + 1) 0) := by
    intro j hj
    cases p with
    | advection => exact admissible_advection _ _
    | burgers =>
      have p1 := (hm rfl).trans_le (hD j (by omega)).1
      exact admissible_burgers _ _ p1.le ((hm rfl).le.trans (hD (j + 1) (by omega)).1) (Or.inl p1)
  obtain ⟨hs, hh1, hh2⟩ := central_total p ext.dropLast ext.tail (by simp)
  have hhs : hs.length = n + 1 := by rw [hh2]; simp [hlen]
  obtain ⟨maxs, mins, hM, hmn, hc⟩ := mcl_call p (fun l r => zipE (centralNode ℝ p.riemann.flux) l r) n per nb hnb ext hs
    hlen hh1 hhs (fun j hj => (hadm j hj).1)
  rw [hc] at hcall
  cases hcall
  refine ⟨fun j => lfFlux p (ext.getD j 0) (ext.getD (j + 1) 0) + nodeLimited p maxs mins hs ext j, ?_, rfl, False.elim, ?_⟩
  · refine List.map_congr_left fun j _ => ?_
    ring
  intro j hj
  obtain ⟨a1, a2⟩ := hadm j hj
  have hx := hD j (by omega)
  have hy := hD (j + 1) (by omega)
  set x := ext.getD j 0 with hxd
  set y := ext.getD (j + 1) 0 with hyd
  -- the two fluxes between which the limited one lies
  have low := laxFriedrichs_value p x hx y hy (lfFlux p x y) (by
    unfold Riemann.nodeFlux
    rw [riemann_solve p x y a1]
    rfl)
  have high := central_value p x hx y hy (hs.getD j 0) (by
    have := (zipE_ok_iff _ _ _ hs hh1).2 j (by omega) (by simp; omega) (by simp; omega)
    rw [List.getElem_dropLast, List.getElem_tail, ← List.getD_eq_getElem ext 0, ← List.getD_eq_getElem ext 0,
      ← List.getD_eq_getElem hs 0] at this
    exact this)
  have r1 := (bounds_spec (n + 2) per nb hnb ext maxs mins hlen hM hmn j (by omega)).1
  have r2 := (bounds_spec (n + 2) per nb hnb ext maxs mins hlen hM hmn (j + 1) (by omega)).1
  have c1 := r1 j (by rw [mem_neighbourSet _ _ _ (by omega)]; omega)
  have c2 := r1 (j + 1) (by rw [mem_neighbourSet _ _ _ (by omega)]; omega)
  have c3 := r2 j (by rw [mem_neighbourSet _ _ _ (by omega)]; omega)
  have c4 := r2 (j + 1) (by rw [mem_neighbourSet _ _ _ (by omega)]; omega)
  have hL := barState_mem _ _ _ x y _ _ a1 a2 c1.1 c2.1 c1.2 c2.2
  have hR := barState_mem _ _ _ x y _ _ a1 a2 c3.1 c4.1 c3.2 c4.2
  obtain ⟨-, -, h3, h4⟩ := limitNode_spec (hs.getD j 0 - lfFlux p x y) (p.speed x y) _ _
    (maxs.getD j 0) (maxs.getD (j + 1) 0) (mins.getD j 0) (mins.getD (j + 1) 0) a1 hL hR
  change 0 ≤ hs.getD j 0 - lfFlux p x y → 0 ≤ nodeLimited p maxs mins hs ext j ∧
    nodeLimited p maxs mins hs ext j ≤ hs.getD j 0 - lfFlux p x y at h3
  change hs.getD j 0 - lfFlux p x y ≤ 0 → hs.getD j 0 - lfFlux p x y ≤ nodeLimited p maxs mins hs ext j ∧
    nodeLimited p maxs mins hs ext j ≤ 0 at h4
  rw [Real.norm_eq_abs] at low high ⊢
  obtain ⟨l1, l2⟩ := _root_.abs_le.1 low
  obtain ⟨k1, k2⟩ := _root_.abs_le.1 high
  rw [_root_.abs_le]
  rcases le_total 0 (hs.getD j 0 - lfFlux p x y) with h | h
  · obtain ⟨e1, e2⟩ := h3 h
    constructor <;> linarith
  · obtain ⟨e1, e2⟩ := h4 h
    constructor <;> linarith

/-! ### Helper lemmas: the shallow water schemes -/

open Verif.SWE in
theorem water_any {P : SWE.Params ℝ} {h0 H Q : ℝ} (hP : P.Good) (hrt : IsSqrt P.rt) (he : P.eps ≤ h0)
    (conditions : List String) (il ir : Option (ℝ → State ℝ)) (bc : BC ℝ (State ℝ))
    (hbc : build (some reflect) conditions 1 il ir = .ok bc)
    (F : NumFlux (State ℝ)) (hF : F ∈ plainFluxes P ⟨none⟩ ++ (plainFluxes P ⟨none⟩).map (mcl P ⟨none⟩ bc)) :
    ∃ C : ℝ, ∀ n, 0 < n → F.dim / 2 = 1 ∧ NearFlux False F n (waterFlux P.g) (WeakLimit.box h0 H Q) C := by
  have hg := hP.g_pos
  have plain : ∀ G ∈ plainFluxes P ⟨none⟩, G.dim / 2 = 1 ∧
      ∃ C : ℝ, ∀ n, NearFlux True G n (fluxOf P) (WeakLimit.box h0 H Q) C := by
    intro G hG
    simp only [plainFluxes, List.mem_cons, List.not_mem_nil, or_false] at hG
    rcases hG with rfl | rfl | rfl | rfl | rfl
    · exact ⟨by simp [SWE.lfFlux, withSource, laxFriedrichs, twoPoint], _, near_lf hrt hg he⟩
    · exact ⟨by simp [lowOrder, withSource, twoPoint], _, near_low hP hrt he⟩
    · exact ⟨by simp [centralFlux, withSource, central, twoPoint], _, near_water_central hg he⟩
    · exact ⟨by simp [energyStableFlux, withSource, energyStable, twoPoint], _, near_energy hg he⟩
    · exact ⟨by simp [diffusiveFlux, withSource, twoPoint], _, near_diffusive hrt hg he⟩
  have hl : bc.left.length = 1 := build_radius conditions il ir bc hbc
  rcases List.mem_append.1 hF with hF | hF
  · obtain ⟨hd, C, hC⟩ := plain F hF
    exact ⟨C, fun n hn => ⟨hd, ((hC n).of False.elim).congr (waterFlux_eq he)⟩⟩
  · obtain ⟨G, hG, rfl⟩ := List.mem_map.1 hF
    obtain ⟨hd, C, hC⟩ := plain G hG
    refine ⟨(fluxLip P h0 H Q + speedMax P h0 H Q) +
      (1 + 2 * barBound P h0 H Q) * (C + (fluxLip P h0 H Q + speedMax P h0 H Q)), fun n hn => ⟨hd, ?_⟩⟩
    exact ((near_mcl hP hrt he bc hl hn G (hC n)).of False.elim).congr (waterFlux_eq he)

/-! ### Helper lemmas: shocks -/

theorem jump_inside [CompleteSpace V] {q : V → V} {a P t₀ S : ℝ} {u : ℝ × ℝ → V} {u0 : ℝ → V} (h : WeakInside q a P t₀ S u u0)
    (hP : 0 < P) {t₁ t₂ x₀ σ δ : ℝ} {l r : V} (h01 : t₀ ≤ t₁) (h12 : t₁ < t₂) (h2S : t₂ ≤ S) (hδ : 0 < δ)
    (hin : ∀ t, t₁ < t → t < t₂ → a ≤ x₀ + σ * (t - t₁) - δ ∧ x₀ + σ * (t - t₁) + δ ≤ a + P)
    (hs : ShockIn u t₁ t₂ x₀ σ δ l r) : σ • (l - r) = q l - q r := by
  refine jump_of hP h01 h12 h2S (half_pos hδ) (fun t h1 h2 => ?_) (fun φ φt φx hφ hz => h φ φt φx hφ ⟨δ / 2, half_pos hδ, ?_⟩)
    (hs.mono fun z hz h1 h2 h3 => hz h1 h2 (by linarith))
  · obtain ⟨i1, i2⟩ := hin t h1 h2
    constructor <;> linarith
  · intro t x hx1 hx2 hx
    refine hz t x hx1 hx2 fun ⟨h1, h2, h3⟩ => ?_
    obtain ⟨i1, i2⟩ := hin t h1 h2
    obtain ⟨j1, j2⟩ := abs_lt.1 h3
    rcases hx with hx | hx <;> linarith

/-! ### Helper lemmas: standing jumps -/

/-- The value `l` up to the origin and `r` behind it. -/
noncomputable def jumpAt (l r : V) (x : ℝ) : V := if x ≤ 0 then l else r

theorem central_call (q : V → Except Py.Error V) (l r G : V) (hl : q l = .ok G) (hr : q r = .ok G) (n : ℕ) (ext : List V)
    (hlen : ext.length = n + 2) (hmem : ∀ x ∈ ext, x = l ∨ x = r) :
    (central ℝ q).call [ext.dropLast, ext.tail] =
      .ok ((List.range (n + 1)).map (fun _ => -G), (List.range (n + 1)).map fun _ => G) := by
  have hq : ∀ x ∈ ext, q x = .ok G := fun x hx => by rcases hmem x hx with rfl | rfl <;> assumption
  have hnode : ∀ i (h : i + 1 < ext.length), centralNode ℝ q ext[i] ext[i + 1] = .ok G := by
    intro i h
    unfold centralNode
    rw [hq _ (List.getElem_mem _), hq _ (List.getElem_mem _)]
    simp only [Except.ok.injEq]
    module
  have hz : zipE (centralNode ℝ q) ext.dropLast ext.tail = .ok ((List.range (n + 1)).map fun _ => G) := by
    obtain ⟨fs, e1⟩ := zipE_ok (centralNode ℝ q) ext.dropLast ext.tail (fun i h2 h3 => by
      rw [List.getElem_dropLast, List.getElem_tail]
      exact ⟨G, hnode i (by simp at h2; omega)⟩)
    obtain ⟨h1, h2⟩ := zipE_ok_iff _ _ _ fs e1
    rw [e1]
    congr 1
    have hl : fs.length = n + 1 := by rw [h1]; simp [hlen]
    apply List.ext_getElem
    · simp [hl]
    · intro i hi1 hi2
      have := h2 i hi1 (by simp; omega) (by simp; omega)
      rw [List.getElem_dropLast, List.getElem_tail, hnode i (by omega)] at this
      rw [List.getElem_map]
      exact (Except.ok.inj this).symm
  simp only [central, twoPoint, hz, List.map_map]
  rfl

open Verif.SWE in
theorem source_call (P : SWE.Params ℝ) (F : NumFlux (State ℝ)) (n : ℕ) (ext : List (State ℝ)) (hlen : ext.length = n + 2)
    (g g' : ℕ → State ℝ) (h : F.call [ext.dropLast, ext.tail] = .ok ((List.range (n + 1)).map g, (List.range (n + 1)).map g')) :
    (withSource P ⟨none⟩ F).call [ext.dropLast, ext.tail] = .ok ((List.range (n + 1)).map g, (List.range (n + 1)).map g') := by
  have hs := nodesE_ok (⟨none⟩ : Bathymetry ℝ) (fun a b d => .ok (source P a b d)) n ext hlen (List.replicate (n + 1) 0) rfl
    (fun _ => (0 : State ℝ)) (fun j hj => by
      rw [List.getD_eq_getElem (List.replicate (n + 1) (0 : ℝ)) _ (by simpa using hj), List.getElem_replicate,
        WeakLimit.source_flat])
  simp only [withSource, h, requiredValues_two, hs]
  congr 2 <;>
  · apply List.ext_getElem
    · simp
    · intro i h1 h2
      simp

/-- Runs that do not change a jump at the origin. -/
theorem standing_jump (F : NumFlux V) (hdim : F.dim / 2 = 1) (l r G : V) (D : Set V) (hl : l ∈ D) (hr : r ∈ D)
    (hF : ∀ (n : ℕ) (ext : List V), ext.length = n + 2 → (∀ x ∈ ext, x = l ∨ x = r) → F.call [ext.dropLast, ext.tail] =
      .ok ((List.range (n + 1)).map (fun _ => -G), (List.range (n + 1)).map fun _ => G))
    (wall : Option (V → V)) (il ir : Option (ℝ → V)) (bc : BC ℝ V) (hbc : build wall ["outflow"] 1 il ir = .ok bc)
    (k : ℕ) (hk : 0 < k) :
    RunWithin (forwardEuler ℝ) (vecRhs (2 * k) (rhs F (2 / (2 * k : ℕ)) bc)) D 1 (-1) (2 / (2 * k : ℕ)) 0 1
      (fun z => jumpAt l r z.2) (jumpAt l r) := by
  have hk0 : (0 : ℝ) < k := by exact_mod_cast hk
  have hdx : (2 : ℝ) / (2 * k : ℕ) = 1 / k := by push_cast; field_simp
  rw [hdx]
  set v : Fin (2 * k) → V := fun i => if (i : ℕ) < k then l else r with hv
  set sys := vecRhs (2 * k) (rhs F (1 / (k : ℝ)) bc) with hsys
  have hone : ∀ i, v i = l ∨ v i = r := fun i => by
    simp only [hv]
    split_ifs
    · exact Or.inl rfl
    · exact Or.inr rfl
  have hin : ∀ i, v i ∈ D := fun i => by rcases hone i with h | h <;> rw [h] <;> assumption
  have hs : ∀ t, sys t v = .ok 0 := by
    intro t
    obtain ⟨a, ha, b, hb, hext⟩ := outflow_copies wall il ir bc hbc (2 * k) (by omega) t (List.ofFn v) List.length_ofFn
    set ext := a :: List.ofFn v ++ [b] with hE
    have hlen : ext.length = 2 * k + 2 := by simp [hE]
    have hmem : ∀ x ∈ ext, x = l ∨ x = r := by
      have hv' : ∀ x ∈ List.ofFn v, x = l ∨ x = r := fun x hx => by
        obtain ⟨i, rfl⟩ := List.mem_ofFn.1 hx
        exact hone i
      intro x hx
      simp only [hE, List.cons_append, List.mem_cons, List.mem_append, List.not_mem_nil, or_false] at hx
      rcases hx with rfl | hx | rfl
      · exact hv' _ ha
      · exact hv' _ hx
      · exact hv' _ hb
    have := rhs_of_call F hdim (1 / (k : ℝ)) (by positivity) bc t (List.ofFn v) ext hext (2 * k) hlen _ _
      (hF (2 * k) ext hlen hmem)
    rw [hsys]
    unfold vecRhs
    rw [this]
    simp only [List.length_map, List.length_range, dif_pos]
    congr 1
    funext i
    simp
  have hrun := fun steps => runE_equilibrium (forwardEuler ℝ) sys v hs (Solver.init v 0) rfl steps
  have hval : ∀ (i : Fin (2 * k)) (x : ℝ), -1 + (i : ℕ) * (1 / (k : ℝ)) < x → x ≤ -1 + ((i : ℕ) + 1) * (1 / (k : ℝ)) →
      jumpAt l r x = v i := by
    intro i x h1 h2
    simp only [hv, jumpAt]
    by_cases hi : (i : ℕ) < k
    · have hc : ((i : ℕ) : ℝ) + 1 ≤ k := by exact_mod_cast hi
      have : (((i : ℕ) : ℝ) + 1) * (1 / k) ≤ 1 := by rw [mul_one_div]; exact (div_le_one hk0).2 hc
      rw [if_pos (by linarith), if_pos hi]
    · have hc : (k : ℝ) ≤ ((i : ℕ) : ℝ) := by exact_mod_cast not_lt.1 hi
      have : 1 ≤ ((i : ℕ) : ℝ) * (1 / k) := by rw [mul_one_div]; exact (one_le_div hk0).2 hc
      rw [if_neg (by linarith), if_neg hi]
  refine ⟨Solver.init v 0, List.replicate k (1 / (k : ℝ)), rfl, ?_, ?_, hin, ?_, ?_, ?_⟩
  · simp only [List.sum_replicate, nsmul_eq_mul]
    field_simp
    ring
  · intro dt h
    obtain rfl := List.eq_of_mem_replicate h
    exact ⟨by positivity, by rw [one_mul]⟩
  · intro j hj
    obtain ⟨s1, a1, b1, -⟩ := hrun ((List.replicate k (1 / (k : ℝ))).take j)
    obtain ⟨s2, a2, b2, -⟩ := hrun ((List.replicate k (1 / (k : ℝ))).take (j + 1))
    refine ⟨s2, a2, fun i => by rw [b2]; exact hin i, ?_⟩
    rw [List.take_add_one, List.getElem?_eq_getElem hj, Option.toList_some, Verif.Solver.runE_snoc, a1] at a2
    simp only [Solver.executeE] at a2
    split at a2
    · cases a2
    · cases a2
      intro v' hv' i
      simp only [forwardEuler, List.range_one, List.map_cons, List.map_nil, List.mem_singleton] at hv'
      rw [hv', stageValue]
      simp only [List.range_zero, List.map_nil, List.sum_nil, smul_zero, add_zero]
      rw [b1]
      exact hin i
  · exact hval
  · intro j hj
    obtain ⟨s1, a1, b1, -⟩ := hrun ((List.replicate k (1 / (k : ℝ))).take j)
    exact ⟨s1, a1, fun i t x _ _ h1 h2 => by rw [b1]; exact hval i x h1 h2⟩

/-! ### The property -/

/-- C139.  Computed functions of the Lax-Friedrichs and the central scheme for linear advection and Burgers' equation, and
those of the limited scheme (for Burgers' equation with positive values), with periodic, outflow, inflow or wall conditions
in any combination and any Runge-Kutta method whose weights add up to one: if they stay bounded and converge in the mean,
and so do their initial values, then the limit is a weak solution away from the ends of the domain. -/
theorem C139_scalar (p : Problem) (T : Tableau ℝ) (hT : ∑ l ∈ Finset.range T.size, T.b l = 1) (m M c P a t₀ S : ℝ)
    (hc : 0 ≤ c) (hP : 0 < P) (conditions : List String) (wall : Option (ℝ → ℝ)) (il ir : Option (ℝ → ℝ)) (bc : BC ℝ ℝ)
    (hbc : build wall conditions 1 il ir = .ok bc) (hwall : ∀ g, wall = some g → ∀ x, m ≤ x → x ≤ M → m ≤ g x ∧ g x ≤ M)
    (hil : ∀ g, il = some g → ∀ t, m ≤ g t ∧ g t ≤ M) (hir : ∀ g, ir = some g → ∀ t, m ≤ g t ∧ g t ≤ M)
    (n : ℕ → ℕ) (hn : ∀ r, 0 < n r) (hlim : Tendsto n atTop atTop) (F : ℕ → NumFlux ℝ)
    (hF : ∀ r, F r ∈ [laxFriedrichs (p.riemann : Riemann ℝ ℝ), central ℝ (p.riemann : Riemann ℝ ℝ).flux] ∨
      (p = .burgers → 0 < m) ∧ mclOf p (n r) bc.periodic = .ok (F r))
    (u : ℕ → ℝ × ℝ → ℝ) (u0 : ℕ → ℝ → ℝ)
    (h : ∀ r, RunWithin T (vecRhs (n r) (rhs (F r) (P / n r) bc)) (Icc m M) c a (P / n r) t₀ S (u r) (u0 r))
    (w : ℝ × ℝ → ℝ) (f : ℝ → ℝ) (hw : IntegrableOn w (Ioc t₀ S ×ˢ Ioc a (a + P))) (hf : IntegrableOn f (Ioc a (a + P)))
    (hlimw : Tendsto (fun r => ∫ z in Ioc t₀ S ×ˢ Ioc a (a + P), |u r z - w z|) atTop (𝓝 0))
    (hlimf : Tendsto (fun r => ∫ x in Ioc a (a + P), |u0 r x - f x|) atTop (𝓝 0)) :
    WeakInside (law p) a P t₀ S w f := by
  rw [law_eq]
  have hs := slopeBound_pos m M
  have near : ∀ r, (F r).dim / 2 = 1 ∧ NearFlux False (F r) (n r) p.flux (Icc m M) (slopeBound m M) := by
    intro r
    rcases hF r with h | ⟨h1, h2⟩
    · simp only [List.mem_cons, List.not_mem_nil, or_false] at h
      rcases h with h | h <;> rw [h]
      · exact ⟨by simp [laxFriedrichs], (near_laxFriedrichs p m M _).of False.elim⟩
      · exact ⟨by simp [central], (near_central p m M _).of False.elim⟩
    · exact near_limited p h1 bc.periodic (F r) h2
  have hb : ∀ v ∈ Icc m M, |v| ≤ slopeBound m M := fun v hv => by
    have := value_bound hv
    unfold slopeBound
    linarith
  have hR : ∀ v ∈ Icc m M, ‖p.flux v‖ ≤ slopeBound m M ^ 2 := by
    intro v hv
    have h1 := hb v hv
    have h2 : 1 ≤ slopeBound m M := by
      unfold slopeBound
      linarith [abs_nonneg m, abs_nonneg M]
    have h3 : v ^ 2 ≤ slopeBound m M ^ 2 := sq_le_sq.2 (by rwa [abs_of_pos hs])
    rw [Real.norm_eq_abs]
    cases p with
    | advection => simp only [Problem.flux]; nlinarith
    | burgers =>
      simp only [Problem.flux]
      rw [abs_of_nonneg (by positivity)]
      nlinarith
  exact weak_inside T hT (R := slopeBound m M ^ 2) (R' := slopeBound m M)
    (C := slopeBound m M + 4 * (slopeBound m M * slopeBound m M) + 2 * slopeBound m M ^ 2) (by positivity) hs.le
    (by positivity) hc hP (flux_measurable p) hR hb
    isClosed_Icc (fun v hv v' hv' => scalar_lipschitz p v hv v' hv') n hlim hn _
    (fun r => near_inside (hn r) hs.le hR hb (near r).1 (near r).2 bc (build_in wall conditions il ir bc hbc (n r) (hn r) _
      (fun g hg x hx => hwall g hg x hx.1 hx.2) hil hir)) u u0 h w f hw hf hlimw hlimf

open Verif.SWE in
/-- C139.  The same for the shallow water equations above a flat bottom with periodic, outflow, inflow or wall conditions
in any combination: for the solvers `llf`, `low-order`, `central`, `es`, `es1` and the limited solver with each of them as
target, as long as the water is nowhere shallower than some `h0 ≥ eps`. -/
theorem C139_water (P : SWE.Params ℝ) (hP : P.Good) (hrt : IsSqrt P.rt) (h0 H Q : ℝ) (he : P.eps ≤ h0)
    (conditions : List String) (il ir : Option (ℝ → State ℝ)) (bc : BC ℝ (State ℝ))
    (hbc : build (some reflect) conditions 1 il ir = .ok bc)
    (hil : ∀ g, il = some g → ∀ t, h0 ≤ (g t).1 ∧ (g t).1 ≤ H ∧ |(g t).2| ≤ Q)
    (hir : ∀ g, ir = some g → ∀ t, h0 ≤ (g t).1 ∧ (g t).1 ≤ H ∧ |(g t).2| ≤ Q)
    (F : NumFlux (State ℝ)) (hF : F ∈ plainFluxes P ⟨none⟩ ++ (plainFluxes P ⟨none⟩).map (mcl P ⟨none⟩ bc))
    (T : Tableau ℝ) (hT : ∑ l ∈ Finset.range T.size, T.b l = 1) (c L a t₀ S : ℝ) (hc : 0 ≤ c) (hL : 0 < L)
    (n : ℕ → ℕ) (hn : ∀ r, 0 < n r) (hlim : Tendsto n atTop atTop) (u : ℕ → ℝ × ℝ → State ℝ) (u0 : ℕ → ℝ → State ℝ)
    (h : ∀ r, RunWithin T (vecRhs (n r) (rhs F (L / n r) bc)) {v | h0 ≤ v.1 ∧ v.1 ≤ H ∧ |v.2| ≤ Q} c a (L / n r) t₀ S
      (u r) (u0 r))
    (w : ℝ × ℝ → State ℝ) (f : ℝ → State ℝ) (hw : IntegrableOn w (Ioc t₀ S ×ˢ Ioc a (a + L)))
    (hf : IntegrableOn f (Ioc a (a + L)))
    (hlimw : Tendsto (fun r => ∫ z in Ioc t₀ S ×ˢ Ioc a (a + L), ‖u r z - w z‖) atTop (𝓝 0))
    (hlimf : Tendsto (fun r => ∫ x in Ioc a (a + L), ‖u0 r x - f x‖) atTop (𝓝 0)) :
    WeakInside (waterFlux P.g) a L t₀ S w f := by
  obtain ⟨C, hC⟩ := water_any (H := H) (Q := Q) hP hrt he conditions il ir bc hbc F hF
  have hl : ∀ v ∈ WeakLimit.box h0 H Q, ∀ v' ∈ WeakLimit.box h0 H Q,
      ‖waterFlux P.g v - waterFlux P.g v'‖ ≤ fluxLip P h0 H Q * ‖v - v'‖ := by
    intro v hv v' hv'
    rw [← waterFlux_eq he v hv, ← waterFlux_eq he v' hv']
    exact water_lipschitz hP.g_pos he v hv v' hv'
  have hcl : IsClosed (WeakLimit.box h0 H Q) :=
    (isClosed_le continuous_const continuous_fst).inter ((isClosed_le continuous_fst continuous_const).inter
      (isClosed_le continuous_snd.abs continuous_const))
  have hqm : Measurable (waterFlux P.g) := by
    unfold waterFlux
    fun_prop
  have hR : ∀ v ∈ WeakLimit.box h0 H Q, ‖waterFlux P.g v‖ ≤ |fluxBound P h0 H Q| := by
    intro v hv
    rw [← waterFlux_eq he v hv]
    exact (flux_bounded hP.g_pos he hv).trans (le_abs_self _)
  have hR' : ∀ v ∈ WeakLimit.box h0 H Q, ‖v‖ ≤ |H| + |Q| := by
    intro v hv
    obtain ⟨b1, b2, b3⟩ := hv
    have : 0 ≤ v.1 := (P.eps_pos.trans_le (he.trans b1)).le
    rw [Prod.norm_def, Real.norm_eq_abs, Real.norm_eq_abs, abs_of_nonneg this]
    refine max_le ?_ ?_
    · linarith [le_abs_self H, abs_nonneg Q]
    · linarith [le_abs_self Q, abs_nonneg H]
  refine weak_inside T hT (C := |C| + 4 * (|C| * (|H| + |Q|)) + 2 * |fluxBound P h0 H Q|) (R := |fluxBound P h0 H Q|)
    (R' := |H| + |Q|) (by positivity) fluxLip_pos.le (abs_nonneg _) hc hL hqm hR hR' hcl hl n hlim hn _
    (fun r => near_inside (hn r) (abs_nonneg C) hR hR' (hC _ (hn r)).1 ((hC _ (hn r)).2.mono (le_abs_self C)) bc
      (build_in _ conditions il ir bc hbc (n r) (hn r) _ ?_ hil hir)) u u0 h w f hw hf hlimw hlimf
  intro g hg x hx
  cases hg
  obtain ⟨b1, b2, b3⟩ := hx
  refine ⟨b1, b2, ?_⟩
  change |x.2 * -1| ≤ Q
  rwa [mul_neg_one, abs_neg]

/-- C139.  Shocks of such limits inside the domain move with speed one for linear advection and with the mean of the two
values for Burgers' equation. -/
theorem C139_scalar_shock (p : Problem) (P a t₀ S : ℝ) (hP : 0 < P) (w : ℝ × ℝ → ℝ) (f : ℝ → ℝ)
    (h : WeakInside (law p) a P t₀ S w f) (t₁ t₂ x₀ σ δ l r : ℝ) (h01 : t₀ ≤ t₁) (h12 : t₁ < t₂) (h2S : t₂ ≤ S) (hδ : 0 < δ)
    (hin : ∀ t, t₁ < t → t < t₂ → a ≤ x₀ + σ * (t - t₁) - δ ∧ x₀ + σ * (t - t₁) + δ ≤ a + P)
    (hs : ShockIn w t₁ t₂ x₀ σ δ l r) (hlr : l ≠ r) :
    (p = .advection → σ = 1) ∧ (p = .burgers → σ = (l + r) / 2) := by
  have := jump_inside h hP h01 h12 h2S hδ hin hs
  have hne : l - r ≠ 0 := sub_ne_zero.2 hlr
  rw [smul_eq_mul] at this
  refine ⟨?_, ?_⟩ <;> rintro rfl
  · simp only [law] at this
    exact mul_right_cancel₀ hne (by linarith)
  · simp only [law] at this
    exact mul_right_cancel₀ hne (by linarith)

open Verif.SWE in
/-- C139.  Hydraulic jumps of such limits inside the domain: mass and momentum balance across them. -/
theorem C139_water_shock (g L a t₀ S : ℝ) (hL : 0 < L) (w : ℝ × ℝ → State ℝ) (f : ℝ → State ℝ)
    (h : WeakInside (waterFlux g) a L t₀ S w f) (t₁ t₂ x₀ σ δ : ℝ) (l r : State ℝ) (h01 : t₀ ≤ t₁) (h12 : t₁ < t₂)
    (h2S : t₂ ≤ S) (hδ : 0 < δ)
    (hin : ∀ t, t₁ < t → t < t₂ → a ≤ x₀ + σ * (t - t₁) - δ ∧ x₀ + σ * (t - t₁) + δ ≤ a + L)
    (hs : ShockIn w t₁ t₂ x₀ σ δ l r) :
    σ * (l.1 - r.1) = l.2 - r.2 ∧
      σ * (l.2 - r.2) = (l.2 ^ 2 / l.1 + g * l.1 ^ 2 / 2) - (r.2 ^ 2 / r.1 + g * r.1 ^ 2 / 2) := by
  have := jump_inside h hL h01 h12 h2S hδ hin hs
  exact ⟨congrArg Prod.fst this, congrArg Prod.snd this⟩

/-- C139.  The jump from -1 to 1 for Burgers' equation on [-1, 1] with outflow: on all meshes with an even number of cells
the central solver does not change it, although the entropy solution spreads it to a rarefaction. -/
theorem C139_expansion (wall il ir : Option (ℝ → ℝ)) (bc : BC ℝ ℝ) (hbc : build wall ["outflow"] 1 il ir = .ok bc)
    (k : ℕ) (hk : 0 < k) :
    RunWithin (forwardEuler ℝ) (vecRhs (2 * k) (rhs (central ℝ (Problem.burgers.riemann : Riemann ℝ ℝ).flux)
      (2 / (2 * k : ℕ)) bc)) (Icc (-1) 1) 1 (-1) (2 / (2 * k : ℕ)) 0 1 (fun z => if z.2 ≤ 0 then -1 else 1)
      (fun x => if x ≤ 0 then -1 else 1) :=
  standing_jump _ (by simp [central]) (-1) 1 (1 / 2) _ (by norm_num) (by norm_num)
    (central_call _ (-1) 1 (1 / 2) (by norm_num [Problem.riemann, Problem.flux]) (by norm_num [Problem.riemann, Problem.flux]))
    wall il ir bc hbc k hk

/-! ### Examples -/

/-- The jump of `C139_expansion` meets the hypotheses of `C139_scalar` and is a weak solution away from the ends; it is a
shock in the sense of `C139_scalar_shock`, with speed zero. -/
example : WeakInside (law .burgers) (-1) 2 0 1 (fun z => if z.2 ≤ 0 then -1 else 1) (fun x => if x ≤ 0 then -1 else 1) ∧
    ShockIn (fun z => if z.2 ≤ 0 then -1 else 1) 0 1 0 0 (1 / 2) (-1) 1 := by
  obtain ⟨bc, hbc⟩ : ∃ bc : BC ℝ ℝ, build none ["outflow"] 1 none none = .ok bc := ⟨_, rfl⟩
  have hm : Measurable (jumpAt (-1 : ℝ) 1) := by
    unfold jumpAt
    exact Measurable.ite measurableSet_Iic measurable_const measurable_const
  have hb : ∀ x, ‖jumpAt (-1 : ℝ) 1 x‖ ≤ 1 := fun x => by
    unfold jumpAt
    split_ifs <;> norm_num
  refine ⟨?_, ?_⟩
  · refine C139_scalar .burgers (forwardEuler ℝ) (by simp [forwardEuler]) (-1) 1 1 2 (-1) 0 1 (by norm_num) (by norm_num)
      ["outflow"] none none none bc hbc (by simp) (by simp) (by simp) (fun r => 2 * (r + 1)) (fun r => by omega) ?_
      (fun _ => central ℝ (Problem.burgers.riemann : Riemann ℝ ℝ).flux) (fun r => Or.inl (by simp))
      (fun _ z => jumpAt (-1) 1 z.2) (fun _ => jumpAt (-1) 1) (fun r => C139_expansion none none none bc hbc (r + 1) (by omega)) _ _ ?_ ?_
      (by simp [jumpAt]) (by simp [jumpAt])
    · exact tendsto_atTop_mono (fun r => by simp only [id]; omega) tendsto_id
    · refine Measure.integrableOn_of_bounded (M := 1) ?_ (hm.comp measurable_snd).aestronglyMeasurable
        (Eventually.of_forall fun z => hb z.2)
      exact ((isCompact_Icc.prod isCompact_Icc).measure_lt_top.trans_le' (measure_mono
        (prod_mono Ioc_subset_Icc_self Ioc_subset_Icc_self))).ne
    · exact Measure.integrableOn_of_bounded (M := 1) measure_Ioc_lt_top.ne hm.aestronglyMeasurable (Eventually.of_forall hb)
  · have hne : ∀ᵐ z : ℝ × ℝ, z.2 ≠ 0 := by
      have : ∀ᵐ x : ℝ, x ≠ 0 := by
        rw [ae_iff]
        simp
      rw [Measure.volume_eq_prod]
      exact Measure.quasiMeasurePreserving_snd.ae this
    filter_upwards [hne] with z hz _ _ _
    simp only [zero_mul, add_zero]
    by_cases h : z.2 < 0
    · rw [if_pos h, if_pos h.le]
    · rw [if_neg h, if_neg fun h' => h (lt_of_le_of_ne h' hz)]

open Verif.SWE in
/-- A standing hydraulic jump with discharge 3 from height 1 to height 2 (for gravity 3), with outflow at both ends,
computed by the central solver: the hypotheses of `C139_water` hold. -/
example (il ir : Option (ℝ → State ℝ)) (bc : BC ℝ (State ℝ)) (hbc : build (some reflect) ["outflow"] 1 il ir = .ok bc)
    (k : ℕ) (hk : 0 < k) :
    RunWithin (forwardEuler ℝ) (vecRhs (2 * k) (rhs (centralFlux (realParams 3 (1 / 10) (by norm_num)) ⟨none⟩)
      (2 / (2 * k : ℕ)) bc)) {v | 1 ≤ v.1 ∧ v.1 ≤ 2 ∧ |v.2| ≤ 3} 1 (-1) (2 / (2 * k : ℕ)) 0 1
      (fun z => jumpAt ((1, 3) : State ℝ) (2, 3) z.2) (jumpAt (1, 3) (2, 3)) := by
  refine standing_jump _ (by simp [centralFlux, withSource, central, twoPoint]) (1, 3) (2, 3) (3, 21 / 2) _ (by norm_num)
    (by norm_num) ?_ (some reflect) il ir bc hbc k hk
  intro n ext hlen hmem
  exact source_call _ _ n ext hlen _ _ (central_call _ (1, 3) (2, 3) (3, 21 / 2) (by norm_num [SWE.flux, realParams])
    (by norm_num [SWE.flux, realParams]) n ext hlen hmem)

end Verif.WeakLimit
