import Verif.Props.WeakRuns
import Verif.Core.Translation
import Verif.Core.SWELipschitz

/-!
Helper lemmas for C136: the fluxes of the schemes are near the one of the law.
-/

set_option linter.unusedSectionVars false

namespace Verif.WeakLimit

open Verif.Py Verif.Boundary Verif.FV Verif.ODE Verif.Weak Verif.EntropyLimit
open Set

variable {V : Type*} [NormedAddCommGroup V] [NormedSpace ℝ V]

/-! ### Periodic boundaries -/

/-- Numerical fluxes near the one of the law, on extended vectors.  If `per` holds they are the same at both ends for
periodic states. -/
def NearFlux (per : Prop) (F : NumFlux V) (n : ℕ) (Q : V → V) (D : Set V) (C : ℝ) : Prop :=
  ∀ (ext fl fr : List V), ext.length = n + 2 → (∀ j < n + 2, ext.getD j 0 ∈ D) →
    F.call [ext.dropLast, ext.tail] = .ok (fl, fr) →
    ∃ H : ℕ → V, fl = (List.range (n + 1)).map (fun j => -H j) ∧ fr = (List.range (n + 1)).map H ∧
      (per → ext.getD 0 0 = ext.getD n 0 → ext.getD 1 0 = ext.getD (n + 1) 0 → H n = H 0) ∧
      ∀ j < n + 1, ‖H j - Q (ext.getD j 0)‖ ≤ C * ‖ext.getD (j + 1) 0 - ext.getD j 0‖

theorem near_form {F : NumFlux V} {n : ℕ} (hn : 0 < n) {Q : V → V} {D : Set V} {C dx : ℝ} (hdim : F.dim / 2 = 1)
    (hF : NearFlux True F n Q D C) (wall : Option (V → V)) (il ir : Option (ℝ → V)) (bc : BC ℝ V)
    (hbc : build wall ["periodic"] 1 il ir = .ok bc) : FluxForm (vecRhs n (rhs F dx bc)) dx Q D C := by
  intro t v w hv hw
  have hext := Verif.FV.periodic_extend wall 1 il ir bc hbc (List.ofFn v) (by rw [List.length_ofFn]; exact hn) (some t)
  rw [List.length_ofFn] at hext
  set ext := (List.range (n + 2 * 1)).map (fun i => (List.ofFn v).getD ((i + n - 1) % n) 0) with hE
  have hlen : ext.length = n + 2 := by simp [hE]
  have hget : ∀ j (hj : j < n + 2), ext.getD j 0 = v ⟨(j + n - 1) % n, Nat.mod_lt _ hn⟩ := by
    intro j hj
    rw [List.getD_eq_getElem _ _ (by omega)]
    simp only [hE, List.getElem_map, List.getElem_range]
    rw [List.getD_eq_getElem _ _ (by rw [List.length_ofFn]; exact Nat.mod_lt _ hn), List.getElem_ofFn]
  have hlow : ∀ i (hi : i < n), ext.getD (i + 1) 0 = v ⟨i, hi⟩ := by
    intro i hi
    rw [hget _ (by omega)]
    congr 2
    rw [show i + 1 + n - 1 = i + n by omega, Nat.add_mod_right, Nat.mod_eq_of_lt hi]
  have htop : ext.getD (n + 1) 0 = v ⟨0, hn⟩ := by
    rw [hget _ (by omega)]
    congr 2
    rw [show n + 1 + n - 1 = n + n by omega, Nat.add_mod_right, Nat.mod_self]
  have h0 : ext.getD 0 0 = ext.getD n 0 := by
    rw [hget _ (by omega), hget _ (by omega)]
    congr 2
    rw [show n + n - 1 = (n - 1) + n by omega, Nat.add_mod_right, show 0 + n - 1 = n - 1 by omega]
  have h1 : ext.getD 1 0 = ext.getD (n + 1) 0 := by rw [hlow 0 hn, htop]
  have hne : ext ≠ [] := by intro h; rw [h] at hlen; simp at hlen
  -- what the call returned
  unfold vecRhs at hw
  cases hr : rhs F dx bc t (List.ofFn v) with
  | error e => rw [hr] at hw; cases hw
  | ok ws =>
    rw [hr] at hw
    obtain ⟨values, fl, fr, hval, hcall, hdx, rfl⟩ := SWE.rhs_inv F dx bc t _ _ hr
    have hvals : values = [ext.dropLast, ext.tail] := by
      rw [hdim] at hval
      simp only [BC.nodeNeighbours, hext] at hval
      rw [nodeSlices_one ext hne] at hval
      exact (Except.ok.inj hval).symm
    subst hvals
    obtain ⟨H, rfl, rfl, hH, hnear⟩ := hF ext fl fr hlen (fun j hj => by rw [hget j hj]; exact hv _) hcall
    refine ⟨H, hH trivial h0 h1, ?_, ?_⟩
    · intro i
      dsimp only at hw
      split at hw
      · rename_i hl
        have e := congrFun (Except.ok.inj hw) i
        rw [← e]
        simp [sub_eq_add_neg]
      · cases hw
    · unfold jumps
      rw [Finset.mul_sum]
      refine Finset.sum_le_sum fun i _ => ?_
      have := hnear (i + 1) (by omega)
      rw [hlow i i.2] at this
      have e : ext.getD ((i : ℕ) + 1 + 1) 0 = v (finRotate n i) := by
        by_cases hi : (i : ℕ) + 1 = n
        · rw [hi, htop]
          congr 1
          apply Fin.ext
          rw [rotate_value, if_pos hi]
        · rw [hlow (i + 1) (by omega)]
          congr 1
          apply Fin.ext
          rw [rotate_value, if_neg hi]
      rwa [e] at this

theorem NearFlux.of {per per' : Prop} {F : NumFlux V} {n : ℕ} {Q : V → V} {D : Set V} {C : ℝ} (h : NearFlux per F n Q D C)
    (hp : per' → per) : NearFlux per' F n Q D C := by
  intro ext fl fr hlen hD hcall
  obtain ⟨H, e1, e2, e3, e4⟩ := h ext fl fr hlen hD hcall
  exact ⟨H, e1, e2, fun h => e3 (hp h), e4⟩

theorem NearFlux.congr {per : Prop} {F : NumFlux V} {n : ℕ} {Q Q' : V → V} {D : Set V} {C : ℝ} (h : NearFlux per F n Q D C)
    (hQ : ∀ v ∈ D, Q v = Q' v) : NearFlux per F n Q' D C := by
  intro ext fl fr hlen hD hcall
  obtain ⟨H, e1, e2, e3, e4⟩ := h ext fl fr hlen hD hcall
  refine ⟨H, e1, e2, e3, fun j hj => ?_⟩
  rw [← hQ _ (hD j (by omega))]
  exact e4 j hj

theorem NearFlux.mono {per : Prop} {F : NumFlux V} {n : ℕ} {Q : V → V} {D : Set V} {C C' : ℝ} (h : NearFlux per F n Q D C)
    (hC : C ≤ C') : NearFlux per F n Q D C' := by
  intro ext fl fr hlen hD hcall
  obtain ⟨H, e1, e2, e3, e4⟩ := h ext fl fr hlen hD hcall
  exact ⟨H, e1, e2, e3, fun j hj => (e4 j hj).trans (mul_le_mul_of_nonneg_right hC (norm_nonneg _))⟩

theorem near_twoPoint {G : V → V → Except Py.Error V} {Q : V → V} {D : Set V} {C : ℝ}
    (hG : ∀ v ∈ D, ∀ v' ∈ D, ∀ g, G v v' = .ok g → ‖g - Q v‖ ≤ C * ‖v' - v‖) (n : ℕ) :
    NearFlux True (twoPoint G) n Q D C := by
  intro ext fl fr hlen hD hcall
  simp only [twoPoint] at hcall
  cases hz : zipE G ext.dropLast ext.tail with
  | error e => rw [hz] at hcall; cases hcall
  | ok fs =>
    rw [hz] at hcall
    obtain ⟨z1, z2⟩ := zipE_ok_iff G _ _ fs hz
    have hl : fs.length = n + 1 := by rw [z1]; simp [hlen]
    have hg : ∀ j < n + 1, G (ext.getD j 0) (ext.getD (j + 1) 0) = .ok (fs.getD j 0) := by
      intro j hj
      have := z2 j (by omega) (by simp; omega) (by simp; omega)
      rw [List.getElem_dropLast, List.getElem_tail, ← List.getD_eq_getElem ext 0, ← List.getD_eq_getElem ext 0,
        ← List.getD_eq_getElem fs 0] at this
      exact this
    obtain ⟨rfl, rfl⟩ := Prod.mk.inj (Except.ok.inj hcall)
    have hfs : fs = (List.range (n + 1)).map (fun j => fs.getD j 0) := by
      apply List.ext_getElem
      · simp [hl]
      · intro i h1 h2
        rw [List.getElem_map, List.getElem_range, List.getD_eq_getElem]
    refine ⟨fun j => fs.getD j 0, ?_, hfs, ?_, ?_⟩
    · conv_lhs => rw [hfs]
      rw [List.map_map]
      rfl
    · intro _ h0 h1
      have e1 := hg 0 (by omega)
      have e2 := hg n (by omega)
      rw [zero_add, h0, h1, e2] at e1
      exact Except.ok.inj e1
    · intro j hj
      exact hG _ (hD j (by omega)) _ (hD (j + 1) (by omega)) _ (hg j hj)

/-! ### Scalar schemes -/

section Scalar

open Verif.Scalar

/-- Bound for the slope of the flux. -/
def slopeBound (m M : ℝ) : ℝ := 1 + |m| + |M|

theorem slopeBound_pos (m M : ℝ) : 0 < slopeBound m M := by unfold slopeBound; positivity

theorem value_bound {m M v : ℝ} (hv : v ∈ Icc m M) : |v| ≤ |m| + |M| := by
  rw [_root_.abs_le]
  constructor <;> linarith [hv.1, hv.2, neg_abs_le m, le_abs_self M, abs_nonneg m, abs_nonneg M]

theorem scalar_lipschitz (p : Problem) {m M : ℝ} (v : ℝ) (hv : v ∈ Icc m M) (v' : ℝ) (hv' : v' ∈ Icc m M) :
    ‖p.flux v - p.flux v'‖ ≤ slopeBound m M * ‖v - v'‖ := by
  have b := value_bound hv
  have b' := value_bound hv'
  rw [Real.norm_eq_abs, Real.norm_eq_abs]
  cases p with
  | advection =>
    simp only [Problem.flux]
    have : (1 : ℝ) ≤ slopeBound m M := by unfold slopeBound; linarith [abs_nonneg m, abs_nonneg M]
    nlinarith [abs_nonneg (v - v')]
  | burgers =>
    simp only [Problem.flux]
    have e : 1 / 2 * v ^ 2 - 1 / 2 * v' ^ 2 = (v + v') / 2 * (v - v') := by ring
    rw [e, abs_mul]
    refine mul_le_mul_of_nonneg_right ?_ (abs_nonneg _)
    rw [abs_div, abs_two]
    have := abs_add_le v v'
    unfold slopeBound
    linarith

theorem scalar_speed (p : Problem) {m M : ℝ} (v : ℝ) (hv : v ∈ Icc m M) (v' : ℝ) (hv' : v' ∈ Icc m M) :
    |max (p.fluxPrime v) (p.fluxPrime v')| ≤ slopeBound m M := by
  have b := value_bound hv
  have b' := value_bound hv'
  unfold slopeBound
  cases p with
  | advection =>
    simp only [Problem.fluxPrime, max_self, abs_one]
    linarith [abs_nonneg m, abs_nonneg M]
  | burgers =>
    simp only [Problem.fluxPrime]
    rcases max_choice v v' with h | h <;> rw [h] <;> linarith

theorem laxFriedrichs_value (p : Problem) {m M : ℝ} (v : ℝ) (hv : v ∈ Icc m M) (v' : ℝ) (hv' : v' ∈ Icc m M) (g : ℝ)
    (hg : (p.riemann : Riemann ℝ ℝ).nodeFlux v v' = .ok g) : ‖g - p.flux v‖ ≤ slopeBound m M * ‖v' - v‖ := by
  have hl := scalar_lipschitz p v' hv' v hv
  have hs := scalar_speed p v hv v' hv'
  simp only [Riemann.nodeFlux, Riemann.solve, Problem.riemann, Problem.waveSpeed] at hg
  set w := max (p.fluxPrime v) (p.fluxPrime v') with hw
  split_ifs at hg with h0
  simp only [Except.ok.injEq] at hg
  have hw0 : w ≠ 0 := by intro h; apply h0; rw [h]; ring
  have e : g - p.flux v = (p.flux v' - p.flux v) / 2 - w / 2 * (v' - v) := by
    rw [← hg]
    simp only [smul_eq_mul]
    field_simp
    ring
  rw [e, Real.norm_eq_abs]
  rw [Real.norm_eq_abs, Real.norm_eq_abs] at hl
  rw [Real.norm_eq_abs]
  refine (abs_sub _ _).trans ?_
  rw [abs_mul, abs_div, abs_div, abs_two]
  have := mul_le_mul_of_nonneg_right hs (abs_nonneg (v' - v))
  linarith

theorem near_laxFriedrichs (p : Problem) (m M : ℝ) (n : ℕ) :
    NearFlux True (laxFriedrichs (p.riemann : Riemann ℝ ℝ)) n p.flux (Icc m M) (slopeBound m M) :=
  near_twoPoint (laxFriedrichs_value p) n

theorem central_value (p : Problem) {m M : ℝ} (v : ℝ) (hv : v ∈ Icc m M) (v' : ℝ) (hv' : v' ∈ Icc m M) (g : ℝ)
    (hg : centralNode ℝ (p.riemann : Riemann ℝ ℝ).flux v v' = .ok g) : ‖g - p.flux v‖ ≤ slopeBound m M * ‖v' - v‖ := by
  have hl := scalar_lipschitz p v' hv' v hv
  simp only [centralNode, Problem.riemann, Except.ok.injEq] at hg
  have e : g - p.flux v = (p.flux v' - p.flux v) / 2 := by
    rw [← hg, smul_eq_mul]
    ring
  rw [e, Real.norm_eq_abs, abs_div, abs_two]
  rw [Real.norm_eq_abs] at hl
  have := abs_nonneg (p.flux v' - p.flux v)
  linarith

theorem near_central (p : Problem) (m M : ℝ) (n : ℕ) :
    NearFlux True (central ℝ (p.riemann : Riemann ℝ ℝ).flux) n p.flux (Icc m M) (slopeBound m M) :=
  near_twoPoint (central_value p) n

end Scalar

/-! ### Shallow water schemes without limiter -/

section Water

open Verif.SWE

/-- States with bounded heights and discharges. -/
def box (h0 H Q : ℝ) : Set (State ℝ) := {u | InBox h0 H Q u}

theorem norm_size (u : State ℝ) : ‖u‖ = stateSize u := rfl

variable {P : SWE.Params ℝ} {h0 H Q : ℝ}

theorem flux_wet (he : P.eps ≤ h0) {u : State ℝ} (hu : u ∈ box h0 H Q) : flux P u = .ok (fluxOf P u) :=
  flux_ok P u ((P.eps_pos.trans_le (he.trans hu.1)).le)

theorem water_lipschitz (hg : 0 < P.g) (he : P.eps ≤ h0) (u : State ℝ) (hu : u ∈ box h0 H Q) (w : State ℝ)
    (hw : w ∈ box h0 H Q) : ‖fluxOf P u - fluxOf P w‖ ≤ fluxLip P h0 H Q * ‖u - w‖ :=
  SWE.flux_lipschitz P hg h0 H Q he w u hw hu ‖u - w‖ le_rfl _ _ (flux_wet he hw) (flux_wet he hu)

theorem fluxLip_pos : 0 < fluxLip P h0 H Q := lt_max_of_lt_left one_pos

theorem speed_wet (hrt : IsSqrt P.rt) (hg : 0 < P.g) (he : P.eps ≤ h0) {u w : State ℝ} (hu : u ∈ box h0 H Q)
    (hw : w ∈ box h0 H Q) : 0 < maxSpeed P u w ∧ maxSpeed P u w ≤ speedMax P h0 H Q := by
  rw [maxSpeed_eq]
  obtain ⟨a1, a2⟩ := SWE.speed_bound P hrt hg h0 H Q he u hu
  exact ⟨lt_max_of_lt_left a1, max_le a2 (SWE.speed_bound P hrt hg h0 H Q he w hw).2⟩

theorem llf_near (hrt : IsSqrt P.rt) (hg : 0 < P.g) (he : P.eps ≤ h0) {u w : State ℝ} (hu : u ∈ box h0 H Q)
    (hw : w ∈ box h0 H Q) : ‖llf P u w - fluxOf P u‖ ≤ (fluxLip P h0 H Q + speedMax P h0 H Q) * ‖w - u‖ := by
  have hl := water_lipschitz hg he w hw u hu
  obtain ⟨s1, s2⟩ := speed_wet hrt hg he hu hw
  have e : llf P u w - fluxOf P u = (1 / 2 : ℝ) • (fluxOf P w - fluxOf P u) - (maxSpeed P u w / 2) • (w - u) := by
    unfold llf
    rw [smul_add, smul_sub]
    have : fluxOf P u = (1 / 2 : ℝ) • fluxOf P u + (1 / 2 : ℝ) • fluxOf P u := by
      rw [← add_smul]; norm_num
    conv_lhs => rw [this]
    simp only [smul_add, ← mul_smul]
    rw [← sub_eq_zero]
    module
  rw [e]
  refine (norm_sub_le _ _).trans ?_
  rw [norm_smul, norm_smul, Real.norm_eq_abs, Real.norm_eq_abs, abs_of_nonneg (by norm_num : (0 : ℝ) ≤ 1 / 2),
    abs_of_nonneg (by linarith : 0 ≤ maxSpeed P u w / 2)]
  have := mul_le_mul_of_nonneg_right s2 (norm_nonneg (w - u))
  have h1 := norm_nonneg (fluxOf P w - fluxOf P u)
  have h2 := mul_nonneg s1.le (norm_nonneg (w - u))
  linarith

theorem source_flat (u w : State ℝ) : source P u w 0 = 0 := by
  unfold source
  rw [mul_zero]
  rfl

theorem flat_step (n : ℕ) (ds : List ℝ) (h : (⟨none⟩ : Bathymetry ℝ).steps (n + 1) = .ok ds) (j : ℕ) :
    ds.getD j 0 = 0 := by
  simp only [Bathymetry.steps, Except.ok.injEq] at h
  rw [← h]
  by_cases hj : j < n + 1
  · rw [List.getD_eq_getElem _ _ (by simpa using hj), List.getElem_replicate]
  · rw [List.getD_eq_default]
    simpa using hj

/-- A flux with the source term of a flat bottom. -/
theorem near_source {G : State ℝ → State ℝ → Except Py.Error (State ℝ)} {q : State ℝ → State ℝ} {D : Set (State ℝ)} {C : ℝ}
    (hG : ∀ v ∈ D, ∀ v' ∈ D, ∀ g, G v v' = .ok g → ‖g - q v‖ ≤ C * ‖v' - v‖) (n : ℕ) :
    NearFlux True (withSource P ⟨none⟩ (twoPoint G)) n q D C := by
  intro ext fl fr hlen hD hcall
  obtain ⟨ds, g, hds, hg, rfl, rfl⟩ := withSource_inv P ⟨none⟩ G n ext hlen _ (requiredValues_two _ _) fl fr hcall
  refine ⟨g, ?_, ?_, ?_, fun j hj => hG _ (hD j (by omega)) _ (hD (j + 1) (by omega)) _ (hg j hj)⟩
  · refine List.map_congr_left fun j _ => ?_
    rw [flat_step n ds hds, source_flat, neg_zero, add_zero]
  · refine List.map_congr_left fun j _ => ?_
    rw [flat_step n ds hds, source_flat, neg_zero, add_zero]
  · intro _ h0 h1
    have e1 := hg 0 (by omega)
    have e2 := hg n (by omega)
    rw [zero_add, h0, h1, e2] at e1
    exact Except.ok.inj e1

theorem near_lf (hrt : IsSqrt P.rt) (hg : 0 < P.g) (he : P.eps ≤ h0) (n : ℕ) :
    NearFlux True (lfFlux P ⟨none⟩) n (fluxOf P) (box h0 H Q) (fluxLip P h0 H Q + speedMax P h0 H Q) := by
  refine near_source ?_ n
  intro u hu w hw g hgg
  have s := (speed_wet hrt hg he hu hw).1
  simp only [Riemann.nodeFlux, solve_ok P u w ((P.eps_pos.trans_le (he.trans hu.1)).le)
    ((P.eps_pos.trans_le (he.trans hw.1)).le) s, Except.ok.injEq] at hgg
  rw [← hgg]
  exact llf_near hrt hg he hu hw

theorem speedMax_nonneg (hrt : IsSqrt P.rt) (hg : 0 < P.g) (he : P.eps ≤ h0) {u : State ℝ} (hu : u ∈ box h0 H Q) :
    0 ≤ speedMax P h0 H Q := by
  obtain ⟨a1, a2⟩ := SWE.speed_bound P hrt hg h0 H Q he u hu
  exact a1.le.trans a2

theorem near_water_central (hg : 0 < P.g) (he : P.eps ≤ h0) (n : ℕ) :
    NearFlux True (centralFlux P ⟨none⟩) n (fluxOf P) (box h0 H Q) (fluxLip P h0 H Q) := by
  refine near_source ?_ n
  intro u hu w hw g hgg
  simp only [centralNode, flux_wet he hu, flux_wet he hw, Except.ok.injEq] at hgg
  have hl := water_lipschitz hg he w hw u hu
  have e : g - fluxOf P u = (1 / 2 : ℝ) • (fluxOf P w - fluxOf P u) := by
    rw [← hgg]
    module
  rw [e, norm_smul, Real.norm_eq_abs, abs_of_nonneg (by norm_num : (0 : ℝ) ≤ 1 / 2)]
  have := norm_nonneg (fluxOf P w - fluxOf P u)
  linarith

theorem middle_box {u w : State ℝ} (hu : u ∈ box h0 H Q) (hw : w ∈ box h0 H Q) : middle u w ∈ box h0 H Q := by
  obtain ⟨a1, a2, a3⟩ := hu
  obtain ⟨b1, b2, b3⟩ := hw
  rw [_root_.abs_le] at a3 b3
  refine ⟨?_, ?_, _root_.abs_le.2 ⟨?_, ?_⟩⟩ <;> simp only [middle, average] <;> linarith [a3.1, a3.2, b3.1, b3.2]

theorem middle_near (hg : 0 < P.g) (he : P.eps ≤ h0) {u w : State ℝ} (hu : u ∈ box h0 H Q) (hw : w ∈ box h0 H Q) :
    ‖fluxOf P (middle u w) - fluxOf P u‖ ≤ fluxLip P h0 H Q * ‖w - u‖ := by
  refine (water_lipschitz hg he _ (middle_box hu hw) u hu).trans (mul_le_mul_of_nonneg_left ?_ fluxLip_pos.le)
  have e : middle u w - u = (1 / 2 : ℝ) • (w - u) := by
    ext <;> simp only [middle, average, Prod.fst_sub, Prod.snd_sub, Prod.smul_fst, Prod.smul_snd, smul_eq_mul] <;> ring
  rw [e, norm_smul, Real.norm_eq_abs, abs_of_nonneg (by norm_num : (0 : ℝ) ≤ 1 / 2)]
  have := norm_nonneg (w - u)
  linarith

theorem near_energy (hg : 0 < P.g) (he : P.eps ≤ h0) (n : ℕ) :
    NearFlux True (energyStableFlux P ⟨none⟩) n (fluxOf P) (box h0 H Q) (fluxLip P h0 H Q) := by
  refine near_source ?_ n
  intro u hu w hw g hgg
  have e := flux_inv P _ _ hgg
  rw [e]
  exact middle_near hg he hu hw

theorem low_flat (u w : State ℝ) (hw : maxSpeed P u w ≠ 0) :
    (low P u w 0).fluxRight = llf P u w ∧ (low P u w 0).fluxLeft = -llf P u w := by
  rw [llf_left P u w hw]
  constructor
  · rw [llf_right P u w hw]
    simp [low, positivityFix_flat, sub_eq_add_neg]
  · simp [low, positivityFix_flat, sub_eq_add_neg]

theorem near_low (hP : P.Good) (hrt : IsSqrt P.rt) (he : P.eps ≤ h0) (n : ℕ) :
    NearFlux True (lowOrder P ⟨none⟩) n (fluxOf P) (box h0 H Q) (fluxLip P h0 H Q + speedMax P h0 H Q) := by
  intro ext fl fr hlen hD hcall
  obtain ⟨ds, hds, hall, rfl, rfl⟩ := lowOrder_inv P hP ⟨none⟩ n ext hlen fl fr hcall
  refine ⟨fun j => llf P (ext.getD j 0) (ext.getD (j + 1) 0), ?_, ?_, ?_, fun j hj =>
    llf_near hrt hP.g_pos he (hD j (by omega)) (hD (j + 1) (by omega))⟩
  · refine List.map_congr_left fun j hj => ?_
    rw [flat_step n ds hds, (low_flat _ _ (hall j (List.mem_range.1 hj)).2.2.ne').2]
  · refine List.map_congr_left fun j hj => ?_
    rw [flat_step n ds hds, (low_flat _ _ (hall j (List.mem_range.1 hj)).2.2.ne').1]
  · intro _ h0' h1'
    dsimp only
    rw [zero_add, h0', h1']

/-! ### The diffusive energy stable scheme -/

/-- Lipschitz constant of the entropy variables. -/
noncomputable def entropyLip (P : SWE.Params ℝ) (h0 Q : ℝ) : ℝ := P.g + (Q / h0 + 1) * (1 / h0 + Q / h0 ^ 2)

theorem entropy_lipschitz (hg : 0 < P.g) (he : P.eps ≤ h0) {u w : State ℝ} (hu : u ∈ box h0 H Q) (hw : w ∈ box h0 H Q) :
    ‖entropyStep P u w 0‖ ≤ entropyLip P h0 Q * ‖w - u‖ := by
  have hp : 0 < h0 := P.eps_pos.trans_le he
  have hQ : 0 ≤ Q := (abs_nonneg _).trans hu.2.2
  have hv := velocity_lipschitz P h0 H Q he u w hu hw ‖w - u‖ le_rfl
  have b1 := velocity_bound P h0 H Q he u hu
  have b2 := velocity_bound P h0 H Q he w hw
  obtain ⟨d1, d2⟩ := (stateSize_le _ _).mp (le_refl (stateSize (w - u)))
  change |w.1 - u.1| ≤ ‖w - u‖ at d1
  have hd := norm_nonneg (w - u)
  have hL : 0 ≤ 1 / h0 + Q / h0 ^ 2 := by positivity
  have hQh : 0 ≤ Q / h0 := by positivity
  rw [norm_size]
  refine (stateSize_le _ _).mpr ⟨?_, ?_⟩
  · have e : (entropyStep P u w 0).1 = P.g * (w.1 - u.1) -
        (velocity P w + velocity P u) / 2 * (velocity P w - velocity P u) := by
      simp only [entropyStep, entropy, Prod.fst_sub]
      ring
    rw [e]
    refine (abs_sub _ _).trans ?_
    rw [abs_mul, abs_mul, abs_of_pos hg, abs_div, abs_two]
    have k1 := mul_le_mul_of_nonneg_left d1 hg.le
    have k2 : |velocity P w + velocity P u| / 2 ≤ Q / h0 := by
      have := abs_add_le (velocity P w) (velocity P u)
      linarith
    have k3 := mul_le_mul k2 hv (abs_nonneg _) hQh
    have k4 : 0 ≤ (1 / h0 + Q / h0 ^ 2) * ‖w - u‖ := mul_nonneg hL hd
    unfold entropyLip
    nlinarith
  · have e : (entropyStep P u w 0).2 = velocity P w - velocity P u := by
      simp only [entropyStep, entropy, Prod.snd_sub]
    rw [e]
    refine hv.trans (mul_le_mul_of_nonneg_right ?_ hd)
    unfold entropyLip
    nlinarith [mul_nonneg hQh hL]

/-- Bound for the entries of the matrix. -/
noncomputable def matrixBound (P : SWE.Params ℝ) (h0 H Q : ℝ) : ℝ :=
  (1 / P.rt (2 * P.g)) ^ 3 * (speedMax P h0 H Q + speedMax P h0 H Q ^ 2 + speedMax P h0 H Q ^ 3)

theorem diffusion_bound (hrt : IsSqrt P.rt) (hg : 0 < P.g) (he : P.eps ≤ h0) {u w : State ℝ} (hu : u ∈ box h0 H Q)
    (hw : w ∈ box h0 H Q) (d : State ℝ) : ‖diffusion P u w d‖ ≤ 2 * matrixBound P h0 H Q * ‖d‖ := by
  have hm : middle u w ∈ box h0 H Q := middle_box hu hw
  obtain ⟨z1, z2⟩ := SWE.speed_bound P hrt hg h0 H Q he _ hm
  have hs : 0 ≤ 1 / P.rt (2 * P.g) := by
    have := rt_pos P.rt hrt (2 * P.g) (by linarith)
    positivity
  have hc : 0 ≤ P.rt (P.g * (middle u w).1) :=
    (hrt _ (mul_nonneg hg.le ((P.eps_pos.trans_le (he.trans hm.1)).le))).1
  set s := 1 / P.rt (2 * P.g) with hsd
  set c := P.rt (P.g * (middle u w).1) with hcd
  set v := velocity P (middle u w) with hvd
  set Z := speedMax P h0 H Q with hZ
  have hvc : |v| + c ≤ Z := z2
  have hZ0 : 0 ≤ Z := by linarith [abs_nonneg v]
  have m1 : |v - c| ≤ Z := by
    have := abs_sub v c
    rw [abs_of_nonneg hc] at this
    linarith
  have p1 : |v + c| ≤ Z := by
    have := abs_add_le v c
    rw [abs_of_nonneg hc] at this
    linarith
  have X : ∀ x y : ℝ, |x| ≤ Z → |y| ≤ Z → |1 / 2 * (s * 1 * (s * |x|) * (s * 1) + s * 1 * (s * |y|) * (s * 1))| ≤ s ^ 3 * Z ∧
      |1 / 2 * (s * 1 * (s * |x|) * (s * x) + s * 1 * (s * |y|) * (s * y))| ≤ s ^ 3 * Z ^ 2 ∧
      |1 / 2 * (s * x * (s * |x|) * (s * 1) + s * y * (s * |y|) * (s * 1))| ≤ s ^ 3 * Z ^ 2 ∧
      |1 / 2 * (s * x * (s * |x|) * (s * x) + s * y * (s * |y|) * (s * y))| ≤ s ^ 3 * Z ^ 3 := by
    intro x y hx hy
    have s3 : 0 ≤ s ^ 3 := by positivity
    have hx2 : |(|x| * x)| ≤ Z ^ 2 := by
      rw [abs_mul, abs_abs, pow_two]; exact mul_le_mul hx hx (abs_nonneg _) hZ0
    have hy2 : |(|y| * y)| ≤ Z ^ 2 := by
      rw [abs_mul, abs_abs, pow_two]; exact mul_le_mul hy hy (abs_nonneg _) hZ0
    have hx3 : |(|x| * x * x)| ≤ Z ^ 3 := by
      rw [abs_mul, pow_succ]; exact mul_le_mul hx2 hx (abs_nonneg _) (by positivity)
    have hy3 : |(|y| * y * y)| ≤ Z ^ 3 := by
      rw [abs_mul, pow_succ]; exact mul_le_mul hy2 hy (abs_nonneg _) (by positivity)
    have key : ∀ a b B e : ℝ, |a| ≤ B → |b| ≤ B → e = s ^ 3 * ((a + b) / 2) → |e| ≤ s ^ 3 * B := by
      intro a b B e ha hb hE
      rw [hE, abs_mul, abs_of_nonneg s3]
      refine mul_le_mul_of_nonneg_left ?_ s3
      rw [abs_div, abs_two]
      have := abs_add_le a b
      linarith
    refine ⟨key |x| |y| _ _ (by rwa [abs_abs]) (by rwa [abs_abs]) (by ring), key _ _ _ _ hx2 hy2 (by ring),
      key _ _ _ _ hx2 hy2 (by ring), key _ _ _ _ hx3 hy3 (by ring)⟩
  obtain ⟨x1, x2, x3, x4⟩ := X (v - c) (v + c) m1 p1
  obtain ⟨d1, d2⟩ := (stateSize_le _ _).mp (le_refl (stateSize d))
  change |d.1| ≤ ‖d‖ at d1
  change |d.2| ≤ ‖d‖ at d2
  have hB : matrixBound P h0 H Q = s ^ 3 * Z + s ^ 3 * Z ^ 2 + s ^ 3 * Z ^ 3 := by
    unfold matrixBound; ring
  have n1 : 0 ≤ s ^ 3 * Z := by positivity
  have n2 : 0 ≤ s ^ 3 * Z ^ 2 := by positivity
  have n3 : 0 ≤ s ^ 3 * Z ^ 3 := by positivity
  have comb : ∀ a b : ℝ, |a| ≤ matrixBound P h0 H Q → |b| ≤ matrixBound P h0 H Q →
      |a * d.1 + b * d.2| ≤ 2 * matrixBound P h0 H Q * ‖d‖ := by
    intro a b ha hb
    refine (abs_add_le _ _).trans ?_
    rw [abs_mul, abs_mul]
    have hM : 0 ≤ matrixBound P h0 H Q := (abs_nonneg a).trans ha
    have k1 := mul_le_mul ha d1 (abs_nonneg _) hM
    have k2 := mul_le_mul hb d2 (abs_nonneg _) hM
    linarith
  rw [norm_size]
  refine (stateSize_le _ _).mpr ⟨?_, ?_⟩
  · exact comb _ _ (x1.trans (by rw [hB]; linarith)) (x2.trans (by rw [hB]; linarith))
  · exact comb _ _ (x3.trans (by rw [hB]; linarith)) (x4.trans (by rw [hB]; linarith))

theorem near_diffusive (hrt : IsSqrt P.rt) (hg : 0 < P.g) (he : P.eps ≤ h0) (n : ℕ) :
    NearFlux True (diffusiveFlux P ⟨none⟩) n (fluxOf P) (box h0 H Q)
      (fluxLip P h0 H Q + 2 * |matrixBound P h0 H Q| * |entropyLip P h0 Q|) := by
  intro ext fl fr hlen hD hcall
  obtain ⟨ds, hds, rfl, rfl⟩ := diffusive_inv P ⟨none⟩ n ext hlen _ (requiredValues_two _ _) fl fr hcall
  refine ⟨fun j => fluxOf P (middle (ext.getD j 0) (ext.getD (j + 1) 0)) -
    diffusion P (ext.getD j 0) (ext.getD (j + 1) 0) (entropyStep P (ext.getD j 0) (ext.getD (j + 1) 0) 0), ?_, ?_, ?_, ?_⟩
  · refine List.map_congr_left fun j hj => ?_
    rw [flat_step n ds hds, source_flat, sub_zero]
  · refine List.map_congr_left fun j hj => ?_
    rw [flat_step n ds hds, source_flat, sub_zero]
  · intro _ h0' h1'
    dsimp only
    rw [zero_add, h0', h1']
  · intro j hj
    have hu := hD j (by omega)
    have hw := hD (j + 1) (by omega)
    set u := ext.getD j 0
    set w := ext.getD (j + 1) 0
    have k1 := middle_near hg he hu hw
    have k2 := diffusion_bound hrt hg he hu hw (entropyStep P u w 0)
    have k3 := entropy_lipschitz hg he hu hw
    have e : fluxOf P (middle u w) - diffusion P u w (entropyStep P u w 0) - fluxOf P u =
        (fluxOf P (middle u w) - fluxOf P u) - diffusion P u w (entropyStep P u w 0) := by abel
    rw [e]
    refine (norm_sub_le _ _).trans ?_
    have k4 : 2 * matrixBound P h0 H Q * ‖entropyStep P u w 0‖ ≤
        2 * |matrixBound P h0 H Q| * (|entropyLip P h0 Q| * ‖w - u‖) := by
      refine mul_le_mul (by linarith [le_abs_self (matrixBound P h0 H Q)]) (k3.trans ?_) (norm_nonneg _) (by positivity)
      exact mul_le_mul_of_nonneg_right (le_abs_self _) (norm_nonneg _)
    linarith

/-! ### Monolithic convex limiting -/

/-- Bound for the flux. -/
noncomputable def fluxBound (P : SWE.Params ℝ) (h0 H Q : ℝ) : ℝ := Q + (Q ^ 2 / h0 + P.g * H ^ 2 / 2)

theorem flux_bounded (hg : 0 < P.g) (he : P.eps ≤ h0) {u : State ℝ} (hu : u ∈ box h0 H Q) :
    ‖fluxOf P u‖ ≤ fluxBound P h0 H Q := by
  have hp : 0 < h0 := P.eps_pos.trans_le he
  obtain ⟨a1, a2, a3⟩ := hu
  have hu1 : 0 < u.1 := hp.trans_le a1
  have hQ : 0 ≤ Q := (abs_nonneg _).trans a3
  have hn : ¬u.1 < P.eps := not_lt.2 (he.trans a1)
  have b1 : 0 ≤ Q ^ 2 / h0 := by positivity
  have b2 : 0 ≤ P.g * H ^ 2 / 2 := by positivity
  rw [norm_size]
  unfold fluxBound
  refine (stateSize_le _ _).mpr ⟨?_, ?_⟩
  · simp only [fluxOf, massFlux, if_neg hn]
    linarith
  · simp only [fluxOf, momentumFlux, if_neg hn]
    rw [abs_of_nonneg (by positivity)]
    have k1 : u.2 ^ 2 / u.1 ≤ Q ^ 2 / h0 := by
      refine div_le_div₀ (by positivity) ?_ hp a1
      rw [← sq_abs u.2]
      exact pow_le_pow_left₀ (abs_nonneg _) a3 2
    have k2 : P.g * u.1 ^ 2 / 2 ≤ P.g * H ^ 2 / 2 := by
      have := pow_le_pow_left₀ hu1.le a2 2
      nlinarith
    linarith

/-- Bound for the velocities of the intermediate states. -/
noncomputable def barBound (P : SWE.Params ℝ) (h0 H Q : ℝ) : ℝ :=
  (Q + fluxBound P h0 H Q / P.rt (P.g * h0)) / (h0 * P.rt (P.g * h0) / speedMax P h0 H Q)

theorem bar_bound (hrt : IsSqrt P.rt) (hg : 0 < P.g) (he : P.eps ≤ h0) {u w : State ℝ} (hu : u ∈ box h0 H Q)
    (hw : w ∈ box h0 H Q) : 0 < (barState P u w).1 ∧
    |(barState P u w).2 / (barState P u w).1| ≤ barBound P h0 H Q := by
  have hp : 0 < h0 := P.eps_pos.trans_le he
  obtain ⟨s1, s2⟩ := speed_wet hrt hg he hu hw
  have hc0 : 0 < P.rt (P.g * h0) := rt_pos P.rt hrt _ (mul_pos hg hp)
  have hQ : 0 ≤ Q := (abs_nonneg _).trans hu.2.2
  have fu := flux_bounded hg he hu
  have fw := flux_bounded hg he hw
  have hR : 0 ≤ fluxBound P h0 H Q := (norm_nonneg _).trans fu
  set W := maxSpeed P u w with hW
  set c0 := P.rt (P.g * h0) with hc0d
  set Z := speedMax P h0 H Q with hZ
  have side : ∀ v ∈ box h0 H Q, speed P v ≤ W → h0 * c0 ≤ W * v.1 - |v.2| ∧ c0 ≤ W := by
    intro v hv hs
    have hv1 : 0 < v.1 := hp.trans_le hv.1
    have r := rt_mono P.rt hrt (P.g * h0) (P.g * v.1) (mul_pos hg hp).le (mul_le_mul_of_nonneg_left hv.1 hg.le)
    unfold speed at hs
    have hvel : |velocity P v| * v.1 = |v.2| := by
      rw [velocity_eq P v (he.trans hv.1), abs_div, abs_of_pos hv1]
      field_simp
    have e1 : (|velocity P v| + c0) * v.1 ≤ W * v.1 := mul_le_mul_of_nonneg_right (by linarith) hv1.le
    have e2 : h0 * c0 ≤ v.1 * c0 := mul_le_mul_of_nonneg_right hv.1 hc0.le
    refine ⟨by nlinarith, by linarith [abs_nonneg (velocity P v)]⟩
  obtain ⟨u1, cW⟩ := side u hu (by rw [hW, maxSpeed_eq]; exact le_max_left _ _)
  obtain ⟨w1, -⟩ := side w hw (by rw [hW, maxSpeed_eq]; exact le_max_right _ _)
  have nu : ¬u.1 < P.eps := not_lt.2 (he.trans hu.1)
  have nw : ¬w.1 < P.eps := not_lt.2 (he.trans hw.1)
  have hh : h0 * c0 / Z ≤ (barState P u w).1 := by
    have e : (barState P u w).1 = ((W * u.1 + u.2) + (W * w.1 - w.2)) / (2 * W) := by
      simp only [barState, fluxOf, massFlux, if_neg nu, if_neg nw, Prod.fst_sub, Prod.smul_fst, Prod.fst_add, smul_eq_mul,
        ← hW]
      field_simp
      ring
    rw [e]
    have k : h0 * c0 / Z ≤ h0 * c0 / W := div_le_div_of_nonneg_left (by positivity) s1 s2
    refine k.trans ?_
    rw [div_le_div_iff₀ s1 (by positivity)]
    have := neg_abs_le u.2
    have := le_abs_self w.2
    nlinarith
  have hZ0 : 0 < Z := s1.trans_le s2
  have hl : 0 < h0 * c0 / Z := by positivity
  refine ⟨hl.trans_le hh, ?_⟩
  rw [abs_div, abs_of_pos (hl.trans_le hh)]
  unfold barBound
  refine div_le_div₀ (by positivity) ?_ hl hh
  have e : (barState P u w).2 = (u.2 + w.2) / 2 - ((fluxOf P w).2 - (fluxOf P u).2) / (2 * W) := by
    simp only [barState, Prod.snd_sub, Prod.smul_snd, Prod.snd_add, smul_eq_mul, ← hW]
    field_simp
  rw [e]
  refine (abs_sub _ _).trans (add_le_add ?_ ?_)
  · rw [abs_div, abs_two]
    have := abs_add_le u.2 w.2
    linarith [hu.2.2, hw.2.2]
  · have k1 : |(fluxOf P w).2| ≤ fluxBound P h0 H Q := ((stateSize_le _ _).mp (le_of_eq_of_le (norm_size _).symm fw)).2
    have k2 : |(fluxOf P u).2| ≤ fluxBound P h0 H Q := ((stateSize_le _ _).mp (le_of_eq_of_le (norm_size _).symm fu)).2
    rw [abs_div, abs_of_pos (by positivity : 0 < 2 * W), div_le_div_iff₀ (by positivity) hc0]
    have k3 := abs_sub (fluxOf P w).2 (fluxOf P u).2
    have k4 : |(fluxOf P w).2 - (fluxOf P u).2| * c0 ≤ (2 * fluxBound P h0 H Q) * W :=
      mul_le_mul (by linarith) cW hc0.le (by linarith)
    linarith

/-- The limited flux of a node is not larger than the flux to be limited, up to a constant. -/
theorem limited_bound (N : LowNode ℝ) (vbar X : ℝ) (anti : State ℝ) (HL HR hL hR VL VR vL vR : ℝ) (hw : 0 < N.w)
    (hh : 0 < N.heightHLL) (el : N.heightLeft = N.heightHLL) (er : N.heightRight = N.heightHLL)
    (hq : N.dischargeRight = N.heightHLL * vbar) (hX : |vbar| ≤ X) (bL : hL ≤ N.heightLeft ∧ N.heightLeft ≤ HL)
    (bR : hR ≤ N.heightRight ∧ N.heightRight ≤ HR) (hR0 : 0 ≤ hR) (v1 : vbar ≤ VL) (v2 : vL ≤ vbar) (v3 : vbar ≤ VR)
    (v4 : vR ≤ vbar) : ‖limitedNode N vbar anti HL HR hL hR VL VR vL vR‖ ≤ (1 + 2 * X) * ‖anti‖ := by
  obtain ⟨⟨l1, -⟩, -, l3, l4⟩ := Scalar.limitNode_spec anti.1 N.w N.heightLeft N.heightRight HL HR hL hR hw bL bR
  have hX0 : 0 ≤ X := (abs_nonneg _).trans hX
  have hfh : |Scalar.limitNode anti.1 N.w N.heightLeft N.heightRight HL HR hL hR| ≤ |anti.1| := by
    rcases le_total 0 anti.1 with h | h
    · obtain ⟨a1, a2⟩ := l3 h
      rw [abs_of_nonneg a1, abs_of_nonneg h]; exact a2
    · obtain ⟨a1, a2⟩ := l4 h
      rw [abs_of_nonpos a2, abs_of_nonpos h]; linarith
  obtain ⟨d1, d2⟩ := (stateSize_le _ _).mp (le_refl (stateSize anti))
  change |anti.1| ≤ ‖anti‖ at d1
  change |anti.2| ≤ ‖anti‖ at d2
  have ha := norm_nonneg anti
  unfold limitedNode
  dsimp only
  set fh := Scalar.limitNode anti.1 N.w N.heightLeft N.heightRight HL HR hL hR with hfhd
  rw [er] at l1
  set height := N.heightHLL + fh / N.w with hhd
  have hh0 : 0 ≤ height := hR0.trans l1
  have ev : N.w * (N.dischargeRight + -height * vbar) = -(fh * vbar) := by
    rw [hq, hhd]
    field_simp
    ring
  have ev' : -N.w * (N.dischargeRight + -height * vbar) = fh * vbar := by
    rw [neg_mul, ev, neg_neg]
  rw [ev, ev']
  have hmax : 0 ≤ N.w * min (height * (VR - vbar)) (height * (vbar - vL)) :=
    mul_nonneg hw.le (le_min (mul_nonneg hh0 (by linarith)) (mul_nonneg hh0 (by linarith)))
  have hmin : N.w * max (height * (vR - vbar)) (height * (vbar - VL)) ≤ 0 :=
    mul_nonpos_of_nonneg_of_nonpos hw.le
      (max_le (mul_nonpos_of_nonneg_of_nonpos hh0 (by linarith)) (mul_nonpos_of_nonneg_of_nonpos hh0 (by linarith)))
  set M1 := N.w * min (height * (VR - vbar)) (height * (vbar - vL))
  set M2 := N.w * max (height * (vR - vbar)) (height * (vbar - VL))
  set vf := anti.2 + -(fh * vbar) with hvf
  have hclip : |max M2 (min M1 vf)| ≤ |vf| := by
    rcases le_total 0 vf with h | h
    · have a1 : 0 ≤ max M2 (min M1 vf) := le_max_of_le_right (le_min hmax h)
      rw [abs_of_nonneg a1, abs_of_nonneg h]
      exact max_le (hmin.trans h) (min_le_right _ _)
    · have a1 : max M2 (min M1 vf) ≤ 0 := max_le hmin ((min_le_right _ _).trans h)
      rw [abs_of_nonpos a1, abs_of_nonpos h]
      have : vf ≤ max M2 (min M1 vf) := le_max_of_le_right (le_min (h.trans hmax) le_rfl)
      linarith
  have hfv : |fh * vbar| ≤ ‖anti‖ * X := by
    rw [abs_mul]
    exact mul_le_mul (hfh.trans d1) hX (abs_nonneg _) ha
  have hvfb : |vf| ≤ ‖anti‖ + ‖anti‖ * X := by
    refine (abs_add_le _ _).trans ?_
    rw [abs_neg]
    linarith
  rw [norm_size]
  refine (stateSize_le _ _).mpr ⟨?_, ?_⟩
  · show |fh| ≤ _
    nlinarith [mul_nonneg hX0 ha]
  · show |max M2 (min M1 vf) + fh * vbar| ≤ _
    refine (abs_add_le _ _).trans ?_
    linarith

theorem near_mcl (hP : P.Good) (hrt : IsSqrt P.rt) (he : P.eps ≤ h0) (bc : BC ℝ (State ℝ)) (hbc : bc.left.length = 1)
    {n : ℕ} (hn : 0 < n) (G : NumFlux (State ℝ)) {per : Prop} {C : ℝ}
    (hG : NearFlux per G n (fluxOf P) (box h0 H Q) C) :
    NearFlux (bc.periodic = true ∧ EndsAgree G n) (mcl P ⟨none⟩ bc G) n (fluxOf P) (box h0 H Q) ((fluxLip P h0 H Q + speedMax P h0 H Q) +
      (1 + 2 * barBound P h0 H Q) * (C + (fluxLip P h0 H Q + speedMax P h0 H Q))) := by
  intro ext fl fr hlen hD hcall
  have hflat : EndsFlat (⟨none⟩ : Bathymetry ℝ) n := build_endsFlat P none ⟨none⟩ rfl n hn
  have hE := fun (hp : bc.periodic = true ∧ EndsAgree G n) (h0' : ext.getD 0 0 = ext.getD n 0)
      (h1' : ext.getD 1 0 = ext.getD (n + 1) 0) => mcl_endsAgree P hP ⟨none⟩ bc hbc hp.1 G n hn hflat hp.2 ext _ fl fr hlen
    (requiredValues_two _ _) (by
      intro a ha
      simp only [List.mem_cons, List.not_mem_nil, or_false] at ha
      rcases ha with rfl | rfl
      · rw [List.getD_eq_getElem _ _ (by simp; omega), List.getD_eq_getElem _ _ (by simp; omega), List.getElem_dropLast,
          List.getElem_dropLast, ← List.getD_eq_getElem ext 0, ← List.getD_eq_getElem ext 0]
        exact h0'
      · rw [List.getD_eq_getElem _ _ (by simp; omega), List.getD_eq_getElem _ _ (by simp; omega), List.getElem_tail,
          List.getElem_tail, ← List.getD_eq_getElem ext 0, ← List.getD_eq_getElem ext 0]
        exact h1') h0' h1' hcall
  obtain ⟨ds, hl, high, hds, hcG, hhl, hall, rfl, rfl⟩ :=
    mcl_inv P hP ⟨none⟩ bc hbc G n hn ext hlen _ (requiredValues_two _ _) fl fr hcall
  obtain ⟨K, -, rfl, -, hK⟩ := hG ext hl high hlen hD hcG
  set N := fun j => low P (ext.getD j 0) (ext.getD (j + 1) 0) (ds.getD j 0) with hN
  have hNj : ∀ j, N j = low P (ext.getD j 0) (ext.getD (j + 1) 0) 0 := fun j => by
    simp only [hN, flat_step n ds hds]
  set L := fun j => limOf bc.periodic n N (fun j => ((List.range (n + 1)).map K).getD j 0) j with hL
  refine ⟨fun j => (N j).fluxRight + L j, ?_, rfl, ?_, ?_⟩
  · refine List.map_congr_left fun j hj => ?_
    have := low_flat (P := P) _ _ (hall j (List.mem_range.1 hj)).2.2.1.ne'
    show (N j).fluxLeft + -L j = -((N j).fluxRight + L j)
    rw [hNj j, this.1, this.2, neg_add]
  · intro hp h0' h1'
    have hE := hE hp h0' h1'
    rw [range_getD _ _ _ _ (by omega), range_getD _ _ _ _ (by omega)] at hE
    exact hE.symm
  · intro j hj
    have hu := hD j (by omega)
    have hw := hD (j + 1) (by omega)
    have hlow := low_flat (P := P) _ _ (hall j hj).2.2.1.ne'
    have k1 := llf_near hrt hP.g_pos he hu hw
    have k2 := hK j hj
    obtain ⟨b1, b2⟩ := bar_bound hrt hP.g_pos he hu hw
    have hheights : ∀ i < n + 1, 0 ≤ (N i).heightLeft ∧ 0 ≤ (N i).heightRight := fun i hi =>
      low_heights P hP _ _ _ (hall i hi).1 (hall i hi).2.1 (hall i hi).2.2.1
    have hmin0 : 0 ≤ hMin bc.periodic n N (j + 1) := by
      unfold hMin leftOf rightOf
      refine le_min ?_ ?_
      · rw [if_neg (by omega)]
        exact (hheights _ (by omega)).2
      · by_cases hjn : j + 1 = n + 1
        · rw [if_pos hjn]
          split_ifs
          · exact (hheights 1 (by omega)).1
          · exact (hheights n (by omega)).1
        · rw [if_neg hjn]
          exact (hheights _ (by omega)).1
    have hvb : vbarOf (N j) = (barState P (ext.getD j 0) (ext.getD (j + 1) 0)).2 /
        (barState P (ext.getD j 0) (ext.getD (j + 1) 0)).1 := by
      rw [hNj j]
      simp only [vbarOf, low, positivityFix_flat]
      field_simp
      ring
    have hvl : rightOf bc.periodic n (fun j => vbarOf (N j)) j = vbarOf (N j) := by
      unfold rightOf; rw [if_neg (by omega)]
    have hvr : leftOf bc.periodic n (fun j => vbarOf (N j)) (j + 1) = vbarOf (N j) := by
      unfold leftOf; rw [if_neg (by omega)]; rfl
    have hLj : ‖L j‖ ≤ (1 + 2 * barBound P h0 H Q) * ‖K j + -(N j).fluxRight‖ := by
      have e : L j = limitedNode (N j) (vbarOf (N j)) (K j + -(N j).fluxRight) (hMax bc.periodic n N j)
          (hMax bc.periodic n N (j + 1)) (hMin bc.periodic n N j) (hMin bc.periodic n N (j + 1)) (vMax bc.periodic n N j)
          (vMax bc.periodic n N (j + 1)) (vMin bc.periodic n N j) (vMin bc.periodic n N (j + 1)) := by
        simp only [hL, limOf]
        rw [range_getD _ _ _ _ hj]
      rw [e]
      refine limited_bound _ _ _ _ _ _ _ _ _ _ _ _ ?_ ?_ ?_ ?_ ?_ (by rw [hvb]; exact b2) (hMax_left _ _ _ _ hj)
        (hMax_right _ _ _ _) hmin0 ?_ ?_ ?_ ?_
      · exact (hall j hj).2.2.1
      · exact b1
      · rw [hNj j]; simp [low, positivityFix_flat]
      · rw [hNj j]; simp [low, positivityFix_flat]
      · rw [hvb, hNj j]
        simp only [low, positivityFix_flat]
        field_simp
        ring
      · unfold vMax; rw [hvl]; exact le_max_of_le_right (le_max_left _ _)
      · unfold vMin; rw [hvl]; exact min_le_of_right_le (min_le_left _ _)
      · unfold vMax; rw [hvr]; exact le_max_left _ _
      · unfold vMin; rw [hvr]; exact min_le_left _ _
    rw [hNj j, hlow.1] at hLj
    have hX0 : 0 ≤ barBound P h0 H Q := (abs_nonneg _).trans b2
    set u := ext.getD j 0
    set w := ext.getD (j + 1) 0
    have k3 : ‖K j + -llf P u w‖ ≤ (C + (fluxLip P h0 H Q + speedMax P h0 H Q)) * ‖w - u‖ := by
      have e : K j + -llf P u w = (K j - fluxOf P u) - (llf P u w - fluxOf P u) := by abel
      rw [e]
      refine (norm_sub_le _ _).trans ?_
      linarith
    dsimp only
    rw [hNj j, hlow.1]
    have e : llf P u w + L j - fluxOf P u = (llf P u w - fluxOf P u) + L j := by abel
    rw [e]
    refine (norm_add_le _ _).trans ?_
    have k4 := hLj.trans (mul_le_mul_of_nonneg_left k3 (by linarith : 0 ≤ 1 + 2 * barBound P h0 H Q))
    linarith

end Water

end Verif.WeakLimit
