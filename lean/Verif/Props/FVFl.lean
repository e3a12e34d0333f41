import Verif.Core.FVFl
import Verif.Props.FV
import Verif.Props.Contraction
import Mathlib.Data.Rat.Floor
import Mathlib.Tactic.NormNum

/-!
C128: finite volume schemes in floating point arithmetic.
-/

set_option linter.unusedSectionVars false

namespace Verif.FVFl

open Verif.Rounding Verif.FV Verif.ODE Verif.Scalar Verif.Boundary Verif.Py

variable {K : Type*} [Field K] [LinearOrder K] [IsStrictOrderedRing K]

/-! ### Right-hand sides -/

/-- The differences of the fluxes, rounded and divided. -/
theorem rhsFl_of_rhs (R : Rounding K) (F : NumFlux K) (dx : K) (hdx : dx ≠ 0) (bc : BC K K) (t : K) (v d : List K)
    (h : rhs F 1 bc t v = .ok d) : rhsFl R F dx bc t v = .ok (d.map (fun q => R.fl (R.fl q / dx))) := by
  unfold rhs at h
  unfold rhsFl
  cases hv : bc.nodeNeighbours v (F.dim / 2) (some t) with
  | error e => rw [hv] at h; cases h
  | ok values =>
    simp only [hv] at h ⊢
    cases hc : F.call values with
    | error e => rw [hc] at h; cases h
    | ok p =>
      obtain ⟨fl, fr⟩ := p
      simp only [hc, one_ne_zero, if_false] at h
      simp only [if_neg hdx]
      cases h
      rw [List.map_zipWith]
      congr 2
      funext a b
      simp

theorem rhs_scale (F : NumFlux K) (dx : K) (hdx : dx ≠ 0) (bc : BC K K) (t : K) (v d : List K)
    (h : rhs F 1 bc t v = .ok d) : rhs F dx bc t v = .ok (d.map (fun q => q / dx)) := by
  have := rhsFl_of_rhs (exact K) F dx hdx bc t v d h
  rw [rhsFl_exact] at this
  exact this

theorem rhs_of_rhsFl (R : Rounding K) (F : NumFlux K) (dx : K) (bc : BC K K) (t : K) (v w : List K)
    (h : rhsFl R F dx bc t v = .ok w) : dx ≠ 0 ∧ ∃ d, rhs F 1 bc t v = .ok d := by
  unfold rhsFl at h
  unfold rhs
  cases hv : bc.nodeNeighbours v (F.dim / 2) (some t) with
  | error e => rw [hv] at h; cases h
  | ok values =>
    simp only [hv] at h ⊢
    cases hc : F.call values with
    | error e => rw [hc] at h; cases h
    | ok p =>
      obtain ⟨fl, fr⟩ := p
      simp only [hc] at h
      split_ifs at h with hdx
      exact ⟨hdx, _, by simp only [one_ne_zero, if_false]; rfl⟩

theorem vecRhsFl_near (R : Rounding K) (F : NumFlux K) (dx : K) (hdx : 0 < dx) (bc : BC K K) (t : K) (n : ℕ)
    (u w : Fin n → K) (h : vecRhs n (rhsFl R F dx bc) t u = .ok w) :
    ∃ q, vecRhs n (rhs F dx bc) t u = .ok q ∧ ∀ c, Near R 2 |q c| (w c) (q c) := by
  unfold vecRhs at h
  cases h1 : rhsFl R F dx bc t (List.ofFn u) with
  | error e => rw [h1] at h; cases h
  | ok l =>
    obtain ⟨-, d, hd⟩ := rhs_of_rhsFl R F dx bc t _ l h1
    have e1 := rhsFl_of_rhs R F dx hdx.ne' bc t _ d hd
    rw [h1] at e1
    have e1 := Except.ok.inj e1
    have e2 := rhs_scale F dx hdx.ne' bc t _ d hd
    simp only [h1] at h
    split_ifs at h with hl
    have h := Except.ok.inj h
    have hdl : d.length = n := by rw [← hl, e1]; simp
    refine ⟨fun i => (d.map (fun q => q / dx))[i.1]'(by simp [hdl]), ?_, ?_⟩
    · unfold vecRhs
      simp only [e2]
      rw [dif_pos (by simp [hdl])]
    · intro c
      rw [← h]
      subst e1
      simp only [List.getElem_map]
      have hc : c.1 < d.length := by omega
      have h0 := (((Near.refl R (le_refl |d[c.1]|)).fl).div hdx).fl
      rw [abs_div, abs_of_pos hdx]
      exact h0

/-! ### Conservation -/

theorem stagesFl_length {n : ℕ} {ε : Type*} (R : Rounding K) (T : Tableau K)
    (f : K → (Fin n → K) → Except ε (Fin n → K)) (t dt : K) (u : Fin n → K) (m : ℕ) (ks : List (Fin n → K))
    (h : stagesFl R T f t dt u m = .ok ks) : ks.length = m := by
  induction m generalizing ks with
  | zero => cases h; rfl
  | succ m ih =>
    unfold stagesFl at h
    cases h1 : stagesFl R T f t dt u m with
    | error e => rw [h1] at h; cases h
    | ok l =>
      simp only [h1] at h
      split at h
      · cases h
      · cases h
        rw [List.length_append, ih l h1]
        rfl

theorem updateFl_congr {n : ℕ} (R : Rounding K) (dt : K) (u : Fin n → K) (w : ℕ → K) (ks ks' : List (Fin n → K)) (m : ℕ)
    (h : ∀ j < m, ks.getD j 0 = ks'.getD j 0) : updateFl R dt u w ks m = updateFl R dt u w ks' m := by
  funext c
  unfold updateFl
  congr 5
  apply List.map_congr_left
  intro j hj
  rw [h j (List.mem_range.1 hj)]

/-- What the stages of a step without exception are. -/
theorem stagesFl_spec {n : ℕ} {ε : Type*} (R : Rounding K) (T : Tableau K)
    (f : K → (Fin n → K) → Except ε (Fin n → K)) (t dt : K) (u : Fin n → K) (m : ℕ) (ks : List (Fin n → K))
    (h : stagesFl R T f t dt u m = .ok ks) :
    ∀ j < m, f (timeNodeFl R T t dt j) (updateFl R dt u (T.A j) ks j) = .ok (ks.getD j 0) := by
  induction m generalizing ks with
  | zero => intro j hj; omega
  | succ m ih =>
    unfold stagesFl at h
    cases h1 : stagesFl R T f t dt u m with
    | error e => rw [h1] at h; cases h
    | ok l =>
      have hl := stagesFl_length R T f t dt u m l h1
      simp only [h1] at h
      split at h
      · cases h
      · rename_i k hk
        cases h
        intro j hj
        have key : ∀ i < m, (l ++ [k]).getD i 0 = l.getD i 0 := by
          intro i hi
          rw [List.getD_append _ _ _ _ (by omega)]
        rw [updateFl_congr R dt u _ (l ++ [k]) l j (fun i hi => key i (by omega))]
        rcases Nat.lt_succ_iff_lt_or_eq.1 hj with hj | rfl
        · rw [key j hj]
          exact ih l h1 j hj
        · rw [hk, List.getD_append_right _ _ _ _ (by omega), hl]
          simp

/-- C128.  Conservation up to rounding: in a periodic domain, whatever numbers the flux computes, the total after a step
of any explicit Runge-Kutta method differs from the total before it by one rounding of the values and `s + 5` roundings
(`s` stages) of the weighted differences of the fluxes. -/
theorem C128_conservation (R : Rounding K) (F : NumFlux K) (G : List K → K) (hF : NodeFlux F G) (hdim : 0 < F.dim)
    (heven : F.dim % 2 = 0) (dx : K) (hdx : 0 < dx) (wall : Option (K → K)) (il ir : Option (K → K)) (bc : BC K K)
    (hbc : build wall ["periodic"] (F.dim / 2) il ir = .ok bc) (n : ℕ) (T : Tableau K)
    (s s' : Solver K (Fin n → K)) (dt : K) (h : executeFl R T (vecRhs n (rhsFl R F dx bc)) s dt = .ok s') :
    ∃ q : ℕ → Fin n → K,
      (∀ j < T.size, ∃ t, vecRhs n (rhs F dx bc) t (s'.stageValues.getD j 0) = .ok (q j)) ∧
      |∑ c, s'.solution c - ∑ c, s.solution c| ≤
        ∑ c, (R.u * |s.solution c| + ((1 + R.u) ^ (T.size + 5) - 1) * (|dt| * ∑ j ∈ Finset.range T.size, |T.b j| * |q j c|)) := by
  unfold executeFl at h
  cases h1 : stagesFl R T (vecRhs n (rhsFl R F dx bc)) s.time dt s.solution T.size with
  | error e => rw [h1] at h; cases h
  | ok ks =>
    simp only [h1] at h
    cases h
    have hspec := stagesFl_spec R T _ s.time dt s.solution T.size ks h1
    have hq : ∀ j, ∃ q : Fin n → K, j < T.size → vecRhs n (rhs F dx bc) (timeNodeFl R T s.time dt j)
        (updateFl R dt s.solution (T.A j) ks j) = .ok q ∧ ∀ c, Near R 2 |q c| (ks.getD j 0 c) (q c) := by
      intro j
      by_cases hj : j < T.size
      · obtain ⟨q, hq⟩ := vecRhsFl_near R F dx hdx bc _ n _ _ (hspec j hj)
        exact ⟨q, fun _ => hq⟩
      · exact ⟨0, fun h => absurd h hj⟩
    choose q hq using hq
    refine ⟨q, ?_, ?_⟩
    · intro j hj
      refine ⟨timeNodeFl R T s.time dt j, ?_⟩
      rw [List.getD_eq_getElem _ _ (by simpa using hj)]
      simp only [List.getElem_map, List.getElem_range]
      exact (hq j hj).1
    · have hzero : ∀ j < T.size, ∑ c, q j c = 0 := by
        intro j hj
        have hv := (hq j hj).1
        unfold vecRhs at hv
        cases hr : rhs F dx bc (timeNodeFl R T s.time dt j) (List.ofFn (updateFl R dt s.solution (T.A j) ks j)) with
        | error e => rw [hr] at hv; cases hv
        | ok w =>
          have := C24_rhs_total_zero F G hF hdim heven dx wall il ir bc hbc _ _ w hr
          simp only [hr] at hv
          split_ifs at hv with hl
          rw [← Except.ok.inj hv, ← List.sum_ofFn]
          subst hl
          simpa using this
      have hsum : ∑ c, (s.solution c + dt * ∑ j ∈ Finset.range T.size, T.b j * q j c) = ∑ c, s.solution c := by
        rw [Finset.sum_add_distrib, ← Finset.mul_sum, Finset.sum_comm]
        have : ∑ j ∈ Finset.range T.size, ∑ c, T.b j * q j c = 0 := by
          apply Finset.sum_eq_zero
          intro j hj
          rw [← Finset.mul_sum, hzero j (Finset.mem_range.1 hj), mul_zero]
        rw [this, mul_zero, add_zero]
      rw [← hsum, ← Finset.sum_sub_distrib]
      refine (Finset.abs_sum_le_sum_abs _ _).trans (Finset.sum_le_sum fun c _ => ?_)
      have hn := (((Near.sum (k := 3) (fun j => |T.b j| * |q j c|) (fun j => R.fl (T.b j * ks.getD j 0 c))
        (fun j => T.b j * q j c) T.size (fun j hj => (((hq j hj).2 c).mul (T.b j)).fl)).mul dt).fl)
      set C := |dt| * ∑ j ∈ Finset.range T.size, |T.b j| * |q j c| with hC
      set D := R.fl (dt * sumFl R ((List.range T.size).map (fun j => R.fl (T.b j * ks.getD j 0 c)))) with hD
      set E := dt * ∑ j ∈ Finset.range T.size, T.b j * q j c with hE
      change |R.fl (s.solution c + D) - (s.solution c + E)| ≤ _
      have g1 := R.near (s.solution c + D)
      have g2 : |s.solution c + D| ≤ |s.solution c| + (1 + R.u) ^ (3 + T.size + 1) * C :=
        (abs_add_le _ _).trans (by have := hn.abs_le; linarith)
      have g3 : |R.fl (s.solution c + D) - (s.solution c + E)| ≤ |R.fl (s.solution c + D) - (s.solution c + D)| + |D - E| := by
        rw [show R.fl (s.solution c + D) - (s.solution c + E) =
          (R.fl (s.solution c + D) - (s.solution c + D)) + (D - E) by ring]
        exact abs_add_le _ _
      have g4 := mul_le_mul_of_nonneg_left g2 R.nonneg
      have g5 := hn.2
      rw [show T.size + 5 = (3 + T.size + 1) + 1 by omega, pow_succ]
      nlinarith

/-! ### Lax-Friedrichs for the advection equation -/

/-- The flux computed from values with errors. -/
theorem advection_flux_near (R : Rounding K) (h2 : R.fl 2 = 2) (k : ℕ) (c uL uR vL vR : K) (hL : Near R k c vL uL)
    (hR : Near R k c vR uR) :
    ∃ f, nodeFluxFl R (riemannFl R .advection) vL vR = .ok f ∧ Near R (k + 8) (4 * c) f uL := by
  have e1 : R.fl (1 - -1) = 2 := by rw [show (1 : K) - -1 = 2 by norm_num, h2]
  refine ⟨R.fl (vL - R.fl (-1 * R.fl (vL - R.fl (R.fl (1 / 2) *
    R.fl (R.fl (R.fl (1 * vR) - R.fl (-1 * vL)) - R.fl (vR - vL)))))), ?_, ?_⟩
  · unfold nodeFluxFl
    simp only [riemannFl, Problem.riemann, Problem.flux, Problem.waveSpeed, Problem.fluxPrime, max_self, e1]
    rw [if_neg two_ne_zero]
  · have a1 : Near R (k + 1) c (R.fl (1 * vR)) uR := by rw [one_mul]; exact hR.fl
    have a2 : Near R (k + 1) c (R.fl (-1 * vL)) (-uL) := by rw [neg_one_mul]; exact hL.neg.fl
    have a3 := (a1.sub a2).fl
    have a4 := (hR.sub hL).fl
    have a5 := (a3.sub (a4.mono (Nat.le_succ _) le_rfl)).fl
    have a6 := (a5.coefficient (1 / 2)).fl
    have a7 := ((hL.mono (Nat.le_add_right k 5) le_rfl).sub (a6.mono (by omega) le_rfl)).fl
    have a8 := (a7.mul (-1)).fl
    have a9 := ((hL.mono (Nat.le_add_right k 7) le_rfl).sub (a8.mono (by omega) le_rfl)).fl
    have hc := hL.nonneg
    have e : uL - -1 * (uL - 1 / 2 * (uR - -uL - (uR - uL))) = uL := by ring
    rw [e] at a9
    refine a9.mono (by omega) ?_
    rw [abs_neg, abs_one, abs_of_pos (by norm_num : (0 : K) < 1 / 2)]
    linarith

/-- The difference of the values at the left nodes, divided by the length of a cell: the right-hand side of the upwind
scheme, which is what Lax-Friedrichs is for advection. -/
def upwind (dx : K) {n : ℕ} (g : ℕ → Fin n) (u : Fin n → K) : Fin n → K := fun i => (u (g i) - u (g (i + 1))) / dx

theorem exact_upwind (n : ℕ) (bc : BC K K) (g : ℕ → Fin n) (hg : Cells bc n g) (dx : K) (hdx : 0 < dx) (t : K)
    (u : Fin n → K) :
    vecRhs n (rhs (laxFriedrichs (Problem.riemann .advection)) dx bc) t u = .ok (upwind dx g u) := by
  obtain ⟨m, hm⟩ : ∃ m, ∀ i, m ≤ u i := by
    refine ⟨-∑ i, |u i|, fun i => ?_⟩
    have h1 : |u i| ≤ ∑ i, |u i| := Finset.single_le_sum (fun j _ => abs_nonneg (u j)) (Finset.mem_univ i)
    have h2 := neg_abs_le (u i)
    linarith
  obtain ⟨w, h1, h2⟩ := newCell_eq .advection n bc g hg dx hdx m 1 (by simp) t u hm
  rw [h1]
  congr 1
  funext i
  have := congrFun h2 i
  simp only [newCell, eulerCell, lfFlux_advection, Pi.add_apply, one_smul, hg.middle i] at this
  unfold upwind
  rw [hg.middle i]
  have e : w i = 1 / dx * (u (g i) - u i) := by linarith
  rw [e]
  ring

/-- The right-hand side computed from values with errors. -/
theorem upwind_near (R : Rounding K) (h2 : R.fl 2 = 2) (n : ℕ) (bc : BC K K) (g : ℕ → Fin n) (hg : Cells bc n g) (dx : K)
    (hdx : 0 < dx) (t : K) (k : ℕ) (c : K) (v u : Fin n → K) (h : ∀ i, Near R k c (v i) (u i)) :
    ∃ w, vecRhs n (rhsFl R (laxFriedrichsFl R (riemannFl R .advection)) dx bc) t v = .ok w ∧
      ∀ i, Near R (k + 10) (8 * c / dx) (w i) (upwind dx g u i) := by
  have hflux : ∀ j, ∃ f, nodeFluxFl R (riemannFl R .advection) (v (g j)) (v (g (j + 1))) = .ok f ∧
      Near R (k + 8) (4 * c) f (u (g j)) := fun j => advection_flux_near R h2 k c _ _ _ _ (h _) (h _)
  choose f hf using hflux
  have h1 := rhs_twoPoint (nodeFluxFl R (riemannFl R .advection)) (1 : K) one_ne_zero bc t (List.ofFn v) _ (hg.extend t v) n
    (by simp) f (by
      intro j hj
      simp only [List.getElem_map, List.getElem_range]
      exact (hf j).1)
  have h3 := rhsFl_of_rhs R (laxFriedrichsFl R (riemannFl R .advection)) dx hdx.ne' bc t _ _ h1
  rw [List.map_map] at h3
  refine ⟨_, SWE.vecRhs_range _ t v _ h3, fun i => ?_⟩
  simp only [Function.comp]
  have := (((hf i).2.add (hf (i + 1)).2.neg).fl.div hdx).fl
  unfold upwind
  rw [sub_eq_add_neg]
  have e : (1 / 1 : K) • (f i + -f (i + 1)) = f i + -f (i + 1) := by simp
  rw [e]
  refine this.mono le_rfl (le_of_eq ?_)
  ring

/-! ### A step -/

theorem update_near (R : Rounding K) {n : ℕ} (dt D : K) (hdt : 0 ≤ dt) (u : Fin n → K) (w : ℕ → K)
    (ks ls : List (Fin n → K)) (E m : ℕ) (hw : ∑ j ∈ Finset.range m, |w j| ≤ 1) (c : Fin n) (hD : 0 ≤ D)
    (h : ∀ j < m, Near R E D (ks.getD j 0 c) (ls.getD j 0 c)) :
    Near R (E + m + 4) (|u c| + dt * D) (updateFl R dt u (fun j => R.fl (w j)) ks m c)
      ((u + dt • ((List.range m).map (fun j => w j • ls.getD j 0)).sum) c) := by
  have h1 := ((Near.sum (k := E + 2) (fun j => |w j| * D) (fun j => R.fl (R.fl (w j) * ks.getD j 0 c))
    (fun j => w j * ls.getD j 0 c) m (fun j hj => ((h j hj).coefficient (w j)).fl)).mul dt).fl
  have h3 := (((Near.refl R (le_refl |u c|)).mono (Nat.zero_le (E + 2 + m + 1)) le_rfl).add h1).fl
  have e : (u + dt • ((List.range m).map (fun j => w j • ls.getD j 0)).sum) c =
      u c + dt * ∑ j ∈ Finset.range m, w j * ls.getD j 0 c := by
    rw [list_sum_range]
    simp
  rw [e]
  refine h3.mono (by omega) ?_
  rw [← Finset.sum_mul, abs_of_nonneg hdt]
  have := mul_le_mul_of_nonneg_left (mul_le_mul_of_nonneg_right hw hD) hdt
  linarith

theorem stages_near (R : Rounding K) {n : ℕ} {ε : Type*} (T : Tableau K)
    (hA : ∀ i < T.size, ∑ j ∈ Finset.range i, |T.A i j| ≤ 1) (f : K → (Fin n → K) → Except ε (Fin n → K))
    (L : (Fin n → K) → Fin n → K) (dx : K) (hdx : 0 < dx)
    (hf : ∀ t k c v u, (∀ i, Near R k c (v i) (u i)) → ∃ w, f t v = .ok w ∧
      ∀ i, Near R (k + 10) (8 * c / dx) (w i) (L u i)) (t t' dt : K) (hdt : 0 ≤ dt) (hle : dt ≤ dx) (u : Fin n → K) (M : K)
    (hM : 0 ≤ M) (hu : ∀ i, |u i| ≤ M) (m : ℕ) (hm : m ≤ T.size) :
    ∃ ks, stagesFl R (roundTableau R T) f t dt u m = .ok ks ∧ ∀ j < m, ∀ c,
      Near R ((14 + T.size) * j + 14) (8 * 9 ^ j * M / dx) (ks.getD j 0 c)
        ((stages T (fun _ => L) t' dt u m).getD j 0 c) := by
  induction m with
  | zero => exact ⟨[], rfl, fun j hj => by omega⟩
  | succ m ih =>
    obtain ⟨ks, h1, h2⟩ := ih (by omega)
    have hl := stagesFl_length R _ f t dt u m ks h1
    have hls := stages_length T (fun _ => L) t' dt u m
    have hv : ∀ c, Near R ((14 + T.size) * m + 4) (9 ^ m * M) (updateFl R dt u ((roundTableau R T).A m) ks m c)
        (stageValue T dt u (stages T (fun _ => L) t' dt u m) m c) := by
      intro c
      rcases Nat.eq_zero_or_pos m with rfl | hpos
      · have := update_near R dt 0 hdt u (T.A 0) ks (stages T (fun _ => L) t' dt u 0) 0 0 (by simp) c le_rfl
          (fun j hj => by omega)
        refine this.mono (by omega) ?_
        have := hu c
        simpa using this
      · obtain ⟨l, rfl⟩ : ∃ l, m = l + 1 := ⟨m - 1, by omega⟩
        have hpow : ∀ j ≤ l, (9 : K) ^ j ≤ 9 ^ l := fun j hj => pow_le_pow_right₀ (by norm_num) hj
        have := update_near R dt (8 * 9 ^ l * M / dx) hdt u (T.A (l + 1)) ks (stages T (fun _ => L) t' dt u (l + 1))
          ((14 + T.size) * l + 14) (l + 1) (hA _ (by omega)) c (by positivity) (fun j hj => by
            refine (h2 j hj c).mono ?_ ?_
            · have := Nat.mul_le_mul_left (14 + T.size) (show j ≤ l by omega)
              omega
            · have := hpow j (by omega)
              gcongr)
        refine this.mono ?_ ?_
        · rw [show (14 + T.size) * (l + 1) = (14 + T.size) * l + (14 + T.size) by ring]
          omega
        · have h3 : dt * (8 * 9 ^ l * M / dx) ≤ 8 * 9 ^ l * M := by
            rw [mul_div_assoc', div_le_iff₀ hdx, mul_comm]
            exact mul_le_mul_of_nonneg_left hle (by positivity)
          have h4 := hu c
          have h5 : (1 : K) * M ≤ 9 ^ l * M := mul_le_mul_of_nonneg_right (one_le_pow₀ (by norm_num)) hM
          rw [pow_succ]
          linarith
    obtain ⟨w, hw1, hw2⟩ := hf (timeNodeFl R (roundTableau R T) t dt m) _ _ _ _ hv
    refine ⟨ks ++ [w], ?_, ?_⟩
    · unfold stagesFl
      simp only [h1, hw1]
    · intro j hj c
      have e : stages T (fun _ => L) t' dt u (m + 1) = stages T (fun _ => L) t' dt u m ++
          [L (stageValue T dt u (stages T (fun _ => L) t' dt u m) m)] := rfl
      rw [e]
      rcases Nat.lt_succ_iff_lt_or_eq.1 hj with hj | rfl
      · rw [List.getD_append _ _ _ _ (by omega), List.getD_append _ _ _ _ (by omega)]
        exact h2 j hj c
      · rw [List.getD_append_right _ _ _ _ (by omega), List.getD_append_right _ _ _ _ (by omega), hl, hls]
        simp only [Nat.sub_self, List.getD_cons_zero]
        refine (hw2 c).mono (by omega) (le_of_eq ?_)
        ring

/-- A computed step compared with the exact step from the same values. -/
theorem step_near (R : Rounding K) {n : ℕ} {ε : Type*} (T : Tableau K) (hsize : 0 < T.size)
    (hA : ∀ i < T.size, ∑ j ∈ Finset.range i, |T.A i j| ≤ 1) (hb : ∑ j ∈ Finset.range T.size, |T.b j| ≤ 1)
    (f : K → (Fin n → K) → Except ε (Fin n → K))
    (L : (Fin n → K) → Fin n → K) (dx : K) (hdx : 0 < dx)
    (hf : ∀ t k c v u, (∀ i, Near R k c (v i) (u i)) → ∃ w, f t v = .ok w ∧
      ∀ i, Near R (k + 10) (8 * c / dx) (w i) (L u i)) (dt : K) (hdt : 0 ≤ dt) (hle : dt ≤ dx)
    (s r : Solver K (Fin n → K)) (hsr : s.solution = r.solution) (M : K) (hM : 0 ≤ M) (hu : ∀ i, |s.solution i| ≤ M) :
    ∃ s', executeFl R (roundTableau R T) f s dt = .ok s' ∧ ∀ c,
      Near R ((14 + T.size) * T.size + 4) (9 ^ T.size * M) (s'.solution c) ((r.execute T (fun _ => L) dt).solution c) := by
  obtain ⟨ks, h1, h2⟩ := stages_near R T hA f L dx hdx hf s.time r.time dt hdt hle s.solution M hM hu T.size le_rfl
  refine ⟨_, by unfold executeFl; simp only [show (roundTableau R T).size = T.size from rfl, h1]; rfl, fun c => ?_⟩
  obtain ⟨l, hl⟩ : ∃ l, T.size = l + 1 := ⟨T.size - 1, by omega⟩
  have := update_near R dt (8 * 9 ^ l * M / dx) hdt s.solution T.b ks (stages T (fun _ => L) r.time dt s.solution T.size)
    ((14 + T.size) * l + 14) T.size hb c (by positivity) (fun j hj => by
      refine (h2 j hj c).mono ?_ ?_
      · have := Nat.mul_le_mul_left (14 + T.size) (show j ≤ l by omega)
        omega
      · have : (9 : K) ^ j ≤ 9 ^ l := pow_le_pow_right₀ (by norm_num) (by omega)
        gcongr)
  rw [hsr] at this
  change Near R _ _ (updateFl R dt s.solution (fun j => R.fl (T.b j)) ks T.size c)
    ((r.solution + dt • ((List.range T.size).map (fun i => T.b i •
      (stages T (fun _ => L) r.time dt r.solution T.size).getD i 0)).sum) c)
  rw [hsr]
  refine this.mono ?_ ?_
  · have e : (14 + T.size) * T.size = (14 + T.size) * l + (14 + T.size) := by
      conv_lhs => rw [show (14 + T.size) * T.size = (14 + T.size) * (l + 1) by rw [← hl]]
      ring
    omega
  · have h3 : dt * (8 * 9 ^ l * M / dx) ≤ 8 * 9 ^ l * M := by
      rw [mul_div_assoc', div_le_iff₀ hdx, mul_comm]
      exact mul_le_mul_of_nonneg_left hle (by positivity)
    have h4 := hu c
    rw [hsr] at h4
    have h5 : (1 : K) * M ≤ 9 ^ l * M := mul_le_mul_of_nonneg_right (one_le_pow₀ (by norm_num)) hM
    rw [hl, pow_succ]
    linarith

/-! ### Exact steps -/

theorem stages_time {n : ℕ} (T : Tableau K) (L : (Fin n → K) → Fin n → K) (t t' dt : K) (u : Fin n → K) (m : ℕ) :
    stages T (fun _ => L) t dt u m = stages T (fun _ => L) t' dt u m := by
  induction m with
  | zero => rfl
  | succ m ih => simp only [stages, ih]

theorem execute_time {n : ℕ} (T : Tableau K) (L : (Fin n → K) → Fin n → K) (dt : K) (s r : Solver K (Fin n → K))
    (h : s.solution = r.solution) :
    (s.execute T (fun _ => L) dt).solution = (r.execute T (fun _ => L) dt).solution := by
  simp only [Solver.execute]
  rw [stages_time T L s.time r.time, h]

theorem totalise_upwind (n : ℕ) (bc : BC K K) (g : ℕ → Fin n) (hg : Cells bc n g) (dx : K) (hdx : 0 < dx) :
    totalise (vecRhs n (rhs (laxFriedrichs (Problem.riemann .advection)) dx bc)) = fun _ => upwind dx g := by
  funext t u
  unfold totalise
  rw [exact_upwind n bc g hg dx hdx t u]

theorem run_upwind (n : ℕ) (bc : BC K K) (g : ℕ → Fin n) (hg : Cells bc n g) (dx : K) (hdx : 0 < dx) (T : Tableau K)
    (steps : List K) (s : Solver K (Fin n → K)) :
    s.runE T (vecRhs n (rhs (laxFriedrichs (Problem.riemann .advection)) dx bc)) steps =
      .ok (s.run T (fun _ => upwind dx g) steps) := by
  induction steps generalizing s with
  | nil => rfl
  | cons dt steps ih =>
    have h := executeE_ok T (vecRhs n (rhs (laxFriedrichs (Problem.riemann .advection)) dx bc)) s dt
      (fun i _ => ⟨_, exact_upwind n bc g hg dx hdx _ _⟩)
    unfold Solver.runE
    simp only [h]
    rw [ih, totalise_upwind n bc g hg dx hdx]
    rfl

theorem near_convex (n : ℕ) (d : K) : Convex K {p : (Fin n → K) × (Fin n → K) | ∀ i, |p.1 i - p.2 i| ≤ d} := by
  rintro ⟨u, v⟩ h ⟨u', v'⟩ h' a b ha hb hab i
  have h1 := h i
  have h2 := h' i
  simp only [Prod.fst_add, Prod.snd_add, Prod.smul_fst, Prod.smul_snd, Pi.add_apply, Pi.smul_apply, smul_eq_mul]
  rw [show a * u i + b * u' i - (a * v i + b * v' i) = a * (u i - v i) + b * (u' i - v' i) by ring]
  refine (abs_add_le _ _).trans ?_
  rw [abs_mul, abs_mul, abs_of_nonneg ha, abs_of_nonneg hb]
  have e : d = a * d + b * d := by rw [← add_mul, hab, one_mul]
  rw [e]
  exact add_le_add (mul_le_mul_of_nonneg_left h1 ha) (mul_le_mul_of_nonneg_left h2 hb)

/-- An exact step does not enlarge differences and values. -/
theorem exact_step (n : ℕ) (hn : 0 < n) (bc : BC K K) (g : ℕ → Fin n) (hg : Cells bc n g) (dx : K) (hdx : 0 < dx)
    (T : Tableau K) (hT : T = forwardEuler K ∨ T = heun K ∨ T = ssp3 K) (dt : K) (hdt : 0 ≤ dt) (hle : dt ≤ dx)
    (s r : Solver K (Fin n → K)) (d a b : K) (h : ∀ i, |s.solution i - r.solution i| ≤ d)
    (hr : ∀ i, a ≤ r.solution i ∧ r.solution i ≤ b) :
    (∀ i, |(s.execute T (fun _ => upwind dx g) dt).solution i - (r.execute T (fun _ => upwind dx g) dt).solution i| ≤ d) ∧
    ∀ i, a ≤ (r.execute T (fun _ => upwind dx g) dt).solution i ∧ (r.execute T (fun _ => upwind dx g) dt).solution i ≤ b := by
  have hd : 0 ≤ d := (abs_nonneg _).trans (h ⟨0, hn⟩)
  have hone : ∀ (q q' : Solver K (Fin n → K)),
      q.runE T (vecRhs n (rhs (laxFriedrichs (Problem.riemann .advection)) dx bc)) [dt] = .ok q' →
      q' = q.execute T (fun _ => upwind dx g) dt := by
    intro q q' hq
    rw [run_upwind n bc g hg dx hdx] at hq
    exact (Except.ok.inj hq).symm
  have hmono : ∀ m M : K, ∀ x ∈ [dt], Monotonic .advection m M dx x := by
    intro m M x hx
    rw [List.mem_singleton] at hx
    subst hx
    exact ⟨hdt, fun _ => hle, fun h => by cases h⟩
  constructor
  · obtain ⟨s', r', g1, g2, g3, -⟩ := lf_pair_run .advection n hn bc g hg dx hdx (a - d) (b + d) [dt] (hmono _ _) T hT
      {p | ∀ i, |p.1 i - p.2 i| ≤ d} (near_convex n d) (by
        intro x hx u v _ _ huv i
        rw [List.mem_singleton] at hx
        subst hx
        simp only [newCell, eulerCell, lfFlux_advection]
        have h1 := huv (g i)
        have h2 := huv (g (i + 1))
        simp only at h1 h2
        set lam := x / dx with hlam
        have hl0 : 0 ≤ lam := by positivity
        have hl1 : lam ≤ 1 := by rw [hlam, div_le_one hdx]; exact hle
        rw [show u (g (↑i + 1)) + lam * (u (g ↑i) - u (g (↑i + 1))) - (v (g (↑i + 1)) + lam * (v (g ↑i) - v (g (↑i + 1)))) =
          (1 - lam) * (u (g (↑i + 1)) - v (g (↑i + 1))) + lam * (u (g ↑i) - v (g ↑i)) by ring]
        refine (abs_add_le _ _).trans ?_
        rw [abs_mul, abs_mul, abs_of_nonneg hl0, abs_of_nonneg (by linarith : 0 ≤ 1 - lam)]
        nlinarith) s ⟨s.time, r.solution, [], []⟩ rfl
      (fun i => by
        have h1 := abs_le.1 (h i)
        have h2 := hr i
        constructor <;> linarith [h1.1, h1.2, h2.1, h2.2])
      (fun i => by
        have h2 := hr i
        constructor <;> linarith [h2.1, h2.2]) h
    rw [hone _ _ g1, hone _ _ g2] at g3
    intro i
    have := g3 i
    rwa [execute_time T (upwind dx g) dt ⟨s.time, r.solution, [], []⟩ r rfl] at this
  · obtain ⟨s', r', g1, -, -, g4⟩ := lf_pair_run .advection n hn bc g hg dx hdx a b [dt] (hmono _ _) T hT
      Set.univ convex_univ (fun _ _ _ _ _ _ _ => trivial) r r rfl hr hr trivial
    rw [hone _ _ g1] at g4
    exact g4

/-! ### Runs -/

/-- The relative error of a step: `9^s ((1 + u)^((14 + s) s + 4) - 1)` for `s` stages. -/
def stepError (R : Rounding K) (s : ℕ) : K := 9 ^ s * ((1 + R.u) ^ ((14 + s) * s + 4) - 1)

theorem stepError_nonneg (R : Rounding K) (s : ℕ) : 0 ≤ stepError R s := by
  have := pow_one_le R ((14 + s) * s + 4)
  exact mul_nonneg (by positivity) (by linarith)

theorem run_near (R : Rounding K) (h2 : R.fl 2 = 2) (n : ℕ) (hn : 0 < n) (bc : BC K K) (g : ℕ → Fin n)
    (hg : Cells bc n g) (dx : K) (hdx : 0 < dx) (T : Tableau K)
    (hT : T = forwardEuler K ∨ T = heun K ∨ T = ssp3 K) (steps : List K) (hsteps : ∀ dt ∈ steps, 0 ≤ dt ∧ dt ≤ dx) (a b M : K)
    (ha : -M ≤ a) (hb : b ≤ M) (s r : Solver K (Fin n → K)) (d : K) (hd : ∀ i, |s.solution i - r.solution i| ≤ d)
    (hr : ∀ i, a ≤ r.solution i ∧ r.solution i ≤ b) :
    ∃ s', runFl R (roundTableau R T) (vecRhs n (rhsFl R (laxFriedrichsFl R (riemannFl R .advection)) dx bc)) s steps =
        .ok s' ∧
      (∀ i, |s'.solution i - (r.run T (fun _ => upwind dx g) steps).solution i| ≤
        (1 + stepError R T.size) ^ steps.length * (M + d) - M) ∧
      ∀ i, a ≤ (r.run T (fun _ => upwind dx g) steps).solution i ∧ (r.run T (fun _ => upwind dx g) steps).solution i ≤ b := by
  have hrow : (∀ i < T.size, ∑ j ∈ Finset.range i, |T.A i j| ≤ 1) ∧ ∑ j ∈ Finset.range T.size, |T.b j| ≤ 1 ∧
      0 < T.size := by
    rcases hT with rfl | rfl | rfl
    · refine ⟨fun i hi => ?_, ?_, by simp [forwardEuler]⟩
      · simp only [forwardEuler] at hi
        interval_cases i
        simp
      · simp [forwardEuler]
    · refine ⟨fun i hi => ?_, ?_, by simp [heun]⟩
      · simp only [heun] at hi
        interval_cases i
        · simp
        · simp [heun, table]
      · simp [heun, Finset.sum_range_succ]
        norm_num
    · refine ⟨fun i hi => ?_, ?_, by simp [ssp3]⟩
      · simp only [ssp3] at hi
        interval_cases i
        · simp
        · simp [ssp3, table]
        · simp [ssp3, table, Finset.sum_range_succ]
          norm_num
      · simp [ssp3, Finset.sum_range_succ, abs_div]
        norm_num
  obtain ⟨hA, hB, hsize⟩ := hrow
  induction steps generalizing s r d with
  | nil => exact ⟨s, rfl, fun i => by simpa [Solver.run] using hd i, hr⟩
  | cons dt steps ih =>
    have hd0 : 0 ≤ d := (abs_nonneg _).trans (hd ⟨0, hn⟩)
    have hM : 0 ≤ M := by
      have := hr ⟨0, hn⟩
      linarith [this.1, this.2]
    obtain ⟨hdt, hle⟩ := hsteps dt (List.mem_cons_self ..)
    have hval : ∀ i, |s.solution i| ≤ M + d := by
      intro i
      have h1 := abs_le.1 (hd i)
      have h3 := hr i
      rw [abs_le]
      constructor <;> linarith [h1.1, h1.2, h3.1, h3.2]
    obtain ⟨s1, g1, g2⟩ := step_near R T hsize hA hB
      (vecRhs n (rhsFl R (laxFriedrichsFl R (riemannFl R .advection)) dx bc)) (upwind dx g) dx hdx
      (fun t k c v u h => upwind_near R h2 n bc g hg dx hdx t k c v u h) dt hdt hle s s rfl (M + d) (by linarith) hval
    obtain ⟨e1, e2⟩ := exact_step n hn bc g hg dx hdx T hT dt hdt hle s r d a b hd hr
    obtain ⟨s', i1, i2, i3⟩ := ih (fun x hx => hsteps x (List.mem_cons_of_mem _ hx)) s1
      (r.execute T (fun _ => upwind dx g) dt) (d + stepError R T.size * (M + d)) (by
        intro i
        have h1 := (g2 i).2
        have h3 := e1 i
        have h4 : |s1.solution i - (r.execute T (fun _ => upwind dx g) dt).solution i| ≤
            |s1.solution i - (s.execute T (fun _ => upwind dx g) dt).solution i| +
            |(s.execute T (fun _ => upwind dx g) dt).solution i - (r.execute T (fun _ => upwind dx g) dt).solution i| := by
          simpa using abs_add_le (s1.solution i - (s.execute T (fun _ => upwind dx g) dt).solution i)
            ((s.execute T (fun _ => upwind dx g) dt).solution i - (r.execute T (fun _ => upwind dx g) dt).solution i)
        have e : stepError R T.size * (M + d) = ((1 + R.u) ^ ((14 + T.size) * T.size + 4) - 1) * (9 ^ T.size * (M + d)) := by
          unfold stepError; ring
        rw [e]
        linarith) e2
    refine ⟨s', ?_, ?_, i3⟩
    · unfold runFl
      simp only [g1]
      exact i1
    · intro i
      have := i2 i
      rw [List.length_cons, pow_succ]
      have e : (1 + stepError R T.size) ^ steps.length * (M + (d + stepError R T.size * (M + d))) =
          (1 + stepError R T.size) ^ steps.length * (1 + stepError R T.size) * (M + d) := by ring
      rw [e] at this
      exact this

/-- C128.  Floating point runs of the Lax-Friedrichs solver for the advection equation: they raise nothing and differ from
the run in exact arithmetic by the accumulated error of the steps only; so they leave the range of the data by no more, and
with periodic boundaries the total changes by no more than this times the number of cells. -/
theorem C128_run (R : Rounding K) (h2 : R.fl 2 = 2) (n : ℕ) (hn : 0 < n) (wall : Option (K → K))
    (il ir : Option (K → K)) (bc : BC K K) (name : String) (hname : name = "periodic" ∨ name = "outflow")
    (hbc : build wall [name] 1 il ir = .ok bc) (dx : K) (hdx : 0 < dx) (T : Tableau K)
    (hT : T = forwardEuler K ∨ T = heun K ∨ T = ssp3 K) (steps : List K) (hsteps : ∀ dt ∈ steps, 0 ≤ dt ∧ dt ≤ dx)
    (a b M : K) (ha : -M ≤ a) (hb : b ≤ M) (s : Solver K (Fin n → K)) (hs : ∀ i, a ≤ s.solution i ∧ s.solution i ≤ b) :
    ∃ s' r, runFl R (roundTableau R T) (vecRhs n (rhsFl R (laxFriedrichsFl R (riemannFl R .advection)) dx bc)) s steps =
        .ok s' ∧
      s.runE T (vecRhs n (rhs (laxFriedrichs (Problem.riemann .advection)) dx bc)) steps = .ok r ∧
      (∀ i, |s'.solution i - r.solution i| ≤ ((1 + stepError R T.size) ^ steps.length - 1) * M) ∧
      (∀ i, a - ((1 + stepError R T.size) ^ steps.length - 1) * M ≤ s'.solution i ∧
        s'.solution i ≤ b + ((1 + stepError R T.size) ^ steps.length - 1) * M) ∧
      (name = "periodic" → |∑ i, s'.solution i - ∑ i, s.solution i| ≤
        n * (((1 + stepError R T.size) ^ steps.length - 1) * M)) := by
  obtain ⟨g, hg⟩ : ∃ g : ℕ → Fin n, Cells bc n g := by
    rcases hname with rfl | rfl
    · obtain ⟨g, hg, -⟩ := cells_periodic n hn wall il ir bc hbc; exact ⟨g, hg⟩
    · obtain ⟨g, hg, -⟩ := cells_outflow n hn wall il ir bc hbc; exact ⟨g, hg⟩
  obtain ⟨s', h1, h3, h4⟩ := run_near R h2 n hn bc g hg dx hdx T hT steps hsteps a b M ha hb s s 0 (by simp) hs
  have hrun := run_upwind n bc g hg dx hdx T steps s
  have hdiff : ∀ i, |s'.solution i - (s.run T (fun _ => upwind dx g) steps).solution i| ≤
      ((1 + stepError R T.size) ^ steps.length - 1) * M := by
    intro i
    have := h3 i
    rw [add_zero] at this
    linarith
  refine ⟨s', _, h1, hrun, hdiff, fun i => ?_, ?_⟩
  · have g1 := abs_le.1 (hdiff i)
    have g2 := h4 i
    constructor <;> linarith [g1.1, g1.2, g2.1, g2.2]
  · rintro rfl
    have htot := C24_two_point_schemes (Problem.riemann .advection).nodeFlux dx wall il ir bc hbc n T s _ steps hrun
    rw [List.sum_ofFn, List.sum_ofFn] at htot
    rw [← htot, ← Finset.sum_sub_distrib]
    refine (Finset.abs_sum_le_sum_abs _ _).trans ?_
    refine (Finset.sum_le_sum fun i _ => hdiff i).trans (le_of_eq ?_)
    simp

/-! ### Double precision -/

theorem pow_small (x : K) (hx : 0 ≤ x) (k : ℕ) (hk : k * x ≤ 1 / 2) : (1 + x) ^ k - 1 ≤ 2 * (k * x) := by
  rcases Nat.eq_zero_or_pos k with rfl | hpos
  · simp
  have hk1 : (1 : K) ≤ k := by exact_mod_cast hpos
  have hx1 : x ≤ 1 / 2 := le_trans (by nlinarith) hk
  have h1 : 1 + (k : K) * (-x) ≤ (1 + -x) ^ k := one_add_mul_le_pow (by linarith) k
  have h2 : (1 + x) ^ k * (1 + -x) ^ k ≤ 1 := by
    rw [← mul_pow]
    exact pow_le_one₀ (mul_nonneg (by linarith) (by linarith)) (by nlinarith)
  have h3 : (1 : K) ≤ (1 + x) ^ k := one_le_pow₀ (by linarith)
  have h4 : (1 + x) ^ k * (1 - k * x) ≤ 1 := by
    refine le_trans (mul_le_mul_of_nonneg_left ?_ (by linarith)) h2
    linarith
  have h5 : 0 ≤ (k : K) * x := by positivity
  by_contra hcon
  have h6 : 1 + 2 * (k * x) < (1 + x) ^ k := by linarith
  nlinarith

theorem double_two [FloorRing K] : (double K).fl 2 = 2 := by
  have := binary_exact (K := K) 53 (by norm_num) 1 1 (by norm_num)
  simpa [double] using this

/-- C128 in double precision (without overflow and underflow): after `N` steps, up to `5 * 10 ^ 10`, the run is within
`N * 2e-11` times the largest absolute value of the data from the run in exact arithmetic. -/
theorem C128_double [FloorRing K] (n : ℕ) (hn : 0 < n) (wall : Option (K → K))
    (il ir : Option (K → K)) (bc : BC K K) (name : String) (hname : name = "periodic" ∨ name = "outflow")
    (hbc : build wall [name] 1 il ir = .ok bc) (dx : K) (hdx : 0 < dx) (T : Tableau K)
    (hT : T = forwardEuler K ∨ T = heun K ∨ T = ssp3 K) (steps : List K) (hsteps : ∀ dt ∈ steps, 0 ≤ dt ∧ dt ≤ dx)
    (hN : steps.length ≤ 5 * 10 ^ 10) (M : K) (s : Solver K (Fin n → K)) (hs : ∀ i, |s.solution i| ≤ M) :
    ∃ s' r, runFl (double K) (roundTableau (double K) T)
        (vecRhs n (rhsFl (double K) (laxFriedrichsFl (double K) (riemannFl (double K) .advection)) dx bc)) s steps = .ok s' ∧
      s.runE T (vecRhs n (rhs (laxFriedrichs (Problem.riemann .advection)) dx bc)) steps = .ok r ∧
      ∀ i, |s'.solution i - r.solution i| ≤ steps.length * (2 / 10 ^ 11) * M := by
  have hM : 0 ≤ M := (abs_nonneg _).trans (hs ⟨0, hn⟩)
  obtain ⟨s', r, h1, h2, h3, -⟩ := C128_run (double K) double_two n hn wall il ir bc name hname hbc dx hdx T hT steps hsteps
    (-M) M M le_rfl le_rfl s (fun i => abs_le.1 (hs i))
  refine ⟨s', r, h1, h2, fun i => (h3 i).trans (mul_le_mul_of_nonneg_right ?_ hM)⟩
  have hsize : T.size ≤ 3 := by
    rcases hT with rfl | rfl | rfl <;> simp [forwardEuler, heun, ssp3]
  have hu : (double K).u = 1 / 2 ^ 53 := rfl
  have he : stepError (double K) T.size ≤ 1 / 10 ^ 11 := by
    have hk : (14 + T.size) * T.size + 4 ≤ 55 := by
      generalize T.size = m at hsize
      interval_cases m <;> norm_num
    have g1 : (1 + (double K).u) ^ ((14 + T.size) * T.size + 4) ≤ (1 + (double K).u) ^ 55 :=
      pow_le_pow_right₀ (by have := (double K).nonneg; linarith) hk
    have g2 := pow_small (double K).u (double K).nonneg 55 (by rw [hu]; norm_num)
    have g3 : (9 : K) ^ T.size ≤ 729 := by
      refine (pow_le_pow_right₀ (by norm_num) hsize).trans (by norm_num)
    have g4 := pow_one_le (double K) ((14 + T.size) * T.size + 4)
    unfold stepError
    calc _ ≤ 729 * ((1 + (double K).u) ^ ((14 + T.size) * T.size + 4) - 1) :=
          mul_le_mul_of_nonneg_right g3 (by linarith)
      _ ≤ 729 * (2 * ((55 : ℕ) * (double K).u)) := by linarith
      _ ≤ 1 / 10 ^ 11 := by rw [hu]; norm_num
  have h0 := stepError_nonneg (double K) T.size
  have hN' : (steps.length : K) ≤ 5 * 10 ^ 10 := by exact_mod_cast hN
  have h4 : (steps.length : K) * stepError (double K) T.size ≤ steps.length * (1 / 10 ^ 11) :=
    mul_le_mul_of_nonneg_left he (by positivity)
  have h5 := pow_small (stepError (double K) T.size) h0 steps.length (by
    refine h4.trans ?_
    have := mul_le_mul_of_nonneg_right hN' (by norm_num : (0 : K) ≤ 1 / 10 ^ 11)
    refine this.trans (by norm_num))
  linarith

/-- The solver of the examples: three periodic cells. -/
def exampleBC : BC ℚ ℚ := ⟨[.copy (-1)], [.copy 0], true⟩

theorem exampleBC_build : build (none : Option (ℚ → ℚ)) ["periodic"] 1 none none = .ok exampleBC := by
  rw [build_periodic]
  rfl

/-- The numbers `0.1`, `0.2`, `0.7` as they are stored. -/
def exampleData : Solver ℚ (Fin 3 → ℚ) :=
  Solver.init ![(double ℚ).fl (1 / 10), (double ℚ).fl (1 / 5), (double ℚ).fl (7 / 10)] 0

/-- The run of the examples: two steps of Heun's method. -/
def exampleRun : Except Error (Solver ℚ (Fin 3 → ℚ)) :=
  runFl (double ℚ) (roundTableau (double ℚ) (heun ℚ))
    (vecRhs 3 (rhsFl (double ℚ) (laxFriedrichsFl (double ℚ) (riemannFl (double ℚ) .advection)) 1 exampleBC)) exampleData
    [1 / 2, 1 / 2]

/-- Conservation is not exact in floating point arithmetic: the total of `0.1`, `0.2`, `0.7` in three periodic cells changes
in two steps. -/
theorem C128_not_exact : ∃ s', exampleRun = .ok s' ∧ ∑ i, s'.solution i ≠ ∑ i, exampleData.solution i := by
  have h : (match exampleRun with
      | .ok s' => decide (∑ i, s'.solution i ≠ ∑ i, exampleData.solution i)
      | .error _ => false : Bool) = true := by decide +kernel
  cases hr : exampleRun with
  | error e => rw [hr] at h; simp at h
  | ok s' =>
    rw [hr] at h
    exact ⟨s', rfl, by simpa using h⟩

/-- Non-vacuity of `C128_run` and `C128_double`: the run of the example. -/
example : ∃ s' r, exampleRun = .ok s' ∧
    exampleData.runE (heun ℚ) (vecRhs 3 (rhs (laxFriedrichs (Problem.riemann .advection)) 1 exampleBC)) [1 / 2, 1 / 2] = .ok r ∧
    ∀ i, |s'.solution i - r.solution i| ≤ 2 * (2 / 10 ^ 11) * 1 := by
  have := C128_double (K := ℚ) 3 (by norm_num) none none none exampleBC "periodic" (Or.inl rfl) exampleBC_build 1 one_pos
    (heun ℚ) (Or.inr (Or.inl rfl)) [1 / 2, 1 / 2] (by intro dt h; simp at h; subst h; norm_num) (by norm_num) 1
    exampleData (by decide +kernel)
  obtain ⟨s', r, h1, h2, h3⟩ := this
  exact ⟨s', r, h1, h2, by simpa using h3⟩

/-- Non-vacuity of `C128_conservation`: a step of the example. -/
example : ∃ s', executeFl (double ℚ) (roundTableau (double ℚ) (heun ℚ))
    (vecRhs 3 (rhsFl (double ℚ) (laxFriedrichsFl (double ℚ) (riemannFl (double ℚ) .advection)) 1 exampleBC)) exampleData
    (1 / 2) = .ok s' := by
  have h : (match executeFl (double ℚ) (roundTableau (double ℚ) (heun ℚ))
    (vecRhs 3 (rhsFl (double ℚ) (laxFriedrichsFl (double ℚ) (riemannFl (double ℚ) .advection)) 1 exampleBC)) exampleData
    (1 / 2) with
      | .ok _ => true
      | .error _ => false : Bool) = true := by decide +kernel
  split at h
  · rename_i s' hs
    exact ⟨s', hs⟩
  · cases h

end Verif.FVFl
