import Verif.Props.Energy
import Verif.Props.SWEBasic
import Verif.Core.SWEDiffusive
import Mathlib.Analysis.Calculus.Deriv.Inv
import Mathlib.Analysis.Calculus.Deriv.Pow

/-!
C141: the energy of the water on a periodic domain with flat ground, for the solver with averaged states, the solver with
additional diffusion and the central scheme.
-/

set_option linter.unusedSectionVars false

namespace Verif.SWE

open Verif.Py Verif.Boundary Verif.FV

/-! ### Specification -/

/-- Kinetic and potential energy of one cell per length. -/
noncomputable def energyOf (g : ℝ) (u : State ℝ) : ℝ := u.2 ^ 2 / (2 * u.1) + g * u.1 ^ 2 / 2

/-- The energy of the water in all cells. -/
noncomputable def totalEnergy (g dx : ℝ) (v : List (State ℝ)) : ℝ := dx * (v.map (energyOf g)).sum

/-- The values after a short time `s` with the rate of change `w`. -/
def along (v w : List (State ℝ)) (s : ℝ) : List (State ℝ) := List.zipWith (fun u k => u + s • k) v w

/-- A sum over all pairs of neighbouring cells of a periodic mesh. -/
def pairs (v : List (State ℝ)) (q : State ℝ → State ℝ → ℝ) : ℝ := (List.zipWith q v (v.rotate 1)).sum

/-- The velocity of the water. -/
noncomputable def speedOf (u : State ℝ) : ℝ := u.2 / u.1

/-- The velocity of the water in two cells together. -/
noncomputable def jointSpeed (u u' : State ℝ) : ℝ := (u.2 + u'.2) / (u.1 + u'.1)

/-- The energy created between two cells by the flux of the averaged state. -/
noncomputable def created (g : ℝ) (u u' : State ℝ) : ℝ :=
  (u'.1 - u.1) * (speedOf u' - speedOf u) *
    (2 * jointSpeed u u' * (speedOf u' - speedOf u) + g * (u'.1 - u.1)) / 8

/-- The energy created between two cells by the average of the two fluxes. -/
noncomputable def createdCentral (g : ℝ) (u u' : State ℝ) : ℝ :=
  (speedOf u' - speedOf u) * ((speedOf u' - speedOf u) * (u'.2 - u.2) + g * (u'.1 - u.1) ^ 2) / 4

/-- The energy removed between two cells by the diffusion. -/
noncomputable def removed (g : ℝ) (u u' : State ℝ) : ℝ :=
  let c := √(g * ((u.1 + u'.1) / 2))
  let d := g * (u'.1 - u.1) - (speedOf u' ^ 2 - speedOf u ^ 2) / 2
  (|jointSpeed u u' - c| * (d + (jointSpeed u u' - c) * (speedOf u' - speedOf u)) ^ 2 +
    |jointSpeed u u' + c| * (d + (jointSpeed u u' + c) * (speedOf u' - speedOf u)) ^ 2) / (2 * √(2 * g) ^ 3)

/-! ### Helper lemmas -/

theorem energy_deriv (P : Params ℝ) (u k : State ℝ) (hu : P.eps ≤ u.1) :
    HasDerivAt (fun s : ℝ => energyOf P.g (u + s • k)) (dot (entropy P u 0) k) 0 := by
  have h0 : 0 < u.1 := lt_of_lt_of_le P.eps_pos hu
  have hv : velocity P u = u.2 / u.1 := velocity_wet P u.1 u.2 hu
  have h1 : HasDerivAt (fun s : ℝ => u.1 + s * k.1) k.1 0 := by
    simpa using ((hasDerivAt_id (0 : ℝ)).mul_const k.1).const_add u.1
  have h2 : HasDerivAt (fun s : ℝ => u.2 + s * k.2) k.2 0 := by
    simpa using ((hasDerivAt_id (0 : ℝ)).mul_const k.2).const_add u.2
  have h3 := ((h2.pow 2).div (h1.const_mul 2) (by simpa using h0.ne')).add (((h1.pow 2).const_mul P.g).div_const 2)
  refine (h3.congr_deriv ?_).congr_of_eventuallyEq ?_
  · simp only [dot, entropy, hv, zero_mul, add_zero, Pi.pow_apply]
    field_simp
    ring
  · filter_upwards with s
    simp [energyOf]

theorem total_deriv (P : Params ℝ) (dx : ℝ) (v w : List (State ℝ)) (hv : ∀ u ∈ v, P.eps ≤ u.1) :
    HasDerivAt (fun s => totalEnergy P.g dx (along v w s))
      (dx * (List.zipWith (fun u k => dot (entropy P u 0) k) v w).sum) 0 := by
  unfold totalEnergy
  refine HasDerivAt.const_mul dx ?_
  induction v generalizing w with
  | nil => simpa [along] using hasDerivAt_const (0 : ℝ) (0 : ℝ)
  | cons u v ih =>
    cases w with
    | nil => simpa [along] using hasDerivAt_const (0 : ℝ) (0 : ℝ)
    | cons k w =>
      simp only [along, List.zipWith_cons_cons, List.map_cons, List.sum_cons]
      exact (energy_deriv P u k (hv u List.mem_cons_self)).add (ih w fun x hx => hv x (List.mem_cons_of_mem _ hx))

theorem pairs_eq (v : List (State ℝ)) (q : State ℝ → State ℝ → ℝ) (n : ℕ) (hn : v.length = n) (h0 : 0 < n) :
    pairs v q = ∑ j ∈ Finset.range n, q (v.getD (j % n) 0) (v.getD ((j + 1) % n) 0) := by
  have e : List.zipWith q v (v.rotate 1) =
      (List.range n).map (fun j => q (v.getD (j % n) 0) (v.getD ((j + 1) % n) 0)) := by
    apply List.ext_getElem
    · simp [hn]
    · intro i h1 h2
      have hi : i < n := by simpa using h2
      simp only [List.getElem_zipWith, List.getElem_map, List.getElem_range, List.getElem_rotate]
      rw [Nat.mod_eq_of_lt hi, List.getD_eq_getElem _ _ (by omega),
        List.getD_eq_getElem _ _ (by rw [hn]; exact Nat.mod_lt _ h0)]
      simp only [hn]
  rw [pairs, e, Scalar.sum_map_range]

theorem cell_mem (v : List (State ℝ)) (h : 0 < v.length) (i : ℕ) : v.getD (i % v.length) 0 ∈ v := by
  rw [List.getD_eq_getElem _ _ (Nat.mod_lt _ h)]
  exact List.getElem_mem _

theorem pairs_congr (v : List (State ℝ)) (hv : v ≠ []) (q q' : State ℝ → State ℝ → ℝ)
    (h : ∀ x ∈ v, ∀ y ∈ v, q x y = q' x y) : pairs v q = pairs v q' := by
  have hpos := List.length_pos_iff.mpr hv
  rw [pairs_eq v q _ rfl hpos, pairs_eq v q' _ rfl hpos]
  exact Finset.sum_congr rfl fun j _ => h _ (cell_mem v hpos j) _ (cell_mem v hpos (j + 1))

theorem pairs_potential (v : List (State ℝ)) (hv : v ≠ []) (ψ : State ℝ → ℝ) : pairs v (fun x y => ψ y - ψ x) = 0 := by
  have hpos := List.length_pos_iff.mpr hv
  rw [pairs_eq v _ v.length rfl hpos, Finset.sum_sub_distrib, sub_eq_zero]
  exact Scalar.sum_shift v.length (fun j => ψ (v.getD (j % v.length) 0)) (by simp)

/-- Summation by parts around the circle. -/
theorem water_parts (P : Params ℝ) (F : NumFlux (State ℝ)) (hdim : F.dim / 2 = 1) (φ : State ℝ → State ℝ → State ℝ)
    (dx : ℝ) (hdx : dx ≠ 0) (wall : Option (State ℝ → State ℝ)) (il ir : Option (ℝ → State ℝ)) (bc : BC ℝ (State ℝ))
    (hbc : build wall ["periodic"] 1 il ir = .ok bc) (t : ℝ) (v : List (State ℝ)) (hv : v ≠ [])
    (hF : ∀ ext : List (State ℝ), ext.length = v.length + 2 → (∀ x ∈ ext, x ∈ v) →
      F.call [ext.dropLast, ext.tail] = .ok
        ((List.range (v.length + 1)).map (fun j => -φ (ext.getD j 0) (ext.getD (j + 1) 0)),
         (List.range (v.length + 1)).map (fun j => φ (ext.getD j 0) (ext.getD (j + 1) 0)))) :
    ∃ w, rhs F dx bc t v = .ok w ∧ w.length = v.length ∧
      dx * (List.zipWith (fun u k => dot (entropy P u 0) k) v w).sum =
        pairs v (fun x y => shuffleDefect P x y 0 0 (φ x y)) := by
  have hpos := List.length_pos_iff.mpr hv
  have he := periodic_extend wall 1 il ir bc hbc v (by omega) (some t)
  set n := v.length with hn
  set e : ℕ → State ℝ := fun j => v.getD ((j + n - 1) % n) 0 with hedef
  have hsucc : ∀ j, e (j + 1) = v.getD (j % n) 0 := by
    intro j
    simp only [hedef]
    rw [show j + 1 + n - 1 = j + n by omega, Nat.add_mod_right]
  have hper : ∀ j, e (j + n) = e j := by
    intro j
    simp only [hedef]
    congr 1
    rw [show j + n + n - 1 = j + n - 1 + n by omega, Nat.add_mod_right]
  have hget : ∀ j < n + 2, ((List.range (n + 2 * 1)).map e).getD j 0 = e j := by
    intro j hj
    rw [List.getD_eq_getElem _ _ (by simpa using hj)]
    simp
  have hcall := hF ((List.range (n + 2 * 1)).map e) (by simp) (by
    intro x hx
    obtain ⟨j, -, rfl⟩ := List.mem_map.1 hx
    exact cell_mem v hpos _)
  have hrhs := rhs_of_call F hdim dx hdx bc t v _ he n (by simp) _ _ hcall
  refine ⟨_, hrhs, by simp, ?_⟩
  have e1 : List.zipWith (fun u k => dot (entropy P u 0) k) v ((List.range n).map (fun i => (1 / dx) •
        (φ (((List.range (n + 2 * 1)).map e).getD i 0) (((List.range (n + 2 * 1)).map e).getD (i + 1) 0) +
        -φ (((List.range (n + 2 * 1)).map e).getD (i + 1) 0) (((List.range (n + 2 * 1)).map e).getD (i + 1 + 1) 0)))) =
      (List.range n).map (fun i => dot (entropy P (e (i + 1)) 0) ((1 / dx) • (φ (e i) (e (i + 1)) +
        -φ (e (i + 1)) (e (i + 2))))) := by
    apply List.ext_getElem
    · simp [← hn]
    · intro i h1 h2
      have hi : i < n := by simpa using h2
      simp only [List.getElem_zipWith, List.getElem_map, List.getElem_range]
      rw [hget i (by omega), hget (i + 1) (by omega), hget (i + 1 + 1) (by omega), hsucc i, Nat.mod_eq_of_lt hi,
        List.getD_eq_getElem _ _ hi]
  rw [e1, Scalar.sum_map_range, Finset.mul_sum]
  set G : ℕ → ℝ := fun j => dot (entropy P (e j) 0) (φ (e j) (e (j + 1))) with hG
  set H : ℕ → ℝ := fun j => dot (entropy P (e (j + 1)) 0) (φ (e j) (e (j + 1))) with hH
  have s1 := Scalar.sum_shift n G (by
    simp only [hG]
    have a := hper 0
    have c := hper 1
    rw [Nat.zero_add] at a
    rw [show n + 1 = 1 + n by omega, c, a])
  have s2 := Scalar.sum_shift n H (by
    simp only [hH]
    have a := hper 0
    have c := hper 1
    rw [Nat.zero_add] at a
    rw [show n + 1 = 1 + n by omega, c, a])
  have hpot := pairs_potential v hv (potential P)
  rw [pairs_eq v _ n rfl hpos] at hpot
  rw [pairs_eq v _ n rfl hpos]
  calc _ = ∑ i ∈ Finset.range n, (H i - G (i + 1)) := by
        apply Finset.sum_congr rfl
        intro i _
        simp only [hH, hG, dot, Prod.smul_fst, Prod.smul_snd, Prod.fst_add, Prod.snd_add, Prod.fst_neg, Prod.snd_neg,
          smul_eq_mul]
        field_simp
        ring
    _ = ∑ i ∈ Finset.range n, (H (i + 1) - G (i + 1)) := by
        rw [Finset.sum_sub_distrib, Finset.sum_sub_distrib, s2]
    _ = ∑ i ∈ Finset.range n, (H (i + 1) - G (i + 1)) - ∑ i ∈ Finset.range n,
          (potential P (v.getD ((i + 1) % n) 0) - potential P (v.getD (i % n) 0)) := by rw [hpot, sub_zero]
    _ = _ := by
        rw [← Finset.sum_sub_distrib]
        apply Finset.sum_congr rfl
        intro i _
        simp only [hH, hG, shuffleDefect]
        rw [show i + 1 + 1 = (i + 1) + 1 from rfl, hsucc (i + 1), hsucc i]
        simp only [dot, Prod.fst_sub, Prod.snd_sub]
        ring

theorem flat_steps (n : ℕ) : (⟨none⟩ : Bathymetry ℝ).steps n = .ok (List.replicate n 0) := rfl

theorem zero_getD (n j : ℕ) : (List.replicate n (0 : ℝ)).getD j 0 = 0 := by
  rw [List.getD_eq_getElem?_getD, List.getElem?_replicate]
  split <;> rfl

theorem source_zero (P : Params ℝ) (x y : State ℝ) : source P x y 0 = 0 := by
  simp [source]

theorem wet_getD (P : Params ℝ) (v ext : List (State ℝ)) (hwet : ∀ u ∈ v, P.eps ≤ u.1) (hext : ∀ x ∈ ext, x ∈ v)
    (j : ℕ) (hj : j < ext.length) : P.eps ≤ (ext.getD j 0).1 := by
  rw [List.getD_eq_getElem _ _ hj]
  exact hwet _ (hext _ (List.getElem_mem hj))

theorem flat_twoPoint (P : Params ℝ) (F : State ℝ → State ℝ → Except Error (State ℝ)) (φ : State ℝ → State ℝ → State ℝ)
    (hφ : ∀ x y : State ℝ, P.eps ≤ x.1 → P.eps ≤ y.1 → F x y = .ok (φ x y)) (v : List (State ℝ))
    (hwet : ∀ u ∈ v, P.eps ≤ u.1) (ext : List (State ℝ)) (hlen : ext.length = v.length + 2) (hext : ∀ x ∈ ext, x ∈ v) :
    (withSource P ⟨none⟩ (twoPoint F)).call [ext.dropLast, ext.tail] = .ok
        ((List.range (v.length + 1)).map (fun j => -φ (ext.getD j 0) (ext.getD (j + 1) 0)),
         (List.range (v.length + 1)).map (fun j => φ (ext.getD j 0) (ext.getD (j + 1) 0))) := by
  rw [withSource_call P ⟨none⟩ (twoPoint F) v.length ext hlen _ (flat_steps _) _ _ (twoPoint_call F v.length ext hlen
    (fun j => φ (ext.getD j 0) (ext.getD (j + 1) 0)) (fun j hj => hφ _ _
      (wet_getD P v ext hwet hext j (by omega)) (wet_getD P v ext hwet hext (j + 1) (by omega))))]
  simp only [zero_getD, source_zero, neg_zero, add_zero]

theorem wet_state (P : Params ℝ) (u : State ℝ) (hu : P.eps ≤ u.1) : u = (u.1, u.1 * speedOf u) := by
  have h0 : u.1 ≠ 0 := (lt_of_lt_of_le P.eps_pos hu).ne'
  unfold speedOf
  refine Prod.ext rfl ?_
  simp only
  field_simp

theorem middle_flux (P : Params ℝ) (x y : State ℝ) (hx : P.eps ≤ x.1) (hy : P.eps ≤ y.1) :
    energyStableNode P x y = .ok (fluxOf P (middle x y)) := by
  refine flux_ok P _ ?_
  have := P.eps_pos
  simp only [average]
  linarith

theorem middle_defect (P : Params ℝ) (x y : State ℝ) (hx : P.eps ≤ x.1) (hy : P.eps ≤ y.1) :
    shuffleDefect P x y 0 0 (fluxOf P (middle x y)) = created P.g x y := by
  obtain ⟨f, h1, h2⟩ := C46_shuffle_defect P x.1 y.1 (speedOf x) (speedOf y) 0 hx hy
  rw [← wet_state P x hx, ← wet_state P y hy] at h1 h2
  rw [middle_flux P x y hx hy] at h1
  rw [Except.ok.inj h1, h2]
  have ex : x.1 * speedOf x = x.2 := congrArg Prod.snd (wet_state P x hx).symm
  have ey : y.1 * speedOf y = y.2 := congrArg Prod.snd (wet_state P y hy).symm
  simp only [created, jointSpeed, ex, ey]

theorem central_defect (P : Params ℝ) (x y : State ℝ) (hx : P.eps ≤ x.1) (hy : P.eps ≤ y.1) :
    shuffleDefect P x y 0 0 ((1 / 2 : ℝ) • (fluxOf P x + fluxOf P y)) = createdCentral P.g x y := by
  have h1 : x.1 ≠ 0 := (lt_of_lt_of_le P.eps_pos hx).ne'
  have h2 : y.1 ≠ 0 := (lt_of_lt_of_le P.eps_pos hy).ne'
  have v1 : velocity P x = x.2 / x.1 := velocity_wet P x.1 x.2 hx
  have v2 : velocity P y = y.2 / y.1 := velocity_wet P y.1 y.2 hy
  simp only [shuffleDefect, dot, entropy, potential, fluxOf, massFlux, momentumFlux, if_neg (not_lt.mpr hx),
    if_neg (not_lt.mpr hy), v1, v2, createdCentral, speedOf, Prod.fst_sub, Prod.snd_sub, Prod.smul_fst, Prod.smul_snd,
    Prod.fst_add, Prod.snd_add, smul_eq_mul]
  field_simp
  ring

theorem diffusion_removed (g eps : ℝ) (hg : 0 < g) (heps : 0 < eps) (x y : State ℝ) (hx : eps ≤ x.1) (hy : eps ≤ y.1) :
    dot (entropyStep (realParams g eps heps) x y 0)
      (diffusion (realParams g eps heps) x y (entropyStep (realParams g eps heps) x y 0)) = removed g x y := by
  obtain ⟨-, -, e⟩ := diffusion_form (realParams g eps heps) (realParams_good g eps hg heps) x y
    (entropyStep (realParams g eps heps) x y 0)
  rw [e]
  have v1 : velocity (realParams g eps heps) x = x.2 / x.1 := velocity_wet _ x.1 x.2 hx
  have v2 : velocity (realParams g eps heps) y = y.2 / y.1 := velocity_wet _ y.1 y.2 hy
  have hav : eps ≤ average x.1 y.1 := by unfold average; linarith
  have v3 : velocity (realParams g eps heps) (average x.1 y.1, average x.2 y.2) = jointSpeed x y := by
    rw [velocity_wet _ _ _ hav]
    unfold average jointSpeed
    rw [div_div_div_cancel_right₀ (by norm_num)]
  have r : √(2 * g) ≠ 0 := (Real.sqrt_pos.2 (by linarith)).ne'
  simp only [v3, entropyStep, entropy, v1, v2, Prod.fst_sub, Prod.snd_sub, removed, speedOf]
  simp only [realParams, average, add_zero]
  rw [show g * y.1 - (y.2 / y.1) ^ 2 / 2 - (g * x.1 - (x.2 / x.1) ^ 2 / 2) =
    g * (y.1 - x.1) - ((y.2 / y.1) ^ 2 - (x.2 / x.1) ^ 2) / 2 by ring]
  field_simp

/-! ### C141 -/

/-- C141.  The rate of change of the energy of the water on a periodic domain with flat ground, for cells that are wet:
exact sums over the pairs of neighbouring cells for the flux of the averaged state, for the central flux, and for the flux
of the averaged state with diffusion. -/
theorem C141_balance (g eps : ℝ) (hg : 0 < g) (heps : 0 < eps) (dx : ℝ) (hdx : dx ≠ 0)
    (wall : Option (State ℝ → State ℝ)) (il ir : Option (ℝ → State ℝ)) (bc : BC ℝ (State ℝ))
    (hbc : build wall ["periodic"] 1 il ir = .ok bc) (t : ℝ) (v : List (State ℝ)) (hv : v ≠ [])
    (hwet : ∀ u ∈ v, eps ≤ u.1) :
    (∃ w, rhs (energyStableFlux (realParams g eps heps) ⟨none⟩) dx bc t v = .ok w ∧ w.length = v.length ∧
      HasDerivAt (fun s => totalEnergy g dx (along v w s)) (pairs v (created g)) 0) ∧
    (∃ w, rhs (centralFlux (realParams g eps heps) ⟨none⟩) dx bc t v = .ok w ∧ w.length = v.length ∧
      HasDerivAt (fun s => totalEnergy g dx (along v w s)) (pairs v (createdCentral g)) 0) ∧
    (∃ w, rhs (diffusiveFlux (realParams g eps heps) ⟨none⟩) dx bc t v = .ok w ∧ w.length = v.length ∧
      HasDerivAt (fun s => totalEnergy g dx (along v w s)) (pairs v fun x y => created g x y - removed g x y) 0) := by
  set P := realParams g eps heps with hP
  have hwet' : ∀ u ∈ v, P.eps ≤ u.1 := hwet
  refine ⟨?_, ?_, ?_⟩
  · obtain ⟨w, h1, h2, h3⟩ := water_parts P (energyStableFlux P ⟨none⟩)
      (by simp [energyStableFlux, withSource, energyStable, twoPoint]) (fun x y => fluxOf P (middle x y)) dx hdx wall
      il ir bc hbc t v hv (fun ext hlen hext => flat_twoPoint P (energyStableNode P) _ (middle_flux P) v hwet' ext hlen hext)
    refine ⟨w, h1, h2, (total_deriv P dx v w hwet').congr_deriv ?_⟩
    rw [h3]
    exact pairs_congr v hv _ _ fun x hx y hy => middle_defect P x y (hwet' x hx) (hwet' y hy)
  · obtain ⟨w, h1, h2, h3⟩ := water_parts P (centralFlux P ⟨none⟩)
      (by simp [centralFlux, withSource, central, twoPoint])
      (fun x y => (1 / 2 : ℝ) • (fluxOf P x + fluxOf P y)) dx hdx wall il ir bc hbc t v hv
      (fun ext hlen hext => flat_twoPoint P (centralNode ℝ (flux P))
        (fun x y => (1 / 2 : ℝ) • (fluxOf P x + fluxOf P y)) (fun x y hx hy => by
        unfold centralNode
        rw [flux_ok P x (P.eps_pos.le.trans hx), flux_ok P y (P.eps_pos.le.trans hy)]) v hwet' ext hlen hext)
    refine ⟨w, h1, h2, (total_deriv P dx v w hwet').congr_deriv ?_⟩
    rw [h3]
    exact pairs_congr v hv _ _ fun x hx y hy => central_defect P x y (hwet' x hx) (hwet' y hy)
  · obtain ⟨w, h1, h2, h3⟩ := water_parts P (diffusiveFlux P ⟨none⟩) (by simp [diffusiveFlux])
      (fun x y => fluxOf P (middle x y) - diffusion P x y (entropyStep P x y 0)) dx hdx wall il ir bc hbc t v hv (by
        intro ext hlen hext
        obtain ⟨fl, fr, hc⟩ := diffusive_call P (realParams_good g eps hg heps) ⟨none⟩ v.length ext hlen
          (fun x hx => P.eps_pos.le.trans (hwet' x (hext x hx))) _ (flat_steps _)
        obtain ⟨ds, hds, e1, e2⟩ := diffusive_inv P ⟨none⟩ v.length ext hlen _ (requiredValues_two _ _) fl fr hc
        obtain rfl := Except.ok.inj ((flat_steps _).symm.trans hds)
        rw [hc, e1, e2]
        simp only [zero_getD, source_zero, sub_zero])
    refine ⟨w, h1, h2, (total_deriv P dx v w hwet').congr_deriv ?_⟩
    rw [h3]
    refine pairs_congr v hv _ _ fun x hx y hy => ?_
    rw [show created g x y = created P.g x y from rfl, ← middle_defect P x y (hwet' x hx) (hwet' y hy), ← diffusion_removed g eps hg heps x y (hwet x hx) (hwet y hy)]
    simp only [shuffleDefect, entropyStep, dot, Prod.fst_sub, Prod.snd_sub]
    ring

/-- Two cells between which the water is calm: the velocity of the water in both together is at most half the speed of
the waves, and the jumps of velocity and height are not too large. -/
def Calm (g : ℝ) (u u' : State ℝ) : Prop :=
  |jointSpeed u u'| ≤ √(g * ((u.1 + u'.1) / 2)) / 2 ∧ (speedOf u' - speedOf u) ^ 2 ≤ u.1 + u'.1 ∧
    √(2 * g) * |u'.1 - u.1| ≤ u.1 + u'.1

theorem created_le (g : ℝ) (hg : 0 < g) (x y : State ℝ) (hx : 0 < x.1) (hy : 0 < y.1) (h : Calm g x y) :
    created g x y ≤ removed g x y := by
  obtain ⟨h1, h2, h3⟩ := h
  have ex : x.2 = x.1 * speedOf x := by unfold speedOf; field_simp
  have ey : y.2 = y.1 * speedOf y := by unfold speedOf; field_simp
  have hr : 0 < √(2 * g) := Real.sqrt_pos.2 (by linarith)
  have hr2 : √(2 * g) ^ 2 = 2 * g := Real.sq_sqrt (by linarith)
  have hc : 0 < √(g * ((x.1 + y.1) / 2)) := Real.sqrt_pos.2 (by positivity)
  have hc2 : √(g * ((x.1 + y.1) / 2)) ^ 2 = g * ((x.1 + y.1) / 2) := Real.sq_sqrt (by positivity)
  have hA : g * (y.1 - x.1) - (speedOf y ^ 2 - speedOf x ^ 2) / 2 + jointSpeed x y * (speedOf y - speedOf x) =
      (y.1 - x.1) * (g + (speedOf y - speedOf x) ^ 2 / (2 * (x.1 + y.1))) := by
    unfold jointSpeed
    rw [ex, ey]
    field_simp
    ring
  unfold created removed
  simp only
  generalize speedOf y - speedOf x = η at *
  generalize hd : g * (y.1 - x.1) - (speedOf y ^ 2 - speedOf x ^ 2) / 2 = d at *
  generalize √(g * ((x.1 + y.1) / 2)) = c at *
  generalize √(2 * g) = r at *
  generalize jointSpeed x y = V at *
  generalize hδ : y.1 - x.1 = δ at *
  have hs : 0 < x.1 + y.1 := by linarith
  generalize x.1 + y.1 = S at *
  have m1 : c / 2 ≤ |V - c| := by
    rw [abs_sub_comm]
    linarith [le_abs_self (c - V), le_abs_self V]
  have m2 : c / 2 ≤ |V + c| := by linarith [le_abs_self (V + c), neg_abs_le V]
  have hAg : g ^ 2 * δ ^ 2 ≤ (d + V * η) ^ 2 := by
    rw [hA]
    have : g ≤ g + η ^ 2 / (2 * S) := le_add_of_nonneg_right (by positivity)
    rw [mul_pow, mul_comm]
    exact mul_le_mul_of_nonneg_left (pow_le_pow_left₀ hg.le this 2) (sq_nonneg δ)
  have low : c * (g ^ 2 * δ ^ 2 + c ^ 2 * η ^ 2) ≤
      |V - c| * (d + (V - c) * η) ^ 2 + |V + c| * (d + (V + c) * η) ^ 2 := by
    have a1 := mul_le_mul_of_nonneg_right m1 (sq_nonneg (d + (V - c) * η))
    have a2 := mul_le_mul_of_nonneg_right m2 (sq_nonneg (d + (V + c) * η))
    have a3 := mul_le_mul_of_nonneg_left hAg hc.le
    have a4 : c / 2 * (d + (V - c) * η) ^ 2 + c / 2 * (d + (V + c) * η) ^ 2 =
        c * (d + V * η) ^ 2 + c * (c ^ 2 * η ^ 2) := by ring
    rw [mul_add]
    linarith
  have hη : r * |η| ≤ 2 * c := by
    refine abs_le_of_sq_le_sq' ?_ (by positivity) |>.2
    rw [mul_pow, sq_abs, hr2, mul_pow, hc2]
    have := mul_le_mul_of_nonneg_left h2 hg.le
    linarith
  have up : δ * η * (2 * V * η + g * δ) ≤ |δ| * η ^ 2 * c + g * δ ^ 2 * |η| := by
    have b1 : δ * (2 * V) ≤ |δ| * c := by
      refine (le_abs_self _).trans ?_
      rw [abs_mul, abs_mul, abs_of_pos (by norm_num : (0 : ℝ) < 2)]
      exact mul_le_mul_of_nonneg_left (by linarith) (abs_nonneg δ)
    have b2 := mul_le_mul_of_nonneg_right b1 (sq_nonneg η)
    have b3 := mul_le_mul_of_nonneg_left (le_abs_self η) (mul_nonneg hg.le (sq_nonneg δ))
    have b4 : δ * η * (2 * V * η + g * δ) = δ * (2 * V) * η ^ 2 + g * δ ^ 2 * η := by ring
    have b5 : |δ| * η ^ 2 * c = |δ| * c * η ^ 2 := by ring
    rw [b4, b5]
    linarith
  have hr3 : r ^ 3 = 2 * g * r := by rw [← hr2]; ring
  rw [div_le_div_iff₀ (by norm_num) (by positivity), hr3]
  have c1 : |δ| * η ^ 2 * c * (2 * (2 * g * r)) ≤ 8 * (c * (c ^ 2 * η ^ 2)) := by
    rw [hc2]
    have := mul_le_mul_of_nonneg_left h3 (show 0 ≤ η ^ 2 * c * (4 * g) by positivity)
    refine le_of_eq_of_le ?_ (this.trans_eq ?_) <;> ring
  have c2 : g * δ ^ 2 * |η| * (2 * (2 * g * r)) ≤ 8 * (c * (g ^ 2 * δ ^ 2)) := by
    have := mul_le_mul_of_nonneg_left hη (show 0 ≤ g ^ 2 * δ ^ 2 * 4 by positivity)
    refine le_of_eq_of_le ?_ (this.trans_eq ?_) <;> ring
  have := mul_le_mul_of_nonneg_right up (show 0 ≤ 2 * (2 * g * r) by positivity)
  rw [add_mul] at this
  rw [mul_add] at low
  linarith

theorem pairs_nonpos (v : List (State ℝ)) (q : State ℝ → State ℝ → ℝ)
    (h : ∀ p ∈ v.zip (v.rotate 1), q p.1 p.2 ≤ 0) : pairs v q ≤ 0 := by
  have e : List.zipWith q v (v.rotate 1) = (v.zip (v.rotate 1)).map fun p => q p.1 p.2 := by
    rw [List.zip, List.map_zipWith]
  unfold pairs
  rw [e]
  generalize v.zip (v.rotate 1) = l at h
  induction l with
  | nil => simp
  | cons p l ih =>
    rw [List.map_cons, List.sum_cons]
    linarith [h p List.mem_cons_self, ih fun p hp => h p (List.mem_cons_of_mem _ hp)]

/-- C141.  With diffusion the energy does not grow as long as the water is calm between all neighbouring cells. -/
theorem C141_stable (g eps : ℝ) (hg : 0 < g) (heps : 0 < eps) (dx : ℝ) (hdx : dx ≠ 0)
    (wall : Option (State ℝ → State ℝ)) (il ir : Option (ℝ → State ℝ)) (bc : BC ℝ (State ℝ))
    (hbc : build wall ["periodic"] 1 il ir = .ok bc) (t : ℝ) (v w : List (State ℝ)) (hv : v ≠ [])
    (hwet : ∀ u ∈ v, eps ≤ u.1) (hcalm : ∀ p ∈ v.zip (v.rotate 1), Calm g p.1 p.2)
    (hw : rhs (diffusiveFlux (realParams g eps heps) ⟨none⟩) dx bc t v = .ok w) :
    deriv (fun s => totalEnergy g dx (along v w s)) 0 ≤ 0 := by
  obtain ⟨-, -, w', h1, -, h2⟩ := C141_balance g eps hg heps dx hdx wall il ir bc hbc t v hv hwet
  obtain rfl := Except.ok.inj (h1.symm.trans hw)
  rw [h2.deriv]
  refine pairs_nonpos v _ fun p hp => ?_
  obtain ⟨p1, p2⟩ := List.of_mem_zip hp
  rw [List.mem_rotate] at p2
  linarith [created_le g hg p.1 p.2 (heps.trans_le (hwet _ p1)) (heps.trans_le (hwet _ p2)) (hcalm p hp)]

/-- C141.  If all velocities agree, neither the flux of the averaged state nor the central flux changes the energy. -/
theorem C141_same_velocity (g eps : ℝ) (hg : 0 < g) (heps : 0 < eps) (dx : ℝ) (hdx : dx ≠ 0)
    (wall : Option (State ℝ → State ℝ)) (il ir : Option (ℝ → State ℝ)) (bc : BC ℝ (State ℝ))
    (hbc : build wall ["periodic"] 1 il ir = .ok bc) (t : ℝ) (v w : List (State ℝ)) (hv : v ≠ [])
    (hwet : ∀ u ∈ v, eps ≤ u.1) (x : ℝ) (hx : ∀ u ∈ v, u.2 = u.1 * x) :
    (rhs (energyStableFlux (realParams g eps heps) ⟨none⟩) dx bc t v = .ok w →
      deriv (fun s => totalEnergy g dx (along v w s)) 0 = 0) ∧
    (rhs (centralFlux (realParams g eps heps) ⟨none⟩) dx bc t v = .ok w →
      deriv (fun s => totalEnergy g dx (along v w s)) 0 = 0) := by
  have hs : ∀ u ∈ v, speedOf u = x := by
    intro u hu
    have : u.1 ≠ 0 := (heps.trans_le (hwet u hu)).ne'
    rw [speedOf, hx u hu]
    field_simp
  have hz : pairs v (fun _ _ => 0) = 0 := by
    simpa using pairs_potential v hv (fun _ => 0)
  obtain ⟨⟨w1, a1, -, a2⟩, ⟨w2, b1, -, b2⟩, -⟩ := C141_balance g eps hg heps dx hdx wall il ir bc hbc t v hv hwet
  constructor
  · intro hw
    obtain rfl := Except.ok.inj (a1.symm.trans hw)
    rw [a2.deriv, ← hz]
    exact pairs_congr v hv _ _ fun p hp q hq => by simp [created, hs p hp, hs q hq]
  · intro hw
    obtain rfl := Except.ok.inj (b1.symm.trans hw)
    rw [b2.deriv, ← hz]
    exact pairs_congr v hv _ _ fun p hp q hq => by simp [createdCentral, hs p hp, hs q hq]

theorem example_wet : ∀ u ∈ [((7 : ℝ), (28 : ℝ)), (2, 18), (2, 26)], 1 ≤ u.1 := by
  intro u hu
  simp only [List.mem_cons, List.not_mem_nil, or_false] at hu
  rcases hu with rfl | rfl | rfl <;> norm_num

/-- C141.  All three fluxes can create energy: three cells with heights `7`, `2`, `2` and velocities `4`, `9`, `13`, in
opposite order for the central flux, and gravity `8`. -/
theorem C141_counterexample : ∃ bc : BC ℝ (State ℝ), build (some reflect) ["periodic"] 1 none none = .ok bc ∧
    ∀ F ∈ [energyStableFlux (realParams 8 1 one_pos) ⟨none⟩, centralFlux (realParams 8 1 one_pos) ⟨none⟩,
      diffusiveFlux (realParams 8 1 one_pos) ⟨none⟩], ∃ v w, (∀ u ∈ v, 1 ≤ u.1) ∧ rhs F 1 bc 0 v = .ok w ∧
        0 < deriv (fun s => totalEnergy 8 1 (along v w s)) 0 := by
  obtain ⟨⟨w1, a1, -, a2⟩, -, w3, c1, -, c2⟩ := C141_balance 8 1 (by norm_num) one_pos 1 one_ne_zero
    (some reflect) none none ⟨[.copy (-1)], [.copy 0], true⟩ rfl 0 [(7, 28), (2, 18), (2, 26)] (by simp) example_wet
  have hwet : ∀ u ∈ [((2 : ℝ), (26 : ℝ)), (2, 18), (7, 28)], 1 ≤ u.1 := fun u hu => example_wet u (by
    simp only [List.mem_cons, List.not_mem_nil, or_false] at hu ⊢
    tauto)
  obtain ⟨-, ⟨w2, b1, -, b2⟩, -⟩ := C141_balance 8 1 (by norm_num) one_pos 1 one_ne_zero
    (some reflect) none none ⟨[.copy (-1)], [.copy 0], true⟩ rfl 0 [(2, 26), (2, 18), (7, 28)] (by simp) hwet
  have s1 : √(2 * 8 : ℝ) = 4 := by rw [show (2 * 8 : ℝ) = 4 ^ 2 by norm_num]; exact Real.sqrt_sq (by norm_num)
  have s2 : √(8 * ((7 + 2) / 2) : ℝ) = 6 := by
    rw [show (8 * ((7 + 2) / 2) : ℝ) = 6 ^ 2 by norm_num]; exact Real.sqrt_sq (by norm_num)
  have s3 : √(8 * ((2 + 2) / 2) : ℝ) = 4 := by
    rw [show (8 * ((2 + 2) / 2) : ℝ) = 4 ^ 2 by norm_num]; exact Real.sqrt_sq (by norm_num)
  have s4 : √(8 * ((2 + 7) / 2) : ℝ) = 6 := by
    rw [show (8 * ((2 + 7) / 2) : ℝ) = 6 ^ 2 by norm_num]; exact Real.sqrt_sq (by norm_num)
  refine ⟨⟨[.copy (-1)], [.copy 0], true⟩, rfl, ?_⟩
  intro F hF
  simp only [List.mem_cons, List.not_mem_nil, or_false] at hF
  rcases hF with rfl | rfl | rfl
  · refine ⟨_, w1, example_wet, a1, ?_⟩
    rw [a2.deriv]
    simp [pairs, created, speedOf, jointSpeed]
    norm_num
  · refine ⟨_, w2, hwet, b1, ?_⟩
    rw [b2.deriv]
    simp [pairs, createdCentral, speedOf]
    norm_num
  · refine ⟨_, w3, example_wet, c1, ?_⟩
    rw [c2.deriv]
    simp only [pairs, created, removed, speedOf, jointSpeed, List.rotate_cons_succ, List.rotate_zero, List.cons_append,
      List.nil_append, List.zipWith_cons_cons, List.zipWith_nil_right, List.sum_cons, List.sum_nil, s1, s2, s3, s4]
    norm_num [abs_of_pos, abs_of_neg, abs_of_nonneg]

/-- Non-vacuity of `C141_stable`: calm water, with different heights and velocities, for gravity `8`. -/
example : ∀ p ∈ [((5 : ℝ), (0 : ℝ)), (4, 4), (5, 5)].zip ([((5 : ℝ), (0 : ℝ)), (4, 4), (5, 5)].rotate 1),
    Calm 8 p.1 p.2 := by
  have s1 : √(2 * 8 : ℝ) = 4 := by rw [show (2 * 8 : ℝ) = 4 ^ 2 by norm_num]; exact Real.sqrt_sq (by norm_num)
  have s2 : ∀ x : ℝ, 4 ≤ x → 4 ≤ √(8 * x) := fun x hx => Real.le_sqrt_of_sq_le (by linarith)
  intro p hp
  simp only [List.rotate_cons_succ, List.rotate_zero, List.cons_append, List.nil_append, List.zip_cons_cons,
    List.zip_nil_right, List.mem_cons, List.not_mem_nil, or_false] at hp
  rcases hp with rfl | rfl | rfl
  all_goals
    simp only [Calm, jointSpeed, speedOf, s1]
    refine ⟨?_, by norm_num, by norm_num [abs_of_neg]⟩
    rw [_root_.abs_le]
  · have := s2 ((5 + 4) / 2) (by norm_num); constructor <;> linarith
  · have := s2 ((4 + 5) / 2) (by norm_num); constructor <;> linarith
  · have := s2 ((5 + 5) / 2) (by norm_num); constructor <;> linarith

end Verif.SWE
