import Verif.Core.SWEConserve

/-!
Lemmas about the flux of the solver `es1` (`diffusiveFlux`): what it returns on extended vectors.
-/

set_option linter.unusedSectionVars false

namespace Verif.SWE

open Verif.Py Verif.Boundary Verif.FV Verif.ODE

variable {K : Type*} [Field K] [LinearOrder K] [IsStrictOrderedRing K]

theorem dofVector_two {α : Type*} (ext : List α) (h : 2 ≤ ext.length) :
    dofVector [ext.dropLast, ext.tail] = .ok ext := by
  have hne : ext ≠ [] := by rintro rfl; simp at h
  obtain ⟨x, xs, rfl⟩ := List.exists_cons_of_ne_nil hne
  have hxs : xs ≠ [] := by rintro rfl; simp at h
  have hg : Py.get xs (-1) = .ok (xs.getLast hxs) := by
    have hp := List.length_pos_iff.mpr hxs
    have := get_neg xs (i := 0) hp
    simp only [Nat.cast_zero, neg_zero, zero_sub] at this
    rw [this]
    congr 1
    rw [List.getLast_eq_getElem]
    simp
  simp only [dofVector, List.tail_cons, List.mapM_cons, List.mapM_nil, hg]
  change Except.ok ((x :: xs).dropLast ++ [xs.getLast hxs]) = _
  congr 1
  have h2 := List.dropLast_append_getLast (List.cons_ne_nil x xs)
  rw [List.getLast_cons hxs] at h2
  exact h2

/-- Step of the entropy variables over a step `s` of the bottom. -/
def entropyStep (P : Params K) (uL uR : State K) (s : K) : State K := entropy P uR s - entropy P uL 0

theorem entropy_sub (P : Params K) (uL uR : State K) (bL bR : K) :
    entropy P uR bR - entropy P uL bL = entropyStep P uL uR (bR - bL) := by
  unfold entropyStep entropy
  ext
  · simp; ring
  · simp

/-- The bottom behind the steps. -/
theorem steps_bottom (B : Bathymetry K) (n : ℕ) (ds : List K) (hds : B.steps (n + 1) = .ok ds) :
    (B.values.getD (List.replicate (n + 2) 0)).length = n + 2 ∧ ds.length = n + 1 ∧
    ∀ j < n + 1, ds.getD j 0 = (B.values.getD (List.replicate (n + 2) 0)).getD (j + 1) 0 -
      (B.values.getD (List.replicate (n + 2) 0)).getD j 0 := by
  unfold Bathymetry.steps at hds
  cases hB : B.values with
  | none =>
    rw [hB] at hds
    simp only [Except.ok.injEq] at hds
    subst hds
    refine ⟨by simp, by simp, fun j hj => ?_⟩
    have h : ∀ m i, (List.replicate m (0 : K)).getD i 0 = 0 := by
      intro m i
      rw [List.getD_eq_getElem?_getD, List.getElem?_replicate]
      split <;> rfl
    simp [h, -List.getD_eq_getElem?_getD]
  | some b =>
    rw [hB] at hds
    simp only [Option.getD_some] at hds ⊢
    split at hds
    · rename_i hl
      simp only [Except.ok.injEq] at hds
      subst hds
      have hb : b.length = n + 2 := by
        simp only [diff, List.length_zipWith, List.length_tail] at hl
        omega
      refine ⟨hb, hl, fun j hj => ?_⟩
      rw [List.getD_eq_getElem _ _ (by omega), List.getD_eq_getElem _ _ (by omega),
        List.getD_eq_getElem _ _ (by omega)]
      simp [diff]
    · cases hds

/-- The nodes of the flux. -/
theorem diffusive_eq (P : Params K) (B : Bathymetry K) (n : ℕ) (ext : List (State K)) (hlen : ext.length = n + 2)
    (ds : List K) (hds : B.steps (n + 1) = .ok ds) :
    (diffusiveFlux P B).call [ext.dropLast, ext.tail] =
      match zipE (fun (p : State K × State K) (q : K × State K) => diffusiveNode P p.1 p.2 q.1 q.2)
        (ext.dropLast.zip ext.tail)
        (ds.zip ((List.range (n + 1)).map fun j => entropyStep P (ext.getD j 0) (ext.getD (j + 1) 0) (ds.getD j 0))) with
      | .error e => .error e
      | .ok fs => .ok (fs.map (·.1), fs.map (·.2)) := by
  obtain ⟨hb, -, hd⟩ := steps_bottom B n ds hds
  simp only [diffusiveFlux, dofVector_two ext (by omega), hlen]
  rw [if_pos hb]
  have hz : (ext.dropLast.zip ext.tail).length = n + 1 := by simp [hlen]
  rw [hz, hds]
  have e : List.zipWith (fun a b => b - a)
      (List.zipWith (entropy P) ext (B.values.getD (List.replicate (n + 2) 0)))
      (List.zipWith (entropy P) ext (B.values.getD (List.replicate (n + 2) 0))).tail =
      (List.range (n + 1)).map fun j => entropyStep P (ext.getD j 0) (ext.getD (j + 1) 0) (ds.getD j 0) := by
    apply List.ext_getElem
    · simp [hlen, hb]
    · intro i h1 h2
      have hi : i < n + 1 := by simpa using h2
      simp only [List.getElem_zipWith, List.getElem_tail, List.getElem_map, List.getElem_range, entropy_sub]
      rw [hd i hi, List.getD_eq_getElem ext _ (by omega), List.getD_eq_getElem ext _ (by omega),
        List.getD_eq_getElem _ _ (by omega), List.getD_eq_getElem _ _ (by omega)]
  rw [e]
  rfl

theorem flux_inv (P : Params K) (u f : State K) (h : flux P u = .ok f) : f = fluxOf P u := by
  by_cases hu : u.1 < 0
  · rw [flux, if_pos hu] at h; cases h
  · rw [flux_ok P u (not_lt.mp hu)] at h
    exact (Except.ok.inj h).symm

/-- The state between two cells. -/
def middle (uL uR : State K) : State K := (average uL.1 uR.1, average uL.2 uR.2)

/-- What is known if the flux does not raise. -/
theorem diffusive_inv (P : Params K) (B : Bathymetry K) (n : ℕ) (ext : List (State K)) (hlen : ext.length = n + 2)
    (values : List (List (State K))) (hval : requiredValues 2 values = .ok [ext.dropLast, ext.tail])
    (fl fr : List (State K)) (h : (diffusiveFlux P B).call values = .ok (fl, fr)) :
    ∃ ds, B.steps (n + 1) = .ok ds ∧
      fl = (List.range (n + 1)).map (fun j => -(fluxOf P (middle (ext.getD j 0) (ext.getD (j + 1) 0)) -
          diffusion P (ext.getD j 0) (ext.getD (j + 1) 0)
            (entropyStep P (ext.getD j 0) (ext.getD (j + 1) 0) (ds.getD j 0))) -
          source P (ext.getD j 0) (ext.getD (j + 1) 0) (ds.getD j 0)) ∧
      fr = (List.range (n + 1)).map (fun j => fluxOf P (middle (ext.getD j 0) (ext.getD (j + 1) 0)) -
          diffusion P (ext.getD j 0) (ext.getD (j + 1) 0)
            (entropyStep P (ext.getD j 0) (ext.getD (j + 1) 0) (ds.getD j 0)) -
          source P (ext.getD j 0) (ext.getD (j + 1) 0) (ds.getD j 0)) := by
  match values, h with
  | [l, r], h =>
    rw [requiredValues_two] at hval
    have hlr := Except.ok.inj hval
    simp only [List.cons.injEq, and_true] at hlr
    obtain ⟨rfl, rfl⟩ := hlr
    have hz : (ext.dropLast.zip ext.tail).length = n + 1 := by simp [hlen]
    have hds : ∃ ds, B.steps (n + 1) = .ok ds := by
      simp only [diffusiveFlux, dofVector_two ext (by omega), hz] at h
      split at h
      · cases hs : B.steps (n + 1) with
        | ok ds => exact ⟨ds, rfl⟩
        | error e => rw [hs] at h; cases h
      · cases h
    obtain ⟨ds, hds⟩ := hds
    obtain ⟨-, hdl, -⟩ := steps_bottom B n ds hds
    rw [diffusive_eq P B n ext hlen ds hds] at h
    cases hq : zipE (fun (p : State K × State K) (q : K × State K) => diffusiveNode P p.1 p.2 q.1 q.2)
        (ext.dropLast.zip ext.tail)
        (ds.zip ((List.range (n + 1)).map fun j =>
          entropyStep P (ext.getD j 0) (ext.getD (j + 1) 0) (ds.getD j 0))) with
    | error e => rw [hq] at h; cases h
    | ok fs =>
      rw [hq] at h
      simp only [Except.ok.injEq, Prod.mk.injEq] at h
      obtain ⟨rfl, rfl⟩ := h
      obtain ⟨h1, h2⟩ := zipE_ok_iff _ _ _ fs hq
      have hfs : fs.length = n + 1 := by rw [h1]; simp [hlen, hdl]
      have key : ∀ j (hj : j < fs.length), fs[j] =
          (-(fluxOf P (middle (ext.getD j 0) (ext.getD (j + 1) 0)) -
          diffusion P (ext.getD j 0) (ext.getD (j + 1) 0)
            (entropyStep P (ext.getD j 0) (ext.getD (j + 1) 0) (ds.getD j 0))) -
          source P (ext.getD j 0) (ext.getD (j + 1) 0) (ds.getD j 0),
          fluxOf P (middle (ext.getD j 0) (ext.getD (j + 1) 0)) -
          diffusion P (ext.getD j 0) (ext.getD (j + 1) 0)
            (entropyStep P (ext.getD j 0) (ext.getD (j + 1) 0) (ds.getD j 0)) -
          source P (ext.getD j 0) (ext.getD (j + 1) 0) (ds.getD j 0)) := by
        intro j hj
        have := h2 j hj (by omega) (by simp; omega)
        simp only [List.getElem_zip, List.getElem_dropLast, List.getElem_tail, List.getElem_map,
          List.getElem_range] at this
        rw [← List.getD_eq_getElem ext 0, ← List.getD_eq_getElem ext 0, ← List.getD_eq_getElem ds 0] at this
        unfold diffusiveNode at this
        split at this
        · cases this
        · cases he : energyStableNode P (ext.getD j 0) (ext.getD (j + 1) 0) with
          | error e => rw [he] at this; cases this
          | ok f =>
            rw [he] at this
            rw [flux_inv P _ f he] at this
            exact (Except.ok.inj this).symm
      refine ⟨ds, hds, ?_, ?_⟩ <;>
      · apply List.ext_getElem
        · simp [hfs]
        · intro i h3 h4
          simp only [List.getElem_map, List.getElem_range]
          rw [key i (by simpa using h3)]

/-- The flux between cells that are not negative. -/
theorem diffusive_call (P : Params K) (hP : P.Good) (B : Bathymetry K) (n : ℕ) (ext : List (State K))
    (hlen : ext.length = n + 2) (hall : ∀ x ∈ ext, 0 ≤ x.1) (ds : List K) (hds : B.steps (n + 1) = .ok ds) :
    ∃ fl fr, (diffusiveFlux P B).call [ext.dropLast, ext.tail] = .ok (fl, fr) := by
  rw [diffusive_eq P B n ext hlen ds hds]
  obtain ⟨fs, hfs⟩ := zipE_ok (fun (p : State K × State K) (q : K × State K) => diffusiveNode P p.1 p.2 q.1 q.2)
    (ext.dropLast.zip ext.tail)
    (ds.zip ((List.range (n + 1)).map fun j => entropyStep P (ext.getD j 0) (ext.getD (j + 1) 0) (ds.getD j 0))) (by
      intro i h2 h3
      simp only [List.getElem_zip, List.getElem_dropLast, List.getElem_tail]
      have hm : ∀ (a b : State K), 0 ≤ a.1 → 0 ≤ b.1 → ∃ f, energyStableNode P a b = .ok f := by
        intro a b ha hb
        refine ⟨_, flux_ok P _ ?_⟩
        simp only [average]
        linarith
      simp only [List.length_zip, List.length_dropLast, List.length_tail, hlen] at h2
      obtain ⟨f, hf⟩ := hm (ext[i]'(by omega)) (ext[i + 1]'(by omega)) (hall _ (List.getElem_mem _))
        (hall _ (List.getElem_mem _))
      unfold diffusiveNode
      rw [if_neg (hP.rt_pos _ (by linarith [hP.g_pos])).ne', hf]
      exact ⟨_, rfl⟩)
  rw [hfs]
  exact ⟨_, _, rfl⟩

theorem diffusive_balanced (P : Params K) (B : Bathymetry K) (n : ℕ) : Balanced P B (diffusiveFlux P B) n {1} := by
  intro ext values fl fr hlen hval h
  obtain ⟨ds, hds, rfl, rfl⟩ := diffusive_inv P B n ext hlen values hval fl fr h
  refine ⟨ds, hds, by simp, by simp, ?_⟩
  intro j hj
  rw [range_getD _ _ _ _ hj, range_getD _ _ _ _ hj]
  refine ⟨by simp [source], 1, rfl, ?_⟩
  simp only [Prod.snd_sub, Prod.snd_neg, source, average]
  ring

theorem diffusive_endsAgree (P : Params K) (B : Bathymetry K) (n : ℕ) (hB : EndsFlat B n) :
    EndsAgree (diffusiveFlux P B) n := by
  intro ext values fl fr hlen hval _ h0 h1 h
  obtain ⟨ds, hds, rfl, rfl⟩ := diffusive_inv P B n ext hlen values hval fl fr h
  obtain ⟨d0, dn⟩ := hB ds hds
  rw [range_getD _ _ _ _ (by omega), range_getD _ _ _ _ (by omega), d0, dn, h0, h1]

/-- The energy stable flux on extended vectors. -/
theorem energyStable_call (P : Params K) (B : Bathymetry K) (n : ℕ) (ext : List (State K)) (hlen : ext.length = n + 2)
    (hall : ∀ x ∈ ext, 0 ≤ x.1) (ds : List K) (hds : B.steps (n + 1) = .ok ds) :
    ∃ gl gr, (energyStableFlux P B).call [ext.dropLast, ext.tail] =
      .ok ((List.range (n + 1)).map gl, (List.range (n + 1)).map gr) := by
  have h : ∀ j, 0 ≤ (ext.getD j 0).1 := by
    intro j
    by_cases hj : j < ext.length
    · rw [List.getD_eq_getElem _ _ hj]; exact hall _ (List.getElem_mem hj)
    · rw [List.getD_eq_default _ _ (by omega)]; simp
  refine ⟨_, _, withSource_call P B (energyStable P) n ext hlen ds hds _ _ (twoPoint_call _ n ext hlen
    (fun j => fluxOf P (middle (ext.getD j 0) (ext.getD (j + 1) 0))) ?_)⟩
  intro j hj
  refine flux_ok P _ ?_
  have := h j
  have := h (j + 1)
  simp only [average]
  linarith

end Verif.SWE
