import Verif.Core.SWELipschitz
import Verif.Props.Network
import Verif.Props.ReducedError

/-!
C108: the reduced local Lax-Friedrichs solver (base flux plus network, flat bottom) and the coarsened
fine solver, with constants computed from the weights.
-/

set_option linter.unusedSectionVars false

namespace Verif.ReducedLLF

open Verif.Py Verif.Boundary Verif.FV Verif.ODE Verif.Subgrid Verif.SWE Verif.Network Verif.Training
open Verif.ReducedError

section Extend

variable {K V : Type*}

/-- A relation of values that the ghost cells respect. -/
def Respects (rel : V → V → Prop) : Ghost K V → Prop
  | .copy _ => True
  | .inflow g => ∀ t, rel (g t) (g t)
  | .reflect _ f => ∀ x y, rel x y → rel (f x) (f y)

theorem get_rel (rel : V → V → Prop) (v w : List V) (h : List.Forall₂ rel v w) (i : ℤ) (x : V)
    (hx : Py.get v i = .ok x) : ∃ y, Py.get w i = .ok y ∧ rel x y := by
  have hl := h.length_eq
  unfold Py.get at hx ⊢
  simp only at hx ⊢
  rw [← hl]
  generalize (if i < 0 then (v.length : ℤ) + i else i) = j at *
  split at hx
  · cases hx
  · rename_i hj
    rw [if_neg hj]
    rcases hv : v[j.toNat]? with _ | a
    · rw [hv] at hx; cases hx
    · rw [hv] at hx
      cases hx
      obtain ⟨hlt, e⟩ := List.getElem?_eq_some_iff.mp hv
      have hlt' : j.toNat < w.length := hl ▸ hlt
      rw [List.getElem?_eq_getElem hlt']
      refine ⟨_, rfl, ?_⟩
      rw [← e]
      exact (List.forall₂_iff_get.mp h).2 _ hlt hlt'

theorem eval_rel (rel : V → V → Prop) (v w : List V) (h : List.Forall₂ rel v w) (c : Ghost K V)
    (hc : Respects rel c) (t : Option K) (x : V) (hx : c.eval v t = .ok x) :
    ∃ y, c.eval w t = .ok y ∧ rel x y := by
  cases c with
  | copy i => exact get_rel rel v w h i x hx
  | inflow g =>
    cases t with
    | none => cases hx
    | some t =>
      cases hx
      exact ⟨_, rfl, hc t⟩
  | reflect i f =>
    unfold Ghost.eval at hx ⊢
    simp only at hx ⊢
    rcases hg : Py.get v i with e | a
    · rw [hg] at hx; cases hx
    · rw [hg] at hx
      cases hx
      obtain ⟨y, h1, h2⟩ := get_rel rel v w h i a hg
      rw [h1]
      exact ⟨_, rfl, hc _ _ h2⟩

theorem mapM_rel (rel : V → V → Prop) (v w : List V) (h : List.Forall₂ rel v w) (cs : List (Ghost K V))
    (hc : ∀ c ∈ cs, Respects rel c) (t : Option K) (l : List V)
    (hl : cs.mapM (fun c => c.eval v t) = .ok l) :
    ∃ l', cs.mapM (fun c => c.eval w t) = .ok l' ∧ List.Forall₂ rel l l' := by
  induction cs generalizing l with
  | nil =>
    cases hl
    exact ⟨[], rfl, List.Forall₂.nil⟩
  | cons c cs ih =>
    rw [List.mapM_cons] at hl
    rcases h1 : c.eval v t with e | x
    · rw [h1] at hl; cases hl
    · rw [h1] at hl
      rcases h2 : cs.mapM (fun c => c.eval v t) with e | xs
      · rw [h2] at hl; cases hl
      · rw [h2] at hl
        cases hl
        obtain ⟨y, h3, h4⟩ := eval_rel rel v w h c (hc c (by simp)) t x h1
        obtain ⟨ys, h5, h6⟩ := ih (fun c hm => hc c (List.mem_cons_of_mem _ hm)) xs h2
        refine ⟨y :: ys, ?_, List.Forall₂.cons h4 h6⟩
        rw [List.mapM_cons, h3, h5]
        rfl

/-- Related vectors have related extensions by ghost cells. -/
theorem extend_rel (rel : V → V → Prop) (v w : List V) (h : List.Forall₂ rel v w) (b : BC K V)
    (hb : ∀ c ∈ b.left ++ b.right, Respects rel c) (t : Option K) (e : List V)
    (he : b.extend v t = .ok e) : ∃ e', b.extend w t = .ok e' ∧ List.Forall₂ rel e e' := by
  unfold BC.extend at he ⊢
  rcases h1 : b.left.mapM (fun c => c.eval v t) with _ | l
  · rw [h1] at he; cases he
  · rw [h1] at he
    rcases h2 : b.right.mapM (fun c => c.eval v t) with _ | r
    · rw [h2] at he; cases he
    · rw [h2] at he
      cases he
      obtain ⟨l', h3, h4⟩ := mapM_rel rel v w h b.left
        (fun c hc => hb c (List.mem_append_left _ hc)) t l h1
      obtain ⟨r', h5, h6⟩ := mapM_rel rel v w h b.right
        (fun c hc => hb c (List.mem_append_right _ hc)) t r h2
      rw [h3, h5]
      exact ⟨_, rfl, List.rel_append (List.rel_append h4 h) h6⟩

theorem extend_length (b : BC K V) (v : List V) (t : Option K) (e : List V)
    (he : b.extend v t = .ok e) : e.length = b.left.length + v.length + b.right.length := by
  have aux : ∀ (cs : List (Ghost K V)) (l : List V), cs.mapM (fun c => c.eval v t) = .ok l →
      l.length = cs.length := by
    intro cs
    induction cs with
    | nil => intro l h; cases h; rfl
    | cons c cs ih =>
      intro l h
      rw [List.mapM_cons] at h
      rcases h1 : c.eval v t with _ | x
      · rw [h1] at h; cases h
      · rw [h1] at h
        rcases h2 : cs.mapM (fun c => c.eval v t) with _ | xs
        · rw [h2] at h; cases h
        · rw [h2] at h
          cases h
          simp [ih xs h2]
  unfold BC.extend at he
  rcases h1 : b.left.mapM (fun c => c.eval v t) with _ | l
  · rw [h1] at he; cases he
  · rw [h1] at he
    rcases h2 : b.right.mapM (fun c => c.eval v t) with _ | r
    · rw [h2] at he; cases he
    · rw [h2] at he
      cases he
      simp [aux _ _ h1, aux _ _ h2]
      omega

end Extend

section Call

variable {K : Type*} [Field K] [LinearOrder K] [IsStrictOrderedRing K]

/-- The stencil of a network with four inputs around node `j` of an extended vector. -/
def stencil (ext : List (State K)) (j : ℕ) : List (State K) :=
  [ext.getD j 0, ext.getD (j + 1) 0, ext.getD (j + 2) 0, ext.getD (j + 3) 0]

theorem slice_getD (ext : List (State K)) (m i j : ℕ) (hj : j < m) (hl : i + m ≤ ext.length) :
    ((ext.drop i).take m).getD j 0 = ext.getD (j + i) 0 := by
  rw [List.getD_eq_getElem _ _ (by simp; omega), List.getD_eq_getElem _ _ (by omega)]
  simp [Nat.add_comm]

/-- The reduced flux without bathymetry. -/
theorem reduced_call (P : Params K) (G : State K → State K → Except Error (State K))
    (net : List (State K) → State K) (n : ℕ) (ext : List (State K)) (hlen : ext.length = n + 4)
    (g : ℕ → State K) (hg : ∀ j < n + 1, G (ext.getD (j + 1) 0) (ext.getD (j + 2) 0) = .ok (g j)) :
    (reduced P ⟨none⟩ (withSource P ⟨none⟩ (twoPoint G)) 4 net).call (nodeSlices ext 2) =
      .ok ((List.range (n + 1)).map (fun j => -(g j + net (stencil ext j))),
        (List.range (n + 1)).map (fun j => g j + net (stencil ext j))) := by
  set s : ℕ → List (State K) := fun i => (ext.drop i).take (n + 1) with hs
  have hval : nodeSlices ext 2 = [s 0, s 1, s 2, s 3] := by
    apply List.ext_getElem
    · rw [nodeSlices_length ext (by norm_num)]; rfl
    · intro i h1 h2
      rw [nodeSlices_getElem ext (by norm_num) (by omega) i (by simpa using h2)]
      have hi : i < 4 := by simpa using h2
      interval_cases i <;> simp [hs, hlen]
  set ext' := (ext.drop 1).take (n + 2) with hext'
  have hlen' : ext'.length = n + 2 := by simp [hext', hlen]
  have hd : ext'.dropLast = s 1 := by
    simp only [hext', hs, List.dropLast_eq_take, List.length_take, List.length_drop, hlen,
      List.take_take]
    congr 1
    omega
  have ht : ext'.tail = s 2 := by
    simp only [hext', hs, ← List.drop_one, List.drop_take, List.drop_drop]
    congr 1
  have hr2 : requiredValues 2 (nodeSlices ext 2) = .ok [ext'.dropLast, ext'.tail] := by
    rw [hval, hd, ht]
    simp [requiredValues]
  have hr4 : requiredValues 4 (nodeSlices ext 2) = .ok [s 0, s 1, s 2, s 3] := by
    rw [hval]
    simp [requiredValues]
  have hget : ∀ j < n + 2, ext'.getD j 0 = ext.getD (j + 1) 0 := fun j hj =>
    slice_getD ext (n + 2) 1 j hj (by omega)
  have hsteps : (⟨none⟩ : Bathymetry K).steps (n + 1) = .ok (List.replicate (n + 1) 0) := rfl
  have hz : ∀ a b : State K, ∀ j, source P a b ((List.replicate (n + 1) (0 : K)).getD j 0) = 0 := by
    intro a b j
    have : (List.replicate (n + 1) (0 : K)).getD j 0 = 0 := by
      rw [List.getD_eq_getElem?_getD, List.getElem?_replicate]
      split <;> rfl
    rw [this]
    simp [source]
  have hbase : (withSource P ⟨none⟩ (twoPoint G)).call [ext'.dropLast, ext'.tail] =
      .ok ((List.range (n + 1)).map (fun j => -g j), (List.range (n + 1)).map g) := by
    have h1 := twoPoint_call G n ext' hlen' g (fun j hj => by
      rw [hget j (by omega), hget (j + 1) (by omega)]; exact hg j hj)
    rw [withSource_call P ⟨none⟩ (twoPoint G) n ext' hlen' _ hsteps _ _ h1]
    simp only [hz, neg_zero, add_zero]
  have hnet : (subgrid 4 net).call [s 0, s 1, s 2, s 3] =
      .ok ((List.range (n + 1)).map (fun j => -net (stencil ext j)),
        (List.range (n + 1)).map (fun j => net (stencil ext j))) := by
    have hsl : ∀ i < 4, (s i).length = n + 1 := fun i hi => by simp [hs, hlen]; omega
    have hst : ∀ j < n + 1, [s 0, s 1, s 2, s 3].map (fun a => a.getD j 0) = stencil ext j := by
      intro j hj
      simp only [List.map_cons, List.map_nil, hs, stencil]
      rw [slice_getD ext _ 0 j hj (by omega), slice_getD ext _ 1 j hj (by omega),
        slice_getD ext _ 2 j hj (by omega), slice_getD ext _ 3 j hj (by omega)]
      rfl
    simp only [subgrid]
    rw [if_pos (by
      intro a ha
      simp only [List.mem_cons, List.not_mem_nil, or_false] at ha
      rcases ha with rfl | rfl | rfl <;> rw [hsl _ (by norm_num), hsl _ (by norm_num)]),
      hsl 0 (by norm_num)]
    have e : (List.range (n + 1)).map (fun j => net ([s 0, s 1, s 2, s 3].map fun a => a.getD j 0)) =
        (List.range (n + 1)).map (fun j => net (stencil ext j)) :=
      List.map_congr_left fun j hj => by rw [hst j (List.mem_range.mp hj)]
    rw [e, List.map_map]
    rfl
  have hcor : ((withSource P ⟨none⟩ (twoPoint G)).corrected (subgrid 4 net)).call (nodeSlices ext 2) =
      .ok ((List.range (n + 1)).map (fun j => -g j + -net (stencil ext j)),
        (List.range (n + 1)).map (fun j => g j + net (stencil ext j))) := by
    simp only [NumFlux.corrected, NumFlux.arbitraryInput]
    rw [show (withSource P ⟨none⟩ (twoPoint G)).dim = 2 from rfl, hr2,
      show (subgrid 4 net).dim = 4 from rfl, hr4]
    simp only [hbase, hnet]
    rw [zipWith_map_range, zipWith_map_range]
  unfold reduced
  simp only [withSource, hr2] at hcor ⊢
  rw [hcor]
  simp only
  have hn := nodesE_ok ⟨none⟩ (fun a b d => (.ok (source P a b d) : Except Error (State K))) n ext' hlen'
    _ hsteps (fun _ => 0) (fun j _ => by rw [hz])
  rw [hn]
  simp only
  rw [zipWith_map_range, zipWith_map_range]
  congr 2
  · exact List.map_congr_left fun j _ => by rw [neg_zero, add_zero, neg_add]
  · exact List.map_congr_left fun j _ => by rw [neg_zero, add_zero]

/-- Weights and scalers of a network with eight inputs and two outputs: scales of the inputs at least `s`,
of the outputs at most `S`. -/
structure Trained (layers : List (Layer K)) (si so : Scaler K) (s S : K) : Prop where
  fits : Fits layers 8 2
  input : Good si 8
  output : Good so 2
  pos : 0 < s
  inputScale : ∀ j < 8, s ≤ |si.scale.getD j 0|
  outputScale : ∀ j < 2, |so.scale.getD j 0| ≤ S

/-- C108.  The network as a function of the stencil of four states: it returns two numbers, and stencils
that differ by at most `d` give values that differ by at most `S lip / s` times `d`. -/
theorem C108_network (layers : List (Layer K)) (si so : Scaler K) (s S : K)
    (h : Trained layers si so s S) (x y : List (State K)) (hx : x.length = 4) (hy : y.length = 4) (d : K)
    (hd : ∀ i < 4, stateSize (y.getD i 0 - x.getD i 0) ≤ d) :
    (∃ u : State K, predict layers si so (flatten x) = .ok [u.1, u.2] ∧ network layers si so x = u) ∧
    stateSize (network layers si so y - network layers si so x) ≤ S * lip layers / s * d := by
  obtain ⟨p1, -, p3⟩ := C107_predict layers 8 2 h.fits si so h.input h.output
  have two : ∀ z : List (State K), z.length = 4 → ∃ u : State K,
      predict layers si so (flatten z) = .ok [u.1, u.2] ∧ network layers si so z = u := by
    intro z hz
    obtain ⟨w, h1, h2⟩ := p1 (flatten z) (by rw [flatten_length, hz])
    match w, h2 with
    | [a, b], _ => exact ⟨(a, b), h1, by simp only [network, h1]⟩
  refine ⟨two x hx, ?_⟩
  obtain ⟨u, u1, u2⟩ := two x hx
  obtain ⟨w, w1, w2⟩ := two y hy
  rw [u2, w2]
  have hd0 : 0 ≤ d := (le_max_of_le_left (abs_nonneg _)).trans (hd 0 (by norm_num))
  have key := p3 s S h.pos h.inputScale h.outputScale (flatten y) (flatten x) _ _ d
    (by rw [flatten_length, hy]) (by rw [flatten_length, hx]) hd0 (by
      match x, hx, y, hy with
      | [x0, x1, x2, x3], _, [y0, y1, y2, y3], _ =>
        have h0 := (stateSize_le _ _).mp (hd 0 (by norm_num))
        have h1 := (stateSize_le _ _).mp (hd 1 (by norm_num))
        have h2 := (stateSize_le _ _).mp (hd 2 (by norm_num))
        have h3 := (stateSize_le _ _).mp (hd 3 (by norm_num))
        intro j hj
        interval_cases j
        · exact h0.1
        · exact h0.2
        · exact h1.1
        · exact h1.2
        · exact h2.1
        · exact h2.2
        · exact h3.1
        · exact h3.2) w1 u1
  rw [stateSize_le]
  exact ⟨key 0 (by norm_num), key 1 (by norm_num)⟩

theorem stateSize_size : Size (K := K) (stateSize (K := K)) := ⟨stateSize_add, stateSize_smul⟩

/-- The reduced local Lax-Friedrichs flux over a flat bottom (`ReducedLaxFriedrichsSolver`,
`reduced_llf.py` lines 35-42, with `ReducedFluxGetter`). -/
def reducedLLF (P : Params K) (layers : List (Layer K)) (si so : Scaler K) : NumFlux (State K) :=
  reduced P ⟨none⟩ (lfFlux P ⟨none⟩) 4 (network layers si so)

/-- Specification: at the fine state `x` the coarsened state has heights between `h0 + r` and `H - r` and
discharges at most `Q - r`, and there the fluxes of the reduced scheme differ from those of the fine
scheme by at most `δ`. -/
def Accurate (F R : NumFlux (State K)) (bf bc : BC K (State K)) (n k : ℕ) (h0 H Q δ r : K) (t : K)
    (x : Fin (n * k) → State K) : Prop :=
  (∀ i, InBox (h0 + r) (H - r) (Q - r) (coarsenMap K n k x i)) ∧
    ∃ e : ℕ → State K,
      Closes F R bf bc k e t (List.ofFn x) (List.ofFn (coarsenMap K n k x)) ∧
      ∀ j ≤ n, stateSize (e j) ≤ δ

/-- Boundary conditions with two ghost cells on each side: periodic, outflow, walls, or inflow of states
in the box. -/
def TwoGhosts (h0 H Q : K) (bc : BC K (State K)) : Prop :=
  bc.left.length = 2 ∧ bc.right.length = 2 ∧ ∀ c ∈ bc.left ++ bc.right,
    match c with
    | .copy _ => True
    | .inflow g => ∀ t, InBox h0 H Q (g t)
    | .reflect _ f => f = fun u => (u.1, -u.2)

theorem twoGhosts_respects (h0 H Q : K) (bc : BC K (State K)) (h : TwoGhosts h0 H Q bc) (d : K)
    (hd : 0 ≤ d) : ∀ c ∈ bc.left ++ bc.right,
      Respects (fun x y => InBox h0 H Q x ∧ InBox h0 H Q y ∧ stateSize (y - x) ≤ d) c := by
  intro c hc
  have := h.2.2 c hc
  cases c with
  | copy i => trivial
  | inflow g => exact fun t => ⟨this t, this t, by simpa [stateSize] using hd⟩
  | reflect i f =>
    simp only at this
    subst this
    rintro x y ⟨h1, h2, h3⟩
    refine ⟨⟨h1.1, h1.2.1, ?_⟩, ⟨h2.1, h2.2.1, ?_⟩, ?_⟩
    · rw [abs_neg]; exact h1.2.2
    · rw [abs_neg]; exact h2.2.2
    · obtain ⟨a, b⟩ := (stateSize_le _ _).mp h3
      rw [stateSize_le]
      refine ⟨a, ?_⟩
      show |-y.2 - -x.2| ≤ d
      rw [← neg_sub', abs_neg]
      exact b

/-- The sensitivity of the reduced local Lax-Friedrichs flux: that of the base flux in the box plus that
of the network. -/
def reducedLip (P : Params K) (layers : List (Layer K)) (h0 H Q s S : K) : K :=
  llfLip P h0 H Q + S * lip layers / s

theorem reduced_fluxes (P : Params K) (hrt : IsSqrt P.rt) (hg : 0 < P.g) (h0 H Q : K) (he : P.eps ≤ h0)
    (layers : List (Layer K)) (si so : Scaler K) (s S : K) (hN : Trained layers si so s S) (n : ℕ)
    (e e' : List (State K)) (hl : e.length = n + 4) (d : K)
    (h : List.Forall₂ (fun x y => InBox h0 H Q x ∧ InBox h0 H Q y ∧ stateSize (y - x) ≤ d) e e') :
    ∃ cl cr cl' cr', (reducedLLF P layers si so).call (nodeSlices e 2) = .ok (cl, cr) ∧
      (reducedLLF P layers si so).call (nodeSlices e' 2) = .ok (cl', cr') ∧
      cr.length = n + 1 ∧ cr'.length = n + 1 ∧
      ∀ j < n + 1, stateSize (cr'.getD j 0 - cr.getD j 0) ≤ reducedLip P layers h0 H Q s S * d := by
  have hl' : e'.length = n + 4 := h.length_eq ▸ hl
  have hpt : ∀ i < n + 4, InBox h0 H Q (e.getD i 0) ∧ InBox h0 H Q (e'.getD i 0) ∧
      stateSize (e'.getD i 0 - e.getD i 0) ≤ d := by
    intro i hi
    rw [List.getD_eq_getElem _ _ (by omega), List.getD_eq_getElem _ _ (by omega)]
    exact (List.forall₂_iff_get.mp h).2 i (by omega) (by omega)
  have hex : ∀ j, ∃ f f', j < n + 1 →
      ((riemann P).nodeFlux (e.getD (j + 1) 0) (e.getD (j + 2) 0) = .ok f ∧
       (riemann P).nodeFlux (e'.getD (j + 1) 0) (e'.getD (j + 2) 0) = .ok f' ∧
       stateSize (f' - f) ≤ llfLip P h0 H Q * d) := by
    intro j
    by_cases hj : j < n + 1
    · obtain ⟨a1, a2, a3⟩ := hpt (j + 1) (by omega)
      obtain ⟨b1, b2, b3⟩ := hpt (j + 2) (by omega)
      obtain ⟨f, f', h1, h2, h3⟩ := llf_lipschitz P hrt hg h0 H Q he _ _ _ _ a1 b1 a2 b2 d a3 b3
      exact ⟨f, f', fun _ => ⟨h1, h2, h3⟩⟩
    · exact ⟨0, 0, fun h => absurd h hj⟩
  choose g g' hgg using hex
  refine ⟨_, _, _, _, reduced_call P _ _ n e hl g (fun j hj => (hgg j hj).1),
    reduced_call P _ _ n e' hl' g' (fun j hj => (hgg j hj).2.1), by simp, by simp, fun j hj => ?_⟩
  rw [range_getD _ _ _ _ hj, range_getD _ _ _ _ hj, add_sub_add_comm]
  refine (stateSize_add _ _).trans ?_
  rw [reducedLip, add_mul]
  refine add_le_add (hgg j hj).2.2 ?_
  refine (C108_network layers si so s S hN (stencil e j) (stencil e' j) rfl rfl d ?_).2
  intro i hi
  interval_cases i
  · exact (hpt j (by omega)).2.2
  · exact (hpt (j + 1) (by omega)).2.2
  · exact (hpt (j + 2) (by omega)).2.2
  · exact (hpt (j + 3) (by omega)).2.2

/-- C108.  If at a fine state the network is accurate to `δ` on the coarsened state, the reduced fluxes
approximate the fine fluxes also at neighbouring coarse states, up to the sensitivity
`llfLip + S lip / s` times the distance. -/
theorem C108_approximates (P : Params K) (hrt : IsSqrt P.rt) (hg : 0 < P.g) (h0 H Q : K)
    (he : P.eps ≤ h0) (layers : List (Layer K)) (si so : Scaler K) (s S : K)
    (hN : Trained layers si so s S) (F : NumFlux (State K)) (bf bc : BC K (State K))
    (hbc : TwoGhosts h0 H Q bc) (n k : ℕ) (δ r t : K) (x : Fin (n * k) → State K)
    (hx : Accurate F (reducedLLF P layers si so) bf bc n k h0 H Q δ r t x) :
    Approximates stateSize F (reducedLLF P layers si so) bf bc n k (reducedLip P layers h0 H Q s S) δ r
      t x := by
  intro v hv
  obtain ⟨hbox, e, ⟨vf, vc, fl, fr, cl, cr, h1, h2, h3, h4, h5, h6, h7⟩, he2⟩ := hx
  set w := coarsenMap K n k x with hw
  set d := maxSize stateSize (v - w) with hd
  have hd0 : 0 ≤ d := maxSize_nonneg _ _
  have hr0 : 0 ≤ r := hd0.trans hv
  have hrel : List.Forall₂ (fun x y => InBox h0 H Q x ∧ InBox h0 H Q y ∧ stateSize (y - x) ≤ d)
      (List.ofFn w) (List.ofFn v) := by
    rw [List.forall₂_iff_get]
    refine ⟨by simp, fun i hi hi' => ?_⟩
    simp only [List.get_eq_getElem, List.getElem_ofFn]
    have hi'' : i < n := by simpa using hi
    have hb := hbox ⟨i, hi''⟩
    have hs := le_maxSize stateSize (v - w) ⟨i, hi''⟩
    rw [Pi.sub_apply] at hs
    obtain ⟨s1, s2⟩ := (stateSize_le _ _).mp (hs.trans hv)
    obtain ⟨b1, b2, b3⟩ := hb
    obtain ⟨s1a, s1b⟩ := abs_le.mp s1
    simp only [Prod.fst_sub, Prod.snd_sub] at s1a s1b s2
    refine ⟨⟨by linarith, by linarith, by linarith⟩, ⟨by linarith, by linarith, ?_⟩, hs⟩
    have := abs_add_le ((v ⟨i, hi''⟩).2 - (w ⟨i, hi''⟩).2) (w ⟨i, hi''⟩).2
    rw [sub_add_cancel] at this
    linarith
  have hdim : (reducedLLF P layers si so).dim / 2 = 2 := by
    simp [reducedLLF, reduced, withSource, NumFlux.corrected, subgrid, lfFlux, laxFriedrichs, twoPoint]
  rw [hdim] at h4
  unfold BC.nodeNeighbours at h4
  rcases hext : bc.extend (List.ofFn w) (some t) with _ | ex
  · rw [hext] at h4; cases h4
  · rw [hext] at h4
    cases h4
    obtain ⟨ex', hext', hrel'⟩ := extend_rel _ _ _ hrel bc (twoGhosts_respects h0 H Q bc hbc d hd0) _ ex
      hext
    have hlen := extend_length bc _ _ ex hext
    rw [hbc.1, hbc.2.1, List.length_ofFn] at hlen
    obtain ⟨c1, c2, c3, c4, g1, g2, g3, g4, g5⟩ := reduced_fluxes P hrt hg h0 H Q he layers si so s S hN n
      ex ex' (by omega) d hrel'
    rw [h5] at g1
    cases g1
    refine ⟨fun j => e j + (c4.getD j 0 - cr.getD j 0), ⟨vf, nodeSlices ex' 2, fl, fr, c3, c4, h1, h2, h3,
      ?_, g2, by simpa using g4, fun j hj => ?_⟩, fun j hj => ?_⟩
    · rw [hdim]
      simp only [BC.nodeNeighbours, hext']
    · have := h7 j (by simpa using hj)
      rw [← add_assoc, ← this]
      abel
    · refine (stateSize_add _ _).trans ?_
      rw [add_comm]
      exact add_le_add (g5 j (by omega)) (he2 j hj)

end Call

section Solve

/-- C108.  Whole runs of the reduced local Lax-Friedrichs solver, for all weights, over a flat bottom.
The fine solver has `n * k` cells of width `dx`; the reduced solver has `n` cells of width `k dx` and a
CFL number `k` times smaller.  If the fine run does not raise and at every state at which it evaluates
its right-hand side the coarsened state is in the box and the network is accurate to `δ` there, then the
reduced solver does not raise either, records the same times, and its values differ from the coarsened
fine values at time `t` by at most `exp(2 L (t - t0) / (k dx)) (d + δ / L) - δ / L`, where `L` is the
sensitivity of the base flux in the box plus the product of the row sums of the weights, rescaled. -/
theorem C108_solve (P : Params ℝ) (hrt : IsSqrt P.rt) (hg : 0 < P.g) (h0 H Q : ℝ)
    (he : P.eps ≤ h0) (layers : List (Layer ℝ)) (si so : Scaler ℝ) (s S : ℝ)
    (hN : Trained layers si so s S) (F : NumFlux (State ℝ)) (hF : Conservative F)
    (bf bc : BC ℝ (State ℝ)) (hbc : TwoGhosts h0 H Q bc) (n k : ℕ) (hk : 0 < k)
    (dx cfl t0 t1 : ℝ) (hdx : 0 < dx) (δ r d : ℝ) (hδ : 0 ≤ δ) (hL : 0 < reducedLip P layers h0 H Q s S)
    (T : Tableau ℝ) (hT : T = forwardEuler ℝ ∨ T = heun ℝ ∨ T = ssp3 ℝ) (x : Fin (n * k) → State ℝ)
    (v : Fin n → State ℝ) (hd : ∀ i, stateSize (v i - coarsenMap ℝ n k x i) ≤ d) (hd0 : 0 ≤ d)
    (hr : Real.exp (2 * reducedLip P layers h0 H Q s S / (k * dx) * (t1 - t0)) *
      (d + δ / reducedLip P layers h0 H Q s S) ≤ r + δ / reducedLip P layers h0 H Q s S) (N : ℕ) :
    let R := reducedLLF P layers si so
    let Pf := EndToEnd.fvParams (n * k) T (rhs F dx bf) dx cfl t0 t1
    let G := { Pf with rhs := only (Accurate F R bf bc n k h0 H Q δ r) Pf.rhs }
    let Pr := EndToEnd.fvParams n T (rhs R (k * dx) bc) (k * dx) (cfl / k) t0 t1
    let fine := Solver.solve Pf (Solver.Obj.make Pf ⟨x, t0, t1⟩) N
    let small := Solver.solve Pr (Solver.Obj.make Pr ⟨v, t0, t1⟩) N
    (∀ e, (Solver.solve G (Solver.Obj.make G ⟨x, t0, t1⟩) N).2 ≠ .raised e) →
      small.2 = fine.2 ∧ (∀ e, fine.2 ≠ .raised e) ∧
      small.1.sol.times = fine.1.sol.times ∧
      small.1.sol.values.length = fine.1.sol.times.length ∧
      fine.1.sol.values.length = fine.1.sol.times.length ∧
      ∀ (i : ℕ) t a b, fine.1.sol.times[i]? = some t → fine.1.sol.values[i]? = some a →
        small.1.sol.values[i]? = some b →
        ∀ j, stateSize (b j - coarsenMap ℝ n k a j) ≤
          Real.exp (2 * reducedLip P layers h0 H Q s S / (k * dx) * (t - t0)) *
            (d + δ / reducedLip P layers h0 H Q s S) - δ / reducedLip P layers h0 H Q s S := by
  intro R Pf G Pr fine small hno
  have hcons : Conservative R := (C100_conservative P).2 _ 4 _
  have key := C106_solve stateSize_size F R hF hcons n k hk dx cfl t0 t1 hdx bf bc
    (reducedLip P layers h0 H Q s S) δ r d hL hδ T hT x v hd hd0 hr N
  apply key
  have := Solver.solve_guard { Pf with rhs := only (Approximates stateSize F R bf bc n k
      (reducedLip P layers h0 H Q s S) δ r) Pf.rhs } G.rhs (by
    intro t u w hw
    change only (Accurate F R bf bc n k h0 H Q δ r) Pf.rhs t u = .ok w at hw
    change only _ Pf.rhs t u = .ok w
    unfold only at hw ⊢
    split at hw
    · rename_i ha
      rw [if_pos (C108_approximates P hrt hg h0 H Q he layers si so s S hN F bf bc hbc n k δ r t u ha)]
      exact hw
    · cases hw) (Solver.Obj.make Pf ⟨x, t0, t1⟩) N hno
  intro e
  have h2 := hno e
  rw [show Solver.solve G (Solver.Obj.make G ⟨x, t0, t1⟩) N = _ from this.symm] at h2
  exact h2

end Solve

/-! The hypotheses are met by every network when water flows uniformly: `δ` is then the value of the
network on the constant stencil. -/

section Example

variable {K : Type*} [Field K] [LinearOrder K] [IsStrictOrderedRing K]

/-- Periodic boundary conditions with one ghost cell. -/
def ringOne : BC K (State K) := ⟨[.copy (-1)], [.copy 0], true⟩

/-- Periodic boundary conditions with two ghost cells. -/
def ringTwo : BC K (State K) := ⟨[.copy (-2), .copy (-1)], [.copy 0, .copy 1], true⟩

theorem ringTwo_ghosts (h0 H Q : K) : TwoGhosts h0 H Q (ringTwo (K := K)) := by
  refine ⟨rfl, rfl, ?_⟩
  intro c hc
  simp only [ringTwo, List.cons_append, List.nil_append, List.mem_cons, List.not_mem_nil, or_false] at hc
  rcases hc with rfl | rfl | rfl | rfl <;> trivial

theorem lfFlux_dim (P : Params K) : (lfFlux P ⟨none⟩).dim / 2 = 1 := by
  simp [lfFlux, withSource, laxFriedrichs, twoPoint]

theorem example_fine (P : Params K) (hrt : IsSqrt P.rt) (hg : 0 < P.g) (h0 H Q : K) (he : P.eps ≤ h0)
    (c : State K) (hc : InBox h0 H Q c) :
    (lfFlux P ⟨none⟩).call [[c, c, c, c, c], [c, c, c, c, c]] =
      .ok ((List.range 5).map (fun _ => -(c.2, c.2 * velocity P c + P.g * c.1 ^ 2 / 2)),
        (List.range 5).map (fun _ => (c.2, c.2 * velocity P c + P.g * c.1 ^ 2 / 2))) := by
  have hf := flux_eq P c (he.trans hc.1)
  have h1 := llf_eq P hrt hg h0 H Q he c c hc hc _ _ hf hf
  have h2 := twoPoint_call (riemann P).nodeFlux 4 [c, c, c, c, c, c] rfl
    (fun _ => (c.2, c.2 * velocity P c + P.g * c.1 ^ 2 / 2)) (fun j hj => by
      have : ∀ i < 6, [c, c, c, c, c, c].getD i 0 = c := by
        intro i hi; interval_cases i <;> rfl
      rw [this j (by omega), this (j + 1) (by omega), h1]
      congr 1
      rw [sub_self, smul_zero, add_zero, ← two_smul K, smul_smul]
      norm_num)
  have h3 := withSource_call P ⟨none⟩ (twoPoint (riemann P).nodeFlux) 4 [c, c, c, c, c, c] rfl
    (List.replicate 5 0) rfl _ _ h2
  change (lfFlux P ⟨none⟩).call [[c, c, c, c, c], [c, c, c, c, c]] = _ at h3
  rw [h3]
  have hz : ∀ a b : State K, ∀ j, source P a b ((List.replicate 5 (0 : K)).getD j 0) = 0 := by
    intro a b j
    have : (List.replicate 5 (0 : K)).getD j 0 = 0 := by
      rw [List.getD_eq_getElem?_getD, List.getElem?_replicate]
      split <;> rfl
    rw [this]
    simp [source]
  simp only [hz, neg_zero, add_zero]

theorem example_accurate (P : Params K) (hrt : IsSqrt P.rt) (hg : 0 < P.g) (h0 H Q : K)
    (he : P.eps ≤ h0) (layers : List (Layer K)) (si so : Scaler K) (c : State K) (r t : K) (hr : 0 ≤ r)
    (hc : InBox (h0 + r) (H - r) (Q - r) c) :
    Accurate (lfFlux P ⟨none⟩) (reducedLLF P layers si so) ringOne ringTwo 2 2 h0 H Q
      (stateSize (network layers si so [c, c, c, c])) r t (fun _ => c) := by
  have hc' : InBox h0 H Q c := by
    obtain ⟨a1, a2, a3⟩ := hc
    exact ⟨by linarith, by linarith, by linarith⟩
  have hA : coarsenMap K 2 2 (fun _ => c) = fun _ => c := by
    funext i
    change Coarsen.block K 2 (List.ofFn fun _ : Fin (2 * 2) => c) i.val = c
    have hl : (List.ofFn fun _ : Fin (2 * 2) => c) = [c, c, c, c] := by simp [List.ofFn_succ]
    rw [hl]
    fin_cases i <;> simp [Coarsen.block, Finset.sum_range_succ, ← two_smul K, smul_smul]
  refine ⟨fun i => by rw [hA]; exact hc, fun _ => network layers si so [c, c, c, c], ?_, fun _ _ => le_rfl⟩
  rw [hA]
  have hl : (List.ofFn fun _ : Fin (2 * 2) => c) = [c, c, c, c] := by simp [List.ofFn_succ]
  have hl2 : (List.ofFn fun _ : Fin 2 => c) = [c, c] := by simp [List.ofFn_succ]
  rw [hl, hl2]
  have hf := flux_eq P c (he.trans hc'.1)
  have h1 := llf_eq P hrt hg h0 H Q he c c hc' hc' _ _ hf hf
  have h2 := reduced_call P (riemann P).nodeFlux (network layers si so) 2 [c, c, c, c, c, c] rfl
    (fun _ => (c.2, c.2 * velocity P c + P.g * c.1 ^ 2 / 2)) (fun j hj => by
      have : ∀ i < 6, [c, c, c, c, c, c].getD i 0 = c := by
        intro i hi; interval_cases i <;> rfl
      rw [this (j + 1) (by omega), this (j + 2) (by omega), h1]
      congr 1
      rw [sub_self, smul_zero, add_zero, ← two_smul K, smul_smul]
      norm_num)
  have hdim : (reducedLLF P layers si so).dim / 2 = 2 := by
    simp [reducedLLF, reduced, withSource, NumFlux.corrected, subgrid, lfFlux, laxFriedrichs, twoPoint]
  refine ⟨[[c, c, c, c, c], [c, c, c, c, c]], nodeSlices [c, c, c, c, c, c] 2, _, _, _, _,
    by rw [lfFlux_dim]; rfl, example_fine P hrt hg h0 H Q he c hc', by simp, ?_, h2, by simp, ?_⟩
  · rw [hdim]
    rfl
  · intro j hj
    have hj' : j < 3 := by simp at hj; omega
    rw [range_getD _ _ _ _ (by omega), range_getD _ _ _ _ (by omega)]
    congr 2
    interval_cases j <;> rfl

theorem example_solve (P : Params ℝ) (hrt : IsSqrt P.rt) (hg : 0 < P.g) (h0 H Q : ℝ)
    (he : P.eps ≤ h0) (layers : List (Layer ℝ)) (si so : Scaler ℝ) (c : State ℝ) (r : ℝ) (hr : 0 ≤ r)
    (hc : InBox (h0 + r) (H - r) (Q - r) c) (T : Tableau ℝ)
    (hT : T = forwardEuler ℝ ∨ T = heun ℝ ∨ T = ssp3 ℝ) (cfl t0 t1 : ℝ) (N : ℕ) :
    let Pf := EndToEnd.fvParams (2 * 2) T (rhs (lfFlux P ⟨none⟩) 1 ringOne) 1 cfl t0 t1
    let G := { Pf with rhs := only (Accurate (lfFlux P ⟨none⟩) (reducedLLF P layers si so) ringOne ringTwo
      2 2 h0 H Q (stateSize (network layers si so [c, c, c, c])) r) Pf.rhs }
    ∀ e, (Solver.solve G (Solver.Obj.make G ⟨fun _ => c, t0, t1⟩) N).2 ≠ .raised e := by
  intro Pf G
  have hc' : InBox h0 H Q c := by
    obtain ⟨a1, a2, a3⟩ := hc
    exact ⟨by linarith, by linarith, by linarith⟩
  have hrhs : ∀ t, G.rhs t (fun _ => c) = .ok 0 := by
    intro t
    change only _ (vecRhs (2 * 2) (rhs (lfFlux P ⟨none⟩) 1 ringOne)) t (fun _ => c) = _
    unfold only
    rw [if_pos (example_accurate P hrt hg h0 H Q he layers si so c r t hr hc)]
    have hl : (List.ofFn fun _ : Fin (2 * 2) => c) = [c, c, c, c] := by simp [List.ofFn_succ]
    have hn : (ringOne (K := ℝ)).nodeNeighbours [c, c, c, c] ((lfFlux P ⟨none⟩).dim / 2) (some t) =
      .ok [[c, c, c, c, c], [c, c, c, c, c]] := by rw [lfFlux_dim]; rfl
    have hcons : Conservative (lfFlux P ⟨none⟩) := (C100_conservative P).1 _
    have hr := rhs_conservative (lfFlux P ⟨none⟩) hcons 1 one_ne_zero ringOne t [c, c, c, c] _ _ _ hn
      (example_fine P hrt hg h0 H Q he c hc') 4 (by simp)
    unfold vecRhs
    rw [hl, hr]
    simp only [List.length_map, List.length_range, dif_pos]
    congr 1
    funext i
    fin_cases i <;> simp [List.range_succ]
  have safe := Solver.C94_safe G (Solver.Obj.make G ⟨fun _ => c, t0, t1⟩) (Solver.make_sync _ _)
    (fun v => v = fun _ => c) rfl rfl (fun _ _ => rfl) (by
      intro s dt h1 h2 hI
      obtain ⟨s', q1, q2⟩ := sspE_run G.rhs {x | x = fun _ => c} (by
          intro x hx y hy a b ha hb hab
          rw [Set.mem_setOf_eq] at hx hy ⊢
          rw [hx, hy, ← add_smul, hab, one_smul]) [dt] (by
        intro dt' _ t x hx
        rw [Set.mem_setOf_eq] at hx
        subst hx
        refine ⟨0, hrhs t, ?_⟩
        rw [smul_zero, add_zero]
        exact rfl) s hI T hT
      refine ⟨s', ?_, q2⟩
      simp only [Solver.runE] at q1
      change s.executeE T G.rhs dt = _
      cases hx : s.executeE T G.rhs dt with
      | error e => rw [hx] at q1; cases q1
      | ok s1 => rw [hx] at q1; exact q1)
  exact fun e => (safe N).1 e

/-- A trained network: one linear layer that returns a tenth of the sums of heights and of discharges. -/
example : Trained (K := ℚ) [.linear 8 2 ⟨fun i j => if j.val % 2 = i.val then 1 / 10 else 0, fun _ => 1⟩]
    ⟨List.replicate 8 1, List.replicate 8 (1 / 2)⟩ ⟨[0, 3], [2, 1 / 7]⟩ (1 / 2) 2 := by
  refine ⟨⟨rfl, rfl⟩, ⟨by simp, by simp, ?_⟩, ⟨rfl, rfl, ?_⟩, by norm_num, ?_, ?_⟩ <;>
    (intro j hj; interval_cases j <;> simp <;> norm_num [abs_of_pos])

end Example

end Verif.ReducedLLF
