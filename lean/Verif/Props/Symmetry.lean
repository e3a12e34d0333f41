import Verif.Core.Symmetry
import Verif.Props.SWEConservation
import Verif.Props.SWEPositivity
import Verif.Core.SWEReduced

/-!
Property C88: mirror symmetry of the shallow water schemes.

Reflecting the interval reverses the order of the cells and turns the discharge around.
-/

set_option linter.unusedSectionVars false

namespace Verif.FV

open Verif.Py Verif.Boundary

variable {K : Type*} [Field K] [LinearOrder K]
variable {V : Type*} [AddCommGroup V] [Module K V]

/-! ### Boundary conditions -/

theorem buildLeft_mirror (m : V → V) (wall : Option (V → V)) (c : String) (i : ℕ)
    (inflow : Option (K → V)) (g : Ghost K V) (h : buildLeft wall c i inflow = .ok g) :
    buildRight wall c i (inflow.map (fun f t => m (f t))) = .ok (Ghost.mirror m g) := by
  unfold buildLeft at h
  unfold buildRight at ⊢
  rcases wall with _ | f <;> by_cases h0 : c = "wall" <;> by_cases h1 : c = "periodic" <;>
    by_cases h2 : c = "outflow" <;> by_cases h3 : c = "inflow" <;> rcases inflow with _ | g' <;>
    simp_all <;> first | (subst h; simp [Ghost.mirror]; done) | (subst h; simp [Ghost.mirror]; ring)

theorem buildRight_mirror (m : V → V) (wall : Option (V → V)) (c : String) (i : ℕ)
    (inflow : Option (K → V)) (g : Ghost K V) (h : buildRight wall c i inflow = .ok g) :
    buildLeft wall c i (inflow.map (fun f t => m (f t))) = .ok (Ghost.mirror m g) := by
  unfold buildLeft at ⊢
  unfold buildRight at h
  rcases wall with _ | f <;> by_cases h0 : c = "wall" <;> by_cases h1 : c = "periodic" <;>
    by_cases h2 : c = "outflow" <;> by_cases h3 : c = "inflow" <;> rcases inflow with _ | g' <;>
    simp_all <;> first | (subst h; simp [Ghost.mirror]; done) | (subst h; simp [Ghost.mirror]; ring)

theorem build_inv (wall : Option (V → V)) (cl : String) (rest : List String) (radius : ℕ)
    (il ir : Option (K → V)) (b : BC K V) (h : build wall (cl :: rest) radius il ir = .ok b) :
    (List.range radius).mapM (fun i => buildLeft wall cl (radius - 1 - i) il) = .ok b.left ∧
    (List.range radius).mapM (fun i => buildRight wall (rest.headD cl) i ir) = .ok b.right ∧
    b.periodic = decide (cl :: rest = ["periodic"]) := by
  unfold build at h
  simp only at h
  cases h1 : (List.range radius).mapM (fun i => buildLeft wall cl (radius - 1 - i) il) with
  | error e => rw [h1] at h; cases h
  | ok l =>
    cases h2 : (List.range radius).mapM (fun i => buildRight wall (rest.headD cl) i ir) with
    | error e => rw [h1, h2] at h; cases h
    | ok r =>
      rw [h1, h2] at h
      simp only at h
      rw [make_append l r (by
        rw [mapM_eq_ok_length _ _ _ h1, mapM_eq_ok_length _ _ _ h2])] at h
      cases h
      exact ⟨rfl, rfl, rfl⟩

theorem build_lengths (wall : Option (V → V)) (conditions : List String) (radius : ℕ)
    (il ir : Option (K → V)) (b : BC K V) (h : build wall conditions radius il ir = .ok b) :
    b.left.length = radius ∧ b.right.length = radius := by
  cases conditions with
  | nil => cases h
  | cons cl rest =>
    obtain ⟨h1, h2, _⟩ := build_inv wall cl rest radius il ir b h
    exact ⟨by rw [mapM_eq_ok_length _ _ _ h1]; simp, by rw [mapM_eq_ok_length _ _ _ h2]; simp⟩

/-- Conditions given in the opposite order, with exchanged and reflected inflow data, are the
reflected conditions. -/
theorem build_mirror (m : V → V) (wall : Option (V → V)) (conditions : List String)
    (hc : conditions.length ≤ 2) (radius : ℕ) (il ir : Option (K → V)) (b : BC K V)
    (h : build wall conditions radius il ir = .ok b) :
    build wall conditions.reverse radius (ir.map (fun f t => m (f t))) (il.map (fun f t => m (f t)))
      = .ok (BC.mirror m b) := by
  have key : ∀ cl rest cl' rest', cl' = rest.headD cl → rest'.headD cl' = cl →
      build wall (cl :: rest) radius il ir = .ok b →
      decide (cl :: rest = ["periodic"]) = decide (cl' :: rest' = ["periodic"]) →
      build wall (cl' :: rest') radius (ir.map (fun f t => m (f t))) (il.map (fun f t => m (f t)))
      = .ok (BC.mirror m b) := by
    intro cl rest cl' rest' e1 e2 h hp
    obtain ⟨h1, h2, h3⟩ := build_inv wall cl rest radius il ir b h
    have hrev : (List.range radius).reverse.map (fun i => radius - 1 - i) = List.range radius := by
      apply List.ext_getElem
      · simp
      · intro i h4 h5
        simp only [List.length_range] at h5
        simp
        omega
    have r1 := mapM_reverse_map (fun i => buildRight wall (rest.headD cl) i ir)
      (fun i => buildLeft wall cl' (radius - 1 - i) (ir.map (fun f t => m (f t))))
      (fun i => radius - 1 - i) (Ghost.mirror m) (List.range radius) b.right (by
        intro i hi g hg
        have hi' := List.mem_range.mp hi
        rw [show radius - 1 - (radius - 1 - i) = i by omega, e1]
        exact buildRight_mirror m wall _ i ir g hg) h2
    have r2 := mapM_reverse_map (fun i => buildLeft wall cl (radius - 1 - i) il)
      (fun i => buildRight wall cl i (il.map (fun f t => m (f t))))
      (fun i => radius - 1 - i) (Ghost.mirror m) (List.range radius) b.left (by
        intro i hi g hg
        exact buildLeft_mirror m wall cl (radius - 1 - i) il g hg) h1
    rw [hrev] at r1 r2
    unfold build
    simp only
    rw [r1, e2, r2]
    simp only
    rw [make_append _ _ (by
      simp [mapM_eq_ok_length _ _ _ h1, mapM_eq_ok_length _ _ _ h2])]
    simp only [BC.mirror]
    rw [h3, hp]
  match conditions, hc with
  | [], _ => cases h
  | [c], _ => exact key c [] c [] rfl rfl h rfl
  | [a, c], _ => exact key a [c] c [a] rfl rfl h (by simp)

theorem build_commutes (m : V → V) (wall : Option (V → V)) (conditions : List String) (radius : ℕ)
    (il ir : Option (K → V)) (b : BC K V) (hw : ∀ f ∈ wall, ∀ x, f (m x) = m (f x))
    (h : build wall conditions radius il ir = .ok b) :
    (∀ c ∈ b.left, Ghost.Commutes m c) ∧ (∀ c ∈ b.right, Ghost.Commutes m c) := by
  have hL : ∀ c i inflow g, buildLeft wall c i inflow = .ok g → Ghost.Commutes (K := K) m g := by
    intro c i inflow g hg
    unfold buildLeft at hg
    split at hg
    · cases hg; exact hw _ rfl
    · split_ifs at hg
      · cases hg; trivial
      · cases hg; trivial
      · split at hg
        · cases hg
        · cases hg; trivial
  have hR : ∀ c i inflow g, buildRight wall c i inflow = .ok g → Ghost.Commutes (K := K) m g := by
    intro c i inflow g hg
    unfold buildRight at hg
    split at hg
    · cases hg; exact hw _ rfl
    · split_ifs at hg
      · cases hg; trivial
      · cases hg; trivial
      · split at hg
        · cases hg
        · cases hg; trivial
  have hmem : ∀ (f : ℕ → Except Error (Ghost K V)) (l : List ℕ) (r : List (Ghost K V)),
      l.mapM f = .ok r → ∀ c ∈ r, ∃ i, f i = .ok c := by
    intro f l r hr
    rw [mapM_iff_forall₂] at hr
    induction hr with
    | nil => intro c hc; cases hc
    | cons hx _ ih =>
      intro c hc
      rcases List.mem_cons.mp hc with rfl | hc
      · exact ⟨_, hx⟩
      · exact ih c hc
  cases conditions with
  | nil => cases h
  | cons cl rest =>
    obtain ⟨h1, h2, _⟩ := build_inv wall cl rest radius il ir b h
    constructor
    · intro c hc
      obtain ⟨i, hi⟩ := hmem _ _ _ h1 c hc
      exact hL _ _ _ _ hi
    · intro c hc
      obtain ⟨i, hi⟩ := hmem _ _ _ h2 c hc
      exact hR _ _ _ _ hi

/-! ### Two point fluxes -/

theorem slices_one_mirror (m : V → V) (ext : List V) (h : 2 ≤ ext.length) :
    nodeSlices (mirror m ext) 1 = [mirror m ext.tail, mirror m ext.dropLast] := by
  rw [nodeSlices_mirror m ext 1 one_pos (by omega), nodeSlices_one ext (by
    rintro rfl; simp at h)]
  rfl

theorem twoPoint_mirror (m : V →ₗ[K] V) (F F' : V → V → Except Error V)
    (h : ∀ a b f, F a b = .ok f → F' (m b) (m a) = .ok (-m f)) :
    MirrorImage m (twoPoint F) (twoPoint F') := by
  refine ⟨rfl, by simp, ?_⟩
  intro ext fl fr hlen hcall
  simp only [twoPoint_radius] at hlen hcall ⊢
  rw [nodeSlices_one ext (by rintro rfl; simp at hlen)] at hcall
  rw [slices_one_mirror m ext (by omega)]
  simp only [twoPoint] at hcall ⊢
  cases hz : zipE F ext.dropLast ext.tail with
  | error e => rw [hz] at hcall; cases hcall
  | ok fs =>
    rw [hz] at hcall
    cases hcall
    refine ⟨by simp, ?_⟩
    have h2 := zipE_reverse F (fun b a => F' a b) m m (fun f => -m f)
      (fun a b c hc => h a b c hc) ext.dropLast ext.tail (by simp) _ hz
    rw [zipE_flip]
    unfold mirror
    rw [h2]
    simp only [List.map_map]
    congr 2
    · apply List.map_congr_left; intro x _; simp
    · rw [← List.map_reverse, List.map_map]; apply List.map_congr_left; intro x _; simp

/-- Two fluxes of the same dimension that are added. -/
theorem corrected_mirror (m : V →ₗ[K] V) (F F' G G' : NumFlux V) (hF : MirrorImage m F F')
    (hG : MirrorImage m G G') (hdim : F.dim = 2 ∧ G.dim = 2)
    (hlF : ∀ ext fl fr, F.call (nodeSlices ext 1) = .ok (fl, fr) → fl.length = ext.length - 1)
    (hlG : ∀ ext fl fr, G.call (nodeSlices ext 1) = .ok (fl, fr) → fl.length = ext.length - 1) :
    MirrorImage m (F.corrected G) (F'.corrected G') := by
  obtain ⟨d1, d2⟩ := hdim
  obtain ⟨e1, _, cF⟩ := hF
  obtain ⟨e2, _, cG⟩ := hG
  have r2 : ∀ ext : List V, requiredValues 2 (nodeSlices ext 1) = .ok (nodeSlices ext 1) := by
    intro ext
    have := nodeSlices_length ext one_pos
    simp [requiredValues, this]
  refine ⟨by simp [NumFlux.corrected, e1, e2], by simp [NumFlux.corrected, d1, d2], ?_⟩
  intro ext fl fr hlen hcall
  have hd : (F.corrected G).dim / 2 = 1 := by simp [NumFlux.corrected, d1, d2]
  rw [hd] at hlen hcall ⊢
  simp only [d1, d2] at cF cG
  simp only [NumFlux.corrected, NumFlux.arbitraryInput, d1, d2, e1, e2, r2] at hcall ⊢
  cases h1 : F.call (nodeSlices ext 1) with
  | error e => rw [h1] at hcall; cases hcall
  | ok p =>
    obtain ⟨a, b⟩ := p
    cases h2 : G.call (nodeSlices ext 1) with
    | error e => rw [h1, h2] at hcall; cases hcall
    | ok q =>
      obtain ⟨c, d⟩ := q
      rw [h1, h2] at hcall
      cases hcall
      obtain ⟨l1, m1⟩ := cF ext a b hlen h1
      obtain ⟨l2, m2⟩ := cG ext c d hlen h2
      have l3 := hlF ext a b h1
      have l4 := hlG ext c d h2
      simp only [show 2 / 2 = 1 from rfl] at m1 m2
      rw [m1, m2]
      refine ⟨by simp [l1, l2], ?_⟩
      have hz : ∀ x y : List V, x.length = y.length →
          List.zipWith (· + ·) (mirror m x) (mirror m y) = mirror m (List.zipWith (· + ·) x y) := by
        intro x y hxy
        unfold mirror
        rw [← zipWith_reverse_of_length _ x y hxy]
        apply List.ext_getElem
        · simp
        · intro i _ _
          simp
      simp only
      rw [hz b d (by omega), hz a c (by omega)]

end Verif.FV

namespace Verif.SWE

open Verif.Py Verif.Boundary Verif.FV Verif.ODE

variable {K : Type*} [Field K] [LinearOrder K] [IsStrictOrderedRing K]

/-- The reflected state: same height, opposite discharge. -/
def turn (K : Type*) [Field K] : State K →ₗ[K] State K where
  toFun := fun u => (u.1, -u.2)
  map_add' := by intro a b; ext <;> simp; ring
  map_smul' := by intro a b; ext <;> simp

@[simp] theorem turn_fst (u : State K) : (turn K u).1 = u.1 := rfl
@[simp] theorem turn_snd (u : State K) : (turn K u).2 = -u.2 := rfl

theorem reflect_turn (u : State K) : reflect (turn K u) = turn K (reflect u) := by
  ext <;> simp [reflect]

theorem velocity_turn (P : Params K) (u : State K) : velocity P (turn K u) = -velocity P u := by
  simp only [velocity, turn_fst, turn_snd]
  ring

theorem maxSpeed_turn (P : Params K) (a b : State K) :
    maxSpeed P (turn K b) (turn K a) = maxSpeed P a b := by
  simp only [maxSpeed, velocity_turn, abs_neg, turn_fst]
  exact max_comm _ _

theorem flux_turn (P : Params K) (u f : State K) (h : flux P u = .ok f) :
    flux P (turn K u) = .ok (-turn K f) := by
  unfold flux at h ⊢
  split at h
  · cases h
  · rename_i h1
    rw [if_neg (show ¬ (turn K u).1 < 0 from h1)]
    split at h
    · rename_i h2
      cases h
      rw [if_pos (show (turn K u).1 < P.eps from h2)]
      congr 1
      ext <;> simp
    · rename_i h2
      cases h
      rw [if_neg (show ¬ (turn K u).1 < P.eps from h2)]
      congr 1
      ext <;> simp

theorem source_turn (P : Params K) (a b : State K) (d : K) :
    source P (turn K b) (turn K a) (-d) = turn K (source P a b d) := by
  refine Prod.ext ?_ ?_
  · simp [source]
  · simp only [source, average, turn_fst, turn_snd]
    ring

theorem fluxOf_turn (P : Params K) (u : State K) (h : 0 ≤ u.1) :
    fluxOf P (turn K u) = -turn K (fluxOf P u) := by
  have h1 := flux_turn P u _ (flux_ok P u h)
  rw [flux_ok P (turn K u) (by simpa using h)] at h1
  exact Except.ok.inj h1

theorem barState_turn (P : Params K) (a b : State K) (ha : 0 ≤ a.1) (hb : 0 ≤ b.1) :
    barState P (turn K b) (turn K a) = turn K (barState P a b) := by
  unfold barState
  rw [maxSpeed_turn, fluxOf_turn P a ha, fluxOf_turn P b hb]
  ext <;> simp <;> ring

theorem llf_turn (P : Params K) (a b : State K) (ha : 0 ≤ a.1) (hb : 0 ≤ b.1) :
    llf P (turn K b) (turn K a) = -turn K (llf P a b) := by
  unfold llf
  rw [maxSpeed_turn, fluxOf_turn P a ha, fluxOf_turn P b hb]
  ext <;> simp <;> ring

theorem nodeFlux_inv (P : Params K) (hP : P.Good) (a b f : State K)
    (h : (riemann P).nodeFlux a b = .ok f) :
    0 ≤ a.1 ∧ 0 ≤ b.1 ∧ 0 < maxSpeed P a b ∧ f = llf P a b := by
  unfold Riemann.nodeFlux at h
  cases h1 : (riemann P).solve a b with
  | error e => rw [h1] at h; cases h
  | ok r =>
    obtain ⟨ha, hb, hw⟩ := solve_inv P a b r h1
    have hw' := lt_of_le_of_ne (maxSpeed_nonneg P hP a b ha) (Ne.symm hw)
    rw [solve_ok P a b ha hb hw'] at h
    cases h
    exact ⟨ha, hb, hw', rfl⟩

theorem nodeFlux_turn (P : Params K) (hP : P.Good) (a b f : State K)
    (h : (riemann P).nodeFlux a b = .ok f) :
    (riemann P).nodeFlux (turn K b) (turn K a) = .ok (-turn K f) := by
  obtain ⟨ha, hb, hw, rfl⟩ := nodeFlux_inv P hP a b f h
  unfold Riemann.nodeFlux
  rw [solve_ok P _ _ (by simpa using hb) (by simpa using ha) (by rw [maxSpeed_turn]; exact hw),
    llf_turn P a b ha hb]

theorem centralNode_turn (P : Params K) (a b f : State K)
    (h : centralNode K (flux P) a b = .ok f) :
    centralNode K (flux P) (turn K b) (turn K a) = .ok (-turn K f) := by
  unfold centralNode at h ⊢
  cases h1 : flux P a with
  | error e => rw [h1] at h; cases h
  | ok x =>
    cases h2 : flux P b with
    | error e => rw [h1, h2] at h; cases h
    | ok y =>
      rw [h1, h2] at h
      cases h
      rw [flux_turn P a x h1, flux_turn P b y h2]
      simp only
      congr 1
      ext <;> simp <;> ring

theorem energyStableNode_turn (P : Params K) (a b f : State K)
    (h : energyStableNode P a b = .ok f) :
    energyStableNode P (turn K b) (turn K a) = .ok (-turn K f) := by
  unfold energyStableNode at h ⊢
  rw [← flux_turn P _ f h]
  congr 1
  ext <;> simp [average] <;> ring

theorem positivityFix_neg (x d : K) : positivityFix x (-d) = -positivityFix x d := by
  unfold positivityFix sgn
  rw [abs_neg]
  rcases lt_trichotomy d 0 with h | h | h
  · rw [if_neg (by linarith), if_pos (by linarith), if_pos h]; ring
  · subst h; simp
  · rw [if_pos (by linarith), if_neg (by linarith), if_pos h]; ring

/-- The reflected node of the low-order scheme. -/
def LowNode.mirror (n : LowNode K) : LowNode K :=
  { w := n.w, heightHLL := n.heightHLL, dischargeHLL := -n.dischargeHLL, fix := -n.fix,
    heightLeft := n.heightRight, heightRight := n.heightLeft,
    dischargeLeft := -n.dischargeRight, dischargeRight := -n.dischargeLeft,
    fluxLeft := turn K n.fluxRight, fluxRight := turn K n.fluxLeft }

theorem lowNode_turn (P : Params K) (hP : P.Good) (a b : State K) (d : K) (n : LowNode K)
    (h : lowNode P a b d = .ok n) :
    lowNode P (turn K b) (turn K a) (-d) = .ok n.mirror := by
  have h' := h
  unfold lowNode at h
  cases h1 : (riemann P).solve a b with
  | error e => rw [h1] at h; cases h
  | ok r =>
    obtain ⟨ha, hb, hw⟩ := solve_inv P a b r h1
    have hw' := lt_of_le_of_ne (maxSpeed_nonneg P hP a b ha) (Ne.symm hw)
    rw [lowNode_ok P a b d ha hb hw'] at h'
    cases h'
    rw [lowNode_ok P _ _ _ (by simpa using hb) (by simpa using ha)
      (by rw [maxSpeed_turn]; exact hw')]
    congr 1
    unfold low LowNode.mirror
    simp only [maxSpeed_turn, barState_turn P a b ha hb, turn_fst, turn_snd, positivityFix_neg,
      velocity_turn, fluxOf_turn P a ha, fluxOf_turn P b hb]
    have hav : average b.1 a.1 = average a.1 b.1 := by simp [average]; ring
    have hvv : average (-velocity P b) (-velocity P a) =
        -average (velocity P a) (velocity P b) := by simp [average]; ring
    rw [hav, hvv]
    congr 1
    · ring
    · ring
    · ring
    · ext
      · simp
      · simp; ring
    · ext
      · simp
      · simp; ring

/-! ### Bathymetry -/

/-- The reflected bathymetry. -/
def Bathymetry.mirror (B : Bathymetry K) : Bathymetry K := ⟨B.values.map List.reverse⟩

theorem diff_length (l : List K) : (diff l).length = l.length - 1 := by simp [diff]

theorem diff_reverse (l : List K) : diff l.reverse = FV.mirror (fun x => -x) (diff l) := by
  apply List.ext_getElem
  · simp [diff_length]
  · intro i h1 h2
    simp only [FV.mirror_length, diff_length] at h2
    simp only [FV.mirror, List.getElem_map, List.getElem_reverse, diff, List.getElem_zipWith,
      List.getElem_tail, neg_sub]
    simp only [List.length_zipWith, List.length_tail]
    congr 2 <;> omega

theorem steps_mirror (B : Bathymetry K) (n : ℕ) (ds : List K) (h : B.steps n = .ok ds) :
    B.mirror.steps n = .ok (FV.mirror (fun x => -x) ds) := by
  unfold Bathymetry.steps at h ⊢
  cases hv : B.values with
  | none =>
    rw [hv] at h
    cases h
    simp only [Bathymetry.mirror, hv, Option.map_none]
    congr 1
    simp [FV.mirror]
  | some b =>
    rw [hv] at h
    simp only at h
    simp only [Bathymetry.mirror, hv, Option.map_some]
    split at h
    · rename_i h1
      cases h
      rw [diff_reverse, if_pos (by simpa using h1)]
    · cases h

theorem nodesE_mirror {γ γ' : Type*} (B : Bathymetry K)
    (f : State K → State K → K → Except Error γ) (f' : State K → State K → K → Except Error γ')
    (ρ : γ → γ') (h : ∀ a b d c, f a b d = .ok c → f' (turn K b) (turn K a) (-d) = .ok (ρ c))
    (l r : List (State K)) (hlen : l.length = r.length) (cs : List γ)
    (hc : nodesE B f l r = .ok cs) :
    nodesE B.mirror f' (FV.mirror (turn K) r) (FV.mirror (turn K) l) = .ok (FV.mirror ρ cs) := by
  unfold nodesE at hc ⊢
  cases hds : B.steps (l.zip r).length with
  | error e => rw [hds] at hc; cases hc
  | ok ds =>
    rw [hds] at hc
    have hl : ((FV.mirror (turn K) r).zip (FV.mirror (turn K) l)).length = (l.zip r).length := by
      simp [hlen]
    rw [hl, steps_mirror B _ ds hds]
    simp only at hc ⊢
    have e : (FV.mirror (turn K) r).zip (FV.mirror (turn K) l) =
        (l.zip r).reverse.map (fun p : State K × State K => (turn K p.2, turn K p.1)) := by
      unfold FV.mirror
      rw [List.zip_map, zip_reverse r l hlen.symm, ← List.zip_swap l r, ← List.map_reverse,
        List.map_map]
      rfl
    rw [e]
    exact zipE_reverse (fun (p : State K × State K) d => f p.1 p.2 d)
      (fun (p : State K × State K) d => f' p.1 p.2 d) _ _ ρ
      (fun p d c hc => h p.1 p.2 d c hc) (l.zip r) ds (by rw [steps_length B _ ds hds]) cs hc

theorem nodesE_length {γ : Type*} (B : Bathymetry K) (f : State K → State K → K → Except Error γ)
    (l r : List (State K)) (cs : List γ) (hc : nodesE B f l r = .ok cs) :
    cs.length = (l.zip r).length := by
  unfold nodesE at hc
  cases hds : B.steps (l.zip r).length with
  | error e => rw [hds] at hc; cases hc
  | ok ds =>
    rw [hds] at hc
    exact zipE_length _ _ _ (by rw [steps_length B _ ds hds]) cs hc

theorem withSource_mirror (P : Params K) (B : Bathymetry K) (F F' : NumFlux (State K))
    (hF : MirrorImage (turn K) F F') (hdim : F.dim = 2)
    (hlF : ∀ ext fl fr, F.call (nodeSlices ext 1) = .ok (fl, fr) → fl.length = ext.length - 1) :
    MirrorImage (turn K) (withSource P B F) (withSource P B.mirror F') := by
  obtain ⟨e1, _, cF⟩ := hF
  refine ⟨e1, by simp [withSource, hdim], ?_⟩
  intro ext fl fr hlen hcall
  simp only [withSource, hdim, show 2 / 2 = 1 from rfl] at hlen hcall cF ⊢
  have hne : ext ≠ [] := by rintro rfl; simp at hlen
  cases h1 : F.call (nodeSlices ext 1) with
  | error e => rw [h1] at hcall; cases hcall
  | ok p =>
    obtain ⟨a, b⟩ := p
    obtain ⟨hl, h2⟩ := cF ext a b hlen h1
    have h3 := hlF ext a b h1
    rw [h1] at hcall
    rw [h2, slices_one_mirror _ ext (by omega), requiredValues_two]
    rw [nodeSlices_one ext hne, requiredValues_two] at hcall
    simp only at hcall ⊢
    cases h4 : nodesE B (fun a b d => .ok (source P a b d)) ext.dropLast ext.tail with
    | error e => rw [h4] at hcall; cases hcall
    | ok s =>
      rw [h4] at hcall
      cases hcall
      have hs := nodesE_length B _ _ _ s h4
      simp only [List.length_zip, List.length_dropLast, List.length_tail, min_self] at hs
      rw [nodesE_mirror B _ (fun a b d => .ok (source P a b d)) (turn K) (by
        intro a b d c hc
        cases hc
        rw [source_turn]) _ _ (by simp) s h4]
      simp only
      refine ⟨by simp [hl], ?_⟩
      have hz : ∀ x y : List (State K), x.length = y.length →
          List.zipWith (fun a b => a + -b) (FV.mirror (turn K) x) (FV.mirror (turn K) y) =
            FV.mirror (turn K) (List.zipWith (fun a b => a + -b) x y) := by
        intro x y hxy
        unfold FV.mirror
        rw [← zipWith_reverse_of_length _ x y hxy]
        apply List.ext_getElem
        · simp
        · intro i _ _
          simp only [List.getElem_map, List.getElem_zipWith, map_add, map_neg]
      rw [hz b s (by omega), hz a s (by omega)]

theorem twoPoint_length (F : State K → State K → Except Error (State K)) (ext fl fr : List (State K))
    (h : (twoPoint F).call (nodeSlices ext 1) = .ok (fl, fr)) : fl.length = ext.length - 1 := by
  cases ext with
  | nil =>
    have e : nodeSlices ([] : List (State K)) 1 = [[], []] := by
      simp [nodeSlices, slice, sliceFrom]
    rw [e] at h
    simp only [twoPoint, zipE] at h
    cases h
    rfl
  | cons x xs =>
    rw [nodeSlices_one _ (by simp)] at h
    simp only [twoPoint] at h
    cases hz : zipE F (x :: xs).dropLast (x :: xs).tail with
    | error e => rw [hz] at h; cases h
    | ok fs =>
      rw [hz] at h
      cases h
      rw [List.length_map, zipE_length _ _ _ (by simp) _ hz]
      simp

theorem lowOrder_mirror (P : Params K) (hP : P.Good) (B : Bathymetry K) :
    MirrorImage (turn K) (lowOrder P B) (lowOrder P B.mirror) := by
  refine ⟨rfl, by simp [lowOrder], ?_⟩
  intro ext fl fr hlen hcall
  simp only [lowOrder, show 2 / 2 = 1 from rfl] at hlen hcall ⊢
  have hne : ext ≠ [] := by rintro rfl; simp at hlen
  rw [slices_one_mirror _ ext (by omega)]
  rw [nodeSlices_one ext hne] at hcall
  simp only at hcall ⊢
  cases h1 : nodesE B (lowNode P) ext.dropLast ext.tail with
  | error e => rw [h1] at hcall; cases hcall
  | ok ns =>
    rw [h1] at hcall
    cases hcall
    rw [nodesE_mirror B (lowNode P) (lowNode P) LowNode.mirror (lowNode_turn P hP) _ _ (by simp) ns h1]
    refine ⟨by simp, ?_⟩
    simp only
    congr 2
    · simp only [FV.mirror, List.map_map, ← List.map_reverse]; rfl
    · simp only [FV.mirror, List.map_map, ← List.map_reverse]; rfl

theorem diffusion_turn (P : Params K) (a b d : State K) :
    diffusion P (turn K b) (turn K a) (-turn K d) = -turn K (diffusion P a b d) := by
  have h1 : ((average b.1 a.1, average (-b.2) (-a.2)) : State K) =
      turn K (average a.1 b.1, average a.2 b.2) := by
    ext <;> simp [average] <;> ring
  unfold diffusion diffusionMatrix
  simp only [turn_snd, turn_fst, h1, velocity_turn]
  have hm : ∀ x y : K, |-x - y| = |x + y| := by
    intro x y; rw [← abs_neg]; congr 1; ring
  have hp : ∀ x y : K, |-x + y| = |x - y| := by
    intro x y; rw [← abs_neg]; congr 1; ring
  have hav : average b.1 a.1 = average a.1 b.1 := by simp [average]; ring
  simp only [hm, hp, hav]
  ext <;> simp <;> ring

theorem entropy_turn (P : Params K) (u : State K) (b : K) :
    entropy P (turn K u) b = turn K (entropy P u b) := by
  ext <;> simp [entropy, velocity_turn]

theorem diffusiveNode_turn (P : Params K) (a b : State K) (s : K) (d : State K)
    (r : State K × State K) (h : diffusiveNode P a b s d = .ok r) :
    diffusiveNode P (turn K b) (turn K a) (-s) (-turn K d) = .ok (turn K r.2, turn K r.1) := by
  unfold diffusiveNode at h ⊢
  split at h
  · cases h
  · rename_i h0
    rw [if_neg h0]
    cases h1 : energyStableNode P a b with
    | error e => rw [h1] at h; cases h
    | ok f =>
      rw [h1] at h
      cases h
      rw [energyStableNode_turn P a b f h1]
      simp only [diffusion_turn]
      rw [source_turn]
      congr 2
      · rw [map_sub, map_sub]; abel
      · rw [map_sub, map_neg, map_sub]; abel

/-- Differences of neighbours in the reflected list. -/
theorem diffs_mirror (E : List (State K)) :
    List.zipWith (fun a b => b - a) (FV.mirror (turn K) E) (FV.mirror (turn K) E).tail =
      FV.mirror (fun x => -turn K x) (List.zipWith (fun a b => b - a) E E.tail) := by
  apply List.ext_getElem
  · simp
  · intro i h1 h2
    simp only [FV.mirror_length, List.length_zipWith, List.length_tail] at h2
    simp only [FV.mirror, List.getElem_map, List.getElem_reverse, List.getElem_zipWith,
      List.getElem_tail, ← map_neg, neg_sub, ← map_sub]
    simp only [List.length_zipWith, List.length_tail]
    congr 2 <;> congr 1 <;> omega

theorem diffusive_mirror (P : Params K) (B : Bathymetry K) :
    MirrorImage (turn K) (diffusiveFlux P B) (diffusiveFlux P B.mirror) := by
  refine ⟨rfl, by simp [diffusiveFlux], ?_⟩
  intro ext fl fr hlen hcall
  simp only [diffusiveFlux, show 2 / 2 = 1 from rfl] at hlen hcall ⊢
  have hne : ext ≠ [] := by rintro rfl; simp at hlen
  rw [slices_one_mirror _ ext (by omega)]
  rw [nodeSlices_one ext hne] at hcall
  simp only at hcall ⊢
  have hd' : dofVector [FV.mirror (turn K) ext.tail, FV.mirror (turn K) ext.dropLast] =
      .ok (FV.mirror (turn K) ext) := by
    rw [← dofVector_two (FV.mirror (turn K) ext) (by simpa using hlen)]
    congr 2
    · simp [FV.mirror, ← List.map_dropLast]
    · simp [FV.mirror, ← List.map_tail]
  rw [dofVector_two ext (by omega)] at hcall
  rw [hd']
  simp only at hcall ⊢
  have hb : B.mirror.values.getD (List.replicate (FV.mirror (turn K) ext).length 0) =
      (B.values.getD (List.replicate ext.length 0)).reverse := by
    cases hv : B.values <;> simp [Bathymetry.mirror, hv]
  rw [hb]
  set bs := B.values.getD (List.replicate ext.length 0) with hbs
  split at hcall
  · rename_i hlb
    rw [if_pos (by simpa using hlb)]
    have hE : List.zipWith (entropy P) (FV.mirror (turn K) ext) bs.reverse =
        FV.mirror (turn K) (List.zipWith (entropy P) ext bs) := by
      unfold FV.mirror
      rw [← zipWith_reverse_of_length _ ext bs hlb.symm]
      apply List.ext_getElem
      · simp
      · intro i _ _
        simp only [List.getElem_map, List.getElem_zipWith, entropy_turn]
    rw [hE, diffs_mirror]
    set d := List.zipWith (fun a b => b - a) (List.zipWith (entropy P) ext bs)
      (List.zipWith (entropy P) ext bs).tail with hd
    have hdl : d.length = ext.length - 1 := by simp [hd, hlb]
    have hzl : (ext.dropLast.zip ext.tail).length = ext.length - 1 := by simp
    have hzl' : ((FV.mirror (turn K) ext.tail).zip (FV.mirror (turn K) ext.dropLast)).length =
        ext.length - 1 := by simp
    rw [hzl] at hcall
    rw [hzl']
    cases hds : B.steps (ext.length - 1) with
    | error e => rw [hds] at hcall; cases hcall
    | ok ds =>
      rw [hds] at hcall
      rw [steps_mirror B _ ds hds]
      have hdsl := steps_length B _ ds hds
      simp only at hcall ⊢
      cases hz : zipE (fun p q => diffusiveNode P p.1 p.2 q.1 q.2) (ext.dropLast.zip ext.tail)
          (ds.zip d) with
      | error e => rw [hz] at hcall; cases hcall
      | ok fs =>
        rw [hz] at hcall
        cases hcall
        have e1 : (FV.mirror (turn K) ext.tail).zip (FV.mirror (turn K) ext.dropLast) =
            (ext.dropLast.zip ext.tail).reverse.map
              (fun p : State K × State K => (turn K p.2, turn K p.1)) := by
          unfold FV.mirror
          rw [List.zip_map, zip_reverse _ _ (by simp), ← List.zip_swap ext.dropLast ext.tail,
            ← List.map_reverse, List.map_map]
          rfl
        have e2 : (FV.mirror (fun x => -x) ds).zip (FV.mirror (fun x => -turn K x) d) =
            (ds.zip d).reverse.map (fun q => (-q.1, -turn K q.2)) := by
          unfold FV.mirror
          rw [List.zip_map, zip_reverse _ _ (by omega)]
          rfl
        rw [e1, e2, zipE_reverse
          (fun (p : State K × State K) (q : K × State K) => diffusiveNode P p.1 p.2 q.1 q.2)
          (fun (p : State K × State K) (q : K × State K) => diffusiveNode P p.1 p.2 q.1 q.2) _ _ (fun r => (turn K r.2, turn K r.1))
          (fun p q r hr => diffusiveNode_turn P p.1 p.2 q.1 q.2 r hr) _ _ (by
            rw [hzl, List.length_zip, hdl, hdsl, min_self]) fs hz]
        simp only
        refine ⟨by simp, ?_⟩
        congr 2
        · simp only [FV.mirror, List.map_map, ← List.map_reverse]; rfl
        · simp only [FV.mirror, List.map_map, ← List.map_reverse]; rfl
  · cases hcall

theorem antidiffusive_mirror (γ dx : K) :
    MirrorImage (turn K) (linearAntidiffusive γ dx) (linearAntidiffusive γ dx) := by
  apply twoPoint_mirror
  intro a b f h
  split at h
  · cases h
  · rename_i h0
    cases h
    rw [if_neg h0]
    congr 1
    ext <;> simp <;> ring

/-! ### C88 -/

/-- The finite volume schemes of which C88 speaks, as functions of the bathymetry: Lax-Friedrichs,
central, energy stable, diffusive energy stable and low-order, and the first two with linear
antidiffusion. -/
def symmetricSchemes (P : Params K) (γ dx : K) : List (Bathymetry K → NumFlux (State K)) :=
  [lfFlux P, centralFlux P, energyStableFlux P, diffusiveFlux P, lowOrder P,
   fun B => antidiffusive γ dx (lfFlux P B), fun B => antidiffusive γ dx (centralFlux P B)]

theorem withSource_length (P : Params K) (B : Bathymetry K)
    (F : State K → State K → Except Error (State K)) (ext fl fr : List (State K))
    (h : (withSource P B (twoPoint F)).call (nodeSlices ext 1) = .ok (fl, fr)) :
    fl.length = ext.length - 1 := by
  have e0 : nodeSlices ext 1 = [ext.dropLast, ext.tail] := by
    cases ext with
    | nil => simp [nodeSlices, slice, sliceFrom]
    | cons x xs => exact nodeSlices_one _ (by simp)
  simp only [withSource] at h
  cases h1 : (twoPoint F).call (nodeSlices ext 1) with
  | error e => rw [h1] at h; cases h
  | ok p =>
    obtain ⟨a, b⟩ := p
    have h2 := twoPoint_length F ext a b h1
    rw [h1, e0, requiredValues_two] at h
    simp only at h
    cases h4 : nodesE B (fun a b d => .ok (source P a b d)) ext.dropLast ext.tail with
    | error e => rw [h4] at h; cases h
    | ok s =>
      rw [h4] at h
      cases h
      have hs := nodesE_length B _ _ _ s h4
      simp only [List.length_zip, List.length_dropLast, List.length_tail, min_self] at hs
      simp [h2, hs]

theorem schemes_mirror (P : Params K) (hP : P.Good) (γ dx : K) (S : Bathymetry K → NumFlux (State K))
    (hS : S ∈ symmetricSchemes P γ dx) (B : Bathymetry K) :
    MirrorImage (turn K) (S B) (S B.mirror) ∧ (S B).dim = 2 := by
  have hlf : MirrorImage (turn K) (lfFlux P B) (lfFlux P B.mirror) :=
    withSource_mirror P B _ _ (twoPoint_mirror (turn K) _ _ (nodeFlux_turn P hP)) rfl
      (twoPoint_length _)
  have hce : MirrorImage (turn K) (centralFlux P B) (centralFlux P B.mirror) :=
    withSource_mirror P B _ _ (twoPoint_mirror (turn K) _ _ (centralNode_turn P)) rfl
      (twoPoint_length _)
  simp only [symmetricSchemes, List.mem_cons, List.not_mem_nil, or_false] at hS
  rcases hS with rfl | rfl | rfl | rfl | rfl | rfl | rfl
  · exact ⟨hlf, rfl⟩
  · exact ⟨hce, rfl⟩
  · exact ⟨withSource_mirror P B _ _ (twoPoint_mirror (turn K) _ _ (energyStableNode_turn P)) rfl
      (twoPoint_length _), rfl⟩
  · exact ⟨diffusive_mirror P B, rfl⟩
  · exact ⟨lowOrder_mirror P hP B, rfl⟩
  · exact ⟨corrected_mirror (turn K) _ _ _ _ hlf (antidiffusive_mirror γ dx) ⟨rfl, rfl⟩
      (withSource_length P B _) (twoPoint_length _), rfl⟩
  · exact ⟨corrected_mirror (turn K) _ _ _ _ hce (antidiffusive_mirror γ dx) ⟨rfl, rfl⟩
      (withSource_length P B _) (twoPoint_length _), rfl⟩

theorem buildBathymetry_mirror (P : Params K) (b : Option (List K)) (B B' : Bathymetry K)
    (hB : buildBathymetry P b = .ok B) (hB' : buildBathymetry P (b.map List.reverse) = .ok B')
    (hflat : B.values = none ↔ B'.values = none) : B' = B.mirror := by
  cases b with
  | none => cases hB; cases hB'; rfl
  | some l =>
    simp only [Option.map_some] at hB'
    unfold buildBathymetry at hB hB'
    simp only at hB hB'
    cases h1 : isConstant P l with
    | error e => rw [h1] at hB; cases hB
    | ok c =>
      cases h2 : isConstant P l.reverse with
      | error e => rw [h2] at hB'; cases hB'
      | ok c' =>
        rw [h1] at hB
        rw [h2] at hB'
        cases c with
        | true =>
          cases hB
          cases c' with
          | true => cases hB'; rfl
          | false => cases hB'; simp at hflat
        | false =>
          cases hB
          cases c' with
          | true => cases hB'; simp at hflat
          | false =>
            cases hB'
            simp only [Bathymetry.mirror, Option.map_some]
            congr 2
            cases l with
            | nil => simp
            | cons x xs =>
              simp only [List.headD_cons, List.cons_append, List.reverse_cons, List.reverse_append,
                List.reverse_nil, List.nil_append]
              have hh : (xs.reverse ++ [x]).headD 0 = (x :: xs).getLastD 0 := by
                rw [← List.reverse_cons, List.headD_eq_head?_getD, List.head?_reverse,
                  List.getLastD_eq_getLast?]
              have hl : (xs.reverse ++ [x]).getLastD 0 = x := by
                simp [List.getLastD_eq_getLast?]
              rw [hh, hl]

/-- C88, right-hand side.  Take any of the schemes, any boundary conditions and any bathymetry.  If
the cells are given in reversed order with opposite discharges, the bathymetry in reversed order, the
boundary conditions exchanged and the inflow data exchanged with opposite discharges, then the
right-hand side is the old one in reversed order with opposite discharges. -/
theorem C88_mirror_rhs (P : Params K) (hP : P.Good) (b : Option (List K)) (B B' : Bathymetry K)
    (hB : buildBathymetry P b = .ok B) (hB' : buildBathymetry P (b.map List.reverse) = .ok B')
    (hflat : B.values = none ↔ B'.values = none)
    (conditions : List String) (hc : conditions.length ≤ 2) (il ir : Option (K → State K))
    (bc bc' : BC K (State K)) (hbc : build (some reflect) conditions 1 il ir = .ok bc)
    (hbc' : build (some reflect) conditions.reverse 1 (ir.map (fun f t => ((f t).1, -(f t).2)))
      (il.map (fun f t => ((f t).1, -(f t).2))) = .ok bc')
    (γ dx' : K) (S : Bathymetry K → NumFlux (State K)) (hS : S ∈ symmetricSchemes P γ dx')
    (dx t : K) (v w : List (State K)) (h : rhs (S B) dx bc t v = .ok w) :
    rhs (S B') dx bc' t (v.reverse.map (fun u => (u.1, -u.2))) =
      .ok (w.reverse.map (fun u => (u.1, -u.2))) := by
  obtain ⟨hM, hdim⟩ := schemes_mirror P hP γ dx' S hS B
  obtain ⟨l1, l2⟩ := build_lengths _ _ _ _ _ bc hbc
  have e := build_mirror (turn K) (some reflect) conditions hc 1 il ir bc hbc
  have e' : bc' = BC.mirror (turn K) bc := Except.ok.inj (hbc'.symm.trans e)
  obtain ⟨c1, c2⟩ := build_commutes (turn K) (some reflect) conditions 1 il ir bc (by
    intro f hf x
    cases hf
    exact reflect_turn x) hbc
  rw [e', buildBathymetry_mirror P b B B' hB hB' hflat]
  exact rhs_mirror (turn K) _ _ hM dx bc c1 c2 (by rw [hdim, l1]) (by rw [hdim, l2]) t v w h

/-- The reflected state of a whole mesh. -/
def mirrorMap (K : Type*) [Field K] (n : ℕ) : (Fin n → State K) →ₗ[K] (Fin n → State K) where
  toFun := fun u i => ((u i.rev).1, -(u i.rev).2)
  map_add' := by
    intro a b
    funext i
    ext <;> simp
    ring
  map_smul' := by
    intro a b
    funext i
    ext <;> simp

theorem mirrorMap_ofFn (n : ℕ) (u : Fin n → State K) :
    List.ofFn (mirrorMap K n u) = (List.ofFn u).reverse.map (fun u => (u.1, -u.2)) := by
  apply List.ext_getElem
  · simp
  · intro i h1 h2
    simp only [List.length_ofFn] at h1
    simp only [List.getElem_ofFn, List.getElem_map, List.getElem_reverse, mirrorMap,
      LinearMap.coe_mk, AddHom.coe_mk, Fin.rev]
    simp only [List.length_ofFn]
    have hi : n - (i + 1) = n - 1 - i := by omega
    simp only [hi]

theorem vecRhs_mirror (n : ℕ) (f f' : K → List (State K) → Except Error (List (State K)))
    (h : ∀ t v w, f t v = .ok w →
      f' t (v.reverse.map (fun u => (u.1, -u.2))) = .ok (w.reverse.map (fun u => (u.1, -u.2))))
    (t : K) (u w : Fin n → State K) (hw : vecRhs n f t u = .ok w) :
    vecRhs n f' t (mirrorMap K n u) = .ok (mirrorMap K n w) := by
  unfold vecRhs at hw ⊢
  cases h1 : f t (List.ofFn u) with
  | error e => rw [h1] at hw; cases hw
  | ok x =>
    rw [h1] at hw
    simp only at hw
    split at hw
    · rename_i hx
      cases hw
      rw [mirrorMap_ofFn, h t _ x h1]
      simp only
      rw [dif_pos (by simpa using hx)]
      congr 1
      funext i
      simp only [List.getElem_map, List.getElem_reverse, mirrorMap, LinearMap.coe_mk, AddHom.coe_mk,
        Fin.rev]
      have hi : x.length - 1 - i.1 = n - (i.1 + 1) := by omega
      simp only [hi]
    · cases hw

/-- C88, runs.  A run of any Runge-Kutta method from the reflected state, with reflected bathymetry and
boundary data and the same time steps, gives the reflected solution. -/
theorem C88_mirror_run (P : Params K) (hP : P.Good) (b : Option (List K)) (B B' : Bathymetry K)
    (hB : buildBathymetry P b = .ok B) (hB' : buildBathymetry P (b.map List.reverse) = .ok B')
    (hflat : B.values = none ↔ B'.values = none)
    (conditions : List String) (hc : conditions.length ≤ 2) (il ir : Option (K → State K))
    (bc bc' : BC K (State K)) (hbc : build (some reflect) conditions 1 il ir = .ok bc)
    (hbc' : build (some reflect) conditions.reverse 1 (ir.map (fun f t => ((f t).1, -(f t).2)))
      (il.map (fun f t => ((f t).1, -(f t).2))) = .ok bc')
    (γ dx' : K) (S : Bathymetry K → NumFlux (State K)) (hS : S ∈ symmetricSchemes P γ dx')
    (dx t : K) (n : ℕ) (T : Tableau K) (u : Fin n → State K) (s' : Solver K (Fin n → State K))
    (steps : List K) (h : (Solver.init u t).runE T (vecRhs n (rhs (S B) dx bc)) steps = .ok s') :
    ∃ s'', (Solver.init (fun i => ((u i.rev).1, -(u i.rev).2)) t).runE T
        (vecRhs n (rhs (S B') dx bc')) steps = .ok s'' ∧
      s''.time = s'.time ∧
      ∀ i, s''.solution i = ((s'.solution i.rev).1, -(s'.solution i.rev).2) := by
  have := runE_map (mirrorMap K n) T (vecRhs n (rhs (S B) dx bc)) (vecRhs n (rhs (S B') dx bc'))
    (fun t u w hw => vecRhs_mirror n _ _ (fun t v w hv => C88_mirror_rhs P hP b B B' hB hB' hflat
      conditions hc il ir bc bc' hbc hbc' γ dx' S hS dx t v w hv) t u w hw) _ s' steps h
  exact ⟨_, this, rfl, fun i => rfl⟩

/-- C88, symmetric flows.  If the bathymetry is symmetric, both ends have the same condition (not
inflow) and the initial state is symmetric with opposite discharges, then so is the solution after
every run. -/
theorem C88_symmetric_flow (P : Params K) (hP : P.Good) (b : Option (List K)) (B : Bathymetry K)
    (hB : buildBathymetry P b = .ok B) (hb : b.map List.reverse = b) (condition : String)
    (bc : BC K (State K)) (hbc : build (some reflect) [condition] 1 none none = .ok bc)
    (γ dx' : K) (S : Bathymetry K → NumFlux (State K)) (hS : S ∈ symmetricSchemes P γ dx')
    (dx t : K) (n : ℕ) (T : Tableau K) (u : Fin n → State K)
    (hu : ∀ i, (u i.rev).1 = (u i).1 ∧ (u i.rev).2 = -(u i).2)
    (s' : Solver K (Fin n → State K)) (steps : List K)
    (h : (Solver.init u t).runE T (vecRhs n (rhs (S B) dx bc)) steps = .ok s') :
    ∀ i, (s'.solution i.rev).1 = (s'.solution i).1 ∧ (s'.solution i.rev).2 = -(s'.solution i).2 := by
  obtain ⟨s'', h1, _, h2⟩ := C88_mirror_run P hP b B B hB (by rw [hb]; exact hB) Iff.rfl [condition]
    (by simp) none none bc bc hbc hbc γ dx' S hS dx t n T u s' steps h
  have e : (fun i => ((u i.rev).1, -(u i.rev).2) : Fin n → State K) = u := by
    funext i
    obtain ⟨a, c⟩ := hu i
    ext
    · exact a
    · simp [c]
  rw [e, h] at h1
  cases h1
  intro i
  have := h2 i
  constructor
  · rw [this]
  · rw [this]; simp

theorem foldl_max_unique (l : List K) (a m : K) (h1 : a ≤ m) (h2 : ∀ x ∈ l, x ≤ m)
    (h3 : m = a ∨ m ∈ l) : l.foldl max a = m := by
  obtain ⟨b1, b2⟩ := le_foldl_max l a
  apply le_antisymm
  · rcases foldl_max_mem l a with h | h
    · rw [h]; exact h1
    · exact h2 _ h
  · rcases h3 with h | h
    · rw [h]; exact b1
    · exact b2 m h

/-- C88, time step.  The largest time step allowed by the speeds is the same for the reflected
state. -/
theorem C88_mirror_time_step (P : Params K) (hP : P.Good) (conditions : List String)
    (hc : conditions.length ≤ 2) (il ir : Option (K → State K))
    (bc bc' : BC K (State K)) (hbc : build (some reflect) conditions 1 il ir = .ok bc)
    (hbc' : build (some reflect) conditions.reverse 1 (ir.map (fun f t => ((f t).1, -(f t).2)))
      (il.map (fun f t => ((f t).1, -(f t).2))) = .ok bc')
    (dx τ : K) (v : List (State K)) (h : optimalTimeStep (riemann P) bc dx v = .ok τ) :
    optimalTimeStep (riemann P) bc' dx (v.reverse.map (fun u => (u.1, -u.2))) = .ok τ := by
  obtain ⟨l1, l2⟩ := build_lengths _ _ _ _ _ bc hbc
  have e := build_mirror (turn K) (some reflect) conditions hc 1 il ir bc hbc
  have e' : bc' = BC.mirror (turn K) bc := Except.ok.inj (hbc'.symm.trans e)
  obtain ⟨c1, c2⟩ := build_commutes (turn K) (some reflect) conditions 1 il ir bc (by
    intro f hf x
    cases hf
    exact reflect_turn x) hbc
  subst e'
  change optimalTimeStep (riemann P) (BC.mirror (turn K) bc) dx (FV.mirror (turn K) v) = .ok τ
  unfold optimalTimeStep BC.nodeNeighbours at h ⊢
  cases h1 : bc.extend v none with
  | error e => rw [h1] at h; cases h
  | ok ext =>
    have hlen := extend_length bc v ext _ h1
    have hlen2 : 2 ≤ ext.length := by omega
    have hne : ext ≠ [] := by rintro rfl; simp at hlen2
    rw [h1] at h
    rw [extend_mirror (turn K) bc c1 c2 v none ext h1]
    simp only [nodeSlices_one ext hne, slices_one_mirror (turn K) ext hlen2] at h ⊢
    cases hz : zipE (riemann P).solve ext.dropLast ext.tail with
    | error e => rw [hz] at h; cases h
    | ok rs =>
      rw [hz] at h
      have hz' : ∃ rs', zipE (riemann P).solve (FV.mirror (turn K) ext.tail)
          (FV.mirror (turn K) ext.dropLast) = .ok rs' ∧
          rs'.map (fun s => max |s.speedLeft| s.speedRight) =
            (rs.map (fun s => max |s.speedLeft| s.speedRight)).reverse := by
        refine ⟨rs.reverse.map (fun r => ⟨-turn K r.flux, turn K r.state, -turn K r.fluxRight,
          -turn K r.fluxLeft, r.speedLeft, r.speedRight⟩), ?_, ?_⟩
        · rw [zipE_flip]
          exact zipE_reverse (riemann P).solve (fun b a => (riemann P).solve a b) (turn K) (turn K)
            (fun r => ⟨-turn K r.flux, turn K r.state, -turn K r.fluxRight, -turn K r.fluxLeft,
              r.speedLeft, r.speedRight⟩) (by
                intro a b r hr
                obtain ⟨ha, hb, hw⟩ := solve_inv P a b r hr
                have hw' := lt_of_le_of_ne (maxSpeed_nonneg P hP a b ha) (Ne.symm hw)
                rw [solve_ok P a b ha hb hw'] at hr
                cases hr
                rw [solve_ok P _ _ (by simpa using hb) (by simpa using ha)
                  (by rw [maxSpeed_turn]; exact hw')]
                simp only [maxSpeed_turn, llf_turn P a b ha hb, barState_turn P a b ha hb,
                  fluxOf_turn P a ha, fluxOf_turn P b hb]) _ _ (by simp) rs hz
        · rw [List.map_map, List.map_reverse]
          rfl
      obtain ⟨rs', hz', hsp⟩ := hz'
      rw [hz']
      cases rs with
      | nil => cases h
      | cons x xs =>
        cases rs' with
        | nil => simp at hsp
        | cons y ys =>
          simp only [List.map_cons, List.tail_cons] at h hsp ⊢
          set f : RiemannResult K (State K) → K := fun s => max |s.speedLeft| s.speedRight with hf
          have hm : (ys.map f).foldl max (f y) = (xs.map f).foldl max (f x) := by
            obtain ⟨b1, b2⟩ := le_foldl_max (xs.map f) (f x)
            have hall : ∀ z ∈ f y :: ys.map f, z ≤ (xs.map f).foldl max (f x) := by
              intro z hz
              change f y :: ys.map f = (f x :: xs.map f).reverse at hsp
              rw [hsp, List.mem_reverse] at hz
              rcases List.mem_cons.mp hz with rfl | hz
              · exact b1
              · exact b2 z hz
            apply foldl_max_unique
            · exact hall _ List.mem_cons_self
            · intro z hz; exact hall z (List.mem_cons_of_mem _ hz)
            · have hmem : (xs.map f).foldl max (f x) ∈ f x :: xs.map f := by
                rcases foldl_max_mem (xs.map f) (f x) with h | h
                · rw [h]; exact List.mem_cons_self
                · exact List.mem_cons_of_mem _ h
              change f y :: ys.map f = (f x :: xs.map f).reverse at hsp
              rw [← List.mem_reverse, ← hsp] at hmem
              exact List.mem_cons.mp hmem
          change (if (ys.map f).foldl max (f y) = 0 then _ else _) = _
          rw [hm]
          exact h

/-- The MCL scheme is not symmetric: on flat ground with outflow boundaries and the central target,
the right-hand side of the reflected state is not the reflected right-hand side.  (It uses the limited
height right of a node also for the velocity left of it, see C50.) -/
theorem C88_mcl_counterexample :
    let F := mcl exampleParams ⟨none⟩ ⟨[.copy 0], [.copy (-1)], false⟩
      (centralFlux exampleParams ⟨none⟩)
    let bc : BC ℚ (State ℚ) := ⟨[.copy 0], [.copy (-1)], false⟩
    let v : List (State ℚ) := [(1, -2), (1 / 4, -2), (16, 2)]
    build (some reflect) ["outflow"] 1 none none = .ok bc ∧
    okAnd (rhs F 1 bc 0 v) (fun w =>
      okAnd (rhs F 1 bc 0 (v.reverse.map (fun u => (u.1, -u.2)))) (fun w' =>
        decide (w' ≠ w.reverse.map (fun u => (u.1, -u.2))))) = true := by
  refine ⟨?_, by decide +kernel⟩
  simp [build, buildLeft, buildRight, BC.make, pure, Except.pure, bind, Except.bind]

/-- Non-vacuity: a hill with an inflow on the left and a wall on the right, and its mirror image. -/
example : okAnd ((buildBathymetry exampleParams (some [0, 1, 3])).bind (fun B =>
    rhs (lowOrder exampleParams B) (1 : ℚ)
      ⟨[.inflow (fun _ => (4, 1))], [.reflect (-1) reflect], false⟩ 0 [(4, 1), (2, 0), (1, -1)]))
    (fun w => okAnd ((buildBathymetry exampleParams (some [3, 1, 0])).bind (fun B =>
    rhs (lowOrder exampleParams B) (1 : ℚ)
      ⟨[.reflect 0 reflect], [.inflow (fun _ => (4, -1))], false⟩ 0 [(1, 1), (2, 0), (4, -1)]))
    (fun w' => decide (w' = w.reverse.map (fun u => (u.1, -u.2)) ∧ w ≠ [0, 0, 0]))) = true := by
  decide +kernel

example : build (some reflect) ["inflow", "wall"] 1 (some fun _ => (4, 1)) none =
      .ok (⟨[.inflow (fun _ => (4, 1))], [.reflect (-1) reflect], false⟩ : BC ℚ (State ℚ)) ∧
    build (some reflect) ["wall", "inflow"] 1 none (some fun _ => (4, -1)) =
      .ok (⟨[.reflect 0 reflect], [.inflow (fun _ => (4, -1))], false⟩ : BC ℚ (State ℚ)) := by
  constructor <;>
  simp [build, buildLeft, buildRight, BC.make, pure, Except.pure, bind, Except.bind]

/-- Non-vacuity: a column of water collapses symmetrically between walls over a hill. -/
example : okAnd ((buildBathymetry exampleParams (some [0, 1, 1, 0])).bind (fun B =>
    (Solver.init ![(1, 0), (4, 0), (4, 0), (1, 0)] 0 : Solver ℚ (Fin 4 → State ℚ)).runE (heun ℚ)
      (vecRhs 4 (rhs (lfFlux exampleParams B) 1 exampleWalls)) [1 / 100]))
    (fun s => decide ((s.solution 1).1 ≠ 4 ∧ (s.solution 2).1 = (s.solution 1).1 ∧
      (s.solution 2).2 = -(s.solution 1).2 ∧ (s.solution 2).2 ≠ 0)) = true := by
  decide +kernel

end Verif.SWE
