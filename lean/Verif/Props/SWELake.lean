import Verif.Props.SWEConservation

/-!
Properties C43, C44, C45 and C46 (well-balancedness): the lake at rest.
-/

set_option linter.unusedSectionVars false

namespace Verif.SWE

open Verif.Py Verif.Boundary Verif.FV Verif.ODE

variable {K : Type*} [Field K] [LinearOrder K] [IsStrictOrderedRing K]

/-! ### Specification -/

/-- Lake at rest with water level `c` over the bathymetry `b`. -/
def lake (c : K) (b : List K) : List (State K) := b.map (fun x => (c - x, 0))

/-- The water is at least `eps` deep, and a bathymetry that the solver treats as constant (because
its values differ by less than `eps`) is constant. -/
def Admissible (P : Params K) (c : K) (b : List K) : Prop :=
  (∀ x ∈ b, P.eps ≤ c - x) ∧ (isConstant P b = .ok true → ∀ x ∈ b, ∀ y ∈ b, x = y)

/-- Outflow and wall conditions, in any combination. -/
def Closed (conditions : List String) : Prop :=
  ∃ cl rest, conditions = cl :: rest ∧ (cl = "outflow" ∨ cl = "wall") ∧
    (rest.headD cl = "outflow" ∨ rest.headD cl = "wall")

/-! ### Lemmas -/

/-- An extended lake with the steps of the bathymetry at its nodes. -/
structure LakeExt (P : Params K) (per : Bool) (n : ℕ) (ext : List (State K)) (ds : List K) :
    Prop where
  len : ext.length = n + 2
  wet : ∀ j < n + 2, P.eps ≤ (ext.getD j 0).1
  rest : ∀ j, (ext.getD j 0).2 = 0
  step : ∀ j < n + 1, ds.getD j 0 = (ext.getD j 0).1 - (ext.getD (j + 1) 0).1
  left : if per then (ext.getD 0 0).1 = (ext.getD n 0).1 else (ext.getD 0 0).1 = (ext.getD 1 0).1
  right : if per then (ext.getD 1 0).1 = (ext.getD (n + 1) 0).1
    else (ext.getD n 0).1 = (ext.getD (n + 1) 0).1

theorem closed_extend (conditions : List String) (hc : Closed conditions)
    (il ir : Option (K → State K)) (bc : BC K (State K))
    (hbc : build (some reflect) conditions 1 il ir = .ok bc) (v : List (State K)) (n : ℕ) (hn : 0 < n)
    (hv : v.length = n) (hrest : ∀ x ∈ v, x.2 = 0) (t : Option K) :
    bc.periodic = false ∧
    bc.extend v t = .ok (v.getD 0 0 :: v ++ [v.getD (n - 1) 0]) := by
  obtain ⟨cl, rest, rfl, hl, hr⟩ := hc
  have h0 : Py.get v 0 = .ok (v[0]) := by simpa using get_nat v (i := 0) (by omega)
  have h1 : Py.get v (-1) = .ok (v[v.length - 1]) := by
    have := get_neg v (i := 0) (by omega)
    simpa using this
  have r0 : reflect v[0] = v[0] := by
    have := hrest v[0] (List.getElem_mem _)
    ext
    · rfl
    · simp [reflect, this]
  have r1 : reflect v[v.length - 1] = v[v.length - 1] := by
    have := hrest v[v.length - 1] (List.getElem_mem _)
    ext
    · rfl
    · simp [reflect, this]
  have hg0 : v.getD 0 0 = v[0] := List.getD_eq_getElem _ _ _
  have hg1 : v.getD (n - 1) 0 = v[v.length - 1] := by
    subst hv; exact List.getD_eq_getElem _ _ _
  have hL : ∃ c, buildLeft (K := K) (some reflect) cl 0 il = .ok c ∧ c.eval v t = .ok v[0] := by
    rcases hl with rfl | rfl
    · exact ⟨.copy 0, by simp [buildLeft], by simp [Ghost.eval, h0]⟩
    · exact ⟨.reflect 0 reflect, by simp [buildLeft], by simp [Ghost.eval, h0, r0]⟩
  have hR : ∃ c, buildRight (K := K) (some reflect) (rest.headD cl) 0 ir = .ok c ∧
      c.eval v t = .ok v[v.length - 1] := by
    rcases hr with e | e <;> rw [e]
    · exact ⟨.copy (-1), by simp [buildRight], by simp [Ghost.eval, h1]⟩
    · exact ⟨.reflect (-1) reflect, by simp [buildRight], by simp [Ghost.eval, h1, r1]⟩
  obtain ⟨gl, hgl, el⟩ := hL
  obtain ⟨gr, hgr, er⟩ := hR
  have hne : (cl :: rest) ≠ ["periodic"] := by
    intro h
    cases h
    simp at hl
  unfold build at hbc
  simp only [List.range_one, List.mapM_cons, List.mapM_nil, Nat.sub_self, Nat.sub_zero, hgl, hgr,
    pure, Except.pure, bind, Except.bind, hne, decide_false] at hbc
  rw [make_append [gl] [gr] rfl] at hbc
  cases hbc
  refine ⟨rfl, ?_⟩
  simp only [BC.extend, List.mapM_cons, List.mapM_nil, el, er, pure, Except.pure, bind, Except.bind,
    hg0, hg1]
  rfl

theorem lake_length (c : K) (b : List K) : (lake c b).length = b.length := by simp [lake]

theorem lake_getD (c : K) (b : List K) (i : ℕ) (hi : i < b.length) :
    (lake c b).getD i 0 = (c - b.getD i 0, 0) := by
  unfold lake
  rw [List.getD_eq_getElem _ _ (by simpa using hi), List.getD_eq_getElem _ _ hi]
  simp

theorem lake_rest (c : K) (b : List K) : ∀ x ∈ lake c b, x.2 = 0 := by
  intro x hx
  obtain ⟨y, _, rfl⟩ := List.mem_map.mp hx
  rfl

theorem getD_mem_of_lt {α : Type*} (l : List α) (d : α) (i : ℕ) (hi : i < l.length) : l.getD i d ∈ l := by
  rw [List.getD_eq_getElem _ _ hi]
  exact List.getElem_mem _

/-- The extended lake: heights `c` minus padded bathymetry. -/
theorem lake_pad (c : K) (b : List K) (n : ℕ) (hn : 0 < n) (hb : b.length = n) (j : ℕ)
    (hj : j < n + 2) :
    ((lake c b).getD 0 0 :: lake c b ++ [(lake c b).getD (n - 1) 0]).getD j 0 =
      (c - (pad b).getD j 0, 0) := by
  have hne : b ≠ [] := by rintro rfl; simp at hb; omega
  have hlen := lake_length c b
  rcases j with _ | j
  · simp only [List.cons_append, List.getD_cons_zero]
    rw [lake_getD c b 0 (by omega), pad_zero b hne]
  · simp only [List.cons_append, List.getD_cons_succ]
    by_cases h : j < n
    · rw [List.getD_append _ _ _ _ (by omega), lake_getD c b j (by omega), pad_succ b j (by omega)]
    · have : j = n := by omega
      subst this
      have e := pad_last b hne
      rw [hb] at e
      rw [List.getD_append_right _ _ _ _ (by omega), hlen, hb, Nat.sub_self, e]
      simp only [List.getD_cons_zero]
      rw [lake_getD c b (j - 1) (by omega)]

theorem lake_steps (P : Params K) (c : K) (b : List K) (ha : Admissible P c b) (B : Bathymetry K)
    (hB : buildBathymetry P (some b) = .ok B) (n : ℕ) (hn : 0 < n) (hb : b.length = n) :
    ∃ ds, B.steps (n + 1) = .ok ds ∧
      ∀ j < n + 1, ds.getD j 0 = (pad b).getD (j + 1) 0 - (pad b).getD j 0 := by
  have hne : b ≠ [] := by rintro rfl; simp at hb; omega
  obtain ⟨ds, hds, hl, _, _, h | h⟩ := steps_of_build P (some b) n hn
    (fun l hl => by cases hl; exact hb) B hB
  · refine ⟨ds, hds, ?_⟩
    have hcon : isConstant P b = .ok true := by
      simp only [buildBathymetry] at hB
      cases hc : isConstant P b with
      | error e => rw [hc] at hB; cases hB
      | ok t =>
        cases t with
        | true => rfl
        | false =>
          rw [hc] at hB
          cases hB
          cases h.1
    have hall := ha.2 hcon
    have hmem : ∀ j < n + 2, (pad b).getD j 0 ∈ b := by
      intro j hj
      rcases j with _ | j
      · rw [pad_zero b hne]; exact getD_mem_of_lt _ _ _ (by omega)
      · by_cases h' : j < n
        · rw [pad_succ b j (by omega)]; exact getD_mem_of_lt _ _ _ (by omega)
        · have : j = n := by omega
          subst this
          have e := pad_last b hne
          rw [hb] at e
          rw [e]; exact getD_mem_of_lt _ _ _ (by omega)
    intro j hj
    rw [hall _ (hmem (j + 1) (by omega)) _ (hmem j (by omega)), sub_self, h.2,
      List.getD_eq_getElem _ _ (by simpa using hj)]
    simp
  · obtain ⟨l, hl', _, _, hd⟩ := h
    cases hl'
    exact ⟨ds, hds, hd⟩

theorem lakeExt_closed (P : Params K) (c : K) (b : List K) (ha : Admissible P c b)
    (B : Bathymetry K) (hB : buildBathymetry P (some b) = .ok B) (n : ℕ) (hn : 0 < n)
    (hb : b.length = n) :
    ∃ ds, B.steps (n + 1) = .ok ds ∧ LakeExt P false n
      ((lake c b).getD 0 0 :: lake c b ++ [(lake c b).getD (n - 1) 0]) ds := by
  have hne : b ≠ [] := by rintro rfl; simp at hb; omega
  obtain ⟨ds, hds, hd⟩ := lake_steps P c b ha B hB n hn hb
  have hp := lake_pad c b n hn hb
  refine ⟨ds, hds, ?_⟩
  have hmem : ∀ j < n + 2, (pad b).getD j 0 ∈ b := by
    intro j hj
    rcases j with _ | j
    · rw [pad_zero b hne]; exact getD_mem_of_lt _ _ _ (by omega)
    · by_cases h' : j < n
      · rw [pad_succ b j (by omega)]; exact getD_mem_of_lt _ _ _ (by omega)
      · have : j = n := by omega
        subst this
        have e := pad_last b hne
        rw [hb] at e
        rw [e]; exact getD_mem_of_lt _ _ _ (by omega)
  constructor
  · simp [lake_length, hb]
  · intro j hj
    rw [hp j hj]
    exact ha.1 _ (hmem j hj)
  · intro j
    by_cases hj : j < n + 2
    · rw [hp j hj]
    · rw [List.getD_eq_default _ _ (by simp [lake_length, hb]; omega)]; rfl
  · intro j hj
    rw [hp j (by omega), hp (j + 1) (by omega), hd j hj]
    ring
  · simp only [Bool.false_eq_true, if_false]
    rw [hp 0 (by omega), hp 1 (by omega), pad_zero b hne, pad_succ b 0 (by omega)]
  · simp only [Bool.false_eq_true, if_false]
    obtain ⟨m, rfl⟩ : ∃ m, n = m + 1 := ⟨n - 1, by omega⟩
    have e := pad_last b hne
    rw [hb, Nat.add_sub_cancel] at e
    rw [hp (m + 1) (by omega), hp (m + 1 + 1) (by omega), e, pad_succ b m (by omega)]

/-- A rhs that vanishes: run of any method. -/
theorem lake_run (n : ℕ) (b : List K) (hb : b.length = n) (c : K) (F : NumFlux (State K)) (dx : K)
    (bc : BC K (State K))
    (h : ∀ t, rhs F dx bc t (lake c b) = .ok (List.replicate n 0)) (T : Tableau K) (t0 : K)
    (steps : List K) :
    let u : Fin n → State K := fun i => (c - b.getD i 0, 0)
    ∃ s', (Solver.init u t0).runE T (vecRhs n (rhs F dx bc)) steps = .ok s' ∧ s'.solution = u ∧
      s'.time = t0 + steps.sum := by
  intro u
  have hu : List.ofFn u = lake c b := by
    apply List.ext_getElem
    · simp [lake, hb]
    · intro i h1 h2
      simp only [List.length_ofFn] at h1
      rw [List.getElem_ofFn, ← List.getD_eq_getElem (lake c b) 0, lake_getD c b i (by omega)]
  refine runE_equilibrium T _ u ?_ (Solver.init u t0) rfl steps
  intro t
  unfold vecRhs
  rw [hu, h t]
  simp only [List.length_replicate, dif_pos]
  congr 1
  funext i
  simp

theorem replicate_eq_range {α : Type*} (n : ℕ) (a : α) :
    List.replicate n a = (List.range n).map (fun _ => a) := by
  simp

theorem rhs_zero (F : NumFlux (State K)) (hdim : F.dim / 2 = 1) (dx : K) (hdx : dx ≠ 0)
    (bc : BC K (State K)) (t : K) (v ext : List (State K)) (hext : bc.extend v (some t) = .ok ext)
    (n : ℕ) (hlen : ext.length = n + 2) (gl gr : ℕ → State K)
    (hcall : F.call [ext.dropLast, ext.tail] =
      .ok ((List.range (n + 1)).map gl, (List.range (n + 1)).map gr))
    (hz : ∀ i < n, gr i + gl (i + 1) = 0) :
    rhs F dx bc t v = .ok (List.replicate n 0) := by
  rw [rhs_of_call F hdim dx hdx bc t v ext hext n hlen gl gr hcall, replicate_eq_range]
  congr 1
  apply List.map_congr_left
  intro i hi
  rw [hz i (List.mem_range.mp hi), smul_zero]

/-! ### Node values of a lake -/

theorem fluxOf_rest (P : Params K) (u : State K) (hw : P.eps ≤ u.1) (hr : u.2 = 0) :
    fluxOf P u = (0, P.g * u.1 ^ 2 / 2) := by
  simp [fluxOf, massFlux, momentumFlux, if_neg (not_lt.mpr hw), hr]

theorem lake_nonneg (P : Params K) (per : Bool) (n : ℕ) (ext : List (State K)) (ds : List K)
    (h : LakeExt P per n ext ds) : ∀ x ∈ ext, 0 ≤ x.1 := by
  intro x hx
  obtain ⟨j, hj, rfl⟩ := List.getElem_of_mem hx
  have := h.wet j (by have := h.len; omega)
  rw [List.getD_eq_getElem _ _ hj] at this
  exact P.eps_pos.le.trans this

/-- Node values of the low-order scheme in a lake at rest: the bar states are the states. -/
theorem low_lake (P : Params K) (hP : P.Good) (a b : State K) (ha : P.eps ≤ a.1) (hb : P.eps ≤ b.1)
    (ra : a.2 = 0) (rb : b.2 = 0) :
    let N := low P a b (a.1 - b.1)
    0 < N.w ∧ N.heightHLL = (a.1 + b.1) / 2 ∧ N.heightLeft = a.1 ∧ N.heightRight = b.1 ∧
      N.dischargeLeft = 0 ∧ N.dischargeRight = 0 ∧ N.fluxLeft = (0, -(P.g * a.1 ^ 2 / 2)) ∧
      N.fluxRight = (0, P.g * b.1 ^ 2 / 2) := by
  intro N
  have pa : 0 < a.1 := lt_of_lt_of_le P.eps_pos ha
  have pb : 0 < b.1 := lt_of_lt_of_le P.eps_pos hb
  have hw : 0 < maxSpeed P a b := maxSpeed_pos P hP a b (Or.inl pa)
  have hbar : barState P a b =
      ((a.1 + b.1) / 2, -(P.g * (b.1 ^ 2 - a.1 ^ 2) / (4 * maxSpeed P a b))) := by
    have hw' := hw.ne'
    simp only [barState, fluxOf_rest P a ha ra, fluxOf_rest P b hb rb]
    ext
    · simp only [Prod.fst_sub, Prod.smul_fst, Prod.fst_add, smul_eq_mul]
      ring
    · simp only [Prod.snd_sub, Prod.smul_snd, Prod.snd_add, smul_eq_mul, ra, rb]
      field_simp
      ring
  have hfix : positivityFix ((a.1 + b.1) / 2) (a.1 - b.1) = (a.1 - b.1) / 2 := by
    apply (positivityFix_spec ((a.1 + b.1) / 2) (a.1 - b.1) (by linarith)).2.2
    have : |a.1 - b.1| ≤ a.1 + b.1 := by rw [abs_le]; constructor <;> linarith
    linarith
  have va : velocity P a = 0 := by simp [velocity, ra]
  have vb : velocity P b = 0 := by simp [velocity, rb]
  have hsrc : -(P.g * (b.1 ^ 2 - a.1 ^ 2) / (4 * maxSpeed P a b)) +
      -(P.g * ((a.1 + b.1) / 2) * ((a.1 - b.1) / 2) / maxSpeed P a b) = 0 := by
    have hw' := hw.ne'
    field_simp
    ring
  have e1 : N.heightLeft = a.1 := by simp only [N, low, hbar, hfix]; ring
  have e2 : N.heightRight = b.1 := by simp only [N, low, hbar, hfix]; ring
  have e3 : N.dischargeLeft = 0 := by
    simp only [N, low, hbar, hfix, va, vb, average]
    linear_combination hsrc
  have e4 : N.dischargeRight = 0 := by
    simp only [N, low, hbar, hfix, va, vb, average]
    linear_combination hsrc
  refine ⟨hw, by simp only [N, low, hbar], e1, e2, e3, e4, ?_, ?_⟩
  · have : N.fluxLeft = N.w • ((N.heightLeft, N.dischargeLeft) + -a) + -fluxOf P a := rfl
    rw [this, e1, e3, fluxOf_rest P a ha ra]
    ext <;> simp [ra]
  · have : N.fluxRight = N.w • ((N.heightRight, N.dischargeRight) + -b) + fluxOf P b := rfl
    rw [this, e2, e4, fluxOf_rest P b hb rb]
    ext <;> simp [rb]

theorem lowOrder_lake (P : Params K) (hP : P.Good) (B : Bathymetry K) (per : Bool) (n : ℕ)
    (ext : List (State K)) (ds : List K) (hds : B.steps (n + 1) = .ok ds)
    (h : LakeExt P per n ext ds) :
    (lowOrder P B).call [ext.dropLast, ext.tail] =
      .ok ((List.range (n + 1)).map (fun j => (0, -(P.g * (ext.getD j 0).1 ^ 2 / 2))),
        (List.range (n + 1)).map (fun j => (0, P.g * (ext.getD (j + 1) 0).1 ^ 2 / 2))) := by
  have hall := lake_nonneg P per n ext ds h
  have key : ∀ j < n + 1, lowNode P (ext.getD j 0) (ext.getD (j + 1) 0) (ds.getD j 0) =
      .ok (low P (ext.getD j 0) (ext.getD (j + 1) 0)
        ((ext.getD j 0).1 - (ext.getD (j + 1) 0).1)) := by
    intro j hj
    rw [h.step j hj]
    exact lowNode_ok P _ _ _ (getD_nonneg ext hall j) (getD_nonneg ext hall (j + 1))
      (low_lake P hP _ _ (h.wet j (by omega)) (h.wet (j + 1) (by omega)) (h.rest j)
        (h.rest (j + 1))).1
  simp only [lowOrder, nodesE_ok B (lowNode P) n ext h.len ds hds _ key, List.map_map]
  congr 2
  · apply List.map_congr_left
    intro j hj
    have hj' := List.mem_range.mp hj
    exact (low_lake P hP _ _ (h.wet j (by omega)) (h.wet (j + 1) (by omega)) (h.rest j)
        (h.rest (j + 1))).2.2.2.2.2.2.1
  · apply List.map_congr_left
    intro j hj
    have hj' := List.mem_range.mp hj
    exact (low_lake P hP _ _ (h.wet j (by omega)) (h.wet (j + 1) (by omega)) (h.rest j)
        (h.rest (j + 1))).2.2.2.2.2.2.2

/-- In a lake at rest the limited fluxes of MCL are zero, whatever the target. -/
theorem mcl_lake (P : Params K) (hP : P.Good) (B : Bathymetry K) (bc : BC K (State K))
    (hbc : bc.left.length = 1) (F : NumFlux (State K)) (n : ℕ) (hn : 0 < n)
    (ext : List (State K)) (ds : List K) (hds : B.steps (n + 1) = .ok ds)
    (h : LakeExt P bc.periodic n ext ds) (values : List (List (State K)))
    (hval : requiredValues 2 values = .ok [ext.dropLast, ext.tail]) (tl tr : List (State K))
    (hF : F.call values = .ok (tl, tr)) (htr : tr.length = n + 1) :
    (mcl P B bc F).call values =
      .ok ((List.range (n + 1)).map (fun j => (0, -(P.g * (ext.getD j 0).1 ^ 2 / 2))),
        (List.range (n + 1)).map (fun j => (0, P.g * (ext.getD (j + 1) 0).1 ^ 2 / 2))) := by
  have hall := lake_nonneg P bc.periodic n ext ds h
  set N := fun j => low P (ext.getD j 0) (ext.getD (j + 1) 0)
    ((ext.getD j 0).1 - (ext.getD (j + 1) 0).1) with hN
  have spec := fun j (hj : j < n + 1) => low_lake P hP _ _ (h.wet j (by omega))
    (h.wet (j + 1) (by omega)) (h.rest j) (h.rest (j + 1))
  have key : ∀ j < n + 1, lowNode P (ext.getD j 0) (ext.getD (j + 1) 0) (ds.getD j 0) =
      .ok (N j) := by
    intro j hj
    rw [h.step j hj]
    exact lowNode_ok P _ _ _ (getD_nonneg ext hall j) (getD_nonneg ext hall (j + 1)) (spec j hj).1
  have pos : ∀ j < n + 2, 0 < (ext.getD j 0).1 := fun j hj => lt_of_lt_of_le P.eps_pos (h.wet j hj)
  have hHLL : ∀ j < n + 1, 0 < (N j).heightHLL := by
    intro j hj
    have h1 := pos j (by omega)
    have h2 := pos (j + 1) (by omega)
    have e : (N j).heightHLL = _ := (spec j hj).2.1
    rw [e]; linarith
  have hsum : ∀ j < n + 1, (N j).heightLeft + (N j).heightRight ≠ 0 := by
    intro j hj
    have e := low_sum P (ext.getD j 0) (ext.getD (j + 1) 0)
      ((ext.getD j 0).1 - (ext.getD (j + 1) 0).1)
    have h1 := hHLL j hj
    intro h0
    have e' : (N j).heightLeft + (N j).heightRight = 2 * (N j).heightHLL := e
    rw [h0] at e'
    linarith
  have htr' : tr = (List.range (n + 1)).map (fun j => tr.getD j 0) := by
    apply List.ext_getElem
    · simp [htr]
    · intro i h1 h2
      rw [List.getElem_map, List.getElem_range, List.getD_eq_getElem _ _ h1]
  rw [htr'] at hF
  rw [mcl_call P B bc hbc F n hn ext h.len values hval ds hds N key (fun j hj => (hHLL j hj).ne')
    hsum tl _ hF]
  -- bounds
  have hl : ∀ j < n + 1, (N j).heightLeft = (ext.getD j 0).1 := fun j hj => (spec j hj).2.2.1
  have hr : ∀ j < n + 1, (N j).heightRight = (ext.getD (j + 1) 0).1 :=
    fun j hj => (spec j hj).2.2.2.1
  have ql : ∀ j < n + 1, (N j).dischargeLeft = 0 := fun j hj => (spec j hj).2.2.2.2.1
  have qr : ∀ j < n + 1, (N j).dischargeRight = 0 := fun j hj => (spec j hj).2.2.2.2.2.1
  have vb : ∀ j < n + 1, vbarOf (N j) = 0 := by
    intro j hj
    simp only [vbarOf, ql j hj, qr j hj, add_zero, zero_div]
  have L : ∀ i < n + 2, leftOf bc.periodic n (fun j => (N j).heightRight) i = (ext.getD i 0).1 := by
    intro i hi
    have hL := h.left
    by_cases h0 : i = 0
    · subst h0
      cases hp : bc.periodic with
      | true =>
        rw [hp] at hL
        simp only [leftOf, if_true] at hL ⊢
        rw [hr (n - 1) (by omega), show n - 1 + 1 = n by omega, hL]
      | false =>
        rw [hp] at hL
        simp only [leftOf, if_true, Bool.false_eq_true, if_false] at hL ⊢
        rw [hr 0 (by omega), hL]
    · simp only [leftOf, if_neg h0]
      rw [hr (i - 1) (by omega), show i - 1 + 1 = i by omega]
  have R : ∀ i < n + 2, rightOf bc.periodic n (fun j => (N j).heightLeft) i = (ext.getD i 0).1 := by
    intro i hi
    have hR := h.right
    by_cases h0 : i = n + 1
    · subst h0
      cases hp : bc.periodic with
      | true =>
        rw [hp] at hR
        simp only [rightOf, if_true] at hR ⊢
        rw [hl 1 (by omega), hR]
      | false =>
        rw [hp] at hR
        simp only [rightOf, if_true, Bool.false_eq_true, if_false] at hR ⊢
        rw [hl n (by omega), hR]
    · simp only [rightOf, if_neg h0]
      rw [hl i (by omega)]
  have zl : ∀ f : ℕ → K, (∀ j < n + 1, f j = 0) → ∀ i < n + 2, leftOf bc.periodic n f i = 0 := by
    intro f hf i hi
    unfold leftOf
    split
    · split
      · exact hf _ (by omega)
      · exact hf _ (by omega)
    · exact hf _ (by omega)
  have zr : ∀ f : ℕ → K, (∀ j < n + 1, f j = 0) → ∀ i < n + 2, rightOf bc.periodic n f i = 0 := by
    intro f hf i hi
    unfold rightOf
    split
    · split
      · exact hf _ (by omega)
      · exact hf _ (by omega)
    · exact hf _ (by omega)
  have lim0 : ∀ j < n + 1, limOf bc.periodic n N (fun j => tr.getD j 0) j = 0 := by
    intro j hj
    have hMx : ∀ i < n + 2, hMax bc.periodic n N i = (ext.getD i 0).1 := by
      intro i hi; simp only [hMax, L i hi, R i hi, max_self]
    have hMn : ∀ i < n + 2, hMin bc.periodic n N i = (ext.getD i 0).1 := by
      intro i hi; simp only [hMin, L i hi, R i hi, min_self]
    have vMx : ∀ i < n + 2, vMax bc.periodic n N i = 0 := by
      intro i hi
      simp only [vMax, zl _ vb i hi, zr _ vb i hi, zl _ qr i hi, zr _ ql i hi, zero_div, max_self]
    have vMn : ∀ i < n + 2, vMin bc.periodic n N i = 0 := by
      intro i hi
      simp only [vMin, zl _ vb i hi, zr _ vb i hi, zl _ qr i hi, zr _ ql i hi, zero_div, min_self]
    simp only [limOf, limitedNode, Scalar.limitNode, hMx j (by omega), hMx (j + 1) (by omega),
      hMn j (by omega), hMn (j + 1) (by omega), vMx j (by omega), vMx (j + 1) (by omega),
      vMn j (by omega), vMn (j + 1) (by omega), vb j hj, hl j hj, hr j hj, qr j hj, sub_self,
      min_self, max_self, mul_zero, add_zero]
    have m0 : ∀ x : K, max 0 (min 0 x) = 0 := fun x => by
      rw [max_eq_left]; exact min_le_left _ _
    simp [m0]
  congr 2
  · apply List.map_congr_left
    intro j hj
    have hj' := List.mem_range.mp hj
    rw [lim0 j hj']
    simp only [neg_zero, add_zero]
    exact (spec j hj').2.2.2.2.2.2.1
  · apply List.map_congr_left
    intro j hj
    have hj' := List.mem_range.mp hj
    rw [lim0 j hj']
    simp only [add_zero]
    exact (spec j hj').2.2.2.2.2.2.2

/-! ### C43 -/

/-- C43, low-order.  Over every bathymetry, with outflow or walls at each end, the right-hand side of
the low-order solver is zero in a lake at rest, and every run of every explicit Runge-Kutta method
keeps the lake. -/
theorem C43_low_order (P : Params K) (hP : P.Good) (c : K) (b : List K) (hb : b ≠ [])
    (ha : Admissible P c b) (B : Bathymetry K) (hB : buildBathymetry P (some b) = .ok B)
    (conditions : List String) (hc : Closed conditions) (il ir : Option (K → State K))
    (bc : BC K (State K)) (hbc : build (some reflect) conditions 1 il ir = .ok bc) (dx : K)
    (hdx : dx ≠ 0) :
    (∀ t, rhs (lowOrder P B) dx bc t (lake c b) = .ok (List.replicate b.length 0)) ∧
    ∀ (T : Tableau K) (t0 : K) (steps : List K),
      let u : Fin b.length → State K := fun i => (c - b.getD i 0, 0)
      ∃ s', (Solver.init u t0).runE T (vecRhs b.length (rhs (lowOrder P B) dx bc)) steps = .ok s' ∧
        s'.solution = u ∧ s'.time = t0 + steps.sum := by
  have hn := List.length_pos_iff.mpr hb
  have hz : ∀ t, rhs (lowOrder P B) dx bc t (lake c b) = .ok (List.replicate b.length 0) := by
    intro t
    obtain ⟨ds, hds, h⟩ := lakeExt_closed P c b ha B hB _ hn rfl
    obtain ⟨_, hext⟩ := closed_extend conditions hc il ir bc hbc (lake c b) _ hn (lake_length c b)
      (lake_rest c b) (some t)
    refine rhs_zero (lowOrder P B) (by simp [lowOrder]) dx hdx bc t _ _ hext _ h.len _ _
      (lowOrder_lake P hP B false _ _ ds hds h) ?_
    intro i _
    ext <;> simp
  exact ⟨hz, fun T t0 steps => lake_run _ b rfl c _ dx bc hz T t0 steps⟩

/-- C43, MCL.  The same for MCL with any target of two point type that returns as many fluxes as
there are nodes. -/
theorem C43_mcl (P : Params K) (hP : P.Good) (c : K) (b : List K) (hb : b ≠ [])
    (ha : Admissible P c b) (B : Bathymetry K) (hB : buildBathymetry P (some b) = .ok B)
    (conditions : List String) (hc : Closed conditions) (il ir : Option (K → State K))
    (bc : BC K (State K)) (hbc : build (some reflect) conditions 1 il ir = .ok bc) (dx : K)
    (hdx : dx ≠ 0) (F : NumFlux (State K)) (hdim : F.dim / 2 = 1)
    (hF : ∀ ext : List (State K), ext.length = b.length + 2 → (∀ x ∈ ext, P.eps ≤ x.1) →
      ∃ tl tr, F.call [ext.dropLast, ext.tail] = .ok (tl, tr) ∧ tr.length = b.length + 1) :
    (∀ t, rhs (mcl P B bc F) dx bc t (lake c b) = .ok (List.replicate b.length 0)) ∧
    ∀ (T : Tableau K) (t0 : K) (steps : List K),
      let u : Fin b.length → State K := fun i => (c - b.getD i 0, 0)
      ∃ s', (Solver.init u t0).runE T (vecRhs b.length (rhs (mcl P B bc F) dx bc)) steps = .ok s' ∧
        s'.solution = u ∧ s'.time = t0 + steps.sum := by
  have hn := List.length_pos_iff.mpr hb
  have hz : ∀ t, rhs (mcl P B bc F) dx bc t (lake c b) = .ok (List.replicate b.length 0) := by
    intro t
    obtain ⟨ds, hds, h⟩ := lakeExt_closed P c b ha B hB _ hn rfl
    obtain ⟨hper, hext⟩ := closed_extend conditions hc il ir bc hbc (lake c b) _ hn
      (lake_length c b) (lake_rest c b) (some t)
    rw [← hper] at h
    obtain ⟨tl, tr, hcall, htr⟩ := hF _ h.len (by
      intro x hx
      obtain ⟨j, hj, rfl⟩ := List.getElem_of_mem hx
      have := h.wet j (by have := h.len; omega)
      rwa [List.getD_eq_getElem _ _ hj] at this)
    refine rhs_zero (mcl P B bc F) hdim dx hdx bc t _ _ hext _ h.len _ _
      (mcl_lake P hP B bc (build_radius _ _ _ bc hbc) F _ hn _ ds hds h _ (requiredValues_two _ _)
        tl tr hcall htr) ?_
    intro i _
    ext <;> simp
  exact ⟨hz, fun T t0 steps => lake_run _ b rfl c _ dx bc hz T t0 steps⟩

/-- The central flux is such a target. -/
theorem C43_central_target (P : Params K) (B : Bathymetry K) (n : ℕ) (ds : List K)
    (hds : B.steps (n + 1) = .ok ds) (ext : List (State K)) (hlen : ext.length = n + 2)
    (hwet : ∀ x ∈ ext, P.eps ≤ x.1) :
    (centralFlux P B).dim / 2 = 1 ∧
    ∃ tl tr, (centralFlux P B).call [ext.dropLast, ext.tail] = .ok (tl, tr) ∧ tr.length = n + 1 :=
  ⟨by simp [centralFlux, withSource, central],
    _, _, central_call P B n ext hlen (fun x hx => P.eps_pos.le.trans (hwet x hx)) ds hds, by simp⟩

/-- Non-vacuity: an uneven bottom, a wall on the left and outflow on the right. -/
example : ∃ (B : Bathymetry ℚ) (bc : BC ℚ (State ℚ)),
    buildBathymetry exampleParams (some [0, 1 / 2, 1]) = .ok B ∧
    Admissible exampleParams 2 [0, 1 / 2, 1] ∧ Closed ["wall", "outflow"] ∧
    build (K := ℚ) (some reflect) ["wall", "outflow"] 1 none none = .ok bc ∧
    B.values = some [0, 0, 1 / 2, 1, 1] := by
  refine ⟨⟨some [0, 0, 1 / 2, 1, 1]⟩, ⟨[.reflect 0 reflect], [.copy (-1)], false⟩, by decide +kernel,
    ⟨?_, ?_⟩, ⟨_, _, rfl, Or.inr rfl, Or.inl rfl⟩, rfl, rfl⟩
  · decide +kernel
  · intro h
    exact absurd h (by decide +kernel)

/-! ### Periodic lakes -/

theorem lakeExt_periodic (P : Params K) (c : K) (b : List K) (ha : Admissible P c b)
    (B : Bathymetry K) (hB : buildBathymetry P (some b) = .ok B) (n : ℕ) (hn : 0 < n)
    (hb : b.length = n) (he : b.getD 0 0 = b.getD (n - 1) 0) :
    ∃ ds, B.steps (n + 1) = .ok ds ∧ LakeExt P true n
      ((lake c b).getD (n - 1) 0 :: lake c b ++ [(lake c b).getD 0 0]) ds := by
  obtain ⟨ds, hds, h⟩ := lakeExt_closed P c b ha B hB n hn hb
  have e : (lake c b).getD 0 0 = (lake c b).getD (n - 1) 0 := by
    rw [lake_getD c b 0 (by omega), lake_getD c b (n - 1) (by omega), he]
  refine ⟨ds, hds, ?_⟩
  have hL := h.left
  have hR := h.right
  simp only [Bool.false_eq_true, if_false] at hL hR
  have h0 : (((lake c b).getD 0 0 :: lake c b ++ [(lake c b).getD (n - 1) 0]).getD 0 0).1 =
      (((lake c b).getD 0 0 :: lake c b ++ [(lake c b).getD (n - 1) 0]).getD (n + 1) 0).1 := by
    have a := lake_pad c b n hn hb 0 (by omega)
    have a' := lake_pad c b n hn hb (n + 1) (by omega)
    have hne : b ≠ [] := by rintro rfl; simp at hb; omega
    have p := pad_last b hne
    rw [hb] at p
    rw [a, a', pad_zero b hne, p, he]
  have hh : (lake c b).getD (n - 1) 0 :: lake c b ++ [(lake c b).getD 0 0] =
      (lake c b).getD 0 0 :: lake c b ++ [(lake c b).getD (n - 1) 0] := by rw [e]
  rw [hh]
  refine ⟨h.len, h.wet, h.rest, h.step, ?_, ?_⟩
  · simp only [if_true]; rw [h0, hR]
  · simp only [if_true]; rw [← h0, hL]

theorem periodic_extend (il ir : Option (K → State K)) (bc : BC K (State K))
    (hbc : build (some reflect) ["periodic"] 1 il ir = .ok bc) (v : List (State K)) (n : ℕ)
    (hn : 0 < n) (hv : v.length = n) (t : Option K) :
    bc.periodic = true ∧ bc.extend v t = .ok (v.getD (n - 1) 0 :: v ++ [v.getD 0 0]) := by
  rw [build_periodic] at hbc
  cases hbc
  refine ⟨rfl, ?_⟩
  subst hv
  have h0 : Py.get v 0 = .ok (v[0]) := by simpa using get_nat v (i := 0) (by omega)
  have h1 : Py.get v (-1) = .ok (v[v.length - 1]) := by
    have := get_neg v (i := 0) (by omega)
    simpa using this
  have hg0 : v.getD 0 0 = v[0] := List.getD_eq_getElem _ _ _
  have hg1 : v.getD (v.length - 1) 0 = v[v.length - 1] := List.getD_eq_getElem _ _ _
  rw [hg0, hg1]
  simp [BC.extend, Ghost.eval, h0, h1, pure, Except.pure, bind, Except.bind]

/-- C43, periodic boundaries: the low-order solver keeps a lake at rest if the bathymetry has the
same value in the first and the last cell. -/
theorem C43_low_order_periodic (P : Params K) (hP : P.Good) (c : K) (b : List K) (hb : b ≠ [])
    (ha : Admissible P c b) (he : b.getD 0 0 = b.getD (b.length - 1) 0) (B : Bathymetry K)
    (hB : buildBathymetry P (some b) = .ok B) (il ir : Option (K → State K))
    (bc : BC K (State K)) (hbc : build (some reflect) ["periodic"] 1 il ir = .ok bc) (dx : K)
    (hdx : dx ≠ 0) :
    (∀ t, rhs (lowOrder P B) dx bc t (lake c b) = .ok (List.replicate b.length 0)) ∧
    ∀ (T : Tableau K) (t0 : K) (steps : List K),
      let u : Fin b.length → State K := fun i => (c - b.getD i 0, 0)
      ∃ s', (Solver.init u t0).runE T (vecRhs b.length (rhs (lowOrder P B) dx bc)) steps = .ok s' ∧
        s'.solution = u ∧ s'.time = t0 + steps.sum := by
  have hn := List.length_pos_iff.mpr hb
  have hz : ∀ t, rhs (lowOrder P B) dx bc t (lake c b) = .ok (List.replicate b.length 0) := by
    intro t
    obtain ⟨ds, hds, h⟩ := lakeExt_periodic P c b ha B hB _ hn rfl he
    obtain ⟨_, hext⟩ := periodic_extend il ir bc hbc (lake c b) _ hn (lake_length c b) (some t)
    refine rhs_zero (lowOrder P B) (by simp [lowOrder]) dx hdx bc t _ _ hext _ h.len _ _
      (lowOrder_lake P hP B true _ _ ds hds h) ?_
    intro i _
    ext <;> simp
  exact ⟨hz, fun T t0 steps => lake_run _ b rfl c _ dx bc hz T t0 steps⟩

/-- C43, periodic boundaries, MCL with any target. -/
theorem C43_mcl_periodic (P : Params K) (hP : P.Good) (c : K) (b : List K) (hb : b ≠ [])
    (ha : Admissible P c b) (he : b.getD 0 0 = b.getD (b.length - 1) 0) (B : Bathymetry K)
    (hB : buildBathymetry P (some b) = .ok B) (il ir : Option (K → State K))
    (bc : BC K (State K)) (hbc : build (some reflect) ["periodic"] 1 il ir = .ok bc) (dx : K)
    (hdx : dx ≠ 0) (F : NumFlux (State K)) (hdim : F.dim / 2 = 1)
    (hF : ∀ ext : List (State K), ext.length = b.length + 2 → (∀ x ∈ ext, P.eps ≤ x.1) →
      ∃ tl tr, F.call [ext.dropLast, ext.tail] = .ok (tl, tr) ∧ tr.length = b.length + 1) :
    (∀ t, rhs (mcl P B bc F) dx bc t (lake c b) = .ok (List.replicate b.length 0)) ∧
    ∀ (T : Tableau K) (t0 : K) (steps : List K),
      let u : Fin b.length → State K := fun i => (c - b.getD i 0, 0)
      ∃ s', (Solver.init u t0).runE T (vecRhs b.length (rhs (mcl P B bc F) dx bc)) steps = .ok s' ∧
        s'.solution = u ∧ s'.time = t0 + steps.sum := by
  have hn := List.length_pos_iff.mpr hb
  have hz : ∀ t, rhs (mcl P B bc F) dx bc t (lake c b) = .ok (List.replicate b.length 0) := by
    intro t
    obtain ⟨ds, hds, h⟩ := lakeExt_periodic P c b ha B hB _ hn rfl he
    obtain ⟨hper, hext⟩ := periodic_extend il ir bc hbc (lake c b) _ hn (lake_length c b) (some t)
    rw [← hper] at h
    obtain ⟨tl, tr, hcall, htr⟩ := hF _ h.len (by
      intro x hx
      obtain ⟨j, hj, rfl⟩ := List.getElem_of_mem hx
      have := h.wet j (by have := h.len; omega)
      rwa [List.getD_eq_getElem _ _ hj] at this)
    refine rhs_zero (mcl P B bc F) hdim dx hdx bc t _ _ hext _ h.len _ _
      (mcl_lake P hP B bc (build_radius _ _ _ bc hbc) F _ hn _ ds hds h _ (requiredValues_two _ _)
        tl tr hcall htr) ?_
    intro i _
    ext <;> simp
  exact ⟨hz, fun T t0 steps => lake_run _ b rfl c _ dx bc hz T t0 steps⟩

/-- Non-vacuity: a bump. -/
example : Admissible exampleParams 2 [0, 1, 1 / 2, 0] ∧
    ([0, 1, 1 / 2, 0] : List ℚ).getD 0 0 = ([0, 1, 1 / 2, 0] : List ℚ).getD 3 0 ∧
    ∃ bc, build (K := ℚ) (V := State ℚ) (some reflect) ["periodic"] 1 none none = .ok bc :=
  ⟨⟨by decide +kernel, fun h => absurd h (by decide +kernel)⟩, rfl, _, build_periodic _ _ _ _⟩

/-! ### C44 -/

/-- C44.  The central flux keeps every lake at rest if the ends are outflow or walls. -/
theorem C44_central (P : Params K) (c : K) (b : List K) (hb : b ≠ [])
    (ha : Admissible P c b) (B : Bathymetry K) (hB : buildBathymetry P (some b) = .ok B)
    (conditions : List String) (hc : Closed conditions) (il ir : Option (K → State K))
    (bc : BC K (State K)) (hbc : build (some reflect) conditions 1 il ir = .ok bc) (dx : K)
    (hdx : dx ≠ 0) :
    (∀ t, rhs (centralFlux P B) dx bc t (lake c b) = .ok (List.replicate b.length 0)) ∧
    ∀ (T : Tableau K) (t0 : K) (steps : List K),
      let u : Fin b.length → State K := fun i => (c - b.getD i 0, 0)
      ∃ s', (Solver.init u t0).runE T (vecRhs b.length (rhs (centralFlux P B) dx bc)) steps = .ok s' ∧
        s'.solution = u ∧ s'.time = t0 + steps.sum := by
  have hn := List.length_pos_iff.mpr hb
  have hz : ∀ t, rhs (centralFlux P B) dx bc t (lake c b) = .ok (List.replicate b.length 0) := by
    intro t
    obtain ⟨ds, hds, h⟩ := lakeExt_closed P c b ha B hB _ hn rfl
    obtain ⟨_, hext⟩ := closed_extend conditions hc il ir bc hbc (lake c b) _ hn (lake_length c b)
      (lake_rest c b) (some t)
    refine rhs_zero (centralFlux P B) (by simp [centralFlux, withSource, central]) dx hdx bc t _ _
      hext _ h.len _ _ (central_call P B _ _ h.len (lake_nonneg P _ _ _ _ h) ds hds) ?_
    intro i hi
    beta_reduce
    rw [fluxOf_rest P _ (h.wet i (by omega)) (h.rest i),
      fluxOf_rest P _ (h.wet (i + 1) (by omega)) (h.rest (i + 1)),
      fluxOf_rest P _ (h.wet (i + 1 + 1) (by omega)) (h.rest (i + 1 + 1)),
      h.step i (by omega), h.step (i + 1) (by omega)]
    simp only [source, average]
    ext
    · simp
    · simp only [Prod.snd_add, Prod.snd_neg, Prod.smul_snd, smul_eq_mul, Prod.snd_zero]
      ring
  exact ⟨hz, fun T t0 steps => lake_run _ b rfl c _ dx bc hz T t0 steps⟩

/-- C44.  With periodic boundaries it does so exactly if the bathymetry has the same value in the
first and the last cell. -/
theorem C44_central_periodic (P : Params K) (hP : P.Good) (c : K) (b : List K) (hb : b ≠ [])
    (ha : Admissible P c b) (B : Bathymetry K) (hB : buildBathymetry P (some b) = .ok B)
    (il ir : Option (K → State K)) (bc : BC K (State K))
    (hbc : build (some reflect) ["periodic"] 1 il ir = .ok bc) (dx : K) (hdx : dx ≠ 0) (t : K) :
    rhs (centralFlux P B) dx bc t (lake c b) = .ok (List.replicate b.length 0) ↔
      b.getD 0 0 = b.getD (b.length - 1) 0 := by
  have hn := List.length_pos_iff.mpr hb
  obtain ⟨_, hext⟩ := periodic_extend il ir bc hbc (lake c b) _ hn (lake_length c b) (some t)
  constructor
  · intro hz
    obtain ⟨ds, hds, hd⟩ := lake_steps P c b ha B hB _ hn rfl
    by_cases h1 : b.length = 1
    · rw [h1]
    set ext := (lake c b).getD (b.length - 1) 0 :: lake c b ++ [(lake c b).getD 0 0] with hE
    have hlen : ext.length = b.length + 2 := by simp [hE, lake_length]
    have hwet : ∀ x ∈ lake c b, P.eps ≤ x.1 := by
      intro x hx
      obtain ⟨y, hy, rfl⟩ := List.mem_map.mp hx
      exact ha.1 y hy
    have hall : ∀ x ∈ ext, 0 ≤ x.1 := by
      intro x hx
      simp only [hE, List.mem_append, List.mem_cons, List.not_mem_nil, or_false] at hx
      rcases hx with (hx | hx) | hx
      · rw [hx]
        exact P.eps_pos.le.trans (hwet _ (getD_mem_of_lt _ _ _ (by rw [lake_length]; omega)))
      · exact P.eps_pos.le.trans (hwet _ hx)
      · rw [hx]
        exact P.eps_pos.le.trans (hwet _ (getD_mem_of_lt _ _ _ (by rw [lake_length]; omega)))
    rw [rhs_of_call (centralFlux P B) (by simp [centralFlux, withSource, central]) dx hdx bc t _ _
      hext b.length hlen _ _ (central_call P B _ _ hlen hall ds hds)] at hz
    have e := congrArg (fun l => (l.getD 0 0)) (Except.ok.inj hz)
    beta_reduce at e
    rw [List.getD_eq_getElem _ _ (by simpa using hn), List.getD_eq_getElem _ _ (by simpa using hn)] at e
    simp only [List.getElem_map, List.getElem_range, List.getElem_replicate] at e
    have e0 : ext.getD 0 0 = (c - b.getD (b.length - 1) 0, 0) := by
      rw [hE, List.cons_append, List.getD_cons_zero, lake_getD c b _ (by omega)]
    have e1 : ext.getD 1 0 = (c - b.getD 0 0, 0) := by
      rw [hE, List.cons_append, List.getD_cons_succ,
        List.getD_append _ _ _ _ (by rw [lake_length]; omega), lake_getD c b _ (by omega)]
    have e2 : ext.getD 2 0 = (c - b.getD 1 0, 0) := by
      rw [hE, List.cons_append, List.getD_cons_succ,
        List.getD_append _ _ _ _ (by rw [lake_length]; omega), lake_getD c b _ (by omega)]
    have d0 : ds.getD 0 0 = 0 := by
      rw [hd 0 (by omega), pad_zero b hb, pad_succ b 0 (by omega), sub_self]
    have d1 : ds.getD 1 0 = b.getD 1 0 - b.getD 0 0 := by
      rw [hd 1 (by omega), pad_succ b 0 (by omega), pad_succ b 1 (by omega)]
    have w : ∀ i < b.length, P.eps ≤ c - b.getD i 0 := fun i hi => ha.1 _ (getD_mem_of_lt _ _ _ hi)
    rw [show (0 : ℕ) + 1 = 1 from rfl, show (1 : ℕ) + 1 = 2 from rfl, e0, e1, e2, d0, d1,
      fluxOf_rest P _ (w _ (by omega)) rfl, fluxOf_rest P _ (w _ (by omega)) rfl,
      fluxOf_rest P _ (w _ (by omega)) rfl] at e
    have e' := congrArg Prod.snd e
    simp only [source, average, Prod.snd_add, Prod.snd_neg, Prod.smul_snd, smul_eq_mul,
      Prod.snd_zero] at e'
    have p0 := lt_of_lt_of_le P.eps_pos (w 0 (by omega))
    have p1 := lt_of_lt_of_le P.eps_pos (w (b.length - 1) (by omega))
    have e3 : P.g / 4 * ((c - b.getD (b.length - 1) 0) ^ 2 - (c - b.getD 0 0) ^ 2) = 0 := by
      have := mul_eq_zero.mp e'
      rcases this with h | h
      · exact absurd h (one_div_ne_zero hdx)
      · linear_combination h
    have e4 : (c - b.getD (b.length - 1) 0) ^ 2 = (c - b.getD 0 0) ^ 2 := by
      rcases mul_eq_zero.mp e3 with h | h
      · have := hP.g_pos; exfalso; linarith
      · linarith
    have e5 := (sq_eq_sq₀ p1.le p0.le).mp e4
    linarith
  · intro he
    obtain ⟨ds, hds, h⟩ := lakeExt_periodic P c b ha B hB _ hn rfl he
    refine rhs_zero (centralFlux P B) (by simp [centralFlux, withSource, central]) dx hdx bc t _ _
      hext _ h.len _ _ (central_call P B _ _ h.len (lake_nonneg P _ _ _ _ h) ds hds) ?_
    intro i hi
    beta_reduce
    rw [fluxOf_rest P _ (h.wet i (by omega)) (h.rest i),
      fluxOf_rest P _ (h.wet (i + 1) (by omega)) (h.rest (i + 1)),
      fluxOf_rest P _ (h.wet (i + 1 + 1) (by omega)) (h.rest (i + 1 + 1)),
      h.step i (by omega), h.step (i + 1) (by omega)]
    simp only [source, average]
    ext
    · simp
    · simp only [Prod.snd_add, Prod.snd_neg, Prod.smul_snd, smul_eq_mul, Prod.snd_zero]
      ring

/-! ### C45 and C46 -/

/-- If a quantity with invertible weights has no jump anywhere, it is constant. -/
theorem all_equal_of_flat (n : ℕ) (h : ℕ → K) (hs : ∀ j < n + 1, h (j + 1) = h j) :
    ∀ j < n + 2, h j = h 0 := by
  intro j
  induction j with
  | zero => intro _; rfl
  | succ j ih => intro hj; rw [hs j (by omega), ih (by omega)]

theorem lake_flat_iff (c : K) (b : List K) (hb : b ≠ []) :
    (∀ x ∈ b, ∀ y ∈ b, x = y) ↔
      ∀ j < b.length + 1, (((lake c b).getD 0 0 :: lake c b ++
          [(lake c b).getD (b.length - 1) 0]).getD (j + 1) 0).1 =
        (((lake c b).getD 0 0 :: lake c b ++ [(lake c b).getD (b.length - 1) 0]).getD j 0).1 := by
  have hn := List.length_pos_iff.mpr hb
  have hp := lake_pad c b b.length hn rfl
  have hmem : ∀ j < b.length + 2, (pad b).getD j 0 ∈ b := by
    intro j hj
    rcases j with _ | j
    · rw [pad_zero b hb]; exact getD_mem_of_lt _ _ _ (by omega)
    · by_cases h' : j < b.length
      · rw [pad_succ b j (by omega)]; exact getD_mem_of_lt _ _ _ (by omega)
      · have : j = b.length := by omega
        subst this
        rw [pad_last b hb]; exact getD_mem_of_lt _ _ _ (by omega)
  constructor
  · intro h j hj
    rw [hp j (by omega), hp (j + 1) (by omega), h _ (hmem j (by omega)) _ (hmem (j + 1) (by omega))]
  · intro h
    have hall := all_equal_of_flat b.length (fun j => (((lake c b).getD 0 0 :: lake c b ++
          [(lake c b).getD (b.length - 1) 0]).getD j 0).1) h
    beta_reduce at hall
    have hval : ∀ x ∈ b, x = b.getD 0 0 := by
      intro x hx
      obtain ⟨i, hi, rfl⟩ := List.getElem_of_mem hx
      have := hall (i + 1) (by omega)
      rw [hp (i + 1) (by omega), hp 0 (by omega), pad_zero b hb, pad_succ b i hi,
        List.getD_eq_getElem _ _ hi] at this
      simp only [sub_right_inj] at this
      exact this
    intro x hx y hy
    rw [hval x hx, hval y hy]

/-- C45.  The local Lax-Friedrichs solver keeps a lake at rest with outflow or walls exactly if
the bottom is flat: otherwise its diffusion levels the water depth instead of the surface. -/
theorem C45_llf_iff (P : Params K) (hP : P.Good) (c : K) (b : List K) (hb : b ≠ [])
    (ha : Admissible P c b) (B : Bathymetry K) (hB : buildBathymetry P (some b) = .ok B)
    (conditions : List String) (hc : Closed conditions) (il ir : Option (K → State K))
    (bc : BC K (State K)) (hbc : build (some reflect) conditions 1 il ir = .ok bc) (dx : K)
    (hdx : dx ≠ 0) (t : K) :
    rhs (lfFlux P B) dx bc t (lake c b) = .ok (List.replicate b.length 0) ↔
      ∀ x ∈ b, ∀ y ∈ b, x = y := by
  have hn := List.length_pos_iff.mpr hb
  obtain ⟨ds, hds, h⟩ := lakeExt_closed P c b ha B hB _ hn rfl
  obtain ⟨_, hext⟩ := closed_extend conditions hc il ir bc hbc (lake c b) _ hn (lake_length c b)
    (lake_rest c b) (some t)
  rw [lake_flat_iff c b hb]
  set ext := (lake c b).getD 0 0 :: lake c b ++ [(lake c b).getD (b.length - 1) 0] with hE
  have pos : ∀ j < b.length + 2, 0 < (ext.getD j 0).1 :=
    fun j hj => lt_of_lt_of_le P.eps_pos (h.wet j hj)
  have hcall := lf_call P hP B b.length ext h.len (lake_nonneg P _ _ _ _ h)
    (fun j hj => Or.inl (pos j (by omega))) ds hds
  have hw : ∀ j < b.length + 1, 0 < maxSpeed P (ext.getD j 0) (ext.getD (j + 1) 0) :=
    fun j hj => maxSpeed_pos P hP _ _ (Or.inl (pos j (by omega)))
  have hllf : ∀ j < b.length + 1, llf P (ext.getD j 0) (ext.getD (j + 1) 0) =
      (-(maxSpeed P (ext.getD j 0) (ext.getD (j + 1) 0) *
          ((ext.getD (j + 1) 0).1 - (ext.getD j 0).1) / 2),
        P.g / 4 * ((ext.getD j 0).1 ^ 2 + (ext.getD (j + 1) 0).1 ^ 2)) := by
    intro j hj
    have hw' := (hw j hj).ne'
    simp only [llf, fluxOf_rest P _ (h.wet j (by omega)) (h.rest j),
      fluxOf_rest P _ (h.wet (j + 1) (by omega)) (h.rest (j + 1))]
    ext
    · simp only [Prod.fst_add, Prod.fst_sub, Prod.fst_neg, Prod.smul_fst, smul_eq_mul]
      ring
    · simp only [Prod.snd_add, Prod.snd_sub, Prod.snd_neg, Prod.smul_snd, smul_eq_mul, h.rest]
      ring
  have hrhs := rhs_of_call (lfFlux P B) (by simp [lfFlux, withSource, laxFriedrichs]) dx hdx bc t _ _
    hext b.length h.len _ _ hcall
  set w := fun j => maxSpeed P (ext.getD j 0) (ext.getD (j + 1) 0) with hwdef
  set d := fun j => (ext.getD (j + 1) 0).1 - (ext.getD j 0).1 with hddef
  have hi : ∀ i < b.length, (1 / dx) • ((llf P (ext.getD i 0) (ext.getD (i + 1) 0) +
        -source P (ext.getD i 0) (ext.getD (i + 1) 0) (ds.getD i 0)) +
        (-llf P (ext.getD (i + 1) 0) (ext.getD (i + 1 + 1) 0) +
          -source P (ext.getD (i + 1) 0) (ext.getD (i + 1 + 1) 0) (ds.getD (i + 1) 0))) =
      (1 / dx * ((w (i + 1) * d (i + 1) - w i * d i) / 2), 0) := by
    intro i hi
    rw [hllf i (by omega), hllf (i + 1) (by omega), h.step i (by omega), h.step (i + 1) (by omega)]
    simp only [source, average, hwdef, hddef]
    ext
    · simp only [Prod.fst_add, Prod.fst_neg, Prod.smul_fst, smul_eq_mul]
      ring
    · simp only [Prod.snd_add, Prod.snd_neg, Prod.smul_snd, smul_eq_mul]
      ring
  constructor
  · intro hz
    rw [hrhs] at hz
    have hz' := Except.ok.inj hz
    have hstep : ∀ i < b.length, w (i + 1) * d (i + 1) = w i * d i := by
      intro i hi'
      have e := congrArg (fun l => (l.getD i 0)) hz'
      beta_reduce at e
      rw [List.getD_eq_getElem _ _ (by simpa using hi'),
        List.getD_eq_getElem _ _ (by simpa using hi')] at e
      simp only [List.getElem_map, List.getElem_range, List.getElem_replicate] at e
      rw [hi i hi'] at e
      have e' := congrArg Prod.fst e
      simp only [Prod.fst_zero] at e'
      rcases mul_eq_zero.mp e' with h' | h'
      · exact absurd h' (one_div_ne_zero hdx)
      · linarith
    have d0 : d 0 = 0 := by
      have := h.left
      simp only [Bool.false_eq_true, if_false] at this
      simp only [hddef]
      linarith
    have hzero : ∀ j < b.length + 1, w j * d j = 0 := by
      intro j
      induction j with
      | zero => intro _; rw [d0, mul_zero]
      | succ j ih => intro hj; rw [hstep j (by omega), ih (by omega)]
    intro j hj
    rcases mul_eq_zero.mp (hzero j hj) with h' | h'
    · exact absurd h' (hw j hj).ne'
    · simp only [hddef] at h'
      linarith
  · intro hflat
    have hd : ∀ j < b.length + 1, d j = 0 := by
      intro j hj
      simp only [hddef, hflat j hj, sub_self]
    rw [hrhs, replicate_eq_range]
    congr 1
    apply List.map_congr_left
    intro i hi'
    have hi'' := List.mem_range.mp hi'
    rw [hi i hi'', hd i (by omega), hd (i + 1) (by omega)]
    simp

/-- C45.  A lake of two cells over a step, with walls, that the local Lax-Friedrichs solver sets in
motion. -/
theorem C45_counterexample :
    ∃ B bc, buildBathymetry exampleParams (some [0, 1]) = .ok B ∧ Admissible exampleParams 5 [0, 1] ∧
      build (K := ℚ) (some reflect) ["wall"] 1 none none = .ok bc ∧
      rhs (lfFlux exampleParams B) 1 bc 0 (lake 5 [0, 1]) ≠ .ok [0, 0] := by
  refine ⟨⟨some [0, 0, 1, 1]⟩, ⟨[.reflect 0 reflect], [.reflect (-1) reflect], false⟩,
    by decide +kernel, ⟨by decide +kernel, fun h => absurd h (by decide +kernel)⟩, rfl, ?_⟩
  decide +kernel

/-- The right-hand side of the energy stable solver in a lake at rest. -/
theorem energy_lake (P : Params K) (c : K) (b : List K) (hb : b ≠ [])
    (ha : Admissible P c b) (B : Bathymetry K) (hB : buildBathymetry P (some b) = .ok B)
    (conditions : List String) (hc : Closed conditions) (il ir : Option (K → State K))
    (bc : BC K (State K)) (hbc : build (some reflect) conditions 1 il ir = .ok bc) (dx : K)
    (hdx : dx ≠ 0) (t : K) :
    ∃ ext ds, LakeExt P false b.length ext ds ∧
      ext = (lake c b).getD 0 0 :: lake c b ++ [(lake c b).getD (b.length - 1) 0] ∧
      rhs (energyStableFlux P B) dx bc t (lake c b) = .ok ((List.range b.length).map (fun i =>
        (0, 1 / dx * (P.g / 8 * (((ext.getD (i + 2) 0).1 - (ext.getD (i + 1) 0).1) ^ 2 -
          ((ext.getD (i + 1) 0).1 - (ext.getD i 0).1) ^ 2))))) := by
  have hn := List.length_pos_iff.mpr hb
  obtain ⟨ds, hds, h⟩ := lakeExt_closed P c b ha B hB _ hn rfl
  obtain ⟨_, hext⟩ := closed_extend conditions hc il ir bc hbc (lake c b) _ hn (lake_length c b)
    (lake_rest c b) (some t)
  refine ⟨_, ds, h, rfl, ?_⟩
  set ext := (lake c b).getD 0 0 :: lake c b ++ [(lake c b).getD (b.length - 1) 0] with hE
  have hnode : ∀ j < b.length + 1, energyStableNode P (ext.getD j 0) (ext.getD (j + 1) 0) =
      .ok (0, P.g * (((ext.getD j 0).1 + (ext.getD (j + 1) 0).1) / 2) ^ 2 / 2) := by
    intro j hj
    have h1 := h.wet j (by omega)
    have h2 := h.wet (j + 1) (by omega)
    have hav : P.eps ≤ average (ext.getD j 0).1 (ext.getD (j + 1) 0).1 := by
      unfold average; linarith
    have := flux_ok P (average (ext.getD j 0).1 (ext.getD (j + 1) 0).1,
      average (ext.getD j 0).2 (ext.getD (j + 1) 0).2) (P.eps_pos.le.trans hav)
    unfold energyStableNode
    rw [this, fluxOf_rest P _ hav (by simp only [average, h.rest, add_zero, zero_div])]
    simp only [average]
  have hcall := withSource_call P B (energyStable P) b.length ext h.len ds hds _ _
    (twoPoint_call (energyStableNode P) b.length ext h.len _ hnode)
  rw [show energyStableFlux P B = withSource P B (energyStable P) from rfl,
    rhs_of_call (withSource P B (energyStable P)) (by simp [withSource, energyStable, twoPoint]) dx
      hdx bc t _ _ hext b.length h.len _ _ hcall]
  congr 1
  apply List.map_congr_left
  intro i hi
  have hi' := List.mem_range.mp hi
  rw [h.step i (by omega), h.step (i + 1) (by omega)]
  simp only [source, average]
  ext
  · simp
  · simp only [Prod.snd_add, Prod.snd_neg, Prod.smul_snd, smul_eq_mul]
    ring

/-- C46.  The energy stable solver keeps a lake at rest with outflow or walls exactly if the bottom
is flat. -/
theorem C46_lake_iff (P : Params K) (hP : P.Good) (c : K) (b : List K) (hb : b ≠ [])
    (ha : Admissible P c b) (B : Bathymetry K) (hB : buildBathymetry P (some b) = .ok B)
    (conditions : List String) (hc : Closed conditions) (il ir : Option (K → State K))
    (bc : BC K (State K)) (hbc : build (some reflect) conditions 1 il ir = .ok bc) (dx : K)
    (hdx : dx ≠ 0) (t : K) :
    rhs (energyStableFlux P B) dx bc t (lake c b) = .ok (List.replicate b.length 0) ↔
      ∀ x ∈ b, ∀ y ∈ b, x = y := by
  obtain ⟨ext, ds, h, hE, hrhs⟩ := energy_lake P c b hb ha B hB conditions hc il ir bc hbc dx hdx t
  rw [lake_flat_iff c b hb, ← hE]
  constructor
  · intro hz
    rw [hrhs] at hz
    have hz' := Except.ok.inj hz
    have hstep : ∀ i < b.length, ((ext.getD (i + 2) 0).1 - (ext.getD (i + 1) 0).1) ^ 2 =
        ((ext.getD (i + 1) 0).1 - (ext.getD i 0).1) ^ 2 := by
      intro i hi'
      have e := congrArg (fun l => (l.getD i 0)) hz'
      beta_reduce at e
      rw [List.getD_eq_getElem _ _ (by simpa using hi'),
        List.getD_eq_getElem _ _ (by simpa using hi')] at e
      simp only [List.getElem_map, List.getElem_range, List.getElem_replicate] at e
      have e' := congrArg Prod.snd e
      simp only [Prod.snd_zero] at e'
      have hg := hP.g_pos
      rcases mul_eq_zero.mp e' with h' | h'
      · exact absurd h' (one_div_ne_zero hdx)
      · rcases mul_eq_zero.mp h' with h'' | h''
        · exfalso; linarith
        · linarith
    have hzero : ∀ j < b.length + 1, ((ext.getD (j + 1) 0).1 - (ext.getD j 0).1) ^ 2 = 0 := by
      intro j
      induction j with
      | zero =>
        intro _
        have := h.left
        simp only [Bool.false_eq_true, if_false] at this
        rw [this, sub_self]
        simp
      | succ j ih => intro hj; rw [hstep j (by omega), ih (by omega)]
    intro j hj
    have := pow_eq_zero_iff (two_ne_zero) |>.mp (hzero j hj)
    linarith
  · intro hflat
    rw [hrhs, replicate_eq_range]
    congr 1
    apply List.map_congr_left
    intro i hi'
    have hi'' := List.mem_range.mp hi'
    rw [hflat (i + 1) (by omega), hflat i (by omega)]
    simp

/-- C46.  A lake over a step that the energy stable solver sets in motion. -/
theorem C46_counterexample_lake :
    ∃ B bc, buildBathymetry exampleParams (some [0, 1]) = .ok B ∧ Admissible exampleParams 5 [0, 1] ∧
      build (K := ℚ) (some reflect) ["outflow"] 1 none none = .ok bc ∧
      rhs (energyStableFlux exampleParams B) 1 bc 0 (lake 5 [0, 1]) ≠ .ok [0, 0] := by
  refine ⟨⟨some [0, 0, 1, 1]⟩, ⟨[.copy 0], [.copy (-1)], false⟩,
    by decide +kernel, ⟨by decide +kernel, fun h => absurd h (by decide +kernel)⟩, rfl, ?_⟩
  decide +kernel

end Verif.SWE
