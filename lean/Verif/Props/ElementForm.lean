import Verif.Props.LaxWendroff
import Verif.Props.CGAdvection

/-!
Helper lemmas for C140: the right-hand sides of the finite element solvers with linear elements are differences of fluxes
that belong to the cells of the mesh, and these fluxes are near the flux of the law.
-/

set_option linter.unusedSectionVars false

namespace Verif.WeakLimit

open Verif.Py Verif.Scalar Verif.ODE Verif.Convergence
open Verif.Interpolate Verif.Quadrature
open Verif.Mesh hiding Error
open Set

variable {n : ℕ}

/-! ### Fluxes of the cells -/

theorem jumps_around (hn : 0 < n) (v : Fin n → ℝ) :
    jumps v = ∑ c ∈ Finset.range n, |around v (c + 1) - around v c| := by
  unfold jumps
  rw [Finset.sum_range]
  refine Finset.sum_congr rfl fun i _ => ?_
  rw [Real.norm_eq_abs, around_cell v i]
  congr 2
  rw [← around_cell v (finRotate n i), rotate_value]
  split_ifs with h
  · have : ((i : ℕ) : ℤ) + 1 = 0 + n := by rw [zero_add]; exact_mod_cast h
    rw [this, around_periodic]
    rfl
  · push_cast
    rfl

/-- Differences of the fluxes of neighbouring cells. -/
theorem form_of_edges (E : ℤ → ℝ) (hE : ∀ z, E (z + n) = E z) (v w : Fin n → ℝ) (dx C : ℝ) (Q : ℝ → ℝ)
    (hw : ∀ i : Fin n, w i = 1 / dx * (E (i - 1) - E i))
    (hb : ∑ c ∈ Finset.range n, |E c - Q (around v c)| ≤ C * jumps v) :
    ∃ H : ℕ → ℝ, H n = H 0 ∧ (∀ i : Fin n, w i = (1 / dx) • (H i - H (i + 1))) ∧
      ∑ i : Fin n, ‖H (i + 1) - Q (v i)‖ ≤ C * jumps v := by
  refine ⟨fun i => E (i - 1), ?_, fun i => ?_, ?_⟩
  · have := hE (-1)
    beta_reduce
    rw [show (n : ℤ) - 1 = -1 + n by ring, this]
    simp
  · rw [hw i, smul_eq_mul]
    push_cast
    rw [add_sub_cancel_right]
  · rw [Finset.sum_range] at hb
    refine le_trans (le_of_eq (Finset.sum_congr rfl fun i _ => ?_)) hb
    push_cast
    rw [add_sub_cancel_right, around_cell, Real.norm_eq_abs]

theorem around_mem {D : Set ℝ} (hn : 0 < n) (v : Fin n → ℝ) (hv : ∀ i, v i ∈ D) (z : ℤ) : around v z ∈ D := by
  obtain ⟨i, q, rfl⟩ := around_exists hn z
  rw [around_shift, around_cell]
  exact hv i

theorem getD_next (hn : 0 < n) (v : Fin n → ℝ) (i : ℕ) : (List.ofFn v).getD ((i + 1) % n) 0 = around v (i + 1) := by
  have := FE.around_nat v (i + 1) hn
  push_cast at this
  rw [this]

theorem getD_last (hn : 0 < n) (v : Fin n → ℝ) (i : ℕ) : (List.ofFn v).getD ((i + n - 1) % n) 0 = around v (i - 1) := by
  have := FE.around_nat v (i + n - 1) hn
  rw [← this, show ((i + n - 1 : ℕ) : ℤ) = (i : ℤ) - 1 + n by omega, around_periodic]

theorem getD_self (v : Fin n → ℝ) (i : ℕ) (hi : i < n) : (List.ofFn v).getD i 0 = around v i := by
  have := FE.around_nat v i (by omega)
  rw [Nat.mod_eq_of_lt hi] at this
  rw [this]

theorem vec_ok {f : ℝ → List ℝ → Except Py.Error (List ℝ)} {t : ℝ} {v w : Fin n → ℝ} (h : vecRhs n f t v = .ok w) :
    ∃ l, f t (List.ofFn v) = .ok l ∧ l.length = n ∧ ∀ i : Fin n, w i = l.getD i 0 := by
  unfold vecRhs at h
  split at h
  · cases h
  · rename_i l hl
    split at h
    · rename_i hn
      refine ⟨l, hl, hn, fun i => ?_⟩
      rw [← Except.ok.inj h, List.getD_eq_getElem]
    · cases h

/-! ### The low order scheme -/

theorem node_near (p : Problem) {m M : ℝ} (v : ℝ) (hv : v ∈ Icc m M) (v' : ℝ) (hv' : v' ∈ Icc m M) :
    |FE.nodeFlux p v v' - p.flux v| ≤ slopeBound m M * |v' - v| ∧ FE.absSpeed p v v' ≤ slopeBound m M := by
  have hl := scalar_lipschitz p v' hv' v hv
  rw [Real.norm_eq_abs, Real.norm_eq_abs] at hl
  have hs : FE.absSpeed p v v' ≤ slopeBound m M := by
    have b := value_bound hv
    have b' := value_bound hv'
    unfold FE.absSpeed slopeBound
    cases p with
    | advection =>
      simp only [Problem.fluxPrime, abs_one, max_self]
      linarith [abs_nonneg m, abs_nonneg M]
    | burgers =>
      simp only [Problem.fluxPrime]
      exact max_le (by linarith) (by linarith)
  have h0 : 0 ≤ FE.absSpeed p v v' := (abs_nonneg _).trans (le_max_left _ _)
  refine ⟨?_, hs⟩
  have e : FE.nodeFlux p v v' - p.flux v = (p.flux v' - p.flux v) / 2 - FE.absSpeed p v v' / 2 * (v' - v) := by
    unfold FE.nodeFlux; ring
  rw [e]
  refine (abs_sub _ _).trans ?_
  rw [abs_div, abs_two, abs_mul, abs_div, abs_two, abs_of_nonneg h0]
  have := mul_le_mul_of_nonneg_right hs (abs_nonneg (v' - v))
  linarith

theorem low_form {gauss d s m C} (h : FE.Setup gauss d n 1 s m C) (h3 : 3 ≤ n) (p : Problem) (lo hi : ℝ) :
    FluxForm (vecRhs n fun _ => FE.lowRhs p m C) ((d.b - d.a) / n) p.flux (Icc lo hi) (slopeBound lo hi) := by
  intro t v w hv hw
  have hn := h.meshSize
  obtain ⟨l, h1, h2, h4⟩ := vec_ok hw
  rw [FE.C112_flux h h3 p _ (by simp)] at h1
  obtain rfl := Except.ok.inj h1
  refine form_of_edges (fun z => FE.nodeFlux p (around v z) (around v (z + 1))) (fun z => ?_) v w _ _ _ (fun i => ?_) ?_
  · beta_reduce
    rw [around_periodic, show z + n + 1 = z + 1 + n by ring, around_periodic]
  · rw [h4 i, List.getD_eq_getElem _ _ (by simp), List.getElem_map, List.getElem_range, getD_next hn, getD_last hn,
      getD_self v i i.2]
    simp
  · rw [jumps_around hn, Finset.mul_sum]
    exact Finset.sum_le_sum fun c _ => (node_near p _ (around_mem hn v hv c) _ (around_mem hn v hv (c + 1))).1

/-! ### The limited scheme -/

theorem correction_linear {s : FE.Space ℝ} (s1 : s.degree = 1) (s2 : s.cells.length = n) (G : ℕ → ℕ → ℝ) (k : ℕ)
    (hk : k < n) :
    FE.correction s.map G k = G k ((k + 1) % n) - G ((k + n - 1) % n) k := by
  unfold FE.correction
  have hd : s.map.degree = 1 := s1
  have hm : s.map.meshSize = n := s2
  rw [hd, hm]
  have e : ∀ c ∈ Finset.range n, ∑ l ∈ Finset.range (1 + 1), ∑ l' ∈ Finset.range (1 + 1), (if l < l' then
      (if s.map.idx c l = k then G (s.map.idx c l) (s.map.idx c l') else 0) -
      (if s.map.idx c l' = k then G (s.map.idx c l) (s.map.idx c l') else 0) else 0) =
      (if c = k then G k ((k + 1) % n) else 0) - (if c = (k + n - 1) % n then G ((k + n - 1) % n) k else 0) := by
    intro c hc
    have hc' := Finset.mem_range.1 hc
    obtain ⟨i0, i1⟩ := FE.linear_idx s s1 c (by omega)
    simp only [Finset.sum_range_succ, Finset.sum_range_zero, zero_add, i0, i1, s2, lt_irrefl, if_false, zero_lt_one, if_true,
      Nat.not_lt_zero, add_zero]
    congr 1
    · split_ifs with h
      · rw [h]
      · rfl
    · by_cases h : (c + 1) % n = k
      · have := (FE.succ_mod_eq n k hk c hc').1 h
        rw [if_pos h, if_pos this, h, this]
      · rw [if_neg h, if_neg fun h' => h ((FE.succ_mod_eq n k hk c hc').2 h')]
  rw [Finset.sum_congr rfl e, Finset.sum_sub_distrib, Finset.sum_ite_eq', Finset.sum_ite_eq', if_pos (Finset.mem_range.2 hk),
    if_pos (Finset.mem_range.2 (Nat.mod_lt _ (by omega)))]

/-- The degrees of freedom that share a cell with a node of linear elements. -/
theorem linear_neighbour {s : FE.Space ℝ} (s1 : s.degree = 1) (s2 : s.cells.length = n) (i : ℕ) (hi : i < n) (k : ℤ)
    (hk : ∃ c l l' : ℕ, c < n ∧ l ≤ 1 ∧ l' ≤ 1 ∧ s.map.call c l = .ok (i : ℤ) ∧ s.map.call c l' = .ok k) :
    k = i ∨ k = ((i + 1) % n : ℕ) ∨ k = ((i + n - 1) % n : ℕ) := by
  obtain ⟨c, l, l', hc, hl, hl', e1, e2⟩ := hk
  have hd : s.map.degree = 1 := s1
  rw [FE.call_nat s.map c l (by omega)] at e1
  rw [FE.call_nat s.map c l' (by omega)] at e2
  have f1 : s.map.idx c l = i := by exact_mod_cast Except.ok.inj e1
  have f2 : ((s.map.idx c l' : ℕ) : ℤ) = k := Except.ok.inj e2
  obtain ⟨i0, i1⟩ := FE.linear_idx s s1 c (by omega)
  rw [s2] at i1
  rcases Nat.le_one_iff_eq_zero_or_eq_one.1 hl with rfl | rfl <;>
    rcases Nat.le_one_iff_eq_zero_or_eq_one.1 hl' with rfl | rfl
  · left; rw [← f2, f1]
  · right; left; rw [← f2, i1, ← f1, i0]
  · right; right
    have := (FE.succ_mod_eq n i hi c hc).1 (i1.symm.trans f1)
    rw [← f2, i0, this]
  · left; rw [← f2, f1]

theorem limited_form {gauss d s m M C nb} (h : FE.MCLSetup gauss d n 1 s m M C nb) (h3 : 3 ≤ n) (p : Problem) (lo up : ℝ) :
    FluxForm (vecRhs n fun _ => FE.mclRhs s.map p m M C nb) ((d.b - d.a) / n) p.flux (Icc lo up) (5 * slopeBound lo up) := by
  intro t v w hv hw
  have hn := h.meshSize
  obtain ⟨s1, s2, s3, -⟩ := FE.setup_facts h.toSetup
  rw [mul_one] at s3
  have hC := FE.setup_conv h.toSetup
  rw [s3] at hC
  have hpos := (FE.C68_masses h.toSetup (Or.inl (by norm_num))).2
  obtain ⟨l, h1, h2, h4⟩ := vec_ok hw
  obtain ⟨D, r, umax, umin, w', d1, r1, x1, x2, w1, -, -, w3⟩ := FE.mclRhs_spec h (fun x hx => (hpos x hx).ne') p
    (List.ofFn v) (by simp [s3])
  obtain rfl : w' = l := Except.ok.inj (w1.symm.trans h1)
  rw [s3] at w3
  obtain ⟨D', q1, q2, -, q4, q5, q6⟩ := FE.diffusion_spec p n C hC (List.ofFn v) (by simp)
  obtain rfl : D' = D := Except.ok.inj (q1.symm.trans d1)
  obtain ⟨hns, hnb⟩ := FE.setup_neighbours h
  rw [s3] at hns
  obtain ⟨umax', umin', y1, y2, -, -, y5⟩ := FE.C63_local_bounds n nb hns (List.ofFn v) (by simp)
  obtain rfl : umax' = umax := Except.ok.inj (y1.symm.trans x1)
  obtain rfl : umin' = umin := Except.ok.inj (y2.symm.trans x2)
  rw [FE.C112_flux h.toSetup h3 p _ (by simp)] at r1
  obtain rfl := Except.ok.inj r1
  set r := (List.range n).map fun i => 1 / ((d.b - d.a) / n) *
      (FE.nodeFlux p ((List.ofFn v).getD ((i + n - 1) % n) 0) ((List.ofFn v).getD i 0) -
        FE.nodeFlux p ((List.ofFn v).getD i 0) ((List.ofFn v).getD ((i + 1) % n) 0)) with hr
  set G := FE.fluxAt M D' C (List.ofFn v) ((List.ofFn v).map p.flux) r umax' umin' with hG
  -- the local bounds
  have hmax : ∀ i < n, umax'.getD i 0 - around v i ≤ |around v (i + 1) - around v i| + |around v i - around v (i - 1)| ∧
      around v i - umin'.getD i 0 ≤ |around v (i + 1) - around v i| + |around v i - around v (i - 1)| := by
    intro i hi
    have hi' : i < nb.length := by rw [hns.length]; exact hi
    have near : ∀ k : ℤ, k ∈ nb[i] → |(List.ofFn v).getD k.toNat 0 - around v i| ≤
        |around v (i + 1) - around v i| + |around v i - around v (i - 1)| := by
      intro k hk
      rcases linear_neighbour s1 s2 i hi k ((hnb i hi' k).1 hk) with rfl | rfl | rfl
      · rw [Int.toNat_natCast, getD_self v i hi, sub_self, abs_zero]
        positivity
      · rw [Int.toNat_natCast, getD_next hn]
        linarith [abs_nonneg (around v i - around v (i - 1))]
      · rw [Int.toNat_natCast, getD_last hn, abs_sub_comm]
        linarith [abs_nonneg (around v (i + 1) - around v i)]
    obtain ⟨⟨-, k, k1, k2⟩, ⟨-, k', k1', k2'⟩⟩ := y5 i hi'
    rw [k2, k2']
    exact ⟨(le_abs_self _).trans (near k k1), by linarith [neg_abs_le ((List.ofFn v).getD k'.toNat 0 - around v i), near k' k1']⟩
  have hloc : ∀ i < n, ∀ j < n, FE.Shares s i j → umin'.getD i 0 ≤ (List.ofFn v).getD j 0 ∧
      (List.ofFn v).getD j 0 ≤ umax'.getD i 0 := by
    intro i hi j _ hij
    have hi' : i < nb.length := by rw [hns.length]; exact hi
    obtain ⟨⟨f1, -⟩, ⟨f2, -⟩⟩ := y5 i hi'
    have : (j : ℤ) ∈ nb[i] := by
      rw [hnb i hi']
      unfold FE.Shares at hij
      rw [s1, s2] at hij
      exact hij
    exact ⟨by simpa using f2 _ this, by simpa using f1 _ this⟩
  have hbar : ∀ i j, i < n → j < n → i ≠ j →
      D'.lil i j * ((List.ofFn v).getD j 0 + (List.ofFn v).getD i 0) +
        (p.flux ((List.ofFn v).getD i 0) - p.flux ((List.ofFn v).getD j 0)) * C.lil i j ≤ 2 * D'.lil i j * umax'.getD i 0 ∧
      2 * D'.lil i j * umin'.getD i 0 ≤ D'.lil i j * ((List.ofFn v).getD j 0 + (List.ofFn v).getD i 0) +
        (p.flux ((List.ofFn v).getD i 0) - p.flux ((List.ofFn v).getD j 0)) * C.lil i j := by
    intro i j hi hj hij
    obtain ⟨a1, a2⟩ := FE.low_contribution (D'.lil i j)
      (C.lil i j * (p.flux ((List.ofFn v).getD j 0) - p.flux ((List.ofFn v).getD i 0))) ((List.ofFn v).getD i 0)
      ((List.ofFn v).getD j 0) (umin'.getD i 0) (umax'.getD i 0) (q4.nonneg i hi j hj hij) (q5 i j hij)
      (hloc i hi i hi (FE.shares_self h.toSetup i (by omega))) (fun hne => hloc i hi j hj
        (FE.shares_of_gradient h.toSetup i j fun h0 => hne (q6 i j hij h0)))
    constructor <;> linarith
  have hsym : ∀ i j, i < n → j < n →
      D'.lil j i * ((List.ofFn v).getD i 0 + (List.ofFn v).getD j 0) +
        (p.flux ((List.ofFn v).getD j 0) - p.flux ((List.ofFn v).getD i 0)) * C.lil j i =
      D'.lil i j * ((List.ofFn v).getD j 0 + (List.ofFn v).getD i 0) +
        (p.flux ((List.ofFn v).getD i 0) - p.flux ((List.ofFn v).getD j 0)) * C.lil i j := by
    intro i j hi hj
    rw [q4.symm j hj i hi, hC.anti i j]
    ring
  have hflux : ∀ i < n, ((List.ofFn v).map p.flux).getD i 0 = p.flux ((List.ofFn v).getD i 0) := fun i hi =>
    FE.getD_map_flux p _ i (by simpa using hi)
  -- the limited fluxes
  have hsmall : ∀ i < n, |G i ((i + 1) % n)| ≤
      2 * slopeBound lo up * (|around v (i + 1) - around v i| + |around v i - around v (i - 1)|) := by
    intro i hi
    obtain ⟨b1, -, b3, -, -, -⟩ := FE.neighbours n i h3 hi
    have b3' := b3.symm
    have hd : D'.lil i ((i + 1) % n) ≤ slopeBound lo up / 2 ∧ 0 ≤ D'.lil i ((i + 1) % n) := by
      refine ⟨?_, q4.nonneg i hi _ b1 b3'⟩
      rw [FE.diffusion_entry p n C hC _ (by simp) D' d1 i _ b3', (FE.linear_entry h.toSetup h3 i hi).1,
        show |(1 : ℝ) / 2| = 1 / 2 by norm_num, getD_next hn, getD_self v i hi]
      have := (node_near p _ (around_mem hn v hv i) _ (around_mem hn v hv (i + 1))).2
      linarith
    set j := (i + 1) % n with hj
    obtain ⟨a1, a2⟩ := hbar i j hi b1 b3'
    obtain ⟨c1, c2⟩ := hbar j i b1 hi b3
    rw [hsym i j hi b1, q4.symm j b1 i hi] at c1 c2
    have := FE.limitedFlux_bounds (M.lil i j) (D'.lil i j) (C.lil i j) ((List.ofFn v).getD i 0) ((List.ofFn v).getD j 0)
      (p.flux ((List.ofFn v).getD i 0)) (p.flux ((List.ofFn v).getD j 0)) (r.getD i 0) (r.getD j 0)
      (umax'.getD i 0) (umax'.getD j 0) (umin'.getD i 0) (umin'.getD j 0) a1 c1 a2 c2
    have e : G i j = FE.limitedFlux (M.lil i j) (D'.lil i j) (C.lil i j) ((List.ofFn v).getD i 0) ((List.ofFn v).getD j 0)
      (p.flux ((List.ofFn v).getD i 0)) (p.flux ((List.ofFn v).getD j 0)) (r.getD i 0) (r.getD j 0)
      (umax'.getD i 0) (umax'.getD j 0) (umin'.getD i 0) (umin'.getD j 0) := by
      simp only [hG, FE.fluxAt, hflux i hi, hflux j b1]
    obtain ⟨f1, -, f2, -⟩ := this
    rw [← e] at f1 f2
    obtain ⟨g1, g2⟩ := hmax i hi
    have hb : |G i j| ≤ 2 * D'.lil i j * (umax'.getD i 0 - umin'.getD i 0) := by
      rw [_root_.abs_le]
      constructor <;> linarith
    have hs : umax'.getD i 0 - umin'.getD i 0 ≤
      2 * (|around v (i + 1) - around v i| + |around v i - around v (i - 1)|) := by linarith
    refine hb.trans ?_
    have h5 := mul_le_mul_of_nonneg_left hs (by linarith [hd.2] : 0 ≤ 2 * D'.lil i j)
    have h6 : 0 ≤ |around v (i + 1) - around v i| + |around v i - around v (i - 1)| := by positivity
    have h7 := mul_le_mul_of_nonneg_right hd.1 h6
    linarith
  set g : Fin n → ℝ := fun i => G i ((i + 1) % n) with hg
  have hgat : ∀ c < n, around g c = G c ((c + 1) % n) := fun c hc => by
    have := around_cell g ⟨c, hc⟩
    exact this
  refine form_of_edges (fun z => FE.nodeFlux p (around v z) (around v (z + 1)) - around g z) (fun z => ?_) v w _ _ _
    (fun i => ?_) ?_
  · beta_reduce
    rw [around_periodic, show z + n + 1 = z + 1 + n by ring, around_periodic, around_periodic]
  · have hi := i.2
    have hlast : around g ((i : ℕ) - 1) = G ((i + n - 1) % n) i := by
      obtain ⟨-, b2, -, -, -, b6⟩ := FE.neighbours n i h3 hi
      rw [← getD_last hn g i, getD_self g _ b2, hgat _ b2, b6]
    rw [h4 i, w3 i hi, correction_linear s1 s2 G i hi, FE.linear_mass h.toSetup i hi, hr, List.getD_eq_getElem _ _ (by simp),
      List.getElem_map, List.getElem_range, getD_next hn, getD_last hn, getD_self v i i.2, hgat i hi, hlast, sub_add_cancel]
    ring
  · have hsum : ∑ c ∈ Finset.range n, |around v c - around v (c - 1)| = jumps v := by
      rw [jumps_around hn]
      have := FE.sum_shift n (fun z => |around v z - around v (z - 1)|) (by
        have e1 := around_periodic v 0
        have e2 := around_periodic v (-1)
        rw [zero_add] at e1
        rw [show (-1 : ℤ) + n = n - 1 by ring] at e2
        simp only [e1, e2, zero_sub])
      rw [← this]
      simp only [add_sub_cancel_right]
    have key : ∀ c ∈ Finset.range n, |FE.nodeFlux p (around v c) (around v (c + 1)) - around g c - p.flux (around v c)| ≤
        3 * slopeBound lo up * |around v (c + 1) - around v c| + 2 * slopeBound lo up * |around v c - around v (c - 1)| := by
      intro c hc
      have hc' := Finset.mem_range.1 hc
      have k1 := (node_near p _ (around_mem hn v hv c) _ (around_mem hn v hv (c + 1))).1
      have k2 := hsmall c hc'
      rw [← hgat c hc'] at k2
      rw [sub_right_comm]
      refine (abs_sub _ _).trans ?_
      linarith
    refine (Finset.sum_le_sum key).trans (le_of_eq ?_)
    rw [Finset.sum_add_distrib, ← Finset.mul_sum, ← Finset.mul_sum, hsum, ← jumps_around hn]
    ring

/-! ### The continuous Galerkin scheme -/

/-- Fluxes of the cells from which the Galerkin scheme takes its differences. -/
theorem galerkin_rows {gauss d s m C} (h : FE.Setup gauss d n 1 s m C)
    (solve : FE.SysMatrix ℝ → List ℝ → Except Error (List ℝ)) (hsolve : FE.Solves solve) (M : FE.SysMatrix ℝ)
    (hM : FE.massMatrix gauss s = .ok M) (p : Problem) (exact : Bool) (v w : Fin n → ℝ) (l : List ℝ)
    (hl : FE.cgRhs solve gauss s M C p exact (List.ofFn v) = .ok l) (hw : List.ofFn w = l) :
    ∃ E : ℤ → ℝ, (∀ z, E (z + n) = E z) ∧
      (∀ z, E z = (p.flux (around v z) + p.flux (around v (z + 1))) / 2 ∨ (p = .burgers ∧
        E z = (around v z ^ 2 + around v z * around v (z + 1) + around v (z + 1) ^ 2) / 6)) ∧
      ∀ c < n, ((d.b - d.a) / n) / 6 * (around w (c - 1) + 4 * around w c + around w (c + 1)) = E (c - 1) - E c := by
  obtain ⟨s1, s2, s3, s4⟩ := FE.setup_facts h
  rw [mul_one] at s3
  have hn := h.meshSize
  obtain ⟨B, A, hA⟩ := FE.operator h solve hsolve M hM false n s3
  -- what remains to be shown: the sums with all test functions
  have rows : ∀ E : ℤ → ℝ, (∀ z, E (z + n) = E z) → (∀ z : Fin n → ℝ, B w z =
      ∑ c ∈ Finset.range n, E c * (around z (c + 1) - around z c)) →
      ∀ c < n, ((d.b - d.a) / n) / 6 * (around w (c - 1) + 4 * around w c + around w (c + 1)) = E (c - 1) - E c := by
    intro E hE hB
    set X : Fin n → ℝ := fun i => ((d.b - d.a) / n) / 6 * (around w (i - 1) + 4 * around w i + around w (i + 1)) -
      (E (i - 1) - E i) with hX
    have e := hB X
    have k := FE.sum_shift n (fun z => E (z - 1) * around X z) (by
      have e1 := around_periodic X 0
      have e2 := hE (-1)
      rw [zero_add] at e1
      rw [show (-1 : ℤ) + n = n - 1 by ring] at e2
      simp only [e1, e2, zero_sub])
    simp only [add_sub_cancel_right] at k
    rw [FE.linear_form_stencil h hA] at e
    simp only [mul_sub, Finset.sum_sub_distrib] at e
    rw [k, ← Finset.sum_sub_distrib, ← sub_eq_zero, ← Finset.sum_sub_distrib] at e
    have sq : ∑ c ∈ Finset.range n, around X c ^ 2 = 0 := by
      rw [← e]
      refine Finset.sum_congr rfl fun c hc => ?_
      have hx : around X c = ((d.b - d.a) / n) / 6 * (around w (c - 1) + 4 * around w c + around w (c + 1)) -
          (E (c - 1) - E c) := around_cell X ⟨c, Finset.mem_range.1 hc⟩
      rw [pow_two]
      nth_rewrite 2 [hx]
      ring
    intro c hc
    have hx : around X c = ((d.b - d.a) / n) / 6 * (around w (c - 1) + 4 * around w c + around w (c + 1)) -
        (E (c - 1) - E c) := around_cell X ⟨c, hc⟩
    have := (Finset.sum_eq_zero_iff_of_nonneg fun c _ => sq_nonneg _).1 sq c (Finset.mem_range.2 hc)
    have := pow_eq_zero_iff (two_ne_zero) |>.1 this
    rw [hx] at this
    linarith
  have hweak : ∀ F, FE.TestedFlux s p exact (List.ofFn v) F → ∀ z : Fin n → ℝ, B w z = FE.integral s fun c x => F c x *
      (affineInverseDerivative (s.cell c) * (around z (c + 1) - around z c)) := by
    intro F hF z
    rw [hA.product w z _ _ (FE.linear_value h w) (FE.linear_value h z)]
    exact FE.C87_weak h solve hsolve M hM p exact _ l (by simp [s3]) hl F hF _ (hw ▸ FE.linear_value h w) _ _ _
      (FE.linear_value h z) (FE.linear_derivative h z)
  have hflux : ∀ z, around (fun i => p.flux (v i)) z = p.flux (around v z) := by
    intro z
    obtain ⟨i, q, rfl⟩ := around_exists hn z
    rw [around_shift, around_shift, around_cell, around_cell]
  have group : FE.Values s ((List.ofFn v).map p.flux) (FE.linearValue d n fun i => p.flux (v i)) := by
    rw [List.map_ofFn]
    exact FE.linear_value h fun i => p.flux (v i)
  have hgroup : FE.TestedFlux s p exact (List.ofFn v) (FE.linearValue d n fun i => p.flux (v i)) →
      ∃ E : ℤ → ℝ, (∀ z, E (z + n) = E z) ∧
      (∀ z, E z = (p.flux (around v z) + p.flux (around v (z + 1))) / 2 ∨ (p = .burgers ∧
        E z = (around v z ^ 2 + around v z * around v (z + 1) + around v (z + 1) ^ 2) / 6)) ∧
      ∀ c < n, ((d.b - d.a) / n) / 6 * (around w (c - 1) + 4 * around w c + around w (c + 1)) = E (c - 1) - E c := by
    intro hF
    have hE : ∀ z : ℤ, (p.flux (around v (z + n)) + p.flux (around v (z + n + 1))) / 2 =
        (p.flux (around v z) + p.flux (around v (z + 1))) / 2 := fun z => by
      rw [around_periodic, show z + n + 1 = z + 1 + n by ring, around_periodic]
    refine ⟨fun z => (p.flux (around v z) + p.flux (around v (z + 1))) / 2, hE, fun z => Or.inl rfl,
      rows (fun z => (p.flux (around v z) + p.flux (around v (z + 1))) / 2) hE fun z => ?_⟩
    rw [hweak _ hF z, ← hA.weak (fun i => p.flux (v i)) z _ _ (FE.linear_value h _) (FE.linear_derivative h z),
      FE.linear_weak h hA]
    simp only [hflux]
  cases exact with
  | false => exact hgroup group
  | true =>
    cases p with
    | advection => exact hgroup ⟨_, FE.linear_value h v, fun c x => rfl⟩
    | burgers =>
      have hE : ∀ z : ℤ, (around v (z + n) ^ 2 + around v (z + n) * around v (z + n + 1) + around v (z + n + 1) ^ 2) / 6 =
          (around v z ^ 2 + around v z * around v (z + 1) + around v (z + 1) ^ 2) / 6 := fun z => by
        rw [around_periodic, show z + n + 1 = z + 1 + n by ring, around_periodic]
      refine ⟨fun z => (around v z ^ 2 + around v z * around v (z + 1) + around v (z + 1) ^ 2) / 6, hE,
        fun z => Or.inr ⟨rfl, rfl⟩,
        rows (fun z => (around v z ^ 2 + around v z * around v (z + 1) + around v (z + 1) ^ 2) / 6) hE fun z => ?_⟩
      rw [hweak _ ⟨_, FE.linear_value h v, fun c x => rfl⟩ z]
      obtain ⟨-, -, -, -, s5⟩ := FE.make_spec d h.domain n 1 h.meshSize s h.space
      have hn0 : (n : ℝ) ≠ 0 := by positivity
      unfold FE.integral
      rw [s2]
      apply Finset.sum_congr rfl
      intro c hc
      have hc' := Finset.mem_range.mp hc
      have hx : ∀ x, FE.place d n c x = affineInverse x (s.cell c) := by
        intro x
        rw [s5 c hc']
        unfold affineInverse FE.place Interval.length Mesh.node
        push_cast
        congr 1
        ring
      unfold FE.linearValue
      simp only [hx]
      rw [FE.integral_cell_derivative (s.cell c) (s4 c (by omega))
        (fun x => Problem.burgers.flux ((1 - x) * around v c + x * around v (c + 1)))
        (fun _ => around z (c + 1) - around z c)]
      have e : ∀ x : ℝ, Problem.burgers.flux ((1 - x) * around v c + x * around v (c + 1)) * (around z (c + 1) - around z c) =
          1 / 2 * around v c ^ 2 * (around z (c + 1) - around z c) +
          (around v c * (around v (c + 1) - around v c) * (around z (c + 1) - around z c)) * x +
          (1 / 2 * (around v (c + 1) - around v c) ^ 2 * (around z (c + 1) - around z c)) * x ^ 2 := by
        intro x; simp only [Problem.flux]; ring
      simp only [e]
      rw [FE.integral_quadratic]
      ring

theorem galerkin_near (p : Problem) {m M : ℝ} (v : ℝ) (hv : v ∈ Icc m M) (v' : ℝ) (hv' : v' ∈ Icc m M) (e : ℝ)
    (he : e = (p.flux v + p.flux v') / 2 ∨ (p = .burgers ∧ e = (v ^ 2 + v * v' + v' ^ 2) / 6)) :
    |e - p.flux v| ≤ slopeBound m M * |v' - v| := by
  rcases he with rfl | ⟨rfl, rfl⟩
  · have hl := scalar_lipschitz p v' hv' v hv
    rw [Real.norm_eq_abs, Real.norm_eq_abs] at hl
    rw [show (p.flux v + p.flux v') / 2 - p.flux v = (p.flux v' - p.flux v) / 2 by ring, abs_div, abs_two]
    have := mul_nonneg (slopeBound_pos m M).le (abs_nonneg (v' - v))
    linarith
  · have b := value_bound hv
    have b' := value_bound hv'
    simp only [Problem.flux]
    rw [show (v ^ 2 + v * v' + v' ^ 2) / 6 - 1 / 2 * v ^ 2 = (2 * v + v') / 6 * (v' - v) by ring, abs_mul]
    refine mul_le_mul_of_nonneg_right ?_ (abs_nonneg _)
    rw [_root_.abs_le] at b b' ⊢
    unfold slopeBound
    constructor <;> linarith [b.1, b.2, b'.1, b'.2, abs_nonneg m, abs_nonneg M]

theorem galerkin_form {gauss d s m C} (h : FE.Setup gauss d n 1 s m C)
    (solve : FE.SysMatrix ℝ → List ℝ → Except Error (List ℝ)) (hsolve : FE.Solves solve) (M : FE.SysMatrix ℝ)
    (hM : FE.massMatrix gauss s = .ok M) (p : Problem) (exact : Bool) (lo up : ℝ) :
    FluxForm (vecRhs n fun _ => FE.cgRhs solve gauss s M C p exact) ((d.b - d.a) / n) p.flux (Icc lo up)
      (4 * slopeBound lo up) := by
  intro t v w hv hw
  have hn := h.meshSize
  obtain ⟨l, h1, h2, h4⟩ := vec_ok hw
  have hwl : List.ofFn w = l := by
    rw [← FE.ofFn_getD n l h2]
    congr 1
    funext i
    exact h4 i
  obtain ⟨E, hE, hE', hrow⟩ := galerkin_rows h solve hsolve M hM p exact v w l h1 hwl
  have hdx : 0 < (d.b - d.a) / n := div_pos (by linarith [h.domain]) (by exact_mod_cast hn)
  set dx := (d.b - d.a) / n with hdx'
  have shift : ∀ g : ℤ → ℝ, (∀ z, g (z + n) = g z) →
      ∑ c ∈ Finset.range n, g (c + 1) = ∑ c ∈ Finset.range n, g c ∧
      ∑ c ∈ Finset.range n, g (c - 1) = ∑ c ∈ Finset.range n, g c := by
    intro g hg
    have e0 : g n = g 0 := by simpa using hg 0
    refine ⟨FE.sum_shift n g e0, ?_⟩
    have := FE.sum_shift n (fun z => g (z - 1)) (by
      have := hg (-1)
      rw [show (-1 : ℤ) + n = n - 1 by ring] at this
      simpa using this)
    rw [← this]
    simp only [add_sub_cancel_right]
  have hnear : ∀ c : ℕ, |E c - p.flux (around v c)| ≤ slopeBound lo up * |around v (c + 1) - around v c| := fun c =>
    galerkin_near p _ (around_mem hn v hv c) _ (around_mem hn v hv (c + 1)) _ (hE' c)
  have hlipE : ∑ c ∈ Finset.range n, |E (c - 1) - E c| ≤ 3 * slopeBound lo up * jumps v := by
    have k : ∀ z : ℤ, |E (z - 1) - E z| ≤ |E (z - 1) - p.flux (around v (z - 1))| + |E z - p.flux (around v z)| +
        slopeBound lo up * |around v (z - 1 + 1) - around v (z - 1)| := by
      intro z
      have hl := scalar_lipschitz p _ (around_mem hn v hv z) _ (around_mem hn v hv (z - 1))
      rw [Real.norm_eq_abs, Real.norm_eq_abs] at hl
      have e : E (z - 1) - E z = (E (z - 1) - p.flux (around v (z - 1))) - (E z - p.flux (around v z)) -
          (p.flux (around v z) - p.flux (around v (z - 1))) := by ring
      rw [e, sub_add_cancel]
      exact (abs_sub _ _).trans (add_le_add (abs_sub _ _) hl)
    refine (Finset.sum_le_sum fun (c : ℕ) _ => k c).trans ?_
    rw [Finset.sum_add_distrib, Finset.sum_add_distrib, ← Finset.mul_sum]
    have p1 := (shift (fun z => |E z - p.flux (around v z)|) fun z => by simp only [hE, around_periodic]).2
    have p2 := (shift (fun z => |around v (z + 1) - around v z|) fun z => by
      rw [around_periodic, show z + n + 1 = z + 1 + n by ring, around_periodic]).2
    rw [p1, p2, ← jumps_around hn]
    have := Finset.sum_le_sum fun c (_ : c ∈ Finset.range n) => hnear c
    rw [← Finset.mul_sum, ← jumps_around hn] at this
    linarith
  have hsmall : dx * ∑ c ∈ Finset.range n, |around w c| ≤ 9 * slopeBound lo up * jumps v := by
    have k : ∀ c ∈ Finset.range n, dx * (4 * |around w c|) ≤ 6 * |E (c - 1) - E c| + dx * |around w (c - 1)| +
        dx * |around w (c + 1)| := by
      intro c hc
      have := hrow c (Finset.mem_range.1 hc)
      have e : dx * (4 * around w c) = 6 * (E (c - 1) - E c) - dx * around w (c - 1) - dx * around w (c + 1) := by linarith
      have := congrArg abs e
      rw [abs_mul, abs_mul, abs_of_pos hdx, abs_of_pos (by norm_num : (0 : ℝ) < 4)] at this
      rw [this]
      refine (abs_sub _ _).trans (add_le_add ((abs_sub _ _).trans (add_le_add ?_ ?_)) ?_) <;> rw [abs_mul] <;>
        first | rw [abs_of_pos hdx] | rw [abs_of_pos (by norm_num : (0 : ℝ) < 6)]
    have := Finset.sum_le_sum k
    simp only [Finset.sum_add_distrib, ← Finset.mul_sum] at this
    obtain ⟨q1, q2⟩ := shift (fun z => |around w z|) fun z => by rw [around_periodic]
    rw [q1, q2] at this
    linarith
  refine form_of_edges (fun z => E z + dx / 6 * (around w (z + 1) - around w z)) (fun z => ?_) v w _ _ _ (fun i => ?_) ?_
  · beta_reduce
    rw [hE, show z + n + 1 = z + 1 + n by ring, around_periodic, around_periodic]
  · have := hrow i i.2
    rw [← around_cell w i, sub_add_cancel]
    field_simp
    linarith
  · have k : ∀ c ∈ Finset.range n, |E c + dx / 6 * (around w (c + 1) - around w c) - p.flux (around v c)| ≤
        slopeBound lo up * |around v (c + 1) - around v c| + dx / 6 * |around w (c + 1)| + dx / 6 * |around w c| := by
      intro c _
      have e : E c + dx / 6 * (around w (c + 1) - around w c) - p.flux (around v c) =
        (E c - p.flux (around v c)) + dx / 6 * (around w (c + 1) - around w c) := by ring
      rw [e, add_assoc, ← mul_add]
      refine (abs_add_le _ _).trans (add_le_add (hnear c) ?_)
      rw [abs_mul, abs_of_pos (by linarith : 0 < dx / 6)]
      exact mul_le_mul_of_nonneg_left (abs_sub _ _) (by linarith)
    refine (Finset.sum_le_sum k).trans ?_
    simp only [Finset.sum_add_distrib, ← Finset.mul_sum]
    rw [(shift (fun z => |around w z|) fun z => by rw [around_periodic]).1, ← jumps_around hn]
    linarith

end Verif.WeakLimit
