import Verif.Props.EndTime
import Verif.Props.ElementConvergence

/-!
Property C135: the states at the end of the runs converge to the value of the entropy solution at this time.
-/

set_option linter.unusedSectionVars false

namespace Verif.EntropyLimit

open Verif.Py Verif.Boundary Verif.FV Verif.ODE Verif.Scalar Verif.Convergence Verif.Weak
open Verif.Interpolate Verif.Quadrature Verif.Bench
open Verif.Mesh hiding Error
open MeasureTheory Set

/-! ### Specification -/

/-- `e` is the value of `w` at the end `S` of the strip: on average over the last times, `w` is as near `e` as one likes. -/
def EndsAt (d : Interval ℝ) (t₀ S : ℝ) (w : ℝ × ℝ → ℝ) (e : ℝ → ℝ) : Prop :=
  IntegrableOn e (Ioc d.a d.b) ∧ ∀ η > 0, ∃ h₀ > 0, ∀ h, 0 < h → h ≤ h₀ → h ≤ S - t₀ →
    ∫ z in Ioc (S - h) S ×ˢ Ioc d.a d.b, |w z - e z.2| ≤ η * h

/-- `r` is the piecewise constant function of the state with which a run of the Lax-Friedrichs solver ends, for the runs of
`ComputedBy`. -/
def EndsWith (p : Problem) (m M : ℝ) (points : List (ℝ × ℝ)) (d : Interval ℝ) (f : ℝ → ℝ) (bc : BC ℝ ℝ) (t₀ S : ℝ)
    (n : ℕ) (r : ℝ → ℝ) : Prop :=
  ∃ (mesh : UMesh ℝ) (T : Tableau ℝ) (steps : List ℝ) (s' : Solver ℝ (Fin n → ℝ)), uniformMesh d n = .ok mesh ∧
    (T = forwardEuler ℝ ∨ T = heun ℝ ∨ T = ssp3 ℝ) ∧ (∀ dt ∈ steps, Monotonic p m M ((d.b - d.a) / n) dt) ∧
    t₀ + steps.sum = S ∧
    (Solver.init (fun i : Fin n => (cellAverages points mesh f).getD i 0) t₀).runE T
      (vecRhs n (rhs (laxFriedrichs p.riemann) ((d.b - d.a) / n) bc)) steps = .ok s' ∧
    ∀ (i : Fin n) (x : ℝ), d.a + i * ((d.b - d.a) / n) < x → x ≤ d.a + (i + 1) * ((d.b - d.a) / n) → r x = s'.solution i

/-- `r` is the finite element function of the state with which a run of the low order solver with linear elements ends, for
the runs of `ElementsBy`. -/
def ElementsEnd (p : Problem) (B : ℝ) (d : Interval ℝ) (f : ℝ → ℝ) (t₀ S : ℝ) (n : ℕ) (r : ℝ → ℝ) : Prop :=
  ∃ (gauss : ℕ → List (ℝ × ℝ)) (s : FE.Space ℝ) (m : List ℝ) (C : FE.SysMatrix ℝ) (T : Tableau ℝ) (steps : List ℝ)
    (s' : Solver ℝ (Fin n → ℝ)) (U : ℕ → ℝ → ℝ),
    FE.Setup gauss d n 1 s m C ∧ (T = forwardEuler ℝ ∨ T = heun ℝ ∨ T = ssp3 ℝ) ∧ t₀ + steps.sum = S ∧
    (∀ (j : ℕ) (hj : j < steps.length), ∃ s'',
      (Solver.init (atNodes d f n) t₀).runE T (vecRhs n fun _ => FE.lowRhs p m C) (steps.take j) = .ok s'' ∧
      ElementStep p B ((d.b - d.a) / n) s''.solution steps[j]) ∧
    (Solver.init (atNodes d f n) t₀).runE T (vecRhs n fun _ => FE.lowRhs p m C) steps = .ok s' ∧
    FE.Values s (List.ofFn s'.solution) U ∧
    ∀ (c : Fin n) (x : ℝ), d.a + c * ((d.b - d.a) / n) < x → x ≤ d.a + (c + 1) * ((d.b - d.a) / n) → r x = U c x

/-! ### Helper lemmas -/

theorem ends_law {d : Interval ℝ} {t₀ S : ℝ} {w : ℝ × ℝ → ℝ} {e : ℝ → ℝ} :
    EndsAt d t₀ S w e ↔ EndsLaw d.a (d.b - d.a) t₀ S w e := by
  have hab : d.a + (d.b - d.a) = d.b := by ring
  unfold EndsAt EndsLaw
  rw [hab]

theorem Solves.widen {p : Problem} {m M m' M' t₀ S : ℝ} {d : Interval ℝ} {f : ℝ → ℝ} {w : ℝ × ℝ → ℝ}
    (hw : Solves p m M d f t₀ S w) (hm : m' ≤ m) (hM : M ≤ M') : Solves p m' M' d f t₀ S w :=
  ⟨hw.1, hw.2.1.mono fun _ h => ⟨hm.trans h.1, h.2.trans hM⟩, hw.2.2⟩

theorem majorant_nonneg {f G : ℝ → ℝ} {P V : ℝ} (hP : 0 ≤ P) (hG : Majorant f G P V) : 0 ≤ V := by
  have h1 := hG.mono (show (0 : ℝ) ≤ 0 + P by linarith)
  rw [hG.period] at h1
  linarith

section Volumes

variable {p : Problem} {m M V t₀ S : ℝ} (hm : p = .burgers → 0 < m) (hS : t₀ ≤ S) {points : List (ℝ × ℝ)}
  (hp : AveragingRule points) {d : Interval ℝ} (hd : d.a < d.b) {f G : ℝ → ℝ} (hfr : ∀ x, m ≤ f x ∧ f x ≤ M)
  (hf : ∀ x, f (x + (d.b - d.a)) = f x) (hG : Majorant f G (d.b - d.a) V) {wall il ir : Option (ℝ → ℝ)} {bc : BC ℝ ℝ}
  (hbc : build wall ["periodic"] 1 il ir = .ok bc)

include hm hp hd hfr hf hG hbc in
theorem ends_grid {n : ℕ} (hn : 0 < n) {r : ℝ → ℝ} (hr : EndsWith p m M points d f bc t₀ S n r) :
    ∃ u u0, GridEnd p.flux (top p M) m M V (1 + |1 / M|) d.a (d.b - d.a) t₀ S f G n u u0 r := by
  obtain ⟨mesh, T, steps, s', hmesh, hT, hsteps, hS, hrun, hval⟩ := hr
  have hmM : m ≤ M := (hfr 0).1.trans (hfr 0).2
  have hdx : 0 < (d.b - d.a) / n := div_pos (by linarith) (by exact_mod_cast hn)
  obtain ⟨hcells, hlt, -⟩ := uniform_cells hd hn hmesh
  have hinit : ∀ i : Fin n, m ≤ (cellAverages points mesh f).getD i 0 ∧ (cellAverages points mesh f).getD i 0 ≤ M := fun i =>
    (C58_basic points mesh hlt hp.sum hp.pos hp.inside f).2.2.1 i (by rw [hcells]; exact i.2) m M fun x _ _ => hfr x
  obtain ⟨u, u0, hu⟩ := C132_exists p n hn wall il ir bc hbc d.a _ hdx m M hm T hT steps hsteps
    (Solver.init (fun i : Fin n => (cellAverages points mesh f).getD i 0) t₀) hinit
  obtain ⟨states, hg, h0, s'', e1, e2⟩ := on_grid hm hn hdx wall il ir bc hbc T hT V steps hsteps _ hinit
    (average_variation hp hd hn hmesh hf hG) hu
  rw [hrun] at e1
  obtain rfl : s' = s'' := by simpa using e1
  refine ⟨u, u0, steps, states, hg, hS, fun dt h => ⟨(hsteps dt h).1, step_size hdx hmM (hsteps dt h)⟩, fun i x hx => ?_,
    fun i x hx => ?_⟩
  · rw [h0]
    exact average_near hp hd hn hmesh hf hG i x hx
  · rw [nodeAt_succ] at hx
    rw [← e2]
    exact hval i x hx.1 hx.2

include hm hS hp hd hfr hf hG hbc in
theorem ends_exist {n : ℕ} (hn : 0 < n) : ∃ r, EndsWith p m M points d f bc t₀ S n r := by
  obtain ⟨u, mesh, T, steps, u0, hmesh, hT, hsteps, hsum, hu⟩ := runs_exist hm hS hp hd hfr hf hG hbc n hn
  have hdx : 0 < (d.b - d.a) / n := div_pos (by linarith) (by exact_mod_cast hn)
  obtain ⟨hcells, hlt, -⟩ := uniform_cells hd hn hmesh
  have hinit : ∀ i : Fin n, m ≤ (cellAverages points mesh f).getD i 0 ∧ (cellAverages points mesh f).getD i 0 ≤ M := fun i =>
    (C58_basic points mesh hlt hp.sum hp.pos hp.inside f).2.2.1 i (by rw [hcells]; exact i.2) m M fun x _ _ => hfr x
  obtain ⟨states, hg, h0, s', e1, e2⟩ := on_grid hm hn hdx wall il ir bc hbc T hT V steps hsteps _ hinit
    (average_variation hp hd hn hmesh hf hG) hu
  refine ⟨row d.a ((d.b - d.a) / n) s'.solution, mesh, T, steps, s', hmesh, hT, hsteps, hsum, e1, fun i x h1 h2 => ?_⟩
  exact row_cell hdx s'.solution i x ⟨h1, by rw [nodeAt_succ]; exact h2⟩

end Volumes

section Elements

variable {p : Problem} {K B V t₀ S : ℝ} (hS : t₀ ≤ S)
  {d : Interval ℝ} (hd : d.a < d.b) {f G : ℝ → ℝ} (hfr : ∀ x, -K ≤ f x ∧ f x ≤ K)
  (hf : ∀ x, f (x + (d.b - d.a)) = f x) (hG : Majorant f G (d.b - d.a) V)

/-- The piecewise linear function of node values is near the piecewise constant one. -/
theorem linear_near {n : ℕ} (hn : 0 < n) (hd : d.a < d.b) (v : Fin n → ℝ) (hV : cyclicVariation (List.ofFn v) ≤ V)
    {r : ℝ → ℝ} (hr : ∀ (c : Fin n) (x : ℝ), d.a + c * ((d.b - d.a) / n) < x → x ≤ d.a + (c + 1) * ((d.b - d.a) / n) →
      r x = FE.linearValue d n v c x) :
    IntegrableOn r (Ioc d.a d.b) ∧
      ∫ x in Ioc d.a d.b, |row d.a ((d.b - d.a) / n) v x - r x| ≤ V * ((d.b - d.a) / n) := by
  have hn0 : (0 : ℝ) < n := by exact_mod_cast hn
  have hPn : (n : ℝ) * ((d.b - d.a) / n) = d.b - d.a := by field_simp
  have hcover : d.a + n * ((d.b - d.a) / n) = d.b := by rw [hPn]; ring
  have hdx' : (d.b - d.a) / n = (d.b - d.a) / n := rfl
  have hval : ∀ c : Fin n, ∀ x ∈ Ioc (nodeAt d.a ((d.b - d.a) / n) c) (nodeAt d.a ((d.b - d.a) / n) (c + 1)),
      r x = FE.linearValue d n v c x := fun c x hx => by
    rw [nodeAt_succ] at hx
    exact hr c x hx.1 hx.2
  have hin : ∀ c : Fin n, ∀ x ∈ Ioc (nodeAt d.a ((d.b - d.a) / n) c) (nodeAt d.a ((d.b - d.a) / n) (c + 1)),
      InCell d n c x := fun c x hx => by
    rw [nodeAt_succ] at hx
    unfold nodeAt at hx
    unfold InCell Mesh.node
    push_cast
    constructor
    · refine le_trans (le_of_eq ?_) hx.1.le
      ring
    · refine hx.2.trans (le_of_eq ?_)
      ring
  set dx := (d.b - d.a) / n with hdxd
  have hdx : 0 < dx := div_pos (by linarith) hn0
  have hint : IntegrableOn r (Ioc d.a d.b) := by
    have h1 : IntegrableOn r (⋃ i : Fin n, Ioc (nodeAt d.a dx i) (nodeAt d.a dx (i + 1))) := by
      rw [integrableOn_finite_iUnion]
      intro i
      have hc : Continuous fun x : ℝ => FE.linearValue d n v i x := by
        unfold FE.linearValue FE.place
        fun_prop
      have := (hc.integrableOn_Icc (a := nodeAt d.a dx i) (b := nodeAt d.a dx (i + 1)) (μ := volume)).mono_set Ioc_subset_Icc_self
      exact this.congr_fun (fun x hx => (hval i x hx).symm) measurableSet_Ioc
    refine h1.mono_set fun x hx => ?_
    obtain ⟨i, hi, d1, d2⟩ := interval_cover (nodeAt d.a dx) n x (by rw [nodeAt_zero]; exact hx.1)
      (by unfold nodeAt; rw [hcover]; exact hx.2)
    exact mem_iUnion.2 ⟨⟨i, hi⟩, d1, d2⟩
  refine ⟨hint, ?_⟩
  set J : Fin n → ℝ := fun i => |around v (i + 1 : ℕ) - around v (i : ℕ)| with hJ
  have hb : ∀ x ∈ Ioc d.a d.b, |row d.a dx v x - r x| ≤ |row d.a dx J x - row d.a dx (0 : Fin n → ℝ) x| := by
    intro x hx
    obtain ⟨i, hi, d1, d2⟩ := interval_cover (nodeAt d.a dx) n x (by rw [nodeAt_zero]; exact hx.1)
      (by unfold nodeAt; rw [hcover]; exact hx.2)
    have hmem : x ∈ Ioc (nodeAt d.a dx ((⟨i, hi⟩ : Fin n) : ℕ)) (nodeAt d.a dx (((⟨i, hi⟩ : Fin n) : ℕ) + 1)) := ⟨d1, d2⟩
    rw [row_cell hdx v ⟨i, hi⟩ x hmem, row_cell hdx J ⟨i, hi⟩ x hmem, row_cell hdx 0 ⟨i, hi⟩ x hmem, hval ⟨i, hi⟩ x hmem,
      Pi.zero_apply, sub_zero, hJ]
    dsimp only
    rw [abs_abs]
    obtain ⟨p0, p1, -⟩ := FE.place_bounds hd hn (hin ⟨i, hi⟩ x hmem)
    have e : around v ((i : ℕ) : ℤ) = v ⟨i, hi⟩ := around_cell v ⟨i, hi⟩
    unfold FE.linearValue
    rw [← e]
    have e2 : around v ((i : ℕ) : ℤ) - ((1 - FE.place d n i x) * around v ((i : ℕ) : ℤ) +
        FE.place d n i x * around v (((i : ℕ) : ℤ) + 1)) =
        -(FE.place d n i x * (around v (((i : ℕ) : ℤ) + 1) - around v ((i : ℕ) : ℤ))) := by ring
    rw [e2, abs_neg, abs_mul, abs_of_nonneg p0]
    refine (mul_le_of_le_one_left (abs_nonneg _) p1).trans (le_of_eq ?_)
    push_cast
    rfl
  have i1 : IntegrableOn (fun x => |row d.a dx v x - r x|) (Ioc d.a d.b) := by
    have hb' : ∃ b, ∀ i, -b ≤ v i ∧ v i ≤ b := ⟨∑ i, |v i|, fun i => _root_.abs_le.1
      (Finset.single_le_sum (f := fun i => |v i|) (fun i _ => abs_nonneg _) (Finset.mem_univ i))⟩
    obtain ⟨b, hb'⟩ := hb'
    exact ((space_integrable (row_measurable v) (row_range hn v hb')).sub hint).abs
  have i2 : IntegrableOn (fun x => |row d.a dx J x - row d.a dx (0 : Fin n → ℝ) x|) (Ioc d.a d.b) := by
    have hb' : ∃ b, ∀ i, -b ≤ J i ∧ J i ≤ b := ⟨∑ i, |J i|, fun i => _root_.abs_le.1
      (Finset.single_le_sum (f := fun i => |J i|) (fun i _ => abs_nonneg _) (Finset.mem_univ i))⟩
    obtain ⟨b, hb'⟩ := hb'
    exact ((space_integrable (row_measurable J) (row_range hn J hb')).sub
      (space_integrable (row_measurable (0 : Fin n → ℝ)) (row_range (m := 0) (M := 0) hn 0 fun i => by simp))).abs
  refine (setIntegral_mono_on i1 i2 measurableSet_Ioc hb).trans ?_
  have e := row_distance (a := d.a) hn hdx J 0
  rw [hcover] at e
  rw [e, mul_comm]
  refine mul_le_mul_of_nonneg_right ?_ hdx.le
  rw [cyclicVariation_eq _ n (by simp) hn, ← Fin.sum_univ_eq_sum_range
    (fun j => |(List.ofFn v).getD ((j + 1) % n) 0 - (List.ofFn v).getD (j % n) 0|)] at hV
  refine le_of_eq_of_le ?_ hV
  unfold distance
  refine Finset.sum_congr rfl fun i _ => ?_
  simp only [hJ, Pi.zero_apply, sub_zero, abs_abs]
  rw [FE.around_nat _ _ hn, FE.around_nat _ _ hn]

include hd hfr hf hG in
theorem elements_end {n : ℕ} (h3 : 3 ≤ n) {r : ℝ → ℝ} (hr : ElementsEnd p B d f t₀ S n r) :
    ∃ u u0 r', GridEnd p.flux (elementTop p K) (-K) K V B d.a (d.b - d.a) t₀ S f G n u u0 r' ∧
      IntegrableOn r (Ioc d.a d.b) ∧ IntegrableOn r' (Ioc d.a d.b) ∧
      ∫ x in Ioc d.a d.b, |r' x - r x| ≤ V * ((d.b - d.a) / n) := by
  obtain ⟨gauss, s, mass, C, T, steps, s', U, h, hT, hsum, hsteps, hrun, hU, hval⟩ := hr
  obtain ⟨u, u0, states, hg, -, hst⟩ := element_grid hd hfr hf hG h h3 hT hsteps hsum
  have hn := h.meshSize
  have hdx : 0 < (d.b - d.a) / n := div_pos (by linarith) (by exact_mod_cast hn)
  have hcells : s.cells.length = n := by
    obtain ⟨s1, s2, s3, -⟩ := FE.setup_facts h
    exact s2
  have h0 : states 0 = atNodes d f n := by
    obtain ⟨s₁, a1, a2, -⟩ := hst 0 (Nat.zero_le _)
    simp only [List.take_zero, Solver.runE] at a1
    obtain rfl : Solver.init (atNodes d f n) t₀ = s₁ := by simpa using a1
    exact a2.symm
  have hlast : s'.solution = states steps.length := by
    obtain ⟨s₁, a1, a2, -⟩ := hst steps.length le_rfl
    rw [List.take_length, hrun] at a1
    obtain rfl : s' = s₁ := by simpa using a1
    exact a2
  obtain ⟨i1, i2⟩ := linear_near (r := r) hn hd (states steps.length) (hg.variation _ le_rfl) fun c x h1 h2 => by
    have e1 := hval c x h1 h2
    have e2 := hU.2 c (by rw [hcells]; exact c.2) x
    rw [hlast] at e2
    have e3 := (FE.linear_value h (states steps.length)).2 c (by rw [hcells]; exact c.2) x
    rw [e2] at e3
    rw [e1]
    simpa using e3
  refine ⟨u, u0, row d.a ((d.b - d.a) / n) (states steps.length), ⟨steps, states, hg, hsum, fun dt hdt => ?_, fun i x hx => ?_,
    fun i x hx => row_cell hdx _ i x hx⟩, i1, space_integrable (row_measurable _) (row_range hn _ (hg.range _ le_rfl)), i2⟩
  · obtain ⟨j, hj, rfl⟩ := List.getElem_of_mem hdt
    obtain ⟨s₁, -, a⟩ := hsteps j hj
    exact ⟨a.1, a.2.1⟩
  · rw [h0]
    exact nodes_near hd hn hf hG i x hx

include hS hd hfr hf hG in
theorem elements_end_exist (hB : 0 < B) (n : ℕ) (h3 : 3 ≤ n) : ∃ r, ElementsEnd p B d f t₀ S n r := by
  have hn : 0 < n := by omega
  have hdx : 0 < (d.b - d.a) / n := div_pos (by linarith) (by exact_mod_cast hn)
  obtain ⟨gauss, s, mass, C, h⟩ := FE.exists_setup d hd n 1 hn one_pos
  obtain ⟨steps, hsteps, hsum⟩ := steps_exist (p := p) hS hd hfr hB (by linarith [(hfr 0).1, (hfr 0).2]) n hn
  have hfix := element_fixed (T := forwardEuler ℝ) h h3 (Or.inl rfl) (Solver.init (atNodes d f n) t₀) steps hsteps
  obtain ⟨s', a1, -⟩ := hfix steps.length le_rfl
  rw [List.take_length] at a1
  have hx := nodeAt_mono d.a _ hdx.le
  classical
  refine ⟨fun x => if h' : ∃ i : Fin n, nodeAt d.a ((d.b - d.a) / n) i < x ∧ x ≤ nodeAt d.a ((d.b - d.a) / n) (i + 1) then
      FE.linearValue d n s'.solution h'.choose x else 0,
    gauss, s, mass, C, forwardEuler ℝ, steps, s', FE.linearValue d n s'.solution, h, Or.inl rfl, hsum,
    fun j hj => (hfix j hj.le).imp fun s₁ a => ⟨a.1, a.2 _ (hsteps _ (List.getElem_mem hj))⟩, a1, FE.linear_value h _,
    fun c x b1 b2 => ?_⟩
  rw [← nodeAt_succ] at b2
  have e2 : ∃ i : Fin n, nodeAt d.a ((d.b - d.a) / n) i < x ∧ x ≤ nodeAt d.a ((d.b - d.a) / n) (i + 1) := ⟨c, b1, b2⟩
  beta_reduce
  rw [dif_pos e2, interval_unique _ hx x e2.choose_spec ⟨b1, b2⟩]

end Elements

/-! ### The property -/

/-- C135.  The states at the end of the runs of the Lax-Friedrichs solver converge in the mean to the value `e` that the
entropy solution `w` has at this time: as in C133, for every tolerance there is a number of cells from which on every run
ends within the tolerance, with any of the three integrators and any time steps within the condition. -/
theorem C135_converges (p : Problem) (m M V t₀ S : ℝ) (hm : p = .burgers → 0 < m) (hS : t₀ < S) (points : List (ℝ × ℝ))
    (hp : AveragingRule points) (d : Interval ℝ) (hd : d.a < d.b) (f G : ℝ → ℝ) (hfr : ∀ x, m ≤ f x ∧ f x ≤ M)
    (hf : ∀ x, f (x + (d.b - d.a)) = f x) (hG : Majorant f G (d.b - d.a) V) (wall il ir : Option (ℝ → ℝ)) (bc : BC ℝ ℝ)
    (hbc : build wall ["periodic"] 1 il ir = .ok bc) (w : ℝ × ℝ → ℝ) (hw : Solves p m M d f t₀ S w) (e : ℝ → ℝ)
    (he : EndsAt d t₀ S w e) (η : ℝ) (hη : 0 < η) :
    ∃ N : ℕ, ∀ n : ℕ, N ≤ n → 0 < n → ∀ r, EndsWith p m M points d f bc t₀ S n r → ∫ x in Ioc d.a d.b, |r x - e x| ≤ η := by
  have hab : d.a + (d.b - d.a) = d.b := by ring
  have hmM : m ≤ M := (hfr 0).1.trans (hfr 0).2
  obtain ⟨N, hN⟩ := end_converges (flux_measurable p) (flux_slope hm hmM) (by linarith) hfr hG
    (by positivity : (0 : ℝ) ≤ 1 + |1 / M|) hS w (solves_law.1 hw) e (ends_law.1 he) η hη
  refine ⟨N, fun n h hn r hr => ?_⟩
  obtain ⟨u, u0, hu⟩ := ends_grid hm hp hd hfr hf hG hbc hn hr
  have := hN n h hn u u0 r hu
  rwa [hab] at this

/-- C135.  The same for the low order finite element solver with linear elements, and data of any sign. -/
theorem C135_elements (p : Problem) (K B V t₀ S : ℝ) (hB : 0 ≤ B) (hS : t₀ < S) (d : Interval ℝ) (hd : d.a < d.b)
    (f G : ℝ → ℝ) (hfr : ∀ x, -K ≤ f x ∧ f x ≤ K) (hf : ∀ x, f (x + (d.b - d.a)) = f x)
    (hG : Majorant f G (d.b - d.a) V) (w : ℝ × ℝ → ℝ) (hw : Solves p (-K) K d f t₀ S w) (e : ℝ → ℝ)
    (he : EndsAt d t₀ S w e) (η : ℝ) (hη : 0 < η) :
    ∃ N : ℕ, ∀ n : ℕ, N ≤ n → ∀ r, ElementsEnd p B d f t₀ S n r → ∫ x in Ioc d.a d.b, |r x - e x| ≤ η := by
  have hab : d.a + (d.b - d.a) = d.b := by ring
  have hK : 0 ≤ K := by linarith [(hfr 0).1, (hfr 0).2]
  have hV := majorant_nonneg (by linarith) hG
  obtain ⟨N, hN⟩ := end_converges (flux_measurable p) (node_slope p hK le_rfl le_rfl) (by linarith) hfr hG hB hS w
    (solves_law.1 hw) e (ends_law.1 he) (η / 2) (by linarith)
  obtain ⟨N', hN'⟩ := fine_mesh (c := 1) (by linarith : 0 < d.b - d.a) zero_le_one V (η / 2) hV (by linarith)
  refine ⟨max 3 (max N N'), fun n h r hr => ?_⟩
  have h3 : 3 ≤ n := (le_max_left _ _).trans h
  obtain ⟨u, u0, r', hu, i1, i2, hnear⟩ := elements_end hd hfr hf hG h3 hr
  have a1 := hN n ((le_max_left _ _).trans ((le_max_right _ _).trans h)) (by omega) u u0 r' hu
  have a2 := hN' n ((le_max_right _ _).trans ((le_max_right _ _).trans h)) (by omega)
  rw [hab] at a1
  rw [one_mul] at a2
  have j1 : IntegrableOn (fun x => |r' x - r x|) (Ioc d.a d.b) := (i2.sub i1).abs
  have j2 : IntegrableOn (fun x => |r' x - e x|) (Ioc d.a d.b) := (i2.sub he.1).abs
  have j3 : IntegrableOn (fun x => |r x - e x|) (Ioc d.a d.b) := (i1.sub he.1).abs
  have tri : ∫ x in Ioc d.a d.b, |r x - e x| ≤ (∫ x in Ioc d.a d.b, |r' x - r x|) + ∫ x in Ioc d.a d.b, |r' x - e x| := by
    rw [← integral_add j1 j2]
    refine integral_mono j3 (j1.add j2) fun x => ?_
    simp only
    rw [abs_sub_comm (r' x) (r x)]
    exact abs_sub_le _ _ _
  linarith

/-- C135.  The entropy solution has a value at every end, which it approaches linearly in the mean, and only one up to sets
of measure zero. -/
theorem C135_value (p : Problem) (m M K V t₀ S : ℝ) (hm : -K ≤ m) (hM : M ≤ K) (hS : t₀ < S) (d : Interval ℝ) (hd : d.a < d.b)
    (f G : ℝ → ℝ) (hfr : ∀ x, -K ≤ f x ∧ f x ≤ K) (hf : ∀ x, f (x + (d.b - d.a)) = f x)
    (hG : Majorant f G (d.b - d.a) V) (w : ℝ × ℝ → ℝ) (hw : Solves p m M d f t₀ S w) :
    (∃ e, EndsAt d t₀ S w e ∧ ∀ h, 0 < h → h ≤ S - t₀ →
      ∫ z in Ioc (S - h) S ×ˢ Ioc d.a d.b, |w z - e z.2| ≤ 2 * elementTop p K * V * h ^ 2) ∧
    ∀ e e', EndsAt d t₀ S w e → EndsAt d t₀ S w e' → ∀ᵐ x ∂volume.restrict (Ioc d.a d.b), e x = e' x := by
  have hab : d.a + (d.b - d.a) = d.b := by ring
  have hK : 0 ≤ K := by linarith [(hfr 0).1, (hfr 0).2]
  have hV := majorant_nonneg (by linarith) hG
  have hq : Slope p.flux (-K) K (elementTop p K) := node_slope p hK le_rfl le_rfl
  have hL : 0 ≤ 2 * elementTop p K * V := by
    have := hq.nonneg
    positivity
  constructor
  · obtain ⟨e, e1, e2⟩ := end_exists (flux_measurable p) hq (by linarith) hfr hG zero_le_one hS 2 (fun n hn => by
      obtain ⟨r, hr⟩ := elements_end_exist (p := p) (B := 1) hS.le hd hfr hf hG one_pos n hn
      obtain ⟨u, u0, r', hu, -⟩ := elements_end hd hfr hf hG hn hr
      exact ⟨u, u0, r', hu⟩) w (solves_law.1 (hw.widen hm hM))
    rw [hab] at e1 e2
    refine ⟨e, ⟨e1, fun η hη => ⟨η / (2 * elementTop p K * V + 1), by positivity, fun h h0 h1 h2 => ?_⟩⟩, e2⟩
    refine (e2 h h0 h2).trans ?_
    rw [le_div_iff₀ (by positivity)] at h1
    rw [pow_two, ← mul_assoc]
    exact mul_le_mul_of_nonneg_right (by linarith) h0.le
  · intro e e' he he'
    have hint : Integrable (fun x => |e x - e' x|) (volume.restrict (Ioc d.a d.b)) := (he.1.sub he'.1).abs
    have hz : ∫ x in Ioc d.a d.b, |e x - e' x| = 0 := by
      refine le_antisymm (le_of_forall_pos_le_add fun η hη => ?_) (integral_nonneg fun _ => abs_nonneg _)
      obtain ⟨h₁, p1, q1⟩ := he.2 (η / 2) (by linarith)
      obtain ⟨h₂, p2, q2⟩ := he'.2 (η / 2) (by linarith)
      set h := min (min h₁ h₂) (S - t₀) with hh
      have h0 : 0 < h := lt_min (lt_min p1 p2) (by linarith)
      have b1 := q1 h h0 ((min_le_left _ _).trans (min_le_left _ _)) (min_le_right _ _)
      have b2 := q2 h h0 ((min_le_left _ _).trans (min_le_right _ _)) (min_le_right _ _)
      have hsub : Ioc (S - h) S ×ˢ Ioc d.a d.b ⊆ Ioc t₀ S ×ˢ Ioc d.a d.b :=
        Set.prod_mono (Ioc_subset_Ioc (by linarith [min_le_right (min h₁ h₂) (S - t₀)]) le_rfl) subset_rfl
      have iw := hw.1.mono_set hsub
      have ie := last_integrable (S := S) h he.1
      have ie' := last_integrable (S := S) h he'.1
      have j1 : IntegrableOn (fun z : ℝ × ℝ => |w z - e z.2|) (Ioc (S - h) S ×ˢ Ioc d.a d.b) := (iw.sub ie).abs
      have j2 : IntegrableOn (fun z : ℝ × ℝ => |w z - e' z.2|) (Ioc (S - h) S ×ˢ Ioc d.a d.b) := (iw.sub ie').abs
      have j3 : IntegrableOn (fun z : ℝ × ℝ => |e z.2 - e' z.2|) (Ioc (S - h) S ×ˢ Ioc d.a d.b) := (ie.sub ie').abs
      have tri : ∫ z in Ioc (S - h) S ×ˢ Ioc d.a d.b, |e z.2 - e' z.2| ≤
          (∫ z in Ioc (S - h) S ×ˢ Ioc d.a d.b, |w z - e z.2|) + ∫ z in Ioc (S - h) S ×ˢ Ioc d.a d.b, |w z - e' z.2| := by
        rw [← integral_add j1 j2]
        refine integral_mono j3 (j1.add j2) fun z => ?_
        simp only
        rw [abs_sub_comm (w z) (e z.2)]
        exact abs_sub_le _ _ _
      rw [last_const h h0.le (fun x => |e x - e' x|)] at tri
      rw [zero_add]
      refine le_of_mul_le_mul_left ?_ h0
      linarith
    rw [integral_eq_zero_iff_of_nonneg (fun _ => abs_nonneg _) hint] at hz
    filter_upwards [hz] with x hx
    have : |e x - e' x| = 0 := hx
    linarith [abs_eq_zero.1 this]

/-- C135.  If `w` is continuous, then its value at the end is what one expects. -/
theorem C135_continuous (t₀ S : ℝ) (hS : t₀ < S) (d : Interval ℝ) (hd : d.a < d.b) (w : ℝ × ℝ → ℝ)
    (hw : ContinuousOn w (Icc t₀ S ×ˢ Icc d.a d.b)) : EndsAt d t₀ S w fun x => w (S, x) := by
  have hc : IsCompact (Icc t₀ S ×ˢ Icc d.a d.b) := isCompact_Icc.prod isCompact_Icc
  have he : ContinuousOn (fun x => w (S, x)) (Icc d.a d.b) :=
    hw.comp (by fun_prop) fun x hx => ⟨⟨hS.le, le_rfl⟩, hx⟩
  have ie : IntegrableOn (fun x => w (S, x)) (Ioc d.a d.b) := he.integrableOn_Icc.mono_set Ioc_subset_Icc_self
  refine ⟨ie, fun η hη => ?_⟩
  have hu := hc.uniformContinuousOn_of_continuous hw
  rw [Metric.uniformContinuousOn_iff] at hu
  obtain ⟨δ, hδ, hu⟩ := hu (η / (d.b - d.a)) (div_pos hη (by linarith))
  refine ⟨δ / 2, by linarith, fun h h0 h1 h2 => ?_⟩
  have hsub : Ioc (S - h) S ×ˢ Ioc d.a d.b ⊆ Icc t₀ S ×ˢ Icc d.a d.b :=
    Set.prod_mono (fun t ht => ⟨by linarith [ht.1], ht.2⟩) Ioc_subset_Icc_self
  have iw : IntegrableOn w (Ioc (S - h) S ×ˢ Ioc d.a d.b) := (hw.integrableOn_compact hc).mono_set hsub
  have j : IntegrableOn (fun z : ℝ × ℝ => |w z - w (S, z.2)|) (Ioc (S - h) S ×ˢ Ioc d.a d.b) :=
    (iw.sub (last_integrable (S := S) h ie)).abs
  have := last_times (S := S) h h0.le (fun z => |w z - w (S, z.2)|) j η fun t ht => by
    have hb : ∀ x ∈ Ioc d.a d.b, |w (t, x) - w (S, x)| ≤ η / (d.b - d.a) := fun x hx => by
      have m1 : (t, x) ∈ Icc t₀ S ×ˢ Icc d.a d.b := hsub ⟨ht, hx⟩
      have m2 : (S, x) ∈ Icc t₀ S ×ˢ Icc d.a d.b := ⟨⟨hS.le, le_rfl⟩, hx.1.le, hx.2⟩
      have := hu _ m1 _ m2 (by
        rw [Prod.dist_eq, dist_self, Real.dist_eq, max_lt_iff]
        refine ⟨?_, hδ⟩
        rw [abs_lt]
        constructor <;> linarith [ht.1, ht.2])
      rw [Real.dist_eq] at this
      exact this.le
    have ht' : t ∈ Icc t₀ S := ⟨by linarith [ht.1], ht.2⟩
    have c1 : ContinuousOn (fun x => w (t, x)) (Icc d.a d.b) := hw.comp (by fun_prop) fun x hx => ⟨ht', hx⟩
    have i1 : IntegrableOn (fun x => |w (t, x) - w (S, x)|) (Ioc d.a d.b) :=
      ((c1.sub he).abs).integrableOn_Icc.mono_set Ioc_subset_Icc_self
    refine (setIntegral_mono_on i1 (integrableOn_const measure_Ioc_lt_top.ne) measurableSet_Ioc hb).trans (le_of_eq ?_)
    rw [setIntegral_const, Measure.real, Real.volume_Ioc, ENNReal.toReal_ofReal (by linarith), smul_eq_mul]
    have : d.b - d.a ≠ 0 := by linarith
    field_simp
  linarith

/-- C135.  There are runs on every mesh, of both solvers. -/
theorem C135_runs (p : Problem) (m M B V t₀ S : ℝ) (hm : p = .burgers → 0 < m) (hB : 0 < B) (hS : t₀ ≤ S)
    (points : List (ℝ × ℝ)) (hp : AveragingRule points) (d : Interval ℝ) (hd : d.a < d.b) (f G : ℝ → ℝ)
    (hfr : ∀ x, m ≤ f x ∧ f x ≤ M) (hf : ∀ x, f (x + (d.b - d.a)) = f x) (hG : Majorant f G (d.b - d.a) V)
    (wall il ir : Option (ℝ → ℝ)) (bc : BC ℝ ℝ) (hbc : build wall ["periodic"] 1 il ir = .ok bc) :
    (∀ n : ℕ, 0 < n → ∃ r, EndsWith p m M points d f bc t₀ S n r) ∧ ∀ n : ℕ, 3 ≤ n → ∃ r, ElementsEnd p B d f t₀ S n r := by
  refine ⟨fun n hn => ends_exist hm hS hp hd hfr hf hG hbc hn, fun n hn => ?_⟩
  exact elements_end_exist (K := |m| + |M|) hS hd (fun x => by
    have := hfr x
    constructor <;> linarith [neg_abs_le m, le_abs_self m, neg_abs_le M, le_abs_self M, abs_nonneg m, abs_nonneg M]) hf hG hB n hn

/-- C135.  For linear advection and Lipschitz continuous periodic data, both solvers end near the data moved by the time
that has passed, which is what the error calculation of the command line compares with. -/
theorem C135_advection (m M B L t₀ S : ℝ) (hB : 0 ≤ B) (hS : t₀ < S) (points : List (ℝ × ℝ)) (hp : AveragingRule points)
    (d : Interval ℝ) (hd : d.a < d.b) (f : ℝ → ℝ) (hfr : ∀ x, m ≤ f x ∧ f x ≤ M) (hf : ∀ x, f (x + (d.b - d.a)) = f x)
    (hL : ∀ x y, |f x - f y| ≤ L * |x - y|) (wall il ir : Option (ℝ → ℝ)) (bc : BC ℝ ℝ)
    (hbc : build wall ["periodic"] 1 il ir = .ok bc) (η : ℝ) (hη : 0 < η) :
    ∃ N : ℕ, ∀ n : ℕ, N ≤ n → 0 < n →
      (∀ r, EndsWith .advection m M points d f bc t₀ S n r → ∫ x in Ioc d.a d.b, |r x - f (x - (S - t₀))| ≤ η) ∧
      ∀ r, ElementsEnd .advection B d f t₀ S n r → ∫ x in Ioc d.a d.b, |r x - f (x - (S - t₀))| ≤ η := by
  have hL0 : 0 ≤ L := by
    have := (abs_nonneg _).trans (hL 1 0)
    simpa using this
  have hc : Continuous f := by
    have : LipschitzWith (Real.toNNReal L) f := LipschitzWith.of_dist_le_mul fun x y => by
      rw [Real.dist_eq, Real.dist_eq, Real.coe_toNNReal _ hL0]
      exact hL x y
    exact this.continuous
  have hG : Majorant f (fun x => L * x) (d.b - d.a) (L * (d.b - d.a)) := ⟨fun x y hxy => by
    have := hL y x
    rw [abs_of_nonneg (by linarith : 0 ≤ y - x)] at this
    first | linarith | (rw [abs_sub_comm]; linarith), fun x => by ring⟩
  have hcw : Continuous fun z : ℝ × ℝ => f (z.2 - (z.1 - t₀)) := by fun_prop
  have hw : Solves .advection m M d f t₀ S fun z => f (z.2 - (z.1 - t₀)) :=
    ⟨(hcw.continuousOn.integrableOn_compact (isCompact_Icc.prod isCompact_Icc)).mono_set
      (Set.prod_mono Ioc_subset_Icc_self Ioc_subset_Icc_self), Filter.Eventually.of_forall fun z => hfr _,
      C132_advection L t₀ S hS.le d hd f hf hL⟩
  have he := C135_continuous t₀ S hS d hd _ (hcw.continuousOn)
  obtain ⟨N, hN⟩ := C135_converges .advection m M _ t₀ S nofun hS points hp d hd f _ hfr hf hG wall il ir bc hbc _ hw _ he η hη
  have b1 : -(|m| + |M|) ≤ m := by linarith [neg_abs_le m, abs_nonneg M]
  have b2 : M ≤ |m| + |M| := by linarith [le_abs_self M, abs_nonneg m]
  obtain ⟨N', hN'⟩ := C135_elements .advection (|m| + |M|) B _ t₀ S hB hS d hd f _
    (fun x => ⟨b1.trans (hfr x).1, (hfr x).2.trans b2⟩) hf hG _ (hw.widen b1 b2) _ he η hη
  exact ⟨max N N', fun n h hn => ⟨hN n ((le_max_left _ _).trans h) hn, hN' n ((le_max_right _ _).trans h)⟩⟩

/-! ### Examples -/

/-- The plateau of `benchmark/burgers.py` style data, ended at time 2: there is one value and the runs of the
Lax-Friedrichs solver end near it. -/
example (bc : BC ℝ ℝ) (hbc : build none ["periodic"] 1 none none = .ok bc) :
    ∃ w e, Solves .burgers 1 2 ⟨0, 1⟩ (fun x => plateau (Int.fract x)) 0 2 w ∧ EndsAt ⟨0, 1⟩ 0 2 w e ∧
      (∀ η > 0, ∃ N : ℕ, ∀ n : ℕ, N ≤ n → 0 < n →
        ∀ r, EndsWith .burgers 1 2 [(0, 2)] ⟨0, 1⟩ (fun x => plateau (Int.fract x)) bc 0 2 n r →
          ∫ x in Ioc 0 1, |r x - e x| ≤ η) ∧
      ∀ n : ℕ, 0 < n → ∃ r, EndsWith .burgers 1 2 [(0, 2)] ⟨0, 1⟩ (fun x => plateau (Int.fract x)) bc 0 2 n r := by
  have hr : ∀ x, (1 : ℝ) ≤ plateau (Int.fract x) ∧ plateau (Int.fract x) ≤ 2 := fun x => by
    unfold plateau
    split_ifs <;> norm_num
  have e : ((⟨0, 1⟩ : Interval ℝ).b - (⟨0, 1⟩ : Interval ℝ).a) = 1 := by simp
  have hper : ∀ x, plateau (Int.fract (x + ((⟨0, 1⟩ : Interval ℝ).b - (⟨0, 1⟩ : Interval ℝ).a))) = plateau (Int.fract x) :=
    fun x => by rw [e, Int.fract_add_one]
  have hG := plateau_majorant
  rw [← e] at hG
  obtain ⟨⟨w, hw⟩, -⟩ := C133_solution .burgers 1 2 2 0 2 (by norm_num) (by norm_num) ⟨0, 1⟩ (by norm_num) _ _ hr hper hG
  obtain ⟨⟨v, hv, -⟩, -⟩ := C135_value .burgers 1 2 2 2 0 2 (by norm_num) le_rfl (by norm_num) ⟨0, 1⟩ (by norm_num) _ _
    (fun x => ⟨by linarith [(hr x).1], (hr x).2⟩) hper hG w hw
  exact ⟨w, v, hw, hv, C135_converges .burgers 1 2 2 0 2 (by norm_num) (by norm_num) [(0, 2)] midpoint_rule ⟨0, 1⟩ (by norm_num)
    _ _ hr hper hG none none none bc hbc w hw v hv, (C135_runs .burgers 1 2 1 2 0 2 (by norm_num) one_pos (by norm_num) [(0, 2)]
    midpoint_rule ⟨0, 1⟩ (by norm_num) _ _ hr hper hG none none none bc hbc).1⟩

/-- The benchmarks of `benchmark/burgers.py` at any time, also after the shock, with linear elements. -/
example (b : Burgers) (S : ℝ) (hS : 0 < S) :
    ∃ w e, Solves .burgers (-2) 2 b.domain b.initial 0 S w ∧ EndsAt b.domain 0 S w e ∧
      ∀ η > 0, ∃ N : ℕ, ∀ n : ℕ, N ≤ n → ∀ r, ElementsEnd .burgers 1 b.domain b.initial 0 S n r →
        ∫ x in Ioc b.domain.a b.domain.b, |r x - e x| ≤ η := by
  obtain ⟨h1, h2, h3⟩ := burgers_data b
  have hd : b.domain.a < b.domain.b := by
    cases b <;> simp only [Burgers.domain]
    · norm_num
    · positivity
  obtain ⟨⟨w, hw⟩, -⟩ := C134_solution .burgers 2 _ 0 S hS.le b.domain hd _ _ h1 h2 h3
  obtain ⟨⟨e, he, -⟩, -⟩ := C135_value .burgers (-2) 2 2 _ 0 S le_rfl le_rfl hS b.domain hd _ _ h1 h2 h3 w hw
  exact ⟨w, e, hw, he, C135_elements .burgers 2 1 _ 0 S zero_le_one hS b.domain hd _ _ h1 h2 h3 w hw e he⟩

/-- A sine advected once around ends near itself. -/
example (bc : BC ℝ ℝ) (hbc : build none ["periodic"] 1 none none = .ok bc) (η : ℝ) (hη : 0 < η) :
    ∃ N : ℕ, ∀ n : ℕ, N ≤ n → 0 < n → ∀ r,
      EndsWith .advection (-1) 1 [(0, 2)] ⟨0, 2 * Real.pi⟩ Real.sin bc 0 (2 * Real.pi) n r →
        ∫ x in Ioc 0 (2 * Real.pi), |r x - Real.sin x| ≤ η := by
  obtain ⟨N, hN⟩ := C135_advection (-1) 1 1 1 0 (2 * Real.pi) zero_le_one (by positivity) [(0, 2)] midpoint_rule
    ⟨0, 2 * Real.pi⟩ (by simp [Real.pi_pos]) Real.sin (fun x => ⟨Real.neg_one_le_sin x, Real.sin_le_one x⟩)
    (fun x => by simp) (fun x y => by
      have := Real.abs_sin_sub_sin_le x y
      linarith) none none none bc hbc η hη
  refine ⟨N, fun n h hn r hr => ?_⟩
  have := (hN n h hn).1 r hr
  simpa using this

end Verif.EntropyLimit
