import Verif.Props.EntropyScheme
import Verif.Props.EntropyExact
import Verif.Props.EOC

/-!
Property C133: the solutions computed with the Lax-Friedrichs flux converge to the entropy solution, which exists and is
unique.
-/

set_option linter.unusedSectionVars false

namespace Verif.EntropyLimit

open Verif.Py Verif.Boundary Verif.FV Verif.ODE Verif.Scalar Verif.Convergence Verif.Weak
open Verif.Interpolate Verif.Quadrature Verif.Bench
open Verif.Mesh hiding Error
open MeasureTheory Set

/-! ### Specification -/

/-- `u` is the function that a run computes on `n` cells of the interval `d` from the cell averages of `f`, for the times
from `t₀` to `S`: with the Lax-Friedrichs flux, one of the three strong stability preserving integrators, and time steps
within the condition `Monotonic`. -/
def ComputedBy (p : Problem) (m M : ℝ) (points : List (ℝ × ℝ)) (d : Interval ℝ) (f : ℝ → ℝ) (bc : BC ℝ ℝ) (t₀ S : ℝ)
    (n : ℕ) (u : ℝ × ℝ → ℝ) : Prop :=
  ∃ (mesh : UMesh ℝ) (T : Tableau ℝ) (steps : List ℝ) (u0 : ℝ → ℝ), uniformMesh d n = .ok mesh ∧
    (T = forwardEuler ℝ ∨ T = heun ℝ ∨ T = ssp3 ℝ) ∧ (∀ dt ∈ steps, Monotonic p m M ((d.b - d.a) / n) dt) ∧
    t₀ + steps.sum = S ∧
    Computed T (vecRhs n (rhs (laxFriedrichs p.riemann) ((d.b - d.a) / n) bc))
      (Solver.init (fun i : Fin n => (cellAverages points mesh f).getD i 0) t₀) steps d.a ((d.b - d.a) / n) u u0

/-- `w` is an entropy solution with the data `f` and values between `m` and `M`. -/
def Solves (p : Problem) (m M : ℝ) (d : Interval ℝ) (f : ℝ → ℝ) (t₀ S : ℝ) (w : ℝ × ℝ → ℝ) : Prop :=
  IntegrableOn w (Ioc t₀ S ×ˢ Ioc d.a d.b) ∧
    (∀ᵐ z ∂volume.restrict (Ioc t₀ S ×ˢ Ioc d.a d.b), m ≤ w z ∧ w z ≤ M) ∧
    EntropySolution p.flux d.a (d.b - d.a) t₀ S w f

/-! ### Helper lemmas -/

theorem solves_law {p : Problem} {m M : ℝ} {d : Interval ℝ} {f : ℝ → ℝ} {t₀ S : ℝ} {w : ℝ × ℝ → ℝ} :
    Solves p m M d f t₀ S w ↔ SolvesLaw p.flux m M d.a (d.b - d.a) f t₀ S w := by
  have hab : d.a + (d.b - d.a) = d.b := by ring
  unfold Solves SolvesLaw
  rw [hab]

section Data

variable {p : Problem} {m M V t₀ S : ℝ} (hm : p = .burgers → 0 < m) (hS : t₀ ≤ S) {points : List (ℝ × ℝ)}
  (hp : AveragingRule points) {d : Interval ℝ} (hd : d.a < d.b) {f G : ℝ → ℝ} (hfr : ∀ x, m ≤ f x ∧ f x ≤ M)
  (hf : ∀ x, f (x + (d.b - d.a)) = f x) (hG : Majorant f G (d.b - d.a) V) {wall il ir : Option (ℝ → ℝ)} {bc : BC ℝ ℝ}
  (hbc : build wall ["periodic"] 1 il ir = .ok bc)

include hm hS hd hfr hf hG hp hbc in
/-- There are runs on every mesh. -/
theorem runs_exist (n : ℕ) (hn : 0 < n) : ∃ u, ComputedBy p m M points d f bc t₀ S n u := by
  have hmM : m ≤ M := (hfr 0).1.trans (hfr 0).2
  have hn0 : (0 : ℝ) < n := by exact_mod_cast hn
  set dx := (d.b - d.a) / n with hdx'
  have hdx : 0 < dx := div_pos (by linarith) hn0
  set c := 1 + 2 * |M| with hc
  have hc0 : 0 < c := by positivity
  have hcm : ∀ dt, 0 ≤ dt → dt * c ≤ dx → Monotonic p m M dx dt := by
    intro dt h0 h1
    have h2 : 0 ≤ dt * |M| := by positivity
    refine ⟨h0, fun _ => by simp only [hc] at h1; linarith, fun h => ⟨hm h, ?_⟩⟩
    have h3 : dt * M ≤ dt * |M| := mul_le_mul_of_nonneg_left (le_abs_self M) h0
    simp only [hc] at h1
    linarith
  obtain ⟨mesh, hmesh⟩ : ∃ mesh, uniformMesh d n = .ok mesh := ⟨_, uniformMesh_eq d hd hn⟩
  set q : ℕ := ⌈(S - t₀) * c / dx⌉₊ + 1 with hq
  set steps : List ℝ := List.replicate q ((S - t₀) / q) with hst
  have hq0 : (0 : ℝ) < q := by
    have : 0 < q := Nat.succ_pos _
    exact_mod_cast this
  have hmono : ∀ dt ∈ steps, Monotonic p m M dx dt := by
    intro dt h
    obtain rfl := List.eq_of_mem_replicate h
    refine hcm _ (div_nonneg (by linarith) hq0.le) ?_
    rw [div_mul_eq_mul_div, div_le_iff₀ hq0, mul_comm _ (q : ℝ), ← div_le_iff₀ hdx]
    refine (Nat.le_ceil _).trans ?_
    simp only [hq]
    push_cast
    linarith
  have hsum : t₀ + steps.sum = S := by
    have := hq0.ne'
    simp only [hst, List.sum_replicate, nsmul_eq_mul]
    field_simp
    ring
  have hinit : ∀ i : Fin n, m ≤ (cellAverages points mesh f).getD i 0 ∧ (cellAverages points mesh f).getD i 0 ≤ M := fun i => by
    obtain ⟨hcells, hlt, -⟩ := uniform_cells hd hn hmesh
    exact (C58_basic points mesh hlt hp.sum hp.pos hp.inside f).2.2.1 i
      (by rw [hcells]; exact i.2) m M fun x _ _ => hfr x
  obtain ⟨u, u0, hu⟩ := C132_exists p n hn wall il ir bc hbc d.a dx hdx m M hm (forwardEuler ℝ) (Or.inl rfl) steps hmono
    (Solver.init (fun i : Fin n => (cellAverages points mesh f).getD i 0) t₀) hinit
  exact ⟨u, mesh, _, steps, u0, hmesh, Or.inl rfl, hmono, hsum, hu⟩

include hm hp hd hfr hf hG hbc in
theorem computed_grid {n : ℕ} (hn : 0 < n) {u : ℝ × ℝ → ℝ} (hu : ComputedBy p m M points d f bc t₀ S n u) :
    ∃ u0, GridRun p.flux (top p M) m M V (1 + |1 / M|) d.a (d.b - d.a) t₀ S f G n u u0 := by
  obtain ⟨mesh, T, steps, u0, hmesh, hT, hsteps, hS, hc⟩ := hu
  exact ⟨u0, lf_grid hm hp hd hfr hf hG hbc hn hmesh hT hsteps hS hc⟩

include hm hS hp hd hfr hf hG hbc in
theorem grid_exists (n : ℕ) (hn : 0 < n) :
    ∃ u u0, GridRun p.flux (top p M) m M V (1 + |1 / M|) d.a (d.b - d.a) t₀ S f G n u u0 := by
  obtain ⟨u, hu⟩ := runs_exist hm hS hp hd hfr hf hG hbc n hn
  obtain ⟨u0, h⟩ := computed_grid hm hp hd hfr hf hG hbc hn hu
  exact ⟨u, u0, h⟩

end Data

/-! ### The property -/

/-- C133.  The runs converge to the entropy solution: the data `f` have period `d.b - d.a`, bounded variation and values
between `m` and `M`, and `w` is an entropy solution with these data.  For every tolerance `η` there is a number of cells
from which on every run, with any of the three integrators and any time steps within the condition, computes a function
for which the integral of the distance from `w` over the strip is at most `η`. -/
theorem C133_converges (p : Problem) (m M V t₀ S : ℝ) (hm : p = .burgers → 0 < m) (hS : t₀ ≤ S) (points : List (ℝ × ℝ))
    (hp : AveragingRule points) (d : Interval ℝ) (hd : d.a < d.b) (f G : ℝ → ℝ) (hfr : ∀ x, m ≤ f x ∧ f x ≤ M)
    (hf : ∀ x, f (x + (d.b - d.a)) = f x) (hG : Majorant f G (d.b - d.a) V) (wall il ir : Option (ℝ → ℝ)) (bc : BC ℝ ℝ)
    (hbc : build wall ["periodic"] 1 il ir = .ok bc) (w : ℝ × ℝ → ℝ) (hw : Solves p m M d f t₀ S w) (η : ℝ) (hη : 0 < η) :
    ∃ N : ℕ, ∀ n : ℕ, N ≤ n → 0 < n → ∀ u, ComputedBy p m M points d f bc t₀ S n u →
      ∫ z in Ioc t₀ S ×ˢ Ioc d.a d.b, |u z - w z| ≤ η := by
  have hab : d.a + (d.b - d.a) = d.b := by ring
  have hmM : m ≤ M := (hfr 0).1.trans (hfr 0).2
  obtain ⟨N, hN⟩ := grid_converges (flux_measurable p) (flux_slope hm hmM) hS (by linarith) hfr hG
    (by positivity : (0 : ℝ) ≤ 1 + |1 / M|) w (solves_law.1 hw) η hη
  refine ⟨N, fun n h hn u hu => ?_⟩
  obtain ⟨u0, hu⟩ := computed_grid hm hp hd hfr hf hG hbc hn hu
  have := hN n h hn u u0 hu
  rwa [hab] at this

/-- C133.  Entropy solutions depend on the data: two of them are no farther apart, on average over the time, than their
data.  The data `g` need not have bounded variation. -/
theorem C133_stable (p : Problem) (m M V t₀ S : ℝ) (hm : p = .burgers → 0 < m) (hS : t₀ ≤ S) (d : Interval ℝ)
    (hd : d.a < d.b) (f G : ℝ → ℝ) (hfr : ∀ x, m ≤ f x ∧ f x ≤ M) (hf : ∀ x, f (x + (d.b - d.a)) = f x)
    (hG : Majorant f G (d.b - d.a) V) (g : ℝ → ℝ) (hg : Measurable g) (hgr : ∀ x, m ≤ g x ∧ g x ≤ M)
    (w w' : ℝ × ℝ → ℝ) (hw : Solves p m M d f t₀ S w) (hw' : Solves p m M d g t₀ S w') :
    ∫ z in Ioc t₀ S ×ˢ Ioc d.a d.b, |w z - w' z| ≤ (S - t₀) * ∫ x in Ioc d.a d.b, |f x - g x| := by
  obtain ⟨bc, hbc⟩ : ∃ bc : BC ℝ ℝ, build none ["periodic"] 1 none none = .ok bc := ⟨_, rfl⟩
  have hab : d.a + (d.b - d.a) = d.b := by ring
  have hmM : m ≤ M := (hfr 0).1.trans (hfr 0).2
  have := grid_stable (flux_measurable p) (flux_slope hm hmM) hS (by linarith) hfr hG
    (by positivity : (0 : ℝ) ≤ 1 + |1 / M|) 0 (grid_exists hm hS midpoint_rule hd hfr hf hG hbc) g hg hgr w w'
    (solves_law.1 hw) (solves_law.1 hw')
  rwa [hab] at this

/-- C133.  There is an entropy solution, and only one up to sets of measure zero. -/
theorem C133_solution (p : Problem) (m M V t₀ S : ℝ) (hm : p = .burgers → 0 < m) (hS : t₀ ≤ S)
    (d : Interval ℝ) (hd : d.a < d.b) (f G : ℝ → ℝ) (hfr : ∀ x, m ≤ f x ∧ f x ≤ M)
    (hf : ∀ x, f (x + (d.b - d.a)) = f x) (hG : Majorant f G (d.b - d.a) V) :
    (∃ w, Solves p m M d f t₀ S w) ∧ ∀ w w', Solves p m M d f t₀ S w → Solves p m M d f t₀ S w' →
      ∀ᵐ z ∂volume.restrict (Ioc t₀ S ×ˢ Ioc d.a d.b), w z = w' z := by
  obtain ⟨bc, hbc⟩ : ∃ bc : BC ℝ ℝ, build none ["periodic"] 1 none none = .ok bc := ⟨_, rfl⟩
  have hab : d.a + (d.b - d.a) = d.b := by ring
  have hmM : m ≤ M := (hfr 0).1.trans (hfr 0).2
  have hex := grid_exists hm hS midpoint_rule hd hfr hf hG hbc
  constructor
  · obtain ⟨w, hw⟩ := grid_solution (flux_measurable p) (flux_slope hm hmM) hS (by linarith) hfr hG
      (by positivity : (0 : ℝ) ≤ 1 + |1 / M|) 0 hex
    exact ⟨w, solves_law.2 hw⟩
  · intro w w' hw hw'
    have := grid_unique (flux_measurable p) (flux_slope hm hmM) hS (by linarith) hfr hG
      (by positivity : (0 : ℝ) ≤ 1 + |1 / M|) 0 hex w w' (solves_law.1 hw) (solves_law.1 hw')
    rwa [hab] at this

/-- C133.  There is a run on every mesh. -/
theorem C133_runs (p : Problem) (m M V t₀ S : ℝ) (hm : p = .burgers → 0 < m) (hS : t₀ ≤ S) (points : List (ℝ × ℝ))
    (hp : AveragingRule points) (d : Interval ℝ) (hd : d.a < d.b) (f G : ℝ → ℝ) (hfr : ∀ x, m ≤ f x ∧ f x ≤ M)
    (hf : ∀ x, f (x + (d.b - d.a)) = f x) (hG : Majorant f G (d.b - d.a) V) (wall il ir : Option (ℝ → ℝ)) (bc : BC ℝ ℝ)
    (hbc : build wall ["periodic"] 1 il ir = .ok bc) (n : ℕ) (hn : 0 < n) :
    ∃ u, ComputedBy p m M points d f bc t₀ S n u := runs_exist hm hS hp hd hfr hf hG hbc n hn

/-! ### Examples -/

/-- A plateau: the value 2 between 1/4 and 3/4, and 1 elsewhere. -/
noncomputable def plateau (x : ℝ) : ℝ := if 1 / 4 < x ∧ x ≤ 3 / 4 then 2 else 1

theorem plateau_majorant : Majorant (fun x => plateau (Int.fract x)) (fun x => 2 * ⌊x⌋ +
    ((if 1 / 4 < Int.fract x then 1 else 0) + if 3 / 4 < Int.fract x then 1 else 0)) 1 2 := by
  have hb : Bounds plateau fun x => (if 1 / 4 < x then 1 else 0) + if 3 / 4 < x then 1 else 0 := by
    intro s t _ hst _
    unfold plateau
    simp only
    split_ifs <;> first | (norm_num; done) | (exfalso; grind)
  have := hb.periodic (by norm_num [plateau])
  norm_num at this ⊢
  exact this

/-- Burgers' equation with the plateau on `[0, 1]` up to time 2: the front edge is a shock.  There is an entropy solution,
and the runs converge to it. -/
example (bc : BC ℝ ℝ) (hbc : build none ["periodic"] 1 none none = .ok bc) :
    ∃ w, Solves .burgers 1 2 ⟨0, 1⟩ (fun x => plateau (Int.fract x)) 0 2 w ∧
      (∀ η > 0, ∃ N : ℕ, ∀ n : ℕ, N ≤ n → 0 < n →
        ∀ u, ComputedBy .burgers 1 2 [(0, 2)] ⟨0, 1⟩ (fun x => plateau (Int.fract x)) bc 0 2 n u →
          ∫ z in Ioc 0 2 ×ˢ Ioc 0 1, |u z - w z| ≤ η) ∧
      ∀ n : ℕ, 0 < n → ∃ u, ComputedBy .burgers 1 2 [(0, 2)] ⟨0, 1⟩ (fun x => plateau (Int.fract x)) bc 0 2 n u := by
  have hr : ∀ x, (1 : ℝ) ≤ plateau (Int.fract x) ∧ plateau (Int.fract x) ≤ 2 := fun x => by
    unfold plateau
    split_ifs <;> norm_num
  have e : ((⟨0, 1⟩ : Interval ℝ).b - (⟨0, 1⟩ : Interval ℝ).a) = 1 := by simp
  have hper : ∀ x, plateau (Int.fract (x + ((⟨0, 1⟩ : Interval ℝ).b - (⟨0, 1⟩ : Interval ℝ).a))) = plateau (Int.fract x) :=
    fun x => by rw [e, Int.fract_add_one]
  have hG := plateau_majorant
  rw [← e] at hG
  obtain ⟨⟨w, hw⟩, -⟩ := C133_solution .burgers 1 2 2 0 2 (by norm_num) (by norm_num) ⟨0, 1⟩ (by norm_num) _ _ hr hper hG
  exact ⟨w, hw, C133_converges .burgers 1 2 2 0 2 (by norm_num) (by norm_num) [(0, 2)] midpoint_rule ⟨0, 1⟩ (by norm_num) _ _
    hr hper hG none none none bc hbc w hw, C133_runs .burgers 1 2 2 0 2 (by norm_num) (by norm_num) [(0, 2)] midpoint_rule
    ⟨0, 1⟩ (by norm_num) _ _ hr hper hG none none none bc hbc⟩

/-- Two constants for linear advection: the distance is the time times the distance of the data. -/
example : ∃ w w', Solves .advection 0 1 ⟨0, 1⟩ (fun _ => 0) 0 3 w ∧ Solves .advection 0 1 ⟨0, 1⟩ (fun _ => 1) 0 3 w' ∧
    ∫ z in Ioc (0 : ℝ) 3 ×ˢ Ioc (0 : ℝ) 1, |w z - w' z| ≤ (3 - 0) * ∫ x in Ioc (0 : ℝ) 1, |(0 : ℝ) - 1| := by
  have hG : ∀ c : ℝ, Majorant (fun _ => c) (fun _ => 0) ((⟨0, 1⟩ : Interval ℝ).b - (⟨0, 1⟩ : Interval ℝ).a) 0 :=
    fun c => ⟨fun x y _ => by simp, fun x => by simp⟩
  obtain ⟨⟨w, hw⟩, -⟩ := C133_solution .advection 0 1 0 0 3 nofun (by norm_num) ⟨0, 1⟩ (by norm_num) (fun _ => 0) _
    (fun _ => by norm_num) (fun _ => rfl) (hG 0)
  obtain ⟨⟨w', hw'⟩, -⟩ := C133_solution .advection 0 1 0 0 3 nofun (by norm_num) ⟨0, 1⟩ (by norm_num) (fun _ => 1) _
    (fun _ => by norm_num) (fun _ => rfl) (hG 1)
  exact ⟨w, w', hw, hw', C133_stable .advection 0 1 0 0 3 nofun (by norm_num) ⟨0, 1⟩ (by norm_num) (fun _ => 0) _
    (fun _ => by norm_num) (fun _ => rfl) (hG 0) (fun _ => 1) measurable_const (fun _ => by norm_num) w w' hw hw'⟩

end Verif.EntropyLimit
