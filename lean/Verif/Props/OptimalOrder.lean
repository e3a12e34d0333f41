import Verif.Core.CalculateFE
import Verif.Props.OrderConditions
import Verif.Props.FEMatrices
import Verif.Core.FESolverLemmas

/-!
C126: the integrator that the continuous Galerkin solver chooses by the polynomial degree.
-/

set_option linter.unusedSectionVars false

namespace Verif.CalculateFE

open Verif.Py Verif.ODE Verif.Scalar Verif.Solver Verif.Bench Verif.FE
open Verif.Registry Verif.Options Verif.Utilities Verif.Calculate EndToEnd
open Verif.Mesh hiding Error

theorem order_mono {T : Tableau ℝ} {p q : ℕ} (h : HasOrder T q) (hpq : p ≤ q) : HasOrder T p :=
  ⟨h.1, h.2.1, fun t ht => h.2.2 t (ht.trans hpq)⟩

/-- C126.  The integrator chosen for elements of degree `q` (`build_optimal_ode_solver`) has at least the order `q + 1` of
the elements, exactly this order for the degrees one and two, and there is one for the degrees one to seven only; other
degrees raise `KeyError`. -/
theorem C126_order (q : ℕ) :
    (∀ T, integrator .byDegree q = .ok T → HasOrder T (q + 1) ∧ (q ≤ 2 → ¬ HasOrder T (q + 2))) ∧
      ((∃ T, integrator .byDegree q = .ok T) ↔ 1 ≤ q ∧ q ≤ 7) ∧
      (¬ (1 ≤ q ∧ q ≤ 7) → integrator .byDegree q = .error .keyError) := by
  obtain ⟨-, h2, h3, h8⟩ := C52_orders
  obtain ⟨-, n2, n3⟩ := C52_sharp
  rcases le_or_gt q 7 with hq | hq
  · interval_cases q
    · simp [integrator]
    · simpa [integrator] using ⟨h2, n2⟩
    · simpa [integrator] using ⟨h3, n3⟩
    all_goals simpa [integrator] using order_mono h8 (by norm_num)
  · have e : integrator .byDegree q = .error .keyError := by
      unfold integrator
      split <;> first | rfl | omega | simp_all
    refine ⟨fun T h => ?_, ⟨fun ⟨T, h⟩ => ?_, fun h => by omega⟩, fun _ => e⟩
    · rw [e] at h; cases h
    · rw [e] at h; cases h

/-- Quadratic elements: the integrator has order three. -/
example : ∃ T, integrator .byDegree 2 = .ok T ∧ HasOrder T 3 := by
  obtain ⟨T, hT⟩ := (C126_order 2).2.1.2 (by norm_num)
  exact ⟨T, hT, ((C126_order 2).1 T hT).1⟩

/-- C126.  A finite element solver that is constructed has the elements asked for: on the domain of the benchmark, with the
given number of cells and the given polynomial degree, one value for each node, the end time of the benchmark, and the
integrator for this degree. -/
theorem C126_space (solver : SysMatrix ℝ → List ℝ → Except Error (List ℝ)) (gauss : ℕ → List (ℝ × ℝ))
    (empty : ℕ → List ℝ) (p : Problem) (b : Benchmark ℝ) (k : Key) (s : Settings ℝ) (j : Job)
    (hdom : b.domain.a < b.domain.b) (h : job solver gauss empty p b k s = .ok j) :
    ∃ m q : ℤ, s.meshSize = .int m ∧ s.degree = .int q ∧ 0 < m ∧ 0 < q ∧ j.space.domain = b.domain ∧
      j.space.cells.length = m ∧ j.space.degree = q ∧ (j.n : ℤ) = m * q ∧
      integrator s.integrator q.toNat = .ok j.params.tab ∧ j.params.startTime = 0 ∧ j.params.endTime = b.endTime := by
  unfold job at h
  split at h
  · rename_i m q x hm hq hx
    refine ⟨m, q, hm, hq, ?_⟩
    split at h
    · cases h
    · rename_i mesh hmesh
      split at h
      · cases h
      · rename_i dx hdx
        have hlen : mesh.cells.length = m.toNat ∧ 0 < m.toNat := by
          rcases Nat.eq_zero_or_pos m.toNat with hz | hz
          · rw [hz] at hmesh
            unfold uniformMesh at hmesh
            split at hmesh
            · cases hmesh
              cases hdx
            · cases hmesh
          · rw [uniformMesh_eq b.domain hdom hz] at hmesh
            cases hmesh
            exact ⟨by simp, hz⟩
        simp only [bind, Except.bind, Space.make, hmesh] at h
        by_cases h0 : 0 < q.toNat
        · rw [if_pos h0] at h
          simp only at h
          split at h
          · cases h
          · rename_i values hvalues
            split at h
            · cases h
            · rename_i T hT
              split at h
              · cases h
              · rename_i params hparams
                cases h
                have hm : (m.toNat : ℤ) = m := Int.toNat_of_nonneg (by omega)
                have hq : (q.toNat : ℤ) = q := Int.toNat_of_nonneg (by omega)
                refine ⟨by omega, by omega, rfl, ?_, hq, ?_, ?_⟩
                · rw [← hm, ← hlen.1]; rfl
                · simp only [Job.of, Space.dimension, hlen.1]
                  push_cast
                  rw [hm, hq]
                · suffices hp : ∀ n, (params n).tab = T ∧ (params n).startTime = 0 ∧ (params n).endTime = b.endTime by
                    obtain ⟨h1, h2, h3⟩ := hp (Space.dimension ⟨b.domain, mesh.cells, q.toNat⟩)
                    refine ⟨?_, h2, h3⟩
                    simp only [Job.of]
                    rw [h1]
                    exact hT
                  intro n
                  unfold parameters at hparams
                  simp only [bind, Except.bind] at hparams
                  repeat' split at hparams
                  all_goals first | cases hparams; exact ⟨rfl, rfl, rfl⟩ | cases hparams
        · rw [if_neg h0] at h
          cases h
  · cases h

/-- C126.  The Galerkin solver can be constructed with elements of the degrees one to seven; for other positive degrees
the choice of the integrator raises `KeyError`. -/
theorem C126_degrees (solver : SysMatrix ℝ → List ℝ → Except Error (List ℝ)) (gauss : ℕ → List (ℝ × ℝ))
    (hg : IsGauss gauss) (empty : ℕ → List ℝ) (hempty : ∀ n, (empty n).length = n) (p : Problem) (b : Benchmark ℝ)
    (hdom : b.domain.a < b.domain.b) (s : Settings ℝ) (m q : ℕ) (hm : 0 < m) (hq : 0 < q) (y : ℝ) (exact : Bool)
    (h1 : s.meshSize = .int m) (h2 : s.degree = .int q) (h3 : s.cfl = .num (.fin y)) (h4 : s.exactFlux = .bool exact)
    (h5 : s.integrator = .byDegree) :
    (q ≤ 7 → ∃ j, job solver gauss empty p b .cg s = .ok j ∧ HasOrder j.params.tab (q + 1)) ∧
    (7 < q → job solver gauss empty p b .cg s = .error .keyError) := by
  obtain ⟨V, M, mass, e1, e2, e3, -⟩ := C65_lumped gauss hg b.domain hdom m q hm hq
  obtain ⟨-, s1, s2, s3, -⟩ := make_spec b.domain hdom m q hm V e1
  obtain ⟨C, e4, -⟩ := conv_gradient gauss hg V (by omega)
  obtain ⟨V', grid, g1, g2, g3, -⟩ := C70_grid b.domain hdom m q hm hq (empty V.dimension) (by
    rw [hempty]; simp [Space.dimension, s1, s3])
  obtain rfl : V' = V := Except.ok.inj (g1.symm.trans e1)
  obtain ⟨o1, o2, o3⟩ := C126_order q
  have hjob : job solver gauss empty p b .cg s = (integrator .byDegree q).bind fun T => .ok (.of V'
      (fun n => cgParams n T (cgRhs solver gauss V' M C p exact) ((b.domain.b - b.domain.a) / m) y 0 b.endTime)
      (grid.map (initialData b)) b.endTime V'.dimension) := by
    unfold job
    rw [h1, h2, h3]
    simp only [Int.toNat_natCast, uniformMesh_eq b.domain hdom hm, e1, bind, Except.bind, initialValues, g3, h5, s1]
    cases integrator .byDegree q with
    | error e => rfl
    | ok T => simp only [parameters, e4, e2, e3, h4, bind, Except.bind, cflNumber]
  rw [hjob]
  constructor
  · intro h7
    obtain ⟨T, hT⟩ := o2.2 ⟨hq, h7⟩
    rw [hT]
    exact ⟨_, rfl, (o1 T hT).1⟩
  · intro h7
    rw [o3 (by omega)]
    rfl

/-- Quadratic elements on eight cells: sixteen values and the integrator of order three. -/
example : ∃ (solver : SysMatrix ℝ → List ℝ → Except Error (List ℝ)) (gauss : ℕ → List (ℝ × ℝ)) (b : Benchmark ℝ)
    (s : Settings ℝ) (j : Job), job solver gauss (fun n => List.replicate n 0) .advection b .cg s = .ok j ∧
      j.n = 16 ∧ j.space.degree = 2 ∧ HasOrder j.params.tab 3 := by
  obtain ⟨gauss, hg⟩ := exists_isGauss
  let b : Benchmark ℝ := .closed ⟨0, 1⟩ (.single "periodic") 1 fun x => x
  let s : Settings ℝ :=
    { name := .none, short := .none, meshSize := .int 8, degree := .int 2, cfl := .num (.fin 1),
      integrator := .byDegree, exactFlux := .bool true, history := .none }
  have hdom : b.domain.a < b.domain.b := by simp [b, Benchmark.closed]
  obtain ⟨j, h1, h2⟩ := (C126_degrees (fun _ v => .ok v) gauss hg (fun n => List.replicate n 0)
    (fun n => List.length_replicate) .advection b hdom s 8 2 (by norm_num) (by norm_num) 1 true rfl rfl rfl rfl rfl).1
    (by norm_num)
  obtain ⟨m, q, a1, a2, -, -, -, -, a3, a4, -⟩ := C126_space _ _ _ _ _ _ _ j hdom h1
  obtain rfl : (8 : ℤ) = m := by simpa [s] using a1
  obtain rfl : (2 : ℤ) = q := by simpa [s] using a2
  exact ⟨_, gauss, b, s, j, h1, by omega, by omega, h2⟩

end Verif.CalculateFE
