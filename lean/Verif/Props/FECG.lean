import Verif.Core.FECGLemmas

/-!
Property C87: the continuous Galerkin scheme is the Galerkin method for the weak form of the
conservation law.
-/

set_option linter.unusedSectionVars false

namespace Verif.FE

open Verif.Py Polynomial
open Verif.Mesh hiding Error
open Verif.Quadrature
open Verif.Scalar
open Verif.ODE

/-! ### Specification -/

/-- What is assumed of the linear solver: a result solves the system, and there is one if the solution
is unique. -/
structure Solves (solve : SysMatrix ℝ → List ℝ → Except Error (List ℝ)) : Prop where
  sound : ∀ M b x, solve M b = .ok x → M.dot x = .ok b
  complete : ∀ M b, (∃! x, M.dot x = .ok b) → ∃ x, solve M b = .ok x

/-- Integral over the domain of a function that is given cell by cell. -/
noncomputable def integral (s : Space ℝ) (F : ℕ → ℝ → ℝ) : ℝ :=
  ∑ c ∈ Finset.range s.cells.length, ∫ x in (s.cell c).a..(s.cell c).b, F c x

/-- The function whose product with the derivative of the test function enters the weak form: the flux
of the finite element function, or the finite element function with the fluxes as degrees of freedom. -/
def TestedFlux (s : Space ℝ) (problem : Problem) (exact : Bool) (u : List ℝ) (F : ℕ → ℝ → ℝ) : Prop :=
  match exact with
  | true => ∃ U, Values s u U ∧ ∀ c x, F c x = problem.flux (U c x)
  | false => Values s (u.map problem.flux) F

/-! ### Vectors of products -/

/-- The polynomial on the cell in the coordinate of the reference cell. -/
noncomputable def pulled (I : Interval ℝ) (q : ℝ[X]) : ℝ[X] := q.comp (C I.length * X + C I.a)

theorem pulled_eval (I : Interval ℝ) (q : ℝ[X]) (x : ℝ) : (pulled I q).eval x = q.eval (affine x I) := by
  unfold pulled affine
  simp [eval_comp]

theorem pulled_inverse (I : Interval ℝ) (hI : I.a < I.b) (q : ℝ[X]) (x : ℝ) :
    (pulled I q).eval (affineInverse x I) = q.eval x := by
  have hne : I.length ≠ 0 := by unfold Interval.length; intro h; linarith
  rw [pulled_eval]
  congr 1
  unfold affine affineInverse
  field_simp
  ring

theorem pulled_degree (I : Interval ℝ) (q : ℝ[X]) : (pulled I q).natDegree ≤ q.natDegree := by
  unfold pulled
  refine natDegree_comp_le.trans ?_
  have : (C I.length * X + C I.a : ℝ[X]).natDegree ≤ 1 := natDegree_linear_le
  nlinarith [Nat.zero_le q.natDegree]

/-- C87.  The vector of the products with the basis functions: tested with the degrees of freedom of a
finite element function it is the `L²` product, for left functions that are polynomials on the cells
of a degree that the quadrature integrates exactly. -/
theorem C87_products (gauss : ℕ → List (ℝ × ℝ)) (hg : IsGauss gauss) (s : Space ℝ) (hp : 0 < s.degree)
    (hs : Proper s) (N : ℕ) (hN : 0 < N) (left : ℕ → ℕ → Except Error ℝ) (F : ℕ → ℝ[X])
    (hF : ∀ c < s.cells.length, (F c).natDegree + s.degree ≤ 2 * N - 1)
    (hleft : ∀ c < s.cells.length, ∀ i < (localElement (gauss N)).nodes.length,
      left c i = .ok ((F c).eval (affine ((localElement (gauss N)).nodes.getD i 0) (s.cell c)))) :
    ∃ w, assembleVectorE s.map (l2Entry gauss N s left) = .ok w ∧ w.length = s.dimension ∧
      ∀ v V, Values s v V → ∑ i ∈ Finset.range s.dimension, w.getD i 0 * v.getD i 0 =
        integral s fun c x => (F c).eval x * V c x := by
  have hE := assembleVectorE_ok s.map (l2Entry gauss N s left) (fun c l => (s.cell c).length *
      ∫ x in (0 : ℝ)..1, (pulled (s.cell c) (F c) * basis s.degree l).eval x) (by
    intro c hc l hl
    refine l2Entry_eq gauss hg N hN s hp left c l hl _ ?_ ?_
    · have := hF c hc
      have := pulled_degree (s.cell c) (F c)
      omega
    · intro i hi
      rw [hleft c hc i hi, pulled_eval])
  obtain ⟨w, h1, h2, h3⟩ := assembleVector_spec s.map hp (fun c l => (s.cell c).length *
      ∫ x in (0 : ℝ)..1, (pulled (s.cell c) (F c) * basis s.degree l).eval x)
  rw [h1] at hE
  rw [map_dimension] at h2
  refine ⟨w, hE, h2, ?_⟩
  intro v V hV
  have hprod := assembled_product s.map hp _ (fun k => w.getD k 0) h3 (fun k => v.getD k 0)
  rw [map_dimension] at hprod
  rw [hprod]
  unfold integral
  apply Finset.sum_congr rfl
  intro c hc
  have hc' : c < s.cells.length := Finset.mem_range.mp hc
  simp only [values_eq s hp hV c hc', ← pulled_inverse (s.cell c) (hs c hc') (F c)]
  rw [integral_affineInverse (s.cell c) (hs c hc')
    fun x => (pulled (s.cell c) (F c)).eval x * (s.poly v c).eval x]
  have e := sum_poly_integral s.degree (fun l => v.getD (s.map.idx c l) 0)
    (pulled (s.cell c) (F c)) (basis s.degree)
  simp only [← eval_mul]
  unfold Space.poly
  rw [← e, Finset.mul_sum]
  exact Finset.sum_congr rfl fun l _ => mul_assoc _ _ _

/-- The vector of products with the derivatives for local polynomials. -/
theorem gradient_products (gauss : ℕ → List (ℝ × ℝ)) (hg : IsGauss gauss) (s : Space ℝ)
    (hp : 0 < s.degree) (hs : Proper s) (N : ℕ) (hN : 0 < N) (left : ℕ → ℕ → Except Error ℝ)
    (q : ℕ → ℝ[X]) (hq : ∀ c < s.cells.length, (q c).natDegree + (s.degree - 1) ≤ 2 * N - 1)
    (hleft : ∀ c < s.cells.length, ∀ i < (localElement (gauss N)).nodes.length,
      left c i = .ok ((q c).eval ((localElement (gauss N)).nodes.getD i 0))) :
    ∃ w, assembleVectorE s.map (l2GradientEntry gauss N s left) = .ok w ∧ w.length = s.dimension ∧
      ∀ v V', Derivatives s v V' → ∑ i ∈ Finset.range s.dimension, w.getD i 0 * v.getD i 0 =
        integral s fun c x => (q c).eval (affineInverse x (s.cell c)) * V' c x := by
  have hE := assembleVectorE_ok s.map (l2GradientEntry gauss N s left) (fun c l =>
      ∫ x in (0 : ℝ)..1, (q c * (basis s.degree l).derivative).eval x) (by
    intro c hc l hl
    exact l2GradientEntry_eq gauss hg N hN s hp left c l hl _ (hq c hc) (hleft c hc))
  obtain ⟨w, h1, h2, h3⟩ := assembleVector_spec s.map hp (fun c l =>
      ∫ x in (0 : ℝ)..1, (q c * (basis s.degree l).derivative).eval x)
  rw [h1] at hE
  rw [map_dimension] at h2
  refine ⟨w, hE, h2, ?_⟩
  intro v V hV
  have hprod := assembled_product s.map hp _ (fun k => w.getD k 0) h3 (fun k => v.getD k 0)
  rw [map_dimension] at hprod
  rw [hprod]
  unfold integral
  apply Finset.sum_congr rfl
  intro c hc
  have hc' : c < s.cells.length := Finset.mem_range.mp hc
  simp only [derivatives_eq s hp hV c hc']
  rw [integral_cell_derivative (s.cell c) (hs c hc') (fun x => (q c).eval x)
    fun x => (s.poly v c).derivative.eval x]
  have e := sum_poly_integral s.degree (fun l => v.getD (s.map.idx c l) 0) (q c)
    (fun l => (basis s.degree l).derivative)
  simp only [← eval_mul]
  rw [poly_derivative, ← e]
  rfl

/-- C87.  The vector of the products with the derivatives of the basis functions. -/
theorem C87_gradient_products (gauss : ℕ → List (ℝ × ℝ)) (hg : IsGauss gauss) (s : Space ℝ)
    (hp : 0 < s.degree) (hs : Proper s) (N : ℕ) (hN : 0 < N) (left : ℕ → ℕ → Except Error ℝ)
    (F : ℕ → ℝ[X]) (hF : ∀ c < s.cells.length, (F c).natDegree + (s.degree - 1) ≤ 2 * N - 1)
    (hleft : ∀ c < s.cells.length, ∀ i < (localElement (gauss N)).nodes.length,
      left c i = .ok ((F c).eval (affine ((localElement (gauss N)).nodes.getD i 0) (s.cell c)))) :
    ∃ w, assembleVectorE s.map (l2GradientEntry gauss N s left) = .ok w ∧ w.length = s.dimension ∧
      ∀ v V', Derivatives s v V' → ∑ i ∈ Finset.range s.dimension, w.getD i 0 * v.getD i 0 =
        integral s fun c x => (F c).eval x * V' c x := by
  obtain ⟨w, h1, h2, h3⟩ := gradient_products gauss hg s hp hs N hN left
    (fun c => pulled (s.cell c) (F c)) (by
      intro c hc
      have := hF c hc
      have := pulled_degree (s.cell c) (F c)
      omega) (by
      intro c hc i hi
      rw [hleft c hc i hi, pulled_eval])
  refine ⟨w, h1, h2, ?_⟩
  intro v V hV
  rw [h3 v V hV]
  unfold integral
  apply Finset.sum_congr rfl
  intro c hc
  simp only [pulled_inverse (s.cell c) (hs c (Finset.mem_range.mp hc)) (F c)]

/-- Enough nodes for the exact flux. -/
theorem two_pow_ge (p : ℕ) : 3 * p ≤ 2 * 2 ^ p := by
  induction p with
  | zero => simp
  | succ p ih =>
    rcases Nat.lt_or_ge p 1 with h | h
    · obtain rfl : p = 0 := by omega
      norm_num
    · rcases Nat.lt_or_ge p 2 with h' | h'
      · obtain rfl : p = 1 := by omega
        norm_num
      · rw [pow_succ]; omega

/-- C87.  The exact flux gradient of Burgers' equation is defined for every array of the right length,
and its product with the degrees of freedom of a test function is the integral of the flux of the
solution times the derivative of the test function: no quadrature error. -/
theorem C87_exact_flux (gauss : ℕ → List (ℝ × ℝ)) (hg : IsGauss gauss) (s : Space ℝ)
    (hp : 0 < s.degree) (hs : Proper s) (u : List ℝ) (U : ℕ → ℝ → ℝ) (hU : Values s u U) :
    ∃ w, exactFluxGradient gauss s Problem.burgers.flux u = .ok w ∧ w.length = s.dimension ∧
      ∀ v V', Derivatives s v V' → ∑ i ∈ Finset.range s.dimension, w.getD i 0 * v.getD i 0 =
        integral s fun c x => 1 / 2 * U c x ^ 2 * V' c x := by
  obtain ⟨w, h1, h2, h3⟩ := gradient_products gauss hg s hp hs (2 ^ s.degree) (by positivity)
    (fun c i => do
      let v ← s.fastValue (localElement (gauss (2 ^ s.degree))).nodes u c i
      .ok (Problem.burgers.flux v))
    (fun c => C (1 / 2) * s.poly u c ^ 2) (by
      intro c _
      have h1 : (C (1 / 2) * s.poly u c ^ 2).natDegree ≤ 2 * s.degree := by
        refine (natDegree_C_mul_le _ _).trans (natDegree_pow_le.trans ?_)
        have := natDegree_poly s hp u c
        omega
      have := two_pow_ge s.degree
      omega) (by
      intro c hc i hi
      have h1 := (C70_fast s hp u hU.1 (localElement (gauss (2 ^ s.degree))).nodes c i hc hi
        (hs c hc)).1
      rw [value_eq s hp u hU.1 c hc, affineInverse_affine _ (hs c hc)] at h1
      simp only [h1, bind, Except.bind, Problem.flux, eval_mul, eval_pow, eval_C])
  refine ⟨w, h1, h2, ?_⟩
  intro v V hV
  rw [h3 v V hV]
  unfold integral
  apply Finset.sum_congr rfl
  intro c hc
  simp only [values_eq s hp hU c (Finset.mem_range.mp hc), eval_mul, eval_pow, eval_C]

/-! ### The weak form -/

theorem bilinear_congr (n : ℕ) (a b : ℕ → ℕ → ℝ) (h : ∀ i < n, ∀ j < n, a i j = b i j)
    (u v : List ℝ) : bilinear n a u v = bilinear n b u v := by
  unfold bilinear
  apply Finset.sum_congr rfl
  intro i hi
  apply Finset.sum_congr rfl
  intro j hj
  rw [h i (Finset.mem_range.mp hi) j (Finset.mem_range.mp hj)]

theorem get_lil (M : SysMatrix ℝ) (i j : ℕ) (hi : i < M.dimension) (hj : j < M.dimension) :
    M.get i j = .ok (M.lil i j) := by
  unfold SysMatrix.get
  rw [if_pos ⟨by omega, by omega, by omega, by omega⟩]
  rfl

theorem mass_bilinear (gauss : ℕ → List (ℝ × ℝ)) (hg : IsGauss gauss) (s : Space ℝ)
    (hp : 0 < s.degree) (hs : Proper s) (M : SysMatrix ℝ) (hM : massMatrix gauss s = .ok M)
    (u v U V) (hu : Values s u U) (hv : Values s v V) :
    bilinear s.dimension M.lil u v = integral s fun c x => U c x * V c x := by
  obtain ⟨M', h1, h2, h3⟩ := C65_product gauss hg s hp hs
  obtain rfl : M' = M := Except.ok.inj (h1.symm.trans hM)
  obtain ⟨a, ha, hb⟩ := h3 u v U V hu hv
  unfold integral
  rw [← hb]
  apply bilinear_congr
  intro i hi j hj
  have := ha i j hi hj
  rw [get_lil M' i j (by omega) (by omega)] at this
  exact Except.ok.inj this

theorem gradient_bilinear (gauss : ℕ → List (ℝ × ℝ)) (hg : IsGauss gauss) (s : Space ℝ)
    (hp : 0 < s.degree) (hs : Proper s) (A : SysMatrix ℝ) (hA : discreteGradient gauss s = .ok A)
    (u v U V) (hu : Values s u U) (hv : Derivatives s v V) :
    bilinear s.dimension A.lil u v = integral s fun c x => U c x * V c x := by
  obtain ⟨M', h1, h2, h3⟩ := C66_product gauss hg s hp hs
  obtain rfl : M' = A := Except.ok.inj (h1.symm.trans hA)
  obtain ⟨a, ha, hb⟩ := h3 u v U V hu hv
  unfold integral
  rw [← hb]
  apply bilinear_congr
  intro i hi j hj
  have := ha i j hi hj
  rw [get_lil M' i j (by omega) (by omega)] at this
  exact Except.ok.inj this

/-- The product of a matrix-vector product with a vector. -/
theorem mulVec_product (n : ℕ) (a : ℕ → ℕ → ℝ) (u v : List ℝ) :
    ∑ i ∈ Finset.range n, (mulVec n a u).getD i 0 * v.getD i 0 = bilinear n a v u := by
  unfold bilinear
  apply Finset.sum_congr rfl
  intro i hi
  rw [getD_mulVec n a u i (Finset.mem_range.mp hi), Finset.sum_mul]
  exact Finset.sum_congr rfl fun j _ => by ring

theorem bilinear_symm (n : ℕ) (a : ℕ → ℕ → ℝ) (h : ∀ i j, a i j = a j i) (u v : List ℝ) :
    bilinear n a u v = bilinear n a v u := by
  unfold bilinear
  rw [Finset.sum_comm]
  apply Finset.sum_congr rfl
  intro i _
  apply Finset.sum_congr rfl
  intro j _
  rw [h j i]
  ring

theorem bilinear_antisymm (n : ℕ) (a : ℕ → ℕ → ℝ) (h : ∀ i j, a j i = -a i j) (u v : List ℝ) :
    bilinear n a u v = -bilinear n a v u := by
  unfold bilinear
  rw [Finset.sum_comm, ← Finset.sum_neg_distrib]
  apply Finset.sum_congr rfl
  intro i _
  rw [← Finset.sum_neg_distrib]
  apply Finset.sum_congr rfl
  intro j _
  rw [h i j]
  ring

/-- The flux gradient is defined, and tests the flux function. -/
theorem fluxGradient_tests {gauss d n p s m C} (h : Setup gauss d n p s m C) (problem : Problem)
    (exact : Bool) (u : List ℝ) (hu : u.length = s.dimension) :
    ∃ a, buildFluxGradient gauss s C problem exact u = .ok a ∧ a.length = s.dimension ∧
      ∀ F v V', TestedFlux s problem exact u F → Derivatives s v V' →
        ∑ i ∈ Finset.range s.dimension, a.getD i 0 * v.getD i 0 =
          integral s fun c x => F c x * V' c x := by
  obtain ⟨s1, s2, s3, s4⟩ := setup_facts h
  have hp0 := h.degree
  have hp : 0 < s.degree := by omega
  obtain ⟨A, a1, a2, a3, -⟩ := gradient_spec gauss s hp
  obtain rfl : A = C := Except.ok.inj (a1.symm.trans h.gradient)
  have group : ∀ problem : Problem, ∃ a, fluxGradient problem A u = .ok a ∧ a.length = s.dimension ∧
      ∀ F v V', Values s (u.map problem.flux) F → Derivatives s v V' →
        ∑ i ∈ Finset.range s.dimension, a.getD i 0 * v.getD i 0 =
          integral s fun c x => F c x * V' c x := by
    intro problem
    refine ⟨(mulVec s.dimension A.lil (u.map problem.flux)).map fun x => -x, ?_, by simp [mulVec], ?_⟩
    · unfold fluxGradient SysMatrix.dot
      rw [a3]
      simp only
      rw [if_pos (by rw [List.length_map, hu, a2]), a2]
    · intro F v V' hF hV
      rw [← gradient_bilinear gauss h.isGauss s hp s4 A a1 _ v F V' hF hV,
        bilinear_antisymm _ _ (gradient_antisymm gauss h.isGauss s hp A a1),
        ← mulVec_product, ← Finset.sum_neg_distrib]
      apply Finset.sum_congr rfl
      intro i hi
      have hi' := Finset.mem_range.mp hi
      rw [List.getD_eq_getElem _ _ (by simpa [mulVec] using hi'), List.getElem_map,
        List.getD_eq_getElem (mulVec s.dimension A.lil (u.map problem.flux)) _
          (by simpa [mulVec] using hi')]
      ring
  cases exact with
  | false =>
    obtain ⟨a, g1, g2, g3⟩ := group problem
    refine ⟨a, ?_, g2, g3⟩
    unfold buildFluxGradient
    exact g1
  | true =>
    cases problem with
    | advection =>
      obtain ⟨a, g1, g2, g3⟩ := group .advection
      refine ⟨a, ?_, g2, ?_⟩
      · unfold buildFluxGradient
        exact g1
      · rintro F v V' ⟨U, hU, hF⟩ hV
        refine g3 F v V' ?_ hV
        have e : u.map (Problem.flux (K := ℝ) .advection) = u := by
          have : (Problem.flux (K := ℝ) .advection) = id := rfl
          rw [this, List.map_id]
        rw [e]
        refine ⟨hu, fun c hc x => ?_⟩
        rw [hF c x]
        exact hU.2 c hc x
    | burgers =>
      obtain ⟨w, w1, w2, w3⟩ := C87_exact_flux gauss h.isGauss s hp s4 u _ (values_poly s hp u hu)
      refine ⟨w, ?_, w2, ?_⟩
      · unfold buildFluxGradient
        exact w1
      · rintro F v V' ⟨U, hU, hF⟩ hV
        rw [w3 v V' hV]
        unfold integral
        apply Finset.sum_congr rfl
        intro c hc
        simp only [hF, Problem.flux, values_eq s hp hU c (Finset.mem_range.mp hc)]

theorem ext_getD (n : ℕ) (x y : List ℝ) (hx : x.length = n) (hy : y.length = n)
    (h : ∀ i < n, x.getD i 0 = y.getD i 0) : x = y := by
  apply List.ext_getElem (by omega)
  intro i h1 h2
  have := h i (by omega)
  rwa [List.getD_eq_getElem x _ h1, List.getD_eq_getElem y _ h2] at this

/-- The mass matrix is regular. -/
theorem mass_regular (gauss : ℕ → List (ℝ × ℝ)) (hg : IsGauss gauss) (s : Space ℝ)
    (hp : 0 < s.degree) (hs : Proper s) (M : SysMatrix ℝ) (hM : massMatrix gauss s = .ok M)
    (b : List ℝ) (hb : b.length = s.dimension) : ∃! x, M.dot x = .ok b := by
  obtain ⟨M', m1, m2, m3, -⟩ := mass_spec gauss s hp
  obtain rfl : M' = M := Except.ok.inj (m1.symm.trans hM)
  obtain ⟨M'', q1, q2, a, q3, q4, q5, q6⟩ := C65_spd gauss hg s hp hs
  obtain rfl : M'' = M' := Except.ok.inj (q1.symm.trans hM)
  have hdot : ∀ x : List ℝ, x.length = s.dimension →
      M''.dot x = .ok (mulVec s.dimension M''.lil x) := by
    intro x hx
    unfold SysMatrix.dot
    rw [m3]
    simp only
    rw [if_pos (by omega), m2]
  have hlen : ∀ x y : List ℝ, M''.dot x = .ok y → x.length = s.dimension := by
    intro x y hxy
    unfold SysMatrix.dot at hxy
    rw [m3] at hxy
    simp only at hxy
    split at hxy
    · omega
    · cases hxy
  -- the linear map
  let L : (Fin s.dimension → ℝ) →ₗ[ℝ] (Fin s.dimension → ℝ) :=
    { toFun := fun x i => ∑ j : Fin s.dimension, M''.lil i j * x j
      map_add' := by
        intro x y
        funext i
        simp only [Pi.add_apply, mul_add, Finset.sum_add_distrib]
      map_smul' := by
        intro r x
        funext i
        simp only [Pi.smul_apply, smul_eq_mul, RingHom.id_apply, Finset.mul_sum]
        exact Finset.sum_congr rfl fun j _ => by ring }
  have hL : ∀ (x : List ℝ) (i : Fin s.dimension), x.length = s.dimension →
      (mulVec s.dimension M''.lil x).getD i 0 = L (fun j => x.getD j 0) i := by
    intro x i _
    rw [getD_mulVec _ _ _ _ i.2]
    change _ = ∑ j : Fin s.dimension, M''.lil i j * x.getD j 0
    rw [Finset.sum_range]
  have hinj : Function.Injective L := by
    rw [injective_iff_map_eq_zero]
    intro x hx
    have hl : (List.ofFn x).length = s.dimension := by simp
    have hz : bilinear s.dimension a (List.ofFn x) (List.ofFn x) = 0 := by
      have e : bilinear s.dimension a (List.ofFn x) (List.ofFn x) =
          bilinear s.dimension M''.lil (List.ofFn x) (List.ofFn x) := by
        apply bilinear_congr
        intro i hi j hj
        have := q3 i j hi hj
        rw [get_lil M'' i j (by omega) (by omega)] at this
        exact (Except.ok.inj this).symm
      rw [e, ← mulVec_product]
      apply Finset.sum_eq_zero
      intro i hi
      have := hL (List.ofFn x) ⟨i, Finset.mem_range.mp hi⟩ hl
      simp only at this
      rw [this]
      have e2 : (fun j : Fin s.dimension => (List.ofFn x).getD j 0) = x := by
        funext j
        rw [List.getD_eq_getElem _ _ (by simp)]
        simp
      rw [e2, hx]
      simp
    have := q6 (List.ofFn x) hl hz
    funext i
    exact this (x i) (by simp [List.mem_ofFn])
  have hsurj : Function.Surjective L := LinearMap.injective_iff_surjective.mp hinj
  obtain ⟨x, hx⟩ := hsurj fun i => b.getD i 0
  refine ⟨List.ofFn x, ?_, ?_⟩
  · change M''.dot (List.ofFn x) = .ok b
    rw [hdot _ (by simp)]
    congr 1
    apply ext_getD s.dimension _ _ (by simp [mulVec]) hb
    intro i hi
    rw [hL (List.ofFn x) ⟨i, hi⟩ (by simp)]
    have e2 : (fun j : Fin s.dimension => (List.ofFn x).getD j 0) = x := by
      funext j
      rw [List.getD_eq_getElem _ _ (by simp)]
      simp
    rw [e2, hx]
  · intro y hy
    have hyl := hlen y b hy
    rw [hdot y hyl] at hy
    have hy' := Except.ok.inj hy
    apply ext_getD s.dimension _ _ hyl (by simp)
    intro i hi
    have : (fun j : Fin s.dimension => y.getD j 0) = x := by
      apply hinj
      rw [hx]
      funext j
      rw [← hL y j hyl, hy']
    rw [List.getD_eq_getElem (List.ofFn x) _ (by simpa using hi)]
    simp only [List.getElem_ofFn]
    exact congrFun this ⟨i, hi⟩

/-- C87.  The right-hand side is defined for every array of the right length, for both equations and
both kinds of flux. -/
theorem C87_defined {gauss d n p s m C} (h : Setup gauss d n p s m C)
    (solve : SysMatrix ℝ → List ℝ → Except Error (List ℝ)) (hsolve : Solves solve) (M : SysMatrix ℝ)
    (hM : massMatrix gauss s = .ok M) (problem : Problem) (exact : Bool) (u : List ℝ)
    (hu : u.length = s.dimension) :
    ∃ w, cgRhs solve gauss s M C problem exact u = .ok w ∧ w.length = s.dimension := by
  obtain ⟨s1, s2, s3, s4⟩ := setup_facts h
  have hp0 := h.degree
  obtain ⟨a, a1, a2, -⟩ := fluxGradient_tests h problem exact u hu
  obtain ⟨x, hx⟩ := hsolve.complete M a (mass_regular gauss h.isGauss s (by omega) s4 M hM a a2)
  refine ⟨x, ?_, ?_⟩
  · unfold cgRhs
    rw [a1]
    exact hx
  · have h1 := hsolve.sound M a x hx
    obtain ⟨M', m1, m2, m3, -⟩ := mass_spec gauss s (by omega)
    obtain rfl : M' = M := Except.ok.inj (m1.symm.trans hM)
    unfold SysMatrix.dot at h1
    rw [m3] at h1
    simp only at h1
    split at h1
    · omega
    · cases h1

/-- C87.  The right-hand side is the Galerkin right-hand side: its product with every test function is
the integral of the flux times the derivative of the test function. -/
theorem C87_weak {gauss d n p s m C} (h : Setup gauss d n p s m C)
    (solve : SysMatrix ℝ → List ℝ → Except Error (List ℝ)) (hsolve : Solves solve) (M : SysMatrix ℝ)
    (hM : massMatrix gauss s = .ok M) (problem : Problem) (exact : Bool) (u w : List ℝ)
    (hu : u.length = s.dimension) (hw : cgRhs solve gauss s M C problem exact u = .ok w)
    (F : ℕ → ℝ → ℝ) (hF : TestedFlux s problem exact u F) (R : ℕ → ℝ → ℝ) (hR : Values s w R)
    (v : List ℝ) (V V' : ℕ → ℝ → ℝ) (hV : Values s v V) (hV' : Derivatives s v V') :
    integral s (fun c x => R c x * V c x) = integral s fun c x => F c x * V' c x := by
  obtain ⟨s1, s2, s3, s4⟩ := setup_facts h
  have hp0 := h.degree
  have hp : 0 < s.degree := by omega
  obtain ⟨a, a1, a2, a3⟩ := fluxGradient_tests h problem exact u hu
  unfold cgRhs at hw
  rw [a1] at hw
  have h1 := hsolve.sound M a w hw
  obtain ⟨M', m1, m2, m3, -⟩ := mass_spec gauss s hp
  obtain rfl : M' = M := Except.ok.inj (m1.symm.trans hM)
  have h2 : a = mulVec s.dimension M'.lil w := by
    unfold SysMatrix.dot at h1
    rw [m3] at h1
    simp only at h1
    rw [if_pos (by rw [hR.1, m2]), m2] at h1
    exact (Except.ok.inj h1).symm
  rw [← mass_bilinear gauss h.isGauss s hp s4 M' hM w v R V hR hV, ← a3 F v V' hF hV', h2,
    mulVec_product, bilinear_symm _ _ (mass_symm gauss s hp M' hM)]

/-- C87.  The weak form determines the right-hand side. -/
theorem C87_unique {gauss d n p s m C} (h : Setup gauss d n p s m C)
    (solve : SysMatrix ℝ → List ℝ → Except Error (List ℝ)) (hsolve : Solves solve) (M : SysMatrix ℝ)
    (hM : massMatrix gauss s = .ok M) (problem : Problem) (exact : Bool) (u : List ℝ)
    (hu : u.length = s.dimension) (F : ℕ → ℝ → ℝ) (hF : TestedFlux s problem exact u F) (z : List ℝ)
    (Z : ℕ → ℝ → ℝ) (hZ : Values s z Z)
    (hz : ∀ v V V', Values s v V → Derivatives s v V' →
      integral s (fun c x => Z c x * V c x) = integral s fun c x => F c x * V' c x) :
    cgRhs solve gauss s M C problem exact u = .ok z := by
  obtain ⟨s1, s2, s3, s4⟩ := setup_facts h
  have hp0 := h.degree
  have hp : 0 < s.degree := by omega
  obtain ⟨w, hw, hwl⟩ := C87_defined h solve hsolve M hM problem exact u hu
  obtain ⟨M', m1, m2, m3, -⟩ := mass_spec gauss s hp
  obtain rfl : M' = M := Except.ok.inj (m1.symm.trans hM)
  obtain ⟨b, b1, b2, b3⟩ := fluxGradient_tests h problem exact u hu
  have hb : mulVec s.dimension M'.lil z = b := by
    apply ext_getD s.dimension _ _ (by simp [mulVec]) b2
    intro k hk
    have hul : (unitVector (K := ℝ) s.dimension k).length = s.dimension := by simp [unitVector]
    have e := hz (unitVector s.dimension k) _ _ (values_poly s hp _ hul) (derivatives_poly s hp _ hul)
    rw [← b3 F _ _ hF (derivatives_poly s hp _ hul),
      ← mass_bilinear gauss h.isGauss s hp s4 M' hM z _ Z _ hZ (values_poly s hp _ hul),
      bilinear_symm _ _ (mass_symm gauss s hp M' hM), ← mulVec_product] at e
    have pick : ∀ y : ℕ → ℝ, ∑ i ∈ Finset.range s.dimension,
        y i * (unitVector (K := ℝ) s.dimension k).getD i 0 = y k := by
      intro y
      rw [Finset.sum_eq_single k]
      · rw [List.getD_eq_getElem _ _ (by rw [hul]; exact hk)]
        simp [unitVector]
      · intro i hi hne
        rw [List.getD_eq_getElem _ _ (by rw [hul]; exact Finset.mem_range.mp hi)]
        simp [unitVector, hne]
      · intro hn
        exact absurd (Finset.mem_range.mpr hk) hn
    rw [pick, pick] at e
    exact e
  have hdz : M'.dot z = .ok b := by
    unfold SysMatrix.dot
    rw [m3]
    simp only
    rw [if_pos (by rw [hZ.1, m2]), m2, hb]
  have hdw : M'.dot w = .ok b := by
    unfold cgRhs at hw
    rw [b1] at hw
    exact hsolve.sound M' b w hw
  obtain ⟨x, -, hx⟩ := mass_regular gauss h.isGauss s hp s4 M' hM b b2
  rw [hw, hx z hdz, hx w hdw]

/-! ### Conservation -/

/-- The integral of a derivative times a function of the value vanishes on the periodic mesh. -/
theorem integral_total_derivative (s : Space ℝ) (hp : 0 < s.degree) (hs : Proper s) (u : List ℝ)
    (U U' : ℕ → ℝ → ℝ) (hU : Values s u U) (hU' : Derivatives s u U') (q : ℝ[X]) :
    integral s (fun c x => q.derivative.eval (U c x) * U' c x) = 0 := by
  have hcell : ∀ c < s.cells.length, ∫ x in (s.cell c).a..(s.cell c).b,
      q.derivative.eval (U c x) * U' c x =
      q.eval (u.getD (s.map.idx c s.degree) 0) - q.eval (u.getD (s.map.idx c 0) 0) := by
    intro c hc
    simp only [values_eq s hp hU c hc, derivatives_eq s hp hU' c hc]
    rw [integral_cell_derivative (s.cell c) (hs c hc)
      (fun x => q.derivative.eval ((s.poly u c).eval x)) fun x => (s.poly u c).derivative.eval x]
    have e : ∀ x, q.derivative.eval ((s.poly u c).eval x) * (s.poly u c).derivative.eval x =
        (q.comp (s.poly u c)).derivative.eval x := by
      intro x
      rw [derivative_comp, eval_mul, eval_comp]
      ring
    simp only [e]
    rw [integral_derivative, eval_comp, eval_comp]
    have h0 := poly_eval_node s hp u c 0 (by omega)
    have h1 := poly_eval_node s hp u c s.degree le_rfl
    have hne : (s.degree : ℝ) ≠ 0 := by positivity
    simp only [Nat.cast_zero, zero_div, div_self hne] at h0 h1
    rw [h0, h1]
  unfold integral
  rw [Finset.sum_congr rfl fun c hc => hcell c (Finset.mem_range.mp hc), Finset.sum_sub_distrib,
    sub_eq_zero]
  exact sum_ends s.map hp rfl fun i => q.eval (u.getD i 0)

theorem poly_const (s : Space ℝ) (hp : 0 < s.degree) (k : ℝ) (c : ℕ) (hc : c < s.cells.length) :
    s.poly (List.replicate s.dimension k) c = C k := by
  have e : (C k : ℝ[X]) = C k * ∑ l ∈ Finset.range (s.degree + 1), basis (K := ℝ) s.degree l := by
    rw [sum_basis s.degree hp, mul_one]
  unfold Space.poly
  rw [e, Finset.mul_sum]
  apply Finset.sum_congr rfl
  intro l hl
  have := idx_lt s.map c l hc (Nat.lt_succ_iff.mp (Finset.mem_range.mp hl)) hp
  rw [map_dimension] at this
  rw [List.getD_eq_getElem _ _ (by simpa using this)]
  simp

theorem values_const (s : Space ℝ) (hp : 0 < s.degree) (k : ℝ) :
    Values s (List.replicate s.dimension k) fun _ _ => k := by
  refine ⟨by simp, fun c hc x => ?_⟩
  rw [value_eq s hp _ (by simp) c hc, poly_const s hp k c hc]
  simp

theorem derivatives_const (s : Space ℝ) (hp : 0 < s.degree) (k : ℝ) :
    Derivatives s (List.replicate s.dimension k) fun _ _ => 0 := by
  refine ⟨by simp, fun c hc x => ?_⟩
  rw [derivative_eq s hp _ (by simp) c hc, poly_const s hp k c hc]
  simp

theorem exists_testedFlux (s : Space ℝ) (hp : 0 < s.degree) (problem : Problem) (exact : Bool)
    (u : List ℝ) (hu : u.length = s.dimension) : ∃ F, TestedFlux s problem exact u F := by
  cases exact with
  | true => exact ⟨_, _, values_poly s hp u hu, fun c x => rfl⟩
  | false => exact ⟨_, values_poly s hp (u.map problem.flux) (by simpa using hu)⟩

/-- C87.  The integral of the right-hand side vanishes. -/
theorem C87_rhs_integral {gauss d n p s m C} (h : Setup gauss d n p s m C)
    (solve : SysMatrix ℝ → List ℝ → Except Error (List ℝ)) (hsolve : Solves solve) (M : SysMatrix ℝ)
    (hM : massMatrix gauss s = .ok M) (problem : Problem) (exact : Bool) (u w : List ℝ)
    (hu : u.length = s.dimension) (hw : cgRhs solve gauss s M C problem exact u = .ok w)
    (R : ℕ → ℝ → ℝ) (hR : Values s w R) : integral s R = 0 := by
  obtain ⟨s1, s2, s3, s4⟩ := setup_facts h
  have hp0 := h.degree
  have hp : 0 < s.degree := by omega
  obtain ⟨F, hF⟩ := exists_testedFlux s hp problem exact u hu
  have e := C87_weak h solve hsolve M hM problem exact u w hu hw F hF R hR _ _ _
    (values_const s hp 1) (derivatives_const s hp 1)
  simp only [mul_one, mul_zero] at e
  rw [e]
  simp [integral]

/-- The integral of a finite element function is its total mass. -/
theorem integral_eq_mass {gauss d n p s m C} (h : Setup gauss d n p s m C) (w : List ℝ)
    (R : ℕ → ℝ → ℝ) (hR : Values s w R) : totalMass m w = integral s R := by
  obtain ⟨s1, s2, s3, s4⟩ := setup_facts h
  have hp0 := h.degree
  have hp : 0 < s.degree := by omega
  obtain ⟨M, m1, m2, m3, -⟩ := mass_spec gauss s hp
  have e := mass_bilinear gauss h.isGauss s hp s4 M m1 w _ R _ hR (values_const s hp 1)
  simp only [mul_one] at e
  change _ = integral s R at e
  rw [← e]
  have hm := h.mass
  unfold lumpedMass at hm
  rw [m1] at hm
  simp only [bind, Except.bind] at hm
  have hm' := (Except.ok.inj hm).symm
  have hml : m.length = s.dimension := by rw [hm']; simp [m2]
  rw [totalMass_eq m w s.dimension hml hR.1]
  unfold bilinear
  apply Finset.sum_congr rfl
  intro i hi
  have hi' := Finset.mem_range.mp hi
  rw [hm', List.getD_eq_getElem _ _ (by simpa [m2] using hi')]
  simp only [List.getElem_map, List.getElem_range, m2]
  rw [mul_comm, Finset.mul_sum]
  apply Finset.sum_congr rfl
  intro j hj
  rw [List.getD_eq_getElem (List.replicate s.dimension (1 : ℝ)) _
    (by simpa using Finset.mem_range.mp hj)]
  simp

/-- C87.  Mass is conserved by every run of a Runge-Kutta method: the integrals of the first and of the
last finite element function agree. -/
theorem C87_mass_run {gauss d n p s m C} (h : Setup gauss d n p s m C)
    (solve : SysMatrix ℝ → List ℝ → Except Error (List ℝ)) (hsolve : Solves solve) (M : SysMatrix ℝ)
    (hM : massMatrix gauss s = .ok M) (problem : Problem) (exact : Bool) (T : Tableau ℝ)
    (S S' : ODE.Solver ℝ (Fin s.dimension → ℝ)) (steps : List ℝ)
    (hrun : S.runE T (vecRhs s.dimension fun _ => cgRhs solve gauss s M C problem exact) steps = .ok S')
    (U U' : ℕ → ℝ → ℝ) (hU : Values s (List.ofFn S.solution) U)
    (hU' : Values s (List.ofFn S'.solution) U') : integral s U' = integral s U := by
  obtain ⟨s1, s2, s3, s4⟩ := setup_facts h
  have hp0 := h.degree
  have hp : 0 < s.degree := by omega
  rw [← integral_eq_mass h _ _ hU, ← integral_eq_mass h _ _ hU']
  refine run_mass m s.dimension (lumped_spec gauss h.isGauss s hp m h.mass).1 _ ?_ T S S' steps hrun
  intro t u w hu hw
  obtain ⟨w', hw', hl⟩ := C87_defined h solve hsolve M hM problem exact u hu
  obtain rfl : w' = w := Except.ok.inj (hw'.symm.trans hw)
  refine ⟨hl, ?_⟩
  rw [integral_eq_mass h w' _ (values_poly s hp w' hl)]
  exact C87_rhs_integral h solve hsolve M hM problem exact u w' hu hw' _ (values_poly s hp w' hl)

/-! ### Energy -/

/-- C87.  With the exact flux the right-hand side is orthogonal to the solution: the semi-discrete scheme
conserves the `L²` energy, for both equations. -/
theorem C87_energy {gauss d n p s m C} (h : Setup gauss d n p s m C)
    (solve : SysMatrix ℝ → List ℝ → Except Error (List ℝ)) (hsolve : Solves solve) (M : SysMatrix ℝ)
    (hM : massMatrix gauss s = .ok M) (problem : Problem) (u w : List ℝ)
    (hw : cgRhs solve gauss s M C problem true u = .ok w)
    (U R : ℕ → ℝ → ℝ) (hU : Values s u U) (hR : Values s w R) :
    integral s (fun c x => R c x * U c x) = 0 := by
  obtain ⟨s1, s2, s3, s4⟩ := setup_facts h
  have hp0 := h.degree
  have hp : 0 < s.degree := by omega
  have hd := derivatives_poly s hp u hU.1
  rw [C87_weak h solve hsolve M hM problem true u w hU.1 hw _ ⟨U, hU, fun c x => rfl⟩ R hR u U _ hU hd]
  cases problem with
  | advection =>
    have := integral_total_derivative s hp s4 u U _ hU hd (Polynomial.C (1 / 2) * X ^ 2)
    refine Eq.trans ?_ this
    congr 1
    funext c x
    simp [Problem.flux, derivative_pow]
  | burgers =>
    have := integral_total_derivative s hp s4 u U _ hU hd (Polynomial.C (1 / 6) * X ^ 3)
    refine Eq.trans ?_ this
    congr 1
    funext c x
    simp only [Problem.flux, derivative_C_mul, derivative_X_pow, eval_mul, eval_C, eval_pow, eval_X,
      map_natCast, eval_natCast]
    norm_num
    ring_nf
    simp

theorem poly_combination (s : Space ℝ) (u w : List ℝ) (t : ℝ) (hu : u.length = s.dimension)
    (hw : w.length = s.dimension) (c : ℕ) :
    s.poly (List.zipWith (fun x y => x + t * y) u w) c =
      s.poly u c + Polynomial.C t * s.poly w c := by
  unfold Space.poly
  rw [Finset.mul_sum, ← Finset.sum_add_distrib]
  apply Finset.sum_congr rfl
  intro l _
  have e : (List.zipWith (fun x y => x + t * y) u w).getD (s.map.idx c l) 0 =
      u.getD (s.map.idx c l) 0 + t * w.getD (s.map.idx c l) 0 := by
    rcases Nat.lt_or_ge (s.map.idx c l) s.dimension with hlt | hge
    · rw [List.getD_eq_getElem _ _ (by simp [hu, hw, hlt]), List.getD_eq_getElem u _ (by omega),
        List.getD_eq_getElem w _ (by omega)]
      simp
    · rw [List.getD_eq_default _ _ (by simp [hu, hw, hge]), List.getD_eq_default u _ (by omega),
        List.getD_eq_default w _ (by omega)]
      simp
  rw [e]
  simp only [map_add, map_mul]
  ring

/-- C87.  An explicit Euler step with the exact flux does not lose energy: the energy grows by the square
of the step times the energy of the right-hand side. -/
theorem C87_euler_energy {gauss d n p s m C} (h : Setup gauss d n p s m C)
    (solve : SysMatrix ℝ → List ℝ → Except Error (List ℝ)) (hsolve : Solves solve) (M : SysMatrix ℝ)
    (hM : massMatrix gauss s = .ok M) (problem : Problem) (u w : List ℝ)
    (hw : cgRhs solve gauss s M C problem true u = .ok w) (t : ℝ)
    (U R W : ℕ → ℝ → ℝ) (hU : Values s u U) (hR : Values s w R)
    (hW : Values s (List.zipWith (fun x y => x + t * y) u w) W) :
    integral s (fun c x => W c x ^ 2) =
      integral s (fun c x => U c x ^ 2) + t ^ 2 * integral s fun c x => R c x ^ 2 := by
  obtain ⟨s1, s2, s3, s4⟩ := setup_facts h
  have hp0 := h.degree
  have hp : 0 < s.degree := by omega
  have e := C87_energy h solve hsolve M hM problem u w hw U R hU hR
  have cell : ∀ c < s.cells.length, ∫ x in (s.cell c).a..(s.cell c).b, W c x ^ 2 =
      (∫ x in (s.cell c).a..(s.cell c).b, U c x ^ 2) +
        2 * t * (∫ x in (s.cell c).a..(s.cell c).b, R c x * U c x) +
        t ^ 2 * ∫ x in (s.cell c).a..(s.cell c).b, R c x ^ 2 := by
    intro c hc
    simp only [values_eq s hp hU c hc, values_eq s hp hR c hc, values_eq s hp hW c hc,
      poly_combination s u w t hU.1 hR.1]
    rw [integral_affineInverse (s.cell c) (s4 c hc)
        (fun x => (s.poly u c + Polynomial.C t * s.poly w c).eval x ^ 2),
      integral_affineInverse (s.cell c) (s4 c hc) (fun x => (s.poly u c).eval x ^ 2),
      integral_affineInverse (s.cell c) (s4 c hc)
        (fun x => (s.poly w c).eval x * (s.poly u c).eval x),
      integral_affineInverse (s.cell c) (s4 c hc) (fun x => (s.poly w c).eval x ^ 2)]
    have e1 : ∀ x, (s.poly u c + Polynomial.C t * s.poly w c).eval x ^ 2 =
        (s.poly u c ^ 2).eval x + (2 * t * (s.poly w c * s.poly u c).eval x +
          t ^ 2 * (s.poly w c ^ 2).eval x) := by
      intro x
      simp only [eval_add, eval_mul, eval_C, eval_pow]
      ring
    simp only [e1]
    rw [intervalIntegral.integral_add (intervalIntegrable_poly _ _ _)
        (((intervalIntegrable_poly _ _ _).const_mul _).add
          ((intervalIntegrable_poly _ _ _).const_mul _)),
      intervalIntegral.integral_add ((intervalIntegrable_poly _ _ _).const_mul _)
        ((intervalIntegrable_poly _ _ _).const_mul _), intervalIntegral.integral_const_mul,
      intervalIntegral.integral_const_mul]
    simp only [eval_mul, eval_pow]
    ring
  unfold integral at e ⊢
  rw [Finset.sum_congr rfl fun c hc => cell c (Finset.mem_range.mp hc), Finset.sum_add_distrib,
    Finset.sum_add_distrib, ← Finset.mul_sum, ← Finset.mul_sum, e]
  ring

/-- C87.  Constant states are steady, for both equations and both kinds of flux. -/
theorem C87_constant {gauss d n p s m C} (h : Setup gauss d n p s m C)
    (solve : SysMatrix ℝ → List ℝ → Except Error (List ℝ)) (hsolve : Solves solve) (M : SysMatrix ℝ)
    (hM : massMatrix gauss s = .ok M) (problem : Problem) (exact : Bool) (k : ℝ) :
    cgRhs solve gauss s M C problem exact (List.replicate s.dimension k) =
      .ok (List.replicate s.dimension 0) := by
  obtain ⟨s1, s2, s3, s4⟩ := setup_facts h
  have hp0 := h.degree
  have hp : 0 < s.degree := by omega
  have hF : TestedFlux s problem exact (List.replicate s.dimension k) fun _ _ => problem.flux k := by
    cases exact with
    | true => exact ⟨_, values_const s hp k, fun c x => rfl⟩
    | false =>
      unfold TestedFlux
      simp only [List.map_replicate]
      exact values_const s hp _
  refine C87_unique h solve hsolve M hM problem exact _ (by simp) _ hF _ _ (values_const s hp 0) ?_
  intro v V V' hV hV'
  have := integral_total_derivative s hp s4 v V V' hV hV' (Polynomial.C (problem.flux k) * X)
  simp only [derivative_C_mul, derivative_X, mul_one, eval_C] at this
  rw [this]
  simp [integral]

theorem basis_one : basis (K := ℝ) 1 0 = 1 - X ∧ basis (K := ℝ) 1 1 = X := by
  have h1 := eq_sum_basis (K := ℝ) 1 (by norm_num) X (by simp)
  have h2 := sum_basis (K := ℝ) 1 (by norm_num)
  simp only [Finset.sum_range_succ, Finset.sum_range_zero, zero_add] at h1 h2
  norm_num at h1
  refine ⟨?_, h1.symm⟩
  rw [← h1] at h2
  exact eq_sub_of_add_eq h2

/-- C87.  Without the option for the exact flux, Burgers' equation does not conserve the energy, not even
in the semi-discrete sense: three linear elements with the values 0, 1, 2. -/
theorem C87_group_energy {gauss d s m C} (h : Setup gauss d 3 1 s m C)
    (solve : SysMatrix ℝ → List ℝ → Except Error (List ℝ)) (hsolve : Solves solve) (M : SysMatrix ℝ)
    (hM : massMatrix gauss s = .ok M) :
    ∃ w U R, cgRhs solve gauss s M C .burgers false [0, 1, 2] = .ok w ∧ Values s [0, 1, 2] U ∧
      Values s w R ∧ integral s (fun c x => R c x * U c x) = -1 / 2 := by
  obtain ⟨s1, s2, s3, s4⟩ := setup_facts h
  have hp : 0 < s.degree := by omega
  have hu : ([0, 1, 2] : List ℝ).length = s.dimension := by rw [s3]; rfl
  have hf : (([0, 1, 2] : List ℝ).map Problem.burgers.flux).length = s.dimension := by rw [s3]; rfl
  obtain ⟨w, hw, hwl⟩ := C87_defined h solve hsolve M hM .burgers false _ hu
  refine ⟨w, _, _, hw, values_poly s hp _ hu, values_poly s hp w hwl, ?_⟩
  rw [C87_weak h solve hsolve M hM .burgers false _ w hu hw _ (values_poly s hp _ hf) _
    (values_poly s hp w hwl) _ _ _ (values_poly s hp _ hu) (derivatives_poly s hp _ hu)]
  unfold integral
  have hmap : s.map = ⟨3, 1, true⟩ := by unfold Space.map; rw [s1, s2]
  have hpoly : ∀ (v : List ℝ) (c : ℕ), s.poly v c =
      Polynomial.C (v.getD (IndexMap.idx ⟨3, 1, true⟩ c 0) 0) * (1 - X) +
        Polynomial.C (v.getD (IndexMap.idx ⟨3, 1, true⟩ c 1) 0) * X := by
    intro v c
    unfold Space.poly
    rw [hmap, s1]
    simp only [Finset.sum_range_succ, Finset.sum_range_zero, zero_add, basis_one.1, basis_one.2]
  rw [Finset.sum_congr rfl fun c hc => by
    rw [integral_cell_derivative (s.cell c) (s4 c (Finset.mem_range.mp hc))
      (fun x => (s.poly (([0, 1, 2] : List ℝ).map Problem.burgers.flux) c).eval x)
      (fun x => (s.poly [0, 1, 2] c).derivative.eval x)]]
  rw [s2]
  simp only [hpoly, Finset.sum_range_succ, Finset.sum_range_zero, zero_add]
  have i0 : IndexMap.idx ⟨3, 1, true⟩ 0 0 = 0 := by decide
  have i1 : IndexMap.idx ⟨3, 1, true⟩ 0 1 = 1 := by decide
  have i2 : IndexMap.idx ⟨3, 1, true⟩ 1 0 = 1 := by decide
  have i3 : IndexMap.idx ⟨3, 1, true⟩ 1 1 = 2 := by decide
  have i4 : IndexMap.idx ⟨3, 1, true⟩ 2 0 = 2 := by decide
  have i5 : IndexMap.idx ⟨3, 1, true⟩ 2 1 = 0 := by decide
  simp only [i0, i1, i2, i3, i4, i5]
  simp [Problem.flux]
  norm_num
  have lin : ∀ a b : ℝ, ∫ x in (0 : ℝ)..1, (a + b * x) = a + b / 2 := by
    intro a b
    rw [intervalIntegral.integral_add (by simp) (intervalIntegral.intervalIntegrable_id.const_mul b),
      intervalIntegral.integral_const_mul, integral_id]
    simp
    ring
  have e1 : ∫ x in (0 : ℝ)..1, 1 / 2 * x = 0 + (1 / 2) / 2 := by
    rw [← lin]; simp
  have e2 : ∫ x in (0 : ℝ)..1, (1 / 2 * (1 - x) + 2 * x) = 1 / 2 + (3 / 2) / 2 := by
    rw [← lin]
    congr 1
    funext x
    ring
  have e3 : ∫ x in (0 : ℝ)..1, (1 - x) = 1 + (-1) / 2 := by
    rw [← lin]
    congr 1
    funext x
    ring
  rw [e1, e2, e3]
  norm_num

/-- There is a linear solver with the assumed property. -/
theorem exists_solves : ∃ solve, Solves solve := by
  classical
  refine ⟨fun M b => if hx : ∃ x, M.dot x = .ok b then .ok hx.choose else .error .nonFinite, ?_, ?_⟩
  · intro M b x hx
    split at hx
    · rename_i hex
      rw [← Except.ok.inj hx]
      exact hex.choose_spec
    · cases hx
  · rintro M b ⟨x, hx, -⟩
    have hex : ∃ x, M.dot x = .ok b := ⟨x, hx⟩
    exact ⟨hex.choose, dif_pos hex⟩

/-- C87 applies: quadratic elements for Burgers' equation with the exact flux, ten cells. -/
example : ∃ gauss s m C M solve w U R, Setup gauss ⟨0, 1⟩ 10 2 s m C ∧
    massMatrix gauss s = .ok M ∧ Solves solve ∧
    cgRhs solve gauss s M C .burgers true ((List.range 20).map fun i => (i : ℝ)) = .ok w ∧
    Values s ((List.range 20).map fun i => (i : ℝ)) U ∧ Values s w R ∧ integral s R = 0 ∧
    integral s (fun c x => R c x * U c x) = 0 := by
  obtain ⟨gauss, s, m, C, h⟩ := exists_setup ⟨0, 1⟩ (by norm_num) 10 2 (by norm_num) (by norm_num)
  obtain ⟨solve, hsolve⟩ := exists_solves
  obtain ⟨s1, s2, s3, s4⟩ := setup_facts h
  obtain ⟨M, hM, -⟩ := mass_spec gauss s (by omega)
  have hu : ((List.range 20).map fun i => (i : ℝ)).length = s.dimension := by simp [s3]
  obtain ⟨w, hw, hl⟩ := C87_defined h solve hsolve M hM .burgers true _ hu
  have hU := values_poly s (by omega) _ hu
  have hR := values_poly s (by omega) w hl
  exact ⟨gauss, s, m, C, M, solve, w, _, _, h, hM, hsolve, hw, hU, hR,
    C87_rhs_integral h solve hsolve M hM .burgers true _ w hu hw _ hR,
    C87_energy h solve hsolve M hM .burgers _ w hw _ _ hU hR⟩

/-- The right-hand side is not always zero: C87_group_energy applies. -/
example : ∃ gauss s m C M solve w, Setup gauss ⟨0, 3⟩ 3 1 s m C ∧ massMatrix gauss s = .ok M ∧
    Solves solve ∧ cgRhs solve gauss s M C .burgers false [0, 1, 2] = .ok w ∧
    w ≠ List.replicate s.dimension 0 := by
  obtain ⟨gauss, s, m, C, h⟩ := exists_setup ⟨0, 3⟩ (by norm_num) 3 1 (by norm_num) (by norm_num)
  obtain ⟨solve, hsolve⟩ := exists_solves
  obtain ⟨s1, s2, s3, s4⟩ := setup_facts h
  obtain ⟨M, hM, -⟩ := mass_spec gauss s (by omega)
  obtain ⟨w, U, R, hw, hU, hR, he⟩ := C87_group_energy h solve hsolve M hM
  refine ⟨gauss, s, m, C, M, solve, w, h, hM, hsolve, hw, ?_⟩
  rintro rfl
  have hz : ∀ c < s.cells.length, ∀ x, R c x = 0 := by
    intro c hc x
    have h1 := hR.2 c hc x
    rw [(values_const s (by omega) 0).2 c hc x] at h1
    exact (Except.ok.inj h1).symm
  unfold integral at he
  rw [Finset.sum_eq_zero] at he
  · norm_num at he
  · intro c hc
    simp [hz c (Finset.mem_range.mp hc)]

end Verif.FE
