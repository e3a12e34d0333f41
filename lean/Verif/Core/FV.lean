import Verif.Core.Boundary
import Verif.Core.ODEExcept
import Mathlib.Algebra.Module.Prod

/-!
Model of `finite_volume/numerical_flux.py` and `core/riemann_solver.py`: numerical fluxes on arrays
of node neighbours, and the right-hand side of finite volume schemes.

`V` is the type of cell values (numbers for scalar problems, pairs for shallow water).  Arrays are
lists; a division by zero, which makes numpy write `nan` or `inf`, is the error `nonFinite`.
-/

set_option linter.unusedSectionVars false

namespace Verif.FV

open Verif.Py Verif.Boundary

variable {K : Type*} [Field K] [LinearOrder K]
variable {V : Type*} [AddCommGroup V] [Module K V]

/-- `NumericalFlux`, lines 25-33: input dimension and call on the node neighbour arrays; the result
are the left and right node fluxes. -/
structure NumFlux (V : Type*) where
  dim : ℕ
  call : List (List V) → Except Error (List V × List V)

/-- `get_required_values`, lines 10-18. -/
def requiredValues {α : Type*} (dim : ℕ) (values : List α) : Except Error (List α) :=
  if values.length < dim then .error .assertionError
  else if values.length % 2 = 0 then
    let delta := (values.length - dim) / 2
    .ok ((values.take (values.length - delta)).drop delta)
  else .error .assertionError

/-- `get_dof_vector`, lines 21-22. -/
def dofVector {α : Type*} : List (List α) → Except Error (List α)
  | [] => .error .indexError
  | v :: vs =>
    match vs.mapM (fun w => Py.get w (-1)) with
    | .ok lasts => .ok (v ++ lasts)
    | .error e => .error e

/-- `NumericalFluxWithArbitraryInput`, lines 74-82. -/
def NumFlux.arbitraryInput (F : NumFlux V) : NumFlux V where
  dim := F.dim
  call := fun values =>
    match requiredValues F.dim values with
    | .ok vs => F.call vs
    | .error e => .error e

/-- `CorrectedNumericalFlux`, lines 113-130. -/
def NumFlux.corrected (F G : NumFlux V) : NumFlux V where
  dim := max F.dim G.dim
  call := fun values =>
    match F.arbitraryInput.call values, G.arbitraryInput.call values with
    | .ok (fl, fr), .ok (gl, gr) => .ok (List.zipWith (· + ·) fl gl, List.zipWith (· + ·) fr gr)
    | .error e, _ => .error e
    | _, .error e => .error e

/-- Element by element evaluation of a function of two arrays. -/
def zipE {α β γ : Type*} (g : α → β → Except Error γ) (l : List α) (r : List β) :
    Except Error (List γ) :=
  (l.zip r).mapM (fun p => g p.1 p.2)

/-- A flux with two inputs that returns `(-F, F)`; other numbers of inputs are a `TypeError`. -/
def twoPoint (F : V → V → Except Error V) : NumFlux V where
  dim := 2
  call := fun
    | [l, r] =>
      match zipE F l r with
      | .ok fs => .ok (fs.map (fun x => -x), fs)
      | .error e => .error e
    | _ => .error .typeError

/-- `core/riemann_solver.py` lines 7-50: flux function and wave speeds. -/
structure Riemann (K V : Type*) where
  flux : V → Except Error V
  waveSpeed : V → V → Except Error (K × K)

/-- What `RiemannSolver.solve` (lines 25-42) returns or leaves in its attributes, for one node. -/
structure RiemannResult (K V : Type*) where
  /-- returned flux -/
  flux : V
  /-- `intermediate_state` -/
  state : V
  fluxLeft : V
  fluxRight : V
  speedLeft : K
  speedRight : K

/-- `RiemannSolver.solve`, lines 25-42, for one node. -/
def Riemann.solve (R : Riemann K V) (uL uR : V) : Except Error (RiemannResult K V) :=
  match R.flux uL, R.flux uR, R.waveSpeed uL uR with
  | .ok fL, .ok fR, .ok (wL, wR) =>
    if wR - wL = 0 then .error .nonFinite
    else
      let factor := 1 / (wR - wL)
      let state := factor • (wR • uR - wL • uL - (fR - fL))
      .ok { flux := fL - wL • (uL - state), state := state, fluxLeft := fL, fluxRight := fR,
            speedLeft := wL, speedRight := wR }
  | .error e, _, _ => .error e
  | _, .error e, _ => .error e
  | _, _, .error e => .error e

/-- Flux returned by `solve`. -/
def Riemann.nodeFlux (R : Riemann K V) (uL uR : V) : Except Error V :=
  match R.solve uL uR with
  | .ok r => .ok r.flux
  | .error e => .error e

/-- `LaxFriedrichsFlux`, lines 85-95. -/
def laxFriedrichs (R : Riemann K V) : NumFlux V := twoPoint R.nodeFlux

/-- Flux of `CentralFlux` for one node, line 108. -/
def centralNode (K : Type*) [Field K] [Module K V] (f : V → Except Error V) (uL uR : V) :
    Except Error V :=
  match f uL, f uR with
  | .ok a, .ok b => .ok ((1 / 2 : K) • (a + b))
  | .error e, _ => .error e
  | _, .error e => .error e

/-- `CentralFlux`, lines 98-110. -/
def central (K : Type*) [Field K] [Module K V] (f : V → Except Error V) : NumFlux V :=
  twoPoint (centralNode K f)

/-- `LinearAntidiffusiveFlux`, lines 133-148. -/
def linearAntidiffusive (γ dx : K) : NumFlux V :=
  twoPoint (fun uL uR => if dx = 0 then .error .nonFinite else .ok ((1 / dx) • (γ • (uR + -uL))))

/-- `NumericalFluxDependentRightHandSide.__call__`, lines 168-186. -/
def rhs (F : NumFlux V) (dx : K) (bc : BC K V) (t : K) (v : List V) : Except Error (List V) :=
  match bc.nodeNeighbours v (F.dim / 2) (some t) with
  | .error e => .error e
  | .ok values =>
    match F.call values with
    | .error e => .error e
    | .ok (fl, fr) =>
      if dx = 0 then .error .nonFinite
      else .ok (List.zipWith (fun a b => (1 / dx) • (a + b)) fr.dropLast fl.tail)

/-- `NumericalFluxWithHistory`, lines 36-71: histories of returned fluxes. -/
structure FluxHistory (V : Type*) where
  left : List (List V)
  right : List (List V)

/-- `NumericalFluxWithHistory.__call__`, lines 67-71 (with lines 53-65): the first call replaces the
empty history, later ones append. -/
def callWithHistory (F : NumFlux V) (h : FluxHistory V) (values : List (List V)) :
    FluxHistory V × Except Error (List V × List V) :=
  match F.call values with
  | .error e => (h, .error e)
  | .ok (fl, fr) =>
    (if h.left = [] then ⟨[fl], [fr]⟩ else ⟨h.left ++ [fl], h.right ++ [fr]⟩, .ok (fl, fr))

/-- `OptimalTimeStep.__call__`, `finite_volume/time_stepping.py` lines 21-33. `get_node_neighbours`
is called with its default radius 1 and without a time. `np.max` of an empty array is a
`ValueError`. -/
def optimalTimeStep (R : Riemann K V) (bc : BC K V) (dx : K) (v : List V) : Except Error K :=
  match bc.nodeNeighbours v 1 none with
  | .error e => .error e
  | .ok values =>
    match values with
    | [l, r] =>
      match zipE R.solve l r with
      | .error e => .error e
      | .ok [] => .error .valueError
      | .ok (x :: xs) =>
        let speeds := (x :: xs).map (fun s => max |s.speedLeft| s.speedRight)
        let m := speeds.tail.foldl max (max |x.speedLeft| x.speedRight)
        if m = 0 then .error .nonFinite else .ok (dx / m)
    | _ => .error .typeError

/-! ### Lemmas -/

@[simp] theorem twoPoint_radius (F : V → V → Except Error V) : (twoPoint F).dim / 2 = 1 := by
  simp [twoPoint]

/-- The values around one node, in the order of the arrays. -/
def stencils (values : List (List V)) : List (List V) :=
  (List.range (values.headD []).length).map (fun i => values.map (fun a => a.getD i 0))

theorem zipE_ok_iff {α β γ : Type*} (g : α → β → Except Error γ) (l : List α) (r : List β)
    (fs : List γ) (h : zipE g l r = .ok fs) :
    fs.length = min l.length r.length ∧
    ∀ i (h1 : i < fs.length) (h2 : i < l.length) (h3 : i < r.length), g l[i] r[i] = .ok fs[i] := by
  induction l generalizing r fs with
  | nil => cases h; simp
  | cons a l ih =>
    cases r with
    | nil => cases h; simp
    | cons b r =>
      unfold zipE at h
      rw [List.zip_cons_cons, List.mapM_cons] at h
      cases hg : g a b with
      | error e => simp only [hg] at h; cases h
      | ok y =>
        simp only [hg] at h
        cases hl : zipE g l r with
        | error e => unfold zipE at hl; rw [hl] at h; cases h
        | ok ys =>
          have hl' := hl
          unfold zipE at hl
          rw [hl] at h
          cases h
          obtain ⟨h1, h2⟩ := ih r ys hl'
          refine ⟨by simp [h1], ?_⟩
          intro i hi1 hi2 hi3
          cases i with
          | zero => simpa using hg
          | succ i => simpa using h2 i (by simpa using hi1) (by simpa using hi2) (by simpa using hi3)

theorem zipE_ok {α β γ : Type*} (g : α → β → Except Error γ) (l : List α) (r : List β)
    (h : ∀ i (h2 : i < l.length) (h3 : i < r.length), ∃ y, g l[i] r[i] = .ok y) :
    ∃ fs, zipE g l r = .ok fs := by
  induction l generalizing r with
  | nil => exact ⟨[], rfl⟩
  | cons a l ih =>
    cases r with
    | nil => exact ⟨[], rfl⟩
    | cons b r =>
      obtain ⟨y, hy⟩ := h 0 (by simp) (by simp)
      obtain ⟨ys, hys⟩ := ih r (fun i h2 h3 => h (i + 1) (by simpa using h2) (by simpa using h3))
      refine ⟨y :: ys, ?_⟩
      unfold zipE at hys ⊢
      rw [List.zip_cons_cons, List.mapM_cons, hys]
      simp only [List.getElem_cons_zero] at hy
      simp only [hy]
      rfl

theorem nodeSlices_one {α : Type*} (ext : List α) (h : ext ≠ []) :
    nodeSlices ext 1 = [ext.dropLast, ext.tail] := by
  have hpos := List.length_pos_iff.mpr h
  have h1 : bound ext.length (-1) = ext.length - 1 := by
    unfold bound; rw [if_pos (by omega)]; omega
  have h2 : bound ext.length 0 = 0 := by simp [bound]
  have h3 : bound ext.length 1 = 1 := by unfold bound; rw [if_neg (by omega)]; simp; omega
  simp [nodeSlices, slice, sliceFrom, h1, h2, h3, List.dropLast_eq_take]

/-- The right-hand side of a scheme whose flux takes two arrays, in terms of its node fluxes. -/
theorem rhs_of_call (F : NumFlux V) (hdim : F.dim / 2 = 1) (dx : K) (hdx : dx ≠ 0) (bc : BC K V)
    (t : K) (v ext : List V) (hext : bc.extend v (some t) = .ok ext) (n : ℕ)
    (hlen : ext.length = n + 2) (gl gr : ℕ → V)
    (hcall : F.call [ext.dropLast, ext.tail] =
      .ok ((List.range (n + 1)).map gl, (List.range (n + 1)).map gr)) :
    rhs F dx bc t v = .ok ((List.range n).map (fun i => (1 / dx) • (gr i + gl (i + 1)))) := by
  have hne : ext ≠ [] := by rintro rfl; simp at hlen
  have hnb : bc.nodeNeighbours v 1 (some t) = .ok [ext.dropLast, ext.tail] := by
    simp only [BC.nodeNeighbours, hext]
    rw [nodeSlices_one ext hne]
  unfold rhs
  simp only [hdim, hnb, hcall, if_neg hdx]
  congr 1
  apply List.ext_getElem
  · simp
  · intro i hi1 hi2
    simp

/-- The right-hand side of a scheme with a two point flux, node by node: with extended vector `ext`
and node fluxes `g j`, the value in cell `i` is `(g i - g (i + 1)) / dx`. -/
theorem rhs_twoPoint (F : V → V → Except Error V) (dx : K) (hdx : dx ≠ 0) (bc : BC K V) (t : K)
    (v ext : List V) (hext : bc.extend v (some t) = .ok ext) (n : ℕ) (hlen : ext.length = n + 2)
    (g : ℕ → V)
    (hg : ∀ j (hj : j < n + 1), F (ext[j]'(by omega)) (ext[j + 1]'(by omega)) = .ok (g j)) :
    rhs (twoPoint F) dx bc t v =
      .ok ((List.range n).map (fun i => (1 / dx) • (g i + -g (i + 1)))) := by
  have hne : ext ≠ [] := by rintro rfl; simp at hlen
  have hz : zipE F ext.dropLast ext.tail = .ok ((List.range (n + 1)).map g) := by
    obtain ⟨fs, hfs⟩ := zipE_ok F ext.dropLast ext.tail (by
      intro i h2 h3
      rw [List.length_dropLast] at h2
      refine ⟨g i, ?_⟩
      rw [List.getElem_dropLast, List.getElem_tail]
      exact hg i (by omega))
    obtain ⟨h1, h2⟩ := zipE_ok_iff F _ _ fs hfs
    rw [hfs]
    congr 1
    have hl : fs.length = n + 1 := by rw [h1]; simp [hlen]
    apply List.ext_getElem
    · simp [hl]
    · intro i hi1 hi2
      have := h2 i hi1 (by simp; omega) (by simp; omega)
      rw [List.getElem_dropLast, List.getElem_tail, hg i (by omega)] at this
      simp only [List.getElem_map, List.getElem_range]
      exact (Except.ok.inj this).symm
  have hnb : bc.nodeNeighbours v 1 (some t) = .ok [ext.dropLast, ext.tail] := by
    simp only [BC.nodeNeighbours, hext]
    rw [nodeSlices_one ext hne]
  unfold rhs
  simp only [twoPoint, Nat.reduceDiv, hnb, hz, if_neg hdx]
  congr 1
  apply List.ext_getElem
  · simp
  · intro i hi1 hi2
    simp

/-- If the right-hand side with a two point flux does not raise, it has this form. -/
theorem rhs_twoPoint_inv (F : V → V → Except Error V) (dx : K) (bc : BC K V) (t : K)
    (v ext w : List V) (hext : bc.extend v (some t) = .ok ext) (n : ℕ) (hlen : ext.length = n + 2)
    (h : rhs (twoPoint F) dx bc t v = .ok w) :
    ∃ g : ℕ → V, dx ≠ 0 ∧
      (∀ j (hj : j < n + 1), F (ext[j]'(by omega)) (ext[j + 1]'(by omega)) = .ok (g j)) ∧
      w = (List.range n).map (fun i => (1 / dx) • (g i + -g (i + 1))) := by
  have hne : ext ≠ [] := by rintro rfl; simp at hlen
  have hnb : bc.nodeNeighbours v 1 (some t) = .ok [ext.dropLast, ext.tail] := by
    simp only [BC.nodeNeighbours, hext]
    rw [nodeSlices_one ext hne]
  have h' := h
  unfold rhs at h
  simp only [twoPoint, Nat.reduceDiv, hnb] at h
  cases hz : zipE F ext.dropLast ext.tail with
  | error e => simp only [hz] at h; cases h
  | ok fs =>
    simp only [hz] at h
    split at h
    · cases h
    · rename_i hdx
      obtain ⟨h1, h2⟩ := zipE_ok_iff F _ _ fs hz
      have hl : fs.length = n + 1 := by rw [h1]; simp [hlen]
      have hg : ∀ j (hj : j < n + 1), F (ext[j]'(by omega)) (ext[j + 1]'(by omega)) =
          .ok (fs.getD j 0) := by
        intro j hj
        have := h2 j (by omega) (by simp; omega) (by simp; omega)
        rw [List.getElem_dropLast, List.getElem_tail] at this
        rw [this, List.getD_eq_getElem _ _ (by omega)]
      refine ⟨fun j => fs.getD j 0, hdx, hg, ?_⟩
      have := rhs_twoPoint F dx hdx bc t v ext hext n hlen _ hg
      rw [this] at h'
      cases h'
      rfl

end Verif.FV
