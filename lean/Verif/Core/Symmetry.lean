import Verif.Core.FV
import Mathlib.Data.List.Forall2

/-!
Reflection and translation of finite volume states: helper lemmas for C88 and C89.
-/

set_option linter.unusedSectionVars false

namespace Verif.ODE

variable {K : Type*} [Field K]
variable {E E' : Type*} [AddCommGroup E] [Module K E] [AddCommGroup E'] [Module K E'] {ε ε' : Type*}

theorem stageValue_map (L : E →ₗ[K] E') (T : Tableau K) (dt : K) (u : E) (ks : List E) (i : ℕ) :
    stageValue T dt (L u) (ks.map L) i = L (stageValue T dt u ks i) := by
  unfold stageValue
  rw [map_add, map_smul, map_list_sum, List.map_map]
  congr 3
  apply List.map_congr_left
  intro j _
  simp only [Function.comp, map_smul]
  congr 1
  rw [show (0 : E') = L 0 by simp, List.getD_map]

theorem stagesE_map (L : E →ₗ[K] E') (T : Tableau K) (f : K → E → Except ε E)
    (f' : K → E' → Except ε' E') (hf : ∀ t u w, f t u = .ok w → f' t (L u) = .ok (L w))
    (t dt : K) (u : E) (n : ℕ) (ks : List E) (h : stagesE T f t dt u n = .ok ks) :
    stagesE T f' t dt (L u) n = .ok (ks.map L) := by
  induction n generalizing ks with
  | zero => cases h; rfl
  | succ n ih =>
    simp only [stagesE] at h ⊢
    cases h1 : stagesE T f t dt u n with
    | error e => rw [h1] at h; cases h
    | ok ks' =>
      rw [h1] at h
      simp only at h
      cases h2 : f (timeNode T t dt n) (stageValue T dt u ks' n) with
      | error e => rw [h2] at h; cases h
      | ok k =>
        rw [h2] at h
        cases h
        rw [ih ks' h1]
        simp only [stageValue_map, hf _ _ _ h2, List.map_append, List.map_cons, List.map_nil]

/-- The image of an integrator under a map of states. -/
def Solver.image (L : E → E') (s : Solver K E) : Solver K E' :=
  ⟨s.time, L s.solution, s.timeNodes, s.stageValues.map L⟩

theorem executeE_map (L : E →ₗ[K] E') (T : Tableau K) (f : K → E → Except ε E)
    (f' : K → E' → Except ε' E') (hf : ∀ t u w, f t u = .ok w → f' t (L u) = .ok (L w))
    (s s' : Solver K E) (dt : K) (h : s.executeE T f dt = .ok s') :
    (s.image L).executeE T f' dt = .ok (s'.image L) := by
  unfold Solver.executeE at h ⊢
  cases h1 : stagesE T f s.time dt s.solution T.size with
  | error e => rw [h1] at h; cases h
  | ok ks =>
    rw [h1] at h
    cases h
    have := stagesE_map L T f f' hf _ _ _ _ ks h1
    simp only [Solver.image, this]
    congr 2
    · rw [map_add, map_smul, map_list_sum, List.map_map]
      congr 3
      apply List.map_congr_left
      intro j _
      simp only [Function.comp, map_smul]
      congr 1
      rw [show (0 : E') = L 0 by simp, List.getD_map]
    · rw [List.map_map]
      apply List.map_congr_left
      intro j _
      simp only [Function.comp, stageValue_map]

/-- Runge-Kutta runs commute with linear maps that carry one right-hand side to the other. -/
theorem runE_map (L : E →ₗ[K] E') (T : Tableau K) (f : K → E → Except ε E)
    (f' : K → E' → Except ε' E') (hf : ∀ t u w, f t u = .ok w → f' t (L u) = .ok (L w))
    (s s' : Solver K E) (steps : List K) (h : s.runE T f steps = .ok s') :
    (s.image L).runE T f' steps = .ok (s'.image L) := by
  induction steps generalizing s with
  | nil => cases h; rfl
  | cons dt steps ih =>
    simp only [Solver.runE] at h ⊢
    cases h1 : s.executeE T f dt with
    | error e => rw [h1] at h; cases h
    | ok s1 =>
      rw [h1] at h
      rw [executeE_map L T f f' hf s s1 dt h1]
      exact ih s1 h

end Verif.ODE

namespace Verif.FV

open Verif.Py Verif.Boundary

/-! ### Lists -/

theorem mapM_iff_forall₂ {α β ε : Type*} (f : α → Except ε β) (l : List α) (r : List β) :
    l.mapM f = .ok r ↔ List.Forall₂ (fun x y => f x = .ok y) l r := by
  induction l generalizing r with
  | nil =>
    constructor
    · intro h; cases h; exact .nil
    · intro h; cases h; rfl
  | cons x l ih =>
    rw [List.mapM_cons]
    constructor
    · intro h
      cases hx : f x with
      | error e => rw [hx] at h; cases h
      | ok y =>
        rw [hx] at h
        cases hl : l.mapM f with
        | error e => rw [hl] at h; cases h
        | ok ys =>
          rw [hl] at h
          cases h
          exact .cons hx ((ih ys).mp hl)
    · intro h
      cases h with
      | cons hx hl => rw [hx, (ih _).mpr hl]; rfl

/-- `mapM` over the reversed list, after a change of variables. -/
theorem mapM_reverse_map {α β α' β' ε ε' : Type*} (f : α → Except ε β) (f' : α' → Except ε' β')
    (σ : α → α') (τ : β → β') (l : List α) (r : List β)
    (h : ∀ x ∈ l, ∀ y, f x = .ok y → f' (σ x) = .ok (τ y)) (hl : l.mapM f = .ok r) :
    (l.reverse.map σ).mapM f' = .ok (r.reverse.map τ) := by
  rw [mapM_iff_forall₂] at hl ⊢
  rw [List.forall₂_map_left_iff, List.forall₂_map_right_iff, List.forall₂_reverse_iff]
  induction hl with
  | nil => exact .nil
  | cons hx _ ih =>
    exact .cons (h _ List.mem_cons_self _ hx)
      (ih (fun x hx' => h x (List.mem_cons_of_mem _ hx')))

theorem zip_reverse {α β : Type*} (l : List α) (r : List β) (h : l.length = r.length) :
    l.reverse.zip r.reverse = (l.zip r).reverse := by
  apply List.ext_getElem
  · simp
  · intro i h1 h2
    simp only [List.getElem_zip, List.getElem_reverse]
    simp only [List.length_zip, h, min_self]

theorem zipWith_reverse_of_length {α β γ : Type*} (g : α → β → γ) (l : List α) (r : List β)
    (h : l.length = r.length) :
    List.zipWith g l.reverse r.reverse = (List.zipWith g l r).reverse := by
  apply List.ext_getElem
  · simp
  · intro i h1 h2
    simp only [List.getElem_zipWith, List.getElem_reverse]
    simp only [List.length_zipWith, h, min_self]

theorem zipE_reverse {α β γ α' β' γ' : Type*} (g : α → β → Except Error γ)
    (g' : α' → β' → Except Error γ') (σ : α → α') (τ : β → β') (ρ : γ → γ')
    (h : ∀ a b c, g a b = .ok c → g' (σ a) (τ b) = .ok (ρ c)) (l : List α) (r : List β)
    (hlen : l.length = r.length) (cs : List γ) (hz : zipE g l r = .ok cs) :
    zipE g' (l.reverse.map σ) (r.reverse.map τ) = .ok (cs.reverse.map ρ) := by
  unfold zipE at hz ⊢
  rw [List.zip_map, zip_reverse l r hlen]
  exact mapM_reverse_map _ _ (Prod.map σ τ) ρ _ cs (fun p _ c hc => h p.1 p.2 c hc) hz

theorem zipE_flip {α β γ : Type*} (g : α → β → Except Error γ) (l : List α) (r : List β) :
    zipE g l r = zipE (fun b a => g a b) r l := by
  unfold zipE
  rw [← List.zip_swap l r, List.mapM_map]
  rfl

theorem zipE_length {α β γ : Type*} (g : α → β → Except Error γ) (l : List α) (r : List β)
    (hlen : l.length = r.length) (cs : List γ) (hz : zipE g l r = .ok cs) :
    cs.length = l.length := by
  rw [(zipE_ok_iff g l r cs hz).1, ← hlen, min_self]

/-! ### Reflection of the interval -/

variable {K : Type*} [Field K] [LinearOrder K]
variable {V : Type*} [AddCommGroup V] [Module K V]

/-- The reflected array: the cells in reversed order, each value transformed by `m`. -/
def mirror {α β : Type*} (m : α → β) (l : List α) : List β := l.reverse.map m

@[simp] theorem mirror_length {α β : Type*} (m : α → β) (l : List α) :
    (mirror m l).length = l.length := by
  simp [mirror]

/-- The reflected ghost cell. -/
def Ghost.mirror (m : V → V) : Ghost K V → Ghost K V
  | .copy i => .copy (-1 - i)
  | .inflow g => .inflow (fun t => m (g t))
  | .reflect i f => .reflect (-1 - i) f

/-- The reflected boundary conditions. -/
def BC.mirror (m : V → V) (b : BC K V) : BC K V :=
  ⟨b.right.reverse.map (Ghost.mirror m), b.left.reverse.map (Ghost.mirror m), b.periodic⟩

theorem get_mirror {α : Type*} (m : α → α) (v : List α) (i : ℤ) (x : α)
    (h : Py.get v i = .ok x) : Py.get (mirror m v) (-1 - i) = .ok (m x) := by
  by_cases hi : 0 ≤ i
  · obtain ⟨k, rfl⟩ := Int.eq_ofNat_of_zero_le hi
    by_cases hk : k < v.length
    · rw [get_nat v hk] at h
      cases h
      have := get_neg (mirror m v) (i := k) (by simpa using hk)
      rw [show (-1 - (k : ℤ)) = -(k : ℤ) - 1 by ring]
      rw [this]
      congr 1
      simp only [mirror, List.getElem_map, List.getElem_reverse, List.length_map,
        List.length_reverse]
      congr 2
      omega
    · rw [get_nat_error v (by omega)] at h
      cases h
  · obtain ⟨k, hk⟩ := Int.eq_ofNat_of_zero_le (show 0 ≤ -1 - i by omega)
    have hi' : i = -(k : ℤ) - 1 := by omega
    rw [hk]
    subst hi'
    by_cases hk' : k < v.length
    · rw [get_neg v hk'] at h
      cases h
      rw [get_nat (mirror m v) (by simpa using hk')]
      congr 1
      simp only [mirror, List.getElem_map, List.getElem_reverse]
    · rw [get_neg_error v (by omega)] at h
      cases h

/-- The reflecting maps of a ghost cell commute with `m`. -/
def Ghost.Commutes (m : V → V) : Ghost K V → Prop
  | .reflect _ f => ∀ x, f (m x) = m (f x)
  | _ => True

theorem eval_mirror (m : V → V) (c : Ghost K V) (hc : Ghost.Commutes m c) (v : List V)
    (time : Option K) (x : V) (h : c.eval v time = .ok x) :
    (Ghost.mirror m c).eval (mirror m v) time = .ok (m x) := by
  cases c with
  | copy i => exact get_mirror m v i x h
  | inflow g =>
    cases time with
    | none => cases h
    | some t => cases h; rfl
  | reflect i f =>
    simp only [Ghost.eval, Ghost.mirror] at h ⊢
    cases hg : Py.get v i with
    | error e => rw [hg] at h; cases h
    | ok y =>
      rw [hg] at h
      cases h
      rw [get_mirror m v i y hg]
      simp only
      rw [hc y]

/-- The reflected conditions extend the reflected vector by the reflected ghost values. -/
theorem extend_mirror (m : V → V) (b : BC K V)
    (hl : ∀ c ∈ b.left, Ghost.Commutes m c) (hr : ∀ c ∈ b.right, Ghost.Commutes m c) (v : List V)
    (time : Option K) (ext : List V) (h : b.extend v time = .ok ext) :
    (BC.mirror m b).extend (mirror m v) time = .ok (mirror m ext) := by
  unfold BC.extend at h ⊢
  cases h1 : b.left.mapM (fun c => c.eval v time) with
  | error e => rw [h1] at h; cases h
  | ok l =>
    cases h2 : b.right.mapM (fun c => c.eval v time) with
    | error e => rw [h1, h2] at h; cases h
    | ok r =>
      rw [h1, h2] at h
      cases h
      simp only [BC.mirror]
      rw [mapM_reverse_map (fun c => c.eval v time) _ (Ghost.mirror m) m b.right r
          (fun c hc x hx => eval_mirror m c (hr c hc) v time x hx) h2,
        mapM_reverse_map (fun c => c.eval v time) _ (Ghost.mirror m) m b.left l
          (fun c hc x hx => eval_mirror m c (hl c hc) v time x hx) h1]
      simp [mirror]

/-- The slices of the reflected vector are the reflected slices in reversed order. -/
theorem nodeSlices_mirror (m : V → V) (ext : List V) (r : ℕ) (hr : 0 < r)
    (hlen : 2 * r ≤ ext.length + 1) :
    nodeSlices (mirror m ext) r = mirror (mirror m) (nodeSlices ext r) := by
  apply List.ext_getElem
  · rw [mirror_length, nodeSlices_length _ hr, nodeSlices_length _ hr]
  · intro k h1 h2
    rw [nodeSlices_length _ hr] at h1
    rw [nodeSlices_getElem _ hr (by simpa using hlen) k h1]
    simp only [mirror, List.getElem_map, List.getElem_reverse, nodeSlices_length _ hr]
    rw [nodeSlices_getElem _ hr hlen _ (by omega)]
    apply List.ext_getElem
    · simp; omega
    · intro i h3 h4
      simp only [List.length_take, List.length_drop, List.length_map, List.length_reverse] at h3
      simp only [List.getElem_take, List.getElem_drop, List.getElem_map, List.getElem_reverse]
      congr 2
      simp only [List.length_take, List.length_drop]
      omega

/-- `F'` is the mirror image of `F`: on the slices of a reflected vector it returns the reflected
fluxes, with left and right exchanged. -/
def MirrorImage (m : V → V) (F F' : NumFlux V) : Prop :=
  F'.dim = F.dim ∧ 0 < F.dim / 2 ∧ ∀ ext fl fr, 2 * (F.dim / 2) ≤ ext.length →
    F.call (nodeSlices ext (F.dim / 2)) = .ok (fl, fr) →
    fl.length = fr.length ∧
    F'.call (nodeSlices (mirror m ext) (F.dim / 2)) = .ok (mirror m fr, mirror m fl)

theorem extend_length (b : BC K V) (v ext : List V) (time : Option K)
    (h : b.extend v time = .ok ext) : ext.length = b.left.length + v.length + b.right.length := by
  unfold BC.extend at h
  cases h1 : b.left.mapM (fun c => c.eval v time) with
  | error e => rw [h1] at h; cases h
  | ok l =>
    cases h2 : b.right.mapM (fun c => c.eval v time) with
    | error e => rw [h1, h2] at h; cases h
    | ok r =>
      rw [h1, h2] at h
      cases h
      simp [mapM_eq_ok_length _ _ _ h1, mapM_eq_ok_length _ _ _ h2]
      omega

/-- The right-hand side of the mirror image. -/
theorem rhs_mirror (m : V →ₗ[K] V) (F F' : NumFlux V) (hF : MirrorImage m F F') (dx : K) (b : BC K V)
    (hl : ∀ c ∈ b.left, Ghost.Commutes m c) (hr : ∀ c ∈ b.right, Ghost.Commutes m c)
    (hb : F.dim / 2 ≤ b.left.length) (hb' : F.dim / 2 ≤ b.right.length) (t : K) (v w : List V)
    (h : rhs F dx b t v = .ok w) :
    rhs F' dx (BC.mirror m b) t (mirror m v) = .ok (mirror m w) := by
  obtain ⟨hdim, hpos, hcall⟩ := hF
  unfold rhs at h ⊢
  rw [hdim]
  unfold BC.nodeNeighbours at h ⊢
  cases h1 : b.extend v (some t) with
  | error e => rw [h1] at h; cases h
  | ok ext =>
    rw [h1] at h
    rw [extend_mirror m b hl hr v _ ext h1]
    simp only at h ⊢
    have hlen := extend_length b v ext _ h1
    cases h2 : F.call (nodeSlices ext (F.dim / 2)) with
    | error e => rw [h2] at h; cases h
    | ok p =>
      obtain ⟨fl, fr⟩ := p
      rw [h2] at h
      obtain ⟨hll, h3⟩ := hcall ext fl fr (by omega) h2
      rw [h3]
      simp only at h ⊢
      split at h
      · cases h
      · rename_i hdx
        cases h
        rw [if_neg hdx]
        congr 1
        apply List.ext_getElem
        · simp [hll]
        · intro i h4 h5
          simp only [mirror_length, List.length_zipWith, List.length_dropLast, List.length_tail] at h5
          simp only [mirror, List.getElem_zipWith, List.getElem_map, List.getElem_dropLast,
            List.getElem_tail, List.getElem_reverse, map_smul, map_add]
          simp only [List.length_zipWith, List.length_dropLast, List.length_tail, hll, min_self]
          rw [add_comm]
          congr 3
          · congr 1; omega
          · congr 1; omega

end Verif.FV
