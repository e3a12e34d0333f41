import Verif.Core.Scalar
import Verif.Props.FV

/-!
Lemmas about the scalar finite volume model: closed form of the Riemann solver for speeds `-w, w`,
bar states, local bounds, and the call of the limited flux.
-/

set_option linter.unusedSectionVars false

namespace Verif.Scalar

open Verif.Py Verif.Boundary Verif.FV Verif.ODE

variable {K : Type*} [Field K] [LinearOrder K] [IsStrictOrderedRing K]

/-- Local Lax-Friedrichs flux. -/
def llf (fL fR w uL uR : K) : K := (fL + fR) / 2 - w / 2 * (uR - uL)

/-- Bar state. -/
def barState (fL fR w uL uR : K) : K := (uL + uR) / 2 - (fR - fL) / (2 * w)

theorem solve_eq (R : Riemann K K) (uL uR fL fR w : K) (hL : R.flux uL = .ok fL)
    (hR : R.flux uR = .ok fR) (hw : R.waveSpeed uL uR = .ok (-w, w)) (hpos : 0 < w) :
    R.solve uL uR = .ok ⟨llf fL fR w uL uR, barState fL fR w uL uR, fL, fR, -w, w⟩ := by
  have h1 : w - -w ≠ 0 := by intro h; linarith
  have h2 : w ≠ 0 := hpos.ne'
  have h3 : w - -w = 2 * w := by ring
  simp only [Riemann.solve, hL, hR, hw, if_neg h1, smul_eq_mul, llf, barState]
  congr 2
  · rw [h3]; field_simp; ring
  · rw [h3]; field_simp; ring

theorem llf_eq_right (fL fR w uL uR : K) (hw : w ≠ 0) :
    llf fL fR w uL uR = fR + w * (barState fL fR w uL uR - uR) := by
  unfold llf barState; field_simp; ring

theorem llf_eq_left (fL fR w uL uR : K) (hw : w ≠ 0) :
    llf fL fR w uL uR = fL + w * (uL - barState fL fR w uL uR) := by
  unfold llf barState; field_simp; ring

/-- Bar states lie between the two states if the speed bounds the difference quotient. -/
theorem barState_mem (fL fR w uL uR m M : K) (hw : 0 < w)
    (h : |fR - fL| ≤ w * |uR - uL|) (h1 : m ≤ uL) (h2 : m ≤ uR) (h3 : uL ≤ M) (h4 : uR ≤ M) :
    m ≤ barState fL fR w uL uR ∧ barState fL fR w uL uR ≤ M := by
  have hd : |(fR - fL) / (2 * w)| ≤ |uR - uL| / 2 := by
    rw [abs_div, abs_of_pos (by positivity : (0 : K) < 2 * w), div_le_iff₀ (by positivity)]
    linarith
  rw [abs_le] at hd
  unfold barState
  rcases abs_cases (uR - uL) with ⟨e, _⟩ | ⟨e, _⟩ <;> rw [e] at hd <;> constructor <;> linarith

/-- The convex combination behind the maximum principle. -/
theorem cell_bound (y a b w₁ w₂ lam m M : K) (h0 : 0 ≤ lam) (hw₁ : 0 ≤ w₁) (hw₂ : 0 ≤ w₂)
    (hcfl : lam * (w₁ + w₂) ≤ 1) (hy : m ≤ y ∧ y ≤ M) (ha : m ≤ a ∧ a ≤ M) (hb : m ≤ b ∧ b ≤ M) :
    m ≤ y + lam * (w₁ * (a - y) + w₂ * (b - y)) ∧ y + lam * (w₁ * (a - y) + w₂ * (b - y)) ≤ M := by
  have e : y + lam * (w₁ * (a - y) + w₂ * (b - y)) =
      (1 - lam * (w₁ + w₂)) * y + (lam * w₁) * a + (lam * w₂) * b := by ring
  have p1 : 0 ≤ lam * w₁ := mul_nonneg h0 hw₁
  have p2 : 0 ≤ lam * w₂ := mul_nonneg h0 hw₂
  have p3 : 0 ≤ 1 - lam * (w₁ + w₂) := by linarith
  rw [e]
  constructor
  · nlinarith [mul_le_mul_of_nonneg_left hy.1 p3, mul_le_mul_of_nonneg_left ha.1 p1,
      mul_le_mul_of_nonneg_left hb.1 p2]
  · nlinarith [mul_le_mul_of_nonneg_left hy.2 p3, mul_le_mul_of_nonneg_left ha.2 p1,
      mul_le_mul_of_nonneg_left hb.2 p2]

/-! ### Boundary cells that copy cells of the domain -/

/-- On meshes of `n` cells the conditions extend a vector by one value of a cell on each side. -/
def Copies {V : Type*} (bc : BC K V) (n : ℕ) : Prop :=
  ∀ (t : K) (v : List V), v.length = n → ∃ a ∈ v, ∃ b ∈ v,
    bc.extend v (some t) = .ok (a :: v ++ [b])

theorem periodic_copies {V : Type*} (wall : Option (V → V)) (il ir : Option (K → V)) (bc : BC K V)
    (hbc : build wall ["periodic"] 1 il ir = .ok bc) (n : ℕ) (hn : 0 < n) : Copies bc n := by
  intro t v hv
  rw [build_periodic] at hbc
  cases hbc
  have hv0 : v ≠ [] := by rintro rfl; simp at hv; omega
  refine ⟨v.getLast hv0, List.getLast_mem hv0, v.head hv0, List.head_mem hv0, ?_⟩
  have e1 := periodic_left (K := K) v 1 (by omega) (some t)
  have e2 := periodic_right (K := K) v 1 (by omega) (some t)
  simp only [BC.extend, e1, e2]
  congr 2
  · rw [List.drop_length_sub_one hv0]; rfl
  · cases v with
    | nil => exact absurd rfl hv0
    | cons a as => simp

theorem outflow_copies {V : Type*} (wall : Option (V → V)) (il ir : Option (K → V)) (bc : BC K V)
    (hbc : build wall ["outflow"] 1 il ir = .ok bc) (n : ℕ) (hn : 0 < n) : Copies bc n := by
  intro t v hv
  have hv0 : v ≠ [] := by rintro rfl; simp at hv; omega
  obtain ⟨b, h1, h2⟩ := C20_outflow wall 1 il ir v hv0 (some t)
  rw [hbc] at h1
  cases h1
  exact ⟨v.head hv0, List.head_mem hv0, v.getLast hv0, List.getLast_mem hv0, by simpa using h2⟩

/-! ### Local bounds -/

theorem mem_neighbourSet (n : ℕ) (p : Bool) (i : ℕ) (hi : i < n) (k : ℤ) :
    k ∈ neighbourSet n p i ↔ (0 ≤ k ∧ k < n ∧ (k = (i : ℤ) - 1 ∨ k = i ∨ k = (i : ℤ) + 1)) ∨
      (p = true ∧ i = 0 ∧ k = (n : ℤ) - 1) ∨ (p = true ∧ i + 1 = n ∧ k = 0) := by
  unfold neighbourSet
  cases p <;> simp only [Bool.true_and, Bool.false_and, decide_eq_true_eq, Bool.false_eq_true,
    false_and, true_and, if_false] <;> split_ifs <;>
    simp only [List.mem_insert_iff, List.mem_filter, List.mem_cons, List.not_mem_nil, or_false,
      decide_eq_true_eq, ne_eq] <;> omega

theorem mem_neighbourArray (n : ℕ) (p : Bool) (nb : List (List ℤ))
    (h : neighbourArray n p = .ok nb) :
    nb.length = n ∧ ∀ i (hi : i < nb.length) (k : ℤ), k ∈ nb[i] ↔ k ∈ neighbourSet n p i := by
  unfold neighbourArray at h
  split at h
  · cases h
  · cases h
    refine ⟨by simp, ?_⟩
    intro i hi k
    have hi' : i < n := by simpa using hi
    simp only [List.getElem_map, List.getElem_range, List.mem_append, List.mem_replicate]
    constructor
    · rintro (h | ⟨_, rfl⟩)
      · exact h
      · rw [mem_neighbourSet n p i hi']; omega
    · exact Or.inl

theorem neighbourArray_ok (n : ℕ) (hn : 0 < n) (p : Bool) : ∃ nb, neighbourArray n p = .ok nb := by
  unfold neighbourArray
  rw [if_neg hn.ne']
  exact ⟨_, rfl⟩

theorem gather_spec (u : List K) (row : List ℤ) (hrow : ∀ k ∈ row, 0 ≤ k ∧ k < u.length) :
    gather u row = .ok (row.map (fun k => u.getD k.toNat 0)) := by
  apply mapM_ok
  intro k hk
  obtain ⟨h0, h1⟩ := hrow k hk
  have hk : ((k.toNat : ℕ) : ℤ) = k := Int.toNat_of_nonneg h0
  have hlt : k.toNat < u.length := by omega
  rw [List.getD_eq_getElem _ _ hlt, ← get_nat u hlt, hk]

theorem foldl_max_spec (l : List K) (a : K) :
    (∀ x ∈ a :: l, x ≤ l.foldl max a) ∧ l.foldl max a ∈ a :: l := by
  refine ⟨?_, ?_⟩
  · intro x hx
    rcases List.mem_cons.mp hx with rfl | hx
    · exact (le_foldl_max _ _).1
    · exact (le_foldl_max _ _).2 x hx
  · rcases foldl_max_mem l a with h | h
    · rw [h]; exact List.mem_cons_self
    · exact List.mem_cons_of_mem _ h

theorem foldl_min_spec (l : List K) (a : K) :
    (∀ x ∈ a :: l, l.foldl min a ≤ x) ∧ l.foldl min a ∈ a :: l := by
  induction l generalizing a with
  | nil => simp
  | cons y l ih =>
    obtain ⟨h1, h2⟩ := ih (min a y)
    simp only [List.foldl_cons]
    constructor
    · intro x hx
      rcases List.mem_cons.mp hx with rfl | hx
      · exact (h1 _ List.mem_cons_self).trans (min_le_left _ _)
      · rcases List.mem_cons.mp hx with rfl | hx
        · exact (h1 _ List.mem_cons_self).trans (min_le_right _ _)
        · exact h1 x (List.mem_cons_of_mem _ hx)
    · rcases List.mem_cons.mp h2 with h | h
      · rcases min_choice a y with h' | h'
        · rw [h, h']; exact List.mem_cons_self
        · rw [h, h']; exact List.mem_cons_of_mem _ List.mem_cons_self
      · exact List.mem_cons_of_mem _ (List.mem_cons_of_mem _ h)

/-- The local maximum at `i` is the largest value at an index of row `i`. -/
theorem localMaximum_spec (nb : List (List ℤ)) (u : List K)
    (hnb : ∀ row ∈ nb, row ≠ [] ∧ ∀ k ∈ row, 0 ≤ k ∧ k < u.length) :
    ∃ M, localMaximum nb u = .ok M ∧ M.length = nb.length ∧
      ∀ i (hi : i < nb.length), (∀ k ∈ nb[i], u.getD k.toNat 0 ≤ M.getD i 0) ∧
        ∃ k ∈ nb[i], M.getD i 0 = u.getD k.toNat 0 := by
  have key : ∀ row ∈ nb, ∃ m, rowMax u row = .ok m ∧
      (∀ k ∈ row, u.getD k.toNat 0 ≤ m) ∧ ∃ k ∈ row, m = u.getD k.toNat 0 := by
    intro row hrow
    obtain ⟨hne, hk⟩ := hnb row hrow
    unfold rowMax
    rw [gather_spec u row hk]
    obtain ⟨k0, ks, rfl⟩ := List.exists_cons_of_ne_nil hne
    simp only [List.map_cons, amax]
    refine ⟨_, rfl, ?_, ?_⟩
    · intro k hk
      apply (foldl_max_spec _ _).1
      rw [← List.map_cons (f := fun k : ℤ => u.getD k.toNat 0)]
      exact List.mem_map.mpr ⟨k, hk, rfl⟩
    · have := (foldl_max_spec (ks.map fun k : ℤ => u.getD k.toNat 0) (u.getD k0.toNat 0)).2
      rw [← List.map_cons (f := fun k : ℤ => u.getD k.toNat 0)] at this
      obtain ⟨k, hk, he⟩ := List.mem_map.mp this
      exact ⟨k, hk, he.symm⟩
  clear hnb
  unfold localMaximum
  induction nb with
  | nil => exact ⟨[], rfl, rfl, fun i hi => by simp at hi⟩
  | cons row nb ih =>
    obtain ⟨m, hm, h1, h2⟩ := key row List.mem_cons_self
    obtain ⟨M, hM, h3, h4⟩ := ih (fun r hr => key r (List.mem_cons_of_mem _ hr))
    refine ⟨m :: M, ?_, by simp [h3], ?_⟩
    · rw [List.mapM_cons, hm, hM]; rfl
    · intro i hi
      cases i with
      | zero => exact ⟨by simpa using h1, by simpa using h2⟩
      | succ i => simpa using h4 i (by simpa using hi)

/-- The local minimum at `i` is the smallest value at an index of row `i`. -/
theorem localMinimum_spec (nb : List (List ℤ)) (u : List K)
    (hnb : ∀ row ∈ nb, row ≠ [] ∧ ∀ k ∈ row, 0 ≤ k ∧ k < u.length) :
    ∃ M, localMinimum nb u = .ok M ∧ M.length = nb.length ∧
      ∀ i (hi : i < nb.length), (∀ k ∈ nb[i], M.getD i 0 ≤ u.getD k.toNat 0) ∧
        ∃ k ∈ nb[i], M.getD i 0 = u.getD k.toNat 0 := by
  have key : ∀ row ∈ nb, ∃ m, rowMin u row = .ok m ∧
      (∀ k ∈ row, m ≤ u.getD k.toNat 0) ∧ ∃ k ∈ row, m = u.getD k.toNat 0 := by
    intro row hrow
    obtain ⟨hne, hk⟩ := hnb row hrow
    unfold rowMin
    rw [gather_spec u row hk]
    obtain ⟨k0, ks, rfl⟩ := List.exists_cons_of_ne_nil hne
    simp only [List.map_cons, amin]
    refine ⟨_, rfl, ?_, ?_⟩
    · intro k hk
      apply (foldl_min_spec _ _).1
      rw [← List.map_cons (f := fun k : ℤ => u.getD k.toNat 0)]
      exact List.mem_map.mpr ⟨k, hk, rfl⟩
    · have := (foldl_min_spec (ks.map fun k : ℤ => u.getD k.toNat 0) (u.getD k0.toNat 0)).2
      rw [← List.map_cons (f := fun k : ℤ => u.getD k.toNat 0)] at this
      obtain ⟨k, hk, he⟩ := List.mem_map.mp this
      exact ⟨k, hk, he.symm⟩
  clear hnb
  unfold localMinimum
  induction nb with
  | nil => exact ⟨[], rfl, rfl, fun i hi => by simp at hi⟩
  | cons row nb ih =>
    obtain ⟨m, hm, h1, h2⟩ := key row List.mem_cons_self
    obtain ⟨M, hM, h3, h4⟩ := ih (fun r hr => key r (List.mem_cons_of_mem _ hr))
    refine ⟨m :: M, ?_, by simp [h3], ?_⟩
    · rw [List.mapM_cons, hm, hM]; rfl
    · intro i hi
      cases i with
      | zero => exact ⟨by simpa using h1, by simpa using h2⟩
      | succ i => simpa using h4 i (by simpa using hi)

/-! ### The limiter -/

theorem limitNode_spec (f w barL barR maxL maxR minL minR : K) (hw : 0 < w)
    (hL : minL ≤ barL ∧ barL ≤ maxL) (hR : minR ≤ barR ∧ barR ≤ maxR) :
    let F := limitNode f w barL barR maxL maxR minL minR
    (minR ≤ barR + F / w ∧ barR + F / w ≤ maxR) ∧ (minL ≤ barL - F / w ∧ barL - F / w ≤ maxL) ∧
    ((0 ≤ f → 0 ≤ F ∧ F ≤ f) ∧ (f ≤ 0 → f ≤ F ∧ F ≤ 0)) := by
  intro F
  set a := min (maxR - barR) (barL - minL) with ha
  set b := max (minR - barR) (barL - maxL) with hb
  have ha0 : 0 ≤ a := le_min (by linarith) (by linarith)
  have hb0 : b ≤ 0 := max_le (by linarith) (by linarith)
  have hF : F = max (w * b) (min (w * a) f) := rfl
  have hwa : 0 ≤ w * a := mul_nonneg hw.le ha0
  have hwb : w * b ≤ 0 := mul_nonpos_of_nonneg_of_nonpos hw.le hb0
  have h1 : F ≤ w * a := by
    rw [hF]; exact max_le (hwb.trans hwa) (min_le_left _ _)
  have h2 : w * b ≤ F := by rw [hF]; exact le_max_left _ _
  have g1 : F / w ≤ a := by rw [div_le_iff₀ hw]; linarith
  have g2 : b ≤ F / w := by rw [le_div_iff₀ hw]; linarith
  have a1 : a ≤ maxR - barR := min_le_left _ _
  have a2 : a ≤ barL - minL := min_le_right _ _
  have b1 : minR - barR ≤ b := le_max_left _ _
  have b2 : barL - maxL ≤ b := le_max_right _ _
  refine ⟨⟨by linarith, by linarith⟩, ⟨by linarith, by linarith⟩, ?_, ?_⟩
  · intro hf
    rw [hF]
    exact ⟨le_max_of_le_right (le_min hwa hf), max_le (hwb.trans hf) (min_le_right _ _)⟩
  · intro hf
    rw [hF]
    exact ⟨le_max_of_le_right (le_min (hf.trans hwa) le_rfl),
      max_le hwb ((min_le_right _ _).trans hf)⟩

end Verif.Scalar
