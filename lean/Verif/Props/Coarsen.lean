import Verif.Core.Coarsen
import Mathlib.Data.List.GetD
import Mathlib.Data.Rat.Defs
import Mathlib.Algebra.Order.Ring.Rat
import Mathlib.Tactic.NormNum

/-!
Properties C12-C15: coarsening of vectors.
-/

set_option linter.unusedSectionVars false

namespace Verif.Coarsen

variable {K : Type*} [Field K] [LinearOrder K] [IsStrictOrderedRing K]
variable {V : Type*} [AddCommGroup V] [Module K V]

/-! ### C12 -/

/-- Specification: the arithmetic mean of a list of values. -/
def mean (K : Type*) [Field K] {V : Type*} [AddCommGroup V] [Module K V] (l : List V) : V :=
  ((l.length : K)⁻¹) • l.sum

/-- C12.  Coarsening fails exactly if the degree does not divide the length (with degree 0 being a
division by zero); otherwise the result has `len(v)/k` entries and entry `I` is the mean of the
entries of `v` at the fine-grid indices of `I` (all of which are valid indices of `v`). -/
theorem C12_coarsen_is_cell_average (k : ℕ) (hk : 0 < k) (v : List V) :
    (¬ k ∣ v.length ∧ coarsen K k v = .error .notDivisible) ∨
    (k ∣ v.length ∧ ∃ u, coarsen K k v = .ok u ∧ u.length * k = v.length ∧
      ∀ I (hI : I < u.length), ∃ l : List V,
        (fineIndices k I).map (fun j => v[j]?) = l.map some ∧ u[I] = mean K l) := by
  by_cases hd : k ∣ v.length
  · right
    obtain ⟨n, hn⟩ := hd
    have hn' : v.length = n * k := by rw [hn, mul_comm]
    refine ⟨⟨n, hn⟩, coarsenVector K k v, ?_, ?_, ?_⟩
    · simp [coarsen, hk.ne', hn]
    · rw [coarsenVector_length hk hn', hn']
    · intro I hI
      have hI' : I < n := by rwa [coarsenVector_length hk hn'] at hI
      refine ⟨(List.range k).map (fun i => v.getD (k * I + i) 0), ?_, ?_⟩
      · unfold fineIndices
        rw [List.map_map, List.map_map]
        apply List.map_congr_left
        intro i hi
        rw [List.mem_range] at hi
        have hlt : k * I + i < v.length := by
          rw [hn']
          calc k * I + i < k * I + k := by omega
            _ = (I + 1) * k := by ring
            _ ≤ n * k := Nat.mul_le_mul_right k hI'
        simp [List.getElem?_eq_getElem hlt]
      · simp only [coarsenVector_eq hk hn', List.getElem_map, List.getElem_range]
        simp [block, mean, list_sum_range]
  · left
    refine ⟨hd, ?_⟩
    have : v.length % k ≠ 0 := fun h => hd (Nat.dvd_of_mod_eq_zero h)
    simp [coarsen, hk.ne', this]

example : (coarsen ℚ 2 [1, 3, 5, 8]).toOption = some ([2, 13 / 2] : List ℚ) := by decide +kernel
example : coarsen ℚ 3 [1, 3, 5, (8 : ℚ)] = .error .notDivisible := by rfl

/-! ### C13 -/

/-- C13, mass: `k` times the sum of the coarsened vector is the sum of the fine vector.  On a mesh
with fine step `dx` the coarse step is `k dx`, so the integrals agree. -/
theorem C13_mass (k : ℕ) (v u : List V) (h : coarsen K k v = .ok u) :
    (k : K) • u.sum = v.sum := by
  unfold coarsen at h
  split at h
  · simp at h
  split at h
  · simp at h
  rename_i hk hd
  have hk : 0 < k := Nat.pos_of_ne_zero hk
  obtain ⟨n, hn⟩ := Nat.dvd_of_mod_eq_zero (not_not.mp hd)
  have hn' : v.length = n * k := by rw [hn, mul_comm]
  have hkK : (k : K) ≠ 0 := by exact_mod_cast hk.ne'
  obtain rfl : coarsenVector K k v = u := by simpa using h
  rw [coarsenVector_eq hk hn', list_sum_range, list_sum_eq v, hn', sum_blocks]
  rw [Finset.smul_sum]
  apply Finset.sum_congr rfl
  intro I _
  simp [block, smul_smul, hkK]

/-- C13, bounds and constants: bounds of the fine values are bounds of the coarse values. In
particular a constant vector (`lo = hi`) is coarsened to the same constant. -/
theorem C13_bounds (k : ℕ) (v u : List K) (h : coarsen K k v = .ok u) (lo hi : K)
    (hv : ∀ x ∈ v, lo ≤ x ∧ x ≤ hi) : ∀ x ∈ u, lo ≤ x ∧ x ≤ hi := by
  unfold coarsen at h
  split at h
  · simp at h
  split at h
  · simp at h
  rename_i hk hd
  have hk : 0 < k := Nat.pos_of_ne_zero hk
  obtain ⟨n, hn⟩ := Nat.dvd_of_mod_eq_zero (not_not.mp hd)
  have hn' : v.length = n * k := by rw [hn, mul_comm]
  have hkK : (0 : K) < (k : K) := by exact_mod_cast hk
  obtain rfl : coarsenVector K k v = u := by simpa using h
  rw [coarsenVector_eq hk hn']
  intro x hx
  obtain ⟨I, hI, rfl⟩ := List.mem_map.mp hx
  rw [List.mem_range] at hI
  have hmem : ∀ i ∈ Finset.range k, lo ≤ v.getD (k * I + i) 0 ∧ v.getD (k * I + i) 0 ≤ hi := by
    intro i hi'
    rw [Finset.mem_range] at hi'
    have hlt : k * I + i < v.length := by
      rw [hn']
      calc k * I + i < k * I + k := by omega
        _ = (I + 1) * k := by ring
        _ ≤ n * k := Nat.mul_le_mul_right k hI
    apply hv
    rw [List.getD_eq_getElem _ _ hlt]
    exact List.getElem_mem hlt
  have h1 := Finset.card_nsmul_le_sum (Finset.range k) _ lo (fun i hi => (hmem i hi).1)
  have h2 := Finset.sum_le_card_nsmul (Finset.range k) _ hi (fun i hi => (hmem i hi).2)
  simp only [Finset.card_range, nsmul_eq_mul] at h1 h2
  simp only [block, smul_eq_mul, one_div_mul_eq_div]
  exact ⟨by rw [le_div_iff₀ hkK]; linarith, by rw [div_le_iff₀ hkK]; linarith⟩

/-- C13, linearity: coarsening commutes with linear combinations of vectors of equal length. -/
theorem C13_linear (k : ℕ) (a b : K) (v w : List V) (hlen : v.length = w.length)
    (u z : List V) (hu : coarsen K k v = .ok u) (hz : coarsen K k w = .ok z) :
    coarsen K k (List.zipWith (fun x y => a • x + b • y) v w) =
      .ok (List.zipWith (fun x y => a • x + b • y) u z) := by
  unfold coarsen at hu hz ⊢
  split at hu
  · simp at hu
  split at hu
  · simp at hu
  rename_i hk0 hd
  have hk : 0 < k := Nat.pos_of_ne_zero hk0
  obtain ⟨n, hn⟩ := Nat.dvd_of_mod_eq_zero (not_not.mp hd)
  have hn' : v.length = n * k := by rw [hn, mul_comm]
  have hw' : w.length = n * k := by rw [← hlen, hn']
  obtain rfl : coarsenVector K k v = u := by simpa using hu
  obtain rfl : coarsenVector K k w = z := by
    rw [if_neg hk0, if_neg (by rw [← hlen]; exact hd)] at hz; simpa using hz
  have hzw : (List.zipWith (fun x y => a • x + b • y) v w).length = n * k := by
    simp [hn', hw']
  rw [if_neg hk0, if_neg (by rw [hzw]; simp)]
  congr 1
  rw [coarsenVector_eq hk hn', coarsenVector_eq hk hw', coarsenVector_eq hk hzw,
    List.zipWith_map, List.zipWith_self]
  apply List.map_congr_left
  intro I hI
  rw [List.mem_range] at hI
  unfold block
  rw [smul_comm a, smul_comm b, ← smul_add]
  congr 1
  rw [Finset.smul_sum, Finset.smul_sum, ← Finset.sum_add_distrib]
  apply Finset.sum_congr rfl
  intro i hi
  rw [Finset.mem_range] at hi
  have hlt : k * I + i < n * k := by
    calc k * I + i < k * I + k := by omega
      _ = (I + 1) * k := by ring
      _ ≤ n * k := Nat.mul_le_mul_right k hI
  rw [List.getD_eq_getElem _ _ (by omega), List.getD_eq_getElem v _ (by omega),
    List.getD_eq_getElem w _ (by omega), List.getElem_zipWith]

example : (coarsen ℚ 2 [1, 3, 5, 8]).toOption = some ([2, 13 / 2] : List ℚ) ∧
    (2 : ℚ) • ([2, 13 / 2] : List ℚ).sum = [1, 3, 5, (8 : ℚ)].sum := by decide +kernel

/-! ### C14 -/

/-- C14.  Coarsening by `a` and then by `b` is coarsening by `a * b`. -/
theorem C14_compose (a b : ℕ) (v : List V) (hpos : 0 < a * b) (hd : a * b ∣ v.length) :
    ∃ u w, coarsen K a v = .ok u ∧ coarsen K b u = .ok w ∧ coarsen K (a * b) v = .ok w := by
  have ha : 0 < a := Nat.pos_of_mul_pos_right hpos
  have hb : 0 < b := Nat.pos_of_mul_pos_left hpos
  obtain ⟨n, hn⟩ := hd
  have h1 : v.length = (n * b) * a := by rw [hn]; ring
  have h2 : (coarsenVector K a v).length = n * b := coarsenVector_length ha h1
  have h3 : v.length = n * (a * b) := by rw [hn]; ring
  refine ⟨coarsenVector K a v, coarsenVector K b (coarsenVector K a v), ?_, ?_, ?_⟩
  · unfold coarsen; rw [if_neg ha.ne', if_neg (by simp [h1])]
  · unfold coarsen; rw [if_neg hb.ne', if_neg (by simp [h2])]
  · unfold coarsen; rw [if_neg hpos.ne', if_neg (by simp [h3])]
    congr 1
    rw [coarsenVector_eq hpos h3, coarsenVector_eq hb h2]
    apply List.map_congr_left
    intro I hI
    rw [List.mem_range] at hI
    have haK : (a : K) ≠ 0 := by exact_mod_cast ha.ne'
    have hbK : (b : K) ≠ 0 := by exact_mod_cast hb.ne'
    unfold block
    have hinner : ∀ j ∈ Finset.range b, (coarsenVector K a v).getD (b * I + j) 0 =
        ((1 : K) / (a : K)) • ∑ i ∈ Finset.range a, v.getD (a * (b * I + j) + i) 0 := by
      intro j hj
      rw [Finset.mem_range] at hj
      have hlt : b * I + j < n * b := by
        calc b * I + j < b * I + b := by omega
          _ = (I + 1) * b := by ring
          _ ≤ n * b := Nat.mul_le_mul_right b hI
      rw [List.getD_eq_getElem _ _ (by rw [h2]; exact hlt)]
      simp [coarsenVector_eq ha h1, block]
    rw [Finset.sum_congr rfl hinner, ← Finset.smul_sum, smul_smul]
    congr 1
    · push_cast; field_simp
    · rw [mul_comm a b, sum_blocks]
      apply Finset.sum_congr rfl
      intro j _
      apply Finset.sum_congr rfl
      intro i _
      congr 1
      ring

example : (coarsen ℚ 4 [1, 3, 5, 8]).toOption = some ([17 / 4] : List ℚ) ∧
    (coarsen ℚ 2 [2, 13 / 2]).toOption = some ([17 / 4] : List ℚ) := by decide +kernel

/-! ### C15 -/

/-- C15.  The mapping can be built iff `k` divides `n`; then each coarse index `I < n/k` has `k`
different fine indices, all below `n`, and each fine index belongs to exactly one coarse index. -/
theorem C15_fine_indices_partition (n k : ℕ) (hk : 0 < k) :
    (fineGridInit n k = .ok () ↔ k ∣ n) ∧
    (k ∣ n →
      (∀ I < n / k, (fineIndices k I).length = k ∧ (fineIndices k I).Nodup ∧
        ∀ j ∈ fineIndices k I, j < n) ∧
      (∀ j < n, ∃! I, I < n / k ∧ j ∈ fineIndices k I)) := by
  constructor
  · unfold fineGridInit
    rw [if_neg hk.ne']
    split
    · rename_i h; simp; intro hd; exact h (Nat.mod_eq_zero_of_dvd hd)
    · rename_i h; simp; exact Nat.dvd_of_mod_eq_zero (not_not.mp h)
  · rintro ⟨m, rfl⟩
    rw [Nat.mul_div_cancel_left m hk]
    constructor
    · intro I hI
      refine ⟨by simp [fineIndices], ?_, ?_⟩
      · unfold fineIndices
        apply List.Nodup.map
        · intro a b h; simpa using h
        · exact List.nodup_range
      · intro j hj
        simp only [fineIndices, List.mem_map, List.mem_range] at hj
        obtain ⟨i, hi, rfl⟩ := hj
        calc k * I + i < k * I + k := by omega
          _ = k * (I + 1) := by ring
          _ ≤ k * m := Nat.mul_le_mul_left k hI
    · intro j hj
      refine ⟨j / k, ⟨Nat.div_lt_of_lt_mul hj, ?_⟩, ?_⟩
      · simp only [fineIndices, List.mem_map, List.mem_range]
        exact ⟨j % k, Nat.mod_lt _ hk, Nat.div_add_mod j k⟩
      · rintro I ⟨_, hI⟩
        simp only [fineIndices, List.mem_map, List.mem_range] at hI
        obtain ⟨i, hi, rfl⟩ := hI
        rw [Nat.mul_add_div hk, Nat.div_eq_of_lt hi, Nat.add_zero]

example : fineGridInit 12 4 = .ok () ∧ fineIndices 4 2 = [8, 9, 10, 11] := by decide

end Verif.Coarsen
