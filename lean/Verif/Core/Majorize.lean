import Mathlib.Analysis.Convex.Function
import Mathlib.Algebra.Order.BigOperators.Group.Finset
import Mathlib.Tactic.Linarith
import Mathlib.Tactic.FieldSimp
import Mathlib.Tactic.Ring

/-!
Lemmas for C104: sums of convex functions (the inequality of Hardy, Littlewood and Pólya, also known as
Karamata's).  Nothing here models code.
-/

namespace Verif.Majorize

variable {K : Type*} [Field K] [LinearOrder K] [IsStrictOrderedRing K]

/-- A piecewise linear function: slope `b` at first, which grows by `c` at `h` for each pair `(c, h)`. -/
def broken (a b : K) (l : List (K × K)) (x : K) : K :=
  a + b * x + (l.map (fun q => q.1 * max (x - q.2) 0)).sum

theorem broken_cons (a b : K) (q : K × K) (l : List (K × K)) (x : K) :
    broken a b (q :: l) x = broken a b l x + q.1 * max (x - q.2) 0 := by
  unfold broken
  rw [List.map_cons, List.sum_cons]
  ring

/-- Behind all kinks the function is affine. -/
theorem broken_affine (a b : K) (l : List (K × K)) (q : K) (hl : ∀ r ∈ l, r.2 ≤ q) :
    ∃ c d, ∀ x, q ≤ x → broken a b l x = c + d * x := by
  induction l with
  | nil => exact ⟨a, b, fun x _ => by simp [broken]⟩
  | cons r l ih =>
    obtain ⟨c, d, h⟩ := ih (fun r' hr' => hl r' (List.mem_cons_of_mem _ hr'))
    refine ⟨c - r.1 * r.2, d + r.1, fun x hx => ?_⟩
    rw [broken_cons, h x hx, max_eq_left (by linarith [hl r List.mem_cons_self])]
    ring

/-- A line through two points of the graph of a convex function is below it behind them. -/
theorem chord (s : Set K) (f : K → K) (hf : ConvexOn K s f) (x y z : K) (hx : x ∈ s) (hz : z ∈ s)
    (hxy : x < y) (hyz : y ≤ z) (c d : K) (h1 : f x = c + d * x) (h2 : f y = c + d * y) :
    c + d * z ≤ f z := by
  have hxz : 0 < z - x := by linarith
  have n1 : 0 ≤ (z - y) / (z - x) := div_nonneg (by linarith) hxz.le
  have n2 : 0 ≤ (y - x) / (z - x) := div_nonneg (by linarith) hxz.le
  have := hf.2 hx hz n1 n2 (by field_simp; ring)
  simp only [smul_eq_mul] at this
  have e : (z - y) / (z - x) * x + (y - x) / (z - x) * z = y := by field_simp; ring
  rw [e, h1, h2] at this
  have h3 := mul_le_mul_of_nonneg_right this hxz.le
  have e1 : ((z - y) / (z - x) * (c + d * x) + (y - x) / (z - x) * f z) * (z - x) =
      (z - y) * (c + d * x) + (y - x) * f z := by field_simp
  rw [e1] at h3
  have h4 : (y - x) * (c + d * z) ≤ (y - x) * f z := by nlinarith
  exact le_of_mul_le_mul_left h4 (by linarith)

/-- On finitely many points a convex function agrees with a piecewise linear one. -/
theorem broken_exists (s : Set K) (f : K → K) (hf : ConvexOn K s f) (P : Finset K) (hP : ↑P ⊆ s) :
    ∃ a b l, (∀ q ∈ l, 0 ≤ q.1) ∧ ∀ x ∈ P, broken a b l x = f x := by
  classical
  have key : ∀ Q : Finset K, Q ⊆ P → Q.Nonempty → ∃ a b l, ∃ q ∈ Q, (∀ x ∈ Q, x ≤ q) ∧
      (∀ r ∈ l, 0 ≤ r.1 ∧ r.2 ≤ q) ∧ (∀ x ∈ Q, broken a b l x = f x) ∧
      ∀ z ∈ P, q ≤ z → broken a b l z ≤ f z := by
    intro Q
    induction Q using Finset.induction_on_max with
    | empty => intro _ h; exact absurd h Finset.not_nonempty_empty
    | insert p Q hp ih =>
      intro hQ _
      rcases Q.eq_empty_or_nonempty with rfl | hne
      · obtain ⟨b, hb⟩ := Finset.exists_le (P.image (fun z => -(f z - f p) / (z - p)))
        refine ⟨f p + b * p, -b, [], p, by simp, by simp, by simp, by simp [broken], ?_⟩
        intro z hz hpz
        rcases hpz.eq_or_lt with rfl | hlt
        · simp [broken]
        have h1 := hb _ (Finset.mem_image_of_mem _ hz)
        rw [div_le_iff₀ (by linarith)] at h1
        simp only [broken, List.map_nil, List.sum_nil]
        linarith
      · obtain ⟨a, b, l, q, hq, hmax, hl, hval, hle⟩ := ih
          (fun x hx => hQ (Finset.mem_insert_of_mem hx)) hne
        have hqp : q < p := hp q hq
        have hpP : p ∈ P := hQ (Finset.mem_insert_self _ _)
        have hd : 0 < p - q := by linarith
        have hc : 0 ≤ (f p - broken a b l p) / (p - q) :=
          div_nonneg (by linarith [hle p hpP hqp.le]) hd.le
        have hnew : ∀ x ∈ insert p Q, broken a b (((f p - broken a b l p) / (p - q), q) :: l) x = f x := by
          intro x hx
          rw [broken_cons]
          rcases Finset.mem_insert.mp hx with rfl | hx
          · simp only
            rw [max_eq_left hd.le, div_mul_cancel₀ _ hd.ne']
            ring
          · rw [max_eq_right (by linarith [hmax x hx]), mul_zero, add_zero, hval x hx]
        refine ⟨a, b, ((f p - broken a b l p) / (p - q), q) :: l, p, Finset.mem_insert_self _ _, ?_, ?_,
          hnew, ?_⟩
        · intro x hx
          rcases Finset.mem_insert.mp hx with rfl | hx
          · exact le_rfl
          · exact (hp x hx).le
        · intro r hr
          rcases List.mem_cons.mp hr with rfl | hr
          · exact ⟨hc, hqp.le⟩
          · exact ⟨(hl r hr).1, (hl r hr).2.trans hqp.le⟩
        · intro z hz hpz
          obtain ⟨c, d, hcd⟩ := broken_affine a b (((f p - broken a b l p) / (p - q), q) :: l) q (by
            intro r hr
            rcases List.mem_cons.mp hr with rfl | hr
            · exact le_rfl
            · exact (hl r hr).2)
          rw [hcd z (hqp.le.trans hpz)]
          refine chord s f hf q p z (hP (hQ (Finset.mem_insert_of_mem hq))) (hP hz) hqp hpz c d ?_ ?_
          · rw [← hcd q le_rfl, hnew q (Finset.mem_insert_of_mem hq)]
          · rw [← hcd p hqp.le, hnew p (Finset.mem_insert_self _ _)]
  rcases P.eq_empty_or_nonempty with rfl | hne
  · exact ⟨0, 0, [], by simp, by simp⟩
  · obtain ⟨a, b, l, _, -, -, h1, h2, -⟩ := key P subset_rfl hne
    exact ⟨a, b, l, fun r hr => (h1 r hr).1, h2⟩

/-- Sums of convex functions: if two families have the same sum, and the first has less above every
level, every convex function has a smaller sum over the first. -/
theorem sum_convex {ι : Type*} [Fintype ι] (x y : ι → K) (hsum : ∑ i, x i = ∑ i, y i)
    (hlevel : ∀ k, ∑ i, max (x i - k) 0 ≤ ∑ i, max (y i - k) 0) (s : Set K) (f : K → K)
    (hf : ConvexOn K s f) (hx : ∀ i, x i ∈ s) (hy : ∀ i, y i ∈ s) : ∑ i, f (x i) ≤ ∑ i, f (y i) := by
  classical
  obtain ⟨a, b, l, hl, hval⟩ := broken_exists s f hf (Finset.univ.image x ∪ Finset.univ.image y) (by
    intro z hz
    simp only [Finset.coe_union, Finset.coe_image, Finset.coe_univ, Set.image_univ, Set.mem_union,
      Set.mem_range] at hz
    rcases hz with ⟨i, rfl⟩ | ⟨i, rfl⟩
    · exact hx i
    · exact hy i)
  have e1 : ∀ i, f (x i) = broken a b l (x i) := fun i => (hval _ (by simp)).symm
  have e2 : ∀ i, f (y i) = broken a b l (y i) := fun i => (hval _ (by simp)).symm
  simp only [e1, e2]
  clear e1 e2 hval
  induction l with
  | nil => simp [broken, Finset.sum_add_distrib, ← Finset.mul_sum, hsum]
  | cons q l ih =>
    simp only [broken_cons, Finset.sum_add_distrib, ← Finset.mul_sum]
    exact add_le_add (ih fun r hr => hl r (List.mem_cons_of_mem _ hr))
      (mul_le_mul_of_nonneg_left (hlevel q.2) (hl q List.mem_cons_self))

end Verif.Majorize
