import Verif.Core.RK8
import Verif.Core.RK8Table
import Mathlib.Tactic.IntervalCases
import Mathlib.Tactic.LinearCombination
import Mathlib.Algebra.BigOperators.Group.List.Basic

/-!
Order conditions of Runge-Kutta methods: rooted trees, elementary weights, and helper lemmas for
property C52.
-/

namespace Verif.ODE

/-- Rooted trees.  `leaf` is the tree with one vertex; `graft t s` is `t` with the tree `s` attached
to its root as an additional branch (Butcher's product).  Every rooted tree arises in this way: a
root with branches `s₁, ..., sₘ` is `graft (... (graft leaf s₁) ...) sₘ`. -/
inductive Tree where
  | leaf : Tree
  | graft : Tree → Tree → Tree

namespace Tree

/-- Number of vertices. -/
def order : Tree → ℕ
  | leaf => 1
  | graft t s => t.order + s.order

/-- Product of the densities of the branches at the root. -/
def branchDensity : Tree → ℕ
  | leaf => 1
  | graft t s => t.branchDensity * (s.order * s.branchDensity)

/-- The density `γ(t)`: number of vertices times the densities of the branches. -/
def density (t : Tree) : ℕ := t.order * t.branchDensity

/-- The stage weights: product over the branches `s` at the root of `Σ_j a_ij weight s j`. -/
def weight {K : Type*} [Field K] (T : Tableau K) : Tree → ℕ → K
  | leaf, _ => 1
  | graft t s, i => weight T t i * ((List.range T.size).map (fun j => T.A i j * weight T s j)).sum

end Tree

/-- The order condition `Φ(t) = 1/γ(t)` of a tree. -/
def OrderCondition {K : Type*} [Field K] (T : Tableau K) (t : Tree) : Prop :=
  ((List.range T.size).map (fun i => T.b i * t.weight T i)).sum = 1 / (t.density : K)

namespace Table

/-- Product in `ℤ[√21]`. -/
def mulZ (x y : ℤ × ℤ) : ℤ × ℤ := (x.1 * y.1 + 21 * (x.2 * y.2), x.1 * y.2 + x.2 * y.1)

def addZ (x y : ℤ × ℤ) : ℤ × ℤ := (x.1 + y.1, x.2 + y.2)

def dotZ : Vec → Vec → ℤ × ℤ
  | a :: as, b :: bs => addZ (mulZ a b) (dotZ as bs)
  | _, _ => (0, 0)

def graftVec (p q : Vec) : Vec := List.zipWith (fun x row => mulZ x (dotZ row q)) p matrix

def vecEq : Vec → Vec → Bool
  | [], [] => true
  | a :: as, b :: bs => decide (a.1 = b.1) && (decide (a.2 = b.2) && vecEq as bs)
  | _, _ => false

def closedUnder (x y z : List (Vec × ℕ)) (k : ℕ) : Bool :=
  x.all fun p => y.all fun q => z.any fun w =>
    decide (w.2 = p.2 * (k * q.2)) && vecEq w.1 (graftVec p.1 q.1)

/-- the table for trees with `n` vertices -/
def tab : ℕ → List (Vec × ℕ)
  | 1 => tab1 | 2 => tab2 | 3 => tab3 | 4 => tab4 | 5 => tab5 | 6 => tab6 | 7 => tab7
  | _ => []

def dotW : List ℤ → Vec → ℤ × ℤ
  | a :: as, b :: bs => addZ (a * b.1, a * b.2) (dotW as bs)
  | _, _ => (0, 0)

/-- the order condition, multiplied by `180 scale^(n-1)` -/
def condZ (n : ℕ) (v : Vec) (d : ℕ) : Bool :=
  let s := dotW weights v
  decide (s.1 * (n * d : ℕ) = 180 * (scale : ℤ) ^ (n - 1)) && decide (s.2 = 0)

theorem closed_small : ∀ n < 6, ∀ k < n, 0 < k →
    closedUnder (tab (n - k)) (tab k) (tab n) k = true := by decide +kernel

theorem closed_six : ∀ k < 6, 0 < k →
    closedUnder (tab (6 - k)) (tab k) (tab 6) k = true := by decide +kernel

theorem closed_seven : ∀ k < 7, 0 < k →
    closedUnder (tab (7 - k)) (tab k) (tab 7) k = true := by decide +kernel

theorem cond_small : ∀ n < 8, (tab n).all (fun p => condZ n p.1 p.2) = true := by decide +kernel

theorem cond_eight : ∀ k < 8, 0 < k → (tab (8 - k)).all (fun p => (tab k).all fun q =>
    condZ 8 (graftVec p.1 q.1) (p.2 * (k * q.2))) = true := by decide +kernel

/-! ### Lifting to a field with a square root of 21 -/

variable {K : Type*} [Field K]

def val (r : K) (x : ℤ × ℤ) : K := x.1 + x.2 * r

theorem val_mulZ (r : K) (hr : r * r = 21) (x y : ℤ × ℤ) :
    val r (mulZ x y) = val r x * val r y := by
  simp only [val, mulZ]; push_cast; linear_combination (-(x.2 : K) * y.2) * hr

theorem val_addZ (r : K) (x y : ℤ × ℤ) : val r (addZ x y) = val r x + val r y := by
  simp only [val, addZ]; push_cast; ring

theorem val_dotZ (r : K) (hr : r * r = 21) (a b : Vec) :
    val r (dotZ a b) = (List.zipWith (fun x y => x * y) (a.map (val r)) (b.map (val r))).sum := by
  induction a generalizing b with
  | nil => simp [dotZ, val]
  | cons x a ih =>
    cases b with
    | nil => simp [dotZ, val]
    | cons y b => simp [dotZ, val_addZ, val_mulZ r hr, ih]

theorem val_dotW (r : K) (a : List ℤ) (b : Vec) :
    val r (dotW a b) = (List.zipWith (fun x y => x * y) (a.map (fun z : ℤ => (z : K)))
      (b.map (val r))).sum := by
  induction a generalizing b with
  | nil => simp [dotW, val]
  | cons x a ih =>
    cases b with
    | nil => simp [dotW, val]
    | cons y b =>
      simp only [dotW, val_addZ, List.map_cons, List.zipWith_cons_cons, List.sum_cons, ih]
      congr 1
      simp only [val]; push_cast; ring

theorem val_matrix [CharZero K] (r : K) :
    matrix.map (List.map (val r)) = (List.range 11).map (fun i => (List.range 11).map
      (fun j => (scale : K) * (rk8Of r).A i j)) := by
  simp only [matrix, rk8Of, table, rk8Matrix, List.range_succ, List.range_zero, List.map_append,
    List.map_cons, List.map_nil, List.nil_append, List.cons_append, List.getD_cons_zero,
    List.getD_cons_succ, List.getD_nil, val, scale]
  push_cast
  simp only [List.cons.injEq, and_true]
  and_intros <;> first | rfl | (norm_num; done) | ring

theorem vecEq_eq {a b : Vec} (h : vecEq a b = true) : a = b := by
  induction a generalizing b with
  | nil => cases b <;> simp [vecEq] at h ⊢
  | cons x a ih =>
    cases b with
    | nil => simp [vecEq] at h
    | cons y b =>
      simp only [vecEq, Bool.and_eq_true, decide_eq_true_eq] at h
      rw [ih h.2.2, Prod.ext h.1 h.2.1]

/-- `p` is the table entry of the tree `t`. -/
def Rep (r : K) (t : Tree) (p : Vec × ℕ) : Prop :=
  p.2 = t.branchDensity ∧
  p.1.map (val r) = (List.range 11).map (fun i => (scale : K) ^ (t.order - 1) *
    t.weight (rk8Of r) i)

theorem order_pos (t : Tree) : 0 < t.order := by
  induction t with
  | leaf => simp [Tree.order]
  | graft t s iht ihs => simp [Tree.order]; omega

theorem rep_graft [CharZero K] (r : K) (hr : r * r = 21) {t s : Tree} {p q : Vec × ℕ}
    (hp : Rep r t p) (hq : Rep r s q) :
    Rep r (t.graft s) (graftVec p.1 q.1, p.2 * (s.order * q.2)) := by
  refine ⟨by simp [Tree.branchDensity, hp.1, hq.1], ?_⟩
  have h1 : (graftVec p.1 q.1).map (val r) =
      List.zipWith (fun x row => x * (List.zipWith (fun x y => x * y) row (q.1.map (val r))).sum)
        (p.1.map (val r)) (matrix.map (List.map (val r))) := by
    unfold graftVec
    rw [List.map_zipWith, List.zipWith_map]
    congr 1
    funext x row
    rw [val_mulZ r hr, val_dotZ r hr]
  have hpos := order_pos t
  have hpos' := order_pos s
  have hpow : (scale : K) ^ (t.order + s.order - 1) =
      (scale : K) ^ (t.order - 1) * ((scale : K) * (scale : K) ^ (s.order - 1)) := by
    rw [← pow_succ', ← pow_add]; congr 1; omega
  rw [h1, hp.2, hq.2, val_matrix, List.zipWith_map, List.zipWith_self]
  apply List.map_congr_left
  intro i _
  rw [List.zipWith_map, List.zipWith_self]
  have h2 : ((List.range 11).map (fun j => (scale : K) * (rk8Of r).A i j *
      ((scale : K) ^ (s.order - 1) * s.weight (rk8Of r) j))).sum =
      ((scale : K) * (scale : K) ^ (s.order - 1)) *
        ((List.range 11).map (fun j => (rk8Of r).A i j * s.weight (rk8Of r) j)).sum := by
    rw [← List.sum_map_mul_left]
    congr 1
    apply List.map_congr_left
    intro j _
    ring
  rw [h2]
  simp only [Tree.order, Tree.weight, hpow]
  change _ = _ * (_ * ((List.range 11).map _).sum)
  ring

theorem rep_exists [CharZero K] (r : K) (hr : r * r = 21) (t : Tree) (ht : t.order ≤ 7) :
    ∃ p ∈ tab t.order, Rep r t p := by
  induction t with
  | leaf =>
    refine ⟨(List.replicate 11 (1, 0), 1), by decide, rfl, ?_⟩
    simp [Tree.order, Tree.weight, val, List.replicate, List.range_succ]
  | graft t s iht ihs =>
    have hpos := order_pos t
    have hpos' := order_pos s
    simp only [Tree.order] at ht
    obtain ⟨p, hp, hrp⟩ := iht (by omega)
    obtain ⟨q, hq, hrq⟩ := ihs (by omega)
    have hcl : closedUnder (tab t.order) (tab s.order) (tab (t.order + s.order)) s.order = true := by
      have hsub : t.order + s.order - s.order = t.order := by omega
      rcases Nat.lt_or_ge (t.order + s.order) 6 with h | h
      · have := closed_small (t.order + s.order) h s.order (by omega) hpos'
        rwa [hsub] at this
      · have h67 : t.order + s.order = 6 ∨ t.order + s.order = 7 := by omega
        rcases h67 with h6 | h7
        · have := closed_six s.order (by omega) hpos'
          rw [← h6, hsub] at this; exact this
        · have := closed_seven s.order (by omega) hpos'
          rw [← h7, hsub] at this; exact this
    unfold closedUnder at hcl
    rw [List.all_eq_true] at hcl
    have h2 := hcl p hp
    rw [List.all_eq_true] at h2
    have h3 := h2 q hq
    rw [List.any_eq_true] at h3
    obtain ⟨w, hw, hw2⟩ := h3
    rw [Bool.and_eq_true, decide_eq_true_eq] at hw2
    refine ⟨w, hw, ?_⟩
    have := rep_graft r hr hrp hrq
    rwa [← vecEq_eq hw2.2, ← hw2.1] at this

theorem cond_of_rep [CharZero K] (r : K) (t : Tree) (p : Vec × ℕ)
    (hp : Rep r t p) (hc : condZ t.order p.1 p.2 = true) : OrderCondition (rk8Of r) t := by
  unfold condZ at hc
  simp only [Bool.and_eq_true, decide_eq_true_eq] at hc
  obtain ⟨h1, h2⟩ := hc
  have hv := val_dotW r weights p.1
  have hw : weights.map (fun z : ℤ => (z : K)) =
      (List.range 11).map (fun i => (180 : K) * (rk8Of r).b i) := by
    simp only [weights, rk8Of, rk8Weights, List.range_succ, List.range_zero, List.map_append,
      List.map_cons, List.map_nil, List.nil_append, List.cons_append, List.getD_cons_zero,
      List.getD_cons_succ]
    norm_num
  rw [hw, hp.2, List.zipWith_map, List.zipWith_self] at hv
  have h3 : ((List.range 11).map (fun i => (180 : K) * (rk8Of r).b i *
      ((scale : K) ^ (t.order - 1) * t.weight (rk8Of r) i))).sum =
      (180 * (scale : K) ^ (t.order - 1)) *
        ((List.range 11).map (fun i => (rk8Of r).b i * t.weight (rk8Of r) i)).sum := by
    rw [← List.sum_map_mul_left]
    congr 1
    apply List.map_congr_left
    intro j _
    ring
  rw [h3] at hv
  have hz : (180 * (scale : K) ^ (t.order - 1)) ≠ 0 := by
    have : (scale : K) ≠ 0 := by unfold scale; norm_num
    exact mul_ne_zero (by norm_num) (pow_ne_zero _ this)
  have h1' : ((dotW weights p.1).1 : K) * (t.order * p.2 : ℕ) =
      180 * (scale : K) ^ (t.order - 1) := by exact_mod_cast congrArg (Int.cast (R := K)) h1
  have hval : val r (dotW weights p.1) = ((dotW weights p.1).1 : K) := by simp [val, h2]
  rw [← hval, hv] at h1'
  have hS : ((List.range 11).map (fun i => (rk8Of r).b i * t.weight (rk8Of r) i)).sum *
      (t.order * p.2 : ℕ) = 1 := by
    apply mul_left_cancel₀ hz
    rw [mul_one, ← mul_assoc]; exact h1'
  unfold OrderCondition Tree.density
  rw [← hp.1]
  exact eq_one_div_of_mul_eq_one_left hS

/-- All order conditions up to order 8. -/
theorem rk8_order [CharZero K] (r : K) (hr : r * r = 21) (t : Tree) (ht : t.order ≤ 8) :
    OrderCondition (rk8Of r) t := by
  rcases Nat.lt_or_ge t.order 8 with h | h
  · obtain ⟨p, hp, hrep⟩ := rep_exists r hr t (by omega)
    have hc := cond_small t.order h
    rw [List.all_eq_true] at hc
    exact cond_of_rep r t p hrep (hc p hp)
  · have h8 : t.order = 8 := by omega
    cases t with
    | leaf => simp [Tree.order] at h8
    | graft t s =>
      have hpos := order_pos t
      have hpos' := order_pos s
      simp only [Tree.order] at h8
      obtain ⟨p, hp, hrp⟩ := rep_exists r hr t (by omega)
      obtain ⟨q, hq, hrq⟩ := rep_exists r hr s (by omega)
      have hc := cond_eight s.order (by omega) hpos'
      rw [List.all_eq_true] at hc
      have h2 := hc p (by rw [← h8, Nat.add_sub_cancel]; exact hp)
      rw [List.all_eq_true] at h2
      have h3 := h2 q hq
      exact cond_of_rep r _ _ (rep_graft r hr hrp hrq) (by
        simp only [Tree.order]; rw [h8]; exact h3)

end Table
end Verif.ODE
