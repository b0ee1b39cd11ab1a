import Verif.Spec.Near
import Mathlib.Algebra.BigOperators.Group.List.Basic
import Mathlib.Algebra.BigOperators.Group.Finset.Basic
import Mathlib.Data.List.Perm.Basic

/-!
# Ways to compute an inner product

The kernels behind ndarray's `dot`, `general_mat_mul` and `general_mat_vec_mul` unroll, block and fuse the
sum of the products. A `DotPlan` is any such order of operations.
-/

namespace LinfaLinalg

/-- An order in which products may be summed: `prod k` is the rounded product of the `k`-th factors, `fma s k`
adds the exact product of the `k`-th factors to `s` and rounds once. -/
inductive DotPlan where
  | zero
  | prod (k : Nat)
  | add (s t : DotPlan)
  | fma (s : DotPlan) (k : Nat)

namespace DotPlan

/-- The products in a plan. -/
def terms : DotPlan → List Nat
  | zero => []
  | prod k => [k]
  | add s t => s.terms ++ t.terms
  | fma s k => s.terms ++ [k]

/-- The largest number of roundings a product goes through. -/
def cost : DotPlan → Nat
  | zero => 0
  | prod _ => 1
  | add s t => if s.terms = [] ∧ t.terms = [] then 0 else max s.cost t.cost + 1
  | fma s _ => s.cost + 1

/-- Carry out a plan with given operations. -/
def eval {α : Type} (z : α) (plus times : α → α → α) (fmadd : α → α → α → α) (l : List (α × α)) :
    DotPlan → α
  | zero => z
  | prod k => times (l.getD k (z, z)).1 (l.getD k (z, z)).2
  | add s t => plus (s.eval z plus times fmadd l) (t.eval z plus times fmadd l)
  | fma s k => fmadd (l.getD k (z, z)).1 (l.getD k (z, z)).2 (s.eval z plus times fmadd l)

end DotPlan

/-- A plan for every length: each product is used once and goes through at most one more rounding than there are
products. -/
structure DotPlans where
  plan : Nat → DotPlan
  perm : ∀ n, (plan n).terms.Perm (List.range n)
  cost_le : ∀ n, (plan n).cost ≤ n + 1

/-! ## The error of a plan -/

namespace DotPlan

/-- The plan carried out on real numbers with rounding `rnd`. -/
noncomputable def rval (rnd : ℝ → ℝ) (l : List (ℝ × ℝ)) (p : DotPlan) : ℝ :=
  p.eval 0 (fun x y => rnd (x + y)) (fun x y => rnd (x * y)) (fun a b s => rnd (a * b + s)) l

/-- The exact `k`-th product. -/
noncomputable def pr (l : List (ℝ × ℝ)) (k : Nat) : ℝ := (l.getD k (0, 0)).1 * (l.getD k (0, 0)).2

variable {u : ℝ} {rnd : ℝ → ℝ} (hu0 : 0 ≤ u) (hu1 : u < 1) (hr : ∀ x, |rnd x - x| ≤ u * |x|)
include hu0 hu1 hr

theorem rval_near (l : List (ℝ × ℝ)) (p : DotPlan) (hn : p.terms.Nodup) :
    ∃ q : Nat → ℝ, (∀ k, Near u p.cost (q k)) ∧ p.rval rnd l = (p.terms.map fun k => pr l k * q k).sum := by
  induction p with
  | zero => exact ⟨fun _ => 1, fun _ => near_one hu0 hu1 _, by simp [rval, eval, terms]⟩
  | prod k =>
    obtain ⟨t, ht, e⟩ := near_of_err hu0 hu1 (hr ((l.getD k (0, 0)).1 * (l.getD k (0, 0)).2))
    exact ⟨fun _ => t, fun _ => ht, by simpa [rval, eval, terms, pr] using e⟩
  | add s t ihs iht =>
    rw [terms, List.nodup_append] at hn
    obtain ⟨qs, hqs, es⟩ := ihs hn.1
    obtain ⟨qt, hqt, et⟩ := iht hn.2.1
    obtain ⟨r, hr1, er⟩ := near_of_err hu0 hu1 (hr (s.rval rnd l + t.rval rnd l))
    by_cases h0 : s.terms = [] ∧ t.terms = []
    · refine ⟨fun _ => 1, fun _ => near_one hu0 hu1 _, ?_⟩
      have e : (add s t).rval rnd l = (s.rval rnd l + t.rval rnd l) * r := er
      rw [e, es, et, h0.1, h0.2]
      simp [terms, h0.1, h0.2]
    · refine ⟨fun k => if k ∈ s.terms then qs k * r else qt k * r, fun k => ?_, ?_⟩
      · rw [cost, if_neg h0]
        dsimp only
        split_ifs
        · exact ((hqs k).mono hu0 hu1 (le_max_left _ _)).mul hu0 hu1 hr1
        · exact ((hqt k).mono hu0 hu1 (le_max_right _ _)).mul hu0 hu1 hr1
      · have e : (add s t).rval rnd l = (s.rval rnd l + t.rval rnd l) * r := er
        rw [e, es, et, terms, List.map_append, List.sum_append, add_mul, ← List.sum_map_mul_right,
          ← List.sum_map_mul_right]
        congr 1
        · refine congrArg List.sum (List.map_congr_left fun k hk => ?_)
          dsimp only; rw [if_pos hk]; ring
        · refine congrArg List.sum (List.map_congr_left fun k hk => ?_)
          dsimp only; rw [if_neg fun h => hn.2.2 k h k hk rfl]; ring
  | fma s k ih =>
    rw [terms, List.nodup_append] at hn
    obtain ⟨qs, hqs, es⟩ := ih hn.1
    obtain ⟨r, hr1, er⟩ := near_of_err hu0 hu1 (hr (pr l k + s.rval rnd l))
    refine ⟨fun j => if j ∈ s.terms then qs j * r else r, fun j => ?_, ?_⟩
    · rw [cost]
      dsimp only
      split_ifs
      · exact (hqs j).mul hu0 hu1 hr1
      · exact hr1.mono hu0 hu1 (by omega)
    · have e : (fma s k).rval rnd l = (pr l k + s.rval rnd l) * r := er
      rw [e, es, terms, List.map_append, List.sum_append, add_mul, ← List.sum_map_mul_right, add_comm]
      congr 1
      · refine congrArg List.sum (List.map_congr_left fun j hj => ?_)
        dsimp only; rw [if_pos hj]; ring
      · have hk : k ∉ s.terms := fun h => hn.2.2 k h k (by simp) rfl
        simp [hk]

/-- Every plan is exact up to `n + 1` relative errors in each product. -/
theorem err (P : DotPlans) (l : List (ℝ × ℝ)) :
    ∃ q : Nat → ℝ, (∀ k, Near u (l.length + 1) (q k)) ∧
      (P.plan l.length).rval rnd l = ∑ k ∈ Finset.range l.length, pr l k * q k := by
  have hp := P.perm l.length
  obtain ⟨q, hq, e⟩ := rval_near hu0 hu1 hr l (P.plan l.length) (hp.nodup_iff.2 List.nodup_range)
  refine ⟨q, fun k => (hq k).mono hu0 hu1 (P.cost_le _), ?_⟩
  rw [e, (hp.map _).sum_eq, Finset.sum_range, ← List.sum_ofFn]
  congr 1
  apply List.ext_getElem <;> simp

end DotPlan

/-! ## Concrete plans -/

namespace DotPlan

/-- `s + Σ_{k < n} x_(f k) y_(f k)`, accumulated from the left. -/
def seq (s : DotPlan) (f : Nat → Nat) : Nat → DotPlan
  | 0 => s
  | n + 1 => add (seq s f n) (prod (f n))

theorem terms_seq (s : DotPlan) (f : Nat → Nat) (n : Nat) :
    (seq s f n).terms = s.terms ++ (List.range n).map f := by
  induction n with
  | zero => simp [seq]
  | succ n ih => simp [seq, terms, ih, List.range_succ]

theorem cost_seq (s : DotPlan) (f : Nat → Nat) (n : Nat) : (seq s f n).cost ≤ max s.cost 1 + n := by
  induction n with
  | zero => simp [seq]
  | succ n ih =>
    rw [seq, cost]
    split_ifs
    · omega
    · simp only [cost]; omega

theorem cost_nil {p : DotPlan} (h : p.terms = []) : p.cost = 0 := by
  cases p with
  | zero => rfl
  | prod k => simp [terms] at h
  | add s t => simp [terms] at h; simp [cost, h]
  | fma s k => simp [terms] at h

/-- A loop of fused multiply-adds. -/
def fseq (s : DotPlan) (f : Nat → Nat) : Nat → DotPlan
  | 0 => s
  | n + 1 => fma (fseq s f n) (f n)

theorem terms_fseq (s : DotPlan) (f : Nat → Nat) (n : Nat) :
    (fseq s f n).terms = s.terms ++ (List.range n).map f := by
  induction n with
  | zero => simp [fseq]
  | succ n ih => simp [fseq, terms, ih, List.range_succ]

theorem cost_fseq (s : DotPlan) (f : Nat → Nat) (n : Nat) : (fseq s f n).cost = s.cost + n := by
  induction n with
  | zero => simp [fseq]
  | succ n ih => rw [fseq, cost, ih]; omega

/-- The accumulator `p_j` of `unrolled_dot` after `m` rounds. -/
def acc (m j : Nat) : DotPlan := seq zero (fun i => 8 * i + j) m

/-- `sum = sum + (p_j + p_(j+4))`, for `j < 4`, starting from zero. -/
def fold8 (m : Nat) : DotPlan :=
  add (add (add (add zero (add (acc m 0) (acc m 4))) (add (acc m 1) (acc m 5))) (add (acc m 2) (acc m 6)))
    (add (acc m 3) (acc m 7))

theorem cost_acc (m j : Nat) : (acc m j).cost ≤ 1 + m := by
  have := cost_seq zero (fun i => 8 * i + j) m
  simpa [acc, cost] using this

theorem cost_add_le {s t : DotPlan} : (add s t).cost ≤ max s.cost t.cost + 1 := by
  rw [cost]; split_ifs <;> omega

theorem cost_fold8 (m : Nat) : (fold8 m).cost ≤ m + 6 := by
  have h : ∀ j, (acc m j).cost ≤ 1 + m := cost_acc m
  have hp : ∀ i j, (add (acc m i) (acc m j)).cost ≤ m + 2 := fun i j => by
    have := cost_add_le (s := acc m i) (t := acc m j)
    have := h i
    have := h j
    omega
  have h1 := cost_add_le (s := zero) (t := add (acc m 0) (acc m 4))
  have h2 := cost_add_le (s := add zero (add (acc m 0) (acc m 4))) (t := add (acc m 1) (acc m 5))
  have h3 := cost_add_le (s := add (add zero (add (acc m 0) (acc m 4))) (add (acc m 1) (acc m 5)))
    (t := add (acc m 2) (acc m 6))
  have h4 := cost_add_le (s := add (add (add zero (add (acc m 0) (acc m 4))) (add (acc m 1) (acc m 5)))
    (add (acc m 2) (acc m 6))) (t := add (acc m 3) (acc m 7))
  have e0 : zero.cost = 0 := rfl
  have := hp 0 4
  have := hp 1 5
  have := hp 2 6
  have := hp 3 7
  unfold fold8
  omega

theorem terms_fold8 (m : Nat) : (fold8 m).terms.Perm (List.range (8 * m)) := by
  have e : (fold8 m).terms = ([0, 4, 1, 5, 2, 6, 3, 7].map fun j => (List.range m).map fun i => 8 * i + j).flatten := by
    simp [fold8, terms, acc, terms_seq]
  rw [e]
  refine (List.perm_ext_iff_of_nodup ?_ List.nodup_range).2 fun k => ?_
  · rw [List.nodup_flatten]
    refine ⟨fun l hl => ?_, ?_⟩
    · rw [List.mem_map] at hl
      obtain ⟨j, -, rfl⟩ := hl
      exact List.nodup_range.map fun a b h => by simpa using h
    · rw [List.pairwise_map]
      have : List.Pairwise (fun a b : Nat => a ≠ b ∧ a < 8 ∧ b < 8) [0, 4, 1, 5, 2, 6, 3, 7] := by decide
      refine this.imp fun {a b} h => ?_
      intro x hx hy
      rw [List.mem_map] at hx hy
      obtain ⟨i, -, rfl⟩ := hx
      obtain ⟨i', -, h'⟩ := hy
      omega
  · simp only [List.mem_flatten, List.mem_map, List.mem_range, exists_exists_and_eq_and]
    constructor
    · rintro ⟨j, hj, i, hi, rfl⟩
      have : j < 8 := by fin_cases hj <;> omega
      omega
    · intro hk
      refine ⟨k % 8, ?_, k / 8, by omega, by omega⟩
      have : k % 8 < 8 := Nat.mod_lt _ (by norm_num)
      have h8 : ∀ j < 8, j ∈ [0, 4, 1, 5, 2, 6, 3, 7] := by decide
      exact h8 _ this

end DotPlan

/-- Accumulation from the left. -/
def DotPlans.sequential : DotPlans where
  plan n := DotPlan.seq .zero id n
  perm n := by simp [DotPlan.terms_seq, DotPlan.terms]
  cost_le n := by
    have := DotPlan.cost_seq .zero id n
    simp only [DotPlan.cost] at this
    omega

/-- Accumulation from the left with fused multiply-adds. -/
def DotPlans.fused : DotPlans where
  plan n := DotPlan.fseq .zero id n
  perm n := by simp [DotPlan.terms_fseq, DotPlan.terms]
  cost_le n := by rw [DotPlan.cost_fseq]; simp [DotPlan.cost]

/-- The order of ndarray's `unrolled_dot`, the kernel for contiguous vectors: eight accumulators, then the
remaining products from the left. -/
def DotPlans.unrolled : DotPlans where
  plan n := DotPlan.seq (DotPlan.fold8 (n / 8)) (fun i => 8 * (n / 8) + i) (n % 8)
  perm n := by
    rw [DotPlan.terms_seq]
    refine ((DotPlan.terms_fold8 (n / 8)).append_right _).trans ?_
    have : List.range n = List.range (8 * (n / 8) + n % 8) := by rw [Nat.div_add_mod]
    rw [this, List.range_add]
  cost_le n := by
    have h1 := DotPlan.cost_seq (DotPlan.fold8 (n / 8)) (fun i => 8 * (n / 8) + i) (n % 8)
    have h2 := DotPlan.cost_fold8 (n / 8)
    by_cases h0 : n / 8 = 0
    · have h3 : (DotPlan.fold8 (n / 8)).cost = 0 := by
        rw [h0]; rfl
      rw [h3] at h1
      omega
    · omega

end LinfaLinalg
