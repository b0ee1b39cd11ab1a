import Verif.Proofs.Rounded
import Mathlib.Algebra.Order.Chebyshev

/-! # Cholesky in rounded arithmetic succeeds on well conditioned matrices -/

set_option linter.unusedSimpArgs false

namespace LinfaLinalg

open Matrix

/-- If the pivot is rejected, there is a direction in which the matrix is nearly not positive. -/
theorem chol_reject_direction {j : Nat} {L A : Matrix (Fin j) (Fin j) ℝ} {l v : Fin j → ℝ} {α g : ℝ}
    (hL : LowerPos L) (hg0 : 0 ≤ g) (hg : g ≤ 1 / 2)
    (hE : ∀ r c, |(L * L.transpose - A) r c| ≤ g * (absMat L * (absMat L).transpose) r c)
    (he : ∀ c, |L.mulVec l c - v c| ≤ g * ∑ k, |l k| * |L c k|) (hα0 : 0 ≤ α)
    (hα : α ≤ (1 + g) * ∑ k, l k ^ 2) :
    ∃ y : Fin j → ℝ, (∀ c, 0 ≤ A c c) ∧ y ⬝ᵥ A.mulVec y - 2 * (v ⬝ᵥ y) + α ≤
      2 * (g / (1 - g)) * (α + j * ∑ c, A c c * y c ^ 2) := by
  have hq : 0 < 1 - g := by linarith
  obtain ⟨y, hy⟩ : ∃ y, L.transpose.mulVec y = l :=
    Matrix.mulVec_surjective_iff_isUnit.2 (by rw [Matrix.isUnit_transpose]; exact hL.isUnit) l
  have hA0 : ∀ c, 0 ≤ A c c := fun c => (abs_mul_transpose_le (by linarith) (fun i => hE i i) c c).1
  refine ⟨y, hA0, ?_⟩
  set h := g / (1 - g) with hh
  have hh0 : 0 ≤ h := div_nonneg hg0 hq.le
  have hh1 : h ≤ 1 := by rw [hh, div_le_one hq]; linarith
  have hgh : g ≤ h := by rw [hh, le_div_iff₀ hq]; nlinarith
  set s := ∑ k, l k ^ 2 with hs
  have hs0 : 0 ≤ s := Finset.sum_nonneg fun k _ => sq_nonneg _
  set d := ∑ c, Real.sqrt (A c c) * |y c| with hd
  have hd0 : 0 ≤ d := Finset.sum_nonneg fun c _ => mul_nonneg (Real.sqrt_nonneg _) (abs_nonneg _)
  set Q := ∑ c, A c c * y c ^ 2 with hQ
  have hdQ : d ^ 2 ≤ j * Q := by
    have := sq_sum_le_card_mul_sum_sq (s := Finset.univ) (f := fun c => Real.sqrt (A c c) * |y c|)
    rw [Finset.card_univ, Fintype.card_fin] at this
    refine this.trans (le_of_eq ?_)
    congr 1
    apply Finset.sum_congr rfl
    intro c _
    rw [mul_pow, Real.sq_sqrt (hA0 c), sq_abs]
  -- the quadratic form of the leading block
  have q1 : y ⬝ᵥ (L * L.transpose).mulVec y = s := by
    rw [← Matrix.mulVec_mulVec, Matrix.dotProduct_mulVec, ← Matrix.mulVec_transpose, hy, hs]
    simp only [dotProduct, pow_two]
  have q2 : |y ⬝ᵥ (L * L.transpose - A).mulVec y| ≤ h * d ^ 2 := by
    have e1 : h * d ^ 2 = ∑ r, ∑ c, |y r| * (h * (Real.sqrt (A r r) * Real.sqrt (A c c))) * |y c| := by
      rw [pow_two, hd, Finset.sum_mul_sum, Finset.mul_sum]
      apply Finset.sum_congr rfl
      intro r _
      rw [Finset.mul_sum]
      apply Finset.sum_congr rfl
      intro c _
      ring
    rw [e1]
    unfold dotProduct Matrix.mulVec dotProduct
    refine (Finset.abs_sum_le_sum_abs _ _).trans (Finset.sum_le_sum fun r _ => ?_)
    rw [abs_mul]
    calc |y r| * |∑ c, (L * L.transpose - A) r c * y c|
        ≤ |y r| * ∑ c, |(L * L.transpose - A) r c * y c| :=
          mul_le_mul_of_nonneg_left (Finset.abs_sum_le_sum_abs _ _) (abs_nonneg _)
      _ = ∑ c, |y r| * |(L * L.transpose - A) r c| * |y c| := by
          rw [Finset.mul_sum]
          exact Finset.sum_congr rfl fun c _ => by rw [abs_mul]; ring
      _ ≤ _ := by
          refine Finset.sum_le_sum fun c _ => mul_le_mul_of_nonneg_right
            (mul_le_mul_of_nonneg_left ?_ (abs_nonneg _)) (abs_nonneg _)
          refine (hE r c).trans ?_
          have := (abs_mul_transpose_le (by linarith) (fun i => hE i i) r c).2
          rw [← Real.sqrt_mul (hA0 r), hh, div_mul_eq_mul_div, mul_div_assoc]
          exact mul_le_mul_of_nonneg_left this hg0
  have q3 : y ⬝ᵥ A.mulVec y ≤ s + h * d ^ 2 := by
    have e : y ⬝ᵥ A.mulVec y = y ⬝ᵥ (L * L.transpose).mulVec y -
        y ⬝ᵥ (L * L.transpose - A).mulVec y := by
      rw [Matrix.sub_mulVec, dotProduct_sub]; ring
    rw [e, q1]
    have := (abs_le.1 q2).1
    linarith
  -- the mixed term
  have p1 : L.mulVec l ⬝ᵥ y = s := by
    rw [dotProduct_comm, Matrix.dotProduct_mulVec, ← Matrix.mulVec_transpose, hy, hs]
    simp only [dotProduct, pow_two]
  have p2 : ∀ c, ∑ k, |l k| * |L c k| ≤ Real.sqrt s * (Real.sqrt (A c c) / (1 - g)) := by
    intro c
    have cs := Finset.sum_mul_sq_le_sq_mul_sq Finset.univ (fun k => |l k|) (fun k => |L c k|)
    simp only [sq_abs] at cs
    rw [← hs] at cs
    have hc := (abs_mul_transpose_le (by linarith) (fun i => hE i i) c c).2
    rw [Matrix.mul_apply] at hc
    have e1 : ∑ k, absMat L c k * (absMat L).transpose k c = ∑ k, L c k ^ 2 := by
      apply Finset.sum_congr rfl
      intro k _
      simp only [absMat, Matrix.map_apply, Matrix.transpose_apply]
      rw [abs_mul_abs_self]; ring
    rw [e1, Real.sqrt_mul_self (hA0 c)] at hc
    have h1 : ∑ k, |l k| * |L c k| ≤ Real.sqrt (s * ∑ k, L c k ^ 2) := Real.le_sqrt_of_sq_le cs
    refine h1.trans ?_
    rw [Real.sqrt_mul hs0]
    refine mul_le_mul_of_nonneg_left ?_ (Real.sqrt_nonneg _)
    rw [Real.sqrt_le_iff]
    refine ⟨by positivity, hc.trans ?_⟩
    rw [div_pow, Real.sq_sqrt (hA0 c)]
    refine div_le_div_of_nonneg_left (hA0 c) (by positivity) ?_
    nlinarith
  have p3 : |(L.mulVec l - v) ⬝ᵥ y| ≤ h * (Real.sqrt s * d) := by
    unfold dotProduct
    refine (Finset.abs_sum_le_sum_abs _ _).trans ?_
    rw [hd, Finset.mul_sum, Finset.mul_sum]
    refine Finset.sum_le_sum fun c _ => ?_
    rw [abs_mul, Pi.sub_apply]
    calc |L.mulVec l c - v c| * |y c|
        ≤ (g * (Real.sqrt s * (Real.sqrt (A c c) / (1 - g)))) * |y c| :=
          mul_le_mul_of_nonneg_right ((he c).trans (mul_le_mul_of_nonneg_left (p2 c) hg0)) (abs_nonneg _)
      _ = h * (Real.sqrt s * (Real.sqrt (A c c) * |y c|)) := by rw [hh]; field_simp
  have p4 : s - h * (Real.sqrt s * d) ≤ v ⬝ᵥ y := by
    have e : v ⬝ᵥ y = L.mulVec l ⬝ᵥ y - (L.mulVec l - v) ⬝ᵥ y := by rw [sub_dotProduct]; ring
    rw [e, p1]
    have := (abs_le.1 p3).2
    linarith
  have p5 : 2 * (Real.sqrt s * d) ≤ s + d ^ 2 := by
    have := two_mul_le_add_sq (Real.sqrt s) d
    rw [Real.sq_sqrt hs0] at this
    linarith
  -- the pivot
  have a1 : α - s + h * s ≤ 2 * h * α := by
    by_cases hsα : α ≤ s
    · have : 0 ≤ (1 - h) * (s - α) := mul_nonneg (by linarith) (by linarith)
      nlinarith
    · have : h * s ≤ h * α := mul_le_mul_of_nonneg_left (by linarith) hh0
      have : g * s ≤ h * α := mul_le_mul hgh (by linarith) hs0 hh0
      nlinarith
  have b1 : h * (2 * (Real.sqrt s * d)) ≤ h * (s + d ^ 2) := mul_le_mul_of_nonneg_left p5 hh0
  have b2 : h * d ^ 2 ≤ h * (j * Q) := mul_le_mul_of_nonneg_left hdQ hh0
  nlinarith

/-- Cholesky in rounded arithmetic rejects no pivot of a matrix that is well conditioned after diagonal
scaling. -/
theorem rnd_chol_not_failed {R : StdModel} {n j : Nat} {A b : Arr2 (Rnd R)} (hj : j < n)
    (h : CholFailed j A b) (hs : (toMat n n (Rnd.vals A)).IsSymm)
    (hn : ((n + 2 : Nat) : ℝ) * R.u < 1) {δ : ℝ} (hδ0 : 0 < δ)
    (hpos : ∀ i, i < n → 0 < (A.get i i).v)
    (hcond : ∀ x : Fin n → ℝ, δ * ∑ i : Fin n, (A.get i i).v * x i ^ 2 ≤
      x ⬝ᵥ (toMat n n (Rnd.vals A)).mulVec x)
    (hδ : 2 * n * gam R.u (n + 2) < δ * (1 - gam R.u (n + 2))) : False := by
  have h0 := R.u_nonneg
  have h1 := R.u_lt_one
  set g := gam R.u (n + 2) with hg
  have hg0 : 0 ≤ g := gam_nonneg h0 hn
  have hn1 : (1 : ℝ) ≤ n := by exact_mod_cast (by omega : 1 ≤ n)
  -- `δ ≤ 1`
  have hδ1 : δ ≤ 1 := by
    have := hcond (Pi.single ⟨j, hj⟩ 1)
    have e1 : ∑ i : Fin n, (A.get i i).v * (Pi.single (⟨j, hj⟩ : Fin n) (1 : ℝ) : Fin n → ℝ) i ^ 2 =
        (A.get j j).v := by
      rw [Finset.sum_eq_single ⟨j, hj⟩]
      · simp
      · intro i _ hi; rw [Pi.single_eq_of_ne hi]; ring
      · intro h; exact absurd (Finset.mem_univ _) h
    have e2 : (Pi.single (⟨j, hj⟩ : Fin n) (1 : ℝ) : Fin n → ℝ) ⬝ᵥ
        (toMat n n (Rnd.vals A)).mulVec (Pi.single ⟨j, hj⟩ 1) = (A.get j j).v := by
      rw [single_dotProduct, Matrix.mulVec_single_one, one_mul]
      rfl
    rw [e1, e2] at this
    exact le_of_mul_le_mul_right (by linarith) (hpos j hj)
  have hg12 : g ≤ 1 / 2 := by
    by_contra hc
    push Not at hc
    by_cases hg1 : g ≤ 1
    · nlinarith
    · push Not at hg1
      nlinarith [mul_pos hδ0 (sub_pos.2 hg1)]
  have hq : 0 < 1 - g := by linarith
  -- the rows above row `j` are a partial factorization
  set b' : Arr2 (Rnd R) := ⟨b.nr, b.nc, fun r c => if r = j then A.get r c else b.get r c⟩ with hb'
  have hb'get : ∀ r c, r < j → b'.get r c = b.get r c := fun r c hr => if_neg (by omega)
  have hpivot : ∀ r, r < j → pivot A b' r = pivot A b r := by
    intro r hr
    unfold pivot
    congr 1
    exact sumTo_congr fun k hk => by rw [hb'get r k hr]
  have hrows : CholRows j A b' := by
    refine ⟨h.nr, h.nc, ?_, ?_, ?_, ?_⟩
    · intro r c hrc
      by_cases hr : r = j
      · exact if_pos hr
      · refine (if_neg hr).trans (h.frame r c ?_)
        omega
    · intro r hr c hc
      rw [hb'get r c hr, hb'get c c (by omega), h.off r hr.le c hc]
      congr 2
      exact sumTo_congr fun k hk => by rw [hb'get r k hr, hb'get c k (by omega)]
    · intro r hr; rw [hpivot r hr]; exact h.piv r hr
    · intro r hr; rw [hpivot r hr, hb'get r r hr]; exact h.diag r hr
  set Aj := toMat j j (Rnd.vals A) with hAj
  have hsj : Aj.IsSymm := by
    ext r c
    have := congrFun (congrFun hs ⟨r, by omega⟩) ⟨c, by omega⟩
    exact this
  have hjn : ((j + 2 : Nat) : ℝ) * R.u < 1 := by
    refine lt_of_le_of_lt (mul_le_mul_of_nonneg_right ?_ h0) hn
    exact_mod_cast (by omega : j + 2 ≤ n + 2)
  have hgj : gam R.u (j + 2) ≤ g := gam_mono h0 (by omega) hn
  set L := triPart .lower (toMat j j (Rnd.vals b')) with hLdef
  have hLget : ∀ r c : Fin j, L r c = if (c : Nat) ≤ r then (b.get r c).v else 0 := by
    intro r c
    rw [hLdef, triPart_lower_apply, lowEnt]
    simp only [Rnd.vals]
    rw [hb'get r c r.2]
  have hL : LowerPos L := by
    constructor
    · intro r c hrc
      rw [hLget, if_neg (by simpa using hrc)]
    · intro r
      rw [hLget, if_pos le_rfl, ← hb'get r r r.2]
      exact rnd_cholRows_pos hrows r r.2
  have habs0 : ∀ r c, 0 ≤ (absMat L * (absMat L).transpose) r c := by
    intro r c
    rw [Matrix.mul_apply]
    exact Finset.sum_nonneg fun k _ => mul_nonneg (abs_nonneg _) (abs_nonneg _)
  have hE : ∀ r c, |(L * L.transpose - Aj) r c| ≤ g * (absMat L * (absMat L).transpose) r c := by
    intro r c
    exact (rnd_cholRows_mul hrows hsj hjn r c).trans (mul_le_mul_of_nonneg_right hgj (habs0 r c))
  set l : Fin j → ℝ := fun k => (b.get j k).v with hl
  set v : Fin j → ℝ := fun k => (A.get j k).v with hv
  have he : ∀ c, |L.mulVec l c - v c| ≤ g * ∑ k, |l k| * |L c k| := by
    intro c
    have hp : (b.get c c).v ≠ 0 := by
      have := (hL.2 c).ne'
      rwa [hLget, if_pos le_rfl] at this
    obtain ⟨q, hq', e⟩ := rnd_offRow_dot (h.off j le_rfl) c c.2 hp
    have hsplit : ∀ f : Nat → ℝ, ∑ k : Fin j, L c k * l k * f k =
        (∑ k ∈ Finset.range c, (b.get c k).v * (b.get j k).v * f k) +
          (b.get j c).v * (b.get c c).v * f c := by
      intro f
      have e1 : ∑ k : Fin j, L c k * l k * f k = ∑ k ∈ Finset.range j,
          (if k ≤ c then (b.get c k).v else 0) * (b.get j k).v * f k := by
        rw [Finset.sum_range]
        apply Finset.sum_congr rfl
        intro k _
        rw [hLget]
      rw [e1]
      have e2 : ∑ k ∈ Finset.range j, (if k ≤ c then (b.get c k).v else 0) * (b.get j k).v * f k =
          ∑ k ∈ Finset.range (c + 1), (if k ≤ c then (b.get c k).v else 0) * (b.get j k).v * f k := by
        symm
        apply Finset.sum_subset
        · intro k hk; rw [Finset.mem_range] at *; have := c.2; omega
        · intro k _ hk
          rw [Finset.mem_range] at hk
          rw [if_neg (by omega)]; ring
      rw [e2, Finset.sum_range_succ, if_pos le_rfl]
      congr 1
      · apply Finset.sum_congr rfl
        intro k hk
        rw [Finset.mem_range] at hk
        rw [if_pos hk.le]
      · ring
    rw [← hsplit q] at e
    have e3 : L.mulVec l c - v c = ∑ k : Fin j, L c k * l k * (1 - q k) := by
      have : v c = ∑ k : Fin j, L c k * l k * q k := e.symm
      rw [this, Matrix.mulVec, dotProduct, ← Finset.sum_sub_distrib]
      apply Finset.sum_congr rfl
      intro k _
      ring
    rw [e3, Finset.mul_sum]
    refine (Finset.abs_sum_le_sum_abs _ _).trans (Finset.sum_le_sum fun k _ => ?_)
    have hcn : ((c + 2 : Nat) : ℝ) * R.u < 1 := by
      refine lt_of_le_of_lt (mul_le_mul_of_nonneg_right ?_ h0) hn
      have := c.2
      exact_mod_cast (by omega : (c : Nat) + 2 ≤ n + 2)
    have hk := (hq' k).abs_sub_one h0 h1 hcn
    have hk2 : |1 - q k| ≤ g := by
      rw [abs_sub_comm]
      exact hk.trans (gam_mono h0 (by have := c.2; omega) hn)
    rw [abs_mul, abs_mul, mul_comm]
    calc |1 - q k| * (|L c k| * |l k|) ≤ g * (|L c k| * |l k|) :=
          mul_le_mul_of_nonneg_right hk2 (by positivity)
      _ = g * (|l k| * |L c k|) := by ring
  have hα : (A.get j j).v ≤ (1 + g) * ∑ k, l k ^ 2 := by
    have hbad := h.bad
    simp only [Rnd.le_v, Rnd.zero_v, decide_eq_true_eq, pivot, Rnd.sub_v] at hbad
    have hle : (A.get j j).v - (sumTo j fun c => b.get j c * b.get j c).v ≤ 0 := by
      by_contra hc
      push Not at hc
      exact absurd (R.rnd_pos hc) (not_lt.2 hbad)
    obtain ⟨q, hq', e⟩ := sumTo_products j (fun i => b.get j i) (fun i => b.get j i)
    rw [e, Finset.sum_range] at hle
    have : ∑ k : Fin j, (b.get j k).v * (b.get j k).v * q k ≤ (1 + g) * ∑ k, l k ^ 2 := by
      rw [Finset.mul_sum]
      refine Finset.sum_le_sum fun k _ => ?_
      have hcn : ((j + 1 : Nat) : ℝ) * R.u < 1 := by
        refine lt_of_le_of_lt (mul_le_mul_of_nonneg_right ?_ h0) hn
        exact_mod_cast (by omega : j + 1 ≤ n + 2)
      have hk := (abs_le.1 ((hq' k).abs_sub_one h0 h1 hcn)).2
      have hk2 : q k ≤ 1 + g := by
        have := gam_mono h0 (by omega : j + 1 ≤ n + 2) hn
        linarith
      calc (b.get j k).v * (b.get j k).v * q k = q k * l k ^ 2 := by rw [hl]; ring
        _ ≤ (1 + g) * l k ^ 2 := mul_le_mul_of_nonneg_right hk2 (sq_nonneg _)
    linarith
  obtain ⟨y, hA0, hy⟩ := chol_reject_direction hL hg0 hg12 hE he (hpos j hj).le hα
  -- the test vector
  set y' : Nat → ℝ := fun k => if hk : k < j then y ⟨k, hk⟩ else 0 with hy'
  set z : Nat → ℝ := fun k => if k < j then -y' k else if k = j then 1 else 0 with hz
  have hcut : ∀ f : Nat → ℝ, (∀ k, j < k → f k = 0) →
      ∑ i : Fin n, f i = (∑ c : Fin j, f c) + f j := by
    intro f hf
    rw [← Finset.sum_range, ← Finset.sum_range, ← Finset.sum_range_succ]
    symm
    apply Finset.sum_subset
    · intro k hk; rw [Finset.mem_range] at *; omega
    · intro k _ hk; rw [Finset.mem_range] at hk; exact hf k (by omega)
  have hzj : z j = 1 := by simp [hz]
  have hzc : ∀ c : Fin j, z c = -y c := by
    intro c
    simp only [hz, hy']
    rw [if_pos c.2, dif_pos c.2]
  have hz0 : ∀ k, j < k → z k = 0 := by
    intro k hk
    simp only [hz]
    rw [if_neg (by omega), if_neg (by omega)]
  have hc := hcond fun i => z i
  have e1 : ∑ i : Fin n, (A.get i i).v * z i ^ 2 = (∑ c, Aj c c * y c ^ 2) + (A.get j j).v := by
    rw [hcut (fun i => (A.get i i).v * z i ^ 2) (fun k hk => by rw [hz0 k hk]; ring), hzj]
    congr 1
    · apply Finset.sum_congr rfl
      intro c _
      rw [hzc, neg_sq]
      rfl
    · ring
  have e2 : (fun i : Fin n => z i) ⬝ᵥ (toMat n n (Rnd.vals A)).mulVec (fun i : Fin n => z i) =
      y ⬝ᵥ Aj.mulVec y - 2 * (v ⬝ᵥ y) + (A.get j j).v := by
    have r1 : ∀ r : Nat, ∑ c : Fin n, (A.get r c).v * z c =
        -(∑ c : Fin j, (A.get r c).v * y c) + (A.get r j).v := by
      intro r
      rw [hcut (fun c => (A.get r c).v * z c) (fun k hk => by rw [hz0 k hk]; ring), hzj, mul_one,
        ← Finset.sum_neg_distrib]
      congr 1
      exact Finset.sum_congr rfl fun c _ => by rw [hzc]; ring
    have r2 : (fun i : Fin n => z i) ⬝ᵥ (toMat n n (Rnd.vals A)).mulVec (fun i : Fin n => z i) =
        ∑ r : Fin n, z r * (-(∑ c : Fin j, (A.get r c).v * y c) + (A.get r j).v) := by
      unfold dotProduct Matrix.mulVec dotProduct
      apply Finset.sum_congr rfl
      intro r _
      rw [← r1 r]
      rfl
    rw [r2, hcut (fun r => z r * (-(∑ c : Fin j, (A.get r c).v * y c) + (A.get r j).v))
      (fun k hk => by rw [hz0 k hk]; ring), hzj, one_mul]
    have r3 : ∑ c : Fin j, z c * (-(∑ d : Fin j, (A.get c d).v * y d) + (A.get c j).v) =
        y ⬝ᵥ Aj.mulVec y - v ⬝ᵥ y := by
      unfold dotProduct Matrix.mulVec dotProduct
      rw [← Finset.sum_sub_distrib]
      apply Finset.sum_congr rfl
      intro c _
      have hsym : (A.get c j).v = v c :=
        congrFun (congrFun hs ⟨j, hj⟩) ⟨c, by have := c.2; omega⟩
      rw [hzc, hsym]
      have : ∑ d : Fin j, (A.get c d).v * y d = ∑ d, Aj c d * y d := rfl
      rw [this]
      ring
    rw [r3]
    have : ∑ c : Fin j, (A.get j c).v * y c = v ⬝ᵥ y := rfl
    rw [this]
    ring
  rw [e1, e2] at hc
  have hQ0 : 0 ≤ ∑ c, Aj c c * y c ^ 2 :=
    Finset.sum_nonneg fun c _ => mul_nonneg (hA0 c) (sq_nonneg _)
  set Q := ∑ c, Aj c c * y c ^ 2 with hQ
  have hαp := hpos j hj
  have hjn' : (j : ℝ) ≤ n := by exact_mod_cast hj.le
  have hle : δ * (Q + (A.get j j).v) ≤ 2 * (g / (1 - g)) * (n * (Q + (A.get j j).v)) := by
    refine hc.trans (hy.trans (mul_le_mul_of_nonneg_left ?_ (by positivity)))
    nlinarith [mul_le_mul_of_nonneg_right hjn' hQ0, mul_le_mul_of_nonneg_right hn1 hαp.le]
  have hpos' : 0 < Q + (A.get j j).v := by linarith
  have hfin : δ ≤ 2 * n * g / (1 - g) := by
    refine le_of_mul_le_mul_right (hle.trans (le_of_eq ?_)) hpos'
    field_simp
  rw [le_div_iff₀ hq] at hfin
  linarith

end LinfaLinalg
