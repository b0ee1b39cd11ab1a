import Verif.Spec.Rounded
import Verif.Proofs.CholeskyReal
import Mathlib.Tactic.Linarith
import Mathlib.Tactic.FieldSimp

/-! # Rounding errors of the triangular solver and of Cholesky -/

set_option linter.unusedSimpArgs false
set_option linter.unusedSectionVars false

namespace LinfaLinalg

section near
variable {u : ℝ} (hu0 : 0 ≤ u) (hu1 : u < 1)
include hu0 hu1

theorem Near.abs_sub_one {n : Nat} {t : ℝ} (h : Near u n t) (hn : n * u < 1) :
    |t - 1| ≤ gam u n := by
  have hb : 1 - n * u ≤ (1 - u) ^ n := by
    have := one_add_mul_le_pow (show (-2 : ℝ) ≤ -u by linarith) n
    calc 1 - n * u = 1 + n * (-u) := by ring
      _ ≤ (1 + -u) ^ n := this
      _ = (1 - u) ^ n := by ring
  have hq : 0 < 1 - n * u := by linarith
  have hg : 0 ≤ (n : ℝ) * u := mul_nonneg (Nat.cast_nonneg n) hu0
  unfold gam
  rw [abs_le]
  constructor
  · have h1 : (n : ℝ) * u ≤ n * u / (1 - n * u) := by
      rw [le_div_iff₀ hq]; nlinarith
    have := h.1
    linarith
  · have ht := h.2
    rw [le_div_iff₀ hq]
    have : t * (1 - n * u) ≤ 1 := by
      refine le_trans ?_ ht
      exact mul_le_mul_of_nonneg_left hb (h.pos hu0 hu1).le
    linarith

theorem Near.sqrt {n : Nat} {t : ℝ} (h : Near u n t) : Near u n (Real.sqrt t) := by
  have p : 0 < 1 - u := by linarith
  have ht0 := h.pos hu0 hu1
  have hq : (1 - u) ^ n ≤ 1 := pow_le_one₀ p.le (by linarith)
  have hq0 : 0 < (1 - u) ^ n := pow_pos p n
  constructor
  · rw [Real.le_sqrt hq0.le ht0.le]
    nlinarith [h.1]
  · rw [← le_div_iff₀ hq0, Real.sqrt_le_left (by positivity)]
    rw [div_pow, one_pow, le_div_iff₀ (by positivity)]
    have := h.2
    nlinarith

end near

theorem gam_nonneg {u : ℝ} {n : Nat} (hu : 0 ≤ u) (hn : n * u < 1) : 0 ≤ gam u n := by
  unfold gam
  exact div_nonneg (mul_nonneg (Nat.cast_nonneg n) hu) (by linarith)

theorem gam_mono {u : ℝ} {m n : Nat} (hu : 0 ≤ u) (hmn : m ≤ n) (hn : n * u < 1) :
    gam u m ≤ gam u n := by
  have hc : (m : ℝ) ≤ n := by exact_mod_cast hmn
  have h : (m : ℝ) * u ≤ n * u := mul_le_mul_of_nonneg_right hc hu
  unfold gam
  exact div_le_div₀ (mul_nonneg (Nat.cast_nonneg n) hu) h (by linarith) (by linarith)

/-- `γ_m + γ_n + γ_m γ_n ≤ γ_(m+n)`. -/
theorem gam_add {u : ℝ} {m n : Nat} (hu : 0 ≤ u) (hmn : ((m + n : Nat) : ℝ) * u < 1) :
    gam u m + gam u n + gam u m * gam u n ≤ gam u (m + n) := by
  have hm0 : 0 ≤ (m : ℝ) * u := mul_nonneg (Nat.cast_nonneg m) hu
  have hn0 : 0 ≤ (n : ℝ) * u := mul_nonneg (Nat.cast_nonneg n) hu
  unfold gam
  push_cast at hmn ⊢
  set x : ℝ := m * u with hx
  set y : ℝ := n * u with hy
  have hxy : ((m : ℝ) + n) * u = x + y := by rw [hx, hy]; ring
  rw [hxy] at hmn ⊢
  have h1 : 0 < 1 - x := by linarith
  have h2 : 0 < 1 - y := by linarith
  have h3 : 0 < 1 - (x + y) := by linarith
  have e : x / (1 - x) + y / (1 - y) + x / (1 - x) * (y / (1 - y)) = 1 / ((1 - x) * (1 - y)) - 1 := by
    field_simp
    ring
  have e2 : (x + y) / (1 - (x + y)) = 1 / (1 - (x + y)) - 1 := by
    field_simp
    ring
  rw [e, e2]
  have : 1 / ((1 - x) * (1 - y)) ≤ 1 / (1 - (x + y)) :=
    one_div_le_one_div_of_le h3 (by nlinarith)
  linarith

namespace StdModel
variable (R : StdModel)

theorem rnd_near (x : ℝ) : ∃ t, Near R.u 1 t ∧ R.rnd x = x * t :=
  near_of_err R.u_nonneg R.u_lt_one (R.rnd_err x)

/-- The same with the factor on the other side. -/
theorem rnd_near' (x : ℝ) : ∃ t, Near R.u 1 t ∧ R.rnd x * t = x := by
  obtain ⟨t, ht, h⟩ := R.rnd_near x
  have := (ht.pos R.u_nonneg R.u_lt_one).ne'
  exact ⟨t⁻¹, ht.inv R.u_nonneg R.u_lt_one, by rw [h]; field_simp⟩

theorem rnd_pos {x : ℝ} (hx : 0 < x) : 0 < R.rnd x := by
  obtain ⟨t, ht, h⟩ := R.rnd_near x
  rw [h]
  exact mul_pos hx (ht.pos R.u_nonneg R.u_lt_one)

theorem rnd_zero : R.rnd 0 = 0 := by
  obtain ⟨t, -, h⟩ := R.rnd_near 0
  rw [h, zero_mul]

end StdModel

/-! ## Sums of products -/

/-- A sum of `n` products, accumulated from the left: each product is off by at most `n + 1` factors. -/
theorem sumTo_products {R : StdModel} (n : Nat) (f g : Nat → Rnd R) :
    ∃ q : Nat → ℝ, (∀ k, Near R.u (n + 1) (q k)) ∧
      (sumTo n fun k => f k * g k).v = ∑ k ∈ Finset.range n, (f k).v * (g k).v * q k := by
  have h0 := R.u_nonneg
  have h1 := R.u_lt_one
  induction n with
  | zero => exact ⟨fun _ => 1, fun _ => near_one h0 h1 _, by simp⟩
  | succ n ih =>
    obtain ⟨q, hq, hs⟩ := ih
    obtain ⟨s, hs1, es⟩ := R.rnd_near ((f n).v * (g n).v)
    obtain ⟨t, ht1, et⟩ := R.rnd_near ((sumTo n fun k => f k * g k).v + (f n * g n).v)
    refine ⟨fun k => if k = n then s * t else q k * t, ?_, ?_⟩
    · intro k
      dsimp only
      split_ifs
      · exact (hs1.mul h0 h1 ht1).mono h0 h1 (by omega)
      · exact (hq k).mul h0 h1 ht1
    · dsimp only
      rw [sumTo_succ, Rnd.add_v, et, Finset.sum_range_succ, if_pos rfl, Rnd.mul_v, es, hs, add_mul,
        Finset.sum_mul]
      congr 1
      · apply Finset.sum_congr rfl
        intro k hk
        rw [Finset.mem_range] at hk
        rw [if_neg (by omega)]
        ring
      · ring

/-- An inner product of `n` pairs: each product is off by at most `n + 1` factors. -/
theorem dotTo_products {R : StdModel} (n : Nat) (f g : Nat → Rnd R) :
    ∃ q : Nat → ℝ, (∀ k, Near R.u (n + 1) (q k)) ∧
      (dotTo n f g).v = ∑ k ∈ Finset.range n, (f k).v * (g k).v * q k := by
  obtain ⟨q, hq, e⟩ := R.dot_err (((List.range n).map fun k => (f k, g k)).map fun p => (p.1.v, p.2.v))
  rw [List.length_map, List.length_map, List.length_range] at hq e
  refine ⟨q, hq, Eq.trans e (Finset.sum_congr rfl fun k hk => ?_)⟩
  rw [Finset.mem_range] at hk
  simp [List.getD, hk]

/-! ## Elimination -/

/-- Invariant of the elimination after `k` steps: `S` is the set of rows already solved. -/
def RndElim (R : StdModel) (n : Nat) (uplo : UPLO) (a : Arr2 ℝ) (d : Nat → ℝ) (B : Nat → ℝ) (k : Nat)
    (S : Nat → Prop) [DecidablePred S] (x : Nat → ℝ) : Prop :=
  ∀ r, r < n → ∃ (p : ℝ) (q : Nat → ℝ), Near R.u k p ∧ (∀ c, Near R.u k (q c)) ∧
    (if S r then 0 else x r * p) +
      ∑ c ∈ Finset.range n, (if S c then triEnt uplo a d r c * q c * x c else 0) = B r

theorem rndElim_step {R : StdModel} {n : Nat} {uplo : UPLO} {a : Arr2 (Rnd R)} {d : Nat → Rnd R}
    {B : Nat → ℝ} {k : Nat} {S : Nat → Prop} [DecidablePred S] {x : Nat → Rnd R} {i : Nat} (hi : i < n)
    (hiS : ¬ S i) (hd : (d i).v ≠ 0)
    (hrows : ∀ r, r < n → r ≠ i → (¬ S r ↔ ((elimRows uplo i n).1 ≤ r ∧ r < (elimRows uplo i n).2)))
    (htri : ∀ r, r < n → r ≠ i → (¬ S r ↔ InTri uplo r i))
    (S' : Nat → Prop) [DecidablePred S'] (hS' : ∀ r, r < n → (S' r ↔ S r ∨ r = i))
    (h : RndElim R n uplo (Rnd.vals a) (fun i => (d i).v) B k S fun r => (x r).v) :
    RndElim R n uplo (Rnd.vals a) (fun i => (d i).v) B (k + 1) S'
      fun r => (elimStep a d (elimRows uplo) n x i r).v := by
  have h0 := R.u_nonneg
  have h1 := R.u_lt_one
  set y := elimStep a d (elimRows uplo) n x i with hy
  set e := triEnt uplo (Rnd.vals a) (fun i => (d i).v) with he
  have yi : y i = x i / d i := by simp [hy, elimStep]
  have yS : ∀ r, r < n → S r → y r = x r := by
    intro r hr hS
    have hri : r ≠ i := by rintro rfl; exact hiS hS
    have := (hrows r hr hri)
    simp only [hy, elimStep]
    rw [if_neg hri, if_neg (by rw [← this]; simpa using hS)]
  have yN : ∀ r, r < n → r ≠ i → ¬ S r → y r = x r + -(y i) * a.get r i := by
    intro r hr hri hS
    have := (hrows r hr hri).1 hS
    rw [yi]
    simp only [hy, elimStep]
    rw [if_neg hri, if_pos this]
  -- with new factors `q'` for the solved columns
  have hsum : ∀ r, ∀ q q' : Nat → ℝ, (∀ c, c < n → c ≠ i → q' c = q c) →
      ∑ c ∈ Finset.range n, (if S' c then e r c * q' c * (y c).v else 0) =
      (∑ c ∈ Finset.range n, (if S c then e r c * q c * (x c).v else 0)) +
        e r i * q' i * (y i).v := by
    intro r q q' hq'
    have : ∀ c ∈ Finset.range n, (if S' c then e r c * q' c * (y c).v else 0) =
        (if S c then e r c * q c * (x c).v else 0) +
          (if c = i then e r i * q' i * (y i).v else 0) := by
      intro c hc
      rw [Finset.mem_range] at hc
      by_cases hci : c = i
      · subst hci
        rw [if_pos ((hS' c hc).2 (Or.inr rfl)), if_neg hiS, if_pos rfl, zero_add]
      · rw [if_neg hci, add_zero]
        by_cases hS : S c
        · rw [if_pos ((hS' c hc).2 (Or.inl hS)), if_pos hS, yS c hc hS, hq' c hc hci]
        · rw [if_neg (by rw [hS' c hc]; tauto), if_neg hS]
    rw [Finset.sum_congr rfl this, Finset.sum_add_distrib, Finset.sum_ite_eq' (Finset.range n) i,
      if_pos (Finset.mem_range.2 hi)]
  intro r hr
  obtain ⟨p, q, hp, hq, hinv⟩ := h r hr
  dsimp only at hinv ⊢
  rw [← he] at hinv ⊢
  by_cases hri : r = i
  · subst hri
    obtain ⟨t, ht, et⟩ := R.rnd_near' ((x r).v / (d r).v)
    refine ⟨1, fun c => if c = r then p * t else q c, near_one h0 h1 _, ?_, ?_⟩
    · intro c
      dsimp only
      split_ifs
      · exact hp.mul h0 h1 ht
      · exact (hq c).mono h0 h1 (by omega)
    · rw [if_pos ((hS' r hr).2 (Or.inr rfl)), hsum r q _ (fun c _ hc => if_neg hc)]
      rw [if_neg hiS] at hinv
      have : e r r = (d r).v := by rw [he]; unfold triEnt; rw [if_pos rfl]
      rw [if_pos rfl, this, yi, Rnd.div_v]
      have hx : (d r).v * (p * t) * R.rnd ((x r).v / (d r).v) = (x r).v * p := by
        calc (d r).v * (p * t) * R.rnd ((x r).v / (d r).v)
            = p * (d r).v * (R.rnd ((x r).v / (d r).v) * t) := by ring
          _ = (x r).v * p := by rw [et]; field_simp
      rw [hx]; linarith
  · by_cases hS : S r
    · refine ⟨1, q, near_one h0 h1 _, fun c => (hq c).mono h0 h1 (by omega), ?_⟩
      rw [if_pos ((hS' r hr).2 (Or.inl hS)), hsum r q q (fun _ _ _ => rfl)]
      rw [if_pos hS] at hinv
      have : e r i = 0 := by
        rw [he]; unfold triEnt
        rw [if_neg hri, if_neg (by rw [← htri r hr hri]; simpa using hS)]
      rw [this]; linarith
    · obtain ⟨s, hs, es⟩ := R.rnd_near (-(y i).v * (a.get r i).v)
      obtain ⟨t, ht, et⟩ := R.rnd_near' ((x r).v + (-(y i) * a.get r i).v)
      refine ⟨p * t, fun c => if c = i then s * p else q c, hp.mul h0 h1 ht, ?_, ?_⟩
      · intro c
        dsimp only
        split_ifs
        · exact (hs.mul h0 h1 hp).mono h0 h1 (by omega)
        · exact (hq c).mono h0 h1 (by omega)
      · rw [if_neg (by rw [hS' r hr]; tauto), hsum r q _ (fun c _ hc => if_neg hc)]
        rw [if_neg hS] at hinv
        have : e r i = (a.get r i).v := by
          rw [he]; unfold triEnt
          rw [if_neg hri, if_pos ((htri r hr hri).1 hS)]; rfl
        rw [if_pos rfl, this]
        have hx : (y r).v * (p * t) = (x r).v * p - (a.get r i).v * (s * p) * (y i).v := by
          rw [yN r hr hri hS, Rnd.add_v]
          calc R.rnd ((x r).v + (-(y i) * a.get r i).v) * (p * t)
              = (R.rnd ((x r).v + (-(y i) * a.get r i).v) * t) * p := by ring
            _ = _ := by rw [et, Rnd.mul_v, Rnd.neg_v, es]; ring
        rw [hx]; linarith

theorem rndElim_lower {R : StdModel} {n : Nat} {a : Arr2 (Rnd R)} {d : Nat → Rnd R} (x : Nat → Rnd R)
    (hd : ∀ i, i < n → (d i).v ≠ 0) (m : Nat) (hm : m ≤ n) :
    RndElim R n .lower (Rnd.vals a) (fun i => (d i).v) (fun r => (x r).v) m (fun r => r < m)
      fun r => ((List.range' 0 m).foldl (elimStep a d (elimRows .lower) n) x r).v := by
  induction m with
  | zero =>
    intro r hr
    exact ⟨1, fun _ => 1, near_one R.u_nonneg R.u_lt_one _,
      fun _ => near_one R.u_nonneg R.u_lt_one _, by simp⟩
  | succ m ih =>
    rw [List.range'_concat, List.foldl_append, Nat.zero_add, Nat.one_mul]
    simp only [List.foldl_cons, List.foldl_nil]
    refine rndElim_step (S := fun r => r < m) (by omega) (by simp) (hd m (by omega)) ?_ ?_ _ ?_
      (ih (by omega))
    · intro r hr hri; simp only [elimRows]; omega
    · intro r hr hri; simp only [inTri_upper, inTri_lower]; omega
    · intro r hr; omega

theorem rndElim_upper {R : StdModel} {n : Nat} {a : Arr2 (Rnd R)} {d : Nat → Rnd R} (x : Nat → Rnd R)
    (hd : ∀ i, i < n → (d i).v ≠ 0) (lo m : Nat) (hm : lo + m = n) :
    RndElim R n .upper (Rnd.vals a) (fun i => (d i).v) (fun r => (x r).v) m (fun r => lo ≤ r)
      fun r => ((List.range' lo m).reverse.foldl (elimStep a d (elimRows .upper) n) x r).v := by
  induction m generalizing lo with
  | zero =>
    intro r hr
    refine ⟨1, fun _ => 1, near_one R.u_nonneg R.u_lt_one _,
      fun _ => near_one R.u_nonneg R.u_lt_one _, ?_⟩
    have : ∀ c ∈ Finset.range n, (if lo ≤ c then triEnt .upper (Rnd.vals a) (fun i => (d i).v) r c *
        1 * (x c).v else 0) = 0 := by
      intro c hc; rw [Finset.mem_range] at hc; rw [if_neg (by omega)]
    simp only [List.range'_zero, List.reverse_nil, List.foldl_nil]
    rw [Finset.sum_eq_zero this, if_neg (by omega), add_zero, mul_one]
  | succ m ih =>
    rw [List.range'_succ, List.reverse_cons, List.foldl_append]
    simp only [List.foldl_cons, List.foldl_nil]
    refine rndElim_step (S := fun r => lo + 1 ≤ r) (by omega) (by simp) (hd lo (by omega)) ?_ ?_ _
      ?_ (ih (lo + 1) (by omega))
    · intro r hr hri; simp only [elimRows]; omega
    · intro r hr hri; simp only [inTri_upper, inTri_lower]; omega
    · intro r hr; omega

/-- Rounded elimination solves a nearby triangular system, row by row. -/
theorem rndElim_solves {R : StdModel} {n : Nat} {a : Arr2 (Rnd R)} {d : Nat → Rnd R} (uplo : UPLO)
    (x : Nat → Rnd R) (hd : ∀ i, i < n → (d i).v ≠ 0) (r : Nat) (hr : r < n) :
    ∃ q : Nat → ℝ, (∀ c, Near R.u n (q c)) ∧
      ∑ c ∈ Finset.range n, triEnt uplo (Rnd.vals a) (fun i => (d i).v) r c * q c *
        ((elimOrder uplo n).foldl (elimStep a d (elimRows uplo) n) x c).v = (x r).v := by
  cases uplo with
  | lower =>
    obtain ⟨p, q, -, hq, h⟩ := rndElim_lower (a := a) x hd n le_rfl r hr
    rw [if_pos hr, zero_add] at h
    refine ⟨q, hq, ?_⟩
    refine Eq.trans ?_ h
    apply Finset.sum_congr rfl
    intro c hc
    rw [if_pos (Finset.mem_range.1 hc)]
    rfl
  | upper =>
    obtain ⟨p, q, -, hq, h⟩ := rndElim_upper (a := a) x hd 0 n (by omega) r hr
    rw [if_pos (Nat.zero_le _), zero_add] at h
    refine ⟨q, hq, ?_⟩
    refine Eq.trans ?_ h
    apply Finset.sum_congr rfl
    intro c hc
    rw [if_pos (Nat.zero_le _)]
    rfl

/-- `solveTriangularSystem` in rounded arithmetic: column `j` of the result solves exactly a system
whose matrix is entrywise within a relative error `γ_n`. -/
theorem solveTriangularSystem_rounded {R : StdModel} {n m : Nat} (a b : Arr2 (Rnd R)) (uplo : UPLO)
    (diag : Nat → M (Rnd R)) (d : Nat → Rnd R) (ha : HasShape a n n) (hb : HasShape b n m)
    (hdiag : ∀ i, i < n → diag i = .ok (d i)) (hd : ∀ i, i < n → (d i).v ≠ 0) (hn : n * R.u < 1) :
    ∃ x, solveTriangularSystem a b uplo diag = .ok x ∧ HasShape x n m ∧
      ∀ j : Fin m, ∃ E : Matrix (Fin n) (Fin n) ℝ,
        (∀ r c, |E r c| ≤ gam R.u n * |triMat n uplo (Rnd.vals a) (fun i => (d i).v) r c|) ∧
        (triMat n uplo (Rnd.vals a) (fun i => (d i).v) + E).mulVec (fun r : Fin n => (x.get r j).v) =
          fun r : Fin n => (b.get r j).v := by
  obtain ⟨rfl, ha2⟩ := ha
  obtain ⟨hb1, rfl⟩ := hb
  refine ⟨_, solveTriangularSystem_eq a b uplo diag d ha2.symm hb1 hdiag, ⟨hb1, rfl⟩, ?_⟩
  intro j
  choose q hq hs using fun r : Fin a.nr =>
    rndElim_solves (a := a) uplo (fun r => b.get r j) hd r r.2
  have hent : ∀ r c : Fin a.nr, triMat a.nr uplo (Rnd.vals a) (fun i => (d i).v) r c =
      triEnt uplo (Rnd.vals a) (fun i => (d i).v) r c := by
    intro r c
    simp [triMat, triEnt, Fin.ext_iff]
  refine ⟨Matrix.of fun r c => triEnt uplo (Rnd.vals a) (fun i => (d i).v) r c * (q r c - 1), ?_, ?_⟩
  · intro r c
    rw [Matrix.of_apply, hent, abs_mul, mul_comm]
    exact mul_le_mul_of_nonneg_right ((hq r c).abs_sub_one R.u_nonneg R.u_lt_one hn) (abs_nonneg _)
  · funext r
    rw [← hs r, Matrix.mulVec, dotProduct, Finset.sum_range]
    apply Finset.sum_congr rfl
    intro c _
    dsimp only
    rw [Matrix.add_apply, Matrix.of_apply, hent, if_pos j.2]
    ring

/-! ## Cholesky -/

theorem rnd_cholRows_pos {R : StdModel} {m : Nat} {A b : Arr2 (Rnd R)} (h : CholRows m A b) (r : Nat)
    (hr : r < m) : 0 < (b.get r r).v := by
  rw [h.diag r hr, Rnd.sqrt_v]
  have := h.piv r hr
  simp only [Rnd.le_v, Rnd.zero_v, decide_eq_false_iff_not, not_le] at this
  exact R.rnd_pos (Real.sqrt_pos.2 this)

/-- An entry left of the diagonal: the equation that its computation solves. -/
theorem rnd_offRow_dot {R : StdModel} {A b : Arr2 (Rnd R)} {r : Nat} (h : OffRow A b r) (c : Nat)
    (hc : c < r) (hp : (b.get c c).v ≠ 0) :
    ∃ q : Nat → ℝ, (∀ k, Near R.u (c + 2) (q k)) ∧
      (∑ k ∈ Finset.range c, (b.get c k).v * (b.get r k).v * q k) +
        (b.get r c).v * (b.get c c).v * q c = (A.get r c).v := by
  have h0 := R.u_nonneg
  have h1 := R.u_lt_one
  obtain ⟨q, hq, hs⟩ := sumTo_products c (fun i => b.get c i) (fun i => b.get r i)
  obtain ⟨s, hs1, es⟩ := R.rnd_near' ((A.get r c).v - (sumTo c fun i => b.get c i * b.get r i).v)
  obtain ⟨t, ht1, et⟩ := R.rnd_near'
    ((A.get r c - sumTo c fun i => b.get c i * b.get r i).v / (b.get c c).v)
  refine ⟨fun k => if k = c then t * s else q k, ?_, ?_⟩
  · intro k
    dsimp only
    split_ifs
    · exact (ht1.mul h0 h1 hs1).mono h0 h1 (by omega)
    · exact (hq k).mono h0 h1 (by omega)
  · dsimp only
    rw [if_pos rfl]
    have e2 : (b.get r c).v * (b.get c c).v * (t * s) =
        (A.get r c).v - (sumTo c fun i => b.get c i * b.get r i).v := by
      rw [h c hc, Rnd.div_v]
      have : R.rnd ((A.get r c - sumTo c fun i => b.get c i * b.get r i).v / (b.get c c).v) *
          (b.get c c).v * (t * s) = (R.rnd ((A.get r c -
            sumTo c fun i => b.get c i * b.get r i).v / (b.get c c).v) * t) * (b.get c c).v * s := by
        ring
      rw [this, et, div_mul_cancel₀ _ hp, Rnd.sub_v, es]
    rw [e2, hs]
    have e3 : ∑ k ∈ Finset.range c, (b.get c k).v * (b.get r k).v * (if k = c then t * s else q k) =
        ∑ k ∈ Finset.range c, (b.get c k).v * (b.get r k).v * q k := by
      apply Finset.sum_congr rfl
      intro k hk
      rw [Finset.mem_range] at hk
      rw [if_neg (by omega)]
    rw [e3]
    ring

/-- One entry of the product of the computed factor with its transpose. -/
theorem rnd_cholRows_dot {R : StdModel} {n : Nat} {A b : Arr2 (Rnd R)} (h : CholRows n A b) (r c : Nat)
    (hc : c ≤ r) (hr : r < n) :
    ∃ q : Nat → ℝ, (∀ k, Near R.u (n + 2) (q k)) ∧
      ∑ k ∈ Finset.range n, lowEnt (Rnd.vals b) r k * lowEnt (Rnd.vals b) c k * q k =
        (A.get r c).v := by
  have h0 := R.u_nonneg
  have h1 := R.u_lt_one
  -- reduce to a sum up to and including `c`
  have split : ∀ q : Nat → ℝ,
      ∑ k ∈ Finset.range n, lowEnt (Rnd.vals b) r k * lowEnt (Rnd.vals b) c k * q k =
        (∑ k ∈ Finset.range c, (b.get c k).v * (b.get r k).v * q k) +
          (b.get r c).v * (b.get c c).v * q c := by
    intro q
    have e1 : ∑ k ∈ Finset.range n, lowEnt (Rnd.vals b) r k * lowEnt (Rnd.vals b) c k * q k =
        ∑ k ∈ Finset.range (c + 1), lowEnt (Rnd.vals b) r k * lowEnt (Rnd.vals b) c k * q k := by
      symm
      apply Finset.sum_subset
      · intro k hk; rw [Finset.mem_range] at *; omega
      · intro k _ hk
        rw [Finset.mem_range] at hk
        have : lowEnt (Rnd.vals b) c k = 0 := by unfold lowEnt; rw [if_neg (by omega)]
        rw [this, mul_zero, zero_mul]
    rw [e1, Finset.sum_range_succ]
    congr 1
    · apply Finset.sum_congr rfl
      intro k hk
      rw [Finset.mem_range] at hk
      unfold lowEnt
      rw [if_pos (by omega), if_pos (by omega)]
      simp only [Rnd.vals]
      ring
    · unfold lowEnt
      rw [if_pos hc, if_pos le_rfl]
      rfl
  rcases Nat.lt_or_eq_of_le hc with hc' | rfl
  · obtain ⟨q, hq, hs⟩ := rnd_offRow_dot (h.off r hr) c hc' (rnd_cholRows_pos h c (by omega)).ne'
    exact ⟨q, fun k => (hq k).mono h0 h1 (by omega), by rw [split]; exact hs⟩
  · obtain ⟨q, hq, hs⟩ := sumTo_products c (fun i => b.get c i) (fun i => b.get c i)
    obtain ⟨s, hs1, es⟩ := R.rnd_near' ((A.get c c).v - (sumTo c fun i => b.get c i * b.get c i).v)
    obtain ⟨t, ht1, et⟩ := R.rnd_near' (Real.sqrt (pivot A b c).v)
    refine ⟨fun k => if k = c then t * t * s else q k, ?_, ?_⟩
    · intro k
      dsimp only
      split_ifs
      · exact ((ht1.mul h0 h1 ht1).mul h0 h1 hs1).mono h0 h1 (by omega)
      · exact (hq k).mono h0 h1 (by omega)
    · rw [split, if_pos rfl]
      have hp := h.piv c hr
      simp only [Rnd.le_v, Rnd.zero_v, decide_eq_false_iff_not, not_le] at hp
      have e2 : (b.get c c).v * (b.get c c).v * (t * t * s) =
          (A.get c c).v - (sumTo c fun i => b.get c i * b.get c i).v := by
        rw [h.diag c hr, Rnd.sqrt_v]
        calc _ = (R.rnd (Real.sqrt (pivot A b c).v) * t) * (R.rnd (Real.sqrt (pivot A b c).v) * t) * s := by
              ring
          _ = _ := by rw [et, Real.mul_self_sqrt hp.le, pivot, Rnd.sub_v, es]
      rw [e2, hs]
      have e3 : ∑ k ∈ Finset.range c, (b.get c k).v * (b.get c k).v *
          (if k = c then t * t * s else q k) =
          ∑ k ∈ Finset.range c, (b.get c k).v * (b.get c k).v * q k := by
        apply Finset.sum_congr rfl
        intro k hk
        rw [Finset.mem_range] at hk
        rw [if_neg (by omega)]
      rw [e3]
      ring

/-- The entrywise backward error of Cholesky in rounded arithmetic. -/
theorem rnd_cholRows_mul {R : StdModel} {n : Nat} {A b : Arr2 (Rnd R)} (h : CholRows n A b)
    (hs : (toMat n n (Rnd.vals A)).IsSymm) (hn : ((n + 2 : Nat) : ℝ) * R.u < 1) (i j : Fin n) :
    |(triPart .lower (toMat n n (Rnd.vals b)) * (triPart .lower (toMat n n (Rnd.vals b))).transpose -
      toMat n n (Rnd.vals A)) i j| ≤ gam R.u (n + 2) *
        (absMat (triPart .lower (toMat n n (Rnd.vals b))) *
          (absMat (triPart .lower (toMat n n (Rnd.vals b)))).transpose) i j := by
  have main : ∀ i j : Fin n, (j : Nat) ≤ i →
      |(triPart .lower (toMat n n (Rnd.vals b)) *
        (triPart .lower (toMat n n (Rnd.vals b))).transpose - toMat n n (Rnd.vals A)) i j| ≤
      gam R.u (n + 2) * (absMat (triPart .lower (toMat n n (Rnd.vals b))) *
        (absMat (triPart .lower (toMat n n (Rnd.vals b)))).transpose) i j := by
    intro i j hij
    obtain ⟨q, hq, e⟩ := rnd_cholRows_dot h i j hij i.2
    rw [Matrix.sub_apply, Matrix.mul_apply, Matrix.mul_apply]
    have e1 : toMat n n (Rnd.vals A) i j = ∑ k : Fin n, lowEnt (Rnd.vals b) i k *
        lowEnt (Rnd.vals b) j k * q k := by
      rw [← Finset.sum_range (fun k => lowEnt (Rnd.vals b) i k * lowEnt (Rnd.vals b) j k * q k), e]
      rfl
    rw [e1, ← Finset.sum_sub_distrib, Finset.mul_sum]
    refine (Finset.abs_sum_le_sum_abs _ _).trans (Finset.sum_le_sum ?_)
    intro k _
    have g := (hq k).abs_sub_one R.u_nonneg R.u_lt_one hn
    simp only [absMat, Matrix.map_apply, Matrix.transpose_apply, triPart_lower_apply]
    have e2 : lowEnt (Rnd.vals b) i k * lowEnt (Rnd.vals b) j k -
        lowEnt (Rnd.vals b) i k * lowEnt (Rnd.vals b) j k * q k =
        -((q k - 1) * (lowEnt (Rnd.vals b) i k * lowEnt (Rnd.vals b) j k)) := by ring
    rw [e2, abs_neg, abs_mul, abs_mul]
    exact mul_le_mul_of_nonneg_right g (by positivity)
  rcases le_total (j : Nat) (i : Nat) with hij | hij
  · exact main i j hij
  · have := main j i hij
    have e1 : ∀ X : Matrix (Fin n) (Fin n) ℝ, (X * X.transpose) j i = (X * X.transpose) i j := by
      intro X
      rw [Matrix.mul_apply, Matrix.mul_apply]
      apply Finset.sum_congr rfl
      intro k _
      rw [Matrix.transpose_apply, Matrix.transpose_apply, mul_comm]
    rw [Matrix.sub_apply, e1, e1, hs.apply] at this
    rw [Matrix.sub_apply]
    exact this

/-- The a-priori bound on the entries of `|L| |L|ᵀ` from the diagonal. -/
theorem abs_mul_transpose_le {n : Nat} {A L : Matrix (Fin n) (Fin n) ℝ} {g : ℝ} (hg : g < 1)
    (h : ∀ i, |(L * L.transpose - A) i i| ≤ g * (absMat L * (absMat L).transpose) i i) (i j : Fin n) :
    0 ≤ A i i ∧ (absMat L * (absMat L).transpose) i j ≤ Real.sqrt (A i i * A j j) / (1 - g) := by
  have hq : 0 < 1 - g := by linarith
  set s : Fin n → ℝ := fun i => ∑ k, L i k ^ 2 with hs
  have hs0 : ∀ i, 0 ≤ s i := fun i => Finset.sum_nonneg fun k _ => sq_nonneg _
  have hd : ∀ i, (absMat L * (absMat L).transpose) i i = s i := by
    intro i
    rw [Matrix.mul_apply, hs]
    apply Finset.sum_congr rfl
    intro k _
    simp only [absMat, Matrix.map_apply, Matrix.transpose_apply]
    rw [abs_mul_abs_self]; ring
  have hd' : ∀ i, (L * L.transpose) i i = s i := by
    intro i
    rw [Matrix.mul_apply, hs]
    apply Finset.sum_congr rfl
    intro k _
    rw [Matrix.transpose_apply]; ring
  have hb : ∀ i, (1 - g) * s i ≤ A i i := by
    intro i
    have := (abs_le.1 (h i)).2
    rw [Matrix.sub_apply, hd, hd'] at this
    linarith
  have hA : ∀ i, 0 ≤ A i i := fun i => (mul_nonneg hq.le (hs0 i)).trans (hb i)
  refine ⟨hA i, ?_⟩
  have cs : ((absMat L * (absMat L).transpose) i j) ^ 2 ≤ s i * s j := by
    rw [Matrix.mul_apply]
    have := Finset.sum_mul_sq_le_sq_mul_sq Finset.univ (fun k => |L i k|) (fun k => |L j k|)
    simp only [sq_abs] at this
    exact this
  have h0 : 0 ≤ (absMat L * (absMat L).transpose) i j := by
    rw [Matrix.mul_apply]
    exact Finset.sum_nonneg fun k _ => mul_nonneg (abs_nonneg _) (abs_nonneg _)
  rw [le_div_iff₀ hq]
  refine Real.le_sqrt_of_sq_le ?_
  calc ((absMat L * (absMat L).transpose) i j * (1 - g)) ^ 2
      = ((absMat L * (absMat L).transpose) i j) ^ 2 * (1 - g) ^ 2 := by ring
    _ ≤ s i * s j * (1 - g) ^ 2 := mul_le_mul_of_nonneg_right cs (sq_nonneg _)
    _ = ((1 - g) * s i) * ((1 - g) * s j) := by ring
    _ ≤ A i i * A j j := mul_le_mul (hb i) (hb j) (mul_nonneg hq.le (hs0 j)) (hA i)

end LinfaLinalg
