import Verif.Proofs.SolveBound
import Verif.Proofs.CholSuccess

/-! # Triangular solves that do not overflow -/

namespace LinfaLinalg

open Flt Matrix

variable {R : Rounding} {u η Ω : ℝ}

/-- One step of the elimination stays in range. -/
theorem elimStep_isFin (hR : R.Accurate u η) (hΩ : R.Below Ω) {n : Nat} {uplo : UPLO} {a : Arr2 (Flt R)} {d : Nat → Flt R}
    {x : Nat → Flt R} {i : Nat} (hi : i < n) {W d0 Am : ℝ} (hdf : IsFin (d i)) (hdp : Proper (d i)) (hd0 : 0 < d0)
    (hd : d0 ≤ |(d i).rv|) (hx : ∀ r, r < n → IsFin (x r)) (px : ∀ r, r < n → Proper (x r)) (ha : ∀ r, r < n → IsFin (a.get r i))
    (pa : ∀ r, r < n → Proper (a.get r i)) (hAm : ∀ r, r < n → |(a.get r i).rv| ≤ Am) (hW : ∀ r, r < n → |(x r).rv| ≤ W)
    (hu : ((1 - u) ^ 1)⁻¹ ≤ 2) (h1 : W / d0 < Ω) (h2 : W + 2 * ((2 * (W / d0) + 1) * Am) + 1 < Ω) (r : Nat) (hr : r < n) :
    IsFin (elimStep a d (elimRows uplo) n x i r) := by
  have h0 := hR.u_nonneg
  have h1u := hR.u_lt_one
  have hη := hR.η_le_one
  have hW0 : 0 ≤ W := (abs_nonneg _).trans (hW i hi)
  have hAm0 : 0 ≤ Am := (abs_nonneg _).trans (hAm i hi)
  have hd0' : (d i).rv ≠ 0 := by intro h; rw [h, abs_zero] at hd; linarith
  have hq0 : |(x i).rv / (d i).rv| ≤ W / d0 := by
    rw [abs_div]
    exact div_le_div₀ hW0 (hW i hi) hd0 hd
  have fq : IsFin (x i / d i) := div_isFin hΩ (px i hi) hdp (hx i hi) hdf hd0' (hq0.trans_lt h1)
  unfold elimStep
  split_ifs with c1 c2
  · exact fq
  · obtain ⟨-, -, t, e, ht, he, et⟩ := div_err hR (px i hi) hdp hdf fq
    have hq : |(x i / d i).rv| ≤ 2 * (W / d0) + 1 := by
      rw [et]
      refine (abs_add_le _ _).trans ?_
      rw [abs_mul, abs_of_pos (ht.pos h0 h1u)]
      have t2 := (ht.le_inv h0 h1u).trans hu
      have := mul_le_mul hq0 t2 (ht.pos h0 h1u).le (by positivity)
      linarith
    have hQ0 : 0 ≤ 2 * (W / d0) + 1 := by positivity
    have hp : |(-(x i / d i)).rv * (a.get r i).rv| ≤ (2 * (W / d0) + 1) * Am := by
      rw [neg_rv, abs_mul, abs_neg]
      exact mul_le_mul hq (hAm r hr) (abs_nonneg _) hQ0
    have hQA : 0 ≤ (2 * (W / d0) + 1) * Am := mul_nonneg hQ0 hAm0
    have pn : Proper (-(x i / d i)) := proper_neg (proper_div _ _)
    have fp : IsFin (-(x i / d i) * a.get r i) :=
      mul_isFin hΩ pn (pa r hr) (neg_fin.2 fq) (ha r hr) (by linarith)
    obtain ⟨-, -, s, e', hs, he', es⟩ := mul_err hR pn (pa r hr) fp
    refine add_isFin hΩ (hx r hr) fp ?_
    have hp' : |(-(x i / d i) * a.get r i).rv| ≤ 2 * ((2 * (W / d0) + 1) * Am) + 1 := by
      rw [es]
      refine (abs_add_le _ _).trans ?_
      rw [abs_mul _ s, abs_of_pos (hs.pos h0 h1u)]
      have t2 := (hs.le_inv h0 h1u).trans hu
      have := mul_le_mul hp t2 (hs.pos h0 h1u).le hQA
      linarith
    have := abs_add_le (x r).rv (-(x i / d i) * a.get r i).rv
    have := hW r hr
    linarith
  · exact hx r hr

/-- Forward elimination stays in range, if the invariant bounds the values. -/
theorem elim_lower_isFin (hR : R.Accurate u η) (hΩ : R.Below Ω) {n : Nat} {a : Arr2 (Flt R)} {d : Nat → Flt R} (x : Nat → Flt R)
    {W d0 Am : ℝ} (hdf : ∀ i, i < n → IsFin (d i)) (hdp : ∀ i, i < n → Proper (d i)) (hd0 : 0 < d0)
    (hd : ∀ i, i < n → d0 ≤ |(d i).rv|) (hx : ∀ r, r < n → IsFin (x r)) (px : ∀ r, r < n → Proper (x r))
    (ha : ∀ r c, r < n → c < n → IsFin (a.get r c)) (pa : ∀ r c, r < n → c < n → Proper (a.get r c))
    (hAm : ∀ r c, r < n → c < n → |(a.get r c).rv| ≤ Am)
    (hW : ∀ m, m ≤ n → ∀ y : Nat → ℝ, FltElim u η n .lower (vals a) (fun i => (d i).rv) (fun r => (x r).rv) m (fun r => r < m) y →
      ∀ r, r < n → |y r| ≤ W)
    (hu : ((1 - u) ^ 1)⁻¹ ≤ 2) (h1 : W / d0 < Ω) (h2 : W + 2 * ((2 * (W / d0) + 1) * Am) + 1 < Ω) (m : Nat) (hm : m ≤ n)
    (r : Nat) (hr : r < n) : IsFin ((List.range' 0 m).foldl (elimStep a d (elimRows .lower) n) x r) := by
  induction m generalizing r with
  | zero => exact hx r hr
  | succ m ih =>
    have hf := ih (by omega)
    have inv := hW m (by omega) _ (fltElim_lower hR x hdf hdp px pa m (by omega) hf)
    rw [List.range'_concat, List.foldl_append, Nat.zero_add, Nat.one_mul]
    exact elimStep_isFin hR hΩ (by omega) (hdf m (by omega)) (hdp m (by omega)) hd0 (hd m (by omega)) hf
      (elim_proper _ x px) (fun r hr => ha r m hr (by omega)) (fun r hr => pa r m hr (by omega))
      (fun r hr => hAm r m hr (by omega)) inv hu h1 h2 r hr

/-- Backward elimination stays in range, if the invariant bounds the values. -/
theorem elim_upper_isFin (hR : R.Accurate u η) (hΩ : R.Below Ω) {n : Nat} {a : Arr2 (Flt R)} {d : Nat → Flt R} (x : Nat → Flt R)
    {W d0 Am : ℝ} (hdf : ∀ i, i < n → IsFin (d i)) (hdp : ∀ i, i < n → Proper (d i)) (hd0 : 0 < d0)
    (hd : ∀ i, i < n → d0 ≤ |(d i).rv|) (hx : ∀ r, r < n → IsFin (x r)) (px : ∀ r, r < n → Proper (x r))
    (ha : ∀ r c, r < n → c < n → IsFin (a.get r c)) (pa : ∀ r c, r < n → c < n → Proper (a.get r c))
    (hAm : ∀ r c, r < n → c < n → |(a.get r c).rv| ≤ Am)
    (hW : ∀ lo m, lo + m = n → ∀ y : Nat → ℝ,
      FltElim u η n .upper (vals a) (fun i => (d i).rv) (fun r => (x r).rv) m (fun r => lo ≤ r) y → ∀ r, r < n → |y r| ≤ W)
    (hu : ((1 - u) ^ 1)⁻¹ ≤ 2) (h1 : W / d0 < Ω) (h2 : W + 2 * ((2 * (W / d0) + 1) * Am) + 1 < Ω) (m lo : Nat) (hm : lo + m = n)
    (r : Nat) (hr : r < n) : IsFin ((List.range' lo m).reverse.foldl (elimStep a d (elimRows .upper) n) x r) := by
  induction m generalizing lo r with
  | zero => exact hx r hr
  | succ m ih =>
    have hf := ih (lo + 1) (by omega)
    have inv := hW (lo + 1) m (by omega) _ (fltElim_upper hR x hdf hdp px pa (lo + 1) m (by omega) hf)
    rw [List.range'_succ, List.reverse_cons, List.foldl_append]
    exact elimStep_isFin hR hΩ (by omega) (hdf lo (by omega)) (hdp lo (by omega)) hd0 (hd lo (by omega)) hf
      (elim_proper _ x px) (fun r hr => ha r lo hr (by omega)) (fun r hr => pa r lo hr (by omega))
      (fun r hr => hAm r lo hr (by omega)) inv hu h1 h2 r hr

theorem sum_pert {n : Nat} {g : ℝ} (f q : Fin n → ℝ) (hq : ∀ c, |q c - 1| ≤ g) : |∑ c, f c * q c - ∑ c, f c| ≤ g * ∑ c, |f c| := by
  rw [← Finset.sum_sub_distrib, Finset.mul_sum]
  refine (Finset.abs_sum_le_sum_abs _ _).trans (Finset.sum_le_sum fun c _ => ?_)
  rw [show f c * q c - f c = (q c - 1) * f c by ring, abs_mul]
  exact mul_le_mul_of_nonneg_right (hq c) (abs_nonneg _)

/-- What is needed of the numbers to bound the values in the two solves. -/
structure SolveNums (u η g β : ℝ) (n : Nat) (D : Arr2 ℝ) (A : Matrix (Fin n) (Fin n) ℝ) : Prop where
  g1 : g ≤ 1 / 100
  β0 : 0 ≤ β
  near : ∀ k, k ≤ n → ∀ t, Near u k t → |t - 1| ≤ g
  inv : ∀ k, k ≤ n → ((1 - u) ^ k)⁻¹ ≤ 2
  η0 : 0 ≤ η
  under : ∀ r : Fin n, η * (2 * n + |D.get r r|) * 2 ≤ β * √(A r r)
  under' : ∀ r : Fin n, η * (2 * n + |D.get r r|) * 2 ≤ β

theorem SolveNums.err {g β : ℝ} {n : Nat} {D : Arr2 ℝ} {A : Matrix (Fin n) (Fin n) ℝ} (N : SolveNums u η g β n D A) {k : Nat} (hk : k ≤ n)
    (r : Fin n) (P : Prop) [Decidable P] {E : ℝ} (hE : |E| ≤ η * (2 * k + if P then |D.get r r| else 0) * ((1 - u) ^ k)⁻¹) :
    |E| ≤ η * (2 * n + |D.get r r|) * 2 := by
  have hk' : (k : ℝ) ≤ n := by exact_mod_cast hk
  have h0 := abs_nonneg (D.get r r)
  have hif : (if P then |D.get r r| else 0) ≤ |D.get r r| := by split_ifs <;> linarith
  have hif0 : 0 ≤ (if P then |D.get r r| else 0) := by split_ifs <;> linarith
  have hη := N.η0
  have hkk : (0 : ℝ) ≤ k := Nat.cast_nonneg k
  refine hE.trans ?_
  calc η * (2 * k + if P then |D.get r r| else 0) * ((1 - u) ^ k)⁻¹
      ≤ η * (2 * k + if P then |D.get r r| else 0) * 2 := mul_le_mul_of_nonneg_left (N.inv k hk) (by positivity)
    _ ≤ _ := by nlinarith

theorem forward_values {g β δ G : ℝ} {n : Nat} {D : Arr2 ℝ} {A : Matrix (Fin n) (Fin n) ℝ} (h : NearChol (toMat n n D) A δ G g)
    (N : SolveNums u η g β n D A) {B : Nat → ℝ} (hB : ∀ r : Fin n, |B r| ≤ β * √(A r r)) {m : Nat} (hm : m ≤ n) {y : Nat → ℝ}
    (inv : FltElim u η n .lower D (fun i => D.get i i) B m (fun r => r < m) y) :
    (∀ r : Fin n, (r : Nat) < m → |y r| ≤ 2 * β / √g) ∧
      ∀ r : Fin n, m ≤ (r : Nat) → |y r| ≤ √(A r r) * (4 * β + 8 * (2 * β / √g)) := by
  have hg0 := h.g0
  have hsg : 0 < √g := Real.sqrt_pos.2 hg0
  have hβ := N.β0
  set z : Fin n → ℝ := fun i => if (i : Nat) < m then y i else 0 with hz
  have hsum : ∀ (r : Fin n) (q : Nat → ℝ), ∑ c ∈ Finset.range n, (if c < m then triEnt .lower D (fun i => D.get i i) r c * q c * y c else 0) =
      ∑ c : Fin n, toMat n n D r c * z c * q c := by
    intro r q
    rw [Finset.sum_range]
    refine Finset.sum_congr rfl fun c _ => ?_
    have e : triEnt .lower D (fun i => D.get i i) r c = toMat n n D r c := by
      unfold triEnt
      split_ifs with h1 h2
      · rw [toMat_apply, h1]
      · rfl
      · rw [inTri_lower] at h2
        exact (h.low r c (by simpa using h2)).symm
    rw [e]
    simp only [hz]
    split_ifs <;> ring
  have hf : g * ∑ r, z r ^ 2 ≤ 4 * β ^ 2 := by
    refine h.forward hβ m z (fun i hi => if_neg (by omega)) fun j hj => ?_
    obtain ⟨p, q, E, -, hq, hE, e⟩ := inv j j.2
    rw [if_pos hj, zero_add, hsum] at e
    have hE' := (N.err hm j _ hE).trans (N.under j)
    have hs := sum_pert (fun c => toMat n n D j c * z c) (fun c => q c) fun c => N.near m hm _ (hq c)
    simp only [abs_mul] at hs
    have hb := hB j
    rw [abs_le] at hb hE' hs ⊢
    constructor <;> linarith [hb.1, hb.2, hE'.1, hE'.2, hs.1, hs.2]
  have hsq : √(∑ r, z r ^ 2) ≤ 2 * β / √g := by
    rw [le_div_iff₀ hsg, ← Real.sqrt_mul (Finset.sum_nonneg fun _ _ => sq_nonneg _)]
    refine Real.sqrt_le_iff.2 ⟨by positivity, ?_⟩
    nlinarith
  refine ⟨fun r hr => ?_, fun r hr => ?_⟩
  · have h1 : z r ^ 2 ≤ ∑ r, z r ^ 2 := Finset.single_le_sum (f := fun r => z r ^ 2) (fun _ _ => sq_nonneg _) (Finset.mem_univ r)
    have h2 : |z r| ≤ √(∑ r, z r ^ 2) := Real.abs_le_sqrt h1
    have h3 : z r = y r := if_pos hr
    rw [← h3]
    exact h2.trans hsq
  · obtain ⟨p, q, E, hp, hq, hE, e⟩ := inv r r.2
    rw [if_neg (by omega), hsum] at e
    have hE' := (N.err hm r _ hE).trans (N.under r)
    have hs := sum_pert (fun c => toMat n n D r c * z c) (fun c => q c) fun c => N.near m hm _ (hq c)
    have hcs : ∑ c, |toMat n n D r c * z c| ≤ 2 * √(A r r) * (2 * β / √g) := by
      have := Real.sum_mul_le_sqrt_mul_sqrt Finset.univ (fun c => |toMat n n D r c|) (fun c => |z c|)
      simp only [sq_abs, ← abs_mul] at this
      refine this.trans (mul_le_mul ?_ hsq (Real.sqrt_nonneg _) (by positivity))
      refine (Real.sqrt_le_sqrt (h.row r)).trans (le_of_eq ?_)
      rw [Real.sqrt_mul (by norm_num), show √(4 : ℝ) = 2 by
        rw [show (4 : ℝ) = 2 ^ 2 by norm_num]; exact Real.sqrt_sq (by norm_num)]
    have hcs' := Finset.abs_sum_le_sum_abs (fun c => toMat n n D r c * z c) Finset.univ
    have hpp := N.near m hm p hp
    have hg1 := N.g1
    have hp1 : 1 / 2 ≤ p := by have := (abs_le.1 hpp).1; linarith
    set T := ∑ c, |toMat n n D r c * z c| with hT
    have hT0 : 0 ≤ T := Finset.sum_nonneg fun _ _ => abs_nonneg _
    have hgT : g * T ≤ T := by nlinarith
    have hyp : |y r * p| ≤ 2 * (β * √(A r r)) + 2 * T := by
      have hb := hB r
      rw [abs_le] at hb hE' hs hcs' ⊢
      constructor <;> linarith [hb.1, hb.2, hE'.1, hE'.2, hs.1, hs.2, hcs'.1, hcs'.2]
    rw [abs_mul, abs_of_pos (by linarith : 0 < p)] at hyp
    have := mul_le_mul_of_nonneg_left hp1 (abs_nonneg (y r))
    calc |y r| ≤ 2 * (2 * (β * √(A r r)) + 2 * (2 * √(A r r) * (2 * β / √g))) := by linarith
      _ = _ := by ring

theorem backward_values {g β δ G Υ : ℝ} {n : Nat} {D : Arr2 ℝ} {A : Matrix (Fin n) (Fin n) ℝ} (h : NearChol (toMat n n D) A δ G g)
    (N : SolveNums u η g β n D A) (hΥ : β ≤ Υ) {B : Nat → ℝ} (hB : ∀ r : Fin n, |B r| ≤ Υ) {lo m : Nat} (hm : lo + m = n) {y : Nat → ℝ}
    (inv : FltElim u η n .upper D.t (fun i => D.get i i) B m (fun r => lo ≤ r) y) :
    (∀ r : Fin n, lo ≤ (r : Nat) → √(A r r) * |y r| ≤ 2 * Υ / √g) ∧
      ∀ r : Fin n, (r : Nat) < lo → |y r| ≤ 4 * Υ + 8 * (√n * (2 * Υ / √g)) := by
  have hg0 := h.g0
  have hsg : 0 < √g := Real.sqrt_pos.2 hg0
  have hβ := N.β0
  have hΥ0 : 0 ≤ Υ := hβ.trans hΥ
  set z : Fin n → ℝ := fun i => if lo ≤ (i : Nat) then y i else 0 with hz
  have hsum : ∀ (r : Fin n) (q : Nat → ℝ), ∑ c ∈ Finset.range n, (if lo ≤ c then triEnt .upper D.t (fun i => D.get i i) r c * q c * y c else 0) =
      ∑ c : Fin n, toMat n n D c r * z c * q c := by
    intro r q
    rw [Finset.sum_range]
    refine Finset.sum_congr rfl fun c _ => ?_
    have e : triEnt .upper D.t (fun i => D.get i i) r c = toMat n n D c r := by
      unfold triEnt
      split_ifs with h1 h2
      · rw [toMat_apply, h1]
      · rfl
      · rw [inTri_upper] at h2
        exact (h.low c r (by simpa using h2)).symm
    rw [e]
    simp only [hz]
    split_ifs <;> ring
  have hf : g * ∑ i, A i i * z i ^ 2 ≤ (2 * Υ) ^ 2 := by
    refine h.backward lo z (fun i hi => if_neg (by omega)) fun j hj => ?_
    obtain ⟨p, q, E, -, hq, hE, e⟩ := inv j j.2
    rw [if_pos hj, zero_add, hsum] at e
    have hE' := ((N.err (by omega) j _ hE).trans (N.under' j)).trans hΥ
    have hs := sum_pert (fun c => toMat n n D c j * z c) (fun c => q c) fun c => N.near m (by omega) _ (hq c)
    simp only [abs_mul] at hs
    have hb := hB j
    rw [abs_le] at hb hE' hs ⊢
    constructor <;> linarith [hb.1, hb.2, hE'.1, hE'.2, hs.1, hs.2]
  have hW0 : 0 ≤ ∑ i, A i i * z i ^ 2 := Finset.sum_nonneg fun i _ => mul_nonneg (h.pos i).le (sq_nonneg _)
  have hsq : √(∑ i, A i i * z i ^ 2) ≤ 2 * Υ / √g := by
    rw [le_div_iff₀ hsg, ← Real.sqrt_mul hW0]
    refine Real.sqrt_le_iff.2 ⟨by positivity, ?_⟩
    linarith
  refine ⟨fun r hr => ?_, fun r hr => ?_⟩
  · have h1 : A r r * z r ^ 2 ≤ ∑ i, A i i * z i ^ 2 :=
      Finset.single_le_sum (f := fun i => A i i * z i ^ 2) (fun i _ => mul_nonneg (h.pos i).le (sq_nonneg _)) (Finset.mem_univ r)
    have h2 : √(A r r) * |z r| = √(A r r * z r ^ 2) := by rw [Real.sqrt_mul (h.pos r).le, Real.sqrt_sq_eq_abs]
    have h3 : z r = y r := if_pos hr
    rw [← h3, h2]
    exact (Real.sqrt_le_sqrt h1).trans hsq
  · obtain ⟨p, q, E, hp, hq, hE, e⟩ := inv r r.2
    rw [if_neg (by omega), hsum] at e
    have hE' := ((N.err (by omega) r _ hE).trans (N.under' r)).trans hΥ
    have hs := sum_pert (fun c => toMat n n D c r * z c) (fun c => q c) fun c => N.near m (by omega) _ (hq c)
    have hcs : ∑ c, |toMat n n D c r * z c| ≤ 2 * (√n * (2 * Υ / √g)) := by
      have h1 : ∑ c, |toMat n n D c r * z c| ≤ 2 * ∑ c, √(A c c) * |z c| := by
        rw [Finset.mul_sum]
        refine Finset.sum_le_sum fun c _ => ?_
        rw [abs_mul]
        have := mul_le_mul_of_nonneg_right (h.entry c r) (abs_nonneg (z c))
        linarith
      have h2 : ∑ c, √(A c c) * |z c| ≤ √n * √(∑ i, A i i * z i ^ 2) := by
        rw [← Real.sqrt_mul (Nat.cast_nonneg n)]
        refine Real.le_sqrt_of_sq_le ((sq_sum_le_card_mul_sum_sq).trans (le_of_eq ?_))
        rw [Finset.card_univ, Fintype.card_fin]
        congr 1
        exact Finset.sum_congr rfl fun i _ => by rw [mul_pow, Real.sq_sqrt (h.pos i).le, sq_abs]
      have h3 := mul_le_mul_of_nonneg_left hsq (Real.sqrt_nonneg (n : ℝ))
      linarith
    have hcs' := Finset.abs_sum_le_sum_abs (fun c => toMat n n D c r * z c) Finset.univ
    have hpp := N.near m (by omega) p hp
    have hg1 := N.g1
    have hp1 : 1 / 2 ≤ p := by have := (abs_le.1 hpp).1; linarith
    set T := ∑ c, |toMat n n D c r * z c| with hT
    have hT0 : 0 ≤ T := Finset.sum_nonneg fun _ _ => abs_nonneg _
    have hgT : g * T ≤ T := by nlinarith
    have hyp : |y r * p| ≤ 2 * Υ + 2 * T := by
      have hb := hB r
      rw [abs_le] at hb hE' hs hcs' ⊢
      constructor <;> linarith [hb.1, hb.2, hE'.1, hE'.2, hs.1, hs.2, hcs'.1, hcs'.2]
    rw [abs_mul, abs_of_pos (by linarith : 0 < p)] at hyp
    have := mul_le_mul_of_nonneg_left hp1 (abs_nonneg (y r))
    linarith

end LinfaLinalg
