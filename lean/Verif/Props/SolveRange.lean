import Verif.Proofs.SolveFinite
import Verif.Props.CholRange

/-! # C141: solving symmetric positive definite systems without overflow

C97 bounds the error of `solvec` if the answer is finite. Here it is shown that the answer is finite, for matrices and
right-hand sides of moderate size. -/

namespace LinfaLinalg

open Flt Matrix

/-- A condition number below one is only possible with a scaled diagonal of one. -/
theorem cond_le_one {n : Nat} {A : Matrix (Fin n) (Fin n) ℝ} {δ : ℝ} (hn : 0 < n) (hpos : ∀ i, 0 < A i i)
    (hcond : ∀ x : Fin n → ℝ, δ * ∑ i, A i i * x i ^ 2 ≤ x ⬝ᵥ A *ᵥ x) : δ ≤ 1 := by
  have h := cond_embed hcond (fun _ : Unit => (⟨0, hn⟩ : Fin n)) (fun _ _ _ => rfl) fun _ => 1
  simp at h
  have hp := hpos ⟨0, hn⟩
  by_contra hc
  push Not at hc
  nlinarith

theorem le_gam {u : ℝ} {n : Nat} (hu : 0 ≤ u) (hn : (n : ℝ) * u < 1) : (n : ℝ) * u ≤ gam u n := by
  unfold gam
  rw [le_div_iff₀ (by linarith)]
  have : 0 ≤ (n : ℝ) * u := by positivity
  nlinarith

/-- The products of the absolute values of the rows of the factor, by the Cauchy-Schwarz inequality. -/
theorem NearChol.absMat_mul {n : Nat} {L A : Matrix (Fin n) (Fin n) ℝ} {δ G g : ℝ} (h : NearChol L A δ G g) (r c : Fin n) :
    (absMat L * (absMat L).transpose) r c ≤ (1 + G) * (√(A r r) * √(A c c)) := by
  have hG := h.G0
  have sq : ∀ i, ∑ k, |L i k| ^ 2 ≤ (1 + G) * A i i := by
    intro i
    have h1 := (abs_le.1 (h.near i i)).2
    rw [Real.mul_self_sqrt (h.pos i).le, Matrix.sub_apply, Matrix.mul_apply] at h1
    have h2 : ∑ k, |L i k| ^ 2 = ∑ k, L i k * L.transpose k i :=
      Finset.sum_congr rfl fun k _ => by rw [sq_abs, Matrix.transpose_apply, _root_.sq]
    linarith
  have cs := Real.sum_mul_le_sqrt_mul_sqrt Finset.univ (fun k => |L r k|) fun k => |L c k|
  rw [Matrix.mul_apply]
  refine cs.trans ((mul_le_mul (Real.sqrt_le_sqrt (sq r)) (Real.sqrt_le_sqrt (sq c)) (Real.sqrt_nonneg _)
    (Real.sqrt_nonneg _)).trans (le_of_eq ?_))
  rw [Real.sqrt_mul (by linarith), Real.sqrt_mul (by linarith)]
  calc √(1 + G) * √(A r r) * (√(1 + G) * √(A c c)) = √(1 + G) * √(1 + G) * (√(A r r) * √(A c c)) := by ring
    _ = _ := by rw [Real.mul_self_sqrt (by linarith)]

set_option maxHeartbeats 1600000 in
/-- C141: in every IEEE 754 format with at least the precision and range of single precision, for every order of
summation: if the diagonal of a symmetric matrix lies in `[2^(-2t), 2^(2t)]`, the right-hand sides are at most `2^t` in
absolute value, `5 t` is at most `emax - 2 mant - 9`, and the matrix is well conditioned after scaling its diagonal to one,
then `solvec` returns and every number in the answer is finite. Moreover each column `x` solves `(A + E) x = b + f`
with `|E r c| ≤ 2 γ_(3n+2) √(a r r · a c c)` and an `f` of the size of the smallest positive numbers. -/
theorem C141_finite {F : Format} (hF : F.Wide) (P : DotPlans) {n m : Nat} (hn : n + 2 ≤ 2 ^ (F.mant - 6)) (t : ℕ)
    (ht : 5 * (t : ℤ) + 2 * F.mant + 9 ≤ F.emax) (ht' : F.emin + F.mant + 5 ≤ -(2 * (t : ℤ)))
    (a b : Arr2 (Flt { Rounding.ieee F with plans := P })) (ha : HasShape a n n) (hb : HasShape b n m)
    (hfin : ∀ r c, r < n → c ≤ r → IsFin (a.get r c)) (hs : (toMat n n (vals a)).IsSymm)
    (hlo : ∀ i, i < n → 2 ^ (-(2 * (t : ℤ))) ≤ (a.get i i).rv) (hhi : ∀ i, i < n → (a.get i i).rv ≤ 2 ^ (2 * (t : ℤ)))
    (hcond : ∀ x : Fin n → ℝ, 8 * (n + 1) * gam (2 ^ (-(F.mant : ℤ) - 1)) (n + 2) * ∑ i : Fin n, (a.get i i).rv * x i ^ 2 ≤
      x ⬝ᵥ toMat n n (vals a) *ᵥ x)
    (hbf : ∀ r c, r < n → c < m → IsFin (b.get r c) ∧ Proper (b.get r c) ∧ |(b.get r c).rv| ≤ 2 ^ t) :
    ∃ x, solvec a b = .ok x ∧ HasShape x n m ∧ (∀ r c, r < n → c < m → IsFin (x.get r c)) ∧
      ∀ j : Fin m, ∃ (E : Matrix (Fin n) (Fin n) ℝ) (f : Fin n → ℝ),
        (∀ r c, |E r c| ≤ 2 * gam (2 ^ (-(F.mant : ℤ) - 1)) (3 * n + 2) * √((a.get r r).rv * (a.get c c).rv)) ∧
        (∀ r, |f r| ≤ (2 * n + 2 * 2 ^ t) * (2 + 4 * n * 2 ^ t) * 2 ^ (F.emin - 1)) ∧
        (toMat n n (vals a) + E).mulVec (fun r : Fin n => (x.get r j).rv) = fun r : Fin n => (b.get r j).rv + f r := by
  have C := ieee_cholRange hF P hn
  obtain ⟨rfl, ha2⟩ := ha
  set u : ℝ := 2 ^ (-(F.mant : ℤ) - 1) with hu
  set η : ℝ := 2 ^ (F.emin - 1) with hη
  set g := gam u (a.nr + 2) with hg
  have hg0 := C.g0
  have hg1 := C.g1
  have hn0 : (0 : ℝ) ≤ a.nr := Nat.cast_nonneg _
  have htl : (2 : ℝ) ^ (F.emin + F.mant + 5) ≤ 2 ^ (-(2 * (t : ℤ))) := zpow_le_zpow_right₀ (by norm_num) ht'
  have hth : (2 : ℝ) ^ (2 * (t : ℤ)) ≤ 2 ^ (F.emax - 4) := zpow_le_zpow_right₀ (by norm_num) (by have := F.mant_pos; omega)
  have hcond' : ∀ x : Fin a.nr → ℝ, 8 * (a.nr + 1) * g * ∑ i : Fin a.nr, toMat a.nr a.nr (vals a) i i * x i ^ 2 ≤
      x ⬝ᵥ toMat a.nr a.nr (vals a) *ᵥ x := hcond
  have hA : CholInput a g (2 ^ (F.emin + F.mant + 5)) (2 ^ (F.emax - 4)) (8 * (a.nr + 1) * g) a.nr :=
    ⟨hfin, fun r c hr hc => hs.apply ⟨c, hc⟩ ⟨r, hr⟩, fun i hi => htl.trans (hlo i hi), fun i hi => (hhi i hi).trans hth, hcond,
      by nlinarith⟩
  rcases cholesky_cases a ha2.symm with ⟨d, hd, hr, hdd, -⟩ | ⟨-, -, d, j, hj, hf, -⟩
  swap
  · exact (not_failed C hA hj hf).elim
  have hrow := rows_ok C hA le_rfl hr.off hr.diag
  have hpos : ∀ i, i < a.nr → 0 < (a.get i i).rv := fun i hi => C.τ0.trans_le (htl.trans (hlo i hi))
  have hdnr := hr.nr
  set D : Arr2 (Flt { Rounding.ieee F with plans := P }) := cleanLower d with hD
  have sl : HasShape D a.nr a.nr := ⟨hr.nr, hr.nc.trans ha2⟩
  have hsame : ∀ r c, c ≤ r → d.get r c = D.get r c := by
    intro r c hrc
    simp only [hD, cleanLower]
    rw [if_neg (by omega)]
  have hDf : ∀ r c, r < a.nr → c < a.nr → IsFin (D.get r c) := by
    intro r c h1 h2
    simp only [hD, cleanLower]
    split_ifs with h3
    · exact zero_fin
    · exact (hrow r h1).fin c (by omega)
  have hDp : ∀ r c, r < a.nr → c < a.nr → Proper (D.get r c) := by
    intro r c h1 h2
    simp only [hD, cleanLower]
    split_ifs with hrc
    · exact proper_fin_zero _
    · exact (hrow r h1).proper c (by omega)
  have hdlo : ∀ r : Fin a.nr, √g * √(a.get r r).rv ≤ (D.get r r).rv := fun r => by
    rw [← hsame r r le_rfl]; exact (hrow r r.2).lo
  have hdhi : ∀ r : Fin a.nr, (D.get r r).rv ≤ 2 * √(a.get r r).rv := fun r => by
    rw [← hsame r r le_rfl]; exact (hrow r r.2).hi
  have hng : 4 * a.nr * g ≤ 1 := by
    rcases Nat.eq_zero_or_pos a.nr with h0 | h0
    · rw [h0]; norm_num
    · have := cond_le_one h0 (fun i => hpos i i.2) hcond'
      nlinarith
  have hNC : NearChol (toMat a.nr a.nr (vals D)) (toMat a.nr a.nr (vals a)) (8 * (a.nr + 1) * g) (4 * g) g := by
    refine ⟨fun i j hij => ?_, fun i => ?_, fun i => hpos i i.2, fun i j => rows_mul hr.nr hs hrow i j, hcond', by linarith,
      by linarith, hg0, hng, by nlinarith⟩
    · rw [toMat_apply]
      simp only [vals, hD, cleanLower]
      have : (i : Nat) < j := hij
      rw [if_pos (by omega)]
      simp [rv, val]
    · exact ((mul_pos (Real.sqrt_pos.2 hg0) (Real.sqrt_pos.2 (hpos i i.2))).trans_le (hdlo i)).ne'
  have hu0 : 0 < u := by positivity
  have hnug : ((a.nr + 2 : Nat) : ℝ) * u ≤ g := le_gam hu0.le C.nu
  -- the range
  have hH : (1 : ℝ) ≤ 2 ^ t := one_le_pow₀ (by norm_num)
  have hH2 : (2 : ℝ) ^ (2 * (t : ℤ)) = (2 ^ t) ^ 2 := by
    rw [← zpow_natCast, ← zpow_natCast, ← _root_.zpow_mul]; congr 1; push_cast; ring
  have hsl : ∀ r : Fin a.nr, 1 ≤ 2 ^ t * √(a.get r r).rv := by
    intro r
    have h1 : (2 ^ t : ℝ)⁻¹ ≤ √(a.get r r).rv := by
      refine Real.le_sqrt_of_sq_le ?_
      rw [inv_pow, ← hH2, ← _root_.zpow_neg]
      exact hlo r r.2
    have := mul_le_mul_of_nonneg_left h1 (by positivity : (0 : ℝ) ≤ 2 ^ t)
    rwa [mul_inv_cancel₀ (by positivity)] at this
  have hsh : ∀ r : Fin a.nr, √(a.get r r).rv ≤ 2 ^ t := by
    intro r
    refine Real.sqrt_le_iff.2 ⟨by positivity, ?_⟩
    rw [← hH2]
    exact hhi r r.2
  have hτ1 : (2 : ℝ) ^ (F.emin + F.mant + 5) ≤ 1 := zpow_le_one_of_nonpos₀ (by norm_num) (by omega)
  have hΩ : 256 * ((2 ^ t : ℝ) ^ 3 * (2 ^ t) ^ 2) / g ^ 2 ≤ 2 ^ (F.emax - 1) := by
    have hgu : (2 : ℝ) ^ (-(F.mant : ℤ)) ≤ g := by
      refine le_trans ?_ hnug
      have e2 : (2 : ℝ) ^ (-(F.mant : ℤ)) = 2 * u := by
        rw [hu, ← zpow_one_add₀ (by norm_num)]; congr 1; ring
      rw [e2]
      push_cast
      nlinarith
    rw [div_le_iff₀ (by positivity)]
    have e3 : ((2 : ℝ) ^ (-(F.mant : ℤ))) ^ 2 ≤ g ^ 2 := pow_le_pow_left₀ (by positivity) hgu 2
    refine le_trans ?_ (mul_le_mul_of_nonneg_left e3 (by positivity))
    have e4 : 256 * ((2 ^ t : ℝ) ^ 3 * (2 ^ t) ^ 2) = 2 ^ (8 + 5 * (t : ℤ)) := by
      rw [zpow_add₀ (by norm_num), _root_.zpow_mul, ← pow_add, ← pow_mul, mul_comm t]
      norm_num
      rw [pow_mul, ← zpow_natCast]
      norm_num
    have e5 : (2 : ℝ) ^ (F.emax - 1) * ((2 : ℝ) ^ (-(F.mant : ℤ))) ^ 2 = 2 ^ (F.emax - 1 - 2 * F.mant) := by
      rw [sq, ← zpow_add₀ (by norm_num), ← zpow_add₀ (by norm_num)]; congr 1; ring
    rw [e4, e5]
    exact zpow_le_zpow_right₀ (by norm_num) (by omega)
  have key : ∀ c, c < m → ∀ r, r < a.nr →
      IsFin ((elimOrder .upper a.nr).foldl (elimStep D.t (fun i => D.get i i) (elimRows .upper) a.nr)
        (fun r => (elimOrder .lower a.nr).foldl (elimStep D (fun i => D.get i i) (elimRows .lower) a.nr) (fun r => b.get r c) r) r) := by
    intro c hc r hr
    refine chol_solve_isFin C (H := 2 ^ t) (β := (2 ^ t) ^ 2) hNC hDf hDp hdlo hdhi hH (by nlinarith) hτ1 hsl hsh hΩ
      (fun r => b.get r c) (fun r hr => (hbf r c hr hc).1) (fun r hr => (hbf r c hr hc).2.1) (fun r => ?_) r hr
    refine ((hbf r c r.2 hc).2.2).trans ?_
    have := mul_le_mul_of_nonneg_left (hsl r) (by positivity : (0 : ℝ) ≤ 2 ^ t)
    calc (2 : ℝ) ^ t ≤ 2 ^ t * (2 ^ t * √(a.get r r).rv) := by linarith
      _ = (2 ^ t) ^ 2 * √(toMat a.nr a.nr (vals a) r r) := by rw [toMat_apply]; simp only [vals]; ring
  have e1 : ∀ y, solveTriangular d y .lower = solveTriangular D y .lower := fun y =>
    C04_other_triangle_unused d D y .lower rfl rfl (fun i j _ _ hij => hsame i j hij)
  have e2 : ∀ y, solveTriangular d.t y .upper = solveTriangular D.t y .upper := fun y =>
    C04_other_triangle_unused d.t D.t y .upper rfl rfl (fun i j _ _ hij => hsame j i hij)
  have hy := solveTriangular_eq D b .lower (by rw [sl.1, sl.2]) (by rw [hb.1, sl.1])
  set y : Arr2 (Flt { Rounding.ieee F with plans := P }) := ⟨b.nr, b.nc, fun r c => if c < b.nc then
      (elimOrder .lower D.nr).foldl (elimStep D (fun i => D.get i i) (elimRows .lower) D.nr)
        (fun r => b.get r c) r else b.get r c⟩ with hydef
  have hx := solveTriangular_eq D.t y .upper (by show D.nc = D.nr; rw [sl.1, sl.2]) (by show b.nr = D.nc; rw [hb.1, sl.2])
  set x : Arr2 (Flt { Rounding.ieee F with plans := P }) := ⟨y.nr, y.nc, fun r c => if c < y.nc then
      (elimOrder .upper D.t.nr).foldl (elimStep D.t (fun i => D.t.get i i) (elimRows .upper) D.t.nr)
        (fun r => y.get r c) r else y.get r c⟩ with hxdef
  have hsol : solvec a b = .ok x := by
    unfold solvec
    rw [hdd]
    simp only [ok_bind, e1, e2, hy]
    exact hx
  have hxf : ∀ r c, r < a.nr → c < m → IsFin (x.get r c) := by
    intro r c hr hc
    have := key c hc r hr
    have e3 : D.t.nr = a.nr := sl.2
    have e4 : D.nr = a.nr := sl.1
    simp only [hxdef, e3, hb.2, hc, if_true, hydef, e4]
    exact this
  refine ⟨x, hsol, ⟨hb.1, hb.2⟩, hxf, fun j => ?_⟩
  have h3n : ((3 * a.nr + 2 : Nat) : ℝ) * u < 1 := by push_cast at hnug ⊢; nlinarith
  obtain ⟨E, f, hE, hf, hEf⟩ := C97_backward_error C.acc a b x D ⟨rfl, ha2⟩ hb (fun r c hr hc => (hbf r c hr hc).2.1) hs
    h3n hd (fun r hr => hDf r r hr hr) hsol j (fun i hi => hxf i j hi j.2)
  refine ⟨E, f, fun r c => (hE r c).trans ?_, fun r => (hf r).trans ?_, hEf⟩
  · have hQ := le_gam hu0.le h3n
    set Q := gam u (3 * a.nr + 2) with hQd
    have hc := hNC.absMat_mul r c
    simp only [toMat_apply, vals] at hc ⊢
    rw [Real.sqrt_mul (hpos r r.2).le]
    have hr1 := hsl r
    have hc1 := hsl c
    have hk := hdhi (min r c)
    have hk0 := (Real.sqrt_nonneg _ |> mul_nonneg (Real.sqrt_nonneg g)).trans (hdlo (min r c))
    have hm : √(a.get (min r c : Fin a.nr) (min r c : Fin a.nr)).rv ≤ 2 ^ t * (√(a.get r r).rv * √(a.get c c).rv) := by
      have hr0 := Real.sqrt_nonneg (a.get r r).rv
      have hc0 := Real.sqrt_nonneg (a.get c c).rv
      rcases min_choice r c with e | e <;> rw [e] <;> nlinarith
    have hηu : 32 * η * (2 ^ t) ^ 2 ≤ u := by
      rw [← hH2, hη, hu, show (32 : ℝ) = 2 ^ (5 : ℤ) by norm_num, ← zpow_add₀ (by norm_num), ← zpow_add₀ (by norm_num)]
      exact zpow_le_zpow_right₀ (by norm_num) (by omega)
    have hS1 : 1 ≤ (2 ^ t) ^ 2 * (√(a.get r r).rv * √(a.get c c).rv) := by nlinarith
    have hS0 : 0 ≤ √(a.get r r).rv * √(a.get c c).rv := by positivity
    have hη0 : 0 ≤ η := C.acc.η_nonneg
    generalize √(a.get r r).rv * √(a.get c c).rv = S at *
    generalize (2 : ℝ) ^ t = H at *
    have hQ0 : 0 ≤ Q := le_trans (by positivity) hQ
    have q1 : Q * (absMat (toMat a.nr a.nr (vals D)) * (absMat (toMat a.nr a.nr (vals D))).transpose) r c ≤
        Q * ((1 + 4 * g) * S) := mul_le_mul_of_nonneg_left hc hQ0
    have q2 : Q * ((1 + 4 * g) * S) ≤ Q * (3 / 2 * S) := by
      refine mul_le_mul_of_nonneg_left (mul_le_mul_of_nonneg_right (by linarith) hS0) hQ0
    have q3 : 2 * (a.nr : ℝ) + 2 * (D.get (min r c : Fin a.nr) (min r c : Fin a.nr)).rv ≤ (2 * a.nr + 4) * (H ^ 2 * S) := by
      have z1 : (a.nr : ℝ) * 1 ≤ a.nr * (H ^ 2 * S) := mul_le_mul_of_nonneg_left hS1 hn0
      have z2 : H * S ≤ H ^ 2 * S := mul_le_mul_of_nonneg_right (by nlinarith) hS0
      linarith
    have q4 : (1 + g) * (2 * (a.nr : ℝ) + 2 * (D.get (min r c : Fin a.nr) (min r c : Fin a.nr)).rv) * η ≤
        2 * ((2 * a.nr + 4) * (H ^ 2 * S)) * η :=
      mul_le_mul_of_nonneg_right (mul_le_mul (by linarith) q3 (by positivity) (by norm_num)) hη0
    have q5 : 2 * ((2 * a.nr + 4) * (H ^ 2 * S)) * η ≤ 1 / 2 * (Q * S) := by
      have z3 : (4 * a.nr + 8) * S * (32 * η * H ^ 2) ≤ (4 * a.nr + 8) * S * u := mul_le_mul_of_nonneg_left hηu (by positivity)
      have z4 : ((3 * a.nr + 2 : Nat) : ℝ) * u * S ≤ Q * S := mul_le_mul_of_nonneg_right hQ hS0
      have z5 : 0 ≤ a.nr * S * u := by positivity
      have z6 : 0 ≤ S * u := by positivity
      push_cast at z4
      linarith
    calc _ ≤ Q * (3 / 2 * S) + 1 / 2 * (Q * S) := add_le_add (q1.trans q2) (q4.trans q5)
      _ = _ := by ring
  · have hgn : gam u a.nr ≤ 1 / 100 := (gam_mono hu0.le (by omega) C.nu).trans (C.gam.trans hg1)
    have hgn0 : 0 ≤ gam u a.nr := gam_nonneg hu0.le (lt_of_le_of_lt (mul_le_mul_of_nonneg_right (by norm_num) hu0.le) C.nu)
    have hη0 : 0 ≤ η := C.acc.η_nonneg
    have hLk : ∀ k : Fin a.nr, |toMat a.nr a.nr (vals D) r k| ≤ 2 * 2 ^ t := by
      intro k
      have h1 := hNC.absMat_mul r r
      have h0 : 0 ≤ toMat a.nr a.nr (vals a) r r := (hpos r r.2).le
      rw [Matrix.mul_apply, Real.mul_self_sqrt h0] at h1
      have h2 : |toMat a.nr a.nr (vals D) r k| * |toMat a.nr a.nr (vals D) r k| ≤
          ∑ k, absMat (toMat a.nr a.nr (vals D)) r k * (absMat (toMat a.nr a.nr (vals D))).transpose k r :=
        Finset.single_le_sum (f := fun k => absMat (toMat a.nr a.nr (vals D)) r k *
          (absMat (toMat a.nr a.nr (vals D))).transpose k r) (fun k _ => mul_self_nonneg |toMat a.nr a.nr (vals D) r k|)
          (Finset.mem_univ k)
      have h3 := hhi r r.2
      rw [hH2] at h3
      have h4 : toMat a.nr a.nr (vals a) r r ≤ (2 ^ t) ^ 2 := h3
      have h5 : 0 < toMat a.nr a.nr (vals a) r r := hpos r r.2
      refine abs_le_of_sq_le_sq' ?_ (by positivity) |>.2
      nlinarith
    have hdk : ∀ k : Fin a.nr, 2 * (a.nr : ℝ) + toMat a.nr a.nr (vals D) k k ≤ 2 * a.nr + 2 * 2 ^ t := by
      intro k
      have h1 : toMat a.nr a.nr (vals D) k k ≤ 2 * √(a.get k k).rv := hdhi k
      linarith [hsh k]
    have hdk0 : ∀ k : Fin a.nr, 0 ≤ 2 * (a.nr : ℝ) + toMat a.nr a.nr (vals D) k k := by
      intro k
      have h1 : √g * √(a.get k k).rv ≤ toMat a.nr a.nr (vals D) k k := hdlo k
      have : 0 ≤ √g * √(a.get k k).rv := by positivity
      linarith
    have hsum : ∑ k, |toMat a.nr a.nr (vals D) r k| * (2 * (a.nr : ℝ) + toMat a.nr a.nr (vals D) k k) ≤
        a.nr * (2 * 2 ^ t * (2 * a.nr + 2 * 2 ^ t)) := by
      refine (Finset.sum_le_sum fun k _ => mul_le_mul (hLk k) (hdk k) (hdk0 k) (by positivity)).trans (le_of_eq ?_)
      rw [Finset.sum_const, Finset.card_univ, Fintype.card_fin, nsmul_eq_mul]
    have q1 : (1 + gam u a.nr) * (2 * (a.nr : ℝ) + toMat a.nr a.nr (vals D) r r) * η ≤ 2 * (2 * a.nr + 2 * 2 ^ t) * η :=
      mul_le_mul_of_nonneg_right (mul_le_mul (by linarith) (hdk r) (hdk0 r) (by norm_num)) hη0
    have q2 : (1 + gam u a.nr) ^ 2 * (∑ k, |toMat a.nr a.nr (vals D) r k| * (2 * (a.nr : ℝ) + toMat a.nr a.nr (vals D) k k)) * η ≤
        2 * (a.nr * (2 * 2 ^ t * (2 * a.nr + 2 * 2 ^ t))) * η :=
      mul_le_mul_of_nonneg_right (mul_le_mul (by nlinarith) hsum
        (Finset.sum_nonneg fun k _ => mul_nonneg (abs_nonneg _) (hdk0 k)) (by norm_num)) hη0
    calc _ ≤ _ := add_le_add q1 q2
      _ = _ := by ring

theorem flt_one_rv {R : Rounding} : (1 : Flt R).rv = 1 := by
  show (Flt.fin false 1 : Flt R).rv = 1
  simp [rv, val, sgn]

theorem flt_one_proper {R : Rounding} : Proper (1 : Flt R) := by
  show Proper (Flt.fin false 1 : Flt R)
  simp [Proper]

/-- C141 for `invc`: the inverse is finite, and its columns solve nearby systems. -/
theorem C141_invc {F : Format} (hF : F.Wide) (P : DotPlans) {n : Nat} (hn : n + 2 ≤ 2 ^ (F.mant - 6)) (t : ℕ)
    (ht : 5 * (t : ℤ) + 2 * F.mant + 9 ≤ F.emax) (ht' : F.emin + F.mant + 5 ≤ -(2 * (t : ℤ)))
    (a : Arr2 (Flt { Rounding.ieee F with plans := P })) (ha : HasShape a n n)
    (hfin : ∀ r c, r < n → c ≤ r → IsFin (a.get r c)) (hs : (toMat n n (vals a)).IsSymm)
    (hlo : ∀ i, i < n → 2 ^ (-(2 * (t : ℤ))) ≤ (a.get i i).rv) (hhi : ∀ i, i < n → (a.get i i).rv ≤ 2 ^ (2 * (t : ℤ)))
    (hcond : ∀ x : Fin n → ℝ, 8 * (n + 1) * gam (2 ^ (-(F.mant : ℤ) - 1)) (n + 2) * ∑ i : Fin n, (a.get i i).rv * x i ^ 2 ≤
      x ⬝ᵥ toMat n n (vals a) *ᵥ x) :
    ∃ x, invc a = .ok x ∧ HasShape x n n ∧ (∀ r c, r < n → c < n → IsFin (x.get r c)) ∧
      ∀ j : Fin n, ∃ (E : Matrix (Fin n) (Fin n) ℝ) (f : Fin n → ℝ),
        (∀ r c, |E r c| ≤ 2 * gam (2 ^ (-(F.mant : ℤ) - 1)) (3 * n + 2) * √((a.get r r).rv * (a.get c c).rv)) ∧
        (∀ r, |f r| ≤ (2 * n + 2 * 2 ^ t) * (2 + 4 * n * 2 ^ t) * 2 ^ (F.emin - 1)) ∧
        (toMat n n (vals a) + E).mulVec (fun r : Fin n => (x.get r j).rv) = fun r => (1 : Matrix (Fin n) (Fin n) ℝ) r j + f r := by
  have hH : (1 : ℝ) ≤ 2 ^ t := one_le_pow₀ (by norm_num)
  obtain ⟨x, h1, h2, h3, h4⟩ := C141_finite hF P hn t ht ht' a (Arr2.eye n n) ha ⟨rfl, rfl⟩ hfin hs hlo hhi hcond (by
    intro r c _ _
    simp only [Arr2.eye]
    split_ifs
    · exact ⟨⟨_, _, rfl⟩, flt_one_proper, by rw [flt_one_rv, abs_one]; exact hH⟩
    · exact ⟨zero_fin, proper_fin_zero _, by rw [zero_rv, abs_zero]; linarith⟩)
  refine ⟨x, by unfold invc; rw [ha.1]; exact h1, h2, h3, fun j => ?_⟩
  obtain ⟨E, f, hE, hf, e⟩ := h4 j
  refine ⟨E, f, hE, hf, e.trans (funext fun r => ?_)⟩
  congr 1
  simp only [Arr2.eye, Matrix.one_apply, Fin.ext_iff]
  split_ifs
  · exact flt_one_rv
  · exact zero_rv

/-- C141 in double precision: up to `2^46 - 2` rows, diagonal between `2^(-360)` and `2^360`, right-hand sides up to
`2^180`. -/
theorem C141_double (P : DotPlans) {n m : Nat} (hn : n + 2 ≤ 2 ^ 46)
    (a b : Arr2 (Flt { Rounding.ieee .double with plans := P })) (ha : HasShape a n n) (hb : HasShape b n m)
    (hfin : ∀ r c, r < n → c ≤ r → IsFin (a.get r c)) (hs : (toMat n n (vals a)).IsSymm)
    (hlo : ∀ i, i < n → 2 ^ (-360 : ℤ) ≤ (a.get i i).rv) (hhi : ∀ i, i < n → (a.get i i).rv ≤ 2 ^ (360 : ℤ))
    (hcond : ∀ x : Fin n → ℝ, 8 * (n + 1) * gam (2 ^ (-53 : ℤ)) (n + 2) * ∑ i : Fin n, (a.get i i).rv * x i ^ 2 ≤
      x ⬝ᵥ toMat n n (vals a) *ᵥ x)
    (hbf : ∀ r c, r < n → c < m → IsFin (b.get r c) ∧ Proper (b.get r c) ∧ |(b.get r c).rv| ≤ 2 ^ 180) :
    ∃ x, solvec a b = .ok x ∧ HasShape x n m ∧ ∀ r c, r < n → c < m → IsFin (x.get r c) := by
  obtain ⟨x, h1, h2, h3, -⟩ := C141_finite Format.double_wide P hn 180 (by norm_num [Format.double]) (by norm_num [Format.double])
    a b ha hb hfin hs hlo hhi hcond hbf
  exact ⟨x, h1, h2, h3⟩

/-- C141 in single precision: up to `2^17 - 2` rows, diagonal between `2^(-28)` and `2^28`, right-hand sides up to `2^14`. -/
theorem C141_single (P : DotPlans) {n m : Nat} (hn : n + 2 ≤ 2 ^ 17)
    (a b : Arr2 (Flt { Rounding.ieee .single with plans := P })) (ha : HasShape a n n) (hb : HasShape b n m)
    (hfin : ∀ r c, r < n → c ≤ r → IsFin (a.get r c)) (hs : (toMat n n (vals a)).IsSymm)
    (hlo : ∀ i, i < n → 2 ^ (-28 : ℤ) ≤ (a.get i i).rv) (hhi : ∀ i, i < n → (a.get i i).rv ≤ 2 ^ (28 : ℤ))
    (hcond : ∀ x : Fin n → ℝ, 8 * (n + 1) * gam (2 ^ (-24 : ℤ)) (n + 2) * ∑ i : Fin n, (a.get i i).rv * x i ^ 2 ≤
      x ⬝ᵥ toMat n n (vals a) *ᵥ x)
    (hbf : ∀ r c, r < n → c < m → IsFin (b.get r c) ∧ Proper (b.get r c) ∧ |(b.get r c).rv| ≤ 2 ^ 14) :
    ∃ x, solvec a b = .ok x ∧ HasShape x n m ∧ ∀ r c, r < n → c < m → IsFin (x.get r c) := by
  obtain ⟨x, h1, h2, h3, -⟩ := C141_finite Format.single_wide P hn 14 (by norm_num [Format.single]) (by norm_num [Format.single])
    a b ha hb hfin hs hlo hhi hcond hbf
  exact ⟨x, h1, h2, h3⟩

/-- The matrix `[[4, 2], [2, 5]]` and the right-hand side `(3, -7)`. -/
noncomputable def exSolveA {R : Rounding} : Arr2 (Flt R) :=
  ⟨2, 2, fun i j => if i = j then (if i = 0 then .fin false 4 else .fin false 5) else .fin false 2⟩

noncomputable def exSolveB {R : Rounding} : Arr2 (Flt R) := ⟨2, 1, fun i _ => if i = 0 then .fin false 3 else .fin true 7⟩

/-- The hypotheses of C141 are met by them in both precisions. -/
theorem exSolve_ok (P : DotPlans) : ∃ x, solvec (exSolveA : Arr2 (Flt { Rounding.ieee .single with plans := P })) exSolveB = .ok x ∧
    HasShape x 2 1 ∧ ∀ r c, r < 2 → c < 1 → IsFin (x.get r c) := by
  refine C141_single P (n := 2) (m := 1) (by norm_num) (exSolveA : Arr2 (Flt { Rounding.ieee .single with plans := P }))
    exSolveB ⟨rfl, rfl⟩ ⟨rfl, rfl⟩ ?_ ?_ ?_ ?_ ?_ ?_
  · intro r c hr hc
    simp only [exSolveA]
    split_ifs <;> exact ⟨_, _, rfl⟩
  · ext i j
    fin_cases i <;> fin_cases j <;> simp [exSolveA, vals]
  · intro i hi
    interval_cases i <;> simp only [exSolveA, rv, val, sgn] <;> norm_num
  · intro i hi
    interval_cases i <;> simp only [exSolveA, rv, val, sgn] <;> norm_num
  · intro x
    have hg : 8 * (((2 : Nat) : ℝ) + 1) * gam (2 ^ (-24 : ℤ)) (2 + 2) ≤ 1 / 2 := by norm_num [gam]
    have hsum : ∑ i : Fin 2, ((exSolveA : Arr2 (Flt { Rounding.ieee .single with plans := P })).get i i).rv * x i ^ 2 =
        4 * x 0 ^ 2 + 5 * x 1 ^ 2 := by
      rw [Fin.sum_univ_two]
      simp [exSolveA, rv, val, sgn]
    have hform : x ⬝ᵥ toMat 2 2 (vals (exSolveA : Arr2 (Flt { Rounding.ieee .single with plans := P }))) *ᵥ x =
        4 * x 0 ^ 2 + 4 * x 0 * x 1 + 5 * x 1 ^ 2 := by
      simp [dotProduct, mulVec, Fin.sum_univ_two, exSolveA, vals, rv, val, sgn]
      ring
    rw [hsum, hform]
    have h1 : 0 ≤ 4 * x 0 ^ 2 + 5 * x 1 ^ 2 := by positivity
    refine (mul_le_mul_of_nonneg_right hg h1).trans ?_
    nlinarith [sq_nonneg (x 0 + x 1), sq_nonneg (x 1)]
  · intro r c hr hc
    interval_cases r <;> simp only [exSolveB, if_true, one_ne_zero, if_false] <;> refine ⟨⟨_, _, rfl⟩, ?_, ?_⟩ <;>
      simp [Proper, rv, val, sgn] <;> norm_num

end LinfaLinalg
