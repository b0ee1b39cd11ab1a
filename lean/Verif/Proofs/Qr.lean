import Verif.Model.Qr
import Verif.Proofs.HouseholderReal
import Verif.Proofs.TriangularReal

/-! # QR decomposition -/

set_option linter.unusedSectionVars false

namespace LinfaLinalg

open Matrix

section generic
variable {α : Type} [Zero α] [One α] [Add α] [Sub α] [Mul α] [Div α] [Neg α] [NdFloat α]

/-- The shapes inside a QR decomposition of an `m × n` matrix. -/
structure QRShape (m n : Nat) (q : QRDecomp α) : Prop where
  nr : q.qr.nr = m
  nc : q.qr.nc = n
  len : q.diag.len = n

theorem qrInto_ok (a : Arr2 α) (h : a.nc ≤ a.nr) :
    ∃ q, qrInto a = .ok q ∧ QRShape a.nr a.nc q := by
  have hw : Succeeds (forRange 0 a.nc (a, (Arr1.zeros a.nc : Arr1 α)) fun i (a, diag) => do
      let (a, d) ← clearColumn a i 0
      let diag ← diag.idxSet i d
      .ok (a, diag))
      (fun p : Arr2 α × Arr1 α => p.1.nr = a.nr ∧ p.1.nc = a.nc ∧ p.2.len = a.nc) := by
    refine wp_forRange (fun _ (p : Arr2 α × Arr1 α) => p.1.nr = a.nr ∧ p.1.nc = a.nc ∧
      p.2.len = a.nc) (Nat.zero_le _) ⟨rfl, rfl, rfl⟩ ?_
    rintro i ⟨b, diag⟩ _ hi ⟨h1, h2, h3⟩
    simp only at h1 h2 h3
    obtain ⟨c, d, hc, h4, h5⟩ := clearColumn_ok b i 0 (by omega) (by omega)
    simp only [hc, ok_bind]
    rw [Arr1.idxSet_ok (by omega)]
    exact ⟨h4.trans h1, h5.trans h2, h3⟩
  obtain ⟨p, hp, h1, h2, h3⟩ := succeeds_iff.1 hw
  refine ⟨⟨p.1, p.2⟩, ?_, ⟨h1, h2, h3⟩⟩
  unfold qrInto
  rw [if_neg (by omega), hp]
  rfl

theorem QRShape.generateQ_ok {m n : Nat} {q : QRDecomp α} (h : QRShape m n q) (hnm : n ≤ m) :
    ∃ r, q.generateQ = .ok r ∧ r.nr = m ∧ r.nc = n := by
  obtain ⟨r, h1, h2, h3⟩ := assembleQ_ok q.qr 0 (fun i => q.diag.idx i) (Nat.zero_le _)
    (fun i hi => ⟨_, Arr1.idx_ok (by rw [h.len]; rw [h.nr, h.nc] at hi; omega)⟩)
  exact ⟨r, h1, h2.trans h.nr, by rw [h3, h.nr, h.nc]; omega⟩

theorem QRShape.intoR_eq {m n : Nat} {q : QRDecomp α} (h : QRShape m n q) (hnm : n ≤ m) :
    q.intoR = .ok ⟨n, n, fun i j => if i = j ∧ i < n then NdFloat.abs (q.diag.get i)
      else if i < n ∧ j < i then 0 else q.qr.get i j⟩ := by
  unfold QRDecomp.intoR
  simp only
  rw [Arr2.slice_ok (Nat.zero_le _) (by rw [h.nr, h.nc]; exact hnm) (Nat.zero_le _) le_rfl]
  simp only [ok_bind]
  rw [triangularInplace_upper _ (by simp)]
  simp only [unwrapM, ok_bind, Arr2.assignDiag, Nat.sub_zero, h.nc, min_self, Arr1.map, h.len,
    if_true, Nat.zero_add]

theorem QRShape.qtMul_ok {m n : Nat} {q : QRDecomp α} (h : QRShape m n q) (hnm : n ≤ m)
    (b : Arr2 α) (hb : b.nr = m) : ∃ c, q.qtMul b = .ok c ∧ c.nr = m ∧ c.nc = b.nc := by
  unfold QRDecomp.qtMul
  refine succeeds_iff.1 (wp_forRange (fun _ (c : Arr2 α) => c.nr = m ∧ c.nc = b.nc)
    (Nat.zero_le _) ⟨hb, rfl⟩ ?_)
  rintro i c _ hi ⟨h1, h2⟩
  rw [h.nc] at hi
  rw [Arr2.colSlice_ok (by rw [h.nr]; omega) le_rfl (by rw [h.nc]; omega)]
  simp only [ok_bind]
  rw [Arr2.slice_ok (by omega) le_rfl (by omega) le_rfl]
  simp only [ok_bind]
  rw [reflectCols_eq _ _ _ (by simp [h1, h.nr]), Arr1.idx_ok (by rw [h.len]; exact hi)]
  exact ⟨h1, h2⟩

theorem QRShape.absDiag_ok {m n : Nat} {q : QRDecomp α} (h : QRShape m n q) (i : Nat)
    (hi : i < n) : q.absDiag i = .ok (NdFloat.abs (q.diag.get i)) := by
  unfold QRDecomp.absDiag
  rw [Arr1.at_ok (by rw [h.len]; exact hi)]
  rfl

theorem QRShape.solveInto_cases {m n : Nat} {q : QRDecomp α} (h : QRShape m n q) (hnm : n ≤ m)
    (b : Arr2 α) :
    (b.nr ≠ m → q.solveInto b = .error (.err (.wrongRows m b.nr))) ∧
    (b.nr = m → q.isInvertible = false → q.solveInto b = .error (.err .nonInvertible)) ∧
    (b.nr = m → q.isInvertible = true → ∃ c x, q.qtMul b = .ok c ∧ c.nr = m ∧ c.nc = b.nc ∧
      solveTriangularSystem ⟨n, n, q.qr.get⟩ ⟨n, b.nc, c.get⟩ .upper q.absDiag = .ok x ∧
      q.solveInto b = .ok x ∧ x.nr = n ∧ x.nc = b.nc) := by
  refine ⟨?_, ?_, ?_⟩
  · intro hb
    unfold QRDecomp.solveInto
    rw [if_pos (by rw [h.nr]; exact fun h => hb h.symm), h.nr]; rfl
  · intro hb hi
    unfold QRDecomp.solveInto
    rw [if_neg (by rw [h.nr]; simpa using hb.symm), hi]; rfl
  · intro hb hi
    obtain ⟨c, hc, h1, h2⟩ := h.qtMul_ok hnm b hb
    have hx := solveTriangularSystem_eq ⟨n, n, q.qr.get⟩ ⟨n, b.nc, c.get⟩ .upper q.absDiag _ rfl rfl
      (fun i hi => h.absDiag_ok i hi)
    refine ⟨c, _, hc, h1, h2, hx, ?_, rfl, rfl⟩
    unfold QRDecomp.solveInto
    rw [if_neg (by rw [h.nr]; simpa using hb.symm), hi, hc]
    simp only [Bool.not_true, Bool.false_eq_true, if_false, ok_bind]
    rw [Arr2.slice_ok (Nat.zero_le _) (by rw [h.nc, h1]; exact hnm) (Nat.zero_le _) le_rfl]
    simp only [ok_bind]
    rw [Arr2.slice_ok (Nat.zero_le _) (by rw [h.nc, h.nr]; exact hnm) (Nat.zero_le _) le_rfl]
    simp only [ok_bind, Nat.sub_zero, Nat.zero_add, h.nc, h2]
    exact hx

theorem QRShape.solveTrInto_cases {m n : Nat} {q : QRDecomp α} (h : QRShape m n q) (hnm : n ≤ m)
    (b : Arr2 α) :
    (b.nr ≠ n → q.solveTrInto b = .error (.err (.wrongRows n b.nr))) ∧
    (b.nr = n → q.isInvertible = false → q.solveTrInto b = .error (.err .nonInvertible)) ∧
    (b.nr = n → q.isInvertible = true → ∃ y r x,
      solveTriangularSystem ⟨n, n, fun i j => q.qr.get j i⟩ b .lower q.absDiag = .ok y ∧
      q.generateQ = .ok r ∧ r.nr = m ∧ r.nc = n ∧ r.dot y = .ok x ∧
      q.solveTrInto b = .ok x ∧ x.nr = m ∧ x.nc = b.nc) := by
  refine ⟨?_, ?_, ?_⟩
  · intro hb
    unfold QRDecomp.solveTrInto
    rw [if_pos (by rw [h.nc]; exact fun h => hb h.symm), h.nc]; rfl
  · intro hb hi
    unfold QRDecomp.solveTrInto
    rw [if_neg (by rw [h.nc]; simpa using hb.symm), hi]; rfl
  · intro hb hi
    have hy := solveTriangularSystem_eq ⟨n, n, fun i j => q.qr.get j i⟩ b .lower q.absDiag _ rfl hb
      (fun i hi => h.absDiag_ok i hi)
    obtain ⟨r, hr, h1, h2⟩ := h.generateQ_ok hnm
    refine ⟨_, r, _, hy, hr, h1, h2, Arr2.dot_ok (by rw [h2, hb]), ?_, h1, rfl⟩
    · unfold QRDecomp.solveTrInto
      rw [if_neg (by rw [h.nc]; simpa using hb.symm), hi]
      simp only [Bool.not_true, Bool.false_eq_true, if_false]
      rw [Arr2.slice_ok (Nat.zero_le _) (by rw [h.nc, h.nr]; exact hnm) (Nat.zero_le _) le_rfl]
      simp only [ok_bind, Arr2.t, Nat.sub_zero, Nat.zero_add, h.nc]
      rw [hy]
      simp only [ok_bind]
      rw [hr]
      simp only [ok_bind]
      rw [Arr2.dot_ok (by rw [h2, hb])]

end generic

/-! ## Over the reals -/

/-- `q` is a correct compact QR decomposition of `a`. -/
structure QROk (m n : Nat) (a : Arr2 ℝ) (q : QRDecomp ℝ) : Prop extends QRShape m n q where
  stored : ∀ k, k < n → StoredOk m q.qr 0 q.diag.get k
  eq : toMat m n a = prodP (storedP m q.qr 0 q.diag.get) n *
    (eyeMat m n * triMat n .upper q.qr fun i => |q.diag.get i|)

/-- The partially triangularized matrix after `i` steps. -/
noncomputable def qrPart (m n i : Nat) (a : Arr2 ℝ) (d : Nat → ℝ) : Matrix (Fin m) (Fin n) ℝ :=
  Matrix.of fun r c => if (c : Nat) < i then
    (if (r : Nat) < c then a.get r c else if (r : Nat) = c then |d c| else 0) else a.get r c

theorem storedOk_congr {m : Nat} {a a' : Arr2 ℝ} {shift k : Nat} {d d' : Nat → ℝ}
    (h : StoredOk m a shift d k) (ha : ∀ r, a'.get r k = a.get r k) (hd : d' k = d k) :
    StoredOk m a' shift d' k := by
  unfold StoredOk at *
  rw [hd]
  simpa only [ha] using h

theorem storedP_congr {m : Nat} {a a' : Arr2 ℝ} {shift k : Nat} {d d' : Nat → ℝ}
    (ha : ∀ r, a'.get r k = a.get r k) (hd : d' k = d k) :
    storedP m a' shift d' k = storedP m a shift d k := by
  unfold storedP
  rw [hd]
  simp only [ha]

theorem qrInto_real {m n : Nat} (a : Arr2 ℝ) (ha : HasShape a m n) (h : n ≤ m) :
    ∃ q, qrInto a = .ok q ∧ QROk m n a q := by
  have hw : Succeeds (forRange 0 n (a, (Arr1.zeros n : Arr1 ℝ)) fun i (a, diag) => do
      let (a, d) ← clearColumn a i 0
      let diag ← diag.idxSet i d
      .ok (a, diag))
      (fun p : Arr2 ℝ × Arr1 ℝ => (HasShape p.1 m n ∧ p.2.len = n) ∧
        (∀ k, k < n → StoredOk m p.1 0 p.2.get k) ∧
        toMat m n a = prodP (storedP m p.1 0 p.2.get) n * qrPart m n n p.1 p.2.get) := by
    refine wp_forRange (fun i (p : Arr2 ℝ × Arr1 ℝ) => (HasShape p.1 m n ∧ p.2.len = n) ∧
        (∀ k, k < i → StoredOk m p.1 0 p.2.get k) ∧
        toMat m n a = prodP (storedP m p.1 0 p.2.get) i * qrPart m n i p.1 p.2.get)
      (Nat.zero_le _) ⟨⟨ha, rfl⟩, by intro k hk; omega, ?_⟩ ?_
    · rw [prodP, Matrix.one_mul]
      ext r c
      simp [qrPart]
    · rintro i ⟨b, diag⟩ _ hi ⟨⟨hb, hl⟩, hst, heq⟩
      simp only at hb hl hst heq
      obtain ⟨c, d, hc, cs⟩ := clearColumn_real b i 0 (by rw [hb.2]; exact hi)
        (by rw [hb.1]; omega)
      simp only [hc, ok_bind]
      rw [Arr1.idxSet_ok (by omega)]
      simp only [ok_bind, wp_ok]
      rw [Nat.add_zero] at cs
      have hdi : (diag.upd i d).get i = d := by rw [Arr1.upd_get, if_pos rfl]
      have hdk : ∀ k, k < i → (diag.upd i d).get k = diag.get k := by
        intro k hk; rw [Arr1.upd_get, if_neg (by omega)]
      have hok := cs.ok
      rw [hb.1] at hok
      have hsti : StoredOk m c 0 (diag.upd i d).get i := by
        unfold StoredOk
        rw [hdi, Nat.add_zero]
        exact hok
      refine ⟨⟨⟨cs.nr.trans hb.1, cs.nc.trans hb.2⟩, hl⟩, ?_, ?_⟩
      · intro k hk
        by_cases hki : k = i
        · subst hki; exact hsti
        · exact storedOk_congr (hst k (by omega)) (fun r => cs.left r k (by omega))
            (hdk k (by omega))
      · rw [heq, prodP, prodP_congr fun k hk =>
          storedP_congr (fun r => cs.left r k hk) (hdk k hk), Matrix.mul_assoc]
        congr 1
        rw [← house_mul_cancel hsti (qrPart m n i b diag.get)]
        unfold storedP
        congr 1
        ext r j
        by_cases hj : (j : Nat) < i
        · rw [house_mul_of_disjoint hsti]
          · simp only [qrPart, Matrix.of_apply]
            rw [if_pos hj, if_pos (Nat.lt_succ_of_lt hj), cs.left r j hj, hdk j hj]
          · intro r' hr'
            simp only [qrPart, Matrix.of_apply]
            rw [if_pos hj, if_neg (by omega), if_neg (by omega)]
        · rw [house_mul_hApp _ (fun k => b.get k j) r j (by
            intro k
            simp only [qrPart, Matrix.of_apply]
            rw [if_neg hj])]
          rw [hdi, Nat.add_zero]
          simp only [qrPart, Matrix.of_apply]
          by_cases hji : (j : Nat) = i
          · have := cs.col r (by rw [hb.1]; exact r.2)
            rw [hb.1] at this
            rw [hji, this, if_pos (Nat.lt_succ_self i), hdi]
            by_cases h1 : (r : Nat) < i
            · rw [if_pos h1, if_pos h1, cs.top r i h1]
            · rw [if_neg h1, if_neg h1]
          · have := cs.right r j (by rw [hb.1]; exact r.2) (by omega) (by rw [hb.2]; exact j.2)
            rw [hb.1] at this
            rw [if_neg (by omega), this]
  obtain ⟨p, hp, ⟨h1, h2⟩, h3, h4⟩ := succeeds_iff.1 hw
  refine ⟨⟨p.1, p.2⟩, ?_, ⟨⟨h1.1, h1.2, h2⟩, h3, ?_⟩⟩
  · unfold qrInto
    rw [if_neg (by rw [ha.1, ha.2]; omega), ha.2, hp]
    rfl
  · rw [h4]
    congr 1
    ext r c
    rw [Matrix.mul_apply]
    simp only [qrPart, eyeMat, triMat, Matrix.of_apply, c.2, if_true, ite_mul, one_mul, zero_mul]
    by_cases hr : (r : Nat) < n
    · rw [Finset.sum_eq_single (⟨r, hr⟩ : Fin n)]
      · simp only [if_true, inTri_upper, Fin.ext_iff]
        by_cases h1 : (r : Nat) = c
        · rw [if_neg (by omega), if_pos h1, if_pos h1, h1]
        · rw [if_neg h1, if_neg h1]
          by_cases h2 : (r : Nat) < c
          · rw [if_pos h2, if_pos h2.le]
          · rw [if_neg h2, if_neg (by omega)]
      · intro b _ hb
        rw [if_neg (fun h => hb (Fin.ext h.symm))]
      · intro h; exact absurd (Finset.mem_univ _) h
    · rw [Finset.sum_eq_zero, if_neg (by omega), if_neg (by omega)]
      intro x _
      rw [if_neg (by omega)]

/-- The triangular factor. -/
noncomputable abbrev QRDecomp.rMat (n : Nat) (q : QRDecomp ℝ) : Matrix (Fin n) (Fin n) ℝ :=
  triMat n .upper q.qr fun i => |q.diag.get i|

theorem QROk.generateQ {m n : Nat} {a : Arr2 ℝ} {q : QRDecomp ℝ} (h : QROk m n a q)
    (hnm : n ≤ m) :
    ∃ Q, q.generateQ = .ok Q ∧ HasShape Q m n ∧ (toMat m n Q)ᵀ * toMat m n Q = 1 ∧
      toMat m n Q = prodP (storedP m q.qr 0 q.diag.get) n * eyeMat m n ∧
      toMat m n a = toMat m n Q * q.rMat n := by
  obtain ⟨Q, h1, h2, h3⟩ := assembleQ_real q.qr 0 (fun i => q.diag.idx i) q.diag.get
    (Nat.zero_le _)
    (fun i hi => Arr1.idx_ok (by rw [h.len]; rw [h.nr, h.nc] at hi; omega))
    (fun i hi => by rw [h.nr]; exact h.stored i (by rw [h.nr, h.nc] at hi; omega))
  rw [h.nr, h.nc, min_eq_right hnm] at h2
  have h3 : toMat m n Q = prodP (storedP m q.qr 0 q.diag.get) n * eyeMat m n := by
    have e : min q.qr.nr q.qr.nc = n := by rw [h.nr, h.nc]; exact min_eq_right hnm
    have er := h.nr
    generalize q.qr.nr = m' at *
    subst er
    generalize min m' q.qr.nc = n' at *
    subst e
    exact h3
  refine ⟨Q, h1, h2, ?_, h3, ?_⟩
  · rw [h3]; exact assembled_orth hnm h.stored
  · rw [h3, Matrix.mul_assoc]; exact h.eq

theorem QROk.qtMul {m n k : Nat} {a : Arr2 ℝ} {q : QRDecomp ℝ} (h : QROk m n a q)
    (hnm : n ≤ m) (b : Arr2 ℝ) (hb : HasShape b m k) :
    ∃ c, q.qtMul b = .ok c ∧ HasShape c m k ∧
      toMat m k c = (prodP (storedP m q.qr 0 q.diag.get) n)ᵀ * toMat m k b := by
  unfold QRDecomp.qtMul
  rw [h.nc]
  refine succeeds_iff.1 (wp_forRange (fun i (c : Arr2 ℝ) => HasShape c m k ∧
    toMat m k c = (prodP (storedP m q.qr 0 q.diag.get) i)ᵀ * toMat m k b)
    (Nat.zero_le _) ⟨hb, by simp [prodP]⟩ ?_)
  rintro i c _ hi ⟨hc, heq⟩
  rw [Arr2.colSlice_ok (by rw [h.nr]; omega) le_rfl (by rw [h.nc]; omega)]
  simp only [ok_bind]
  obtain ⟨rows, rows', e1, e2, e3, e4, e5⟩ := blockReflect_real
    (⟨q.qr.nr - i, fun r => q.qr.get (i + r) i⟩ : Arr1 ℝ) c i 0
    (NdFloat.signum (q.diag.get i)) (by rw [hc.1]; omega) (Nat.zero_le _) (by simp [hc.1, h.nr])
  rw [e1]
  simp only [ok_bind]
  rw [e2, Arr1.idx_ok (by rw [h.len]; exact hi)]
  simp only [ok_bind, wp_ok]
  refine ⟨⟨e3.trans hc.1, e4.trans hc.2⟩, ?_⟩
  have hP : (storedP m q.qr 0 q.diag.get i)ᵀ = storedP m q.qr 0 q.diag.get i :=
    house_symm (h.stored i hi)
  rw [prodP, Matrix.transpose_mul, Matrix.mul_assoc, ← heq, hP]
  ext r j
  rw [toMat_apply, e5 r j (by rw [hc.1]; exact r.2), if_pos ⟨Nat.zero_le _, by rw [hc.2]; exact j.2⟩,
    storedP, house_mul_hApp (toMat m k c) (fun l => c.get l j) r j (fun _ => rfl), hc.1]
  refine hApp_congr r.2 ?_
  intro r hr
  unfold shiftVec
  rw [Nat.add_zero]
  by_cases hir : i ≤ r
  · rw [if_pos hir, if_pos hir]
    show q.qr.get (i + (r - i)) i = _
    rw [show i + (r - i) = r by omega]
  · rw [if_neg hir, if_neg hir]

theorem QROk.isInvertible_iff {m n : Nat} {a : Arr2 ℝ} {q : QRDecomp ℝ} (h : QROk m n a q) :
    q.isInvertible = true ↔ ∀ i, i < n → q.diag.get i ≠ 0 := by
  simp [QRDecomp.isInvertible, Arr1.toList, h.len]

theorem orth_mulVec_injective {m n : Nat} {Q : Matrix (Fin m) (Fin n) ℝ} (h : Qᵀ * Q = 1) :
    Function.Injective Q.mulVec := by
  intro x y hxy
  have := congrArg Qᵀ.mulVec hxy
  simpa [Matrix.mulVec_mulVec, h] using this

theorem QROk.isInvertible_iff_rank {m n : Nat} {a : Arr2 ℝ} {q : QRDecomp ℝ} (h : QROk m n a q)
    (hnm : n ≤ m) : q.isInvertible = true ↔ LinearIndependent ℝ (toMat m n a).col := by
  obtain ⟨Q, -, -, hQ, -, hA⟩ := h.generateQ hnm
  rw [h.isInvertible_iff, ← Matrix.mulVec_injective_iff]
  have key : Function.Injective (toMat m n a).mulVec ↔ Function.Injective (q.rMat n).mulVec := by
    have : (toMat m n a).mulVec = (toMat m n Q).mulVec ∘ (q.rMat n).mulVec := by
      funext x; simp [hA, Matrix.mulVec_mulVec]
    rw [this]
    exact ⟨fun h => h.of_comp, fun h => (orth_mulVec_injective hQ).comp h⟩
  rw [key, Matrix.mulVec_injective_iff_isUnit, Matrix.isUnit_iff_isUnit_det, triMat_det,
    isUnit_iff_ne_zero, Finset.prod_ne_zero_iff]
  constructor
  · intro h i _; simpa using h i i.2
  · intro h i hi; simpa using h ⟨i, hi⟩ (Finset.mem_univ _)

theorem QROk.rMat_isUnit {m n : Nat} {a : Arr2 ℝ} {q : QRDecomp ℝ} (h : QROk m n a q)
    (hi : q.isInvertible = true) : IsUnit (q.rMat n) :=
  triMat_isUnit .upper fun i hin => by
    simpa using h.isInvertible_iff.1 hi i hin

theorem QROk.solveInto {m n k : Nat} {a : Arr2 ℝ} {q : QRDecomp ℝ} (h : QROk m n a q)
    (hnm : n ≤ m) (b : Arr2 ℝ) (hb : HasShape b m k) (hi : q.isInvertible = true) :
    ∃ Q x, q.generateQ = .ok Q ∧ q.solveInto b = .ok x ∧ HasShape x n k ∧
      q.rMat n * toMat n k x = (toMat m n Q)ᵀ * toMat m k b := by
  obtain ⟨Q, hQ, -, -, hQe, -⟩ := h.generateQ hnm
  obtain ⟨c, hc, sc, ec⟩ := h.qtMul hnm b hb
  obtain ⟨c', x, hc', -, -, hx, hsx, s1, s2⟩ := (h.toQRShape.solveInto_cases hnm b).2.2 hb.1 hi
  rw [hc] at hc'
  injection hc' with hc'
  subst hc'
  rw [hb.2] at hx s2
  refine ⟨Q, x, hQ, hsx, ⟨s1, s2⟩, ?_⟩
  obtain ⟨x', hx', -, e⟩ := solveTriangularSystem_correct (n := n) (m := k) ⟨n, n, q.qr.get⟩
    ⟨n, k, c.get⟩ .upper q.absDiag (fun i => |q.diag.get i|) ⟨rfl, rfl⟩ ⟨rfl, rfl⟩
    (fun i hin => h.toQRShape.absDiag_ok i hin)
    (fun i hin => by simpa using h.isInvertible_iff.1 hi i hin)
  rw [hx] at hx'
  injection hx' with hx'
  subst hx'
  have e' : q.rMat n * toMat n k x = toMat n k ⟨n, k, c.get⟩ := e
  rw [e', hQe, Matrix.transpose_mul, Matrix.mul_assoc, ← ec]
  ext i j
  rw [Matrix.mul_apply, Finset.sum_eq_single (⟨i, by omega⟩ : Fin m)]
  · simp [eyeMat]
  · intro r _ hr
    have : (r : Nat) ≠ i := fun h => hr (Fin.ext h)
    simp [eyeMat, this]
  · intro h; exact absurd (Finset.mem_univ _) h

theorem QROk.solveTrInto {m n k : Nat} {a : Arr2 ℝ} {q : QRDecomp ℝ} (h : QROk m n a q)
    (hnm : n ≤ m) (b : Arr2 ℝ) (hb : HasShape b n k) (hi : q.isInvertible = true) :
    ∃ Q x, q.generateQ = .ok Q ∧ q.solveTrInto b = .ok x ∧ HasShape x m k ∧
      ∃ Y : Matrix (Fin n) (Fin k) ℝ, (q.rMat n)ᵀ * Y = toMat n k b ∧
        toMat m k x = toMat m n Q * Y := by
  obtain ⟨y, Q, x, hy, hQ, r1, r2, hd, hx, s1, s2⟩ :=
    (h.toQRShape.solveTrInto_cases hnm b).2.2 hb.1 hi
  rw [hb.2] at s2
  refine ⟨Q, x, hQ, hx, ⟨s1, s2⟩, toMat n k y, ?_, ?_⟩
  · obtain ⟨y', hy', -, e⟩ := solveTriangularSystem_correct (n := n) (m := k)
      ⟨n, n, fun i j => q.qr.get j i⟩
      b .lower q.absDiag (fun i => |q.diag.get i|) ⟨rfl, rfl⟩ hb
      (fun i hin => h.toQRShape.absDiag_ok i hin)
      (fun i hin => by simpa using h.isInvertible_iff.1 hi i hin)
    rw [hy] at hy'
    injection hy' with hy'
    subst hy'
    rw [← e]
    congr 1
    ext i j
    simp only [Matrix.transpose_apply, triMat, Matrix.of_apply, inTri_upper, inTri_lower]
    by_cases hij : i = j
    · subst hij; rfl
    · have hji : ¬ j = i := fun h => hij h.symm
      rw [if_neg hij, if_neg hji]
  · have hny : y.nr = n := by
      have := hd
      unfold Arr2.dot at this
      split at this
      · rename_i h'; rw [← h', r2]
      · cases this
    rw [Arr2.dot_ok (by rw [r2, hny])] at hd
    injection hd with hd
    subst hd
    ext i j
    simp only [toMat_apply, Matrix.mul_apply, dotTo_eq, r2, Finset.sum_range]

end LinfaLinalg
