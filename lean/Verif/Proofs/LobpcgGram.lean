import Verif.Proofs.LobpcgEig
import Verif.Spec.Frob

/-! # The Gram matrices of `lobpcg`

One update step of `lobpcg` projects the operator to the span of a basis `S = [X R]` or `S = [X R P]`.
Here: the matrices built by the concatenations are `SᵀAS` and `SᵀS`, and the new iterate is `S` times
the matrix returned by `sorted_eig`. -/

set_option linter.unusedSectionVars false

namespace LinfaLinalg

open Matrix

/-- Two blocks of columns side by side. -/
def catCols (x r : Arr2 ℝ) (k b : Nat) : Arr2 ℝ :=
  ⟨x.nr, k + b, fun i j => if j < k then x.get i j else r.get i (j - k)⟩

/-- `B` is the matrix of inner products of the columns of `S` and of `T`. -/
def IsGram (n s : Nat) (B S T : Arr2 ℝ) : Prop :=
  HasShape B s s ∧ toMat s s B = (toMat n s S)ᵀ * toMat n s T

theorem isGram_get {n s : Nat} {B S T : Arr2 ℝ} (h : IsGram n s B S T) {i j : Nat} (hi : i < s) (hj : j < s) :
    B.get i j = ∑ t ∈ Finset.range n, S.get t i * T.get t j := by
  have := congrFun (congrFun h.2 ⟨i, hi⟩) ⟨j, hj⟩
  simp only [toMat_apply, Matrix.mul_apply, Matrix.transpose_apply] at this
  rw [this, Finset.sum_range]

theorem isGram_of_get {n s : Nat} {B S T : Arr2 ℝ} (h : HasShape B s s)
    (hg : ∀ i j, i < s → j < s → B.get i j = ∑ t ∈ Finset.range n, S.get t i * T.get t j) :
    IsGram n s B S T := by
  refine ⟨h, ?_⟩
  ext i j
  simp only [toMat_apply, Matrix.mul_apply, Matrix.transpose_apply]
  rw [hg i j i.2 j.2, Finset.sum_range]

theorem mat_get {n k b : Nat} {z x y : Arr2 ℝ} (h : toMat k b z = (toMat n k x)ᵀ * toMat n b y) {i j : Nat}
    (hi : i < k) (hj : j < b) : z.get i j = ∑ t ∈ Finset.range n, x.get t i * y.get t j := by
  have := congrFun (congrFun h ⟨i, hi⟩) ⟨j, hj⟩
  simp only [toMat_apply, Matrix.mul_apply, Matrix.transpose_apply] at this
  rw [this, Finset.sum_range]

/-- Entries of a `2 × 2` block matrix. -/
theorem block2_get {k b : Nat} {x y z w : Arr2 ℝ} (h : block2 x y z = .ok w) (hx : HasShape x k k)
    (hy : HasShape y k b) (hz : HasShape z b b) :
    HasShape w (k + b) (k + b) ∧ ∀ i j, w.get i j =
      if i < k then (if j < k then x.get i j else y.get i (j - k))
      else (if j < k then y.get j (i - k) else z.get (i - k) (j - k)) := by
  obtain ⟨w', hw', sw⟩ := block2_shape hx hy hz
  rw [h] at hw'
  injection hw' with hw'
  subst hw'
  refine ⟨sw, fun i j => ?_⟩
  unfold block2 at h
  simp only [bind_eq_ok] at h
  obtain ⟨r0, h0, r1, h1, h2⟩ := h
  obtain ⟨-, rfl⟩ := Arr2.hcat_inv h0
  obtain ⟨-, rfl⟩ := Arr2.hcat_inv h1
  obtain ⟨-, rfl⟩ := Arr2.vcat_inv h2
  simp only [hx.1, hx.2, Arr2.t, hy.1]

/-- Entries of a `3 × 3` block matrix. -/
theorem block3_get {k b c : Nat} {x y z u v w r : Arr2 ℝ} (h : block3 x y z u v w = .ok r)
    (hx : HasShape x k k) (hy : HasShape y k b) (hz : HasShape z k c) (hu : HasShape u b b)
    (hv : HasShape v b c) (hw : HasShape w c c) :
    HasShape r (k + b + c) (k + b + c) ∧ ∀ i j, r.get i j =
      if i < k + b then
        (if j < k + b then
          (if i < k then (if j < k then x.get i j else y.get i (j - k))
            else (if j < k then y.get j (i - k) else u.get (i - k) (j - k)))
          else (if i < k then z.get i (j - (k + b)) else v.get (i - k) (j - (k + b))))
      else (if j < k + b then
          (if j < k then z.get j (i - (k + b)) else v.get (j - k) (i - (k + b)))
          else w.get (i - (k + b)) (j - (k + b))) := by
  obtain ⟨r', hr', sr⟩ := block3_shape hx hy hz hu hv hw
  rw [h] at hr'
  injection hr' with hr'
  subst hr'
  refine ⟨sr, fun i j => ?_⟩
  unfold block3 at h
  simp only [bind_eq_ok] at h
  obtain ⟨a0, g0, r0, h0, a1, g1, r1, h1, a2, g2, r2, h2, a3, g3, h3⟩ := h
  obtain ⟨-, rfl⟩ := Arr2.hcat_inv g0
  obtain ⟨-, rfl⟩ := Arr2.hcat_inv h0
  obtain ⟨-, rfl⟩ := Arr2.hcat_inv g1
  obtain ⟨-, rfl⟩ := Arr2.hcat_inv h1
  obtain ⟨-, rfl⟩ := Arr2.hcat_inv g2
  obtain ⟨-, rfl⟩ := Arr2.hcat_inv h2
  obtain ⟨-, rfl⟩ := Arr2.vcat_inv g3
  obtain ⟨-, rfl⟩ := Arr2.vcat_inv h3
  simp only [hx.1, hx.2, hy.1, hy.2, hz.1, hv.1, hu.1, hu.2, Arr2.t]
  by_cases h1 : i < k + b <;> by_cases h2 : j < k + b <;> by_cases h3 : i < k <;> by_cases h4 : j < k <;>
    simp [h1, h2, h3, h4] <;> omega

/-- The Gram matrix of two blocks. -/
theorem isGram_two {n k b : Nat} {x x' r r' xx xr rr z : Arr2 ℝ}
    (hsym : ∀ i j, i < k → j < b → ∑ t ∈ Finset.range n, x.get t i * r'.get t j =
      ∑ t ∈ Finset.range n, x'.get t i * r.get t j)
    (hxx : IsGram n k xx x x')
    (exr : ∀ i j, i < k → j < b → xr.get i j = ∑ t ∈ Finset.range n, x.get t i * r'.get t j)
    (hrr : IsGram n b rr r r') (sz : HasShape z (k + b) (k + b)) (hz : ∀ i j, i < k + b → j < k + b → z.get i j =
      if i < k then (if j < k then xx.get i j else xr.get i (j - k))
      else (if j < k then xr.get j (i - k) else rr.get (i - k) (j - k))) :
    IsGram n (k + b) z (catCols x r k b) (catCols x' r' k b) := by
  refine isGram_of_get sz fun i j hi hj => ?_
  rw [hz i j hi hj]
  simp only [catCols]
  by_cases h1 : i < k <;> by_cases h2 : j < k <;> simp only [h1, h2, if_true, if_false]
  · exact isGram_get hxx h1 h2
  · exact exr i _ h1 (by omega)
  · rw [exr j _ h2 (by omega), hsym j _ h2 (by omega)]
    exact Finset.sum_congr rfl fun t _ => mul_comm _ _
  · exact isGram_get hrr (by omega) (by omega)

theorem catCols_shape {n k b : Nat} {x r : Arr2 ℝ} (hx : HasShape x n k) :
    HasShape (catCols x r k b) n (k + b) := ⟨hx.1, rfl⟩

/-- A product with a block of columns. -/
theorem catCols_mul {n k b m : Nat} (x r v : Arr2 ℝ) :
    toMat n (k + b) (catCols x r k b) * toMat (k + b) m v =
      toMat n k x * rowsFrom 0 k m v + toMat n b r * rowsFrom k b m v := by
  ext i j
  simp only [Matrix.mul_apply, Matrix.add_apply, toMat_apply, rowsFrom, Matrix.of_apply, catCols,
    Fin.sum_univ_add, Fin.val_castAdd, Fin.val_natAdd, Fin.is_lt, if_true, Nat.zero_add]
  congr 1
  refine Finset.sum_congr rfl fun t _ => ?_
  rw [if_neg (by omega), Nat.add_sub_cancel_left]

/-- The blocks are combinations of the columns of the whole. -/
theorem catCols_inl {n k b : Nat} (x r : Arr2 ℝ) : ∃ E : Matrix (Fin (k + b)) (Fin k) ℝ,
    toMat n k x = toMat n (k + b) (catCols x r k b) * E := by
  refine ⟨Matrix.of fun i j => if i.val = j.val then 1 else 0, ?_⟩
  ext i j
  rw [Matrix.mul_apply, Finset.sum_eq_single ⟨j, by omega⟩]
  · simp [catCols, toMat]
  · intro t _ ht
    rw [Matrix.of_apply, if_neg (fun h => ht (Fin.ext h)), mul_zero]
  · intro h; exact absurd (Finset.mem_univ _) h

theorem catCols_inr {n k b : Nat} (x r : Arr2 ℝ) : ∃ E : Matrix (Fin (k + b)) (Fin b) ℝ,
    toMat n b r = toMat n (k + b) (catCols x r k b) * E := by
  refine ⟨Matrix.of fun i j => if i.val = k + j.val then 1 else 0, ?_⟩
  ext i j
  rw [Matrix.mul_apply, Finset.sum_eq_single ⟨k + j, by omega⟩]
  · simp [catCols, toMat]
  · intro t _ ht
    rw [Matrix.of_apply, if_neg (fun h => ht (Fin.ext h)), mul_zero]
  · intro h; exact absurd (Finset.mem_univ _) h

/-- Multiplication from the left acts on the blocks. -/
theorem catCols_left {n m k b : Nat} {A : Matrix (Fin n) (Fin m) ℝ} {x x' r r' : Arr2 ℝ}
    (hx : toMat n k x' = A * toMat m k x) (hr : toMat n b r' = A * toMat m b r) :
    toMat n (k + b) (catCols x' r' k b) = A * toMat m (k + b) (catCols x r k b) := by
  ext i j
  simp only [toMat_apply, catCols, Matrix.mul_apply]
  by_cases hj : (j : Nat) < k
  · simp only [hj, if_true]
    have := congrFun (congrFun hx i) ⟨j, hj⟩
    simpa only [toMat_apply, Matrix.mul_apply] using this
  · simp only [hj, if_false]
    have := congrFun (congrFun hr i) ⟨j - k, by omega⟩
    simpa only [toMat_apply, Matrix.mul_apply] using this

theorem rowsFrom_zero {m k : Nat} (v : Arr2 ℝ) : rowsFrom 0 m k v = toMat m k v := by
  ext i j
  simp [rowsFrom, toMat]

theorem symmetrize_mat {k : Nat} {v w : Arr2 ℝ} (h : symmetrize v = .ok w) (hv : HasShape v k k) :
    HasShape w k k ∧ ∀ i j, w.get i j = (v.get i j + v.get j i) / 2 := by
  unfold symmetrize at h
  simp only [bind_eq_ok] at h
  obtain ⟨s, h1, h2⟩ := h
  injection h2 with h2
  subst h2
  obtain ⟨-, h3, rfl⟩ := Arr2.add_inv h1
  refine ⟨hv, fun i j => ?_⟩
  simp [Arr2.map, Arr2.t, real_ofRat]

/-- A symmetric Gram matrix is its own symmetrization. -/
theorem symmetrize_gram {n k : Nat} {v w x x' : Arr2 ℝ} (h : symmetrize v = .ok w)
    (hv : IsGram n k v x x') (hs : (toMat k k v).IsSymm) : IsGram n k w x x' := by
  obtain ⟨sw, ew⟩ := symmetrize_mat h hv.1
  refine ⟨sw, ?_⟩
  rw [← hv.2]
  ext i j
  have := congrFun (congrFun hs i) j
  simp only [Matrix.transpose_apply, toMat_apply] at this ⊢
  rw [ew, this]
  ring

theorem xrGram_inv {st : LobState ℝ} {r ar : Arr2 ℝ} {g : XRGram ℝ} (h : xrGram st r ar = .ok g)
    (he : st.explicitGram = true) :
    ∃ rar xax, st.x.t.dot ar = .ok g.xar ∧ r.t.dot ar = .ok rar ∧ symmetrize rar = .ok g.rar ∧
      st.x.t.dot st.ax = .ok xax ∧ symmetrize xax = .ok g.xax ∧ st.x.t.dot st.x = .ok g.xx ∧
      r.t.dot r = .ok g.rr ∧ st.x.t.dot r = .ok g.xr := by
  unfold xrGram at h
  simp only [bind_eq_ok, he, if_true] at h
  obtain ⟨xar, h1, rar, h2, rar', h3, xax, h4, xax', h5, xx, h6, rr, h7, xr, h8, h9⟩ := h
  injection h9 with h9
  subst h9
  exact ⟨rar, xax, h1, h2, h3, h4, h5, h6, h7, h8⟩

theorem tdot_gram {n k : Nat} {x y z : Arr2 ℝ} (h : x.t.dot y = .ok z) (hx : HasShape x n k)
    (hy : HasShape y n k) : IsGram n k z x y := tdot_mat h hx hy

/-- The preconditioned and constrained active residuals, made orthogonal to `X`, are combinations of the
columns of `S`. -/
def HasDirections (n k : Nat) (P : LobParams ℝ) (cholYY : Option (Arr2 ℝ)) (st : LobState ℝ) (s : Nat)
    (S : Arr2 ℝ) : Prop :=
  ∃ r0 norms v w u, lobResidual st = .ok (r0, norms) ∧ ndarrayMask r0 st.mask = .ok v ∧
    P.precondition v = .ok w ∧ P.constrain cholYY w = .ok u ∧
    HasShape w n (maskIndices st.mask).length ∧ HasShape u n (maskIndices st.mask).length ∧
    ∃ D : Matrix (Fin s) (Fin (maskIndices st.mask).length) ℝ,
      toMat n _ u - toMat n k st.x * ((toMat n k st.x)ᵀ * toMat n _ u) = toMat n s S * D

/-- One update step: the eigenproblem solved is the projection of the operator to the columns of `S`,
which include those of `X`; the new iterate is a combination of these columns. -/
structure StepSpec (n k : Nat) (A : Matrix (Fin n) (Fin n) ℝ) (eig : EigSolver ℝ) (P : LobParams ℝ)
    (cholYY : Option (Arr2 ℝ)) (st st' : LobState ℝ) : Prop where
  run : ∃ (s : Nat) (S a B vecs : Arr2 ℝ), HasShape S n s ∧ k ≤ s ∧
    (∀ i j, i < n → j < k → S.get i j = st.x.get i j) ∧
    HasShape a s s ∧ (toMat s s a).IsSymm ∧
    (A.IsSymm → toMat s s a = (toMat n s S)ᵀ * A * toMat n s S) ∧
    HasShape B s s ∧ toMat s s B = (toMat n s S)ᵀ * toMat n s S ∧
    sortedEig eig a (some B) k P.order = .ok (st'.lambda, vecs) ∧ HasShape vecs s k ∧
    toMat n k st'.x = toMat n s S * toMat s k vecs ∧ st'.gram = some B ∧ st'.explicitGram = true ∧
    HasDirections n k P cholYY st s S ∧
    (st.pap = none → (toMat n k st.x)ᵀ * toMat n k st.x = 1 → toMat s s B = 1)

theorem catCols_orth {n k b : Nat} {x r : Arr2 ℝ} (hx : (toMat n k x)ᵀ * toMat n k x = 1)
    (hr : (toMat n b r)ᵀ * toMat n b r = 1) (hxr : (toMat n k x)ᵀ * toMat n b r = 0) :
    (toMat n (k + b) (catCols x r k b))ᵀ * toMat n (k + b) (catCols x r k b) = 1 := by
  ext i j
  rw [Matrix.mul_apply]
  simp only [Matrix.transpose_apply, toMat_apply, catCols]
  by_cases hi : i.val < k <;> by_cases hj : j.val < k <;> simp only [hi, hj, if_true, if_false]
  · have := congrFun (congrFun hx ⟨i, hi⟩) ⟨j, hj⟩
    rw [Matrix.mul_apply] at this
    simp only [Matrix.transpose_apply, toMat_apply] at this
    rw [this, Matrix.one_apply, Matrix.one_apply]
    simp [Fin.ext_iff]
  · have := congrFun (congrFun hxr ⟨i, hi⟩) ⟨j - k, by omega⟩
    rw [Matrix.mul_apply] at this
    simp only [Matrix.transpose_apply, toMat_apply, Matrix.zero_apply] at this
    rw [this, Matrix.one_apply, if_neg (by rw [Fin.ext_iff]; omega)]
  · have := congrFun (congrFun hxr ⟨j, hj⟩) ⟨i - k, by omega⟩
    rw [Matrix.mul_apply] at this
    simp only [Matrix.transpose_apply, toMat_apply, Matrix.zero_apply] at this
    rw [Finset.sum_congr rfl fun t _ => mul_comm _ _, this, Matrix.one_apply,
      if_neg (by rw [Fin.ext_iff]; omega)]
  · have := congrFun (congrFun hr ⟨i - k, by omega⟩) ⟨j - k, by omega⟩
    rw [Matrix.mul_apply] at this
    simp only [Matrix.transpose_apply, toMat_apply] at this
    rw [this, Matrix.one_apply, Matrix.one_apply]
    simp only [Fin.ext_iff]
    congr 1
    simp only [eq_iff_iff]
    omega

theorem block_symm {k : Nat} {w : Arr2 ℝ} (h : ∀ i j, i < k → j < k → w.get i j = w.get j i) :
    (toMat k k w).IsSymm := by
  ext i j
  simp only [Matrix.transpose_apply, toMat_apply]
  exact (h i j i.2 j.2).symm

theorem lobTail_step {n k : Nat} {A : Matrix (Fin n) (Fin n) ℝ} {eig : EigSolver ℝ} {P : LobParams ℝ}
    {cholYY : Option (Arr2 ℝ)} {st st' : LobState ℝ} {r0 : Arr2 ℝ} {norms : List ℝ}
    (hA : IsOperator A P) (hI : AInv A k st) (he : st.explicitGram = true)
    (hr : lobResidual st = .ok (r0, norms))
    (h : lobTail eig P cholYY st r0 norms = .ok (.ok st')) : StepSpec n k A eig P cholYY st st' := by
  obtain ⟨b, w, u, r, ar, Z, Lr, eg, g, pap, pap', vecs, gram, p, ap, hb, sw, su, hdir, hZ, sr, pLr, hrZ, or, sar,
    har, heg, hg, h10, h11, hvk, hgram, hp, sp, sap, hup, sx, sax, ex, eax, heg'⟩ :=
    (lobTail_mat hA.opShape hI.toSInv hr h).run
  subst hb
  obtain rfl : eg = true := heg he
  generalize hbb : (maskIndices st.mask).length = b at *
  have ear := (hA _ _ _ _ sr har).2
  obtain ⟨rar, xax, g1, g2, g3, g4, g5, g6, g7, g8⟩ := xrGram_inv hg rfl
  simp only at g1 g2 g3 g4 g5 g6 g7 g8
  have G1 := tdot_mat g1 hI.sx sar
  have G2 := tdot_gram g2 sr sar
  have G4 := tdot_gram g4 hI.sx hI.sax
  have G6 := tdot_gram g6 hI.sx hI.sx
  have G7 := tdot_gram g7 sr sr
  have G8 := tdot_mat g8 hI.sx sr
  obtain ⟨s3, e3⟩ := symmetrize_mat g3 G2.1
  obtain ⟨s5, e5⟩ := symmetrize_mat g5 G4.1
  have sym1 : ∀ {b c : Nat} {Y Z AY AZ : Arr2 ℝ}, A.IsSymm → toMat n b AY = A * toMat n b Y →
      toMat n c AZ = A * toMat n c Z →
      (toMat n b Y)ᵀ * toMat n c AZ = (toMat n b AY)ᵀ * toMat n c Z := by
    intro b c Y Z AY AZ hs h1 h2
    rw [h1, h2, Matrix.transpose_mul, hs.eq, Matrix.mul_assoc]
  have sym2 : ∀ {b : Nat} {Y AY z : Arr2 ℝ}, A.IsSymm → toMat n b AY = A * toMat n b Y →
      IsGram n b z Y AY → (toMat b b z).IsSymm := by
    intro b Y AY z hs h1 h2
    rw [h2.2, Matrix.IsSymm, Matrix.transpose_mul, Matrix.transpose_transpose, ← sym1 hs h1 h1]
  have gsum : ∀ {b c : Nat} {Y Z AY AZ : Arr2 ℝ},
      (toMat n b Y)ᵀ * toMat n c AZ = (toMat n b AY)ᵀ * toMat n c Z → ∀ i j, i < b → j < c →
      ∑ t ∈ Finset.range n, Y.get t i * AZ.get t j = ∑ t ∈ Finset.range n, AY.get t i * Z.get t j := by
    intro b c Y Z AY AZ h i j hi hj
    have := congrFun (congrFun h ⟨i, hi⟩) ⟨j, hj⟩
    simp only [toMat_apply, Matrix.mul_apply, Matrix.transpose_apply] at this
    rw [Finset.sum_range, Finset.sum_range]
    exact this
  have hdirs : ∀ {s : Nat} {S : Arr2 ℝ} (E : Matrix (Fin s) (Fin b) ℝ), toMat n b r = toMat n s S * E →
      HasDirections n k P cholYY st s S := by
    intro s S E hE
    obtain ⟨hu, r1, nr1, v, hr1, hv, hw⟩ := hdir
    subst hbb
    refine ⟨r1, nr1, v, w, u, hr1, hv, hw, hu, sw, su, E * Lrᵀ, ?_⟩
    rw [← hZ, ← Matrix.mul_assoc, ← hE, hrZ]
  rcases lobEig_inv h11 with ⟨q, aq, rfl, rfl, h12⟩ | ⟨rfl, h12⟩
  · -- `S = [X R P]`
    obtain ⟨q0, aq0, L, e0, hm, s1, s2, pL, e1, e2, -⟩ := activePAP_mat h10 hI.pap
    simp only [hbb] at s1 s2 e1 e2 pL
    have eaq : toMat n b aq = A * toMat n b q := by
      have e3 := colsAt_mul (idx := maskIndices st.mask) (b := (maskIndices st.mask).length) (k := k)
        (fun j hj => hm ▸ maskIndices_lt _ j hj) rfl (hI.eqp q0 aq0 e0)
      subst hbb
      rw [← e1, ← e2, ← Matrix.mul_assoc] at e3
      have e4 := congrArg Matrix.transpose e3
      rw [Matrix.transpose_mul, Matrix.transpose_mul, Matrix.transpose_transpose] at e4
      have e5 := matrix_mul_left_cancel pL.isUnit e4
      exact Matrix.transpose_injective e5
    obtain ⟨xap, rap, pap, xp, rp, papS, pp, a, B, k1, k2, k3, k4, k5, k6, -, k7, k8, k9, k10⟩ :=
      eig3_inv h12
    simp only at k1 k2 k3 k4 k5 k6 k7 k8 k9 k10
    obtain ⟨k6, k6'⟩ := k6 trivial
    have K1 := tdot_mat k1 hI.sx s2
    have K2 := tdot_mat k2 sr s2
    have K3 := tdot_gram k3 s1 s2
    have K4 := tdot_mat k4 hI.sx s1
    have K5 := tdot_mat k5 sr s1
    have K6 := tdot_gram k6' s1 s1
    obtain ⟨s6, e6⟩ := symmetrize_mat k6 K3.1
    obtain ⟨sa, ea⟩ := block3_get k7 s5 G1.1 K1.1 s3 K2.1 s6
    obtain ⟨sB, eB⟩ := block3_get k8 G6.1 G8.1 K4.1 G7.1 K5.1 K6.1
    rw [hI.sx.2] at k9 hup
    obtain ⟨-, -, hup'⟩ := updatePAP_mat hup sr sar hvk
      (fun q' aq' h' => by
        simp only [Option.some.injEq, Prod.mk.injEq] at h'
        obtain ⟨rfl, rfl⟩ := h'
        exact ⟨s1, s2⟩)
    rcases hup' with ⟨h', -⟩ | ⟨q', aq', hq', -, hvr, ep, -⟩
    · cases h'
    simp only [Option.some.injEq, Prod.mk.injEq] at hq'
    obtain ⟨rfl, rfl⟩ := hq'
    have hvs : HasShape vecs (k + b + b) k := ⟨hvr, hvk⟩
    refine ⟨k + b + b, catCols (catCols st.x r k b) q (k + b) b, a, B, vecs,
      catCols_shape (catCols_shape hI.sx), by omega, ?_, sa, ?_, ?_, sB, ?_, k9, hvs, ?_, ?_, heg', ?_,
      fun hn => by rw [hn] at e0; cases e0⟩
    · intro i j _ hj
      simp only [catCols]
      rw [if_pos (by omega), if_pos hj]
    · refine block_symm fun i j hi hj => ?_
      rw [ea i j, ea j i]
      by_cases h1 : i < k + b <;> by_cases h2 : j < k + b <;> by_cases h3 : i < k <;> by_cases h4 : j < k <;>
        simp only [h1, h2, h3, h4, if_true, if_false, e3, e5, e6, add_comm]
    · intro hs
      have T1 := isGram_two (gsum (sym1 hs hI.eq ear)) (symmetrize_gram g5 G4 (sym2 hs hI.eq G4))
        (fun i j hi hj => mat_get G1.2 hi hj) (symmetrize_gram g3 G2 (sym2 hs ear G2))
        (z := ⟨k + b, k + b, a.get⟩) ⟨rfl, rfl⟩ (fun i j hi hj => by
          simp only
          rw [ea i j, if_pos hi, if_pos hj])
      have ecat := catCols_left hI.eq ear
      have T2 := isGram_two (gsum (sym1 hs ecat eaq)) T1 (xr := ⟨k + b, b, fun i j => if i < k then xap.get i j
          else rap.get (i - k) j⟩) (fun i j hi hj => by
          simp only [catCols]
          by_cases h1 : i < k
          · simp only [h1, if_true]; exact mat_get K1.2 h1 hj
          · simp only [h1, if_false]; exact mat_get K2.2 (by omega) hj)
        (symmetrize_gram k6 K3 (sym2 hs eaq K3)) sa (fun i j hi hj => by
          simp only
          rw [ea i j]
          by_cases h1 : i < k + b <;> by_cases h2 : j < k + b <;> simp only [h1, h2, if_true, if_false])
      rw [T2.2, catCols_left ecat eaq, Matrix.mul_assoc]
    · have T1 := isGram_two (x := st.x) (x' := st.x) (r := r) (r' := r) (fun i j _ _ => rfl) G6
        (fun i j hi hj => mat_get G8.2 hi hj) G7
        (z := ⟨k + b, k + b, B.get⟩) ⟨rfl, rfl⟩ (fun i j hi hj => by
          simp only
          rw [eB i j, if_pos hi, if_pos hj])
      have T2 := isGram_two (r := q) (r' := q) (fun i j _ _ => rfl) T1 (xr := ⟨k + b, b, fun i j => if i < k then xp.get i j
          else rp.get (i - k) j⟩) (fun i j hi hj => by
          simp only [catCols]
          by_cases h1 : i < k
          · simp only [h1, if_true]; exact mat_get K4.2 h1 hj
          · simp only [h1, if_false]; exact mat_get K5.2 (by omega) hj)
        K6 sB (fun i j hi hj => by
          simp only
          rw [eB i j]
          by_cases h1 : i < k + b <;> by_cases h2 : j < k + b <;> simp only [h1, h2, if_true, if_false])
      exact T2.2
    · rw [catCols_mul, rowsFrom_zero (m := k + b), catCols_mul, ex, ep, add_assoc]
    · rw [hgram, k10]
    · obtain ⟨E1, hE1⟩ := catCols_inr (n := n) (k := k) (b := b) st.x r
      obtain ⟨E2, hE2⟩ := catCols_inl (n := n) (k := k + b) (b := b) (catCols st.x r k b) q
      exact hdirs (E2 * E1) (by rw [← Matrix.mul_assoc, ← hE2, hE1])
  · -- `S = [X R]`
    obtain ⟨a, B, k7, k8, k9, k10⟩ := eig2_inv h12
    simp only at k9 k10
    obtain ⟨sa, ea⟩ := block2_get k7 s5 G1.1 s3
    obtain ⟨sB, eB⟩ := block2_get k8 G6.1 G8.1 G7.1
    rw [hI.sx.2] at k9 hup
    obtain ⟨-, -, hup'⟩ := updatePAP_mat (c := 0) hup sr sar hvk (fun q' aq' h' => by cases h')
    rcases hup' with ⟨-, hvr, ep, -⟩ | ⟨q', aq', hq', -⟩
    swap
    · cases hq'
    have hvs : HasShape vecs (k + b) k := ⟨hvr, hvk⟩
    refine ⟨k + b, catCols st.x r k b, a, B, vecs, catCols_shape hI.sx, by omega, ?_, sa, ?_, ?_, sB, ?_,
      k9, hvs, ?_, ?_, heg', ?_, ?_⟩
    · intro i j _ hj
      simp only [catCols]
      rw [if_pos hj]
    · refine block_symm fun i j hi hj => ?_
      rw [ea i j, ea j i]
      by_cases h3 : i < k <;> by_cases h4 : j < k <;>
        simp only [h3, h4, if_true, if_false, e3, e5, add_comm]
    · intro hs
      have T1 := isGram_two (gsum (sym1 hs hI.eq ear)) (symmetrize_gram g5 G4 (sym2 hs hI.eq G4))
        (fun i j hi hj => mat_get G1.2 hi hj) (symmetrize_gram g3 G2 (sym2 hs ear G2))
        sa (fun i j _ _ => ea i j)
      rw [T1.2, catCols_left hI.eq ear, Matrix.mul_assoc]
    · have T1 := isGram_two (x := st.x) (x' := st.x) (r := r) (r' := r) (fun i j _ _ => rfl) G6
        (fun i j hi hj => mat_get G8.2 hi hj) G7 sB (fun i j _ _ => eB i j)
      exact T1.2
    · rw [catCols_mul, ex, ep, rowsFrom_zero]
    · rw [hgram, k10]
    · obtain ⟨E1, hE1⟩ := catCols_inr (n := n) (k := k) (b := b) st.x r
      exact hdirs E1 hE1
    · intro _ hX
      have T1 := isGram_two (x := st.x) (x' := st.x) (r := r) (r' := r) (fun i j _ _ => rfl) G6
        (fun i j hi hj => mat_get G8.2 hi hj) G7 sB (fun i j _ _ => eB i j)
      rw [T1.2]
      refine catCols_orth hX or ?_
      have hz : (toMat n k st.x)ᵀ * Z = 0 := by
        rw [hZ, Matrix.mul_sub, ← Matrix.mul_assoc, hX, Matrix.one_mul, sub_self]
      rw [← hrZ, ← Matrix.mul_assoc] at hz
      have h2 := congrArg Matrix.transpose hz
      rw [Matrix.transpose_mul, Matrix.transpose_transpose, Matrix.transpose_zero] at h2
      have h3 : Lr * ((toMat n k st.x)ᵀ * toMat n b r)ᵀ = Lr * (0 : Matrix (Fin b) (Fin k) ℝ) := by
        rw [h2, Matrix.mul_zero]
      exact Matrix.transpose_injective ((matrix_mul_left_cancel pLr.isUnit h3).trans
        Matrix.transpose_zero.symm)

end LinfaLinalg
