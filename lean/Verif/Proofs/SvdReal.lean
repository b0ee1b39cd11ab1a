import Verif.Proofs.SvdMat

/-! # `svd` over the reals: invariants -/

namespace LinfaLinalg

open Matrix

/-! ## The approximate factorization -/

/-- `X0` is within `δ` of `L B Rᵀ`, where `L` and `R` have orthonormal columns, and `B` is not larger
than `X0`. -/
structure SvdApx {p d : Nat} (X0 : Matrix (Fin p) (Fin d) ℝ) (δ : ℝ) (B : Matrix (Fin d) (Fin d) ℝ)
    (L : Matrix (Fin p) (Fin d) ℝ) (R : Matrix (Fin d) (Fin d) ℝ) : Prop where
  orthL : Lᵀ * L = 1
  orthR : Rᵀ * R = 1
  dist : frob (X0 - L * B * Rᵀ) ≤ δ
  norm : frob B ≤ frob X0

theorem SvdApx.mono {p d : Nat} {X0 : Matrix (Fin p) (Fin d) ℝ} {δ δ' : ℝ}
    {B : Matrix (Fin d) (Fin d) ℝ} {L : Matrix (Fin p) (Fin d) ℝ} {R : Matrix (Fin d) (Fin d) ℝ}
    (h : SvdApx X0 δ B L R) (hd : δ ≤ δ') : SvdApx X0 δ' B L R :=
  ⟨h.orthL, h.orthR, h.dist.trans hd, h.norm⟩

theorem orth_mul {p d : Nat} {L : Matrix (Fin p) (Fin d) ℝ} {W : Matrix (Fin d) (Fin d) ℝ}
    (h : Lᵀ * L = 1) (hW : Wᵀ * W = 1) : (L * W)ᵀ * (L * W) = 1 := by
  rw [Matrix.transpose_mul, Matrix.mul_assoc, ← Matrix.mul_assoc Lᵀ, h, Matrix.one_mul, hW]

theorem SvdApx.left {p d : Nat} {X0 : Matrix (Fin p) (Fin d) ℝ} {δ : ℝ}
    {B : Matrix (Fin d) (Fin d) ℝ} {L : Matrix (Fin p) (Fin d) ℝ} {R : Matrix (Fin d) (Fin d) ℝ}
    (h : SvdApx X0 δ B L R) {W : Matrix (Fin d) (Fin d) ℝ} (hW : Wᵀ * W = 1) :
    SvdApx X0 δ (Wᵀ * B) (L * W) R := by
  have hW' : W * Wᵀ = 1 := mul_eq_one_comm.1 hW
  refine ⟨orth_mul h.orthL hW, h.orthR, ?_, ?_⟩
  · have : L * W * (Wᵀ * B) = L * B := by
      rw [Matrix.mul_assoc, ← Matrix.mul_assoc W, hW', Matrix.one_mul]
    rw [this]; exact h.dist
  · rw [frob_orth_mul (by rw [Matrix.transpose_transpose]; exact hW')]; exact h.norm

theorem SvdApx.right {p d : Nat} {X0 : Matrix (Fin p) (Fin d) ℝ} {δ : ℝ}
    {B : Matrix (Fin d) (Fin d) ℝ} {L : Matrix (Fin p) (Fin d) ℝ} {R : Matrix (Fin d) (Fin d) ℝ}
    (h : SvdApx X0 δ B L R) {W : Matrix (Fin d) (Fin d) ℝ} (hW : Wᵀ * W = 1) :
    SvdApx X0 δ (B * W) L (R * W) := by
  have hW' : W * Wᵀ = 1 := mul_eq_one_comm.1 hW
  refine ⟨h.orthL, orth_mul h.orthR hW, ?_, ?_⟩
  · have : L * (B * W) * (R * W)ᵀ = L * B * Rᵀ := by
      rw [Matrix.transpose_mul]
      calc L * (B * W) * (Wᵀ * Rᵀ) = L * B * (W * Wᵀ) * Rᵀ := by simp only [Matrix.mul_assoc]
        _ = _ := by rw [hW', Matrix.mul_one]
    rw [this]; exact h.dist
  · rw [frob_mul_orth hW']; exact h.norm

theorem SvdApx.spend {p d : Nat} {X0 : Matrix (Fin p) (Fin d) ℝ} {δ : ℝ}
    {B B' : Matrix (Fin d) (Fin d) ℝ} {L : Matrix (Fin p) (Fin d) ℝ} {R : Matrix (Fin d) (Fin d) ℝ}
    (h : SvdApx X0 δ B L R) {η : ℝ} (hB : frob (B - B') ≤ η) (hn : frob B' ≤ frob B) :
    SvdApx X0 (δ + η) B' L R := by
  refine ⟨h.orthL, h.orthR, ?_, hn.trans h.norm⟩
  have h1 := frob_sub_le X0 (L * B * Rᵀ) (L * B' * Rᵀ)
  have h2 : L * B * Rᵀ - L * B' * Rᵀ = L * (B - B') * Rᵀ := by
    rw [Matrix.mul_sub, Matrix.sub_mul]
  rw [h2, frob_mul_orth (by rw [Matrix.transpose_transpose]; exact h.orthR), frob_orth_mul h.orthL]
    at h1
  exact h1.trans (add_le_add h.dist hB)

/-- The factor on the left of the upper bidiagonal matrix: `U`, or `Vtᵀ` for wide matrices. -/
def leftOf (p d : Nat) (up : Bool) (U V : Arr2 ℝ) : Matrix (Fin p) (Fin d) ℝ :=
  if up then toMat p d U else (toMat d p V)ᵀ

/-- The factor on the right, not transposed: `Vtᵀ`, or `U` for wide matrices. -/
def rightOf (d : Nat) (up : Bool) (U V : Arr2 ℝ) : Matrix (Fin d) (Fin d) ℝ :=
  if up then (toMat d d V)ᵀ else toMat d d U

/-- If both factors are computed then they factor `X0` up to `δ`, with middle factor `B`. -/
def SvdFac {p d : Nat} (X0 : Matrix (Fin p) (Fin d) ℝ) (up : Bool) (δ : ℝ)
    (B : Matrix (Fin d) (Fin d) ℝ) (s : SvdData ℝ) : Prop :=
  ∀ U V, s.u = some U → s.vt = some V → SvdApx X0 δ B (leftOf p d up U V) (rightOf d up U V)

/-- Number of rows of `u`. -/
def rowsOf (p d : Nat) (up : Bool) : Nat := if up then p else d
/-- Number of columns of `vt`. -/
def colsOf (p d : Nat) (up : Bool) : Nat := if up then d else p

theorem SvdFac.set {p d : Nat} {X0 : Matrix (Fin p) (Fin d) ℝ} {up : Bool} {δ : ℝ}
    {B : Matrix (Fin d) (Fin d) ℝ} {s : SvdData ℝ} (h : SvdFac X0 up δ B s) (dg o : Arr1 ℝ) :
    SvdFac X0 up δ B (s.setDiags dg o) := h

theorem toMat_rotRows {m n i j : Nat} (g : GivensRotation ℝ) (q : Arr2 ℝ) (hq : HasShape q m n)
    (hi : i < m) (hj : j < m) (hij : i ≠ j) :
    (toMat m n (rotRows g i j q))ᵀ = (toMat m n q)ᵀ * rotM m i j g.c g.s := by
  have := toMat_rotCols g q.t (m := n) (n := m) ⟨hq.2, hq.1⟩ hi hj hij
  exact this

theorem SvdFac.rotL {p d : Nat} {X0 : Matrix (Fin p) (Fin d) ℝ} {up : Bool} {δ : ℝ}
    {B B' : Matrix (Fin d) (Fin d) ℝ} {s : SvdData ℝ} {cu cv : Bool} (h : SvdFac X0 up δ B s)
    (hs : SvdShape (rowsOf p d up) (colsOf p d up) d cu cv s)
    {g : GivensRotation ℝ} {i j : Nat} (hi : i < d) (hj : j < d) (hij : i ≠ j)
    (hg : g.c * g.c + g.s * g.s = 1) (hB : (rotM d i j g.c g.s)ᵀ * B = B') :
    SvdFac X0 up δ B' (s.rotL up g i j) := by
  have hW := rotM_orth hi hj hij hg
  intro U V hU hV
  cases up
  · simp only [SvdData.rotL, Bool.false_eq_true, if_false, Option.map_eq_some_iff] at hU hV
    obtain ⟨V0, hV0, rfl⟩ := hV
    have := (h U V0 hU hV0).left hW
    rw [hB] at this
    simp only [leftOf, rightOf, Bool.false_eq_true, if_false] at this ⊢
    rw [toMat_rotRows (m := d) (n := p) g V0 (hs.vt V0 hV0) hi hj hij]
    exact this
  · simp only [SvdData.rotL, if_true, Option.map_eq_some_iff] at hU hV
    obtain ⟨U0, hU0, rfl⟩ := hU
    have := (h U0 V hU0 hV).left hW
    rw [hB] at this
    simp only [leftOf, rightOf, if_true] at this ⊢
    rw [toMat_rotCols (m := p) (n := d) g U0 (hs.u U0 hU0) hi hj hij]
    exact this

theorem SvdFac.rotR {p d : Nat} {X0 : Matrix (Fin p) (Fin d) ℝ} {up : Bool} {δ : ℝ}
    {B B' : Matrix (Fin d) (Fin d) ℝ} {s : SvdData ℝ} {cu cv : Bool} (h : SvdFac X0 up δ B s)
    (hs : SvdShape (rowsOf p d up) (colsOf p d up) d cu cv s)
    {g : GivensRotation ℝ} {i j : Nat} (hi : i < d) (hj : j < d) (hij : i ≠ j)
    (hg : g.c * g.c + g.s * g.s = 1) (hB : B * rotM d i j g.c g.s = B') :
    SvdFac X0 up δ B' (s.rotR up g i j) := by
  have hW := rotM_orth hi hj hij hg
  intro U V hU hV
  cases up
  · simp only [SvdData.rotR, Bool.false_eq_true, if_false, Option.map_eq_some_iff] at hU hV
    obtain ⟨U0, hU0, rfl⟩ := hU
    have := (h U0 V hU0 hV).right hW
    rw [hB] at this
    simp only [leftOf, rightOf, Bool.false_eq_true, if_false] at this ⊢
    rw [toMat_rotCols (m := d) (n := d) g U0 (hs.u U0 hU0) hi hj hij]
    exact this
  · simp only [SvdData.rotR, if_true, Option.map_eq_some_iff] at hU hV
    obtain ⟨V0, hV0, rfl⟩ := hV
    have := (h U V0 hU hV0).right hW
    rw [hB] at this
    simp only [leftOf, rightOf, if_true] at this ⊢
    rw [toMat_rotRows (m := d) (n := d) g V0 (hs.vt V0 hV0) hi hj hij]
    exact this

/-! ## The two kinds of negligible entries -/

theorem frob_biD_off {n m : Nat} (d e : Nat → ℝ) (hm : m + 1 < n) :
    frob (biD n d e - biD n d (zeroAt e m)) ≤ |e m| := by
  let a : Fin n := ⟨m, by omega⟩
  let b : Fin n := ⟨m + 1, by omega⟩
  have hab : a ≠ b := fun h => by have := Fin.mk.inj_iff.1 h; omega
  apply frob_le_of_sq (abs_nonneg _)
  rw [sum_sq_block _ a b hab]
  · have e1 : (biD n d e - biD n d (zeroAt e m)) a a = 0 := by simp [biD]
    have e2 : (biD n d e - biD n d (zeroAt e m)) b b = 0 := by simp [biD]
    have e3 : (biD n d e - biD n d (zeroAt e m)) a b = e m := by simp [biD, zeroAt, a, b]
    have e4 : (biD n d e - biD n d (zeroAt e m)) b a = 0 := by
      simp only [biD, Matrix.sub_apply, Matrix.of_apply, a, b]
      rw [if_neg (by omega), if_neg (by omega), if_neg (by omega), if_neg (by omega), sub_zero]
    rw [e1, e2, e3, e4, sq_abs]
    nlinarith
  · intro i j hij
    simp only [biD, Matrix.sub_apply, Matrix.of_apply, zeroAt]
    have h1 : (i : Nat) ≠ m ∨ (j : Nat) ≠ m + 1 := by
      rcases hij with ⟨h1, h2⟩ | ⟨h1, h2⟩
      · exact Or.inl fun h => h1 (Fin.ext h)
      · exact Or.inr fun h => h2 (Fin.ext h)
    split_ifs <;> first | omega | simp

theorem frob_biD_diag {n m : Nat} (d e : Nat → ℝ) (hm : m < n) :
    frob (biD n d e - biD n (zeroAt d m) e) ≤ |d m| := by
  apply frob_le_of_sq (abs_nonneg _)
  rw [Fintype.sum_eq_single (⟨m, hm⟩ : Fin n), Fintype.sum_eq_single (⟨m, hm⟩ : Fin n)]
  · simp [biD, zeroAt]
  · intro j hj
    have : m ≠ (j : Nat) := fun h => hj (Fin.ext h.symm)
    simp only [biD, Matrix.sub_apply, Matrix.of_apply, zeroAt]
    rw [if_neg this, if_neg this, sub_self]; ring
  · intro i hi
    have : (i : Nat) ≠ m := fun h => hi (Fin.ext h)
    refine Finset.sum_eq_zero fun j _ => ?_
    simp only [biD, Matrix.sub_apply, Matrix.of_apply, zeroAt, if_neg this, sub_self]
    ring

theorem frob_biD_zeroAt_off {n m : Nat} (d e : Nat → ℝ) :
    frob (biD n d (zeroAt e m)) ≤ frob (biD n d e) := by
  apply frob_mono
  intro i j
  simp only [biD, Matrix.of_apply, zeroAt]
  split_ifs <;> simp

theorem frob_biD_zeroAt_diag {n m : Nat} (d e : Nat → ℝ) :
    frob (biD n (zeroAt d m) e) ≤ frob (biD n d e) := by
  apply frob_mono
  intro i j
  simp only [biD, Matrix.of_apply, zeroAt]
  split_ifs <;> simp

theorem abs_diag_le_frob {n m : Nat} (d e : Nat → ℝ) (hm : m < n) : |d m| ≤ frob (biD n d e) := by
  have := abs_le_frob (biD n d e) ⟨m, hm⟩ ⟨m, hm⟩
  simpa [biD] using this

theorem abs_off_le_frob {n m : Nat} (d e : Nat → ℝ) (hm : m + 1 < n) :
    |e m| ≤ frob (biD n d e) := by
  have := abs_le_frob (biD n d e) ⟨m, by omega⟩ ⟨m + 1, hm⟩
  simpa [biD] using this

/-- The error budget that has been used when `off` is the current off-diagonal. -/
noncomputable def budget (d : Nat) (η : ℝ) (e : Nat → ℝ) : ℝ := ((d - 1 - cnt d e : Nat) : ℝ) * η

theorem budget_mono {d : Nat} {η : ℝ} (hη : 0 ≤ η) {e e' : Nat → ℝ}
    (h : ∀ k, k < d - 1 → e' k ≠ 0 → e k ≠ 0) : budget d η e ≤ budget d η e' := by
  unfold budget
  refine mul_le_mul_of_nonneg_right ?_ hη
  have := cnt_mono h
  exact_mod_cast (by omega : d - 1 - cnt d e ≤ d - 1 - cnt d e')

theorem budget_zeroAt {d m : Nat} {η : ℝ} {e : Nat → ℝ} (hm : m < d - 1) (he : e m ≠ 0) :
    budget d η e + η = budget d η (zeroAt e m) := by
  unfold budget
  have h1 := cnt_zeroAt hm he
  have h2 := cnt_le d e
  have h3 : d - 1 - cnt d (zeroAt e m) = d - 1 - cnt d e + 1 := by omega
  rw [h3]; push_cast; ring

theorem upd_zero_get (a : Arr1 ℝ) (i : Nat) : (a.upd i 0).get = zeroAt a.get i := by
  funext k
  simp only [Arr1.upd, zeroAt]

/-! ## The two `cancel_*_off_diagonal_elt` functions -/

theorem cancelY_real' {x y : ℝ} {g : GivensRotation ℝ} {r : ℝ}
    (h : GivensRotation.cancelY x y = some (g, r)) : x = g.c * r ∧ y = -g.s * r := by
  obtain ⟨-, h1, h2, h3, -, -⟩ := cancelY_real h
  constructor
  · linear_combination (-x) * h1 + g.c * h2 + g.s * h3
  · linear_combination (-y) * h1 - g.s * h2 + g.c * h3

theorem cancelX_real {x y : ℝ} {g : GivensRotation ℝ} {r : ℝ}
    (h : GivensRotation.cancelX x y = some (g, r)) :
    x ≠ 0 ∧ g.c * g.c + g.s * g.s = 1 ∧ g.c * x - g.s * y = 0 ∧ g.s * x + g.c * y = r ∧ 0 < r ∧
      x = g.s * r ∧ y = g.c * r := by
  unfold GivensRotation.cancelX at h
  rw [Option.map_eq_some_iff] at h
  obtain ⟨⟨g', r'⟩, h1, h2⟩ := h
  simp only [Prod.mk.injEq] at h2
  obtain ⟨rfl, rfl⟩ := h2
  obtain ⟨e1, e2, e3, e4, e5, -⟩ := cancelY_real h1
  obtain ⟨e6, e7⟩ := cancelY_real' h1
  simp only
  refine ⟨e1, ?_, ?_, ?_, e5, ?_, e6⟩
  · linear_combination e2
  · linear_combination e4
  · linear_combination e3
  · linear_combination e7

theorem cancelX_real_none {x y : ℝ} (h : GivensRotation.cancelX x y = none) : x = 0 := by
  unfold GivensRotation.cancelX at h
  rw [Option.map_eq_none_iff] at h
  exact cancelY_real_none h

/-- The relation between the diagonals before and after `cancel_horizontal_off_diagonal_elt`. -/
structure CancelHRel (i end_ : Nat) (s s' : SvdData ℝ) : Prop where
  diag : ∀ k, k ≤ i ∨ end_ < k → s'.diag.get k = s.diag.get k
  off0 : s'.off.get i = 0
  off : ∀ k, k < i ∨ end_ ≤ k → s'.off.get k = s.off.get k
  offz : ∀ k, s.off.get k = 0 → s'.off.get k = 0
  nonneg : ∀ k, 0 ≤ s.diag.get k → 0 ≤ s'.diag.get k
  pos : ∀ k, 0 < s.diag.get k → 0 < s'.diag.get k
  offn : ∀ k, i < k → 0 < s.diag.get k → s.off.get k ≠ 0 → s'.off.get k ≠ 0

/-- `cancel_horizontal_off_diagonal_elt` over the reals. -/
theorem cancelH_real {p d : Nat} {X0 : Matrix (Fin p) (Fin d) ℝ} {up cu cv : Bool} {δ : ℝ}
    {i end_ : Nat} {s : SvdData ℝ} (h : SvdShape (rowsOf p d up) (colsOf p d up) d cu cv s)
    (hi : i < end_) (he : end_ < d) (hdi : s.diag.get i = 0)
    (hend : end_ + 1 < d → s.off.get end_ = 0)
    (hf : SvdFac X0 up δ (biD d s.diag.get s.off.get) s) :
    Succeeds (cancelH up i end_ s) fun s' => SvdShape (rowsOf p d up) (colsOf p d up) d cu cv s' ∧
      SvdFac X0 up δ (biD d s'.diag.get s'.off.get) s' ∧ CancelHRel i end_ s s' := by
  refine wp_cancelH h hi he
    (fun k st => SvdFac X0 up δ (biM d st.s.diag.get st.s.off.get i (k + 1)
        (if k < end_ then st.v0 else 0)) st.s ∧ CancelHRel i end_ s st.s ∧
      (k < end_ → st.v1 = st.s.diag.get (k + 1)) ∧
      (∀ j, k < j → st.s.diag.get j = s.diag.get j ∧ st.s.off.get j = s.off.get j))
    (fun s' => SvdFac X0 up δ (biD d s'.diag.get s'.off.get) s' ∧ CancelHRel i end_ s s')
    ⟨?_, ?_, ?_, ?_⟩ ?_ ?_ ?_
  · simp only [setDiags_diag, setDiags_off, if_pos hi]
    rw [upd_zero_get, biM_off]
    exact hf
  · refine ⟨fun k _ => rfl, ?_, ?_, ?_, fun k h => h, fun k h => h, ?_⟩
    · simp [Arr1.upd]
    · intro k hk
      simp only [setDiags_off, Arr1.upd_get]
      rw [if_neg (by omega)]
    · intro k hk
      simp only [setDiags_off, Arr1.upd_get, hk, ite_self]
    · intro k hk _ h0
      simp only [setDiags_off, Arr1.upd_get]
      rw [if_neg (by omega)]; exact h0
  · intro _; rfl
  · intro j hj
    simp only [setDiags_diag, setDiags_off, Arr1.upd_get]
    rw [if_neg (by omega)]; simp
  · rintro k st hk1 hk2 hs ⟨hI, hr, -, -⟩ hx
    rw [if_pos hk2, cancelX_real_none hx, biM_zero] at hI
    exact ⟨hI, hr⟩
  · rintro k st rot norm hk1 hk2 hs ⟨hI, hr, hv, hrest⟩ hx
    obtain ⟨-, g1, g2, g3, g4, g5, g6⟩ := cancelX_real hx
    rw [hv hk2] at g2 g3 g6
    rw [if_pos hk2] at hI
    have hdi' : st.s.diag.get i = 0 := by rw [hr.diag i (Or.inl le_rfl), hdi]
    have hoff : (if k + 1 ≠ end_ then st.s.off.upd (k + 1) (st.s.off.get (k + 1) * rot.c)
        else st.s.off).get = fun j => if k + 1 ≠ end_ ∧ j = k + 1 then
          st.s.off.get (k + 1) * rot.c else st.s.off.get j := by
      funext j
      by_cases h1 : k + 1 ≠ end_
      · simp [h1, Arr1.upd]
      · simp [h1]
    have hz : k + 1 = end_ → k + 2 < d → st.s.off.get (k + 1) = 0 := by
      intro h1 h2
      rw [(hrest (k + 1) (by omega)).2, h1]
      exact hend (by omega)
    refine ⟨?_, ?_, ?_, ?_⟩
    · simp only [cancelHNext, rotL_diag, rotL_off, setDiags_diag, setDiags_off]
      refine (hI.set _ _).rotL (hs.set (by rfl) (by split_ifs <;> rfl)) (by omega) (by omega)
        (by omega) ?_ ?_
      · simp only [GivensRotation.inverse]; linear_combination g1
      · simp only [GivensRotation.inverse]
        rw [rotM_transpose _ _ _ (by omega), neg_neg]
        refine hstep_matrix hk1 (by omega) hdi' hr.off0 g2 ?_ ?_ ?_ ?_ ?_
        · intro j hj; rw [Arr1.upd_get, if_neg hj]
        · rw [Arr1.upd_get, if_pos rfl, ← g3]
        · intro j hj; rw [hoff]; simp only; rw [if_neg (by omega)]
        · intro hk; rw [hoff]; simp only
          by_cases h1 : k + 1 ≠ end_
          · rw [if_pos ⟨h1, trivial⟩]
          · rw [if_neg (by omega), hz (by omega) hk, zero_mul]
        · intro hk
          by_cases h1 : k + 1 ≠ end_
          · rw [if_pos (by omega), if_pos h1]
          · rw [if_neg (by omega), hz (by omega) hk, mul_zero]
    · refine ⟨?_, ?_, ?_, ?_, ?_, ?_, ?_⟩
      · intro j hj
        simp only [cancelHNext, rotL_diag, setDiags_diag, Arr1.upd_get]
        rw [if_neg (by omega)]; exact hr.diag j hj
      · simp only [cancelHNext, rotL_off, setDiags_off, hoff]
        rw [if_neg (by omega)]; exact hr.off0
      · intro j hj
        simp only [cancelHNext, rotL_off, setDiags_off, hoff]
        rw [if_neg (by omega)]; exact hr.off j hj
      · intro j hj
        simp only [cancelHNext, rotL_off, setDiags_off, hoff]
        split_ifs with h1
        · rw [← h1.2, hr.offz j hj, zero_mul]
        · exact hr.offz j hj
      · intro j hj
        simp only [cancelHNext, rotL_diag, setDiags_diag, Arr1.upd_get]
        split_ifs with h1
        · exact g4.le
        · exact hr.nonneg j hj
      · intro j hj
        simp only [cancelHNext, rotL_diag, setDiags_diag, Arr1.upd_get]
        split_ifs with h1
        · exact g4
        · exact hr.pos j hj
      · intro j hj hd h0
        simp only [cancelHNext, rotL_off, setDiags_off, hoff]
        split_ifs with h1
        · rw [← h1.2]
          have hp := hr.pos j hd
          rw [h1.2, g6] at hp
          have hc : 0 < rot.c := pos_of_mul_pos_left hp g4.le
          exact mul_ne_zero (hr.offn j hj hd h0) hc.ne'
        · exact hr.offn j hj hd h0
    · intro hk
      simp only [cancelHNext, rotL_diag, setDiags_diag, Arr1.upd_get]
      rw [if_pos (by omega), if_neg (by omega)]
    · intro j hj
      simp only [cancelHNext, rotL_diag, rotL_off, setDiags_diag, setDiags_off, Arr1.upd_get, hoff]
      rw [if_neg (by omega), if_neg (by omega)]
      exact hrest j (by omega)
  · rintro st hs ⟨hI, hr, -, -⟩
    rw [if_neg (lt_irrefl _), biM_zero] at hI
    exact ⟨hI, hr⟩

/-- The relation between the diagonals before and after `cancel_vertical_off_diagonal_elt`. -/
structure CancelVRel (i : Nat) (s s' : SvdData ℝ) : Prop where
  diag : ∀ k, i < k → s'.diag.get k = s.diag.get k
  off0 : s'.off.get i = 0
  off : ∀ k, i < k → s'.off.get k = s.off.get k
  offz : ∀ k, s.off.get k = 0 → s'.off.get k = 0
  nonneg : ∀ k, 0 ≤ s.diag.get k → 0 ≤ s'.diag.get k

/-- `cancel_vertical_off_diagonal_elt` over the reals. -/
theorem cancelV_real {p d : Nat} {X0 : Matrix (Fin p) (Fin d) ℝ} {up cu cv : Bool} {δ : ℝ}
    {i : Nat} {s : SvdData ℝ} (h : SvdShape (rowsOf p d up) (colsOf p d up) d cu cv s)
    (hi : i + 1 < d) (hdi : s.diag.get (i + 1) = 0)
    (hf : SvdFac X0 up δ (biD d s.diag.get s.off.get) s) :
    Succeeds (cancelV up i s) fun s' => SvdShape (rowsOf p d up) (colsOf p d up) d cu cv s' ∧
      SvdFac X0 up δ (biD d s'.diag.get s'.off.get) s' ∧ CancelVRel i s s' := by
  refine wp_cancelV h hi
    (fun k st => SvdFac X0 up δ (biM d st.s.diag.get st.s.off.get (k - 1) (i + 1)
        (if 0 < k then st.v1 else 0)) st.s ∧ CancelVRel i s st.s ∧
      (0 < k → st.v0 = st.s.diag.get (k - 1)))
    (fun s' => SvdFac X0 up δ (biD d s'.diag.get s'.off.get) s' ∧ CancelVRel i s s')
    ⟨?_, ?_, ?_⟩ ?_ ?_ ?_
  · simp only [setDiags_diag, setDiags_off, if_pos (Nat.succ_pos i), Nat.add_sub_cancel]
    rw [upd_zero_get, biM_off]
    exact hf
  · refine ⟨fun k _ => rfl, ?_, ?_, ?_, fun k h => h⟩
    · simp [Arr1.upd]
    · intro k hk
      simp only [setDiags_off, Arr1.upd_get]
      rw [if_neg (by omega)]
    · intro k hk
      simp only [setDiags_off, Arr1.upd_get, hk, ite_self]
  · intro _; rfl
  · rintro k st hk hs ⟨hI, hr, -⟩ hx
    rw [if_pos (Nat.succ_pos k), cancelY_real_none hx, biM_zero] at hI
    exact ⟨hI, hr⟩
  · rintro k st rot norm hk hs ⟨hI, hr, hv⟩ hx
    obtain ⟨-, g1, g2, g3, g4, -⟩ := cancelY_real hx
    rw [hv (Nat.succ_pos k), Nat.add_sub_cancel] at g2 g3
    rw [if_pos (Nat.succ_pos k), Nat.add_sub_cancel] at hI
    have hdi' : st.s.diag.get (i + 1) = 0 := by rw [hr.diag (i + 1) (by omega), hdi]
    have hoff : (if 0 < k then st.s.off.upd (k - 1) (st.s.off.get (k - 1) * rot.c)
        else st.s.off).get = fun j => if j + 1 = k then
          st.s.off.get j * rot.c else st.s.off.get j := by
      funext j
      by_cases h1 : 0 < k
      · rw [if_pos h1, Arr1.upd_get]
        by_cases h2 : j = k - 1
        · rw [if_pos h2, if_pos (by omega), h2]
        · rw [if_neg h2, if_neg (by omega)]
      · rw [if_neg h1, if_neg (by omega)]
    refine ⟨?_, ?_, ?_⟩
    · simp only [cancelVNext, rotR_diag, rotR_off, setDiags_diag, setDiags_off]
      refine (hI.set _ _).rotR (hs.set (by rfl) (by split_ifs <;> rfl)) (by omega) (by omega)
        (by omega) ?_ ?_
      · simp only [GivensRotation.inverse]; linear_combination g1
      · simp only [GivensRotation.inverse]
        refine vstep_matrix hk hi hdi' hr.off0 g3 ?_ ?_ ?_ ?_ ?_ ?_
        · intro j hj; rw [Arr1.upd_get, if_neg hj]
        · rw [Arr1.upd_get, if_pos rfl, ← g2]
        · intro j hj; rw [hoff]; simp only; rw [if_neg hj]
        · intro j hj; rw [hoff]; simp only; rw [if_pos hj]
        · intro j hj; rw [if_pos (by omega), if_pos (by omega), show k - 1 = j by omega]
        · intro hk; rw [if_neg (by omega)]
    · refine ⟨?_, ?_, ?_, ?_, ?_⟩
      · intro j hj
        simp only [cancelVNext, rotR_diag, setDiags_diag, Arr1.upd_get]
        rw [if_neg (by omega)]; exact hr.diag j hj
      · simp only [cancelVNext, rotR_off, setDiags_off, hoff]
        rw [if_neg (by omega)]; exact hr.off0
      · intro j hj
        simp only [cancelVNext, rotR_off, setDiags_off, hoff]
        rw [if_neg (by omega)]; exact hr.off j hj
      · intro j hj
        simp only [cancelVNext, rotR_off, setDiags_off, hoff]
        rw [hr.offz j hj, zero_mul, ite_self]
      · intro j hj
        simp only [cancelVNext, rotR_diag, setDiags_diag, Arr1.upd_get]
        split_ifs with h1
        · exact g4.le
        · exact hr.nonneg j hj
    · intro hk
      simp only [cancelVNext, rotR_diag, setDiags_diag, Arr1.upd_get]
      rw [if_pos hk, if_neg (by omega)]
  · rintro st hs ⟨hI, hr, -⟩
    rw [if_neg (lt_irrefl _), biM_zero] at hI
    exact ⟨hI, hr⟩

/-! ## `delimit_subproblem` -/

theorem SvdFac.mono {p d : Nat} {X0 : Matrix (Fin p) (Fin d) ℝ} {up : Bool} {δ δ' : ℝ}
    {B : Matrix (Fin d) (Fin d) ℝ} {s : SvdData ℝ} (h : SvdFac X0 up δ B s) (hd : δ ≤ δ') :
    SvdFac X0 up δ' B s := fun U V hU hV => (h U V hU hV).mono hd

/-- The invariant about the factors: the part of the budget that belongs to the off-diagonal entries
that are already zero has been used. -/
def SvdOk {p d : Nat} (X0 : Matrix (Fin p) (Fin d) ℝ) (up : Bool) (eps : ℝ) (s : SvdData ℝ) : Prop :=
  SvdFac X0 up (budget d (2 * eps * frob X0) s.off.get) (biD d s.diag.get s.off.get) s

theorem eta_nonneg {p d : Nat} {X0 : Matrix (Fin p) (Fin d) ℝ} {eps : ℝ} (heps : 0 ≤ eps) :
    0 ≤ 2 * eps * frob X0 := by
  have := frob_nonneg X0
  positivity

theorem SvdOk.drop {p d m : Nat} {X0 : Matrix (Fin p) (Fin d) ℝ} {up : Bool} {eps : ℝ}
    {s : SvdData ℝ} (h : SvdOk X0 up eps s) (heps : 0 ≤ eps) (hm : m + 1 < d)
    (hs : |s.off.get m| ≤ eps * (|s.diag.get (m + 1)| + |s.diag.get m|)) :
    SvdOk X0 up eps (s.setDiags s.diag (s.off.upd m 0)) := by
  unfold SvdOk at h ⊢
  simp only [setDiags_diag, setDiags_off, upd_zero_get]
  by_cases he : s.off.get m = 0
  · have : zeroAt s.off.get m = s.off.get := by
      funext k; unfold zeroAt; split_ifs with hk
      · rw [hk, he]
      · rfl
    rw [this]; exact h
  · intro U V hU hV
    have h1 := h U V hU hV
    rw [← budget_zeroAt (by omega) he]
    refine h1.spend ?_ (frob_biD_zeroAt_off _ _)
    refine (frob_biD_off _ _ hm).trans (hs.trans ?_)
    have h2 := (abs_diag_le_frob s.diag.get s.off.get (m := m) (by omega)).trans h1.norm
    have h3 := (abs_diag_le_frob s.diag.get s.off.get hm).trans h1.norm
    nlinarith

theorem SvdOk.kill {p d m j : Nat} {X0 : Matrix (Fin p) (Fin d) ℝ} {up : Bool} {eps : ℝ}
    {s : SvdData ℝ} (h : SvdOk X0 up eps s) (heps : 0 ≤ eps) (hX : X0 = 0 ∨ 1 ≤ frob X0)
    (hm : m < d) (hs : |s.diag.get m| ≤ eps) (hj : j + 1 < d) (ho : s.off.get j ≠ 0) :
    SvdFac X0 up (budget d (2 * eps * frob X0) (zeroAt s.off.get j))
      (biD d (s.diag.upd m 0).get s.off.get) (s.setDiags (s.diag.upd m 0) s.off) := by
  intro U V hU hV
  have h1 := h U V hU hV
  rw [← budget_zeroAt (by omega) ho, upd_zero_get]
  refine h1.spend ?_ (frob_biD_zeroAt_diag _ _)
  refine (frob_biD_diag _ _ hm).trans (hs.trans ?_)
  rcases hX with hX | hX
  · have h2 := (abs_off_le_frob s.diag.get s.off.get hj).trans h1.norm
    rw [hX, frob_zero] at h2
    exact absurd (abs_nonpos_iff.1 h2) ho
  · nlinarith

/-- The relation between the diagonals before and after `svdKill m n`. -/
structure KillRel (m n : Nat) (s s' : SvdData ℝ) : Prop where
  off0 : s'.off.get m = 0
  off : ∀ k, n ≤ k → s'.off.get k = s.off.get k
  offz : ∀ k, s.off.get k = 0 → s'.off.get k = 0
  nonneg : ∀ k, 0 ≤ s.diag.get k → 0 ≤ s'.diag.get k
  pos : ∀ k, m < k → 0 < s.diag.get k → 0 < s'.diag.get k
  offn : ∀ k, m < k → 0 < s.diag.get k → s.off.get k ≠ 0 → s'.off.get k ≠ 0

theorem svdKill_real {p d m n : Nat} {X0 : Matrix (Fin p) (Fin d) ℝ} {up cu cv : Bool} {eps : ℝ}
    {s : SvdData ℝ} (h : SvdShape (rowsOf p d up) (colsOf p d up) d cu cv s)
    (hf : SvdOk X0 up eps s) (heps : 0 ≤ eps) (hX : X0 = 0 ∨ 1 ≤ frob X0) (hm : m < n) (hn : n < d)
    (hs : |s.diag.get m| ≤ eps) (ho : s.off.get m ≠ 0) (hend : n + 1 < d → s.off.get n = 0) :
    Succeeds (svdKill up m n s) fun s' => SvdShape (rowsOf p d up) (colsOf p d up) d cu cv s' ∧
      SvdOk X0 up eps s' ∧ KillRel m n s s' := by
  unfold svdKill Succeeds
  rw [wp_bind]
  refine wp_conseq (cancelH_real (h.set (dg := s.diag.upd m 0) rfl rfl) hm hn
    (by simp [Arr1.upd]) hend (hf.kill heps hX (by omega) hs (by omega) ho)) ?_
  rintro s1 ⟨hs1, hf1, hr1⟩
  have hr1' : KillRel m n s s1 := by
    refine ⟨hr1.off0, fun k hk => hr1.off k (Or.inr hk), hr1.offz, fun k hk => hr1.nonneg k ?_,
      fun k hk hp => hr1.pos k ?_, fun k hk hp => hr1.offn k hk ?_⟩
    · simp only [setDiags_diag, Arr1.upd_get]; split_ifs
      · exact le_rfl
      · exact hk
    · simp only [setDiags_diag, Arr1.upd_get]; rw [if_neg (by omega)]; exact hp
    · simp only [setDiags_diag, Arr1.upd_get]; rw [if_neg (by omega)]; exact hp
  have hbud : ∀ e' : Nat → ℝ, (∀ k, s.off.get k = 0 → e' k = 0) → e' m = 0 →
      budget d (2 * eps * frob X0) (zeroAt s.off.get m) ≤ budget d (2 * eps * frob X0) e' := by
    intro e' h1 h2
    refine budget_mono (eta_nonneg heps) fun k _ hk => ?_
    unfold zeroAt
    split_ifs with hkm
    · rw [hkm] at hk; exact absurd h2 hk
    · exact fun h0 => hk (h1 k h0)
  by_cases h0 : m = 0
  · rw [if_neg (by simpa using h0)]
    exact ⟨hs1, hf1.mono (hbud _ hr1.offz hr1.off0), hr1'⟩
  · rw [if_pos h0]
    refine wp_conseq (cancelV_real hs1 (show m - 1 + 1 < d by omega) ?_ hf1) ?_
    · rw [show m - 1 + 1 = m by omega, hr1.diag m (Or.inl le_rfl)]
      simp [Arr1.upd]
    · rintro s2 ⟨hs2, hf2, hr2⟩
      have e1 : s2.off.get m = 0 := by rw [hr2.off m (by omega)]; exact hr1.off0
      refine ⟨hs2, hf2.mono (hbud _ (fun k hk => hr2.offz k (hr1.offz k hk)) e1), ?_⟩
      refine ⟨e1, fun k hk => by rw [hr2.off k (by omega), hr1'.off k hk],
        fun k hk => hr2.offz k (hr1.offz k hk), fun k hk => hr2.nonneg k (hr1'.nonneg k hk),
        fun k hk hp => by rw [hr2.diag k (by omega)]; exact hr1'.pos k hk hp,
        fun k hk hp ho => by rw [hr2.off k (by omega)]; exact hr1'.offn k hk hp ho⟩

/-- What holds after `delimit_subproblem`. -/
structure SvdGood (d : Nat) (s : SvdData ℝ) (start e : Nat) : Prop where
  nonneg : ∀ k, k < d → 0 ≤ s.diag.get k
  offz : ∀ k, e ≤ k → k + 1 < d → s.off.get k = 0
  start0 : start ≠ 0 → s.off.get (start - 1) = 0
  pos : ∀ k, start ≤ k → k ≤ e → start < e → 0 < s.diag.get k
  offn : ∀ k, start ≤ k → k < e → s.off.get k ≠ 0

theorem svdSmall_real {eps : ℝ} {s : SvdData ℝ} {m : Nat} : svdSmall eps s m ↔
    |s.off.get m| ≤ eps * (|s.diag.get (m + 1)| + |s.diag.get m|) := by simp [svdSmall]

theorem svdTiny_real {eps : ℝ} {s : SvdData ℝ} {m : Nat} : svdTiny eps s m ↔
    |s.diag.get m| ≤ eps := by simp [svdTiny]

theorem svdDelimit_real {p d e : Nat} {X0 : Matrix (Fin p) (Fin d) ℝ} {up cu cv : Bool} {eps : ℝ}
    {s : SvdData ℝ} (h : SvdShape (rowsOf p d up) (colsOf p d up) d cu cv s)
    (hf : SvdOk X0 up eps s) (heps : 0 ≤ eps) (hX : X0 = 0 ∨ 1 ≤ frob X0) (he : e < d)
    (hnn : ∀ k, k < d → 0 ≤ s.diag.get k) (hz : ∀ k, e ≤ k → k + 1 < d → s.off.get k = 0) :
    Succeeds (svdDelimit up e eps s) fun q =>
      SvdShape (rowsOf p d up) (colsOf p d up) d cu cv q.1 ∧ SvdOk X0 up eps q.1 ∧
      SvdGood d q.1 q.2.1 q.2.2 ∧ q.2.2 ≤ e := by
  have tiny_pos : ∀ (s : SvdData ℝ) m, 0 ≤ s.diag.get m → ¬ svdTiny eps s m → 0 < s.diag.get m := by
    intro s m h1 h2
    rw [svdTiny_real, abs_of_nonneg h1] at h2
    linarith
  unfold svdDelimit Succeeds
  rw [wp_bind]
  refine wp_conseq (wp_svdDelimitEnd he h
    (fun m s => SvdOk X0 up eps s ∧ (∀ k, k < d → 0 ≤ s.diag.get k) ∧
      (∀ k, m ≤ k → k + 1 < d → s.off.get k = 0))
    (fun s m => SvdOk X0 up eps s ∧ (∀ k, k < d → 0 ≤ s.diag.get k) ∧
      (∀ k, m ≤ k → k + 1 < d → s.off.get k = 0) ∧
      (m ≠ 0 → 0 < s.diag.get m ∧ 0 < s.diag.get (m - 1) ∧ s.off.get (m - 1) ≠ 0))
    ⟨hf, hnn, hz⟩ ?_ ?_ ?_ ?_ ?_) ?_
  · rintro m s hm hs ⟨hf, hnn, hz⟩ hor
    refine ⟨?_, hnn, ?_⟩
    · rcases hor with h0 | h0
      · refine hf.drop heps (by omega) ?_
        simp only [real_isZero, decide_eq_true_eq] at h0
        rw [h0, abs_zero]; positivity
      · exact hf.drop heps (by omega) (svdSmall_real.1 h0)
    · intro k hk hkd
      simp only [setDiags_off, Arr1.upd_get]
      split_ifs with h1
      · rfl
      · exact hz k (by omega) hkd
  · rintro m s hm hs ⟨hf, hnn, hz⟩ h0 h1 h2
    simp only [real_isZero, decide_eq_false_iff_not] at h0
    refine wp_conseq (svdKill_real hs hf heps hX (by omega) (by omega) (svdTiny_real.1 h2) h0
      (fun hd => hz (m + 1) le_rfl hd)) ?_
    rintro s' ⟨hs', hf', hr⟩
    refine ⟨hs', hf', fun k hk => hr.nonneg k (hnn k hk), fun k hk hkd => ?_⟩
    by_cases hkm : k = m
    · rw [hkm]; exact hr.off0
    · exact hr.offz k (hz k (by omega) hkd)
  · rintro m s hm hs ⟨hf, hnn, hz⟩ h0 h1 h2 h3
    simp only [real_isZero, decide_eq_false_iff_not] at h0
    refine wp_conseq (cancelV_real (hs.set (dg := s.diag.upd (m + 1) 0) rfl rfl)
      (show m + 1 < d by omega) (by simp [Arr1.upd])
      (hf.kill heps hX (by omega) (svdTiny_real.1 h3) (by omega) h0)) ?_
    rintro s' ⟨hs', hf', hr⟩
    refine ⟨hs', hf'.mono ?_, fun k hk => hr.nonneg k ?_, fun k hk hkd => ?_⟩
    · refine budget_mono (eta_nonneg heps) fun k _ hk => ?_
      unfold zeroAt
      split_ifs with hkm
      · rw [hkm] at hk; exact absurd hr.off0 hk
      · exact fun h0 => hk (hr.offz k h0)
    · simp only [setDiags_diag, Arr1.upd_get]; split_ifs
      · exact le_rfl
      · exact hnn k hk
    · by_cases hkm : k = m
      · rw [hkm]; exact hr.off0
      · exact hr.offz k (hz k (by omega) hkd)
  · rintro m s hm hs ⟨hf, hnn, hz⟩ h0 h1 h2 h3
    simp only [real_isZero, decide_eq_false_iff_not] at h0
    refine ⟨hf, hnn, hz, fun _ => ⟨tiny_pos s _ (hnn _ (by omega)) h3, ?_, ?_⟩⟩
    · rw [Nat.add_sub_cancel]; exact tiny_pos s _ (hnn _ (by omega)) h2
    · rw [Nat.add_sub_cancel]; exact h0
  · rintro s hs ⟨hf, hnn, hz⟩
    exact ⟨hf, hnn, hz, fun h => absurd rfl h⟩
  · rintro ⟨s1, n⟩ ⟨hs1, hn, hf1, hnn1, hz1, hb1⟩
    simp only at hs1 hn hf1 hnn1 hz1 hb1 ⊢
    by_cases hn0 : n = 0
    · rw [if_pos hn0]
      subst hn0
      exact ⟨hs1, hf1, ⟨hnn1, hz1, fun h => absurd rfl h, fun k _ _ h => absurd h (lt_irrefl _),
        fun k _ h => absurd h (Nat.not_lt_zero _)⟩, Nat.zero_le _⟩
    · rw [if_neg hn0, wp_bind]
      obtain ⟨b1, b2, b3⟩ := hb1 hn0
      refine wp_conseq (wp_svdDelimitStart (e := n - 1) (by omega) (by omega) hs1
        (fun m s => SvdOk X0 up eps s ∧ (∀ k, k < d → 0 ≤ s.diag.get k) ∧
          (∀ k, n ≤ k → k + 1 < d → s.off.get k = 0) ∧ (∀ k, m ≤ k → k ≤ n → 0 < s.diag.get k) ∧
          (∀ k, m ≤ k → k < n → s.off.get k ≠ 0))
        (fun s m => SvdOk X0 up eps s ∧ SvdGood d s m n)
        ⟨hf1, hnn1, hz1, ?_, ?_⟩ ?_ ?_ ?_ ?_) ?_
      · intro k h1 h2
        rcases (by omega : k = n ∨ k = n - 1) with rfl | rfl
        · exact b1
        · exact b2
      · intro k h1 h2
        rw [show k = n - 1 by omega]; exact b3
      · rintro m s hm hs ⟨hf, hnn, hz, hp, ho⟩ hsm
        refine ⟨hf.drop heps (by omega) (svdSmall_real.1 hsm), hnn, ?_, ?_,
          fun k hk1 hk2 _ => hp k hk1 hk2, ?_⟩
        · intro k hk hkd
          simp only [setDiags_off, Arr1.upd_get]
          rw [if_neg (by omega)]; exact hz k hk hkd
        · intro _
          simp [Arr1.upd]
        · intro k hk1 hk2
          simp only [setDiags_off, Arr1.upd_get]
          rw [if_neg (by omega)]; exact ho k hk1 hk2
      · rintro m s hm hs ⟨hf, hnn, hz, hp, ho⟩ hsm htn
        have h0 : s.off.get m ≠ 0 := by
          intro h0
          apply hsm
          rw [svdSmall_real, h0, abs_zero]; positivity
        refine wp_conseq (svdKill_real hs hf heps hX (by omega) (by omega) (svdTiny_real.1 htn) h0
          (fun hd => hz n le_rfl hd)) ?_
        rintro s' ⟨hs', hf', hr⟩
        refine ⟨hs', hf', fun k hk => hr.nonneg k (hnn k hk), fun k hk hkd => ?_, fun _ => ?_,
          fun k hk1 hk2 _ => hr.pos k (by omega) (hp k hk1 hk2), fun k hk1 hk2 => ?_⟩
        · exact hr.offz k (hz k hk hkd)
        · rw [Nat.add_sub_cancel]; exact hr.off0
        · exact hr.offn k (by omega) (hp k hk1 hk2.le) (ho k hk1 hk2)
      · rintro m s hm hs ⟨hf, hnn, hz, hp, ho⟩ hsm htn
        refine ⟨hf, hnn, hz, fun k hk1 hk2 => ?_, fun k hk1 hk2 => ?_⟩
        · by_cases hkm : k = m
          · rw [hkm]; exact tiny_pos s _ (hnn _ (by omega)) htn
          · exact hp k (by omega) hk2
        · by_cases hkm : k = m
          · rw [hkm]
            intro h0
            apply hsm
            rw [svdSmall_real, h0, abs_zero]; positivity
          · exact ho k (by omega) hk2
      · rintro s hs ⟨hf, hnn, hz, hp, ho⟩
        exact ⟨hf, hnn, hz, fun h => absurd rfl h, fun k hk1 hk2 _ => hp k hk1 hk2, ho⟩
      · rintro ⟨s2, st⟩ ⟨hs2, hst, hf2, hg2⟩
        exact ⟨hs2, hf2, hg2, hn⟩

end LinfaLinalg
