import Verif.Props.Closed
import Verif.Props.LobpcgErrors
import Verif.Proofs.Underflow
import Verif.Proofs.PowerFloat

/-! # The scale of the preconditioner and of the start block does not matter

`orthonormalize` divides by the Cholesky factor of the Gram matrix. In exact arithmetic it returns the same columns for
`V` and for `V U`, if `U` is upper triangular with a positive diagonal. All that LOBPCG does to the preconditioned residuals
and to the start block before it calls `orthonormalize` is linear. -/

set_option linter.unusedSectionVars false

namespace LinfaLinalg

open Matrix Par

/-- Every column of `w'` is a positive multiple of the same column of `w` plus a combination of the columns before it. -/
def Mixed (w w' : Arr2 ℝ) : Prop :=
  w.nr = w'.nr ∧ w.nc = w'.nc ∧ ∃ u : Nat → Nat → ℝ, (∀ j < w.nc, 0 < u j j) ∧
    ∀ i < w.nr, ∀ j < w.nc, w'.get i j = ∑ l ∈ Finset.range (j + 1), w.get i l * u l j

/-- Upper triangular with a positive diagonal. -/
def UpperPos {k : Nat} (U : Matrix (Fin k) (Fin k) ℝ) : Prop := (∀ i j, j < i → U i j = 0) ∧ ∀ i, 0 < U i i

/-- `v' = v U`. -/
def MixU (n k : Nat) (U : Matrix (Fin k) (Fin k) ℝ) (v v' : Arr2 ℝ) : Prop :=
  HasShape v n k ∧ HasShape v' n k ∧ toMat n k v' = toMat n k v * U

theorem Mixed.mixU {w w' : Arr2 ℝ} (h : Mixed w w') :
    ∃ U : Matrix (Fin w.nc) (Fin w.nc) ℝ, UpperPos U ∧ MixU w.nr w.nc U w w' := by
  obtain ⟨h1, h2, u, hu, hw⟩ := h
  refine ⟨Matrix.of fun i j => if (i : Nat) ≤ j then u i j else 0, ⟨fun i j hij => ?_, fun i => ?_⟩, ⟨rfl, rfl⟩,
    ⟨h1.symm, h2.symm⟩, ?_⟩
  · rw [Matrix.of_apply, if_neg (by rw [Fin.lt_def] at hij; omega)]
  · rw [Matrix.of_apply, if_pos le_rfl]
    exact hu i i.2
  · ext i j
    rw [toMat_apply, hw i i.2 j j.2, Matrix.mul_apply]
    have hs : Finset.range (j + 1) = (Finset.range w.nc).filter fun l : Nat => l ≤ (j : Nat) := by
      ext l
      have := j.2
      simp only [Finset.mem_range, Finset.mem_filter]
      omega
    rw [hs, Finset.sum_filter, Finset.sum_range]
    refine Finset.sum_congr rfl fun l _ => ?_
    rw [Matrix.of_apply, toMat_apply]
    split_ifs
    · rfl
    · rw [mul_zero]

theorem UpperPos.lower {k : Nat} {U : Matrix (Fin k) (Fin k) ℝ} (h : UpperPos U) : LowerPos Uᵀ :=
  ⟨fun i j hij => h.1 j i hij, fun i => h.2 i⟩

theorem UpperPos.isUnit {k : Nat} {U : Matrix (Fin k) (Fin k) ℝ} (h : UpperPos U) : IsUnit U := by
  rw [← Matrix.isUnit_transpose]
  exact h.lower.isUnit

theorem lowerPos_mul {k : Nat} {L K : Matrix (Fin k) (Fin k) ℝ} (hL : LowerPos L) (hK : LowerPos K) : LowerPos (L * K) := by
  constructor
  · intro i j hij
    rw [Matrix.mul_apply]
    refine Finset.sum_eq_zero fun l _ => ?_
    rcases lt_or_ge i l with h | h
    · rw [hL.1 i l h, zero_mul]
    · rw [hK.1 l j (lt_of_le_of_lt h hij), mul_zero]
  · intro i
    rw [Matrix.mul_apply, Finset.sum_eq_single i]
    · exact mul_pos (hL.2 i) (hK.2 i)
    · intro l _ hl
      rcases lt_or_gt_of_ne hl with h | h
      · rw [hK.1 l i h, mul_zero]
      · rw [hL.1 i l h, zero_mul]
    · intro h
      exact absurd (Finset.mem_univ i) h

section
variable {n m k : Nat} {U : Matrix (Fin k) (Fin k) ℝ}

theorem mat_of_rel {x x' : Arr2 ℝ} (h : RelA2 (EqIn Any) x x') (hx : HasShape x n m) :
    HasShape x' n m ∧ toMat n m x' = toMat n m x := by
  refine ⟨⟨h.nr.symm.trans hx.1, h.nc.symm.trans hx.2⟩, ?_⟩
  ext i j
  rw [toMat_apply, toMat_apply]
  exact (h.get i (by rw [hx.1]; exact i.2) j (by rw [hx.2]; exact j.2)).1.symm

theorem rel_of_mat {x x' : Arr2 ℝ} (hx : HasShape x n m) (hx' : HasShape x' n m) (h : toMat n m x = toMat n m x') :
    RelA2 (EqIn Any) x x' := by
  refine ⟨hx.1.trans hx'.1.symm, hx.2.trans hx'.2.symm, fun i hi j hj => ⟨?_, trivial⟩⟩
  have := congrFun (congrFun h ⟨i, hx.1 ▸ hi⟩) ⟨j, hx.2 ▸ hj⟩
  simpa using this

theorem relM_of_total {A B : Type} {S : A → B → Prop} {p : M A} {q : M B} (h1 : ∀ x, p = .ok x → ∃ y, q = .ok y ∧ S x y)
    (h2 : ∀ e, p = .error e → q = .error e) : RelM S p q := by
  cases hp : p with
  | ok x =>
    obtain ⟨y, hy, hxy⟩ := h1 x hp
    rw [hy]
    exact hxy
  | error e =>
    rw [h2 e hp]
    rfl

theorem mixU_dot {x x' v v' : Arr2 ℝ} (hx : RelA2 (EqIn Any) x x') (hv : MixU n k U v v') :
    RelM (MixU x.nc k U) (x.t.dot v) (x'.t.dot v') := by
  obtain ⟨sv, sv', ev⟩ := hv
  by_cases hn : x.nr = n
  · obtain ⟨sx', ex⟩ := mat_of_rel hx (⟨hn, rfl⟩ : HasShape x n x.nc)
    have e1 := Arr2.dot_ok (a := x.t) (b := v) (show x.nr = v.nr by rw [hn, sv.1])
    have e2 := Arr2.dot_ok (a := x'.t) (b := v') (show x'.nr = v'.nr by rw [sx'.1, sv'.1])
    rw [e1, e2]
    obtain ⟨s1, m1⟩ := tdot_mat e1 (⟨hn, rfl⟩ : HasShape x n x.nc) sv
    obtain ⟨s2, m2⟩ := tdot_mat e2 sx' sv'
    exact ⟨s1, s2, by rw [m1, m2, ex, ev, Matrix.mul_assoc]⟩
  · have e1 : x.t.dot v = .error .panic := by
      unfold Arr2.dot
      exact if_neg (by show ¬ x.nr = v.nr; rw [sv.1]; exact hn)
    have e2 : x'.t.dot v' = .error .panic := by
      unfold Arr2.dot
      exact if_neg (by show ¬ x'.nr = v'.nr; rw [sv'.1, ← hx.nr]; exact hn)
    rw [e1, e2]
    rfl

theorem mixU_gemm {x x' y y' v v' : Arr2 ℝ} (hx : RelA2 (EqIn Any) x x') (hy : MixU x.nc k U y y')
    (hv : MixU n k U v v') : RelM (MixU n k U) (genMatMul (-1) x y 1 v) (genMatMul (-1) x' y' 1 v') := by
  obtain ⟨sv, sv', ev⟩ := hv
  obtain ⟨sy, sy', ey⟩ := hy
  have h1 := hx.nr
  have h2 := hx.nc
  by_cases hn : x.nr = n
  · obtain ⟨sx', ex⟩ := mat_of_rel hx (⟨hn, rfl⟩ : HasShape x n x.nc)
    have e1 : ∃ z, genMatMul (-1) x y 1 v = .ok z := by
      unfold genMatMul
      rw [if_pos ⟨sy.1.symm, hn.trans sv.1.symm, sy.2.trans sv.2.symm⟩]
      exact ⟨_, rfl⟩
    have e2 : ∃ z, genMatMul (-1) x' y' 1 v' = .ok z := by
      unfold genMatMul
      rw [if_pos ⟨by rw [sy'.1, h2], by rw [sv'.1, ← hn, h1], sy'.2.trans sv'.2.symm⟩]
      exact ⟨_, rfl⟩
    obtain ⟨z, e1⟩ := e1
    obtain ⟨z', e2⟩ := e2
    rw [e1, e2]
    obtain ⟨-, s1, m1⟩ := genMatMul_mat e1 (⟨hn, rfl⟩ : HasShape x n x.nc) sv
    obtain ⟨-, s2, m2⟩ := genMatMul_mat e2 sx' sv'
    exact ⟨s1, s2, by rw [m1, m2, ex, ey, ev, Matrix.sub_mul, Matrix.mul_assoc]⟩
  · have e1 : genMatMul (-1) x y 1 v = .error .panic := by
      unfold genMatMul
      exact if_neg fun h => hn (h.2.1.trans sv.1)
    have e2 : genMatMul (-1) x' y' 1 v' = .error .panic := by
      unfold genMatMul
      exact if_neg fun h => hn (h1.trans (h.2.1.trans sv'.1))
    rw [e1, e2]
    rfl

theorem mixU_solve {l l' v v' : Arr2 ℝ} (hl : RelA2 (EqIn Any) l l') (sl : HasShape l m m) (pl : LowerPos (toMat m m l))
    (hv : MixU m k U v v') : RelM (MixU m k U) (solveTriangular l v .lower) (solveTriangular l' v' .lower) := by
  obtain ⟨sv, sv', ev⟩ := hv
  obtain ⟨sl', el⟩ := mat_of_rel hl sl
  obtain ⟨x, hx, -⟩ := C03_solve_triangular l v .lower sl sv (fun i hi => (pl.2 ⟨i, hi⟩).ne')
  obtain ⟨x', hx', -⟩ := C03_solve_triangular l' v' .lower sl' sv' (fun i hi => by
    have := congrFun (congrFun el ⟨i, hi⟩) ⟨i, hi⟩
    simp only [toMat_apply] at this
    rw [this]
    exact (pl.2 ⟨i, hi⟩).ne')
  rw [hx, hx']
  obtain ⟨s1, m1⟩ := solveLower_mat hx sl pl sv
  obtain ⟨s2, m2⟩ := solveLower_mat hx' sl' (by rw [el]; exact pl) sv'
  refine ⟨s1, s2, matrix_mul_left_cancel pl.isUnit ?_⟩
  rw [← el, m2, el, ev, ← Matrix.mul_assoc, m1]

/-- **C125**: `orthonormalize` returns the same columns for `V` and for `V U`, and fails for both or for neither. -/
theorem C125_orthonormalize {v v' : Arr2 ℝ} (h : Mixed v v') :
    SameRun (fun p q => SameArr p.1 q.1) (orthonormalize v) (orthonormalize v') := by
  obtain ⟨U, hU, sv, sv', ev⟩ := h.mixU
  have hi : (∀ x, (toMat v.nr v.nc v').mulVec x = 0 → x = 0) ↔ ∀ x, (toMat v.nr v.nc v).mulVec x = 0 → x = 0 := by
    rw [ev]
    constructor
    · intro h x hx
      obtain ⟨W, hW⟩ := hU.isUnit.exists_right_inv
      have h1 := h (W.mulVec x) (by rw [Matrix.mulVec_mulVec, Matrix.mul_assoc, hW, Matrix.mul_one, hx])
      have h2 : U.mulVec (W.mulVec x) = x := by rw [Matrix.mulVec_mulVec, hW, Matrix.one_mulVec]
      rw [← h2, h1, Matrix.mulVec_zero]
    · intro h x hx
      rw [← Matrix.mulVec_mulVec] at hx
      have h1 := h _ hx
      exact Matrix.mulVec_injective_of_isUnit hU.isUnit (by rw [h1, Matrix.mulVec_zero])
  obtain ⟨h1, h2⟩ := orthonormalize_cases sv
  obtain ⟨h1', h2'⟩ := orthonormalize_cases sv'
  by_cases hc : ∀ x, (toMat v.nr v.nc v).mulVec x = 0 → x = 0
  · obtain ⟨q, l, e⟩ := h1 hc
    obtain ⟨q', l', e'⟩ := h1' (hi.2 hc)
    obtain ⟨sq, sl, pl, el, oq⟩ := orthonormalize_mat e sv
    obtain ⟨sq', sl', pl', el', oq'⟩ := orthonormalize_mat e' sv'
    constructor
    · intro x hx
      rw [e] at hx
      injection hx with hx
      subst hx
      refine ⟨_, e', ?_⟩
      have hv : toMat v.nr v.nc v = toMat v.nr v.nc q * (toMat v.nc v.nc l)ᵀ := by
        rw [← Matrix.transpose_transpose (toMat v.nr v.nc v), ← el, Matrix.transpose_mul, Matrix.transpose_transpose]
      have hv' : toMat v.nr v.nc v' = toMat v.nr v.nc q' * (toMat v.nc v.nc l')ᵀ := by
        rw [← Matrix.transpose_transpose (toMat v.nr v.nc v'), ← el', Matrix.transpose_mul, Matrix.transpose_transpose]
      have g1 : toMat v.nc v.nc l' * (toMat v.nc v.nc l')ᵀ = (Uᵀ * toMat v.nc v.nc l) * (Uᵀ * toMat v.nc v.nc l)ᵀ := by
        have a1 : (toMat v.nr v.nc v')ᵀ * toMat v.nr v.nc v' = toMat v.nc v.nc l' * (toMat v.nc v.nc l')ᵀ := by
          rw [← el', hv', Matrix.mul_assoc, ← Matrix.mul_assoc _ (toMat v.nr v.nc q'), oq', Matrix.one_mul]
        have a2 : (toMat v.nr v.nc v)ᵀ * toMat v.nr v.nc v = toMat v.nc v.nc l * (toMat v.nc v.nc l)ᵀ := by
          rw [← el, hv, Matrix.mul_assoc, ← Matrix.mul_assoc _ (toMat v.nr v.nc q), oq, Matrix.one_mul]
        rw [← a1, ev, Matrix.transpose_mul, Matrix.transpose_mul, Matrix.transpose_transpose, Matrix.mul_assoc,
          ← Matrix.mul_assoc _ _ U, a2]
        simp only [Matrix.mul_assoc]
      have g2 := pl'.unique (lowerPos_mul hU.lower pl) g1
      have g3 : toMat v.nc v.nc l' * (toMat v.nr v.nc q')ᵀ = toMat v.nc v.nc l' * (toMat v.nr v.nc q)ᵀ := by
        rw [el', ev, g2, Matrix.transpose_mul, Matrix.mul_assoc, el]
      have g4 := congrArg Matrix.transpose (matrix_mul_left_cancel pl'.isUnit g3)
      rw [Matrix.transpose_transpose, Matrix.transpose_transpose] at g4
      exact same_of_relA2 (rel_of_mat sq sq' g4.symm)
    · intro x hx
      rw [e] at hx
      cases hx
  · rw [h2 hc, h2' fun h => hc (hi.1 h)]
    exact ⟨fun x hx => (by cases hx), fun x hx => hx⟩

end

theorem mixU_ortho {n k : Nat} {U : Matrix (Fin k) (Fin k) ℝ} (hU : UpperPos U) {v v' : Arr2 ℝ} (h : MixU n k U v v') :
    RelM (RelP (RelA2 (EqIn Any)) fun _ _ => True) (orthonormalize v) (orthonormalize v') := by
  obtain ⟨⟨rfl, rfl⟩, sv', ev⟩ := h
  have hm : Mixed v v' := by
    refine ⟨sv'.1.symm, sv'.2.symm, fun i j => if h : i < v.nc ∧ j < v.nc then U ⟨i, h.1⟩ ⟨j, h.2⟩ else 0, fun j hj => ?_,
      fun i hi j hj => ?_⟩
    · dsimp only
      rw [dif_pos ⟨hj, hj⟩]
      exact hU.2 _
    · have := congrFun (congrFun ev ⟨i, hi⟩) ⟨j, hj⟩
      rw [toMat_apply, Matrix.mul_apply] at this
      rw [this]
      have hs : Finset.range (j + 1) = (Finset.range v.nc).filter fun l : Nat => l ≤ j := by
        ext l
        simp only [Finset.mem_range, Finset.mem_filter]
        omega
      rw [hs, Finset.sum_filter, Finset.sum_range]
      refine Finset.sum_congr rfl fun l _ => ?_
      rw [toMat_apply]
      split_ifs with h1
      · dsimp only
        rw [dif_pos ⟨l.2, hj⟩]
      · rw [hU.1 l ⟨j, hj⟩ (by rw [Fin.lt_def]; dsimp only; omega), mul_zero]
  exact (C125_orthonormalize hm).rel fun _ _ h => ⟨h.rel, trivial⟩

/-- The factor of the constraints. -/
def GoodFactor (P : LobParams ℝ) (c : Option (Arr2 ℝ)) : Prop :=
  ∀ y l, P.y = some y → c = some l → HasShape l y.nc y.nc ∧ LowerPos (toMat y.nc y.nc l)

theorem mixU_constrain {n k : Nat} {U : Matrix (Fin k) (Fin k) ℝ} {P P' : LobParams ℝ} {c c' : Option (Arr2 ℝ)}
    (hy : RelO (RelA2 (EqIn Any)) P.y P'.y) (hc : RelO (RelA2 (EqIn Any)) c c') (hg : GoodFactor P c) {v v' : Arr2 ℝ}
    (h : MixU n k U v v') : RelM (MixU n k U) (P.constrain c v) (P'.constrain c' v') := by
  unfold GoodFactor at hg
  unfold LobParams.constrain
  revert hy hg
  rcases P.y with _ | y <;> rcases P'.y with _ | y' <;> intro hy hg
  · exact h
  · exact hy.elim
  · exact hy.elim
  · rcases c with _ | c <;> rcases c' with _ | c'
    · exact h
    · exact hc.elim
    · exact hc.elim
    · obtain ⟨sl, pl⟩ := hg y c rfl rfl
      show RelM _ (applyConstraints v c y) (applyConstraints v' c' y')
      unfold applyConstraints
      refine relM_bind (mixU_dot hy h) fun g g' hgg => ?_
      refine relM_bind (relM_unwrap (mixU_solve hc sl pl hgg)) fun u u' hu => ?_
      exact mixU_gemm hy hu h

/-- The parameters of two runs that differ in the scale of the preconditioner. -/
structure MixParams (P P' : LobParams ℝ) : Prop where
  a : ∀ k x y, RelA2 (EqIn Any) x y → RelM (RelA2 (EqIn Any)) (P.a k x) (P'.a k y)
  m : ∀ x y, RelA2 (EqIn Any) x y → RelM Mixed (P.m x) (P'.m y)
  y : RelO (RelA2 (EqIn Any)) P.y P'.y
  tol : P.tol = P'.tol
  order : P.order = P'.order

/-- The same parameters without a preconditioner. -/
def noPrecond (P : LobParams ℝ) : LobParams ℝ := { P with m := fun v => .ok v }

theorem MixParams.rel {P P' : LobParams ℝ} (h : MixParams P P') : RelLobParams (EqIn Any) (noPrecond P) (noPrecond P') :=
  ⟨h.a, fun _ _ h => h, h.y, ⟨h.tol, trivial⟩, h.order⟩

theorem mixed_precondition {P P' : LobParams ℝ} (h : MixParams P P') {x x' : Arr2 ℝ} (hx : RelA2 (EqIn Any) x x') :
    RelM Mixed (P.precondition x) (P'.precondition x') := by
  unfold LobParams.precondition
  refine relM_bind (relM_unwrap (h.m x x' hx)) fun w w' hw => ?_
  refine relM_ite ?_ (fun _ => hw) fun _ => rfl
  rw [hw.1, hw.2.1, hx.nr, hx.nc]

section rest
variable {α : Type} [Zero α] [One α] [Add α] [Sub α] [Mul α] [Div α] [Neg α] [NdFloat α]
variable {β : Type} [Zero β] [One β] [Add β] [Sub β] [Mul β] [Div β] [Neg β] [NdFloat β] {R : α → β → Prop} [ScalarRel R]

/-- What `lobTail` does after it has called `orthonormalize`. -/
def lobRest (eig : EigSolver α) (P : LobParams α) (st : LobState α) (norms : List α) (r : Arr2 α) :
    M (Except LinalgError (LobState α)) := do
  let ar ← P.apply st.calls r
  let maxRnormFloat : α :=
    if NdFloat.lt (NdFloat.ofRat (1 / 10 ^ 8)) (NdFloat.epsilon : α) then NdFloat.ofRat 1
    else NdFloat.ofRat (1 / 10 ^ 8)
  let maxNorm := norms.foldl NdFloat.max NdFloat.negInf
  let st := { st with
    calls := st.calls + 1
    explicitGram := NdFloat.le maxNorm maxRnormFloat || st.explicitGram }
  let g ← xrGram st r ar
  let pap ← activePAP st.mask st.pap
  let (pap, result) ← lobEig eig P.order st r g pap
  match result with
  | .error e => .ok (.error e)
  | .ok (lambda, vecs, gram) => do
    let tau ← vecs.slice 0 st.x.nc 0 vecs.nc
    let (p, ap) ← updatePAP st.x.nc st.blockSize r ar vecs pap
    let xt ← st.x.dot tau
    let x ← xt.add p
    let axt ← st.ax.dot tau
    let ax ← axt.add ap
    .ok (.ok { st with
      lambda := lambda, x := x, ax := ax, pap := some (p, ap), iter := st.iter - 1,
      gram := some gram })

theorem lobTail_rest (eig : EigSolver α) (P : LobParams α) (c : Option (Arr2 α)) (st : LobState α) (r : Arr2 α)
    (norms : List α) : lobTail eig P c st r norms = (do
      let v ← ndarrayMask r st.mask
      let v ← P.precondition v
      let v ← P.constrain c v
      let xv ← st.x.t.dot v
      let v ← genMatMul (-1) st.x xv 1 v
      match ← catchM (orthonormalize v) with
      | .error e => .ok (.error e)
      | .ok (r, _) => lobRest eig P st norms r) := rfl

theorem rel_lobRest {e : EigSolver α} {e' : EigSolver β} (he : RelSolver R e e') {P : LobParams α}
    {Q : LobParams β} (hP : RelLobParams R P Q) {p : LobState α} {q : LobState β} (h : RelLobState R p q) {r : Arr2 α}
    {r' : Arr2 β} (hr : RelA2 R r r') {l : List α} {l' : List β} (hl : List.Forall₂ R l l') :
    RelM (RelE (RelLobState R)) (lobRest e P p l r) (lobRest e' Q q l' r') := by
  have h1 := h.x.nc
  have h2 := h.calls
  have h3 := h.blockSize
  have h4 := h.iter
  have h6 : NdFloat.le (l.foldl NdFloat.max NdFloat.negInf) (if NdFloat.lt (NdFloat.ofRat (1 / 10 ^ 8))
      (NdFloat.epsilon : α) then NdFloat.ofRat 1 else NdFloat.ofRat (1 / 10 ^ 8))
    = NdFloat.le (l'.foldl NdFloat.max NdFloat.negInf) (if NdFloat.lt (NdFloat.ofRat (1 / 10 ^ 8))
      (NdFloat.epsilon : β) then NdFloat.ofRat 1 else NdFloat.ofRat (1 / 10 ^ 8)) := by
    have h5 : NdFloat.lt (NdFloat.ofRat (1 / 10 ^ 8)) (NdFloat.epsilon : α)
      = NdFloat.lt (NdFloat.ofRat (1 / 10 ^ 8)) (NdFloat.epsilon : β) :=
      ScalarRel.lt (R := R) (ScalarRel.ofRat _) ScalarRel.epsilon
    refine ScalarRel.le (R := R) (rel_foldMax hl ScalarRel.negInf) ?_
    rel
  unfold lobRest
  rel

end rest

theorem mix_lobTail {e e' : EigSolver ℝ} (he : RelSolver (EqIn Any) e e') {P P' : LobParams ℝ} (hM : MixParams P P')
    {c c' : Option (Arr2 ℝ)} (hc : RelO (RelA2 (EqIn Any)) c c') (hg : GoodFactor P c) {p q : LobState ℝ}
    (h : RelLobState (EqIn Any) p q) {r r' : Arr2 ℝ} (hr : RelA2 (EqIn Any) r r') {l l' : List ℝ}
    (hl : List.Forall₂ (EqIn Any) l l') :
    RelM (RelE (RelLobState (EqIn Any))) (lobTail e P c p r l) (lobTail e' P' c' q r' l') := by
  rw [lobTail_rest, lobTail_rest]
  refine relM_bind (rel_ndarrayMask hr h.mask) fun v v' hv => ?_
  refine relM_bind (mixed_precondition hM hv) fun v v' hv => ?_
  obtain ⟨U, hU, hv⟩ := hv.mixU
  refine relM_bind (mixU_constrain hM.y hc hg hv) fun v v' hv => ?_
  refine relM_bind (mixU_dot h.x hv) fun xv xv' hxv => ?_
  refine relM_bind (mixU_gemm h.x hxv hv) fun v v' hv => ?_
  refine relM_bind (relM_catch (mixU_ortho hU hv)) fun o o' ho => ?_
  rcases o with o | ⟨r, u⟩ <;> rcases o' with o' | ⟨r', u'⟩
  · exact ho
  · exact ho.elim
  · exact ho.elim
  · exact rel_lobRest (P := noPrecond P) (Q := noPrecond P') he hM.rel h (show RelA2 (EqIn Any) r r' from ho.1) hl

theorem mix_lobLoop {e e' : EigSolver ℝ} (he : RelSolver (EqIn Any) e e') {P P' : LobParams ℝ} (hM : MixParams P P')
    {c c' : Option (Arr2 ℝ)} (hc : RelO (RelA2 (EqIn Any)) c c') (hg : GoodFactor P c) {n : Nat} {p q : LobState ℝ}
    (h : RelLobState (EqIn Any) p q) :
    RelM (RelP (RelLobState (EqIn Any)) (RelO Eq)) (lobLoop e P c n p) (lobLoop e' P' c' n q) := by
  induction n generalizing p q with
  | zero =>
    unfold lobLoop
    refine relM_bind (rel_lobHead (P := noPrecond P) (Q := noPrecond P') hM.rel h) fun o o' ho => ?_
    obtain ⟨st, r, l⟩ := o
    obtain ⟨st', r', l'⟩ := o'
    obtain ⟨hst, hr, hl⟩ := ho
    refine relM_ite ?_ (fun _ => ⟨hst, trivial⟩) fun _ => rfl
    rw [show st.blockSize = st'.blockSize from hst.blockSize, show st.iter = st'.iter from hst.iter]
  | succ n ih =>
    unfold lobLoop
    refine relM_bind (rel_lobHead (P := noPrecond P) (Q := noPrecond P') hM.rel h) fun o o' ho => ?_
    obtain ⟨st, r, l⟩ := o
    obtain ⟨st', r', l'⟩ := o'
    obtain ⟨hst, hr, hl⟩ := ho
    refine relM_ite ?_ (fun _ => ⟨hst, trivial⟩) fun _ => ?_
    · rw [show st.blockSize = st'.blockSize from hst.blockSize, show st.iter = st'.iter from hst.iter]
    · refine relM_bind (mix_lobTail he hM hc hg hst hr hl) fun o o' ho => ?_
      rcases o with o | o <;> rcases o' with o' | o'
      · exact ⟨hst, show o = o' from ho⟩
      · exact ho.elim
      · exact ho.elim
      · exact ih ho

theorem mix_lobpcgRun {e e' : EigSolver ℝ} (he : RelSolver (EqIn Any) e e') {P P' : LobParams ℝ} (hM : MixParams P P')
    {x x' : Arr2 ℝ} (hx : Mixed x x') (n : Nat) :
    RelM (RelP (RelX (RelP Eq (RelO (RelLobpcg (EqIn Any)))) (RelLobpcg (EqIn Any))) (List.Forall₂ (RelIterate (EqIn Any))))
      (lobpcgRun e P x n) (lobpcgRun e' P' x' n) := by
  have h1 := hx.1
  have h2 := hx.2.1
  obtain ⟨U, hU, hx⟩ := hx.mixU
  unfold lobpcgRun
  dsimp only
  rw [← h1, ← h2]
  refine relM_ite Iff.rfl (fun _ => ⟨⟨rfl, trivial⟩, .nil⟩) fun _ => ?_
  refine relM_bind (R := fun c c' => RelO (RelA2 (EqIn Any)) c c' ∧ GoodFactor P c) ?_ ?_
  · have hy := hM.y
    cases e1 : P.y with
    | none =>
      rw [e1] at hy
      cases e2 : P'.y with
      | none => exact ⟨trivial, fun y l h => by rw [e1] at h; cases h⟩
      | some y' => rw [e2] at hy; exact hy.elim
    | some y =>
      rw [e1] at hy
      cases e2 : P'.y with
      | none => rw [e2] at hy; exact hy.elim
      | some y' =>
        rw [e2] at hy
        have hy' : RelA2 (EqIn Any) y y' := hy
        dsimp only
        have k1 := Arr2.dot_ok (a := y.t) (b := y) rfl
        have k2 := Arr2.dot_ok (a := y'.t) (b := y') rfl
        have hyy := rel_dot2 (rel_t hy') hy'
        rw [k1, k2] at hyy
        rw [k1, k2, ok_bind, ok_bind]
        obtain ⟨sg, eg⟩ := tdot_mat k1 (⟨rfl, rfl⟩ : HasShape y y.nr y.nc) ⟨rfl, rfl⟩
        have hch := rel_cholesky hyy
        cases q1 : cholesky (α := ℝ) ⟨y.t.nr, y.nc, _⟩ with
        | error e => 
          rw [RelM.of_error hch q1]
          exact relM_bind (R := fun _ _ => False) (relM_unwrap rfl) fun _ _ h => h.elim
        | ok l =>
          obtain ⟨l', q2, hl⟩ := RelM.of_ok hch q1
          rw [q2]
          obtain ⟨sl, pl, -⟩ := C08_cholesky_factor _ l sg (by rw [eg]; exact gram_isSymm _) q1
          refine ⟨hl, fun y0 l0 h0 h3 => ?_⟩
          rw [e1] at h0
          cases h0
          cases h3
          exact ⟨sl, pl⟩
  · rintro c c' ⟨hc, hg⟩
    refine relM_bind (mixU_constrain hM.y hc hg hx) fun v v' hv => ?_
    refine relM_bind (relM_catch (mixU_ortho hU hv)) fun o o' ho => ?_
    rcases o with o | ⟨r, u⟩ <;> rcases o' with o' | ⟨r', u'⟩
    · obtain rfl : o = o' := ho
      exact ⟨⟨rfl, trivial⟩, .nil⟩
    · exact ho.elim
    · exact ho.elim
    · have hr : RelA2 (EqIn Any) r r' := ho.1
      dsimp only
      rw [← hM.order]
      refine relM_bind (relM_unwrap (hM.a 0 r r' hr)) fun ar ar' har => ?_
      refine relM_bind (rel_dot2 (rel_t hr) har) fun xax xax' hxax => ?_
      refine relM_bind (relM_catch (rel_sortedEig he hxax (b := none) (b' := none) trivial rfl rfl)) fun o o' ho => ?_
      rcases o with o | ⟨lam, vec⟩ <;> rcases o' with o' | ⟨lam', vec'⟩
      · obtain rfl : o = o' := ho
        exact ⟨⟨rfl, trivial⟩, .nil⟩
      · exact ho.elim
      · exact ho.elim
      · obtain ⟨hlam, hvec⟩ := ho
        dsimp only at hlam hvec ⊢
        refine relM_bind (rel_dot2 hr hvec) fun y y' hy => ?_
        refine relM_bind (rel_dot2 har hvec) fun ay ay' hay => ?_
        refine relM_bind (mix_lobLoop he hM hc hg ⟨hlam, hy, hay, rfl, trivial, rfl, ?_, trivial, rfl, rfl, rfl, trivial, .nil⟩)
          fun o o' ho => ?_
        · exact ⟨rfl, rfl, fun i _ j _ => ⟨rfl, trivial⟩⟩
        · obtain ⟨st, f⟩ := o
          obtain ⟨st', f'⟩ := o'
          obtain ⟨hst, hf⟩ := ho
          dsimp only at hst hf ⊢
          have hb := hst.best
          revert hb
          rcases st.best with _ | b <;> rcases st'.best with _ | b' <;> intro hb
          · rfl
          · exact hb.elim
          · exact hb.elim
          · rcases f with _ | f <;> rcases f' with _ | f'
            · exact ⟨hb, hst.hist⟩
            · exact hf.elim
            · exact hf.elim
            · exact ⟨⟨hf, hb⟩, hst.hist⟩

/-- **C125**: two runs of LOBPCG with the same operator, constraints, tolerance and order, whose preconditioners return
matrices with the same leading columns up to positive factors, and whose start blocks are related in the same way, have
the same outcome: the same values, vectors, residual norms and errors. -/
theorem C125_lobpcg {P P' : LobParams ℝ} (hA : ∀ k x y, SameArr x y → SameRun SameArr (P.a k x) (P'.a k y))
    (hM : ∀ x y, SameArr x y → SameRun Mixed (P.m x) (P'.m y)) (hY : SameOpt SameArr P.y P'.y) (ht : P.tol = P'.tol)
    (ho : P.order = P'.order) {x x' : Arr2 ℝ} (hx : Mixed x x') (fuel maxiter : Nat) :
    SameRun SameLobResult (lobpcg fuel P x maxiter) (lobpcg fuel P' x' maxiter) := by
  have hP : MixParams P P' :=
    ⟨fun k x y h => (hA k x y (same_of_relA2 h)).rel fun _ _ h => h.rel,
      fun x y h => (hM x y (same_of_relA2 h)).rel fun _ _ h => h, by
        rcases hY with ⟨h1, h2⟩ | ⟨y, y', h1, h2, h3⟩
        · rw [h1, h2]; trivial
        · rw [h1, h2]; exact h3.rel, ht, ho⟩
  unfold lobpcg
  have h : RelM (RelX (RelP Eq (RelO (RelLobpcg (EqIn Any)))) (RelLobpcg (EqIn Any)))
      (do let (r, _) ← lobpcgRun (eighInto fuel) P x maxiter; .ok r)
      (do let (r, _) ← lobpcgRun (eighInto fuel) P' x' maxiter; .ok r) :=
    relM_bind (mix_lobpcgRun (relSolver_eighInto fuel) hP hx maxiter) fun _ _ h => h.1
  exact sameRun_of_rel h fun _ _ => same_of_relX

/-- All entries times `c`. -/
def scaled (c : ℝ) (w : Arr2 ℝ) : Arr2 ℝ := ⟨w.nr, w.nc, fun i j => c * w.get i j⟩

theorem mixed_scaled {c : ℝ} (hc : 0 < c) {w w' : Arr2 ℝ} (h : SameArr (scaled c w) w') : Mixed w w' := by
  refine ⟨h.1, h.2.1, fun l j => if l = j then c else 0, fun j _ => by dsimp only; rw [if_pos rfl]; exact hc,
    fun i hi j hj => ?_⟩
  rw [← h.2.2 i j hi hj, Finset.sum_eq_single j]
  · dsimp only
    rw [if_pos rfl, mul_comm]
    rfl
  · intro l _ hl
    dsimp only
    rw [if_neg hl, mul_zero]
  · intro h
    exact absurd (Finset.mem_range.2 (Nat.lt_succ_self j)) h

/-- **C125**: multiplying the preconditioner of `TruncatedEig` by a positive number, or all numbers the generator
draws by another one, changes nothing. -/
theorem C125_truncated {ρ : Type} {c d : ℝ} (hc : 0 < c) (hd : 0 < d) {g g' : RandomSource ℝ ρ}
    (hg : ∀ r k st i j, (g'.gen r k st).1 i j = d * (g.gen r k st).1 i j) (hg2 : ∀ r k st, (g'.gen r k st).2 = (g.gen r k st).2)
    (t : TruncatedEig ℝ ρ) {p : Arr2 ℝ} (hp : t.preconditioner = some p) (fuel num : Nat) :
    SameRun (fun a b => SameLobResult a.1 b.1 ∧ a.2.rng = b.2.rng) (t.decompose (eighInto fuel) g num)
      ((t.preconditionWith (scaled c p)).decompose (eighInto fuel) g' num) := by
  have hP : MixParams t.params (t.preconditionWith (scaled c p)).params := by
    refine ⟨fun k x y h => rel_dot2 (R := EqIn Any) ⟨rfl, rfl, fun _ _ _ _ => ⟨rfl, trivial⟩⟩ h, fun x y h => ?_, ?_, rfl, rfl⟩
    · have e1 : t.params.m x = (do let z ← p.dot x; x.assign z) := by
        simp only [TruncatedEig.params, hp]
      have e2 : (t.preconditionWith (scaled c p)).params.m y = (do let z ← (scaled c p).dot y; y.assign z) := rfl
      rw [e1, e2]
      have h1 := h.nr
      have h2 := h.nc
      unfold Arr2.dot Arr2.assign
      by_cases hn : p.nc = x.nr
      · rw [if_pos hn, if_pos (show (scaled c p).nc = y.nr by rw [← h1]; exact hn), ok_bind, ok_bind]
        refine relM_ite ?_ (fun hh => ?_) fun _ => rfl
        · show (p.nr = x.nr ∨ p.nr = 1) ∧ (x.nc = x.nc ∨ x.nc = 1) ↔ (p.nr = y.nr ∨ p.nr = 1) ∧ (y.nc = y.nc ∨ y.nc = 1)
          rw [h1, h2]
        · refine mixed_scaled hc ⟨h1, h2, fun i j hi hj => ?_⟩
          show c * dotTo _ _ _ = dotTo _ _ _
          rw [dotTo_eq, dotTo_eq, Finset.mul_sum]
          refine Finset.sum_congr rfl fun l hl => ?_
          have hl' : l < x.nr := by rw [← hn]; exact Finset.mem_range.1 hl
          have hj' : (if x.nc = x.nc then j else 0) < x.nc := by rw [if_pos rfl]; exact hj
          show c * (p.get _ l * x.get l _) = c * p.get _ l * y.get l _
          rw [(h.get l hl' _ hj').1, mul_assoc, if_pos rfl, if_pos rfl]
          by_cases hr : p.nr = x.nr
          · have hr' : (scaled c p).nr = y.nr := hr.trans h1
            rw [if_pos hr, if_pos hr']
          · have hr' : ¬ (scaled c p).nr = y.nr := fun h => hr (h.trans h1.symm)
            rw [if_neg hr, if_neg hr']
      · rw [if_neg hn, if_neg (show ¬ (scaled c p).nc = y.nr by rw [← h1]; exact hn)]
        rfl
    · show RelO _ t.constraints t.constraints
      cases t.constraints with
      | none => trivial
      | some y => exact ⟨rfl, rfl, fun _ _ _ _ => ⟨rfl, trivial⟩⟩
  refine sameRun_of_rel (S := fun a b => RelX (RelP Eq (RelO (RelLobpcg (EqIn Any)))) (RelLobpcg (EqIn Any)) a.1 b.1 ∧
    a.2.rng = b.2.rng) ?_ fun _ _ h => ⟨same_of_relX h.1, h.2⟩
  unfold TruncatedEig.decompose
  refine relM_ite Iff.rfl (fun _ => ⟨⟨⟨rfl, fun _ _ => ⟨rfl, trivial⟩⟩, ⟨rfl, rfl, fun _ _ _ _ => ⟨rfl, trivial⟩⟩, .nil⟩, rfl⟩)
    fun _ => ?_
  have hx : Mixed (g.random t.problem.nr num t.rng).1 (g'.random t.problem.nr num t.rng).1 :=
    mixed_scaled hd ⟨rfl, rfl, fun i j _ _ => (hg _ _ _ i j).symm⟩
  refine relM_bind (mix_lobpcgRun (relSolver_eighInto fuel) hP hx t.maxiter) ?_
  rintro ⟨a, b⟩ ⟨a', b'⟩ h
  exact ⟨h.1, (hg2 _ _ _).symm⟩

/-- The hypotheses are met by a start block, one with other columns, and two preconditioners that are not the same. -/
example : Mixed (ofRows 2 2 [[1, 0], [0, 1]]) (ofRows 2 2 [[2, 5], [0, 3]]) ∧
    (∃ q l, orthonormalize (ofRows 2 2 [[1, 0], [0, 1]]) = .ok (q, l)) ∧
    ∀ x y, SameArr x y → SameRun Mixed ((.ok x : M (Arr2 ℝ))) (.ok (scaled 7 y)) := by
  refine ⟨⟨rfl, rfl, fun l j => if l = j then (if l = 0 then 2 else 3) else 5, fun j _ => ?_, fun i hi j hj => ?_⟩, ?_, ?_⟩
  · dsimp only
    rw [if_pos rfl]
    split_ifs <;> norm_num
  · have hi' : i < 2 := hi
    have hj' : j < 2 := hj
    interval_cases i <;> interval_cases j <;> simp [ofRows, Finset.sum_range_succ]
  · refine (orthonormalize_cases (n := 2) (m := 2) (v := ofRows 2 2 [[1, 0], [0, 1]]) ⟨rfl, rfl⟩).1 fun x hx => ?_
    have h0 := congrFun hx 0
    have h1 := congrFun hx 1
    simp [Matrix.mulVec, dotProduct, toMat, ofRows, Fin.sum_univ_two] at h0 h1
    ext i
    fin_cases i
    · exact h0
    · exact h1
  · intro x y h
    refine ⟨fun z hz => ?_, fun e he => by cases he⟩
    cases hz
    exact ⟨_, rfl, mixed_scaled (by norm_num : (0 : ℝ) < 7) ⟨h.1, h.2.1, fun i j hi hj => by
      show 7 * x.get i j = 7 * y.get i j
      rw [h.2.2 i j hi hj]⟩⟩

/-! ## Floating-point numbers

There the scale does matter: if the squares of the entries of the first column vanish, `orthonormalize` reports dependent
columns, whatever they are. -/

section float

variable {F : Format}

theorem Format.round_tiny {x : ℝ} (h0 : 0 ≤ x) (h1 : x ≤ 2 ^ F.emin / 2) : F.round x = some 0 := by
  rcases h0.eq_or_lt with rfl | h0
  · exact F.round_zero
  have hg : (0 : ℝ) < 2 ^ F.emin := by positivity
  have hlog : Int.log 2 x < F.emin := by
    rw [← Int.lt_zpow_iff_log_lt (by norm_num) h0, show (((2 : ℕ) : ℝ)) = 2 by norm_num]
    linarith
  have he : F.exp x = F.emin := max_eq_right (by omega)
  have hr : roundEven (x / 2 ^ F.emin) = 0 :=
    roundEven_small (by positivity) (by rw [div_le_iff₀ hg]; linarith)
  unfold Format.round
  dsimp only
  rw [he, hr, Int.cast_zero, zero_mul, abs_zero, if_pos (by positivity)]

theorem orthonormalize_lost {R : Rounding} (h0 : R.rnd 0 = some 0) (v : Arr2 (Flt R)) (hc : 0 < v.nc)
    (h : ∀ i, i < v.nr → Flt.SqZ (v.get i 0)) : orthonormalize v = .error (.err .notPositiveDefinite) := by
  unfold orthonormalize
  rw [Arr2.dot_ok (a := v.t) (b := v) rfl, ok_bind]
  have hz : Flt.IsZ (dotTo v.nr (fun i => v.get i 0) fun i => v.get i 0) := by
    refine Flt.SqZ.eval h0 _ (fun p hp => ?_) _
    rw [List.mem_map] at hp
    obtain ⟨k, hk, rfl⟩ := hp
    exact ⟨rfl, h k (List.mem_range.1 hk)⟩
  obtain ⟨s, hs⟩ := hz
  have hch : ∀ g : Arr2 (Flt R), g.nr = g.nc → 0 < g.nr → g.get 0 0 = .fin s 0 →
      cholesky g = .error (.err .notPositiveDefinite) := by
    intro g h1 h2 h3
    unfold cholesky choleskyInplace choleskyInplaceDirty
    rw [checkSquare_ok h1]
    obtain ⟨l, hl⟩ : ∃ l, List.range g.nr = 0 :: l := by
      obtain ⟨k, hk⟩ : ∃ k, g.nr = k + 1 := ⟨g.nr - 1, by omega⟩
      rw [hk, List.range_succ_eq_map]
      exact ⟨_, rfl⟩
    dsimp only
    rw [hl]
    unfold cholLoop
    have hrow : cholRow 0 g = .ok (g, 0) := rfl
    rw [hrow, ok_bind]
    dsimp only
    rw [Arr2.at_ok h2 (h1 ▸ h2), ok_bind, h3]
    have hle : NdFloat.le ((.fin s 0 : Flt R) - 0) 0 = true := by
      show Flt.le (Flt.sub (.fin s 0) (.fin false 0)) (.fin false 0) = true
      cases s <;> simp [Flt.sub, Flt.add, Flt.neg, Flt.ofReal, Flt.le, Flt.val, Flt.sgn]
    rw [if_pos hle]
    rfl
  rw [hch _ rfl hc hs]
  rfl

/-- **C125**, the limit: on the numbers of an IEEE 754 format, whatever the order of summation, `orthonormalize` fails if the
square of every entry of the first column is at most half of the smallest positive number, and so does LOBPCG started from such
a block, although other multiples of the block are fine. -/
theorem C125_underflow (P : DotPlans) (v : Arr2 (Flt { Rounding.ieee F with plans := P })) (hc : 0 < v.nc)
    (h : ∀ i, i < v.nr → ∃ s m, v.get i 0 = .fin s m ∧ m ^ 2 ≤ 2 ^ F.emin / 2) :
    orthonormalize v = .error (.err .notPositiveDefinite) ∧
    ∀ (fuel : Nat) (Q : LobParams (Flt { Rounding.ieee F with plans := P })) (maxiter : Nat), Q.y = none → v.nc ≤ v.nr →
      lobpcg fuel Q v maxiter = .ok (.error (.notPositiveDefinite, none)) := by
  have ho : orthonormalize v = .error (.err .notPositiveDefinite) := by
    refine orthonormalize_lost (R := { Rounding.ieee F with plans := P }) F.round_zero v hc fun i hi => ?_
    obtain ⟨s, m, e, hm⟩ := h i hi
    exact ⟨s, m, e, Format.round_tiny (mul_self_nonneg m) (by rw [← sq]; exact hm)⟩
  refine ⟨ho, fun fuel Q maxiter hy hn => ?_⟩
  unfold lobpcg lobpcgRun
  dsimp only
  rw [if_neg (by omega), hy]
  have hcon : Q.constrain none v = .ok v := by
    unfold LobParams.constrain
    rw [hy]
  simp only [ok_bind, hcon, ho]
  rfl

/-- The first column `(2⁻⁶⁰⁰, 2⁻⁶⁰⁰)` in double precision. -/
example : orthonormalize (⟨2, 1, fun _ _ => .fin false ((2 : ℝ) ^ (-600 : ℤ))⟩ :
    Arr2 (Flt { Rounding.ieee Format.double with plans := .unrolled })) = .error (.err .notPositiveDefinite) := by
  refine (C125_underflow .unrolled _ (by norm_num) fun i _ => ⟨false, _, rfl, ?_⟩).1
  show ((2 : ℝ) ^ (-600 : ℤ)) ^ 2 ≤ 2 ^ (-1074 : ℤ) / 2
  rw [← zpow_natCast, ← _root_.zpow_mul, div_eq_mul_inv, ← _root_.zpow_neg_one, ← zpow_add₀ (by norm_num)]
  exact zpow_le_zpow_right₀ (by norm_num) (by norm_num)

end float

end LinfaLinalg
