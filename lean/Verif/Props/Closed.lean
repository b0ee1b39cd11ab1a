import Verif.Proofs.FormatClosed
import Verif.Spec.Real

/-! # What the results depend on, and that floats lead to floats

The model of an array is a shape and a function that also has values outside of the shape. No function of the
library looks at those values. On the numbers of an IEEE 754
format such as `f32` or `f64`, every number that is ever returned is a number of the format. -/

set_option linter.unusedSectionVars false

namespace LinfaLinalg
open Par

section local_

variable {α : Type} [Zero α] [One α] [Add α] [Sub α] [Mul α] [Div α] [Neg α] [NdFloat α]

/-- Two runs with the same outcome: both fail in the same way, or both return, and the results are the same in the
sense of `S`. -/
def SameRun {A : Type} (S : A → A → Prop) (p q : M A) : Prop :=
  (∀ x, p = .ok x → ∃ y, q = .ok y ∧ S x y) ∧ ∀ e, p = .error e → q = .error e

/-- Pairs that are the same in both components. -/
def SamePair {A B : Type} (S : A → A → Prop) (T : B → B → Prop) (p q : A × B) : Prop := S p.1 q.1 ∧ T p.2 q.2

/-- Optional values: both absent, or both present and the same. -/
def SameOpt {A : Type} (S : A → A → Prop) (o o' : Option A) : Prop :=
  (o = none ∧ o' = none) ∨ ∃ x y, o = some x ∧ o' = some y ∧ S x y

/-- Any value. -/
def Any : α → Prop := fun _ => True

instance : ScalarRel (EqIn (Any : α → Prop)) := ClosedScalars.scalarRel (S := Any) closed_all

theorem SameArr.rel {a b : Arr2 α} (h : SameArr a b) : RelA2 (EqIn Any) a b :=
  ⟨h.1, h.2.1, fun i hi j hj => ⟨h.2.2 i j hi hj, trivial⟩⟩

theorem same_of_relA2 {a b : Arr2 α} (h : RelA2 (EqIn Any) a b) : SameArr a b :=
  ⟨h.nr, h.nc, fun i j hi hj => (h.get i hi j hj).1⟩

theorem same_of_relA1 {a b : Arr1 α} (h : RelA1 (EqIn Any) a b) : SameArr1 a b :=
  ⟨h.len, fun i hi => (h.get i hi).1⟩

theorem sameOpt_of_rel {A : Type} {S T : A → A → Prop} (h : ∀ x y, S x y → T x y) {o o' : Option A} (ho : RelO S o o') :
    SameOpt T o o' := by
  cases o <;> cases o'
  · exact .inl ⟨rfl, rfl⟩
  · exact ho.elim
  · exact ho.elim
  · exact .inr ⟨_, _, rfl, rfl, h _ _ ho⟩

theorem sameRun_of_rel {A : Type} {S T : A → A → Prop} {p q : M A} (h : RelM S p q) (hST : ∀ x y, S x y → T x y) :
    SameRun T p q :=
  ⟨fun x hx => by
    obtain ⟨y, hy, hxy⟩ := RelM.of_ok h hx
    exact ⟨y, hy, hST _ _ hxy⟩, fun e he => RelM.of_error h he⟩

theorem SameRun.rel {A : Type} {S T : A → A → Prop} {p q : M A} (h : SameRun S p q) (hST : ∀ x y, S x y → T x y) :
    RelM T p q := by
  cases hp : p with
  | ok x =>
    obtain ⟨y, hy, hxy⟩ := h.1 x hp
    rw [hy]
    exact hST _ _ hxy
  | error e =>
    rw [h.2 e hp]
    rfl

/-- **C109.** The direct methods: the outcome depends only on the entries inside the arrays. -/
theorem C109_direct {a a' b b' : Arr2 α} (ha : SameArr a a') (hb : SameArr b b') (uplo : UPLO) :
    SameRun SameArr (intoTriangular a uplo) (intoTriangular a' uplo) ∧
    SameRun Eq (isTriangular a uplo) (isTriangular a' uplo) ∧
    SameRun SameArr (solveTriangular a b uplo) (solveTriangular a' b' uplo) ∧
    SameRun SameArr (cholesky a) (cholesky a') ∧
    SameRun SameArr (choleskyDirty a) (choleskyDirty a') ∧
    SameRun SameArr (solvec a b) (solvec a' b') ∧
    SameRun SameArr (invc a) (invc a') ∧
    SameRun (SamePair SameArr SameArr) (do (← qrInto a).intoDecomp) (do (← qrInto a').intoDecomp) ∧
    SameRun SameArr (do (← qrInto a).solveInto b) (do (← qrInto a').solveInto b') ∧
    SameRun SameArr (do (← qrInto a).solveTrInto b) (do (← qrInto a').solveTrInto b') ∧
    SameRun SameArr (do (← qrInto a).qtMul b) (do (← qrInto a').qtMul b') ∧
    SameRun SameArr (do (← qrInto a).inverse) (do (← qrInto a').inverse) ∧
    SameRun SameArr (leastSquares a b) (leastSquares a' b') := by
  have ha' := ha.rel
  have hb' := hb.rel
  have hq := rel_qrInto ha'
  exact ⟨sameRun_of_rel (rel_intoTriangular ha' rfl) fun _ _ => same_of_relA2,
    sameRun_of_rel (rel_isTriangular ha' uplo) fun _ _ h => h,
    sameRun_of_rel (rel_solveTriangular ha' hb' rfl) fun _ _ => same_of_relA2,
    sameRun_of_rel (rel_cholesky ha') fun _ _ => same_of_relA2,
    sameRun_of_rel (rel_choleskyDirty ha') fun _ _ => same_of_relA2,
    sameRun_of_rel (rel_solvec ha' hb') fun _ _ => same_of_relA2,
    sameRun_of_rel (rel_invc ha') fun _ _ => same_of_relA2,
    sameRun_of_rel (relM_bind hq fun _ _ h => rel_intoDecomp h) fun _ _ h => ⟨same_of_relA2 h.1, same_of_relA2 h.2⟩,
    sameRun_of_rel (relM_bind hq fun _ _ h => rel_solveInto h hb') fun _ _ => same_of_relA2,
    sameRun_of_rel (relM_bind hq fun _ _ h => rel_solveTrInto h hb') fun _ _ => same_of_relA2,
    sameRun_of_rel (relM_bind hq fun _ _ h => rel_qtMul h hb') fun _ _ => same_of_relA2,
    sameRun_of_rel (relM_bind hq fun _ _ h => rel_inverse h) fun _ _ => same_of_relA2,
    sameRun_of_rel (rel_leastSquares ha' hb') fun _ _ => same_of_relA2⟩

/-- **C109.** The eigenvalue and singular value methods. -/
theorem C109_spectral {a a' : Arr2 α} (ha : SameArr a a') (fuel : Nat) (cu cv : Bool) :
    SameRun (SamePair SameArr1 SameArr) (eigh fuel a) (eigh fuel a') ∧
    SameRun SameArr1 (eigvalsh fuel a) (eigvalsh fuel a') ∧
    SameRun (SamePair (SameOpt SameArr) (SamePair SameArr1 (SameOpt SameArr))) (svd fuel a cu cv) (svd fuel a' cu cv) ∧
    SameRun SameArr (do (← symTridiagonal a).generateQ) (do (← symTridiagonal a').generateQ) ∧
    SameRun SameArr (do (← symTridiagonal a).intoTridiagMatrix) (do (← symTridiagonal a').intoTridiagMatrix) ∧
    SameRun SameArr (do (← bidiagonal a).generateU) (do (← bidiagonal a').generateU) ∧
    SameRun SameArr (do (← bidiagonal a).generateVt) (do (← bidiagonal a').generateVt) ∧
    SameRun SameArr (do (← bidiagonal a).intoB) (do (← bidiagonal a').intoB) := by
  have ha' := ha.rel
  have ht := rel_symTridiagonal ha'
  have hb := rel_bidiagonal ha'
  exact ⟨sameRun_of_rel (rel_eigh rfl ha') fun _ _ h => ⟨same_of_relA1 h.1, same_of_relA2 h.2⟩,
    sameRun_of_rel (rel_eigvalsh rfl ha') fun _ _ => same_of_relA1,
    sameRun_of_rel (rel_svd rfl ha' rfl rfl) fun _ _ h => ⟨sameOpt_of_rel (fun _ _ => same_of_relA2) h.1,
      same_of_relA1 h.2.1, sameOpt_of_rel (fun _ _ => same_of_relA2) h.2.2⟩,
    sameRun_of_rel (relM_bind ht fun _ _ h => rel_triGenerateQ h) fun _ _ => same_of_relA2,
    sameRun_of_rel (relM_bind ht fun _ _ h => rel_intoTridiagMatrix h) fun _ _ => same_of_relA2,
    sameRun_of_rel (relM_bind hb fun _ _ h => rel_generateU h) fun _ _ => same_of_relA2,
    sameRun_of_rel (relM_bind hb fun _ _ h => rel_generateVt h) fun _ _ => same_of_relA2,
    sameRun_of_rel (relM_bind hb fun _ _ h => rel_intoB h) fun _ _ => same_of_relA2⟩

/-- The same values, vectors and residual norms. -/
def SameLobpcg (l l' : Lobpcg α) : Prop :=
  SameArr1 l.eigvals l'.eigvals ∧ SameArr l.eigvecs l'.eigvecs ∧ l.rnorm = l'.rnorm

/-- The same outcome of the solver: `Ok` with the same result, or the same error with the same best result. -/
def SameLobResult (r r' : LobpcgResult α) : Prop :=
  (∃ l l', r = .ok l ∧ r' = .ok l' ∧ SameLobpcg l l') ∨
    ∃ e o o', r = .error (e, o) ∧ r' = .error (e, o') ∧ SameOpt SameLobpcg o o'

theorem same_of_relLobpcg {l l' : Lobpcg α} (h : RelLobpcg (EqIn Any) l l') : SameLobpcg l l' :=
  ⟨same_of_relA1 h.eigvals, same_of_relA2 h.eigvecs, (forall₂_all_of h.rnorm).1⟩

theorem same_of_relX {r r' : LobpcgResult α}
    (h : RelX (RelP Eq (RelO (RelLobpcg (EqIn Any)))) (RelLobpcg (EqIn Any)) r r') : SameLobResult r r' := by
  rcases r with ⟨e, o⟩ | l <;> rcases r' with ⟨e', o'⟩ | l'
  · obtain ⟨he, ho⟩ := h
    obtain rfl : e = e' := he
    exact .inr ⟨e, o, o', rfl, rfl, sameOpt_of_rel (fun _ _ => same_of_relLobpcg) ho⟩
  · exact h.elim
  · exact h.elim
  · exact .inl ⟨l, l', rfl, rfl, same_of_relLobpcg h⟩

/-- **C109.** LOBPCG: if the operator and the preconditioner themselves look only at the entries inside their
arguments, the outcome depends only on the entries inside the start block and the constraints. -/
theorem C109_lobpcg {P P' : LobParams α} (hA : ∀ k x y, SameArr x y → SameRun SameArr (P.a k x) (P'.a k y))
    (hM : ∀ x y, SameArr x y → SameRun SameArr (P.m x) (P'.m y)) (hY : SameOpt SameArr P.y P'.y) (ht : P.tol = P'.tol)
    (ho : P.order = P'.order) {x x' : Arr2 α} (hx : SameArr x x') (fuel maxiter : Nat) :
    SameRun SameLobResult (lobpcg fuel P x maxiter) (lobpcg fuel P' x' maxiter) := by
  have hP : RelLobParams (EqIn Any) P P' :=
    ⟨fun k x y h => (hA k x y (same_of_relA2 h)).rel fun _ _ h => h.rel,
      fun x y h => (hM x y (same_of_relA2 h)).rel fun _ _ h => h.rel, by
        rcases hY with ⟨h1, h2⟩ | ⟨y, y', h1, h2, h3⟩
        · rw [h1, h2]; trivial
        · rw [h1, h2]; exact h3.rel, ⟨ht, trivial⟩, ho⟩
  exact sameRun_of_rel (rel_lobpcg fuel hP hx.rel maxiter) fun _ _ => same_of_relX

/-- **C109.** The truncated decompositions, with their own eigensolver. -/
theorem C109_truncated {ρ : Type} [MagnitudeCorrection α] {g : RandomSource α ρ} {a a' : Arr2 α} (ha : SameArr a a')
    (order : Order) (st : ρ) (fuel num : Nat) :
    SameRun (SamePair SameLobResult fun _ _ => True) ((TruncatedEig.new a order st).decompose (eighInto fuel) g num)
      ((TruncatedEig.new a' order st).decompose (eighInto fuel) g num) ∧
    SameRun SameArr1 (do (← (TruncatedSvd.new a order st).decompose (eighInto fuel) g num).values)
      (do (← (TruncatedSvd.new a' order st).decompose (eighInto fuel) g num).values) ∧
    SameRun (SamePair SameArr (SamePair SameArr1 SameArr))
      (do (← (TruncatedSvd.new a order st).decompose (eighInto fuel) g num).valuesVectors)
      (do (← (TruncatedSvd.new a' order st).decompose (eighInto fuel) g num).valuesVectors) := by
  have hg : RelSource (EqIn (Any : α → Prop)) g g := fun r c st => ⟨fun i _ j _ => ⟨rfl, trivial⟩, rfl⟩
  have hm : RelCorrection (EqIn (Any : α → Prop)) := ⟨rfl, trivial⟩
  have hs := rel_decomposeSvd (relSolver_eighInto fuel) hg (relTruncatedSvd_new ha.rel order st) num
  exact ⟨sameRun_of_rel (rel_decompose (relSolver_eighInto fuel) hg (relTruncatedEig_new ha.rel order st) num)
      fun _ _ h => ⟨same_of_relX h.1, trivial⟩,
    sameRun_of_rel (relM_bind hs fun _ _ h => rel_values hm h) fun _ _ => same_of_relA1,
    sameRun_of_rel (relM_bind hs fun _ _ h => rel_valuesVectors hm h) fun _ _ h => ⟨same_of_relA2 h.1,
      same_of_relA1 h.2.1, same_of_relA2 h.2.2⟩⟩

end local_

/-- Two arrays that differ outside of their shape only. -/
example : SameArr (⟨2, 2, fun i j => if i = j then 2 else 1⟩ : Arr2 ℝ)
    ⟨2, 2, fun i j => if 2 ≤ i then 7 else if i = j then 2 else 1⟩ := by
  refine ⟨rfl, rfl, fun i j hi _ => ?_⟩
  dsimp only at hi ⊢
  rw [if_neg (by omega : ¬ 2 ≤ i)]

/-! ## Floating-point formats -/

variable {F : Format}

local notation "𝔽" => Flt (Rounding.ieee F)

instance : ScalarRel (EqIn (IsFloat F)) := closed_float.scalarRel

/-- All values that can be returned have the property. -/
def ReturnsIn {A : Type} (S : A → Prop) (p : M A) : Prop := ∀ x, p = .ok x → S x

theorem returnsIn_of_rel {A : Type} {S : A → A → Prop} {T : A → Prop} {p q : M A} (h : RelM S p q)
    (hST : ∀ x y, S x y → T x) : ReturnsIn T p := fun x hx => by
  obtain ⟨y, -, hxy⟩ := RelM.of_ok h hx
  exact hST _ _ hxy

/-- An optional matrix of numbers of a format. -/
def OptFloats (o : Option (Arr2 𝔽)) : Prop := ∀ a, o = some a → All2 (IsFloat F) a

theorem optFloats_of_rel {o o' : Option (Arr2 𝔽)} (h : RelO (RelA2 (EqIn (IsFloat F))) o o') : OptFloats o :=
  fun a ha => by
    obtain ⟨y, -, hxy⟩ := RelO.of_some h ha
    exact hxy.all

/-- **C110.** The direct methods on matrices of numbers of a format return numbers of a format. -/
theorem C110_direct {a b : Arr2 𝔽} (ha : All2 (IsFloat F) a) (hb : All2 (IsFloat F) b) (uplo : UPLO) :
    ReturnsIn (All2 (IsFloat F)) (solveTriangular a b uplo) ∧
    ReturnsIn (All2 (IsFloat F)) (cholesky a) ∧
    ReturnsIn (All2 (IsFloat F)) (choleskyDirty a) ∧
    ReturnsIn (All2 (IsFloat F)) (solvec a b) ∧
    ReturnsIn (All2 (IsFloat F)) (invc a) ∧
    ReturnsIn (fun p => All2 (IsFloat F) p.1 ∧ All2 (IsFloat F) p.2) (do (← qrInto a).intoDecomp) ∧
    ReturnsIn (All2 (IsFloat F)) (do (← qrInto a).solveTrInto b) ∧
    ReturnsIn (All2 (IsFloat F)) (do (← qrInto a).qtMul b) ∧
    ReturnsIn (All2 (IsFloat F)) (do (← qrInto a).inverse) ∧
    ReturnsIn (All2 (IsFloat F)) (leastSquares a b) := by
  have ha' := relA2_of_all ha
  have hb' := relA2_of_all hb
  have hq := rel_qrInto ha'
  exact ⟨returnsIn_of_rel (rel_solveTriangular ha' hb' (rfl : uplo = uplo)) fun _ _ h => h.all,
    returnsIn_of_rel (rel_cholesky ha') fun _ _ h => h.all,
    returnsIn_of_rel (rel_choleskyDirty ha') fun _ _ h => h.all,
    returnsIn_of_rel (rel_solvec ha' hb') fun _ _ h => h.all,
    returnsIn_of_rel (rel_invc ha') fun _ _ h => h.all,
    returnsIn_of_rel (relM_bind hq fun _ _ h => rel_intoDecomp h) fun _ _ h => ⟨h.1.all, h.2.all⟩,
    returnsIn_of_rel (relM_bind hq fun _ _ h => rel_solveTrInto h hb') fun _ _ h => h.all,
    returnsIn_of_rel (relM_bind hq fun _ _ h => rel_qtMul h hb') fun _ _ h => h.all,
    returnsIn_of_rel (relM_bind hq fun _ _ h => rel_inverse h) fun _ _ h => h.all,
    returnsIn_of_rel (rel_leastSquares ha' hb') fun _ _ h => h.all⟩

/-- **C110.** The eigenvalue and singular value methods on matrices of numbers of a format. -/
theorem C110_spectral {a : Arr2 𝔽} (ha : All2 (IsFloat F) a) (fuel : Nat) (cu cv : Bool) :
    ReturnsIn (fun p => All1 (IsFloat F) p.1 ∧ All2 (IsFloat F) p.2) (eigh fuel a) ∧
    ReturnsIn (All1 (IsFloat F)) (eigvalsh fuel a) ∧
    ReturnsIn (fun p => OptFloats p.1 ∧ All1 (IsFloat F) p.2.1 ∧ OptFloats p.2.2) (svd fuel a cu cv) := by
  have ha' := relA2_of_all ha
  exact ⟨returnsIn_of_rel (rel_eigh (rfl : fuel = fuel) ha') fun _ _ h => ⟨h.1.all, h.2.all⟩,
    returnsIn_of_rel (rel_eigvalsh (rfl : fuel = fuel) ha') fun _ _ h => h.all,
    returnsIn_of_rel (rel_svd (rfl : fuel = fuel) ha' (rfl : cu = cu) (rfl : cv = cv)) fun _ _ h =>
      ⟨optFloats_of_rel h.1, h.2.1.all, optFloats_of_rel h.2.2⟩⟩

/-- Values, vectors and residual norms that are numbers of a format. -/
def LobFloats (l : Lobpcg 𝔽) : Prop :=
  All1 (IsFloat F) l.eigvals ∧ All2 (IsFloat F) l.eigvecs ∧ ∀ r ∈ l.rnorm, IsFloat F r

theorem lobFloats_of_relX {r r' : LobpcgResult 𝔽}
    (h : RelX (RelP Eq (RelO (RelLobpcg (EqIn (IsFloat F))))) (RelLobpcg (EqIn (IsFloat F))) r r') :
    ∀ l, LobpcgResult.result r = some l → LobFloats l := fun l hl => by
  obtain ⟨l', -, h⟩ := RelO.of_some (rel_lobpcgResult h) hl
  exact ⟨h.eigvals.all, h.eigvecs.all, (forall₂_all_of h.rnorm).2⟩

/-- **C110.** The truncated decompositions of a matrix of numbers of a format, from a random start block of such
numbers. -/
theorem C110_truncated {ρ : Type} [MagnitudeCorrection 𝔽] (hm : IsFloat F (MagnitudeCorrection.correction : 𝔽))
    {g : RandomSource 𝔽 ρ} (hg : ∀ r c st, ∀ i, i < r → ∀ j, j < c → IsFloat F ((g.gen r c st).1 i j))
    {a : Arr2 𝔽} (ha : All2 (IsFloat F) a) (order : Order) (st : ρ) (fuel num : Nat) :
    ReturnsIn (fun p => ∀ l, LobpcgResult.result p.1 = some l → LobFloats l)
      ((TruncatedEig.new a order st).decompose (eighInto fuel) g num) ∧
    ReturnsIn (All1 (IsFloat F)) (do (← (TruncatedSvd.new a order st).decompose (eighInto fuel) g num).values) ∧
    ReturnsIn (fun p => All2 (IsFloat F) p.1 ∧ All1 (IsFloat F) p.2.1 ∧ All2 (IsFloat F) p.2.2)
      (do (← (TruncatedSvd.new a order st).decompose (eighInto fuel) g num).valuesVectors) := by
  have hg : RelSource (EqIn (IsFloat F)) g g := fun r c st => ⟨fun i hi j hj => ⟨rfl, hg r c st i hi j hj⟩, rfl⟩
  have hm : RelCorrection (EqIn (IsFloat F)) := ⟨rfl, hm⟩
  have ha' := relA2_of_all ha
  have hs := rel_decomposeSvd (relSolver_eighInto fuel) hg (relTruncatedSvd_new ha' order st) num
  exact ⟨returnsIn_of_rel (rel_decompose (relSolver_eighInto fuel) hg (relTruncatedEig_new ha' order st) num)
      fun _ _ h => lobFloats_of_relX h.1,
    returnsIn_of_rel (relM_bind hs fun _ _ h => rel_values hm h) fun _ _ h => h.all,
    returnsIn_of_rel (relM_bind hs fun _ _ h => rel_valuesVectors hm h) fun _ _ h => ⟨h.1.all, h.2.1.all, h.2.2.all⟩⟩

/-- **C110.** What it means for a finite result: it is a multiple of `2 ^ emin` below `2 ^ emax`, and rounding it to
the format changes nothing. -/
theorem C110_range {s : Bool} {m : ℝ} (h : IsFloat F (.fin s m)) :
    0 ≤ m ∧ m < (2 : ℝ) ^ F.emax ∧ (∃ k : ℕ, m = k * (2 : ℝ) ^ F.emin) ∧ F.round m = some m := by
  have hr := IsMag.round h
  obtain ⟨k, e, hk, h1, h2, rfl⟩ := h
  refine ⟨by positivity, ?_, ⟨k * 2 ^ (e - F.emin).toNat, ?_⟩, hr⟩
  · have h3 : (2 : ℝ) ^ e ≤ 2 ^ (F.emax - F.mant - 1) := zpow_le_zpow_right₀ (by norm_num) h2
    have h4 : (k : ℝ) < 2 ^ (F.mant + 1) := by exact_mod_cast hk
    calc (k : ℝ) * 2 ^ e ≤ k * 2 ^ (F.emax - F.mant - 1) := by gcongr
      _ < 2 ^ (F.mant + 1) * 2 ^ (F.emax - F.mant - 1) := by gcongr
      _ = 2 ^ F.emax := by
        rw [← zpow_natCast, ← zpow_add₀ (by norm_num)]
        congr 1
        push_cast
        ring
  · push_cast
    rw [mul_assoc, ← zpow_natCast, ← zpow_add₀ (by norm_num), Int.toNat_of_nonneg (by omega)]
    congr 2
    ring

/-- **C110.** For `f32` and `f64`. -/
theorem C110_range_f32_f64 {s : Bool} {m : ℝ} :
    (IsFloat .single (.fin s m) → m < 2 ^ 128 ∧ ∃ k : ℕ, m = k * (2 : ℝ) ^ (-149 : ℤ)) ∧
    (IsFloat .double (.fin s m) → m < 2 ^ 1024 ∧ (∃ k : ℕ, m = k * (2 : ℝ) ^ (-1074 : ℤ)) ∧ b64Round m = some m) :=
  ⟨fun h => ⟨(C110_range h).2.1.trans_eq (zpow_natCast (2 : ℝ) 128), (C110_range h).2.2.1⟩,
    fun h => ⟨(C110_range h).2.1.trans_eq (zpow_natCast (2 : ℝ) 1024), (C110_range h).2.2⟩⟩

/-- A matrix of numbers of `f32` and `f64`. -/
example : All2 (IsFloat .single) ⟨2, 2, fun i j => if i = j then .fin true 3 else .fin false (1 / 2)⟩ ∧
    All2 IsDouble ⟨2, 2, fun i j => if i = j then .fin true 3 else .fin false (1 / 2)⟩ := by
  constructor <;>
  · intro i _ j _
    dsimp only
    split
    · exact ⟨3, 0, by norm_num [Format.single, Format.double], by norm_num [Format.single, Format.double],
        by norm_num [Format.single, Format.double], by norm_num⟩
    · exact ⟨1, -1, by norm_num [Format.single, Format.double], by norm_num [Format.single, Format.double],
        by norm_num [Format.single, Format.double], by norm_num⟩

end LinfaLinalg
