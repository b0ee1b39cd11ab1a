import Verif.Proofs.Lobpcg
import Verif.Proofs.Sort
import Verif.Props.Cholesky

/-! # The history of a `lobpcg` run -/

set_option linter.unusedSectionVars false

namespace LinfaLinalg

variable {α : Type} [Zero α] [One α] [Add α] [Sub α] [Mul α] [Div α] [Neg α] [NdFloat α]

/-- `<` is the strict part of `<=` on the values that compare with themselves. -/
class LawfulLt (α : Type) [NdFloat α] : Prop where
  lt_iff : ∀ a b : α, NdFloat.le a a = true → NdFloat.le b b = true →
    (NdFloat.lt a b = true ↔ NdFloat.le b a = false)

instance : LawfulLt ℝ where
  lt_iff a b _ _ := by simp

/-- `best` is minimal in `hist` with respect to the sum of the residual norms. -/
def BestOf (best : Option (Lobpcg α)) (hist : List (Iterate α)) : Prop :=
  match best with
  | none => hist = []
  | some b => (∃ it ∈ hist, it.pairs = b) ∧
    ((∀ it ∈ hist, NdFloat.le (sumList it.pairs.rnorm) (sumList it.pairs.rnorm) = true) →
      ∀ it ∈ hist, NdFloat.le (sumList b.rnorm) (sumList it.pairs.rnorm) = true)

theorem BestOf.update [LawfulLe α] [LawfulLt α] {best : Option (Lobpcg α)}
    {hist : List (Iterate α)} (h : BestOf best hist) (cur : Lobpcg α) (mask : List Bool)
    (gram : Option (Arr2 α)) : BestOf (updateBest best cur) (hist ++ [⟨cur, mask, gram⟩]) := by
  unfold updateBest
  cases best with
  | none =>
    have h : hist = [] := h
    subst h
    refine ⟨⟨⟨cur, mask, gram⟩, by simp, rfl⟩, ?_⟩
    intro hn it hit
    simp only [List.nil_append, List.mem_singleton] at hit
    subst hit
    exact hn ⟨cur, mask, gram⟩ (by simp)
  | some b =>
    obtain ⟨⟨it0, hit0, hb⟩, hmin⟩ := h
    by_cases hlt : NdFloat.lt (sumList cur.rnorm) (sumList b.rnorm) = true
    · simp only [hlt, if_true]
      refine ⟨⟨⟨cur, mask, gram⟩, by simp, rfl⟩, ?_⟩
      intro hn it hit
      have hcur := hn ⟨cur, mask, gram⟩ (by simp)
      have hbb := hn it0 (by simp [hit0])
      rw [hb] at hbb
      have h1 : NdFloat.le (sumList cur.rnorm) (sumList b.rnorm) = true := by
        rcases LawfulLe.total _ _ hcur hbb with h | h
        · exact h
        · rw [(LawfulLt.lt_iff _ _ hcur hbb).1 hlt] at h; cases h
      rcases List.mem_append.1 hit with hit | hit
      · exact LawfulLe.trans _ _ _ h1 (hmin (fun i hi => hn i (by simp [hi])) it hit)
      · rw [List.mem_singleton] at hit
        subst hit
        exact hcur
    · simp only [hlt]
      refine ⟨⟨it0, by simp [hit0], hb⟩, ?_⟩
      intro hn it hit
      have hcur := hn ⟨cur, mask, gram⟩ (by simp)
      have hbb := hn it0 (by simp [hit0])
      rw [hb] at hbb
      rcases List.mem_append.1 hit with hit | hit
      · exact hmin (fun i hi => hn i (by simp [hi])) it hit
      · rw [List.mem_singleton] at hit
        subst hit
        by_contra hc
        exact hlt ((LawfulLt.lt_iff _ _ hcur hbb).2 (by simpa using hc))

/-- Position `p` of the mask is set exactly when the residual of pair `p` exceeded the tolerance at
every iterate of `hist`. -/
def MaskOf (k : Nat) (tol : α) (hist : List (Iterate α)) (mask : List Bool) : Prop :=
  mask.length = k ∧ ∀ p < k, (mask.getD p false = true ↔
    ∀ it ∈ hist, NdFloat.lt tol (it.pairs.rnorm.getD p 0) = true)

theorem MaskOf.update {k : Nat} {tol : α} {hist : List (Iterate α)} {mask : List Bool}
    (h : MaskOf k tol hist mask) {lambda : Arr1 α} {x : Arr2 α} {norms : List α} {m : List Bool}
    {gram : Option (Arr2 α)} (hn : norms.length = k) :
    MaskOf k tol (hist ++ [⟨⟨lambda, x, norms⟩, m, gram⟩]) (updateMask tol norms mask) := by
  unfold updateMask
  refine ⟨by simp [hn, h.1], ?_⟩
  intro p hp
  have hp1 : p < norms.length := by omega
  have hp2 : p < mask.length := by rw [h.1]; exact hp
  have := h.2 p hp
  simp only [List.getD_eq_getElem?_getD, List.getElem?_zipWith, List.getElem?_eq_getElem hp1,
    List.getElem?_eq_getElem hp2, Option.getD_some, Bool.and_eq_true] at this ⊢
  rw [this]
  constructor
  · rintro ⟨h1, h2⟩ it hit
    rcases List.mem_append.1 hit with hit | hit
    · exact h2 it hit
    · rw [List.mem_singleton] at hit
      subst hit
      simpa [List.getElem?_eq_getElem hp1] using h1
  · intro h1
    refine ⟨?_, fun it hit => h1 it (by simp [hit])⟩
    have := h1 ⟨⟨lambda, x, norms⟩, m, gram⟩ (by simp)
    simpa [List.getElem?_eq_getElem hp1] using this

/-- Every recorded mask is the one determined by the iterates up to it. -/
def HistOk (k : Nat) (tol : α) (hist : List (Iterate α)) : Prop :=
  ∀ l it r, hist = l ++ it :: r → it.pairs.rnorm.length = k ∧ it.pairs.eigvals.len = k ∧
    MaskOf k tol (l ++ [it]) it.active

theorem HistOk.snoc {k : Nat} {tol : α} {hist : List (Iterate α)} (h : HistOk k tol hist)
    {cur : Iterate α} (h1 : cur.pairs.rnorm.length = k) (h2 : cur.pairs.eigvals.len = k)
    (h3 : MaskOf k tol (hist ++ [cur]) cur.active) : HistOk k tol (hist ++ [cur]) := by
  intro l it r he
  rcases List.eq_nil_or_concat r with rfl | ⟨r', c, rfl⟩
  · obtain ⟨rfl, h⟩ := List.append_inj' he rfl
    simp only [List.cons.injEq, and_true] at h
    subst h
    exact ⟨h1, h2, h3⟩
  · rw [List.concat_eq_append, ← List.cons_append, ← List.append_assoc] at he
    obtain ⟨rfl, -⟩ := List.append_inj' he rfl
    exact h l it r' rfl

/-- The invariant of the main loop on everything but the numerical contents, at the top. -/
structure HistTop (k N : Nat) (tol : α) (st : LobState α) : Prop where
  len : st.lambda.len = k
  best : BestOf st.best st.hist
  mask : MaskOf k tol st.hist st.mask
  hist : HistOk k tol st.hist
  iter : st.iter + st.hist.length = N
  calls : st.calls = st.hist.length + 1
  gram : st.explicitGram = true

/-- The same after the first half of the loop body. -/
structure HistMid (k N : Nat) (tol : α) (st : LobState α) : Prop where
  len : st.lambda.len = k
  xlen : st.x.nc = k
  best : BestOf st.best st.hist
  bestSome : st.best.isSome = true
  mask : MaskOf k tol st.hist st.mask
  block : st.blockSize = st.mask.count true
  hist : HistOk k tol st.hist
  iter : st.iter + st.hist.length = N + 1
  calls : st.calls = st.hist.length
  gram : st.explicitGram = true

theorem HistTop.head [LawfulLe α] [LawfulLt α] {k N : Nat} {P : LobParams α} {st st' : LobState α}
    {r : Arr2 α} {norms : List α} (h : HistTop k N P.tol st)
    (hh : lobHead P st = .ok (st', r, norms)) : HistMid k N P.tol st' := by
  obtain ⟨hr, rfl⟩ := lobHead_inv hh
  have hn : norms.length = k := (LobState.norms_length hr).trans h.len
  obtain ⟨hx, -⟩ := lobResidual_inv hr
  refine ⟨h.len, hx.trans h.len, h.best.update _ _ _, ?_, h.mask.update hn, rfl,
    h.hist.snoc hn h.len (h.mask.update hn), ?_, ?_, h.gram⟩
  · simp only [updateBest]
    cases st.best with
    | none => rfl
    | some b => simp only; split_ifs <;> rfl
  · simp only [List.length_append, List.length_singleton]
    have := h.iter
    omega
  · simp only [List.length_append, List.length_singleton]
    exact h.calls

theorem HistMid.tail {k N : Nat} {eig : EigSolver α} {P : LobParams α} {cholYY : Option (Arr2 α)}
    {st st' : LobState α} {r : Arr2 α} {norms : List α} (h : HistMid k N P.tol st)
    (hi : st.iter ≠ 0) (ht : lobTail eig P cholYY st r norms = .ok (.ok st')) :
    HistTop k N P.tol st' := by
  obtain ⟨h1, h2, h3, h4, h5, h6, -⟩ := lobTail_frame ht
  refine ⟨(lobTail_len ht).trans h.xlen, ?_, ?_, ?_, ?_, ?_, h6 h.gram⟩
  · rw [h1, h2]; exact h.best
  · rw [h1, h3]; exact h.mask
  · rw [h1]; exact h.hist
  · rw [h1, h4]; have := h.iter; omega
  · rw [h1, h5, h.calls]

theorem StartRun.histTop {eig : EigSolver α} {P : LobParams α} {x0 : Arr2 α} {maxiter : Nat}
    {cholYY : Option (Arr2 α)} {st : LobState α} (h : StartRun eig P x0 maxiter cholYY st) :
    HistTop x0.nc (min (x0.nr * 10) maxiter) P.tol st := by
  obtain ⟨x1, x2, l, ax, xax, lambda, eb, x, ax', -, -, -, -, -, -, he, -, -, rfl⟩ := h.run
  refine ⟨(sortedEig_len he).1, rfl, ⟨by simp, ?_⟩, ?_, rfl, rfl, rfl⟩
  · intro p hp
    simp [List.getD_eq_getElem?_getD, hp]
  · intro l it r h
    simp at h

/-- Everything about the history of a run that entered the main loop. -/
theorem lobpcgRun_hist [LawfulLe α] [LawfulLt α] {eig : EigSolver α} {P : LobParams α} {x0 : Arr2 α}
    {maxiter : Nat} {res : LobpcgResult α} {hist : List (Iterate α)}
    (h : lobpcgRun eig P x0 maxiter = .ok (res, hist)) :
    (∃ e, EarlyExit eig P x0 e ∧ res = .error (e, none) ∧ hist = []) ∨
    ∃ cholYY st0 st o b r norms, StartRun eig P x0 maxiter cholYY st0 ∧
      HistMid x0.nc (min (x0.nr * 10) maxiter) P.tol st ∧ LoopEnd eig P cholYY st r norms o ∧
      st.best = some b ∧ hist = st.hist ∧
      res = match o with
        | none => .ok b
        | some e => .error (e, some b) := by
  rcases lobpcgRun_inv h with h | ⟨c, st0, st, o, b, hs, hl, hb, hh, hr⟩
  · exact Or.inl h
  · obtain ⟨r, norms, hJ, hend⟩ := lobLoop_rule (HistTop x0.nc (min (x0.nr * 10) maxiter) P.tol)
      (fun st _ _ => HistMid x0.nc (min (x0.nr * 10) maxiter) P.tol st)
      (fun _ _ _ _ h1 h2 => h1.head h2) (fun _ _ _ _ h1 _ h2 h3 => h1.tail h2 h3) hs.histTop hl
    exact Or.inr ⟨c, st0, st, o, b, r, norms, hs, hJ, hend, hb, hh, hr⟩

/-! ## Never out of fuel -/

/-- The computation does not run out of fuel. -/
def NoFuel {β : Type} (m : M β) : Prop := m ≠ .error .fuel

theorem NoFuel.ok {β : Type} (b : β) : NoFuel (.ok b : M β) := by simp [NoFuel]
theorem NoFuel.panic {β : Type} : NoFuel (.error .panic : M β) := by simp [NoFuel]

theorem NoFuel.bind {β γ : Type} {m : M β} {f : β → M γ} (hm : NoFuel m)
    (hf : ∀ b, m = .ok b → NoFuel (f b)) : NoFuel (m >>= f) := by
  cases m with
  | ok b => exact hf b rfl
  | error e => simpa [NoFuel] using hm

theorem NoFuel.bind' {β γ : Type} {m : M β} {f : β → M γ} (hm : NoFuel m)
    (hf : ∀ b, NoFuel (f b)) : NoFuel (m >>= f) := hm.bind fun b _ => hf b

theorem NoFuel.ite {β : Type} {c : Prop} [Decidable c] {m m' : M β} (h : NoFuel m) (h' : NoFuel m') :
    NoFuel (if c then m else m') := by split_ifs <;> assumption

theorem NoFuel.catchM {β : Type} {m : M β} (h : NoFuel m) : NoFuel (catchM m) := by
  rcases m with (e | _ | _ | _) | b <;> simp_all [NoFuel, LinfaLinalg.catchM]

theorem NoFuel.unwrapM {β : Type} {m : M β} (h : NoFuel m) : NoFuel (unwrapM m) := by
  rcases m with (e | _ | _ | _) | b <;> simp_all [NoFuel, LinfaLinalg.unwrapM]

theorem OnlyErr.noFuel {β : Type} {m : M β} (h : OnlyErr m) : NoFuel m := by
  intro hm
  obtain ⟨e, he⟩ := h _ hm
  cases he

theorem NoFuel.loopM {σ : Type} {is : List Nat} {s : σ} {f : Nat → σ → M σ}
    (h : ∀ i s, NoFuel (f i s)) : NoFuel (loopM is s f) := by
  induction is generalizing s with
  | nil => exact .ok _
  | cons i is ih => rw [loopM_cons]; exact (h i s).bind' fun _ => ih

theorem noFuel_dot (a b : Arr2 α) : NoFuel (a.dot b) := .ite (.ok _) .panic
theorem noFuel_add (a b : Arr2 α) : NoFuel (a.add b) := .ite (.ok _) .panic
theorem noFuel_sub (a b : Arr2 α) : NoFuel (a.sub b) := .ite (.ok _) .panic
theorem noFuel_hcat (a b : Arr2 α) : NoFuel (a.hcat b) := .ite (.ok _) .panic
theorem noFuel_vcat (a b : Arr2 α) : NoFuel (a.vcat b) := .ite (.ok _) .panic
theorem noFuel_scaleCols (a : Arr2 α) (s : Arr1 α) : NoFuel (a.scaleCols s) := .ite (.ok _) .panic
theorem noFuel_slice (a : Arr2 α) (r0 r1 c0 c1 : Nat) : NoFuel (a.slice r0 r1 c0 c1) :=
  .ite (.ok _) .panic
theorem noFuel_slice1 (a : Arr1 α) (r0 r1 : Nat) : NoFuel (a.slice r0 r1) := .ite (.ok _) .panic
theorem noFuel_mask (a : Arr2 α) (mask : List Bool) : NoFuel (ndarrayMask a mask) :=
  .ite (.ite (.ok _) .panic) .panic
theorem noFuel_genMatMul (al be : α) (a b c : Arr2 α) : NoFuel (genMatMul al a b be c) :=
  .ite (.ok _) .panic
theorem noFuel_solve (a b : Arr2 α) (uplo : UPLO) : NoFuel (solveTriangular a b uplo) :=
  (C07_triangular_safe a b uplo).2.2.noFuel
theorem noFuel_cholesky (a : Arr2 α) : NoFuel (cholesky a) :=
  (C07_cholesky_safe a a).2.2.2.1.noFuel

theorem noFuel_sortEig (vals : Arr1 α) (vecs : Arr2 α) (order : Order) :
    NoFuel (sortEig vals vecs order) := by
  unfold sortEig
  refine NoFuel.bind' (.ite .panic (.ok _)) fun l => NoFuel.bind' ?_ fun _ => .ok _
  unfold permuteCols forRange
  refine NoFuel.loopM fun i s => ?_
  split
  · exact .ok _
  · exact NoFuel.bind' (.ite (.ok _) .panic) fun c => .ite (.ok _) .panic

theorem noFuel_orthonormalize (v : Arr2 α) : NoFuel (orthonormalize v) :=
  (noFuel_dot _ _).bind' fun _ => (noFuel_cholesky _).bind' fun _ =>
    (noFuel_solve _ _ _).bind' fun _ => .ok _

theorem noFuel_generalizedEig {eig : EigSolver α} (heig : ∀ a, NoFuel (eig a)) (a b : Arr2 α) :
    NoFuel (generalizedEig eig a b) :=
  (heig _).bind' fun _ => (noFuel_scaleCols _ _).bind' fun _ => (noFuel_dot _ _).bind' fun _ =>
    (noFuel_dot _ _).bind' fun _ => (heig _).bind' fun _ => (noFuel_dot _ _).bind' fun _ => .ok _

theorem noFuel_sortedEig {eig : EigSolver α} (heig : ∀ a, NoFuel (eig a)) (a : Arr2 α)
    (b : Option (Arr2 α)) (size : Nat) (order : Order) : NoFuel (sortedEig eig a b size order) := by
  unfold sortedEig
  refine NoFuel.bind' ?_ fun _ => (noFuel_sortEig _ _ _).bind' fun _ => .ite .panic <|
    (noFuel_scaleCols _ _).bind' fun _ => (noFuel_slice1 _ _ _).bind' fun _ =>
      (noFuel_slice _ _ _ _ _).bind' fun _ => .ok _
  cases b with
  | none => exact heig _
  | some b => exact noFuel_generalizedEig heig _ _

theorem noFuel_applyConstraints (v c y : Arr2 α) : NoFuel (applyConstraints v c y) :=
  (noFuel_dot _ _).bind' fun _ => (noFuel_solve _ _ _).unwrapM.bind' fun _ => noFuel_genMatMul _ _ _ _ _

theorem noFuel_constrain (P : LobParams α) (c : Option (Arr2 α)) (v : Arr2 α) :
    NoFuel (P.constrain c v) := by
  unfold LobParams.constrain
  split
  · exact noFuel_applyConstraints _ _ _
  · exact .ok _

theorem noFuel_symmetrize (v : Arr2 α) : NoFuel (symmetrize v) :=
  (noFuel_add _ _).bind' fun _ => .ok _

theorem noFuel_xrGram (st : LobState α) (r ar : Arr2 α) : NoFuel (xrGram st r ar) :=
  (noFuel_dot _ _).bind' fun _ => (noFuel_dot _ _).bind' fun _ => .ite
    ((noFuel_symmetrize _).bind' fun _ => (noFuel_dot _ _).bind' fun _ =>
      (noFuel_symmetrize _).bind' fun _ => (noFuel_dot _ _).bind' fun _ =>
        (noFuel_dot _ _).bind' fun _ => (noFuel_dot _ _).bind' fun _ => .ok _) (.ok _)

theorem noFuel_activePAP (mask : List Bool) (pap : Option (Arr2 α × Arr2 α)) :
    NoFuel (activePAP mask pap) := by
  unfold activePAP
  split
  · exact .ok _
  · refine (noFuel_mask _ _).bind' fun _ => (noFuel_mask _ _).bind' fun _ =>
      (noFuel_orthonormalize _).catchM.bind' fun o => ?_
    rcases o with e | ⟨p, pr⟩
    · exact .ok _
    · refine (noFuel_solve _ _ _).catchM.bind' fun o => ?_
      rcases o with e | w <;> exact .ok _

theorem noFuel_block2 (a b c : Arr2 α) : NoFuel (block2 a b c) :=
  (noFuel_hcat _ _).bind' fun _ => (noFuel_hcat _ _).bind' fun _ => noFuel_vcat _ _

theorem noFuel_block3 (a b c d e f : Arr2 α) : NoFuel (block3 a b c d e f) :=
  (noFuel_hcat _ _).bind' fun _ => (noFuel_hcat _ _).bind' fun _ => (noFuel_hcat _ _).bind' fun _ =>
    (noFuel_hcat _ _).bind' fun _ => (noFuel_hcat _ _).bind' fun _ => (noFuel_hcat _ _).bind' fun _ =>
      (noFuel_vcat _ _).bind' fun _ => noFuel_vcat _ _

theorem noFuel_eig3 {eig : EigSolver α} (heig : ∀ a, NoFuel (eig a)) (order : Order)
    (st : LobState α) (r : Arr2 α) (g : XRGram α) (p ap : Arr2 α) :
    NoFuel (eig3 eig order st r g p ap) :=
  (noFuel_dot _ _).bind' fun _ => (noFuel_dot _ _).bind' fun _ => (noFuel_dot _ _).bind' fun _ =>
    (noFuel_dot _ _).bind' fun _ => (noFuel_dot _ _).bind' fun _ =>
      (NoFuel.ite ((noFuel_symmetrize _).bind' fun _ => (noFuel_dot _ _).bind' fun _ => .ok _)
        (.ok _)).bind' fun _ => (noFuel_block3 _ _ _ _ _ _).bind' fun _ =>
          (noFuel_block3 _ _ _ _ _ _).bind' fun _ => (noFuel_sortedEig heig _ _ _ _).bind'
            fun _ => .ok _

theorem noFuel_eig2 {eig : EigSolver α} (heig : ∀ a, NoFuel (eig a)) (order : Order)
    (st : LobState α) (g : XRGram α) : NoFuel (eig2 eig order st g) :=
  (noFuel_block2 _ _ _).bind' fun _ => (noFuel_block2 _ _ _).bind' fun _ =>
    (noFuel_sortedEig heig _ _ _ _).bind' fun _ => .ok _

theorem noFuel_lobEig {eig : EigSolver α} (heig : ∀ a, NoFuel (eig a)) (order : Order)
    (st : LobState α) (r : Arr2 α) (g : XRGram α) (pap : Option (Arr2 α × Arr2 α)) :
    NoFuel (lobEig eig order st r g pap) := by
  unfold lobEig
  refine NoFuel.bind' ?_ fun o => ?_
  · split
    · exact .ok _
    · exact (noFuel_eig3 heig _ _ _ _ _ _).catchM
  · rcases o with e | v
    · exact (noFuel_eig2 heig _ _ _).catchM.bind' fun _ => .ok _
    · exact .ok _

theorem noFuel_updatePAP (k b : Nat) (r ar vecs : Arr2 α) (pap : Option (Arr2 α × Arr2 α)) :
    NoFuel (updatePAP k b r ar vecs pap) := by
  unfold updatePAP
  split
  · exact (noFuel_slice _ _ _ _ _).bind' fun _ => (noFuel_slice _ _ _ _ _).bind' fun _ =>
      (noFuel_dot _ _).bind' fun _ => (noFuel_dot _ _).bind' fun _ => (noFuel_add _ _).bind' fun _ =>
        (noFuel_dot _ _).bind' fun _ => (noFuel_dot _ _).bind' fun _ =>
          (noFuel_add _ _).bind' fun _ => .ok _
  · exact (noFuel_slice _ _ _ _ _).bind' fun _ => (noFuel_dot _ _).bind' fun _ =>
      (noFuel_dot _ _).bind' fun _ => .ok _

theorem noFuel_lobTail {eig : EigSolver α} {P : LobParams α} (heig : ∀ a, NoFuel (eig a))
    (ha : ∀ k v, NoFuel (P.a k v)) (hm : ∀ v, NoFuel (P.m v)) (c : Option (Arr2 α))
    (st : LobState α) (r : Arr2 α) (norms : List α) : NoFuel (lobTail eig P c st r norms) := by
  unfold lobTail
  refine (noFuel_mask _ _).bind' fun _ => NoFuel.bind' ?_ fun _ => (noFuel_constrain _ _ _).bind'
    fun _ => (noFuel_dot _ _).bind' fun _ => (noFuel_genMatMul _ _ _ _ _).bind' fun _ =>
      (noFuel_orthonormalize _).catchM.bind' fun o => ?_
  · exact (hm _).unwrapM.bind' fun _ => .ite (.ok _) .panic
  · rcases o with e | ⟨r, l⟩
    · exact .ok _
    · refine (ha _ _).unwrapM.bind' fun _ => (noFuel_xrGram _ _ _).bind' fun _ =>
        (noFuel_activePAP _ _).bind' fun _ => (noFuel_lobEig heig _ _ _ _ _).bind' fun o => ?_
      obtain ⟨pap, res⟩ := o
      rcases res with e | ⟨lambda, vecs, gram⟩
      · exact .ok _
      · exact (noFuel_slice _ _ _ _ _).bind' fun _ => (noFuel_updatePAP _ _ _ _ _ _).bind' fun _ =>
          (noFuel_dot _ _).bind' fun _ => (noFuel_add _ _).bind' fun _ =>
            (noFuel_dot _ _).bind' fun _ => (noFuel_add _ _).bind' fun _ => .ok _

theorem noFuel_lobHead (P : LobParams α) (st : LobState α) : NoFuel (lobHead P st) :=
  NoFuel.bind' ((noFuel_dot _ _).bind' fun _ => (noFuel_sub _ _).bind' fun _ => .ok _) fun _ => .ok _

theorem noFuel_lobLoop {eig : EigSolver α} {P : LobParams α} (heig : ∀ a, NoFuel (eig a))
    (ha : ∀ k v, NoFuel (P.a k v)) (hm : ∀ v, NoFuel (P.m v)) (c : Option (Arr2 α)) (n : Nat)
    (st : LobState α) (hn : st.iter ≤ n) : NoFuel (lobLoop eig P c n st) := by
  induction n generalizing st with
  | zero =>
    unfold lobLoop
    refine (noFuel_lobHead _ _).bind fun o ho => ?_
    obtain ⟨st1, r, norms⟩ := o
    obtain ⟨-, rfl⟩ := lobHead_inv ho
    simp only
    rw [if_pos (Or.inr (by omega))]
    exact .ok _
  | succ n ih =>
    unfold lobLoop
    refine (noFuel_lobHead _ _).bind fun o ho => ?_
    obtain ⟨st1, r, norms⟩ := o
    obtain ⟨-, hst⟩ := lobHead_inv ho
    have hit : st1.iter = st.iter := by rw [hst]
    simp only
    split_ifs
    · exact .ok _
    · refine (noFuel_lobTail heig ha hm c st1 r norms).bind fun o ho => ?_
      rcases o with e | st2
      · exact .ok _
      · have := (lobTail_frame ho).2.2.2.1
        exact ih st2 (by omega)

theorem noFuel_lobpcgRun {eig : EigSolver α} {P : LobParams α} (heig : ∀ a, NoFuel (eig a))
    (ha : ∀ k v, NoFuel (P.a k v)) (hm : ∀ v, NoFuel (P.m v)) (x0 : Arr2 α) (maxiter : Nat) :
    NoFuel (lobpcgRun eig P x0 maxiter) := by
  unfold lobpcgRun
  refine NoFuel.ite (.ok _) (NoFuel.bind' ?_ fun c => (noFuel_constrain _ _ _).bind' fun _ =>
    (noFuel_orthonormalize _).catchM.bind' fun o => ?_)
  · split
    · exact .ok _
    · exact (noFuel_dot _ _).bind' fun _ => (noFuel_cholesky _).unwrapM.bind' fun _ => .ok _
  · rcases o with e | ⟨x, l⟩
    · exact .ok _
    · refine (ha _ _).unwrapM.bind' fun _ => (noFuel_dot _ _).bind' fun _ =>
        (noFuel_sortedEig heig _ _ _ _).catchM.bind' fun o => ?_
      rcases o with e | ⟨lambda, eb⟩
      · exact .ok _
      · refine (noFuel_dot _ _).bind' fun _ => (noFuel_dot _ _).bind' fun _ =>
          (noFuel_lobLoop heig ha hm c _ _ (by exact le_rfl)).bind' fun o => ?_
        obtain ⟨st, o⟩ := o
        simp only
        split
        · exact .panic
        · split <;> exact .ok _

/-! ## Locality in the operator -/

theorem bind_congr' {β γ : Type} {m : M β} {f g : β → M γ} (h : ∀ b, f b = g b) :
    (m >>= f) = (m >>= g) := by
  cases m with
  | ok b => exact h b
  | error e => rfl

theorem lobLoop_congr {eig : EigSolver α} {P P' : LobParams α} (hP : P' = { P with a := P'.a })
    (c : Option (Arr2 α)) (N : Nat) (ha : ∀ k < N, P.a k = P'.a k) (n : Nat) (st : LobState α)
    (hst : st.calls + st.iter ≤ N) : lobLoop eig P c n st = lobLoop eig P' c n st := by
  have hhead : ∀ st, lobHead P st = lobHead P' st := by intro st; rw [hP]; rfl
  have htail : ∀ st r norms, st.calls < N →
      lobTail eig P c st r norms = lobTail eig P' c st r norms := by
    intro st r norms hc
    have h1 : ∀ v, P.apply st.calls v = P'.apply st.calls v := by
      intro v; unfold LobParams.apply; rw [ha _ hc]
    have h2 : ∀ v, P.precondition v = P'.precondition v := by intro v; rw [hP]; rfl
    have h3 : ∀ v, P.constrain c v = P'.constrain c v := by intro v; rw [hP]; rfl
    have h4 : P.order = P'.order := by rw [hP]
    unfold lobTail
    simp only [h1, h2, h3, h4]
  induction n generalizing st with
  | zero => unfold lobLoop; rw [hhead]
  | succ n ih =>
    unfold lobLoop
    rw [hhead]
    cases hh : lobHead P' st with
    | error e => rfl
    | ok o =>
      obtain ⟨st1, r, norms⟩ := o
      obtain ⟨-, he⟩ := lobHead_inv hh
      have hi : st1.iter = st.iter := by rw [he]
      have hc : st1.calls = st.calls := by rw [he]
      simp only [ok_bind]
      split_ifs with hcond
      · rfl
      · rw [not_or] at hcond
        rw [htail st1 r norms (by omega)]
        cases ht : lobTail eig P' c st1 r norms with
        | error e => rfl
        | ok o =>
          rcases o with e | st2
          · rfl
          · obtain ⟨-, -, -, h4, h5, -⟩ := lobTail_frame ht
            exact ih st2 (by omega)

theorem lobpcgRun_congr {eig : EigSolver α} {P P' : LobParams α} (hP : P' = { P with a := P'.a })
    (x0 : Arr2 α) (maxiter : Nat)
    (ha : ∀ k < 1 + min (x0.nr * 10) maxiter, P.a k = P'.a k) :
    lobpcgRun eig P x0 maxiter = lobpcgRun eig P' x0 maxiter := by
  have h1 : ∀ v, P.apply 0 v = P'.apply 0 v := by
    intro v; unfold LobParams.apply; rw [ha _ (by omega)]
  have h3 : ∀ c v, P.constrain c v = P'.constrain c v := by intro c v; rw [hP]; rfl
  have h4 : P.order = P'.order := by rw [hP]
  have h5 : P.y = P'.y := by rw [hP]
  unfold lobpcgRun
  simp only [h1, h3, h4, h5]
  refine if_congr Iff.rfl rfl (bind_congr' fun c => bind_congr' fun x => bind_congr' fun o => ?_)
  rcases o with e | ⟨x, l⟩
  · rfl
  · refine bind_congr' fun ax => bind_congr' fun xax => bind_congr' fun o => ?_
    rcases o with e | ⟨lambda, eb⟩
    · rfl
    · refine bind_congr' fun x => bind_congr' fun ax' => ?_
      rw [lobLoop_congr hP c _ ha _ _ (by simp only; omega)]

end LinfaLinalg
