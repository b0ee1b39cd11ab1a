import Verif.Proofs.LobpcgHist
import Verif.Props.Ieee

/-! # C42, C43, C49: the iteration of `lobpcg`

`lobpcgRun eig P x maxiter = .ok (res, hist)`: the call returns `res`, having visited the iterates
`hist`, in order. `eig` stands for `eigh_into`; the theorems hold for any function in its place. -/

set_option linter.unusedSectionVars false

namespace LinfaLinalg

variable {α : Type} [Zero α] [One α] [Add α] [Sub α] [Mul α] [Div α] [Neg α] [NdFloat α]

instance {R : Rounding} : LawfulLt (Flt R) where
  lt_iff a b h1 h2 := by
    change Flt.le a a = true at h1
    change Flt.le b b = true at h2
    change Flt.lt a b = true ↔ Flt.le b a = false
    cases a <;> cases b <;> simp only [Flt.lt, Flt.le, decide_eq_true_eq, decide_eq_false_iff_not] at *
    all_goals first
      | contradiction
      | exact not_le.symm
      | (rename_i s t; cases s <;> cases t <;> simp; done)
      | (rename_i s t u; first | (cases s <;> simp; done) | (cases u <;> simp; done))

/-- A result was returned, with or without an error. -/
def Returned (res : LobpcgResult α) (b : Lobpcg α) : Prop :=
  res = .ok b ∨ ∃ e, res = .error (e, some b)

theorem Returned.of_match {o : Option LinalgError} {b b' : Lobpcg α}
    (h : Returned (match o with
      | none => .ok b'
      | some e => .error (e, some b') : LobpcgResult α) b) : b = b' := by
  cases o with
  | none =>
    rcases h with h | ⟨e, h⟩
    · injection h with h; exact h.symm
    · cases h
  | some e' =>
    rcases h with h | ⟨e, h⟩
    · cases h
    · injection h with h
      simp only [Prod.mk.injEq, Option.some.injEq] at h
      exact h.2.symm

/-- C42: the returned eigenvalues, eigenvectors and residual norms are those of one of the iterates
visited, and if no sum of residual norms is NaN, none of the iterates has a smaller one. For every
lawfully ordered scalar type (the reals, and IEEE-like floats), every operator, preconditioner,
constraint, tolerance and iteration count. -/
theorem C42_best_iterate [LawfulLe α] [LawfulLt α] (eig : EigSolver α) (P : LobParams α)
    (x0 : Arr2 α) (maxiter : Nat) (res : LobpcgResult α) (hist : List (Iterate α))
    (h : lobpcgRun eig P x0 maxiter = .ok (res, hist)) (b : Lobpcg α) (hb : Returned res b) :
    (∃ it ∈ hist, it.pairs = b) ∧
    ((∀ it ∈ hist, isNaN (sumList it.pairs.rnorm) = false) →
      ∀ it ∈ hist, NdFloat.le (sumList b.rnorm) (sumList it.pairs.rnorm) = true) := by
  rcases lobpcgRun_hist h with ⟨e, -, rfl, -⟩ | ⟨_, _, st, o, b', _, _, -, hm, -, hb', rfl, rfl⟩
  · rcases hb with hb | ⟨e', hb⟩
    · cases hb
    · injection hb with hb; simp at hb
  · obtain rfl := Returned.of_match hb
    have := hm.best
    rw [hb'] at this
    refine ⟨this.1, fun hn => this.2 fun it hit => ?_⟩
    simpa [isNaN] using hn it hit

/-- C42 in exact arithmetic: the sum of the returned residual norms is the minimum over all iterates. -/
theorem C42_best_iterate_real (eig : EigSolver ℝ) (P : LobParams ℝ) (x0 : Arr2 ℝ) (maxiter : Nat)
    (res : LobpcgResult ℝ) (hist : List (Iterate ℝ))
    (h : lobpcgRun eig P x0 maxiter = .ok (res, hist)) (b : Lobpcg ℝ) (hb : Returned res b) :
    IsLeast ((fun it : Iterate ℝ => it.pairs.rnorm.sum) '' {it | it ∈ hist}) b.rnorm.sum ∧
      ∃ it ∈ hist, it.pairs = b := by
  have hs : ∀ l : List ℝ, sumList l = l.sum := by
    intro l
    unfold sumList
    rw [List.sum_eq_foldl]
  obtain ⟨⟨it, hit, hp⟩, h2⟩ := C42_best_iterate eig P x0 maxiter res hist h b hb
  refine ⟨⟨⟨it, hit, by simp only [hp]⟩, ?_⟩, it, hit, hp⟩
  rintro _ ⟨it', hit', rfl⟩
  have := h2 (fun it _ => by simp [isNaN]) it' hit'
  simpa [hs] using this

/-- C43: if the eigensolver for the small problems and the two closures always come back, so does
`lobpcg`; it visits at most `1 + min(10 n, maxiter)` iterates; and calls of the operator after the first
`1 + min(10 n, maxiter)` have no influence on anything, i.e. are not made. For every scalar type and
every operator. -/
theorem C43_terminates (eig : EigSolver α) (P : LobParams α) (x0 : Arr2 α) (maxiter : Nat)
    (heig : ∀ a, eig a ≠ .error .fuel) (ha : ∀ k v, P.a k v ≠ .error .fuel)
    (hm : ∀ v, P.m v ≠ .error .fuel) : lobpcgRun eig P x0 maxiter ≠ .error .fuel :=
  noFuel_lobpcgRun heig ha hm x0 maxiter

/-- C43, number of update steps. -/
theorem C43_iteration_bound [LawfulLe α] [LawfulLt α] (eig : EigSolver α) (P : LobParams α)
    (x0 : Arr2 α) (maxiter : Nat) (res : LobpcgResult α) (hist : List (Iterate α))
    (h : lobpcgRun eig P x0 maxiter = .ok (res, hist)) :
    hist.length ≤ 1 + min (10 * x0.nr) maxiter := by
  rcases lobpcgRun_hist h with ⟨e, -, rfl, rfl⟩ | ⟨_, _, st, o, b', _, _, -, hm, -, hb', rfl, rfl⟩
  · simp
  · have := hm.iter
    omega

/-- C43, calls of the operator: the outcome is the same for any other operator `a'` that agrees on the
first `1 + min(10 n, maxiter)` calls. -/
theorem C43_operator_calls (eig : EigSolver α) (P : LobParams α) (x0 : Arr2 α) (maxiter : Nat)
    (a' : Nat → Arr2 α → M (Arr2 α))
    (ha : ∀ k < 1 + min (10 * x0.nr) maxiter, P.a k = a' k) :
    lobpcgRun eig P x0 maxiter = lobpcgRun eig { P with a := a' } x0 maxiter :=
  lobpcgRun_congr (P := P) (P' := { P with a := a' }) rfl x0 maxiter
    (fun k hk => ha k (by omega))

/-- C49: at every iterate, pair `p` is active exactly when its residual has exceeded the tolerance at
that iterate and at all earlier ones. So once the residual of a pair is at the tolerance or below, the
pair is never again active. -/
theorem C49_locked [LawfulLe α] [LawfulLt α] (eig : EigSolver α) (P : LobParams α) (x0 : Arr2 α)
    (maxiter : Nat) (res : LobpcgResult α) (hist : List (Iterate α))
    (h : lobpcgRun eig P x0 maxiter = .ok (res, hist)) (earlier later : List (Iterate α))
    (it : Iterate α) (hsplit : hist = earlier ++ it :: later) :
    it.pairs.rnorm.length = x0.nc ∧ it.active.length = x0.nc ∧
    ∀ p < x0.nc, (it.active[p]? = some true ↔
      ∀ it' ∈ earlier ++ [it], ∃ norm, it'.pairs.rnorm[p]? = some norm ∧
        NdFloat.lt P.tol norm = true) := by
  rcases lobpcgRun_hist h with ⟨e, -, rfl, rfl⟩ | ⟨_, _, st, o, b', _, _, -, hm, -, hb', rfl, rfl⟩
  · simp at hsplit
  · have hh := hm.hist
    obtain ⟨h1, h2, h3, h4⟩ := hh earlier it later hsplit
    have hlen : ∀ it' ∈ st.hist, it'.pairs.rnorm.length = x0.nc := by
      intro it' hit'
      obtain ⟨l, r, hlr⟩ := List.append_of_mem hit'
      exact (hh l it' r hlr).1
    refine ⟨h1, h3, fun p hp => ?_⟩
    have h5 := h4 p hp
    rw [List.getD_eq_getElem?_getD, List.getElem?_eq_getElem (by omega), Option.getD_some] at h5
    rw [List.getElem?_eq_getElem (by omega), Option.some.injEq, h5]
    refine forall₂_congr fun it' hit' => ?_
    have hl : p < it'.pairs.rnorm.length := by
      rw [hlen it' ?_]
      · exact hp
      · rw [hsplit]
        rcases List.mem_append.1 hit' with h | h
        · simp [h]
        · rw [List.mem_singleton] at h; simp [h]
    simp [List.getD_eq_getElem?_getD, List.getElem?_eq_getElem hl]

/-- C49, what being active means: the columns of the residual which the next step works on are those of
the active pairs, in order. -/
theorem C49_active_columns (r c : Arr2 α) (mask : List Bool) (h : ndarrayMask r mask = .ok c) :
    mask.length = r.nc ∧ c.nr = r.nr ∧ ∃ idx : List Nat, idx.length = c.nc ∧
      idx.Pairwise (· < ·) ∧ (∀ p, p ∈ idx ↔ mask[p]? = some true) ∧
      ∀ i j, (hj : j < idx.length) → c.get i j = r.get i idx[j] := by
  obtain ⟨h1, rfl⟩ := ndarrayMask_inv h
  refine ⟨h1, rfl, maskIndices mask, rfl, ?_, ?_, ?_⟩
  · exact List.Pairwise.filter _ List.pairwise_lt_range
  · intro p
    simp only [maskIndices, List.mem_filter, List.mem_range, List.getD_eq_getElem?_getD]
    constructor
    · rintro ⟨h2, h3⟩
      rw [List.getElem?_eq_getElem h2] at h3 ⊢
      simpa using h3
    · intro h2
      obtain ⟨h3, h4⟩ := List.getElem?_eq_some_iff.1 h2
      exact ⟨h3, by simp [h2]⟩
  · intro i j hj
    simp [List.getElem?_eq_getElem hj]

/-- C49: if `lobpcg` returns `Ok` with iterations to spare, every pair reached the tolerance (was not
above it) at some iterate. -/
theorem C49_converged [LawfulLe α] [LawfulLt α] (eig : EigSolver α) (P : LobParams α) (x0 : Arr2 α)
    (maxiter : Nat) (b : Lobpcg α) (hist : List (Iterate α))
    (h : lobpcgRun eig P x0 maxiter = .ok (.ok b, hist))
    (hspare : hist.length < 1 + min (10 * x0.nr) maxiter) (p : Nat) (hp : p < x0.nc) :
    ∃ it ∈ hist, ∃ norm, it.pairs.rnorm[p]? = some norm ∧ NdFloat.lt P.tol norm = false := by
  rcases lobpcgRun_hist h with ⟨e, -, hr, -⟩ | ⟨_, _, st, o, b', _, _, -, hm, hend, hb', rfl, hr⟩
  · cases hr
  · cases o with
    | some e => cases hr
    | none =>
      have hi := hm.iter
      rcases hend with h0 | h0
      · rw [hm.block, List.count_eq_zero] at h0
        have hmask := hm.mask.2 p hp
        have hlt : p < st.mask.length := by rw [hm.mask.1]; exact hp
        have hf : ¬ (st.mask.getD p false = true) := by
          intro ht
          apply h0
          rw [List.getD_eq_getElem?_getD, List.getElem?_eq_getElem hlt, Option.getD_some] at ht
          rw [← ht]
          exact List.getElem_mem _
        rw [hmask] at hf
        push Not at hf
        obtain ⟨it, hit, hn⟩ := hf
        obtain ⟨l, r, hlr⟩ := List.append_of_mem hit
        have hl := (hm.hist l it r hlr).1
        have hpl : p < it.pairs.rnorm.length := by omega
        refine ⟨it, hit, it.pairs.rnorm[p], List.getElem?_eq_getElem hpl, ?_⟩
        simpa [List.getD_eq_getElem?_getD, List.getElem?_eq_getElem hpl] using hn
      · omega

end LinfaLinalg
