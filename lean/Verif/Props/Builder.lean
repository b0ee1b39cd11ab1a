import Verif.Props.IteratorOrth
import Verif.Props.TruncatedSvdRitz

/-! # C78: the settings of `TruncatedEig` and `TruncatedSvd` and what they control -/

namespace LinfaLinalg

open Matrix

/-! ## The setters -/

section
variable {α ρ : Type} [Zero α] [One α] [Add α] [Sub α] [Mul α] [Div α] [Neg α] [NdFloat α]
set_option linter.unusedSectionVars false

/-- One call in a chain `new_with_rng(..).precision(..).maxiter(..)…`. -/
inductive EigSetting (α : Type) where
  | precision (p : α)
  | maxiter (n : Nat)
  | orthogonalTo (y : Arr2 α)
  | preconditionWith (p : Arr2 α)

/-- The solver after the call. -/
def EigSetting.apply (t : TruncatedEig α ρ) : EigSetting α → TruncatedEig α ρ
  | .precision p => t.withPrecision p
  | .maxiter n => t.withMaxiter n
  | .orthogonalTo y => t.orthogonalTo y
  | .preconditionWith p => t.preconditionWith p

def EigSetting.precision? : EigSetting α → Option α
  | .precision p => some p
  | _ => none

def EigSetting.maxiter? : EigSetting α → Option Nat
  | .maxiter n => some n
  | _ => none

def EigSetting.orthogonalTo? : EigSetting α → Option (Arr2 α)
  | .orthogonalTo y => some y
  | _ => none

def EigSetting.preconditionWith? : EigSetting α → Option (Arr2 α)
  | .preconditionWith p => some p
  | _ => none

theorem getLast?_filterMap_append {β γ : Type} (f : β → Option γ) (l : List β) (x : β) :
    ((l ++ [x]).filterMap f).getLast? = (f x).or (l.filterMap f).getLast? := by
  rw [List.filterMap_append, List.getLast?_append]
  cases h : f x <;> simp [List.filterMap, h]

/-- **C78**, the chain of setters of `TruncatedEig`: in any order and with any repetitions, the last call of
each kind decides; what is not set is `1e-5` (the closest number of type `f32`), twice the number of rows,
no constraints, no preconditioner; problem, order and random number generator are those of the
constructor. -/
theorem C78_setters (problem : Arr2 α) (order : Order) (rng : ρ) (l : List (EigSetting α)) :
    let t := l.foldl EigSetting.apply (TruncatedEig.new problem order rng)
    t.problem = problem ∧ t.order = order ∧ t.rng = rng ∧
    t.precision = (l.filterMap EigSetting.precision?).getLast?.getD
      (NdFloat.ofRat (2748779 / 274877906944)) ∧
    t.maxiter = (l.filterMap EigSetting.maxiter?).getLast?.getD (2 * problem.nr) ∧
    t.constraints = (l.filterMap EigSetting.orthogonalTo?).getLast? ∧
    t.preconditioner = (l.filterMap EigSetting.preconditionWith?).getLast? := by
  induction l using List.reverseRecOn with
  | nil => exact ⟨rfl, rfl, rfl, rfl, Nat.mul_comm _ _, rfl, rfl⟩
  | append_singleton l x ih =>
    obtain ⟨h1, h2, h3, h4, h5, h6, h7⟩ := ih
    simp only [List.foldl_append, List.foldl_cons, List.foldl_nil, getLast?_filterMap_append]
    cases x with
    | precision p => exact ⟨h1, h2, h3, rfl, h5, h6, h7⟩
    | maxiter p => exact ⟨h1, h2, h3, h4, rfl, h6, h7⟩
    | orthogonalTo p => exact ⟨h1, h2, h3, h4, h5, rfl, h7⟩
    | preconditionWith p => exact ⟨h1, h2, h3, h4, h5, h6, rfl⟩

/-- One call in a chain of setters of `TruncatedSvd`. -/
inductive SvdSetting (α : Type) where
  | precision (p : α)
  | maxiter (n : Nat)

/-- The solver after the call. -/
def SvdSetting.apply (t : TruncatedSvd α ρ) : SvdSetting α → TruncatedSvd α ρ
  | .precision p => t.withPrecision p
  | .maxiter n => t.withMaxiter n

def SvdSetting.precision? : SvdSetting α → Option α
  | .precision p => some p
  | _ => none

def SvdSetting.maxiter? : SvdSetting α → Option Nat
  | .maxiter n => some n
  | _ => none

/-- **C78**, the chain of setters of `TruncatedSvd`. -/
theorem C78_svd_setters (problem : Arr2 α) (order : Order) (rng : ρ) (l : List (SvdSetting α)) :
    let t := l.foldl SvdSetting.apply (TruncatedSvd.new problem order rng)
    t.problem = problem ∧ t.order = order ∧ t.rng = rng ∧
    t.precision = (l.filterMap SvdSetting.precision?).getLast?.getD
      (NdFloat.ofRat (2748779 / 274877906944)) ∧
    t.maxiter = (l.filterMap SvdSetting.maxiter?).getLast?.getD (2 * problem.nr) := by
  induction l using List.reverseRecOn with
  | nil => exact ⟨rfl, rfl, rfl, rfl, Nat.mul_comm _ _⟩
  | append_singleton l x ih =>
    obtain ⟨h1, h2, h3, h4, h5⟩ := ih
    simp only [List.foldl_append, List.foldl_cons, List.foldl_nil, getLast?_filterMap_append]
    cases x with
    | precision p => exact ⟨h1, h2, h3, rfl, h5⟩
    | maxiter p => exact ⟨h1, h2, h3, h4, rfl⟩

/-! ## The preconditioner -/

theorem assign_same {y z : Arr2 α} {n k : Nat} (hy : HasShape y n k) (hz : HasShape z n k) :
    y.assign z = .ok z := by
  unfold Arr2.assign
  rw [if_pos ⟨Or.inl (hz.1.trans hy.1.symm), Or.inl (hz.2.trans hy.2.symm)⟩]
  simp only [if_pos (hz.1.trans hy.1.symm), if_pos (hz.2.trans hy.2.symm)]
  obtain ⟨r, c, g⟩ := z
  obtain ⟨rfl, rfl⟩ := hy
  obtain ⟨h1, h2⟩ := hz
  simp only at h1 h2
  subst h1 h2
  rfl

/-- **C78**, what `precondition_with(p)` does to a block of residuals: a matrix with as many rows as the
problem multiplies it, a single row replaces every row of the block by `p` times the block, and anything
else panics. -/
theorem C78_preconditioner (t : TruncatedEig α ρ) (p : Arr2 α) {n k : Nat} (y : Arr2 α)
    (hy : HasShape y n k) :
    let P := (t.preconditionWith p).params
    (HasShape p n n → ∃ z, P.precondition y = .ok z ∧ p.dot y = .ok z ∧ HasShape z n k) ∧
    (HasShape p 1 n → ∃ z, P.precondition y = .ok z ∧ HasShape z n k ∧
      ∀ i < n, ∀ j < k, z.get i j = dotTo n (p.get 0) fun l => y.get l j) ∧
    (p.nc ≠ n ∨ (p.nr ≠ n ∧ p.nr ≠ 1) → P.precondition y = .error .panic) := by
  intro P
  have hm : P.m y = (p.dot y >>= fun z => y.assign z) := rfl
  refine ⟨fun hp => ?_, fun hp => ?_, fun hp => ?_⟩
  · obtain ⟨z, h1, s1⟩ := dot_shape hp hy
    refine ⟨z, ?_, h1, s1⟩
    unfold LobParams.precondition
    rw [hm, h1, ok_bind, assign_same hy s1]
    simp only [unwrapM, ok_bind]
    rw [if_pos ⟨s1.1.trans hy.1.symm, s1.2.trans hy.2.symm⟩]
  · obtain ⟨z, h1, s1⟩ := dot_shape hp hy
    have hz := h1
    obtain ⟨-, rfl⟩ := Arr2.dot_inv hz
    unfold LobParams.precondition
    rw [hm, h1, ok_bind]
    unfold Arr2.assign
    rw [if_pos ⟨Or.inr s1.1, Or.inl (s1.2.trans hy.2.symm)⟩]
    simp only [unwrapM, ok_bind]
    rw [if_pos ⟨trivial, trivial⟩]
    refine ⟨_, rfl, hy, fun i hi j hj => ?_⟩
    simp only [if_true]
    rw [hp.2]
    split_ifs with h
    · rw [hy.1, hp.1] at h
      obtain rfl : i = 0 := by omega
      rfl
    · rfl
  · unfold LobParams.precondition
    rw [hm]
    by_cases h1 : p.nc = n
    · obtain ⟨z, h2, s2⟩ := dot_shape (⟨rfl, h1⟩ : HasShape p p.nr n) hy
      rw [h2, ok_bind]
      unfold Arr2.assign
      rw [if_neg]
      · rfl
      · rintro ⟨h3, -⟩
        rw [s2.1, hy.1] at h3
        rcases hp with hp | hp
        · exact hp h1
        · rcases h3 with h3 | h3
          · exact hp.1 h3
          · exact hp.2 h3
    · unfold Arr2.dot
      rw [if_neg (by rw [hy.1]; exact h1)]
      rfl

end

/-! ## What the settings control, over the reals -/

/-- The norm of `A x - λ x` for column `j` of a result. -/
noncomputable def pairResidual {n : Nat} (A : Matrix (Fin n) (Fin n) ℝ) (b : Lobpcg ℝ) (j : Nat) : ℝ :=
  Real.sqrt (∑ i : Fin n, (A.mulVec (fun i => b.eigvecs.get i j) i - b.eigvals.get j * b.eigvecs.get i j) ^ 2)

/-- The iterates `hist` and the result `res` of a run for `num` eigenpairs of `A`, with tolerance `tol` and at
most `maxiter` iterations: no more than `1 + min (10 n) maxiter` iterates are computed, the result returned is
one of them, with the least sum of residuals, and if the run ends with `Ok` before the iterations are used
up, every pair has reached the tolerance at some iterate; a single pair has reached it in the result
itself. -/
structure ControlledRun {n : Nat} (A : Matrix (Fin n) (Fin n) ℝ) (num : Nat) (tol : ℝ) (maxiter : Nat)
    (res : LobpcgResult ℝ) (hist : List (Lobpcg ℝ)) : Prop where
  bound : hist.length ≤ 1 + min (10 * n) maxiter
  member : ∀ b, Returned res b → b ∈ hist
  least : ∀ b, Returned res b → ∀ b' ∈ hist,
    ∑ j ∈ Finset.range num, pairResidual A b j ≤ ∑ j ∈ Finset.range num, pairResidual A b' j
  reached : ∀ b, res = .ok b → hist.length < 1 + min (10 * n) maxiter →
    ∀ j < num, ∃ b' ∈ hist, pairResidual A b' j ≤ tol
  single : ∀ b, res = .ok b → hist.length < 1 + min (10 * n) maxiter → num = 1 →
    pairResidual A b 0 ≤ tol

theorem controlledRun {n k : Nat} (A : Matrix (Fin n) (Fin n) ℝ) (eig : EigSolver ℝ) (P : LobParams ℝ)
    (hA : IsOperator A P) (x0 : Arr2 ℝ) (hx0 : HasShape x0 n k) (maxiter : Nat) (res : LobpcgResult ℝ)
    (hist : List (Iterate ℝ)) (h : lobpcgRun eig P x0 maxiter = .ok (res, hist)) :
    ControlledRun A k P.tol maxiter res (hist.map Iterate.pairs) := by
  have hres := iterate_residual A eig P hA x0 hx0 maxiter res hist h
  have hsum : ∀ it ∈ hist, it.pairs.rnorm.sum = ∑ j ∈ Finset.range k, pairResidual A it.pairs j := by
    intro it hit
    have hl : it.pairs.rnorm.length = k := by
      obtain ⟨l1, l2, hl⟩ := List.append_of_mem hit
      rw [(C49_locked eig P x0 maxiter res hist h l1 l2 it hl).1, hx0.2]
    have : it.pairs.rnorm = (List.range k).map fun j => pairResidual A it.pairs j := by
      apply List.ext_getElem?
      intro j
      by_cases hj : j < k
      · rw [hres it hit ⟨j, hj⟩, List.getElem?_map, List.getElem?_range hj]
        rfl
      · rw [List.getElem?_eq_none (by omega), List.getElem?_eq_none (by simpa using hj)]
    rw [this]
    rfl
  have hreached : ∀ b, res = .ok b → hist.length < 1 + min (10 * n) maxiter →
      ∀ j < k, ∃ it ∈ hist, pairResidual A it.pairs j ≤ P.tol := by
    rintro b rfl hs j hj
    obtain ⟨it, hit, norm, h1, h2⟩ := C49_converged eig P x0 maxiter b hist h (by rw [hx0.1]; exact hs) j
      (by rw [hx0.2]; exact hj)
    rw [hres it hit ⟨j, hj⟩, Option.some.injEq] at h1
    refine ⟨it, hit, ?_⟩
    simp only [real_lt, decide_eq_false_iff_not, not_lt] at h2
    rw [← h1] at h2
    exact h2
  have hleast : ∀ b, Returned res b → ∀ it ∈ hist,
      ∑ j ∈ Finset.range k, pairResidual A b j ≤ ∑ j ∈ Finset.range k, pairResidual A it.pairs j := by
    intro b hb it hit
    obtain ⟨h1, it', hit', rfl⟩ := C42_best_iterate_real eig P x0 maxiter res hist h b hb
    rw [← hsum it' hit', ← hsum it hit]
    exact h1.2 ⟨it, hit, rfl⟩
  refine ⟨?_, fun b hb => ?_, fun b hb b' hb' => ?_, fun b hb hs j hj => ?_, fun b hb hs hk => ?_⟩
  · rw [List.length_map, ← hx0.1]
    exact C43_iteration_bound eig P x0 maxiter res hist h
  · obtain ⟨-, it, hit, rfl⟩ := C42_best_iterate_real eig P x0 maxiter res hist h b hb
    exact List.mem_map_of_mem hit
  · obtain ⟨it, hit, rfl⟩ := List.mem_map.1 hb'
    exact hleast b hb it hit
  · rw [List.length_map] at hs
    obtain ⟨it, hit, h1⟩ := hreached b hb hs j hj
    exact ⟨_, List.mem_map_of_mem hit, h1⟩
  · rw [List.length_map] at hs
    obtain ⟨it, hit, h1⟩ := hreached b hb hs 0 (by omega)
    have := hleast b (Or.inl hb) it hit
    rw [hk, Finset.sum_range_one, Finset.sum_range_one] at this
    exact this.trans h1

/-- **C78**, `TruncatedEig::decompose`: the iterates of the run it performs (see `decompose_history`) are
bounded in number by `maxiter`, and stopped by `precision`; nothing but the state of the random number
generator changes, so a second call has the same settings. -/
theorem C78_decompose {ρ : Type} {n num : Nat} (eig : EigSolver ℝ) (R : RandomSource ℝ ρ)
    (t t' : TruncatedEig ℝ ρ) (ht : HasShape t.problem n n) (hnum : 1 ≤ num) (res : LobpcgResult ℝ)
    (h : t.decompose eig R num = .ok (res, t')) :
    (∃ hist, lobpcgRun eig t.params (R.random n num t.rng).1 t.maxiter = .ok (res, hist) ∧
      ControlledRun (toMat n n t.problem) num t.precision t.maxiter res (hist.map Iterate.pairs)) ∧
    t' = { t with rng := (R.gen n num t.rng).2 } := by
  unfold TruncatedEig.decompose at h
  rw [if_neg (by omega)] at h
  simp only [bind_eq_ok] at h
  obtain ⟨⟨res', hist⟩, h1, h2⟩ := h
  simp only at h2
  injection h2 with h2
  simp only [Prod.mk.injEq] at h2
  obtain ⟨rfl, rfl⟩ := h2
  rw [ht.1] at h1 ⊢
  exact ⟨⟨hist, h1, controlledRun _ eig t.params (t.isOperator ht) _ ⟨rfl, rfl⟩ t.maxiter res' hist h1⟩, rfl⟩

/-- **C78**, `TruncatedSvd::decompose`: the run is one for the smaller of the two Gram matrices of the problem,
with the square of `precision` as its tolerance. -/
theorem C78_svd_decompose {ρ : Type} {n m num : Nat} (eig : EigSolver ℝ) (R : RandomSource ℝ ρ)
    (t : TruncatedSvd ℝ ρ) (ht : HasShape t.problem n m) (hnum : 1 ≤ num) (out : TruncatedSvdResult ℝ)
    (h : t.decompose eig R num = .ok out) :
    ∃ res hist b, lobpcgRun eig t.params (R.random (min n m) num t.rng).1 t.maxiter = .ok (res, hist) ∧
      Returned res b ∧ out.eigvals = b.eigvals ∧ out.eigvecs = b.eigvecs ∧ out.problem = t.problem ∧
      out.order = t.order ∧
      (n > m → ControlledRun ((toMat n m t.problem)ᵀ * toMat n m t.problem) num (t.precision ^ 2) t.maxiter
        res (hist.map Iterate.pairs)) ∧
      (n ≤ m → ControlledRun (toMat n m t.problem * (toMat n m t.problem)ᵀ) num (t.precision ^ 2) t.maxiter
        res (hist.map Iterate.pairs)) := by
  unfold TruncatedSvd.decompose at h
  rw [if_neg (by omega), ht.1, ht.2] at h
  simp only [bind_eq_ok] at h
  obtain ⟨⟨res, hist⟩, h1, h2⟩ := h
  have htol : t.params.tol = t.precision ^ 2 := (sq _).symm
  have hret : ∃ b, Returned res b ∧ out.eigvals = b.eigvals ∧ out.eigvecs = b.eigvecs ∧
      out.problem = t.problem ∧ out.order = t.order := by
    rcases res with ⟨e, _ | b⟩ | b
    · simp [throwErr] at h2
    · simp only [Except.ok.injEq] at h2
      subst h2
      exact ⟨b, Or.inr ⟨e, rfl⟩, rfl, rfl, rfl, rfl⟩
    · simp only [Except.ok.injEq] at h2
      subst h2
      exact ⟨b, Or.inl rfl, rfl, rfl, rfl, rfl⟩
  obtain ⟨b, hb, e1, e2, e3, e4⟩ := hret
  refine ⟨res, hist, b, h1, hb, e1, e2, e3, e4, fun hnm => ?_, fun hnm => ?_⟩
  · rw [← htol]
    exact controlledRun _ eig t.params (t.isOperator_tall ht hnm) _ ⟨by
      change min n m = m; omega, rfl⟩ t.maxiter res hist h1
  · rw [← htol]
    exact controlledRun _ eig t.params (t.isOperator_wide ht hnm) _ ⟨by
      change min n m = n; omega, rfl⟩ t.maxiter res hist h1

/-- **C78**, no panics: a square problem, at least one pair asked for, a preconditioner of the size of the
problem (or a single row), and constraints of full rank with as many rows: `decompose` comes back with a
result (up to termination of `eigh` on the small problems). -/
theorem C78_total {ρ : Type} {n num : Nat} (fuel : Nat) (R : RandomSource ℝ ρ) (t : TruncatedEig ℝ ρ)
    (ht : HasShape t.problem n n)
    (hm : ∀ p, t.preconditioner = some p → HasShape p n n ∨ HasShape p 1 n)
    (hy : ∀ y, t.constraints = some y → y.nr = n ∧ LinearIndependent ℝ (toMat n y.nc y).col) :
    (∃ res t', t.decompose (eighInto fuel) R num = .ok (res, t')) ∨
      t.decompose (eighInto fuel) R num = .error .fuel := by
  unfold TruncatedEig.decompose
  split_ifs with h0
  · exact Or.inl ⟨_, _, rfl⟩
  rw [ht.1]
  have hM : ∀ y k, HasShape y n k → ∃ z, t.params.m y = .ok z ∧ HasShape z n k := by
    intro y k hk
    cases hp : t.preconditioner with
    | none => exact ⟨y, by simp only [TruncatedEig.params, hp], hk⟩
    | some p =>
      have ht' : t.params = (t.preconditionWith p).params := by
        simp only [TruncatedEig.params, TruncatedEig.preconditionWith, hp]
      have key : ∀ z, (t.preconditionWith p).params.precondition y = .ok z →
          (t.preconditionWith p).params.m y = .ok z := by
        intro z hz
        unfold LobParams.precondition at hz
        rw [bind_eq_ok] at hz
        obtain ⟨w, h1, h2⟩ := hz
        split_ifs at h2
        injection h2 with h2
        subst h2
        exact unwrapM_eq_ok.1 h1
      obtain ⟨k1, k2, -⟩ := C78_preconditioner t p y hk
      rw [ht']
      rcases hm p hp with h | h
      · obtain ⟨z, a, b, c⟩ := k1 h
        exact ⟨z, key z a, c⟩
      · obtain ⟨z, a, b, c⟩ := k2 h
        exact ⟨z, key z a, b⟩
  rcases C56_no_panic fuel t.params (R.random n num t.rng).1 (n := n) (k := num) ⟨rfl, rfl⟩ (by omega)
    (fun _ y k hk => dot_shape ht hk) hM hy t.maxiter with ⟨res, hist, h⟩ | h
  · left
    simp only [h, ok_bind]
    exact ⟨_, _, rfl⟩
  · right
    simp only [h, error_bind]

/-- A concrete case of C78: for `diag(3, 1)` with precision `1/100` and at most `7` iterations, `decompose(1)`
meets the tolerance with iterations to spare. -/
example : ∃ b t' hist, ((unitProblem.withPrecision (1 / 100)).withMaxiter 7).decompose exactEig unitSource 1 =
      .ok (.ok b, t') ∧
    lobpcgRun exactEig ((unitProblem.withPrecision (1 / 100)).withMaxiter 7).params
      (unitSource.random 2 1 0).1 7 = .ok (.ok b, hist) ∧ hist.length < 1 + min (10 * 2) 7 ∧
    HasShape unitProblem.problem 2 2 ∧ pairResidual (toMat 2 2 unitProblem.problem) b 0 ≤ 1 / 100 := by
  set t := (unitProblem.withPrecision (1 / 100)).withMaxiter 7 with hte
  have hsh : HasShape t.problem 2 2 := ⟨rfl, rfl⟩
  obtain ⟨b, i, h1, -⟩ := unit_run (P := t.params) rfl (by change (0 : ℝ) ≤ 1 / 100; norm_num) 0
    (cholYY := none) 7 (x0 := (unitSource.random 2 1 0).1) ⟨rfl, rfl⟩
    (Or.inl ⟨rfl, rfl⟩) rfl ⟨rfl, rfl⟩ (by intro i; fin_cases i <;> rfl)
  have hd : t.decompose exactEig unitSource 1 = .ok (.ok b, { t with rng := 1 }) := by
    unfold TruncatedEig.decompose
    rw [if_neg (by norm_num)]
    have : lobpcgRun exactEig t.params (unitSource.random t.problem.nr 1 t.rng).1 t.maxiter = .ok (.ok b, [i]) := h1
    simp only [this, ok_bind]
    rfl
  obtain ⟨⟨hist, h2, hc⟩, -⟩ := C78_decompose exactEig unitSource t _ hsh le_rfl _ hd
  have h2' : lobpcgRun exactEig t.params (unitSource.random 2 1 0).1 7 = .ok (.ok b, hist) := h2
  have : hist = [i] := by
    rw [h1] at h2'
    simpa using h2'.symm
  have hl : hist.length < 1 + min (10 * 2) 7 := by rw [this, List.length_singleton]; decide
  exact ⟨b, _, hist, hd, h2', hl, ⟨rfl, rfl⟩, hc.single b rfl (by rw [List.length_map]; exact hl) rfl⟩

/-- A chain of setters with a repetition. -/
example (y : Arr2 ℝ) :
    let l : List (EigSetting ℝ) := [.maxiter 3, .orthogonalTo y, .maxiter 9]
    let t : TruncatedEig ℝ Nat := l.foldl EigSetting.apply unitProblem
    t.maxiter = 9 ∧ t.constraints = some y ∧ t.preconditioner = none :=
  ⟨rfl, rfl, rfl⟩

/-- A single row is broadcast: `(1, 2)` turns the block with rows `3, 4` into `11, 11`. -/
example : ∃ z, (unitProblem.preconditionWith (ofRows 1 2 [[1, 2]])).params.precondition
      (ofRows 2 1 [[3], [4]]) = .ok z ∧ z.get 0 0 = 11 ∧ z.get 1 0 = 11 := by
  obtain ⟨z, h1, -, h3⟩ := (C78_preconditioner unitProblem (ofRows 1 2 [[1, 2]]) (n := 2) (k := 1)
    (ofRows 2 1 [[3], [4]]) ⟨rfl, rfl⟩).2.1 ⟨rfl, rfl⟩
  refine ⟨z, h1, ?_, ?_⟩
  · rw [h3 0 (by norm_num) 0 (by norm_num)]
    simp [dotTo_eq, Finset.sum_range_succ, ofRows]; norm_num
  · rw [h3 1 (by norm_num) 0 (by norm_num)]
    simp [dotTo_eq, Finset.sum_range_succ, ofRows]; norm_num

end LinfaLinalg
