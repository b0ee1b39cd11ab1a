import Verif.Model.Triangular
import Verif.Proofs.Basic

/-! # Closed forms of the triangular routines, for every scalar type -/

set_option linter.unusedSectionVars false

namespace LinfaLinalg

variable {α : Type} [Zero α] [One α] [Add α] [Sub α] [Mul α] [Div α] [Neg α] [NdFloat α]

section zeroing
variable {β : Type}

/-- Zeroing a range of columns of one row. -/
theorem zeroRow_eq (a : Arr2 α) (i lo hi : Nat) (hlo : lo ≤ hi) (hi' : hi ≤ a.nc) (hr : i < a.nr) :
    forRange lo hi a (fun j a => a.atm i j 0) =
      .ok ⟨a.nr, a.nc, fun k l => if k = i ∧ lo ≤ l ∧ l < hi then 0 else a.get k l⟩ := by
  have := wp_forRange (lo := lo) (hi := hi) (s := a) (f := fun j (a : Arr2 α) => a.atm i j 0)
    (E := fun _ => False)
    (fun m b => b = ⟨a.nr, a.nc, fun k l => if k = i ∧ lo ≤ l ∧ l < m then 0 else a.get k l⟩)
    hlo
    (by
      refine Arr2.ext' (by rfl) (by rfl) ?_
      intro k l
      have : ¬ (k = i ∧ lo ≤ l ∧ l < lo) := by omega
      simp only [this, if_false])
    (by
      intro j b hj1 hj2 hb
      subst hb
      rw [Arr2.atm_ok (by simpa using hr) (by simp; omega)]
      simp only [wp_ok]
      refine Arr2.ext' (by rfl) (by rfl) ?_
      intro k l
      simp only [Arr2.upd_get]
      by_cases h1 : k = i ∧ l = j
      · rw [if_pos h1, if_pos (by omega)]
      · rw [if_neg h1]
        by_cases h2 : k = i ∧ lo ≤ l ∧ l < j
        · rw [if_pos h2, if_pos (by omega)]
        · rw [if_neg h2, if_neg (by omega)])
  obtain ⟨b, hb, rfl⟩ := succeeds_iff.1 this
  exact hb

/-- Zeroing, in each row `i < n`, the columns `lo i .. hi i`. -/
theorem zeroRows_eq (a : Arr2 α) (n : Nat) (lo hi : Nat → Nat) (hlo : ∀ i, i < n → lo i ≤ hi i)
    (hi' : ∀ i, i < n → hi i ≤ a.nc) (hr : n ≤ a.nr) :
    forRange 0 n a (fun i a => forRange (lo i) (hi i) a fun j a => a.atm i j 0) =
      .ok ⟨a.nr, a.nc, fun k l => if k < n ∧ lo k ≤ l ∧ l < hi k then 0 else a.get k l⟩ := by
  have := wp_forRange (lo := 0) (hi := n) (s := a)
    (f := fun i (a : Arr2 α) => forRange (lo i) (hi i) a fun j a => a.atm i j 0)
    (E := fun _ => False)
    (fun m b => b = ⟨a.nr, a.nc, fun k l => if k < m ∧ lo k ≤ l ∧ l < hi k then 0 else a.get k l⟩)
    (Nat.zero_le _)
    (by
      refine Arr2.ext' (by rfl) (by rfl) ?_
      intro k l
      simp)
    (by
      intro i b _ hi2 hb
      subst hb
      rw [zeroRow_eq _ i (lo i) (hi i) (hlo i hi2) (by simpa using hi' i hi2) (by simp; omega)]
      simp only [wp_ok]
      refine Arr2.ext' (by rfl) (by rfl) ?_
      intro k l
      simp only
      by_cases h1 : k = i ∧ lo i ≤ l ∧ l < hi i
      · rw [if_pos h1, if_pos (by obtain ⟨rfl, h⟩ := h1; exact ⟨by omega, h⟩)]
      · rw [if_neg h1]
        by_cases h2 : k < i ∧ lo k ≤ l ∧ l < hi k
        · rw [if_pos h2, if_pos ⟨by omega, h2.2⟩]
        · rw [if_neg h2, if_neg]
          rintro ⟨h3, h4⟩
          by_cases h5 : k = i
          · subst h5; exact h1 ⟨rfl, h4⟩
          · exact h2 ⟨by omega, h4⟩)
  obtain ⟨b, hb, rfl⟩ := succeeds_iff.1 this
  exact hb

theorem triangularInplace_upper (a : Arr2 α) (h : a.nr = a.nc) :
    triangularInplace a .upper =
      .ok ⟨a.nr, a.nc, fun k l => if k < a.nr ∧ l < k then 0 else a.get k l⟩ := by
  unfold triangularInplace
  rw [checkSquare_ok h]
  simp only [ok_bind, if_true]
  rw [zeroRows_eq a a.nr (fun _ => 0) (fun i => i) (by simp) (by intros; omega) le_rfl]
  simp

theorem triangularInplace_lower (a : Arr2 α) (h : a.nr = a.nc) :
    triangularInplace a .lower =
      .ok ⟨a.nr, a.nc, fun k l => if k < a.nr ∧ k < l ∧ l < a.nr then 0 else a.get k l⟩ := by
  unfold triangularInplace
  rw [checkSquare_ok h]
  simp only [ok_bind, reduceCtorEq, if_false]
  rw [zeroRows_eq a a.nr (fun i => i + 1) (fun _ => a.nr) (by intros; omega) (by intros; omega)
    le_rfl]
  simp [Nat.succ_le_iff]

theorem triangularInplace_err (a : Arr2 α) (uplo : UPLO) (h : a.nr ≠ a.nc) :
    triangularInplace a uplo = .error (.err (.notSquare a.nr a.nc)) := by
  unfold triangularInplace
  rw [checkSquare_err h]
  rfl

end zeroing

section scanning

theorem rowAllZero_eq (a : Arr2 α) (i : Nat) (js : List Nat) (hi : i < a.nr)
    (hj : ∀ j ∈ js, j < a.nc) :
    rowAllZero a i js = .ok (js.all fun j => NdFloat.isZero (a.get i j)) := by
  induction js with
  | nil => rfl
  | cons j js ih =>
    unfold rowAllZero
    rw [Arr2.at_ok hi (hj j (by simp))]
    simp only [ok_bind]
    rw [ih (fun k hk => hj k (by simp [hk]))]
    cases h : NdFloat.isZero (a.get i j) <;> simp [h]

theorem rowsAllZero_eq (a : Arr2 α) (cols : Nat → List Nat) (is : List Nat)
    (hi : ∀ i ∈ is, i < a.nr) (hj : ∀ i ∈ is, ∀ j ∈ cols i, j < a.nc) :
    rowsAllZero a cols is =
      .ok (is.all fun i => (cols i).all fun j => NdFloat.isZero (a.get i j)) := by
  induction is with
  | nil => rfl
  | cons i is ih =>
    unfold rowsAllZero
    rw [rowAllZero_eq a i _ (hi i (by simp)) (hj i (by simp))]
    simp only [ok_bind]
    rw [ih (fun k hk => hi k (by simp [hk])) (fun k hk => hj k (by simp [hk]))]
    cases h : ((cols i).all fun j => NdFloat.isZero (a.get i j)) <;> simp [h]

end scanning

section solving

/-- Pure form of one elimination step on a single column `x`. -/
def elimStep (a : Arr2 α) (d : Nat → α) (rows : Nat → Nat → Nat × Nat) (n : Nat) (x : Nat → α)
    (i : Nat) : Nat → α := fun r =>
  if r = i then x i / d i
  else if (rows i n).1 ≤ r ∧ r < (rows i n).2 then x r + -(x i / d i) * a.get r i
  else x r

theorem solveStep_eq (a b : Arr2 α) (diag : Nat → M α) (d : Nat → α)
    (rows : Nat → Nat → Nat × Nat) (n k i : Nat)
    (ha : a.nr = n) (hac : a.nc = n) (hb : b.nr = n) (hk : k < b.nc) (hi : i < n)
    (hd : diag i = .ok (d i)) (h1 : (rows i n).1 ≤ (rows i n).2) (h2 : (rows i n).2 ≤ n)
    (h3 : ¬ ((rows i n).1 ≤ i ∧ i < (rows i n).2)) :
    solveStep a diag (rows i) k i b = .ok ⟨b.nr, b.nc, fun r c =>
      if c = k then elimStep a d rows n (fun r => b.get r k) i r else b.get r c⟩ := by
  unfold solveStep
  rw [hd, Arr2.at_ok (by omega) hk]
  simp only [ok_bind]
  rw [Arr2.atm_ok (by omega) hk]
  simp only [ok_bind, Arr2.upd_nr, ha, hb]
  rw [Arr2.colSlice_ok h1 (by simp; omega) (by simpa using hk), Arr2.colSlice_ok h1 (by omega)
    (by omega)]
  simp only [ok_bind, Arr1.scaledAdd, if_true]
  congr 1
  refine Arr2.ext' (by simp [hb]) (by rfl) ?_
  intro r c
  simp only [Arr2.putCol, Arr2.upd_get, elimStep]
  by_cases hc : c = k
  · subst hc
    simp only [true_and, and_true, if_true]
    by_cases hri : r = i
    · subst hri
      rw [if_neg (by omega), if_pos rfl, if_pos rfl]
    · rw [if_neg hri, if_neg hri]
      by_cases hin : (rows i n).1 ≤ r ∧ r < (rows i n).2
      · rw [if_pos (by omega), if_pos hin]
        rw [show (rows i n).1 + (r - (rows i n).1) = r by omega, if_neg hri]
      · rw [if_neg (by omega), if_neg hin]
  · simp [hc]

theorem solveLoop_eq (a b : Arr2 α) (diag : Nat → M α) (d : Nat → α)
    (rows : Nat → Nat → Nat × Nat) (n k : Nat) (is : List Nat)
    (ha : a.nr = n) (hac : a.nc = n) (hb : b.nr = n) (hk : k < b.nc) (his : ∀ i ∈ is, i < n)
    (hd : ∀ i, i < n → diag i = .ok (d i))
    (h1 : ∀ i, i < n → (rows i n).1 ≤ (rows i n).2) (h2 : ∀ i, i < n → (rows i n).2 ≤ n)
    (h3 : ∀ i, i < n → ¬ ((rows i n).1 ≤ i ∧ i < (rows i n).2)) :
    loopM is b (fun i b => solveStep a diag (rows i) k i b) = .ok ⟨b.nr, b.nc, fun r c =>
      if c = k then is.foldl (elimStep a d rows n) (fun r => b.get r k) r else b.get r c⟩ := by
  induction is generalizing b with
  | nil =>
    simp only [loopM_nil, List.foldl_nil]
    congr 1
    refine Arr2.ext' (by rfl) (by rfl) ?_
    intro r c
    by_cases hc : c = k <;> simp [hc]
  | cons i is ih =>
    have hi : i < n := his i (by simp)
    simp only [loopM_cons]
    rw [solveStep_eq a b diag d rows n k i ha hac hb hk hi (hd i hi) (h1 i hi) (h2 i hi) (h3 i hi)]
    simp only [ok_bind]
    rw [ih _ (by exact hb) (by exact hk) (fun j hj => his j (by simp [hj]))]
    congr 1
    refine Arr2.ext' (by rfl) (by rfl) ?_
    intro r c
    by_cases hc : c = k
    · simp [hc]
    · simp [hc]

theorem solveCols_eq (a b : Arr2 α) (diag : Nat → M α) (d : Nat → α)
    (rows : Nat → Nat → Nat × Nat) (n : Nat) (is : List Nat)
    (ha : a.nr = n) (hac : a.nc = n) (hb : b.nr = n) (his : ∀ i ∈ is, i < n)
    (hd : ∀ i, i < n → diag i = .ok (d i))
    (h1 : ∀ i, i < n → (rows i n).1 ≤ (rows i n).2) (h2 : ∀ i, i < n → (rows i n).2 ≤ n)
    (h3 : ∀ i, i < n → ¬ ((rows i n).1 ≤ i ∧ i < (rows i n).2)) :
    forRange 0 b.nc b (fun k b => loopM is b (fun i b => solveStep a diag (rows i) k i b)) =
    .ok ⟨b.nr, b.nc, fun r c =>
      if c < b.nc then is.foldl (elimStep a d rows n) (fun r => b.get r c) r else b.get r c⟩ := by
  have := wp_forRange (lo := 0) (hi := b.nc) (s := b)
    (f := fun k b => loopM is b (fun i b => solveStep a diag (rows i) k i b))
    (E := fun _ => False)
    (fun m b' => b' = ⟨b.nr, b.nc, fun r c =>
      if c < m then is.foldl (elimStep a d rows n) (fun r => b.get r c) r else b.get r c⟩)
    (Nat.zero_le _) (by refine Arr2.ext' (by rfl) (by rfl) ?_; intro r c; simp)
    (by
      intro k b' _ hk hb'
      subst hb'
      rw [solveLoop_eq a _ diag d rows n k is ha hac (by exact hb) (by exact hk) his hd h1 h2 h3]
      simp only [wp_ok]
      refine Arr2.ext' (by rfl) (by rfl) ?_
      intro r c
      simp only [lt_irrefl, if_false]
      by_cases hc : c = k
      · subst hc; simp
      · have : c < k + 1 ↔ c < k := by omega
        simp [hc, this])
  obtain ⟨b', hb', rfl⟩ := succeeds_iff.1 this
  exact hb'

/-- Order in which the rows are eliminated. -/
def elimOrder (uplo : UPLO) (n : Nat) : List Nat :=
  match uplo with
  | .upper => (List.range' 0 n).reverse
  | .lower => List.range' 0 n

/-- Rows touched by eliminating row `i`. -/
def elimRows (uplo : UPLO) (i : Nat) (nr : Nat) : Nat × Nat :=
  match uplo with
  | .upper => (0, i)
  | .lower => (i + 1, nr)

theorem solveTriangularSystem_eq (a b : Arr2 α) (uplo : UPLO) (diag : Nat → M α) (d : Nat → α)
    (ha : a.nr = a.nc) (hb : b.nr = a.nr) (hd : ∀ i, i < a.nr → diag i = .ok (d i)) :
    solveTriangularSystem a b uplo diag = .ok ⟨b.nr, b.nc, fun r c => if c < b.nc then
      (elimOrder uplo a.nr).foldl (elimStep a d (elimRows uplo) a.nr) (fun r => b.get r c) r
      else b.get r c⟩ := by
  unfold solveTriangularSystem
  rw [checkSquare_ok ha]
  simp only [ok_bind, hb, ne_eq, not_true, if_false]
  cases uplo with
  | upper =>
    simp only [if_true]
    have := solveCols_eq a b diag d (elimRows .upper) a.nr (elimOrder .upper a.nr) rfl ha.symm hb
      (by simp [elimOrder]) hd (by simp [elimRows])
      (by intro i hi; simp [elimRows]; omega) (by simp [elimRows])
    rw [hb] at this
    exact this
  | lower =>
    simp only [reduceCtorEq, if_false]
    have := solveCols_eq a b diag d (elimRows .lower) a.nr (elimOrder .lower a.nr) rfl ha.symm hb
      (by simp [elimOrder]) hd (by intro i hi; simp [elimRows]; omega)
      (by simp [elimRows]) (by simp [elimRows])
    rw [hb] at this
    exact this

theorem solveTriangularSystem_notSquare (a b : Arr2 α) (uplo : UPLO) (diag : Nat → M α)
    (ha : a.nr ≠ a.nc) :
    solveTriangularSystem a b uplo diag = .error (.err (.notSquare a.nr a.nc)) := by
  unfold solveTriangularSystem
  rw [checkSquare_err ha]
  rfl

theorem solveTriangularSystem_wrongRows (a b : Arr2 α) (uplo : UPLO) (diag : Nat → M α)
    (ha : a.nr = a.nc) (hb : b.nr ≠ a.nr) :
    solveTriangularSystem a b uplo diag = .error (.err (.wrongRows a.nr b.nr)) := by
  unfold solveTriangularSystem
  rw [checkSquare_ok ha]
  simp [hb, throwErr]

theorem solveTriangular_eq (a b : Arr2 α) (uplo : UPLO) (ha : a.nr = a.nc) (hb : b.nr = a.nr) :
    solveTriangular a b uplo = .ok ⟨b.nr, b.nc, fun r c => if c < b.nc then
      (elimOrder uplo a.nr).foldl (elimStep a (fun i => a.get i i) (elimRows uplo) a.nr)
        (fun r => b.get r c) r
      else b.get r c⟩ :=
  solveTriangularSystem_eq a b uplo _ _ ha hb fun _ hi => Arr2.at_ok hi (ha ▸ hi)

end solving

end LinfaLinalg
