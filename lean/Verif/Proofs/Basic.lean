import Verif.Model.Basic
import Mathlib.Tactic.Ring

/-! # Reasoning rules for the model's monad, loops and arrays -/

namespace LinfaLinalg

section wp
variable {β γ : Type}

/-- Weakest precondition: the computation returns a value satisfying `P`, or fails with a failure
allowed by `E`. -/
def wp (m : M β) (P : β → Prop) (E : Fail → Prop) : Prop :=
  match m with
  | .ok b => P b
  | .error e => E e

/-- Total success. -/
abbrev Succeeds (m : M β) (P : β → Prop) : Prop := wp m P (fun _ => False)

@[simp] theorem wp_ok (b : β) (P : β → Prop) (E : Fail → Prop) : wp (.ok b) P E = P b := rfl
@[simp] theorem wp_pure (b : β) (P : β → Prop) (E : Fail → Prop) :
    wp (pure b : M β) P E = P b := rfl
@[simp] theorem wp_error (e : Fail) (P : β → Prop) (E : Fail → Prop) :
    wp (.error e) P E = E e := rfl
@[simp] theorem wp_throwErr (e : LinalgError) (P : β → Prop) (E : Fail → Prop) :
    wp (throwErr e) P E = E (.err e) := rfl

@[simp] theorem wp_bind (m : M β) (f : β → M γ) (P : γ → Prop) (E : Fail → Prop) :
    wp (m >>= f) P E = wp m (fun b => wp (f b) P E) E := by
  cases m <;> rfl

theorem wp_mono {m : M β} {P Q : β → Prop} {E F : Fail → Prop} (h : wp m P E)
    (hPQ : ∀ b, P b → Q b) (hEF : ∀ e, E e → F e) : wp m Q F := by
  cases m with
  | ok b => exact hPQ _ h
  | error e => exact hEF _ h

theorem wp_conseq {m : M β} {P Q : β → Prop} {E : Fail → Prop} (h : wp m P E)
    (hPQ : ∀ b, P b → Q b) : wp m Q E := wp_mono h hPQ (fun _ h => h)

theorem wp_and {m : M β} {P Q : β → Prop} {E : Fail → Prop} (h : wp m P E) (h' : wp m Q E) :
    wp m (fun b => P b ∧ Q b) E := by
  cases m with
  | ok b => exact ⟨h, h'⟩
  | error e => exact h

theorem succeeds_iff {m : M β} {P : β → Prop} : Succeeds m P ↔ ∃ b, m = .ok b ∧ P b := by
  cases m with
  | ok b => simp
  | error e => simp

theorem wp_of_ok {m : M β} {b : β} {P : β → Prop} {E : Fail → Prop} (h : m = .ok b) (hP : P b) :
    wp m P E := by subst h; exact hP

theorem wp_elim_ok {m : M β} {b : β} {P : β → Prop} {E : Fail → Prop} (h : wp m P E)
    (hm : m = .ok b) : P b := by subst hm; exact h

theorem wp_elim_error {m : M β} {e : Fail} {P : β → Prop} {E : Fail → Prop} (h : wp m P E)
    (hm : m = .error e) : E e := by subst hm; exact h

@[simp] theorem ok_bind (b : β) (f : β → M γ) : ((Except.ok b : M β) >>= f) = f b := rfl
@[simp] theorem error_bind (e : Fail) (f : β → M γ) :
    ((Except.error e : M β) >>= f) = .error e := rfl

end wp

section access
variable {α : Type}

theorem Arr2.at_ok {a : Arr2 α} {i j : Nat} (hi : i < a.nr) (hj : j < a.nc) :
    a.at i j = .ok (a.get i j) := by simp [Arr2.at, hi, hj]
theorem Arr2.atm_ok {a : Arr2 α} {i j : Nat} {v : α} (hi : i < a.nr) (hj : j < a.nc) :
    a.atm i j v = .ok (a.upd i j v) := by simp [Arr2.atm, hi, hj]
theorem Arr2.idxSet_ok {a : Arr2 α} {i j : Nat} {v : α} (hi : i < a.nr) (hj : j < a.nc) :
    a.idxSet i j v = .ok (a.upd i j v) := by simp [Arr2.idxSet, hi, hj]
theorem Arr1.at_ok {a : Arr1 α} {i : Nat} (hi : i < a.len) :
    a.at i = .ok (a.get i) := by simp [Arr1.at, hi]
theorem Arr1.atm_ok {a : Arr1 α} {i : Nat} {v : α} (hi : i < a.len) :
    a.atm i v = .ok (a.upd i v) := by simp [Arr1.atm, hi]
theorem Arr1.idx_ok {a : Arr1 α} {i : Nat} (hi : i < a.len) :
    a.idx i = .ok (a.get i) := by simp [Arr1.idx, hi]
theorem Arr1.idxSet_ok {a : Arr1 α} {i : Nat} {v : α} (hi : i < a.len) :
    a.idxSet i v = .ok (a.upd i v) := by simp [Arr1.idxSet, hi]
theorem Arr2.colSlice_ok {a : Arr2 α} {r0 r1 c : Nat} (h : r0 ≤ r1) (h1 : r1 ≤ a.nr)
    (hc : c < a.nc) : a.colSlice r0 r1 c = .ok ⟨r1 - r0, fun i => a.get (r0 + i) c⟩ := by
  simp [Arr2.colSlice, h, h1, hc]
theorem Arr2.slice_ok {a : Arr2 α} {r0 r1 c0 c1 : Nat} (h : r0 ≤ r1) (h1 : r1 ≤ a.nr)
    (hc : c0 ≤ c1) (hc1 : c1 ≤ a.nc) :
    a.slice r0 r1 c0 c1 = .ok ⟨r1 - r0, c1 - c0, fun i j => a.get (r0 + i) (c0 + j)⟩ := by
  simp [Arr2.slice, h, h1, hc, hc1]
theorem Arr1.slice_ok {a : Arr1 α} {k0 k1 : Nat} (h : k0 ≤ k1) (h1 : k1 ≤ a.len) :
    a.slice k0 k1 = .ok ⟨k1 - k0, fun i => a.get (k0 + i)⟩ := by
  simp [Arr1.slice, h, h1]

@[simp] theorem Arr2.upd_nr (a : Arr2 α) (i j : Nat) (v : α) : (a.upd i j v).nr = a.nr := rfl
@[simp] theorem Arr2.upd_nc (a : Arr2 α) (i j : Nat) (v : α) : (a.upd i j v).nc = a.nc := rfl
theorem Arr2.upd_get (a : Arr2 α) (i j : Nat) (v : α) (k l : Nat) :
    (a.upd i j v).get k l = if k = i ∧ l = j then v else a.get k l := rfl
@[simp] theorem Arr1.upd_len (a : Arr1 α) (i : Nat) (v : α) : (a.upd i v).len = a.len := rfl
theorem Arr1.upd_get (a : Arr1 α) (i : Nat) (v : α) (k : Nat) :
    (a.upd i v).get k = if k = i then v else a.get k := rfl
@[simp] theorem Arr2.putCol_nr (a : Arr2 α) (r c : Nat) (v : Arr1 α) :
    (a.putCol r c v).nr = a.nr := rfl
@[simp] theorem Arr2.putCol_nc (a : Arr2 α) (r c : Nat) (v : Arr1 α) :
    (a.putCol r c v).nc = a.nc := rfl
@[simp] theorem Arr2.put_nr (a : Arr2 α) (r c : Nat) (v : Arr2 α) : (a.put r c v).nr = a.nr := rfl
@[simp] theorem Arr2.put_nc (a : Arr2 α) (r c : Nat) (v : Arr2 α) : (a.put r c v).nc = a.nc := rfl
@[simp] theorem Arr1.put_len (a : Arr1 α) (k : Nat) (v : Arr1 α) : (a.put k v).len = a.len := rfl
@[simp] theorem Arr2.t_nr (a : Arr2 α) : a.t.nr = a.nc := rfl
@[simp] theorem Arr2.t_nc (a : Arr2 α) : a.t.nc = a.nr := rfl
@[simp] theorem Arr2.t_get (a : Arr2 α) (i j : Nat) : a.t.get i j = a.get j i := rfl

theorem Arr2.ext' {a b : Arr2 α} (hr : a.nr = b.nr) (hc : a.nc = b.nc)
    (h : ∀ i j, a.get i j = b.get i j) : a = b := by
  cases a; cases b; simp at *; exact ⟨hr, hc, funext fun i => funext fun j => h i j⟩

theorem Arr1.ext' {a b : Arr1 α} (hr : a.len = b.len) (h : ∀ i, a.get i = b.get i) : a = b := by
  cases a; cases b; simp at *; exact ⟨hr, funext fun i => h i⟩

theorem checkSquare_ok {a : Arr2 α} (h : a.nr = a.nc) : checkSquare a = .ok a.nr := by
  simp [checkSquare, h]
theorem checkSquare_err {a : Arr2 α} (h : a.nr ≠ a.nc) :
    checkSquare a = .error (.err (.notSquare a.nr a.nc)) := by
  simp [checkSquare, h, throwErr]

end access

section loops
variable {σ τ : Type}

@[simp] theorem loopM_nil (s : σ) (f : Nat → σ → M σ) : loopM [] s f = .ok s := rfl
@[simp] theorem loopM_cons (i : Nat) (is : List Nat) (s : σ) (f : Nat → σ → M σ) :
    loopM (i :: is) s f = (f i s >>= fun s' => loopM is s' f) := rfl

theorem loopM_append (is js : List Nat) (s : σ) (f : Nat → σ → M σ) :
    loopM (is ++ js) s f = (loopM is s f >>= fun s' => loopM js s' f) := by
  induction is generalizing s with
  | nil => rfl
  | cons i is ih =>
    simp only [List.cons_append, loopM_cons]
    cases h : f i s with
    | ok s' => simp [ih]
    | error e => rfl

theorem loopM_congr {is : List Nat} {s : σ} {f g : Nat → σ → M σ}
    (h : ∀ i ∈ is, ∀ s, f i s = g i s) : loopM is s f = loopM is s g := by
  induction is generalizing s with
  | nil => rfl
  | cons i is ih =>
    simp only [loopM_cons]
    rw [h i (by simp)]
    cases g i s with
    | ok s' => simp; exact ih (fun j hj => h j (by simp [hj]))
    | error e => rfl

/-- Loop rule for a list with positions. -/
theorem wp_loopM_range' {lo n : Nat} {s : σ} {f : Nat → σ → M σ} {E : Fail → Prop}
    (Inv : Nat → σ → Prop) (h0 : Inv lo s)
    (hstep : ∀ i s, lo ≤ i → i < lo + n → Inv i s → wp (f i s) (Inv (i + 1)) E) :
    wp (loopM (List.range' lo n) s f) (Inv (lo + n)) E := by
  induction n generalizing lo s with
  | zero => simpa using h0
  | succ n ih =>
    simp only [List.range'_succ, loopM_cons, wp_bind]
    refine wp_conseq (hstep lo s le_rfl (by omega) h0) fun s' hs' => ?_
    have := ih (lo := lo + 1) (s := s') hs' fun i s hlo hi hI => hstep i s (by omega) (by omega) hI
    rwa [show lo + (n + 1) = lo + 1 + n by omega]

/-- Loop rule for `for i in lo..hi`. -/
theorem wp_forRange {lo hi : Nat} {s : σ} {f : Nat → σ → M σ} {E : Fail → Prop}
    (Inv : Nat → σ → Prop) (hle : lo ≤ hi) (h0 : Inv lo s)
    (hstep : ∀ i s, lo ≤ i → i < hi → Inv i s → wp (f i s) (Inv (i + 1)) E) :
    wp (forRange lo hi s f) (Inv hi) E := by
  have := wp_loopM_range' (n := hi - lo) Inv h0 fun i s hlo hi' hI => hstep i s hlo (by omega) hI
  rwa [show lo + (hi - lo) = hi by omega] at this

/-- Loop rule for `for i in (lo..hi).rev()`. -/
theorem wp_forRev {lo hi : Nat} {s : σ} {f : Nat → σ → M σ} {E : Fail → Prop}
    (Inv : Nat → σ → Prop) (hle : lo ≤ hi) (h0 : Inv hi s)
    (hstep : ∀ i s, lo ≤ i → i < hi → Inv (i + 1) s → wp (f i s) (Inv i) E) :
    wp (forRev lo hi s f) (Inv lo) E := by
  unfold forRev
  obtain ⟨n, rfl⟩ : ∃ n, hi = lo + n := ⟨hi - lo, by omega⟩
  simp only [Nat.add_sub_cancel_left]
  clear hle
  induction n generalizing s with
  | zero => simpa using h0
  | succ n ih =>
    rw [List.range'_concat]
    simp only [List.reverse_append, List.reverse_cons, List.reverse_nil, List.nil_append,
      List.cons_append, loopM_cons, wp_bind, Nat.one_mul]
    refine wp_conseq (hstep (lo + n) s (by omega) (by omega) h0) fun s' hs' => ?_
    exact ih hs' fun i s hlo hi' hI => hstep i s hlo (by omega) hI

theorem forRange_congr {lo hi : Nat} {s : σ} {f g : Nat → σ → M σ}
    (h : ∀ i, lo ≤ i → i < hi → ∀ s, f i s = g i s) : forRange lo hi s f = forRange lo hi s g := by
  apply loopM_congr
  intro i hi'
  rw [List.mem_range'_1] at hi'
  exact h i (by omega) (by omega)

theorem forRev_congr {lo hi : Nat} {s : σ} {f g : Nat → σ → M σ}
    (h : ∀ i, lo ≤ i → i < hi → ∀ s, f i s = g i s) : forRev lo hi s f = forRev lo hi s g := by
  apply loopM_congr
  intro i hi'
  rw [List.mem_reverse, List.mem_range'_1] at hi'
  exact h i (by omega) (by omega)

@[simp] theorem forRange_self (lo : Nat) (s : σ) (f : Nat → σ → M σ) :
    forRange lo lo s f = .ok s := by simp [forRange]

theorem forRange_succ {lo hi : Nat} (h : lo ≤ hi) (s : σ) (f : Nat → σ → M σ) :
    forRange lo (hi + 1) s f = (forRange lo hi s f >>= fun s' => f hi s') := by
  unfold forRange
  rw [show hi + 1 - lo = (hi - lo) + 1 by omega, List.range'_concat, loopM_append]
  congr 1
  funext s'
  simp only [loopM_cons, loopM_nil]
  rw [show lo + 1 * (hi - lo) = hi by omega]
  cases f hi s' <;> rfl

/-- Two outcomes are related when both succeed with related values or both fail alike. -/
def RelM {β γ : Type} (R : β → γ → Prop) (m : M β) (m' : M γ) : Prop :=
  match m, m' with
  | .ok b, .ok c => R b c
  | .error e, .error e' => e = e'
  | _, _ => False

@[simp] theorem relM_ok {β γ : Type} (R : β → γ → Prop) (b : β) (c : γ) :
    RelM R (.ok b) (.ok c) = R b c := rfl
@[simp] theorem relM_error {β γ : Type} (R : β → γ → Prop) (e e' : Fail) :
    RelM R (.error e : M β) (.error e' : M γ) = (e = e') := rfl

theorem relM_bind {β γ β' γ' : Type} {R : β → γ → Prop} {R' : β' → γ' → Prop} {m : M β} {m' : M γ}
    {f : β → M β'} {g : γ → M γ'} (h : RelM R m m') (hf : ∀ b c, R b c → RelM R' (f b) (g c)) :
    RelM R' (m >>= f) (m' >>= g) := by
  cases m <;> cases m' <;> simp_all [RelM]

theorem relM_loopM {R : σ → τ → Prop} {is : List Nat} {s : σ} {t : τ} {f : Nat → σ → M σ}
    {g : Nat → τ → M τ} (h0 : R s t)
    (h : ∀ i ∈ is, ∀ s t, R s t → RelM R (f i s) (g i t)) :
    RelM R (loopM is s f) (loopM is t g) := by
  induction is generalizing s t with
  | nil => simpa using h0
  | cons i is ih =>
    simp only [loopM_cons]
    exact relM_bind (h i (by simp) s t h0) fun b c hbc =>
      ih hbc fun j hj => h j (by simp [hj])

theorem relM_forRange {R : σ → τ → Prop} {lo hi : Nat} {s : σ} {t : τ} {f : Nat → σ → M σ}
    {g : Nat → τ → M τ} (h0 : R s t)
    (h : ∀ i, lo ≤ i → i < hi → ∀ s t, R s t → RelM R (f i s) (g i t)) :
    RelM R (forRange lo hi s f) (forRange lo hi t g) := by
  apply relM_loopM h0
  intro i hi'
  rw [List.mem_range'_1] at hi'
  exact h i (by omega) (by omega)

theorem relM_forRev {R : σ → τ → Prop} {lo hi : Nat} {s : σ} {t : τ} {f : Nat → σ → M σ}
    {g : Nat → τ → M τ} (h0 : R s t)
    (h : ∀ i, lo ≤ i → i < hi → ∀ s t, R s t → RelM R (f i s) (g i t)) :
    RelM R (forRev lo hi s f) (forRev lo hi t g) := by
  apply relM_loopM h0
  intro i hi'
  rw [List.mem_reverse, List.mem_range'_1] at hi'
  exact h i (by omega) (by omega)

theorem relM_mono {β γ : Type} {R R' : β → γ → Prop} {m : M β} {m' : M γ} (h : RelM R m m')
    (hR : ∀ b c, R b c → R' b c) : RelM R' m m' := by
  cases m <;> cases m' <;> simp_all [RelM]

end loops

section dots
variable {α : Type} [NdFloat α]

theorem Arr2.dot_ok {a b : Arr2 α} (h : a.nc = b.nr) :
    a.dot b = .ok ⟨a.nr, b.nc, fun i j => dotTo a.nc (a.get i) fun k => b.get k j⟩ := by
  simp [Arr2.dot, h]

theorem Arr1.dot_ok {a b : Arr1 α} (h : a.len = b.len) :
    a.dot b = .ok (dotTo a.len a.get b.get) := by
  simp [Arr1.dot, h]

end dots

end LinfaLinalg
