import Verif.Proofs.Basic
import Verif.Proofs.RelTac
import Verif.Model.TruncatedSvd
import Verif.Model.SortOrder
import Mathlib.Data.List.Forall2

/-! # Relations between scalars carry over to the results

If a relation between two kinds of scalars is respected by all operations and by all comparisons, every
function of the library, run on related inputs, takes the same branches and returns related outputs. The
relations between arrays are about the entries inside the array only. -/

set_option linter.unusedSectionVars false

namespace LinfaLinalg.Par

variable {α : Type} [Zero α] [One α] [Add α] [Sub α] [Mul α] [Div α] [Neg α] [NdFloat α]
variable {β : Type} [Zero β] [One β] [Add β] [Sub β] [Mul β] [Div β] [Neg β] [NdFloat β]

/-- All operations respect the relation, and all comparisons agree on related scalars. -/
class ScalarRel (R : α → β → Prop) : Prop where
  zero : R 0 0
  one : R 1 1
  add : ∀ {a a' b b'}, R a b → R a' b' → R (a + a') (b + b')
  sub : ∀ {a a' b b'}, R a b → R a' b' → R (a - a') (b - b')
  mul : ∀ {a a' b b'}, R a b → R a' b' → R (a * a') (b * b')
  div : ∀ {a a' b b'}, R a b → R a' b' → R (a / a') (b / b')
  neg : ∀ {a b}, R a b → R (-a) (-b)
  sqrt : ∀ {a b}, R a b → R (NdFloat.sqrt a) (NdFloat.sqrt b)
  abs : ∀ {a b}, R a b → R (NdFloat.abs a) (NdFloat.abs b)
  signum : ∀ {a b}, R a b → R (NdFloat.signum a) (NdFloat.signum b)
  hypot : ∀ {a a' b b'}, R a b → R a' b' → R (NdFloat.hypot a a') (NdFloat.hypot b b')
  max : ∀ {a a' b b'}, R a b → R a' b' → R (NdFloat.max a a') (NdFloat.max b b')
  lt : ∀ {a a' b b'}, R a b → R a' b' → NdFloat.lt a a' = NdFloat.lt b b'
  le : ∀ {a a' b b'}, R a b → R a' b' → NdFloat.le a a' = NdFloat.le b b'
  isZero : ∀ {a b}, R a b → NdFloat.isZero a = NdFloat.isZero b
  isSignNeg : ∀ {a b}, R a b → NdFloat.isSignNeg a = NdFloat.isSignNeg b
  ofRat : ∀ q, R (NdFloat.ofRat q) (NdFloat.ofRat q)
  negInf : R NdFloat.negInf NdFloat.negInf
  epsilon : R NdFloat.epsilon NdFloat.epsilon
  dot : ∀ {l l'}, List.Forall₂ (fun (p : α × α) (q : β × β) => R p.1 q.1 ∧ R p.2 q.2) l l' →
    R (NdFloat.dot l) (NdFloat.dot l')

/-- Arrays of the same length with related entries. -/
structure RelA1 (R : α → β → Prop) (a : Arr1 α) (b : Arr1 β) : Prop where
  len : a.len = b.len
  get : ∀ i < a.len, R (a.get i) (b.get i)

/-- Arrays of the same shape with related entries. -/
structure RelA2 (R : α → β → Prop) (a : Arr2 α) (b : Arr2 β) : Prop where
  nr : a.nr = b.nr
  nc : a.nc = b.nc
  get : ∀ i < a.nr, ∀ j < a.nc, R (a.get i j) (b.get i j)

/-- Related pairs. -/
def RelP {A B C D : Type} (R : A → B → Prop) (S : C → D → Prop) (p : A × C) (q : B × D) : Prop :=
  R p.1 q.1 ∧ S p.2 q.2

/-- Related optional values. -/
def RelO {A B : Type} (R : A → B → Prop) (o : Option A) (o' : Option B) : Prop :=
  match o, o' with
  | none, none => True
  | some a, some b => R a b
  | _, _ => False

/-- Related loop controls. -/
def RelStep {A B : Type} (R : A → B → Prop) (o : Step A) (o' : Step B) : Prop :=
  match o, o' with
  | .next a, .next b => R a b
  | .brk a, .brk b => R a b
  | _, _ => False

section combinators
variable {A B C D : Type}

theorem forall_RelP {R : A → B → Prop} {S : C → D → Prop} {T : A × C → B × D → Prop}
    (h : ∀ a b, R a b → ∀ c d, S c d → T (a, c) (b, d)) : ∀ p q, RelP R S p q → T p q :=
  fun p q hpq => h p.1 q.1 hpq.1 p.2 q.2 hpq.2

@[rel_rule] theorem relP_mk {R : A → B → Prop} {S : C → D → Prop} {a : A} {b : B} {c : C} {d : D} (h : R a b) (h' : S c d) :
    RelP R S (a, c) (b, d) := ⟨h, h'⟩

@[rel_rule] theorem relP_fst {R : A → B → Prop} {S : C → D → Prop} {p : A × C} {q : B × D} (h : RelP R S p q) : R p.1 q.1 :=
  h.1

@[rel_rule] theorem relP_snd {R : A → B → Prop} {S : C → D → Prop} {p : A × C} {q : B × D} (h : RelP R S p q) : S p.2 q.2 :=
  h.2

theorem forall_RelO {R : A → B → Prop} {T : Option A → Option B → Prop} (hn : T none none)
    (h : ∀ a b, R a b → T (some a) (some b)) : ∀ p q, RelO R p q → T p q := by
  intro p q hpq
  cases p <;> cases q
  · exact hn
  · exact hpq.elim
  · exact hpq.elim
  · exact h _ _ hpq

theorem facts_RelA2 {R : α → β → Prop} {T : Arr2 α → Arr2 β → Prop}
    (h : ∀ a b, RelA2 R a b → a.nr = b.nr → a.nc = b.nc → T a b) : ∀ a b, RelA2 R a b → T a b :=
  fun a b hab => h a b hab hab.nr hab.nc

theorem facts_RelA1 {R : α → β → Prop} {T : Arr1 α → Arr1 β → Prop}
    (h : ∀ a b, RelA1 R a b → a.len = b.len → T a b) : ∀ a b, RelA1 R a b → T a b :=
  fun a b hab => h a b hab hab.len

theorem forall_Eq {T : A → A → Prop} (h : ∀ a, T a a) : ∀ a b, a = b → T a b := fun a _ hab => hab ▸ h a

theorem forall_relAny {R : A → B → Prop} {T : A → B → Prop} (h : ∀ a b, R a b → T a b) :
    ∀ a b, R a b → T a b := h

@[rel_rule] theorem relM_ite {R : A → B → Prop} {p q : Prop} [Decidable p] [Decidable q] {a b : M A} {a' b' : M B}
    (hpq : p ↔ q) (h1 : p → RelM R a a') (h2 : ¬ p → RelM R b b') :
    RelM R (if p then a else b) (if q then a' else b') := by
  by_cases hp : p
  · rw [if_pos hp, if_pos (hpq.1 hp)]; exact h1 hp
  · rw [if_neg hp, if_neg (fun hq => hp (hpq.2 hq))]; exact h2 hp

@[rel_rule] theorem rel_ite {R : A → B → Prop} {p q : Prop} [Decidable p] [Decidable q] {a b : A} {a' b' : B}
    (hpq : p ↔ q) (h1 : p → R a a') (h2 : ¬ p → R b b') :
    R (if p then a else b) (if q then a' else b') := by
  by_cases hp : p
  · rw [if_pos hp, if_pos (hpq.1 hp)]; exact h1 hp
  · rw [if_neg hp, if_neg (fun hq => hp (hpq.2 hq))]; exact h2 hp

@[rel_rule] theorem relM_ok' {R : A → B → Prop} {a : A} {b : B} (h : R a b) : RelM R (.ok a) (.ok b) := h

@[rel_rule] theorem relM_error' {R : A → B → Prop} {e e' : Fail} (h : e = e') : RelM R (.error e : M A) (.error e' : M B) := h

@[rel_rule] theorem relM_throw {R : A → B → Prop} {e e' : LinalgError} (h : e = e') :
    RelM R (throwErr e : M A) (throwErr e' : M B) := by subst h; rfl

theorem relM_loopBrk {R : A → B → Prop} {is : List Nat} {s : A} {t : B} {f : Nat → A → M (Step A)}
    {g : Nat → B → M (Step B)} (h0 : R s t)
    (h : ∀ i ∈ is, ∀ s t, R s t → RelM (RelStep R) (f i s) (g i t)) :
    RelM R (loopBrk is s f) (loopBrk is t g) := by
  induction is generalizing s t with
  | nil => exact h0
  | cons i is ih =>
    unfold loopBrk
    refine relM_bind (h i (by simp) s t h0) fun b c hbc => ?_
    cases b <;> cases c
    · exact ih hbc fun j hj => h j (by simp [hj])
    · exact hbc.elim
    · exact hbc.elim
    · exact hbc

theorem bool_iff {a b : Bool} (h : a = b) : (a = true ↔ b = true) := by rw [h]
theorem bool_not {a b : Bool} (h : a = b) : (!a) = !b := by rw [h]
theorem bool_or {a b c d : Bool} (h : a = b) (h' : c = d) : (a || c) = (b || d) := by rw [h, h']
theorem bool_and {a b c d : Bool} (h : a = b) (h' : c = d) : (a && c) = (b && d) := by rw [h, h']

@[rel_rule] theorem relM_unwrap {R : A → B → Prop} {m : M A} {m' : M B} (h : RelM R m m') : RelM R (unwrapM m) (unwrapM m') := by
  cases m <;> cases m'
  · obtain rfl : _ = _ := h
    rename_i e
    cases e <;> rfl
  · exact h.elim
  · exact h.elim
  · exact h

/-- Related results of caught computations. -/
def RelE (R : A → B → Prop) (o : Except LinalgError A) (o' : Except LinalgError B) : Prop :=
  match o, o' with
  | .ok a, .ok b => R a b
  | .error e, .error e' => e = e'
  | _, _ => False

theorem forall_RelE {R : A → B → Prop} {T : Except LinalgError A → Except LinalgError B → Prop}
    (he : ∀ e, T (.error e) (.error e)) (h : ∀ a b, R a b → T (.ok a) (.ok b)) : ∀ p q, RelE R p q → T p q := by
  intro p q hpq
  cases p <;> cases q
  · obtain rfl : _ = _ := hpq
    exact he _
  · exact hpq.elim
  · exact hpq.elim
  · exact h _ _ hpq

@[rel_rule] theorem relM_catch {R : A → B → Prop} {m : M A} {m' : M B} (h : RelM R m m') :
    RelM (RelE R) (catchM m) (catchM m') := by
  cases m <;> cases m'
  · obtain rfl : _ = _ := h
    rename_i e
    cases e <;> rfl
  · exact h.elim
  · exact h.elim
  · exact h

end combinators

variable {R : α → β → Prop} [hR : ScalarRel R]

attribute [rel_rule] relM_bind ScalarRel.zero ScalarRel.one ScalarRel.add ScalarRel.sub ScalarRel.mul ScalarRel.div ScalarRel.neg
  ScalarRel.sqrt ScalarRel.abs ScalarRel.signum ScalarRel.hypot ScalarRel.max ScalarRel.ofRat ScalarRel.negInf ScalarRel.epsilon
  ScalarRel.dot ScalarRel.lt ScalarRel.le ScalarRel.isZero ScalarRel.isSignNeg RelA2.nr RelA2.nc RelA1.len bool_iff bool_not bool_or bool_and

/-! ### Arrays -/

@[rel_rule] theorem rel_at1 {a : Arr1 α} {b : Arr1 β} (h : RelA1 R a b) {i i' : Nat} (hi : i = i') :
    RelM R (a.at i) (b.at i') := by
  subst hi
  have h1 := h.len
  unfold Arr1.at
  exact relM_ite (by rw [h1]) (fun hi => h.get i hi) (fun _ => rfl)

@[rel_rule] theorem rel_idx {a : Arr1 α} {b : Arr1 β} (h : RelA1 R a b) {i i' : Nat} (hi : i = i') :
    RelM R (a.idx i) (b.idx i') := by
  subst hi
  have h1 := h.len
  unfold Arr1.idx
  exact relM_ite (by rw [h1]) (fun hi => h.get i hi) (fun _ => rfl)

@[rel_rule] theorem rel_upd1 {a : Arr1 α} {b : Arr1 β} (h : RelA1 R a b) {i i' : Nat} (hi : i = i') {x : α} {y : β} (hx : R x y) :
    RelA1 R (a.upd i x) (b.upd i' y) := by
  subst hi
  refine ⟨h.len, fun k hk => ?_⟩
  exact rel_ite Iff.rfl (fun _ => hx) (fun _ => h.get k hk)

@[rel_rule] theorem rel_atm1 {a : Arr1 α} {b : Arr1 β} (h : RelA1 R a b) {i i' : Nat} (hi : i = i') {x : α} {y : β} (hx : R x y) :
    RelM (RelA1 R) (a.atm i x) (b.atm i' y) := by
  have h1 := h.len
  unfold Arr1.atm
  rel

@[rel_rule] theorem rel_idxSet1 {a : Arr1 α} {b : Arr1 β} (h : RelA1 R a b) {i i' : Nat} (hi : i = i') {x : α} {y : β}
    (hx : R x y) : RelM (RelA1 R) (a.idxSet i x) (b.idxSet i' y) := by
  have h1 := h.len
  unfold Arr1.idxSet
  rel

@[rel_rule] theorem rel_at2 {a : Arr2 α} {b : Arr2 β} (h : RelA2 R a b) {i i' j j' : Nat} (hi : i = i') (hj : j = j') :
    RelM R (a.at i j) (b.at i' j') := by
  subst hi hj
  have h1 := h.nr
  have h2 := h.nc
  unfold Arr2.at
  exact relM_ite (by rw [h1, h2]) (fun hi => h.get i hi.1 j hi.2) (fun _ => rfl)

@[rel_rule] theorem rel_upd2 {a : Arr2 α} {b : Arr2 β} (h : RelA2 R a b) {i i' j j' : Nat} (hi : i = i') (hj : j = j') {x : α}
    {y : β} (hx : R x y) : RelA2 R (a.upd i j x) (b.upd i' j' y) := by
  subst hi hj
  refine ⟨h.nr, h.nc, fun k hk l hl => ?_⟩
  exact rel_ite Iff.rfl (fun _ => hx) (fun _ => h.get k hk l hl)

@[rel_rule] theorem rel_atm2 {a : Arr2 α} {b : Arr2 β} (h : RelA2 R a b) {i i' j j' : Nat} (hi : i = i') (hj : j = j') {x : α}
    {y : β} (hx : R x y) : RelM (RelA2 R) (a.atm i j x) (b.atm i' j' y) := by
  have h1 := h.nr
  have h2 := h.nc
  unfold Arr2.atm
  rel

@[rel_rule] theorem rel_idxSet2 {a : Arr2 α} {b : Arr2 β} (h : RelA2 R a b) {i i' j j' : Nat} (hi : i = i') (hj : j = j') {x : α}
    {y : β} (hx : R x y) : RelM (RelA2 R) (a.idxSet i j x) (b.idxSet i' j' y) := by
  have h1 := h.nr
  have h2 := h.nc
  unfold Arr2.idxSet
  rel

@[rel_rule] theorem rel_t {a : Arr2 α} {b : Arr2 β} (h : RelA2 R a b) : RelA2 R a.t b.t :=
  ⟨h.nc, h.nr, fun i hi j hj => h.get j hj i hi⟩

@[rel_rule] theorem rel_slice2 {a : Arr2 α} {b : Arr2 β} (h : RelA2 R a b) {r0 r1 c0 c1 r0' r1' c0' c1' : Nat} (h0 : r0 = r0')
    (h1 : r1 = r1') (h2 : c0 = c0') (h3 : c1 = c1') :
    RelM (RelA2 R) (a.slice r0 r1 c0 c1) (b.slice r0' r1' c0' c1') := by
  subst h0 h1 h2 h3
  have g1 := h.nr
  have g2 := h.nc
  unfold Arr2.slice
  refine relM_ite (by rw [g1, g2]) (fun hi => ⟨rfl, rfl, fun i hi' j hj' => ?_⟩) (fun _ => rfl)
  simp only at hi' hj'
  exact h.get _ (by omega) _ (by omega)

@[rel_rule] theorem rel_put2 {a : Arr2 α} {b : Arr2 β} (h : RelA2 R a b) {r0 c0 r0' c0' : Nat} (h0 : r0 = r0') (h1 : c0 = c0')
    {v : Arr2 α} {w : Arr2 β} (hv : RelA2 R v w) : RelA2 R (a.put r0 c0 v) (b.put r0' c0' w) := by
  subst h0 h1
  refine ⟨h.nr, h.nc, fun i hi j hj => ?_⟩
  refine rel_ite (by rw [hv.nr, hv.nc]) (fun hc => hv.get _ (by omega) _ (by omega)) (fun _ => h.get i hi j hj)

@[rel_rule] theorem rel_colSlice {a : Arr2 α} {b : Arr2 β} (h : RelA2 R a b) {r0 r1 c r0' r1' c' : Nat} (h0 : r0 = r0')
    (h1 : r1 = r1') (h2 : c = c') : RelM (RelA1 R) (a.colSlice r0 r1 c) (b.colSlice r0' r1' c') := by
  subst h0 h1 h2
  have g1 := h.nr
  have g2 := h.nc
  unfold Arr2.colSlice
  refine relM_ite (by rw [g1, g2]) (fun hi => ⟨rfl, fun i hi' => ?_⟩) (fun _ => rfl)
  simp only at hi'
  exact h.get _ (by omega) _ (by omega)

@[rel_rule] theorem rel_putCol {a : Arr2 α} {b : Arr2 β} (h : RelA2 R a b) {r0 c r0' c' : Nat} (h0 : r0 = r0') (h1 : c = c')
    {v : Arr1 α} {w : Arr1 β} (hv : RelA1 R v w) : RelA2 R (a.putCol r0 c v) (b.putCol r0' c' w) := by
  subst h0 h1
  refine ⟨h.nr, h.nc, fun i hi j hj => ?_⟩
  exact rel_ite (by rw [hv.len]) (fun hc => hv.get _ (by omega)) (fun _ => h.get i hi j hj)

@[rel_rule] theorem rel_slice1 {a : Arr1 α} {b : Arr1 β} (h : RelA1 R a b) {k0 k1 k0' k1' : Nat} (h0 : k0 = k0') (h1 : k1 = k1') :
    RelM (RelA1 R) (a.slice k0 k1) (b.slice k0' k1') := by
  subst h0 h1
  have g1 := h.len
  unfold Arr1.slice
  refine relM_ite (by rw [g1]) (fun hi => ⟨rfl, fun i hi' => ?_⟩) (fun _ => rfl)
  simp only at hi'
  exact h.get _ (by omega)

@[rel_rule] theorem rel_put1 {a : Arr1 α} {b : Arr1 β} (h : RelA1 R a b) {k0 k0' : Nat} (h0 : k0 = k0')
    {v : Arr1 α} {w : Arr1 β} (hv : RelA1 R v w) : RelA1 R (a.put k0 v) (b.put k0' w) := by
  subst h0
  refine ⟨h.len, fun i hi => ?_⟩
  exact rel_ite (by rw [hv.len]) (fun hc => hv.get _ (by omega)) (fun _ => h.get i hi)

@[rel_rule] theorem rel_map1 {a : Arr1 α} {b : Arr1 β} (h : RelA1 R a b) {f : α → α} {g : β → β} (hf : ∀ x y, R x y → R (f x) (g y)) :
    RelA1 R (a.map f) (b.map g) := ⟨h.len, fun i hi => hf _ _ (h.get i hi)⟩

@[rel_rule] theorem rel_map2 {a : Arr2 α} {b : Arr2 β} (h : RelA2 R a b) {f : α → α} {g : β → β} (hf : ∀ x y, R x y → R (f x) (g y)) :
    RelA2 R (a.map f) (b.map g) := ⟨h.nr, h.nc, fun i hi j hj => hf _ _ (h.get i hi j hj)⟩

@[rel_rule] theorem rel_diag {a : Arr2 α} {b : Arr2 β} (h : RelA2 R a b) : RelA1 R a.diag b.diag := by
  have h1 := h.nr
  have h2 := h.nc
  refine ⟨by simp only [Arr2.diag, h1, h2], fun i hi => h.get _ ?_ _ ?_⟩ <;> simp only [Arr2.diag] at hi <;> omega

theorem forall₂_map_range {A B : Type} {S : A → B → Prop} {n n' : Nat} (hn : n = n') {f : Nat → A} {g : Nat → B}
    (h : ∀ i < n, S (f i) (g i)) : List.Forall₂ S ((List.range n).map f) ((List.range n').map g) := by
  subst hn
  rw [List.forall₂_map_left_iff, List.forall₂_map_right_iff]
  exact List.forall₂_same.2 fun i hi => h i (List.mem_range.1 hi)

theorem rel_toList1 {a : Arr1 α} {b : Arr1 β} (h : RelA1 R a b) : List.Forall₂ R a.toList b.toList :=
  forall₂_map_range h.len h.get

theorem rel_toList2 {a : Arr2 α} {b : Arr2 β} (h : RelA2 R a b) : List.Forall₂ R a.toList b.toList := by
  unfold Arr2.toList
  rw [← h.nr, ← h.nc]
  have : ∀ l : List Nat, (∀ i ∈ l, i < a.nr) → List.Forall₂ R
      (l.flatMap fun i => (List.range a.nc).map fun j => a.get i j)
      (l.flatMap fun i => (List.range a.nc).map fun j => b.get i j) := by
    intro l
    induction l with
    | nil => intro _; exact List.Forall₂.nil
    | cons i l ih =>
      intro hl
      rw [List.flatMap_cons, List.flatMap_cons]
      exact List.rel_append (forall₂_map_range rfl fun j hj => h.get i (hl i (by simp)) j hj)
        (ih fun k hk => hl k (by simp [hk]))
  exact this _ fun i hi => List.mem_range.1 hi

@[rel_rule] theorem rel_zeros1 {n n' : Nat} (h : n = n') : RelA1 R (Arr1.zeros n) (Arr1.zeros n') :=
  ⟨h, fun _ _ => ScalarRel.zero⟩

@[rel_rule] theorem rel_zeros2 {n n' m m' : Nat} (h : n = n') (h' : m = m') : RelA2 R (Arr2.zeros n m) (Arr2.zeros n' m') :=
  ⟨h, h', fun _ _ _ _ => ScalarRel.zero⟩

@[rel_rule] theorem rel_eye {n n' m m' : Nat} (h : n = n') (h' : m = m') : RelA2 R (Arr2.eye n m) (Arr2.eye n' m') :=
  ⟨h, h', fun _ _ _ _ => rel_ite Iff.rfl (fun _ => ScalarRel.one) (fun _ => ScalarRel.zero)⟩

@[rel_rule] theorem rel_dotTo {n n' : Nat} (hn : n = n') {f g : Nat → α} {f' g' : Nat → β} (hf : ∀ i < n, R (f i) (f' i))
    (hg : ∀ i < n, R (g i) (g' i)) : R (dotTo n f g) (dotTo n' f' g') :=
  ScalarRel.dot (forall₂_map_range hn fun i hi => ⟨hf i hi, hg i hi⟩)

@[rel_rule] theorem rel_dot1 {a a' : Arr1 α} {b b' : Arr1 β} (h : RelA1 R a b) (h' : RelA1 R a' b') :
    RelM R (a.dot a') (b.dot b') := by
  have h1 := h.len
  have h2 := h'.len
  unfold Arr1.dot
  exact relM_ite (by rw [h1, h2]) (fun hi => rel_dotTo h1 h.get fun i hi' => h'.get i (by omega)) (fun _ => rfl)

@[rel_rule] theorem rel_dot2 {a a' : Arr2 α} {b b' : Arr2 β} (h : RelA2 R a b) (h' : RelA2 R a' b') :
    RelM (RelA2 R) (a.dot a') (b.dot b') := by
  have h1 := h.nc
  have h2 := h'.nr
  unfold Arr2.dot
  exact relM_ite (by rw [h1, h2]) (fun hi => ⟨h.nr, h'.nc, fun i hi' j hj' => rel_dotTo h1 (h.get i hi')
    fun k hk => h'.get k (by omega) j hj'⟩) (fun _ => rfl)

@[rel_rule] theorem rel_scaledAdd {a a' : Arr1 α} {b b' : Arr1 β} (h : RelA1 R a b) {k : α} {k' : β} (hk : R k k')
    (h' : RelA1 R a' b') : RelM (RelA1 R) (a.scaledAdd k a') (b.scaledAdd k' b') := by
  have h1 := h.len
  have h2 := h'.len
  unfold Arr1.scaledAdd
  exact relM_ite (by rw [h1, h2]) (fun hi => ⟨h1, fun i hi' => ScalarRel.add (h.get i hi')
    (ScalarRel.mul hk (h'.get i (by simp only at hi'; omega)))⟩) (fun _ => rfl)

@[rel_rule] theorem rel_forRange {A B : Type} {S : A → B → Prop} {lo hi lo' hi' : Nat} {s : A} {t : B} {f : Nat → A → M A}
    {g : Nat → B → M B} (h1 : lo = lo') (h2 : hi = hi') (h0 : S s t)
    (h : ∀ i, lo ≤ i → i < hi → ∀ s t, S s t → RelM S (f i s) (g i t)) :
    RelM S (forRange lo hi s f) (forRange lo' hi' t g) := by
  subst h1 h2
  exact relM_forRange h0 h

@[rel_rule] theorem rel_forRev {A B : Type} {S : A → B → Prop} {lo hi lo' hi' : Nat} {s : A} {t : B} {f : Nat → A → M A}
    {g : Nat → B → M B} (h1 : lo = lo') (h2 : hi = hi') (h0 : S s t)
    (h : ∀ i, lo ≤ i → i < hi → ∀ s t, S s t → RelM S (f i s) (g i t)) :
    RelM S (forRev lo hi s f) (forRev lo' hi' t g) := by
  subst h1 h2
  exact relM_forRev h0 h

@[rel_rule] theorem rel_loopBrk {A B : Type} {S : A → B → Prop} {is is' : List Nat} {s : A} {t : B} {f : Nat → A → M (Step A)}
    {g : Nat → B → M (Step B)} (h1 : is = is') (h0 : S s t)
    (h : ∀ i s t, S s t → RelM (RelStep S) (f i s) (g i t)) :
    RelM S (loopBrk is s f) (loopBrk is' t g) := by
  subst h1
  exact relM_loopBrk h0 fun i _ => h i

@[rel_rule] theorem rel_checkSquare {a : Arr2 α} {b : Arr2 β} (h : RelA2 R a b) :
    RelM Eq (checkSquare a) (checkSquare b) := by
  have h1 := h.nr
  have h2 := h.nc
  unfold checkSquare
  exact relM_ite (by rw [h1, h2]) (fun _ => relM_throw (by rw [h1, h2])) (fun _ => h1)

theorem forall₂_map {A B C D : Type} {S : A → B → Prop} {T : C → D → Prop} {f : A → C} {g : B → D} {l : List A}
    {l' : List B} (h : List.Forall₂ S l l') (hf : ∀ a b, S a b → T (f a) (g b)) :
    List.Forall₂ T (l.map f) (l'.map g) := by
  rw [List.forall₂_map_left_iff, List.forall₂_map_right_iff]
  exact h.imp fun a b hab => hf a b hab

theorem forall₂_foldl {A B C D : Type} {S : A → B → Prop} {T : C → D → Prop} {f : C → A → C} {g : D → B → D}
    {l : List A} {l' : List B} (h : List.Forall₂ S l l') {c : C} {d : D} (h0 : T c d)
    (hf : ∀ c d, T c d → ∀ a b, S a b → T (f c a) (g d b)) : T (l.foldl f c) (l'.foldl g d) := by
  induction h generalizing c d with
  | nil => exact h0
  | cons hab _ ih => exact ih (hf _ _ h0 _ _ hab)

@[rel_rule] theorem relO_none {A B : Type} {S : A → B → Prop} : RelO S none none := trivial
@[rel_rule] theorem relO_some {A B : Type} {S : A → B → Prop} {a : A} {b : B} (h : S a b) : RelO S (some a) (some b) := h
@[rel_rule] theorem relStep_next {A B : Type} {S : A → B → Prop} {a : A} {b : B} (h : S a b) :
    RelStep S (.next a) (.next b) := h
@[rel_rule] theorem relStep_brk {A B : Type} {S : A → B → Prop} {a : A} {b : B} (h : S a b) :
    RelStep S (.brk a) (.brk b) := h
@[rel_rule] theorem relE_ok {A B : Type} {S : A → B → Prop} {a : A} {b : B} (h : S a b) :
    RelE S (.ok a) (.ok b) := h
@[rel_rule] theorem relE_error {A B : Type} {S : A → B → Prop} {a b : LinalgError} (h : a = b) :
    RelE S (.error a : Except LinalgError A) (.error b : Except LinalgError B) := h

end LinfaLinalg.Par
