import Verif.Proofs.ParamLob
import Verif.Spec.Format

/-! # Sets of scalars that are closed under all operations -/

set_option linter.unusedSectionVars false

namespace LinfaLinalg.Par

variable {α : Type} [Zero α] [One α] [Add α] [Sub α] [Mul α] [Div α] [Neg α] [NdFloat α]

/-- All operations lead from scalars with the property to scalars with the property. -/
structure ClosedScalars (S : α → Prop) : Prop where
  zero : S 0
  one : S 1
  add : ∀ a b, S a → S b → S (a + b)
  sub : ∀ a b, S a → S b → S (a - b)
  mul : ∀ a b, S a → S b → S (a * b)
  div : ∀ a b, S a → S b → S (a / b)
  neg : ∀ a, S a → S (-a)
  sqrt : ∀ a, S a → S (NdFloat.sqrt a)
  abs : ∀ a, S a → S (NdFloat.abs a)
  signum : ∀ a, S a → S (NdFloat.signum a)
  hypot : ∀ a b, S a → S b → S (NdFloat.hypot a b)
  max : ∀ a b, S a → S b → S (NdFloat.max a b)
  ofRat : ∀ q, S (NdFloat.ofRat q)
  negInf : S NdFloat.negInf
  epsilon : S NdFloat.epsilon
  dot : ∀ l : List (α × α), (∀ p ∈ l, S p.1 ∧ S p.2) → S (NdFloat.dot l)

/-- Equal, with the property. -/
def EqIn (S : α → Prop) (x y : α) : Prop := x = y ∧ S x

theorem forall₂_eqIn {S : α → Prop} {l l' : List (α × α)}
    (h : List.Forall₂ (fun p q => EqIn S p.1 q.1 ∧ EqIn S p.2 q.2) l l') : l = l' ∧ ∀ p ∈ l, S p.1 ∧ S p.2 := by
  induction h with
  | nil => exact ⟨rfl, by simp⟩
  | @cons a b _ _ hab _ ih =>
    refine ⟨by rw [ih.1, Prod.ext hab.1.1 hab.2.1], fun p hp => ?_⟩
    rcases List.mem_cons.1 hp with h | h
    · subst h; exact ⟨hab.1.2, hab.2.2⟩
    · exact ih.2 p h

theorem ClosedScalars.scalarRel {S : α → Prop} (h : ClosedScalars S) : ScalarRel (EqIn S) where
  zero := ⟨rfl, h.zero⟩
  one := ⟨rfl, h.one⟩
  add := fun {a a' b b'} h1 h2 => ⟨by rw [h1.1, h2.1], h.add _ _ h1.2 h2.2⟩
  sub := fun {a a' b b'} h1 h2 => ⟨by rw [h1.1, h2.1], h.sub _ _ h1.2 h2.2⟩
  mul := fun {a a' b b'} h1 h2 => ⟨by rw [h1.1, h2.1], h.mul _ _ h1.2 h2.2⟩
  div := fun {a a' b b'} h1 h2 => ⟨by rw [h1.1, h2.1], h.div _ _ h1.2 h2.2⟩
  neg := fun {a b} h1 => ⟨by rw [h1.1], h.neg _ h1.2⟩
  sqrt := fun {a b} h1 => ⟨by rw [h1.1], h.sqrt _ h1.2⟩
  abs := fun {a b} h1 => ⟨by rw [h1.1], h.abs _ h1.2⟩
  signum := fun {a b} h1 => ⟨by rw [h1.1], h.signum _ h1.2⟩
  hypot := fun {a a' b b'} h1 h2 => ⟨by rw [h1.1, h2.1], h.hypot _ _ h1.2 h2.2⟩
  max := fun {a a' b b'} h1 h2 => ⟨by rw [h1.1, h2.1], h.max _ _ h1.2 h2.2⟩
  lt := fun {a a' b b'} h1 h2 => by rw [h1.1, h2.1]
  le := fun {a a' b b'} h1 h2 => by rw [h1.1, h2.1]
  isZero := fun {a b} h1 => by rw [h1.1]
  isSignNeg := fun {a b} h1 => by rw [h1.1]
  ofRat := fun q => ⟨rfl, h.ofRat q⟩
  negInf := ⟨rfl, h.negInf⟩
  epsilon := ⟨rfl, h.epsilon⟩
  dot := fun {l l'} hl => by
    obtain ⟨rfl, h2⟩ := forall₂_eqIn hl
    exact ⟨rfl, h.dot l h2⟩

theorem closed_all : ClosedScalars (fun _ : α => True) := by
  constructor <;> intros <;> trivial

theorem relA1_of_all {S : α → Prop} {a : Arr1 α} (h : All1 S a) : RelA1 (EqIn S) a a := ⟨rfl, fun i hi => ⟨rfl, h i hi⟩⟩
theorem relA2_of_all {S : α → Prop} {a : Arr2 α} (h : All2 S a) : RelA2 (EqIn S) a a :=
  ⟨rfl, rfl, fun i hi j hj => ⟨rfl, h i hi j hj⟩⟩

theorem RelA1.all {S : α → Prop} {a b : Arr1 α} (h : RelA1 (EqIn S) a b) : All1 S a := fun i hi => (h.get i hi).2
theorem RelA2.all {S : α → Prop} {a b : Arr2 α} (h : RelA2 (EqIn S) a b) : All2 S a := fun i hi j hj => (h.get i hi j hj).2
theorem RelA1.all' {S : α → Prop} {a b : Arr1 α} (h : RelA1 (EqIn S) a b) : All1 S b := fun i hi => by
  have := h.get i (h.len ▸ hi)
  exact this.1 ▸ this.2
theorem RelA2.all' {S : α → Prop} {a b : Arr2 α} (h : RelA2 (EqIn S) a b) : All2 S b := fun i hi j hj => by
  have := h.get i (h.nr ▸ hi) j (h.nc ▸ hj)
  exact this.1 ▸ this.2

theorem forall₂_all_of {S : α → Prop} {l l' : List α} (h : List.Forall₂ (EqIn S) l l') : l = l' ∧ ∀ x ∈ l, S x := by
  induction h with
  | nil => exact ⟨rfl, by simp⟩
  | cons hab _ ih =>
    refine ⟨by rw [hab.1, ih.1], fun x hx => ?_⟩
    rcases List.mem_cons.1 hx with h | h
    · exact h ▸ hab.2
    · exact ih.2 x h

theorem RelO.of_some {A : Type} {T : A → A → Prop} {o o' : Option A} (h : RelO T o o') {x : A} (hx : o = some x) :
    ∃ y, o' = some y ∧ T x y := by
  subst hx
  cases o' with
  | none => exact h.elim
  | some y => exact ⟨y, rfl, h⟩

theorem RelM.of_ok {A : Type} {T : A → A → Prop} {p q : M A} (h : RelM T p q) {x : A} (hx : p = .ok x) :
    ∃ y, q = .ok y ∧ T x y := by
  subst hx
  cases q with
  | error e => exact h.elim
  | ok y => exact ⟨y, rfl, h⟩

theorem RelM.of_error {A : Type} {T : A → A → Prop} {p q : M A} (h : RelM T p q) {e : Fail} (hx : p = .error e) :
    q = .error e := by
  subst hx
  cases q with
  | error e' => exact congrArg Except.error (Eq.symm h)
  | ok y => exact h.elim

end LinfaLinalg.Par
