import Verif.Model.Memory

/-! # What it means that a function works in place on a view -/

namespace LinfaLinalg

/-- `x` is the address of an entry of the view. -/
def View1.In (v : View1) (x : Int) : Prop := ∃ i, i < v.len ∧ v.addr i = x

/-- `x` is the address of an entry of the view. -/
def View2.In (v : View2) (x : Int) : Prop := ∃ i j, i < v.nr ∧ j < v.nc ∧ v.addr i j = x

/-- Different entries have different addresses, which `ndarray` guarantees for everything that can be written to. -/
def View1.Inj (v : View1) : Prop := ∀ i i', i < v.len → i' < v.len → v.addr i = v.addr i' → i = i'

/-- Different entries have different addresses, which `ndarray` guarantees for everything that can be written to. -/
def View2.Inj (v : View2) : Prop := ∀ i j i' j', i < v.nr → j < v.nc → i' < v.nr → j' < v.nc →
  v.addr i j = v.addr i' j' → i = i' ∧ j = j'

/-- The memory holds the array `a` in the view `v`. -/
structure Holds1 {α : Type} (v : View1) (mem : Mem α) (a : Arr1 α) : Prop where
  len : a.len = v.len
  get : ∀ i, i < v.len → a.get i = mem (v.addr i)

/-- The memory holds the array `a` in the view `v`. -/
structure Holds {α : Type} (v : View2) (mem : Mem α) (a : Arr2 α) : Prop where
  nr : a.nr = v.nr
  nc : a.nc = v.nc
  get : ∀ i j, i < v.nr → j < v.nc → a.get i j = mem (v.addr i j)

/-- Two memories agree away from the addresses in `P`. -/
def Frame {α : Type} (P : Int → Prop) (mem mem' : Mem α) : Prop := ∀ x, ¬ P x → mem' x = mem x

/-- Two sets of addresses have nothing in common. -/
def Apart (P Q : Int → Prop) : Prop := ∀ x, P x → ¬ Q x

/-- The new memory holds `a` in the view `v`, and nothing else changed. -/
def Writes {α : Type} (v : View2) (mem mem' : Mem α) (a : Arr2 α) : Prop := Holds v mem' a ∧ Frame v.In mem mem'

/-- The run `p` goes like the run `q`: it returns something related to what `q` returns, or fails in the same way. -/
def Follows {A B : Type} (R : A → B → Prop) (p : M A) (q : M B) : Prop :=
  (∀ x, p = .ok x → ∃ y, q = .ok y ∧ R x y) ∧ ∀ e, p = .error e → q = .error e

end LinfaLinalg
