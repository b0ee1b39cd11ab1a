import Verif.Model.Basic

/-! # Model of `/repo/src/givens.rs` -/

namespace LinfaLinalg

variable {α : Type} [Zero α] [One α] [Add α] [Sub α] [Mul α] [Div α] [Neg α] [NdFloat α]

/-- `struct GivensRotation`, `/repo/src/givens.rs:6-10`: the matrix `[[c, -s], [s, c]]`. -/
structure GivensRotation (α : Type) where
  c : α
  s : α

/-- `GivensRotation::cancel_y`, `/repo/src/givens.rs:17-27`. -/
def GivensRotation.cancelY (x y : α) : Option (GivensRotation α × α) :=
  if !NdFloat.isZero y then
    let r := NdFloat.hypot x y
    some (⟨x / r, -y / r⟩, r)
  else none

/-- `GivensRotation::cancel_x`, `/repo/src/givens.rs:33-38`. -/
def GivensRotation.cancelX (x y : α) : Option (GivensRotation α × α) :=
  (GivensRotation.cancelY y x).map fun (rot, r) => (⟨rot.c, rot.s * -1⟩, r)

/-- `GivensRotation::identity`, `/repo/src/givens.rs:40-45`. -/
def GivensRotation.identity : GivensRotation α := ⟨1, 0⟩

/-- `GivensRotation::try_new`, `/repo/src/givens.rs:47-56`. -/
def GivensRotation.tryNew (c s eps : α) : Option (GivensRotation α × α) :=
  let norm := NdFloat.hypot c s
  if NdFloat.lt eps norm then some (⟨c / norm, s / norm⟩, norm) else none

/-- `GivensRotation::new`, `/repo/src/givens.rs:58-60`. -/
def GivensRotation.new (c s : α) : GivensRotation α × α :=
  (GivensRotation.tryNew c s 0).getD (GivensRotation.identity, 0)

/-- `GivensRotation::inverse`, `/repo/src/givens.rs:70-75`. -/
def GivensRotation.inverse (g : GivensRotation α) : GivensRotation α := ⟨g.c, -g.s⟩

/-- `GivensRotation::rotate_rows`, `/repo/src/givens.rs:78-99`; returns the modified matrix. -/
def GivensRotation.rotateRows (g : GivensRotation α) (lhs : Arr2 α) : M (Arr2 α) :=
  if lhs.nc ≠ 2 then throwErr (.wrongColumns 2 lhs.nc)
  else forRange 0 lhs.nr lhs fun j lhs => do
    let a ← lhs.at j 0
    let b ← lhs.at j 1
    let lhs ← lhs.atm j 0 (a * g.c + g.s * b)
    lhs.atm j 1 (-g.s * a + b * g.c)

/-- `GivensRotation::rotate_cols`, `/repo/src/givens.rs:102-111`; returns the modified matrix. -/
def GivensRotation.rotateCols (g : GivensRotation α) (rhs : Arr2 α) : M (Arr2 α) :=
  match g.inverse.rotateRows rhs.t with
  | .ok r => .ok r.t
  | .error (.err (.wrongColumns e a)) => throwErr (.wrongRows e a)
  | .error e => .error e

end LinfaLinalg
