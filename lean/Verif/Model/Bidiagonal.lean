import Verif.Model.Householder
import Verif.Model.Qr

/-! # Model of `/repo/src/bidiagonal.rs` -/

namespace LinfaLinalg

variable {α : Type} [Zero α] [One α] [Add α] [Sub α] [Mul α] [Div α] [Neg α] [NdFloat α]

/-- `struct BidiagonalDecomp`, `/repo/src/bidiagonal.rs:64-69`. -/
structure BidiagonalDecomp (α : Type) where
  uv : Arr2 α
  offDiagonal : Arr1 α
  diagonal : Arr1 α
  upperDiag : Bool

/-- `bidiagonal`, `/repo/src/bidiagonal.rs:27-59`. -/
def bidiagonal (a : Arr2 α) : M (BidiagonalDecomp α) :=
  let minDim := min a.nr a.nc
  if minDim = 0 then throwErr .emptyMatrix
  else if a.nr ≥ a.nc then do
    let (a, diag, off) ← forRange 0 (minDim - 1)
      (a, (Arr1.zeros minDim : Arr1 α), (Arr1.zeros (minDim - 1) : Arr1 α))
      fun i (a, diag, off) => do
        let (a, d) ← clearColumn a i 0
        let diag ← diag.idxSet i d
        let (a, e) ← clearRow a i 1
        let off ← off.idxSet i e
        .ok (a, diag, off)
    let (a, d) ← clearColumn a (minDim - 1) 0
    let diag ← diag.idxSet (minDim - 1) d
    .ok ⟨a, off, diag, true⟩
  else do
    let (a, diag, off) ← forRange 0 (minDim - 1)
      (a, (Arr1.zeros minDim : Arr1 α), (Arr1.zeros (minDim - 1) : Arr1 α))
      fun i (a, diag, off) => do
        let (a, d) ← clearRow a i 0
        let diag ← diag.idxSet i d
        let (a, e) ← clearColumn a i 1
        let off ← off.idxSet i e
        .ok (a, diag, off)
    let (a, d) ← clearRow a (minDim - 1) 0
    let diag ← diag.idxSet (minDim - 1) d
    .ok ⟨a, off, diag, false⟩

/-- `BidiagonalDecomp::generate_u`, `/repo/src/bidiagonal.rs:90-97`. -/
def BidiagonalDecomp.generateU (b : BidiagonalDecomp α) : M (Arr2 α) :=
  if b.upperDiag then assembleQ b.uv 0 fun i => b.diagonal.idx i
  else assembleQ b.uv 1 fun i => b.offDiagonal.idx i

/-- `BidiagonalDecomp::generate_vt`, `/repo/src/bidiagonal.rs:101-109`. -/
def BidiagonalDecomp.generateVt (b : BidiagonalDecomp α) : M (Arr2 α) := do
  let v ←
    if b.upperDiag then assembleQ b.uv.t 1 fun i => b.offDiagonal.idx i
    else assembleQ b.uv.t 0 fun i => b.diagonal.idx i
  .ok v.t

/-- `BidiagonalDecomp::into_diagonals`, `/repo/src/bidiagonal.rs:126-131`. -/
def BidiagonalDecomp.intoDiagonals (b : BidiagonalDecomp α) : Arr1 α × Arr1 α :=
  (b.diagonal.map NdFloat.abs, b.offDiagonal.map NdFloat.abs)

/-- `Array2::from_diag(&d)`. -/
def Arr2.fromDiag (d : Arr1 α) : Arr2 α := ⟨d.len, d.len, fun i j => if i = j then d.get i else 0⟩

/-- `BidiagonalDecomp::into_b`, `/repo/src/bidiagonal.rs:113-123`. -/
def BidiagonalDecomp.intoB (b : BidiagonalDecomp α) : M (Arr2 α) := do
  let d := b.diagonal.len
  let (r, c) := if b.upperDiag then (0, 1) else (1, 0)
  let (diagonal, off) := b.intoDiagonals
  let res := Arr2.fromDiag diagonal
  let s ← res.slice r d c d
  let s ← s.assignDiag off
  .ok (res.put r c s)

end LinfaLinalg
