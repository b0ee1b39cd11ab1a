import Verif.Model.Basic

/-! # Model of `/repo/src/triangular.rs` -/

namespace LinfaLinalg

/-- `enum UPLO`, `/repo/src/triangular.rs:8-13`. -/
inductive UPLO where
  | upper
  | lower
deriving DecidableEq, Repr

variable {α : Type} [Zero α] [One α] [Add α] [Sub α] [Mul α] [Div α] [Neg α] [NdFloat α]

/-- `triangular_inplace`, `/repo/src/triangular.rs:37-53`. Returns the modified `self`. -/
def triangularInplace (a : Arr2 α) (uplo : UPLO) : M (Arr2 α) := do
  let n ← checkSquare a
  if uplo = .upper then
    forRange 0 n a fun i a => forRange 0 i a fun j a => a.atm i j 0
  else
    forRange 0 n a fun i a => forRange (i + 1) n a fun j a => a.atm i j 0

/-- `into_triangular`, `/repo/src/triangular.rs:32-35`. -/
def intoTriangular (a : Arr2 α) (uplo : UPLO) : M (Arr2 α) := triangularInplace a uplo

/-- Scan used by `is_triangular`: `for j in lo..hi { if !a[(i,j)].is_zero() { return false } }`. -/
def rowAllZero (a : Arr2 α) (i : Nat) : List Nat → M Bool
  | [] => .ok true
  | j :: js => do
    let v ← a.at i j
    if !NdFloat.isZero v then .ok false else rowAllZero a i js

/-- Outer scan of `is_triangular`. -/
def rowsAllZero (a : Arr2 α) (cols : Nat → List Nat) : List Nat → M Bool
  | [] => .ok true
  | i :: is => do
    let b ← rowAllZero a i (cols i)
    if !b then .ok false else rowsAllZero a cols is

/-- `is_triangular`, `/repo/src/triangular.rs:67-90`. -/
def isTriangular (a : Arr2 α) (uplo : UPLO) : M Bool :=
  match checkSquare a with
  | .ok n =>
    if uplo = .upper then
      rowsAllZero a (fun i => List.range' 0 i) (List.range n)
    else
      rowsAllZero a (fun i => List.range' (i + 1) (n - (i + 1))) (List.range n)
  | .error _ => .ok false

/-- One inner iteration of `solve_triangular_system_common`, `/repo/src/triangular.rs:115-123`:
divide entry `(i, k)` by the diagonal and eliminate it from the rows `row_slice_fn` of column `k`.
`rows nr` is the half-open row range which the slice denotes on an array with `nr` rows. -/
def solveStep (a : Arr2 α) (diag : Nat → M α) (rows : Nat → Nat × Nat) (k i : Nat) (b : Arr2 α) :
    M (Arr2 α) := do
  let d ← diag i
  let bik ← b.at i k
  let coeff := bik / d
  let b ← b.atm i k coeff
  let x ← b.colSlice (rows b.nr).1 (rows b.nr).2 k
  let y ← a.colSlice (rows a.nr).1 (rows a.nr).2 i
  let x ← x.scaledAdd (-coeff) y
  .ok (b.putCol (rows b.nr).1 k x)

/-- `solve_triangular_system` with `solve_triangular_system_common`,
`/repo/src/triangular.rs:95-144`: rows reversed with slice `..i` for Upper, rows forward with
slice `i+1..` for Lower. Returns the modified `b`. -/
def solveTriangularSystem (a b : Arr2 α) (uplo : UPLO) (diag : Nat → M α) : M (Arr2 α) := do
  let rows ← checkSquare a
  if b.nr ≠ rows then
    throwErr (.wrongRows rows b.nr)
  else if uplo = .upper then
    forRange 0 b.nc b fun k b =>
      forRev 0 rows b fun i b => solveStep a diag (fun _ => (0, i)) k i b
  else
    forRange 0 b.nc b fun k b =>
      forRange 0 rows b fun i b => solveStep a diag (fun nr => (i + 1, nr)) k i b

/-- `solve_triangular_inplace`/`_into`/`solve_triangular`, `/repo/src/triangular.rs:147-187`.
All three run the same code on `b` (the last one on a copy). -/
def solveTriangular (a b : Arr2 α) (uplo : UPLO) : M (Arr2 α) :=
  solveTriangularSystem a b uplo fun i => a.at i i

end LinfaLinalg
