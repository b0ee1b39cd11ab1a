import Verif.Model.Cholesky
import Verif.Model.Givens
import Verif.Model.Qr
import Verif.Model.Bidiagonal
import Verif.Model.Tridiagonal
import Verif.Model.Sort
import Verif.Model.Svd

/-! # The functions that work in place, on strided views of memory

The other modules model an array by its entries and an in-place function by the array it leaves. Here the functions
that write through `&mut ArrayBase<S, _>` are modelled once more, one level lower: an array is a view, that is a base
address, lengths and strides, into a memory; reading and writing go through addresses, sub-slices and transposes are
views of the same memory. `S: DataMut` may be owned storage or a view of a larger array with arbitrary strides, so this
is the level at which overlapping sub-slices, transposed views and entries outside of the view matter.

Simplifications: addresses count elements; the memory holds elements of one type and is not bounded; arrays which a
function allocates itself (`diag`, `off_diagonal`, `p`) stay values, as they are disjoint from everything else. -/

namespace LinfaLinalg

/-- A memory: the element at every address. -/
abbrev Mem (α : Type) := Int → α

/-- The memory after a write. -/
def Mem.set {α : Type} (mem : Mem α) (x : Int) (v : α) : Mem α := fun y => if y = x then v else mem y

/-- A 1D `ArrayBase` as `ndarray` stores it: pointer, length and stride. -/
structure View1 where
  len : Nat
  base : Int
  stride : Int

/-- A 2D `ArrayBase` as `ndarray` stores it: pointer, shape and strides. -/
structure View2 where
  nr : Nat
  nc : Nat
  base : Int
  sr : Int
  sc : Int

/-- The address of entry `i`. -/
def View1.addr (v : View1) (i : Nat) : Int := v.base + i * v.stride

/-- The address of entry `(i, j)`. -/
def View2.addr (v : View2) (i j : Nat) : Int := v.base + i * v.sr + j * v.sc

/-- The entries of a view. -/
def View1.load {α : Type} (v : View1) (mem : Mem α) : Arr1 α := ⟨v.len, fun i => mem (v.addr i)⟩

/-- The entries of a view. -/
def View2.load {α : Type} (v : View2) (mem : Mem α) : Arr2 α := ⟨v.nr, v.nc, fun i j => mem (v.addr i j)⟩

/-- `v.t()` / `v.reversed_axes()`: the same memory with the axes exchanged. -/
def View2.t (v : View2) : View2 := ⟨v.nc, v.nr, v.base, v.sc, v.sr⟩

/-- `v.slice_mut(s![r0..r1, c0..c1])`; panics like ndarray on an invalid range. -/
def View2.slice (v : View2) (r0 r1 c0 c1 : Nat) : M View2 :=
  if r0 ≤ r1 ∧ r1 ≤ v.nr ∧ c0 ≤ c1 ∧ c1 ≤ v.nc then .ok ⟨r1 - r0, c1 - c0, v.addr r0 c0, v.sr, v.sc⟩
  else .error .panic

/-- `v.slice_mut(s![r0..r1, c])`. -/
def View2.colSlice (v : View2) (r0 r1 c : Nat) : M View1 :=
  if r0 ≤ r1 ∧ r1 ≤ v.nr ∧ c < v.nc then .ok ⟨r1 - r0, v.addr r0 c, v.sr⟩ else .error .panic

/-- `*v.at((i, j))`, `/repo/src/index.rs:18-29`. -/
def View2.at {α : Type} (v : View2) (mem : Mem α) (i j : Nat) : M α :=
  if i < v.nr ∧ j < v.nc then .ok (mem (v.addr i j)) else .error .oob

/-- `*v.atm((i, j)) = x`, `/repo/src/index.rs:31-44`. -/
def View2.atm {α : Type} (v : View2) (mem : Mem α) (i j : Nat) (x : α) : M (Mem α) :=
  if i < v.nr ∧ j < v.nc then .ok (mem.set (v.addr i j) x) else .error .oob

/-- `check_square`, `/repo/src/lib.rs:64-71`. -/
def View2.checkSquare (v : View2) : M Nat :=
  if v.nr ≠ v.nc then throwErr (.notSquare v.nr v.nc) else .ok v.nr

/-- The order in which an elementwise operation of ndarray visits the entries of the array it writes to. ndarray chooses
it by the layout; here it may be any order that visits every entry once. -/
structure Traversal where
  one : View1 → List Nat
  two : View2 → List (Nat × Nat)
  perm1 : ∀ v, (one v).Perm (List.range v.len)
  perm2 : ∀ v, (two v).Perm ((List.range v.nr).product (List.range v.nc))

/-- The elementwise update of the entries listed in `l`, one write after the other; `g` may read the current memory. -/
def Mem.updateAll {α ι : Type} (mem : Mem α) (l : List ι) (addr : ι → Int) (g : ι → Mem α → α) : Mem α :=
  l.foldl (fun mem i => mem.set (addr i) (g i mem)) mem

variable {α : Type} [Zero α] [One α] [Add α] [Sub α] [Mul α] [Div α] [Neg α] [NdFloat α]

/-- `v.dot(&w)`: only reads. Simplification: ndarray adds up a dot product in one order if both operands are contiguous
and in another if not; here `NdFloat.dot` fixes one order for every layout. In exact arithmetic the orders agree. -/
def View1.dot (v w : View1) (mem : Mem α) : M α := (v.load mem).dot (w.load mem)

/-- `x.scaled_add(k, &y)` for two views. -/
def View1.scaledAdd (tr : Traversal) (x : View1) (k : α) (y : View1) (mem : Mem α) : M (Mem α) :=
  if x.len = y.len then
    .ok (mem.updateAll (tr.one x) x.addr fun i mem => mem (x.addr i) + k * mem (y.addr i))
  else .error .panic

/-- `x.mapv_inplace(f)`, used for `*col /= c`. -/
def View1.mapInplace (tr : Traversal) (x : View1) (f : α → α) (mem : Mem α) : Mem α :=
  mem.updateAll (tr.one x) x.addr fun i mem => f (mem (x.addr i))

/-- `x.mapv_inplace(f)`, used for `refl_rows *= sign`. -/
def View2.mapInplace (tr : Traversal) (x : View2) (f : α → α) (mem : Mem α) : Mem α :=
  mem.updateAll (tr.two x) (fun p => x.addr p.1 p.2) fun p mem => f (mem (x.addr p.1 p.2))

/-! ## `triangular.rs`, `cholesky.rs` -/

/-- `triangular_inplace`, `/repo/src/triangular.rs:37-53`. -/
def triangularInplaceMem (v : View2) (uplo : UPLO) (mem : Mem α) : M (Mem α) := do
  let n ← v.checkSquare
  if uplo = .upper then
    forRange 0 n mem fun i mem => forRange 0 i mem fun j mem => v.atm mem i j 0
  else
    forRange 0 n mem fun i mem => forRange (i + 1) n mem fun j mem => v.atm mem i j 0

/-- The inner product of `/repo/src/cholesky.rs:58-61`. -/
def cholDotMem (v : View2) (k j : Nat) (mem : Mem α) : M α :=
  forRange 0 k 0 fun i s => do
    let x ← v.at mem k i
    let y ← v.at mem j i
    .ok (s + x * y)

/-- Loop over `k` of `/repo/src/cholesky.rs:57-65`. -/
def cholRowMem (v : View2) (j : Nat) (mem : Mem α) : M (Mem α × α) :=
  forRange 0 j (mem, (0 : α)) fun k (mem, d) => do
    let s ← cholDotMem v k j mem
    let ajk ← v.at mem j k
    let akk ← v.at mem k k
    let s := (ajk - s) / akk
    let mem ← v.atm mem j k s
    .ok (mem, d + s * s)

/-- Loop over `j` of `/repo/src/cholesky.rs:54-74`. -/
def cholLoopMem (v : View2) : List Nat → Mem α → M (Mem α × Option LinalgError)
  | [], mem => .ok (mem, none)
  | j :: js, mem => do
    let (mem, d) ← cholRowMem v j mem
    let ajj ← v.at mem j j
    let d := ajj - d
    if NdFloat.le d 0 then .ok (mem, some .notPositiveDefinite)
    else do
      let mem ← v.atm mem j j (NdFloat.sqrt d)
      cholLoopMem v js mem

/-- `cholesky_inplace_dirty`, `/repo/src/cholesky.rs:51-76`. -/
def choleskyInplaceDirtyMem (v : View2) (mem : Mem α) : M (Mem α × Option LinalgError) :=
  match v.checkSquare with
  | .ok n => cholLoopMem v (List.range n) mem
  | .error (.err e) => .ok (mem, some e)
  | .error f => .error f

/-- `cholesky_inplace`, `/repo/src/cholesky.rs:78-82`. -/
def choleskyInplaceMem (v : View2) (mem : Mem α) : M (Mem α × Option LinalgError) := do
  let (mem, e) ← choleskyInplaceDirtyMem v mem
  match e with
  | some e => .ok (mem, some e)
  | none => do
    let mem ← triangularInplaceMem v .lower mem
    .ok (mem, none)

/-- One inner iteration of `solve_triangular_system_common`, `/repo/src/triangular.rs:115-123`, for the views `a` and
`b` of one memory. -/
def solveStepMem (tr : Traversal) (a b : View2) (diag : Nat → Mem α → M α) (rows : Nat → Nat × Nat) (k i : Nat)
    (mem : Mem α) : M (Mem α) := do
  let d ← diag i mem
  let bik ← b.at mem i k
  let coeff := bik / d
  let mem ← b.atm mem i k coeff
  let x ← b.colSlice (rows b.nr).1 (rows b.nr).2 k
  let y ← a.colSlice (rows a.nr).1 (rows a.nr).2 i
  x.scaledAdd tr (-coeff) y mem

/-- `solve_triangular_system`, `/repo/src/triangular.rs:95-144`. -/
def solveTriangularSystemMem (tr : Traversal) (a b : View2) (uplo : UPLO) (diag : Nat → Mem α → M α) (mem : Mem α) :
    M (Mem α) := do
  let rows ← a.checkSquare
  if b.nr ≠ rows then
    throwErr (.wrongRows rows b.nr)
  else if uplo = .upper then
    forRange 0 b.nc mem fun k mem =>
      forRev 0 rows mem fun i mem => solveStepMem tr a b diag (fun _ => (0, i)) k i mem
  else
    forRange 0 b.nc mem fun k mem =>
      forRange 0 rows mem fun i mem => solveStepMem tr a b diag (fun nr => (i + 1, nr)) k i mem

/-- `solve_triangular_inplace`, `/repo/src/triangular.rs:161-168`. -/
def solveTriangularMem (tr : Traversal) (a b : View2) (uplo : UPLO) (mem : Mem α) : M (Mem α) :=
  solveTriangularSystemMem tr a b uplo (fun i mem => a.at mem i i) mem

/-- The same with the returned error as a value: all errors are raised before the first write,
`/repo/src/triangular.rs:102-108`. -/
def solveTriangularInplaceMem (tr : Traversal) (a b : View2) (uplo : UPLO) (mem : Mem α) :
    M (Mem α × Option LinalgError) :=
  match solveTriangularMem tr a b uplo mem with
  | .ok mem => .ok (mem, none)
  | .error (.err e) => .ok (mem, some e)
  | .error f => .error f

/-- `solvec_inplace`, `/repo/src/cholesky.rs:136-145`: the second solve reads the factor through `chol.t()`. -/
def solvecInplaceMem (tr : Traversal) (a b : View2) (mem : Mem α) : M (Mem α × Option LinalgError) := do
  let (mem, e) ← choleskyInplaceDirtyMem a mem
  match e with
  | some e => .ok (mem, some e)
  | none => do
    let (mem, e) ← solveTriangularInplaceMem tr a b .lower mem
    match e with
    | some e => .ok (mem, some e)
    | none => solveTriangularInplaceMem tr a.t b .upper mem

/-! ## `reflection.rs`, `givens.rs`, `householder.rs` -/

/-- `Reflection::reflect_cols`, `/repo/src/reflection.rs:26-32`. -/
def reflectColsMem (tr : Traversal) (axis : View1) (bias : α) (rhs : View2) (mem : Mem α) : M (Mem α) :=
  forRange 0 rhs.nc mem fun i mem => do
    let col ← rhs.colSlice 0 rhs.nr i
    let dot ← axis.dot col mem
    let factor := (dot - bias) * NdFloat.ofRat (-2)
    col.scaledAdd tr factor axis mem

/-- `Reflection::reflect_rows`, `/repo/src/reflection.rs:35-37`: the columns of the transposed view. -/
def reflectRowsMem (tr : Traversal) (axis : View1) (bias : α) (lhs : View2) (mem : Mem α) : M (Mem α) :=
  reflectColsMem tr axis bias lhs.t mem

/-- `GivensRotation::rotate_rows`, `/repo/src/givens.rs:78-99`. -/
def GivensRotation.rotateRowsMem (g : GivensRotation α) (lhs : View2) (mem : Mem α) : M (Mem α) :=
  if lhs.nc ≠ 2 then throwErr (.wrongColumns 2 lhs.nc)
  else forRange 0 lhs.nr mem fun j mem => do
    let a ← lhs.at mem j 0
    let b ← lhs.at mem j 1
    let mem ← lhs.atm mem j 0 (a * g.c + g.s * b)
    lhs.atm mem j 1 (-g.s * a + b * g.c)

/-- `GivensRotation::rotate_cols`, `/repo/src/givens.rs:102-111`: the rows of the transposed view. -/
def GivensRotation.rotateColsMem (g : GivensRotation α) (rhs : View2) (mem : Mem α) : M (Mem α) :=
  match g.inverse.rotateRowsMem rhs.t mem with
  | .ok mem => .ok mem
  | .error (.err (.wrongColumns e a)) => throwErr (.wrongRows e a)
  | .error e => .error e

/-- `reflection_axis_mut`, `/repo/src/householder.rs:9-28`. -/
def reflectionAxisMutMem (tr : Traversal) (col : View1) (mem : Mem α) : M (Mem α × Option α) := do
  let normSq ← col.dot col mem
  let norm := NdFloat.sqrt normSq
  if col.len = 0 then .error .panic
  else
    let first := mem (col.addr 0)
    let signedNorm := NdFloat.signum first * norm
    let mem := mem.set (col.addr 0) (first + signedNorm)
    let newNormSq := (normSq + NdFloat.abs first * norm) * NdFloat.ofRat 2
    if !NdFloat.isZero newNormSq then
      .ok (col.mapInplace tr (fun x => x / NdFloat.sqrt newNormSq) mem, some (-signedNorm))
    else
      .ok (mem, none)

/-- `clear_column`, `/repo/src/householder.rs:34-51`: `axis` and `refl_rows` are disjoint views of the matrix. -/
def clearColumnMem (tr : Traversal) (v : View2) (icol shift : Nat) (mem : Mem α) : M (Mem α × α) := do
  let axis ← v.colSlice (icol + shift) v.nr icol
  let (mem, reflNorm) ← reflectionAxisMutMem tr axis mem
  match reflNorm with
  | some reflNorm => do
    let sign := NdFloat.signum reflNorm
    let rows ← v.slice (icol + shift) v.nr (icol + 1) v.nc
    let mem ← reflectColsMem tr axis 0 rows mem
    .ok (rows.mapInplace tr (fun x => x * sign) mem, reflNorm)
  | none => .ok (mem, 0)

/-- `clear_row`, `/repo/src/householder.rs:57-63`: a column of the transposed view. -/
def clearRowMem (tr : Traversal) (v : View2) (irow shift : Nat) (mem : Mem α) : M (Mem α × α) :=
  clearColumnMem tr v.t irow shift mem

/-! ## `qr.rs`, `bidiagonal.rs`, `tridiagonal.rs` -/

/-- `qr_into`, `/repo/src/qr.rs:32-45`; returns the memory and `diag`. -/
def qrIntoMem (tr : Traversal) (v : View2) (mem : Mem α) : M (Mem α × Arr1 α) :=
  if v.nr < v.nc then throwErr (.notThin v.nr v.nc)
  else forRange 0 v.nc (mem, (Arr1.zeros v.nc : Arr1 α)) fun i (mem, diag) => do
    let (mem, d) ← clearColumnMem tr v i 0 mem
    let diag ← diag.idxSet i d
    .ok (mem, diag)

/-- `bidiagonal`, `/repo/src/bidiagonal.rs:27-59`; returns the memory, `off_diagonal`, `diagonal` and `upper_diag`. -/
def bidiagonalMem (tr : Traversal) (v : View2) (mem : Mem α) : M (Mem α × Arr1 α × Arr1 α × Bool) :=
  let minDim := min v.nr v.nc
  if minDim = 0 then throwErr .emptyMatrix
  else if v.nr ≥ v.nc then do
    let (mem, diag, off) ← forRange 0 (minDim - 1)
      (mem, (Arr1.zeros minDim : Arr1 α), (Arr1.zeros (minDim - 1) : Arr1 α))
      fun i (mem, diag, off) => do
        let (mem, d) ← clearColumnMem tr v i 0 mem
        let diag ← diag.idxSet i d
        let (mem, e) ← clearRowMem tr v i 1 mem
        let off ← off.idxSet i e
        .ok (mem, diag, off)
    let (mem, d) ← clearColumnMem tr v (minDim - 1) 0 mem
    let diag ← diag.idxSet (minDim - 1) d
    .ok (mem, off, diag, true)
  else do
    let (mem, diag, off) ← forRange 0 (minDim - 1)
      (mem, (Arr1.zeros minDim : Arr1 α), (Arr1.zeros (minDim - 1) : Arr1 α))
      fun i (mem, diag, off) => do
        let (mem, d) ← clearRowMem tr v i 0 mem
        let diag ← diag.idxSet i d
        let (mem, e) ← clearColumnMem tr v i 1 mem
        let off ← off.idxSet i e
        .ok (mem, diag, off)
    let (mem, d) ← clearRowMem tr v (minDim - 1) 0 mem
    let diag ← diag.idxSet (minDim - 1) d
    .ok (mem, off, diag, false)

/-- An operand of `general_mat_mul`: the owned vector `p` or the view `axis`, `/repo/src/tridiagonal.rs:53-56`. -/
inductive Operand (α : Type) where
  | own (a : Arr1 α)
  | view (v : View1)

/-- Length of an operand. -/
def Operand.len : Operand α → Nat
  | .own a => a.len
  | .view v => v.len

/-- Entry of an operand in the current memory. -/
def Operand.read : Operand α → Mem α → Nat → α
  | .own a, _, i => a.get i
  | .view v, mem, i => mem (v.addr i)

/-- `general_mat_mul(alpha, &u_col, &v_row, 1, &mut c)` of ndarray for a column times a row. -/
def rankOneUpdateMem (tr : Traversal) (alpha : α) (u v : Operand α) (c : View2) (mem : Mem α) : M (Mem α) :=
  if u.len = c.nr ∧ v.len = c.nc then
    .ok (mem.updateAll (tr.two c) (fun p => c.addr p.1 p.2) fun p mem =>
      mem (c.addr p.1 p.2) + alpha * (u.read mem p.1 * v.read mem p.2))
  else .error .panic

/-- Body of the loop of `sym_tridiagonal`, `/repo/src/tridiagonal.rs:41-59`; `axis` and `m` are disjoint views of the
matrix. -/
def tridiagStepMem (tr : Traversal) (v : View2) (i : Nat) (mem : Mem α) (off p : Arr1 α) :
    M (Mem α × Arr1 α × Arr1 α) := do
  let axis ← v.colSlice (i + 1) v.nr i
  let m ← v.slice (i + 1) v.nr (i + 1) v.nc
  let (mem, norm) ← reflectionAxisMutMem tr axis mem
  let off ← off.idxSet i (norm.getD 0)
  if norm.isSome then do
    let pv ← p.slice i p.len
    let pv ← matVecMul (NdFloat.ofRat 2) (m.load mem) (axis.load mem) pv
    let p := p.put i pv
    let dot ← (axis.load mem).dot pv
    let mem ← rankOneUpdateMem tr (-1) (.own pv) (.view axis) m mem
    let mem ← rankOneUpdateMem tr (-1) (.view axis) (.own pv) m mem
    let mem ← rankOneUpdateMem tr (dot + dot) (.view axis) (.view axis) m mem
    .ok (mem, off, p)
  else .ok (mem, off, p)

/-- `sym_tridiagonal`, `/repo/src/tridiagonal.rs:31-66`; returns the memory and `off_diagonal`. -/
def symTridiagonalMem (tr : Traversal) (v : View2) (mem : Mem α) : M (Mem α × Arr1 α) := do
  let n ← v.checkSquare
  if n < 1 then throwErr .emptyMatrix
  else do
    let (mem, off, _) ← forRange 0 (n - 1)
      (mem, (Arr1.zeros (n - 1) : Arr1 α), (Arr1.zeros (n - 1) : Arr1 α))
      fun i (mem, off, p) => tridiagStepMem tr v i mem off p
    .ok (mem, off)

/-! ## The rest of `qr.rs`, and the entry points of `eigh.rs` and `svd.rs`

What these functions allocate themselves (`Q`, the diagonals, the vectors) stays a value. -/

/-- `QRDecomp::into_r`, `/repo/src/qr.rs:91-98`; returns the memory and the view of `R`. -/
def qrIntoRMem (v : View2) (diag : Arr1 α) (mem : Mem α) : M (Mem α × View2) := do
  let r ← v.slice 0 v.nc 0 v.nc
  let mem ← unwrapM (triangularInplaceMem r .upper mem)
  if min r.nr r.nc = diag.len then
    .ok (mem.updateAll (List.range diag.len) (fun i => r.addr i i) fun i _ => NdFloat.abs (diag.get i), r)
  else .error .panic

/-- `QRDecomp::qt_mul`, `/repo/src/qr.rs:110-120`, for the decomposition held in the view `v`. -/
def qtMulMem (tr : Traversal) (v : View2) (diag : Arr1 α) (b : View2) (mem : Mem α) : M (Mem α) :=
  forRange 0 v.nc mem fun i mem => do
    let axis ← v.colSlice i v.nr i
    let rows ← b.slice i b.nr 0 b.nc
    let mem ← reflectColsMem tr axis 0 rows mem
    let d ← diag.idx i
    .ok (rows.mapInplace tr (fun x => x * NdFloat.signum d) mem)

/-- `QRDecomp::solve_into`, `/repo/src/qr.rs:124-152`; returns the memory and the part of `b` with the solution. -/
def qrSolveIntoMem (tr : Traversal) (v : View2) (diag : Arr1 α) (b : View2) (mem : Mem α) : M (Mem α × View2) :=
  if v.nr ≠ b.nr then throwErr (.wrongRows v.nr b.nr)
  else if !diag.toList.all (fun f => !NdFloat.isZero f) then throwErr .nonInvertible
  else do
    let mem ← qtMulMem tr v diag b mem
    let b ← b.slice 0 v.nc 0 b.nc
    let r ← v.slice 0 v.nc 0 v.nc
    let mem ← solveTriangularSystemMem tr r b .upper (fun i _ => do .ok (NdFloat.abs (← diag.at i))) mem
    .ok (mem, b)

/-- `QRDecomp::solve_tr_into`, `/repo/src/qr.rs:156-181`; `b` is overwritten, the result is a new array. -/
def qrSolveTrIntoMem (tr : Traversal) (v : View2) (diag : Arr1 α) (b : View2) (mem : Mem α) : M (Mem α × Arr2 α) :=
  if v.nc ≠ b.nr then throwErr (.wrongRows v.nc b.nr)
  else if !diag.toList.all (fun f => !NdFloat.isZero f) then throwErr .nonInvertible
  else do
    let r ← v.slice 0 v.nc 0 v.nc
    let mem ← solveTriangularSystemMem tr r.t b .lower (fun i _ => do .ok (NdFloat.abs (← diag.at i))) mem
    let q ← assembleQ (v.load mem) 0 fun i => diag.idx i
    let x ← q.dot (b.load mem)
    .ok (mem, x)

/-- `least_squares_into`, `/repo/src/qr.rs:219-228`; returns the memory and the solution. The decomposition of a wide
matrix works on the reversed axes. -/
def leastSquaresIntoMem (tr : Traversal) (a b : View2) (mem : Mem α) : M (Mem α × Arr2 α) :=
  if a.nr ≥ a.nc then do
    let (mem, diag) ← qrIntoMem tr a mem
    let (mem, x) ← qrSolveIntoMem tr a diag b mem
    .ok (mem, x.load mem)
  else do
    let (mem, diag) ← qrIntoMem tr a.t mem
    qrSolveTrIntoMem tr a.t diag b mem

/-- `if amax != A::zero() { matrix /= amax; }`, `/repo/src/eigh.rs:32-34` and `/repo/src/svd.rs:33-35`. -/
def View2.scaleDown (tr : Traversal) (v : View2) (amax : α) (mem : Mem α) : Mem α :=
  if NdFloat.isZero amax then mem else v.mapInplace tr (fun x => x / amax) mem

/-- `symmetric_eig`, `/repo/src/eigh.rs:10-132`, which overwrites the matrix it is given. -/
def symmetricEigMem (tr : Traversal) (fuel : Nat) (v : View2) (eigenvectors : Bool) (eps : α) (mem : Mem α) :
    M (Mem α × Arr1 α × Option (Arr2 α)) := do
  let dim ← v.checkSquare
  if dim < 1 then .ok (mem, Arr1.zeros 0, if eigenvectors then some (Arr2.zeros 0 0) else none)
  else do
    let amax := (v.load mem).amax
    let (mem, off) ← symTridiagonalMem tr v (v.scaleDown tr amax mem)
    let t : TridiagonalDecomp α := ⟨v.load mem, off⟩
    let q ← (if eigenvectors then (do let q ← t.generateQ; .ok (some q)) else .ok none : M (Option (Arr2 α)))
    let (diag, off) := t.intoDiagonals
    if dim = 1 then .ok (mem, diag.map fun x => x * amax, q)
    else do
      let (off, start, e) ← delimitSubproblem diag off (dim - 1) eps
      let st ← eigLoop eps fuel ⟨diag, off, q, start, e⟩
      .ok (mem, st.diag.map fun x => x * amax, st.q)

/-- `svd`, `/repo/src/svd.rs:17-224`, which overwrites the matrix it is given. -/
def svdGoMem (tr : Traversal) (fuel : Nat) (v : View2) (computeU computeV : Bool) (eps : α) (mem : Mem α) :
    M (Mem α × Option (Arr2 α) × Arr1 α × Option (Arr2 α)) :=
  if v.nr = 0 ∨ v.nc = 0 then throwErr .emptyMatrix
  else do
    let dim := min v.nr v.nc
    let amax := (v.load mem).amax
    let (mem, off, diag, up) ← bidiagonalMem tr v (v.scaleDown tr amax mem)
    let bidiag : BidiagonalDecomp α := ⟨v.load mem, off, diag, up⟩
    let u ← (if computeU then (do let u ← bidiag.generateU; .ok (some u)) else .ok none : M (Option (Arr2 α)))
    let vt ← (if computeV then (do let v ← bidiag.generateVt; .ok (some v)) else .ok none : M (Option (Arr2 α)))
    let (diag, off) := bidiag.intoDiagonals
    let (s, start, e) ← svdDelimit up (dim - 1) eps ⟨diag, off, u, vt⟩
    let st ← svdLoop up computeU computeV eps fuel ⟨s, start, e⟩
    let (diag, u) ← fixSigns dim (st.s.diag.map fun x => x * amax) st.s.u
    .ok (mem, u, diag, st.s.vt)

/-! ## `sort_eig` on an array with a layout -/

/-- `ArrayBase::as_slice_mut` of a 1D array returns a slice exactly if the entries are contiguous and in order: at most
one entry, or stride one. -/
def View1.isStandard (v : View1) : Bool := decide (v.len ≤ 1) || decide (v.stride = 1)

/-- `<Array1 as EigSort>::sort_eig`, `/repo/src/eigh.rs:290-301`: `as_slice_mut().unwrap()` panics on another layout; the
slice is sorted in place. -/
def sortEigValsMem (v : View1) (order : Order) (mem : Mem α) : M (Mem α) :=
  if v.isStandard then do
    let l ← sortBy (fun x : α => x) order (v.load mem).toList
    .ok (fun x => if v.base ≤ x ∧ x < v.base + v.len then l.getD (x - v.base).toNat (mem x) else mem x)
  else .error .panic

end LinfaLinalg
