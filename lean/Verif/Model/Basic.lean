import Mathlib.Data.Rat.Defs

/-!
# Scalars, outcomes, arrays and loops

The vocabulary in which the Rust code of `/repo/src` is modelled.
-/

namespace LinfaLinalg

/-- The operations of `ndarray::NdFloat` (`num_traits::Float`) used by the code, beyond
`0 1 + - * / neg`, which are taken from Lean's own operator classes.
Comparisons are Boolean functions so that IEEE comparisons (false on NaN) fit. -/
class NdFloat (α : Type) where
  sqrt : α → α
  abs : α → α
  /-- `Float::signum`: `1` for positive numbers and `+0`, `-1` for negative numbers and `-0`. -/
  signum : α → α
  hypot : α → α → α
  max : α → α → α
  /-- `a < b` -/
  lt : α → α → Bool
  /-- `a <= b` -/
  le : α → α → Bool
  /-- `Zero::is_zero` -/
  isZero : α → Bool
  /-- `Float::is_sign_negative` -/
  isSignNeg : α → Bool
  /-- `NumCast::from` of a literal -/
  ofRat : ℚ → α
  /-- `Float::neg_infinity` -/
  negInf : α
  /-- `Float::epsilon` -/
  epsilon : α
  /-- The inner product of two vectors, given as the list of the pairs to be multiplied, as the kernels behind
  ndarray's `dot`, `general_mat_mul` and `general_mat_vec_mul` compute it. They unroll, block and fuse the
  sum in ways which depend on the build, so the order of the operations is left open. -/
  dot : List (α × α) → α

/-- `enum LinalgError`, `/repo/src/lib.rs:33-60`. -/
inductive LinalgError where
  | notSquare (rows cols : Nat)
  | notThin (rows cols : Nat)
  | notPositiveDefinite
  | nonInvertible
  | emptyMatrix
  | wrongColumns (expected actual : Nat)
  | wrongRows (expected actual : Nat)
  | shape
deriving DecidableEq, Repr

/-- How a computation can fail to produce a value.
* `err e`: the Rust function returns `Err(e)`.
* `panic`: the Rust code panics (failed `unwrap`, slice or index out of range, …).
* `oob`: an *unchecked* access (`at`/`atm`, `/repo/src/index.rs:18-44`) is out of bounds:
  a panic in debug builds, undefined behaviour in release builds.
* `fuel`: the model's step budget for an unbounded `while` loop ran out: the program is still running. -/
inductive Fail where
  | err (e : LinalgError)
  | panic
  | oob
  | fuel
deriving DecidableEq, Repr

/-- Outcome of running Rust code. -/
abbrev M (β : Type) := Except Fail β

/-- `Err(e)` returned by the function being modelled. -/
def throwErr {β : Type} (e : LinalgError) : M β := .error (.err e)

/-- `enum Order`, `/repo/src/lib.rs:73-80`. -/
inductive Order where
  | largest
  | smallest
deriving DecidableEq, Repr

/-- One-dimensional array (`Array1`, `ArrayView1`, …). Memory layout is not modelled. -/
structure Arr1 (α : Type) where
  len : Nat
  get : Nat → α

/-- Two-dimensional array (`Array2`, views, …). Memory layout is not modelled.
Entries outside `nr × nc` are meaningless and are never read by the accessors below. -/
structure Arr2 (α : Type) where
  nr : Nat
  nc : Nat
  get : Nat → Nat → α

section access
variable {α : Type}

/-- `*a.at(i)`, `/repo/src/index.rs:18-29`. -/
def Arr1.at (a : Arr1 α) (i : Nat) : M α :=
  if i < a.len then .ok (a.get i) else .error .oob

/-- The array with entry `i` replaced. -/
def Arr1.upd (a : Arr1 α) (i : Nat) (v : α) : Arr1 α :=
  ⟨a.len, fun k => if k = i then v else a.get k⟩

/-- `*a.atm(i) = v`, `/repo/src/index.rs:31-44`. -/
def Arr1.atm (a : Arr1 α) (i : Nat) (v : α) : M (Arr1 α) :=
  if i < a.len then .ok (a.upd i v) else .error .oob

/-- `a[i]` (ndarray's checked indexing). -/
def Arr1.idx (a : Arr1 α) (i : Nat) : M α :=
  if i < a.len then .ok (a.get i) else .error .panic

/-- `a[i] = v` (ndarray's checked indexing). -/
def Arr1.idxSet (a : Arr1 α) (i : Nat) (v : α) : M (Arr1 α) :=
  if i < a.len then .ok (a.upd i v) else .error .panic

/-- `*a.at((i, j))`, `/repo/src/index.rs:18-29`. -/
def Arr2.at (a : Arr2 α) (i j : Nat) : M α :=
  if i < a.nr ∧ j < a.nc then .ok (a.get i j) else .error .oob

/-- The array with entry `(i, j)` replaced. -/
def Arr2.upd (a : Arr2 α) (i j : Nat) (v : α) : Arr2 α :=
  ⟨a.nr, a.nc, fun k l => if k = i ∧ l = j then v else a.get k l⟩

/-- `*a.atm((i, j)) = v`, `/repo/src/index.rs:31-44`. -/
def Arr2.atm (a : Arr2 α) (i j : Nat) (v : α) : M (Arr2 α) :=
  if i < a.nr ∧ j < a.nc then .ok (a.upd i j v) else .error .oob

/-- `a[(i, j)] = v` (ndarray's checked indexing). -/
def Arr2.idxSet (a : Arr2 α) (i j : Nat) (v : α) : M (Arr2 α) :=
  if i < a.nr ∧ j < a.nc then .ok (a.upd i j v) else .error .panic

/-- `a.t()` / `a.reversed_axes()`. -/
def Arr2.t (a : Arr2 α) : Arr2 α := ⟨a.nc, a.nr, fun i j => a.get j i⟩

/-- `a.slice(s![r0..r1, c0..c1])`; panics like ndarray on an invalid range. -/
def Arr2.slice (a : Arr2 α) (r0 r1 c0 c1 : Nat) : M (Arr2 α) :=
  if r0 ≤ r1 ∧ r1 ≤ a.nr ∧ c0 ≤ c1 ∧ c1 ≤ a.nc then
    .ok ⟨r1 - r0, c1 - c0, fun i j => a.get (r0 + i) (c0 + j)⟩
  else .error .panic

/-- Writing a mutable view `v`, taken at offset `(r0, c0)`, back into the array it was taken from. -/
def Arr2.put (a : Arr2 α) (r0 c0 : Nat) (v : Arr2 α) : Arr2 α :=
  ⟨a.nr, a.nc, fun i j =>
    if r0 ≤ i ∧ i < r0 + v.nr ∧ c0 ≤ j ∧ j < c0 + v.nc then v.get (i - r0) (j - c0) else a.get i j⟩

/-- `a.slice(s![r0..r1, c])`: part of a column as a 1D view. -/
def Arr2.colSlice (a : Arr2 α) (r0 r1 c : Nat) : M (Arr1 α) :=
  if r0 ≤ r1 ∧ r1 ≤ a.nr ∧ c < a.nc then .ok ⟨r1 - r0, fun i => a.get (r0 + i) c⟩
  else .error .panic

/-- Writing a mutable 1D view `v`, taken at `s![r0.., c]`, back. -/
def Arr2.putCol (a : Arr2 α) (r0 c : Nat) (v : Arr1 α) : Arr2 α :=
  ⟨a.nr, a.nc, fun i j => if j = c ∧ r0 ≤ i ∧ i < r0 + v.len then v.get (i - r0) else a.get i j⟩

/-- `a.slice(s![k0..k1])` for 1D arrays. -/
def Arr1.slice (a : Arr1 α) (k0 k1 : Nat) : M (Arr1 α) :=
  if k0 ≤ k1 ∧ k1 ≤ a.len then .ok ⟨k1 - k0, fun i => a.get (k0 + i)⟩ else .error .panic

/-- Writing a mutable view of a 1D array back. -/
def Arr1.put (a : Arr1 α) (k0 : Nat) (v : Arr1 α) : Arr1 α :=
  ⟨a.len, fun i => if k0 ≤ i ∧ i < k0 + v.len then v.get (i - k0) else a.get i⟩

/-- `a.mapv(f)` / `a.mapv_into(f)`. -/
def Arr1.map (a : Arr1 α) (f : α → α) : Arr1 α := ⟨a.len, fun i => f (a.get i)⟩

/-- `a.mapv(f)`. -/
def Arr2.map (a : Arr2 α) (f : α → α) : Arr2 α := ⟨a.nr, a.nc, fun i j => f (a.get i j)⟩

/-- `a.diag()` as an owned array. -/
def Arr2.diag (a : Arr2 α) : Arr1 α := ⟨min a.nr a.nc, fun i => a.get i i⟩

/-- The elements of a 1D array in order. -/
def Arr1.toList (a : Arr1 α) : List α := (List.range a.len).map a.get

/-- The elements of a 2D array in logical (row-major) order, the order of `a.iter()`. -/
def Arr2.toList (a : Arr2 α) : List α :=
  (List.range a.nr).flatMap fun i => (List.range a.nc).map fun j => a.get i j

end access

section arith
variable {α : Type} [Zero α] [One α] [Add α] [Sub α] [Mul α] [Div α] [Neg α] [NdFloat α]

/-- `Array1::zeros(n)`. -/
def Arr1.zeros (n : Nat) : Arr1 α := ⟨n, fun _ => 0⟩

/-- `Array2::zeros((r, c))`. -/
def Arr2.zeros (r c : Nat) : Arr2 α := ⟨r, c, fun _ _ => 0⟩

/-- `Array2::eye(n)`; also `zeros((r, c))` with its diagonal filled with ones when `r ≠ c`. -/
def Arr2.eye (r c : Nat) : Arr2 α := ⟨r, c, fun i j => if i = j then 1 else 0⟩

/-- `Σ_{k < n} f k`, accumulated from the left starting at `0`, as a loop `sum += f(k)` does. -/
def sumTo (n : Nat) (f : Nat → α) : α := (List.range n).foldl (fun s k => s + f k) 0

/-- `Σ_{k < n} f k * g k` as a kernel of ndarray computes it. Simplification: the kernel may depend on the memory
layout, which is not modelled; here the result is a function of the factors. -/
def dotTo (n : Nat) (f g : Nat → α) : α := NdFloat.dot ((List.range n).map fun k => (f k, g k))

/-- `a.dot(&b)` for 1D arrays; panics when lengths differ. -/
def Arr1.dot (a b : Arr1 α) : M α :=
  if a.len = b.len then .ok (dotTo a.len a.get b.get) else .error .panic

/-- `a.dot(&b)` for 2D arrays; panics when shapes are incompatible. -/
def Arr2.dot (a b : Arr2 α) : M (Arr2 α) :=
  if a.nc = b.nr then .ok ⟨a.nr, b.nc, fun i j => dotTo a.nc (a.get i) fun k => b.get k j⟩
  else .error .panic

/-- `x.scaled_add(k, &y)`, i.e. `x += k * y`.
Simplification: a one-element `y` would be broadcast by ndarray; here unequal lengths panic
(the code never relies on broadcasting, which is what the no-panic theorems establish). -/
def Arr1.scaledAdd (x : Arr1 α) (k : α) (y : Arr1 α) : M (Arr1 α) :=
  if x.len = y.len then .ok ⟨x.len, fun i => x.get i + k * y.get i⟩ else .error .panic

end arith

section loops
variable {σ : Type}

/-- A `for` loop over the given indices, threading the mutable state. -/
def loopM : List Nat → σ → (Nat → σ → M σ) → M σ
  | [], s, _ => .ok s
  | i :: is, s, f => f i s >>= fun s' => loopM is s' f

/-- `for i in lo..hi { s = f(i, s)? }`. -/
def forRange (lo hi : Nat) (s : σ) (f : Nat → σ → M σ) : M σ :=
  loopM (List.range' lo (hi - lo)) s f

/-- `for i in (lo..hi).rev() { s = f(i, s)? }`. -/
def forRev (lo hi : Nat) (s : σ) (f : Nat → σ → M σ) : M σ :=
  loopM (List.range' lo (hi - lo)).reverse s f

/-- Loop control: go on with the next index, or `break`. -/
inductive Step (σ : Type) where
  | next (s : σ)
  | brk (s : σ)

/-- A `for` loop whose body may `break`. -/
def loopBrk : List Nat → σ → (Nat → σ → M (Step σ)) → M σ
  | [], s, _ => .ok s
  | i :: is, s, f => f i s >>= fun
    | .next s' => loopBrk is s' f
    | .brk s' => .ok s'

end loops

section shape
variable {α : Type}

/-- `check_square`, `/repo/src/lib.rs:64-71`. -/
def checkSquare (a : Arr2 α) : M Nat :=
  if a.nr ≠ a.nc then throwErr (.notSquare a.nr a.nc) else .ok a.nr

end shape

end LinfaLinalg
