import Verif.Model.Triangular

/-! # Model of `/repo/src/cholesky.rs` -/

namespace LinfaLinalg

variable {α : Type} [Zero α] [One α] [Add α] [Sub α] [Mul α] [Div α] [Neg α] [NdFloat α]

/-- The inner product `s` of `/repo/src/cholesky.rs:58-61`: `Σ_{i<k} a[k,i]*a[j,i]`. -/
def cholDot (a : Arr2 α) (k j : Nat) : M α :=
  forRange 0 k 0 fun i s => do
    let x ← a.at k i
    let y ← a.at j i
    .ok (s + x * y)

/-- Loop over `k` of `/repo/src/cholesky.rs:57-65`; the state is `(self, d)`. -/
def cholRow (j : Nat) (a : Arr2 α) : M (Arr2 α × α) :=
  forRange 0 j (a, (0 : α)) fun k (a, d) => do
    let s ← cholDot a k j
    let ajk ← a.at j k
    let akk ← a.at k k
    let s := (ajk - s) / akk
    let a ← a.atm j k s
    .ok (a, d + s * s)

/-- Loop over `j` of `/repo/src/cholesky.rs:54-74`. The result is the final contents of `self`
together with `none` for `Ok(self)` or `some e` for `Err(e)`, because `self` stays observable
after an error. -/
def cholLoop : List Nat → Arr2 α → M (Arr2 α × Option LinalgError)
  | [], a => .ok (a, none)
  | j :: js, a => do
    let (a, d) ← cholRow j a
    let ajj ← a.at j j
    let d := ajj - d
    if NdFloat.le d 0 then .ok (a, some .notPositiveDefinite)
    else do
      let a ← a.atm j j (NdFloat.sqrt d)
      cholLoop js a

/-- `cholesky_inplace_dirty`, `/repo/src/cholesky.rs:51-76`: final `self` and returned error. -/
def choleskyInplaceDirty (a : Arr2 α) : M (Arr2 α × Option LinalgError) :=
  match checkSquare a with
  | .ok n => cholLoop (List.range n) a
  | .error (.err e) => .ok (a, some e)
  | .error f => .error f

/-- `cholesky_inplace`, `/repo/src/cholesky.rs:78-82`: final `self` and returned error. -/
def choleskyInplace (a : Arr2 α) : M (Arr2 α × Option LinalgError) := do
  let (a, e) ← choleskyInplaceDirty a
  match e with
  | some e => .ok (a, some e)
  | none => do
    let a ← triangularInplace a .lower
    .ok (a, none)

/-- `cholesky_into_dirty`, `cholesky_dirty`, `/repo/src/cholesky.rs:24-30, 106-109`. -/
def choleskyDirty (a : Arr2 α) : M (Arr2 α) := do
  let (a, e) ← choleskyInplaceDirty a
  match e with
  | some e => throwErr e
  | none => .ok a

/-- `cholesky_into`, `cholesky`, `/repo/src/cholesky.rs:37-43, 111-114`. -/
def cholesky (a : Arr2 α) : M (Arr2 α) := do
  let (a, e) ← choleskyInplace a
  match e with
  | some e => throwErr e
  | none => .ok a

/-- `solvec_inplace` (and `solvec_into`, `solvec` on a copy of `b`), `/repo/src/cholesky.rs:118-163`.
Returns the modified `b`; what the calls leave in `self` and, on an error, in `b` is in `solvecInplace`. -/
def solvec (a b : Arr2 α) : M (Arr2 α) := do
  let chol ← choleskyDirty a
  let b ← solveTriangular chol b .lower
  solveTriangular chol.t b .upper

/-- `invc_inplace`, `invc`, `/repo/src/cholesky.rs:178-198`. -/
def invc (a : Arr2 α) : M (Arr2 α) := solvec a (Arr2.eye a.nr a.nr)

/-- `solve_triangular_inplace`, `/repo/src/triangular.rs:161-168`: final `b` and returned error. All errors are
raised before `b` is written to (`/repo/src/triangular.rs:102-108`). -/
def solveTriangularInplace (a b : Arr2 α) (uplo : UPLO) : M (Arr2 α × Option LinalgError) :=
  match solveTriangular a b uplo with
  | .ok x => .ok (x, none)
  | .error (.err e) => .ok (b, some e)
  | .error f => .error f

/-- `solvec_inplace`, `/repo/src/cholesky.rs:136-145`: final `self`, final `b` and returned error. -/
def solvecInplace (a b : Arr2 α) : M (Arr2 α × Arr2 α × Option LinalgError) := do
  let (chol, e) ← choleskyInplaceDirty a
  match e with
  | some e => .ok (chol, b, some e)
  | none => do
    let (b, e) ← solveTriangularInplace chol b .lower
    match e with
    | some e => .ok (chol, b, some e)
    | none => do
      let (b, e) ← solveTriangularInplace chol.t b .upper
      .ok (chol, b, e)

/-- `invc_inplace`, `/repo/src/cholesky.rs:178-182`: final `self`, and the inverse or the error. -/
def invcInplace (a : Arr2 α) : M (Arr2 α × Except LinalgError (Arr2 α)) := do
  let (a', x, e) ← solvecInplace a (Arr2.eye a.nr a.nr)
  match e with
  | some e => .ok (a', .error e)
  | none => .ok (a', .ok x)

end LinfaLinalg
