import Verif.Model.Householder
import Verif.Model.Triangular

/-! # Model of `/repo/src/tridiagonal.rs` -/

namespace LinfaLinalg

variable {α : Type} [Zero α] [One α] [Add α] [Sub α] [Mul α] [Div α] [Neg α] [NdFloat α]

/-- `struct TridiagonalDecomp`, `/repo/src/tridiagonal.rs:71-77`. -/
structure TridiagonalDecomp (α : Type) where
  diagMatrix : Arr2 α
  offDiagonal : Arr1 α

/-- `general_mat_vec_mul(alpha, &m, &x, 0, &mut y)` of ndarray with `beta = 0`:
`y = (m · x) * alpha`. Panics on incompatible shapes. -/
def matVecMul (alpha : α) (m : Arr2 α) (x y : Arr1 α) : M (Arr1 α) :=
  if m.nc = x.len ∧ m.nr = y.len then
    .ok ⟨y.len, fun i => dotTo m.nc (m.get i) x.get * alpha⟩
  else .error .panic

/-- `general_mat_mul(alpha, &u_col, &v_row, 1, &mut c)` of ndarray for a column times a row:
`c += alpha * u vᵀ`. Panics on incompatible shapes. -/
def rankOneUpdate (alpha : α) (u v : Arr1 α) (c : Arr2 α) : M (Arr2 α) :=
  if u.len = c.nr ∧ v.len = c.nc then
    .ok ⟨c.nr, c.nc, fun i j => c.get i j + alpha * (u.get i * v.get j)⟩
  else .error .panic

/-- Body of the loop of `sym_tridiagonal`, `/repo/src/tridiagonal.rs:41-59`; the state is
`(self, off_diagonal, p)`. -/
def tridiagStep (i : Nat) (a : Arr2 α) (off p : Arr1 α) : M (Arr2 α × Arr1 α × Arr1 α) := do
  let axis ← a.colSlice (i + 1) a.nr i
  let m ← a.slice (i + 1) a.nr (i + 1) a.nc
  let (axis, norm) ← reflectionAxisMut axis
  let a := a.putCol (i + 1) i axis
  let off ← off.idxSet i (norm.getD 0)
  if norm.isSome then do
    let pv ← p.slice i p.len
    let pv ← matVecMul (NdFloat.ofRat 2) m axis pv
    let p := p.put i pv
    let dot ← axis.dot pv
    let m ← rankOneUpdate (-1) pv axis m
    let m ← rankOneUpdate (-1) axis pv m
    let m ← rankOneUpdate (dot + dot) axis axis m
    .ok (a.put (i + 1) (i + 1) m, off, p)
  else .ok (a, off, p)

/-- `sym_tridiagonal`, `/repo/src/tridiagonal.rs:31-66`. -/
def symTridiagonal (a : Arr2 α) : M (TridiagonalDecomp α) := do
  let n ← checkSquare a
  if n < 1 then throwErr .emptyMatrix
  else do
    let (a, off, _) ← forRange 0 (n - 1)
      (a, (Arr1.zeros (n - 1) : Arr1 α), (Arr1.zeros (n - 1) : Arr1 α))
      fun i (a, off, p) => tridiagStep i a off p
    .ok ⟨a, off⟩

/-- `TridiagonalDecomp::generate_q`, `/repo/src/tridiagonal.rs:90-92`. -/
def TridiagonalDecomp.generateQ (t : TridiagonalDecomp α) : M (Arr2 α) :=
  assembleQ t.diagMatrix 1 fun i => t.offDiagonal.idx i

/-- `TridiagonalDecomp::into_diagonals`, `/repo/src/tridiagonal.rs:96-101`. -/
def TridiagonalDecomp.intoDiagonals (t : TridiagonalDecomp α) : Arr1 α × Arr1 α :=
  (t.diagMatrix.diag, t.offDiagonal.map NdFloat.abs)

/-- `TridiagonalDecomp::into_tridiag_matrix`, `/repo/src/tridiagonal.rs:104-113`. -/
def TridiagonalDecomp.intoTridiagMatrix (t : TridiagonalDecomp α) : M (Arr2 α) := do
  let a ← unwrapM (triangularInplace t.diagMatrix .upper)
  let a ← unwrapM (triangularInplace a .lower)
  forRange 0 t.offDiagonal.len a fun i a => do
    let off := NdFloat.abs (t.offDiagonal.get i)
    let a ← a.idxSet (i + 1) i off
    a.idxSet i (i + 1) off

end LinfaLinalg
