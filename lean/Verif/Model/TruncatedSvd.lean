import Verif.Model.TruncatedEig

/-! # Model of `/repo/src/lobpcg/svd.rs` -/

namespace LinfaLinalg

/-- `trait MagnitudeCorrection`, `/repo/src/lobpcg/svd.rs:249-263`. The two implementations are `1e3` for
`f32` and `1e6` for `f64`. -/
class MagnitudeCorrection (α : Type) where
  correction : α

variable {α ρ : Type} [Zero α] [One α] [Add α] [Sub α] [Mul α] [Div α] [Neg α] [NdFloat α]
  [MagnitudeCorrection α]

/-- `struct TruncatedSvdResult`, `/repo/src/lobpcg/svd.rs:19-25`. -/
structure TruncatedSvdResult (α : Type) where
  eigvals : Arr1 α
  eigvecs : Arr2 α
  problem : Arr2 α
  order : Order
  ngm : Bool

/-- `singular_values_with_indices`, `/repo/src/lobpcg/svd.rs:29-59`: the values together with their
indices, zipped into one list. The comparison closures unwrap `partial_cmp`, so sorting two or more
values with a `NaN` among them panics. -/
def TruncatedSvdResult.valuesWithIndices (t : TruncatedSvdResult α) : M (List (α × Nat)) :=
  match t.order with
  | .largest => do
    let a ← sortBy Prod.snd .largest t.eigvals.enumerate
    match a with
    | [] => .error .panic
    | p :: _ =>
      let cutoff := NdFloat.epsilon * MagnitudeCorrection.correction * p.2
      .ok ((a.filter fun q => NdFloat.lt cutoff q.2).map fun q => (NdFloat.sqrt q.2, q.1))
  | .smallest => do
    let a ← sortBy Prod.snd .smallest t.eigvals.enumerate
    .ok (a.map fun q => (NdFloat.sqrt q.2, q.1))

/-- `TruncatedSvdResult::values`, `/repo/src/lobpcg/svd.rs:62-66`. -/
def TruncatedSvdResult.values (t : TruncatedSvdResult α) : M (Arr1 α) := do
  let l ← t.valuesWithIndices
  .ok ⟨l.length, fun i => (l.map Prod.fst).getD i 0⟩

/-- `columns_mut().zip(values).for_each(|(a, b)| a.mapv_inplace(|x| x / b))`,
`/repo/src/lobpcg/svd.rs:78-82, 89-93`; columns beyond the end of `values` would stay as they are. -/
def divideCols (a : Arr2 α) (s : Arr1 α) : Arr2 α :=
  ⟨a.nr, a.nc, fun i j => if j < s.len then a.get i j / s.get j else a.get i j⟩

/-- `TruncatedSvdResult::values_vectors`, `/repo/src/lobpcg/svd.rs:69-99`: `(U, values, Vt)`. -/
def TruncatedSvdResult.valuesVectors (t : TruncatedSvdResult α) :
    M (Arr2 α × Arr1 α × Arr2 α) := do
  let l ← t.valuesWithIndices
  let values : Arr1 α := ⟨l.length, fun i => (l.map Prod.fst).getD i 0⟩
  let indices := l.map Prod.snd
  if t.ngm then do
    let vlarge ← t.eigvecs.selectCols indices
    let ularge ← t.problem.dot vlarge
    .ok (divideCols ularge values, values, vlarge.t)
  else do
    let ularge ← t.eigvecs.selectCols indices
    let vlarge ← t.problem.t.dot ularge
    .ok (ularge, values, (divideCols vlarge values).t)

/-- `struct TruncatedSvd`, `/repo/src/lobpcg/svd.rs:107-113`. `precision` is modelled after its
conversion to `A`; the source squares it in `f32` before the conversion. -/
structure TruncatedSvd (α ρ : Type) where
  order : Order
  problem : Arr2 α
  precision : α
  maxiter : Nat
  rng : ρ

/-- `TruncatedSvd::new_with_rng`, `/repo/src/lobpcg/svd.rs:122-130`. -/
def TruncatedSvd.new (problem : Arr2 α) (order : Order) (rng : ρ) : TruncatedSvd α ρ :=
  { precision := NdFloat.ofRat defaultPrecision, maxiter := problem.nr * 2, order := order,
    problem := problem, rng := rng }

/-- `TruncatedSvd::precision`, `/repo/src/lobpcg/svd.rs:139-143`. -/
def TruncatedSvd.withPrecision (t : TruncatedSvd α ρ) (precision : α) : TruncatedSvd α ρ :=
  { t with precision := precision }

/-- `TruncatedSvd::maxiter`, `/repo/src/lobpcg/svd.rs:149-153`. -/
def TruncatedSvd.withMaxiter (t : TruncatedSvd α ρ) (maxiter : Nat) : TruncatedSvd α ρ :=
  { t with maxiter := maxiter }

/-- The arguments `decompose` passes to `lobpcg`, `/repo/src/lobpcg/svd.rs:197-220`. -/
def TruncatedSvd.params (t : TruncatedSvd α ρ) : LobParams α where
  a := fun _ y =>
    if t.problem.nr > t.problem.nc then do
      let z ← t.problem.dot y
      t.problem.t.dot z
    else do
      let z ← t.problem.t.dot y
      t.problem.dot z
  m := fun y => .ok y
  y := none
  tol := t.precision * t.precision
  order := t.order

/-- `TruncatedSvd::decompose`, `/repo/src/lobpcg/svd.rs:178-241`. -/
def TruncatedSvd.decompose (eig : EigSolver α) (R : RandomSource α ρ) (t : TruncatedSvd α ρ)
    (num : Nat) : M (TruncatedSvdResult α) :=
  if num = 0 then .ok ⟨Arr1.zeros 0, Arr2.zeros 0 0, Arr2.zeros 0 0, t.order, false⟩
  else do
    let x := (R.random (min t.problem.nr t.problem.nc) num t.rng).1
    let (res, _) ← lobpcgRun eig t.params x t.maxiter
    match res with
    | .ok l | .error (_, some l) =>
      .ok ⟨l.eigvals, l.eigvecs, t.problem, t.order, t.problem.nr > t.problem.nc⟩
    | .error (e, none) => throwErr e

end LinfaLinalg
