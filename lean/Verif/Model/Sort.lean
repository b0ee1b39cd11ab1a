import Verif.Model.Basic

/-! # Model of the sorting code in `/repo/src/eigh.rs` and `/repo/src/svd.rs` -/

namespace LinfaLinalg

variable {α : Type} [Zero α] [One α] [Add α] [Sub α] [Mul α] [Div α] [Neg α] [NdFloat α]

/-- `NaN` is the only value that does not compare with itself; `cmp_floats`
(`/repo/src/eigh.rs:325-328`) panics exactly when one of its arguments is `NaN`. -/
def isNaN (x : α) : Bool := !NdFloat.le x x

/-- The comparison closures `|a, b| cmp_floats(b, a)` (`Largest`) and `|a, b| cmp_floats(a, b)`
(`Smallest`), `/repo/src/eigh.rs:296-297,310-311` and `/repo/src/svd.rs:508-509`, as
"`a` may stay in front of `b`", i.e. the result is not `Greater`. -/
def leOrd : Order → α → α → Bool
  | .largest, a, b => NdFloat.le b a
  | .smallest, a, b => NdFloat.le a b

/-- Insertion of `x` in front of the first element that may stay behind it. -/
def stableInsert {β : Type} (le : β → β → Bool) (x : β) : List β → List β
  | [] => [x]
  | y :: ys => if le x y then x :: y :: ys else y :: stableInsert le x ys

/-- A stable sort. Rust's `slice::sort_by` is stable, and the result of a stable sort of comparable
elements does not depend on the algorithm. -/
def stableSort {β : Type} (le : β → β → Bool) : List β → List β
  | [] => []
  | x :: xs => stableInsert le x (stableSort le xs)

/-- `value_idx.sort_by(|a, b| cmp_floats(..))`: a list of at least two elements has each of its
elements compared at least once, so a `NaN` key makes `cmp_floats` panic. -/
def sortBy {β : Type} (key : β → α) (order : Order) (l : List β) : M (List β) :=
  if 2 ≤ l.length ∧ l.any (fun x => isNaN (key x)) then .error .panic
  else .ok (stableSort (fun a b => leOrd order (key a) (key b)) l)

/-- `vals.iter().copied().enumerate().collect()`. -/
def Arr1.enumerate (a : Arr1 α) : List (Nat × α) := (List.range a.len).map fun i => (i, a.get i)

/-- `arr.iter_mut().zip(l.iter()).for_each(|(si, (_, f))| *si = *f)`,
`/repo/src/eigh.rs:318-320` and `/repo/src/svd.rs:523-525`. -/
def Arr1.assignSnd (a : Arr1 α) (l : List (Nat × α)) : Arr1 α :=
  ⟨a.len, fun i => match l[i]? with
    | some p => p.2
    | none => a.get i⟩

/-- `for (out_idx, &(arr_idx, _)) in value_idx.iter().enumerate() {
out.column_mut(out_idx).assign(&vecs.column(arr_idx)); }` starting from zeros,
`/repo/src/eigh.rs:314-317` and `/repo/src/svd.rs:512-519` (there `index_axis_mut(Axis(1), _)`). -/
def permuteCols (vecs : Arr2 α) (l : List (Nat × α)) : M (Arr2 α) :=
  forRange 0 l.length (Arr2.zeros vecs.nr vecs.nc) fun k out =>
    match l[k]? with
    | none => .ok out
    | some (idx, _) => do
      let c ← vecs.colSlice 0 vecs.nr idx
      if k < out.nc then .ok (out.putCol 0 k c) else .error .panic

/-- `<Array1 as EigSort>::sort_eig`, `/repo/src/eigh.rs:290-301`. Memory layout is not modelled here, so
the panic on non-standard layouts is not; it is in `sortEigValsMem`. -/
def sortEigVals (vals : Arr1 α) (order : Order) : M (Arr1 α) := do
  let l ← sortBy (fun x : α => x) order vals.toList
  .ok ⟨vals.len, fun i => l.getD i (vals.get i)⟩

/-- `<(Array1, Array2) as EigSort>::sort_eig`, `/repo/src/eigh.rs:305-322`. -/
def sortEig (vals : Arr1 α) (vecs : Arr2 α) (order : Order) : M (Arr1 α × Arr2 α) := do
  let l ← sortBy Prod.snd order vals.enumerate
  let out ← permuteCols vecs l
  .ok (vals.assignSnd l, out)

/-- `apply_ordering` on an optional matrix, along columns. -/
def permuteColsOpt (l : List (Nat × α)) : Option (Arr2 α) → M (Option (Arr2 α))
  | none => .ok none
  | some a => do
    let r ← permuteCols a l
    .ok (some r)

/-- `apply_ordering` on an optional matrix, along rows (`Axis(0)`): the column version on the
transposed view. -/
def permuteRowsOpt (l : List (Nat × α)) : Option (Arr2 α) → M (Option (Arr2 α))
  | none => .ok none
  | some a => do
    let r ← permuteCols a.t l
    .ok (some r.t)

/-- `SvdSort::sort_svd`, `/repo/src/svd.rs:502-528`. -/
def sortSvd (u : Option (Arr2 α)) (s : Arr1 α) (vt : Option (Arr2 α)) (order : Order) :
    M (Option (Arr2 α) × Arr1 α × Option (Arr2 α)) := do
  let l ← sortBy Prod.snd order s.enumerate
  let u ← permuteColsOpt l u
  let vt ← permuteRowsOpt l vt
  .ok (u, s.assignSnd l, vt)

end LinfaLinalg
