import Verif.Model.Basic

/-! # Model of `/repo/src/norm.rs`

`Norm` is implemented for arrays of every dimension through `self.iter()`; the functions below
take the list of elements in that order. Sums start from `0`; recent versions of Rust's `Sum` for floats start from
`-0.0`, which makes a difference only for the sign of the zero that an empty array gives. -/

namespace LinfaLinalg

variable {α : Type} [Zero α] [One α] [Add α] [Sub α] [Mul α] [Div α] [Neg α] [NdFloat α]

/-- `Norm::norm_l1`, `/repo/src/norm.rs:25-27`. -/
def normL1 (l : List α) : α := (l.map NdFloat.abs).foldl (· + ·) 0

/-- `Norm::norm_l2`, `/repo/src/norm.rs:29-31`. -/
def normL2 (l : List α) : α := NdFloat.sqrt ((l.map fun x => x * x).foldl (· + ·) 0)

/-- `Norm::norm_max`, `/repo/src/norm.rs:33-35`. -/
def normMax (l : List α) : α := l.foldl (fun f val => NdFloat.max (NdFloat.abs val) f) 0

end LinfaLinalg
