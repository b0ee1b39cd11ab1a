import Verif.Model.Sort

/-! # The sorting methods with a fixed order -/

namespace LinfaLinalg

variable {α : Type} [Zero α] [One α] [Add α] [Sub α] [Mul α] [Div α] [Neg α] [NdFloat α]

/-- `EigSort::sort_eig_asc` on values, `/repo/src/eigh.rs:279-281` with `eigh.rs:290-301`. -/
def sortEigValsAsc (vals : Arr1 α) : M (Arr1 α) := sortEigVals vals .smallest

/-- `EigSort::sort_eig_desc` on values, `/repo/src/eigh.rs:284-286` with `eigh.rs:290-301`. -/
def sortEigValsDesc (vals : Arr1 α) : M (Arr1 α) := sortEigVals vals .largest

/-- `EigSort::sort_eig_asc` on pairs, `/repo/src/eigh.rs:279-281` with `eigh.rs:305-322`. -/
def sortEigAsc (vals : Arr1 α) (vecs : Arr2 α) : M (Arr1 α × Arr2 α) := sortEig vals vecs .smallest

/-- `EigSort::sort_eig_desc` on pairs, `/repo/src/eigh.rs:284-286` with `eigh.rs:305-322`. -/
def sortEigDesc (vals : Arr1 α) (vecs : Arr2 α) : M (Arr1 α × Arr2 α) := sortEig vals vecs .largest

/-- `SvdSort::sort_svd_asc`, `/repo/src/svd.rs:491-493`. -/
def sortSvdAsc (u : Option (Arr2 α)) (s : Arr1 α) (vt : Option (Arr2 α)) :
    M (Option (Arr2 α) × Arr1 α × Option (Arr2 α)) := sortSvd u s vt .smallest

/-- `SvdSort::sort_svd_desc`, `/repo/src/svd.rs:496-498`. -/
def sortSvdDesc (u : Option (Arr2 α)) (s : Arr1 α) (vt : Option (Arr2 α)) :
    M (Option (Arr2 α) × Arr1 α × Option (Arr2 α)) := sortSvd u s vt .largest

end LinfaLinalg
