import Verif.Model.TruncatedSvd
import Verif.Spec.Format

/-! # The precision of the truncated solvers

`precision` is an `f32` whatever the type of the matrix is. `Model/TruncatedEig.lean` and `Model/TruncatedSvd.lean` have it
in the type of the matrix; here it is a number of single precision, and converted where the source converts it. -/

namespace LinfaLinalg

/-- `NumCast::from(tol).unwrap()` from `f32` to the type of the matrix, `/repo/src/lobpcg/algorithm.rs:152`: the nearest
number. -/
noncomputable def Flt.cast {R R' : Rounding} : Flt R → Flt R'
  | .nan => .nan
  | .inf s => .inf s
  | .fin s m => Flt.round s m

variable {R : Rounding} {ρ : Type}

/-- The tolerance of `TruncatedEig`, `/repo/src/lobpcg/eig.rs:157,167` and `/repo/src/lobpcg/algorithm.rs:152`. -/
noncomputable def eigTolerance (precision : Flt Rounding.binary32) : Flt R := precision.cast

/-- The tolerance of `TruncatedSvd`: squared in `f32`, then converted, `/repo/src/lobpcg/svd.rs:197-198` and
`/repo/src/lobpcg/algorithm.rs:152`. -/
noncomputable def svdTolerance (precision : Flt Rounding.binary32) : Flt R := (precision * precision).cast

/-- `TruncatedEig::decompose`, `/repo/src/lobpcg/eig.rs:138-172`, with the precision in single precision; the field of `t`
is not used. -/
noncomputable def TruncatedEig.decompose32 (eig : EigSolver (Flt R)) (S : RandomSource (Flt R) ρ)
    (t : TruncatedEig (Flt R) ρ) (precision : Flt Rounding.binary32) (num : Nat) :
    M (LobpcgResult (Flt R) × TruncatedEig (Flt R) ρ) :=
  if num = 0 then .ok (.ok ⟨Arr1.zeros 0, Arr2.zeros 0 0, []⟩, t)
  else do
    let x := S.random t.problem.nr num t.rng
    let (res, _) ← lobpcgRun eig { t.params with tol := eigTolerance precision } x.1 t.maxiter
    .ok (res, { t with rng := x.2 })

/-- `TruncatedSvd::decompose`, `/repo/src/lobpcg/svd.rs:178-241`, with the precision in single precision; the field of `t`
is not used. -/
noncomputable def TruncatedSvd.decompose32 (eig : EigSolver (Flt R)) (S : RandomSource (Flt R) ρ)
    (t : TruncatedSvd (Flt R) ρ) (precision : Flt Rounding.binary32) (num : Nat) : M (TruncatedSvdResult (Flt R)) :=
  if num = 0 then .ok ⟨Arr1.zeros 0, Arr2.zeros 0 0, Arr2.zeros 0 0, t.order, false⟩
  else do
    let x := (S.random (min t.problem.nr t.problem.nc) num t.rng).1
    let (res, _) ← lobpcgRun eig { t.params with tol := svdTolerance precision } x t.maxiter
    match res with
    | .ok l | .error (_, some l) =>
      .ok ⟨l.eigvals, l.eigvecs, t.problem, t.order, t.problem.nr > t.problem.nc⟩
    | .error (e, none) => throwErr e

end LinfaLinalg
