# Design: a Lean 4 model of rust-ml/linfa-linalg

## Approach

* The model is in `lean/Verif/Model/`, one file per Rust module. Every definition cites the file and
  lines it models, and its comment states the simplifications.
* The scalar type is a parameter: `α` with `0 1 + - * / neg` and a class `NdFloat α` holding
  `sqrt, abs, signum, hypot, max, <, ≤, is_zero, is_sign_negative, epsilon, …`, which is what the code uses
  of `ndarray::NdFloat`. No algebraic law is assumed of these operations.
  * Theorems on control flow, shapes, bounds, panics, errors and non-interference hold for *every* `α`,
    hence for IEEE floats. Some ask for a lawful `≤` on the values at hand (`LawfulLe`, `NaNFree`).
  * Algebraic theorems are proved for the instance `ℝ`, i.e. in exact arithmetic.
  * Theorems on NaN, infinities and overflow use the instance `Flt R` (`Spec/Ieee`): NaN, signed
    infinities, signed finite numbers and an arbitrary rounding `R` of magnitudes which may overflow.
    `Rounding.ieee F` (nearest, ties to even, gradual underflow, any binary format; `Spec/Format`) is an instance, with
    `Rounding.binary64` for `f64` and `Rounding.binary32` for `f32`. `Rounding.Accurate` adds a bound on the
    rounding error, relative plus absolute, for error bounds without any restriction on magnitudes (C95–C98, C113)
    and for ranges of magnitudes in which nothing overflows (C140, C141, C143, C144 to C154).
  * Theorems on rounding errors use the instance `Rnd R` (`Spec/Rounded`), the standard model of
    floating-point arithmetic: every operation is exact up to a relative error of at most `u`.
  * Inner products (`NdFloat.dot`) are an operation of the scalar type, because the kernels of ndarray unroll, block and
    fuse them. Over `ℝ` they are exact. On `Rnd R` all that is assumed is the usual error bound, which
    `DotPlan.err` (`Spec/DotPlan`) proves for summation in any order, with or without fused multiply-adds. On `Flt R` they
    follow an arbitrary `DotPlan`. `double` and `binary64` use the order of ndarray's `unrolled_dot`. Sums written as
    loops in the crate (Cholesky, norms) are added up in the order of the loop.
* Arrays are `(nr, nc, get : ℕ → ℕ → α)`. Every access goes through a checked accessor. An unchecked
  access (`at`/`atm`) out of bounds is the outcome `Fail.oob` (undefined behaviour in release builds), a Rust
  panic is `Fail.panic`, a returned `LinalgError` is `Fail.err`. Functions with `&mut` arguments return the
  new value.
* The unbounded loops `while end != start` in `eigh.rs` and `svd.rs` take a fuel argument; `Fail.fuel` means
  "still running". Theorems hold for every fuel.
* `Proofs/Param*` prove once for every function that two runs on related scalars stay related (binary parametricity),
  for any relation that the scalar operations preserve. The tactic `rel` (`Proofs/RelTac`) finds these proofs by applying
  one rule per operation; it is not trusted, since the kernel checks the proof terms it builds. C109–C112 are instances.
* Specifications (`lean/Verif/Spec/`) use Mathlib's `Matrix`, `Finset.sum`, `Polynomial.roots`, … only.
  Property theorems are in `lean/Verif/Props/`, helper lemmas in `lean/Verif/Proofs/`.

### LOBPCG

* The small dense eigensolver (`eigh_into`) is a parameter `eig` of `lobpcgRun`; `lobpcg` instantiates it.
  Theorems say what they assume of it: nothing (C42–C44, C47–C49, C51, C52, C60, C64), that it does not
  panic (C56, C61), or that it is exact (`EigOrth` with `EigWithin 0`: C57–C59, C62, C123, C124, C126;
  `EigExact`: C107). C106 assumes a relative error for blocks of one size (`EigWithinAt`), which `eigh_into`
  meets for one or two vectors. `Proofs/ExactEig` shows
  that an exact eigensolver exists, so the last hypothesis is satisfiable; `C45_eigh` and `C45_two_iterates`
  are about the real `eigh_into` and its tolerance.
* The operator gets the number of the call as an argument, so it may be stateful; closures may panic.
* `LobState.hist` and `gram` are ghost fields: the source only pushes norms to `residual_norms_history`
  and never reads it. `calls` is the ghost call counter.
* The random number generator is an arbitrary function of its state (`RandomSource`).

## What the code gets wrong

Theorems which refute a documented or intended behaviour, with what holds instead:

* `eigh` may pair an eigenvalue with the wrong eigenvector: the rotation of a 2 × 2 block is skipped when its
  norm is at most epsilon (C30, `eigh.rs:111-121`). Only neighbouring values whose absolute values add up to at most about
  the largest entry of the matrix can be exchanged, and none in matrices with at most two rows.
* In double precision `eigh` may return a vector that is far from every eigenvector: the rotation of a 2 × 2 block is
  built from the difference `eigvals.0 - diag[start + 1]`, which cancels when the larger diagonal entry comes second
  and the off-diagonal is small (C85, `eigh.rs:103-123`). The eigenvalues are not affected (C84).
* `eigh` never returns on some singular indefinite matrices, because its deflation tests are relative to two diagonal
  entries which may both tend to zero (C89, `eigh.rs:134-171`; in exact arithmetic, the smallest size is three).
* `qr`, `least_squares`, `eigh` and their relatives are wrong by large factors when the squares of a column underflow,
  because `reflection_axis_mut` does not scale the column (C90, `householder.rs:9-28`).
* `qr`, `least_squares` and `inverse` return NaNs, and `is_invertible` answers true, when the squares of the first column
  overflow, for the same reason (C94).
* `eigh` and `svd` divide by the largest absolute value also when it is infinite, which leaves only zeros and NaNs; `svd`
  may then run forever (C93, `eigh.rs:27-34`, `svd.rs:29-36`).
* `eigh` returns NaNs for some symmetric matrices of finite numbers of absolute value at most one: `wilkinson_shift`
  squares the off-diagonal entry without scaling and then divides zero by zero (C105, `eigh.rs:179-187`). `sort_eig`,
  and with it `lobpcg`, panics on such a result.
* `svd` multiplies a column of `U` by `-A::zero()` where `-A::one()` is meant (C38, `svd.rs:212-221`). In exact
  arithmetic the loop is inactive.
* In double precision `svd` may return a singular value that is wrong by almost one percent when a factor is requested:
  `compute_2x2_uptrig_svd` multiplies both values by the product of two computed norms, which is one in exact arithmetic
  only (C87). Without factors the values are accurate (C86).
* `cholesky`, `solvec`, `invc`, `least_squares` and `eigh` do not report a NaN in their input but return NaNs (C92);
  `norm_max` ignores NaNs (C92, `norm.rs:33-35`).
* `cholesky` accepts some finite indefinite matrices: after an overflow a pivot may be NaN, and the test `pivot <= 0` lets
  it pass (C96, `cholesky.rs:51-76`). A NaN on the diagonal of the factor is the only sign of this.
* `norm_l2` sums the squares without scaling: it is zero for arrays of numbers up to `2⁻⁵³⁸` and infinite for numbers from
  `2⁵¹²` on, although the norm is representable (C98, `norm.rs:29-31`).
* `solvec` overwrites its matrix with the Cholesky factor, as documented, so that a second call on the same matrix
  solves another system (C91, `cholesky.rs:136-145`).
* `svd` never returns when a NaN sits in the first line of a matrix with `min(rows, cols) ≥ 3` (C39).
* `apply_constraints` solves with the Cholesky factor instead of the Gram matrix, so it projects only for
  orthonormal constraints (C46, `lobpcg/algorithm.rs:63-76`).
* `lobpcg` returns `Ok` when it runs out of iterations, contrary to the documentation (C47).
* `values()` of the result of `TruncatedSvd::decompose(0)` panics for `Order::Largest` (C53).
* `lobpcg` with zero columns panics (C56).
* `lobpcg` always fails with `NotPositiveDefinite` when `k` plus the number of active pairs exceeds `n` (C63).
* `lobpcg` returns `Ok` with the wrong end of the spectrum from a start in an invariant subspace (C64).
* With floats, a block with NaN residual norms passes the iterator's quality test (C52).
* `orthonormalize` reports independent columns as `NotPositiveDefinite` when the squares of their entries are lost: by
  rounding (C119), or by underflow, so that a preconditioner with a small scale makes `lobpcg` fail although its scale is
  irrelevant in exact arithmetic (C125, `lobpcg/algorithm.rs:81-97`).
* A `precision` of `TruncatedSvd` of at most `2⁻⁷⁵` asks for residuals that are exactly zero, because it is squared in `f32`;
  a NaN, or a value from `2⁶⁴` on, returns the first Ritz pairs of the random block as a success (C127, `lobpcg/svd.rs:197`).
* `values_vectors` of `TruncatedSvd` with `Order::Smallest` divides by the singular value zero of a matrix without full rank, or
  by the NaN which a slightly negative eigenvalue estimate gives: the vectors are not finite, without an error (C128, `lobpcg/svd.rs:69-99`).
* The iterator of `TruncatedEig` discards a block when a residual norm exceeds 0.1, whatever the size of the matrix: unless a residual is
  zero, it yields nothing once matrix and precision are multiplied by a large enough number, although `decompose` then returns the
  same vectors (C131, `lobpcg/eig.rs:264-272`).
* `cancel_y` returns `c = s = 0` when the length of the vector overflows and `c = 1`, `s = -1` for the smallest subnormal
  numbers, neither of which is a rotation (C120, `givens.rs:17-30`).

## Properties

Regenerated by `tools/manifest.py`; the exact theorem names are in `MANIFEST.json`.

<!-- table -->
| id | property | status | model | how proved | scope, gaps |
|---|---|---|---|---|---|
| C01 | into_triangular keeps one triangle and zeroes the other | proved | Triangular | loop invariant: processed rows are done, the others untouched | every scalar type, every shape |
| C02 | is_triangular decides triangularity | proved | Triangular | the scan is a `List.all` over exactly the other triangle | every scalar type; the second theorem assumes is_zero(0) = true of the scalar type |
| C03 | solve_triangular solves the triangular system | proved | Triangular | invariant of column-oriented substitution; uniqueness from the non-zero diagonal | exact real arithmetic |
| C04 | solve_triangular never looks at the other triangle | proved | Triangular | relational induction over the loop: two runs stay in lockstep | every scalar type |
| C05 | solve_triangular treats right-hand-side columns independently | proved | Triangular | relational induction over columns | every scalar type |
| C06 | solve_triangular rejects exactly the bad shapes | proved | Triangular | total-correctness rule for the loops | every scalar type |
| C07 | Unchecked indexing in the direct solvers is always in bounds | proved | Triangular, Cholesky | total-correctness rule: `oob` and `panic` are unreachable | every scalar type; triangular.rs and cholesky.rs |
| C08 | cholesky returns a lower-triangular square root | proved | Cholesky | invariant: the leading rows hold the factor | exact real arithmetic |
| C09 | cholesky succeeds exactly on positive definite matrices | proved | Cholesky | Schur complement / leading minors; both directions | exact real arithmetic |
| C10 | cholesky ignores and preserves the strict upper triangle | proved | Cholesky | relational induction; frame invariant for the upper triangle | every scalar type, also on failure |
| C11 | clean and dirty Cholesky agree, and all entry points agree | proved | Cholesky | same loop, different epilogue | every scalar type; by-value/by-reference wrappers share one model definition |
| C12 | The Cholesky factor is unique | proved | Cholesky | uniqueness of the factor by induction on columns | exact real arithmetic |
| C13 | solvec solves positive definite systems | proved | Cholesky, Triangular | C03 twice and C08/C09 | exact real arithmetic; error table for every scalar type |
| C14 | invc returns the inverse | proved | Cholesky | C13 with B = 1 | exact real arithmetic |
| C15 | Reflection mirrors across the plane | proved | Householder | pointwise algebra, isometry | exact real arithmetic |
| C16 | QR factorization is correct | proved | Householder, Qr | invariant: product of signed Householder matrices; rank deficiency via zero norm case | exact real arithmetic; rank-deficient and empty matrices included |
| C17 | qr rejects exactly wide matrices | proved | Qr | total-correctness rule | every scalar type; also all methods of the decomposition |
| C18 | is_invertible detects full column rank | proved | Qr | R has the rank of A; diagonal test | exact real arithmetic |
| C19 | QR solve is least squares | proved | Qr | normal equations from C16 and C03 | exact real arithmetic |
| C20 | solve_tr gives the minimum-norm solution of the transposed system | proved | Qr | minimum norm from orthogonality to the kernel | exact real arithmetic |
| C21 | inverse is two-sided and its errors are exact | proved | Qr | C19 with B = 1 | exact real arithmetic |
| C22 | R of QR is the transposed Cholesky factor of the Gram matrix | proved | Qr, Cholesky | C12 for R^T | exact real arithmetic |
| C23 | Tridiagonal decomposition is correct | proved | Tridiagonal, Householder | two-sided product invariant | exact real arithmetic |
| C24 | sym_tridiagonal rejects exactly non-square and empty input | proved | Tridiagonal | total-correctness rule | every scalar type |
| C25 | Bidiagonal decomposition is correct | proved | Bidiagonal, Householder | two-sided product invariant; wide case by transposition | exact real arithmetic; any non-empty shape |
| C26 | bidiagonal rejects exactly empty input | proved | Bidiagonal | total-correctness rule | every scalar type |
| C27 | eigvalsh and eigh return the same eigenvalues | proved | Eigh | relational induction over the number of iterations | every scalar type, every number of iterations |
| C28 | Eigenvectors are orthonormal | proved | Eigh, Givens | invariant: Q stays orthogonal | exact real arithmetic, every number of iterations |
| C29 | Eigenvalues are backward stable | proved | Eigh, Givens | invariant: orthogonal similarity up to an error budget counted in deflated entries | exact real arithmetic, every number of iterations; eigenvalues as roots of the characteristic polynomial |
| C30 | Eigenvectors belong to their eigenvalues | partial | Eigh, Givens | as C29 with a permutation in the invariant, and for every moved index the bound `Swaps` on the two values; for n = 2 the skipped block is shown to be the whole matrix, which is then within eps of diagonal after scaling; counterexample by running the model | false of the code: counterexample proved for a 3 x 3 matrix (rotation of a 2 x 2 block skipped when its norm is <= eps, eigh.rs:111-121). Proved: the property for n <= 2; for all n up to exchanges of neighbouring values whose absolute values add up to at most (1 + 2 eps) max\|a_ij\|; hence for every value above (1 + 2 eps) max\|a_ij\| and whenever no two values are that small |
| C31 | eigh shape and error behaviour | proved | Eigh | index invariants over the loop | every scalar type, every number of iterations |
| C32 | The 2x2 unwrap in eigh cannot panic | proved | Eigh with `Flt R` | deflation test true only on finite inputs; the discriminant is a sum of non-negative roundings | IEEE-like scalars with an arbitrary rounding of magnitudes (binary64 is an instance); every matrix, every iteration count |
| C33 | sort_eig sorts pairs | proved | Sort | stable insertion sort is a sorted, stable permutation | Every scalar type with a lawful `<=`; the `sort_eig` panic on NaN is characterised too. |
| C34 | SVD factors are semi-orthogonal and singular values non-negative | proved | Svd, Bidiagonal, Givens | invariant over delimit, cancel, sweep and 2 x 2 steps | exact real arithmetic; every iteration count |
| C35 | SVD reconstructs the matrix within the tolerance | proved | Svd, Bidiagonal, Givens | invariant `A ~ U B Vt` with an error budget counting entries set to zero | exact real arithmetic; every iteration count |
| C36 | Singular values do not depend on which vectors are requested | proved | Svd | relational induction; the 2 x 2 step computes the same values with and without vectors in exact arithmetic | exact real arithmetic for all flags; every scalar arithmetic when at least one factor is requested |
| C37 | SVD shape and error behaviour | proved | Svd | index invariants over the loop | every scalar type, every iteration count |
| C38 | Making singular values positive keeps U*S*Vt | partial | Svd (`fixSigns`) | symbolic run of the final loop; negation by a concrete value | false as stated: C38_sign_fix_false proves the negation (the source multiplies by -A::zero()); C38_sign_fix_partial says exactly what the loop does and when the claim holds; by C34/C35 the loop is inactive in exact arithmetic |
| C39 | svd terminates on every input | partial | Svd with `Flt R` | NaN propagates to every entry of the band and no test ever succeeds: invariant for every fuel | false as stated: C39_svd_terminates_false and C39_svd_nan_forever prove that svd never returns on a NaN in the first line of a matrix with min(rows, cols) >= 3; C39_svd_terminates_false_no_nan: false also for matrices without NaN, because of infinities (C93). C39_svd_terminates_partial: returns for min(rows, cols) <= 2 in every arithmetic. For exact real arithmetic C73 proves termination on every matrix. Missing: termination for larger matrices with finite entries in floating point |
| C40 | sort_svd sorts and keeps the product | proved | Sort | as C33 for both factors | Every scalar type with a lawful `<=`; the product statement is over the reals. |
| C41 | Norms are norms | proved | Norm | Finset inequalities (Minkowski from Cauchy-Schwarz) | Exact real arithmetic. |
| C42 | LOBPCG returns the best iterate | proved | Lobpcg | invariant over the loop with ghost history | every scalar type with a lawful order on non-NaN values; every operator and eigensolver |
| C43 | LOBPCG iteration bound | proved | Lobpcg | fuel is never exhausted; the call counter bounds operator calls | every scalar type |
| C44 | Reported residuals are true residuals | proved | Lobpcg | invariant `AX = A X` through every update | exact real arithmetic; any operator that is a matrix product, any eigensolver for the small problems |
| C45 | LOBPCG eigenvectors are orthonormal | partial | Lobpcg | invariant `X^T X = 1`: Rayleigh-Ritz with respect to the Gram matrix | proved for an exact eigensolver of the small problems and well conditioned Gram matrices (C45_orthonormal_partial, C45_returned_partial); with an eigensolver of given error the deviation is bounded (C45_error_bound). With eigh_into: within 2^-50 s^2 as long as the Gram matrix of the s basis vectors is within 1/4 of the identity (C45_eigh_close), more generally unless two of its eigenvalues add up to no more than its largest entry (C45_eigh_separated); a coarser bound without that (C45_eigh). Missing: Gram matrices with two small eigenvalues, whose values eigh_into may pair with the wrong vectors (C30) |
| C46 | LOBPCG honours constraints | partial | Lobpcg | invariant `Y^T X = 0`; counterexample run | false as stated: C46_false is a run that returns an eigenvector not orthogonal to the constraint; C46_applyConstraints_iff: apply_constraints projects iff Y^T Y = 1; C46_constraints_partial: proved for orthonormal Y, all iterations |
| C47 | Running out of iterations is reported as an error | partial | Lobpcg | symbolic run with maxiter = 0 | false as stated: C47_exhausted_is_ok (every run that uses up its iterations returns Ok) and C47_false (a run); C47_converged_partial is what holds |
| C48 | LOBPCG shapes and the NotThin error | proved | Lobpcg | shape invariant | every scalar type |
| C49 | Converged eigenpairs stay locked | proved | Lobpcg | mask is antitone along the history | every scalar type |
| C50 | orthonormalize orthonormalizes | proved | Lobpcg, Cholesky | C08/C09 for the Gram matrix, C03 | exact real arithmetic |
| C51 | TruncatedEig iterator yields at most n eigenvalues and accumulates constraints | proved | TruncatedEig | induction over histories of `next` calls | every scalar type, every history of calls; beside it identity_next, a concrete call |
| C52 | Iterator never yields a badly converged block | proved | TruncatedEig | case analysis of `next`, every state | every scalar type; for scalars with NaN the guarantee is `not (norm > 0.1)` |
| C53 | decompose(0) is an empty success | partial | TruncatedEig, TruncatedSvd | evaluation | false for Order::Largest: C53_values_panics proves that values() of the empty solution panics, for every scalar type; everything else in C53_decompose_zero_partial |
| C54 | Truncated singular values are positive and sorted | proved | TruncatedSvd, Sort | sortedness and permutation of the stable sort, filter | every scalar type with a lawful `<=` for what is kept and in which order; positivity in exact real arithmetic; NaN panics characterised |
| C55 | Truncated SVD triples are singular triples | proved | TruncatedSvd | algebra with exact eigenpairs of the Gram matrix | exact real arithmetic; both orders, tall and wide |
| C56 | LOBPCG never panics on well-shaped input | proved | Lobpcg | total-correctness rule with a shape invariant | exact real arithmetic; the panic with zero columns for every scalar type; beside the theorems a concrete instance |
| C57 | LOBPCG returns Ritz pairs in order | proved | Lobpcg | invariant `X^T A X = diag(lambda)` from the projected problem | exact real arithmetic, exact eigensolver for the small problems |
| C58 | LOBPCG Ritz values improve monotonically | proved | Lobpcg | Courant-Fischer on nested trial spaces (Proofs/Ritz) | exact real arithmetic, exact eigensolver for the small problems |
| C59 | LOBPCG Ritz values are one-sided bounds | proved | Lobpcg | Cauchy interlacing (Proofs/Ritz) | exact real arithmetic, exact eigensolver for the small problems |
| C60 | Returned values are near eigenvalues | proved | Lobpcg, TruncatedEig | residual bound for symmetric matrices through the spectral theorem | exact real arithmetic, any eigensolver for the small problems |
| C61 | Which errors lobpcg returns | proved | Lobpcg | error classification over every step | exact real arithmetic, any total eigensolver for the small problems |
| C62 | When lobpcg breaks down | proved | Lobpcg | breakdown implies dependence of the projected residuals; R is orthogonal to X | exact real arithmetic, exact eigensolver for the small problems; concrete runs strict_run and plane_run |
| C63 | Room for new directions | proved | Lobpcg | dimension count on an orthonormal family | exact real arithmetic; concrete run plane_run |
| C64 | LOBPCG stays in invariant subspaces | proved | Lobpcg | invariant: all columns in the subspace | exact real arithmetic, any eigensolver for the small problems; concrete run axis_run |
| C65 | Triangular solves are backward stable | proved | Triangular over Rnd R | invariant of the elimination with products of (1+d) factors (Near) | standard model of floating-point arithmetic: relative error u per operation, no overflow, underflow or NaN |
| C66 | Cholesky is backward stable | proved | Cholesky over Rnd R | the equations each entry solves, with Near factors; Cauchy-Schwarz for the second bound | standard model of floating-point arithmetic: relative error u per operation, no overflow, underflow or NaN |
| C67 | Cholesky solves are backward stable | proved | Cholesky, Triangular over Rnd R | C66 and twice C65 | standard model of floating-point arithmetic: relative error u per operation, no overflow, underflow or NaN |
| C68 | Accuracy of the norms | proved | Norm over Rnd R | induction over the list with Near factors | standard model of floating-point arithmetic: relative error u per operation, no overflow, underflow or NaN |
| C69 | Cholesky succeeds on well conditioned matrices | proved | Cholesky over Rnd R | a rejected pivot gives a direction in which the quadratic form is small | standard model of floating-point arithmetic: relative error u per operation, no overflow, underflow or NaN; the constant 2n is not sharp |
| C70 | eigh terminates on semidefinite matrices | proved | Eigh, Givens | every sweep is a QR step with Wilkinson's shift and halves (b1^2 b2)^2 of the last two off-diagonal entries (Hoffman-Parlett); the deflation threshold stays above a positive constant because the form has positive trace on pairs of orthonormal vectors of an unreduced segment (compactness) | exact real arithmetic; C70_eigh_terminates: every semidefinite matrix; C70_eigh_iterations: explicit bound for definite ones |
| C71 | eigh terminates on well-conditioned matrices | proved | Eigh, Givens | as C70; the last diagonal entry is bounded below through the error budget of C29 | exact real arithmetic; the condition excludes matrices that are singular to working precision, for which the relative deflation threshold can shrink with the entry it is compared to; C89 shows that it cannot be dropped |
| C72 | Wilkinson's shift | proved | `wilkinsonShift` | algebra | exact real arithmetic |
| C73 | svd terminates on every real matrix | proved | Svd, Givens | every sweep on an upper bidiagonal B is a QR step with Wilkinson's shift on B^T B and halves the potential (as in C70); entries of a block are above eps and 2 eps^2 after delimiting; lexicographic measure on (end, end - start, log of the potential) | exact real arithmetic; C73_svd_terminates: all flags, explicit iteration bound svdFuel; C73_svd_total: total correctness |
| C74 | The truncated SVD returns Ritz triples | proved | TruncatedSvd, Lobpcg | C45, C57, C59 for the Gram operator; values already in order are a prefix after sorting and filtering; residual bound for the eigenvalue; square roots | exact arithmetic, EigWithin 0, Gram matrices above gramFloor; C74_tall (A V = U S exact) and C74_wide (A^T U = V S exact); end to end through decompose, values and values_vectors |
| C75 | Accuracy of every eigenvalue | proved | Eigh, Sort | C29 and Weyl's inequality for eigenvalues, proved from a dimension count | exact real arithmetic; eigenvalues are those of Mathlib (IsHermitian.eigenvalues₀); C75_semidefinite_total adds termination |
| C76 | Accuracy of every singular value | proved | Svd, Sort | C73, C35, C36, C40 and Weyl's inequality for singular values | exact real arithmetic; singular values are those of Mathlib (LinearMap.singularValues); C76_numerical_rank: values beyond the rank |
| C77 | Everything the eigenpair iterator yields is one orthonormal family of distinct eigenpairs | proved | `callNext` (repeated `TruncatedEigIterator.next`), `stackCols` | invariant: the constraint matrix is orthonormal before every call, by C45 (block orthonormal) and C46 (block orthogonal to the constraints); `OrthonormalList` is stated on lists of vectors; distinct eigenvalues by a nearby matrix for which the pairs are exact (`matched_eigenvalues`) and Weyl's inequality | exact arithmetic; exact eigensolver for the small problems and Gram matrices with no eigenvalue below 1e-10, as in C45 (with `eigh_into` itself see C45_error_bound and C45_eigh) |
| C78 | The settings of TruncatedEig and TruncatedSvd do what they say | proved | `TruncatedEig.new`, `withPrecision`, `withMaxiter`, `orthogonalTo`, `preconditionWith`, `Arr2.assign`, `TruncatedEig.decompose`, `TruncatedSvd.new`, its setters and `decompose` | induction over the chain of setters; `ControlledRun` states on true residuals what a run achieves, from C42, C43, C44 and C49; panic freedom from C56 | the guarantees on residuals are in exact arithmetic; panic freedom is up to termination of eigh on the small problems; the precision is modelled after its conversion to the scalar type |
| C79 | The QR decomposition is backward stable in floating point | proved | `reflectionAxisMut`, `reflectCols`, `clearColumn`, `assembleQ`, `qrInto`, `QRDecomp.generateQ`, `intoR`, run on `Rnd R` | each stored axis is an exact unit axis with relative errors (`reflectionAxisMut_rnd`), so each step is an exact reflection plus a small error (`clearColumn_rnd`, `HouseNear.bound`); errors accumulate by induction (`qrInto_rnd`, `assembleQ_rnd`) | standard model of floating-point arithmetic: no overflow and no underflow; sums are accumulated from the left |
| C80 | QR solve, least squares and inverse are backward stable in floating point | proved | `QRDecomp.qtMul`, `solveInto`, `inverse`, `isInvertible`, `leastSquares` on `Rnd R` | `QRNear.qtMul` and the backward error of the triangular solve (C65), combined into a perturbation of A; Pythagoras for the minimiser; a zero on the diagonal of R gives a null vector of A + D | standard model, as C79 |
| C81 | The minimum norm solution is stable in floating point | proved | `QRDecomp.solveTrInto`, `leastSquares` on `Rnd R` | triangular solve (C65) with the transposed factor, `assembleQ_rnd` and a rounded matrix product (`dotTo_products`) | standard model, as C79 |
| C82 | The bidiagonal decomposition is backward stable in floating point | proved | `bidiagTall`, `bidiagonal`, `BidiagonalDecomp.generateU`, `generateVt`, `intoB`, run on `Rnd R` | invariant of the loop with exact reflections behind the stored axes (`BidNear`), each `clear_column` and `clear_row` adding a relative error (`ClearNear.bound`); wide matrices by transposition; singular values by Weyl's inequality | standard model, as C79 |
| C83 | The tridiagonal reduction is backward stable in floating point | proved | `tridiagStep`, `symTridiagonal`, `TridiagonalDecomp.generateQ`, `intoTridiagMatrix`, run on `Rnd R` | the matrix is split into symmetric and skew-symmetric part (`TriStepNear.parts`): a step applies the exact reflection to the former and keeps the latter, both up to a relative rounding error; the invariant `TriNear` adds these up; eigenvalues by Weyl's inequality | standard model, as C79 |
| C84 | The eigenvalues of eigh and eigvalsh are backward stable in floating point | proved | `symmetricEig`, `eigh`, `eigvalsh`, `sortEigVals`, run on `Rnd R` | the invariant `SimQ`: the tridiagonal matrix in the state is orthogonally similar to a matrix near `A`. Every rotation of the sweep with bulge, every 2 x 2 solution and every deflation keeps it, at the price of a factor of the error constant; the eigenvectors stay near an orthogonal matrix; single eigenvalues by Weyl's inequality | standard model, as C79; termination is not part of the claim, the bound grows with the number of iterations |
| C85 | The vectors of eigh are eigenvectors up to rounding errors | partial | `eigh` on `Rnd R` and on `Rnd StdModel.double`; `EigVisits`, the states the main loop goes through | `C85_false`: the run on `[[-1, 3u], [3u, 5/16 + u]]` is evaluated operation by operation. The `_partial` theorems: the joint invariant `SimQ` relates the tridiagonal matrix and the eigenvector matrix in the state to one orthogonal matrix; sweeps and deflations keep it, and so does a 2 x 2 block `[[x, o], [o, y]]` when `y - x <= K \|o\|` | false as stated (`C85_false`), proved for the runs whose 2 x 2 blocks satisfy `y - x <= K \|o\|` |
| C86 | Singular values computed without factors are backward stable in floating point | proved | `svdGo`, `svd`, `bidiagonal`, `sortSvd`, run on `Rnd R` | the invariant `SvdQ`: the bidiagonal matrix in the state is orthogonally equivalent to a matrix near `A`. Each rotation of a sweep or of a cancellation, each deflation, and each 2 x 2 block keeps it at the price of one error factor; the count of operations is bounded by the iterations; single values by Weyl's inequality | standard model, as C79; termination is not part of the claim, the bound grows with the number of iterations |
| C87 | Requesting factors does not change the accuracy of the singular values | partial | `svd` on `Rnd StdModel.double` and on `Rnd R`; `SvdVisits`, the states the main loop goes through | `C87_false`: the run on `[[3/4, 1], [0, 25/2^54]]` is evaluated operation by operation, and compared with C86 on the same matrix. The `_partial` theorems: forward analysis of `compute_2x2_uptrig_svd` on blocks that are `UptrigGood K` (the two rotations diagonalise the block up to 500 K^2 gamma), then the invariant of C86 with `210 K^2` further operations per step | false as stated (`C87_false`); proved when `min(m, n) = 1` and on the runs whose 2 x 2 blocks are `UptrigGood K` (condition number at most about K, first rotation well determined) |
| C88 | The factors of svd are orthonormal up to rounding errors | proved | `svd` on `Rnd R` | the part of the invariant `SvdQ` about the factors: they stay within a bounded distance of matrices with orthonormal columns | standard model, as C79 |
| C89 | eigh does not return on every symmetric matrix | proved | Eigh, Givens, Tridiagonal | on matrices with the eigenvalues 1, 0, -1 a step of the loop is an explicit map of the plane (weights of the eigenvectors in the last coordinate); it stretches a strip across itself, so on every path across the strip some point stays in it for ever (nested intervals), and nothing is deflated in the strip | exact real arithmetic; the matrix is obtained as a limit, its entries are not explicit; nothing is claimed about floating point, where underflow and rounding interfere |
| C90 | Householder reductions go wrong when squares underflow | proved | Householder, Tridiagonal, Eigh, Qr over Flt Rounding.binary64 | the runs are evaluated operation by operation with exact rounding lemmas: the axis for the column 3/4 * 2^-537 gets the length 7/8; for the third part every product in every summation plan is rounded to a zero, so no axis is found | IEEE binary64 with gradual underflow; the backward-stability results C79-C88 assume no underflow. The first two parts sum inner products as ndarray does (one term only), the third holds for every order; C90_lost_column_format holds for every IEEE 754 format (in f32 from 2^-75 down) |
| C91 | solvec consumes its matrix | proved | Cholesky, Triangular | case analysis of the calls over every scalar type; the second call reads only the lower triangle (C10, C04), so C13 applies to L + Lt - diag L | the side effect is documented in the source, the second call is a trap for callers |
| C92 | A NaN in the input reaches the answer | proved | Triangular, Cholesky, Householder, Qr, Tridiagonal, Eigh, Norm over Flt R | the closed forms and loop invariants of the generic proofs, with a predicate that every operation preserves (NanLike); the 2x2 blocks of eigh cannot contain a NaN because their eigenvalues were computed | for svd the corresponding result is C39: it does not return at all |
| C93 | An infinite entry makes eigh and svd useless | proved | Householder, Tridiagonal, Bidiagonal, Eigh, Svd over Flt R | the fold of the largest absolute value keeps an infinity (NaNs are never taken); finite/inf = 0 and inf/inf = NaN; then the NaN invariants of C39 and C92, applied to the scaled matrix | every rounding; nothing is assumed about the other entries |
| C94 | qr loses a column whose squares overflow | proved | Householder, Qr, Triangular over Flt binary64 | the sum of squares is infinite in every summation plan, hence the axis is inf/inf or x/inf with a NaN in every later product; NaN invariants of C92 | IEEE double precision with any summation order; for eigh and svd the scaling by the largest entry prevents this overflow; the theorems ending in _format hold for every IEEE 754 format, f32 included (there from 2^64 on) |
| C95 | Triangular solves with overflow and underflow | proved | Triangular over Flt R | invariant of column-oriented substitution with one factor near one per entry and an absolute error per row; finiteness of the result propagates backwards through every operation | Flt R with Rounding.Accurate (binary64 with any summation order is an instance, b64_accurate); beside it C95_underflow, where the absolute term is attained |
| C96 | Cholesky factors with overflow and underflow | proved | Cholesky over Flt R | error analysis of one inner product per entry; a finite pivot forces a finite row; an infinite sum of squares makes the pivot minus infinity, which is rejected, so only a NaN can pass; the counterexample is evaluated operation by operation | Flt R with Rounding.Accurate; the part on NaN: binary64; beside it exDblSpd_finite, a matrix of doubles that meets the hypotheses; C96_nan_or_finite_format: every IEEE 754 format |
| C97 | solvec with overflow and underflow | proved | Cholesky, Triangular over Flt R | C96 and C95 twice; the solves read the lower triangle only (C04) | Flt R with Rounding.Accurate; beside it exDblSpd_finite, a system of doubles solved to a finite answer |
| C98 | Norms with overflow and underflow | proved | Norm over Flt R | a sum of non-negative floats is the exact sum times a factor near one plus an absolute error; Hölder continuity of the square root; the limits are evaluated operation by operation | Flt R with Rounding.Accurate; the unscaled sum of squares is why norm_l2 loses tiny arrays and overflows early; beside it the norms of (-3, 4) in doubles; overflow and underflow for every IEEE 754 format in the theorems ending in _format |
| C99 | svd of the transpose | proved | Bidiagonal, Svd | the run on the transpose is coupled with the run on the matrix, exchanging the two factors (Proofs/SvdTranspose) | non-square matrices only: a square matrix and its transpose are both reduced to upper bidiagonal form, so the runs differ; memory layout of the transposed view not modelled |
| C100 | Cholesky of a leading block | proved | Cholesky | row by row characterization of the factor in every arithmetic (CholLB) and induction on the rows |  |
| C101 | QR of the first columns | proved | Householder, Reflection, Qr | a step changes column j by the earlier reflections only; the run on the block is coupled with the first k steps, the remaining steps do not touch these columns (Proofs/Blocks) |  |
| C102 | Right-hand sides are solved column by column | proved | Cholesky, Triangular, Qr, LeastSquares | coupling of the two runs through all loops, columns tied by the selection (Proofs/Blocks) | solve_tr and generate_q use dot products whose summation order the model takes from the scalar type alone, not from the shape of the operands |
| C103 | A positive factor of the matrix | proved | EighAlg, Svd | the scaled matrix decides the run up to the last factor; comparison, maximum and quotient of floats do not see a common factor; rounding to 53 bits commutes with powers of two | the zero matrix is excluded; in double precision the numbers w i of the model must carry non-negative magnitudes (Proper) |
| C104 | Sums of the eigenvalues and of the squares | proved | symmetricEig, eigh, eigvalsh, svd over the reals; eigvalsh over Rnd for the rounded version | the invariant of the iteration (Proofs/EighReal.lean, EigApx) also keeps the trace of the tridiagonal matrix: similarity transformations keep it, and only off-diagonal entries are dropped. The norm of the tridiagonal or bidiagonal matrix never grows. The lower bounds follow from the residual (C30, C35), the rounded version from C84. |  |
| C105 | NaN eigenvalues of finite matrices | proved | symmetricEig, eigh, eigvalsh, sortedEig over Flt Rounding.binary64 | the run is evaluated operation by operation for a symbolic exponent k: every number in it is a signed power of two or a signed zero, and Proofs/PowerFloat.lean gives the rounded result of each operation on such numbers under linear conditions on the exponents | a finding about the code: finite input, NaN output without an error. Correctly rounded hypot; inner products summed as ndarray does |
| C106 | Start blocks that span an invariant subspace | proved | lobpcgRun, TruncatedEig.decompose, TruncatedSvd.decompose, TruncatedSvdResult.valuesVectors over the reals | the first iterate is X0 C with orthonormal columns, so A X = X (XᵀAX) if the span of X0 is invariant, and the residual is X times the error of the small eigenproblem; then no pair is active (C49), no further iterate exists (C63) and the loop ends normally. The singular values follow with C55 and C74; what the cut-off drops is counted with the trace | the eigensolver is a hypothesis (exact, or with relative error eta); the library's eigh meets it for blocks of one or two vectors (C30), and C30's counterexample shows that it does not for larger ones |
| C107 | Signs of the vectors in sorted_eig | proved | sortedEig with generalizedEig, over the reals and over IEEE-like scalars | the sort permutation depends on the values only and is unique; flipping both sign bits does not change the product with signum; two exact solutions differ by a signed permutation because QᵀBQ' commutes with the eigenvalues | for the generalized problem the exact statement assumes that the threshold 1e-10 of generalized_eig has no effect |
| C108 | Ascending and descending sorts | proved | sortEigValsAsc/Desc, sortEigAsc/Desc, sortSvdAsc/Desc on top of sortEigVals, sortEig and sortSvd | a stable sort permutation is unique, and the reversed one is a stable sort for the other order when there are no ties; for real values the sorted rearrangement is unique |  |
| C109 | Results depend on the entries inside the arrays only | proved | all modules | parametricity: a relation between two runs that is preserved by every operation is preserved by every function (`Proofs/Param*`), used with equality | every scalar type; C109_direct, C109_spectral, C109_lobpcg, C109_truncated |
| C110 | Floats of a format lead to floats of the format | proved | all modules with `Flt (ieee F)` | the same parametricity theorems, used with `equal and a number of the format`; the rounding function yields numbers k 2^e with k < 2^(mant+1) and emin <= e | every binary format, with the dot product of ndarray; f32 and f64 are instances |
| C111 | The main loops on floats end within an explicit number of iterations or never | proved | Eigh, Svd with `Flt (ieee F)` | the numbers of a format have finitely many codes, so a state comes back within the bound; states with the same code continue alike by parametricity | says nothing about whether the loops end; see C39, C70-C73, C89, C93 |
| C112 | Exact arithmetic returns constructible numbers only | proved | all modules with ℝ | parametricity with `equal and constructible`; a tower of quadratic extensions gives degree a power of two, Eisenstein/irreducibility gives a matrix | example: [[4,1,0],[1,2,1],[0,1,2]], for which eigvalsh returns |
| C113 | Accuracy of the direct solvers and norms with the constants of f32 and f64 | proved | Triangular, Cholesky, Norm with `Flt (ieee F)` | the rounding of a format has relative error 2^(-mant-1) and absolute error 2^(emin-1), put into C95-C98 | non-vacuous cases in f32 are computed in the file |
| C114 | Different routes to the solution of a linear system agree | proved | Cholesky, Qr, Triangular over the reals | uniqueness of the solution, of the least squares solution and of the minimum norm solution (C03, C13, C14, C19-C21) |  |
| C115 | Values computed for related matrices: nearby, ordered, submatrices | proved | Eigh, Svd, Sort over the reals; Rnd for the rounded versions | C75, C76, C84, C86 with Weyl, Cauchy interlacing and Poincare separation proved from a dimension count (Proofs/Perturb.lean) |  |
| C116 | The decompositions of one matrix are consistent | proved | Cholesky, Qr, Eigh, Svd, Sort over the reals | C08, C16, C75, C76; uniqueness of orthogonal diagonalizations, charpoly(AB) = charpoly(BA) | C99 has the transpose of matrices that are not square, without error |
| C117 | Diagonal matrices | proved | Householder, Tridiagonal, Bidiagonal, Eigh, Svd, Cholesky, Qr over the reals and in the standard model of floating-point arithmetic | every reflection meets a column that is zero below its first entry; invariant of the two reductions; the delimiting loops then reach 0; uniqueness of the triangular factor for cholesky and qr (Proofs/Diagonal.lean); with rounding errors the same path, counting roundings (Proofs/DiagonalRnd.lean) |  |
| C118 | In-place functions on views with arbitrary strides | proved | Memory | each function on memory is related step by step to the function on arrays (Proofs/Memory, Proofs/MemoryFns, Proofs/MemoryEntry): the view holds the array, everything else is framed | owned temporaries stay values; the order in which a dot product is summed is the same for every layout (in ndarray it depends on contiguity), so on floats C118_layout is about one fixed order |
| C119 | orthonormalize with rounding errors | proved | Model/Lobpcg (orthonormalize), Model/Cholesky, Model/Triangular over Spec/Rounded | Cholesky backward error (C66) and success (C69) on the rounded Gram matrix, column-wise backward error of the triangular solve, then QᵀQ − 1 written out through L⁻¹; ‖L⁻¹‖ is bounded through the margin c (Proofs/RoundedOrth) | The standard model of rounding leaves overflow and underflow out. C119_independent_rejected is the counterexample that shows a margin is needed; the factor 24 m² is not claimed to be best. |
| C120 | Givens rotations | proved | Givens over the reals, over Rnd and over Flt (ieee F) | rounding to a format is monotone and exact on its numbers (Proofs/GivensFloat), so \|x\|, \|y\| ≤ r and the quotients are at most 1; relative errors in the normal range | Correctly rounded hypot in the statements about formats; C120_overflow and C120_subnormal are findings about extreme input, which eigh and svd avoid by scaling. |
| C121 | apply_constraints with nearly orthonormal constraints | proved | applyConstraints and cholesky over the reals and over Rnd | a Cholesky factor of a matrix near 1 is near 1 (Proofs/ConstrErr: diagonal through the inverse, then the triangular part of N + N^T = E - N N^T); then norms | Quantifies the defect behind C46: apply_constraints solves with L instead of L L^T. |
| C122 | Forward errors of the solvers | proved | solveTriangular, solvec, invc, QRDecomp.solveInto, inverse, solveTrInto and leastSquares over Rnd | perturbation theory of linear systems, least squares problems and solutions of least length (Proofs/ForwardErr), applied to the backward errors of C65, C67, C80 and C81; success from C69, C80, C81 |  |
| C123 | Rate of convergence of LOBPCG | proved | Lobpcg | the trial space contains the preconditioned residual of every active pair (HasDirections); the gain of one step from Ky Fan's principle on the space of the iterate and that direction (Proofs/Descent); the counts by adding up the gains; linear convergence by Temple's inequality, for blocks by its version for the sum of the Ritz values (block_gap) | exact real arithmetic, exact eigensolver for the small problems, Gram matrices without eigenvalues below 1e-10 |
| C124 | Accuracy of the values of LOBPCG | proved | Lobpcg | Temple's inequality for the sum of the Ritz values (block_gap in Proofs/Descent), and a dimension count for every index (ritz_each); eigenvalues excluded by the constraints belong to vanishing coordinates and are moved out of the way (deflate) | exact real arithmetic, exact eigensolver for the small problems, Gram matrices without eigenvalues below 1e-10 |
| C125 | The scale of the preconditioner and of the start block | proved | Lobpcg, TruncatedEig | uniqueness of the Cholesky factor; the steps before `orthonormalize` are linear; after it the two runs are related by the parametricity of C109 | exact real arithmetic with the library's own eigh_into inside; C125_underflow: IEEE formats |
| C126 | Accuracy of the truncated decompositions | proved | TruncatedEig, TruncatedSvd, Lobpcg | C124 for the Gram matrix, whose norm is at most the square of the largest singular value (gram_bound); C74 for the values being the square roots of the estimates | exact real arithmetic, exact eigensolver for the small problems, Gram matrices without eigenvalues below 1e-10; for Order::Smallest the smaller Gram matrix of the problem must be non-singular |
| C127 | Settings of LOBPCG: iterations, tolerance, precision in f32 | proved | Lobpcg, TruncatedEig, TruncatedSvd, Precision | lockstep induction over the two loops: the update looks neither at the tolerance nor at the iterations left; rounding of squares in single precision | every scalar type; the precision in f32: IEEE formats with ndarray's order of summation |
| C128 | Values and vectors of the truncated SVD in floating point | proved | TruncatedSvdResult.valuesWithIndices, values, valuesVectors; TruncatedSvd.decompose with lobpcgRun and eighInto over Flt (ieee F) | rounding to a format is monotone and exact on its numbers, so the cut-off is at most the largest eigenvalue; the square root of a positive float is in the normal range; the case of the zero matrix is a run evaluated operation by operation (Proofs/FloatOne) | a finding about the code: for Order::Smallest a matrix without full rank gives infinite or NaN vectors without an error. The eigenvalues are arbitrary floats that are not NaN (with a NaN see C54_nan_panics) |
| C129 | Scaling by powers of two is invisible to the direct solvers | proved | cholesky, solvec, invc, solveTriangularSystem, qrInto, QRDecomp, leastSquares, norms | simulation of the run on the scaled data by the run on the original ones, with the factor of every entry of every intermediate array as the invariant; rounding and all orders of summation commute with powers of two (binRound_zpow_mul, DotPlan.rval_scaled) | factors are elements of any group whose action commutes with the operations (structure Scalings); instances: powers of two in a rounding to any number of digits with unbounded exponent (StdModel.double) and in exact arithmetic. With overflow or underflow the claim fails (C120) |
| C130 | LOBPCG does not depend on the orthonormal basis | proved | lobpcgRun with all its parts, TruncatedEig.decompose, TruncatedSvd.decompose, valuesVectors | simulation of one run by the other: blocks of n rows are related by Q, everything else is equal; products of two blocks are equal because QᵀQ = 1, all other operations on blocks are linear in the rows; uniqueness of the Cholesky factor for orthonormalize | exact arithmetic. For a Q with more rows than columns the start must be thin and maxiter at most 10 n, since the code bounds the iterations by ten times the number of rows. With rounding the products of turned columns differ in their last digits |
| C131 | The unit of the matrix does not matter to the truncated solvers | proved | lobpcgRun with all its parts, eighInto, TruncatedEig.decompose, TruncatedSvd.decompose, valuesVectors, TruncatedEigIterator.next | simulation of one run by the other, every array carrying its factor; eigh_into divides by the largest entry and is covariant; the Gram matrices of the generalised problem have no unit, so the floor 1e-10 is never seen to change; the comparison of residual norms with 1e-8 has no effect since explicit Gram matrices are always used | generic over the factors that commute with the arithmetic and are positive; instances are all positive numbers in exact arithmetic and the powers of two in the standard model of double precision with ndarray's order of summation. Overflow and underflow are excluded there. The constraints cannot be multiplied by a factor: the projection of the code is not a projection unless they are orthonormal (C46). C131_iterator is the exception |
| C132 | Another orthonormal basis in the direct methods | proved | qrInto, QRDecomp, leastSquares, cholesky, solvec, invc, eigvalsh, svd, normL2 over the reals | uniqueness: R is the Cholesky factor of the Gram matrix (C22), solutions are those of the normal equations (C114) or of the system (C13, C14, C21); the spectra of A and A' agree, and C75, C76 bound the error of each run | exact arithmetic. V is square except in C132_norm and C132_minimum_norm |
| C133 | Accuracy of the vectors | proved | lobpcgRun, TruncatedEig.decompose, TruncatedEigIterator.next, TruncatedSvd.decompose, TruncatedSvdResult.valuesVectors, eigh, svd over the reals | in an orthonormal eigenbasis the residual multiplies every coordinate by the distance of its eigenvalue; for singular vectors the same with the matrix [[0, A], [Aᵀ, 0]]; the residuals are those of C44, C52, C30, C35 and C74 | exact arithmetic. The pairing of values and vectors of eigh is that of C30, which is not always by position; C133_eigh_large gives a case where it is |
| C134 | Approximation by a matrix of low rank | proved | svd, sortSvd, TruncatedSvd.decompose, TruncatedSvdResult.valuesVectors over the reals | the theorem of Eckart and Young, proved with the projection onto the rows of the competitor (Proofs/LowRank.lean); C34, C35, C40, C74, C126 | exact arithmetic; Frobenius norm. TruncatedSvd with the assumptions of C74 and, for the comparison, C126 |
| C135 | Norm, condition and definiteness read off the values | proved | svd, eigvalsh, cholesky, qrInto, isInvertible, solveInto over the reals and over Rnd R | lengths under the orthogonal factors of the run and its residual (C27, C34, C35, C36; C84, C86), then C09 and C18, C66, C69, C122 | exact arithmetic (the error of a run is svdTol or eigTol) and the standard model of floating-point arithmetic (eigErr, svdErr; svd without factors, since C87 fails with them) |
| C136 | Parts of triangular systems | proved | solveTriangular over any NdFloat | two folds of elimination steps whose rows correspond by a map of indices (elim_fold_map); steps at later rows do not touch earlier ones (elim_fold_keep) | every arithmetic |
| C137 | Solving with the factors of svd | proved | Svd, Qr over ℝ | Penrose's four equations from the orthonormal factors of C34; distance of the truncated product with C35; then the perturbation bounds of least squares and minimum norm solutions from C122 with the smallest value from C135 | exact real arithmetic with the tolerances of the code |
| C138 | The Cholesky factor in parts | proved | Cholesky, Triangular over ℝ | block equations of L Lᵀ, uniqueness of the factor (C12) in one direction, and a factor assembled from the factors of the two parts in the other; the inverse by block elimination; the minimum from xᵀAx = \|Lᵀx\|² | exact real arithmetic |
| C139 | Factors of a product and of stacked rows | proved | Qr, Cholesky over ℝ | R is determined by the Gram matrix (uniqueness of the Cholesky factor), Q by R; stacked rows are an orthonormal matrix times the reduced rows (C132); the solutions from the normal equations | exact real arithmetic |
| C140 | Cholesky decomposition within the range of the float format | proved | Cholesky over Flt (Rounding.ieee F) | induction over the entries in the order of computation: the rows computed so far are finite and reproduce A to 4 γ √(a_rr a_cc), which by the condition on the quadratic form (completed square with the computed rows) keeps the sum of squares of the next row below its diagonal entry; hence no operation overflows and the absolute errors of underflow are below the relative ones | every IEEE 754 format with at least the precision and range of f32, every order of summation; C140_double and C140_single give the numbers for f64 and f32; beside it exWideSpd_ok, a matrix of doubles whose entries span 2000 binary orders of magnitude |
| C141 | Solving symmetric positive definite systems without overflow | proved | Cholesky and both triangular solves over Flt (Rounding.ieee F) | the computed factor L reproduces A to 4 γ √(a_rr a_cc) (C140), hence the perturbed triangular systems of every prefix of the substitutions are well conditioned, which bounds each partial result by a multiple of H³β/γ² (completed square for the forward, quadratic form for the backward solve); induction over the steps: all numbers so far are finite, so the next is; the backward error then follows from C97 and the Cauchy-Schwarz inequality | every IEEE 754 format with at least the precision and range of f32, every order of summation; C141_invc is the inverse; C141_double (t = 180) and C141_single (t = 14) give the numbers for f64 and f32; beside it exSolve_ok, a system of f32 numbers that meets the hypotheses; C141_forward (Props/TriRange) bounds the distance to the exact solution |
| C142 | Orthogonal columns, and eigenvalues that solve an equation | proved | QR, least squares, inverse, svd, eigvalsh and the sorts over ℝ | uniqueness of the triangular factor of the Gram matrix for R, the normal equations for least squares, uniqueness of the diagonalization of the Gram matrix with a permutation for svd (C76), eigenvectors of the exact spectral decomposition and induction over the polynomial for the roots (C75) | exact real arithmetic; the polynomial theorem is conditional on eigvalsh returning (C89 shows it need not), which C70 gives for projections; examples beside the theorems: a 3 x 2 matrix with columns of lengths 5 and 10, and a projection onto a line that is not an axis |
| C143 | Solving triangular systems without overflow | proved | solve_triangular over Flt (Rounding.ieee F), both triangles | the rows solved so far form a system at least as well conditioned as the whole (tri_prefix: the rest of the unknowns can be chosen to solve the remaining equations with zero right-hand side), so the backward error invariant of C95 bounds every partial result; the diagonal is at least the smallest singular value (tri_diag_ge); induction over the steps: all numbers so far are finite, so the next is | every IEEE 754 format with at least the precision and range of f32; C143_double (t = 193) and C143_single (t = 20) give the numbers for f64 and f32; beside it exTri_ok, an f32 triangle with NaN in the unused place that meets the hypotheses; C143_forward bounds the distance to the exact solution |
| C144 | The norms within the range of the float format | proved | normL1, normL2 over Flt (Rounding.ieee F) | induction over the list: partial sums of non-negative numbers stay below the total times (1-u)^(-n) plus the underflow errors, so the next addition is finite; the relative error follows from C98, as the underflow term √(2nη) is at most γ times the norm | converse of C98, which bounds the errors of finite results and shows the overflow and underflow outside this range; C144_norm_l2_double and C144_norm_l2_single give the numbers for f64 and f32; beside it exNorms_ok |
| C145 | Inner products and matrix products within the range of the float format | proved | dotTo, Arr1.dot, Arr2.dot over Flt (Rounding.ieee F) with arbitrary DotPlans | induction over the plan: with K = 1/(1-u), a partial result of cost c over terms with absolute sum A and m products is within (K^c - 1) A + K^c m c η of the exact partial sum, so it is below the range and the next operation is finite | C145_sum is the sum for any order of operations, C145_dot and C145_matmul the two forms of dot; beside it exDot_dot |
| C146 | The axis of a Householder reflection within the range of the float format | proved | reflectionAxisMut over Flt (Rounding.ieee F) with arbitrary DotPlans | C145 gives the sum of squares; then one relative error per operation, as all sums have terms of one sign; the underflow errors are small against the squares by the lower bound; the exact axis is checked against ReflSpec for both signs of a zero first entry | the range between C90 (overflow) and C94 (underflow); C146_double and C146_single give the numbers for f64 and f32; beside it exAxis_ok |
| C147 | Reflecting columns and rows within the range of the float format | proved | reflectCols, reflectRows over Flt (Rounding.ieee F) with arbitrary DotPlans | C145 gives the inner product; then an error bound and a bound of the size after each of the five operations on an entry | bias 0 is the only one the crate uses outside its tests; the axes of C146 meet the condition on the axis; beside it exRefl_ok |
| C148 | Applying Givens rotations within the range of the float format | proved | GivensRotation.rotateRows, rotateCols over Flt (Rounding.ieee F) | the closed form of the loop, then an error bound and a bound of the size after each of the three operations on an entry; rotate_cols through the transpose and the inverse rotation | C120_float shows that the c and s of cancel_y meet the condition; beside it exRot_ok |
| C149 | One Householder step within the range of the float format | proved | clearColumn, clearRow over Flt (Rounding.ieee F) | C146 for the axis, C147 for the reflection along the computed axis, and a perturbation bound between the computed and the exact axis; the sign of the computed norm is that of the exact one | the whole step that qr, bidiagonal and tridiagonal repeat; beside it exClear_ok |
| C150 | A computed Givens rotation keeps lengths in floats | proved | GivensRotation.cancelY, rotateRows over Flt (Rounding.ieee F) | C120_float bounds c^2 + s^2 - 1, C148 the error of each entry; then the triangle inequality for the length | beside it an example in f64 with an entry of 2^1000 |
| C151 | A Householder step keeps lengths in floats | proved | clearColumn over Flt (Rounding.ieee F) | C149 per entry, the exact reflection keeps the length, the triangle inequality by induction over the entries | the bound on the growth per step that a bound for all of qr would use; beside it an example with exClear |
| C152 | The returned norm shows that a Householder step was in range | proved | clearColumn, reflectionAxisMut over Flt (Rounding.ieee F) | by contradiction: C145 bounds the inner product from above also for small columns, hence the root and the norm | an a posteriori check, for instance on the diagonal that qr returns; beside it an example with exClear |
| C153 | The QR factorisation is finite within the range of the float format | proved | qrInto, clearColumn over Flt (Rounding.ieee F) | induction over the steps: C152 shows that the step was in range, C149 that what it wrote is finite, C151 how much the other columns grew | the condition on the diagonal is on the result, so it can be checked afterwards; beside it exQr_ok, which meets it |
| C154 | Backward error of the QR factorisation within the range of the float format | proved | qrInto, clearColumn, QRDecomp.intoR over Flt (Rounding.ieee F) | induction over the steps: C149 bounds the distance of each step from an exact reflection, which keeps the length of the error so far | Q is the exact product of the reflections along the exact axes of the computed columns, not the computed Q; beside it exQrBackward_ok, which meets all conditions |
<!-- end of table -->

## Modelled and not modelled

All of `cholesky.rs, triangular.rs, reflection.rs, householder.rs, qr.rs, tridiagonal.rs, bidiagonal.rs,
givens.rs, eigh.rs, svd.rs, norm.rs, index.rs, lobpcg/*.rs` that computes something is modelled. Not modelled:

* Memory layout, strides and aliasing outside of the functions which C118 lists. Those are modelled twice: on
  entries, which all other properties are about, and on strided views of a memory (`Model/Memory.lean`); C118 shows
  that the two agree. Functions that only read, or that allocate what they return, exist on entries only.
* Allocation, performance and `ndarray`'s own implementation (its operations are modelled by their documented
  meaning; elementwise writes visit the entries in an arbitrary order in `Model/Memory.lean`).
* The dependence of the order of summation in `dot` on contiguity: one order (any plan, see `DotPlan`) per run.
* Broadcasting of axes of length one in `+`, `-`, `*` (the model panics instead; C56 shows it does not happen).
* By-value, by-reference and in-place entry points which differ only by cloning share one definition.
* `Clone`, `Debug`, error messages, serde, the `From<ShapeError>` conversion.
* The precision field (`f32`) of the truncated solvers is modelled after its conversion to the scalar type; its conversion,
  and the square in `f32` which `TruncatedSvd` takes before, are in `Model/Precision.lean` (C127).
* Fused or reordered operations outside of inner products (inside them see `DotPlan` above).

Not expressible or left open: global convergence of the shifted QR iterations on general matrices
(termination is stated per run, see C39; in exact arithmetic C73 settles `svd`, for `eigh` see C70 and C71), convergence of LOBPCG with rounding errors (in exact arithmetic see C123, C124 and C126),
quality of the random start.

## Trusted base

* Lean's kernel, and the axioms `propext`, `Classical.choice`, `Quot.sound`; every property theorem depends
  on a subset of these three. No own axioms, `sorry`, `native_decide` or `bv_decide`.
* The reading of `/repo` that produced the model, including the meaning given to `ndarray` operations and
  to `num_traits::Float` functions in `NdFloat`'s instances.
* For IEEE statements: that the target's arithmetic is an instance of `Flt R` respectively of the standard
  model.

## Testing the theorems

`seeded/LOG.jsonl` lists the wrong programs tried: the model is edited in a scratch copy, every proof that
breaks is cut, and the property theorems that then depend on a cut proof are listed. A property whose
claim is false of the edited program must be among them.

What the list does not show: a theorem is listed as failed as soon as a proof it rests on no longer
compiles. That its statement is false of the edited program is argued only for the properties under
`breaks`; a listed theorem outside `breaks` may still be true and only need another proof. For the same
reason a property under `breaks` can be listed because a lemma broke, not because its statement is tight;
`proofs_cut_directly` names the proofs that broke first.

## Testing the model

`tools/simulate.py` runs the project's tests on the model, with Lean's 64-bit `Float` as scalar type and
the generator the tests use (xoshiro256+). It is a check of the reading of `/repo`, not a proof, and not part
of the build. All its tests pass. Inputs, expected values and tolerances are copied by hand from the source.

* Covered: 50 of the 51 unit tests in `/repo/src`, some merged under one name.
* Covered in part: the randomised tests in `/repo/tests`, with 40 instead of 1000 cases each and without the
  memory layouts of `tests/common.rs`, which this level of the model does not have.
* Not run: `test_marchenko_pastur` (1000 x 500, too slow), `known_failure` in `tests/triangular.rs`, and the
  `f32` tests (there is no 32-bit instance).
* `hypot` is computed by a scaled square root, and matrix products are summed from left to right; the last
  bits can differ from those of the compiled program.
