{
 "C01": {
  "note": "every scalar type, every shape",
  "model": "Triangular",
  "how": "loop invariant: processed rows are done, the others untouched"
 },
 "C02": {
  "note": "every scalar type; the second theorem assumes is_zero(0) = true of the scalar type",
  "model": "Triangular",
  "how": "the scan is a `List.all` over exactly the other triangle"
 },
 "C03": {
  "note": "exact real arithmetic",
  "model": "Triangular",
  "how": "invariant of column-oriented substitution; uniqueness from the non-zero diagonal"
 },
 "C04": {
  "note": "every scalar type",
  "model": "Triangular",
  "how": "relational induction over the loop: two runs stay in lockstep"
 },
 "C05": {
  "note": "every scalar type",
  "model": "Triangular",
  "how": "relational induction over columns"
 },
 "C06": {
  "note": "every scalar type",
  "model": "Triangular",
  "how": "total-correctness rule for the loops"
 },
 "C07": {
  "note": "every scalar type; triangular.rs and cholesky.rs",
  "model": "Triangular, Cholesky",
  "how": "total-correctness rule: `oob` and `panic` are unreachable"
 },
 "C08": {
  "note": "exact real arithmetic",
  "model": "Cholesky",
  "how": "invariant: the leading rows hold the factor"
 },
 "C09": {
  "note": "exact real arithmetic",
  "model": "Cholesky",
  "how": "Schur complement / leading minors; both directions"
 },
 "C10": {
  "note": "every scalar type, also on failure",
  "model": "Cholesky",
  "how": "relational induction; frame invariant for the upper triangle"
 },
 "C11": {
  "note": "every scalar type; by-value/by-reference wrappers share one model definition",
  "model": "Cholesky",
  "how": "same loop, different epilogue"
 },
 "C12": {
  "note": "exact real arithmetic",
  "model": "Cholesky",
  "how": "uniqueness of the factor by induction on columns"
 },
 "C13": {
  "note": "exact real arithmetic; error table for every scalar type",
  "model": "Cholesky, Triangular",
  "how": "C03 twice and C08/C09"
 },
 "C14": {
  "note": "exact real arithmetic",
  "model": "Cholesky",
  "how": "C13 with B = 1"
 },
 "C15": {
  "note": "exact real arithmetic",
  "model": "Householder",
  "how": "pointwise algebra, isometry"
 },
 "C16": {
  "note": "exact real arithmetic; rank-deficient and empty matrices included",
  "model": "Householder, Qr",
  "how": "invariant: product of signed Householder matrices; rank deficiency via zero norm case"
 },
 "C17": {
  "note": "every scalar type; also all methods of the decomposition",
  "model": "Qr",
  "how": "total-correctness rule"
 },
 "C18": {
  "note": "exact real arithmetic",
  "model": "Qr",
  "how": "R has the rank of A; diagonal test"
 },
 "C19": {
  "note": "exact real arithmetic",
  "model": "Qr",
  "how": "normal equations from C16 and C03"
 },
 "C20": {
  "note": "exact real arithmetic",
  "model": "Qr",
  "how": "minimum norm from orthogonality to the kernel"
 },
 "C21": {
  "note": "exact real arithmetic",
  "model": "Qr",
  "how": "C19 with B = 1"
 },
 "C22": {
  "note": "exact real arithmetic",
  "model": "Qr, Cholesky",
  "how": "C12 for R^T"
 },
 "C23": {
  "note": "exact real arithmetic",
  "model": "Tridiagonal, Householder",
  "how": "two-sided product invariant"
 },
 "C24": {
  "note": "every scalar type",
  "model": "Tridiagonal",
  "how": "total-correctness rule"
 },
 "C25": {
  "note": "exact real arithmetic; any non-empty shape",
  "model": "Bidiagonal, Householder",
  "how": "two-sided product invariant; wide case by transposition"
 },
 "C26": {
  "note": "every scalar type",
  "model": "Bidiagonal",
  "how": "total-correctness rule"
 },
 "C27": {
  "note": "every scalar type, every number of iterations",
  "model": "Eigh",
  "how": "relational induction over the number of iterations"
 },
 "C28": {
  "note": "exact real arithmetic, every number of iterations",
  "model": "Eigh, Givens",
  "how": "invariant: Q stays orthogonal"
 },
 "C29": {
  "note": "exact real arithmetic, every number of iterations; eigenvalues as roots of the characteristic polynomial",
  "model": "Eigh, Givens",
  "how": "invariant: orthogonal similarity up to an error budget counted in deflated entries"
 },
 "C30": {
  "status": "partial",
  "note": "false of the code: counterexample proved for a 3 x 3 matrix (rotation of a 2 x 2 block skipped when its norm is <= eps, eigh.rs:111-121). Proved: the property for n <= 2; for all n up to exchanges of neighbouring values whose absolute values add up to at most (1 + 2 eps) max|a_ij|; hence for every value above (1 + 2 eps) max|a_ij| and whenever no two values are that small",
  "model": "Eigh, Givens",
  "how": "as C29 with a permutation in the invariant, and for every moved index the bound `Swaps` on the two values; for n = 2 the skipped block is shown to be the whole matrix, which is then within eps of diagonal after scaling; counterexample by running the model"
 },
 "C31": {
  "note": "every scalar type, every number of iterations",
  "model": "Eigh",
  "how": "index invariants over the loop"
 },
 "C32": {
  "note": "IEEE-like scalars with an arbitrary rounding of magnitudes (binary64 is an instance); every matrix, every iteration count",
  "model": "Eigh with `Flt R`",
  "how": "deflation test true only on finite inputs; the discriminant is a sum of non-negative roundings"
 },
 "C33": {
  "note": "Every scalar type with a lawful `<=`; the `sort_eig` panic on NaN is characterised too.",
  "model": "Sort",
  "how": "stable insertion sort is a sorted, stable permutation"
 },
 "C34": {
  "note": "exact real arithmetic; every iteration count",
  "model": "Svd, Bidiagonal, Givens",
  "how": "invariant over delimit, cancel, sweep and 2 x 2 steps"
 },
 "C35": {
  "note": "exact real arithmetic; every iteration count",
  "model": "Svd, Bidiagonal, Givens",
  "how": "invariant `A ~ U B Vt` with an error budget counting entries set to zero"
 },
 "C36": {
  "note": "exact real arithmetic for all flags; every scalar arithmetic when at least one factor is requested",
  "model": "Svd",
  "how": "relational induction; the 2 x 2 step computes the same values with and without vectors in exact arithmetic"
 },
 "C37": {
  "note": "every scalar type, every iteration count",
  "model": "Svd",
  "how": "index invariants over the loop"
 },
 "C38": {
  "status": "partial",
  "note": "false as stated: C38_sign_fix_false proves the negation (the source multiplies by -A::zero()); C38_sign_fix_partial says exactly what the loop does and when the claim holds; by C34/C35 the loop is inactive in exact arithmetic",
  "model": "Svd (`fixSigns`)",
  "how": "symbolic run of the final loop; negation by a concrete value"
 },
 "C39": {
  "status": "partial",
  "note": "false as stated: C39_svd_terminates_false and C39_svd_nan_forever prove that svd never returns on a NaN in the first line of a matrix with min(rows, cols) >= 3; C39_svd_terminates_false_no_nan: false also for matrices without NaN, because of infinities (C93). C39_svd_terminates_partial: returns for min(rows, cols) <= 2 in every arithmetic. For exact real arithmetic C73 proves termination on every matrix. Missing: termination for larger matrices with finite entries in floating point",
  "model": "Svd with `Flt R`",
  "how": "NaN propagates to every entry of the band and no test ever succeeds: invariant for every fuel"
 },
 "C40": {
  "note": "Every scalar type with a lawful `<=`; the product statement is over the reals.",
  "model": "Sort",
  "how": "as C33 for both factors"
 },
 "C41": {
  "note": "Exact real arithmetic.",
  "model": "Norm",
  "how": "Finset inequalities (Minkowski from Cauchy-Schwarz)"
 },
 "C42": {
  "note": "every scalar type with a lawful order on non-NaN values; every operator and eigensolver",
  "model": "Lobpcg",
  "how": "invariant over the loop with ghost history"
 },
 "C43": {
  "note": "every scalar type",
  "model": "Lobpcg",
  "how": "fuel is never exhausted; the call counter bounds operator calls"
 },
 "C44": {
  "note": "exact real arithmetic; any operator that is a matrix product, any eigensolver for the small problems",
  "model": "Lobpcg",
  "how": "invariant `AX = A X` through every update"
 },
 "C45": {
  "status": "partial",
  "note": "proved for an exact eigensolver of the small problems and well conditioned Gram matrices (C45_orthonormal_partial, C45_returned_partial); with an eigensolver of given error the deviation is bounded (C45_error_bound). With eigh_into: within 2^-50 s^2 as long as the Gram matrix of the s basis vectors is within 1/4 of the identity (C45_eigh_close), more generally unless two of its eigenvalues add up to no more than its largest entry (C45_eigh_separated); a coarser bound without that (C45_eigh). Missing: Gram matrices with two small eigenvalues, whose values eigh_into may pair with the wrong vectors (C30)",
  "model": "Lobpcg",
  "how": "invariant `X^T X = 1`: Rayleigh-Ritz with respect to the Gram matrix"
 },
 "C46": {
  "status": "partial",
  "note": "false as stated: C46_false is a run that returns an eigenvector not orthogonal to the constraint; C46_applyConstraints_iff: apply_constraints projects iff Y^T Y = 1; C46_constraints_partial: proved for orthonormal Y, all iterations",
  "model": "Lobpcg",
  "how": "invariant `Y^T X = 0`; counterexample run"
 },
 "C47": {
  "status": "partial",
  "note": "false as stated: C47_exhausted_is_ok (every run that uses up its iterations returns Ok) and C47_false (a run); C47_converged_partial is what holds",
  "model": "Lobpcg",
  "how": "symbolic run with maxiter = 0"
 },
 "C48": {
  "note": "every scalar type",
  "model": "Lobpcg",
  "how": "shape invariant"
 },
 "C49": {
  "note": "every scalar type",
  "model": "Lobpcg",
  "how": "mask is antitone along the history"
 },
 "C50": {
  "note": "exact real arithmetic",
  "model": "Lobpcg, Cholesky",
  "how": "C08/C09 for the Gram matrix, C03"
 },
 "C51": {
  "note": "every scalar type, every history of calls; beside it identity_next, a concrete call",
  "model": "TruncatedEig",
  "how": "induction over histories of `next` calls"
 },
 "C52": {
  "note": "every scalar type; for scalars with NaN the guarantee is `not (norm > 0.1)`",
  "model": "TruncatedEig",
  "how": "case analysis of `next`, every state"
 },
 "C53": {
  "status": "partial",
  "note": "false for Order::Largest: C53_values_panics proves that values() of the empty solution panics, for every scalar type; everything else in C53_decompose_zero_partial",
  "model": "TruncatedEig, TruncatedSvd",
  "how": "evaluation"
 },
 "C54": {
  "note": "every scalar type with a lawful `<=` for what is kept and in which order; positivity in exact real arithmetic; NaN panics characterised",
  "model": "TruncatedSvd, Sort",
  "how": "sortedness and permutation of the stable sort, filter"
 },
 "C55": {
  "note": "exact real arithmetic; both orders, tall and wide",
  "model": "TruncatedSvd",
  "how": "algebra with exact eigenpairs of the Gram matrix"
 },
 "C56": {
  "note": "exact real arithmetic; the panic with zero columns for every scalar type; beside the theorems a concrete instance",
  "model": "Lobpcg",
  "how": "total-correctness rule with a shape invariant"
 },
 "C57": {
  "note": "exact real arithmetic, exact eigensolver for the small problems",
  "model": "Lobpcg",
  "how": "invariant `X^T A X = diag(lambda)` from the projected problem"
 },
 "C58": {
  "note": "exact real arithmetic, exact eigensolver for the small problems",
  "model": "Lobpcg",
  "how": "Courant-Fischer on nested trial spaces (Proofs/Ritz)"
 },
 "C59": {
  "note": "exact real arithmetic, exact eigensolver for the small problems",
  "model": "Lobpcg",
  "how": "Cauchy interlacing (Proofs/Ritz)"
 },
 "C60": {
  "note": "exact real arithmetic, any eigensolver for the small problems",
  "model": "Lobpcg, TruncatedEig",
  "how": "residual bound for symmetric matrices through the spectral theorem"
 },
 "C61": {
  "note": "exact real arithmetic, any total eigensolver for the small problems",
  "model": "Lobpcg",
  "how": "error classification over every step"
 },
 "C62": {
  "note": "exact real arithmetic, exact eigensolver for the small problems; concrete runs strict_run and plane_run",
  "model": "Lobpcg",
  "how": "breakdown implies dependence of the projected residuals; R is orthogonal to X"
 },
 "C63": {
  "note": "exact real arithmetic; concrete run plane_run",
  "model": "Lobpcg",
  "how": "dimension count on an orthonormal family"
 },
 "C64": {
  "note": "exact real arithmetic, any eigensolver for the small problems; concrete run axis_run",
  "model": "Lobpcg",
  "how": "invariant: all columns in the subspace"
 },
 "C65": {
  "note": "standard model of floating-point arithmetic: relative error u per operation, no overflow, underflow or NaN",
  "model": "Triangular over Rnd R",
  "how": "invariant of the elimination with products of (1+d) factors (Near)"
 },
 "C66": {
  "note": "standard model of floating-point arithmetic: relative error u per operation, no overflow, underflow or NaN",
  "model": "Cholesky over Rnd R",
  "how": "the equations each entry solves, with Near factors; Cauchy-Schwarz for the second bound"
 },
 "C67": {
  "note": "standard model of floating-point arithmetic: relative error u per operation, no overflow, underflow or NaN",
  "model": "Cholesky, Triangular over Rnd R",
  "how": "C66 and twice C65"
 },
 "C68": {
  "note": "standard model of floating-point arithmetic: relative error u per operation, no overflow, underflow or NaN",
  "model": "Norm over Rnd R",
  "how": "induction over the list with Near factors"
 },
 "C69": {
  "note": "standard model of floating-point arithmetic: relative error u per operation, no overflow, underflow or NaN; the constant 2n is not sharp",
  "model": "Cholesky over Rnd R",
  "how": "a rejected pivot gives a direction in which the quadratic form is small"
 },
 "C70": {
  "note": "exact real arithmetic; C70_eigh_terminates: every semidefinite matrix; C70_eigh_iterations: explicit bound for definite ones",
  "model": "Eigh, Givens",
  "how": "every sweep is a QR step with Wilkinson's shift and halves (b1^2 b2)^2 of the last two off-diagonal entries (Hoffman-Parlett); the deflation threshold stays above a positive constant because the form has positive trace on pairs of orthonormal vectors of an unreduced segment (compactness)"
 },
 "C71": {
  "note": "exact real arithmetic; the condition excludes matrices that are singular to working precision, for which the relative deflation threshold can shrink with the entry it is compared to; C89 shows that it cannot be dropped",
  "model": "Eigh, Givens",
  "how": "as C70; the last diagonal entry is bounded below through the error budget of C29"
 },
 "C72": {
  "note": "exact real arithmetic",
  "model": "`wilkinsonShift`",
  "how": "algebra"
 },
 "C73": {
  "note": "exact real arithmetic; C73_svd_terminates: all flags, explicit iteration bound svdFuel; C73_svd_total: total correctness",
  "model": "Svd, Givens",
  "how": "every sweep on an upper bidiagonal B is a QR step with Wilkinson's shift on B^T B and halves the potential (as in C70); entries of a block are above eps and 2 eps^2 after delimiting; lexicographic measure on (end, end - start, log of the potential)"
 },
 "C74": {
  "note": "exact arithmetic, EigWithin 0, Gram matrices above gramFloor; C74_tall (A V = U S exact) and C74_wide (A^T U = V S exact); end to end through decompose, values and values_vectors",
  "model": "TruncatedSvd, Lobpcg",
  "how": "C45, C57, C59 for the Gram operator; values already in order are a prefix after sorting and filtering; residual bound for the eigenvalue; square roots"
 },
 "C75": {
  "note": "exact real arithmetic; eigenvalues are those of Mathlib (IsHermitian.eigenvalues₀); C75_semidefinite_total adds termination",
  "model": "Eigh, Sort",
  "how": "C29 and Weyl's inequality for eigenvalues, proved from a dimension count"
 },
 "C76": {
  "note": "exact real arithmetic; singular values are those of Mathlib (LinearMap.singularValues); C76_numerical_rank: values beyond the rank",
  "model": "Svd, Sort",
  "how": "C73, C35, C36, C40 and Weyl's inequality for singular values"
 },
 "C77": {
  "model": "`callNext` (repeated `TruncatedEigIterator.next`), `stackCols`",
  "how": "invariant: the constraint matrix is orthonormal before every call, by C45 (block orthonormal) and C46 (block orthogonal to the constraints); `OrthonormalList` is stated on lists of vectors; distinct eigenvalues by a nearby matrix for which the pairs are exact (`matched_eigenvalues`) and Weyl's inequality",
  "note": "exact arithmetic; exact eigensolver for the small problems and Gram matrices with no eigenvalue below 1e-10, as in C45 (with `eigh_into` itself see C45_error_bound and C45_eigh)"
 },
 "C78": {
  "model": "`TruncatedEig.new`, `withPrecision`, `withMaxiter`, `orthogonalTo`, `preconditionWith`, `Arr2.assign`, `TruncatedEig.decompose`, `TruncatedSvd.new`, its setters and `decompose`",
  "how": "induction over the chain of setters; `ControlledRun` states on true residuals what a run achieves, from C42, C43, C44 and C49; panic freedom from C56",
  "note": "the guarantees on residuals are in exact arithmetic; panic freedom is up to termination of eigh on the small problems; the precision is modelled after its conversion to the scalar type"
 },
 "C79": {
  "model": "`reflectionAxisMut`, `reflectCols`, `clearColumn`, `assembleQ`, `qrInto`, `QRDecomp.generateQ`, `intoR`, run on `Rnd R`",
  "how": "each stored axis is an exact unit axis with relative errors (`reflectionAxisMut_rnd`), so each step is an exact reflection plus a small error (`clearColumn_rnd`, `HouseNear.bound`); errors accumulate by induction (`qrInto_rnd`, `assembleQ_rnd`)",
  "note": "standard model of floating-point arithmetic: no overflow and no underflow; sums are accumulated from the left"
 },
 "C80": {
  "model": "`QRDecomp.qtMul`, `solveInto`, `inverse`, `isInvertible`, `leastSquares` on `Rnd R`",
  "how": "`QRNear.qtMul` and the backward error of the triangular solve (C65), combined into a perturbation of A; Pythagoras for the minimiser; a zero on the diagonal of R gives a null vector of A + D",
  "note": "standard model, as C79"
 },
 "C81": {
  "model": "`QRDecomp.solveTrInto`, `leastSquares` on `Rnd R`",
  "how": "triangular solve (C65) with the transposed factor, `assembleQ_rnd` and a rounded matrix product (`dotTo_products`)",
  "note": "standard model, as C79"
 },
 "C82": {
  "model": "`bidiagTall`, `bidiagonal`, `BidiagonalDecomp.generateU`, `generateVt`, `intoB`, run on `Rnd R`",
  "how": "invariant of the loop with exact reflections behind the stored axes (`BidNear`), each `clear_column` and `clear_row` adding a relative error (`ClearNear.bound`); wide matrices by transposition; singular values by Weyl's inequality",
  "note": "standard model, as C79"
 },
 "C83": {
  "model": "`tridiagStep`, `symTridiagonal`, `TridiagonalDecomp.generateQ`, `intoTridiagMatrix`, run on `Rnd R`",
  "how": "the matrix is split into symmetric and skew-symmetric part (`TriStepNear.parts`): a step applies the exact reflection to the former and keeps the latter, both up to a relative rounding error; the invariant `TriNear` adds these up; eigenvalues by Weyl's inequality",
  "note": "standard model, as C79"
 },
 "C84": {
  "model": "`symmetricEig`, `eigh`, `eigvalsh`, `sortEigVals`, run on `Rnd R`",
  "how": "the invariant `SimQ`: the tridiagonal matrix in the state is orthogonally similar to a matrix near `A`. Every rotation of the sweep with bulge, every 2 x 2 solution and every deflation keeps it, at the price of a factor of the error constant; the eigenvectors stay near an orthogonal matrix; single eigenvalues by Weyl's inequality",
  "note": "standard model, as C79; termination is not part of the claim, the bound grows with the number of iterations"
 },
 "C85": {
  "model": "`eigh` on `Rnd R` and on `Rnd StdModel.double`; `EigVisits`, the states the main loop goes through",
  "how": "`C85_false`: the run on `[[-1, 3u], [3u, 5/16 + u]]` is evaluated operation by operation. The `_partial` theorems: the joint invariant `SimQ` relates the tridiagonal matrix and the eigenvector matrix in the state to one orthogonal matrix; sweeps and deflations keep it, and so does a 2 x 2 block `[[x, o], [o, y]]` when `y - x <= K |o|`",
  "note": "false as stated (`C85_false`), proved for the runs whose 2 x 2 blocks satisfy `y - x <= K |o|`",
  "status": "partial"
 },
 "C86": {
  "model": "`svdGo`, `svd`, `bidiagonal`, `sortSvd`, run on `Rnd R`",
  "how": "the invariant `SvdQ`: the bidiagonal matrix in the state is orthogonally equivalent to a matrix near `A`. Each rotation of a sweep or of a cancellation, each deflation, and each 2 x 2 block keeps it at the price of one error factor; the count of operations is bounded by the iterations; single values by Weyl's inequality",
  "note": "standard model, as C79; termination is not part of the claim, the bound grows with the number of iterations"
 },
 "C87": {
  "model": "`svd` on `Rnd StdModel.double` and on `Rnd R`; `SvdVisits`, the states the main loop goes through",
  "how": "`C87_false`: the run on `[[3/4, 1], [0, 25/2^54]]` is evaluated operation by operation, and compared with C86 on the same matrix. The `_partial` theorems: forward analysis of `compute_2x2_uptrig_svd` on blocks that are `UptrigGood K` (the two rotations diagonalise the block up to 500 K^2 gamma), then the invariant of C86 with `210 K^2` further operations per step",
  "note": "false as stated (`C87_false`); proved when `min(m, n) = 1` and on the runs whose 2 x 2 blocks are `UptrigGood K` (condition number at most about K, first rotation well determined)",
  "status": "partial"
 },
 "C88": {
  "model": "`svd` on `Rnd R`",
  "how": "the part of the invariant `SvdQ` about the factors: they stay within a bounded distance of matrices with orthonormal columns",
  "note": "standard model, as C79"
 },
 "C89": {
  "note": "exact real arithmetic; the matrix is obtained as a limit, its entries are not explicit; nothing is claimed about floating point, where underflow and rounding interfere",
  "model": "Eigh, Givens, Tridiagonal",
  "how": "on matrices with the eigenvalues 1, 0, -1 a step of the loop is an explicit map of the plane (weights of the eigenvectors in the last coordinate); it stretches a strip across itself, so on every path across the strip some point stays in it for ever (nested intervals), and nothing is deflated in the strip"
 },
 "C90": {
  "note": "IEEE binary64 with gradual underflow; the backward-stability results C79-C88 assume no underflow. The first two parts sum inner products as ndarray does (one term only), the third holds for every order; C90_lost_column_format holds for every IEEE 754 format (in f32 from 2^-75 down)",
  "model": "Householder, Tridiagonal, Eigh, Qr over Flt Rounding.binary64",
  "how": "the runs are evaluated operation by operation with exact rounding lemmas: the axis for the column 3/4 * 2^-537 gets the length 7/8; for the third part every product in every summation plan is rounded to a zero, so no axis is found"
 },
 "C91": {
  "note": "the side effect is documented in the source, the second call is a trap for callers",
  "model": "Cholesky, Triangular",
  "how": "case analysis of the calls over every scalar type; the second call reads only the lower triangle (C10, C04), so C13 applies to L + Lt - diag L"
 },
 "C92": {
  "note": "for svd the corresponding result is C39: it does not return at all",
  "model": "Triangular, Cholesky, Householder, Qr, Tridiagonal, Eigh, Norm over Flt R",
  "how": "the closed forms and loop invariants of the generic proofs, with a predicate that every operation preserves (NanLike); the 2x2 blocks of eigh cannot contain a NaN because their eigenvalues were computed"
 },
 "C93": {
  "note": "every rounding; nothing is assumed about the other entries",
  "model": "Householder, Tridiagonal, Bidiagonal, Eigh, Svd over Flt R",
  "how": "the fold of the largest absolute value keeps an infinity (NaNs are never taken); finite/inf = 0 and inf/inf = NaN; then the NaN invariants of C39 and C92, applied to the scaled matrix"
 },
 "C94": {
  "note": "IEEE double precision with any summation order; for eigh and svd the scaling by the largest entry prevents this overflow; the theorems ending in _format hold for every IEEE 754 format, f32 included (there from 2^64 on)",
  "model": "Householder, Qr, Triangular over Flt binary64",
  "how": "the sum of squares is infinite in every summation plan, hence the axis is inf/inf or x/inf with a NaN in every later product; NaN invariants of C92"
 },
 "C95": {
  "note": "Flt R with Rounding.Accurate (binary64 with any summation order is an instance, b64_accurate); beside it C95_underflow, where the absolute term is attained",
  "model": "Triangular over Flt R",
  "how": "invariant of column-oriented substitution with one factor near one per entry and an absolute error per row; finiteness of the result propagates backwards through every operation"
 },
 "C96": {
  "note": "Flt R with Rounding.Accurate; the part on NaN: binary64; beside it exDblSpd_finite, a matrix of doubles that meets the hypotheses; C96_nan_or_finite_format: every IEEE 754 format",
  "model": "Cholesky over Flt R",
  "how": "error analysis of one inner product per entry; a finite pivot forces a finite row; an infinite sum of squares makes the pivot minus infinity, which is rejected, so only a NaN can pass; the counterexample is evaluated operation by operation"
 },
 "C97": {
  "note": "Flt R with Rounding.Accurate; beside it exDblSpd_finite, a system of doubles solved to a finite answer",
  "model": "Cholesky, Triangular over Flt R",
  "how": "C96 and C95 twice; the solves read the lower triangle only (C04)"
 },
 "C98": {
  "note": "Flt R with Rounding.Accurate; the unscaled sum of squares is why norm_l2 loses tiny arrays and overflows early; beside it the norms of (-3, 4) in doubles; overflow and underflow for every IEEE 754 format in the theorems ending in _format",
  "model": "Norm over Flt R",
  "how": "a sum of non-negative floats is the exact sum times a factor near one plus an absolute error; Hölder continuity of the square root; the limits are evaluated operation by operation"
 },
 "C99": {
  "note": "non-square matrices only: a square matrix and its transpose are both reduced to upper bidiagonal form, so the runs differ; memory layout of the transposed view not modelled",
  "model": "Bidiagonal, Svd",
  "how": "the run on the transpose is coupled with the run on the matrix, exchanging the two factors (Proofs/SvdTranspose)"
 },
 "C100": {
  "note": "",
  "model": "Cholesky",
  "how": "row by row characterization of the factor in every arithmetic (CholLB) and induction on the rows"
 },
 "C101": {
  "note": "",
  "model": "Householder, Reflection, Qr",
  "how": "a step changes column j by the earlier reflections only; the run on the block is coupled with the first k steps, the remaining steps do not touch these columns (Proofs/Blocks)"
 },
 "C102": {
  "note": "solve_tr and generate_q use dot products whose summation order the model takes from the scalar type alone, not from the shape of the operands",
  "model": "Cholesky, Triangular, Qr, LeastSquares",
  "how": "coupling of the two runs through all loops, columns tied by the selection (Proofs/Blocks)"
 },
 "C103": {
  "note": "the zero matrix is excluded; in double precision the numbers w i of the model must carry non-negative magnitudes (Proper)",
  "model": "EighAlg, Svd",
  "how": "the scaled matrix decides the run up to the last factor; comparison, maximum and quotient of floats do not see a common factor; rounding to 53 bits commutes with powers of two"
 },
 "C104": {
  "model": "symmetricEig, eigh, eigvalsh, svd over the reals; eigvalsh over Rnd for the rounded version",
  "how": "the invariant of the iteration (Proofs/EighReal.lean, EigApx) also keeps the trace of the tridiagonal matrix: similarity transformations keep it, and only off-diagonal entries are dropped. The norm of the tridiagonal or bidiagonal matrix never grows. The lower bounds follow from the residual (C30, C35), the rounded version from C84.",
  "note": ""
 },
 "C105": {
  "model": "symmetricEig, eigh, eigvalsh, sortedEig over Flt Rounding.binary64",
  "how": "the run is evaluated operation by operation for a symbolic exponent k: every number in it is a signed power of two or a signed zero, and Proofs/PowerFloat.lean gives the rounded result of each operation on such numbers under linear conditions on the exponents",
  "note": "a finding about the code: finite input, NaN output without an error. Correctly rounded hypot; inner products summed as ndarray does"
 },
 "C106": {
  "model": "lobpcgRun, TruncatedEig.decompose, TruncatedSvd.decompose, TruncatedSvdResult.valuesVectors over the reals",
  "how": "the first iterate is X0 C with orthonormal columns, so A X = X (XᵀAX) if the span of X0 is invariant, and the residual is X times the error of the small eigenproblem; then no pair is active (C49), no further iterate exists (C63) and the loop ends normally. The singular values follow with C55 and C74; what the cut-off drops is counted with the trace",
  "note": "the eigensolver is a hypothesis (exact, or with relative error eta); the library's eigh meets it for blocks of one or two vectors (C30), and C30's counterexample shows that it does not for larger ones"
 },
 "C107": {
  "model": "sortedEig with generalizedEig, over the reals and over IEEE-like scalars",
  "how": "the sort permutation depends on the values only and is unique; flipping both sign bits does not change the product with signum; two exact solutions differ by a signed permutation because QᵀBQ' commutes with the eigenvalues",
  "note": "for the generalized problem the exact statement assumes that the threshold 1e-10 of generalized_eig has no effect"
 },
 "C108": {
  "model": "sortEigValsAsc/Desc, sortEigAsc/Desc, sortSvdAsc/Desc on top of sortEigVals, sortEig and sortSvd",
  "how": "a stable sort permutation is unique, and the reversed one is a stable sort for the other order when there are no ties; for real values the sorted rearrangement is unique",
  "note": ""
 },
 "C109": {
  "model": "all modules",
  "how": "parametricity: a relation between two runs that is preserved by every operation is preserved by every function (`Proofs/Param*`), used with equality",
  "note": "every scalar type; C109_direct, C109_spectral, C109_lobpcg, C109_truncated"
 },
 "C110": {
  "model": "all modules with `Flt (ieee F)`",
  "how": "the same parametricity theorems, used with `equal and a number of the format`; the rounding function yields numbers k 2^e with k < 2^(mant+1) and emin <= e",
  "note": "every binary format, with the dot product of ndarray; f32 and f64 are instances"
 },
 "C111": {
  "model": "Eigh, Svd with `Flt (ieee F)`",
  "how": "the numbers of a format have finitely many codes, so a state comes back within the bound; states with the same code continue alike by parametricity",
  "note": "says nothing about whether the loops end; see C39, C70-C73, C89, C93"
 },
 "C112": {
  "model": "all modules with ℝ",
  "how": "parametricity with `equal and constructible`; a tower of quadratic extensions gives degree a power of two, Eisenstein/irreducibility gives a matrix",
  "note": "example: [[4,1,0],[1,2,1],[0,1,2]], for which eigvalsh returns"
 },
 "C113": {
  "model": "Triangular, Cholesky, Norm with `Flt (ieee F)`",
  "how": "the rounding of a format has relative error 2^(-mant-1) and absolute error 2^(emin-1), put into C95-C98",
  "note": "non-vacuous cases in f32 are computed in the file"
 },
 "C114": {
  "model": "Cholesky, Qr, Triangular over the reals",
  "how": "uniqueness of the solution, of the least squares solution and of the minimum norm solution (C03, C13, C14, C19-C21)",
  "note": ""
 },
 "C115": {
  "model": "Eigh, Svd, Sort over the reals; Rnd for the rounded versions",
  "how": "C75, C76, C84, C86 with Weyl, Cauchy interlacing and Poincare separation proved from a dimension count (Proofs/Perturb.lean)",
  "note": ""
 },
 "C116": {
  "model": "Cholesky, Qr, Eigh, Svd, Sort over the reals",
  "how": "C08, C16, C75, C76; uniqueness of orthogonal diagonalizations, charpoly(AB) = charpoly(BA)",
  "note": "C99 has the transpose of matrices that are not square, without error"
 },
 "C117": {
  "model": "Householder, Tridiagonal, Bidiagonal, Eigh, Svd, Cholesky, Qr over the reals and in the standard model of floating-point arithmetic",
  "how": "every reflection meets a column that is zero below its first entry; invariant of the two reductions; the delimiting loops then reach 0; uniqueness of the triangular factor for cholesky and qr (Proofs/Diagonal.lean); with rounding errors the same path, counting roundings (Proofs/DiagonalRnd.lean)",
  "note": ""
 },
 "C118": {
  "note": "owned temporaries stay values; the order in which a dot product is summed is the same for every layout (in ndarray it depends on contiguity), so on floats C118_layout is about one fixed order",
  "model": "Memory",
  "how": "each function on memory is related step by step to the function on arrays (Proofs/Memory, Proofs/MemoryFns, Proofs/MemoryEntry): the view holds the array, everything else is framed"
 },
 "C119": {
  "note": "The standard model of rounding leaves overflow and underflow out. C119_independent_rejected is the counterexample that shows a margin is needed; the factor 24 m² is not claimed to be best.",
  "model": "Model/Lobpcg (orthonormalize), Model/Cholesky, Model/Triangular over Spec/Rounded",
  "how": "Cholesky backward error (C66) and success (C69) on the rounded Gram matrix, column-wise backward error of the triangular solve, then QᵀQ − 1 written out through L⁻¹; ‖L⁻¹‖ is bounded through the margin c (Proofs/RoundedOrth)"
 },
 "C120": {
  "note": "Correctly rounded hypot in the statements about formats; C120_overflow and C120_subnormal are findings about extreme input, which eigh and svd avoid by scaling.",
  "model": "Givens over the reals, over Rnd and over Flt (ieee F)",
  "how": "rounding to a format is monotone and exact on its numbers (Proofs/GivensFloat), so |x|, |y| ≤ r and the quotients are at most 1; relative errors in the normal range"
 },
 "C121": {
  "note": "Quantifies the defect behind C46: apply_constraints solves with L instead of L L^T.",
  "model": "applyConstraints and cholesky over the reals and over Rnd",
  "how": "a Cholesky factor of a matrix near 1 is near 1 (Proofs/ConstrErr: diagonal through the inverse, then the triangular part of N + N^T = E - N N^T); then norms"
 },
 "C122": {
  "note": "",
  "model": "solveTriangular, solvec, invc, QRDecomp.solveInto, inverse, solveTrInto and leastSquares over Rnd",
  "how": "perturbation theory of linear systems, least squares problems and solutions of least length (Proofs/ForwardErr), applied to the backward errors of C65, C67, C80 and C81; success from C69, C80, C81"
 },
 "C123": {
  "note": "exact real arithmetic, exact eigensolver for the small problems, Gram matrices without eigenvalues below 1e-10",
  "model": "Lobpcg",
  "how": "the trial space contains the preconditioned residual of every active pair (HasDirections); the gain of one step from Ky Fan's principle on the space of the iterate and that direction (Proofs/Descent); the counts by adding up the gains; linear convergence by Temple's inequality, for blocks by its version for the sum of the Ritz values (block_gap)"
 },
 "C124": {
  "note": "exact real arithmetic, exact eigensolver for the small problems, Gram matrices without eigenvalues below 1e-10",
  "model": "Lobpcg",
  "how": "Temple's inequality for the sum of the Ritz values (block_gap in Proofs/Descent), and a dimension count for every index (ritz_each); eigenvalues excluded by the constraints belong to vanishing coordinates and are moved out of the way (deflate)"
 },
 "C125": {
  "note": "exact real arithmetic with the library's own eigh_into inside; C125_underflow: IEEE formats",
  "model": "Lobpcg, TruncatedEig",
  "how": "uniqueness of the Cholesky factor; the steps before `orthonormalize` are linear; after it the two runs are related by the parametricity of C109"
 },
 "C126": {
  "note": "exact real arithmetic, exact eigensolver for the small problems, Gram matrices without eigenvalues below 1e-10; for Order::Smallest the smaller Gram matrix of the problem must be non-singular",
  "model": "TruncatedEig, TruncatedSvd, Lobpcg",
  "how": "C124 for the Gram matrix, whose norm is at most the square of the largest singular value (gram_bound); C74 for the values being the square roots of the estimates"
 },
 "C127": {
  "note": "every scalar type; the precision in f32: IEEE formats with ndarray's order of summation",
  "model": "Lobpcg, TruncatedEig, TruncatedSvd, Precision",
  "how": "lockstep induction over the two loops: the update looks neither at the tolerance nor at the iterations left; rounding of squares in single precision"
 },
 "C128": {
  "note": "a finding about the code: for Order::Smallest a matrix without full rank gives infinite or NaN vectors without an error. The eigenvalues are arbitrary floats that are not NaN (with a NaN see C54_nan_panics)",
  "model": "TruncatedSvdResult.valuesWithIndices, values, valuesVectors; TruncatedSvd.decompose with lobpcgRun and eighInto over Flt (ieee F)",
  "how": "rounding to a format is monotone and exact on its numbers, so the cut-off is at most the largest eigenvalue; the square root of a positive float is in the normal range; the case of the zero matrix is a run evaluated operation by operation (Proofs/FloatOne)"
 },
 "C129": {
  "note": "factors are elements of any group whose action commutes with the operations (structure Scalings); instances: powers of two in a rounding to any number of digits with unbounded exponent (StdModel.double) and in exact arithmetic. With overflow or underflow the claim fails (C120)",
  "model": "cholesky, solvec, invc, solveTriangularSystem, qrInto, QRDecomp, leastSquares, norms",
  "how": "simulation of the run on the scaled data by the run on the original ones, with the factor of every entry of every intermediate array as the invariant; rounding and all orders of summation commute with powers of two (binRound_zpow_mul, DotPlan.rval_scaled)"
 },
 "C130": {
  "note": "exact arithmetic. For a Q with more rows than columns the start must be thin and maxiter at most 10 n, since the code bounds the iterations by ten times the number of rows. With rounding the products of turned columns differ in their last digits",
  "model": "lobpcgRun with all its parts, TruncatedEig.decompose, TruncatedSvd.decompose, valuesVectors",
  "how": "simulation of one run by the other: blocks of n rows are related by Q, everything else is equal; products of two blocks are equal because QᵀQ = 1, all other operations on blocks are linear in the rows; uniqueness of the Cholesky factor for orthonormalize"
 },
 "C131": {
  "note": "generic over the factors that commute with the arithmetic and are positive; instances are all positive numbers in exact arithmetic and the powers of two in the standard model of double precision with ndarray's order of summation. Overflow and underflow are excluded there. The constraints cannot be multiplied by a factor: the projection of the code is not a projection unless they are orthonormal (C46). C131_iterator is the exception",
  "model": "lobpcgRun with all its parts, eighInto, TruncatedEig.decompose, TruncatedSvd.decompose, valuesVectors, TruncatedEigIterator.next",
  "how": "simulation of one run by the other, every array carrying its factor; eigh_into divides by the largest entry and is covariant; the Gram matrices of the generalised problem have no unit, so the floor 1e-10 is never seen to change; the comparison of residual norms with 1e-8 has no effect since explicit Gram matrices are always used"
 },
 "C132": {
  "note": "exact arithmetic. V is square except in C132_norm and C132_minimum_norm",
  "model": "qrInto, QRDecomp, leastSquares, cholesky, solvec, invc, eigvalsh, svd, normL2 over the reals",
  "how": "uniqueness: R is the Cholesky factor of the Gram matrix (C22), solutions are those of the normal equations (C114) or of the system (C13, C14, C21); the spectra of A and A' agree, and C75, C76 bound the error of each run"
 },
 "C133": {
  "note": "exact arithmetic. The pairing of values and vectors of eigh is that of C30, which is not always by position; C133_eigh_large gives a case where it is",
  "model": "lobpcgRun, TruncatedEig.decompose, TruncatedEigIterator.next, TruncatedSvd.decompose, TruncatedSvdResult.valuesVectors, eigh, svd over the reals",
  "how": "in an orthonormal eigenbasis the residual multiplies every coordinate by the distance of its eigenvalue; for singular vectors the same with the matrix [[0, A], [Aᵀ, 0]]; the residuals are those of C44, C52, C30, C35 and C74"
 },
 "C134": {
  "note": "exact arithmetic; Frobenius norm. TruncatedSvd with the assumptions of C74 and, for the comparison, C126",
  "model": "svd, sortSvd, TruncatedSvd.decompose, TruncatedSvdResult.valuesVectors over the reals",
  "how": "the theorem of Eckart and Young, proved with the projection onto the rows of the competitor (Proofs/LowRank.lean); C34, C35, C40, C74, C126"
 },
 "C135": {
  "note": "exact arithmetic (the error of a run is svdTol or eigTol) and the standard model of floating-point arithmetic (eigErr, svdErr; svd without factors, since C87 fails with them)",
  "model": "svd, eigvalsh, cholesky, qrInto, isInvertible, solveInto over the reals and over Rnd R",
  "how": "lengths under the orthogonal factors of the run and its residual (C27, C34, C35, C36; C84, C86), then C09 and C18, C66, C69, C122"
 },
 "C136": {
  "note": "every arithmetic",
  "model": "solveTriangular over any NdFloat",
  "how": "two folds of elimination steps whose rows correspond by a map of indices (elim_fold_map); steps at later rows do not touch earlier ones (elim_fold_keep)"
 },
 "C137": {
  "note": "exact real arithmetic with the tolerances of the code",
  "model": "Svd, Qr over ℝ",
  "how": "Penrose's four equations from the orthonormal factors of C34; distance of the truncated product with C35; then the perturbation bounds of least squares and minimum norm solutions from C122 with the smallest value from C135"
 },
 "C138": {
  "note": "exact real arithmetic",
  "model": "Cholesky, Triangular over ℝ",
  "how": "block equations of L Lᵀ, uniqueness of the factor (C12) in one direction, and a factor assembled from the factors of the two parts in the other; the inverse by block elimination; the minimum from xᵀAx = |Lᵀx|²"
 },
 "C139": {
  "note": "exact real arithmetic",
  "model": "Qr, Cholesky over ℝ",
  "how": "R is determined by the Gram matrix (uniqueness of the Cholesky factor), Q by R; stacked rows are an orthonormal matrix times the reduced rows (C132); the solutions from the normal equations"
 },
 "C140": {
  "note": "every IEEE 754 format with at least the precision and range of f32, every order of summation; C140_double and C140_single give the numbers for f64 and f32; beside it exWideSpd_ok, a matrix of doubles whose entries span 2000 binary orders of magnitude",
  "model": "Cholesky over Flt (Rounding.ieee F)",
  "how": "induction over the entries in the order of computation: the rows computed so far are finite and reproduce A to 4 γ √(a_rr a_cc), which by the condition on the quadratic form (completed square with the computed rows) keeps the sum of squares of the next row below its diagonal entry; hence no operation overflows and the absolute errors of underflow are below the relative ones"
 },
 "C141": {
  "note": "every IEEE 754 format with at least the precision and range of f32, every order of summation; C141_invc is the inverse; C141_double (t = 180) and C141_single (t = 14) give the numbers for f64 and f32; beside it exSolve_ok, a system of f32 numbers that meets the hypotheses; C141_forward (Props/TriRange) bounds the distance to the exact solution",
  "model": "Cholesky and both triangular solves over Flt (Rounding.ieee F)",
  "how": "the computed factor L reproduces A to 4 γ √(a_rr a_cc) (C140), hence the perturbed triangular systems of every prefix of the substitutions are well conditioned, which bounds each partial result by a multiple of H³β/γ² (completed square for the forward, quadratic form for the backward solve); induction over the steps: all numbers so far are finite, so the next is; the backward error then follows from C97 and the Cauchy-Schwarz inequality"
 },
 "C142": {
  "note": "exact real arithmetic; the polynomial theorem is conditional on eigvalsh returning (C89 shows it need not), which C70 gives for projections; examples beside the theorems: a 3 x 2 matrix with columns of lengths 5 and 10, and a projection onto a line that is not an axis",
  "model": "QR, least squares, inverse, svd, eigvalsh and the sorts over ℝ",
  "how": "uniqueness of the triangular factor of the Gram matrix for R, the normal equations for least squares, uniqueness of the diagonalization of the Gram matrix with a permutation for svd (C76), eigenvectors of the exact spectral decomposition and induction over the polynomial for the roots (C75)"
 },
 "C143": {
  "note": "every IEEE 754 format with at least the precision and range of f32; C143_double (t = 193) and C143_single (t = 20) give the numbers for f64 and f32; beside it exTri_ok, an f32 triangle with NaN in the unused place that meets the hypotheses; C143_forward bounds the distance to the exact solution",
  "model": "solve_triangular over Flt (Rounding.ieee F), both triangles",
  "how": "the rows solved so far form a system at least as well conditioned as the whole (tri_prefix: the rest of the unknowns can be chosen to solve the remaining equations with zero right-hand side), so the backward error invariant of C95 bounds every partial result; the diagonal is at least the smallest singular value (tri_diag_ge); induction over the steps: all numbers so far are finite, so the next is"
 },
 "C144": {
  "note": "converse of C98, which bounds the errors of finite results and shows the overflow and underflow outside this range; C144_norm_l2_double and C144_norm_l2_single give the numbers for f64 and f32; beside it exNorms_ok",
  "model": "normL1, normL2 over Flt (Rounding.ieee F)",
  "how": "induction over the list: partial sums of non-negative numbers stay below the total times (1-u)^(-n) plus the underflow errors, so the next addition is finite; the relative error follows from C98, as the underflow term √(2nη) is at most γ times the norm"
 },
 "C145": {
  "note": "C145_sum is the sum for any order of operations, C145_dot and C145_matmul the two forms of dot; beside it exDot_dot",
  "model": "dotTo, Arr1.dot, Arr2.dot over Flt (Rounding.ieee F) with arbitrary DotPlans",
  "how": "induction over the plan: with K = 1/(1-u), a partial result of cost c over terms with absolute sum A and m products is within (K^c - 1) A + K^c m c η of the exact partial sum, so it is below the range and the next operation is finite"
 },
 "C146": {
  "note": "the range between C90 (overflow) and C94 (underflow); C146_double and C146_single give the numbers for f64 and f32; beside it exAxis_ok",
  "model": "reflectionAxisMut over Flt (Rounding.ieee F) with arbitrary DotPlans",
  "how": "C145 gives the sum of squares; then one relative error per operation, as all sums have terms of one sign; the underflow errors are small against the squares by the lower bound; the exact axis is checked against ReflSpec for both signs of a zero first entry"
 },
 "C147": {
  "note": "bias 0 is the only one the crate uses outside its tests; the axes of C146 meet the condition on the axis; beside it exRefl_ok",
  "model": "reflectCols, reflectRows over Flt (Rounding.ieee F) with arbitrary DotPlans",
  "how": "C145 gives the inner product; then an error bound and a bound of the size after each of the five operations on an entry"
 },
 "C148": {
  "note": "C120_float shows that the c and s of cancel_y meet the condition; beside it exRot_ok",
  "model": "GivensRotation.rotateRows, rotateCols over Flt (Rounding.ieee F)",
  "how": "the closed form of the loop, then an error bound and a bound of the size after each of the three operations on an entry; rotate_cols through the transpose and the inverse rotation"
 },
 "C149": {
  "note": "the whole step that qr, bidiagonal and tridiagonal repeat; beside it exClear_ok",
  "model": "clearColumn, clearRow over Flt (Rounding.ieee F)",
  "how": "C146 for the axis, C147 for the reflection along the computed axis, and a perturbation bound between the computed and the exact axis; the sign of the computed norm is that of the exact one"
 },
 "C150": {
  "note": "beside it an example in f64 with an entry of 2^1000",
  "model": "GivensRotation.cancelY, rotateRows over Flt (Rounding.ieee F)",
  "how": "C120_float bounds c^2 + s^2 - 1, C148 the error of each entry; then the triangle inequality for the length"
 },
 "C151": {
  "note": "the bound on the growth per step that a bound for all of qr would use; beside it an example with exClear",
  "model": "clearColumn over Flt (Rounding.ieee F)",
  "how": "C149 per entry, the exact reflection keeps the length, the triangle inequality by induction over the entries"
 },
 "C152": {
  "note": "an a posteriori check, for instance on the diagonal that qr returns; beside it an example with exClear",
  "model": "clearColumn, reflectionAxisMut over Flt (Rounding.ieee F)",
  "how": "by contradiction: C145 bounds the inner product from above also for small columns, hence the root and the norm"
 },
 "C153": {
  "note": "the condition on the diagonal is on the result, so it can be checked afterwards; beside it exQr_ok, which meets it",
  "model": "qrInto, clearColumn over Flt (Rounding.ieee F)",
  "how": "induction over the steps: C152 shows that the step was in range, C149 that what it wrote is finite, C151 how much the other columns grew"
 },
 "C154": {
  "note": "Q is the exact product of the reflections along the exact axes of the computed columns, not the computed Q; beside it exQrBackward_ok, which meets all conditions",
  "model": "qrInto, clearColumn, QRDecomp.intoR over Flt (Rounding.ieee F)",
  "how": "induction over the steps: C149 bounds the distance of each step from an exact reflection, which keeps the length of the error so far"
 }
}