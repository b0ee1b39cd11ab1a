{"id": "C01", "title": "into_triangular keeps one triangle and zeroes the other", "statement": "into_triangular(uplo)/triangular_inplace(uplo) on an n x n matrix succeeds, keeps every entry on the diagonal and in the chosen triangle, and makes every other entry zero; on a non-square matrix it returns NotSquare{rows,cols} with the true dimensions and leaves the matrix unchanged. Applying it twice is the same as once; applying Upper then Lower leaves exactly the diagonal.", "quantifier": "every matrix shape, every element type with a zero, both UPLO values", "why_tests_cant": "tests sample a few shapes up to 10; the claim is per entry for all sizes", "anchors": ["src/triangular.rs: IntoTriangular::triangular_inplace, into_triangular", "src/lib.rs: check_square"]}
{"id": "C02", "title": "is_triangular decides triangularity", "statement": "is_triangular(uplo) returns true exactly when the matrix is square and every entry strictly on the other side of the diagonal is zero; in particular the result of into_triangular(uplo) always passes.", "quantifier": "every matrix, every size, both UPLO values", "why_tests_cant": "an iff over all sizes and all single offending entries", "anchors": ["src/triangular.rs: Triangular::is_triangular"]}
{"id": "C03", "title": "solve_triangular solves the triangular system", "statement": "If every diagonal entry of a square matrix T is non-zero and B has the same number of rows, solve_triangular(B, uplo) returns the unique X such that tri(T,uplo) * X = B, where tri keeps the chosen triangle of T. Stated for exact real arithmetic; rounding is discussed separately.", "quantifier": "every size, every right-hand-side width, both UPLO values, all real entries", "why_tests_cant": "algebraic identity for all sizes and entries", "anchors": ["src/triangular.rs: solve_triangular_system_common, solve_triangular_system, SolveTriangularInplace, SolveTriangular"]}
{"id": "C04", "title": "solve_triangular never looks at the other triangle", "statement": "The result (value or error) of solve_triangular depends only on the chosen triangle of the matrix including the diagonal and on B: two matrices that agree there give identical results, whatever garbage (including NaN) the other triangle holds.", "quantifier": "every size, every scalar arithmetic including IEEE floats, both UPLO values", "why_tests_cant": "non-interference over all pairs of inputs", "anchors": ["src/triangular.rs: solve_triangular_system_common"]}
{"id": "C05", "title": "solve_triangular treats right-hand-side columns independently", "statement": "Column k of the solution for B is the solution for column k of B alone, bit for bit.", "quantifier": "every size, every column, every scalar arithmetic", "why_tests_cant": "a relation between two runs for all inputs", "anchors": ["src/triangular.rs: solve_triangular_system_common"]}
{"id": "C06", "title": "solve_triangular rejects exactly the bad shapes", "statement": "solve_triangular returns NotSquare{rows,cols} iff the matrix is not square, otherwise WrongRows{expected,actual} iff B has a different number of rows, otherwise Ok with B's shape; it never panics, even with zeros on the diagonal.", "quantifier": "every pair of shapes, every scalar arithmetic", "why_tests_cant": "decision table over all shapes", "anchors": ["src/triangular.rs: solve_triangular_system_common", "src/lib.rs: LinalgError, check_square"]}
{"id": "C07", "title": "Unchecked indexing in the direct solvers is always in bounds", "statement": "triangular_inplace, is_triangular, solve_triangular*, cholesky*, solvec*, invc* never perform an out-of-bounds unchecked access (undefined behaviour in release builds) and never panic, on any input.", "quantifier": "every shape and every scalar arithmetic, also NaN and infinities", "why_tests_cant": "memory safety over all inputs; tests only see debug-mode panics on sampled sizes", "anchors": ["src/index.rs: UncheckedIndex::at, UncheckedIndexMut::atm", "src/triangular.rs", "src/cholesky.rs"]}
{"id": "C08", "title": "cholesky returns a lower-triangular square root", "statement": "If cholesky (or cholesky_into/cholesky_inplace) returns Ok(L) for a symmetric matrix A then L is lower triangular with strictly positive diagonal and L * L^T = A exactly. Stated for exact real arithmetic; rounding is discussed separately.", "quantifier": "every size and every symmetric real matrix", "why_tests_cant": "identity for all sizes", "anchors": ["src/cholesky.rs: CholeskyInplace, Cholesky"]}
{"id": "C09", "title": "cholesky succeeds exactly on positive definite matrices", "statement": "For a symmetric matrix, cholesky returns Ok iff the matrix is positive definite and NotPositiveDefinite otherwise; for a non-square matrix it returns NotSquare. Stated for exact real arithmetic; rounding is discussed separately.", "quantifier": "every size and every symmetric real matrix", "why_tests_cant": "completeness needs a proof for every positive definite matrix", "anchors": ["src/cholesky.rs: cholesky_inplace_dirty"]}
{"id": "C10", "title": "cholesky ignores and preserves the strict upper triangle", "statement": "The lower triangle and diagonal of the output and the success/failure of every Cholesky routine depend only on the lower triangle of the input; the dirty variants leave the strict upper triangle untouched, also when they fail part way.", "quantifier": "every pair of matrices agreeing on the lower triangle, every scalar arithmetic", "why_tests_cant": "non-interference and frame condition over all inputs including failing ones", "anchors": ["src/cholesky.rs: cholesky_inplace_dirty, cholesky_into_dirty, cholesky_dirty"]}
{"id": "C11", "title": "clean and dirty Cholesky agree, and all entry points agree", "statement": "cholesky succeeds iff cholesky_dirty does, with the same error; its result is the dirty result with the strict upper triangle zeroed. By-reference, by-value and in-place variants return the same answer.", "quantifier": "every matrix, every scalar arithmetic", "why_tests_cant": "relation between entry points for all inputs", "anchors": ["src/cholesky.rs: cholesky_inplace, cholesky_into, cholesky, *_dirty"]}
{"id": "C12", "title": "The Cholesky factor is unique", "statement": "Any lower-triangular matrix M with positive diagonal and M * M^T = A equals the factor returned by cholesky(A); in particular cholesky(L*L^T) = L round-trips. Stated for exact real arithmetic; rounding is discussed separately.", "quantifier": "every size, every such M", "why_tests_cant": "quantifies over all factorizations", "anchors": ["src/cholesky.rs"]}
{"id": "C13", "title": "solvec solves positive definite systems", "statement": "For symmetric positive definite A and B with matching rows, solvec(B), solvec_into and solvec_inplace return the unique X with A * X = B; A non positive definite gives NotPositiveDefinite, non-square NotSquare, wrong row count WrongRows. Stated for exact real arithmetic; rounding is discussed separately.", "quantifier": "every size, every right-hand side", "why_tests_cant": "identity for all sizes", "anchors": ["src/cholesky.rs: SolveCInplace, SolveC"]}
{"id": "C14", "title": "invc returns the inverse", "statement": "For symmetric positive definite A, invc returns the matrix X with A * X = X * A = I. Stated for exact real arithmetic; rounding is discussed separately.", "quantifier": "every size", "why_tests_cant": "identity for all sizes", "anchors": ["src/cholesky.rs: InverseCInplace, InverseC"]}
{"id": "C15", "title": "Reflection mirrors across the plane", "statement": "For a unit axis, reflect_cols maps every column x to x - 2(axis.x - bias)axis: points of the plane axis.x = bias are fixed, applying it twice is the identity, and distances between columns are preserved; reflect_rows is the same on rows. Stated for exact real arithmetic; rounding is discussed separately.", "quantifier": "every dimension, every unit axis, every bias, every matrix", "why_tests_cant": "identity over all vectors", "anchors": ["src/reflection.rs: Reflection::reflect_cols, reflect_rows"]}
{"id": "C16", "title": "QR factorization is correct", "statement": "For every matrix A with rows >= cols, qr succeeds and into_decomp yields Q (rows x cols) with Q^T Q = I, R (cols x cols) upper triangular with non-negative diagonal, and Q * R = A - also for rank-deficient and zero matrices. Stated for exact real arithmetic; rounding is discussed separately.", "quantifier": "every shape with rows >= cols, every real matrix", "why_tests_cant": "identity for all sizes, including all rank deficiencies", "anchors": ["src/qr.rs: QRInto::qr_into, QRDecomp::generate_q, into_r, into_decomp", "src/householder.rs: reflection_axis_mut, clear_column, assemble_q"]}
{"id": "C17", "title": "qr rejects exactly wide matrices", "statement": "qr/qr_into return NotThin{rows,cols} iff rows < cols, and otherwise Ok, without panicking (empty matrices included).", "quantifier": "every shape, every scalar arithmetic", "why_tests_cant": "all shapes", "anchors": ["src/qr.rs: QRInto::qr_into"]}
{"id": "C18", "title": "is_invertible detects full column rank", "statement": "QRDecomp::is_invertible returns true iff the columns of the original matrix are linearly independent. Stated for exact real arithmetic; rounding is discussed separately.", "quantifier": "every shape with rows >= cols, every real matrix", "why_tests_cant": "iff over all matrices", "anchors": ["src/qr.rs: QRDecomp::is_invertible"]}
{"id": "C19", "title": "QR solve is least squares", "statement": "For a full-column-rank A (rows >= cols), solve/solve_into/least_squares return the unique X minimizing ||A x - b|| for every column b of B (so A X = B when A is square or B is in the range); rank-deficient A gives NonInvertible; a wrong row count gives WrongRows. Stated for exact real arithmetic; rounding is discussed separately.", "quantifier": "every shape, every right-hand side", "why_tests_cant": "optimality quantifies over all competing x", "anchors": ["src/qr.rs: QRDecomp::solve_into, solve, qt_mul, LeastSquaresQrInto, LeastSquaresQr"]}
{"id": "C20", "title": "solve_tr gives the minimum-norm solution of the transposed system", "statement": "For full-column-rank A, solve_tr(B) returns X with A^T X = B, and each column has the smallest 2-norm among all solutions; least_squares on a wide full-row-rank matrix returns the minimum-norm solution. Stated for exact real arithmetic; rounding is discussed separately.", "quantifier": "every shape, every right-hand side", "why_tests_cant": "optimality over all solutions", "anchors": ["src/qr.rs: QRDecomp::solve_tr_into, solve_tr, LeastSquaresQrInto"]}
{"id": "C21", "title": "inverse is two-sided and its errors are exact", "statement": "QRDecomp::inverse returns X with A X = X A = I iff A is square and non-singular; NotSquare iff not square; NonInvertible iff square and singular. Stated for exact real arithmetic; rounding is discussed separately.", "quantifier": "every shape", "why_tests_cant": "iff over all matrices", "anchors": ["src/qr.rs: QRDecomp::inverse"]}
{"id": "C22", "title": "R of QR is the transposed Cholesky factor of the Gram matrix", "statement": "For full-column-rank A, into_r equals the transpose of cholesky(A^T A), so R is unique. Stated for exact real arithmetic; rounding is discussed separately.", "quantifier": "every full-column-rank real matrix", "why_tests_cant": "relates two algorithms for all inputs", "anchors": ["src/qr.rs: into_r", "src/cholesky.rs: cholesky"]}
{"id": "C23", "title": "Tridiagonal decomposition is correct", "statement": "For every non-empty symmetric A, sym_tridiagonal succeeds, generate_q is orthogonal, into_tridiag_matrix is symmetric tridiagonal with non-negative off-diagonal and Q T Q^T = A; into_diagonals returns exactly the diagonals of T. Stated for exact real arithmetic; rounding is discussed separately.", "quantifier": "every size, every symmetric real matrix", "why_tests_cant": "identity for all sizes", "anchors": ["src/tridiagonal.rs: SymmetricTridiagonal::sym_tridiagonal, TridiagonalDecomp"]}
{"id": "C24", "title": "sym_tridiagonal rejects exactly non-square and empty input", "statement": "sym_tridiagonal returns NotSquare iff not square, EmptyMatrix iff 0 x 0, otherwise Ok; generate_q and into_tridiag_matrix never panic on its result, also for non-symmetric input.", "quantifier": "every shape, every scalar arithmetic", "why_tests_cant": "all shapes", "anchors": ["src/tridiagonal.rs"]}
{"id": "C25", "title": "Bidiagonal decomposition is correct", "statement": "For every non-empty R x C matrix A with d = min(R,C), bidiagonal succeeds; generate_u is R x d with U^T U = I, generate_vt is d x C with Vt Vt^T = I, into_b is d x d bidiagonal (upper iff R >= C, as reported by is_upper_diag) with non-negative entries, into_diagonals returns its diagonals, and U B Vt = A. Stated for exact real arithmetic; rounding is discussed separately.", "quantifier": "every non-empty shape, every real matrix", "why_tests_cant": "identity for all sizes", "anchors": ["src/bidiagonal.rs: Bidiagonal::bidiagonal, BidiagonalDecomp", "src/householder.rs: clear_column, clear_row, assemble_q"]}
{"id": "C26", "title": "bidiagonal rejects exactly empty input", "statement": "bidiagonal returns EmptyMatrix iff one dimension is zero, otherwise Ok, and no method of the decomposition panics.", "quantifier": "every shape, every scalar arithmetic", "why_tests_cant": "all shapes", "anchors": ["src/bidiagonal.rs"]}
{"id": "C27", "title": "eigvalsh and eigh return the same eigenvalues", "statement": "eigvalsh/eigvalsh_into succeed iff eigh/eigh_into do and return bit-for-bit the same eigenvalues; by-reference variants equal the consuming ones.", "quantifier": "every matrix, every scalar arithmetic, every run length", "why_tests_cant": "relational property of two different runs", "anchors": ["src/eigh.rs: symmetric_eig, EighInto, Eigh, EigValshInto, EigValsh"]}
{"id": "C28", "title": "Eigenvectors are orthonormal", "statement": "Whenever eigh returns on an n x n symmetric matrix, the returned n x n eigenvector matrix Q satisfies Q^T Q = I. Stated for exact real arithmetic; rounding is discussed separately.", "quantifier": "every size, every matrix, any number of QR sweeps", "why_tests_cant": "invariant of an unbounded iteration", "anchors": ["src/eigh.rs: symmetric_eig", "src/givens.rs: GivensRotation"]}
{"id": "C29", "title": "Eigenvalues are backward stable", "statement": "Whenever eigvalsh returns on a symmetric n x n matrix A, the returned values are exactly the eigenvalues (with multiplicity) of some symmetric A' with ||A - A'||_F <= 2(n-1) eps ||A||_F, eps the machine epsilon used as deflation threshold. Stated for exact real arithmetic; rounding is discussed separately.", "quantifier": "every size, every symmetric matrix, any number of sweeps", "why_tests_cant": "global error bound over an unbounded iteration", "anchors": ["src/eigh.rs: symmetric_eig, delimit_subproblem, wilkinson_shift, compute_2x2_eigvals"]}
{"id": "C30", "title": "Eigenvectors belong to their eigenvalues", "statement": "Whenever eigh returns (vals, vecs) on a symmetric matrix, A * vecs[:,i] = vals[i] * vecs[:,i] up to the deflation tolerance, i.e. ||A - Q diag(vals) Q^T||_F <= 2(n-1) eps ||A||_F. Stated for exact real arithmetic; rounding is discussed separately.", "quantifier": "every size, every symmetric matrix", "why_tests_cant": "error bound over an unbounded iteration; the bad inputs are a thin set random tests do not hit", "anchors": ["src/eigh.rs: symmetric_eig (2x2 branch, GivensRotation::try_new with eps)"]}
{"id": "C31", "title": "eigh shape and error behaviour", "statement": "eigh/eigvalsh return NotSquare{rows,cols} iff the matrix is not square; the 0 x 0 matrix yields empty results; otherwise whenever they return they return n values and an n x n matrix. The iteration never accesses out of bounds.", "quantifier": "every shape, every scalar arithmetic (NaN, infinities), every run length", "why_tests_cant": "memory safety over an unbounded iteration", "anchors": ["src/eigh.rs: symmetric_eig, delimit_subproblem"]}
{"id": "C32", "title": "The 2x2 unwrap in eigh cannot panic", "statement": "For IEEE-like arithmetic, whatever the input (symmetric or not, NaN, infinite, overflowing), the unwrap on the 2x2 eigenvalue computation inside eigh never panics.", "quantifier": "every matrix over IEEE-like scalars with any sign-preserving rounding", "why_tests_cant": "the source comment itself says it is unknown when it panics", "anchors": ["src/eigh.rs: compute_2x2_eigvals and its caller"]}
{"id": "C33", "title": "sort_eig sorts pairs", "statement": "sort_eig(order) returns the values in ascending (Smallest) or descending (Largest) order and applies the same permutation, stable for ties, to the eigenvector columns; so a valid eigendecomposition stays valid. It panics only if a NaN is compared.", "quantifier": "every length, every NaN-free input, both orders", "why_tests_cant": "permutation property for all lengths", "anchors": ["src/eigh.rs: EigSort, cmp_floats"]}
{"id": "C34", "title": "SVD factors are semi-orthogonal and singular values non-negative", "statement": "Whenever svd(true,true) returns on an R x C matrix, d = min(R,C): U is R x d with U^T U = I, Vt is d x C with Vt Vt^T = I, and all d singular values are >= 0. Stated for exact real arithmetic; rounding is discussed separately.", "quantifier": "every non-empty shape, every real matrix, any number of sweeps", "why_tests_cant": "invariant of an unbounded iteration", "anchors": ["src/svd.rs: svd, delimit_subproblem, cancel_horizontal_off_diagonal_elt, cancel_vertical_off_diagonal_elt, compute_2x2_uptrig_svd"]}
{"id": "C35", "title": "SVD reconstructs the matrix within the tolerance", "statement": "Whenever svd(true,true) returns (U,S,Vt) on A, ||A - U diag(S) Vt||_F <= 2(d-1) eps ||A||_F, where eps is the tolerance passed to the iteration (5 machine epsilons). Stated for exact real arithmetic; rounding is discussed separately.", "quantifier": "every non-empty shape, every real matrix, any number of sweeps", "why_tests_cant": "global error bound over an unbounded iteration", "anchors": ["src/svd.rs: svd and helpers"]}
{"id": "C36", "title": "Singular values do not depend on which vectors are requested", "statement": "svd returns the same singular values for all four combinations of (calc_u, calc_vt), U is the same whether or not Vt is requested and vice versa, and exactly the requested factors are returned. Stated for exact real arithmetic; rounding is discussed separately.", "quantifier": "every matrix, all flag combinations, any number of sweeps", "why_tests_cant": "relational property of different runs", "anchors": ["src/svd.rs: svd, compute_2x2_uptrig_svd"]}
{"id": "C37", "title": "SVD shape and error behaviour", "statement": "svd returns EmptyMatrix iff the matrix has no elements; whenever it returns Ok, S has length min(R,C), U is R x min and Vt is min x C; the iteration never accesses out of bounds and no internal unwrap panics.", "quantifier": "every shape, every scalar arithmetic, every run length", "why_tests_cant": "memory safety over an unbounded iteration", "anchors": ["src/svd.rs"]}
{"id": "C38", "title": "Making singular values positive keeps U*S*Vt", "statement": "If a computed singular value is negative, flipping it to positive also flips the corresponding column of U, so U*S*Vt and the orthogonality of U are preserved.", "quantifier": "every diagonal with negative (or negative-zero) entries", "why_tests_cant": "only reached through rounding; random tests do not notice", "anchors": ["src/svd.rs: svd, final loop (mul_assign(-A::zero()))"]}
{"id": "C39", "title": "svd terminates on every input", "statement": "svd returns (Ok or Err) for every matrix, including matrices containing NaN.", "quantifier": "every matrix over IEEE-like scalars", "why_tests_cant": "non-termination cannot be established by a finite test", "anchors": ["src/svd.rs: svd, delimit_subproblem"]}
{"id": "C40", "title": "sort_svd sorts and keeps the product", "statement": "sort_svd(order) sorts the singular values, permutes columns of U and rows of Vt with the same stable permutation, and leaves U*diag(S)*Vt unchanged.", "quantifier": "every length, every NaN-free input, both orders", "why_tests_cant": "permutation property for all lengths", "anchors": ["src/svd.rs: SvdSort"]}
{"id": "C41", "title": "Norms are norms", "statement": "norm_l1, norm_l2 and norm_max compute the sum of absolute values, the square root of the sum of squares and the largest absolute value; each is zero only on zero arrays, absolutely homogeneous and subadditive; norm_max <= norm_l2 <= norm_l1. Stated for exact real arithmetic; rounding is discussed separately.", "quantifier": "every array of every size", "why_tests_cant": "inequalities over all vectors", "anchors": ["src/norm.rs: Norm"]}
{"id": "C42", "title": "LOBPCG returns the best iterate", "statement": "Whenever lobpcg returns a result (Ok, or Err with a result), the sum of the returned residual norms is the minimum over all iterates visited, and eigenvalues, eigenvectors and residual norms come from the same iterate.", "quantifier": "every operator, start matrix, preconditioner, constraint, tolerance and iteration count", "why_tests_cant": "quantifies over the whole iteration history", "anchors": ["src/lobpcg/algorithm.rs: lobpcg (best_result)"]}
{"id": "C43", "title": "LOBPCG iteration bound", "statement": "lobpcg performs at most min(10 n, maxiter) update steps, so it always terminates, calling the operator at most 1 + min(10 n, maxiter) times.", "quantifier": "every operator (even non-linear or non-symmetric), every input", "why_tests_cant": "termination for all operators", "anchors": ["src/lobpcg/algorithm.rs: lobpcg"]}
{"id": "C44", "title": "Reported residuals are true residuals", "statement": "If the operator is x -> A x, then for every returned result rnorm[i] = ||A v_i - lambda_i v_i||_2 for the returned pairs (lambda_i, v_i). Stated for exact real arithmetic; rounding is discussed separately.", "quantifier": "every linear operator, every input, every number of iterations", "why_tests_cant": "invariant (AX tracks A*X) over an unbounded iteration", "anchors": ["src/lobpcg/algorithm.rs: lobpcg"]}
{"id": "C45", "title": "LOBPCG eigenvectors are orthonormal", "statement": "The returned eigenvectors satisfy X^T X = I, provided the Gram matrices stay well conditioned (smallest eigenvalue at least 1e-10). Stated for exact real arithmetic; rounding is discussed separately.", "quantifier": "every input, every number of iterations", "why_tests_cant": "invariant of an unbounded iteration", "anchors": ["src/lobpcg/algorithm.rs: lobpcg, orthonormalize, generalized_eig, sorted_eig"]}
{"id": "C46", "title": "LOBPCG honours constraints", "statement": "With a full-rank constraint matrix Y, every returned eigenvector is orthogonal to the column space of Y.", "quantifier": "every full-rank Y, every input", "why_tests_cant": "the documented contract covers all full-rank Y, tests only use orthonormal Y", "anchors": ["src/lobpcg/algorithm.rs: apply_constraints, lobpcg"]}
{"id": "C47", "title": "Running out of iterations is reported as an error", "statement": "As documented for TruncatedEig::precision, if the precision is not reached within the maximum number of iterations, lobpcg returns an error.", "quantifier": "every operator, tolerance and maxiter", "why_tests_cant": "the outcome of every non-converged run", "anchors": ["src/lobpcg/algorithm.rs: lobpcg (break Ok)", "src/lobpcg/eig.rs: TruncatedEig::precision"]}
{"id": "C48", "title": "LOBPCG shapes and the NotThin error", "statement": "lobpcg returns NotThin{rows,cols} with no result iff the start matrix has more columns than rows; every returned result has k eigenvalues, an n x k eigenvector matrix and k residual norms.", "quantifier": "every shape", "why_tests_cant": "all shapes, all iterations", "anchors": ["src/lobpcg/algorithm.rs: lobpcg"]}
{"id": "C49", "title": "Converged eigenpairs stay locked", "statement": "Once the residual of the i-th pair drops to the tolerance or below, that pair is never again part of the active block; if lobpcg stops with iterations to spare, every pair reached the tolerance at some iterate.", "quantifier": "every history of residuals", "why_tests_cant": "temporal property over all iteration histories", "anchors": ["src/lobpcg/algorithm.rs: lobpcg (activemask)"]}
{"id": "C50", "title": "orthonormalize orthonormalizes", "statement": "For V with linearly independent columns the internal orthonormalization returns U with U^T U = I and lower-triangular L with V = U L^T; for dependent columns it fails with NotPositiveDefinite. Stated for exact real arithmetic; rounding is discussed separately.", "quantifier": "every shape", "why_tests_cant": "iff over all matrices", "anchors": ["src/lobpcg/algorithm.rs: orthonormalize"]}
{"id": "C51", "title": "TruncatedEig iterator yields at most n eigenvalues and accumulates constraints", "statement": "Iterating a TruncatedEig with step s yields blocks of size min(s, remaining); after any sequence of next() calls the number of eigenvalues yielded so far plus the internal remaining count is n, never more than n are yielded, after exactly n it yields None forever, and the constraint matrix is the user's constraints followed by all yielded eigenvectors in order. A step size of zero panics.", "quantifier": "every history of next() calls, every solver outcome", "why_tests_cant": "history property over all call sequences", "anchors": ["src/lobpcg/eig.rs: TruncatedEigIterator, TruncatedEig::into_iter, into_iter_step_size"]}
{"id": "C52", "title": "Iterator never yields a badly converged block", "statement": "Every block yielded by the TruncatedEig iterator has all residual norms <= 0.1; a block that fails this yields None and leaves the constraints and remaining count unchanged.", "quantifier": "every solver outcome, every history", "why_tests_cant": "all histories", "anchors": ["src/lobpcg/eig.rs: TruncatedEigIterator::next"]}
{"id": "C53", "title": "decompose(0) is an empty success", "statement": "TruncatedEig::decompose(0) and TruncatedSvd::decompose(0) return an empty solution without running the solver, and values()/values_vectors() of the latter return empty arrays.", "quantifier": "every problem matrix and both orders", "why_tests_cant": "covers all orders; the failing one is untested", "anchors": ["src/lobpcg/eig.rs: TruncatedEig::decompose", "src/lobpcg/svd.rs: TruncatedSvd::decompose, TruncatedSvdResult::values"]}
{"id": "C54", "title": "Truncated singular values are positive and sorted", "statement": "For Order::Largest, values() is sorted in descending order, every value is the square root of a strictly positive computed eigenvalue above the cut-off eps*correction*max, and values at or below the cut-off are dropped; for Order::Smallest it is ascending and drops nothing.", "quantifier": "every eigenvalue vector without NaN", "why_tests_cant": "all vectors, all lengths", "anchors": ["src/lobpcg/svd.rs: singular_values_with_indices, values"]}
{"id": "C55", "title": "Truncated SVD triples are singular triples", "statement": "If the eigenpairs found by the solver are exact orthonormal eigenpairs of the Gram matrix, values_vectors() for Order::Largest returns u_i, sigma_i, v_i with A v_i = sigma_i u_i, A^T u_i = sigma_i v_i and orthonormal U and V, in both the tall and the wide case. Stated for exact real arithmetic; rounding is discussed separately.", "quantifier": "every matrix shape, every set of exact eigenpairs", "why_tests_cant": "identity over all matrices", "anchors": ["src/lobpcg/svd.rs: values_vectors, TruncatedSvd::decompose"]}
{"id": "C56", "title": "LOBPCG never panics on well-shaped input", "statement": "If the start matrix has at least one column, the operator and the preconditioner return matrices of the shape of their argument, and the constraint matrix (if any) has n rows and full rank, then lobpcg never panics: every unwrap, slice, concatenation and index is in range in every iteration. With zero columns it panics. Stated for exact real arithmetic; rounding is discussed separately.", "quantifier": "every operator, preconditioner, constraint, shape, tolerance and iteration count", "why_tests_cant": "absence of panics over all executions", "anchors": ["src/lobpcg/algorithm.rs: lobpcg, sorted_eig, generalized_eig, ndarray_mask, apply_constraints, orthonormalize"]}
{"id": "C57", "title": "LOBPCG returns Ritz pairs in order", "statement": "If the eigensolver used for the small projected problems is exact, the matrix X and the values lambda that lobpcg returns satisfy X^T A X = diag(lambda), and lambda is sorted in the order asked for. Stated for exact real arithmetic.", "quantifier": "every symmetric operator, preconditioner, constraint, start matrix, tolerance, iteration count", "why_tests_cant": "holds for every iteration count and operator", "anchors": ["src/lobpcg/algorithm.rs: lobpcg, sorted_eig, generalized_eig"]}
{"id": "C58", "title": "LOBPCG Ritz values improve monotonically", "statement": "With an exact small eigensolver and well conditioned Gram matrices, from each iterate to the next every Ritz value moves towards its end of the spectrum or stays: non-increasing for Order::Smallest, non-decreasing for Order::Largest. Stated for exact real arithmetic.", "quantifier": "every symmetric operator, preconditioner, constraint, start matrix, pair of iterations", "why_tests_cant": "relation between all consecutive states of an execution", "anchors": ["src/lobpcg/algorithm.rs: lobpcg"]}
{"id": "C59", "title": "LOBPCG Ritz values are one-sided bounds", "statement": "With an exact small eigensolver and a well conditioned Gram matrix, the j-th value of every iterate is at least the j-th smallest eigenvalue of A for Order::Smallest and at most the j-th largest for Order::Largest. Stated for exact real arithmetic.", "quantifier": "every symmetric operator with any spectrum, every iterate, every j", "why_tests_cant": "Courant-Fischer bound over all operators and iterations", "anchors": ["src/lobpcg/algorithm.rs: lobpcg"]}
{"id": "C60", "title": "Returned values are near eigenvalues", "statement": "Every value returned by lobpcg lies within (residual norm / length of its vector) of a true eigenvalue of A, whatever the small eigensolver does; every value yielded by the iterator lies within 0.1 / length of one. Stated for exact real arithmetic.", "quantifier": "every symmetric operator, every run, every column", "why_tests_cant": "a-posteriori bound for all operators", "anchors": ["src/lobpcg/algorithm.rs: lobpcg", "src/lobpcg/eig.rs: TruncatedEigIterator::next"]}
{"id": "C61", "title": "Which errors lobpcg returns", "statement": "If the small eigensolver does not fail, the only errors of lobpcg are NotThin (exactly when the start matrix has more columns than rows) and NotPositiveDefinite; the latter carries a result exactly when at least one iterate was computed, and without constraints it carries none exactly when the columns of the start matrix are linearly dependent. Stated for exact real arithmetic.", "quantifier": "every operator, preconditioner, constraint, start matrix, tolerance and iteration count", "why_tests_cant": "error classification over all executions", "anchors": ["src/lobpcg/algorithm.rs: lobpcg, orthonormalize"]}
{"id": "C62", "title": "When lobpcg breaks down", "statement": "Without constraints, with a positive definite preconditioner, an exact small eigensolver and well conditioned Gram matrices, lobpcg returns an error after its first iterate only if the residuals of the still active pairs are linearly dependent at the last iterate. In particular for a single nonzero start vector it always returns Ok. Stated for exact real arithmetic.", "quantifier": "every symmetric operator, positive definite preconditioner, start matrix, tolerance and iteration count", "why_tests_cant": "absence of an error over all executions", "anchors": ["src/lobpcg/algorithm.rs: lobpcg, orthonormalize"]}
{"id": "C63", "title": "Room for new directions", "statement": "An update step from an orthonormal iterate of k vectors with b active pairs is only possible if k + b <= n. If more than n - k pairs have not converged at the first iterate, lobpcg returns NotPositiveDefinite together with the first iterate, whatever maxiter is. Stated for exact real arithmetic.", "quantifier": "every operator, preconditioner, constraint, start matrix, tolerance and iteration count", "why_tests_cant": "dimension argument over all executions", "anchors": ["src/lobpcg/algorithm.rs: lobpcg, orthonormalize"]}
{"id": "C64", "title": "LOBPCG stays in invariant subspaces", "statement": "If a subspace is kept by the operator and the preconditioner and contains the start vectors and the constraints, then every vector of every iterate of lobpcg lies in it; so lobpcg cannot find an eigenvector outside of it (asked for the largest eigenvalue of diag(1,3) from the start vector e1 it returns Ok with the value 1). Stated for exact real arithmetic.", "quantifier": "every subspace, operator, preconditioner, constraint, eigensolver, tolerance and iteration count", "why_tests_cant": "invariant over all executions", "anchors": ["src/lobpcg/algorithm.rs: lobpcg"]}
{"id": "C65", "title": "Triangular solves are backward stable", "statement": "In floating-point arithmetic with unit roundoff u (standard model, no overflow or underflow), each column returned by solve_triangular solves exactly a triangular system whose entries differ from the given ones by a relative error of at most n u / (1 - n u); consequently |b - T x| <= gamma_n |T| |x| entrywise.", "quantifier": "every rounding satisfying the standard model, every triangular matrix with nonzero diagonal, every right-hand side, every size with n u < 1", "why_tests_cant": "error bound over all inputs and all rounding functions", "anchors": ["src/triangular.rs: solve_triangular_system"]}
{"id": "C66", "title": "Cholesky is backward stable", "statement": "In the standard model of floating-point arithmetic, if cholesky returns L for a symmetric matrix A then L is lower triangular with positive diagonal, |L L^T - A| <= gamma_{n+2} |L| |L|^T entrywise, and |L L^T - A|_ij <= gamma/(1-gamma) sqrt(a_ii a_jj).", "quantifier": "every rounding satisfying the standard model, every symmetric matrix, every size with (n+2) u < 1", "why_tests_cant": "error bound over all inputs and all rounding functions", "anchors": ["src/cholesky.rs: cholesky_inplace_dirty"]}
{"id": "C67", "title": "Cholesky solves are backward stable", "statement": "In the standard model of floating-point arithmetic, each column returned by solvec solves exactly a system whose matrix differs from A by at most gamma_{3n+2} |L| |L|^T entrywise, L being the computed factor.", "quantifier": "every rounding satisfying the standard model, every symmetric matrix and right-hand side, every size with (3n+2) u < 1", "why_tests_cant": "error bound over all inputs and all rounding functions", "anchors": ["src/cholesky.rs: solvec", "src/triangular.rs: solve_triangular_system"]}
{"id": "C68", "title": "Accuracy of the norms", "statement": "In the standard model of floating-point arithmetic norm_max is exact, norm_l1 has a relative error of at most gamma_n and norm_l2 of at most gamma_{n+2}.", "quantifier": "every rounding satisfying the standard model, every list of elements", "why_tests_cant": "error bound over all inputs and all rounding functions", "anchors": ["src/norm.rs"]}
{"id": "C69", "title": "Cholesky succeeds on well conditioned matrices", "statement": "In the standard model of floating-point arithmetic, if A is symmetric with positive diagonal and x^T A x >= d * sum a_ii x_i^2 for all x, with d (1 - gamma_{n+2}) > 2 n gamma_{n+2}, then cholesky and solvec do not return an error.", "quantifier": "every rounding satisfying the standard model, every symmetric matrix meeting the condition, every size", "why_tests_cant": "absence of an error over all inputs and all rounding functions", "anchors": ["src/cholesky.rs: cholesky_inplace_dirty"]}
{"id": "C70", "title": "eigh terminates on semidefinite matrices", "statement": "In exact real arithmetic the main loop of symmetric_eig ends on every positive or negative semidefinite symmetric matrix, singular or not, so eigh and eigvalsh return. On a definite matrix with smallest absolute eigenvalue lam it runs at most (n-1)(K+1) times, where (||A||_F / (2 eps lam))^6 < 2^K.", "quantifier": "every size, every semidefinite symmetric matrix", "why_tests_cant": "termination of an unbounded loop over all matrices; the argument is the global convergence of QR steps with Wilkinson's shift", "anchors": ["src/eigh.rs: symmetric_eig, delimit_subproblem, wilkinson_shift"]}
{"id": "C71", "title": "eigh terminates on well-conditioned matrices", "statement": "In exact real arithmetic the main loop of symmetric_eig ends on every symmetric matrix, definite or not, whose smallest singular value lam exceeds 2(n-1) eps ||A||_F, within (n-1)(K+1) iterations, where (2 ||A||_F / (eps (lam - 2(n-1) eps ||A||_F)))^6 < 2^K.", "quantifier": "every size, every symmetric matrix meeting the condition", "why_tests_cant": "termination of an unbounded loop over all matrices", "anchors": ["src/eigh.rs: symmetric_eig, delimit_subproblem, wilkinson_shift"]}
{"id": "C72", "title": "Wilkinson's shift", "statement": "wilkinson_shift(tmm, tnn, tmn) is the eigenvalue of [[tmm, tmn], [tmn, tnn]] nearest to tnn, and differs from tnn by at most |tmn|.", "quantifier": "all real tmm, tnn, tmn", "why_tests_cant": "identity over all reals", "anchors": ["src/eigh.rs: wilkinson_shift"]}
{"id": "C73", "title": "svd terminates on every real matrix", "statement": "In exact real arithmetic svd returns on every nonempty m x n matrix for every choice of flags, after at most d^2 (901 + 6 log2(m n)) iterations of its main loop, d = min(m, n); no condition on rank or conditioning. With both flags the result is an approximate singular value decomposition: orthonormal factors, nonnegative values, residual at most 2 (d - 1) eps ||A||_F.", "quantifier": "every size, every real matrix, all flags", "why_tests_cant": "termination of an unbounded loop over all matrices, with a bound that holds for all of them", "anchors": ["src/svd.rs: svd, delimit_subproblem, cancel_horizontal_off_diagonal_elt, cancel_vertical_off_diagonal_elt"]}
{"id": "C74", "title": "The truncated SVD returns Ritz triples", "statement": "With exact arithmetic, an exact solver of the small eigenproblems and well-conditioned Gram matrices, TruncatedSvd::decompose followed by values_vectors (and values) returns r values s_1.. in the requested order, all positive, with orthonormal U and V, one of the two equations A V = U diag s, A^T U = V diag s exactly, each s_j^2 within s_j * (defect of the other equation) of an eigenvalue of the Gram matrix, and no s_j on the wrong side of the j-th largest/smallest singular value. r is num for Order::Smallest and the number of estimates above the cut-off for Order::Largest.", "quantifier": "all matrices tall or wide (independent columns/rows for Smallest), all random starts, precisions, iteration numbers, converged or not", "why_tests_cant": "quantifies over all matrices and starts; the bounds refer to exact singular values", "anchors": ["src/lobpcg/svd.rs: decompose, singular_values_with_indices, values_vectors, values", "src/lobpcg/algorithm.rs: lobpcg"]}
{"id": "C75", "title": "Accuracy of every eigenvalue", "statement": "Whenever eigvalsh returns on a symmetric matrix, its values sorted by sort_eig are, one by one, within 2 (n - 1) eps ||A||_F of the exact eigenvalues in the same order, with multiplicity. On semidefinite matrices it returns.", "quantifier": "all symmetric real matrices, both orders", "why_tests_cant": "compares with exact eigenvalues of all matrices", "anchors": ["src/eigh.rs: eigvalsh, symmetric_eig, sort_eig"]}
{"id": "C76", "title": "Accuracy of every singular value", "statement": "On every nonempty real matrix and for all flags svd returns, and its values sorted by sort_svd are, one by one, within 2 (d - 1) eps ||A||_F of the exact singular values in the same order, with multiplicity; values beyond the rank are at most that bound.", "quantifier": "all nonempty real matrices, all flags, both orders", "why_tests_cant": "compares with exact singular values of all matrices; includes termination", "anchors": ["src/svd.rs: svd, sort_svd"]}
{"id": "C77", "title": "Everything the eigenpair iterator yields is one orthonormal family of distinct eigenpairs", "statement": "Start the iterator of TruncatedEig (any step size >= 1) on a symmetric matrix, without constraints or with orthonormal ones, and call next() any number of times. In exact arithmetic, with an exact eigensolver for the small dense problems and well-conditioned Gram matrices, the initial constraints and all eigenvectors yielded by all calls form one orthonormal family, every pair has residual at most 0.1, and the k values yielded so far lie within 0.2*sqrt(k) of k different eigenvalues of the matrix (counted with multiplicity); when all n pairs have been yielded the sorted values are within 0.1*sqrt(n) of the sorted spectrum.", "quantifier": "all symmetric matrices, step sizes, orders, preconditioners, tolerances, random sources and numbers of calls", "why_tests_cant": "Deflation through the growing constraint matrix couples all calls; the tests look at a few matrices and never check that vectors of different blocks are orthogonal or that an eigenvalue is not returned twice.", "anchors": ["src/lobpcg/eig.rs:178-292", "src/lobpcg/algorithm.rs:62-77"]}
{"id": "C78", "title": "The settings of TruncatedEig and TruncatedSvd do what they say", "statement": "In any chain of precision, maxiter, orthogonal_to and precondition_with calls the last call of each kind decides and everything else keeps its default (1e-5, twice the number of rows, no constraints, no preconditioner); decompose changes nothing but the random number generator. The run computes at most 1 + min(10 n, maxiter) iterates and returns one with the least sum of true residuals; if it ends with Ok before the iterations are used up, every pair reached a true residual of at most precision (precision squared for TruncatedSvd, measured on the smaller Gram matrix) at some iterate, and a single pair has it in the result returned. A preconditioner with as many rows as the problem multiplies the residuals, a single row is broadcast, everything else panics; otherwise decompose does not panic for a square problem and full-rank constraints.", "quantifier": "all problems, chains of setters, numbers of pairs, random sources and eigensolvers", "why_tests_cant": "Tests call the setters once, in one order, and cannot observe the iterates or the bound on their number; the guarantee is about every chain and every run.", "anchors": ["src/lobpcg/eig.rs:57-172", "src/lobpcg/svd.rs:122-241", "src/lobpcg/algorithm.rs:193-240"]}
{"id": "C79", "title": "The QR decomposition is backward stable in floating point", "statement": "In any floating-point arithmetic with unit roundoff u and (5m+31)u < 1, qr of an m x n matrix A with n <= m succeeds; the R returned is upper triangular with nonnegative diagonal and is the exact factor of A + D for some exactly orthonormal Q, where each column of D is at most delta times the column of A, and each column of the Q returned is within delta of that Q. Here delta = (1 + 3 gamma_(5m+31))^n - 1. Hence Q R reproduces A column by column up to delta (1 + sqrt n (1 + delta)), and Q^T Q differs from the identity by at most delta (2 + delta) entry by entry, however ill-conditioned A is.", "quantifier": "all tall matrices of all sizes, all arithmetics satisfying the standard model", "why_tests_cant": "Tests compare a few small matrices within a tolerance; the bound holds for every matrix, including nearly rank-deficient ones, and every rounding.", "anchors": ["src/qr.rs:24-104", "src/householder.rs:9-95", "src/reflection.rs:20-43"]}
{"id": "C80", "title": "QR solve, least squares and inverse are backward stable in floating point", "statement": "Each column of the result of least_squares on a tall matrix is the exact minimiser of a least squares problem whose matrix differs column by column by at most delta + gamma_n (1 + delta) and whose right-hand side by at most delta (relative, Euclidean); for square matrices solve and inverse return exact solutions of such nearby systems. A matrix whose smallest singular value exceeds delta times its Frobenius norm is recognised as invertible, so that solve and least_squares return a result.", "quantifier": "all matrices, right-hand sides and arithmetics satisfying the standard model with (5m+31)u < 1", "why_tests_cant": "Backward error is an existence statement about nearby problems; a test can only compare with a known solution of a well-conditioned one.", "anchors": ["src/qr.rs:110-152", "src/qr.rs:194-247"]}
{"id": "C81", "title": "The minimum norm solution is stable in floating point", "statement": "Each column of the result of solve_tr, and of least_squares on wide matrices, differs by at most sqrt n (delta + gamma_(n+1) (1 + delta)) (relative, Euclidean) from the solution of least norm of a system whose matrix differs from the given one, row by row of the wide matrix, by at most delta + gamma_n (1 + delta); the right-hand side is not perturbed.", "quantifier": "all matrices of full rank as recognised by is_invertible, right-hand sides and arithmetics satisfying the standard model with (5m+31)u < 1", "why_tests_cant": "The statement is about nearby problems and all roundings.", "anchors": ["src/qr.rs:156-181", "src/qr.rs:219-247"]}
{"id": "C82", "title": "The bidiagonal decomposition is backward stable in floating point", "statement": "In any floating-point arithmetic with unit roundoff u and (5 max(m,n)+31)u < 1, bidiagonal of a nonempty m x n matrix A succeeds; the B returned is bidiagonal (upper if n <= m, lower otherwise) with nonnegative entries, and A + D = P B Q for exactly orthonormal P and Q, with ||D||_F <= delta' ||A||_F; the columns of the U returned and the rows of the V^T returned are within delta of those of P and Q. Hence U B V^T reproduces A, U and V^T are orthonormal up to delta (2 + delta) however ill-conditioned A is, and every singular value of B is within delta' ||A||_F of the corresponding singular value of A. Here delta' and delta are (1 + 3 gamma)^k - 1 for k = 2d-1 and k = d reflections, gamma = gamma_(5 max(m,n)+31), d = min(m,n).", "quantifier": "all nonempty matrices of all shapes, all arithmetics satisfying the standard model", "why_tests_cant": "Tests compare a few small matrices within a tolerance; the bound holds for every matrix and every rounding, and relates B to the exact singular values.", "anchors": ["src/bidiagonal.rs:27-133", "src/householder.rs:11-96", "src/reflection.rs:21-58"]}
{"id": "C83", "title": "The tridiagonal reduction is backward stable in floating point", "statement": "In any floating-point arithmetic with unit roundoff u, (10 n + 56) u < 1 and e = 10 gamma_(10n+56) (5 n^2 + 6 n) <= 1, sym_tridiagonal of a nonempty symmetric n x n matrix A succeeds; the T returned is symmetric, tridiagonal, with nonnegative off-diagonal, and A + D = P T P^T for an exactly orthogonal P, with ||D||_F <= e ||A||_F; the columns of the Q returned are within delta = (1 + 3 gamma_(5n+31))^(n-1) - 1 of those of P. Hence Q T Q^T reproduces A, Q is orthonormal up to delta (2 + delta) whatever A is, and every eigenvalue of T is within e ||A||_F of the corresponding eigenvalue of A, with multiplicity.", "quantifier": "all nonempty symmetric matrices of all sizes, all arithmetics satisfying the standard model", "why_tests_cant": "Tests compare a few small matrices within a tolerance. The two rank-one updates are rounded one after the other, so the matrix loses its symmetry; that this drift stays small for every matrix and every rounding is a statement about all inputs.", "anchors": ["src/tridiagonal.rs:31-113", "src/householder.rs:11-96", "src/reflection.rs:21-58"]}
{"id": "C84", "title": "The eigenvalues of eigh and eigvalsh are backward stable in floating point", "statement": "In any floating-point arithmetic with unit roundoff u, (10 n + 56) u < 1, a hypot of relative error w < 1/10 and e = 10 gamma_(10n+56) (5 n^2 + 6 n) <= 1, eigh of a symmetric n x n matrix A neither panics nor reports an error. If it returns after at most k iterations, the values returned are exactly the eigenvalues of a matrix within E ||A||_F of A, E = (1+u)^2 (1+e) ((1+rot)(1+defl))^(n(k+1)) - 1, rot = 8 gamma_10, defl = 2 (1+u)^2 eps; sorted, they are one by one within E ||A||_F of the exact eigenvalues, with multiplicity, for eigvalsh as well; the columns of the eigenvector matrix are orthonormal up to a constant that does not depend on A.", "quantifier": "all symmetric matrices of all sizes, all iteration counts, all arithmetics satisfying the standard model", "why_tests_cant": "Tests compare a few small matrices within a tolerance. A rotation whose entries are computed inconsistently, or a deflation test with the wrong scale, shifts eigenvalues only of particular matrices; the bound covers all matrices and all roundings.", "anchors": ["src/eigh.rs:10-132", "src/eigh.rs:134-200", "src/eigh.rs:202-267", "src/givens.rs:21-83", "src/tridiagonal.rs:31-113"]}
{"id": "C85", "title": "The vectors of eigh are eigenvectors up to rounding errors", "statement": "In floating point, the pairs that eigh returns on a symmetric matrix A satisfy ||A v - lambda v|| <= c u ||A||_F with a moderate constant c that does not depend on A.", "quantifier": "all symmetric matrices, all floating-point arithmetics satisfying the standard model", "why_tests_cant": "The tests use matrices on which the rotation of the last 2 x 2 block is computed without cancellation. On matrices such as [[-1, 3u], [3u, 5/16 + u]] it is not.", "anchors": ["src/eigh.rs:100-123", "src/eigh.rs:189-200"]}
{"id": "C86", "title": "Singular values computed without factors are backward stable in floating point", "statement": "In any floating-point arithmetic with unit roundoff u, (5 max(m,n) + 31) u < 1, and a hypot of relative error w < 1/10, svd of an m x n matrix A neither panics nor reports an error, for all flags, and the values it returns are nonnegative. If it returns after at most k iterations without factors, the values are exactly the singular values of a matrix within E ||A||_F of A, E = (1+u)^2 (1+r) ((1+rot)(1+defl))^((2 d^2 + 3 d)(k+1)) - 1 with d = min(m,n), rot = 12 gamma_10, defl = 10 (1+u)^4 eps and r the error of the bidiagonal decomposition; sorted, they are one by one within E ||A||_F of the exact singular values, with multiplicity.", "quantifier": "all nonempty matrices of all shapes, all iteration counts, all arithmetics satisfying the standard model", "why_tests_cant": "Tests compare a few small matrices within a tolerance. A deflation test with the wrong scale or a rotation applied to the wrong entry of the bidiagonal shifts singular values only of particular matrices; the bound covers all matrices and all roundings.", "anchors": ["src/svd.rs:17-224", "src/svd.rs:226-287", "src/svd.rs:289-369", "src/svd.rs:371-414", "src/givens.rs:21-83", "src/bidiagonal.rs:33-118"]}
{"id": "C87", "title": "Requesting factors does not change the accuracy of the singular values", "statement": "In floating point, the singular values that svd returns when factors are requested are as accurate as those it returns without.", "quantifier": "all matrices, all flags, all floating-point arithmetics satisfying the standard model", "why_tests_cant": "The tests use well conditioned matrices. On [[3/4, 1], [0, 25/2^54]] the norms by which compute_2x2_uptrig_svd multiplies the values do not cancel, and a singular value is wrong by almost one percent.", "anchors": ["src/svd.rs:371-414"]}
{"id": "C88", "title": "The factors of svd are orthonormal up to rounding errors", "statement": "In the arithmetic of C86, whatever the matrix, the rows of Vt are orthonormal up to e (2 + e), and so are the columns of U, except the columns that svd overwrites with zeros because their value was negative; e = ((1+r) ((1+rot)(1+defl))^((2 d^2 + 3 d)(k+1)) - 1) sqrt(min(m,n)) does not depend on the matrix.", "quantifier": "all nonempty matrices of all shapes, all flags, all iteration counts, all arithmetics satisfying the standard model", "why_tests_cant": "A rotation that is not normalized, or is applied to one factor with the wrong sign, loses orthogonality only slowly; tests with a tolerance on few small matrices do not see it.", "anchors": ["src/svd.rs:17-224", "src/svd.rs:226-287", "src/svd.rs:289-369", "src/svd.rs:371-414", "src/givens.rs:21-83", "src/bidiagonal.rs:33-118"]}
{"id": "C89", "title": "eigh does not return on every symmetric matrix", "statement": "In exact arithmetic there is a symmetric 3x3 matrix, with the eigenvalues 1, 0 and -1, on which eigh and eigvalsh never return: the main loop is still running after any number of iterations. So the hypotheses of C70 and C71 (semidefinite, or not singular to working precision) cannot be dropped. On symmetric matrices with at most two rows eigh returns after at most one iteration.", "quantifier": "one matrix, all iteration counts; all symmetric matrices with at most two rows", "why_tests_cant": "The matrices on which the loop does not end form a set of measure zero; a test that happens to run for long proves nothing about all iteration counts.", "anchors": ["src/eigh.rs:51-127", "src/eigh.rs:134-171", "src/eigh.rs:173-187"]}
{"id": "C90", "title": "Householder reductions go wrong when squares underflow", "statement": "reflection_axis_mut squares the entries of a column without scaling it. In IEEE double precision with gradual underflow this breaks its callers: there is a symmetric 2x2 matrix of doubles with entries in (0, 1] on which eigvalsh returns a number that is more than 7/10 away from every eigenvalue; there is a double x > 0 such that least_squares answers the 1x1 system x w = x with a number below 2/5; and every m x n matrix (m >= n >= 1) whose first column has entries of magnitude at most 2^-538 is reported as NonInvertible, whatever its rank and whatever the order of summation.", "quantifier": "one matrix for each of the first two parts and all iteration bounds; all sizes, matrices and right-hand sides for the third", "why_tests_cant": "The tests use entries of moderate size; the failures need entries near the square root of the smallest subnormal number, and the third part covers all matrices of that kind.", "anchors": ["src/householder.rs:9-28", "src/tridiagonal.rs:41-59", "src/qr.rs:32-44", "src/qr.rs:124-152"]}
{"id": "C91", "title": "solvec consumes its matrix", "statement": "solvec_inplace and invc_inplace always finish; they leave in self exactly what cholesky_inplace_dirty leaves there, also when the right-hand side is rejected, keep the strict upper triangle, read only the lower one, return the same value or error as solvec and invc, and do not touch b when they return an error. In exact arithmetic, after a call on a positive definite matrix the lower triangle of self is the Cholesky factor L, so a second solvec on the same matrix solves the system of L + Lt - diag L instead; its answer can differ from the first (matrix [[4]]: 2 instead of 1).", "quantifier": "every matrix and right-hand side of every shape over every scalar arithmetic; the statements about L: every positive definite real matrix", "why_tests_cant": "The tests never look at the matrix after the call nor call twice; the claim is about all inputs and all error paths.", "anchors": ["src/cholesky.rs:51-76", "src/cholesky.rs:136-145", "src/cholesky.rs:178-182"]}
{"id": "C92", "title": "A NaN in the input reaches the answer", "statement": "Over IEEE scalars: a NaN in row r of the triangle or of column k of the right-hand side makes every later entry of column k of solve_triangular NaN. If cholesky accepts a matrix with a NaN in row r of its lower triangle, all later diagonal entries of the factor are NaN, and a NaN in the corner is never reported. If solvec, invc, least_squares or inverse return Ok although the matrix (the lower triangle, for the first two) or column k of the right-hand side holds a NaN, every entry of (column k of) the answer is NaN. If eigvalsh or eigh return for a matrix with a NaN in its lower triangle, one of the eigenvalues is NaN. norm_l1 and norm_l2 are NaN as soon as one entry is; norm_max ignores NaNs, and is zero for an array of NaNs.", "quantifier": "every size, every matrix, every rounding and every order of summation of inner products, every iteration count", "why_tests_cant": "The tests contain no NaN; the claim covers every position of the NaN and whatever the other entries are (zeros, infinities, further NaNs).", "anchors": ["src/triangular.rs:95-131", "src/cholesky.rs:51-76", "src/cholesky.rs:136-145", "src/qr.rs:32-44", "src/qr.rs:124-181", "src/tridiagonal.rs:41-59", "src/eigh.rs:51-127", "src/norm.rs:25-35"]}
{"id": "C93", "title": "An infinite entry makes eigh and svd useless", "statement": "Over IEEE scalars eigh and svd begin by dividing the matrix by its largest absolute value. If any entry is infinite, this leaves zero for every finite entry and NaN for every other one. Then svd of a matrix with at least three rows and columns never returns if the infinity sits in the first column (first row, if wide); when svd or eigvalsh/eigh return for a matrix with an infinity anywhere, no singular value or eigenvalue is finite, and with the infinity in the lower triangle some eigenvalue is NaN. An infinity below the diagonal in the first column is never reported: eigvalsh returns Ok with NaN in all places but the first.", "quantifier": "every size, every position of the infinity, every rounding and every order of summation, every iteration count", "why_tests_cant": "The tests contain no infinities, and non-termination cannot be observed by a test.", "anchors": ["src/eigh.rs:27-34", "src/eigh.rs:51-127", "src/svd.rs:29-36", "src/svd.rs:38-231"]}
{"id": "C94", "title": "qr loses a column whose squares overflow", "statement": "In double precision, if the first column of a tall matrix (first row of a wide one) has no NaN and an entry of magnitude at least 2^512, then least_squares returns Ok with NaN in every entry, inverse returns Ok with NaN in every entry, qr stores an infinity as first and NaN as every further diagonal entry of R, and is_invertible answers true; although the matrix may be perfectly conditioned and its inverse representable.", "quantifier": "every size, every matrix and right-hand side, every order of summation of inner products", "why_tests_cant": "The tests use entries of moderate size; the claim covers every magnitude from 2^512 on, any position in the column and all other entries.", "anchors": ["src/householder.rs:9-28", "src/qr.rs:32-44", "src/qr.rs:124-240"]}
{"id": "C95", "title": "Triangular solves with overflow and underflow", "statement": "Over IEEE scalars with a relative rounding error of at most u and an absolute one of at most eta per operation (double precision: 2^-53 and 2^-1075): if the diagonal of the triangle and column j of the result of solve_triangular are finite, then no diagonal entry is zero, column j of the right-hand side is finite, and the column solves exactly a system whose triangle differs from the given one by at most gamma_n, entry by entry, and whose right-hand side differs by at most (1 + gamma_n)(2n + |t_rr|) eta. Consequently the residual in double precision is at most n 2^-52 |T||x| + (2n + |t_ii|) 2^-1074. The absolute term cannot be dropped.", "quantifier": "every size, triangle and right-hand side, every rounding of that accuracy, no restriction on magnitudes", "why_tests_cant": "The tests use a few well-scaled systems; the claim includes subnormal numbers and intermediate infinities, and bounds all rounding errors.", "anchors": ["src/triangular.rs:95-131", "src/triangular.rs:134-168"]}
{"id": "C96", "title": "Cholesky factors with overflow and underflow", "statement": "Over the same IEEE scalars: if cholesky returns Ok and the diagonal of the factor L is finite, then L is finite and lower triangular with non-negative diagonal, the lower triangle of A was finite, and L Lt differs from the lower triangle of A by at most gamma_(n+2) |L||Lt| + (1 + gamma_(n+2))(2n + 2 l_jj) eta, entry by entry. In double precision it is enough that no diagonal entry of L is NaN. This must be checked: there is a finite symmetric 3x3 matrix with a negative eigenvalue for which cholesky returns Ok with a NaN in L.", "quantifier": "every size and matrix, every rounding of that accuracy, no restriction on magnitudes; one matrix for the last sentence", "why_tests_cant": "The tests factor a few well-scaled matrices; the claim covers overflow and underflow in every intermediate step.", "anchors": ["src/cholesky.rs:51-76", "src/cholesky.rs:78-103"]}
{"id": "C97", "title": "solvec with overflow and underflow", "statement": "Over the same IEEE scalars: if cholesky accepts a symmetric A with a factor L whose diagonal is finite, solvec returns Ok, and column j of the answer is finite, then the column solves exactly a system (A + E) x = b + f with |E| at most gamma_(3n+2) |L||Lt| + (1 + gamma_(n+2))(2n + 2 l_kk) eta, k = min(r, c), and |f| at most (1 + gamma_n)(2n + l_rr) eta + (1 + gamma_n)^2 sum_k |l_rk| (2n + l_kk) eta, entry by entry.", "quantifier": "every size, symmetric matrix and right-hand side, every rounding of that accuracy, no restriction on magnitudes", "why_tests_cant": "The tests solve a few well-scaled systems; the claim bounds the effect of all rounding, underflow and overflow.", "anchors": ["src/cholesky.rs:51-76", "src/cholesky.rs:136-145", "src/triangular.rs:95-131"]}
{"id": "C98", "title": "Norms with overflow and underflow", "statement": "Over IEEE scalars with rounding to relative accuracy u and absolute accuracy eta: if norm_l1 is finite then all n entries are finite and it differs from sum |x_i| by at most gamma_n sum |x_i| + (1 + gamma_n) n eta; if norm_l2 is finite then all entries are finite and it differs from the Euclidean norm by at most gamma_(n+2) times that norm + (1 + gamma_(n+2)) sqrt(2 n eta) + eta; norm_max of finite entries is finite and exact. In double precision norm_l2 is infinite as soon as one entry has a magnitude of at least 2^512 and none is NaN, and it is zero for every array of entries of magnitude at most 2^-538, zero or not.", "quantifier": "every number of entries, every rounding of that accuracy; the last two parts: binary64", "why_tests_cant": "The tests take the norms of a few small arrays of moderate numbers; the claim bounds the error for all arrays and says where the unscaled sum of squares fails.", "anchors": ["src/norm.rs:25-35"]}
{"id": "C99", "title": "svd of the transpose", "statement": "In every arithmetic with -(-x) = x in which the largest absolute entry does not depend on the order of the entries (reals, IEEE floats): for a matrix that is not square, svd of the transpose (with the requests for U and Vt exchanged) fails exactly as svd of the matrix does, or both return the same singular values in the same order, bit for bit, and the columns of the left factor of either run are the rows of the right factor of the other one; only a column whose singular value had its sign changed is multiplied by -0 on the left. Over the reals the factors are exactly the transposed factors, exchanged.", "quantifier": "every non-square shape, every matrix including NaN and infinities, every number of iterations", "why_tests_cant": "The tests decompose a few matrices and compare with expected values up to 1e-5; the claim relates two whole runs for every matrix.", "anchors": ["src/svd.rs:17-224", "src/bidiagonal.rs:27-132"]}
{"id": "C100", "title": "Cholesky of a leading block", "statement": "In every arithmetic: if cholesky accepts a matrix it accepts every matrix whose lower triangle is the leading k x k part, with the leading k x k block of the factor as its factor. If cholesky rejects a square matrix there is a row j at which it gives up: leading blocks of size at most j are accepted, larger ones are rejected with NotPositiveDefinite.", "quantifier": "every matrix, every block size, every scalar type", "why_tests_cant": "The tests factor single matrices; the claim relates the factorizations of all leading blocks for every matrix and rounding.", "anchors": ["src/cholesky.rs:51-83"]}
{"id": "C101", "title": "QR of the first columns", "statement": "In every arithmetic: if qr returns for a matrix then it returns for its first k columns, the compact factor and diagonal are the first k columns and entries of those of the whole matrix, and Q is given by the first k columns of Q and R by the leading k x k block of R, bit for bit.", "quantifier": "every thin matrix, every k up to the number of columns, every scalar type", "why_tests_cant": "The tests decompose single matrices; the claim relates two runs for every matrix and rounding.", "anchors": ["src/qr.rs:32-45", "src/qr.rs:84-107", "src/householder.rs:9-93"]}
{"id": "C102", "title": "Right-hand sides are solved column by column", "statement": "In every arithmetic: choosing, repeating and reordering the columns of the right-hand side and then calling solvec, QRDecomp::solve, solve_tr or least_squares fails exactly as for the whole right-hand side or gives exactly the so chosen columns of the answer.", "quantifier": "every matrix, right-hand side and selection of columns, every scalar type", "why_tests_cant": "The tests solve a few systems with one or a few columns; the claim is about every selection of columns and every rounding.", "anchors": ["src/cholesky.rs:136-145", "src/qr.rs:110-192", "src/qr.rs:219-248", "src/triangular.rs:95-145"]}
{"id": "C103", "title": "A positive factor of the matrix", "statement": "eigh and svd divide by the largest absolute entry, so multiplying a non-zero matrix by c > 0 leaves failures, numbers of iterations and all vectors unchanged. Over the reals the values are multiplied by c. Over IEEE floats, if the entries are multiplied without rounding, the vectors are the same bit for bit and the values are the same numbers times the new largest entry instead of the old one. In double precision and for c = 2^k each eigenvalue and singular value is multiplied exactly as long as the old and the new one lie in the normal range.", "quantifier": "every matrix with a non-zero entry (floats: whose largest entry is not zero), every c > 0, every number of iterations", "why_tests_cant": "The tests decompose a few matrices of moderate size; the claim is about two runs bit for bit at every scale.", "anchors": ["src/eigh.rs:10-132", "src/svd.rs:17-224"]}
{"id": "C104", "title": "Sums of the eigenvalues and of the squares", "statement": "Whenever eigh or eigvalsh returns on a symmetric matrix, the returned values add up to the trace exactly, although small off-diagonal entries are dropped on the way, and the sum of their squares is at most the sum of the squares of the entries. Whenever svd returns, with any flags, the sum of the squares of the singular values is at most the sum of the squares of the entries, so no singular value exceeds the Frobenius norm. Both sums of squares fall short by no more than the residual allows. In floating point the sum of the eigenvalues differs from the trace by at most sqrt(n) times the backward error.", "quantifier": "every symmetric matrix (svd: every matrix), every number of iterations", "why_tests_cant": "The tests compare a few decompositions up to a tolerance; the claim is an exact identity and a one-sided bound without tolerance for all matrices.", "anchors": ["src/eigh.rs:10-132", "src/eigh.rs:165-227", "src/svd.rs:17-224"]}
{"id": "C105", "title": "NaN eigenvalues of finite matrices", "statement": "The claim one would like is that eigh returns finite numbers for a symmetric matrix of finite numbers of moderate size. It is false in double precision: wilkinson_shift squares the off-diagonal entry, and when the square underflows while the two diagonal entries are equal it divides zero by zero. For every k from 359 to 537, eigh succeeds on [[-2t,1,0],[1,0,t],[0,t,0]] with t = 2^-k and returns nothing but NaN, eigvalsh likewise, and sorted_eig, which lobpcg relies on, panics.", "quantifier": "every k with 359 <= k <= 537 and every number of iterations from 2 on", "why_tests_cant": "The tests use matrices whose entries are near one; the failure needs entries about 2^-359 beside entries near one and a particular cancellation.", "anchors": ["src/eigh.rs:55-102", "src/eigh.rs:179-187", "src/lobpcg/algorithm.rs:28-44"]}
{"id": "C106", "title": "Start blocks that span an invariant subspace", "statement": "If the columns of the start matrix are independent and span a subspace that the symmetric operator maps into itself (for instance all n columns of an invertible matrix, or one eigenvector), lobpcg without constraints stops at its first iterate and returns Ok, provided the tolerance is at least the error of the eigensolver for the small problem; the vectors are orthonormal, the values in the order asked for, and the residual is at most that error (zero for an exact eigensolver). With the library's own eigensolver and one start vector the returned eigenvalue is exact. Hence TruncatedEig::decompose(n) is a complete eigendecomposition with every eigenvalue listed as often as it occurs, and TruncatedSvd::decompose(min(n, m)) gives a complete singular value decomposition up to the singular values below its cut-off.", "quantifier": "every symmetric operator, preconditioner, order, number of iterations and start matrix with the property", "why_tests_cant": "The tests ask for a few pairs of particular matrices from one random start and compare with a tolerance; the claim is exact and holds for every invariant start block and preconditioner.", "anchors": ["src/lobpcg/algorithm.rs:150-215", "src/lobpcg/eig.rs:138-172", "src/lobpcg/svd.rs:178-241", "src/lobpcg/svd.rs:69-99"]}
{"id": "C107", "title": "Signs of the vectors in sorted_eig", "statement": "sorted_eig multiplies every vector by the sign of its first entry so that \"signs are deterministic\". Its result does not depend on the signs of the vectors that the eigensolver returns: bit for bit in floating-point arithmetic, and in exact arithmetic if no first component is zero; a vector with a zero first component keeps the sign it had. The first row of the result has no negative entry (no sign bit set unless NaN). In exact arithmetic, if the (generalized) eigenvalues are distinct and no eigenvector has a zero first component, every exact eigensolver gives the same result: sorted eigenvalues and the normalized eigenvectors with positive first component.", "quantifier": "every eigensolver result, size, number of vectors and order", "why_tests_cant": "The tests never look at signs and use one eigensolver.", "anchors": ["src/lobpcg/algorithm.rs:28-44", "src/lobpcg/algorithm.rs:16-25"]}
{"id": "C108", "title": "Ascending and descending sorts", "statement": "sort_eig_asc puts the smallest value first and sort_eig_desc the largest. If no two values compare as equal, the values and vectors of the one are those of the other in reverse, and the same holds for sort_svd_asc and sort_svd_desc with the columns of U and the rows of Vt; in exact arithmetic the values alone are reversed also with ties. Sorting sorted pairs again in the same order changes nothing.", "quantifier": "every array of values without NaN and all vectors of matching shape, in every arithmetic with a lawful comparison", "why_tests_cant": "The tests sort a few decompositions in one order each.", "anchors": ["src/eigh.rs:269-322", "src/svd.rs:487-528"]}
{"id": "C109", "title": "Results depend on the entries inside the arrays only", "statement": "Every function of the library gives the same outcome (same error or panic, same values inside the returned shapes) for two inputs with the same shape and the same entries inside that shape, whatever lies outside, for instance when the input is a view into a larger buffer. For LOBPCG this holds if the operator and the preconditioner have the same property.", "quantifier": "every scalar arithmetic, every array, every number of iterations, flag and order; triangular, Cholesky, QR, least squares, eigh, eigvalsh, svd, lobpcg, TruncatedEig and TruncatedSvd", "why_tests_cant": "A test would have to vary the memory around every input of every size.", "anchors": ["src/triangular.rs:95-190", "src/cholesky.rs:51-76", "src/qr.rs:25-140", "src/eigh.rs:10-132", "src/svd.rs:17-224", "src/lobpcg/algorithm.rs:95-330"]}
{"id": "C110", "title": "Floats of a format lead to floats of the format", "statement": "For every IEEE 754 binary format, f32 and f64 in particular: on inputs of the format every number in a result is a number of the format, an infinity or NaN. The model never carries more precision or range than the format. A finite result is at most the largest number of the format in absolute value, a nonzero one at least the smallest subnormal, and rounding it changes nothing.", "quantifier": "every format, every matrix of its numbers, flag, order and number of iterations; all factorizations, solvers, eigenvalue methods and the truncated decompositions", "why_tests_cant": "Tests run on the hardware format; the claim is about the correspondence between the abstract rounding and the format for every run.", "anchors": ["src/triangular.rs:95-190", "src/cholesky.rs:51-76", "src/qr.rs:25-140", "src/eigh.rs:10-132", "src/svd.rs:17-224", "src/lobpcg/eig.rs:138-172", "src/lobpcg/svd.rs:178-241"]}
{"id": "C111", "title": "The main loops on floats end within an explicit number of iterations or never", "statement": "The loops of symmetric_eig and svd have no limit on the number of iterations. On an n x n matrix of numbers of a format with at most N numbers (N < 2^33 for f32, N < 2^65 for f64) the outcome of eigh and eigvalsh is settled after N^(2n-1) n^2 iterations: if they have not returned by then they never return, and otherwise a larger limit changes nothing. The same holds for svd of an m x n matrix with N^(2d-1+k) d^2, d = min(m, n), k the number of entries of the requested factors.", "quantifier": "every binary format, every matrix of its numbers (NaN and infinities included), all flags", "why_tests_cant": "Non-termination cannot be observed by running the code, and the bound concerns every matrix.", "anchors": ["src/eigh.rs:51-127", "src/svd.rs:55-210"]}
{"id": "C112", "title": "Exact arithmetic returns constructible numbers only", "statement": "The library computes with field operations and square roots. Even in exact arithmetic every entry it returns for rational input is a constructible number, so for a rational symmetric matrix with irreducible characteristic polynomial whose size is not a power of two no value returned by eigh, eigvalsh or the truncated decomposition is an eigenvalue, no returned nonzero vector is an eigenvector, and no value returned by svd is a singular value: the tolerances in the accuracy claims cannot be zero.", "quantifier": "every rational (more generally constructible) input, every number of iterations, flag, order, start block, tolerance and preconditioner", "why_tests_cant": "The claim excludes exact answers for every matrix of a class and every run length.", "anchors": ["src/eigh.rs:10-132", "src/svd.rs:17-224", "src/lobpcg/algorithm.rs:95-330", "src/lobpcg/eig.rs:138-172", "src/qr.rs:25-140", "src/cholesky.rs:51-76"]}
{"id": "C113", "title": "Accuracy of the direct solvers and norms with the constants of f32 and f64", "statement": "In every IEEE 754 binary format with mant fraction bits and smallest positive number 2^emin, overflow, underflow, NaN and infinities included: a finite column returned by solve_triangular has a residual of at most n 2^-mant |T||x| + (2n + |t_ii|) 2^emin; a Cholesky factor with finite diagonal satisfies |L L^T - A| <= (n+2) 2^-mant |L||L|^T + (2n + 2 l_jj) 2^emin on the lower triangle; a finite column of solvec solves exactly a system with matrix within (3n+2) 2^-mant |L||L|^T (plus underflow terms) of A; finite norms are accurate.", "quantifier": "every format (f32: mant = 23, emin = -149; f64: mant = 52, emin = -1074), every matrix of its numbers with size at most 2^mant", "why_tests_cant": "Worst-case rounding errors over all matrices are not reached by sampling.", "anchors": ["src/triangular.rs:95-190", "src/cholesky.rs:51-76", "src/cholesky.rs:130-176", "src/norm.rs:22-40"]}
{"id": "C114", "title": "Different routes to the solution of a linear system agree", "statement": "In exact real arithmetic: on symmetric positive definite matrices solvec, QR::solve and least_squares return the same array, and invc and QR::inverse do; QR::solve returns the product of QR::inverse and the right hand side; on triangular matrices solve_triangular and QR::solve agree; least_squares of a full-column-rank matrix returns what solvec returns for the normal equations; least_squares of a wide full-row-rank matrix returns A^T W with W from solvec for A A^T.", "quantifier": "every matrix with the stated property, every right hand side", "why_tests_cant": "Tests compare a few random matrices up to a tolerance.", "anchors": ["src/cholesky.rs:130-176", "src/qr.rs:124-206", "src/qr.rs:214-250", "src/triangular.rs:95-190"]}
{"id": "C115", "title": "Values computed for related matrices: nearby, ordered, submatrices", "statement": "Whenever eigvalsh returns on two symmetric matrices, their sorted values differ one by one by at most ||A-B||_F plus the errors of the two runs; if A <= B as quadratic forms the values are ordered up to these errors; the values of a principal submatrix interlace those of the matrix up to these errors. svd (which always returns over the reals): the same for nearby matrices, and no sorted value of a submatrix exceeds that of the matrix. Nearby matrices also in the standard model of floating point arithmetic.", "quantifier": "every pair of matrices, every order, every choice of rows and columns", "why_tests_cant": "A statement on all pairs of runs.", "anchors": ["src/eigh.rs:10-132", "src/eigh.rs:289-326", "src/svd.rs:17-222", "src/svd.rs:503-530"]}
{"id": "C116", "title": "The decompositions of one matrix are consistent", "statement": "In exact real arithmetic: det A is the squared product of the diagonal of the Cholesky factor; the product of the diagonal of R is |det A|; on positive semidefinite matrices eigvalsh and svd return the same sorted values up to the errors of the two runs; eigvalsh of A^T A returns the squares of the values of svd of A up to the errors; svd of a square matrix and of its transpose agree up to twice the error.", "quantifier": "every matrix with the stated property, all flags, both orders", "why_tests_cant": "Compares two different algorithms on all matrices.", "anchors": ["src/cholesky.rs:51-76", "src/qr.rs:32-106", "src/eigh.rs:10-132", "src/svd.rs:17-222"]}
{"id": "C117", "title": "Diagonal matrices", "statement": "In exact real arithmetic, on a diagonal matrix and for every bound on the iterations (also 0): eigh returns the diagonal in its order and the identity; eigvalsh returns the same values; svd of a tall or wide diagonal matrix returns the absolute values of the diagonal in its order with factors whose product is exactly the matrix; cholesky succeeds exactly if the diagonal is positive and returns the square roots; qr of a diagonal matrix without zeros on the diagonal returns R = |D| and the signs as Q. With rounding errors (standard model): eigh and eigvalsh return every diagonal entry with the relative error of two roundings, svd returns every absolute value with the relative error of m + n + 4 roundings, cholesky succeeds exactly if the diagonal is positive and returns the square roots to two roundings, however far the entries are apart.", "quantifier": "every diagonal matrix of every size, every fuel, all flags", "why_tests_cant": "Tests use a few fixed diagonal matrices.", "anchors": ["src/eigh.rs:10-132", "src/tridiagonal.rs:31-66", "src/bidiagonal.rs:24-97", "src/svd.rs:17-222", "src/cholesky.rs:51-76", "src/qr.rs:32-106"]}
{"id": "C118", "title": "In-place functions on views with arbitrary strides", "statement": "On memory that holds a matrix in a view with any base address and strides (distinct entries at distinct addresses), triangular_inplace, cholesky_inplace(_dirty), solve_triangular_inplace, solvec_inplace, reflect_cols, reflect_rows, rotate_rows, rotate_cols, reflection_axis_mut, clear_column, clear_row, qr_into, into_r, solve_into, solve_tr_into, least_squares_into, bidiagonal, sym_tridiagonal, symmetric_eig and svd fail as on the array of entries or leave its result in the view, return the same values, and write no address outside of the views they are given to write to, in whatever order elementwise operations visit the entries; also when the matrix to read and the array to write interleave in memory. Hence the layout does not matter for the decompositions. sort_eig on values panics exactly on arrays of at least two entries with a stride other than one (or with NaN) and otherwise sorts in place.", "quantifier": "every element type, memory, view, stride (also negative), shape, order of visiting", "why_tests_cant": "Tests try three layouts; aliasing between sub-slices and writes outside of a view show up only for particular strides.", "anchors": ["src/triangular.rs:37-168", "src/cholesky.rs:51-145", "src/reflection.rs:26-37", "src/givens.rs:78-111", "src/householder.rs:9-63", "src/qr.rs:32-45", "src/bidiagonal.rs:27-59", "src/tridiagonal.rs:31-66", "src/eigh.rs:290-301", "src/index.rs:18-44"]}
{"id": "C119", "title": "orthonormalize with rounding errors", "statement": "In floating point, when orthonormalize (the Gram-Cholesky step of lobpcg) succeeds, Q Lᵀ is V up to entrywise γ times |Q||Lᵀ|, and L Lᵀ is the Gram matrix up to γ times the products of absolute values. If the columns of V are independent by a margin, 16 m² γ_{n+m+2} ‖V‖² ≤ c with ‖V x‖² ≥ c ‖x‖², then it succeeds, ‖QᵀQ − 1‖ ≤ 24 m² γ ‖V‖²/c (the square of the condition number, as known of CholeskyQR) and ‖V − Q Lᵀ‖ ≤ 2 γ √m ‖V‖. A margin is needed: in double precision the independent columns of [[1, 1], [2⁻²⁷, 0]] are reported as NotPositiveDefinite.", "quantifier": "every rounding within the standard model, every block shape and entries", "why_tests_cant": "The tests orthonormalize well-conditioned random blocks with a fixed tolerance; the squared condition number shows only on particular blocks.", "anchors": ["src/lobpcg/algorithm.rs:78-97", "src/cholesky.rs:51-76", "src/triangular.rs:86-168"]}
{"id": "C120", "title": "Givens rotations", "statement": "In exact arithmetic cancel_y declines exactly if y = 0 and otherwise returns a rotation matrix (orthogonal, determinant 1) which takes (x, y) to (r, 0), r the length; cancel_x likewise with (0, r); new normalizes (c, s) ≠ 0 and makes the identity of (0, 0), try_new declines exactly if the length is at most eps; rotate_rows multiplies by the rotation from the right, rotate_cols from the left, inverse undoes it, and exactly the wrong shapes are rejected. With rounding errors c and s each carry two roundings. In f32, f64 and every other binary format, for finite x, y and a length that does not overflow, c and s are finite and in [-1, 1], and if the length is not subnormal c² + s² = 1 and (x, y) → (r, 0) up to a small multiple of the unit roundoff. If the length overflows c = s = 0, and for the smallest subnormal numbers c = 1 and s = -1, which is no rotation.", "quantifier": "every vector, every matrix, every binary format", "why_tests_cant": "Tests rotate a few vectors; range, orthogonality and failure cases are claims about all floats.", "anchors": ["src/givens.rs:6-111"]}
{"id": "C121", "title": "apply_constraints with nearly orthonormal constraints", "statement": "If the constraints Y satisfy ||Y^T Y - 1|| <= delta, delta small, then the Gram matrix of Y has a Cholesky factor and apply_constraints, whatever the block V, returns a W with ||Y^T W|| <= 6 delta ||Y^T V|| and W within 4 delta ||Y|| ||Y^T V|| of the orthogonal projection V - Y Y^T V, in exact arithmetic; with rounding errors the same up to 24 s gamma ||Y|| ||V|| and 23 s gamma ||Y||^2 ||V||. A third of delta can remain, so the bound has the right order.", "quantifier": "every nearly orthonormal Y, every block V, every standard model of rounding", "why_tests_cant": "Tests use constraints orthonormal to machine precision and a fixed block; the dependence on delta is a claim about all of them.", "anchors": ["src/lobpcg/algorithm.rs:63-76", "src/lobpcg/algorithm.rs:154-158"]}
{"id": "C122", "title": "Forward errors of the solvers", "statement": "With rounding errors, on a matrix whose smallest singular value is at least c and which is not too ill conditioned for the precision: solve_triangular, QR solve and inverse succeed and their relative error is at most a small multiple of the unit roundoff times ||A|| / c; solvec and invc likewise with trace(A) / c; least_squares has an error with a term proportional to ||A|| / c and one proportional to ||A|| / c^2 times the length of the residual; solve_tr and wide least_squares are within a small multiple of ||A|| / c of the solution of least length.", "quantifier": "every well conditioned matrix, every right-hand side, every standard model of rounding", "why_tests_cant": "Tests compare a few solutions to a tolerance; the dependence of the error on the condition number is a claim about all matrices.", "anchors": ["src/triangular.rs:95-145", "src/cholesky.rs:122-205", "src/qr.rs:110-250"]}
{"id": "C123", "title": "Rate of convergence of LOBPCG", "statement": "In exact arithmetic every step of lobpcg moves the sum of the Ritz values towards its end of the spectrum by at least 2/5 (m/m')^2 rho^2 / a, where a bounds the eigenvalues of the operator, the preconditioner lies between m and m', and rho is the residual norm of any pair that is still active. Hence at most 5 k (a m' / (m tol))^2 steps are made, and a run that was allowed more has converged. For one vector the returned residual norm is at most tol or at most a (m'/m) sqrt(5 / iterations), and once the Ritz value is closer to its end than the unwanted eigenvalues by g, its error shrinks by the factor 1 - 2/5 (m/m')^2 g / a at every step, and the iterate turns towards the eigenvector at that rate. For a block of k vectors whose pairs are all active, with the other eigenvalues beyond the first Ritz values by g, the error of the sum of the Ritz values shrinks by the factor 1 - 2/5 (m/m')^2 g^2 / (k a (g + 2a)), and the block turns towards the k eigenvectors at that rate.", "quantifier": "every symmetric operator, every preconditioner with positive definite symmetric part, every start, every block size, constraints that span an invariant subspace, either order, every maxiter", "why_tests_cant": "Tests run a handful of operators; a rate is a bound on the number of steps for every operator, start and preconditioner.", "anchors": ["src/lobpcg/algorithm.rs:119-431"]}
{"id": "C124", "title": "Accuracy of the values of LOBPCG", "statement": "In exact arithmetic, if all eigenvalues of the operator apart from k wanted ones (and those excluded by the constraints) lie beyond the returned values by at least g, the j-th returned value approximates the j-th wanted eigenvalue from one side with an error of at most (g + 2a)/g^2 times the sum of the squared reported residual norms, and the returned vectors enclose with the wanted eigenvectors angles whose squared sines sum up to at most (g + 2a)/g^3 times that sum. With residual norms below t the errors are at most k (g + 2a) (t/g)^2. While no pair is locked the error of every single Ritz value shrinks geometrically.", "quantifier": "every symmetric operator, start, block size, preconditioner, maxiter, either order, constraints that span an invariant subspace", "why_tests_cant": "Tests compare a few runs with known eigenvalues; that the error is quadratic in the reported residuals, with explicit constants and for the right eigenvalue, is a statement about all operators.", "anchors": ["src/lobpcg/algorithm.rs:119-431"]}
{"id": "C125", "title": "The scale of the preconditioner and of the start block", "statement": "In exact arithmetic orthonormalize returns the same columns for V and for V U, U upper triangular with a positive diagonal, and fails for both or for neither. Hence two runs of lobpcg whose preconditioners (and start blocks) agree up to such a factor have the same outcome: values, vectors, residual norms, errors. In particular precondition_with(c T) for c > 0 does what precondition_with(T) does, and the scale of the random start block is irrelevant. In floating point this fails by underflow: if the squares of the entries of the first column are below half of the smallest positive number, orthonormalize and lobpcg return NotPositiveDefinite.", "quantifier": "every operator, preconditioner, constraints, start, positive scale, maxiter; every IEEE format and order of summation for the underflow", "why_tests_cant": "Tests use one preconditioner and one scale; independence of the scale is a relation between pairs of runs for all scales.", "anchors": ["src/lobpcg/algorithm.rs:81-97", "src/lobpcg/algorithm.rs:119-431", "src/lobpcg/eig.rs:109-172"]}
{"id": "C126", "title": "Accuracy of the truncated decompositions", "statement": "In exact arithmetic, let all singular values of the matrix apart from num wanted ones have squares that lie beyond the returned eigenvalue estimates by at least g, and let a bound the singular values. Then decompose and values of TruncatedSvd succeed and the j-th value s approximates the j-th wanted singular value sigma from one side, with |s - sigma| <= (g + 2a^2)/g^2 * (sum of the squared residual norms) / (s + sigma). The j-th value of TruncatedEig approximates the j-th wanted eigenvalue up to (g + 2a)/g^2 times the sum of the squared residual norms. Converged or not.", "quantifier": "every matrix of every shape, start, maxiter, precision, either order; for TruncatedEig every preconditioner and all constraints that span an invariant subspace", "why_tests_cant": "Tests compare a few decompositions with known values; an error bound by the reported residuals with explicit constants and for the right index is a statement about all matrices.", "anchors": ["src/lobpcg/svd.rs:29-66", "src/lobpcg/svd.rs:178-241", "src/lobpcg/eig.rs:138-172", "src/lobpcg/algorithm.rs:119-431"]}
{"id": "C127", "title": "Settings of LOBPCG: iterations, tolerance, precision in f32", "statement": "Allowing more iterations continues the same run: the iterates with maxiter m are the first 1 + min(10 n, m) of those with m' >= m, the outcome is the same if the iterations were not used up, an error stays an error, and the returned sum of residual norms does not grow. For a single vector the same holds for a smaller tolerance. If no number exceeds the tolerance (NaN, infinity) lobpcg returns the first iterate as a success. TruncatedEig uses its f32 precision unchanged in f32 and f64. TruncatedSvd squares it in f32 before the conversion: the tolerance is the square up to 2^-23 if that is a normal f32, but it is zero for a precision of at most 2^-75, and infinite from 2^64 on, so that the first Ritz pairs of the random block are returned, as for a NaN.", "quantifier": "every scalar type, eigensolver, operator, preconditioner, constraints, start, maxiter; every precision in f32, every format that contains f32", "why_tests_cant": "Tests run single settings; the relation between runs with different settings, and the extreme values of precision, are claims about all of them.", "anchors": ["src/lobpcg/algorithm.rs:119-431", "src/lobpcg/svd.rs:134-153", "src/lobpcg/svd.rs:178-220", "src/lobpcg/eig.rs:71-95", "src/lobpcg/eig.rs:138-172"]}
{"id": "C128", "title": "Values and vectors of the truncated SVD in floating point", "statement": "Let the eigenvalues found by the solver be arbitrary floats other than NaN. For Order::Largest every value is a positive finite float, within one unit in the last place of the square root of a positive eigenvalue, and the values descend as floats; if an eigenvalue is infinite, there are no values at all. For Order::Smallest nothing is dropped: a zero eigenvalue gives the value zero and a vector without a single finite entry, a negative one the value NaN and a vector of NaNs, without an error. This happens: decompose of the 1x1 zero matrix succeeds and its right vector is NaN.", "quantifier": "every binary format (f32, f64), all eigenvalues, vectors and shapes; for the zero matrix every precision and maxiter", "why_tests_cant": "Tests use matrices of full rank and finite eigenvalues; the claim is about all floats including infinities, subnormal and negative numbers.", "anchors": ["src/lobpcg/svd.rs:29-99", "src/lobpcg/svd.rs:178-263"]}
{"id": "C129", "title": "Scaling by powers of two is invisible to the direct solvers", "statement": "Let rows and columns be multiplied by powers of two and let nothing overflow or underflow. Then cholesky(D A D) is D cholesky(A), solvec gives D^-1 X F for D A D and D B F, invc gives D^-1 A^-1 D^-1, solve_triangular gives E^-1 X F for D L E and D B F; qr(A E) has the R factor R E, the same answer of is_invertible and, if that is yes, the same Q; least_squares gives E^-1 X F for A E and B F, and for a wide matrix the same solution for D A and D B; inverse gives E^-1 A^-1; the norms are homogeneous. All digits agree, all errors agree.", "quantifier": "every scalar type with factors which commute with its operations, e.g. f64 arithmetic with unbounded exponents; every shape, matrix, right-hand side, all powers of two", "why_tests_cant": "Tests compare with tolerances on a few matrices; the claim is the equality of all digits for all inputs and all scalings.", "anchors": ["src/cholesky.rs:51-76", "src/cholesky.rs:118-198", "src/triangular.rs:95-187", "src/householder.rs:9-93", "src/qr.rs:32-247", "src/norm.rs:25-35"]}
{"id": "C130", "title": "LOBPCG does not depend on the orthonormal basis", "statement": "Let the columns of Q be orthonormal (Q square, or taller than wide). If operator, preconditioner, constraints and start block of a second run are those of the first one multiplied by Q, then in exact arithmetic lobpcg has the same outcome: the same eigenvalues, residual norms and errors, in every iteration the same masks and Gram matrices, and eigenvectors multiplied by Q. Hence TruncatedEig finds the same values for A and Q A Q^T, a run that starts in an invariant subspace never leaves it and does not depend on the rest of the matrix, and TruncatedSvd finds the same singular values for A and U A V^T, with vectors U u and V v.", "quantifier": "every operator, preconditioner, constraints, start, tolerance, maxiter, order, including all failures; every Q, U, V with orthonormal columns; the eigensolver of the code", "why_tests_cant": "Tests run single matrices; the claim relates all pairs of runs on infinitely many matrices, through all iterations and error paths.", "anchors": ["src/lobpcg/algorithm.rs:16-431", "src/lobpcg/eig.rs:138-172", "src/lobpcg/svd.rs:62-99", "src/lobpcg/svd.rs:178-241"]}
{"id": "C131", "title": "The unit of the matrix does not matter to the truncated solvers", "statement": "Multiply the operator and the tolerance of lobpcg by a factor, and the results of the preconditioner and the start block by any other factors. Then the outcome is the same: eigenvalues and residual norms are multiplied by the factor; eigenvectors, errors and, in every iteration, masks and Gram matrices are unchanged. This holds in exact arithmetic for all positive factors and in floating point, digit for digit, for all powers of two as long as nothing overflows or underflows. TruncatedEig and TruncatedSvd inherit it, for factors of the matrix and of the precision; the singular values are multiplied by the factor and the same number of them passes the cutoff. The iterator of TruncatedEig does not: it compares residual norms with 0.1, so that for a large factor it ends at once.", "quantifier": "every operator, preconditioner, constraints, start, tolerance, maxiter, order, factor, including all failures and all iterations; the eigensolver of the code", "why_tests_cant": "Relates infinitely many pairs of runs, in exact arithmetic as well as with every rounding of double precision.", "anchors": ["src/lobpcg/algorithm.rs:16-431", "src/lobpcg/eig.rs:138-172", "src/lobpcg/eig.rs:243-292", "src/lobpcg/svd.rs:29-99", "src/lobpcg/svd.rs:178-241", "src/eigh.rs:21-75"]}
{"id": "C132", "title": "Another orthonormal basis in the direct methods", "statement": "Let A' = W A V^T, where the columns of W and V are orthonormal, and b' = W b: the same problem in another orthonormal basis, or placed in a larger space. In exact arithmetic norm_l2 is the same; is_invertible answers the same; R is the same for A and W A, and Q becomes W Q; least_squares returns V x instead of x, for tall and for wide matrices, with or without exact solution, and fails on both or on none; inverse becomes V A^-1 W^T; for V = W, cholesky succeeds on both or on none, solvec returns W x and invc W A^-1 W^T. The sorted values of eigvalsh and of svd change by no more than the errors of the two runs, and the additional singular values of a W with more rows are zero up to that error.", "quantifier": "every matrix, right hand side and pair of matrices with orthonormal columns; all flags and orders", "why_tests_cant": "The steps taken on A and on A' have no entry in common, and W and V range over a continuum.", "anchors": ["src/qr.rs:21-37", "src/qr.rs:92-260", "src/cholesky.rs:51-260", "src/eigh.rs:10-132", "src/svd.rs:17-224", "src/norm.rs:29-31"]}
{"id": "C133", "title": "Accuracy of the vectors", "statement": "A returned eigenvector or pair of singular vectors is close to a sum of exact ones belonging to nearby values: for every distance d > 0, the distance to the span of the eigenvectors whose eigenvalues are closer than d to the returned value is at most residual / d. The residual is the norm returned with the pair for lobpcg and TruncatedEig::decompose, at most 1/10 for the blocks of the iterator, at most 2(n-1)*2^-52*||A||_F for eigh, where the value is the one told by the permutation of C30, at most sqrt(2)*10(min(m,n)-1)*2^-52*||A||_F for the left and right vectors of svd together, and the returned norm divided by the singular value for TruncatedSvd. If the nearby eigenvectors are multiples of one vector u, the returned vector is that close to a multiple of u.", "quantifier": "every matrix (symmetric for the eigenproblems), every d > 0, every run that returns; for LOBPCG converged or not, any preconditioner, constraints and eigensolver for the small problems (for TruncatedSvd the assumptions of C74)", "why_tests_cant": "Tests compare with the vectors of one matrix with well separated values; the claim is about all matrices, with clusters of every width.", "anchors": ["src/lobpcg/algorithm.rs:119-431", "src/lobpcg/eig.rs:138-186", "src/lobpcg/eig.rs:243-292", "src/lobpcg/svd.rs:62-100", "src/lobpcg/svd.rs:178-242", "src/eigh.rs:10-132", "src/svd.rs:17-224"]}
{"id": "C134", "title": "Approximation by a matrix of low rank", "statement": "The leading singular triples give a best approximation of low rank. After svd and sort_svd_desc the sum of the first k triples has rank at most k, and its Frobenius distance to the matrix exceeds that of any matrix of rank at most k by no more than twice the error of svd. The triples of TruncatedSvd, converged or not, make up a matrix whose squared distance to the given one is exactly the squared norm minus the sum of the squares of the returned values; if the largest singular values are separated from the others, no matrix of that rank is closer except for the number of values times (g+2a^2)/g^2 times the sum of the squared residual norms.", "quantifier": "every matrix, every k, every matrix X of rank at most k; every run of TruncatedSvd under the assumptions of C74", "why_tests_cant": "The competitors are all matrices of rank at most k, a continuum, and the matrix is arbitrary.", "anchors": ["src/svd.rs:17-224", "src/svd.rs:488-530", "src/lobpcg/svd.rs:62-100", "src/lobpcg/svd.rs:178-242"]}
{"id": "C135", "title": "Norm, condition and definiteness read off the values", "statement": "The largest value of svd is the largest factor by which the matrix stretches a vector, and, with at least as many rows as columns, the smallest value is the smallest such factor, each up to the error of the run and each attained by some vector. If all values exceed that error, then is_invertible of the QR decomposition is true. The values of eigvalsh bound the quadratic form x.Ax from both sides, and each value is attained at a unit vector, up to the error. If all of them exceed the error, then cholesky succeeds; if one is at most minus the error, then cholesky reports NotPositiveDefinite. The same holds in floating point with the error bounds of C84 and C86 (singular values without factors), where the values of eigvalsh decide whether cholesky in the same arithmetic succeeds, and the smallest value of svd bounds the error of the solution of a linear system.", "quantifier": "every matrix (symmetric for eigvalsh), every vector, all flags, every run that returns", "why_tests_cant": "Compares the values with the stretch of every vector, and one algorithm with another on all matrices.", "anchors": ["src/svd.rs:17-224", "src/eigh.rs:10-132", "src/cholesky.rs:51-76", "src/qr.rs:194-200"]}
{"id": "C136", "title": "Parts of triangular systems", "statement": "In every arithmetic, bit by bit: the first k unknowns that solve_triangular finds for a lower triangular system are those of the system of the first k equations in the first k unknowns; the last k unknowns of an upper triangular system are those of the last k equations in the last k unknowns; and an upper system with unknowns and equations in reversed order gives the answers of the lower one in reversed order.", "quantifier": "every arithmetic (NaN, overflow, division by zero included), every n, k, matrix and right-hand side", "why_tests_cant": "Equality of two runs of different length for all inputs and any rounding.", "anchors": ["src/triangular.rs:95-144", "src/triangular.rs:147-187"]}
{"id": "C137", "title": "Solving with the factors of svd", "statement": "Dividing by the singular values above a cutoff with the factors returned by svd gives the Moore-Penrose inverse of a matrix that differs from the given one by at most the error of svd plus the root of the sum of squares of the values left out; so it gives the shortest least squares solution for that matrix, whatever the rank. If all values are at least c and the cutoff is below c and three times the error of svd at most c, least_squares accepts the matrix, and the two answers agree up to 2e/(c-e) relative to the answer, plus 4e/(c-e)^2 times the residual for tall matrices; up to 4e/(c-e) for wide ones.", "quantifier": "every real matrix of any shape and rank, every cutoff, every right-hand side, every run of svd that returns", "why_tests_cant": "A perturbation bound against the exact solution of a nearby problem, for all matrices, shapes and cutoffs.", "anchors": ["src/svd.rs: svd and helpers, SVD, SVDInto", "src/qr.rs: LeastSquaresQrInto, LeastSquaresQr"]}
{"id": "C138", "title": "The Cholesky factor in parts", "statement": "Let the first p unknowns of a symmetric system be eliminated with solvec: X solves A11 X = A12 and G = A22 - A21 X. cholesky accepts A if and only if it accepts G (solvec having accepted A11), and its factor of G is the trailing block of the factor of A; invc(G) is the trailing block of invc(A). The square of the k-th diagonal entry of the factor is the smallest value of the quadratic form among vectors with x_k = 1 and x_j = 0 for j > k.", "quantifier": "every symmetric real matrix, every way to split it into two blocks, every k", "why_tests_cant": "An equivalence and an equality of two runs on different matrices for all sizes and splittings.", "anchors": ["src/cholesky.rs: CholeskyInplace, Cholesky, SolveC, InverseC"]}
{"id": "C139", "title": "Factors of a product and of stacked rows", "statement": "The factors returned by qr are the only ones with orthonormal columns and a positive upper triangular diagonal. Therefore qr(A T) with T upper triangular and a positive diagonal has the Q of A and the upper factor R T; qr of a returned Q gives it back with the unit matrix, and likewise for a returned R. cholesky(K A K^T) is K times cholesky(A), and fails exactly when cholesky(A) fails. R of the rows of A and B together is R of the rows of R_A and B together, and least_squares may be given R_A and Q^T c in place of the first group of equations. least_squares for A T returns y with T y equal to the solution for A.", "quantifier": "all real matrices of the right shapes with independent columns, all such T and K, all splittings of the rows with at least as many rows as columns in the first group", "why_tests_cant": "Equalities between results of different runs on different matrices, for all sizes.", "anchors": ["src/qr.rs: QRInto, QRDecomp, LeastSquaresQrInto", "src/cholesky.rs: CholeskyInplace"]}
{"id": "C140", "title": "Cholesky decomposition within the range of the float format", "statement": "In IEEE 754 floats, if a symmetric matrix of finite numbers is well conditioned after scaling its diagonal to one (smallest eigenvalue of the scaled matrix at least 4(n+1) gamma_(n+2)) and its diagonal lies between 32 times the smallest normal number and 1/16 of 2^emax, then cholesky returns, every entry of the factor is finite, its diagonal is positive, and L L^T differs from A by at most 4 gamma_(n+2) sqrt(a_ii a_jj): no overflow occurs, underflow has no visible effect, and solvec returns for every right-hand side.", "quantifier": "all IEEE formats at least as wide as single precision, all orders of summation, all n with n+2 <= 2^(mant-6), all such matrices", "why_tests_cant": "All sizes and all matrices across the whole exponent range; intermediate overflow shows only in particular combinations of magnitudes.", "anchors": ["src/cholesky.rs: CholeskyInplace", "src/cholesky.rs: SolveCInplace"]}
{"id": "C141", "title": "Solving symmetric positive definite systems without overflow", "statement": "In IEEE 754 floats, if a symmetric matrix of finite numbers is well conditioned after scaling its diagonal to one (smallest eigenvalue of the scaled matrix at least 8(n+1) gamma_(n+2)), its diagonal lies in [2^(-2t), 2^(2t)] and the right-hand sides are finite and at most 2^t in absolute value, with 5t + 2 mant + 9 <= emax, then solvec returns, every number of the answer is finite, and every column x solves (A + E) x = b + f with |E_rc| <= 2 gamma_(3n+2) sqrt(a_rr a_cc) and an f of the order of the smallest positive number.", "quantifier": "all IEEE formats at least as wide as single precision, all orders of summation, all n with n+2 <= 2^(mant-6), all numbers of right-hand sides, all such systems", "why_tests_cant": "All sizes and all systems across the exponent range; overflow in the middle of the two substitutions shows only for particular combinations of magnitudes.", "anchors": ["src/cholesky.rs: SolveCInplace", "src/triangular.rs: SolveTriangularInplace"]}
{"id": "C142", "title": "Orthogonal columns, and eigenvalues that solve an equation", "statement": "If the columns of A are orthogonal and not zero, qr returns R = diag(lengths) and Q = the normalized columns, least_squares returns the Fourier coefficients, and the inverse of an orthogonal matrix is its transpose. If the columns are orthogonal, the sorted values of svd are the sorted column lengths up to the error of svd (all near 1 for an isometry). If a symmetric A satisfies p(A) = 0 for a polynomial p, every value of eigvalsh is near a root of p: near 0 or 1 for projections, for which eigvalsh always returns, and near 1 or -1 for matrices that are their own inverse.", "quantifier": "all sizes, all such real matrices, all right-hand sides, all polynomials, both sort orders, all flags", "why_tests_cant": "All sizes and all matrices of these kinds; a test sees only single matrices.", "anchors": ["src/qr.rs: qr_into, solve_into, inverse", "src/svd.rs: svd_into, sort_svd", "src/eigh.rs: eigvalsh_into"]}
{"id": "C143", "title": "Solving triangular systems without overflow", "statement": "In IEEE 754 floats, if the numbers in the chosen triangle T are finite, its Frobenius norm is at most 2^t, its smallest singular value is at least 2^(-t) and at least 2 gamma_(n+2) times its norm, and the right-hand sides are finite and at most 2^t in absolute value, with 5t + mant + 3 <= emax, then solve_triangular returns, every number of the answer is finite whatever the other triangle holds (NaN included), and every column x solves (T + E) x = b + f with |E| <= gamma_n |T| entry by entry and an f of the order of the smallest positive number.", "quantifier": "all IEEE formats at least as wide as single precision, both triangles, all n with n+2 <= 2^(mant-6), all numbers of right-hand sides, all such systems", "why_tests_cant": "All sizes and all systems across the exponent range; overflow in the middle of the substitution shows only for particular combinations of magnitudes.", "anchors": ["src/triangular.rs: solve_triangular_system_common", "src/triangular.rs: solve_triangular_inplace"]}
{"id": "C144", "title": "The norms within the range of the float format", "statement": "In IEEE 754 floats, for n finite entries with n+2 <= 2^(mant-6): if the sum of the absolute values is at most 2^(emax-3), norm_l1 is finite with relative error at most gamma_n and absolute error at most 2n times half the smallest positive number; if the sum of squares is at most 2^(emax-4), norm_l2 is finite; if the sum of squares is also at least 2^(emin+2mant+2), the relative error of norm_l2 is at most 2 gamma_(n+2).", "quantifier": "all IEEE formats at least as wide as single precision, all lists of finite entries of any length n with n+2 <= 2^(mant-6), any mixture of magnitudes", "why_tests_cant": "All lengths and all mixtures of magnitudes; the sums overflow or lose their small terms only for particular combinations.", "anchors": ["src/norm.rs: norm_l1, norm_l2"]}
{"id": "C145", "title": "Inner products and matrix products within the range of the float format", "statement": "In IEEE 754 floats, for vectors of n finite entries with n+2 <= 2^(mant-6): if the absolute values of the products add up to at most 2^(emax-3), dot is finite in whatever order the kernel adds the products and whether or not it fuses them, and its error is at most gamma_(n+1) times that sum plus 2n(n+1) times half the smallest positive number. The same holds for every entry of a matrix product.", "quantifier": "all IEEE formats at least as wide as single precision, all orders of summation, all n with n+2 <= 2^(mant-6), all finite entries", "why_tests_cant": "A test sees one kernel on one machine; here the order of operations is arbitrary and so are the lengths and magnitudes.", "anchors": ["src/householder.rs: reflection_axis_mut", "src/reflection.rs: reflect_cols", "src/lobpcg/algorithm.rs: generalized_eig, apply_constraints, orthonormalize"]}
{"id": "C146", "title": "The axis of a Householder reflection within the range of the float format", "statement": "In IEEE 754 floats, if the n entries of a column are finite, n+2 <= 2^(mant-6), and their squares add up to between 2^(emin+2mant+2) and 2^(emax-5), reflection_axis_mut returns a norm and an axis, all finite. The norm has a relative error of at most 3 gamma_(n+2); each entry of the axis has a relative error of at most 12 gamma_(n+2) plus an absolute error of half the smallest positive number, compared with an exact axis of length 1 that reflects the column onto the first unit vector.", "quantifier": "all IEEE formats at least as wide as single precision, all orders of summation, all n with n+2 <= 2^(mant-6), all such columns, first entries of either sign and zeros of either sign", "why_tests_cant": "All lengths and magnitudes across the exponent range and every order of summation.", "anchors": ["src/householder.rs: reflection_axis_mut"]}
{"id": "C147", "title": "Reflecting columns and rows within the range of the float format", "statement": "In IEEE 754 floats, if the entries of the axis are finite and at most 2 in absolute value, those of the matrix finite and at most 2^(emax-8), and for each column (row) the absolute values of its products with the axis add up to at most 2^(emax-7), then reflect_cols (reflect_rows) with bias 0 returns a matrix of the same shape, every entry is finite, and entry (i,j) is within gamma_(n+2) (|a_ij| + 7 |w_i| sum_k |w_k a_kj|) + (6 |w_i| (n+1)^2 + 3) times half the smallest positive number of a_ij - 2 w_i sum_k w_k a_kj.", "quantifier": "all IEEE formats at least as wide as single precision, all orders of summation, all n with n+2 <= 2^(mant-6), any number of columns, all such axes and matrices", "why_tests_cant": "All sizes, orders of summation and magnitudes up to 1/256 of the largest float.", "anchors": ["src/reflection.rs: reflect_cols", "src/reflection.rs: reflect_rows"]}
{"id": "C148", "title": "Applying Givens rotations within the range of the float format", "statement": "In IEEE 754 floats, if c and s are finite and at most 1 in absolute value and the entries of the two columns (rows) are finite and at most 2^(emax-3), rotate_rows (rotate_cols) returns a matrix of the same shape, all entries are finite, and each is the exact combination of the two up to 3u times the sum of the absolute values of its two terms and 4 times half the smallest positive number, u = 2^(-mant-1).", "quantifier": "all IEEE formats at least as wide as single precision, any number of rows (columns), all such rotations and entries", "why_tests_cant": "All magnitudes up to an eighth of the range, and all mixtures of them.", "anchors": ["src/givens.rs: rotate_rows", "src/givens.rs: rotate_cols"]}
{"id": "C149", "title": "One Householder step within the range of the float format", "statement": "In IEEE 754 floats, if the cleared part of the column has squares adding up to between 2^(emin+2 mant+2) and 2^(emax-5) and the same rows of the columns to its right have absolute values adding up to at most 2^(emax-8), clear_column returns and the norm, the axis and the reflected columns are all finite. There is an exact unit axis that reflects the column to a multiple of the first unit vector; the norm is within 3 gamma_(n+2) of it, the stored axis within 12 gamma_(n+2) plus half the smallest positive number, and the stored columns are those exactly reflected along it, times the sign of the norm, up to 65 gamma_(n+2) times the sum of the absolute values of the column plus 12 (n+1)^2 times half the smallest positive number. Nothing else is written. The same for rows in clear_row.", "quantifier": "all IEEE formats at least as wide as single precision, all shapes with n+2 at most 2^(mant-6), every column and shift, any evaluation order of the inner products", "why_tests_cant": "All magnitudes in the range and all evaluation orders; a test compares a few matrices with a tolerance.", "anchors": ["src/householder.rs: clear_column", "src/householder.rs: clear_row"]}
{"id": "C150", "title": "A computed Givens rotation keeps lengths in floats", "statement": "In IEEE 754 floats, cancel_y of two finite numbers, the second not zero, whose length neither overflows nor is subnormal returns a rotation with which rotate_rows keeps finite rows finite and changes the length of each by at most 25u times the length plus 8 times half the smallest positive number, u = 2^(-mant-1), provided the entries are at most 2^(emax-3).", "quantifier": "all IEEE formats at least as wide as single precision, all such pairs, any number of rows, all entries of that size", "why_tests_cant": "All pairs and all rows, including rows whose squares would overflow.", "anchors": ["src/givens.rs: cancel_y", "src/givens.rs: rotate_rows"]}
{"id": "C151", "title": "A Householder step keeps lengths in floats", "statement": "In IEEE 754 floats and within the range of C149, the absolute value of the norm returned by clear_column is the length of the cleared part of the column up to 3 gamma_(n+2) of itself, and the length of the reflected part of each other column changes by at most 65 n sqrt(n) gamma_(n+2) times itself plus 12 n (n+1)^2 times half the smallest positive number.", "quantifier": "all IEEE formats at least as wide as single precision, all shapes with n+2 at most 2^(mant-6), every column and shift, any evaluation order of the inner products", "why_tests_cant": "All matrices in the range and all evaluation orders; the bound is on the growth per step, which a test sees only for its matrices.", "anchors": ["src/householder.rs: clear_column"]}
{"id": "C152", "title": "The returned norm shows that a Householder step was in range", "statement": "In IEEE 754 floats, if the cleared part of the column is finite with squares adding up to at most 2^(emax-5) and clear_column returns a norm whose square is at least 4 * 2^(emin+2 mant+2), then the squares of the column add up to at least 2^(emin+2 mant+2). So the lower condition of C149 and C151 can be checked on the result: if also the columns to the right are within their range, all that was written is finite and the norm is the length of the column up to 3 gamma_(n+2) of itself.", "quantifier": "all IEEE formats at least as wide as single precision, all shapes with n+2 at most 2^(mant-6), every column and shift, any evaluation order of the inner products", "why_tests_cant": "It excludes that partial underflow of the squares yields a norm of normal size, for all columns.", "anchors": ["src/householder.rs: clear_column", "src/householder.rs: reflection_axis_mut"]}
{"id": "C153", "title": "The QR factorisation is finite within the range of the float format", "statement": "In IEEE 754 floats, let a be a finite m x n matrix, n at most m, with columns of length at most X0, and let X be at least (1+rho)^n (X0 + n tau), where rho = 65 m sqrt(m) gamma_(m+2) and tau = 12 m (m+1)^2 times half the smallest positive number. If sqrt(m) X is at most 2^(emax-8) and X^2 at most 2^(emax-5), qr_into returns, and if the squares of all entries of the returned diagonal are at least 4 * 2^(emin+2 mant+2), all entries of the packed matrix and of the diagonal are finite.", "quantifier": "all IEEE formats at least as wide as single precision, all shapes with m+2 at most 2^(mant-6), all such matrices, any evaluation order of the inner products", "why_tests_cant": "All matrices of any shape, with the growth over all steps; tests cannot show that no intermediate number overflows.", "anchors": ["src/qr.rs: qr_into", "src/householder.rs: clear_column"]}
{"id": "C154", "title": "Backward error of the QR factorisation within the range of the float format", "statement": "In IEEE 754 floats, under the conditions of C153 on the m x n matrix a and on the returned diagonal, there is an orthogonal m x m matrix Q such that every column of Q a differs from the column of the matrix that into_r returns, with rows of zeros below, by a vector of length at most n (rho X + tau).", "quantifier": "all IEEE formats at least as wide as single precision, all shapes with n at most m and m+2 at most 2^(mant-6), all such matrices, any evaluation order of the inner products", "why_tests_cant": "The orthogonal matrix is exact and is not computed by the program; the bound is for all matrices of any shape and includes underflow.", "anchors": ["src/qr.rs: qr_into", "src/qr.rs: into_r", "src/householder.rs: clear_column"]}
