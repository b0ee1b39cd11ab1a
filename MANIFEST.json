{
 "claims": [
  {
   "property": "C01",
   "status": "proved",
   "theorems": [
    "LinfaLinalg.C01_into_triangular",
    "LinfaLinalg.C01_not_square",
    "LinfaLinalg.C01_idempotent",
    "LinfaLinalg.C01_diagonal"
   ],
   "note": "every scalar type, every shape"
  },
  {
   "property": "C02",
   "status": "proved",
   "theorems": [
    "LinfaLinalg.C02_is_triangular",
    "LinfaLinalg.C02_into_triangular_passes"
   ],
   "note": "every scalar type; the second theorem assumes is_zero(0) = true of the scalar type"
  },
  {
   "property": "C03",
   "status": "proved",
   "theorems": [
    "LinfaLinalg.C03_solve_triangular"
   ],
   "note": "exact real arithmetic"
  },
  {
   "property": "C04",
   "status": "proved",
   "theorems": [
    "LinfaLinalg.C04_other_triangle_unused"
   ],
   "note": "every scalar type"
  },
  {
   "property": "C05",
   "status": "proved",
   "theorems": [
    "LinfaLinalg.C05_columns_independent"
   ],
   "note": "every scalar type"
  },
  {
   "property": "C06",
   "status": "proved",
   "theorems": [
    "LinfaLinalg.C06_shape_errors"
   ],
   "note": "every scalar type"
  },
  {
   "property": "C07",
   "status": "proved",
   "theorems": [
    "LinfaLinalg.C07_cholesky_safe",
    "LinfaLinalg.C07_triangular_safe"
   ],
   "note": "every scalar type; triangular.rs and cholesky.rs"
  },
  {
   "property": "C08",
   "status": "proved",
   "theorems": [
    "LinfaLinalg.C08_cholesky_factor"
   ],
   "note": "exact real arithmetic"
  },
  {
   "property": "C09",
   "status": "proved",
   "theorems": [
    "LinfaLinalg.C09_cholesky_iff_posDef",
    "LinfaLinalg.C09_cholesky_not_square"
   ],
   "note": "exact real arithmetic"
  },
  {
   "property": "C10",
   "status": "proved",
   "theorems": [
    "LinfaLinalg.C10_upper_ignored",
    "LinfaLinalg.C10_upper_preserved"
   ],
   "note": "every scalar type, also on failure"
  },
  {
   "property": "C11",
   "status": "proved",
   "theorems": [
    "LinfaLinalg.C11_clean_dirty",
    "LinfaLinalg.C11_inplace"
   ],
   "note": "every scalar type; by-value/by-reference wrappers share one model definition"
  },
  {
   "property": "C12",
   "status": "proved",
   "theorems": [
    "LinfaLinalg.C12_cholesky_unique",
    "LinfaLinalg.C12_round_trip"
   ],
   "note": "exact real arithmetic"
  },
  {
   "property": "C13",
   "status": "proved",
   "theorems": [
    "LinfaLinalg.C13_solvec",
    "LinfaLinalg.C13_solvec_errors",
    "LinfaLinalg.C13_solvec_not_posDef"
   ],
   "note": "exact real arithmetic; error table for every scalar type"
  },
  {
   "property": "C14",
   "status": "proved",
   "theorems": [
    "LinfaLinalg.C14_invc"
   ],
   "note": "exact real arithmetic"
  },
  {
   "property": "C15",
   "status": "proved",
   "theorems": [
    "LinfaLinalg.C15_reflect_cols",
    "LinfaLinalg.C15_reflect_rows",
    "LinfaLinalg.C15_reflection"
   ],
   "note": "exact real arithmetic"
  },
  {
   "property": "C16",
   "status": "proved",
   "theorems": [
    "LinfaLinalg.C16_qr"
   ],
   "note": "exact real arithmetic; rank-deficient and empty matrices included"
  },
  {
   "property": "C17",
   "status": "proved",
   "theorems": [
    "LinfaLinalg.C17_qr_thin",
    "LinfaLinalg.C17_qr_methods_safe"
   ],
   "note": "every scalar type; also all methods of the decomposition"
  },
  {
   "property": "C18",
   "status": "proved",
   "theorems": [
    "LinfaLinalg.C18_is_invertible"
   ],
   "note": "exact real arithmetic"
  },
  {
   "property": "C19",
   "status": "proved",
   "theorems": [
    "LinfaLinalg.C19_least_squares",
    "LinfaLinalg.C19_square",
    "LinfaLinalg.C19_errors"
   ],
   "note": "exact real arithmetic"
  },
  {
   "property": "C20",
   "status": "proved",
   "theorems": [
    "LinfaLinalg.C20_solve_tr",
    "LinfaLinalg.C20_least_squares_wide",
    "LinfaLinalg.C20_errors"
   ],
   "note": "exact real arithmetic"
  },
  {
   "property": "C21",
   "status": "proved",
   "theorems": [
    "LinfaLinalg.C21_inverse"
   ],
   "note": "exact real arithmetic"
  },
  {
   "property": "C22",
   "status": "proved",
   "theorems": [
    "LinfaLinalg.C22_r_is_cholesky"
   ],
   "note": "exact real arithmetic"
  },
  {
   "property": "C23",
   "status": "proved",
   "theorems": [
    "LinfaLinalg.C23_tridiagonal"
   ],
   "note": "exact real arithmetic"
  },
  {
   "property": "C24",
   "status": "proved",
   "theorems": [
    "LinfaLinalg.C24_tridiagonal_errors"
   ],
   "note": "every scalar type"
  },
  {
   "property": "C25",
   "status": "proved",
   "theorems": [
    "LinfaLinalg.C25_bidiagonal"
   ],
   "note": "exact real arithmetic; any non-empty shape"
  },
  {
   "property": "C26",
   "status": "proved",
   "theorems": [
    "LinfaLinalg.C26_bidiagonal_errors"
   ],
   "note": "every scalar type"
  },
  {
   "property": "C27",
   "status": "proved",
   "theorems": [
    "LinfaLinalg.C27_eigvalsh_eq_eigh"
   ],
   "note": "every scalar type, every number of iterations"
  },
  {
   "property": "C28",
   "status": "proved",
   "theorems": [
    "LinfaLinalg.C28_eigh_orthonormal"
   ],
   "note": "exact real arithmetic, every number of iterations"
  },
  {
   "property": "C29",
   "status": "proved",
   "theorems": [
    "LinfaLinalg.C29_eigvalsh_backward_stable"
   ],
   "note": "exact real arithmetic, every number of iterations; eigenvalues as roots of the characteristic polynomial"
  },
  {
   "property": "C30",
   "status": "partial",
   "theorems": [
    "LinfaLinalg.C30_eigh_pairs_partial",
    "LinfaLinalg.C30_eigh_separated_partial",
    "LinfaLinalg.C30_eigh_large_values_partial",
    "LinfaLinalg.C30_eigh_two_partial",
    "LinfaLinalg.C30_eigh_pairs_counterexample"
   ],
   "note": "false of the code: counterexample proved for a 3 x 3 matrix (rotation of a 2 x 2 block skipped when its norm is <= eps, eigh.rs:111-121). Proved: the property for n <= 2; for all n up to exchanges of neighbouring values whose absolute values add up to at most (1 + 2 eps) max|a_ij|; hence for every value above (1 + 2 eps) max|a_ij| and whenever no two values are that small"
  },
  {
   "property": "C31",
   "status": "proved",
   "theorems": [
    "LinfaLinalg.C31_eigh_shapes"
   ],
   "note": "every scalar type, every number of iterations"
  },
  {
   "property": "C32",
   "status": "proved",
   "theorems": [
    "LinfaLinalg.C32_eigh_no_panic",
    "LinfaLinalg.C32_block_eigvals"
   ],
   "note": "IEEE-like scalars with an arbitrary rounding of magnitudes (binary64 is an instance); every matrix, every iteration count"
  },
  {
   "property": "C33",
   "status": "proved",
   "theorems": [
    "LinfaLinalg.C33_sort_eig",
    "LinfaLinalg.C33_sort_eig_values",
    "LinfaLinalg.C33_sort_eig_panics",
    "LinfaLinalg.C33_sort_eig_valid"
   ],
   "note": "Every scalar type with a lawful `<=`; the `sort_eig` panic on NaN is characterised too."
  },
  {
   "property": "C34",
   "status": "proved",
   "theorems": [
    "LinfaLinalg.C34_svd_orthonormal"
   ],
   "note": "exact real arithmetic; every iteration count"
  },
  {
   "property": "C35",
   "status": "proved",
   "theorems": [
    "LinfaLinalg.C35_svd_residual"
   ],
   "note": "exact real arithmetic; every iteration count"
  },
  {
   "property": "C36",
   "status": "proved",
   "theorems": [
    "LinfaLinalg.C36_svd_flags",
    "LinfaLinalg.C36_svd_flags_any_arithmetic"
   ],
   "note": "exact real arithmetic for all flags; every scalar arithmetic when at least one factor is requested"
  },
  {
   "property": "C37",
   "status": "proved",
   "theorems": [
    "LinfaLinalg.C37_svd_shapes"
   ],
   "note": "every scalar type, every iteration count"
  },
  {
   "property": "C38",
   "status": "partial",
   "theorems": [
    "LinfaLinalg.C38_sign_fix_false",
    "LinfaLinalg.C38_sign_fix_partial"
   ],
   "note": "false as stated: C38_sign_fix_false proves the negation (the source multiplies by -A::zero()); C38_sign_fix_partial says exactly what the loop does and when the claim holds; by C34/C35 the loop is inactive in exact arithmetic"
  },
  {
   "property": "C39",
   "status": "partial",
   "theorems": [
    "LinfaLinalg.C39_svd_nan_forever",
    "LinfaLinalg.C39_svd_terminates_false",
    "LinfaLinalg.C39_svd_terminates_false_no_nan",
    "LinfaLinalg.C39_svd_terminates_partial"
   ],
   "note": "false as stated: C39_svd_terminates_false and C39_svd_nan_forever prove that svd never returns on a NaN in the first line of a matrix with min(rows, cols) >= 3; C39_svd_terminates_false_no_nan: false also for matrices without NaN, because of infinities (C93). C39_svd_terminates_partial: returns for min(rows, cols) <= 2 in every arithmetic. For exact real arithmetic C73 proves termination on every matrix. Missing: termination for larger matrices with finite entries in floating point"
  },
  {
   "property": "C40",
   "status": "proved",
   "theorems": [
    "LinfaLinalg.C40_sort_svd",
    "LinfaLinalg.C40_sort_svd_product",
    "LinfaLinalg.C40_sort_svd_panics"
   ],
   "note": "Every scalar type with a lawful `<=`; the product statement is over the reals."
  },
  {
   "property": "C41",
   "status": "proved",
   "theorems": [
    "LinfaLinalg.C41_norm_values",
    "LinfaLinalg.C41_norm_l2_frobenius",
    "LinfaLinalg.C41_norm_zero",
    "LinfaLinalg.C41_norm_smul",
    "LinfaLinalg.C41_norm_add",
    "LinfaLinalg.C41_norm_compare"
   ],
   "note": "Exact real arithmetic."
  },
  {
   "property": "C42",
   "status": "proved",
   "theorems": [
    "LinfaLinalg.C42_best_iterate",
    "LinfaLinalg.C42_best_iterate_real"
   ],
   "note": "every scalar type with a lawful order on non-NaN values; every operator and eigensolver"
  },
  {
   "property": "C43",
   "status": "proved",
   "theorems": [
    "LinfaLinalg.C43_terminates",
    "LinfaLinalg.C43_iteration_bound",
    "LinfaLinalg.C43_operator_calls"
   ],
   "note": "every scalar type"
  },
  {
   "property": "C44",
   "status": "proved",
   "theorems": [
    "LinfaLinalg.C44_true_residuals",
    "LinfaLinalg.C44_truncatedEig"
   ],
   "note": "exact real arithmetic; any operator that is a matrix product, any eigensolver for the small problems"
  },
  {
   "property": "C45",
   "status": "partial",
   "theorems": [
    "LinfaLinalg.C45_eigh_separated",
    "LinfaLinalg.C45_eigh_close",
    "LinfaLinalg.C45_error_bound",
    "LinfaLinalg.C45_orthonormal_partial",
    "LinfaLinalg.C45_returned_partial",
    "LinfaLinalg.C45_eigh",
    "LinfaLinalg.C45_two_iterates"
   ],
   "note": "proved for an exact eigensolver of the small problems and well conditioned Gram matrices (C45_orthonormal_partial, C45_returned_partial); with an eigensolver of given error the deviation is bounded (C45_error_bound). With eigh_into: within 2^-50 s^2 as long as the Gram matrix of the s basis vectors is within 1/4 of the identity (C45_eigh_close), more generally unless two of its eigenvalues add up to no more than its largest entry (C45_eigh_separated); a coarser bound without that (C45_eigh). Missing: Gram matrices with two small eigenvalues, whose values eigh_into may pair with the wrong vectors (C30)"
  },
  {
   "property": "C46",
   "status": "partial",
   "theorems": [
    "LinfaLinalg.C46_constraints_partial",
    "LinfaLinalg.C46_applyConstraints_iff",
    "LinfaLinalg.C46_false"
   ],
   "note": "false as stated: C46_false is a run that returns an eigenvector not orthogonal to the constraint; C46_applyConstraints_iff: apply_constraints projects iff Y^T Y = 1; C46_constraints_partial: proved for orthonormal Y, all iterations"
  },
  {
   "property": "C47",
   "status": "partial",
   "theorems": [
    "LinfaLinalg.C47_exhausted_is_ok",
    "LinfaLinalg.C47_false",
    "LinfaLinalg.C47_converged_partial"
   ],
   "note": "false as stated: C47_exhausted_is_ok (every run that uses up its iterations returns Ok) and C47_false (a run); C47_converged_partial is what holds"
  },
  {
   "property": "C48",
   "status": "proved",
   "theorems": [
    "LinfaLinalg.C48_notThin_run",
    "LinfaLinalg.C48_notThin",
    "LinfaLinalg.C48_shapes"
   ],
   "note": "every scalar type"
  },
  {
   "property": "C49",
   "status": "proved",
   "theorems": [
    "LinfaLinalg.C49_locked",
    "LinfaLinalg.C49_active_columns",
    "LinfaLinalg.C49_converged"
   ],
   "note": "every scalar type"
  },
  {
   "property": "C50",
   "status": "proved",
   "theorems": [
    "LinfaLinalg.C50_orthonormalize"
   ],
   "note": "exact real arithmetic"
  },
  {
   "property": "C51",
   "status": "proved",
   "theorems": [
    "LinfaLinalg.C51_history",
    "LinfaLinalg.C51_at_most_n",
    "LinfaLinalg.C51_block",
    "LinfaLinalg.C51_exhausted"
   ],
   "note": "every scalar type, every history of calls; beside it identity_next, a concrete call"
  },
  {
   "property": "C52",
   "status": "proved",
   "theorems": [
    "LinfaLinalg.C52_residuals",
    "LinfaLinalg.C52_residuals_real"
   ],
   "note": "every scalar type; for scalars with NaN the guarantee is `not (norm > 0.1)`"
  },
  {
   "property": "C53",
   "status": "partial",
   "theorems": [
    "LinfaLinalg.C53_decompose_zero_partial",
    "LinfaLinalg.C53_values_panics"
   ],
   "note": "false for Order::Largest: C53_values_panics proves that values() of the empty solution panics, for every scalar type; everything else in C53_decompose_zero_partial"
  },
  {
   "property": "C54",
   "status": "proved",
   "theorems": [
    "LinfaLinalg.C54_largest",
    "LinfaLinalg.C54_smallest",
    "LinfaLinalg.C54_nan_panics",
    "LinfaLinalg.C54_largest_real"
   ],
   "note": "every scalar type with a lawful `<=` for what is kept and in which order; positivity in exact real arithmetic; NaN panics characterised"
  },
  {
   "property": "C55",
   "status": "proved",
   "theorems": [
    "LinfaLinalg.C55_singular_triples"
   ],
   "note": "exact real arithmetic; both orders, tall and wide"
  },
  {
   "property": "C56",
   "status": "proved",
   "theorems": [
    "LinfaLinalg.C56_no_panic",
    "LinfaLinalg.C56_zero_columns_panics"
   ],
   "note": "exact real arithmetic; the panic with zero columns for every scalar type; beside the theorems a concrete instance"
  },
  {
   "property": "C57",
   "status": "proved",
   "theorems": [
    "LinfaLinalg.C57_ritz_values"
   ],
   "note": "exact real arithmetic, exact eigensolver for the small problems"
  },
  {
   "property": "C58",
   "status": "proved",
   "theorems": [
    "LinfaLinalg.C58_monotone"
   ],
   "note": "exact real arithmetic, exact eigensolver for the small problems"
  },
  {
   "property": "C59",
   "status": "proved",
   "theorems": [
    "LinfaLinalg.C59_one_sided"
   ],
   "note": "exact real arithmetic, exact eigensolver for the small problems"
  },
  {
   "property": "C60",
   "status": "proved",
   "theorems": [
    "LinfaLinalg.C60_near_eigenvalue",
    "LinfaLinalg.C60_iterator"
   ],
   "note": "exact real arithmetic, any eigensolver for the small problems"
  },
  {
   "property": "C61",
   "status": "proved",
   "theorems": [
    "LinfaLinalg.C61_errors",
    "LinfaLinalg.C61_start"
   ],
   "note": "exact real arithmetic, any total eigensolver for the small problems"
  },
  {
   "property": "C62",
   "status": "proved",
   "theorems": [
    "LinfaLinalg.C62_breakdown",
    "LinfaLinalg.C62_single_vector"
   ],
   "note": "exact real arithmetic, exact eigensolver for the small problems; concrete runs strict_run and plane_run"
  },
  {
   "property": "C63",
   "status": "proved",
   "theorems": [
    "LinfaLinalg.C63_room",
    "LinfaLinalg.C63_wide_block"
   ],
   "note": "exact real arithmetic; concrete run plane_run"
  },
  {
   "property": "C64",
   "status": "proved",
   "theorems": [
    "LinfaLinalg.C64_invariant_subspace"
   ],
   "note": "exact real arithmetic, any eigensolver for the small problems; concrete run axis_run"
  },
  {
   "property": "C65",
   "status": "proved",
   "theorems": [
    "LinfaLinalg.C65_backward_error",
    "LinfaLinalg.C65_residual"
   ],
   "note": "standard model of floating-point arithmetic: relative error u per operation, no overflow, underflow or NaN"
  },
  {
   "property": "C66",
   "status": "proved",
   "theorems": [
    "LinfaLinalg.C66_backward_error"
   ],
   "note": "standard model of floating-point arithmetic: relative error u per operation, no overflow, underflow or NaN"
  },
  {
   "property": "C67",
   "status": "proved",
   "theorems": [
    "LinfaLinalg.C67_backward_error"
   ],
   "note": "standard model of floating-point arithmetic: relative error u per operation, no overflow, underflow or NaN"
  },
  {
   "property": "C68",
   "status": "proved",
   "theorems": [
    "LinfaLinalg.C68_norm_max",
    "LinfaLinalg.C68_norm_l1",
    "LinfaLinalg.C68_norm_l2"
   ],
   "note": "standard model of floating-point arithmetic: relative error u per operation, no overflow, underflow or NaN"
  },
  {
   "property": "C69",
   "status": "proved",
   "theorems": [
    "LinfaLinalg.C69_succeeds"
   ],
   "note": "standard model of floating-point arithmetic: relative error u per operation, no overflow, underflow or NaN; the constant 2n is not sharp"
  },
  {
   "property": "C70",
   "status": "proved",
   "theorems": [
    "LinfaLinalg.C70_eigh_terminates",
    "LinfaLinalg.C70_eigh_iterations"
   ],
   "note": "exact real arithmetic; C70_eigh_terminates: every semidefinite matrix; C70_eigh_iterations: explicit bound for definite ones"
  },
  {
   "property": "C71",
   "status": "proved",
   "theorems": [
    "LinfaLinalg.C71_eigh_terminates_nonsingular"
   ],
   "note": "exact real arithmetic; the condition excludes matrices that are singular to working precision, for which the relative deflation threshold can shrink with the entry it is compared to; C89 shows that it cannot be dropped"
  },
  {
   "property": "C72",
   "status": "proved",
   "theorems": [
    "LinfaLinalg.C72_wilkinson_shift"
   ],
   "note": "exact real arithmetic"
  },
  {
   "property": "C73",
   "status": "proved",
   "theorems": [
    "LinfaLinalg.C73_svd_terminates",
    "LinfaLinalg.C73_svd_total"
   ],
   "note": "exact real arithmetic; C73_svd_terminates: all flags, explicit iteration bound svdFuel; C73_svd_total: total correctness"
  },
  {
   "property": "C74",
   "status": "proved",
   "theorems": [
    "LinfaLinalg.C74_tall",
    "LinfaLinalg.C74_wide"
   ],
   "note": "exact arithmetic, EigWithin 0, Gram matrices above gramFloor; C74_tall (A V = U S exact) and C74_wide (A^T U = V S exact); end to end through decompose, values and values_vectors"
  },
  {
   "property": "C75",
   "status": "proved",
   "theorems": [
    "LinfaLinalg.C75_eigvalsh_accuracy",
    "LinfaLinalg.C75_semidefinite_total"
   ],
   "note": "exact real arithmetic; eigenvalues are those of Mathlib (IsHermitian.eigenvalues₀); C75_semidefinite_total adds termination"
  },
  {
   "property": "C76",
   "status": "proved",
   "theorems": [
    "LinfaLinalg.C76_svd_accuracy",
    "LinfaLinalg.C76_numerical_rank"
   ],
   "note": "exact real arithmetic; singular values are those of Mathlib (LinearMap.singularValues); C76_numerical_rank: values beyond the rank"
  },
  {
   "property": "C77",
   "status": "proved",
   "theorems": [
    "LinfaLinalg.C77_iterator_orthonormal"
   ],
   "note": "exact arithmetic; exact eigensolver for the small problems and Gram matrices with no eigenvalue below 1e-10, as in C45 (with `eigh_into` itself see C45_error_bound and C45_eigh)"
  },
  {
   "property": "C78",
   "status": "proved",
   "theorems": [
    "LinfaLinalg.C78_setters",
    "LinfaLinalg.C78_svd_setters",
    "LinfaLinalg.C78_preconditioner",
    "LinfaLinalg.C78_decompose",
    "LinfaLinalg.C78_svd_decompose",
    "LinfaLinalg.C78_total"
   ],
   "note": "the guarantees on residuals are in exact arithmetic; panic freedom is up to termination of eigh on the small problems; the precision is modelled after its conversion to the scalar type"
  },
  {
   "property": "C79",
   "status": "proved",
   "theorems": [
    "LinfaLinalg.C79_qr",
    "LinfaLinalg.C79_residual",
    "LinfaLinalg.C79_orthonormal",
    "LinfaLinalg.C79_constant"
   ],
   "note": "standard model of floating-point arithmetic: no overflow and no underflow; sums are accumulated from the left"
  },
  {
   "property": "C80",
   "status": "proved",
   "theorems": [
    "LinfaLinalg.C80_least_squares",
    "LinfaLinalg.C80_square",
    "LinfaLinalg.C80_succeeds",
    "LinfaLinalg.C80_inverse",
    "LinfaLinalg.C80_inverse_succeeds"
   ],
   "note": "standard model, as C79"
  },
  {
   "property": "C81",
   "status": "proved",
   "theorems": [
    "LinfaLinalg.C81_solve_tr",
    "LinfaLinalg.C81_least_squares_wide",
    "LinfaLinalg.C81_solve_tr_succeeds",
    "LinfaLinalg.C81_least_squares_succeeds"
   ],
   "note": "standard model, as C79"
  },
  {
   "property": "C82",
   "status": "proved",
   "theorems": [
    "LinfaLinalg.C82_bidiagonal",
    "LinfaLinalg.C82_residual",
    "LinfaLinalg.C82_orthonormal",
    "LinfaLinalg.C82_singular_values"
   ],
   "note": "standard model, as C79"
  },
  {
   "property": "C83",
   "status": "proved",
   "theorems": [
    "LinfaLinalg.C83_tridiagonal",
    "LinfaLinalg.C83_residual",
    "LinfaLinalg.C83_orthonormal",
    "LinfaLinalg.C83_eigenvalues"
   ],
   "note": "standard model, as C79"
  },
  {
   "property": "C84",
   "status": "proved",
   "theorems": [
    "LinfaLinalg.C84_no_failure",
    "LinfaLinalg.C84_backward",
    "LinfaLinalg.C84_eigenvalues",
    "LinfaLinalg.C84_orthonormal"
   ],
   "note": "standard model, as C79; termination is not part of the claim, the bound grows with the number of iterations"
  },
  {
   "property": "C85",
   "status": "partial",
   "theorems": [
    "LinfaLinalg.C85_false",
    "LinfaLinalg.C85_decomposition_partial",
    "LinfaLinalg.C85_residual_partial"
   ],
   "note": "false as stated (`C85_false`), proved for the runs whose 2 x 2 blocks satisfy `y - x <= K |o|`"
  },
  {
   "property": "C86",
   "status": "proved",
   "theorems": [
    "LinfaLinalg.C86_no_failure",
    "LinfaLinalg.C86_backward",
    "LinfaLinalg.C86_singular_values"
   ],
   "note": "standard model, as C79; termination is not part of the claim, the bound grows with the number of iterations"
  },
  {
   "property": "C87",
   "status": "partial",
   "theorems": [
    "LinfaLinalg.C87_false",
    "LinfaLinalg.C87_vector_partial",
    "LinfaLinalg.C87_decomposition_partial",
    "LinfaLinalg.C87_singular_values_partial"
   ],
   "note": "false as stated (`C87_false`); proved when `min(m, n) = 1` and on the runs whose 2 x 2 blocks are `UptrigGood K` (condition number at most about K, first rotation well determined)"
  },
  {
   "property": "C88",
   "status": "proved",
   "theorems": [
    "LinfaLinalg.C88_vt_orthonormal",
    "LinfaLinalg.C88_u_orthonormal"
   ],
   "note": "standard model, as C79"
  },
  {
   "property": "C89",
   "status": "proved",
   "theorems": [
    "LinfaLinalg.C89_eigh_runs_forever",
    "LinfaLinalg.C89_eigh_returns_small"
   ],
   "note": "exact real arithmetic; the matrix is obtained as a limit, its entries are not explicit; nothing is claimed about floating point, where underflow and rounding interfere"
  },
  {
   "property": "C90",
   "status": "proved",
   "theorems": [
    "LinfaLinalg.C90_lost_column_format",
    "LinfaLinalg.C90_eigvalsh_wrong",
    "LinfaLinalg.C90_solve_wrong",
    "LinfaLinalg.C90_lost_column"
   ],
   "note": "IEEE binary64 with gradual underflow; the backward-stability results C79-C88 assume no underflow. The first two parts sum inner products as ndarray does (one term only), the third holds for every order; C90_lost_column_format holds for every IEEE 754 format (in f32 from 2^-75 down)"
  },
  {
   "property": "C91",
   "status": "proved",
   "theorems": [
    "LinfaLinalg.C91_solvec_inplace",
    "LinfaLinalg.C91_invc_inplace",
    "LinfaLinalg.C91_upper_unused",
    "LinfaLinalg.C91_factor_left",
    "LinfaLinalg.C91_second_call",
    "LinfaLinalg.C91_second_call_wrong"
   ],
   "note": "the side effect is documented in the source, the second call is a trap for callers"
  },
  {
   "property": "C92",
   "status": "proved",
   "theorems": [
    "LinfaLinalg.C92_triangular_nan",
    "LinfaLinalg.C92_cholesky_nan",
    "LinfaLinalg.C92_cholesky_corner",
    "LinfaLinalg.C92_solvec_nan",
    "LinfaLinalg.C92_solvec_corner",
    "LinfaLinalg.C92_invc_nan",
    "LinfaLinalg.C92_leastSquares_nan",
    "LinfaLinalg.C92_leastSquares_first",
    "LinfaLinalg.C92_inverse_nan",
    "LinfaLinalg.C92_eigvalsh_nan",
    "LinfaLinalg.C92_eigvalsh_first",
    "LinfaLinalg.C92_norm_nan",
    "LinfaLinalg.C92_normMax_ignores",
    "LinfaLinalg.C92_normMax_nans"
   ],
   "note": "for svd the corresponding result is C39: it does not return at all"
  },
  {
   "property": "C93",
   "status": "proved",
   "theorems": [
    "LinfaLinalg.C93_scaled",
    "LinfaLinalg.C93_svd_forever",
    "LinfaLinalg.C93_svd_not_finite",
    "LinfaLinalg.C93_eigvalsh_not_finite",
    "LinfaLinalg.C93_eigvalsh_nan",
    "LinfaLinalg.C93_eigvalsh_first"
   ],
   "note": "every rounding; nothing is assumed about the other entries"
  },
  {
   "property": "C94",
   "status": "proved",
   "theorems": [
    "LinfaLinalg.C94_least_squares_nan_format",
    "LinfaLinalg.C94_inverse_nan_format",
    "LinfaLinalg.C94_qr_diag_format",
    "LinfaLinalg.C94_least_squares_nan",
    "LinfaLinalg.C94_inverse_nan",
    "LinfaLinalg.C94_qr_diag"
   ],
   "note": "IEEE double precision with any summation order; for eigh and svd the scaling by the largest entry prevents this overflow; the theorems ending in _format hold for every IEEE 754 format, f32 included (there from 2^64 on)"
  },
  {
   "property": "C95",
   "status": "proved",
   "theorems": [
    "LinfaLinalg.C95_backward_error",
    "LinfaLinalg.C95_double",
    "LinfaLinalg.C95_underflow"
   ],
   "note": "Flt R with Rounding.Accurate (binary64 with any summation order is an instance, b64_accurate); beside it C95_underflow, where the absolute term is attained"
  },
  {
   "property": "C96",
   "status": "proved",
   "theorems": [
    "LinfaLinalg.C96_nan_or_finite_format",
    "LinfaLinalg.C96_nan_or_finite",
    "LinfaLinalg.C96_accepts_indefinite",
    "LinfaLinalg.C96_backward_error"
   ],
   "note": "Flt R with Rounding.Accurate; the part on NaN: binary64; beside it exDblSpd_finite, a matrix of doubles that meets the hypotheses; C96_nan_or_finite_format: every IEEE 754 format"
  },
  {
   "property": "C97",
   "status": "proved",
   "theorems": [
    "LinfaLinalg.C97_backward_error"
   ],
   "note": "Flt R with Rounding.Accurate; beside it exDblSpd_finite, a system of doubles solved to a finite answer"
  },
  {
   "property": "C98",
   "status": "proved",
   "theorems": [
    "LinfaLinalg.C98_norm_l2_underflow_format",
    "LinfaLinalg.C98_norm_l2_overflow_format",
    "LinfaLinalg.C98_norm_l1",
    "LinfaLinalg.C98_norm_l2",
    "LinfaLinalg.C98_norm_l2_underflow",
    "LinfaLinalg.C98_norm_l2_overflow",
    "LinfaLinalg.C98_norm_max"
   ],
   "note": "Flt R with Rounding.Accurate; the unscaled sum of squares is why norm_l2 loses tiny arrays and overflows early; beside it the norms of (-3, 4) in doubles; overflow and underflow for every IEEE 754 format in the theorems ending in _format"
  },
  {
   "property": "C99",
   "status": "proved",
   "theorems": [
    "LinfaLinalg.C99_svd_transpose",
    "LinfaLinalg.C99_svd_transpose_ieee",
    "LinfaLinalg.C99_svd_transpose_real"
   ],
   "note": "non-square matrices only: a square matrix and its transpose are both reduced to upper bidiagonal form, so the runs differ; memory layout of the transposed view not modelled"
  },
  {
   "property": "C100",
   "status": "proved",
   "theorems": [
    "LinfaLinalg.C100_cholesky_leading",
    "LinfaLinalg.C100_cholesky_leading_refused"
   ],
   "note": ""
  },
  {
   "property": "C101",
   "status": "proved",
   "theorems": [
    "LinfaLinalg.C101_qr_leading"
   ],
   "note": ""
  },
  {
   "property": "C102",
   "status": "proved",
   "theorems": [
    "LinfaLinalg.C102_solvec_columns",
    "LinfaLinalg.C102_qr_columns",
    "LinfaLinalg.C102_least_squares_columns"
   ],
   "note": "solve_tr and generate_q use dot products whose summation order the model takes from the scalar type alone, not from the shape of the operands"
  },
  {
   "property": "C103",
   "status": "proved",
   "theorems": [
    "LinfaLinalg.C103_eigh_times",
    "LinfaLinalg.C103_svd_times",
    "LinfaLinalg.C103_eigh_ieee",
    "LinfaLinalg.C103_svd_ieee",
    "LinfaLinalg.C103_eigh_binary64",
    "LinfaLinalg.C103_svd_binary64"
   ],
   "note": "the zero matrix is excluded; in double precision the numbers w i of the model must carry non-negative magnitudes (Proper)"
  },
  {
   "property": "C104",
   "status": "proved",
   "theorems": [
    "LinfaLinalg.C104_eigvalsh_trace",
    "LinfaLinalg.C104_eigvalsh_squares",
    "LinfaLinalg.C104_eigh_sums",
    "LinfaLinalg.C104_svd_squares",
    "LinfaLinalg.C104_svd_le_norm",
    "LinfaLinalg.C104_eigvalsh_trace_rounded"
   ],
   "note": ""
  },
  {
   "property": "C105",
   "status": "proved",
   "theorems": [
    "LinfaLinalg.C105_eigh_nan",
    "LinfaLinalg.C105_eigvalsh_nan",
    "LinfaLinalg.C105_sorted_eig_panics"
   ],
   "note": "a finding about the code: finite input, NaN output without an error. Correctly rounded hypot; inner products summed as ndarray does"
  },
  {
   "property": "C106",
   "status": "proved",
   "theorems": [
    "LinfaLinalg.C106_first_iterate",
    "LinfaLinalg.C106_stops",
    "LinfaLinalg.C106_exact",
    "LinfaLinalg.C106_eigenvector",
    "LinfaLinalg.C106_eigh",
    "LinfaLinalg.C106_complete",
    "LinfaLinalg.C106_decompose",
    "LinfaLinalg.C106_svd"
   ],
   "note": "the eigensolver is a hypothesis (exact, or with relative error eta); the library's eigh meets it for blocks of one or two vectors (C30), and C30's counterexample shows that it does not for larger ones"
  },
  {
   "property": "C107",
   "status": "proved",
   "theorems": [
    "LinfaLinalg.C107_signs_float",
    "LinfaLinalg.C107_row_float",
    "LinfaLinalg.C107_row",
    "LinfaLinalg.C107_signs",
    "LinfaLinalg.C107_zero",
    "LinfaLinalg.C107_deterministic",
    "LinfaLinalg.C107_deterministic_generalized"
   ],
   "note": "for the generalized problem the exact statement assumes that the threshold 1e-10 of generalized_eig has no effect"
  },
  {
   "property": "C108",
   "status": "proved",
   "theorems": [
    "LinfaLinalg.C108_eig_reverse",
    "LinfaLinalg.C108_svd_reverse",
    "LinfaLinalg.C108_values_reverse",
    "LinfaLinalg.C108_idempotent"
   ],
   "note": ""
  },
  {
   "property": "C109",
   "status": "proved",
   "theorems": [
    "LinfaLinalg.C109_direct",
    "LinfaLinalg.C109_spectral",
    "LinfaLinalg.C109_lobpcg",
    "LinfaLinalg.C109_truncated"
   ],
   "note": "every scalar type; C109_direct, C109_spectral, C109_lobpcg, C109_truncated"
  },
  {
   "property": "C110",
   "status": "proved",
   "theorems": [
    "LinfaLinalg.C110_direct",
    "LinfaLinalg.C110_spectral",
    "LinfaLinalg.C110_truncated",
    "LinfaLinalg.C110_range",
    "LinfaLinalg.C110_range_f32_f64"
   ],
   "note": "every binary format, with the dot product of ndarray; f32 and f64 are instances"
  },
  {
   "property": "C111",
   "status": "proved",
   "theorems": [
    "LinfaLinalg.C111_eigh",
    "LinfaLinalg.C111_svd",
    "LinfaLinalg.C111_size",
    "LinfaLinalg.C111_double"
   ],
   "note": "says nothing about whether the loops end; see C39, C70-C73, C89, C93"
  },
  {
   "property": "C112",
   "status": "proved",
   "theorems": [
    "LinfaLinalg.C112_direct",
    "LinfaLinalg.C112_spectral",
    "LinfaLinalg.C112_lobpcg",
    "LinfaLinalg.C112_truncated",
    "LinfaLinalg.C112_degree",
    "LinfaLinalg.C112_eigh_inexact",
    "LinfaLinalg.C112_truncated_inexact",
    "LinfaLinalg.C112_svd_inexact"
   ],
   "note": "example: [[4,1,0],[1,2,1],[0,1,2]], for which eigvalsh returns"
  },
  {
   "property": "C113",
   "status": "proved",
   "theorems": [
    "LinfaLinalg.C113_solve_triangular",
    "LinfaLinalg.C113_cholesky",
    "LinfaLinalg.C113_solvec",
    "LinfaLinalg.C113_norms"
   ],
   "note": "non-vacuous cases in f32 are computed in the file"
  },
  {
   "property": "C114",
   "status": "proved",
   "theorems": [
    "LinfaLinalg.C114_solvec_qr",
    "LinfaLinalg.C114_invc_qr",
    "LinfaLinalg.C114_inverse_solve",
    "LinfaLinalg.C114_triangular_qr",
    "LinfaLinalg.C114_normal_equations",
    "LinfaLinalg.C114_minimum_norm"
   ],
   "note": ""
  },
  {
   "property": "C115",
   "status": "proved",
   "theorems": [
    "LinfaLinalg.C115_eigvalsh_nearby",
    "LinfaLinalg.C115_eigvalsh_monotone",
    "LinfaLinalg.C115_eigvalsh_interlacing",
    "LinfaLinalg.C115_svd_nearby",
    "LinfaLinalg.C115_svd_submatrix",
    "LinfaLinalg.C115_eigvalsh_nearby_rounded",
    "LinfaLinalg.C115_svd_nearby_rounded"
   ],
   "note": ""
  },
  {
   "property": "C116",
   "status": "proved",
   "theorems": [
    "LinfaLinalg.C116_cholesky_det",
    "LinfaLinalg.C116_qr_det",
    "LinfaLinalg.C116_cholesky_qr",
    "LinfaLinalg.C116_psd",
    "LinfaLinalg.C116_gram",
    "LinfaLinalg.C116_svd_transpose"
   ],
   "note": "C99 has the transpose of matrices that are not square, without error"
  },
  {
   "property": "C117",
   "status": "proved",
   "theorems": [
    "LinfaLinalg.C117_eigh",
    "LinfaLinalg.C117_eigvalsh",
    "LinfaLinalg.C117_svd",
    "LinfaLinalg.C117_cholesky",
    "LinfaLinalg.C117_qr",
    "LinfaLinalg.C117_eigh_rounded",
    "LinfaLinalg.C117_svd_rounded",
    "LinfaLinalg.C117_cholesky_rounded"
   ],
   "note": ""
  },
  {
   "property": "C118",
   "status": "proved",
   "theorems": [
    "LinfaLinalg.C118_triangular",
    "LinfaLinalg.C118_cholesky",
    "LinfaLinalg.C118_cholesky_factor",
    "LinfaLinalg.C118_solve_triangular",
    "LinfaLinalg.C118_solvec",
    "LinfaLinalg.C118_solvec_solution",
    "LinfaLinalg.C118_reflect",
    "LinfaLinalg.C118_givens",
    "LinfaLinalg.C118_householder",
    "LinfaLinalg.C118_decompositions",
    "LinfaLinalg.C118_qr",
    "LinfaLinalg.C118_least_squares",
    "LinfaLinalg.C118_spectral",
    "LinfaLinalg.C118_layout",
    "LinfaLinalg.C118_sort"
   ],
   "note": "owned temporaries stay values; the order in which a dot product is summed is the same for every layout (in ndarray it depends on contiguity), so on floats C118_layout is about one fixed order"
  },
  {
   "property": "C119",
   "status": "proved",
   "theorems": [
    "LinfaLinalg.C119_backward",
    "LinfaLinalg.C119_orthonormal",
    "LinfaLinalg.C119_independent_rejected"
   ],
   "note": "The standard model of rounding leaves overflow and underflow out. C119_independent_rejected is the counterexample that shows a margin is needed; the factor 24 m² is not claimed to be best."
  },
  {
   "property": "C120",
   "status": "proved",
   "theorems": [
    "LinfaLinalg.C120_cancel_y",
    "LinfaLinalg.C120_cancel_x",
    "LinfaLinalg.C120_new",
    "LinfaLinalg.C120_try_new",
    "LinfaLinalg.C120_shape",
    "LinfaLinalg.C120_rotate_rows",
    "LinfaLinalg.C120_rotate_cols",
    "LinfaLinalg.C120_inverse",
    "LinfaLinalg.C120_rounded",
    "LinfaLinalg.C120_float",
    "LinfaLinalg.C120_overflow",
    "LinfaLinalg.C120_subnormal"
   ],
   "note": "Correctly rounded hypot in the statements about formats; C120_overflow and C120_subnormal are findings about extreme input, which eigh and svd avoid by scaling."
  },
  {
   "property": "C121",
   "status": "proved",
   "theorems": [
    "LinfaLinalg.C121_exact",
    "LinfaLinalg.C121_rounded",
    "LinfaLinalg.C121_sharp"
   ],
   "note": "Quantifies the defect behind C46: apply_constraints solves with L instead of L L^T."
  },
  {
   "property": "C122",
   "status": "proved",
   "theorems": [
    "LinfaLinalg.C122_triangular",
    "LinfaLinalg.C122_solve",
    "LinfaLinalg.C122_inverse",
    "LinfaLinalg.C122_least_squares",
    "LinfaLinalg.C122_solve_tr",
    "LinfaLinalg.C122_solvec",
    "LinfaLinalg.C122_invc",
    "LinfaLinalg.C122_least_squares_wide"
   ],
   "note": ""
  },
  {
   "property": "C123",
   "status": "proved",
   "theorems": [
    "LinfaLinalg.C123_progress",
    "LinfaLinalg.C123_iterations",
    "LinfaLinalg.C123_converges",
    "LinfaLinalg.C123_single",
    "LinfaLinalg.C123_linear",
    "LinfaLinalg.C123_block"
   ],
   "note": "exact real arithmetic, exact eigensolver for the small problems, Gram matrices without eigenvalues below 1e-10"
  },
  {
   "property": "C124",
   "status": "proved",
   "theorems": [
    "LinfaLinalg.C124_quadratic",
    "LinfaLinalg.C124_tolerance",
    "LinfaLinalg.C124_rate"
   ],
   "note": "exact real arithmetic, exact eigensolver for the small problems, Gram matrices without eigenvalues below 1e-10"
  },
  {
   "property": "C125",
   "status": "proved",
   "theorems": [
    "LinfaLinalg.C125_orthonormalize",
    "LinfaLinalg.C125_lobpcg",
    "LinfaLinalg.C125_truncated",
    "LinfaLinalg.C125_underflow"
   ],
   "note": "exact real arithmetic with the library's own eigh_into inside; C125_underflow: IEEE formats"
  },
  {
   "property": "C126",
   "status": "proved",
   "theorems": [
    "LinfaLinalg.C126_tall",
    "LinfaLinalg.C126_wide",
    "LinfaLinalg.C126_eig"
   ],
   "note": "exact real arithmetic, exact eigensolver for the small problems, Gram matrices without eigenvalues below 1e-10; for Order::Smallest the smaller Gram matrix of the problem must be non-singular"
  },
  {
   "property": "C127",
   "status": "proved",
   "theorems": [
    "LinfaLinalg.C127_iterations",
    "LinfaLinalg.C127_no_worse",
    "LinfaLinalg.C127_tolerance",
    "LinfaLinalg.C127_immediate",
    "LinfaLinalg.C127_eig",
    "LinfaLinalg.C127_svd_single",
    "LinfaLinalg.C127_svd_normal",
    "LinfaLinalg.C127_underflow",
    "LinfaLinalg.C127_overflow"
   ],
   "note": "every scalar type; the precision in f32: IEEE formats with ndarray's order of summation"
  },
  {
   "property": "C128",
   "status": "proved",
   "theorems": [
    "LinfaLinalg.C128_largest",
    "LinfaLinalg.C128_smallest",
    "LinfaLinalg.C128_zero_matrix"
   ],
   "note": "a finding about the code: for Order::Smallest a matrix without full rank gives infinite or NaN vectors without an error. The eigenvalues are arbitrary floats that are not NaN (with a NaN see C54_nan_panics)"
  },
  {
   "property": "C129",
   "status": "proved",
   "theorems": [
    "LinfaLinalg.C129_cholesky",
    "LinfaLinalg.C129_solvec",
    "LinfaLinalg.C129_invc",
    "LinfaLinalg.C129_solve_triangular",
    "LinfaLinalg.C129_qr",
    "LinfaLinalg.C129_least_squares",
    "LinfaLinalg.C129_least_norm",
    "LinfaLinalg.C129_inverse",
    "LinfaLinalg.C129_norms",
    "LinfaLinalg.C129_least_squares_double",
    "LinfaLinalg.C129_cholesky_double"
   ],
   "note": "factors are elements of any group whose action commutes with the operations (structure Scalings); instances: powers of two in a rounding to any number of digits with unbounded exponent (StdModel.double) and in exact arithmetic. With overflow or underflow the claim fails (C120)"
  },
  {
   "property": "C130",
   "status": "proved",
   "theorems": [
    "LinfaLinalg.C130_lobpcg",
    "LinfaLinalg.C130_truncated",
    "LinfaLinalg.C130_svd"
   ],
   "note": "exact arithmetic. For a Q with more rows than columns the start must be thin and maxiter at most 10 n, since the code bounds the iterations by ten times the number of rows. With rounding the products of turned columns differ in their last digits"
  },
  {
   "property": "C131",
   "status": "proved",
   "theorems": [
    "LinfaLinalg.C131_lobpcg",
    "LinfaLinalg.C131_truncated",
    "LinfaLinalg.C131_svd",
    "LinfaLinalg.C131_lobpcg_real",
    "LinfaLinalg.C131_truncated_double",
    "LinfaLinalg.C131_svd_double",
    "LinfaLinalg.C131_iterator"
   ],
   "note": "generic over the factors that commute with the arithmetic and are positive; instances are all positive numbers in exact arithmetic and the powers of two in the standard model of double precision with ndarray's order of summation. Overflow and underflow are excluded there. The constraints cannot be multiplied by a factor: the projection of the code is not a projection unless they are orthonormal (C46). C131_iterator is the exception"
  },
  {
   "property": "C132",
   "status": "proved",
   "theorems": [
    "LinfaLinalg.C132_norm",
    "LinfaLinalg.C132_is_invertible",
    "LinfaLinalg.C132_qr",
    "LinfaLinalg.C132_least_squares",
    "LinfaLinalg.C132_minimum_norm",
    "LinfaLinalg.C132_cholesky",
    "LinfaLinalg.C132_inverse",
    "LinfaLinalg.C132_eigvalsh",
    "LinfaLinalg.C132_svd"
   ],
   "note": "exact arithmetic. V is square except in C132_norm and C132_minimum_norm"
  },
  {
   "property": "C133",
   "status": "proved",
   "theorems": [
    "LinfaLinalg.C133_lobpcg",
    "LinfaLinalg.C133_lobpcg_simple",
    "LinfaLinalg.C133_truncatedEig",
    "LinfaLinalg.C133_iterator",
    "LinfaLinalg.C133_eigh",
    "LinfaLinalg.C133_eigh_large",
    "LinfaLinalg.C133_svd",
    "LinfaLinalg.C133_tall",
    "LinfaLinalg.C133_wide"
   ],
   "note": "exact arithmetic. The pairing of values and vectors of eigh is that of C30, which is not always by position; C133_eigh_large gives a case where it is"
  },
  {
   "property": "C134",
   "status": "proved",
   "theorems": [
    "LinfaLinalg.C134_svd",
    "LinfaLinalg.C134_tall",
    "LinfaLinalg.C134_wide"
   ],
   "note": "exact arithmetic; Frobenius norm. TruncatedSvd with the assumptions of C74 and, for the comparison, C126"
  },
  {
   "property": "C135",
   "status": "proved",
   "theorems": [
    "LinfaLinalg.C135_norm",
    "LinfaLinalg.C135_smallest",
    "LinfaLinalg.C135_invertible",
    "LinfaLinalg.C135_quadratic_form",
    "LinfaLinalg.C135_definite",
    "LinfaLinalg.C135_norm_float",
    "LinfaLinalg.C135_smallest_float",
    "LinfaLinalg.C135_solve_float",
    "LinfaLinalg.C135_quadratic_form_float",
    "LinfaLinalg.C135_accepted_float",
    "LinfaLinalg.C135_rejected_float"
   ],
   "note": "exact arithmetic (the error of a run is svdTol or eigTol) and the standard model of floating-point arithmetic (eigErr, svdErr; svd without factors, since C87 fails with them)"
  },
  {
   "property": "C136",
   "status": "proved",
   "theorems": [
    "LinfaLinalg.C136_lower",
    "LinfaLinalg.C136_upper",
    "LinfaLinalg.C136_reversed"
   ],
   "note": "every arithmetic"
  },
  {
   "property": "C137",
   "status": "proved",
   "theorems": [
    "LinfaLinalg.C137_pinv",
    "LinfaLinalg.C137_least_squares",
    "LinfaLinalg.C137_solve",
    "LinfaLinalg.C137_minimum_norm"
   ],
   "note": "exact real arithmetic with the tolerances of the code"
  },
  {
   "property": "C138",
   "status": "proved",
   "theorems": [
    "LinfaLinalg.C138_schur",
    "LinfaLinalg.C138_inverse",
    "LinfaLinalg.C138_pivot"
   ],
   "note": "exact real arithmetic"
  },
  {
   "property": "C139",
   "status": "proved",
   "theorems": [
    "LinfaLinalg.C139_qr_unique",
    "LinfaLinalg.C139_qr_mul",
    "LinfaLinalg.C139_qr_again",
    "LinfaLinalg.C139_cholesky_mul",
    "LinfaLinalg.C139_least_squares_mul",
    "LinfaLinalg.C139_qr_stack",
    "LinfaLinalg.C139_least_squares_stack"
   ],
   "note": "exact real arithmetic"
  },
  {
   "property": "C140",
   "status": "proved",
   "theorems": [
    "LinfaLinalg.C140_succeeds",
    "LinfaLinalg.C140_double",
    "LinfaLinalg.C140_single"
   ],
   "note": "every IEEE 754 format with at least the precision and range of f32, every order of summation; C140_double and C140_single give the numbers for f64 and f32; beside it exWideSpd_ok, a matrix of doubles whose entries span 2000 binary orders of magnitude"
  },
  {
   "property": "C141",
   "status": "proved",
   "theorems": [
    "LinfaLinalg.C141_finite",
    "LinfaLinalg.C141_invc",
    "LinfaLinalg.C141_double",
    "LinfaLinalg.C141_single",
    "LinfaLinalg.C141_forward"
   ],
   "note": "every IEEE 754 format with at least the precision and range of f32, every order of summation; C141_invc is the inverse; C141_double (t = 180) and C141_single (t = 14) give the numbers for f64 and f32; beside it exSolve_ok, a system of f32 numbers that meets the hypotheses; C141_forward (Props/TriRange) bounds the distance to the exact solution"
  },
  {
   "property": "C142",
   "status": "proved",
   "theorems": [
    "LinfaLinalg.C142_qr",
    "LinfaLinalg.C142_least_squares",
    "LinfaLinalg.C142_inverse",
    "LinfaLinalg.C142_svd",
    "LinfaLinalg.C142_svd_isometry",
    "LinfaLinalg.C142_polynomial",
    "LinfaLinalg.C142_projection",
    "LinfaLinalg.C142_involution"
   ],
   "note": "exact real arithmetic; the polynomial theorem is conditional on eigvalsh returning (C89 shows it need not), which C70 gives for projections; examples beside the theorems: a 3 x 2 matrix with columns of lengths 5 and 10, and a projection onto a line that is not an axis"
  },
  {
   "property": "C143",
   "status": "proved",
   "theorems": [
    "LinfaLinalg.C143_finite",
    "LinfaLinalg.C143_forward",
    "LinfaLinalg.C143_double",
    "LinfaLinalg.C143_single"
   ],
   "note": "every IEEE 754 format with at least the precision and range of f32; C143_double (t = 193) and C143_single (t = 20) give the numbers for f64 and f32; beside it exTri_ok, an f32 triangle with NaN in the unused place that meets the hypotheses; C143_forward bounds the distance to the exact solution"
  },
  {
   "property": "C144",
   "status": "proved",
   "theorems": [
    "LinfaLinalg.C144_norm_l1",
    "LinfaLinalg.C144_norm_l2",
    "LinfaLinalg.C144_norm_l2_double",
    "LinfaLinalg.C144_norm_l2_single"
   ],
   "note": "converse of C98, which bounds the errors of finite results and shows the overflow and underflow outside this range; C144_norm_l2_double and C144_norm_l2_single give the numbers for f64 and f32; beside it exNorms_ok"
  },
  {
   "property": "C145",
   "status": "proved",
   "theorems": [
    "LinfaLinalg.C145_sum",
    "LinfaLinalg.C145_dot",
    "LinfaLinalg.C145_matmul"
   ],
   "note": "C145_sum is the sum for any order of operations, C145_dot and C145_matmul the two forms of dot; beside it exDot_dot"
  },
  {
   "property": "C146",
   "status": "proved",
   "theorems": [
    "LinfaLinalg.C146_axis",
    "LinfaLinalg.C146_double",
    "LinfaLinalg.C146_single"
   ],
   "note": "the range between C90 (overflow) and C94 (underflow); C146_double and C146_single give the numbers for f64 and f32; beside it exAxis_ok"
  },
  {
   "property": "C147",
   "status": "proved",
   "theorems": [
    "LinfaLinalg.C147_reflect",
    "LinfaLinalg.C147_reflect_rows"
   ],
   "note": "bias 0 is the only one the crate uses outside its tests; the axes of C146 meet the condition on the axis; beside it exRefl_ok"
  },
  {
   "property": "C148",
   "status": "proved",
   "theorems": [
    "LinfaLinalg.C148_rows",
    "LinfaLinalg.C148_cols"
   ],
   "note": "C120_float shows that the c and s of cancel_y meet the condition; beside it exRot_ok"
  },
  {
   "property": "C149",
   "status": "proved",
   "theorems": [
    "LinfaLinalg.C149_clear",
    "LinfaLinalg.C149_clear_row"
   ],
   "note": "the whole step that qr, bidiagonal and tridiagonal repeat; beside it exClear_ok"
  },
  {
   "property": "C150",
   "status": "proved",
   "theorems": [
    "LinfaLinalg.C150_lengths"
   ],
   "note": "beside it an example in f64 with an entry of 2^1000"
  },
  {
   "property": "C151",
   "status": "proved",
   "theorems": [
    "LinfaLinalg.C151_lengths"
   ],
   "note": "the bound on the growth per step that a bound for all of qr would use; beside it an example with exClear"
  },
  {
   "property": "C152",
   "status": "proved",
   "theorems": [
    "LinfaLinalg.C152_in_range",
    "LinfaLinalg.C152_finite"
   ],
   "note": "an a posteriori check, for instance on the diagonal that qr returns; beside it an example with exClear"
  },
  {
   "property": "C153",
   "status": "proved",
   "theorems": [
    "LinfaLinalg.C153_qr"
   ],
   "note": "the condition on the diagonal is on the result, so it can be checked afterwards; beside it exQr_ok, which meets it"
  },
  {
   "property": "C154",
   "status": "proved",
   "theorems": [
    "LinfaLinalg.C154_backward"
   ],
   "note": "Q is the exact product of the reflections along the exact axes of the computed columns, not the computed Q; beside it exQrBackward_ok, which meets all conditions"
  }
 ]
}