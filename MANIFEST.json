{"claims":[
{"property": "C01", "status": "proved", "theorems": ["Ceacoest.C01_decision_layout"], "note": "for every history of registration calls, including rejected ones"},
{"property": "C02", "status": "proved", "theorems": ["Ceacoest.C02_constraint_layout"], "note": "for every history of registration calls"},
{"property": "C03", "status": "proved", "theorems": ["Ceacoest.C03_names_unique", "Ceacoest.C03_rejected_unchanged", "Ceacoest.C03_accepted", "Ceacoest.C03_variable_spec"], "note": "uniqueness, rejection without side effect, variable_spec exact"},
{"property": "C04", "status": "proved", "theorems": ["Ceacoest.C04_variables", "Ceacoest.C04_wrong_length"], "note": "Python-level aliasing is C05; here values only"},
{"property": "C05", "status": "proved", "theorems": ["Ceacoest.C05_writes", "Ceacoest.C05_decision_write", "Ceacoest.C05_dependent_write", "Ceacoest.C05_later"], "note": "Arrays are views of buffers (NumPy/Memory.lean). For every reachable problem and every history of calls of variables and single-entry assignments through returned arrays (any call, any order); a slice assignment is a sequence of such. A dependent variable registered with a plain Component (not done in the package) is a view too, and is treated so. Arrays the problem itself holds (y, um, u, ...) are returned uncopied: writes to them do not reach dvec, but do persist in the problem."},
{"property": "C06", "status": "proved", "theorems": ["Ceacoest.C06_packInto", "Ceacoest.C06_addTo", "Ceacoest.C06_rejected", "Ceacoest.C06_broadcast_multi"], "note": "own entries replaced/incremented, others kept, rejections; broadcasting stated in multi-indices"},
{"property": "C07", "status": "proved", "theorems": ["Ceacoest.C07_constr"], "note": "constr concatenates the broadcast constraint values; unpack_constraints inverse"},
{"property": "C08", "status": "proved", "theorems": ["Ceacoest.C08_constr_jac", "Ceacoest.C08_obj_hess", "Ceacoest.C08_constr_hess", "Ceacoest.C08_lag_hess"], "note": "nnz = number of index columns = number of values, and indices in range, for the Jacobian and all three Hessians"},
{"property": "C09", "status": "proved", "theorems": ["Ceacoest.DerivExample.C09_broadcast_counterexample", "Ceacoest.C09_obj_grad"], "note": "given the generated-code contract (Spec.FunOK, GradOK: argument extension broadcast as a suffix) and right symbolic gradients"},
{"property": "C10", "status": "proved", "theorems": ["Ceacoest.C10_constr_jac"], "note": "duplicates summed"},
{"property": "C11", "status": "proved", "theorems": ["Ceacoest.DerivExample.C11_alias_counterexample", "Ceacoest.C11_obj_hess"], "note": "under NoAlias (no decision entry reached through two argument entries of one evaluation)"},
{"property": "C12", "status": "proved", "theorems": ["Ceacoest.C12_lag_hess", "Ceacoest.C12_wrong_length"], "note": "all multipliers; wrong length rejected; under NoAlias"},
{"property": "C13", "status": "proved", "theorems": ["Ceacoest.C13_ipopt_jac"], "note": "rows < ncons, columns < ndec, same order as the values"},
{"property": "C14", "status": "proved", "theorems": ["Ceacoest.C14_piece_unpack", "Ceacoest.C14_no_pieces"], "note": "and the degenerate zero-piece case"},
{"property": "C15", "status": "proved", "theorems": ["Ceacoest.C15_piece_addTo", "Ceacoest.C15_piece_adjoint", "Ceacoest.C15_piece_wrong_shape"], "note": ""},
{"property": "C16", "status": "proved", "theorems": ["Ceacoest.C16_piece_convertInd", "Ceacoest.C16_positions", "Ceacoest.C16_piece_alias"], "note": ""},
{"property": "C17", "status": "proved", "theorems": ["Ceacoest.C17_xe_unpack", "Ceacoest.C17_xe_addTo", "Ceacoest.C17_xe_convertInd", "Ceacoest.C17_single_point_loses_a_row"], "note": "for at least two points; the single point case, where add_to is not the adjoint, is proved separately"},
{"property": "C18", "status": "proved", "theorems": ["Ceacoest.C18_xm_unpack", "Ceacoest.C18_xm_addTo", "Ceacoest.C18_xm_convertInd", "Ceacoest.C18_xm_convertInd_out_of_range", "Ceacoest.C18_xm_kmeas_out_of_range"], "note": ""},
{"property": "C19", "status": "proved", "theorems": ["Ceacoest.C19_oem", "Ceacoest.C19_jme"], "note": "for oem and jme problems; all masks, grids, orders; u given or callable"},
{"property": "C20", "status": "proved", "theorems": ["Ceacoest.C20_up", "Ceacoest.C20_up_jme", "Ceacoest.C20_like_states"], "note": "statement by statement model of the slicing; equal to the piece-ravelled variable"},
{"property": "C21", "status": "proved", "theorems": ["Ceacoest.C21_oc", "Ceacoest.C21_rejects", "Ceacoest.C21_oem", "Ceacoest.C21_jme", "Ceacoest.C21_oem_rejects", "Ceacoest.C21_oem_single_time"], "note": "exact layouts of the three classes, ProblemOK for each, and the rejections with their exception; a single-time grid is shown to raise IndexError in oem"},
{"property": "C22", "status": "proved", "theorems": ["Ceacoest.RK.C22_grid", "Ceacoest.RK.C22_empty", "Ceacoest.RK.C22_increasing"], "note": "any field; strict monotonicity in any linearly ordered field"},
{"property": "C23", "status": "proved", "theorems": ["Ceacoest.RK.C23_basis", "Ceacoest.RK.C23_errors"], "note": "any field; also the errors for one point (ValueError) and repeated points (ZeroDivisionError)"},
{"property": "C24", "status": "proved", "theorems": ["Ceacoest.RK.C24_exact"], "note": "against Mathlib's interval integral; exact arithmetic"},
{"property": "C25", "status": "proved", "theorems": ["Ceacoest.RK.C25_exact"], "note": "unconditional: the points are proved to be the zeros of the Legendre derivative; the model's Legendre recurrence is proved to give Mathlib's shifted Legendre polynomial"},
{"property": "C26", "status": "proved", "theorems": ["Ceacoest.RK.C26_points"], "note": "also: interior points are exactly the zeros of the Legendre derivative, strictly increasing in (0,1)"},
{"property": "C27", "status": "proved", "theorems": ["Ceacoest.C27_defects", "Ceacoest.C27_polynomial"], "note": "both directions, and every polynomial path of degree <= n"},
{"property": "C28", "status": "proved", "theorems": ["Ceacoest.C28_rank", "Ceacoest.C28_columns", "Ceacoest.C28_lossless"], "note": "scipy.linalg.orth by its contract (orthonormal columns spanning the range)"},
{"property": "C29", "status": "proved", "theorems": ["Ceacoest.C29_sparse_ind", "Ceacoest.C29_nnz"], "note": "index rows and their number for every extension shape, stated in multi-indices"},
{"property": "C30", "status": "proved", "theorems": ["Ceacoest.C30_extract", "Ceacoest.C30_reconstruct", "Ceacoest.C30_reconstruct_sym"], "note": "extraction lists each non-zero entry exactly once (upper triangle for a repeated argument); listed values, with mirror images, reproduce the tensor"},
{"property": "C31", "status": "proved", "theorems": ["Ceacoest.C31_pairs", "Ceacoest.C31_objective", "Ceacoest.C31_constraint"], "note": "for every iteration order; first derivatives one per decision argument; left-out blocks are exactly those that vanish"},
{"property": "C32", "status": "proved", "theorems": ["Ceacoest.C32_renameName", "Ceacoest.C32_call", "Ceacoest.C32_call_unknown", "Ceacoest.C32_renameKwargs", "Ceacoest.C32_renameTup", "Ceacoest.C32_renameStr", "Ceacoest.C32_repeated_argument_loses_a_block"], "note": "and a witness that passing one problem variable for two arguments drops one derivative block"},
{"property": "C33", "status": "partial", "theorems": ["Ceacoest.C33_same_scheme", "Ceacoest.C33_partial", "Ceacoest.C33_collisions", "Ceacoest.C33_overwrite"], "note": "false in general: collisions proved, and a run in which one derivative overwrites another; proved for names without the separator _d, functions not starting with 2 and arguments not ending in _val/_ind/_nnz"},
{"property": "C34", "status": "proved", "theorems": ["Ceacoest.C34_ekf", "Ceacoest.C34_ukf"], "note": "both filters; all masked samples"},
{"property": "C35", "status": "proved", "theorems": ["Ceacoest.C35_ekf", "Ceacoest.C35_ukf", "Ceacoest.C35_masked_numbers"], "note": "both filters, any mask; moments and likelihood increment equal those of the reduced model; independence of the numbers under the mask"},
{"property": "C36", "status": "proved", "theorems": ["Ceacoest.C36_ekf", "Ceacoest.C36_ekf_returns", "Ceacoest.C36_ukf", "Ceacoest.C36_ukf_returns"], "note": "any interleaving of corrections and predictions; symmetric positive (semi)definite; the filters also return; exact arithmetic. Unscented: kappa >= 0"},
{"property": "C37", "status": "proved", "theorems": ["Ceacoest.C37_ekf", "Ceacoest.C37_ukf"], "note": "Loewner order, both filters"},
{"property": "C38", "status": "proved", "theorems": ["Ceacoest.C38_posterior"], "note": "the extended update equals the minimiser of the posterior cost and the inverse of the information matrix"},
{"property": "C39", "status": "proved", "theorems": ["Ceacoest.C39_filter", "Ceacoest.C39_rows", "Ceacoest.C39_split", "Ceacoest.C39_index_ekf", "Ceacoest.C39_index_ukf"], "note": "for any filter class; index for both filters"},
{"property": "C40", "status": "proved", "theorems": ["Ceacoest.C40_smooth", "Ceacoest.C40_returns", "Ceacoest.C40_cross_ekf", "Ceacoest.C40_cross_ukf", "Ceacoest.C40_ekf_returns"], "note": "for any filter class; cross covariance identified for both filters"},
{"property": "C41", "status": "proved", "theorems": ["Ceacoest.C41_weights", "Ceacoest.C41_sigma_points", "Ceacoest.C41_cholesky", "Ceacoest.C41_svd"], "note": "constructor, weights, sigma point moments; square roots by Cholesky (any positive definite matrix; raises otherwise) and by a contract singular value decomposition (any positive semidefinite matrix)"},
{"property": "C42", "status": "proved", "theorems": ["Ceacoest.C42_affine"], "note": "for both square roots, any kappa"},
{"property": "C43", "status": "proved", "theorems": ["Ceacoest.C43_predict", "Ceacoest.C43_correct", "Ceacoest.C43_filter", "Ceacoest.C43_smooth", "Ceacoest.C43_returns"], "note": "any kappa with nx + kappa > 0, both square roots; also that the unscented filter and smoother return"},
{"property": "C44", "status": "proved", "theorems": ["Ceacoest.C44_unique", "Ceacoest.C44_gradient", "Ceacoest.C44_hessian", "Ceacoest.C44_path"], "note": "unique solution; gradients, second derivatives (via the inverse function theorem) and derivative along a path; the factorisation succeeds in a neighbourhood"},
{"property": "C45", "status": "proved", "theorems": ["Ceacoest.C45_gradient", "Ceacoest.C45_hessian"], "note": "Cholesky transform; first and second derivatives of mean, covariance and cross covariance"},
{"property": "C46", "status": "proved", "theorems": ["Ceacoest.C46_gradient", "Ceacoest.C46_unique"], "note": "Cholesky transforms for both prediction and correction; models and initial attributes smooth at the point (Spec/KalmanGrad.lean); where pem_merit returns, pem_gradient returns its gradient, for every sequence and mask."},
{"property": "C47", "status": "proved", "theorems": ["Ceacoest.C47_hessian", "Ceacoest.C47_symm"], "note": "As C46 with twice differentiable models; pem_merit and pem_gradient return near the point, pem_hessian at it, and the Hessian is symmetric."},
{"property": "C48", "status": "partial", "theorems": ["Ceacoest.C48_ekf_after", "Ceacoest.C48_ekf_before", "Ceacoest.C48_ukf_partial", "Ceacoest.C48_ukf_returns_partial", "Ceacoest.C48_ekf_raises", "Ceacoest.C48_ekf_counterexample", "Ceacoest.C48_negation", "Ceacoest.C48_ekf_masked_partial"], "note": "Proved for the unscented filter: the merit returned is the sum of the log densities of the unmasked measurements under the predicted output moments, and the run returns whenever the filter does. For the extended filter pem_merit raises AttributeError as soon as one entry is unmasked (negation proved with a witness)."},
{"property": "C49", "status": "partial", "theorems": ["Ceacoest.KalmanInit.C49_options_partial", "Ceacoest.KalmanInit.C49_hessian_key", "Ceacoest.KalmanInit.C49_hessian_partial", "Ceacoest.KalmanInit.C49_returns", "Ceacoest.KalmanInit.C49_counterexample", "Ceacoest.KalmanInit.C49_negation"], "note": "Proved for every attribute but d2L_dq2, which is set from the option dL_dq (negation proved with a witness); it is right when neither option is given. Also: when the constructor returns."},
{"property": "C50", "status": "proved", "theorems": ["Ceacoest.SymQuat.C50_norm_deriv", "Ceacoest.SymQuat.C50_conserved", "Ceacoest.SymQuat.C50_logistic", "Ceacoest.SymQuat.C50_driven_to_one"], "note": "norm derivative for every trajectory, rate and gain; conservation for zero gain; logistic solution and convergence to 1 for positive gain from any nonzero quaternion"},
{"property": "C51", "status": "proved", "theorems": ["Ceacoest.SymQuat.C51_rotation", "Ceacoest.SymQuat.C51_unit", "Ceacoest.SymQuat.C51_neg", "Ceacoest.SymQuat.C51_kinematics", "Ceacoest.SymQuat.C51_kinematics_unit"], "note": "matrix identities for every quaternion; matrix kinematics for any gain, specialised to unit quaternions or zero gain"},
{"property": "C52", "status": "proved", "theorems": ["Ceacoest.SymQuat.C52_toeuler", "Ceacoest.SymQuat.C52_pitch_range", "Ceacoest.SymQuat.C52_angles"], "note": "roll-pitch-yaw matrix of toeuler(q) is rotmat(q) for unit q away from gimbal lock, and the angles of an Euler sequence are recovered; atan2 at the origin is excluded by the pitch condition"},
{"property": "C53", "status": "proved", "theorems": ["Ceacoest.SymStats.C53_logpdf", "Ceacoest.SymStats.C53_logpdf1", "Ceacoest.SymStats.C53_masked", "Ceacoest.SymStats.C53_pdf", "Ceacoest.SymStats.C53_integral", "Ceacoest.SymStats.C53_record"], "note": "real-number semantics: a NaN stored under the mask is not modelled"},
{"property": "C54", "status": "proved", "theorems": ["Ceacoest.SymSDE.C54_psd", "Ceacoest.SymSDE.C54_euler", "Ceacoest.SymSDE.C54_ito_cov", "Ceacoest.SymSDE.C54_ito_drift", "Ceacoest.SymSDE.C54_measurement", "Ceacoest.SymSDE.C54_ito_taylor", "Ceacoest.SymSDE.C54_transRvs"], "note": "for every continuous-time model whose df_dt, df_dx, d2f_dx2 are its partial derivatives; also the noise-free Taylor property and trans_rvs (passing w always raises TypeError)"},
{"property": "C55", "status": "partial", "theorems": ["Ceacoest.Stats.C55_pdf_partial", "Ceacoest.Stats.C55_unmasked", "Ceacoest.Stats.C55_masked_value", "Ceacoest.Stats.C55_singular", "Ceacoest.Stats.C55_partial_mask_counterexample", "Ceacoest.Stats.C55_batch_counterexample"], "note": "false for partial masks (counterexamples proved, also for a fully masked row inside a batch); proved for no mask and for a fully masked batch; what the code returns otherwise is C55_masked_value"},
{"property": "C56", "status": "partial", "theorems": ["Ceacoest.Stats.C56_svd_sqrt_square", "Ceacoest.Stats.C56_svd_sqrt_partial", "Ceacoest.Stats.C56_counterexample", "Ceacoest.Stats.C56_intended"], "note": "false: svd_sqrt returns a root of a*a^T (proved for all matrices); counterexample a = 4; holds iff a*a = a"},
{"property": "C57", "status": "proved", "theorems": ["Ceacoest.Utils.C57_steps", "Ceacoest.Utils.C57_central", "Ceacoest.Utils.C57_forward", "Ceacoest.Utils.C57_central_empty"], "note": "array valued functions of array arguments; exact arithmetic"},
{"property": "C58", "status": "proved", "theorems": ["Ceacoest.Utils.C58_extract_subkeys", "Ceacoest.Utils.C58_counterexamples"], "note": "for prefixes without regular-expression metacharacters; counterexamples outside"},
{"property": "C59", "status": "proved", "theorems": ["Ceacoest.Utils.C59_flat_cat", "Ceacoest.Utils.C59_flat_cat_empty"], "note": "C and Fortran order"},
{"property": "C60", "status": "proved", "theorems": ["Ceacoest.Utils.C60_cached", "Ceacoest.Utils.C60_transparent", "Ceacoest.Utils.C60_once", "Ceacoest.Utils.C60_separate"], "note": "all histories over any objects and methods; bodies may raise and have side effects other than on object attributes"},
{"property": "C61", "status": "proved", "theorems": ["Ceacoest.ArrayCmp.C61_within_tol", "Ceacoest.ArrayCmp.C61_lt", "Ceacoest.ArrayCmp.C61_not_array", "Ceacoest.ArrayCmp.C61_zero_tol"], "note": "real arithmetic, no NaN"},
{"property": "C62", "status": "partial", "theorems": ["Ceacoest.C62_size_wraps", "Ceacoest.C62_size_partial", "Ceacoest.C62_counterexample"], "note": "false from 2^31 elements (counterexample); proved: equal iff the product is below 2^31"},
{"property": "C63", "status": "proved", "theorems": ["Ceacoest.RK.C63_weights", "Ceacoest.RK.C63_sharp"], "note": "n >= 2"},
{"property": "C64", "status": "proved", "theorems": ["Ceacoest.C64_trace", "Ceacoest.C64_tube", "Ceacoest.C64_penalty"], "note": "includes the nw = 0 slice case"},
{"property": "C65", "status": "proved", "theorems": ["Ceacoest.KalmanInit.C65_transform_options", "Ceacoest.KalmanInit.C65_transform_raises"], "note": "for options whose names consist of word characters (as keyword names written in source do)"},
{"property": "C66", "status": "proved", "theorems": ["Ceacoest.C66_generated", "Ceacoest.C66_problem", "Ceacoest.C66_expr_form", "Ceacoest.C66_expr_smooth", "Ceacoest.C66_expr_code"], "note": "C66_generated: the calls succeed and the generated functions meet FunOK/GradOK/SparseOK and carry right derivatives; C66_problem composes this with C09-C12 to the derivatives of a whole problem; C66_expr_form/smooth/code: the contract assumed of sympy, sym2num and the generated code is met by a concrete expression language for all functions (Spec/SymExpr.lean), with an example going from expressions to a problem. Names are restricted to plain ones because of C33. The statement that derivatives are right (DerivativesRight) includes that the index lists have the announced number of entries (nnz), as many as there are values, all within range."},
{"property": "C67", "status": "proved", "theorems": ["Ceacoest.C67_oc", "Ceacoest.C67_oem", "Ceacoest.C67_jme"], "note": "C67_oc, C67_oem, C67_jme: the three problem constructors register every generated function so that C66_problem applies; the conclusion is DerivativesRight for all decision vectors with right symbolic derivatives."},
{"property": "C68", "status": "proved", "theorems": ["Ceacoest.C68_oc", "Ceacoest.C68_oem", "Ceacoest.C68_jme", "Ceacoest.C68_rejects", "Ceacoest.C68_caller_oc", "Ceacoest.C68_caller_jme", "Ceacoest.C68_dimensions"], "note": "C68_oc, C68_oem, C68_jme (success, variables, decision variables, objectives, constraints), C68_rejects (errors), C68_caller_oc, C68_caller_jme (the caller's dictionary; constructing again gives the same)."},
{"property": "C69", "status": "proved", "theorems": ["Ceacoest.C69_render", "Ceacoest.C69_derived", "Ceacoest.C69_unreserved", "Ceacoest.C69_oc", "Ceacoest.C69_oem", "Ceacoest.C69_jme", "Ceacoest.PendulumId.C69_collision"], "note": "C69_render (injectivity), C69_derived, C69_oc/oem/jme (exact condition and a syntactic sufficient one), C69_unreserved, C69_collision (witness that collisions with user names go unnoticed)."},
{"property": "C70", "status": "proved", "theorems": ["Ceacoest.C70_jme", "Ceacoest.C70_jme_expr", "Ceacoest.C70_jme_expr_at", "Ceacoest.C70_oc", "Ceacoest.C70_oc_expr", "Ceacoest.C70_oc_expr_at", "Ceacoest.C70_oem", "Ceacoest.C70_oem_expr", "Ceacoest.C70_oem_expr_at"], "note": "C70_oc/oem/jme for any symbolic arithmetic meeting the contract ArithOK and code meeting CodeOK; C70_*_expr for the concrete expression language with total expressions; C70_*_expr_at for expressions with reciprocals and logarithms, where derivatives are exact at every decision vector for which the functions are defined at the grid points (C70_jme_expr_at: f total, L partial)."},
{"property": "C71", "status": "proved", "theorems": ["Ceacoest.C71_objective", "Ceacoest.C71_constraint", "Ceacoest.C71_lookup", "Ceacoest.C71_oc", "Ceacoest.C71_oem", "Ceacoest.C71_jme"], "note": "C71_objective, C71_constraint: each call leaves the model closed; C71_lookup: the generated class of a closed model finds everything; C71_oc/oem/jme: every constructor that returns leaves a closed model."},
{"property": "C72", "status": "proved", "theorems": ["Ceacoest.C72_oc", "Ceacoest.C72_oem", "Ceacoest.C72_jme", "Ceacoest.C72_samples"], "note": "C72_oc, C72_oem, C72_jme (zero defects iff a collocation path exists), C72_samples (sampled solutions are feasible with the true cost); Pendulum example."},
{"property": "C73", "status": "proved", "theorems": ["Ceacoest.C73_bryson_denham", "Ceacoest.C73_bryson_denham_mesh", "Ceacoest.C73_brachistochrone", "Ceacoest.C73_attas", "Ceacoest.C73_attas_std", "Ceacoest.C73_duffing"], "note": "C73_bryson_denham (lower bound by an adjoint function, feasible two-arc point, any mesh with the arc times), C73_bryson_denham_mesh (the mesh of the example), C73_brachistochrone. C73_attas and C73_attas_std (output error), C73_duffing (joint MAP)."},
{"property": "C74", "status": "partial", "theorems": ["Ceacoest.C74_best", "Ceacoest.C74_order2_partial", "Ceacoest.C74_order3", "Ceacoest.C74_constant", "Ceacoest.C74_loss"], "note": "false from order 3 on (C74_loss, exact loss in C74_order3 and C74_constant); proved: the best noise path for given increments (C74_best), no loss at order 2"},
{"property": "C75", "status": "proved", "theorems": ["Ceacoest.C75_filter", "Ceacoest.C75_smooth", "Ceacoest.C75_moments", "Ceacoest.C75_map", "Ceacoest.C75_ukf", "Ceacoest.C75_likelihood"], "note": "the posterior is defined by integrals of the product of prior, transition and measurement densities (Spec/KalmanPosterior.lean), not by any recursion; on both filters. pem_merit only on the unscented filter: the extended one raises (C48)"},
{"property": "C76", "status": "proved", "theorems": ["Ceacoest.C76_oc", "Ceacoest.C76_rate", "Ceacoest.C76_exists", "Ceacoest.C76_cost", "Ceacoest.C76_value", "Ceacoest.C76_oem"], "note": "on the generated problem objects, under the contracts of sympy, sym2num and numba of C70. The mesh condition is (piece length) * (sum of |J|) * Lip <= 1/2. The bound has the factor exp(2 * sum|J| * Lip * T)"},
{"property": "C77", "status": "proved", "theorems": ["Ceacoest.GenSDE.C77_transition", "Ceacoest.GenSDE.C77_law", "Ceacoest.GenSDE.C77_singular", "Ceacoest.GenSDE.C77_euler", "Ceacoest.GenSDE.C77_euler_fewer_noises", "Ceacoest.GenSDE.C77_ito", "Ceacoest.GenSDE.C77_measurement", "Ceacoest.GenSDE.C77_time", "Ceacoest.GenSDE.C77_rvs_raises"], "note": "np.random.randn is the product of standard normal laws; generated functions have the values of the symbolic ones"},
{"property": "C78", "status": "proved", "theorems": ["Ceacoest.GenSDE.C78_ito", "Ceacoest.GenSDE.C78_euler", "Ceacoest.GenSDE.C78_ito_step"], "note": "the exact moments are solutions of the moment equations m' = A m + b, P' = A P + P A' + G G'; that these are the moments of the Ito process is not proved"},
{"property": "C79", "status": "proved", "theorems": ["Ceacoest.C79_ekf_filter", "Ceacoest.C79_ekf_smooth", "Ceacoest.C79_ukf_filter", "Ceacoest.C79_ukf_smooth", "Ceacoest.C79_ukf_merit", "Ceacoest.C79_ukf_one_covariance_raises", "Ceacoest.C79_ukf_one_covariance_wrong", "Ceacoest.C79_ukf_one_covariance_witness", "Ceacoest.C79_in_place", "Ceacoest.C79_stored"], "note": "Model in Model/KalmanBatch (einsum with ellipsis is broadcasting of the contraction; derivatives: C80). C79_ukf_one_covariance_raises, _wrong and _witness prove the failure of the unscented filter with one covariance."},
{"property": "C80", "status": "proved", "theorems": ["Ceacoest.C80_gradient", "Ceacoest.C80_hessian", "Ceacoest.C80_default", "Ceacoest.C80_one_derivative_raises"], "note": "Model in Model/KalmanBatch and Model/KalmanBatchDiff; in-place operations raise if the result has not the shape of the target. C80_one_derivative_raises proves the failure with the derivative of one covariance; C80_default: the zeros of a new filter meet the hypotheses."},
{"property": "C81", "status": "proved", "theorems": ["Ceacoest.C81_bind", "Ceacoest.C81_sigArgNames", "Ceacoest.C81_call", "Ceacoest.C81_call_raises", "Ceacoest.C81_arity", "Ceacoest.C81_grad", "Ceacoest.C81_values", "Ceacoest.C81_deriv_name"], "note": "Model in Model/GenCall with Python's binding of arguments (C81_bind characterises it). C81_deriv_name proves that the name deriv raises in jac_val and hess_val."},
{"property": "C82", "status": "proved", "theorems": ["Ceacoest.C82_exact", "Ceacoest.C82_scalar", "Ceacoest.C82_not_quartic", "Ceacoest.C82_scalar_quartic"], "note": "The expected values are integrals over Mathlib's multivariateGaussian. C82_not_quartic and C82_scalar_quartic prove that the degrees are sharp."},
{"property": "C83", "status": "proved", "theorems": ["Ceacoest.Ex.C83_shuttle_axes", "Ceacoest.Ex.C83_shuttle_newton", "Ceacoest.Ex.C83_shuttle_glide", "Ceacoest.Ex.C83_climb_newton", "Ceacoest.Ex.C83_climb_aero", "Ceacoest.Ex.C83_robot_newton", "Ceacoest.Ex.C83_robot", "Ceacoest.Ex.C83_hfb", "Ceacoest.Ex.C83_attitude", "Ceacoest.Ex.C83_attitude_rotation", "Ceacoest.Ex.C83_duffing", "Ceacoest.Ex.C83_orbit_work", "Ceacoest.Ex.C83_orbit_rocket", "Ceacoest.Ex.C83_orbit_cost", "Ceacoest.Ex.C83_orbit_endpoint", "Ceacoest.Ex.C83_orbit_circular"], "note": "The methods are modelled as real functions, not as expressions. C83_shuttle_glide records that the constants of the shuttle example give less lift than a 500th of the drag."},
{"property": "C84", "status": "partial", "theorems": ["Ceacoest.Ex.C84_scaled_partial", "Ceacoest.Ex.C84_iff", "Ceacoest.Ex.C84_initial", "Ceacoest.Ex.C84_nan", "Ceacoest.Ex.C84_consts"], "note": "False for this commit: hang_glider.py:37 takes the root of vx**2 + Vy instead of vx**2 + Vy**2. C84_iff proves that the claim holds only if Vy is 0 or 1, C84_initial that it fails at the initial state of the example, C84_nan that f has no value at states within the bounds. C84_scaled_partial: f is Newton's law with both coefficients scaled by one factor."},
{"property": "C85", "status": "partial", "theorems": ["Ceacoest.KHeap.C85_apart_partial", "Ceacoest.KHeap.C85_apart_returns", "Ceacoest.KHeap.C85_gradient", "Ceacoest.KHeap.C85_hessian", "Ceacoest.KHeap.C85_returns", "Ceacoest.KHeap.C85_overwritten", "Ceacoest.KHeap.C85_overwritten_hessian", "Ceacoest.KHeap.C85_first_masked", "Ceacoest.KHeap.C85_shared", "Ceacoest.KHeap.C85_returned", "Ceacoest.KHeap.C85_not"], "note": "False for this commit: C85_not has two filters that are given the same array dx_dq; the first gradient is 1, the second 3/4. C85_apart_partial and C85_apart_returns prove the claim for filters without arrays in common. C85_overwritten, C85_overwritten_hessian, C85_first_masked say exactly which arrays of the caller change, and to what; C85_shared what the second filter computes; C85_returned that a gradient that was kept changes with the next call."},
{"property": "C86", "status": "proved", "theorems": ["Ceacoest.C86_oc", "Ceacoest.C86_oem", "Ceacoest.C86_attas"], "note": "C86_oc, C86_oem: the bounds. C86_attas: the short period of examples/attas_sp.py, order 4 with three points."},
{"property": "C87", "status": "proved", "theorems": ["Ceacoest.C87_difference", "Ceacoest.C87_oc", "Ceacoest.C87_invariant", "Ceacoest.C87_oem"], "note": "C87_oc (homogeneous), C87_difference, C87_oem (differences of two decision vectors), C87_invariant (quadratic invariants; needs the denominator to be invertible, which holds for steps up to a third of the reciprocal norm)."},
{"property": "C88", "status": "proved", "theorems": ["Ceacoest.C88_exists", "Ceacoest.C88_stable", "Ceacoest.C88_invariant", "Ceacoest.C88_oem", "Ceacoest.C88_attas"], "note": "C88_exists, C88_stable, C88_invariant (optimal control), C88_oem (output error), C88_attas (short period of examples/attas_sp.py: statically stable and damped aircraft)."},
{"property": "C89", "status": "proved", "theorems": ["Ceacoest.C89_ekf", "Ceacoest.C89_ukf"], "note": "C89_ekf, C89_ukf."},
{"property": "C90", "status": "proved", "theorems": ["Ceacoest.C90_convert", "Ceacoest.C90_derivatives", "Ceacoest.C90_ekf_filter", "Ceacoest.C90_ekf_smooth", "Ceacoest.C90_ukf_filter", "Ceacoest.C90_ukf_smooth", "Ceacoest.C90_ukf_merit", "Ceacoest.C90_ukf_counterexample"], "note": "C90_ekf_filter, C90_ekf_smooth, C90_ukf_filter, C90_ukf_smooth, C90_ukf_merit; C90_convert and C90_derivatives: such models exist, and their derivatives convert by the chain rule; C90_ukf_counterexample: exchanging two states changes the unscented prediction."},
{"property": "C91", "status": "proved", "theorems": ["Ceacoest.C91_points", "Ceacoest.C91_weights", "Ceacoest.C91_grid", "Ceacoest.C91_oc"], "note": "C91_points, C91_weights, C91_grid, C91_oc."},
{"property": "C92", "status": "proved", "theorems": ["Ceacoest.C92_coefficients", "Ceacoest.C92_residual", "Ceacoest.C92_oc"], "note": "C92_coefficients, C92_residual, C92_oc."},
{"property": "C93", "status": "proved", "theorems": ["Ceacoest.C93_central", "Ceacoest.C93_forward", "Ceacoest.C93_full", "Ceacoest.C93_empty", "Ceacoest.C93_gradient", "Ceacoest.C93_hessian", "Ceacoest.C93_jacobian", "Ceacoest.C93_constraint_hessian", "Ceacoest.C93_problem"], "note": "C93_central, C93_forward (errors), C93_full, C93_empty (full matrices), C93_gradient, C93_hessian, C93_jacobian, C93_constraint_hessian (verdict of each test), C93_problem (problems). The tests name methods that optim.Problem no longer has (merit, constraint, ...); the model takes the callables as given and Tested.ofProblem supplies the present ones. Real arithmetic: rounding errors of the differences are not modelled."},
{"property": "C94", "status": "proved", "theorems": ["Ceacoest.C94_oc", "Ceacoest.C94_defects", "Ceacoest.C94_duration", "Ceacoest.C94_invariant", "Ceacoest.C94_brachistochrone", "Ceacoest.C94_oem"], "note": "C94_oc, C94_oem (changes of coordinates), C94_defects (feasibility), C94_duration (durations as parameters, as in the minimum time examples), C94_invariant (linear invariants), C94_brachistochrone (descents of another size in the example). Stated for models that meet the contract of C70."},
{"property": "C95", "status": "proved", "theorems": ["Ceacoest.ArrayCmp.C95_report", "Ceacoest.ArrayCmp.C95_same_shape", "Ceacoest.ArrayCmp.C95_broadcast", "Ceacoest.ArrayCmp.C95_scalars", "Ceacoest.ArrayCmp.C95_other"], "note": "C95_report, C95_same_shape (contents), C95_broadcast, C95_scalars (IndexError), C95_other. Real arithmetic; the layout of the text is not modelled."},
{"property": "C96", "status": "proved", "theorems": ["Ceacoest.SymSDE.C96_variables", "Ceacoest.SymSDE.C96_ito", "Ceacoest.SymSDE.C96_looks_up", "Ceacoest.SymSDE.C96_again", "Ceacoest.SymSDE.C96_rejected", "Ceacoest.SymSDE.C96_assignments"], "note": "sym2num's add_derivative is taken to make the derivative an attribute of the model"},
{"property": "C97", "status": "proved", "theorems": ["Ceacoest.TestKalman.C97_cov", "Ceacoest.TestKalman.C97_Q", "Ceacoest.TestKalman.C97_Q_four", "Ceacoest.TestKalman.C97_Q_singular", "Ceacoest.TestKalman.C97_R", "Ceacoest.TestKalman.C97_R_one", "Ceacoest.TestKalman.C97_Pv", "Ceacoest.TestKalman.C97_model_vars", "Ceacoest.TestKalman.C97_model_vars_fail", "Ceacoest.TestKalman.C97_exact", "Ceacoest.TestKalman.C97_angle"], "note": "Unbatched, real arithmetic; np.linalg.eig is assumed to return the eigenvalues of symmetric matrices (EigOK), np.linalg.svd as in C41."},
{"property": "C98", "status": "proved", "theorems": ["Ceacoest.TestKalman.C98_hessian", "Ceacoest.TestKalman.C98_test_grad", "Ceacoest.TestKalman.C98_test_hessian", "Ceacoest.TestKalman.C98_not_second"], "note": "Cholesky square roots (the tests skip singular values), real arithmetic, unbatched; the numerical differentiation of the tests is C93."},
{"property": "C99", "status": "proved", "theorems": ["Ceacoest.Script.C99_subscripts", "Ceacoest.C99_bryson_denham", "Ceacoest.C99_bryson_denham_min", "Ceacoest.C99_brachistochrone", "Ceacoest.C99_brachistochrone_path", "Ceacoest.C99_attas", "Ceacoest.C99_attas_derivatives", "Ceacoest.C99_duffing", "Ceacoest.C99_duffing_derivatives"], "note": "Bounds are extended real numbers; the bounds of the constraints, all zero, are in the statements of feasibility. The interface to IPOPT and the plots are not modelled."},
{"property": "C100", "status": "proved", "theorems": ["Ceacoest.C100_jme", "Ceacoest.C100_oem"], "note": "Proved from C70 by writing the estimation problem as an optimal control problem with the log-likelihood as a path term (C92). The random walk example computes a stationary point by hand."},
{"property": "C101", "status": "proved", "theorems": ["Ceacoest.C101_noise"], "note": "One theorem about both problems. The two models may differ in their symbols (the output error model needs no G), code generators and orders of iteration."},
{"property": "C102", "status": "proved", "theorems": ["Ceacoest.TestKalman.C102_passes", "Ceacoest.TestKalman.C102_rejects", "Ceacoest.TestKalman.C102_sqrt", "Ceacoest.TestKalman.C102_sqrt2", "Ceacoest.TestKalman.C102_sigma", "Ceacoest.TestKalman.C102_sigma2", "Ceacoest.TestKalman.C102_ut", "Ceacoest.TestKalman.C102_ut2", "Ceacoest.TestKalman.C102_pred", "Ceacoest.TestKalman.C102_pred2", "Ceacoest.TestKalman.C102_corr", "Ceacoest.TestKalman.C102_corr2", "Ceacoest.TestKalman.C102_pem_grad", "Ceacoest.TestKalman.C102_pem_hessian", "Ceacoest.TestKalman.C102_same_sigma", "Ceacoest.TestKalman.C102_data", "Ceacoest.TestKalman.C102_fixture_right", "Ceacoest.TestKalman.C102_fixture", "Ceacoest.TestKalman.C102_fixture_corr", "Ceacoest.TestKalman.C102_fixture_pem", "Ceacoest.TestKalman.C102_fixture_R"], "note": "'Small enough' is a bound on min_step and relstep that exists; rounding is not modelled, so nothing is said about 1e-7 itself. Derivatives generated by sym2num are taken to be partial derivatives. With four states the process noise covariance can be singular (C97), so the merits need not exist there."},
{"property": "C103", "status": "proved", "theorems": ["Ceacoest.C103_best", "Ceacoest.C103_correct", "Ceacoest.C103_predict", "Ceacoest.C103_history", "Ceacoest.C103_filter", "Ceacoest.C103_ukf", "Ceacoest.C103_data", "Ceacoest.C103_nonlinear"], "note": "C103_best is for any model; the comparison is for affine models, with C103_nonlinear as the witness that it does not hold for others."},
{"property": "C104", "status": "proved", "theorems": ["Ceacoest.Sim.C104_duffing", "Ceacoest.Sim.C104_stale", "Ceacoest.Sim.C104_sim", "Ceacoest.Sim.C104_not_general", "Ceacoest.Sim.C104_errors", "Ceacoest.Sim.C104_mismatch", "Ceacoest.Sim.C104_alignment", "Ceacoest.Sim.C104_jme", "Ceacoest.Sim.C104_cdiff", "Ceacoest.Sim.C104_quadratic", "Ceacoest.Sim.C104_prepare", "Ceacoest.Sim.C104_interp", "Ceacoest.Sim.C104_guess", "Ceacoest.Sim.C104_duffing_script", "Ceacoest.Sim.C104_jme_script"], "note": "C104_not_general is the witness for output functions that depend on time; C104_duffing_script and C104_jme_script are the numbers of the two scripts."},
{"property": "C105", "status": "proved", "theorems": ["Ceacoest.C105_parts", "Ceacoest.C105_order", "Ceacoest.C105_ukf", "Ceacoest.C105_likelihood", "Ceacoest.C105_likelihood_returns", "Ceacoest.C105_nonlinear", "Ceacoest.C105_correlated"], "note": "C105_nonlinear and C105_correlated are the witnesses that the hypotheses are needed."},
{"property": "C106", "status": "proved", "theorems": ["Ceacoest.C106_causal", "Ceacoest.C106_ekf", "Ceacoest.C106_ukf", "Ceacoest.C106_likelihood"], "note": ""},
{"property": "C107", "status": "proved", "theorems": ["Ceacoest.C107_noise"], "note": "C107_noise. The range basis returned by scipy.linalg.orth is any table with IsOrth; the right hand side has to be Lipschitz continuous on all states for (1) and (3), not for (2)."},
{"property": "C108", "status": "proved", "theorems": ["Ceacoest.C108_oc", "Ceacoest.C108_oem", "Ceacoest.C108_oc_tests", "Ceacoest.C108_oc_unit", "Ceacoest.C108_oem_tests", "Ceacoest.C108_oem_unit"], "note": "C108_oc and C108_oem (problems and derivatives); C108_oc_tests and C108_oem_tests: at every decision vector a bound M of the third derivatives exists, and the four tests of test_optim.py pass if M step^2 is small enough; C108_oc_unit and C108_oem_unit: they pass at all decision vectors with entries between -1 and 1 (output error: up to 1000 pieces). The fixtures are modelled as classes derived from symoc.Model and symoem.Model, because the decorator they use is gone; a power with an expression as exponent is exp(b log a). Exact arithmetic."},
{"property": "C109", "status": "proved", "theorems": ["Ceacoest.ExModels.C109_orbit", "Ceacoest.ExModels.C109_heating", "Ceacoest.ExModels.C109_orbit_constants", "Ceacoest.ExModels.C109_orbit_min_time", "Ceacoest.ExModels.C109_robot", "Ceacoest.ExModels.C109_glider", "Ceacoest.ExModels.C109_shuttle", "Ceacoest.ExModels.C109_orbit_fuel", "Ceacoest.ExModels.C109_orbit_feasible", "Ceacoest.ExModels.C109_shuttle_bounds"], "note": "C109_orbit, C109_orbit_min_time, C109_robot, C109_glider, C109_shuttle, C109_shuttle_bounds, C109_orbit_fuel, C109_orbit_feasible. The examples are modelled as classes derived from symoc.Model; powers and roots are exp(r log a), defined for positive a; constants are numbers."},
{"property": "C110", "status": "proved", "theorems": ["Ceacoest.ExModels.C110_hfb", "Ceacoest.ExModels.C110_std", "Ceacoest.ExModels.C110_names"], "note": "C110_hfb, C110_std. The example is modelled as a class derived from symoem.Model; constants are numbers; measurements without missing values."},
{"property": "C111", "status": "proved", "theorems": ["Ceacoest.C111_ukf_returns", "Ceacoest.Sim.C111_derivatives", "Ceacoest.Sim.C111_definite", "Ceacoest.Sim.C111_filters", "Ceacoest.Sim.C111_script", "Ceacoest.Sim.C111_start"], "note": "C111_ukf_returns (any model), C111_derivatives, C111_definite, C111_filters, C111_script; random numbers are arguments; exact arithmetic."},
{"property": "C112", "status": "proved", "theorems": ["Ceacoest.Pem.C112_pem", "Ceacoest.Pem.C112_clock", "Ceacoest.Pem.C112_tril", "Ceacoest.Pem.C112_factor", "Ceacoest.Pem.C112_exact", "Ceacoest.Pem.C112_smooth", "Ceacoest.Pem.C112_returns", "Ceacoest.Pem.C112_duffing", "Ceacoest.Pem.C112_signs", "Ceacoest.Pem.C112_bound"], "note": "C112_pem, C112_tril, C112_factor, C112_exact (any model); C112_smooth, C112_returns, C112_duffing, C112_signs, C112_bound (duffing_old.py). The discretisation is that of symsde.py, as ceacoest.sde is missing; exact arithmetic."},
{"property": "C113", "status": "proved", "theorems": ["Ceacoest.Pem.C113_controllable", "Ceacoest.Pem.C113_returns", "Ceacoest.Pem.C113_shift", "Ceacoest.Pem.C113_data", "Ceacoest.Pem.C113_definite", "Ceacoest.Pem.C113_attitude", "Ceacoest.Pem.C113_signs", "Ceacoest.Pem.C113_heading", "Ceacoest.Pem.C113_observable", "Ceacoest.Pem.C113_unobservable"], "note": "C113_controllable, C113_returns, C113_shift (any model); C113_data, C113_definite, C113_attitude, C113_signs, C113_heading, C113_observable, C113_unobservable (attitude.py). Derivatives at vertical attitudes do not exist; nothing is claimed there. Exact arithmetic."},
{"property": "C114", "status": "proved", "theorems": ["Ceacoest.RK.C114_square", "Ceacoest.RK.C114_rows", "Ceacoest.RK.C114_integral", "Ceacoest.RK.C114_quadrature"], "note": "C114_square (overestimates squares), C114_rows (rows of J), C114_integral, C114_quadrature. Exact arithmetic; the points are the exact roots (as in C25)."},
{"property": "C115", "status": "proved", "theorems": ["Ceacoest.Pem.C115_sim", "Ceacoest.Pem.C115_sim_raises", "Ceacoest.Pem.C115_masked", "Ceacoest.Pem.C115_script", "Ceacoest.Pem.C115_names", "Ceacoest.Pem.C115_start"], "note": "C115_sim, C115_sim_raises (simulation), C115_masked, C115_start, C115_script. The solver is an argument. Exact arithmetic: with the exact 0.05 there are 600 samples, with the stored number 599 (both shown as examples). ceacoest.sde, which the script imports, does not exist in this commit; the discretisation is that of symsde.py (as in C112)."},
{"property": "C116", "status": "proved", "theorems": ["Ceacoest.C116_hessian", "Ceacoest.Pem.C116_pem", "Ceacoest.Pem.C116_sigma", "Ceacoest.Pem.C116_margin", "Ceacoest.Pem.C116_attitude"], "note": "C116_hessian (any model that agrees with a smooth one on the set), C116_pem (discretised models), C116_attitude, C116_sigma and C116_margin (sigma points). The measurement function is assumed smooth everywhere. Exact arithmetic."},
{"property": "C117", "status": "proved", "theorems": ["Ceacoest.Pem.C117_lfilter", "Ceacoest.Pem.C117_linear", "Ceacoest.Pem.C117_noise", "Ceacoest.Pem.C117_interp", "Ceacoest.Pem.C117_sim", "Ceacoest.Pem.C117_sim_raises", "Ceacoest.Pem.C117_smooth", "Ceacoest.Pem.C117_start", "Ceacoest.Pem.C117_names", "Ceacoest.Pem.C117_script"], "note": "C117_lfilter, C117_linear, C117_noise (noise), C117_interp, C117_sim, C117_sim_raises (simulation), C117_names, C117_start (numbers of the script), C117_smooth, C117_script. The integrator and the solver are arguments; that parameters avoid vertical attitudes is a hypothesis. Exact arithmetic."},
{"property": "C118", "status": "proved", "theorems": ["Ceacoest.C118_ekf", "Ceacoest.C118_ukf", "Ceacoest.C118_runs", "Ceacoest.C118_shape"], "note": "C118_ekf, C118_ukf (correct), C118_runs, C118_shape (series). The rules of np.ix_ and of boolean indices are modelled from the documentation of NumPy. One state, not a stack."},
{"property": "C119", "status": "proved", "theorems": ["Ceacoest.C119_ekf", "Ceacoest.C119_ukf", "Ceacoest.C119_runs", "Ceacoest.C119_shape"], "note": "C119_ekf, C119_ukf (correct), C119_runs, C119_shape (series). The rules of np.ix_ and of boolean indices are modelled from the documentation of NumPy."},
{"property": "C120", "status": "proved", "theorems": ["Ceacoest.C120_order", "Ceacoest.C120_make", "Ceacoest.C120_cache", "Ceacoest.C120_mismatch", "Ceacoest.C120_generated"], "note": "C120_order, C120_make, C120_cache (the attribute), C120_mismatch (problems whose order is not that of the defects), C120_generated (such problems from the methods of a model)."},
{"property": "C121", "status": "proved", "theorems": ["Ceacoest.GenMeta.C121_class", "Ceacoest.GenMeta.C121_errors", "Ceacoest.GenMeta.C121_both", "Ceacoest.GenMeta.C121_derived", "Ceacoest.GenMeta.C121_object", "Ceacoest.GenMeta.C121_override", "Ceacoest.GenMeta.C121_generated"], "note": "C121_class, C121_errors, C121_both (optimization_meta), C121_generated (agreement with Model.SymOptim), C121_derived, C121_object, C121_override (lookup). That sym2num writes the functions and assignments into the class body is a hypothesis (HasBody)."},
{"property": "C122", "status": "proved", "theorems": ["Ceacoest.C122_nnz", "Ceacoest.C122_ind"], "note": "C122_nnz, C122_ind (against sparseNnz and sparseInd of Model.GenOptim)."}
]}
