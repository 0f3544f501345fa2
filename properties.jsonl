{"id": "C01", "title": "Decision vector layout is a gap-free partition", "statement": "After any sequence of add_decision / add_dependent_variable / add_objective / add_constraint calls (including ones that raise), the decision variables occupy consecutive, pairwise disjoint index ranges, in registration order, that together cover exactly [0, ndec); each range has as many entries as the product of the declared shape.", "quantifier": "every history of registration calls, every name, every shape of any rank", "why_tests_cant": "An invariant over unbounded call histories and shapes; tests only build three fixed problem classes.", "anchors": ["ceacoest/optim.py:Problem.add_decision", "ceacoest/optim.py:Component"]}
{"id": "C02", "title": "Constraint vector layout is a gap-free partition", "statement": "After any history of registration calls, constraint functions occupy consecutive, pairwise disjoint ranges, in registration order, covering exactly [0, ncons).", "quantifier": "every history of registration calls and every constraint shape", "why_tests_cant": "Invariant over unbounded histories.", "anchors": ["ceacoest/optim.py:Problem.add_constraint"]}
{"id": "C03", "title": "Variable names are unique and rejected registrations change nothing", "statement": "In every reachable problem no name is used twice among decision and dependent variables together; registering a taken name raises ValueError and leaves the problem exactly as it was; variable_spec finds exactly the registered names and raises ValueError for others.", "quantifier": "every history of registration calls, every name", "why_tests_cant": "Needs all interleavings of successful and failing registrations.", "anchors": ["ceacoest/optim.py:Problem.add_decision", "ceacoest/optim.py:Problem.add_dependent_variable", "ceacoest/optim.py:Problem.variable_spec"]}
{"id": "C04", "title": "variables() splits the decision vector losslessly", "statement": "For every reachable problem and every vector of length ndec, variables(dvec) succeeds on decision variables, entry (i1,..,ir) of variable v is dvec[offset + C-order index], and concatenating the ravelled decision values in registration order gives back dvec; any vector of another length is rejected.", "quantifier": "all reachable problems, all vectors of all lengths", "why_tests_cant": "Round trip over all problems and all vectors.", "anchors": ["ceacoest/optim.py:Problem.variables", "ceacoest/optim.py:Component.unpack_from"]}
{"id": "C05", "title": "Writing through variables() views edits exactly the addressed decision entries", "statement": "Assigning to a decision array returned by variables(dvec) changes dvec at exactly the addressed entries and nothing else, and is seen by a later variables(dvec); assigning to piece-ravelled, endpoint or measurement arrays never changes dvec.", "quantifier": "all problems, decision vectors, sequences of assignments through returned arrays", "why_tests_cant": "The examples set bounds and initial guesses this way; aliasing must hold for every history of writes.", "anchors": ["ceacoest/optim.py:Component.unpack_from", "ceacoest/col.py:PieceRavelledVariable.unpack_from", "ceacoest/oc.py:XEVariable.unpack_from", "ceacoest/oem.py:XMVariable.unpack_from"]}
{"id": "C06", "title": "pack_into and add_to touch only their own range", "statement": "pack_into replaces, and add_to increments, exactly the component's own entries of the destination by the (broadcast) value; every other entry keeps its value; a value that cannot broadcast or a destination that is too short is rejected; unpack_from after pack_into returns the value.", "quantifier": "all components, destinations, values", "why_tests_cant": "Universal over shapes, offsets and broadcasts.", "anchors": ["ceacoest/optim.py:Component.add_to", "ceacoest/optim.py:Component.pack_into"]}
{"id": "C07", "title": "constr() stacks the constraints and unpack_constraints undoes it", "statement": "constr(dvec) has length ncons and its slice for each registered constraint is that constraint's (broadcast) value; unpack_constraints(constr(dvec)) maps each constraint name to that value (the last registered one if a name repeats).", "quantifier": "all reachable problems and decision vectors", "why_tests_cant": "All problems, including repeated names.", "anchors": ["ceacoest/optim.py:Problem.constr", "ceacoest/optim.py:Problem.unpack_constraints"]}
{"id": "C08", "title": "Sparse derivative arrays agree in length and stay in range", "statement": "For every problem whose functions satisfy the generated-code contract, obj_hess, constr_jac, constr_hess and lag_hess each have nnz = number of index columns = number of values at every dvec, no internal assertion fires, row/column indices are < ndec and constraint indices are < ncons.", "quantifier": "all problems, collocation sizes, decision vectors", "why_tests_cant": "Solver memory safety depends on it for every size; tests use 1-4 pieces.", "anchors": ["ceacoest/optim.py:Problem._sparse_fun_val", "ceacoest/optim.py:Problem.obj_hess_ind", "ceacoest/optim.py:Problem.constr_jac_ind", "ceacoest/optim.py:Problem.constr_hess_ind", "ceacoest/optim.py:Problem.lag_hess_ind"]}
{"id": "C09", "title": "obj_grad is the gradient of obj", "statement": "If every objective's symbolic gradient is right, then for every problem and every dvec component i of obj_grad(dvec) is the partial derivative of obj with respect to dvec[i], including contributions through shared piece endpoints, endpoint states and measured states.", "quantifier": "all problems over decision, piece-ravelled, endpoint and measured variables; all dvec", "why_tests_cant": "Finite-difference tests sample a few random points of a few models.", "anchors": ["ceacoest/optim.py:Problem.obj_grad", "ceacoest/modelling/genoptim.py:ObjectiveFunction.grad"]}
{"id": "C10", "title": "The assembled sparse Jacobian is the Jacobian of constr", "statement": "If every constraint's symbolic first derivatives are right, summing duplicate (decision, constraint) triplets of constr_jac_ind / constr_jac_val(dvec) gives the matrix of partial derivatives of constr at dvec.", "quantifier": "all problems, all dvec", "why_tests_cant": "As above; all sizes and index patterns.", "anchors": ["ceacoest/optim.py:Problem.constr_jac_ind", "ceacoest/optim.py:Problem.constr_jac_val", "ceacoest/modelling/genoptim.py:OptimizationFunction._sparse_deriv_ind"]}
{"id": "C11", "title": "The assembled sparse objective Hessian is the Hessian", "statement": "If symbolic second derivatives are right, the symmetric matrix whose one triangle is given by the triplets of obj_hess_ind / obj_hess_val (each off-diagonal triplet counted at (i,j) and (j,i)) is the matrix of second partial derivatives of obj.", "quantifier": "all problems whose functions do not take two aliases of one decision entry in one evaluation; all dvec", "why_tests_cant": "All sizes and index patterns; sampling cannot exclude a wrong mirrored entry.", "anchors": ["ceacoest/optim.py:Problem.obj_hess_ind", "ceacoest/optim.py:Problem.obj_hess_val", "ceacoest/modelling/symoptim.py:Model.add_sparse_derivative"]}
{"id": "C12", "title": "The Lagrangian Hessian is sigma * Hess(obj) + sum lambda_c * Hess(constr_c)", "statement": "For every objective multiplier and constraint multiplier vector of length ncons, the triplets of lag_hess_ind / lag_hess_val assemble to the second derivative of obj_mult*obj + constr_mult . constr; a multiplier vector of another length is rejected.", "quantifier": "all problems, dvec, multipliers", "why_tests_cant": "All multipliers and sizes.", "anchors": ["ceacoest/optim.py:Problem.lag_hess_val", "ceacoest/optim.py:Problem.lag_hess_ind", "ceacoest/optim.py:Problem.constr_hess_ind"]}
{"id": "C13", "title": "The solver sees the Jacobian with constraint rows and decision columns", "statement": "The index pair handed to Ipopt is (constraint index, decision index), in the same order as the values, each within ncons / ndec.", "quantifier": "all problems", "why_tests_cant": "No test exercises the ipopt context manager.", "anchors": ["ceacoest/optim.py:Problem.ipopt"]}
{"id": "C14", "title": "Piece-ravelled variables are the underlying points with shared endpoints", "statement": "For npieces >= 1 and ncol >= 2, entry (k, c) of the piece-ravelled array is point k*(ncol-1)+c of the underlying variable; so the last point of a piece equals the first of the next, and every underlying point appears.", "quantifier": "all numbers of pieces, collocation orders, trailing shapes, vectors", "why_tests_cant": "All sizes; tests use 1,2,4 pieces and orders 2,4.", "anchors": ["ceacoest/col.py:PieceRavelledVariable.unpack_from"]}
{"id": "C15", "title": "Piece-ravelled gradient accumulation is the adjoint of unpacking", "statement": "add_to(dest, v) adds to each decision entry the sum of v over all ravelled positions that read it (two positions at interior piece boundaries), so <add_to(0,v), d> = <v, unpack_from(d)>.", "quantifier": "all sizes, all v, all d", "why_tests_cant": "Adjointness is universally quantified over both arguments.", "anchors": ["ceacoest/col.py:PieceRavelledVariable.add_to"]}
{"id": "C16", "title": "Piece-ravelled index conversion agrees with unpacking and aliases only piece boundaries", "statement": "convert_ind(i) is the decision index that ravelled position i is read from, always inside the variable's range; two positions of one piece never alias; two distinct positions alias only if they are the end of a piece and the start of the next.", "quantifier": "all sizes, all ravelled positions", "why_tests_cant": "All sizes and index pairs.", "anchors": ["ceacoest/col.py:PieceRavelledVariable.convert_ind"]}
{"id": "C17", "title": "Endpoint variable reads, accumulates and indexes the first and last state", "statement": "With at least two points, unpack_from gives the first and last rows, add_to adds to exactly those rows, and convert_ind gives the decision index that each entry is read from.", "quantifier": "all sizes npoints >= 2, nx, vectors, values", "why_tests_cant": "All sizes.", "anchors": ["ceacoest/oc.py:XEVariable"]}
{"id": "C18", "title": "Measured-state variable reads, accumulates and indexes the measured rows", "statement": "For distinct in-range measurement indices, unpack_from gives rows kmeas, add_to adds each row of the value to its own measured row only, and convert_ind gives the decision index each entry is read from; out-of-range entries are rejected.", "quantifier": "all sizes, all kmeas lists, vectors, values", "why_tests_cant": "All masks and sizes.", "anchors": ["ceacoest/oem.py:XMVariable"]}
{"id": "C19", "title": "Only fully masked measurement rows are dropped and measurements stay time-aligned", "statement": "In an OEM problem the retained rows of y are exactly those with some unmasked entry, in order; row i of y is paired with the state, input and time at fine-grid index kmeas[i], and the fine-grid time there equals the coarse time of that measurement.", "quantifier": "all masks, grids, collocation orders", "why_tests_cant": "All mask patterns and grid sizes.", "anchors": ["ceacoest/oem.py:Problem.__init__", "ceacoest/rk.py:LGLCollocation.grid"]}
{"id": "C20", "title": "OEM inputs are piece-ravelled exactly like states", "statement": "The stored piece-ravelled input array equals what the piece-ravelled variable view of the fine-grid inputs would give, so f is evaluated with u at the same grid point as x.", "quantifier": "all sizes and inputs", "why_tests_cant": "All sizes.", "anchors": ["ceacoest/oem.py:Problem.__init__"]}
{"id": "C21", "title": "Problem classes register the documented layout", "statement": "For oc, oem and jme problems the decision vector is x,u,p / x,p / x,wc,p in that order with ndec = npoints*(nx+nu)+np, npoints*nx+np, npoints*nx+npieces*ninterv*nw+np, ncons = npieces*ninterv*nx (+ npoints*ng + nh), npoints = npieces*ninterv+1; construction rejects non-increasing t and wrong-shaped y or u.", "quantifier": "all models, grids", "why_tests_cant": "All sizes.", "anchors": ["ceacoest/oc.py:Problem.__init__", "ceacoest/oem.py:Problem.__init__", "ceacoest/jme.py:Problem", "ceacoest/col.py:Problem.__init__"]}
{"id": "C22", "title": "The collocation grid refines the coarse grid", "statement": "grid(t) has (len(t)-1)*(n-1)+1 points, starts at t[0], ends at t[-1], contains t[k] at index k*(n-1), places the normalised points affinely in each piece, and is strictly increasing when t is.", "quantifier": "all coarse grids and collocation orders", "why_tests_cant": "All grids.", "anchors": ["ceacoest/rk.py:LGLCollocation.grid"]}
{"id": "C23", "title": "Lagrange basis polynomials are cardinal", "statement": "For distinct points, basis polynomial i is 1 at point i and 0 at the others, has degree < n, and the basis sums to the constant 1; sum_i p(points[i]) * l_i = p for every polynomial of degree < n.", "quantifier": "all lists of distinct points in any field, all polynomials", "why_tests_cant": "All point sets.", "anchors": ["ceacoest/rk.py:lagrange_basis"]}
{"id": "C24", "title": "J and K integrate polynomials exactly", "statement": "For distinct points, row k of J applied to samples of any polynomial of degree < n is its exact integral over [points[k], points[k+1]]; K is the sum of the rows of J and integrates it exactly over the whole piece; K sums to 1.", "quantifier": "all point sets from 0 to 1, all polynomials of degree < n", "why_tests_cant": "All polynomials.", "anchors": ["ceacoest/rk.py:LGLCollocation.__init__", "ceacoest/rk.py:pdinteg"]}
{"id": "C25", "title": "LGL quadrature has degree of exactness 2n-3", "statement": "When the interior points are the zeros of the derivative of the shifted Legendre polynomial, K integrates every polynomial of degree <= 2n-3 exactly over [0,1].", "quantifier": "all orders n >= 2, all polynomials of degree <= 2n-3", "why_tests_cant": "All orders and polynomials; the tests cover none.", "anchors": ["ceacoest/rk.py:lgl_points", "ceacoest/rk.py:LGLCollocation.__init__"]}
{"id": "C26", "title": "Collocation order below 2 is rejected; the end points are 0 and 1", "statement": "lgl_points(n) raises ValueError for n < 2, otherwise returns n points beginning at 0 and ending at 1.", "quantifier": "all n", "why_tests_cant": "All n.", "anchors": ["ceacoest/rk.py:lgl_points"]}
{"id": "C27", "title": "Zero defects characterise polynomial collocation solutions", "statement": "The collocation defects of a piece vanish iff every state increment between consecutive points equals the exact integral of the degree < n interpolant of f; in particular every polynomial path of degree <= n whose derivative equals f at the collocation points has zero defects.", "quantifier": "all orders, piece lengths, vector fields, point values", "why_tests_cant": "All trajectories and orders.", "anchors": ["ceacoest/modelling/symcol.py:Model.e"]}
{"id": "C28", "title": "J has full row rank and the process-noise coordinates lose nothing", "statement": "For distinct points J has rank n-1, so the orthonormal basis of the range of J^T has exactly n-1 columns (the declared shape of wc), and every noise path w has coordinates wc giving the same defects, with no larger norm.", "quantifier": "all point sets, all noise values", "why_tests_cant": "All orders and values.", "anchors": ["ceacoest/rk.py:LGLCollocation.__init__", "ceacoest/modelling/symjme.py:Model.e", "ceacoest/jme.py:Problem._init_collocation_variables"]}
{"id": "C29", "title": "Sparse derivatives of generated functions index every broadcast copy", "statement": "For a function vectorised over an extension shape, the index arrays list, for every extension element and base nonzero, the flat index of that element's own entry in the argument and output arrays (broadcast arguments keep their single copy), in the same order as the values.", "quantifier": "all base shapes, extension shapes, broadcasts, sparsity patterns", "why_tests_cant": "All shapes.", "anchors": ["ceacoest/modelling/genoptim.py:OptimizationFunction._sparse_deriv_ind", "ceacoest/modelling/genoptim.py:OptimizationFunction._sparse_deriv_nnz"]}
{"id": "C30", "title": "Sparse extraction loses no derivative", "statement": "The index/value lists extracted from a dense derivative tensor reproduce it exactly: every entry not listed is zero, nothing is listed twice, and for a repeated argument the listed triangle plus its mirror image is the whole symmetric tensor.", "quantifier": "all tensors, all zero patterns", "why_tests_cant": "All sparsity patterns.", "anchors": ["ceacoest/modelling/symoptim.py:Model.add_sparse_derivative"]}
{"id": "C31", "title": "Every unordered pair of arguments gets exactly one Hessian block", "statement": "Whatever the iteration order of the set of differentiated arguments, add_objective / add_constraint create for each unordered pair exactly one second-derivative candidate and for each argument one first derivative.", "quantifier": "all argument sets and all iteration orders", "why_tests_cant": "Set iteration order is hash-seed dependent.", "anchors": ["ceacoest/modelling/symoptim.py:Model.add_objective", "ceacoest/modelling/symoptim.py:Model.add_constraint"]}
{"id": "C32", "title": "Renamed arguments route derivatives to the right problem variables", "statement": "When a function is registered with an explicit argument list of distinct names, it is evaluated on exactly those problem variables, its shapes are looked up under them, and each derivative block is credited to the variable that was passed for that argument.", "quantifier": "all functions and argument lists without repetition", "why_tests_cant": "All renamings; only one is exercised.", "anchors": ["ceacoest/optim.py:OptimizationFunction.rename", "ceacoest/optim.py:OptimizationFunction.rename_kwargs", "ceacoest/optim.py:OptimizationFunction.__call__"]}
{"id": "C33", "title": "Derivative names do not collide", "statement": "Distinct (function, argument(s)) derivatives get distinct generated attribute names.", "quantifier": "all functions and variable names", "why_tests_cant": "All names.", "anchors": ["ceacoest/modelling/symoptim.py:Model.first_derivative_name", "ceacoest/modelling/symoptim.py:Model.second_derivative_name", "ceacoest/utils.py:double_deriv_name"]}
{"id": "C34", "title": "A fully masked measurement is a no-op", "statement": "correct(y) with every entry masked returns and keeps the current mean and covariance, and the following likelihood and derivative updates change nothing, for both filters.", "quantifier": "all filter states, models", "why_tests_cant": "All states.", "anchors": ["ceacoest/kalman/unscented.py:DTCorrector.correct", "ceacoest/kalman/extended.py:DTCorrector.correct"]}
{"id": "C35", "title": "Partially masked measurements equal correction with the reduced measurement model", "statement": "correct(y) with some entries masked gives the same mean and covariance as correcting, without mask, a model having only the unmasked outputs and the corresponding block of R; the masked numbers are irrelevant.", "quantifier": "all masks, models, states", "why_tests_cant": "All masks and values.", "anchors": ["ceacoest/kalman/unscented.py:DTCorrector.correct", "ceacoest/kalman/extended.py:DTCorrector.correct"]}
{"id": "C36", "title": "Covariances stay symmetric positive semidefinite", "statement": "Starting from a symmetric PSD covariance and models with PSD Q and PD R, every history of predict/correct calls that does not raise keeps Px symmetric PSD (UKF with kappa >= 0, and EKF).", "quantifier": "all models, all histories of predict and correct with any masks", "why_tests_cant": "Invariant over unbounded histories.", "anchors": ["ceacoest/kalman/extended.py:DTPredictor.predict", "ceacoest/kalman/extended.py:DTCorrector.correct", "ceacoest/kalman/unscented.py:DTPredictor.predict", "ceacoest/kalman/unscented.py:DTCorrector.correct"]}
{"id": "C37", "title": "A correction never increases the covariance", "statement": "After correct(y) the previous covariance minus the new one is positive semidefinite.", "quantifier": "all models, states, measurements", "why_tests_cant": "All states.", "anchors": ["ceacoest/kalman/extended.py:DTCorrector.correct", "ceacoest/kalman/unscented.py:DTCorrector.correct"]}
{"id": "C38", "title": "The EKF correction is the Bayesian linear-Gaussian update", "statement": "With PD Px and R, the EKF correction satisfies Px_new^-1 = Px^-1 + H R^-1 H^T and its mean is the unique minimiser of the linearised posterior cost.", "quantifier": "all models, states, measurements", "why_tests_cant": "All values.", "anchors": ["ceacoest/kalman/extended.py:DTCorrector.correct"]}
{"id": "C39", "title": "Filtering is a fixed schedule of N corrections and N-1 predictions", "statement": "filter(y) performs correct on each sample in order with a predict between consecutive samples, returns the corrected moments per sample, advances the time index by N-1, and filtering a concatenation equals filtering the first part, predicting once, and filtering the second part.", "quantifier": "all measurement sequences of any length, all splits", "why_tests_cant": "All lengths and splits.", "anchors": ["ceacoest/kalman/base.py:DTFilter.filter"]}
{"id": "C40", "title": "Smoothing agrees with filtering at the end and is the backward recursion before it", "statement": "smooth(y) leaves the filter in the same final state as filter(y), its last sample equals the filtered one, sample k is the filtered one plus the gain-weighted difference between smoothed and predicted sample k+1, and an empty y is rejected.", "quantifier": "all measurement sequences", "why_tests_cant": "All lengths.", "anchors": ["ceacoest/kalman/base.py:DTFilter.smooth", "ceacoest/kalman/base.py:DTFilter.smoother_correction"]}
{"id": "C41", "title": "Unscented weights and sigma points match the input moments", "statement": "For ni + kappa != 0 there are 2 ni (+1) weights summing to 1, and when the square root satisfies S^T S = (ni+kappa) P the weighted sigma points have exactly mean i and covariance P.", "quantifier": "all dimensions, kappa, means, covariances", "why_tests_cant": "Tests: ni <= 4 and three kappas.", "anchors": ["ceacoest/kalman/unscented.py:UnscentedTransformBase.__init__", "ceacoest/kalman/unscented.py:UnscentedTransformBase.sigma_points"]}
{"id": "C42", "title": "The unscented transform is exact for affine functions", "statement": "For f(x) = A x + b the transform returns mean A i + b, covariance A P A^T and cross-covariance P A^T.", "quantifier": "all dimensions, kappa, A, b, i, P", "why_tests_cant": "All values.", "anchors": ["ceacoest/kalman/unscented.py:UnscentedTransformBase.transform", "ceacoest/kalman/unscented.py:UnscentedTransformBase.crosscov"]}
{"id": "C43", "title": "On affine models the unscented and extended filters coincide", "statement": "For affine f and h, predict and correct of the two filters return the same mean and covariance, hence so do filter and smooth over any measurement sequence.", "quantifier": "all affine models, states, measurement sequences, masks", "why_tests_cant": "All values and lengths.", "anchors": ["ceacoest/kalman/unscented.py:DTFilter", "ceacoest/kalman/extended.py:DTFilter"]}
{"id": "C44", "title": "Cholesky differentiation is right", "statement": "diff(dQ) is the unique upper triangular dS with S^T dS + dS^T S = dQ, and is the derivative of the Cholesky factor along any differentiable path of positive definite matrices; diff2 likewise gives the second derivative.", "quantifier": "all sizes, PD matrices, symmetric perturbations", "why_tests_cant": "Tests: n <= 4 and random points.", "anchors": ["ceacoest/kalman/unscented.py:DifferentiableCholesky"]}
{"id": "C45", "title": "Unscented transform derivatives are right", "statement": "transform_diff and crosscov_diff return the derivatives with respect to the parameters of the transformed mean, covariance and cross-covariance; transform_diff2 / crosscov_diff2 the second derivatives.", "quantifier": "all smooth functions, moments, parameters", "why_tests_cant": "All smooth functions.", "anchors": ["ceacoest/kalman/unscented.py:UnscentedTransformBase.transform_diff", "ceacoest/kalman/unscented.py:UnscentedTransformBase.crosscov_diff"]}
{"id": "C46", "title": "pem_gradient is the gradient of pem_merit", "statement": "For the Cholesky unscented filter, for every measurement sequence and mask pattern, the returned dL_dq is the gradient with respect to q of what pem_merit returns.", "quantifier": "all smooth parametric models, measurement sequences, masks, parameters", "why_tests_cant": "Tests: three samples, no masks.", "anchors": ["ceacoest/kalman/base.py:DTFilter.pem_gradient", "ceacoest/kalman/unscented.py:DTCorrector.likelihood_diff", "ceacoest/kalman/unscented.py:DTCorrector.correction_diff", "ceacoest/kalman/unscented.py:DTPredictor.prediction_diff"]}
{"id": "C47", "title": "pem_hessian is the derivative of pem_gradient", "statement": "For the Cholesky unscented filter the returned d2L_dq2 is the matrix of second derivatives of pem_merit.", "quantifier": "all smooth parametric models, measurement sequences, masks, parameters", "why_tests_cant": "All sequences.", "anchors": ["ceacoest/kalman/base.py:DTFilter.pem_hessian", "ceacoest/kalman/unscented.py:DTCorrector.likelihood_diff2", "ceacoest/kalman/unscented.py:DTCorrector.correction_diff2", "ceacoest/kalman/unscented.py:DTPredictor.prediction_diff2"]}
{"id": "C48", "title": "pem_merit accumulates Gaussian innovation log-likelihoods", "statement": "pem_merit(y) returns the initial L plus, for each sample with an unmasked entry, the Gaussian log-density of its innovation up to the (ny/2) log 2 pi constant; it works for both filters.", "quantifier": "all models, measurement sequences, masks, both filters", "why_tests_cant": "All sequences; the EKF path has no test.", "anchors": ["ceacoest/kalman/base.py:DTFilter.pem_merit", "ceacoest/kalman/unscented.py:DTCorrector.update_likelihood", "ceacoest/kalman/extended.py:DTCorrector.update_likelihood"]}
{"id": "C49", "title": "Filter options initialise the attribute of the same name", "statement": "Every derivative option passed to the constructor initialises exactly the attribute of that name; absent ones default to the model's initial derivative or zero.", "quantifier": "all subsets of options", "why_tests_cant": "All option combinations.", "anchors": ["ceacoest/kalman/base.py:DTFilter.__init__", "ceacoest/kalman/base.py:DTFilter._get_initial"]}
{"id": "C50", "title": "Quaternion kinematics conserve the norm up to the renormalisation term", "statement": "d|q|^2/dt = 2*gain*(1-|q|^2)*|q|^2 for every quaternion and rate; with zero gain the norm is conserved and with positive gain it is driven to 1.", "quantifier": "all quaternions, angular rates, gains", "why_tests_cant": "All values.", "anchors": ["ceacoest/modelling/symquat.py:derivative"]}
{"id": "C51", "title": "rotmat is a rotation and is consistent with the kinematics", "statement": "rotmat(q) rotmat(q)^T = |q|^4 I and det = |q|^6, so unit quaternions give proper rotations; rotmat(q)=rotmat(-q); along the kinematics dR/dt = -[omega]x R for unit q and zero gain.", "quantifier": "all quaternions and rates", "why_tests_cant": "All values.", "anchors": ["ceacoest/modelling/symquat.py:rotmat", "ceacoest/modelling/symquat.py:derivative"]}
{"id": "C52", "title": "toeuler inverts the Euler rotation sequence", "statement": "For a unit quaternion away from gimbal lock, the roll-pitch-yaw rotation matrix built from toeuler(q) equals rotmat(q).", "quantifier": "all unit quaternions with |pitch| < 90 deg", "why_tests_cant": "All attitudes.", "anchors": ["ceacoest/modelling/symquat.py:toeuler"]}
{"id": "C53", "title": "Normal log-densities are logs of the densities and vanish when masked", "statement": "For std > 0, normal_logpdf = log(normal_pdf), normal_logpdf1 differs from it by the constant log(2 pi)/2, normal_pdf integrates to 1; masked samples contribute exactly 0 to the log-densities.", "quantifier": "all samples, means, standard deviations, masks", "why_tests_cant": "All values.", "anchors": ["ceacoest/modelling/symstats.py"]}
{"id": "C54", "title": "SDE discretisations have the stated drift and a valid covariance", "statement": "Q(k,x) of a discretised model is symmetric PSD; for Euler Q = dt g g^T and f = x + dt f_c; for the order 1.5 scheme Q = dt gg^T + dt^2/2 (Lg^T + gL^T) + dt^3/3 LL^T with L = (df/dx) g, and f is the second-order Ito-Taylor drift.", "quantifier": "all continuous-time models, dt >= 0, states", "why_tests_cant": "All models.", "anchors": ["ceacoest/modelling/symsde.py"]}
{"id": "C55", "title": "multivariate_normal_pdf is the Gaussian density up to (2 pi)^(-n/2), marginalising masked entries", "statement": "Unmasked: exp(-dev' cov^-1 dev / 2)/sqrt(det cov). Fully masked: 1. Partially masked: the marginal density of the unmasked entries.", "quantifier": "all inputs, PD covariances, masks", "why_tests_cant": "All masks and covariances.", "anchors": ["ceacoest/modelling/stats.py:multivariate_normal_pdf"]}
{"id": "C56", "title": "svd_sqrt returns a square root", "statement": "svd_sqrt(a) svd_sqrt(a)^T = a for every symmetric PSD a.", "quantifier": "all symmetric PSD matrices", "why_tests_cant": "All matrices; untested.", "anchors": ["ceacoest/modelling/stats.py:svd_sqrt"]}
{"id": "C57", "title": "Finite differences are exact on the polynomials they should be", "statement": "central_diff is exact for functions quadratic, and forward_diff for functions affine, in each coordinate; the step is never smaller than min_step (> 0), for any sign of x.", "quantifier": "all such functions, points, step parameters", "why_tests_cant": "All functions and points.", "anchors": ["ceacoest/utils.py:central_diff", "ceacoest/utils.py:forward_diff"]}
{"id": "C58", "title": "extract_subkeys returns exactly the prefixed entries", "statement": "For a literal prefix and word-character keys, the result has exactly one entry per key that strictly extends the prefix, under the rest of the key, with the same value; other keys never leak in.", "quantifier": "all dictionaries with identifier keys, all prefixes", "why_tests_cant": "All key sets.", "anchors": ["ceacoest/utils.py:extract_subkeys"]}
{"id": "C59", "title": "flat_cat concatenates ravelled arguments", "statement": "The result has total size the sum of the sizes and the C-order (or Fortran-order) flattening of argument k occupies its own block in order.", "quantifier": "all argument lists and shapes", "why_tests_cant": "All shapes.", "anchors": ["ceacoest/utils.py:flat_cat"]}
{"id": "C60", "title": "cached computes once and then always returns the same value", "statement": "Across any number of calls a cached method's function body runs at most once per object and all calls return its first value.", "quantifier": "all call histories over any set of objects", "why_tests_cant": "All histories.", "anchors": ["ceacoest/utils.py:cached"]}
{"id": "C61", "title": "ArrayDiff comparison is elementwise, with strict tolerance", "statement": "ArrayDiff(a,b) < tol holds iff the shapes broadcast and every broadcast pair satisfies |a-b| < tol + tol*|b|; with zero tolerance no nonempty comparison holds.", "quantifier": "all arrays, tolerances", "why_tests_cant": "The tests rely on it and do not test it.", "anchors": ["ceacoest/testsupport/array_cmp.py:ArrayDiff.within_tol"]}
{"id": "C62", "title": "Component sizes are the number of elements", "statement": "size equals the product of the shape for every shape.", "quantifier": "all shapes", "why_tests_cant": "The product is taken in 32-bit arithmetic; overflow needs sizes no test allocates.", "anchors": ["ceacoest/optim.py:Component.size"]}
{"id": "C63", "title": "Gauss-Lobatto weights are positive, sum to one, and their exactness degree is sharp", "statement": "For every order n >= 2 the quadrature weights K are positive and add up to one, and some polynomial of degree 2n-2 is not integrated exactly.", "quantifier": "all orders n >= 2", "why_tests_cant": "All orders; sharpness is a non-existence claim over all higher exactness.", "anchors": ["ceacoest/rk.py:LGLCollocation.__init__"]}
{"id": "C64", "title": "Tube log-density and defect penalty have the right sign and zeros", "statement": "The tube log-density of a piece is -1/2 piece_len times the quadrature of w^T w (plus the trace of df/dx over the last nw states in the Onsager-Machlup case); without that term it is <= 0 with equality iff wc = 0; the penalty is <= 0 with equality iff all defects vanish; for nw = 0 the trace is that of the whole Jacobian.", "quantifier": "all models, noise values, weights", "why_tests_cant": "All values and sizes.", "anchors": ["ceacoest/modelling/symjme.py:Model"]}
{"id": "C65", "title": "Prefixed options configure the two unscented transforms", "statement": "In the unscented filter the prediction transform uses pred_ut_sqrt / pred_ut_kappa and the correction transform corr_ut_sqrt / corr_ut_kappa, each falling back to sqrt / kappa and then to Cholesky and 0; a bad sqrt raises ValueError and kappa = -nx AssertionError.", "quantifier": "all option dicts, models", "why_tests_cant": "All option combinations; the order of three constructors chained by super().", "anchors": ["ceacoest/kalman/unscented.py:DTPredictor.__init__", "ceacoest/kalman/unscented.py:DTCorrector.__init__", "ceacoest/kalman/unscented.py:choose_ut_transform_class"]}
{"id": "C66", "title": "Functions generated from symbolic ones meet the derivative contracts, end to end", "statement": "For any sequence of add_objective / add_constraint calls on a symbolic model with plain names, whose symbolic derivatives have the right shape: the calls succeed, and if the generated code evaluates the listed symbolic functions elementwise, every function object of genoptim meets the contracts of C08-C13. A problem all of whose functions are obtained in this way and registered in agreement with the model has the right gradient, constraint Jacobian, objective Hessian and Lagrangian Hessian wherever the symbolic derivatives are right. The contracts are met by a language of expressions with reciprocals, sin, cos, exp and log.", "quantifier": "all symbolic models, all functions, all set iteration orders, all shapes, all decision vectors", "why_tests_cant": "It ties the symbolic layer (sparse index lists with half of the symmetric entries dropped, name-based lookup) to the numeric layer for all functions and shapes at once.", "anchors": ["ceacoest/modelling/symoptim.py:OptimizationModel", "ceacoest/modelling/genoptim.py", "ceacoest/optim.py:Problem"]}
{"id": "C67", "title": "Derivatives of optimal control, output error and joint MAP problems built from generated models", "statement": "If the functions of an optimal control, output error or joint MAP model (e, IL, M, g, h / e, L / e, L, tube_L, penalty) are generated from symbolic functions whose arguments are among the documented ones, and the shapes and decision variables of the symbolic model are those of the class, then constructing the problem succeeds and obj_grad, constr_jac, obj_hess and lag_hess are the derivatives of obj and constr at every decision vector at which the symbolic derivatives are right.", "quantifier": "for all models, meshes (number of pieces, collocation order), measurement masks, inputs, dimensions and decision vectors", "why_tests_cant": "The registration of each function (which variables, which shapes, which offsets) must fit for every mesh, mask and dimension; a test fixes one of each and compares with finite differences at isolated points.", "anchors": ["ceacoest/oc.py", "ceacoest/oem.py", "ceacoest/jme.py", "ceacoest/optim.py", "ceacoest/col.py"]}
{"id": "C68", "title": "Constructors of the symbolic model classes register the documented variables, objectives and constraints", "statement": "Constructing an optimal control, output error or joint MAP model succeeds for every dictionary of variables with one-dimensional states, inputs and parameters (inputs and parameters may be missing). The model then has: x, u, p as given with empty defaults; xp, up with symbols name_piece_k at all collocation points; piece_len; xe with _initial/_final symbols (optimal control); wc and penweight (joint MAP); every other variable unchanged; exactly the documented decision variables plus those of the user; exactly the objectives IL, M / L / L, tube_L(, penalty) and constraints e, g, h / e / e, all marked for code generation. Missing states give ValueError, a missing noise matrix KeyError, a collocation order below two ValueError. The caller's dictionary is only changed by the additions, and constructing again from it gives the same model.", "quantifier": "for all user models, dictionaries, decision sets, set iteration orders and collocation orders", "why_tests_cant": "The dictionaries are mutated in an order interleaved with super().__init__ calls and differ per class; tests fix one model of each class and never look at the mutated dictionary.", "anchors": ["ceacoest/modelling/symcol.py:CollocationModel.__init__", "ceacoest/modelling/symoc.py:OptimalControlModel", "ceacoest/modelling/symoem.py", "ceacoest/modelling/symjme.py"]}
{"id": "C69", "title": "Derived symbol names never collide with each other; exact condition for collision with user names", "statement": "name_piece_k, name_initial, name_final, wcj_interv_i and penweighti determine their kind, name and indices. The symbols of a constructed model are pairwise different if and only if the user's symbols are pairwise different and none of them is one of the derived symbols of the model; symbols without the marks _piece_, _interv_, a final _initial or _final and an initial penweight never are. A user symbol that is also a derived one goes unnoticed (witness).", "quantifier": "for all user dictionaries, names and collocation orders", "why_tests_cant": "Injectivity of a naming scheme over all strings and indices.", "anchors": ["ceacoest/modelling/symcol.py:44", "ceacoest/modelling/symoc.py:22", "ceacoest/modelling/symjme.py:25", "ceacoest/modelling/symjme.py:36"]}
{"id": "C70", "title": "Symbolic models become the intended nonlinear programs, with exact derivatives", "statement": "For an optimal control, output error or joint MAP model given by the user's functions f, L, M, g, h as symbolic expressions: constructing the model, generating its class and constructing the problem succeed, and at every decision vector the objective and the constraints of the problem are those of the direct transcription (quadrature of L with the collocation weights, Mayer term, log likelihood of the unmasked measurements, tube energy with the drift divergence, defects of the collocation of f, path and end constraints); obj_grad, constr_jac, obj_hess and lag_hess are its derivatives wherever the expressions are defined.", "quantifier": "for all user models, dimensions, meshes, masks, inputs and decision vectors", "why_tests_cant": "End-to-end statement across four layers (symbolic classes, code generation contract, problem tables, sparse assembly) for all models; tests check a few numeric examples of single layers.", "anchors": ["ceacoest/modelling/symoc.py", "ceacoest/modelling/symoem.py", "ceacoest/modelling/symjme.py", "ceacoest/modelling/symcol.py", "ceacoest/modelling/symoptim.py", "ceacoest/oc.py", "ceacoest/oem.py", "ceacoest/jme.py"]}
{"id": "C71", "title": "Everything the generated class looks up has been generated", "statement": "Every constructor that returns leaves a model in which for each registered objective and constraint, each first derivative and each Hessian that genoptim looks up by name, the function is marked for code generation and its nnz and index list are assigned; hence building the generated class finds every attribute.", "quantifier": "for all user models, dictionaries and sequences of add_objective / add_constraint calls", "why_tests_cant": "Names are assembled from strings in one module and looked up in another; a mismatch appears only for the combination of variables a model happens to use.", "anchors": ["ceacoest/modelling/symoptim.py:OptimizationModel", "ceacoest/modelling/genoptim.py:16-28", "ceacoest/modelling/genoptim.py:178-225"]}
{"id": "C72", "title": "Feasible points of the nonlinear programs are collocation solutions; sampled solutions are feasible at their true cost", "statement": "For an optimal control, output error or joint MAP model and every decision vector, the defect constraints all vanish if and only if there is a continuous path, polynomial of degree at most N + 1 on every piece, through the states of the decision vector, which satisfies the differential equation (with the inputs, parameters and noise of the decision vector) at every point of the fine grid. Conversely sampling any solution of the differential equation whose states are piecewise polynomials of degree at most N + 1 gives a decision vector without defects, whose path and end constraints are those of the solution, and whose objective is exactly the integral of the running cost plus the end cost if the running cost is a piecewise polynomial of degree at most 2N - 1.", "quantifier": "for all user models, dimensions, orders, meshes, decision vectors and solutions", "why_tests_cant": "An equivalence between zeros of assembled arrays and existence of functions of continuous time.", "anchors": ["ceacoest/modelling/symcol.py:e", "ceacoest/modelling/symoc.py:IL", "ceacoest/rk.py:LGLCollocation", "ceacoest/oc.py", "ceacoest/oem.py", "ceacoest/jme.py"]}
{"id": "C73", "title": "The example models: Bryson-Denham, brachistochrone, ATTAS, Duffing", "statement": "The Bryson-Denham example builds without error on every mesh from 0 to 1. If the mesh contains a and 1 - a with 1/9 <= a <= 1/3, then every decision vector that meets the constraints and bounds costs at least 3 (a - 1/9)^2 / a^3, and the sampled two-arc solution is feasible at cost 4 / (3 a); so the minimum is exactly 4 if 1/3 is a mesh point, and on the mesh of the example (100 equal pieces, which lacks 1/3) it lies between 3.9996 and 4.0405. In the brachistochrone example the objective is the last decision variable, the constraints vanish exactly at collocation solutions of the equations of motion, and all derivatives are exact. In the ATTAS example the objective is the log-likelihood of all measurements of pitch rate and angle of attack, the constraints vanish exactly at collocation solutions of the short period equations, the derivatives are exact wherever the two standard deviations are positive (in particular within the bounds), and replacing a standard deviation by the root mean square of its residuals never lowers the objective. In the Duffing example the objective is the log-likelihood of the unmasked measurements plus half the damping times the duration minus half the energy of the noise.", "quantifier": "for all meshes, decision vectors and set iteration orders", "why_tests_cant": "A lower bound over all feasible points of a program with hundreds of variables, on every mesh; a solver run gives one local minimum.", "anchors": ["examples/bryson_denham.py", "examples/brachistochrone.py", "ceacoest/modelling/symoc.py", "ceacoest/oc.py", "examples/attas_sp.py", "examples/duffing_jme.py"]}
{"id": "C74", "title": "The noise coordinates lose nothing in the measure of the objective", "statement": "No noise path with the same increments J w as JT_range @ wc (hence the same defects) has a larger tube log-density. Proved: among the noise paths with given increments exactly one has the greatest log-density, the samples of a polynomial of degree at most n - 2, and its energy is integrated exactly; at order 2 the coordinates reach it. For every order n >= 3 the claim is false: some coordinates have a lower log-density than another path with the same increments. At order 3, used in the examples, the loss is exactly piece_len / 9 times the squared mean of each noise component, so constant noise is charged 11/9 of its energy on every mesh.", "quantifier": "for all orders, noise paths, noise dimensions, states, and orthonormal bases of the range of J transposed", "why_tests_cant": "The loss does not vanish as the mesh is refined and gives a plausible estimate; noticing it needs the optimum over all noise paths.", "anchors": ["ceacoest/modelling/symjme.py:47-79", "ceacoest/rk.py:74-91", "ceacoest/rk.py:100-110"]}
{"id": "C75", "title": "Filter, smoother and likelihood are those of the posterior", "statement": "On an affine model with normal noise (positive definite covariances, the process noise not depending on the state) and a normal prior, the moments that filter returns for sample j are mean and covariance of the normal distribution of its state given the unmasked measurements up to j; those of smooth are mean and covariance of the normal distribution of its state given all unmasked measurements; the smoothed means are the only maximiser of the joint density of states and measurements; and pem_merit of the unscented filter is the logarithm of the density of all unmasked measurements (its states integrated out), plus log(2 pi) / 2 for each unmasked entry, plus the initial value.", "quantifier": "for all dimensions, time-varying affine models, data, mask patterns, numbers of samples, initial moments, and kappa with nx + kappa > 0", "why_tests_cant": "The posterior is an integral over all state paths; tests compare two filters with each other or with one simulated record.", "anchors": ["ceacoest/kalman/base.py:DTFilter.filter", "ceacoest/kalman/base.py:DTFilter.smooth", "ceacoest/kalman/extended.py:DTFilter", "ceacoest/kalman/unscented.py:DTFilter", "ceacoest/kalman/base.py:DTFilter.pem_merit"]}
{"id": "C76", "title": "Points without defects exist, are unique, and converge to the solution of the differential equation", "statement": "For a right hand side that is Lipschitz continuous in the states and a mesh that is fine enough, the nonlinear program of an optimal control or output error problem has exactly one decision vector without defects for given initial states, inputs and parameters. If its inputs and parameters are those of a process of the problem, its states differ from the process at every grid point by at most an explicit bound, which is of order h^(N+1) for smooth right hand sides (N intervals per piece, pieces no longer than h); its objective differs from the true cost, or the log-likelihood given the process, by at most the Lipschitz constants times that bound plus the error of the quadrature; likewise its path and end point constraints.", "quantifier": "for all models, orders >= 2, meshes, processes, Lipschitz constants and initial errors", "why_tests_cant": "Tests solve one problem on one mesh; convergence is about all meshes, and existence and uniqueness about all initial states, inputs and parameters.", "anchors": ["ceacoest/modelling/symcol.py", "ceacoest/modelling/symoc.py", "ceacoest/modelling/symoem.py", "ceacoest/oc.py", "ceacoest/oem.py", "ceacoest/rk.py"]}
{"id": "C77", "title": "The transition and measurement densities are those of the sampled transitions and measurements", "statement": "Where the transition covariance g g' is positive definite, trans_pdf divided by (2 pi)^(nx/2) is the probability density of the values that trans_rvs draws with standard normal numbers; the law is normal with mean f and covariance Q also where Q is singular, and there trans_pdf raises LinAlgError. With fewer noises than states the Euler discretisation never has densities; the order 1.5 discretisation has them exactly where g and the drift derivative along g span the state space. meas_pdf is the density of h + r v for every square root r of R; multivariate_normal_rvs always raises TypeError.", "quantifier": "for all models, times, states, sample points and measurable sets", "why_tests_cant": "A test compares finitely many points or histograms; the claim is an equality of measures, and the conditions for existence are about all models.", "anchors": ["ceacoest/modelling/gensde.py", "ceacoest/modelling/stats.py", "ceacoest/modelling/symsde.py"]}
{"id": "C78", "title": "The moments propagated on discretised models converge to those of the stochastic differential equation", "statement": "For a linear stochastic differential equation with additive noise, the extended Kalman filter on the discretised model, predicting over [0, T] in N steps, has at every step the mean and covariance of the solution up to C/N^2 with the order 1.5 discretisation and C/N with the Euler discretisation; one step of the order 1.5 discretisation has the exact transition mean and covariance up to C dt^3.", "quantifier": "for all linear models, initial moments, horizons and numbers of steps", "why_tests_cant": "Tests fix a step size; the order of convergence quantifies over all step sizes.", "anchors": ["ceacoest/modelling/symsde.py", "ceacoest/kalman/extended.py"]}
{"id": "C79", "title": "Filters of a stack of states filter each state of the stack", "statement": "For states of shape base_shape + (nx,), the extended and the unscented filter, smoother and (unscented) pem_merit return if and only if they return on every state of the stack by itself, and then return the stack of what they return there. The extended filter does so also with one covariance (nx, nx) for all states, as model.Px0() gives it. The unscented filter does not: with one covariance and a stack of shape (n,), prediction and correction raise unless n = nx or nx = 1, and for n = nx they return with wrong covariances.", "quantifier": "every model, stack shape with at least one entry, state, covariance, measurement sequence with any mask; for the failure: every nx, n", "why_tests_cant": "The tests of the filters never pass a stack of states; a stack of nx states with one covariance gives plausible numbers of the right shape.", "anchors": ["ceacoest/kalman/base.py:18-46", "ceacoest/kalman/base.py:86-143", "ceacoest/kalman/extended.py:28-46", "ceacoest/kalman/extended.py:124-162", "ceacoest/kalman/unscented.py:67-122", "ceacoest/kalman/unscented.py:169-170", "ceacoest/kalman/unscented.py:328-341", "ceacoest/kalman/unscented.py:407-450", "ceacoest/kalman/unscented.py:541-548"]}
{"id": "C80", "title": "pem_gradient and pem_hessian of a stack of states are those of each state", "statement": "For states of shape base_shape + (nx,), with covariances and initial derivatives of that base shape, pem_gradient and pem_hessian of the unscented filter return if and only if they return on every state of the stack by itself, and then return the stack of what they return there. With the derivative of one initial covariance, as model.dPx0_dq() gives it, and two states or more, they never return: correction_diff and prediction_diff raise.", "quantifier": "every model, stack shape with at least one entry, state, covariance, initial derivatives, kind of square root, kappa, measurement sequence with any mask; for the failure: every stack with two entries or more", "why_tests_cant": "The tests call the derivative methods of the filters for one state only; each of some sixty in-place operations could have the wrong shape for a stack, or pair the wrong entries.", "anchors": ["ceacoest/kalman/base.py:46-75", "ceacoest/kalman/base.py:145-176", "ceacoest/kalman/unscented.py:83-107", "ceacoest/kalman/unscented.py:124-187", "ceacoest/kalman/unscented.py:217-280", "ceacoest/kalman/unscented.py:343-387", "ceacoest/kalman/unscented.py:452-539", "ceacoest/kalman/unscented.py:550-594"]}
{"id": "C81", "title": "Generated functions may be called with keyword arguments", "statement": "A call of a generated function, of its gradient or of its derivative values succeeds for every way to give each parameter exactly one value (a first part of them by position and the others by keyword in any order) and has the result of the positional call; in particular each gradient block has the shape of its variable however that was passed. Any other call of the function raises TypeError. sig_arg_names of a generated function is the list of its arguments without the model. An argument named deriv cannot be passed by keyword to jac_val and hess_val.", "quantifier": "every generated function with different parameter names, values, split into positional and keyword arguments, order of the keywords", "why_tests_cant": "The tests pass all arguments by position, or all by keyword; grad looks up the shape of its argument in two ways and the parameter names of _sparse_deriv_val can clash with those of the model.", "anchors": ["ceacoest/modelling/genoptim.py:41-57", "ceacoest/modelling/genoptim.py:108-121", "ceacoest/modelling/genoptim.py:149-170", "ceacoest/modelling/genoptim.py:197-198", "ceacoest/modelling/genoptim.py:228-240", "ceacoest/utils.py:146-149"]}
{"id": "C82", "title": "Degrees of exactness of the unscented transform for normal inputs", "statement": "For a normal input with the given mean and covariance and ni + kappa > 0, the transform has the exact expected value of every polynomial of degree at most 3, the exact covariance of two polynomials whose degrees add up to at most 3, and the exact cross covariance of the input with a polynomial of degree at most 2. With one input and kappa = 2 the mean is exact to degree 5, the covariance for quadratic functions and the cross covariance to degree 4. The degrees are sharp: with two inputs or more there is for every kappa a quartic with another mean, and with one input the mean of the fourth power is exact only for kappa = 2.", "quantifier": "every number of inputs, kappa, mean, covariance, kind of square root, polynomial", "why_tests_cant": "A test compares with Monte Carlo sampling or with chosen functions; the claim is an equality of integrals for all polynomials.", "anchors": ["ceacoest/kalman/unscented.py:31-60", "ceacoest/kalman/unscented.py:67-81", "ceacoest/kalman/unscented.py:109-122", "ceacoest/kalman/unscented.py:169-170"]}
{"id": "C83", "title": "The equations of motion of the examples are Newton's law", "statement": "Orbit transfer: energy and angular momentum change by the power and the moment of the thrust, the thrust is that of a rocket with exhaust velocity ve, the cost is half the propellant times ve squared, both versions of the endpoint constraints hold exactly on the counterclockwise circular orbit of the final radius, and circular motion without thrust is a solution. Shuttle: in axes fixed in space the position moves with the velocity and the velocity with gravity, drag against it and lift normal to it at the bank angle. Climb: the same in a vertical plane with thrust at the angle of attack. Robot: the running cost is at least the sum of the absolute thrusts, with equality exactly without opposing thrusters, and the difference of the thrusters moves it alike. HFB-320: the predicted accelerations without biases are those of the equations of motion. Attitude: the matrix is a rotation that turns with the angular velocity of the body. Duffing: the energy changes by the power of damping and force.", "quantifier": "all states, controls, constants and differentiable trajectories with a height, speed and mass that the equations divide by", "why_tests_cant": "The tests do not import the examples; a simulation does not show a sign or factor that is wrong only in one term.", "anchors": ["examples/circular_orbit.py:37-80", "examples/circular_orbit_min_time.py:37-69", "examples/shuttle_reentry.py:35-56", "examples/minimum_time_to_climb.py:75-91", "examples/free_flying_robot.py:29-63", "examples/hfb320_long_oem.py:56-100", "examples/attitude.py:44-93", "examples/duffing.py:47-53"]}
{"id": "C84", "title": "The hang glider moves by Newton's law with lift and drag of its airspeed", "statement": "Wherever the glider moves relative to the air, f is Newton's law with drag against the velocity relative to the air and lift normal to it, each half the density times the area times the square of the airspeed times its coefficient, and weight.", "quantifier": "all states, lift coefficients, durations and constants", "why_tests_cant": "The tests do not import the examples; near level flight the motion looks plausible.", "anchors": ["examples/hang_glider.py:30-47", "examples/hang_glider.py:49-52", "examples/hang_glider.py:74-100"]}
{"id": "C85", "title": "The gradient of a filter does not depend on what other filters computed before", "statement": "The derivative attributes of an unscented filter are arrays that its methods change in place, and the constructor keeps the arrays that it is given. In any sequence of method calls on any number of filters, what a filter computes is what its own calls compute from its own initial values.", "quantifier": "all models, transforms, measurements with any masks, numbers of filters and orders of calls", "why_tests_cant": "The tests build a new filter with arrays of its own for each gradient; a shared array only shows in the second result.", "anchors": ["ceacoest/kalman/base.py:48-74", "ceacoest/kalman/base.py:145-176", "ceacoest/kalman/unscented.py:343-387", "ceacoest/kalman/unscented.py:452-594"]}
{"id": "C86", "title": "For linear systems the states at the mesh times have errors of twice the order", "statement": "With N + 1 Legendre-Gauss-Lobatto points in each piece, the states at all points have errors of the order h^(N+1) in general. For a model that is linear in its states, with inputs that are polynomials of degree at most N + 1 on each piece, the states at the mesh times, and with them the log-likelihood of output error models, have errors of the order h^(2N), with an explicit constant.", "quantifier": "all models linear in the states, collocation orders, meshes with h times the norm at most 1/3, inputs that are polynomials on pieces, decision vectors without defects", "why_tests_cant": "The order of convergence is a limit over meshes, and superconvergence depends on the exact position of the points: with perturbed points the code still passes tests of accuracy on any fixed mesh.", "anchors": ["ceacoest/rk.py", "ceacoest/modelling/symcol.py", "ceacoest/col.py", "ceacoest/oc.py", "ceacoest/oem.py", "examples/attas_sp.py"]}
{"id": "C87", "title": "A piece of the transcription of a linear system is the diagonal Pad\u00e9 approximant of the exponential", "statement": "For a homogeneous linear model x' = A x and N + 1 points in each piece, a decision vector without defects satisfies D(-h A) x1 = D(h A) x0 for the states at the ends of each piece of length h, where D is the numerator of the diagonal Pad\u00e9 approximant of exp of order N; for a model with inputs the same holds for the difference of two such vectors. Quadratic forms that the system conserves are conserved exactly.", "quantifier": "all linear models, collocation orders, meshes of any step size, decision vectors without defects", "why_tests_cant": "It is an algebraic identity over all orders, matrices and steps; a test compares numbers for a few.", "anchors": ["ceacoest/rk.py", "ceacoest/modelling/symcol.py", "ceacoest/col.py", "ceacoest/oc.py", "ceacoest/oem.py"]}
{"id": "C88", "title": "For stable linear systems the transcription is stable and uniquely solvable on every mesh", "statement": "If a model is affine in its states and no solution of its homogeneous part increases some positive definite quadratic form, then, on every mesh, however long its pieces: for all inputs, parameters and initial states there is exactly one decision vector without defects; the distance of two of them with the same inputs and parameters does not increase from the start of a piece to its end; and a positive definite form that the system conserves is conserved exactly.", "quantifier": "all models affine in the states with a positive definite Lyapunov form, collocation orders, meshes of any step size, inputs, parameters, initial states", "why_tests_cant": "A-stability and unconditional solvability concern all steps, including arbitrarily long ones; tests use a few meshes, on which an unstable method also behaves.", "anchors": ["ceacoest/rk.py", "ceacoest/modelling/symcol.py", "ceacoest/col.py", "ceacoest/oc.py", "ceacoest/oem.py", "examples/attas_sp.py"]}
{"id": "C89", "title": "Smoothing never makes an estimate less certain", "statement": "With positive semidefinite noise covariances and initial covariance (and, for the unscented filter, nonnegative kappa), each covariance that smooth returns is positive semidefinite and not larger, as a matrix, than the one that filter returns for the same sample; in particular every smoothed variance is between zero and the filtered one.", "quantifier": "all nonlinear models, records with any mask and length, initial states, of both filters", "why_tests_cant": "The ordering of matrices holds for every record and model; a sign or transposition error in the backward pass can leave tested variances plausible.", "anchors": ["ceacoest/kalman/base.py", "ceacoest/kalman/extended.py", "ceacoest/kalman/unscented.py"]}
{"id": "C90", "title": "Filters and smoothers do not depend on the units and coordinates that are chosen", "statement": "Writing a model in new coordinates, T x + b for the states and D y + c for the outputs, changes nothing: filter and smooth raise the same exception as before or return the same estimates in the new coordinates. For the extended filter T is any matrix (invertible, for the smoother) and D has no zeros; for the unscented filter with Cholesky factors T and D are diagonal and positive, and its merit changes by a number that depends only on the units and masks. For other T the claim is false for the unscented filter.", "quantifier": "all models, records with any mask, initial states, linear changes of coordinates", "why_tests_cant": "Equivariance relates two runs on two models for all inputs; tests have one model in one system of units.", "anchors": ["ceacoest/kalman/base.py", "ceacoest/kalman/extended.py", "ceacoest/kalman/unscented.py"]}
{"id": "C91", "title": "The transcription does not prefer a direction of time; the quadrature weights in closed form", "statement": "The collocation points, weights and integration matrix are the same seen from either end of a piece, and the grid for the times T - t is the grid for t, reversed. For an optimal control model and the one whose states change with the opposite rates and whose end points are exchanged, the decision vector with all states and inputs in reverse order has the same cost, the same path constraints in reverse order, the same end constraints and minus the defects in reverse order, so that solving a problem backwards gives the reversed solution. The weight of point c is 1 / (N (N + 1) P(c)^2) where P is the Legendre polynomial of degree N.", "quantifier": "for all collocation orders, meshes, user models and decision vectors", "why_tests_cant": "A symmetry between two nonlinear programs for all models and decision vectors, and a closed form for points that have none; the tests have four orders and no model run backwards.", "anchors": ["ceacoest/rk.py:lgl_points", "ceacoest/rk.py:LGLCollocation", "ceacoest/modelling/symcol.py:e", "ceacoest/modelling/symoc.py", "ceacoest/oc.py"]}
{"id": "C92", "title": "Stationary points of the nonlinear program satisfy the maximum principle in discrete form, and conversely", "statement": "For a smooth optimal control model, the Lagrange function of the nonlinear program (cost plus multipliers times defects, path constraints and end point constraints) is stationary at a decision vector exactly if there are costates with which the discrete maximum principle holds: the costates at the collocation points are weighted means of the multipliers of the defects and follow the costate equation discretised by the Lobatto IIIB method that belongs to the points, they jump at mesh times only by path constraints, they are transversal at both ends, and inputs and parameters make the Hamiltonian stationary. So multipliers that a solver returns can be read as costates. The Lobatto IIIB coefficients exist and are unique for every order, and where the derivatives are right the residual computed from gradient and Jacobian is zero exactly at stationary points.", "quantifier": "for all optimal control models with partial derivatives, collocation orders, meshes, decision vectors and multipliers", "why_tests_cant": "Relates all stationary points and multipliers of all nonlinear programs to a boundary value problem; a test can only compare numbers at one solution.", "anchors": ["ceacoest/rk.py:LGLCollocation", "ceacoest/modelling/symcol.py:e", "ceacoest/modelling/symoc.py", "ceacoest/oc.py", "ceacoest/optim.py:Problem"]}
{"id": "C93", "title": "Finite differences are accurate to second (first) order, and the derivative tests accept exactly the derivatives that are right up to that error", "statement": "Every entry of central_diff differs from the partial derivative by at most step^2/6 times a bound on the third derivative, and every entry of forward_diff by at most step/2 times a bound on the second. Hence each test of test_optim.py (gradient, Hessian, Jacobian, Hessians of the constraints) either passes or raises AssertionError; it passes if all entries are within tol (1 + |D|) of the derivatives D less the error of the differences, and only if they are within tol (1 + |D|) plus that error. A smooth problem whose derivatives are right (C66) passes the four tests. sparse_fun_to_full gives the matrix with the sums of the listed entries, mirrored for symmetric ones; without listed entries (linear objective, no constraints) it raises ValueError.", "quantifier": "for all functions, points, steps, problems, index rows and values", "why_tests_cant": "The claim is about the tests themselves: which of all possible programs they accept.", "anchors": ["ceacoest/utils.py:central_diff", "ceacoest/utils.py:forward_diff", "ceacoest/tests/test_optim.py", "ceacoest/testsupport/array_cmp.py:ArrayDiff"]}
{"id": "C94", "title": "The transcription does not depend on the coordinates, units and time scale in which a problem is written", "statement": "If two optimal control models describe the same processes, in states x = A z + b (A and b may depend on the parameters), inputs that are functions of states, inputs and parameters of the other model (feedback), other parameters, another origin and unit of time and another unit of cost, then corresponding decision vectors on corresponding meshes have the same cost (in the respective units), the same path and end constraints, and the defects of the one are A times the defects of the other; they vanish together if A can be undone. In particular, a problem whose rates are multiplied by a duration that is a parameter is the problem in real time on the stretched mesh. The same holds for output error models. Linear combinations of the states that do not change along the processes change along a decision vector only by the same combinations of the defects.", "quantifier": "for all models, changes of coordinates, collocation orders, meshes and decision vectors", "why_tests_cant": "An identity between two different programs for all decision vectors and all changes of coordinates; tests use one model in one system of units.", "anchors": ["ceacoest/modelling/symcol.py:Model.e", "ceacoest/modelling/symoc.py:Model", "ceacoest/modelling/symoem.py:Model", "ceacoest/oc.py:Problem", "ceacoest/oem.py:Problem", "examples/brachistochrone.py"]}
{"id": "C95", "title": "The report of a failed comparison lists exactly the violations", "statement": "For arrays of the same shape with at least one axis, the report that pytest shows for a failed ArrayDiff comparison lists exactly the indices at which the difference is not below the tolerance, each once and in order, with both entries and their difference; it is empty iff the comparison holds. For arrays that were broadcast the same holds if all violations have indices in the range of both arrays, otherwise (and for scalars) the report raises IndexError. Operands that are no arrays and shapes that do not fit are reported as such; only failed '<' with an ArrayDiff on the left are explained.", "quantifier": "for all arrays, shapes and tolerances", "why_tests_cant": "Tests of the package never look at reports, which are produced only when a test fails.", "anchors": ["ceacoest/testsupport/array_cmp.py:ArrayDiff.report", "ceacoest/testsupport/array_cmp.py:pytest_assertrepr_compare"]}
{"id": "C96", "title": "Discretised models complete the continuous-time model with the derivatives they need and change nothing else in it", "statement": "A discretised model has the constants of the continuous-time model and the time step, the sample index, and the states and outputs of the continuous-time model; the continuous-time model keeps its own constants and variables. The Ito-Taylor model adds those of df_dt, df_dx, d2f_dx2 that the continuous-time model lacks, keeps those it has, and adds nothing else; afterwards every function that the discretised model calls exists, and discretising again changes nothing. The numbers of states, outputs and noises assigned in the generated class are those of x, y and of the columns of the noise gain. Models without states or outputs are rejected with AttributeError, models without time with KeyError.", "quantifier": "for all continuous-time models", "why_tests_cant": "The example scripts only discretise the Duffing oscillator.", "anchors": ["ceacoest/modelling/symsde.py:DiscretizedSDEModelBase", "ceacoest/modelling/symsde.py:ItoTaylorAS15DiscretizedModel"]}
{"id": "C97", "title": "The tests of unscented transforms hold for every draw, those of the test model not for every one", "statement": "In exact arithmetic test_ut_sqrt, test_affine_ut and test_sigma_points pass for all states, all matrices A, all kappa with nx + kappa > 0, all positive definite covariances (Cholesky) and all positive semidefinite ones (singular values). The fixture cov is symmetric and positive semidefinite, and test_cov_pd passes exactly if its eigenvalues exceed 1e-8. Once it passes, test_model_vars passes for all states and parameters with at most three states and with one output or three parameters. With four states Q is positive semidefinite but singular at x = (pi, 0, 0, 0), q = 0; with three outputs and one parameter R is positive definite exactly if 2 + 2 sin q0 > 1e-8; at such points test_model_vars fails.", "quantifier": "for all states, parameters, covariances, matrices A and kappa", "why_tests_cant": "The tests run on the draws of four seeds; they cannot say for which draws the fixtures are consistent.", "anchors": ["ceacoest/tests/test_kalman.py:test_ut_sqrt", "ceacoest/tests/test_kalman.py:test_affine_ut", "ceacoest/tests/test_kalman.py:test_sigma_points", "ceacoest/tests/test_kalman.py:test_model_vars", "ceacoest/tests/test_kalman.py:test_cov_pd", "ceacoest/tests/test_kalman.py:is_symmetric_positive_definite"]}
{"id": "C98", "title": "pem_hessian differentiates what pem_gradient returns for the filters that the tests build, which need not be the Hessian of pem_merit", "statement": "If the model has the derivatives it declares, and the filter is started with dx_dq, dPx_dq and dL_dq that are the derivatives of the initial moments at q0 only, and with second derivatives that are the derivatives of whatever is assigned to dx_dq, dPx_dq and dL_dq, then near q0 pem_gradient returns, and pem_hessian at q0 is the derivative of what it returns, for every masked data set on which pem_merit returns. So test_ukf_pem_grad and test_ukf_pem_hessian compare equal quantities in exact arithmetic for all draws, although parametrized_ukf freezes the derivatives of the initial moments. But with it pem_hessian is not always the second derivative of pem_merit: for one sample, with mean q squared, it returns -2 where the second derivative is -1.", "quantifier": "for all smooth models, initial moments, parameters, data sets and masks", "why_tests_cant": "The tests compare pem_hessian with differences of pem_gradient at four draws; they do not compare it with pem_merit, and cannot tell the two notions apart.", "anchors": ["ceacoest/tests/test_kalman.py:parametrized_ukf", "ceacoest/tests/test_kalman.py:test_ukf_pem_grad", "ceacoest/tests/test_kalman.py:test_ukf_pem_hessian", "ceacoest/kalman/base.py:pem_hessian", "ceacoest/kalman/base.py:pem_gradient"]}
{"id": "C99", "title": "The bounds that the scripts of the examples write through problem.variables are the bounds of the intended problems, and within them the solver gets what it needs", "statement": "Run in order on the arrays dec_L and dec_U through the views that problem.variables returns, the assignments of bryson_denham.py, brachistochrone.py, attas_sp.py and duffing_jme.py never fail, and yield, for every mesh and record, bounds that hold for d exactly if: the first state of Bryson-Denham is in [0, 1/9] everywhere and the end states are (0,1) and (0,-1); the brachistochrone starts at rest at the origin, ends at (10,-5), has angles in [-pi, pi] and a duration of at least 1e-5; the last two (last one) decision variables, which are the standard deviations of the measurements, are at least 1e-4 and 2.5e-4 (1e-5); and nothing else is bounded. So for the mesh of bryson_denham.py every feasible point of what is given to the solver costs at least 3.9996 and some at most 4.0405; within the bounds of the two estimation scripts, and at the guess of attas_sp.py, all derivatives given to the solver are right.", "quantifier": "for all meshes, records, inputs and decision vectors", "why_tests_cant": "No test runs the examples. That the assignments reach the right entries of the decision vectors depends on views, negative indices and on the order of the assignments.", "anchors": ["examples/bryson_denham.py:57-67", "examples/brachistochrone.py:61-72", "examples/attas_sp.py:77-88", "examples/duffing_jme.py:181-185", "ceacoest/optim.py:Problem.variables"]}
{"id": "C100", "title": "Stationary points of output error and joint MAP problems satisfy the equations of smoothing in discrete form", "statement": "The Lagrange function of the nonlinear program made from an output error or joint MAP model is stationary at a decision vector, for some multipliers, exactly if there are costates with: they are weighted means of the multipliers of the defects; they run from mesh time to mesh time by the adjoint equation, discretised by the Lobatto IIIB method that belongs to the points; they jump by the gradient of the log-likelihood at each row with measurements, nowhere else, and are zero before the first and after the last time; the parameters make the sum of the log-likelihood and the integral of the Hamiltonian stationary; and for joint MAP the noise is, in each piece, the projection of G' psi on what the noise coefficients can represent, with the weights of the quadrature. The divergence of the drift enters the Hamiltonian if the model uses the Onsager-Machlup term; a penalty of the defects changes nothing where they are zero.", "quantifier": "for all models, data, masks, inputs and decision vectors at which the partial derivatives exist", "why_tests_cant": "The tests of the estimation problems check derivatives; that a solver's stationary points are smoothed estimates is a statement about all of them.", "anchors": ["ceacoest/jme.py:Problem.__init__", "ceacoest/oem.py:Problem.__init__", "ceacoest/modelling/symjme.py:e,tube_L,penalty", "ceacoest/modelling/symcol.py:e"]}
{"id": "C101", "title": "Joint MAP estimation with zero noise is output error estimation, and noise never pays at the same states", "statement": "Let a joint MAP model and an output error model be made of the same methods f and L and problems be made of them with the same data. Putting zero noise coefficients into a decision vector of the output error problem gives one of the joint MAP problem with the same constraints and, without the Onsager-Machlup term, the same objective. In general the two objectives at the same states and parameters differ by half of the quadrature of the drift divergence, half of the energy of the noise (the quadrature of its square, zero only for zero noise) and the penalty of the defects, all subtracted. So without that term the best value of the joint MAP problem is not below that of the output error problem; and if G is zero the constraints do not depend on the noise and the best values are equal.", "quantifier": "for all models, data, masks, inputs and decision vectors", "why_tests_cant": "The tests never build both problems for the same model; the relation of the best values is about all decision vectors.", "anchors": ["ceacoest/jme.py:Problem.__init__", "ceacoest/oem.py:Problem.__init__", "ceacoest/modelling/symjme.py:e,tube_L,penalty", "ceacoest/modelling/symoem.py"]}
{"id": "C102", "title": "The tests of derivatives in test_kalman.py accept right derivatives and reject wrong ones", "statement": "In exact arithmetic, with steps of central_diff that are small enough: the comparison of a numerical derivative with the derivative passes, and the comparison with an array that is farther from it than the tolerance fails. The twelve tests of derivatives of square roots, sigma points, transforms, predictions, corrections, likelihoods and merits pass whenever the functions that the model calls derivatives are derivatives and the filter does not raise. The model of the fixtures is such a model; there, with nonnegative kappa, Cholesky square roots, a positive definite Px and a positive definite R, all tests pass (those of the merits for up to three states). The tests of sigma points test the same points and derivatives as transforms use.", "quantifier": "for all models, parameters, states, covariances, measurements, numbers of states, outputs and parameters, all small enough steps, and all contents of uninitialised memory", "why_tests_cant": "A test that passes shows nothing about a test that would also pass with wrong derivatives, or that passes only for the seeds used.", "anchors": ["ceacoest/tests/test_kalman.py:test_ut_sqrt_diff..test_ukf_pem_hessian", "ceacoest/utils.py:central_diff", "ceacoest/kalman/unscented.py:sqrt_diff,sigma_points_diff,transform_diff,prediction_diff,correction_diff,likelihood_diff", "ceacoest/tests/test_kalman.py:model_class"]}
{"id": "C103", "title": "The correction is the best linear one, and less noise or more measurements never make the filters less certain", "statement": "For any model, any mask and any state, the covariance that EKF.correct returns is that of an estimate linear in the unmasked outputs, and no such estimate has a smaller covariance (in the order of positive semidefinite matrices). For two affine models with the same dynamics and outputs, if the first starts with a covariance, process noise and measurement noise no smaller than the second, and everything it measures is also measured by the second, then after the same calls of correct and predict in any order, and at each sample of filter, its covariance is no smaller, for extended and unscented filters; and with equal noise and equal masks the covariances are equal whatever the data, the state and the constant terms. For nonlinear models this fails: a model is given for which one more measurement leaves the extended filter less certain.", "quantifier": "all models, sizes, masks, data, states, gains and call sequences; for the second part all affine models with positive semidefinite noise", "why_tests_cant": "Optimality quantifies over all gains and the order of covariances over all directions; a test compares two runs of one model, and nothing in the tests compares the results of different masks or noise.", "anchors": ["ceacoest/kalman/extended.py:predict,correct", "ceacoest/kalman/unscented.py:predict,correct", "ceacoest/kalman/base.py:filter"]}
{"id": "C104", "title": "The simulations of the Duffing examples sample what they say, and the data of the estimation script cover its guess", "statement": "The sim functions of the Duffing examples give states that follow from each other by the discretised model from the first one, with one time each; with an output step that is a multiple of the simulation step, and an output function that does not depend on time, there is one output per output time, and it is the output of the state simulated for that very time plus its noise. Otherwise: the j-th output is from the state j*int(dt_est/dt_sim), whose time is that of the output for all j only for multiples; differing numbers of rows give a ValueError, dt_est < dt_sim a ValueError (slice step zero), tf < dt_sim a NameError (the loop variable is read after a loop that did not run); and an output function that depends on time is evaluated at the last step's time for all samples. cdiff returns central differences with the ends repeated, exact for quadratics inside; for two numbers it returns uninitialised memory and for fewer an IndexError. The script of duffing_jme.py keeps each fifth sample, measures each third of these; the guess by interpolation is on the lines between the measured points, and returns for all times of the experiment if and only if the last kept sample is measured (3 divides n-1), which the numbers of the script satisfy.", "quantifier": "all continuous-time models with their noise and output functions, all steps, ends, noises and lengths, all contents of uninitialised memory, all filters", "why_tests_cant": "The tests do not run the examples; agreement of rounded counts, slices and times for all steps, and the dependence on uninitialised memory, cannot be seen in one run.", "anchors": ["examples/duffing.py:sim", "examples/duffing_jme.py:sim,cdiff"]}
{"id": "C105", "title": "Measurements with uncorrelated noise may be corrected one part at a time, in any order", "statement": "Let the unmasked entries of a row be divided among several rows, with uncorrelated noise between different ones, and let the outputs be affine functions of the state at that time. If correcting with each part in turn returns, then so does correcting with the whole row, with the same mean and covariance and the same attributes; this needs only symmetric covariances. With a positive definite noise covariance all orders of the parts return, with the same result. On affine models the unscented filter does the same, and the numbers that correct and update_likelihood add to the likelihood for the parts sum to what they add for the whole row. Both hypotheses are needed: with a state and its square measured, or with two correlated measurements, the covariances differ.", "quantifier": "all models with affine outputs, all masks and divisions into any number of parts, all orders, states and data; for the likelihood all transforms of positive total weight", "why_tests_cant": "Tests can compare a few divisions of a few rows; that gains of sequential corrections combine to the joint gain, also when matrices are merely nonsingular, is a statement about all of them.", "anchors": ["ceacoest/kalman/extended.py:correct", "ceacoest/kalman/unscented.py:correct,update_likelihood"]}
{"id": "C106", "title": "Estimates do not depend on later samples, and masked samples at the end only add forecasts", "statement": "If filter returns for y ++ z, it returns for y, with the first len(y) of the moments: filtered estimates do not depend on what comes later. If every entry of the rows z is masked and smooth returns for y ++ z, then smooth returns for y, with the first len(y) of the smoothed moments; the smoothed moments of the last row of y and of those of z are the filtered ones, i.e. the forecasts. And if pem_merit, pem_gradient or pem_hessian of the unscented filter return for y ++ z, they return the same number, vector or matrix for y.", "quantifier": "all models (nonlinear ones too), all states, data, masks and numbers of rows, for the extended and the unscented filter; the first part for any class with the methods that DTFilter calls", "why_tests_cant": "Tests would compare a few data sets; that the backward recursion adds exactly nothing for any number of masked rows, and raises for y only if it does for y ++ z, is a statement about all of them.", "anchors": ["ceacoest/kalman/base.py:filter,smooth,smoother_correction,pem_merit,pem_gradient,pem_hessian", "ceacoest/kalman/extended.py:correct,predict", "ceacoest/kalman/unscented.py:correct,predict,update_likelihood,likelihood_diff"]}
{"id": "C107", "title": "In joint MAP problems the noise determines the states and the states determine the noise", "statement": "In the nonlinear program made from a joint MAP model: (1) if the right hand side is Lipschitz continuous in the states and the pieces are short, any initial state, parameters and noise coordinates belong to exactly one decision vector without defects; (2) given states and parameters belong to a decision vector without defects exactly if the part of each change of the states that the drift leaves unexplained is a combination of the columns of G, and if these columns are independent there is only one such vector; (3) every noise path has exactly one vector of noise coordinates with the same increments, and the states that belong to it are those of the solution of the differential equation with that noise up to the error bound of C76.", "quantifier": "for all models, orders, meshes, inputs, measurements, parameters, noise matrices, state paths, noise paths and orthonormal bases of the range of J transposed", "why_tests_cant": "Existence and uniqueness over all paths, meshes and orders are statements about infinitely many systems of equations; a test sees one decision vector, and there are no tests of joint MAP problems.", "anchors": ["ceacoest/modelling/symjme.py:e", "ceacoest/jme.py:Problem", "ceacoest/rk.py:LGLCollocation"]}
{"id": "C108", "title": "The problems that the tests check have right derivatives for every order, number of pieces and decision vector", "statement": "The optimal control model of test_oc.py and the output error model of test_oem.py, of any order of at least 2 and with any number of pieces, give a problem with (P N + 1) 5 + 2 and (P N + 1) 3 + 2 decision variables whose objective and constraints are the transcription of the functions written in the test modules (path and endpoint constraints, Mayer and Lagrange costs; all rows of the measurements, cosines of the grid times as inputs), and whose gradient, Jacobian and Hessians are the derivatives of these at every decision vector. At every decision vector the functions have bounded third derivatives, and the four tests of test_optim.py pass if the bound times the square of the step is small enough; this is so at all decision vectors with entries between -1 and 1 (up to 1000 pieces for the output error problem).", "quantifier": "for all orders, numbers of pieces, decision vectors, drawn measurements and iteration orders of sets", "why_tests_cant": "The tests use orders 2 and 4, 1, 2 and 4 pieces and four random decision vectors, and compare with finite differences up to a tolerance; at this commit they cannot run, since the fixtures use the decorator collocate, which does not exist.", "anchors": ["ceacoest/tests/test_oc.py:model", "ceacoest/tests/test_oc.py:problem", "ceacoest/tests/test_oem.py:model", "ceacoest/tests/test_oem.py:problem"]}
{"id": "C109", "title": "The remaining optimal control examples give the nonlinear programs of their equations of motion, with right derivatives", "statement": "The models of circular_orbit.py, circular_orbit_min_time.py, free_flying_robot.py, hang_glider.py and shuttle_reentry.py give, on every mesh, the problem whose objective, defects, path and end point constraints are those of the functions in Model/ExamplePhysics, with right derivatives wherever these are defined. For the robot this is everywhere; for the shuttle, with the constants of the script, it is wherever the bounds of the script hold. For circular_orbit.py, at points that satisfy the constraints the objective is ve**2/2 times the loss of mass; within the bounds the mass stays above 0.987 and the final speed is not zero, so the derivatives are right unless the craft is at the centre of attraction.", "quantifier": "for all meshes, decision vectors (in the stated region), iteration orders of sets, and constants (divisors not zero)", "why_tests_cant": "The examples have no tests, cannot run at this commit (the decorator collocate does not exist), and a run visits the iterates of one solver from one guess.", "anchors": ["examples/circular_orbit.py:CircularOrbit", "examples/circular_orbit_min_time.py:CircularOrbit", "examples/free_flying_robot.py:FreeFlyingRobot", "examples/hang_glider.py:HangGlider", "examples/shuttle_reentry.py:ShuttleReentry"]}
{"id": "C110", "title": "The flight identification example is the maximum likelihood problem of its equations, with right derivatives within its bounds", "statement": "The model of hfb320_long_oem.py, with the constants of the script and any record without missing values, gives the output error problem whose objective is the Gaussian log-likelihood of the seven kinds of measurements and whose constraints are the defects of the four equations of motion; the derivatives are right at every decision vector within the bounds of the script. Replacing the standard deviation of a kind of measurements by the root of the mean square of its residuals never decreases the objective and leaves the constraints alone.", "quantifier": "for all records (times, measurements, inputs), decision vectors (within the bounds for the derivatives), and iteration orders of sets", "why_tests_cant": "The example has no tests, cannot run at this commit (the decorator collocate does not exist), and a run visits the iterates of one solver on one record.", "anchors": ["examples/hfb320_long_oem.py:HFB320Long"]}
{"id": "C111", "title": "The script of the Duffing example runs to its end, whatever the random numbers", "statement": "The covariance of the discretised Duffing model is positive definite exactly if its diffusion g2 and its step are not zero, and its derivatives are the right ones. Hence with noise in state and measurement and a positive step the extended and the unscented filter and smoother return for any measurements, masked in any way; the smoothed covariances are positive semidefinite and not larger than the filtered ones. So the script of examples/duffing.py returns for all random numbers, with as many moments as there are outputs.", "quantifier": "for all parameters (with g2, X_meas_std not zero), steps, end times, initial moments (positive definite), random draws and masks", "why_tests_cant": "The script is not a test, makes no assertion, and runs with a single seed; a lost positive definiteness would show up as a LinAlgError for other draws.", "anchors": ["examples/duffing.py:SymbolicDuffing", "examples/duffing.py:SymbolicDiscretizedDuffing", "examples/duffing.py:sim", "ceacoest/kalman/base.py:DTFilter.smooth"]}
{"id": "C112", "title": "Parameter estimation with a discretised stochastic differential equation has the right derivatives", "statement": "For any continuous-time model with smooth functions, discretised with the Ito-Taylor scheme: where merit returns, it returns nearby, grad returns its gradient and hess returns obj_factor times its second derivatives at the pairs of the lower triangle, row by row. The merit depends on the diffusion matrix only through its product with its transpose. For the model of duffing_old.py merit, grad and hess return at all parameters with g2 and x_meas_std not zero, whatever is measured and masked; the merit does not change with the signs of g2 and x_meas_std. At the bound x_meas_std = 0 that the script allows, merit raises LinAlgError as soon as the first of two samples is measured.", "quantifier": "for all smooth models, steps, measurements and masks, and all parameters", "why_tests_cant": "The script is not a test and its solver sees a few parameter values only; it imports a module that is not in the repository, so that it cannot even be run.", "anchors": ["examples/duffing_old.py:SymbolicDuffing", "examples/duffing_old.py:SymbolicDTDuffing", "examples/duffing_old.py:pem", "ceacoest/modelling/symsde.py:ItoTaylorAS15DiscretizedModel"]}
{"id": "C113", "title": "The merit of the attitude example exists away from the vertical and does not tell the signs of noise gains and of the horizontal magnetic field", "statement": "The covariance of a discretised model is positive definite exactly if the noise reaches all states within one step (no combination of states is left unmoved by the noise and by what the drift makes of it). For any model with definite measurement and initial covariance merit returns, unless the filter comes to a state where that fails; for the attitude model with noise gains not zero this can only be a vertical attitude. Moving the origin of the states does not change the merit; hence the merit of the attitude model is the same for the opposite horizontal field and opposite headings, and for gains of opposite sign. With a horizontal field and gravity the measurements and the acceleration determine the attitude and the angular velocity; without a horizontal field no measurement depends on the heading.", "quantifier": "for all models, steps, states, parameters, constants, measurements and masks", "why_tests_cant": "The example is not a test; it has one set of parameters, one seed, and imports a module that is not in the repository.", "anchors": ["examples/attitude.py:SymbolicModel", "examples/attitude.py:pem", "ceacoest/modelling/symsde.py:ItoTaylorAS15DiscretizedModel", "ceacoest/kalman/unscented.py:DTUnscentedFilter"]}
{"id": "C114", "title": "Integrals taken with the Lobatto points are not amplified, whatever the order", "statement": "The quadrature of the order n method never underestimates the integral of the square of a polynomial of degree n - 1, although it is exact only up to degree 2 n - 3. The absolute values of every row of the integration matrix J add up to at least the length of the interval between the two points and to at most its square root; so what the defects take for the integral of values between -M and M is between -M and M for every order, and the same holds for the quadrature with K.", "quantifier": "for all orders of at least 2, polynomials, values and rows", "why_tests_cant": "It is about all orders at once; interpolation at many points is notorious for amplifying values, which orders 2 to 5 would not show.", "anchors": ["ceacoest/rk.py:LGLCollocation", "ceacoest/rk.py:Collocation"]}
{"id": "C115", "title": "The old Duffing script runs to its end, and masked samples count for nothing", "statement": "sim of duffing_old.py returns if and only if the step is positive and fits into the time, with as many samples as steps fit, states that follow the discretised model, and every row of outputs masked but each fourth. The numbers under the mask affect no merit, gradient, hessian or smoothed state. The start is strictly inside the bounds given to the solver; at all parameters strictly inside them the three callbacks return the merit and its derivatives; and whatever parameters inside them the solver returns, smoothing succeeds with a state for each sample and covariances that are not greater than the filtered ones.", "quantifier": "for all random numbers, durations, steps, parameters, constants and solvers", "why_tests_cant": "The script draws one set of random numbers and calls the callbacks where the solver happens to go.", "anchors": ["examples/duffing_old.py:sim", "examples/duffing_old.py:pem", "ceacoest/kalman/base.py:DTFilter.smooth"]}
{"id": "C116", "title": "The derivatives of the merit are right wherever the filter stays away from singularities of the model", "statement": "If the drift and diffusion of a continuous-time model are smooth in an open set of states, and the unscented filter of merit predicts only from means and sigma points in that set, then merit returns at nearby parameters too, grad returns its gradient there, and hess the multiples of its second derivatives at the pairs of hess_inds, which are symmetric. For the attitude example, whose drift divides by cos(theta): with noise in states, measurements and initial state, if the filter predicts from no vertical attitude then merit returns and grad and hess are its derivatives. No coordinate of a sigma point is farther from the mean than sqrt(n + kappa) standard deviations, so it is enough that theta stays three standard deviations away from the vertical.", "quantifier": "for all models, open sets, steps, measurements, masks and parameters", "why_tests_cant": "A test differentiates numerically at some parameters of some model; that only the visited points matter, for every run, needs an argument about all of them.", "anchors": ["examples/attitude.py:pem", "examples/attitude.py:SymbolicModel", "ceacoest/kalman/unscented.py:DTUnscentedFilter", "ceacoest/kalman/base.py:DTFilter.pem_hessian"]}
{"id": "C117", "title": "The script of the attitude example runs to its end, on data of the model that it estimates", "statement": "In sim, the accelerations and angular velocities are random walks filtered by lfilter, whose result is the only solution of the difference equation of the filter that starts from rest; omega_int returns the sampled values at the samples; at each sample the right hand side given to odeint is the drift of the model for the angles; the outputs are those of the model plus noise, and exactly the odd rows are masked. If the step is zero, negative, or there is no time for two samples, sim raises. The entries of q and c are those that the functions of the model call by these names, and the guess is inside the bounds. At all parameters inside the bounds where the filter predicts from no vertical attitude, merit, grad and hess return and are derivatives of each other; if the solver returns such parameters, the smoother returns for all samples, with the filtered moments in the last one and nowhere a larger covariance than the filter.", "quantifier": "for all random numbers, coefficients of the filter, integrators that return a row for each time, solvers, times and steps", "why_tests_cant": "The script is not tested; a run shows one series of random numbers and one optimum.", "anchors": ["examples/attitude.py:sim", "examples/attitude.py:sim.odefun", "examples/attitude.py:pem", "examples/attitude.py:<main>"]}
{"id": "C118", "title": "Filters accept series of measurements of one shape only, unless all is masked", "statement": "A measurement that is masked as a whole changes neither the moments nor the time, whatever its shape. Any other must be a vector with one entry for each output: correct raises ValueError if it has not exactly one axis, IndexError if it has the wrong length (in the unscented filter, after the root of the covariance, which may raise first). A series of shape (N, ny) gives in filter, smooth, pem_merit, pem_gradient and pem_hessian what its rows give. If one of these methods returns for a series whose rows have another shape, everything in it is masked; so N measurements of one output given as a vector of length N are refused, not broadcast. A number in place of a series raises TypeError.", "quantifier": "for all models, states, shapes, data and masks, both filters, one state (no stack)", "why_tests_cant": "Tests call the filters with arrays of the right shape; that no other shape is broadcast silently is a statement about all shapes.", "anchors": ["ceacoest/kalman/extended.py:DTCorrector.correct", "ceacoest/kalman/unscented.py:DTCorrector.correct", "ceacoest/kalman/base.py:DTFilter.filter", "ceacoest/kalman/base.py:DTFilter.smooth", "ceacoest/kalman/base.py:DTFilter.pem_merit"]}
{"id": "C119", "title": "The states of a stack are filtered against one series of measurements, never against different ones", "statement": "In a filter of a stack of states, a measurement that is masked as a whole changes nothing, whatever its shape; any other must be one vector with an entry for each output, with which all states are corrected. correct raises ValueError for an array with another number of axes, so also for one with a vector for each state, and IndexError for a wrong length. A series of shape (N, ny) gives in all methods what its rows give; if a method returns for a series whose rows have another shape, such as (N,) + base_shape + (ny,), everything in it is masked.", "quantifier": "for all models, stacks of states, shapes, data and masks, both filters", "why_tests_cant": "Tests with a stack give all states the same measurements; that measurements for each state are refused rather than mixed is a statement about all shapes.", "anchors": ["ceacoest/kalman/extended.py:DTCorrector.correct", "ceacoest/kalman/unscented.py:DTCorrector.correct", "ceacoest/kalman/base.py:DTFilter.filter", "ceacoest/kalman/base.py:DTFilter.pem_hessian"]}
{"id": "C120", "title": "A generated class has the collocation order at generation, its defects the one at construction", "statement": "The collocation order of a model is the number of the first derived class that has one, then that of a class after symcol.Model, then 2, and a number assigned to the object hides that of a derived class. Constructors raise ValueError for orders below 2. The collocation method, with which the defects are made, is the one at construction whatever is assigned later, whereas the generated class gets the number assigned last; without a derived class that has the attribute it cannot be assigned. If the two differ, the optimal control problem of the generated class can be made on every grid, but sizes, indices and values of the derivatives of its constraints raise AssertionError.", "quantifier": "for all classes, sequences of assignments and reads, models, orders and grids", "why_tests_cant": "Tests give the order once, in the class; what happens for other ways to give it, and in all orders of assignment and use, is not sampled.", "anchors": ["ceacoest/modelling/symcol.py:Model.collocation_order", "ceacoest/modelling/symcol.py:Model.collocation", "ceacoest/modelling/symcol.py:Model.generate_assignments", "ceacoest/modelling/col.py:Problem.__init__"]}
{"id": "C121", "title": "Objects of generated classes have the described functions; derived classes that redefine one lose its derivatives", "statement": "The class that optimization_meta makes has, for each registered name, a class of functions around the method found in the class or its bases, and is otherwise unchanged; its objects have exactly the functions with the derivatives that the symbolic model describes. A missing method or missing base_shapes raises AttributeError, a method that cannot be called TypeError. Derivatives are read from the model by name: a derived class with the values of one derivative changes these and nothing else, one with none of the names read changes nothing. A derived class or an object with a registered name of its own hides the function, and what optimization problems read of it raises AttributeError. A name registered both as constraint and as objective becomes an objective that raises TypeError when called with arguments.", "quantifier": "for all classes, bases, derived classes, objects, descriptions, symbolic models and code generators", "why_tests_cant": "Tests use one generated class without derived classes; how attributes are found in all hierarchies of classes and for all names is not sampled.", "anchors": ["ceacoest/modelling/genoptim.py:optimization_meta", "ceacoest/modelling/genoptim.py:OptimizationFunctionMeta", "ceacoest/modelling/genoptim.py:OptimizationFunction", "ceacoest/modelling/symoptim.py:Model.generate_assignments"]}
{"id": "C122", "title": "Shapes given as lists stop the sparsity structure with AssertionError", "statement": "Shapes of variables, constraints and objectives given as numbers or tuples give the described counts and indices of non-zeros. A list is kept as a list: where the indices exist for tuples, they raise AssertionError if the shape of the output or of a differentiated variable is a list, and are unchanged otherwise; the count raises AssertionError for an output shape that is a list exactly if the function is not scalar.", "quantifier": "for all generated functions, dictionaries of derivatives, shapes of variables and outputs", "why_tests_cant": "Tests only use numbers and tuples as shapes; which of the shapes of a derivative may be a list is not sampled.", "anchors": ["ceacoest/optim.py:Problem.add_decision", "ceacoest/optim.py:Problem.add_constraint", "ceacoest/optim.py:Problem.add_objective", "ceacoest/modelling/genoptim.py:OptimizationFunction._shape_ext", "ceacoest/modelling/genoptim.py:OptimizationFunction._sparse_deriv_ind", "ceacoest/modelling/genoptim.py:ndim_range"]}
