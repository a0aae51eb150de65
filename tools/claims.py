"""Source of MANIFEST.json: property -> (status, theorems, note)."""
C = {}
def c(pid, status, thms, note=""):
    C[pid] = (status, thms.split(), note)

D = "Verif.Domain."
c("C01", "proved", """Verif.Domain.add_constraints_mem Verif.Domain.add_constraints_ok_iff Verif.Domain.addConstraintsLQ_mem
  Verif.Domain.add_constraints_hull Verif.Domain.add_constraints_point_partial Verif.Domain.add_constraints_point_false""",
  "Every class; a point domain becomes a tolerance box (negation proved for positive tolerance, equality at tolerance 0).")
c("C02", "partial", """Verif.Domain.and_mem Verif.Domain.and_ok_iff Verif.Domain.hull_and_mem Verif.Domain.and_hull_right_false""",
  "Holds for the linear/quadratic classes and a hull on the left; false with a hull on the right (witness).")
c("C03", "proved", """Verif.Domain.and_comm_mem Verif.Domain.and_assoc_mem Verif.Domain.and_assoc_defined Verif.Domain.and_self_mem
  Verif.Domain.and_infinite_mem Verif.Domain.and_unbounded_raises""", "For the classes on which & is defined as intersection.")
c("C04", "proved", "Verif.Domain.isInside_batch Verif.Domain.isInside_wrong_length")
c("C05", "proved", "Verif.Domain.normalize_inverse")
c("C06", "proved", "Verif.Domain.box_normalize_cube Verif.Domain.box_normalize_corners")
c("C07", "partial", """Verif.Domain.normalized_domain_mem_partial Verif.Domain.normalized_domain_holds_partial Verif.Domain.normalizedDomain_ok_iff Verif.Domain.normalized_bounds_lost
  Verif.Domain.normalized_mixed_bounds_false Verif.Domain.normalized_quadratic_false Verif.Domain.normalized_hull_false
  Verif.Domain.normalized_unbounded_raises""",
  "Holds when no factor mixes finite and infinite bounds, quadratic centers are not moved and there is no hull; each excluded case is refuted by a witness.")
c("C10", "proved", """Verif.Domain.tensor_mem Verif.Domain.tensor_mem_decompose Verif.Domain.mkTensor_factors Verif.Domain.mkTensor_nested
  Verif.Domain.mul_assoc_tensor""")
c("C11", "partial", "Verif.Domain.tensor_export_linear Verif.Domain.tensor_export_drops_quadratics",
  "Linear data exact; quadratic constraints of factors are not exported (witness).")
c("C08", "partial", """Verif.Domain.extent_sound_partial Verif.Domain.box_extent_exact Verif.Domain.extent_ok_iff Verif.Domain.hull_extent_iff
  Verif.Domain.extent_bound_tolerance_false Verif.Domain.extent_active_ineq_false Verif.Domain.extent_equality_false Verif.Domain.extent_hull_false""",
  "Exact for boxes; otherwise for directions not increasing an active inequality, respecting equalities, hulls without further constraints; each exclusion refuted by a witness. The hull solver is a parameter assumed exact.")
c("C09", "partial", """Verif.Domain.extent_maximal_partial Verif.Domain.mem_realRoots Verif.Domain.hullExtentExact_exists Verif.Domain.box_extent_exact Verif.Domain.extent_quad_boundary_false
  Verif.Domain.extent_point_zero_false""",
  "Holds when quadratic constraints are strict at the starting point; refuted on their boundary.")
c("C12", "partial", """Verif.Domain.box_is_empty_history_partial Verif.Domain.box_point_unbounded_history Verif.Domain.point_history
  Verif.Domain.box_is_point_history_false Verif.Domain.box_is_unbounded_history_false Verif.Domain.box_is_empty_closest_point_false""",
  "is_empty is history independent among queries; is_point/is_unbounded are exactly characterized and refuted; point domains are fully history independent.")
c("C13", "partial", """Verif.Domain.box_corner_maximizes Verif.Domain.box_corner_ok_iff Verif.Domain.box_corner_int_false Verif.Domain.box_corner_int Verif.Domain.box_corner_int_same Verif.Domain.box_corner_empty_false""",
  "Proved for float bounds of a nonempty box; refuted for integer lower bounds (truncation), and emptiness is only detected beyond the tolerance.")
c("C14", "partial", """Verif.Domain.corner_history_partial Verif.Domain.corner_reply_partial Verif.Domain.corner_complete_partial
  Verif.Domain.flag_sound_history Verif.Domain.completeSolver_exists Verif.Domain.corner_quadratic_false Verif.Domain.corner_mixed_bounds_false""",
  "After any history, with an exact solver, for domains whose normalization is right (no mixed finite/infinite bounds, quadratic centers not moved); both exclusions refuted by witnesses. Boxes: C13.")
c("C15", "partial", """Verif.Domain.closest_history_partial Verif.Domain.closest_reply_partial Verif.Domain.closest_inside Verif.Domain.flag_sound_history""",
  "Same restriction on the normalization as C14; otherwise for every domain, weighting matrix and history.")
c("C16", "partial", """Verif.Domain.center_product Verif.Domain.cls_reply Verif.Domain.cls_reply_partial Verif.Domain.cls_false""",
  "False: the target is shifted by 2 A center (proved exactly in cls_reply, witness cls_false); holds when the shift vanishes.")
c("C71", "partial", """Verif.Domain.isEmpty_query_partial Verif.Domain.isUnbounded_query_partial Verif.Domain.isUnbounded_one_dim_false""",
  "For domains whose normalization is right; in one dimension is_unbounded raises.")
c("C17", "partial", """Verif.Domain.sweep_points Verif.Domain.sweep_lengths Verif.Domain.sweep_inside_partial Verif.Domain.sweep_box_inside
  Verif.Domain.sweepCorner_inside Verif.Domain.sweep_ok_iff Verif.Domain.sweep_direction Verif.Domain.sweep_direction_unchanged_partial
  Verif.Domain.sweep_mutates_false Verif.Domain.sweep_active_ineq_false""",
  "Equally spaced points of the segment; inside for boxes, corner sweeps, and general domains under the safety conditions of C08; refuted when an inequality is active; the caller's direction array is modified (witness).")
c("C18", "partial", """Verif.Domain.sample_grid_mem Verif.Domain.sample_grid_nodup_partial Verif.Domain.sample_grid_ok_iff Verif.Domain.sample_grid_box_count
  Verif.Domain.sample_grid_dup_false""",
  "Exactly the grid points inside; each once only if no coordinate has equal bounds (witness).")
c("C22", "partial", """Verif.Domain.hull_holds_isInside Verif.Domain.hull_coefficients Verif.Domain.dom_holds_isInside_all Verif.Domain.hull_inside_partial
  Verif.Domain.hull_inside_limit_partial Verif.Domain.hull_inside_false Verif.Domain.two_point_inHull Verif.Domain.to_linineq_partial
  Verif.Domain.to_linineq_same_set Verif.Domain.to_linineq_bounds_false Verif.Domain.solvesConsistent_exists""",
  "Points of the hull are reported inside; the converse is false because the weights need not sum to one (witness); to_linineq keeps the set except that bounds are dropped (witness).")
c("C19", "partial", """Verif.Domain.sample_good_partial Verif.Domain.sample_nonpos Verif.Domain.sample_box_ok_iff Verif.Domain.defaultSample_good_partial
  Verif.Domain.defaultSample_point_false Verif.Domain.sample_box_stale_false Verif.Domain.sample_single_hull_false Verif.Domain.sample_hull_false""",
  "For every class, for all random numbers, under conditions each refuted by a witness: a box with a stale cached _empty, a one-point hull violating other constraints, a low-dimensional hull with bounds.")
c("C21", "partial", """Verif.Domain.hitRun_inside_partial Verif.Domain.hitRun_inv Verif.Domain.cheb_holds""",
  "For every history of calls, all random choices and exact solver runs, for domains whose normalization is right (as C14, C15).")
c("C20", "partial", """Verif.Domain.names_count Verif.Domain.names_ok_iff Verif.Domain.names_nodup Verif.Domain.tensor_names_count Verif.Domain.normalized_names
  Verif.Domain.add_constraints_names Verif.Domain.and_names Verif.Domain.tensor_default_names_false""",
  "All parts proved, except that the default names of a tensor product repeat (witness).")
c("C23", "partial", """Verif.Domain.lognormal_truncated_inside_iff Verif.Domain.lognormal_inside_iff Verif.Domain.lognormal_negative_scaling_false
  Verif.Domain.lognormal_negative_offset_false""",
  "Exactly characterized: holds iff the scaling (and, without truncation, the offset) is nonnegative; refuted otherwise. Bounds of the normal domain are assumed exact.")
B = "Verif.Basis."
def cb(i, st, names, note): c(i, st, " ".join(B + n for n in names.split()), note)
cb("C24", "proved", "mem_indexSet indexSet_nodup indexSet_graded indexSet_length", "")
cb("C25", "proved", "VC_entries VC_ok_iff", "")
cb("C26", "proved", "DV_deriv mono_good leg_good cheb_good lag_good herm_good",
   "For every scalar family whose derivative routine is right (Family.Good), and proved that the five families of the repository, with numpy's recurrences and derivative loops, are of this kind.")
cb("C27", "proved", "DDV_deriv DDV_symm DDV_second_deriv mono_good leg_good cheb_good lag_good herm_good", "As C26.")
cb("C28", "partial", "setScale_range setScaleHermite_moments roots_exact roots_sound roots_ok_iff roots_unscaled_false",
   "Without reference points roots raises an AttributeError (witness); otherwise proved, assuming the scalar root routine returns the roots.")
cb("C29", "proved", "arnoldi_orthonormal arnoldi_consistent arnoldi_span arnoldiBasis_total arnoldi_breakdown_iff",
   "Exact arithmetic; also characterizes breakdown.")
cb("C30", "proved", "updateVec_parent planPrefix_eq", "")
cb("C72", "proved", "arnoldi_DV_deriv", "")
cb("C73", "proved", "polyfitA_best", "np.linalg.lstsq is assumed to return a minimiser (IsLstsq).")
LP = "Verif.Lip."
def cl(i, st, names, note): c(i, st, " ".join(LP + n for n in names.split()), note)
cl("C31", "proved", "uncertainty_contains bound_functions_contain", "")
cl("C32", "proved", "uncertainty_ordered uncertainty_tight uncertainty_lipschitz uncertainty_exact fit_then_uncertainty",
   "Also: the interval is exact (every value in it is attained by a compatible function).")
cl("C33", "partial", "projectEvals_partial eval_update projectEvals_single projectEvals_false",
   "For distinct points, including termination after at most one update per pair; refuted for repeated points, which stop the loop at once (witness).")
cl("C34", "proved", "projectGrads_spec projectGrads_terminates grad_update exists_minEig exists_eigh",
   "dist_grad_constraints is assumed to give the smallest eigenvalue (see C75); termination after at most one update per gradient.")
cl("C35", "proved", "param_bijective param_symmetric param_count param_objective builders_agree_param builders_agree_cvxopt param_diag", "")
cl("C36", "partial", "fit_gram fit_consistent_partial fit_consistent_false diagFit_spec diagFit_method lipFit_ok_iff prepare_ok_iff fitScale_zero_iff feasible_iff exists_build exists_eigh",
   "L^T L = H always; consistency is proved unless a direction is orthogonal to the mean gradient, when the sign fixing zeroes that direction (witness with gradients 1 and -1).")
cl("C37", "partial", "constant_least_partial constant_epsilon_partial constant_epsilon_false constant_duplicate_false constant_single constant_matrix",
   "Without epsilon and for distinct points; refuted with epsilon (divided by the scale while the samples are not), for repeated points, and for one sample (raises).")
cl("C38", "partial", "fixSamps_spec fixSamps_slopes fixSamps_monotone fixGrads_mean fixGrads_partial fixGrads_orthonormal_iff fixGrads_false",
   "Samples: proved. Gradients: exactly when no column is orthogonal to the mean gradient; refuted otherwise.")
cl("C70", "partial", "partial_gram finishPartial_partial partial_consistent geodesic_orthonormal optimizeU_monotone optimizeU_progress partialObj_trace optimizeU_orthonormal fixedU_epsilon_false",
   "All parts, the final rotation under the condition of C38; the constraint with epsilon is stricter than documented (witness).")
cl("C74", "proved", "bound_grad bound_grad_zero", "")
cl("C75", "proved", "secular_root secular_root_unique minEig_of_root", "The root finder itself (brenth) is not modelled.")
SP = "Verif.Samp."
def cs(i, st, names, note): c(i, st, " ".join(SP + n for n in names.split()), note)
cs("C39", "proved", "decode_encode encode_range encode_surj encode_inj geoCnf_sat sat_iff_permutations design_satisfiable readPerms_eq block_removes blocked_exact unsat_iff",
   "The SAT solver is a parameter returning a satisfying assignment.")
cs("C40", "partial", "latinBox_latin latinMaximin_latin latinMaximin_best latinMaximin_maximin latinMaximin_some latinMaximin_none latinMaximin_point swapPerms_bijective latinPoints_inside swapPerms_differs swapMask_some swapMask_half swapMask_reach",
   "On boxes, for every random stream; a degenerate box or maxiter = 0 returns None (witness latinMaximin_point).")
cs("C41", "proved", "sobol_first sobol_ends_iff sobol_refused_iff", "")
cs("C42", "partial", "poisson_separated poisson_terminates packing_bound poissonGrid_separated poissonGrid_terminates poissonGrid_returns grid_neighbourhood same_cell_close address_iff gridWrite_wraps poissonGrid_boundary_false",
   "Separation, containment and termination for every random stream; maximality does not hold of the algorithm (finitely many trials). The grid variant can raise IndexError at the upper boundary (witness).")
cs("C43", "partial", "intBisect_ok_iff intBisect_crossing_up intBisect_crossing_down intBisect_least_partial intBisect_least_nonneg intBisect_zero_false intBisect_decreasing_false bisectLoop_count",
   "A crossing is always found; least positive integer proved for increasing functions without zeros at the probed points; refuted otherwise (witnesses).")
cs("C44", "proved", "maximin1d_optimal minimax1d_optimal oneD_ok_iff oneRow_ok_iff maximinBlock1d_same", "")
cs("C45", "proved", "coffee_length coffee_nested coffee_greedy coffee_ok_iff coffee_inside coffee_maximin_half coffee_minimax_half farthestCand_1d",
   "Also the 50% efficiency claim of the documentation, for maximin spacing and for covering, whenever the candidates include a farthest point (proved for intervals).")
cs("C46", "partial", "seqSample_ok seqSample_aligned_partial seqHistory_aligned_partial seqSample_prefix seqSample_shipped seqHistory_shipped seqSample_failure_false seqSample_novalues_false samplerInit_ok_iff samplerInit_aligned",
   "As shipped every draw raises NameError (seq_maximin_sample is never imported). With the name bound: aligned after successful calls; refuted after a failing evaluation and for samplers given points without values.")
cs("C47", "partial", "cover_covers cover_covers_inexact coverFeasible_iff cover_ok_iff cover_minimal exists_coverSolver minimaxCovering_partial minimaxCovering_false",
   "The discrete cover is proved (also minimal, and robust to inexact solvers). minimax_covering meets its radius only if the Poisson sample is full; refuted in general (witness for every number of tries).")
cs("C48", "partial", "lowRank_metric_partial lowRank_close lowRank_same_iff lowRank_rows lowRank_independent lowRank_metric_false",
   "Exact when the singular values within 1e-8 of zero are zero, and up to (1e-8)^2 |x|^2 in general; exactness refuted for small nonzero singular values.")
GE = "Verif.Geo."
def cg(i, st, names, note): c(i, st, " ".join(GE + n for n in names.split()), note)
cg("C49", "proved", "unique_iff unique_separated unique_dropped unique_nodup unique_duplicates unique_linked unique_far",
   "Also: a dropped point can be farther than the tolerance from every kept point (unique_far), but is linked to one by short steps.")
cg("C50", "partial", "simplex_weights simplex_surjective simplex_zero", "For dimension at least one; in dimension zero there are no weights.")
cg("C51", "proved", "fillDistance1d_exact voronoi1d_dominates voronoi1d_inside voronoi1d_mem", "For samples inside the interval.")
cg("C76", "proved", "fill_lower fill_antitone fill_mono", "")
cg("C77", "proved", "sphere_unit sphere_best", "For streams without zero draws.")
FN = "Verif.Func."
def cf(i, st, names, note): c(i, st, " ".join(FN + n for n in names.split()), note)
cf("C52", "partial", "eval_one eval_many eval_batch_eq_points call_eq_eval call_grad_eq call_rows_rejected eval_normalize eval_wrong_length eval_no_funs callG_values_plain callG_values_vectorized_partial callG_vectorized_false",
   "Everything except calls with return_grad=True of vectorized functions on a batch, where one-dimensional outputs are stacked wrongly (witness).")
cf("C53", "partial", "grad_chain grad_user_plain grad_return_plain grad_user_vectorized callG_grad_vectorized grad_return_vectorized_partial grad_return_vectorized_false grad_not_defined grad_one_is_gradient",
   "The chain rule for every normalization; the gradient returned by a vectorized return_grad function on a batch is refuted (witness).")
cf("C54", "partial", "fd_affine fd_affine_no_kwargs fd_kwargs_false fd_two_outputs mkFn_ok_iff",
   "Exact for affine functions; keyword arguments are not passed on (witness).")
cf("C55", "proved", "linearFit_bound linearFit_ok_iff linearFit_error bound_feasible polyFit_bound fitCoef_bound finish_bound ridgeFit_bound ridgeFit_underdetermined ridgeFit_determined affSolve_swapped idealSolver_exact",
   "For exact constrained solvers (parameters). Also recorded: the direction of the affine initialisation is computed with the opposite bound (affSolve_swapped).")
cf("C56", "proved", "poly_grad poly_hess ridge_eval_profile ridge_factors ridge_orthogonal ridge_grad_eq ridge_hess_eq ridge_grad ridge_hess tensorObj_smooth", "")
cf("C61", "proved", "merge_spec merge_keys merge_lookup merge_assoc merge_assoc_heap", "")
cf("C78", "partial", "finishRotate_orthonormal finishSigns_orthonormal_iff finish_no_rotate finish_orthonormal_partial finish_sign_false",
   "Orthonormality is kept exactly when no mean slope vanishes; refuted otherwise: a perfect quadratic fit is replaced by a constant (witness).")
OP = "Verif.Opt."
def co(i, st, names, note): c(i, st, " ".join(OP + n for n in names.split()), note)
co("C57", "proved", "armijo_spec armijo_default armijo_decrease armijo_ok_iff", "Also that the accepted step is the first acceptable trial.")
co("C58", "partial", "gn_monotone gn_monotone_default gn_info_total gn_status gn_converged_partial gn_quiet_zero_iff gn_quiet_never gn_quiet_same gn_quiet_false armijoLS_good armijoLS_stays gnDir_descent",
   "Monotone decrease and totality of the status always; status 0 and independence of verbosity are refuted: without verbose the gradient norm is never updated, so a quiet run never reports convergence (theorem) and may return another point (witness).")
co("C59", "proved", "minimax_decrease minimax_radius minimax_inside step_nonpos step_zero_optimal minimax_outside",
   "For every solver; also a zero predicted change certifies global optimality for convex functions when the step solver is exact.")
co("C60", "partial", "seqlp_decrease seqlp_objective objfun_spec seqlp_bounds_partial seqlp_inside seqlp_constraint_false seqlp_verbose seqlp_accept",
   "Objective and domain: proved. Bounds on f: up to the tolerance 1e-10 of the code. The other nonlinear constraints are only linearized: refuted (witness for every exact solver). Also a verbose run raises NameError when the first step does not move.")
MI = "Verif.Misc."
def cm(i, st, names, note): c(i, st, " ".join(MI + n for n in names.split()), note)
cm("C62", "partial", "pgf_roundtrip pgf_add_lengths pgf_add_ok_iff_partial pgf_get_add pgf_get_twice pgf_get_missing pgf_write_ok_iff pgf_read_empty pgf_row_ok_iff pgf_ragged_false pgf_short_false",
   "Round trip for tables whose columns have equal lengths; the class does not check lengths beyond the first column it compares with, witnessed by the refutations.")
cm("C63", "proved", "gauss_nonneg gauss_sum gauss_affine gauss_weight_pos gauss_interior gauss_distinct gauss_converges gauss_dense",
   "For every eigenvalue routine meeting its specification (eigh as parameter).")
cm("C79", "proved", "gauss_exact gaussT_moment leg_moments",
   "Full exactness to degree 2N-1, via the moments of the monic Legendre polynomials; eigh as parameter with its specification, exact arithmetic.")
cm("C64", "proved", "asFit_C asFit_C_default asFit_quad asFit_null asFit_ok_iff exists_svd",
   "For every routine meeting the specification of svd (existence proved).")
cm("C65", "partial", "localLinear_exact_partial localLinearGrads_exact localLinear_length localLinear_ok_iff localLinear_minimizes localLinear_minimizes_perplexity localLinear_default localLinear_xia xia_wider localLinear_rows_false exists_lstsq",
   "Exactness for affine data is proved for all bandwidths. The number of rows is refuted: it is the number of samples, not of requested locations. The default perplexity needs at least m+2 samples.")
cm("C80", "partial", "asFit_eigen asFit_bound asFit_optimal_partial asFit_zero asFit_zero_false",
   "Optimality (Ky Fan) proved unless a reported direction is zero; refuted in general: gradients summing to zero give the zero matrix.")
cm("C81", "partial", "perp_attained perp_unique perp_succeeds_partial logEntropy_strictAnti computeP1_ok perp_equal_fails perp_equal_false perp_scale_false localLinear_equispaced_false exists_root",
   "A returned bandwidth is the unique one; but the call fails for equal distances and for small distances, where a bandwidth exists (refutations for all root finders).")
def cd(i, st, names, note): c(i, st, " ".join("Verif.Demo." + n for n in names.split()), note)
cd("C68", "partial", "otl_isGrad otl_domain borehole_isGrad borehole_domain arm_isGrad_partial arm_origin_false affine_isGrad quad_trueGrad quad_isGrad_iff quad_grad_false",
   "OTL, borehole, affine: proved on the whole domain. Robot arm: wherever the arm has positive length; refuted at length zero (division by zero). Quadratic: the coded gradient is right exactly when the matrix is symmetric.")
cd("C82", "partial", "piston_isGrad piston_domain uAve_isGrad bind_isGrad hartmann_domain golVol_isGrad gol1_isGrad gol25_isGrad gol5_partial gol6_partial gol5_exact_false golinski_domain_partial beamArea_isGrad beamTwist_isGrad beam_domain wing_trueGrad wing_partial wing_domain_partial wing_exact_false",
   "Exact for piston, Hartmann, beam and all but two Golinski constraints; for those two and the wing weight the gradient uses rounded constants: relative error bounds proved, exactness refuted.")
cm("C69", "proved", "envRow_nonneg envRow_sum envRow_affine envRow_interp envEntries_ok shadow_ok_iff shadow_encloses cell_exists defaultGrid_range defaultGrid_counts defaultGrid_finest gridAccept_iff shadow_returned_false",
   "Also: exactly when the call succeeds, the default grid is the finest acceptable one, and the returned coordinates do not match the bounds (refuted).")
cm("C83", "partial", "shadow_encloses env_bounded_partial env_none_of_ray shadow_none_false exactEnv_spec",
   "What is returned encloses all samples (exact solver as parameter). Existence is refuted: two samples with the default grid give an unbounded program; bounded if nonnegative multipliers of the rows sum to ones.")
cm("C66", "partial", "opg_plain opg_standardized opg_standardized_partial opg_standardized_false opg_shift colStd_sq opg_empty exists_opgEnv exists_qr",
   "Without standardization: proved. With it: the direction is std^(1/2) times the gradient, right exactly when all relevant coordinates have equal deviations; refuted otherwise (witness for all exact routines): the code undoes the scaling with std^(-1/2) instead of 1/std.")
def cgp(i, st, names, note): c(i, st, " ".join("Verif.GP." + n for n in names.split()), note)
cgp("C67", "partial", "gp_matches_iff gp_matches_partial gp_matches_nugget gp_matches_default gp_duplicate_false gp_var_range gp_var_raw gp_var_sample_partial kern_pos exists_eighs",
   "Exact characterization for every polynomial part. Without one: proved for all distinct samples with the default nugget and for all samples with a larger one (strict positive definiteness of the Gaussian kernel is proved). Refuted for coinciding samples with the default nugget. Variances always in [0,1].")
cgp("C84", "partial", "gp_grad_curve gp_grad_const gp_grad_mult gp_grad_diag hasDerivAt_det hasDerivAt_solve stepL_error gp_grad_tril_partial gpGradTril_one gp_grad_tril_false exp_line_hasDerivAt cstep_error",
   "Unconditional for const, scalar_mult and diag without polynomial part; with one, as long as no eigenvalue is dropped nearby. For tril the complex step of the code gives the derivative up to an explicit error of order h^2 (gp_grad_tril_partial) but not exactly: for two samples with values zero it differs from the derivative for every step (gp_grad_tril_false).")
cf("C85", "partial", "varpro_fit gn_invariant grassmann_orthonormal grassTraj_orthonormal geodesic_orthonormal geodesic_velocity gnDirection_tangent grad_tangent gnDirection_components varproSolver_values gnDirection_descent gnDirection_optimal orth_fix orth_orthonormal orth_span orth_zero_false exists_tsvd exists_rqr exists_lsq",
   "Whole runs of gauss_newton with the default line search, provided the projected samples determine the polynomial for all orthonormal directions (otherwise pseudo-inverses divide by zero). orth characterized exactly; it fails for dependent columns (witness).")
cf("C86", "proved", "varpro_derivative varpro_null arnoldiCoef_isLsq fullRank_arnoldi linBasis_poly residual_unique",
   "For every basis of the polynomials of total degree at most d with correct derivatives and Vandermonde matrices of full column rank at the point of differentiation.")
cl("C87", "proved", "compatFeasible_iff approxFit_ok approxFit_ok_iff approxFit_compatible approx_interpolates approx_lipschitz approx_best approx_central exists_compat exists_compatSolver",
   "For every exact solver of the convex fitting problem (one exists).")
cm("C88", "partial", "nonlin_spec nonlin_range nonlin_zero_iff nonlin_slope nonlin_scale nonlin_constant_false nonlin_duplicate_false nonlin_conflict_false nonlin_ok_iff idealNL_exact",
   "All but the coefficients: they are those of the negated linear function. Constant data and repeated samples give nan (witnesses).")
cg("C89", "proved", "miniball_spec miniball_unique miniball_hull miniball_diameter hull_closer exists_center exists_ballSolver",
   "For every exact solver of the second order cone program (one exists).")
cl("C90", "partial", "diag_U_partial diag_U_coord coord_orthonormal diag_U_stale diag_U_stale_false diag_U_unfitted diag_L_given answer_eq exists_argsort",
   "Coordinate directions after every history; ordered for the first query after a fit. The cached directions are never updated by a later fit (witness), and are missing if the matrix was only given to the constructor.")
cg("C91", "partial", "voronoi_spec voronoi_mem voronoi_inside fillDistance_exact fillDistance_attained fillDistance_ok voronoi_ok vertex_dominates voronoi_single_boundary fill_equality_false exists_hsi exists_isCenter poly_hull extreme_finite",
   "Exact if distinct vertices are farther apart than the tolerance of unique_points. A single sample on the boundary raises; equality constraints are ignored (witness).")
cg("C92", "partial", "vertexSample_inside vstep_inside vstep_away vstep_nearest vstep_progress vertexSample_nearest_partial vertexSample_nearest_random vstep_nearest_random vertexSample_ok_iff vertexSample_zero fillEstimate_lower fillEstimate_improves vertexSample_not_vertex fillEstimate_small_false exists_sorts exists_qr",
   "Feasibility unconditional. The distance to the nearest sample does not decrease unless a sample is approached at a positive rate below 1e-8, where it can drop to zero (witness with a small metric). A starting point equal to a sample is returned unchanged, so the points need not satisfy m constraints (witness).")
C["C92"] = (C["C92"][0], C["C92"][1] + ["Verif.Samp.vertexSample_ok_explicit", "Verif.Samp.vertexSample_fixed"], C["C92"][2])
cs("C93", "partial", "maximinBlock_stop maximinBlock_inside maximinBlock_apart_partial blockStep_apart maximinBlock_ok_iff maximinBlock_single_false",
   "Points stay in the domain unconditionally; the smallest distance does not decrease unless a point is approached at a positive rate below 1e-8 (see C92). A one-point design raises for every metric with at least two rows (proved).")
cs("C94", "partial", "cluster_best cluster_improves cluster_length cluster_inside cq_in_hull scoreOf_spec exists_cq exists_center cluster_single_false cluster_dx_false cluster_outside_false",
   "Best visited design, length and convexity proved. The stopping rule is not as claimed: with one center the loop stops before the first step (proved for all inputs); a step moving all centers in negative directions counts as converged (witness). With a rank deficient metric exact solvers can leave the domain (witness).")
cs("C95", "partial", "pso_best pso_inside_partial psoMove_box pso_outside_false randomInit_first",
   "Best scored design proved for every run. Inside proved for boxes; false for other convex domains because the weights are drawn per entry (triangle witness with the default weights). The initial designs always take the first candidate, whatever its distance (proved).")
cs("C96", "partial", "lloyd_inside lloyd_steps lloydStep_fill lloydStep_fill_exact lloyd_fill lloyd_full_vor exists_circ lloyd_extra_false lloyd_overwrites lloyd_overwrites_false",
   "Inside, steps, stopping rule and the fill distance bound proved for designs with the requested number of points. The caller's array is overwritten (proved; witness), and points beyond the requested number are moved to the origin (proved). The fill distance bound needs all Voronoi vertices; the sampled vertices are only known to be feasible (C92).")
cs("C97", "partial", "scale_best scale_inside scaleScore_lower scaleScore_one scale_score_le scale_ok_iff scale_one_false scale_suboptimal_false scale_worse_false worse_center",
   "Scaling, inside and optimality of the score on the grid proved; the score is a lower bound of the fill distance of the scaled design and exact for the factor one. It is computed with the Voronoi vertices of the unscaled design, so the factor is not the best one of the grid (witness); with one grid point the design is always halved (proved). On the default grid of twenty factors the fill distance can get worse than that of the design passed in: witness of four points in a square with the metric diag(1, 1/2), for every descending minimizer, the exact Voronoi vertices and the only Chebyshev center.")
cs("C98", "proved", "initialLow_spec initial_range initialSample_scalar initialSample_low coef_exact combo_mem unique_again exists_nnls",
   "Relative to the contracts of corner (C13, C14), of the samples of a hull (C22) and of nnls (shown to be satisfiable). The range statement needs the two end points to be farther apart than the tolerance of unique_points.")
cs("C99", "proved", "seq_meets seqLoop_exhaustive seq_spec seq_ok seq_single seqFirst_spec seqPick_slack exists_seqOracle seqIdx_spec seqOrder_spec foundIdx_eq_iff",
   "Relative to the contracts of the emptiness test (C71), of initial_sample (C98), of voronoi_vertex_sample (C92) and of argsort. The statement for one metric assumes that distinct candidates are farther apart than the tolerance of unique_points, and is about the vertices kept after removing duplicates in the metric.")
cf("C100", "partial", "affine_optimal affine_unit affine_lower_false affSolve_swapped fitAffine_ok",
   "Proved without bounds, relative to exact solvers. With bounds it is false: the direction is taken from the problem with the opposite bound, and for four samples in the plane every exact run returns a lower bound that is not the best affine one (proved). Constant data and a zero slope are errors in the model (nan in the code).")
cf("C101", "partial", "vecRidge_spec vecRidgeFixed_spec vecInit_empty vecArgs_options vecResidual_best vec_derivative vec_null vecFixed_derivative restrictJac_apply fixed_orthonormal vecStart_orthonormal vecArgs_run vecInit_twoD vecInit_oneD_false vecRidge_start_false vec_hypotheses",
   "Proved for starts with orthonormal columns (always the case with a fixed subspace), exact factorizations and Vandermonde matrices of full rank for orthonormal directions. False for flat data (the default start raises AssertionError with two samples or more) and for starts that are not orthonormal (returned as they are without iterations).")
cf("C102", "partial", "initSubspace_spec initSubspace_affine initSubspace_ok_iff initSubspace_few_false initSubspace_nothing checkInputs_ok_iff checkInputs_spec lead_optimal rank_one_svd",
   "Proved relative to exact factorizations and least squares; the success condition is an equivalence, given that the search for a bandwidth succeeds (C81). False with exactly one sample more than coordinates: the estimate fails an assertion, even if gradients were given. The decomposition of an empty array (no gradients and too few samples) is taken to be empty.")
cs("C103", "partial", "stretchDomain_spec stretchSample_spec farthest_spec farthest_ok_iff stretchDomain_total blockCandidate_starts stretch_one slice_nil slice_compact exists_stretch stretch_caught_false stretch_forgets_false stretchSample_repeats_false",
   "Proved: the equations of the stretched domain use each metric at most once, the stretched domain is part of the domain and not empty if the domain is not, the new sample is in it and is the vertex farthest from the samples; with one metric and exact vertices the equation goes through a point of the domain that is farthest from the samples. False with two metrics: the samples are overwritten by the candidate, later distances ignore them, and the new sample can repeat one. False for a failing first metric: a name that does not exist yet is read. Relative to the vertex search.")
cf("C104", "proved", "tensor_degree tensor_represents tensor_change tensor_unisolvent tensor_fit_recovers tensor_polyBasis tensorMk_poly varpro_derivative_tensor vecRidge_tensor mono_graded leg_graded cheb_graded lag_graded herm_graded unisolvent_line",
   "Over the reals, for scalings that are not degenerate. The derivative columns are the derivatives of the polynomials, so that the results on variable projection (C85, C86, C101) apply to these bases, rebuilt and rescaled at every step; there the degenerate scaling, where the code divides by zero, is replaced by no scaling.")
co("C105", "partial", "uncDomain_attained uncDomain_starts uncDomain_cover uncDomain_exact uncDomain_contains uncDomain_ok_iff low_up_uncertainty shadowUnc_spec shadowUnc_range shadowUnc_contains uncDomain_epsilon_false uncDomain_local_false shadowUnc_end_false shadowUnc_one_false",
   "Proved: both ends are attained on the set; the interval contains the bounds at every starting point, and widened by the covering radius of the starting points it contains the values of every interpolating Lipschitz function, whatever the searches do; without widening if one search is global. False in general: the search is local, also with exact steps. False with epsilon, which is not used for sets. For shadows: grid and interior rows are right; the first and last row use one corner although the slice can be a face, and with one row the value belongs to the other corner.")
cm("C106", "partial", "quadMethod_gauss_iff quadMethod_mc_iff quadRule_sampled quadRule_sound quadRule_weights_pos quadQ_largest quadRule_box_exact quadRule_full_exact quadRule_converges quadRule_terminates quadRule_linquad quadRule_mc quadRule_point quadRule_error_iff quadRule_other boxVolume_eq mcVolume_bounds quadRule_void_false quadRule_zero_false",
   "Proved: number and place of the points, weights, exactness on boxes, termination and convergence on all nonempty bounded linear-quadratic domains without equality constraints (membership with a positive tolerance, so the limit is the integral over the points the domain accepts), Monte-Carlo branch. False: for an empty domain the search never ends; N = 0 with the Gauss method gives one point. Not modelled: roundoff in N**(1/m), the shape of the array that sample(1) returns.")
co("C107", "partial", "kkt_two kkt_inf_zero kkt_inf_stationary kkt_one_zero kkt_one_iff kkt_one_component kkt_one_false kkt_nan kkt_ok_iff kkt_nonneg exists_nnls_exact",
   "Proved: for the 2-norm zero exactly at stationary points; for the maximum norm zero at stationary points, and if it is zero no step decreases the linearization by more than 1e-10, the threshold for active components; for the 1-norm zero at stationary points. False for the 1-norm in the other direction: the measure is zero exactly if no step decreases all components at once, in particular whenever one component is zero. No measure for the other norms.")
c("C108", "partial", "Verif.Domain.boundary_samples_partial Verif.Domain.boundary_proper Verif.Domain.boundary_box_vertex Verif.Domain.boundary_edge_false Verif.Domain.boundary_point_false Verif.Domain.boundary_center_false Verif.Domain.boundary_none",
   "Proved: the samples are as many as requested, in the domain, on its boundary relative to the equality constraints, maximize an allowed direction, and lie farther along it than the center (domains of linear inequalities and boxes; like C14 for right normalization). False: the samples do not reach the whole boundary (a box only returns vertices); a domain with one point makes the search for a direction run forever; domains with quadratic constraints, hulls, products and normal domains raise AttributeError since they have no center.")
cf("C109", "partial", "alt_fit_plain alt_fit_partial alt_search altMove_orthonormal residual_after_fit residual_after_trajectory alt_bounds_iff alt_bounds_met altJacobian_deriv fit_same_subspace searchCon_one alt_search_false",
   "Proved: orthonormal iterates with coefficients fitted for them, no loss against the starting subspace, bounds exact, residual computed with the basis of the evaluated point, Jacobian is the derivative. Missing for rotate=True: the final sign choice may erase a direction (C78), so there the result is assumed orthonormal. False: for more than one column the constraint on the search direction is not orthogonality (entries of a row-major vector are sliced as columns), and a fit can be stuck although an orthogonal direction solves the linearized problem exactly.")
cl("C110", "partial", "distEval_length distEval_entries evalDist_nonneg_iff evalDist_distance gradDist_nonneg_iff gradDist_inside gradDist_outside gradDist_indefinite",
   "Proved for pairs of different points and for gradients with positive semidefinite (or dominating) matrices; the gradient value is the smallest eigenvalue, which C75 shows for the root of the secular equation. False: for a matrix that is not positive semidefinite the value for a gradient is smaller than the distance (gradDist_indefinite); equal points give nan or -inf.")
cl("C111", "partial", "descent_grad descent_eval_partial descent_nonpos descent_eval_false",
   "Proved for gradients, and for evaluations if alpha = 0, J = I or the subspace does not move; the zero direction is always allowed. False for evaluations in general: one term uses J U^T y in place of U^T y, and the predicted change can have the opposite sign of the true one.")
cs("C112","partial","cellRows_iff buildStep_cells projection_cells projection_best projection_exhaustive projection_optimal projection_some projection_no_error projection_single projection_hangs projection_stale projection_hangs_feasible projection_fit","Everything but termination holds: the rows added to the domain describe the cells exactly, every returned design uses each cell of each projection once, the best proposed design is kept, blocked cells exclude nothing that can be built and no exception is raised for two points or more. The call does not always return: when no design can be built it runs forever, and also after designs have been found if the solver runs out and its last solution has an empty cell (proved on the interval with two projections); one point raises ValueError.")
c("C113","partial","Verif.Domain.uniform_density Verif.Domain.uniform_total Verif.Domain.normal_density Verif.Domain.normal_sample_law Verif.Domain.redraw_restrict Verif.Domain.redraw_accepts Verif.Domain.redraw_limit Verif.Domain.normal_truncated_law Verif.Domain.lognormal_integral Verif.Domain.lognormal_density_iff Verif.Domain.lognormal_density_false","Proved for uniform and normal domains (Cholesky factor and chi-squared quantile as contracts) and for the law of normal samples, with truncation as the limit of the redraws. For lognormal domains the integral is scaling/sqrt(cov), so the claim holds exactly if scaling = sqrt(cov); refuted otherwise.")
c("C114","partial","Verif.Domain.normalized_d2 Verif.Domain.normalized_points Verif.Domain.normalized_pdf Verif.Domain.normalized_factor_exists Verif.Domain.lognormal_normalized_draw Verif.Domain.lognormal_normalized_pdf Verif.Domain.lognormal_normalized_iff Verif.Domain.lognormal_normalized_false","Proved for normal domains; for lognormal domains draws correspond but the density is not divided by the slope, so the claim holds exactly for slope one. (The normalized domain of a uniform domain is a plain box without a density.)")
c("C115","partial","Verif.Domain.cheb_ball Verif.Domain.cheb_max Verif.Domain.cheb_nonempty_iff Verif.Domain.cheb_bounded Verif.Domain.cheb_empty_false Verif.Domain.cheb_point_false Verif.Domain.cheb_equality_false","Proved for an optimal solver of the linear program. False parts: an empty domain gives a negative radius and a point outside, without an exception; a point given by equality constraints raises TypeError; with equality constraints the ball is one of the whole space, not of the domain.")
c("C116","partial","Verif.Domain.mkLinQuad_spec Verif.Domain.mkLinQuad_ok_iff Verif.Domain.mkLinQuad_exception_iff Verif.Domain.mkLinQuad_row_false Verif.Domain.mkLinQuad_empty_false Verif.Domain.mkLinQuad_inf_false","Proved with the exact condition under which the constructor succeeds. False parts: a single row or an empty matrix is refused when no bound is given, and +inf is accepted as a lower bound but never checked.")
cd("C117","partial","bspline_iff bspline_slopes bspline_ok bspline_gap_false bspline_throat_false cleanup_iff cleanup_all cleanup_ok_iff centerline_infeasible cleanup_eliminate centerline_base_infeasible","The rows are characterized exactly. The claim fails in three places: without a throat the first two gaps are compared with 0.05 instead of delta; with throatIsLowest the documented throat is infeasible; cleaning up drops violated rows without variables, which the shipped centreline has.")
cd("C118","partial","layer_iff layer_plain_iff layer_ok_iff layer_runtime layer_y_false layer_single_false shippedLayer_infeasible baffles_iff baffles_ok_iff","The rows are characterized exactly. The rows for the y-coordinates are shifted by one, so the claim fails when deltay is given; with a single y-coordinate deltaz bounds the thickness itself. More than 100 rows raise IndexError.")
c("C119","partial","Verif.Domain.hitRun_law Verif.Domain.hitRun_uniform Verif.Domain.hitRun_first_law Verif.Domain.hitRun_near Verif.Domain.hitKernel_exists Verif.Domain.hitRun_shrunk Verif.Domain.hitRun_fresh_false Verif.Domain.chord_mean","Invariance of the uniform distribution is proved for exact arithmetic: exactly for every accepted direction, with an explicit bound for the calls which redraw. The last sentence is false in two or more dimensions: the sampler starts at the Chebyshev center and one third of the points returned by the first sample(1) is one chord step away from it.")
c("C120", "partial", "Verif.Domain.volume_box Verif.Domain.volume_box_inf Verif.Domain.volume_law Verif.Domain.volume_consistent Verif.Domain.volume_above Verif.Domain.volume_limit Verif.Domain.accepted_measurable Verif.Domain.volume_ok_iff Verif.Domain.mc_unbiased Verif.Domain.mcWeights_sum Verif.Domain.volume_bias_false Verif.Domain.volume_flat",
  "Partial because the code falsifies the plain reading: points outside by less than the tolerance count, so the mean exceeds the volume of the set (volume_bias_false), and a flat box with an infinite side gives nan (volume_flat). Everything else is proved. Measurability of the accepted set is a hypothesis of volume_law, discharged by accepted_measurable for all classes but points, hulls and products.")
c("C121", "partial", "Verif.Domain.isPoint_true_partial Verif.Domain.isPoint_near_partial Verif.Domain.isPoint_singleton_partial Verif.Domain.isPoint_empty_partial Verif.Domain.isPoint_cached Verif.Domain.cornerCenter_partial Verif.Domain.isPoint_far_false",
  "For domains whose normalization is right (Scaled, as in C14) and solvers that find optima; false away from the origin (witness).")
cgp("C122", "partial", "gp_fit_free gp_var_free gp_mean_perm gp_obj_perm gp_mean_shift gp_mean_linear gp_reproduces_partial gp_obj_last gp_start_false gp_failed_refit_false makeL_tril gp_start_tril",
  "Reproduction of polynomials needs that no eigenvalue is dropped; start at L0 and harmless failed fits are false (witnesses). The object is modelled without polynomial part.")
c("C123","partial","Verif.Domain.empty_answer_final Verif.Domain.corner_forgets_false",
 "holds for closest_point and constrained_least_squares; an EmptyDomainException of corner is not remembered (the assignment is commented out in the code), so a second corner call can end differently: witness proved")
c("C124","partial","Verif.Misc.study_sizes_partial Verif.Misc.study_angles Verif.Misc.study_ok_iff Verif.Misc.study_data_error Verif.Misc.study_eval_only Verif.Misc.study_grad_only Verif.Misc.as_fresh Verif.Misc.principalCos_comm Verif.Misc.angSpec_exists Verif.Misc.study_empty_false Verif.Misc.study_coord_false",
 "without sample numbers one angle is returned for no subspace (witness); for DiagonalLipschitzMatrix, whose U is cached by the first access, all angles after the first are zero whatever the data (proved for all data); subspace_angles is a parameter with its contract and an existence proof")
c("C125","partial","Verif.Misc.check_no_steps Verif.Misc.defaultSteps_ok Verif.Misc.checkDerivative_spec Verif.Misc.checkDerivative_exact Verif.Misc.checkDerivative_smooth Verif.Misc.checkDerivative_quad Verif.Misc.cdiff_err Verif.Misc.checkJacobian_spec_partial Verif.Misc.checkJacobian_quad_partial Verif.Misc.check_jacobian_zero_column_false Verif.Misc.checkGradient_affine Verif.Misc.check_gradient_blind_false Verif.Misc.checkHessian_quad",
 "false for check_jacobian if a column of the Jacobian vanishes (0/0 is nan, and the next column makes max forget the earlier errors; witness for all steps) and for check_gradient where the residual vanishes (every Jacobian passes); exact arithmetic")
c("C126","partial","Verif.Domain.dimension_eq Verif.Domain.dimension_le Verif.Domain.intrinsic_dimension_partial Verif.Domain.intrinsic_dimension_redundant_false Verif.Domain.intrinsic_dimension_point_false Verif.Domain.projDir_orth Verif.Domain.projDir_fix Verif.Domain.eq_direction Verif.Domain.hull_basis_partial Verif.Domain.hull_direction_partial Verif.Domain.hull_direction_tiny_false Verif.Domain.exists_isOrth Verif.Domain.exists_isQr",
 "the dimension is right exactly for independent equality constraints; false for redundant ones (a point gets -1) and for fixed variables (witnesses). The hull basis is right if singular values are zero or above 1e-8; a hull shorter than 1e-8 has no direction (witness)")
c("C127","partial","Verif.Func.evalAsync_ok_iff Verif.Func.async_futures Verif.Func.async_any_schedule_partial Verif.Func.async_done Verif.Func.async_one Verif.Func.async_gather Verif.Func.callAsync_eq Verif.Func.callAsync_twice Verif.Func.async_globals_false Verif.Func.async_reserved_false Verif.Func.callAsync_keyword_false",
 "holds for functions that use no names of their module and keyword arguments not taken by the scheduler; false otherwise (the source is executed in an empty scope: NameError), and call_async passes return_grad to functions that may not accept it (witnesses). Tasks are deterministic and without other effects")
c("C128","partial","Verif.Samp.psample_cells Verif.Samp.psample_fit Verif.Samp.psample_centered Verif.Samp.cube_mids Verif.Samp.psample_none Verif.Samp.psample_terminates Verif.Samp.psample_error Verif.Samp.psample_some Verif.Samp.psSetup_ok_iff Verif.Samp.neighbors_nearest Verif.Samp.psample_latin Verif.Samp.lhs_setup_iff Verif.Samp.lhs_assertion Verif.Samp.lhs_triangle Verif.Samp.psample_planar Verif.Samp.psample_single Verif.Samp.psample_rows Verif.Samp.exists_psOracles Verif.Samp.exists_sorts",
 "every sample returned is a design, the search ends, None means there is none; but calls fail with an AssertionError whenever the middles of the pieces on the coordinate axes are not in the domain (witness: a triangle with a Latin design), with a NameError for projections to more than one dimension and when the first design found has coinciding points, with an IndexError for one sample. Solvers by contract (existence proved), tolerances not modelled")
c("C129","partial","Verif.Lip.fit_minimal_partial Verif.Lip.fit_minimal_samples Verif.Lip.fit_succeeds_iff Verif.Lip.fit_trace_mono Verif.Lip.fit_trace_output Verif.Lip.fit_trace_rotate Verif.Lip.fit_ignores Verif.Lip.feasible_admissible Verif.Lip.lipMatrix_mono Verif.Lip.lipMatrix_same Verif.Lip.lipMatrix_output Verif.Lip.lipMatrix_rotate Verif.Lip.lipMatrix_constant Verif.Lip.lipMatrix_ignores Verif.Lip.lipMatrix_exists Verif.Lip.exists_buildOpt Verif.Lip.samples_hide_false",
 "proved for exact optimal solvers; with gradients only if no mean gradient is orthogonal to an eigenvector (otherwise the sign convention zeroes a column, see C36 fit_consistent_false). A direction in which the function is constant need not be ignored by a fit of samples (samples_hide_false). Solver tolerances are not modelled")
c("C130","partial","Verif.Domain.build_iff Verif.Domain.build_ok_iff Verif.Domain.build_error Verif.Domain.build_isInside Verif.Domain.build_norm_iff Verif.Domain.feas_iff_holds Verif.Domain.hull_build Verif.Domain.hull_build_symm_partial Verif.Domain.hull_build_false",
 "proved for all domains without convex hull factors; for convex hulls the code multiplies the untransposed matrix of points, so the constraints describe the hull of its columns when it is square and can not be built otherwise (hull_build_false)")
c("C131","partial","Verif.Demo.quad_eval Verif.Demo.quad_eval_cube Verif.Demo.aff_eval Verif.Demo.aff_grad Verif.Demo.quad_grad_partial Verif.Demo.quad_grad_iff Verif.Demo.quadratic_grad_false Verif.Demo.quadInit_ok_iff Verif.Demo.quadInit_error Verif.Demo.quadInit_spec Verif.Demo.affInit_spec Verif.Demo.quad_mismatch Verif.Demo.aff_mismatch",
 "the gradient of QuadraticFunction is right exactly for symmetric matrices (quad_grad_iff); for the matrix of x0*x1 with one entry it is wrong (quadratic_grad_false). Everything else is proved")
c("C132","partial","Verif.Samp.vertexSample_cell Verif.Samp.vorSample_separated Verif.Samp.vorSample_origin Verif.Samp.vorSample_inside_partial Verif.Samp.vorSample_node_partial Verif.Samp.vorSample_ok_iff Verif.Samp.useFull_iff Verif.Samp.vorSample_outside_false",
 "points can leave the domain since the nodes are perturbed without a check (vorSample_outside_false); inside if the perturbed nodes are inside. The vertex of a node may be merged into another one through a chain of steps of 1e-8 by unique_points, and the passes must not drift at a rate below 1e-8")
c("C133","partial","Verif.Func.approxInit_ok_iff Verif.Func.ridgeInit_ok_iff Verif.Func.basisFor_poly Verif.Func.basisFor_ok_iff Verif.Func.approxFit_ok_iff Verif.Func.approxFit_best Verif.Func.approxFit_recovers Verif.Func.approxFit_arnoldi Verif.Func.approxFit_basis_free Verif.Func.approxFit_data Verif.Func.approxFit_neg Verif.Func.approxFit_inputs Verif.Func.best_one_not_unique Verif.Func.best_exists Verif.Func.fitFixed_shape Verif.Func.fitFixed_partial Verif.Func.fitFixed_recovers_partial Verif.Func.fitFixed_recovers_false Verif.Func.parseBasis_iff Verif.Func.approxInit_basis Verif.Func.familyOf_named Verif.Func.scaleFor_spec",
 "fit_fixed_subspace with rotation fails on x^2 at -1,0,1 since a direction with zero mean slope is erased (fitFixed_recovers_false); true if no direction is erased or rotate is False. Solvers are exact; nan from a degenerate scaling or an Arnoldi breakdown is an error")
c("C134","partial","Verif.Misc.asFit_rotate Verif.Misc.asFit_scale Verif.Misc.asFit_perm Verif.Misc.asFit_weights Verif.Misc.asFit_singvals Verif.Misc.asFit_range Verif.Misc.asFit_rank Verif.Misc.asFit_span_partial Verif.Misc.ridge_gradient Verif.Misc.asFitFunction_rank Verif.Misc.asFitFunction_exact Verif.Misc.asFitFunction_null Verif.Misc.asFitFunction_ridge_partial Verif.Misc.asFitFunction_square_false",
 "Refuted where the reported directions must not vanish: for x^2 on [-1,1] fit_function reports the zero direction for every number of samples (asFitFunction_square_false); the two partial theorems assume that no direction with nonzero singular value was erased")
c("C135","partial","Verif.Misc.ridge_wide_refused Verif.Misc.shadow_one Verif.Misc.shadow_two Verif.Misc.shadow_refused Verif.Misc.shadow_graph Verif.Misc.ridge_plot_one Verif.Misc.ridge_plot_profile Verif.Misc.ridge_plot_two Verif.Misc.ridge_dim_error Verif.Misc.respName_ext Verif.Misc.shadow_truncated_false Verif.Misc.shadow_default_false Verif.Misc.shadow_nolen_false Verif.Misc.respName_plain_false Verif.Misc.respName_dir_false Verif.Misc.ridge_plot_scaled_false Verif.Misc.ridge_noaxis_false Verif.Misc.ridge_list_false",
 "Refuted: without an axis values in excess are left out of the file; the call without data raises; PolynomialRidgeFunction objects have no dimension and every plot raises; response files of names without an extension; the curve of a direction that is not of length one; two dimensional ridge plots without an axis and ridge plots of lists raise after the samples were written")
c("C136","partial","Verif.Demo.otl_eval Verif.Demo.borehole_eval_of Verif.Demo.borehole_eval Verif.Demo.borehole_uncertain_eval_partial Verif.Demo.borehole_uncertain_undefined Verif.Demo.borehole_uncertain_false Verif.Demo.arm_eval Verif.Demo.arm_grad_undefined_false Verif.Demo.piston_eval Verif.Demo.hartmann_eval Verif.Demo.golinski_eval Verif.Demo.beam_eval Verif.Demo.wing_eval",
 "Proved for every demo on its design box, on expressions translated from the python syntax trees; the same theorems show that they equal the functions of C68 and C82. Refuted: the gradient of the robot arm at folded arms inside the domain, the borehole function at well radii of its uncertain domain that are not positive")
c("C137","partial","Verif.Misc.Contour.contour_text Verif.Misc.Contour.contour_roundtrip Verif.Misc.Contour.contour_other Verif.Misc.Contour.contour_path_ok_iff Verif.Misc.Contour.contour_unknown Verif.Misc.Contour.contour_prepared_false Verif.Misc.Contour.contour_empty_false",
 "Proved for the format matlab, up to rounding to 16 digits. Refuted: the format prepared always raises and leaves an empty file; empty paths are written as lines without points; curved segments are dropped")
c("C138","partial","Verif.Domain.class_chain Verif.Domain.class_guard Verif.Domain.class_box Verif.Domain.class_box_iff Verif.Domain.class_linineq_partial Verif.Domain.class_linquad_partial Verif.Domain.class_product Verif.Domain.latin_route Verif.Domain.class_hull_false Verif.Domain.class_tensor_false",
 "Proved for boxes (all products included), for linear domains without convex hulls, and for linear-quadratic domains that are not products. Refuted: convex hulls claim to be linear and linear-quadratic though the constraints they export do not determine them; products with quadratic constraints export none of them but claim to be linear-quadratic")
c("C139","partial","Verif.Func.BaseFn.call_is_eval Verif.Func.BaseFn.call_grad_is_both Verif.Func.BaseFn.eval_is_call Verif.Func.BaseFn.abstract_recursion Verif.Func.BaseFn.hessian_missing Verif.Func.BaseFn.surrogate_call Verif.Func.BaseFn.surrogate_keywords Verif.Func.BaseFn.grad_missing_false Verif.Func.BaseFn.evalOnly_grad_false Verif.Func.BaseFn.eval_drops_keywords_false",
 "Proved for classes that define evaluation and gradient (all polynomial and Lipschitz surrogates) or calling. Refuted: classes without a gradient (Gaussian processes, Lipschitz approximations) evaluate the function hundreds of times and raise RecursionError; keyword arguments of eval are dropped if a class defines calling")
c("C140","partial","Verif.Func.slopes_deriv Verif.Func.finish_ordered_partial Verif.Func.finish_uphill_one_partial Verif.Func.finish_uphill_iff Verif.Func.finish_ok_two Verif.Func.exists_leftSingular Verif.Func.leftSingular_of_svd Verif.Func.finish_uphill_false",
 "Proved for 2-norm fits in which no direction is erased (C78): the order for any number of directions, the signs for one direction; for more directions exactly when the sign is right. Refuted: the signs are chosen from slopes at the samples projected before the rotation, so a direction can point downhill (2 directions, 9 samples, exact fit)")
c("C141","partial","Verif.Refit.remembers_iff Verif.Refit.poly_forgets Verif.Refit.poly_fit_value Verif.Refit.poly_keeps_partial Verif.Refit.ridge_forgets Verif.Refit.ridge_fit_value Verif.Refit.lipApprox_forgets Verif.Refit.lipApprox_fit_value Verif.Refit.lipApprox_samples Verif.Refit.const_forgets Verif.Refit.const_keeps_partial Verif.Refit.mat_forgets Verif.Refit.mat_remembers Verif.Refit.as_remembers Verif.Refit.poly_failed Verif.Refit.poly_keeps_false Verif.Refit.ridge_keeps_false Verif.Refit.lipApprox_keeps_false Verif.Refit.const_keeps_false Verif.Refit.len_keeps_false",
 "Refits forget: proved for all classes. Failed fits: proved for active subspaces and for U, H, L of Lipschitz matrices, and in special cases for the others; refuted for polynomial, ridge and Lipschitz approximations (the samples, basis or subspace are replaced, the coefficients are kept), the Lipschitz constant (its size) and len of a Lipschitz matrix")
c("C142","partial","Verif.Share.isolated_iff Verif.Share.safe_iff Verif.Share.get_content Verif.Share.safe_getters Verif.Share.safe_getters_false Verif.Share.sweep_ints_error Verif.Share.isolatedIn_iff Verif.Share.construct_content Verif.Share.isolated_classes Verif.Share.isolatedIn_classes Verif.Share.isolated_getters_false Verif.Share.isolated_args_false Verif.Share.deepCopy_isolated Verif.Share.inPlace_copy Verif.Share.calls_leave Verif.Share.lloyd_argument_false Verif.Share.sweep_same Verif.Share.sweep_list Verif.Share.sweep_floats Verif.Share.sweep_argument_iff Verif.Share.sweep_free Verif.Share.sweep_ints_false Verif.Share.warmStart_iff",
 "Exact criterion for classes; holds for samplers, convex hulls and Gaussian processes, and for domains, fitted subspaces, Lipschitz matrices and ridge functions as long as the arrays obtained from their properties are not written to. False: these properties give out the arrays of the object; tensor bases, LipschitzMatrix(L=..) and the bound functions keep the array of the caller; minimax_lloyd and sweep overwrite an argument, minimax_cluster adds a key to the dictionary passed. Plain attributes are not considered.")
c("C143","partial","Verif.Dtype.tensorV_float Verif.Dtype.tensor_scaled_int Verif.Dtype.tensor_unscaled_int_false Verif.Dtype.tensorDV_float Verif.Dtype.tensorDV_int_false Verif.Dtype.arnoldiX_float Verif.Dtype.arnoldiV_float Verif.Dtype.arnoldiV_int_false Verif.Dtype.arnoldiV_zero Verif.Dtype.arnoldi_int_iff Verif.Dtype.poly_const_int_false Verif.Dtype.vertexSampleD_float Verif.Dtype.vertexSample_int_iff Verif.Dtype.vertexSample_int_error Verif.Dtype.maximinBlockD_float Verif.Dtype.maximinBlock_int_false Verif.Dtype.lloydLoopD_float Verif.Dtype.lloyd_int_entries Verif.Dtype.lloyd_int_false",
 "Holds for tensor bases built from points and for the Arnoldi basis at its own points. False: bases built with dim= and Arnoldi bases of degree one or more raise TypeError at other integers, Arnoldi bases of degree zero give zero; voronoi_vertex_sample and maximin_block raise TypeError; minimax_lloyd rounds every centre towards zero. With floats the loops are the models of the other properties (refinement). Box corners and sweep on integers are in C13 and C142.")
c("C144","partial","Verif.Round.insideF_inside Verif.Round.inside_insideF Verif.Round.inBounds_inBoundsF Verif.Round.slack_default Verif.Round.quad_err Verif.Round.Computes.err Verif.Round.uniformF_mem Verif.Round.box_sample_inside Verif.Round.box_corner_inside Verif.Round.seqLib_ok Verif.Round.double_u Verif.Round.insideF_rejects_false","the last sentence is false for large numbers (2^60 + 1 - 2^60 = 1 is computed as 0); overflow, underflow and hulls are not modelled")
c("C145","partial","Verif.Round.roundtripF Verif.Round.roundtrip1 Verif.Round.mv_diag Verif.Round.normalizeF_eq Verif.Round.unnormalizeF_eq Verif.Round.normalizeF_range Verif.Round.normalizeF_false","the last clause holds up to a factor which grows with the distance of the box from the origin relative to its width (normalizeF_range); it fails badly for narrow boxes far away (normalizeF_false: a lower bound becomes -2)")
c("C146","partial","Verif.Round.gradF_error Verif.Round.moved_eq Verif.Round.gradF_lost_false","the last clause fails: in a coordinate without bounds, which is not rescaled, the fixed step is lost in rounding at 2^31 and the gradient of every function is zero there")
c("C147","proved","Verif.Round.evalF_backward Verif.Round.vcF_backward Verif.Round.colF_rel Verif.Round.Computes.backward Verif.Round.scaleF_mem Verif.Round.double_scale","the statement about the scaled points for formats in which doubling is exact (double precision is one); equal bounds of the scaling divide by zero and are excluded")
c("C148","proved","Verif.Round.chebF_error Verif.Round.colF_cheb Verif.Round.chebVal_eq_chebPhi Verif.Round.scaleF_mem","for points at which doubling is exact; that scaled points lie in [-1, 1] is scaleF_mem (C147)")
c("C149","proved","Verif.Round.extent_move_inside Verif.Round.extentF_some Verif.Round.extentF_nonneg Verif.Round.extentF_le","starting points of the box itself; for points accepted only by the tolerance see C08")
c("C150","partial","Verif.Round.interval_near Verif.Round.interval_contains Verif.Round.interval_noise Verif.Round.interval_at_data Verif.Round.distF_err Verif.Round.interval_order_false","the last clause is false: for f(x) = x with two data points and the exact Lipschitz matrix the computed ends are in the wrong order (interval_order_false); they are in order up to twice the error (interval_contains)")
c("C151","proved","Verif.Round.abs_legPhi_le Verif.Round.legF_error Verif.Round.colF_leg Verif.Round.scaleF_mem","the integer factors of the recurrence are exact, as they are in numpy; that scaled points lie in [-1, 1] is scaleF_mem (C147)")
c("C152","partial","Verif.Misc.asFit_C_limit Verif.Misc.asFit_values_limit Verif.Misc.asFit_stable Verif.Misc.asFit_stable_values Verif.Misc.asFit_consistent_partial Verif.Misc.asFit_subspace_limit_partial Verif.Misc.asFit_direction_limit Verif.Misc.asFit_nonzero_limit Verif.Misc.gap_bound Verif.Misc.head_diff Verif.Misc.quadMC_limit Verif.Misc.quadMC_limit_uniform Verif.Misc.exists_iid Verif.Misc.asFit_zero_false","the statements about the reported subspace need that no direction is reported as the zero vector (C80, asFit_zero_false); asFit_nonzero_limit shows this for simple eigenvalues and a mean gradient with a component along every eigenvector")
c("C153","proved","Verif.Lip.fit_trace_limit Verif.Lip.fit_matrix_limit Verif.Lip.limit_least Verif.Lip.bounds_near Verif.Lip.width_le Verif.Lip.fit_bounds_limit Verif.Lip.constant_limit Verif.Lip.fit_first Verif.Lip.iid_fills Verif.Lip.iid_injective Verif.Lip.uniform_charges Verif.Lip.uniform_limits","real arithmetic; solver contract BuildOpt as in C129; repeated samples make LipschitzConstant return nan or raise (C37, constant_duplicate_false), hence distinct samples")
c("C154","proved","Verif.Geo.box_law Verif.Geo.segment_law Verif.Geo.simplex_law Verif.Geo.solidSimplex_volume Verif.Geo.sorted_law Verif.Geo.simplexRow_gaps Verif.Geo.sphere_law Verif.Geo.sphere_equivariant Verif.Geo.gauss_rotate","generators as contracts: uniform and normal numbers are independent real numbers with these laws. The default sampler (hit-and-run) is not uniform for a fresh object, see C119; samples of normal domains: C113")
c("C155","partial","Verif.Round.constF_near Verif.Round.const_double Verif.Round.ratioF_near Verif.Round.dist_rel Verif.Round.normF_err Verif.Round.constF_error Verif.Round.const_lower_false","The computed constant is within the stated relative error of the smallest one, without any condition on the separation of the points.  It can be smaller than the smallest constant: values 2 and 0 at 3 and 0 give a number below 2/3, with which the data are not consistent.  Overflow and underflow are not modelled, and no noise level is used.")
c("C156","proved","Verif.Samp.guarantees_iff Verif.Samp.adaptive_no_better Verif.Samp.greedy_design Verif.Samp.greedy_adaptive Verif.Samp.greedy_rate Verif.Samp.greedy_limit Verif.Samp.greedy_interval Verif.Samp.width_le_dist Verif.Samp.zero_width Verif.Samp.coffee_continue Verif.Samp.coffee_fill","FarthestCand states that the candidates include a farthest point; it is proved for intervals (farthestCand_1d), so greedy_interval needs no assumption on the candidates.")
c("C157","partial","Verif.Samp.latinBox_additive Verif.Samp.latinMaximin_additive Verif.Samp.latinBox_error Verif.Samp.latinMaximin_error Verif.Samp.latinBox_center Verif.Samp.latinMaximin_center Verif.Samp.boxMean_linear Verif.Samp.latinBox_marginal Verif.Samp.latinBox_expected Verif.Samp.latin_unbiased_false","All but the first claim hold.  The estimate is not unbiased for the mean over the box, because the points are midpoints of the strata: for the square of the coordinate every design gives 1/3 - 1/(12 N^2) instead of 1/3.  It is unbiased for the mean over the grid of midpoints (latinBox_expected).")
c("C158","partial","Verif.Lip.lead_same Verif.Lip.lead_reduces Verif.Lip.lead_exact Verif.Lip.lead_antitone Verif.Lip.lead_kernel Verif.Lip.lead_optimal Verif.Lip.lead_ball Verif.Lip.lead_samples Verif.Lip.exists_eighAsc Verif.Lip.lead_false","The error bound holds for every fit.  Optimality holds whenever no reported direction is zero, in particular for all fits to samples (lead_samples).  It fails for gradients that cancel along the leading direction: sign fixing multiplies that direction by sign(0) = 0 (lead_false).")
c("C159","proved","Verif.Func.fit_degree_mono Verif.Func.exists_interpolant Verif.Func.fit_interpolates Verif.Func.interpolate_sharp Verif.Func.exists_poly_near Verif.Func.misfit_le Verif.Func.fit_near Verif.Func.sampling_inequality Verif.Func.fit_lebesgue Verif.Func.fit_converges","Solvers are exact (FitSolver.Exact), as in C133; when fit returns is settled there (approxFit_ok_iff).")
cgp("C160", "partial", "gp_error gp_error_default gp_error_sharp gp_error_false gp_var_attained gp_var_least_partial gp_var_mono_partial gp_var_mono_false gp_var_zero_iff_partial gp_far rule_error combo_matches gp_error_any gp_error_cluster gp_converges",
  "The error bound holds for all samples (also coinciding), length scales and points with the variance enlarged by (tau/(500 eps + tau))^2, about 1e-4 for the default nugget; without the enlargement it is false (gp_error_false: at a sample the variance is zero but the mean is not the value). gp_converges holds without restriction for functions that are finite combinations of kernels. Sharpness, vanishing at the samples only, and monotonicity under more data hold when no eigenvalue of the kernel is dropped; gp_var_mono_false: a second sample close to the first one enlarges the variance at the first. The length scale is fixed: the optimizer may choose another one for the larger data. Exact arithmetic.")
c("C161", "partial", "Verif.Misc.localLinear_rate Verif.Misc.localLinear_rate_perplexity Verif.Misc.localLinear_rate_sharp Verif.Misc.localLinear_contract_false Verif.Misc.localLinear_symmetric Verif.Misc.localFit_pythagoras Verif.Misc.localFit_error Verif.Misc.localFit_rate Verif.Misc.localFit_symmetric Verif.Misc.quadratic_odd Verif.Misc.spread",
  "The error bound holds for every bandwidth relative to the spread, and with a perplexity whenever the call returns. The convergence claim fails for the default perplexity: for samples at squared distances 0, 1, 2, 3 times h^2 the call raises for every h up to 1/10 (localLinear_contract_false), since the bracket for the bandwidth does not scale with the distances. Exact arithmetic; the row is zero when the least squares solver fails.")
c("C162", "partial", "Verif.Opt.gn_linear_partial Verif.Opt.gn_linear_stuck Verif.Opt.gn_units_false Verif.Opt.linear_accept_iff Verif.Opt.gn_slope_rate Verif.Opt.gn_gradient_rate Verif.Opt.lsq_normal Verif.Opt.exists_lsqSolver",
  "The sufficient decrease condition compares the residual norm with the slope of half its square, so it depends on the units. On an affine residual a minimizer is returned if the residual norms at the start and at the minimum add up to less than 10^4 (gn_linear_partial), and the starting point is returned unchanged if the norm at the start is 10^4 or more (gn_linear_stuck), for all options; linear_accept_iff says exactly which steps are accepted. Between the two cases only the accepted step is characterized. Exact arithmetic.")
c("C163", "proved", "Verif.Opt.minimax_affine Verif.Opt.minimax_convex Verif.Opt.mmPass_affine Verif.Opt.mmLoop_affine Verif.Opt.mmLoop_convex Verif.Opt.step_gap Verif.Opt.local_global Verif.Opt.exists_stepProblem",
  "With the trust region the set must have diameter at most 2^(maxiter - 1), since the radius starts at 1 and doubles. The tolerance for convex functions covers the curvature the backtracking can resolve, tol_dx times the size of the gradients and tol_df. Exact solver for the steps (exists on every compact convex set, exists_stepProblem) and exact arithmetic.")
c("C164", "partial", "Verif.Opt.seqlp_linear_partial Verif.Opt.seqlp_infeasible_false Verif.Opt.lp_opt Verif.Opt.lp_feas Verif.Opt.lpTry_opt Verif.Opt.lpLoop_opt Verif.Opt.bound_linLP",
  "Holds for starts in the domain that satisfy the bounds on the function (seqlp_linear_partial). For other starts it is false: a step is taken only if the objective decreases, so from a start that violates the bounds with a smaller objective the call returns the start, whatever the options (seqlp_infeasible_false). Quiet calls, without the further constraints; exact solver and exact arithmetic.")
c("C165","partial","Verif.Misc.asFit_values Verif.Misc.asFit_near Verif.Misc.captured_perturb Verif.Misc.asFit_tilt Verif.Misc.asFit_tilt_vanishes Verif.Misc.asFit_gap_false Verif.Misc.outerSum_diff Verif.Misc.grads_rate Verif.Misc.opg_near_fixed Verif.Misc.opg_near_perplexity Verif.Misc.opg_default Verif.Misc.opg_plain_ok Verif.Misc.localLinear_single","For directions that are not replaced by the zero vector (C80 shows when they are); the outer product gradient method without standardization (with it the directions are wrong, C66). The gap is needed: gradients that differ arbitrarily little can have orthogonal first directions (asFit_gap_false).")
c("C166","partial","Verif.Func.controls_exists Verif.Func.controls_unisolvent Verif.Func.recover_stable Verif.Func.recover_noise Verif.Func.recover_exact Verif.Func.recover_directions Verif.Func.recover_subspace Verif.Func.essential_of_slopes Verif.Func.alt_recovers_partial Verif.Func.varpro_recovers_partial Verif.Func.affine_recovers Verif.Func.recover_false","For rotate=True provided that the final choice of signs erases no direction (C78). Samples that only pass the check of fit are not enough: x0 squared at (0,0), (+-1,+-1) is reproduced along x1 (recover_false). Bounded fits of degree one with one direction are excluded (C100).")
c("C167","partial","Verif.Misc.fit_minimal_nonzero Verif.Misc.fit_spectral Verif.Misc.active_le_lip Verif.Misc.active_values_le_lip Verif.Misc.constant_between Verif.Misc.diag_between Verif.Misc.exists_diagOpt Verif.Misc.constant_tighter_false","Under the hypothesis that no reported direction is zero (signs, C38). Smaller trace does not mean smaller in every direction: the Lipschitz matrix of three samples is a quarter longer along an axis than the constant (constant_tighter_false).")
c("C168","proved","Verif.Geo.tensor_law Verif.Geo.boxes_law Verif.Geo.boxes_uniform Verif.Geo.product_density Verif.Geo.mixed_law","Random numbers of the factors independent (one generator read in sequence). Factors sampled by hit-and-run or truncated normals enter through their law only (C119, C113).")
c("C169","proved","Verif.Domain.hitRun_reaches Verif.Domain.hitRun_forgets Verif.Domain.hitRun_converges Verif.Domain.hitRate_lt_one Verif.Domain.hitKernel_inside Verif.Domain.seen_lower","Exact arithmetic; domains without equality constraints (C119 has these); normal vectors as in numpy. hitKernel_inside: the kernels assumed exist.")
c("C170","proved","Verif.Opt.gn_quadratic Verif.Opt.gn_step_bounds Verif.Opt.gn_full_step Verif.Opt.gnStep_quadratic Verif.Opt.gn_grad_error","Exact arithmetic. Needs residuals of at most 5000 near the solution: the line search compares norms with products of slopes, so it depends on units (gn_linear_stuck of C162 shows the need).")
c("C171","partial","Verif.Samp.minimaxDesign_exact Verif.Samp.minimaxDesign_choice Verif.Samp.minimaxDesign_cluster_partial Verif.Samp.minimaxDesign_many_false","Proved up to 10000 points. The clustering method discretizes with at most 10000 points and takes its initial centers from them: more points are never delivered, and the call raises as soon as two points of the sequence differ (proved for all domains). Corner solvers that raise are not modelled.")
c("C172","partial","Verif.Round.linF_ends Verif.Round.linF_inside Verif.Round.linF_mono Verif.Round.linF_error Verif.Round.linF_strict Verif.Round.gridF_all Verif.Round.midF_stratum Verif.Round.midF_inside Verif.Round.sweepF_ends Verif.Round.sweepF_error Verif.Round.sweepF_inside Verif.Round.sweepF_accepted Verif.Round.linF_distinct_false Verif.Round.double_doubles Verif.Round.double_few Verif.Round.double_gap","Distinctness holds when the spacing exceeds the rounding errors (linF_strict) and fails otherwise: no number lies between neighbouring floats, e.g. between 1 and its successor. Latin hypercube coordinates need a binary format (doubling exact; proved for double precision with ties upwards). No overflow, underflow or subnormal numbers. Sweeps: per coordinate of a box.")
c("C173","partial","Verif.Demo.runJob_history Verif.Demo.runJob_clean Verif.Demo.runJob_clean_given Verif.Demo.runJob_outside Verif.Demo.runJob_kept Verif.Demo.runJob_again Verif.Demo.runJob_refused Verif.Demo.runJob_leaks Verif.Demo.runBatch_pointwise Verif.Demo.runBatch_kept_false Verif.Demo.tmpSpec_exists","Everything is proved for calls that succeed. The disk is not as before after a call that raises: the directory of a run whose results cannot be read is left behind (runJob_leaks), and directories made above a given one remain (runJob_clean_given). A batch of two or more points with a kept directory always raises (runBatch_kept_false). File system: directories and text files by path; no links, permissions or full disks; tempfile.mkdtemp by its contract.")
c("C174","proved","Verif.Demo.tasks_isolated Verif.Demo.tasks_safe Verif.Demo.tasks_clean Verif.Demo.tasks_finish Verif.Demo.jobTask_alone","Each step (writing a file, a step of the program inside its directory, removing the directory) is atomic; mkdtemp returns a name not in use at that time, which may be one used earlier. The programs see their own directory only (container mounts).")
c("C175","partial","Verif.Demo.log_possible_iff Verif.Demo.log_sound Verif.Demo.log_complete_false Verif.Demo.runJob_log_free Verif.Demo.demo_log_free Verif.Demo.runJob_exitCode","False: the logs that can occur are exactly the beginnings of the output with at least one line (log_possible_iff), so lines printed before the end may be missing (log_complete_false); the exit code has no influence on result or disk (runJob_exitCode): a failing program that leaves a results file is believed. Proved: logs are beginnings of the output; results do not depend on the log.")
c("C176","partial","Verif.Demo.multif_ctor_used Verif.Demo.multif_ctor_ignored Verif.Demo.multif_bound_ok_iff Verif.Demo.multif_ctor_keep_raises Verif.Demo.naca_ctor_used Verif.Demo.dec16_error Verif.Demo.dec16_injective_false Verif.Demo.oas_batch Verif.Demo.oas_one Verif.Demo.bumps_spec","False: MULTIF drops level, su2_maxiter and workdir given to its constructor (multif_ctor_ignored), so keeping data as documented always raises (multif_ctor_keep_raises); inputs are written with sixteen digits, which does not separate neighbouring doubles (dec16_injective_false; relative error at most 5e-16 by dec16_error); a batch of one point of OpenAeroStruct raises (oas_batch). The rest is proved.")
c("C177","partial","Verif.Lip.uncertainty_order Verif.Lip.constantFit_order Verif.Lip.fitScale_perm Verif.Lip.finishFit_order Verif.Lip.lipFit_order Verif.Geo.nearest_order Verif.Geo.fillOver_order Verif.Geo.voronoi1d_order Verif.Geo.fillDistance1d_order Verif.Geo.uniquePoints_order_false Verif.Geo.uniquePoints_order_partial Verif.Misc.perpBandwidth_order Verif.Misc.localLinear_order Verif.Basis.arnoldi_same Verif.Basis.arnoldiBasis_order Verif.Basis.vandermondeArnoldi_order","False for unique_points: three points, each within the tolerance of the next, leave one or two points depending on their order (uniquePoints_order_false); points of which no two are close are all kept in every order. Local linear models need affinely spanning samples and least squares that succeed. The Lipschitz matrix has the same trace and is a smallest one for both orders; the solver may return different matrices of that trace. Exact arithmetic. Gaussian processes: C122 (gp_mean_perm), active subspaces: asFit_perm.")
c("C178","partial","Verif.Misc.percentile_ok_iff Verif.Misc.percentile_between Verif.Misc.safety_count Verif.Misc.safety_fraction_partial Verif.Misc.chance_upper Verif.Misc.chance_lower Verif.Misc.randomRidge_split Verif.Misc.chance_docs_false Verif.Misc.safety_fraction_false Verif.Misc.randomRidge_ignores","Proved when prob times the number of samples is a whole number (safety_fraction_partial), otherwise fewer than (N-1) prob + 1 samples violate. False for probabilities below one sample (safety_fraction_false): the percentile interpolates. The direction in the documentation of the modes is reversed for increasing profiles (chance_docs_false). The number of samples asked for is ignored (randomRidge_ignores). The module cannot be imported as it stands (it imports a class that does not exist); the functions are modelled as written.")
c("C179","partial","Verif.Domain.nearest_exists Verif.Domain.nearest_unique_sees Verif.Domain.nearest_nonexpansive Verif.Domain.pts_closed Verif.Domain.seesAll_eye Verif.Domain.closest_total Verif.Domain.closest_idempotent Verif.Domain.closest_stable_partial Verif.Domain.closest_jump_false","Proved: existence, uniqueness, totality of the call after any history, idempotence. The comparison of two answers is proved for points that are not merely inside up to the tolerance (closest_stable_partial); it is false without that condition (closest_jump_false): a point that is inside up to the tolerance is returned unchanged while a point a little further out is projected, so the answer jumps by the tolerance.")
c("C180","partial","Verif.Misc.densityCurve_ok_iff Verif.Misc.densityCurve_sound Verif.Misc.kde_total Verif.Misc.kde_mean Verif.Misc.kde_pos_iff Verif.Misc.density_range_mass Verif.Misc.densityCurve_raises_false Verif.Misc.forwardPdf_mean Verif.Misc.randomRidgePdf_ignores","Proved: number of points, range, nonnegativity, integral one, mean of the samples. False: the exported range always carries less than the whole mass, at least half of it (density_range_mass), because the curve stops at the extreme samples; samples whose quartiles coincide raise ValueError although they differ (densityCurve_raises_false). random_ridge_pdf ignores the number of samples (randomRidgePdf_ignores).")
c("C181","partial","Verif.Domain.corner_describes Verif.Domain.corner_total Verif.Domain.corner_subadditive Verif.Domain.corner_homogeneous Verif.Domain.corner_mono Verif.Domain.corner_determines Verif.Domain.corner_distance_le Verif.Domain.corner_distance_attained Verif.Domain.box_corner_describes Verif.Domain.corner_describes_false","Proved for all domains whose normalization is right (no mixed finite and infinite bounds, quadratic centers not moved) and for boxes with finite float bounds. False for mixed bounds (corner_describes_false): on a strip no direction gets a corner.")
c("C182","partial","Verif.Misc.fd_table Verif.Misc.fd_rate Verif.Misc.curvedAlong_of_deriv Verif.Misc.fd_rate_sharp Verif.Misc.fd_gradErr Verif.Misc.fd_active_near Verif.Misc.fd_active_converges Verif.Misc.fd_fixed_step_false","Proved for all steps, in real arithmetic. The step of the code is fixed at 1e-7: for every fixed step there is an analytic function whose finite difference is zero where the derivative is one (fd_fixed_step_false); rounding errors of the differences are not in this model.")
c("C183","partial","Verif.Domain.normal_law_limit Verif.Domain.normal_moments Verif.Domain.normal_truncated_moments Verif.Domain.normal_truncated_cov_false Verif.Domain.normal_average Verif.Domain.normal_average_cov Verif.Domain.normal_law_prob Verif.Domain.lognormal_mean Verif.Domain.lognormal_law Verif.Domain.box_moments Verif.Domain.condBox_pi","Proved for normal domains without truncation, boxes and untruncated lognormal domains (draws of the generator independent and exactly distributed). With truncation the mean is right but the covariance of the samples is that of the domain times a factor less than one (normal_truncated_moments, normal_truncated_cov_false).")
c("C184","partial","Verif.Geo.fillEstimate_limit Verif.Geo.fillEstimate_almost_sure Verif.Geo.fillEstimate_ge Verif.Geo.fillEstimate_segment Verif.Geo.fillEstimate_limit_false","Proved provided that starts near the points furthest from the samples never approach a sample at a positive rate below the absolute tolerance 1e-8 (always so with one sample). Without the provision it is false: for a metric of size 1e-4 on an interval every start is moved next to a sample, and no number of starts brings the estimate above a hundredth of the fill distance (fillEstimate_limit_false).")
c("C185","partial","Verif.Samp.design_fills Verif.Samp.design_dense Verif.Samp.design_almost_sure Verif.Samp.iid_recurs Verif.Samp.seq_follows Verif.Samp.seq_stays Verif.Samp.exists_seq_design","Proved for one metric provided that each search keeps a vertex at least as far from the samples as one of its starting points, up to a tolerance that also limits how well the domain is filled, and that the candidates are separated (as in C99). The provision follows from C92 when no sample is approached slowly; the tolerance accounts for the vertices merged by unique_points. Starting points are independent draws from the domain, as for metrics that are multiples of the identity.")
c("C186","partial","Verif.Samp.packing Verif.Samp.coffee_apart Verif.Samp.coffee_net Verif.Samp.coffee_almost_sure Verif.Samp.covers_of_sure Verif.Samp.coffee_stays","Proved whenever the candidates of every pass include, for each starting point, one at least as far from the points so far. The search delivers such candidates (covers_of_sure, with the randomization used by the code) if no sample is approached at a positive rate below 1e-8 and no direction has a positive size below 1e-8; for metrics of tiny scale this fails (C92, C184). The starting points of all sizes are taken from one sequence of independent draws.")
c("C187","partial","Verif.Misc.fitFunction_returns Verif.Misc.exists_reportedQ Verif.Misc.fitFunction_C_limit Verif.Misc.fitFunction_limit_partial Verif.Misc.fitFunction_values_limit Verif.Misc.fitFunction_subspace_limit_partial Verif.Misc.linQ_regular Verif.Misc.fitFunction_subspace_false Verif.Misc.fitFunction_average_false","Proved with the integral in place of the average, and for the directions if none is reported as zero. Refuted: the matrix is not divided by the volume of the domain; for x^2 on [-1,1] the reported direction is zero for every N.")
c("C188","proved","Verif.Func.fit_consistent Verif.Func.fit_returns Verif.Func.bestMean_exists Verif.Func.bestMean_iff Verif.Func.noise_best Verif.Func.samples_unisolvent Verif.Func.moments_of_bounded","Exact solvers (FitSolver.Exact), real arithmetic. moments_of_bounded: bounded samples whose points charge the open subsets of some open set meet the hypotheses. The fits of all N use the first N samples of one sequence.")
c("C189","proved","Verif.Func.affine_direction_consistent Verif.Func.affine_direction_returns Verif.Func.affine_direction_noise Verif.Func.ridge_affine_consistent Verif.Func.ridge_affine_best Verif.Func.best_consistent Verif.Func.affSolve_best Verif.Func.deg_one_affine","Exact solvers (FitSolver.Exact), real arithmetic; that a direction is returned also needs a solver that answers whenever a solution exists (FitSolver.Answers). That the final fit of the coefficients along the direction returns is a hypothesis of ridge_affine_consistent. With a zero slope of the best affine function nothing is claimed: the direction then depends on the noise. The fits of all N use the first N samples of one sequence.")
