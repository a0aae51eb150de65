{
 "claims": [
  {
   "property": "C01",
   "status": "proved",
   "theorems": [
    "Verif.Domain.add_constraints_mem",
    "Verif.Domain.add_constraints_ok_iff",
    "Verif.Domain.addConstraintsLQ_mem",
    "Verif.Domain.add_constraints_hull",
    "Verif.Domain.add_constraints_point_partial",
    "Verif.Domain.add_constraints_point_false"
   ],
   "note": "Every class; a point domain becomes a tolerance box (negation proved for positive tolerance, equality at tolerance 0)."
  },
  {
   "property": "C02",
   "status": "partial",
   "theorems": [
    "Verif.Domain.and_mem",
    "Verif.Domain.and_ok_iff",
    "Verif.Domain.hull_and_mem",
    "Verif.Domain.and_hull_right_false"
   ],
   "note": "Holds for the linear/quadratic classes and a hull on the left; false with a hull on the right (witness)."
  },
  {
   "property": "C03",
   "status": "proved",
   "theorems": [
    "Verif.Domain.and_comm_mem",
    "Verif.Domain.and_assoc_mem",
    "Verif.Domain.and_assoc_defined",
    "Verif.Domain.and_self_mem",
    "Verif.Domain.and_infinite_mem",
    "Verif.Domain.and_unbounded_raises"
   ],
   "note": "For the classes on which & is defined as intersection."
  },
  {
   "property": "C04",
   "status": "proved",
   "theorems": [
    "Verif.Domain.isInside_batch",
    "Verif.Domain.isInside_wrong_length"
   ],
   "note": ""
  },
  {
   "property": "C05",
   "status": "proved",
   "theorems": [
    "Verif.Domain.normalize_inverse"
   ],
   "note": ""
  },
  {
   "property": "C06",
   "status": "proved",
   "theorems": [
    "Verif.Domain.box_normalize_cube",
    "Verif.Domain.box_normalize_corners"
   ],
   "note": ""
  },
  {
   "property": "C07",
   "status": "partial",
   "theorems": [
    "Verif.Domain.normalized_domain_mem_partial",
    "Verif.Domain.normalized_domain_holds_partial",
    "Verif.Domain.normalizedDomain_ok_iff",
    "Verif.Domain.normalized_bounds_lost",
    "Verif.Domain.normalized_mixed_bounds_false",
    "Verif.Domain.normalized_quadratic_false",
    "Verif.Domain.normalized_hull_false",
    "Verif.Domain.normalized_unbounded_raises"
   ],
   "note": "Holds when no factor mixes finite and infinite bounds, quadratic centers are not moved and there is no hull; each excluded case is refuted by a witness."
  },
  {
   "property": "C08",
   "status": "partial",
   "theorems": [
    "Verif.Domain.extent_sound_partial",
    "Verif.Domain.box_extent_exact",
    "Verif.Domain.extent_ok_iff",
    "Verif.Domain.hull_extent_iff",
    "Verif.Domain.extent_bound_tolerance_false",
    "Verif.Domain.extent_active_ineq_false",
    "Verif.Domain.extent_equality_false",
    "Verif.Domain.extent_hull_false"
   ],
   "note": "Exact for boxes; otherwise for directions not increasing an active inequality, respecting equalities, hulls without further constraints; each exclusion refuted by a witness. The hull solver is a parameter assumed exact."
  },
  {
   "property": "C09",
   "status": "partial",
   "theorems": [
    "Verif.Domain.extent_maximal_partial",
    "Verif.Domain.mem_realRoots",
    "Verif.Domain.hullExtentExact_exists",
    "Verif.Domain.box_extent_exact",
    "Verif.Domain.extent_quad_boundary_false",
    "Verif.Domain.extent_point_zero_false"
   ],
   "note": "Holds when quadratic constraints are strict at the starting point; refuted on their boundary."
  },
  {
   "property": "C10",
   "status": "proved",
   "theorems": [
    "Verif.Domain.tensor_mem",
    "Verif.Domain.tensor_mem_decompose",
    "Verif.Domain.mkTensor_factors",
    "Verif.Domain.mkTensor_nested",
    "Verif.Domain.mul_assoc_tensor"
   ],
   "note": ""
  },
  {
   "property": "C11",
   "status": "partial",
   "theorems": [
    "Verif.Domain.tensor_export_linear",
    "Verif.Domain.tensor_export_drops_quadratics"
   ],
   "note": "Linear data exact; quadratic constraints of factors are not exported (witness)."
  },
  {
   "property": "C12",
   "status": "partial",
   "theorems": [
    "Verif.Domain.box_is_empty_history_partial",
    "Verif.Domain.box_point_unbounded_history",
    "Verif.Domain.point_history",
    "Verif.Domain.box_is_point_history_false",
    "Verif.Domain.box_is_unbounded_history_false",
    "Verif.Domain.box_is_empty_closest_point_false"
   ],
   "note": "is_empty is history independent among queries; is_point/is_unbounded are exactly characterized and refuted; point domains are fully history independent."
  },
  {
   "property": "C13",
   "status": "partial",
   "theorems": [
    "Verif.Domain.box_corner_maximizes",
    "Verif.Domain.box_corner_ok_iff",
    "Verif.Domain.box_corner_int_false",
    "Verif.Domain.box_corner_int",
    "Verif.Domain.box_corner_int_same",
    "Verif.Domain.box_corner_empty_false"
   ],
   "note": "Proved for float bounds of a nonempty box; refuted for integer lower bounds (truncation), and emptiness is only detected beyond the tolerance."
  },
  {
   "property": "C14",
   "status": "partial",
   "theorems": [
    "Verif.Domain.corner_history_partial",
    "Verif.Domain.corner_reply_partial",
    "Verif.Domain.corner_complete_partial",
    "Verif.Domain.flag_sound_history",
    "Verif.Domain.completeSolver_exists",
    "Verif.Domain.corner_quadratic_false",
    "Verif.Domain.corner_mixed_bounds_false"
   ],
   "note": "After any history, with an exact solver, for domains whose normalization is right (no mixed finite/infinite bounds, quadratic centers not moved); both exclusions refuted by witnesses. Boxes: C13."
  },
  {
   "property": "C15",
   "status": "partial",
   "theorems": [
    "Verif.Domain.closest_history_partial",
    "Verif.Domain.closest_reply_partial",
    "Verif.Domain.closest_inside",
    "Verif.Domain.flag_sound_history"
   ],
   "note": "Same restriction on the normalization as C14; otherwise for every domain, weighting matrix and history."
  },
  {
   "property": "C16",
   "status": "partial",
   "theorems": [
    "Verif.Domain.center_product",
    "Verif.Domain.cls_reply",
    "Verif.Domain.cls_reply_partial",
    "Verif.Domain.cls_false"
   ],
   "note": "False: the target is shifted by 2 A center (proved exactly in cls_reply, witness cls_false); holds when the shift vanishes."
  },
  {
   "property": "C17",
   "status": "partial",
   "theorems": [
    "Verif.Domain.sweep_points",
    "Verif.Domain.sweep_lengths",
    "Verif.Domain.sweep_inside_partial",
    "Verif.Domain.sweep_box_inside",
    "Verif.Domain.sweepCorner_inside",
    "Verif.Domain.sweep_ok_iff",
    "Verif.Domain.sweep_direction",
    "Verif.Domain.sweep_direction_unchanged_partial",
    "Verif.Domain.sweep_mutates_false",
    "Verif.Domain.sweep_active_ineq_false"
   ],
   "note": "Equally spaced points of the segment; inside for boxes, corner sweeps, and general domains under the safety conditions of C08; refuted when an inequality is active; the caller's direction array is modified (witness)."
  },
  {
   "property": "C18",
   "status": "partial",
   "theorems": [
    "Verif.Domain.sample_grid_mem",
    "Verif.Domain.sample_grid_nodup_partial",
    "Verif.Domain.sample_grid_ok_iff",
    "Verif.Domain.sample_grid_box_count",
    "Verif.Domain.sample_grid_dup_false"
   ],
   "note": "Exactly the grid points inside; each once only if no coordinate has equal bounds (witness)."
  },
  {
   "property": "C19",
   "status": "partial",
   "theorems": [
    "Verif.Domain.sample_good_partial",
    "Verif.Domain.sample_nonpos",
    "Verif.Domain.sample_box_ok_iff",
    "Verif.Domain.defaultSample_good_partial",
    "Verif.Domain.defaultSample_point_false",
    "Verif.Domain.sample_box_stale_false",
    "Verif.Domain.sample_single_hull_false",
    "Verif.Domain.sample_hull_false"
   ],
   "note": "For every class, for all random numbers, under conditions each refuted by a witness: a box with a stale cached _empty, a one-point hull violating other constraints, a low-dimensional hull with bounds."
  },
  {
   "property": "C20",
   "status": "partial",
   "theorems": [
    "Verif.Domain.names_count",
    "Verif.Domain.names_ok_iff",
    "Verif.Domain.names_nodup",
    "Verif.Domain.tensor_names_count",
    "Verif.Domain.normalized_names",
    "Verif.Domain.add_constraints_names",
    "Verif.Domain.and_names",
    "Verif.Domain.tensor_default_names_false"
   ],
   "note": "All parts proved, except that the default names of a tensor product repeat (witness)."
  },
  {
   "property": "C21",
   "status": "partial",
   "theorems": [
    "Verif.Domain.hitRun_inside_partial",
    "Verif.Domain.hitRun_inv",
    "Verif.Domain.cheb_holds"
   ],
   "note": "For every history of calls, all random choices and exact solver runs, for domains whose normalization is right (as C14, C15)."
  },
  {
   "property": "C22",
   "status": "partial",
   "theorems": [
    "Verif.Domain.hull_holds_isInside",
    "Verif.Domain.hull_coefficients",
    "Verif.Domain.dom_holds_isInside_all",
    "Verif.Domain.hull_inside_partial",
    "Verif.Domain.hull_inside_limit_partial",
    "Verif.Domain.hull_inside_false",
    "Verif.Domain.two_point_inHull",
    "Verif.Domain.to_linineq_partial",
    "Verif.Domain.to_linineq_same_set",
    "Verif.Domain.to_linineq_bounds_false",
    "Verif.Domain.solvesConsistent_exists"
   ],
   "note": "Points of the hull are reported inside; the converse is false because the weights need not sum to one (witness); to_linineq keeps the set except that bounds are dropped (witness)."
  },
  {
   "property": "C23",
   "status": "partial",
   "theorems": [
    "Verif.Domain.lognormal_truncated_inside_iff",
    "Verif.Domain.lognormal_inside_iff",
    "Verif.Domain.lognormal_negative_scaling_false",
    "Verif.Domain.lognormal_negative_offset_false"
   ],
   "note": "Exactly characterized: holds iff the scaling (and, without truncation, the offset) is nonnegative; refuted otherwise. Bounds of the normal domain are assumed exact."
  },
  {
   "property": "C24",
   "status": "proved",
   "theorems": [
    "Verif.Basis.mem_indexSet",
    "Verif.Basis.indexSet_nodup",
    "Verif.Basis.indexSet_graded",
    "Verif.Basis.indexSet_length"
   ],
   "note": ""
  },
  {
   "property": "C25",
   "status": "proved",
   "theorems": [
    "Verif.Basis.VC_entries",
    "Verif.Basis.VC_ok_iff"
   ],
   "note": ""
  },
  {
   "property": "C26",
   "status": "proved",
   "theorems": [
    "Verif.Basis.DV_deriv",
    "Verif.Basis.mono_good",
    "Verif.Basis.leg_good",
    "Verif.Basis.cheb_good",
    "Verif.Basis.lag_good",
    "Verif.Basis.herm_good"
   ],
   "note": "For every scalar family whose derivative routine is right (Family.Good), and proved that the five families of the repository, with numpy's recurrences and derivative loops, are of this kind."
  },
  {
   "property": "C27",
   "status": "proved",
   "theorems": [
    "Verif.Basis.DDV_deriv",
    "Verif.Basis.DDV_symm",
    "Verif.Basis.DDV_second_deriv",
    "Verif.Basis.mono_good",
    "Verif.Basis.leg_good",
    "Verif.Basis.cheb_good",
    "Verif.Basis.lag_good",
    "Verif.Basis.herm_good"
   ],
   "note": "As C26."
  },
  {
   "property": "C28",
   "status": "partial",
   "theorems": [
    "Verif.Basis.setScale_range",
    "Verif.Basis.setScaleHermite_moments",
    "Verif.Basis.roots_exact",
    "Verif.Basis.roots_sound",
    "Verif.Basis.roots_ok_iff",
    "Verif.Basis.roots_unscaled_false"
   ],
   "note": "Without reference points roots raises an AttributeError (witness); otherwise proved, assuming the scalar root routine returns the roots."
  },
  {
   "property": "C29",
   "status": "proved",
   "theorems": [
    "Verif.Basis.arnoldi_orthonormal",
    "Verif.Basis.arnoldi_consistent",
    "Verif.Basis.arnoldi_span",
    "Verif.Basis.arnoldiBasis_total",
    "Verif.Basis.arnoldi_breakdown_iff"
   ],
   "note": "Exact arithmetic; also characterizes breakdown."
  },
  {
   "property": "C30",
   "status": "proved",
   "theorems": [
    "Verif.Basis.updateVec_parent",
    "Verif.Basis.planPrefix_eq"
   ],
   "note": ""
  },
  {
   "property": "C31",
   "status": "proved",
   "theorems": [
    "Verif.Lip.uncertainty_contains",
    "Verif.Lip.bound_functions_contain"
   ],
   "note": ""
  },
  {
   "property": "C32",
   "status": "proved",
   "theorems": [
    "Verif.Lip.uncertainty_ordered",
    "Verif.Lip.uncertainty_tight",
    "Verif.Lip.uncertainty_lipschitz",
    "Verif.Lip.uncertainty_exact",
    "Verif.Lip.fit_then_uncertainty"
   ],
   "note": "Also: the interval is exact (every value in it is attained by a compatible function)."
  },
  {
   "property": "C33",
   "status": "partial",
   "theorems": [
    "Verif.Lip.projectEvals_partial",
    "Verif.Lip.eval_update",
    "Verif.Lip.projectEvals_single",
    "Verif.Lip.projectEvals_false"
   ],
   "note": "For distinct points, including termination after at most one update per pair; refuted for repeated points, which stop the loop at once (witness)."
  },
  {
   "property": "C34",
   "status": "proved",
   "theorems": [
    "Verif.Lip.projectGrads_spec",
    "Verif.Lip.projectGrads_terminates",
    "Verif.Lip.grad_update",
    "Verif.Lip.exists_minEig",
    "Verif.Lip.exists_eigh"
   ],
   "note": "dist_grad_constraints is assumed to give the smallest eigenvalue (see C75); termination after at most one update per gradient."
  },
  {
   "property": "C35",
   "status": "proved",
   "theorems": [
    "Verif.Lip.param_bijective",
    "Verif.Lip.param_symmetric",
    "Verif.Lip.param_count",
    "Verif.Lip.param_objective",
    "Verif.Lip.builders_agree_param",
    "Verif.Lip.builders_agree_cvxopt",
    "Verif.Lip.param_diag"
   ],
   "note": ""
  },
  {
   "property": "C36",
   "status": "partial",
   "theorems": [
    "Verif.Lip.fit_gram",
    "Verif.Lip.fit_consistent_partial",
    "Verif.Lip.fit_consistent_false",
    "Verif.Lip.diagFit_spec",
    "Verif.Lip.diagFit_method",
    "Verif.Lip.lipFit_ok_iff",
    "Verif.Lip.prepare_ok_iff",
    "Verif.Lip.fitScale_zero_iff",
    "Verif.Lip.feasible_iff",
    "Verif.Lip.exists_build",
    "Verif.Lip.exists_eigh"
   ],
   "note": "L^T L = H always; consistency is proved unless a direction is orthogonal to the mean gradient, when the sign fixing zeroes that direction (witness with gradients 1 and -1)."
  },
  {
   "property": "C37",
   "status": "partial",
   "theorems": [
    "Verif.Lip.constant_least_partial",
    "Verif.Lip.constant_epsilon_partial",
    "Verif.Lip.constant_epsilon_false",
    "Verif.Lip.constant_duplicate_false",
    "Verif.Lip.constant_single",
    "Verif.Lip.constant_matrix"
   ],
   "note": "Without epsilon and for distinct points; refuted with epsilon (divided by the scale while the samples are not), for repeated points, and for one sample (raises)."
  },
  {
   "property": "C38",
   "status": "partial",
   "theorems": [
    "Verif.Lip.fixSamps_spec",
    "Verif.Lip.fixSamps_slopes",
    "Verif.Lip.fixSamps_monotone",
    "Verif.Lip.fixGrads_mean",
    "Verif.Lip.fixGrads_partial",
    "Verif.Lip.fixGrads_orthonormal_iff",
    "Verif.Lip.fixGrads_false"
   ],
   "note": "Samples: proved. Gradients: exactly when no column is orthogonal to the mean gradient; refuted otherwise."
  },
  {
   "property": "C39",
   "status": "proved",
   "theorems": [
    "Verif.Samp.decode_encode",
    "Verif.Samp.encode_range",
    "Verif.Samp.encode_surj",
    "Verif.Samp.encode_inj",
    "Verif.Samp.geoCnf_sat",
    "Verif.Samp.sat_iff_permutations",
    "Verif.Samp.design_satisfiable",
    "Verif.Samp.readPerms_eq",
    "Verif.Samp.block_removes",
    "Verif.Samp.blocked_exact",
    "Verif.Samp.unsat_iff"
   ],
   "note": "The SAT solver is a parameter returning a satisfying assignment."
  },
  {
   "property": "C40",
   "status": "partial",
   "theorems": [
    "Verif.Samp.latinBox_latin",
    "Verif.Samp.latinMaximin_latin",
    "Verif.Samp.latinMaximin_best",
    "Verif.Samp.latinMaximin_maximin",
    "Verif.Samp.latinMaximin_some",
    "Verif.Samp.latinMaximin_none",
    "Verif.Samp.latinMaximin_point",
    "Verif.Samp.swapPerms_bijective",
    "Verif.Samp.latinPoints_inside",
    "Verif.Samp.swapPerms_differs",
    "Verif.Samp.swapMask_some",
    "Verif.Samp.swapMask_half",
    "Verif.Samp.swapMask_reach"
   ],
   "note": "On boxes, for every random stream; a degenerate box or maxiter = 0 returns None (witness latinMaximin_point)."
  },
  {
   "property": "C41",
   "status": "proved",
   "theorems": [
    "Verif.Samp.sobol_first",
    "Verif.Samp.sobol_ends_iff",
    "Verif.Samp.sobol_refused_iff"
   ],
   "note": ""
  },
  {
   "property": "C42",
   "status": "partial",
   "theorems": [
    "Verif.Samp.poisson_separated",
    "Verif.Samp.poisson_terminates",
    "Verif.Samp.packing_bound",
    "Verif.Samp.poissonGrid_separated",
    "Verif.Samp.poissonGrid_terminates",
    "Verif.Samp.poissonGrid_returns",
    "Verif.Samp.grid_neighbourhood",
    "Verif.Samp.same_cell_close",
    "Verif.Samp.address_iff",
    "Verif.Samp.gridWrite_wraps",
    "Verif.Samp.poissonGrid_boundary_false"
   ],
   "note": "Separation, containment and termination for every random stream; maximality does not hold of the algorithm (finitely many trials). The grid variant can raise IndexError at the upper boundary (witness)."
  },
  {
   "property": "C43",
   "status": "partial",
   "theorems": [
    "Verif.Samp.intBisect_ok_iff",
    "Verif.Samp.intBisect_crossing_up",
    "Verif.Samp.intBisect_crossing_down",
    "Verif.Samp.intBisect_least_partial",
    "Verif.Samp.intBisect_least_nonneg",
    "Verif.Samp.intBisect_zero_false",
    "Verif.Samp.intBisect_decreasing_false",
    "Verif.Samp.bisectLoop_count"
   ],
   "note": "A crossing is always found; least positive integer proved for increasing functions without zeros at the probed points; refuted otherwise (witnesses)."
  },
  {
   "property": "C44",
   "status": "proved",
   "theorems": [
    "Verif.Samp.maximin1d_optimal",
    "Verif.Samp.minimax1d_optimal",
    "Verif.Samp.oneD_ok_iff",
    "Verif.Samp.oneRow_ok_iff",
    "Verif.Samp.maximinBlock1d_same"
   ],
   "note": ""
  },
  {
   "property": "C45",
   "status": "proved",
   "theorems": [
    "Verif.Samp.coffee_length",
    "Verif.Samp.coffee_nested",
    "Verif.Samp.coffee_greedy",
    "Verif.Samp.coffee_ok_iff",
    "Verif.Samp.coffee_inside",
    "Verif.Samp.coffee_maximin_half",
    "Verif.Samp.coffee_minimax_half",
    "Verif.Samp.farthestCand_1d"
   ],
   "note": "Also the 50% efficiency claim of the documentation, for maximin spacing and for covering, whenever the candidates include a farthest point (proved for intervals)."
  },
  {
   "property": "C46",
   "status": "partial",
   "theorems": [
    "Verif.Samp.seqSample_ok",
    "Verif.Samp.seqSample_aligned_partial",
    "Verif.Samp.seqHistory_aligned_partial",
    "Verif.Samp.seqSample_prefix",
    "Verif.Samp.seqSample_shipped",
    "Verif.Samp.seqHistory_shipped",
    "Verif.Samp.seqSample_failure_false",
    "Verif.Samp.seqSample_novalues_false",
    "Verif.Samp.samplerInit_ok_iff",
    "Verif.Samp.samplerInit_aligned"
   ],
   "note": "As shipped every draw raises NameError (seq_maximin_sample is never imported). With the name bound: aligned after successful calls; refuted after a failing evaluation and for samplers given points without values."
  },
  {
   "property": "C47",
   "status": "partial",
   "theorems": [
    "Verif.Samp.cover_covers",
    "Verif.Samp.cover_covers_inexact",
    "Verif.Samp.coverFeasible_iff",
    "Verif.Samp.cover_ok_iff",
    "Verif.Samp.cover_minimal",
    "Verif.Samp.exists_coverSolver",
    "Verif.Samp.minimaxCovering_partial",
    "Verif.Samp.minimaxCovering_false"
   ],
   "note": "The discrete cover is proved (also minimal, and robust to inexact solvers). minimax_covering meets its radius only if the Poisson sample is full; refuted in general (witness for every number of tries)."
  },
  {
   "property": "C48",
   "status": "partial",
   "theorems": [
    "Verif.Samp.lowRank_metric_partial",
    "Verif.Samp.lowRank_close",
    "Verif.Samp.lowRank_same_iff",
    "Verif.Samp.lowRank_rows",
    "Verif.Samp.lowRank_independent",
    "Verif.Samp.lowRank_metric_false"
   ],
   "note": "Exact when the singular values within 1e-8 of zero are zero, and up to (1e-8)^2 |x|^2 in general; exactness refuted for small nonzero singular values."
  },
  {
   "property": "C49",
   "status": "proved",
   "theorems": [
    "Verif.Geo.unique_iff",
    "Verif.Geo.unique_separated",
    "Verif.Geo.unique_dropped",
    "Verif.Geo.unique_nodup",
    "Verif.Geo.unique_duplicates",
    "Verif.Geo.unique_linked",
    "Verif.Geo.unique_far"
   ],
   "note": "Also: a dropped point can be farther than the tolerance from every kept point (unique_far), but is linked to one by short steps."
  },
  {
   "property": "C50",
   "status": "partial",
   "theorems": [
    "Verif.Geo.simplex_weights",
    "Verif.Geo.simplex_surjective",
    "Verif.Geo.simplex_zero"
   ],
   "note": "For dimension at least one; in dimension zero there are no weights."
  },
  {
   "property": "C51",
   "status": "proved",
   "theorems": [
    "Verif.Geo.fillDistance1d_exact",
    "Verif.Geo.voronoi1d_dominates",
    "Verif.Geo.voronoi1d_inside",
    "Verif.Geo.voronoi1d_mem"
   ],
   "note": "For samples inside the interval."
  },
  {
   "property": "C52",
   "status": "partial",
   "theorems": [
    "Verif.Func.eval_one",
    "Verif.Func.eval_many",
    "Verif.Func.eval_batch_eq_points",
    "Verif.Func.call_eq_eval",
    "Verif.Func.call_grad_eq",
    "Verif.Func.call_rows_rejected",
    "Verif.Func.eval_normalize",
    "Verif.Func.eval_wrong_length",
    "Verif.Func.eval_no_funs",
    "Verif.Func.callG_values_plain",
    "Verif.Func.callG_values_vectorized_partial",
    "Verif.Func.callG_vectorized_false"
   ],
   "note": "Everything except calls with return_grad=True of vectorized functions on a batch, where one-dimensional outputs are stacked wrongly (witness)."
  },
  {
   "property": "C53",
   "status": "partial",
   "theorems": [
    "Verif.Func.grad_chain",
    "Verif.Func.grad_user_plain",
    "Verif.Func.grad_return_plain",
    "Verif.Func.grad_user_vectorized",
    "Verif.Func.callG_grad_vectorized",
    "Verif.Func.grad_return_vectorized_partial",
    "Verif.Func.grad_return_vectorized_false",
    "Verif.Func.grad_not_defined",
    "Verif.Func.grad_one_is_gradient"
   ],
   "note": "The chain rule for every normalization; the gradient returned by a vectorized return_grad function on a batch is refuted (witness)."
  },
  {
   "property": "C54",
   "status": "partial",
   "theorems": [
    "Verif.Func.fd_affine",
    "Verif.Func.fd_affine_no_kwargs",
    "Verif.Func.fd_kwargs_false",
    "Verif.Func.fd_two_outputs",
    "Verif.Func.mkFn_ok_iff"
   ],
   "note": "Exact for affine functions; keyword arguments are not passed on (witness)."
  },
  {
   "property": "C55",
   "status": "proved",
   "theorems": [
    "Verif.Func.linearFit_bound",
    "Verif.Func.linearFit_ok_iff",
    "Verif.Func.linearFit_error",
    "Verif.Func.bound_feasible",
    "Verif.Func.polyFit_bound",
    "Verif.Func.fitCoef_bound",
    "Verif.Func.finish_bound",
    "Verif.Func.ridgeFit_bound",
    "Verif.Func.ridgeFit_underdetermined",
    "Verif.Func.ridgeFit_determined",
    "Verif.Func.affSolve_swapped",
    "Verif.Func.idealSolver_exact"
   ],
   "note": "For exact constrained solvers (parameters). Also recorded: the direction of the affine initialisation is computed with the opposite bound (affSolve_swapped)."
  },
  {
   "property": "C56",
   "status": "proved",
   "theorems": [
    "Verif.Func.poly_grad",
    "Verif.Func.poly_hess",
    "Verif.Func.ridge_eval_profile",
    "Verif.Func.ridge_factors",
    "Verif.Func.ridge_orthogonal",
    "Verif.Func.ridge_grad_eq",
    "Verif.Func.ridge_hess_eq",
    "Verif.Func.ridge_grad",
    "Verif.Func.ridge_hess",
    "Verif.Func.tensorObj_smooth"
   ],
   "note": ""
  },
  {
   "property": "C57",
   "status": "proved",
   "theorems": [
    "Verif.Opt.armijo_spec",
    "Verif.Opt.armijo_default",
    "Verif.Opt.armijo_decrease",
    "Verif.Opt.armijo_ok_iff"
   ],
   "note": "Also that the accepted step is the first acceptable trial."
  },
  {
   "property": "C58",
   "status": "partial",
   "theorems": [
    "Verif.Opt.gn_monotone",
    "Verif.Opt.gn_monotone_default",
    "Verif.Opt.gn_info_total",
    "Verif.Opt.gn_status",
    "Verif.Opt.gn_converged_partial",
    "Verif.Opt.gn_quiet_zero_iff",
    "Verif.Opt.gn_quiet_never",
    "Verif.Opt.gn_quiet_same",
    "Verif.Opt.gn_quiet_false",
    "Verif.Opt.armijoLS_good",
    "Verif.Opt.armijoLS_stays",
    "Verif.Opt.gnDir_descent"
   ],
   "note": "Monotone decrease and totality of the status always; status 0 and independence of verbosity are refuted: without verbose the gradient norm is never updated, so a quiet run never reports convergence (theorem) and may return another point (witness)."
  },
  {
   "property": "C59",
   "status": "proved",
   "theorems": [
    "Verif.Opt.minimax_decrease",
    "Verif.Opt.minimax_radius",
    "Verif.Opt.minimax_inside",
    "Verif.Opt.step_nonpos",
    "Verif.Opt.step_zero_optimal",
    "Verif.Opt.minimax_outside"
   ],
   "note": "For every solver; also a zero predicted change certifies global optimality for convex functions when the step solver is exact."
  },
  {
   "property": "C60",
   "status": "partial",
   "theorems": [
    "Verif.Opt.seqlp_decrease",
    "Verif.Opt.seqlp_objective",
    "Verif.Opt.objfun_spec",
    "Verif.Opt.seqlp_bounds_partial",
    "Verif.Opt.seqlp_inside",
    "Verif.Opt.seqlp_constraint_false",
    "Verif.Opt.seqlp_verbose",
    "Verif.Opt.seqlp_accept"
   ],
   "note": "Objective and domain: proved. Bounds on f: up to the tolerance 1e-10 of the code. The other nonlinear constraints are only linearized: refuted (witness for every exact solver). Also a verbose run raises NameError when the first step does not move."
  },
  {
   "property": "C61",
   "status": "proved",
   "theorems": [
    "Verif.Func.merge_spec",
    "Verif.Func.merge_keys",
    "Verif.Func.merge_lookup",
    "Verif.Func.merge_assoc",
    "Verif.Func.merge_assoc_heap"
   ],
   "note": ""
  },
  {
   "property": "C62",
   "status": "partial",
   "theorems": [
    "Verif.Misc.pgf_roundtrip",
    "Verif.Misc.pgf_add_lengths",
    "Verif.Misc.pgf_add_ok_iff_partial",
    "Verif.Misc.pgf_get_add",
    "Verif.Misc.pgf_get_twice",
    "Verif.Misc.pgf_get_missing",
    "Verif.Misc.pgf_write_ok_iff",
    "Verif.Misc.pgf_read_empty",
    "Verif.Misc.pgf_row_ok_iff",
    "Verif.Misc.pgf_ragged_false",
    "Verif.Misc.pgf_short_false"
   ],
   "note": "Round trip for tables whose columns have equal lengths; the class does not check lengths beyond the first column it compares with, witnessed by the refutations."
  },
  {
   "property": "C63",
   "status": "proved",
   "theorems": [
    "Verif.Misc.gauss_nonneg",
    "Verif.Misc.gauss_sum",
    "Verif.Misc.gauss_affine",
    "Verif.Misc.gauss_weight_pos",
    "Verif.Misc.gauss_interior",
    "Verif.Misc.gauss_distinct",
    "Verif.Misc.gauss_converges",
    "Verif.Misc.gauss_dense"
   ],
   "note": "For every eigenvalue routine meeting its specification (eigh as parameter)."
  },
  {
   "property": "C64",
   "status": "proved",
   "theorems": [
    "Verif.Misc.asFit_C",
    "Verif.Misc.asFit_C_default",
    "Verif.Misc.asFit_quad",
    "Verif.Misc.asFit_null",
    "Verif.Misc.asFit_ok_iff",
    "Verif.Misc.exists_svd"
   ],
   "note": "For every routine meeting the specification of svd (existence proved)."
  },
  {
   "property": "C65",
   "status": "partial",
   "theorems": [
    "Verif.Misc.localLinear_exact_partial",
    "Verif.Misc.localLinearGrads_exact",
    "Verif.Misc.localLinear_length",
    "Verif.Misc.localLinear_ok_iff",
    "Verif.Misc.localLinear_minimizes",
    "Verif.Misc.localLinear_minimizes_perplexity",
    "Verif.Misc.localLinear_default",
    "Verif.Misc.localLinear_xia",
    "Verif.Misc.xia_wider",
    "Verif.Misc.localLinear_rows_false",
    "Verif.Misc.exists_lstsq"
   ],
   "note": "Exactness for affine data is proved for all bandwidths. The number of rows is refuted: it is the number of samples, not of requested locations. The default perplexity needs at least m+2 samples."
  },
  {
   "property": "C66",
   "status": "partial",
   "theorems": [
    "Verif.Misc.opg_plain",
    "Verif.Misc.opg_standardized",
    "Verif.Misc.opg_standardized_partial",
    "Verif.Misc.opg_standardized_false",
    "Verif.Misc.opg_shift",
    "Verif.Misc.colStd_sq",
    "Verif.Misc.opg_empty",
    "Verif.Misc.exists_opgEnv",
    "Verif.Misc.exists_qr"
   ],
   "note": "Without standardization: proved. With it: the direction is std^(1/2) times the gradient, right exactly when all relevant coordinates have equal deviations; refuted otherwise (witness for all exact routines): the code undoes the scaling with std^(-1/2) instead of 1/std."
  },
  {
   "property": "C67",
   "status": "partial",
   "theorems": [
    "Verif.GP.gp_matches_iff",
    "Verif.GP.gp_matches_partial",
    "Verif.GP.gp_matches_nugget",
    "Verif.GP.gp_matches_default",
    "Verif.GP.gp_duplicate_false",
    "Verif.GP.gp_var_range",
    "Verif.GP.gp_var_raw",
    "Verif.GP.gp_var_sample_partial",
    "Verif.GP.kern_pos",
    "Verif.GP.exists_eighs"
   ],
   "note": "Exact characterization for every polynomial part. Without one: proved for all distinct samples with the default nugget and for all samples with a larger one (strict positive definiteness of the Gaussian kernel is proved). Refuted for coinciding samples with the default nugget. Variances always in [0,1]."
  },
  {
   "property": "C68",
   "status": "partial",
   "theorems": [
    "Verif.Demo.otl_isGrad",
    "Verif.Demo.otl_domain",
    "Verif.Demo.borehole_isGrad",
    "Verif.Demo.borehole_domain",
    "Verif.Demo.arm_isGrad_partial",
    "Verif.Demo.arm_origin_false",
    "Verif.Demo.affine_isGrad",
    "Verif.Demo.quad_trueGrad",
    "Verif.Demo.quad_isGrad_iff",
    "Verif.Demo.quad_grad_false"
   ],
   "note": "OTL, borehole, affine: proved on the whole domain. Robot arm: wherever the arm has positive length; refuted at length zero (division by zero). Quadratic: the coded gradient is right exactly when the matrix is symmetric."
  },
  {
   "property": "C69",
   "status": "proved",
   "theorems": [
    "Verif.Misc.envRow_nonneg",
    "Verif.Misc.envRow_sum",
    "Verif.Misc.envRow_affine",
    "Verif.Misc.envRow_interp",
    "Verif.Misc.envEntries_ok",
    "Verif.Misc.shadow_ok_iff",
    "Verif.Misc.shadow_encloses",
    "Verif.Misc.cell_exists",
    "Verif.Misc.defaultGrid_range",
    "Verif.Misc.defaultGrid_counts",
    "Verif.Misc.defaultGrid_finest",
    "Verif.Misc.gridAccept_iff",
    "Verif.Misc.shadow_returned_false"
   ],
   "note": "Also: exactly when the call succeeds, the default grid is the finest acceptable one, and the returned coordinates do not match the bounds (refuted)."
  },
  {
   "property": "C70",
   "status": "partial",
   "theorems": [
    "Verif.Lip.partial_gram",
    "Verif.Lip.finishPartial_partial",
    "Verif.Lip.partial_consistent",
    "Verif.Lip.geodesic_orthonormal",
    "Verif.Lip.optimizeU_monotone",
    "Verif.Lip.optimizeU_progress",
    "Verif.Lip.partialObj_trace",
    "Verif.Lip.optimizeU_orthonormal",
    "Verif.Lip.fixedU_epsilon_false"
   ],
   "note": "All parts, the final rotation under the condition of C38; the constraint with epsilon is stricter than documented (witness)."
  },
  {
   "property": "C71",
   "status": "partial",
   "theorems": [
    "Verif.Domain.isEmpty_query_partial",
    "Verif.Domain.isUnbounded_query_partial",
    "Verif.Domain.isUnbounded_one_dim_false"
   ],
   "note": "For domains whose normalization is right; in one dimension is_unbounded raises."
  },
  {
   "property": "C72",
   "status": "proved",
   "theorems": [
    "Verif.Basis.arnoldi_DV_deriv"
   ],
   "note": ""
  },
  {
   "property": "C73",
   "status": "proved",
   "theorems": [
    "Verif.Basis.polyfitA_best"
   ],
   "note": "np.linalg.lstsq is assumed to return a minimiser (IsLstsq)."
  },
  {
   "property": "C74",
   "status": "proved",
   "theorems": [
    "Verif.Lip.bound_grad",
    "Verif.Lip.bound_grad_zero"
   ],
   "note": ""
  },
  {
   "property": "C75",
   "status": "proved",
   "theorems": [
    "Verif.Lip.secular_root",
    "Verif.Lip.secular_root_unique",
    "Verif.Lip.minEig_of_root"
   ],
   "note": "The root finder itself (brenth) is not modelled."
  },
  {
   "property": "C76",
   "status": "proved",
   "theorems": [
    "Verif.Geo.fill_lower",
    "Verif.Geo.fill_antitone",
    "Verif.Geo.fill_mono"
   ],
   "note": ""
  },
  {
   "property": "C77",
   "status": "proved",
   "theorems": [
    "Verif.Geo.sphere_unit",
    "Verif.Geo.sphere_best"
   ],
   "note": "For streams without zero draws."
  },
  {
   "property": "C78",
   "status": "partial",
   "theorems": [
    "Verif.Func.finishRotate_orthonormal",
    "Verif.Func.finishSigns_orthonormal_iff",
    "Verif.Func.finish_no_rotate",
    "Verif.Func.finish_orthonormal_partial",
    "Verif.Func.finish_sign_false"
   ],
   "note": "Orthonormality is kept exactly when no mean slope vanishes; refuted otherwise: a perfect quadratic fit is replaced by a constant (witness)."
  },
  {
   "property": "C79",
   "status": "proved",
   "theorems": [
    "Verif.Misc.gauss_exact",
    "Verif.Misc.gaussT_moment",
    "Verif.Misc.leg_moments"
   ],
   "note": "Full exactness to degree 2N-1, via the moments of the monic Legendre polynomials; eigh as parameter with its specification, exact arithmetic."
  },
  {
   "property": "C80",
   "status": "partial",
   "theorems": [
    "Verif.Misc.asFit_eigen",
    "Verif.Misc.asFit_bound",
    "Verif.Misc.asFit_optimal_partial",
    "Verif.Misc.asFit_zero",
    "Verif.Misc.asFit_zero_false"
   ],
   "note": "Optimality (Ky Fan) proved unless a reported direction is zero; refuted in general: gradients summing to zero give the zero matrix."
  },
  {
   "property": "C81",
   "status": "partial",
   "theorems": [
    "Verif.Misc.perp_attained",
    "Verif.Misc.perp_unique",
    "Verif.Misc.perp_succeeds_partial",
    "Verif.Misc.logEntropy_strictAnti",
    "Verif.Misc.computeP1_ok",
    "Verif.Misc.perp_equal_fails",
    "Verif.Misc.perp_equal_false",
    "Verif.Misc.perp_scale_false",
    "Verif.Misc.localLinear_equispaced_false",
    "Verif.Misc.exists_root"
   ],
   "note": "A returned bandwidth is the unique one; but the call fails for equal distances and for small distances, where a bandwidth exists (refutations for all root finders)."
  },
  {
   "property": "C82",
   "status": "partial",
   "theorems": [
    "Verif.Demo.piston_isGrad",
    "Verif.Demo.piston_domain",
    "Verif.Demo.uAve_isGrad",
    "Verif.Demo.bind_isGrad",
    "Verif.Demo.hartmann_domain",
    "Verif.Demo.golVol_isGrad",
    "Verif.Demo.gol1_isGrad",
    "Verif.Demo.gol25_isGrad",
    "Verif.Demo.gol5_partial",
    "Verif.Demo.gol6_partial",
    "Verif.Demo.gol5_exact_false",
    "Verif.Demo.golinski_domain_partial",
    "Verif.Demo.beamArea_isGrad",
    "Verif.Demo.beamTwist_isGrad",
    "Verif.Demo.beam_domain",
    "Verif.Demo.wing_trueGrad",
    "Verif.Demo.wing_partial",
    "Verif.Demo.wing_domain_partial",
    "Verif.Demo.wing_exact_false"
   ],
   "note": "Exact for piston, Hartmann, beam and all but two Golinski constraints; for those two and the wing weight the gradient uses rounded constants: relative error bounds proved, exactness refuted."
  },
  {
   "property": "C83",
   "status": "partial",
   "theorems": [
    "Verif.Misc.shadow_encloses",
    "Verif.Misc.env_bounded_partial",
    "Verif.Misc.env_none_of_ray",
    "Verif.Misc.shadow_none_false",
    "Verif.Misc.exactEnv_spec"
   ],
   "note": "What is returned encloses all samples (exact solver as parameter). Existence is refuted: two samples with the default grid give an unbounded program; bounded if nonnegative multipliers of the rows sum to ones."
  },
  {
   "property": "C84",
   "status": "partial",
   "theorems": [
    "Verif.GP.gp_grad_curve",
    "Verif.GP.gp_grad_const",
    "Verif.GP.gp_grad_mult",
    "Verif.GP.gp_grad_diag",
    "Verif.GP.hasDerivAt_det",
    "Verif.GP.hasDerivAt_solve",
    "Verif.GP.stepL_error",
    "Verif.GP.gp_grad_tril_partial",
    "Verif.GP.gpGradTril_one",
    "Verif.GP.gp_grad_tril_false",
    "Verif.GP.exp_line_hasDerivAt",
    "Verif.GP.cstep_error"
   ],
   "note": "Unconditional for const, scalar_mult and diag without polynomial part; with one, as long as no eigenvalue is dropped nearby. For tril the complex step of the code gives the derivative up to an explicit error of order h^2 (gp_grad_tril_partial) but not exactly: for two samples with values zero it differs from the derivative for every step (gp_grad_tril_false)."
  },
  {
   "property": "C85",
   "status": "partial",
   "theorems": [
    "Verif.Func.varpro_fit",
    "Verif.Func.gn_invariant",
    "Verif.Func.grassmann_orthonormal",
    "Verif.Func.grassTraj_orthonormal",
    "Verif.Func.geodesic_orthonormal",
    "Verif.Func.geodesic_velocity",
    "Verif.Func.gnDirection_tangent",
    "Verif.Func.grad_tangent",
    "Verif.Func.gnDirection_components",
    "Verif.Func.varproSolver_values",
    "Verif.Func.gnDirection_descent",
    "Verif.Func.gnDirection_optimal",
    "Verif.Func.orth_fix",
    "Verif.Func.orth_orthonormal",
    "Verif.Func.orth_span",
    "Verif.Func.orth_zero_false",
    "Verif.Func.exists_tsvd",
    "Verif.Func.exists_rqr",
    "Verif.Func.exists_lsq"
   ],
   "note": "Whole runs of gauss_newton with the default line search, provided the projected samples determine the polynomial for all orthonormal directions (otherwise pseudo-inverses divide by zero). orth characterized exactly; it fails for dependent columns (witness)."
  },
  {
   "property": "C86",
   "status": "proved",
   "theorems": [
    "Verif.Func.varpro_derivative",
    "Verif.Func.varpro_null",
    "Verif.Func.arnoldiCoef_isLsq",
    "Verif.Func.fullRank_arnoldi",
    "Verif.Func.linBasis_poly",
    "Verif.Func.residual_unique"
   ],
   "note": "For every basis of the polynomials of total degree at most d with correct derivatives and Vandermonde matrices of full column rank at the point of differentiation."
  },
  {
   "property": "C87",
   "status": "proved",
   "theorems": [
    "Verif.Lip.compatFeasible_iff",
    "Verif.Lip.approxFit_ok",
    "Verif.Lip.approxFit_ok_iff",
    "Verif.Lip.approxFit_compatible",
    "Verif.Lip.approx_interpolates",
    "Verif.Lip.approx_lipschitz",
    "Verif.Lip.approx_best",
    "Verif.Lip.approx_central",
    "Verif.Lip.exists_compat",
    "Verif.Lip.exists_compatSolver"
   ],
   "note": "For every exact solver of the convex fitting problem (one exists)."
  },
  {
   "property": "C88",
   "status": "partial",
   "theorems": [
    "Verif.Misc.nonlin_spec",
    "Verif.Misc.nonlin_range",
    "Verif.Misc.nonlin_zero_iff",
    "Verif.Misc.nonlin_slope",
    "Verif.Misc.nonlin_scale",
    "Verif.Misc.nonlin_constant_false",
    "Verif.Misc.nonlin_duplicate_false",
    "Verif.Misc.nonlin_conflict_false",
    "Verif.Misc.nonlin_ok_iff",
    "Verif.Misc.idealNL_exact"
   ],
   "note": "All but the coefficients: they are those of the negated linear function. Constant data and repeated samples give nan (witnesses)."
  },
  {
   "property": "C89",
   "status": "proved",
   "theorems": [
    "Verif.Geo.miniball_spec",
    "Verif.Geo.miniball_unique",
    "Verif.Geo.miniball_hull",
    "Verif.Geo.miniball_diameter",
    "Verif.Geo.hull_closer",
    "Verif.Geo.exists_center",
    "Verif.Geo.exists_ballSolver"
   ],
   "note": "For every exact solver of the second order cone program (one exists)."
  },
  {
   "property": "C90",
   "status": "partial",
   "theorems": [
    "Verif.Lip.diag_U_partial",
    "Verif.Lip.diag_U_coord",
    "Verif.Lip.coord_orthonormal",
    "Verif.Lip.diag_U_stale",
    "Verif.Lip.diag_U_stale_false",
    "Verif.Lip.diag_U_unfitted",
    "Verif.Lip.diag_L_given",
    "Verif.Lip.answer_eq",
    "Verif.Lip.exists_argsort"
   ],
   "note": "Coordinate directions after every history; ordered for the first query after a fit. The cached directions are never updated by a later fit (witness), and are missing if the matrix was only given to the constructor."
  },
  {
   "property": "C91",
   "status": "partial",
   "theorems": [
    "Verif.Geo.voronoi_spec",
    "Verif.Geo.voronoi_mem",
    "Verif.Geo.voronoi_inside",
    "Verif.Geo.fillDistance_exact",
    "Verif.Geo.fillDistance_attained",
    "Verif.Geo.fillDistance_ok",
    "Verif.Geo.voronoi_ok",
    "Verif.Geo.vertex_dominates",
    "Verif.Geo.voronoi_single_boundary",
    "Verif.Geo.fill_equality_false",
    "Verif.Geo.exists_hsi",
    "Verif.Geo.exists_isCenter",
    "Verif.Geo.poly_hull",
    "Verif.Geo.extreme_finite"
   ],
   "note": "Exact if distinct vertices are farther apart than the tolerance of unique_points. A single sample on the boundary raises; equality constraints are ignored (witness)."
  },
  {
   "property": "C92",
   "status": "partial",
   "theorems": [
    "Verif.Geo.vertexSample_inside",
    "Verif.Geo.vstep_inside",
    "Verif.Geo.vstep_away",
    "Verif.Geo.vstep_nearest",
    "Verif.Geo.vstep_progress",
    "Verif.Geo.vertexSample_nearest_partial",
    "Verif.Geo.vertexSample_nearest_random",
    "Verif.Geo.vstep_nearest_random",
    "Verif.Geo.vertexSample_ok_iff",
    "Verif.Geo.vertexSample_zero",
    "Verif.Geo.fillEstimate_lower",
    "Verif.Geo.fillEstimate_improves",
    "Verif.Geo.vertexSample_not_vertex",
    "Verif.Geo.fillEstimate_small_false",
    "Verif.Geo.exists_sorts",
    "Verif.Geo.exists_qr",
    "Verif.Samp.vertexSample_ok_explicit",
    "Verif.Samp.vertexSample_fixed"
   ],
   "note": "Feasibility unconditional. The distance to the nearest sample does not decrease unless a sample is approached at a positive rate below 1e-8, where it can drop to zero (witness with a small metric). A starting point equal to a sample is returned unchanged, so the points need not satisfy m constraints (witness)."
  },
  {
   "property": "C93",
   "status": "partial",
   "theorems": [
    "Verif.Samp.maximinBlock_stop",
    "Verif.Samp.maximinBlock_inside",
    "Verif.Samp.maximinBlock_apart_partial",
    "Verif.Samp.blockStep_apart",
    "Verif.Samp.maximinBlock_ok_iff",
    "Verif.Samp.maximinBlock_single_false"
   ],
   "note": "Points stay in the domain unconditionally; the smallest distance does not decrease unless a point is approached at a positive rate below 1e-8 (see C92). A one-point design raises for every metric with at least two rows (proved)."
  },
  {
   "property": "C94",
   "status": "partial",
   "theorems": [
    "Verif.Samp.cluster_best",
    "Verif.Samp.cluster_improves",
    "Verif.Samp.cluster_length",
    "Verif.Samp.cluster_inside",
    "Verif.Samp.cq_in_hull",
    "Verif.Samp.scoreOf_spec",
    "Verif.Samp.exists_cq",
    "Verif.Samp.exists_center",
    "Verif.Samp.cluster_single_false",
    "Verif.Samp.cluster_dx_false",
    "Verif.Samp.cluster_outside_false"
   ],
   "note": "Best visited design, length and convexity proved. The stopping rule is not as claimed: with one center the loop stops before the first step (proved for all inputs); a step moving all centers in negative directions counts as converged (witness). With a rank deficient metric exact solvers can leave the domain (witness)."
  },
  {
   "property": "C95",
   "status": "partial",
   "theorems": [
    "Verif.Samp.pso_best",
    "Verif.Samp.pso_inside_partial",
    "Verif.Samp.psoMove_box",
    "Verif.Samp.pso_outside_false",
    "Verif.Samp.randomInit_first"
   ],
   "note": "Best scored design proved for every run. Inside proved for boxes; false for other convex domains because the weights are drawn per entry (triangle witness with the default weights). The initial designs always take the first candidate, whatever its distance (proved)."
  },
  {
   "property": "C96",
   "status": "partial",
   "theorems": [
    "Verif.Samp.lloyd_inside",
    "Verif.Samp.lloyd_steps",
    "Verif.Samp.lloydStep_fill",
    "Verif.Samp.lloydStep_fill_exact",
    "Verif.Samp.lloyd_fill",
    "Verif.Samp.lloyd_full_vor",
    "Verif.Samp.exists_circ",
    "Verif.Samp.lloyd_extra_false",
    "Verif.Samp.lloyd_overwrites",
    "Verif.Samp.lloyd_overwrites_false"
   ],
   "note": "Inside, steps, stopping rule and the fill distance bound proved for designs with the requested number of points. The caller's array is overwritten (proved; witness), and points beyond the requested number are moved to the origin (proved). The fill distance bound needs all Voronoi vertices; the sampled vertices are only known to be feasible (C92)."
  },
  {
   "property": "C97",
   "status": "partial",
   "theorems": [
    "Verif.Samp.scale_best",
    "Verif.Samp.scale_inside",
    "Verif.Samp.scaleScore_lower",
    "Verif.Samp.scaleScore_one",
    "Verif.Samp.scale_score_le",
    "Verif.Samp.scale_ok_iff",
    "Verif.Samp.scale_one_false",
    "Verif.Samp.scale_suboptimal_false",
    "Verif.Samp.scale_worse_false",
    "Verif.Samp.worse_center"
   ],
   "note": "Scaling, inside and optimality of the score on the grid proved; the score is a lower bound of the fill distance of the scaled design and exact for the factor one. It is computed with the Voronoi vertices of the unscaled design, so the factor is not the best one of the grid (witness); with one grid point the design is always halved (proved). On the default grid of twenty factors the fill distance can get worse than that of the design passed in: witness of four points in a square with the metric diag(1, 1/2), for every descending minimizer, the exact Voronoi vertices and the only Chebyshev center."
  },
  {
   "property": "C98",
   "status": "proved",
   "theorems": [
    "Verif.Samp.initialLow_spec",
    "Verif.Samp.initial_range",
    "Verif.Samp.initialSample_scalar",
    "Verif.Samp.initialSample_low",
    "Verif.Samp.coef_exact",
    "Verif.Samp.combo_mem",
    "Verif.Samp.unique_again",
    "Verif.Samp.exists_nnls"
   ],
   "note": "Relative to the contracts of corner (C13, C14), of the samples of a hull (C22) and of nnls (shown to be satisfiable). The range statement needs the two end points to be farther apart than the tolerance of unique_points."
  },
  {
   "property": "C99",
   "status": "proved",
   "theorems": [
    "Verif.Samp.seq_meets",
    "Verif.Samp.seqLoop_exhaustive",
    "Verif.Samp.seq_spec",
    "Verif.Samp.seq_ok",
    "Verif.Samp.seq_single",
    "Verif.Samp.seqFirst_spec",
    "Verif.Samp.seqPick_slack",
    "Verif.Samp.exists_seqOracle",
    "Verif.Samp.seqIdx_spec",
    "Verif.Samp.seqOrder_spec",
    "Verif.Samp.foundIdx_eq_iff"
   ],
   "note": "Relative to the contracts of the emptiness test (C71), of initial_sample (C98), of voronoi_vertex_sample (C92) and of argsort. The statement for one metric assumes that distinct candidates are farther apart than the tolerance of unique_points, and is about the vertices kept after removing duplicates in the metric."
  },
  {
   "property": "C100",
   "status": "partial",
   "theorems": [
    "Verif.Func.affine_optimal",
    "Verif.Func.affine_unit",
    "Verif.Func.affine_lower_false",
    "Verif.Func.affSolve_swapped",
    "Verif.Func.fitAffine_ok"
   ],
   "note": "Proved without bounds, relative to exact solvers. With bounds it is false: the direction is taken from the problem with the opposite bound, and for four samples in the plane every exact run returns a lower bound that is not the best affine one (proved). Constant data and a zero slope are errors in the model (nan in the code)."
  },
  {
   "property": "C101",
   "status": "partial",
   "theorems": [
    "Verif.Func.vecRidge_spec",
    "Verif.Func.vecRidgeFixed_spec",
    "Verif.Func.vecInit_empty",
    "Verif.Func.vecArgs_options",
    "Verif.Func.vecResidual_best",
    "Verif.Func.vec_derivative",
    "Verif.Func.vec_null",
    "Verif.Func.vecFixed_derivative",
    "Verif.Func.restrictJac_apply",
    "Verif.Func.fixed_orthonormal",
    "Verif.Func.vecStart_orthonormal",
    "Verif.Func.vecArgs_run",
    "Verif.Func.vecInit_twoD",
    "Verif.Func.vecInit_oneD_false",
    "Verif.Func.vecRidge_start_false",
    "Verif.Func.vec_hypotheses"
   ],
   "note": "Proved for starts with orthonormal columns (always the case with a fixed subspace), exact factorizations and Vandermonde matrices of full rank for orthonormal directions. False for flat data (the default start raises AssertionError with two samples or more) and for starts that are not orthonormal (returned as they are without iterations)."
  },
  {
   "property": "C102",
   "status": "partial",
   "theorems": [
    "Verif.Func.initSubspace_spec",
    "Verif.Func.initSubspace_affine",
    "Verif.Func.initSubspace_ok_iff",
    "Verif.Func.initSubspace_few_false",
    "Verif.Func.initSubspace_nothing",
    "Verif.Func.checkInputs_ok_iff",
    "Verif.Func.checkInputs_spec",
    "Verif.Func.lead_optimal",
    "Verif.Func.rank_one_svd"
   ],
   "note": "Proved relative to exact factorizations and least squares; the success condition is an equivalence, given that the search for a bandwidth succeeds (C81). False with exactly one sample more than coordinates: the estimate fails an assertion, even if gradients were given. The decomposition of an empty array (no gradients and too few samples) is taken to be empty."
  },
  {
   "property": "C103",
   "status": "partial",
   "theorems": [
    "Verif.Samp.stretchDomain_spec",
    "Verif.Samp.stretchSample_spec",
    "Verif.Samp.farthest_spec",
    "Verif.Samp.farthest_ok_iff",
    "Verif.Samp.stretchDomain_total",
    "Verif.Samp.blockCandidate_starts",
    "Verif.Samp.stretch_one",
    "Verif.Samp.slice_nil",
    "Verif.Samp.slice_compact",
    "Verif.Samp.exists_stretch",
    "Verif.Samp.stretch_caught_false",
    "Verif.Samp.stretch_forgets_false",
    "Verif.Samp.stretchSample_repeats_false"
   ],
   "note": "Proved: the equations of the stretched domain use each metric at most once, the stretched domain is part of the domain and not empty if the domain is not, the new sample is in it and is the vertex farthest from the samples; with one metric and exact vertices the equation goes through a point of the domain that is farthest from the samples. False with two metrics: the samples are overwritten by the candidate, later distances ignore them, and the new sample can repeat one. False for a failing first metric: a name that does not exist yet is read. Relative to the vertex search."
  },
  {
   "property": "C104",
   "status": "proved",
   "theorems": [
    "Verif.Func.tensor_degree",
    "Verif.Func.tensor_represents",
    "Verif.Func.tensor_change",
    "Verif.Func.tensor_unisolvent",
    "Verif.Func.tensor_fit_recovers",
    "Verif.Func.tensor_polyBasis",
    "Verif.Func.tensorMk_poly",
    "Verif.Func.varpro_derivative_tensor",
    "Verif.Func.vecRidge_tensor",
    "Verif.Func.mono_graded",
    "Verif.Func.leg_graded",
    "Verif.Func.cheb_graded",
    "Verif.Func.lag_graded",
    "Verif.Func.herm_graded",
    "Verif.Func.unisolvent_line"
   ],
   "note": "Over the reals, for scalings that are not degenerate. The derivative columns are the derivatives of the polynomials, so that the results on variable projection (C85, C86, C101) apply to these bases, rebuilt and rescaled at every step; there the degenerate scaling, where the code divides by zero, is replaced by no scaling."
  },
  {
   "property": "C105",
   "status": "partial",
   "theorems": [
    "Verif.Opt.uncDomain_attained",
    "Verif.Opt.uncDomain_starts",
    "Verif.Opt.uncDomain_cover",
    "Verif.Opt.uncDomain_exact",
    "Verif.Opt.uncDomain_contains",
    "Verif.Opt.uncDomain_ok_iff",
    "Verif.Opt.low_up_uncertainty",
    "Verif.Opt.shadowUnc_spec",
    "Verif.Opt.shadowUnc_range",
    "Verif.Opt.shadowUnc_contains",
    "Verif.Opt.uncDomain_epsilon_false",
    "Verif.Opt.uncDomain_local_false",
    "Verif.Opt.shadowUnc_end_false",
    "Verif.Opt.shadowUnc_one_false"
   ],
   "note": "Proved: both ends are attained on the set; the interval contains the bounds at every starting point, and widened by the covering radius of the starting points it contains the values of every interpolating Lipschitz function, whatever the searches do; without widening if one search is global. False in general: the search is local, also with exact steps. False with epsilon, which is not used for sets. For shadows: grid and interior rows are right; the first and last row use one corner although the slice can be a face, and with one row the value belongs to the other corner."
  },
  {
   "property": "C106",
   "status": "partial",
   "theorems": [
    "Verif.Misc.quadMethod_gauss_iff",
    "Verif.Misc.quadMethod_mc_iff",
    "Verif.Misc.quadRule_sampled",
    "Verif.Misc.quadRule_sound",
    "Verif.Misc.quadRule_weights_pos",
    "Verif.Misc.quadQ_largest",
    "Verif.Misc.quadRule_box_exact",
    "Verif.Misc.quadRule_full_exact",
    "Verif.Misc.quadRule_converges",
    "Verif.Misc.quadRule_terminates",
    "Verif.Misc.quadRule_linquad",
    "Verif.Misc.quadRule_mc",
    "Verif.Misc.quadRule_point",
    "Verif.Misc.quadRule_error_iff",
    "Verif.Misc.quadRule_other",
    "Verif.Misc.boxVolume_eq",
    "Verif.Misc.mcVolume_bounds",
    "Verif.Misc.quadRule_void_false",
    "Verif.Misc.quadRule_zero_false"
   ],
   "note": "Proved: number and place of the points, weights, exactness on boxes, termination and convergence on all nonempty bounded linear-quadratic domains without equality constraints (membership with a positive tolerance, so the limit is the integral over the points the domain accepts), Monte-Carlo branch. False: for an empty domain the search never ends; N = 0 with the Gauss method gives one point. Not modelled: roundoff in N**(1/m), the shape of the array that sample(1) returns."
  },
  {
   "property": "C107",
   "status": "partial",
   "theorems": [
    "Verif.Opt.kkt_two",
    "Verif.Opt.kkt_inf_zero",
    "Verif.Opt.kkt_inf_stationary",
    "Verif.Opt.kkt_one_zero",
    "Verif.Opt.kkt_one_iff",
    "Verif.Opt.kkt_one_component",
    "Verif.Opt.kkt_one_false",
    "Verif.Opt.kkt_nan",
    "Verif.Opt.kkt_ok_iff",
    "Verif.Opt.kkt_nonneg",
    "Verif.Opt.exists_nnls_exact"
   ],
   "note": "Proved: for the 2-norm zero exactly at stationary points; for the maximum norm zero at stationary points, and if it is zero no step decreases the linearization by more than 1e-10, the threshold for active components; for the 1-norm zero at stationary points. False for the 1-norm in the other direction: the measure is zero exactly if no step decreases all components at once, in particular whenever one component is zero. No measure for the other norms."
  },
  {
   "property": "C108",
   "status": "partial",
   "theorems": [
    "Verif.Domain.boundary_samples_partial",
    "Verif.Domain.boundary_proper",
    "Verif.Domain.boundary_box_vertex",
    "Verif.Domain.boundary_edge_false",
    "Verif.Domain.boundary_point_false",
    "Verif.Domain.boundary_center_false",
    "Verif.Domain.boundary_none"
   ],
   "note": "Proved: the samples are as many as requested, in the domain, on its boundary relative to the equality constraints, maximize an allowed direction, and lie farther along it than the center (domains of linear inequalities and boxes; like C14 for right normalization). False: the samples do not reach the whole boundary (a box only returns vertices); a domain with one point makes the search for a direction run forever; domains with quadratic constraints, hulls, products and normal domains raise AttributeError since they have no center."
  },
  {
   "property": "C109",
   "status": "partial",
   "theorems": [
    "Verif.Func.alt_fit_plain",
    "Verif.Func.alt_fit_partial",
    "Verif.Func.alt_search",
    "Verif.Func.altMove_orthonormal",
    "Verif.Func.residual_after_fit",
    "Verif.Func.residual_after_trajectory",
    "Verif.Func.alt_bounds_iff",
    "Verif.Func.alt_bounds_met",
    "Verif.Func.altJacobian_deriv",
    "Verif.Func.fit_same_subspace",
    "Verif.Func.searchCon_one",
    "Verif.Func.alt_search_false"
   ],
   "note": "Proved: orthonormal iterates with coefficients fitted for them, no loss against the starting subspace, bounds exact, residual computed with the basis of the evaluated point, Jacobian is the derivative. Missing for rotate=True: the final sign choice may erase a direction (C78), so there the result is assumed orthonormal. False: for more than one column the constraint on the search direction is not orthogonality (entries of a row-major vector are sliced as columns), and a fit can be stuck although an orthogonal direction solves the linearized problem exactly."
  },
  {
   "property": "C110",
   "status": "partial",
   "theorems": [
    "Verif.Lip.distEval_length",
    "Verif.Lip.distEval_entries",
    "Verif.Lip.evalDist_nonneg_iff",
    "Verif.Lip.evalDist_distance",
    "Verif.Lip.gradDist_nonneg_iff",
    "Verif.Lip.gradDist_inside",
    "Verif.Lip.gradDist_outside",
    "Verif.Lip.gradDist_indefinite"
   ],
   "note": "Proved for pairs of different points and for gradients with positive semidefinite (or dominating) matrices; the gradient value is the smallest eigenvalue, which C75 shows for the root of the secular equation. False: for a matrix that is not positive semidefinite the value for a gradient is smaller than the distance (gradDist_indefinite); equal points give nan or -inf."
  },
  {
   "property": "C111",
   "status": "partial",
   "theorems": [
    "Verif.Lip.descent_grad",
    "Verif.Lip.descent_eval_partial",
    "Verif.Lip.descent_nonpos",
    "Verif.Lip.descent_eval_false"
   ],
   "note": "Proved for gradients, and for evaluations if alpha = 0, J = I or the subspace does not move; the zero direction is always allowed. False for evaluations in general: one term uses J U^T y in place of U^T y, and the predicted change can have the opposite sign of the true one."
  },
  {
   "property": "C112",
   "status": "partial",
   "theorems": [
    "Verif.Samp.cellRows_iff",
    "Verif.Samp.buildStep_cells",
    "Verif.Samp.projection_cells",
    "Verif.Samp.projection_best",
    "Verif.Samp.projection_exhaustive",
    "Verif.Samp.projection_optimal",
    "Verif.Samp.projection_some",
    "Verif.Samp.projection_no_error",
    "Verif.Samp.projection_single",
    "Verif.Samp.projection_hangs",
    "Verif.Samp.projection_stale",
    "Verif.Samp.projection_hangs_feasible",
    "Verif.Samp.projection_fit"
   ],
   "note": "Everything but termination holds: the rows added to the domain describe the cells exactly, every returned design uses each cell of each projection once, the best proposed design is kept, blocked cells exclude nothing that can be built and no exception is raised for two points or more. The call does not always return: when no design can be built it runs forever, and also after designs have been found if the solver runs out and its last solution has an empty cell (proved on the interval with two projections); one point raises ValueError."
  },
  {
   "property": "C113",
   "status": "partial",
   "theorems": [
    "Verif.Domain.uniform_density",
    "Verif.Domain.uniform_total",
    "Verif.Domain.normal_density",
    "Verif.Domain.normal_sample_law",
    "Verif.Domain.redraw_restrict",
    "Verif.Domain.redraw_accepts",
    "Verif.Domain.redraw_limit",
    "Verif.Domain.normal_truncated_law",
    "Verif.Domain.lognormal_integral",
    "Verif.Domain.lognormal_density_iff",
    "Verif.Domain.lognormal_density_false"
   ],
   "note": "Proved for uniform and normal domains (Cholesky factor and chi-squared quantile as contracts) and for the law of normal samples, with truncation as the limit of the redraws. For lognormal domains the integral is scaling/sqrt(cov), so the claim holds exactly if scaling = sqrt(cov); refuted otherwise."
  },
  {
   "property": "C114",
   "status": "partial",
   "theorems": [
    "Verif.Domain.normalized_d2",
    "Verif.Domain.normalized_points",
    "Verif.Domain.normalized_pdf",
    "Verif.Domain.normalized_factor_exists",
    "Verif.Domain.lognormal_normalized_draw",
    "Verif.Domain.lognormal_normalized_pdf",
    "Verif.Domain.lognormal_normalized_iff",
    "Verif.Domain.lognormal_normalized_false"
   ],
   "note": "Proved for normal domains; for lognormal domains draws correspond but the density is not divided by the slope, so the claim holds exactly for slope one. (The normalized domain of a uniform domain is a plain box without a density.)"
  },
  {
   "property": "C115",
   "status": "partial",
   "theorems": [
    "Verif.Domain.cheb_ball",
    "Verif.Domain.cheb_max",
    "Verif.Domain.cheb_nonempty_iff",
    "Verif.Domain.cheb_bounded",
    "Verif.Domain.cheb_empty_false",
    "Verif.Domain.cheb_point_false",
    "Verif.Domain.cheb_equality_false"
   ],
   "note": "Proved for an optimal solver of the linear program. False parts: an empty domain gives a negative radius and a point outside, without an exception; a point given by equality constraints raises TypeError; with equality constraints the ball is one of the whole space, not of the domain."
  },
  {
   "property": "C116",
   "status": "partial",
   "theorems": [
    "Verif.Domain.mkLinQuad_spec",
    "Verif.Domain.mkLinQuad_ok_iff",
    "Verif.Domain.mkLinQuad_exception_iff",
    "Verif.Domain.mkLinQuad_row_false",
    "Verif.Domain.mkLinQuad_empty_false",
    "Verif.Domain.mkLinQuad_inf_false"
   ],
   "note": "Proved with the exact condition under which the constructor succeeds. False parts: a single row or an empty matrix is refused when no bound is given, and +inf is accepted as a lower bound but never checked."
  },
  {
   "property": "C117",
   "status": "partial",
   "theorems": [
    "Verif.Demo.bspline_iff",
    "Verif.Demo.bspline_slopes",
    "Verif.Demo.bspline_ok",
    "Verif.Demo.bspline_gap_false",
    "Verif.Demo.bspline_throat_false",
    "Verif.Demo.cleanup_iff",
    "Verif.Demo.cleanup_all",
    "Verif.Demo.cleanup_ok_iff",
    "Verif.Demo.centerline_infeasible",
    "Verif.Demo.cleanup_eliminate",
    "Verif.Demo.centerline_base_infeasible"
   ],
   "note": "The rows are characterized exactly. The claim fails in three places: without a throat the first two gaps are compared with 0.05 instead of delta; with throatIsLowest the documented throat is infeasible; cleaning up drops violated rows without variables, which the shipped centreline has."
  },
  {
   "property": "C118",
   "status": "partial",
   "theorems": [
    "Verif.Demo.layer_iff",
    "Verif.Demo.layer_plain_iff",
    "Verif.Demo.layer_ok_iff",
    "Verif.Demo.layer_runtime",
    "Verif.Demo.layer_y_false",
    "Verif.Demo.layer_single_false",
    "Verif.Demo.shippedLayer_infeasible",
    "Verif.Demo.baffles_iff",
    "Verif.Demo.baffles_ok_iff"
   ],
   "note": "The rows are characterized exactly. The rows for the y-coordinates are shifted by one, so the claim fails when deltay is given; with a single y-coordinate deltaz bounds the thickness itself. More than 100 rows raise IndexError."
  },
  {
   "property": "C119",
   "status": "partial",
   "theorems": [
    "Verif.Domain.hitRun_law",
    "Verif.Domain.hitRun_uniform",
    "Verif.Domain.hitRun_first_law",
    "Verif.Domain.hitRun_near",
    "Verif.Domain.hitKernel_exists",
    "Verif.Domain.hitRun_shrunk",
    "Verif.Domain.hitRun_fresh_false",
    "Verif.Domain.chord_mean"
   ],
   "note": "Invariance of the uniform distribution is proved for exact arithmetic: exactly for every accepted direction, with an explicit bound for the calls which redraw. The last sentence is false in two or more dimensions: the sampler starts at the Chebyshev center and one third of the points returned by the first sample(1) is one chord step away from it."
  },
  {
   "property": "C120",
   "status": "partial",
   "theorems": [
    "Verif.Domain.volume_box",
    "Verif.Domain.volume_box_inf",
    "Verif.Domain.volume_law",
    "Verif.Domain.volume_consistent",
    "Verif.Domain.volume_above",
    "Verif.Domain.volume_limit",
    "Verif.Domain.accepted_measurable",
    "Verif.Domain.volume_ok_iff",
    "Verif.Domain.mc_unbiased",
    "Verif.Domain.mcWeights_sum",
    "Verif.Domain.volume_bias_false",
    "Verif.Domain.volume_flat"
   ],
   "note": "Partial because the code falsifies the plain reading: points outside by less than the tolerance count, so the mean exceeds the volume of the set (volume_bias_false), and a flat box with an infinite side gives nan (volume_flat). Everything else is proved. Measurability of the accepted set is a hypothesis of volume_law, discharged by accepted_measurable for all classes but points, hulls and products."
  },
  {
   "property": "C121",
   "status": "partial",
   "theorems": [
    "Verif.Domain.isPoint_true_partial",
    "Verif.Domain.isPoint_near_partial",
    "Verif.Domain.isPoint_singleton_partial",
    "Verif.Domain.isPoint_empty_partial",
    "Verif.Domain.isPoint_cached",
    "Verif.Domain.cornerCenter_partial",
    "Verif.Domain.isPoint_far_false"
   ],
   "note": "For domains whose normalization is right (Scaled, as in C14) and solvers that find optima; false away from the origin (witness)."
  },
  {
   "property": "C122",
   "status": "partial",
   "theorems": [
    "Verif.GP.gp_fit_free",
    "Verif.GP.gp_var_free",
    "Verif.GP.gp_mean_perm",
    "Verif.GP.gp_obj_perm",
    "Verif.GP.gp_mean_shift",
    "Verif.GP.gp_mean_linear",
    "Verif.GP.gp_reproduces_partial",
    "Verif.GP.gp_obj_last",
    "Verif.GP.gp_start_false",
    "Verif.GP.gp_failed_refit_false",
    "Verif.GP.makeL_tril",
    "Verif.GP.gp_start_tril"
   ],
   "note": "Reproduction of polynomials needs that no eigenvalue is dropped; start at L0 and harmless failed fits are false (witnesses). The object is modelled without polynomial part."
  },
  {
   "property": "C123",
   "status": "partial",
   "theorems": [
    "Verif.Domain.empty_answer_final",
    "Verif.Domain.corner_forgets_false"
   ],
   "note": "holds for closest_point and constrained_least_squares; an EmptyDomainException of corner is not remembered (the assignment is commented out in the code), so a second corner call can end differently: witness proved"
  },
  {
   "property": "C124",
   "status": "partial",
   "theorems": [
    "Verif.Misc.study_sizes_partial",
    "Verif.Misc.study_angles",
    "Verif.Misc.study_ok_iff",
    "Verif.Misc.study_data_error",
    "Verif.Misc.study_eval_only",
    "Verif.Misc.study_grad_only",
    "Verif.Misc.as_fresh",
    "Verif.Misc.principalCos_comm",
    "Verif.Misc.angSpec_exists",
    "Verif.Misc.study_empty_false",
    "Verif.Misc.study_coord_false"
   ],
   "note": "without sample numbers one angle is returned for no subspace (witness); for DiagonalLipschitzMatrix, whose U is cached by the first access, all angles after the first are zero whatever the data (proved for all data); subspace_angles is a parameter with its contract and an existence proof"
  },
  {
   "property": "C125",
   "status": "partial",
   "theorems": [
    "Verif.Misc.check_no_steps",
    "Verif.Misc.defaultSteps_ok",
    "Verif.Misc.checkDerivative_spec",
    "Verif.Misc.checkDerivative_exact",
    "Verif.Misc.checkDerivative_smooth",
    "Verif.Misc.checkDerivative_quad",
    "Verif.Misc.cdiff_err",
    "Verif.Misc.checkJacobian_spec_partial",
    "Verif.Misc.checkJacobian_quad_partial",
    "Verif.Misc.check_jacobian_zero_column_false",
    "Verif.Misc.checkGradient_affine",
    "Verif.Misc.check_gradient_blind_false",
    "Verif.Misc.checkHessian_quad"
   ],
   "note": "false for check_jacobian if a column of the Jacobian vanishes (0/0 is nan, and the next column makes max forget the earlier errors; witness for all steps) and for check_gradient where the residual vanishes (every Jacobian passes); exact arithmetic"
  },
  {
   "property": "C126",
   "status": "partial",
   "theorems": [
    "Verif.Domain.dimension_eq",
    "Verif.Domain.dimension_le",
    "Verif.Domain.intrinsic_dimension_partial",
    "Verif.Domain.intrinsic_dimension_redundant_false",
    "Verif.Domain.intrinsic_dimension_point_false",
    "Verif.Domain.projDir_orth",
    "Verif.Domain.projDir_fix",
    "Verif.Domain.eq_direction",
    "Verif.Domain.hull_basis_partial",
    "Verif.Domain.hull_direction_partial",
    "Verif.Domain.hull_direction_tiny_false",
    "Verif.Domain.exists_isOrth",
    "Verif.Domain.exists_isQr"
   ],
   "note": "the dimension is right exactly for independent equality constraints; false for redundant ones (a point gets -1) and for fixed variables (witnesses). The hull basis is right if singular values are zero or above 1e-8; a hull shorter than 1e-8 has no direction (witness)"
  },
  {
   "property": "C127",
   "status": "partial",
   "theorems": [
    "Verif.Func.evalAsync_ok_iff",
    "Verif.Func.async_futures",
    "Verif.Func.async_any_schedule_partial",
    "Verif.Func.async_done",
    "Verif.Func.async_one",
    "Verif.Func.async_gather",
    "Verif.Func.callAsync_eq",
    "Verif.Func.callAsync_twice",
    "Verif.Func.async_globals_false",
    "Verif.Func.async_reserved_false",
    "Verif.Func.callAsync_keyword_false"
   ],
   "note": "holds for functions that use no names of their module and keyword arguments not taken by the scheduler; false otherwise (the source is executed in an empty scope: NameError), and call_async passes return_grad to functions that may not accept it (witnesses). Tasks are deterministic and without other effects"
  },
  {
   "property": "C128",
   "status": "partial",
   "theorems": [
    "Verif.Samp.psample_cells",
    "Verif.Samp.psample_fit",
    "Verif.Samp.psample_centered",
    "Verif.Samp.cube_mids",
    "Verif.Samp.psample_none",
    "Verif.Samp.psample_terminates",
    "Verif.Samp.psample_error",
    "Verif.Samp.psample_some",
    "Verif.Samp.psSetup_ok_iff",
    "Verif.Samp.neighbors_nearest",
    "Verif.Samp.psample_latin",
    "Verif.Samp.lhs_setup_iff",
    "Verif.Samp.lhs_assertion",
    "Verif.Samp.lhs_triangle",
    "Verif.Samp.psample_planar",
    "Verif.Samp.psample_single",
    "Verif.Samp.psample_rows",
    "Verif.Samp.exists_psOracles",
    "Verif.Samp.exists_sorts"
   ],
   "note": "every sample returned is a design, the search ends, None means there is none; but calls fail with an AssertionError whenever the middles of the pieces on the coordinate axes are not in the domain (witness: a triangle with a Latin design), with a NameError for projections to more than one dimension and when the first design found has coinciding points, with an IndexError for one sample. Solvers by contract (existence proved), tolerances not modelled"
  },
  {
   "property": "C129",
   "status": "partial",
   "theorems": [
    "Verif.Lip.fit_minimal_partial",
    "Verif.Lip.fit_minimal_samples",
    "Verif.Lip.fit_succeeds_iff",
    "Verif.Lip.fit_trace_mono",
    "Verif.Lip.fit_trace_output",
    "Verif.Lip.fit_trace_rotate",
    "Verif.Lip.fit_ignores",
    "Verif.Lip.feasible_admissible",
    "Verif.Lip.lipMatrix_mono",
    "Verif.Lip.lipMatrix_same",
    "Verif.Lip.lipMatrix_output",
    "Verif.Lip.lipMatrix_rotate",
    "Verif.Lip.lipMatrix_constant",
    "Verif.Lip.lipMatrix_ignores",
    "Verif.Lip.lipMatrix_exists",
    "Verif.Lip.exists_buildOpt",
    "Verif.Lip.samples_hide_false"
   ],
   "note": "proved for exact optimal solvers; with gradients only if no mean gradient is orthogonal to an eigenvector (otherwise the sign convention zeroes a column, see C36 fit_consistent_false). A direction in which the function is constant need not be ignored by a fit of samples (samples_hide_false). Solver tolerances are not modelled"
  },
  {
   "property": "C130",
   "status": "partial",
   "theorems": [
    "Verif.Domain.build_iff",
    "Verif.Domain.build_ok_iff",
    "Verif.Domain.build_error",
    "Verif.Domain.build_isInside",
    "Verif.Domain.build_norm_iff",
    "Verif.Domain.feas_iff_holds",
    "Verif.Domain.hull_build",
    "Verif.Domain.hull_build_symm_partial",
    "Verif.Domain.hull_build_false"
   ],
   "note": "proved for all domains without convex hull factors; for convex hulls the code multiplies the untransposed matrix of points, so the constraints describe the hull of its columns when it is square and can not be built otherwise (hull_build_false)"
  },
  {
   "property": "C131",
   "status": "partial",
   "theorems": [
    "Verif.Demo.quad_eval",
    "Verif.Demo.quad_eval_cube",
    "Verif.Demo.aff_eval",
    "Verif.Demo.aff_grad",
    "Verif.Demo.quad_grad_partial",
    "Verif.Demo.quad_grad_iff",
    "Verif.Demo.quadratic_grad_false",
    "Verif.Demo.quadInit_ok_iff",
    "Verif.Demo.quadInit_error",
    "Verif.Demo.quadInit_spec",
    "Verif.Demo.affInit_spec",
    "Verif.Demo.quad_mismatch",
    "Verif.Demo.aff_mismatch"
   ],
   "note": "the gradient of QuadraticFunction is right exactly for symmetric matrices (quad_grad_iff); for the matrix of x0*x1 with one entry it is wrong (quadratic_grad_false). Everything else is proved"
  },
  {
   "property": "C132",
   "status": "partial",
   "theorems": [
    "Verif.Samp.vertexSample_cell",
    "Verif.Samp.vorSample_separated",
    "Verif.Samp.vorSample_origin",
    "Verif.Samp.vorSample_inside_partial",
    "Verif.Samp.vorSample_node_partial",
    "Verif.Samp.vorSample_ok_iff",
    "Verif.Samp.useFull_iff",
    "Verif.Samp.vorSample_outside_false"
   ],
   "note": "points can leave the domain since the nodes are perturbed without a check (vorSample_outside_false); inside if the perturbed nodes are inside. The vertex of a node may be merged into another one through a chain of steps of 1e-8 by unique_points, and the passes must not drift at a rate below 1e-8"
  },
  {
   "property": "C133",
   "status": "partial",
   "theorems": [
    "Verif.Func.approxInit_ok_iff",
    "Verif.Func.ridgeInit_ok_iff",
    "Verif.Func.basisFor_poly",
    "Verif.Func.basisFor_ok_iff",
    "Verif.Func.approxFit_ok_iff",
    "Verif.Func.approxFit_best",
    "Verif.Func.approxFit_recovers",
    "Verif.Func.approxFit_arnoldi",
    "Verif.Func.approxFit_basis_free",
    "Verif.Func.approxFit_data",
    "Verif.Func.approxFit_neg",
    "Verif.Func.approxFit_inputs",
    "Verif.Func.best_one_not_unique",
    "Verif.Func.best_exists",
    "Verif.Func.fitFixed_shape",
    "Verif.Func.fitFixed_partial",
    "Verif.Func.fitFixed_recovers_partial",
    "Verif.Func.fitFixed_recovers_false",
    "Verif.Func.parseBasis_iff",
    "Verif.Func.approxInit_basis",
    "Verif.Func.familyOf_named",
    "Verif.Func.scaleFor_spec"
   ],
   "note": "fit_fixed_subspace with rotation fails on x^2 at -1,0,1 since a direction with zero mean slope is erased (fitFixed_recovers_false); true if no direction is erased or rotate is False. Solvers are exact; nan from a degenerate scaling or an Arnoldi breakdown is an error"
  },
  {
   "property": "C134",
   "status": "partial",
   "theorems": [
    "Verif.Misc.asFit_rotate",
    "Verif.Misc.asFit_scale",
    "Verif.Misc.asFit_perm",
    "Verif.Misc.asFit_weights",
    "Verif.Misc.asFit_singvals",
    "Verif.Misc.asFit_range",
    "Verif.Misc.asFit_rank",
    "Verif.Misc.asFit_span_partial",
    "Verif.Misc.ridge_gradient",
    "Verif.Misc.asFitFunction_rank",
    "Verif.Misc.asFitFunction_exact",
    "Verif.Misc.asFitFunction_null",
    "Verif.Misc.asFitFunction_ridge_partial",
    "Verif.Misc.asFitFunction_square_false"
   ],
   "note": "Refuted where the reported directions must not vanish: for x^2 on [-1,1] fit_function reports the zero direction for every number of samples (asFitFunction_square_false); the two partial theorems assume that no direction with nonzero singular value was erased"
  },
  {
   "property": "C135",
   "status": "partial",
   "theorems": [
    "Verif.Misc.ridge_wide_refused",
    "Verif.Misc.shadow_one",
    "Verif.Misc.shadow_two",
    "Verif.Misc.shadow_refused",
    "Verif.Misc.shadow_graph",
    "Verif.Misc.ridge_plot_one",
    "Verif.Misc.ridge_plot_profile",
    "Verif.Misc.ridge_plot_two",
    "Verif.Misc.ridge_dim_error",
    "Verif.Misc.respName_ext",
    "Verif.Misc.shadow_truncated_false",
    "Verif.Misc.shadow_default_false",
    "Verif.Misc.shadow_nolen_false",
    "Verif.Misc.respName_plain_false",
    "Verif.Misc.respName_dir_false",
    "Verif.Misc.ridge_plot_scaled_false",
    "Verif.Misc.ridge_noaxis_false",
    "Verif.Misc.ridge_list_false"
   ],
   "note": "Refuted: without an axis values in excess are left out of the file; the call without data raises; PolynomialRidgeFunction objects have no dimension and every plot raises; response files of names without an extension; the curve of a direction that is not of length one; two dimensional ridge plots without an axis and ridge plots of lists raise after the samples were written"
  },
  {
   "property": "C136",
   "status": "partial",
   "theorems": [
    "Verif.Demo.otl_eval",
    "Verif.Demo.borehole_eval_of",
    "Verif.Demo.borehole_eval",
    "Verif.Demo.borehole_uncertain_eval_partial",
    "Verif.Demo.borehole_uncertain_undefined",
    "Verif.Demo.borehole_uncertain_false",
    "Verif.Demo.arm_eval",
    "Verif.Demo.arm_grad_undefined_false",
    "Verif.Demo.piston_eval",
    "Verif.Demo.hartmann_eval",
    "Verif.Demo.golinski_eval",
    "Verif.Demo.beam_eval",
    "Verif.Demo.wing_eval"
   ],
   "note": "Proved for every demo on its design box, on expressions translated from the python syntax trees; the same theorems show that they equal the functions of C68 and C82. Refuted: the gradient of the robot arm at folded arms inside the domain, the borehole function at well radii of its uncertain domain that are not positive"
  },
  {
   "property": "C137",
   "status": "partial",
   "theorems": [
    "Verif.Misc.Contour.contour_text",
    "Verif.Misc.Contour.contour_roundtrip",
    "Verif.Misc.Contour.contour_other",
    "Verif.Misc.Contour.contour_path_ok_iff",
    "Verif.Misc.Contour.contour_unknown",
    "Verif.Misc.Contour.contour_prepared_false",
    "Verif.Misc.Contour.contour_empty_false"
   ],
   "note": "Proved for the format matlab, up to rounding to 16 digits. Refuted: the format prepared always raises and leaves an empty file; empty paths are written as lines without points; curved segments are dropped"
  },
  {
   "property": "C138",
   "status": "partial",
   "theorems": [
    "Verif.Domain.class_chain",
    "Verif.Domain.class_guard",
    "Verif.Domain.class_box",
    "Verif.Domain.class_box_iff",
    "Verif.Domain.class_linineq_partial",
    "Verif.Domain.class_linquad_partial",
    "Verif.Domain.class_product",
    "Verif.Domain.latin_route",
    "Verif.Domain.class_hull_false",
    "Verif.Domain.class_tensor_false"
   ],
   "note": "Proved for boxes (all products included), for linear domains without convex hulls, and for linear-quadratic domains that are not products. Refuted: convex hulls claim to be linear and linear-quadratic though the constraints they export do not determine them; products with quadratic constraints export none of them but claim to be linear-quadratic"
  },
  {
   "property": "C139",
   "status": "partial",
   "theorems": [
    "Verif.Func.BaseFn.call_is_eval",
    "Verif.Func.BaseFn.call_grad_is_both",
    "Verif.Func.BaseFn.eval_is_call",
    "Verif.Func.BaseFn.abstract_recursion",
    "Verif.Func.BaseFn.hessian_missing",
    "Verif.Func.BaseFn.surrogate_call",
    "Verif.Func.BaseFn.surrogate_keywords",
    "Verif.Func.BaseFn.grad_missing_false",
    "Verif.Func.BaseFn.evalOnly_grad_false",
    "Verif.Func.BaseFn.eval_drops_keywords_false"
   ],
   "note": "Proved for classes that define evaluation and gradient (all polynomial and Lipschitz surrogates) or calling. Refuted: classes without a gradient (Gaussian processes, Lipschitz approximations) evaluate the function hundreds of times and raise RecursionError; keyword arguments of eval are dropped if a class defines calling"
  },
  {
   "property": "C140",
   "status": "partial",
   "theorems": [
    "Verif.Func.slopes_deriv",
    "Verif.Func.finish_ordered_partial",
    "Verif.Func.finish_uphill_one_partial",
    "Verif.Func.finish_uphill_iff",
    "Verif.Func.finish_ok_two",
    "Verif.Func.exists_leftSingular",
    "Verif.Func.leftSingular_of_svd",
    "Verif.Func.finish_uphill_false"
   ],
   "note": "Proved for 2-norm fits in which no direction is erased (C78): the order for any number of directions, the signs for one direction; for more directions exactly when the sign is right. Refuted: the signs are chosen from slopes at the samples projected before the rotation, so a direction can point downhill (2 directions, 9 samples, exact fit)"
  },
  {
   "property": "C141",
   "status": "partial",
   "theorems": [
    "Verif.Refit.remembers_iff",
    "Verif.Refit.poly_forgets",
    "Verif.Refit.poly_fit_value",
    "Verif.Refit.poly_keeps_partial",
    "Verif.Refit.ridge_forgets",
    "Verif.Refit.ridge_fit_value",
    "Verif.Refit.lipApprox_forgets",
    "Verif.Refit.lipApprox_fit_value",
    "Verif.Refit.lipApprox_samples",
    "Verif.Refit.const_forgets",
    "Verif.Refit.const_keeps_partial",
    "Verif.Refit.mat_forgets",
    "Verif.Refit.mat_remembers",
    "Verif.Refit.as_remembers",
    "Verif.Refit.poly_failed",
    "Verif.Refit.poly_keeps_false",
    "Verif.Refit.ridge_keeps_false",
    "Verif.Refit.lipApprox_keeps_false",
    "Verif.Refit.const_keeps_false",
    "Verif.Refit.len_keeps_false"
   ],
   "note": "Refits forget: proved for all classes. Failed fits: proved for active subspaces and for U, H, L of Lipschitz matrices, and in special cases for the others; refuted for polynomial, ridge and Lipschitz approximations (the samples, basis or subspace are replaced, the coefficients are kept), the Lipschitz constant (its size) and len of a Lipschitz matrix"
  },
  {
   "property": "C142",
   "status": "partial",
   "theorems": [
    "Verif.Share.isolated_iff",
    "Verif.Share.safe_iff",
    "Verif.Share.get_content",
    "Verif.Share.safe_getters",
    "Verif.Share.safe_getters_false",
    "Verif.Share.sweep_ints_error",
    "Verif.Share.isolatedIn_iff",
    "Verif.Share.construct_content",
    "Verif.Share.isolated_classes",
    "Verif.Share.isolatedIn_classes",
    "Verif.Share.isolated_getters_false",
    "Verif.Share.isolated_args_false",
    "Verif.Share.deepCopy_isolated",
    "Verif.Share.inPlace_copy",
    "Verif.Share.calls_leave",
    "Verif.Share.lloyd_argument_false",
    "Verif.Share.sweep_same",
    "Verif.Share.sweep_list",
    "Verif.Share.sweep_floats",
    "Verif.Share.sweep_argument_iff",
    "Verif.Share.sweep_free",
    "Verif.Share.sweep_ints_false",
    "Verif.Share.warmStart_iff"
   ],
   "note": "Exact criterion for classes; holds for samplers, convex hulls and Gaussian processes, and for domains, fitted subspaces, Lipschitz matrices and ridge functions as long as the arrays obtained from their properties are not written to. False: these properties give out the arrays of the object; tensor bases, LipschitzMatrix(L=..) and the bound functions keep the array of the caller; minimax_lloyd and sweep overwrite an argument, minimax_cluster adds a key to the dictionary passed. Plain attributes are not considered."
  },
  {
   "property": "C143",
   "status": "partial",
   "theorems": [
    "Verif.Dtype.tensorV_float",
    "Verif.Dtype.tensor_scaled_int",
    "Verif.Dtype.tensor_unscaled_int_false",
    "Verif.Dtype.tensorDV_float",
    "Verif.Dtype.tensorDV_int_false",
    "Verif.Dtype.arnoldiX_float",
    "Verif.Dtype.arnoldiV_float",
    "Verif.Dtype.arnoldiV_int_false",
    "Verif.Dtype.arnoldiV_zero",
    "Verif.Dtype.arnoldi_int_iff",
    "Verif.Dtype.poly_const_int_false",
    "Verif.Dtype.vertexSampleD_float",
    "Verif.Dtype.vertexSample_int_iff",
    "Verif.Dtype.vertexSample_int_error",
    "Verif.Dtype.maximinBlockD_float",
    "Verif.Dtype.maximinBlock_int_false",
    "Verif.Dtype.lloydLoopD_float",
    "Verif.Dtype.lloyd_int_entries",
    "Verif.Dtype.lloyd_int_false"
   ],
   "note": "Holds for tensor bases built from points and for the Arnoldi basis at its own points. False: bases built with dim= and Arnoldi bases of degree one or more raise TypeError at other integers, Arnoldi bases of degree zero give zero; voronoi_vertex_sample and maximin_block raise TypeError; minimax_lloyd rounds every centre towards zero. With floats the loops are the models of the other properties (refinement). Box corners and sweep on integers are in C13 and C142."
  },
  {
   "property": "C144",
   "status": "partial",
   "theorems": [
    "Verif.Round.insideF_inside",
    "Verif.Round.inside_insideF",
    "Verif.Round.inBounds_inBoundsF",
    "Verif.Round.slack_default",
    "Verif.Round.quad_err",
    "Verif.Round.Computes.err",
    "Verif.Round.uniformF_mem",
    "Verif.Round.box_sample_inside",
    "Verif.Round.box_corner_inside",
    "Verif.Round.seqLib_ok",
    "Verif.Round.double_u",
    "Verif.Round.insideF_rejects_false"
   ],
   "note": "the last sentence is false for large numbers (2^60 + 1 - 2^60 = 1 is computed as 0); overflow, underflow and hulls are not modelled"
  },
  {
   "property": "C145",
   "status": "partial",
   "theorems": [
    "Verif.Round.roundtripF",
    "Verif.Round.roundtrip1",
    "Verif.Round.mv_diag",
    "Verif.Round.normalizeF_eq",
    "Verif.Round.unnormalizeF_eq",
    "Verif.Round.normalizeF_range",
    "Verif.Round.normalizeF_false"
   ],
   "note": "the last clause holds up to a factor which grows with the distance of the box from the origin relative to its width (normalizeF_range); it fails badly for narrow boxes far away (normalizeF_false: a lower bound becomes -2)"
  },
  {
   "property": "C146",
   "status": "partial",
   "theorems": [
    "Verif.Round.gradF_error",
    "Verif.Round.moved_eq",
    "Verif.Round.gradF_lost_false"
   ],
   "note": "the last clause fails: in a coordinate without bounds, which is not rescaled, the fixed step is lost in rounding at 2^31 and the gradient of every function is zero there"
  },
  {
   "property": "C147",
   "status": "proved",
   "theorems": [
    "Verif.Round.evalF_backward",
    "Verif.Round.vcF_backward",
    "Verif.Round.colF_rel",
    "Verif.Round.Computes.backward",
    "Verif.Round.scaleF_mem",
    "Verif.Round.double_scale"
   ],
   "note": "the statement about the scaled points for formats in which doubling is exact (double precision is one); equal bounds of the scaling divide by zero and are excluded"
  },
  {
   "property": "C148",
   "status": "proved",
   "theorems": [
    "Verif.Round.chebF_error",
    "Verif.Round.colF_cheb",
    "Verif.Round.chebVal_eq_chebPhi",
    "Verif.Round.scaleF_mem"
   ],
   "note": "for points at which doubling is exact; that scaled points lie in [-1, 1] is scaleF_mem (C147)"
  },
  {
   "property": "C149",
   "status": "proved",
   "theorems": [
    "Verif.Round.extent_move_inside",
    "Verif.Round.extentF_some",
    "Verif.Round.extentF_nonneg",
    "Verif.Round.extentF_le"
   ],
   "note": "starting points of the box itself; for points accepted only by the tolerance see C08"
  },
  {
   "property": "C150",
   "status": "partial",
   "theorems": [
    "Verif.Round.interval_near",
    "Verif.Round.interval_contains",
    "Verif.Round.interval_noise",
    "Verif.Round.interval_at_data",
    "Verif.Round.distF_err",
    "Verif.Round.interval_order_false"
   ],
   "note": "the last clause is false: for f(x) = x with two data points and the exact Lipschitz matrix the computed ends are in the wrong order (interval_order_false); they are in order up to twice the error (interval_contains)"
  },
  {
   "property": "C151",
   "status": "proved",
   "theorems": [
    "Verif.Round.abs_legPhi_le",
    "Verif.Round.legF_error",
    "Verif.Round.colF_leg",
    "Verif.Round.scaleF_mem"
   ],
   "note": "the integer factors of the recurrence are exact, as they are in numpy; that scaled points lie in [-1, 1] is scaleF_mem (C147)"
  },
  {
   "property": "C152",
   "status": "partial",
   "theorems": [
    "Verif.Misc.asFit_C_limit",
    "Verif.Misc.asFit_values_limit",
    "Verif.Misc.asFit_stable",
    "Verif.Misc.asFit_stable_values",
    "Verif.Misc.asFit_consistent_partial",
    "Verif.Misc.asFit_subspace_limit_partial",
    "Verif.Misc.asFit_direction_limit",
    "Verif.Misc.asFit_nonzero_limit",
    "Verif.Misc.gap_bound",
    "Verif.Misc.head_diff",
    "Verif.Misc.quadMC_limit",
    "Verif.Misc.quadMC_limit_uniform",
    "Verif.Misc.exists_iid",
    "Verif.Misc.asFit_zero_false"
   ],
   "note": "the statements about the reported subspace need that no direction is reported as the zero vector (C80, asFit_zero_false); asFit_nonzero_limit shows this for simple eigenvalues and a mean gradient with a component along every eigenvector"
  },
  {
   "property": "C153",
   "status": "proved",
   "theorems": [
    "Verif.Lip.fit_trace_limit",
    "Verif.Lip.fit_matrix_limit",
    "Verif.Lip.limit_least",
    "Verif.Lip.bounds_near",
    "Verif.Lip.width_le",
    "Verif.Lip.fit_bounds_limit",
    "Verif.Lip.constant_limit",
    "Verif.Lip.fit_first",
    "Verif.Lip.iid_fills",
    "Verif.Lip.iid_injective",
    "Verif.Lip.uniform_charges",
    "Verif.Lip.uniform_limits"
   ],
   "note": "real arithmetic; solver contract BuildOpt as in C129; repeated samples make LipschitzConstant return nan or raise (C37, constant_duplicate_false), hence distinct samples"
  },
  {
   "property": "C154",
   "status": "proved",
   "theorems": [
    "Verif.Geo.box_law",
    "Verif.Geo.segment_law",
    "Verif.Geo.simplex_law",
    "Verif.Geo.solidSimplex_volume",
    "Verif.Geo.sorted_law",
    "Verif.Geo.simplexRow_gaps",
    "Verif.Geo.sphere_law",
    "Verif.Geo.sphere_equivariant",
    "Verif.Geo.gauss_rotate"
   ],
   "note": "generators as contracts: uniform and normal numbers are independent real numbers with these laws. The default sampler (hit-and-run) is not uniform for a fresh object, see C119; samples of normal domains: C113"
  },
  {
   "property": "C155",
   "status": "partial",
   "theorems": [
    "Verif.Round.constF_near",
    "Verif.Round.const_double",
    "Verif.Round.ratioF_near",
    "Verif.Round.dist_rel",
    "Verif.Round.normF_err",
    "Verif.Round.constF_error",
    "Verif.Round.const_lower_false"
   ],
   "note": "The computed constant is within the stated relative error of the smallest one, without any condition on the separation of the points.  It can be smaller than the smallest constant: values 2 and 0 at 3 and 0 give a number below 2/3, with which the data are not consistent.  Overflow and underflow are not modelled, and no noise level is used."
  },
  {
   "property": "C156",
   "status": "proved",
   "theorems": [
    "Verif.Samp.guarantees_iff",
    "Verif.Samp.adaptive_no_better",
    "Verif.Samp.greedy_design",
    "Verif.Samp.greedy_adaptive",
    "Verif.Samp.greedy_rate",
    "Verif.Samp.greedy_limit",
    "Verif.Samp.greedy_interval",
    "Verif.Samp.width_le_dist",
    "Verif.Samp.zero_width",
    "Verif.Samp.coffee_continue",
    "Verif.Samp.coffee_fill"
   ],
   "note": "FarthestCand states that the candidates include a farthest point; it is proved for intervals (farthestCand_1d), so greedy_interval needs no assumption on the candidates."
  },
  {
   "property": "C157",
   "status": "partial",
   "theorems": [
    "Verif.Samp.latinBox_additive",
    "Verif.Samp.latinMaximin_additive",
    "Verif.Samp.latinBox_error",
    "Verif.Samp.latinMaximin_error",
    "Verif.Samp.latinBox_center",
    "Verif.Samp.latinMaximin_center",
    "Verif.Samp.boxMean_linear",
    "Verif.Samp.latinBox_marginal",
    "Verif.Samp.latinBox_expected",
    "Verif.Samp.latin_unbiased_false"
   ],
   "note": "All but the first claim hold.  The estimate is not unbiased for the mean over the box, because the points are midpoints of the strata: for the square of the coordinate every design gives 1/3 - 1/(12 N^2) instead of 1/3.  It is unbiased for the mean over the grid of midpoints (latinBox_expected)."
  },
  {
   "property": "C158",
   "status": "partial",
   "theorems": [
    "Verif.Lip.lead_same",
    "Verif.Lip.lead_reduces",
    "Verif.Lip.lead_exact",
    "Verif.Lip.lead_antitone",
    "Verif.Lip.lead_kernel",
    "Verif.Lip.lead_optimal",
    "Verif.Lip.lead_ball",
    "Verif.Lip.lead_samples",
    "Verif.Lip.exists_eighAsc",
    "Verif.Lip.lead_false"
   ],
   "note": "The error bound holds for every fit.  Optimality holds whenever no reported direction is zero, in particular for all fits to samples (lead_samples).  It fails for gradients that cancel along the leading direction: sign fixing multiplies that direction by sign(0) = 0 (lead_false)."
  },
  {
   "property": "C159",
   "status": "proved",
   "theorems": [
    "Verif.Func.fit_degree_mono",
    "Verif.Func.exists_interpolant",
    "Verif.Func.fit_interpolates",
    "Verif.Func.interpolate_sharp",
    "Verif.Func.exists_poly_near",
    "Verif.Func.misfit_le",
    "Verif.Func.fit_near",
    "Verif.Func.sampling_inequality",
    "Verif.Func.fit_lebesgue",
    "Verif.Func.fit_converges"
   ],
   "note": "Solvers are exact (FitSolver.Exact), as in C133; when fit returns is settled there (approxFit_ok_iff)."
  },
  {
   "property": "C160",
   "status": "partial",
   "theorems": [
    "Verif.GP.gp_error",
    "Verif.GP.gp_error_default",
    "Verif.GP.gp_error_sharp",
    "Verif.GP.gp_error_false",
    "Verif.GP.gp_var_attained",
    "Verif.GP.gp_var_least_partial",
    "Verif.GP.gp_var_mono_partial",
    "Verif.GP.gp_var_mono_false",
    "Verif.GP.gp_var_zero_iff_partial",
    "Verif.GP.gp_far",
    "Verif.GP.rule_error",
    "Verif.GP.combo_matches",
    "Verif.GP.gp_error_any",
    "Verif.GP.gp_error_cluster",
    "Verif.GP.gp_converges"
   ],
   "note": "The error bound holds for all samples (also coinciding), length scales and points with the variance enlarged by (tau/(500 eps + tau))^2, about 1e-4 for the default nugget; without the enlargement it is false (gp_error_false: at a sample the variance is zero but the mean is not the value). gp_converges holds without restriction for functions that are finite combinations of kernels. Sharpness, vanishing at the samples only, and monotonicity under more data hold when no eigenvalue of the kernel is dropped; gp_var_mono_false: a second sample close to the first one enlarges the variance at the first. The length scale is fixed: the optimizer may choose another one for the larger data. Exact arithmetic."
  },
  {
   "property": "C161",
   "status": "partial",
   "theorems": [
    "Verif.Misc.localLinear_rate",
    "Verif.Misc.localLinear_rate_perplexity",
    "Verif.Misc.localLinear_rate_sharp",
    "Verif.Misc.localLinear_contract_false",
    "Verif.Misc.localLinear_symmetric",
    "Verif.Misc.localFit_pythagoras",
    "Verif.Misc.localFit_error",
    "Verif.Misc.localFit_rate",
    "Verif.Misc.localFit_symmetric",
    "Verif.Misc.quadratic_odd",
    "Verif.Misc.spread"
   ],
   "note": "The error bound holds for every bandwidth relative to the spread, and with a perplexity whenever the call returns. The convergence claim fails for the default perplexity: for samples at squared distances 0, 1, 2, 3 times h^2 the call raises for every h up to 1/10 (localLinear_contract_false), since the bracket for the bandwidth does not scale with the distances. Exact arithmetic; the row is zero when the least squares solver fails."
  },
  {
   "property": "C162",
   "status": "partial",
   "theorems": [
    "Verif.Opt.gn_linear_partial",
    "Verif.Opt.gn_linear_stuck",
    "Verif.Opt.gn_units_false",
    "Verif.Opt.linear_accept_iff",
    "Verif.Opt.gn_slope_rate",
    "Verif.Opt.gn_gradient_rate",
    "Verif.Opt.lsq_normal",
    "Verif.Opt.exists_lsqSolver"
   ],
   "note": "The sufficient decrease condition compares the residual norm with the slope of half its square, so it depends on the units. On an affine residual a minimizer is returned if the residual norms at the start and at the minimum add up to less than 10^4 (gn_linear_partial), and the starting point is returned unchanged if the norm at the start is 10^4 or more (gn_linear_stuck), for all options; linear_accept_iff says exactly which steps are accepted. Between the two cases only the accepted step is characterized. Exact arithmetic."
  },
  {
   "property": "C163",
   "status": "proved",
   "theorems": [
    "Verif.Opt.minimax_affine",
    "Verif.Opt.minimax_convex",
    "Verif.Opt.mmPass_affine",
    "Verif.Opt.mmLoop_affine",
    "Verif.Opt.mmLoop_convex",
    "Verif.Opt.step_gap",
    "Verif.Opt.local_global",
    "Verif.Opt.exists_stepProblem"
   ],
   "note": "With the trust region the set must have diameter at most 2^(maxiter - 1), since the radius starts at 1 and doubles. The tolerance for convex functions covers the curvature the backtracking can resolve, tol_dx times the size of the gradients and tol_df. Exact solver for the steps (exists on every compact convex set, exists_stepProblem) and exact arithmetic."
  },
  {
   "property": "C164",
   "status": "partial",
   "theorems": [
    "Verif.Opt.seqlp_linear_partial",
    "Verif.Opt.seqlp_infeasible_false",
    "Verif.Opt.lp_opt",
    "Verif.Opt.lp_feas",
    "Verif.Opt.lpTry_opt",
    "Verif.Opt.lpLoop_opt",
    "Verif.Opt.bound_linLP"
   ],
   "note": "Holds for starts in the domain that satisfy the bounds on the function (seqlp_linear_partial). For other starts it is false: a step is taken only if the objective decreases, so from a start that violates the bounds with a smaller objective the call returns the start, whatever the options (seqlp_infeasible_false). Quiet calls, without the further constraints; exact solver and exact arithmetic."
  },
  {
   "property": "C165",
   "status": "partial",
   "theorems": [
    "Verif.Misc.asFit_values",
    "Verif.Misc.asFit_near",
    "Verif.Misc.captured_perturb",
    "Verif.Misc.asFit_tilt",
    "Verif.Misc.asFit_tilt_vanishes",
    "Verif.Misc.asFit_gap_false",
    "Verif.Misc.outerSum_diff",
    "Verif.Misc.grads_rate",
    "Verif.Misc.opg_near_fixed",
    "Verif.Misc.opg_near_perplexity",
    "Verif.Misc.opg_default",
    "Verif.Misc.opg_plain_ok",
    "Verif.Misc.localLinear_single"
   ],
   "note": "For directions that are not replaced by the zero vector (C80 shows when they are); the outer product gradient method without standardization (with it the directions are wrong, C66). The gap is needed: gradients that differ arbitrarily little can have orthogonal first directions (asFit_gap_false)."
  },
  {
   "property": "C166",
   "status": "partial",
   "theorems": [
    "Verif.Func.controls_exists",
    "Verif.Func.controls_unisolvent",
    "Verif.Func.recover_stable",
    "Verif.Func.recover_noise",
    "Verif.Func.recover_exact",
    "Verif.Func.recover_directions",
    "Verif.Func.recover_subspace",
    "Verif.Func.essential_of_slopes",
    "Verif.Func.alt_recovers_partial",
    "Verif.Func.varpro_recovers_partial",
    "Verif.Func.affine_recovers",
    "Verif.Func.recover_false"
   ],
   "note": "For rotate=True provided that the final choice of signs erases no direction (C78). Samples that only pass the check of fit are not enough: x0 squared at (0,0), (+-1,+-1) is reproduced along x1 (recover_false). Bounded fits of degree one with one direction are excluded (C100)."
  },
  {
   "property": "C167",
   "status": "partial",
   "theorems": [
    "Verif.Misc.fit_minimal_nonzero",
    "Verif.Misc.fit_spectral",
    "Verif.Misc.active_le_lip",
    "Verif.Misc.active_values_le_lip",
    "Verif.Misc.constant_between",
    "Verif.Misc.diag_between",
    "Verif.Misc.exists_diagOpt",
    "Verif.Misc.constant_tighter_false"
   ],
   "note": "Under the hypothesis that no reported direction is zero (signs, C38). Smaller trace does not mean smaller in every direction: the Lipschitz matrix of three samples is a quarter longer along an axis than the constant (constant_tighter_false)."
  },
  {
   "property": "C168",
   "status": "proved",
   "theorems": [
    "Verif.Geo.tensor_law",
    "Verif.Geo.boxes_law",
    "Verif.Geo.boxes_uniform",
    "Verif.Geo.product_density",
    "Verif.Geo.mixed_law"
   ],
   "note": "Random numbers of the factors independent (one generator read in sequence). Factors sampled by hit-and-run or truncated normals enter through their law only (C119, C113)."
  },
  {
   "property": "C169",
   "status": "proved",
   "theorems": [
    "Verif.Domain.hitRun_reaches",
    "Verif.Domain.hitRun_forgets",
    "Verif.Domain.hitRun_converges",
    "Verif.Domain.hitRate_lt_one",
    "Verif.Domain.hitKernel_inside",
    "Verif.Domain.seen_lower"
   ],
   "note": "Exact arithmetic; domains without equality constraints (C119 has these); normal vectors as in numpy. hitKernel_inside: the kernels assumed exist."
  },
  {
   "property": "C170",
   "status": "proved",
   "theorems": [
    "Verif.Opt.gn_quadratic",
    "Verif.Opt.gn_step_bounds",
    "Verif.Opt.gn_full_step",
    "Verif.Opt.gnStep_quadratic",
    "Verif.Opt.gn_grad_error"
   ],
   "note": "Exact arithmetic. Needs residuals of at most 5000 near the solution: the line search compares norms with products of slopes, so it depends on units (gn_linear_stuck of C162 shows the need)."
  },
  {
   "property": "C171",
   "status": "partial",
   "theorems": [
    "Verif.Samp.minimaxDesign_exact",
    "Verif.Samp.minimaxDesign_choice",
    "Verif.Samp.minimaxDesign_cluster_partial",
    "Verif.Samp.minimaxDesign_many_false"
   ],
   "note": "Proved up to 10000 points. The clustering method discretizes with at most 10000 points and takes its initial centers from them: more points are never delivered, and the call raises as soon as two points of the sequence differ (proved for all domains). Corner solvers that raise are not modelled."
  },
  {
   "property": "C172",
   "status": "partial",
   "theorems": [
    "Verif.Round.linF_ends",
    "Verif.Round.linF_inside",
    "Verif.Round.linF_mono",
    "Verif.Round.linF_error",
    "Verif.Round.linF_strict",
    "Verif.Round.gridF_all",
    "Verif.Round.midF_stratum",
    "Verif.Round.midF_inside",
    "Verif.Round.sweepF_ends",
    "Verif.Round.sweepF_error",
    "Verif.Round.sweepF_inside",
    "Verif.Round.sweepF_accepted",
    "Verif.Round.linF_distinct_false",
    "Verif.Round.double_doubles",
    "Verif.Round.double_few",
    "Verif.Round.double_gap"
   ],
   "note": "Distinctness holds when the spacing exceeds the rounding errors (linF_strict) and fails otherwise: no number lies between neighbouring floats, e.g. between 1 and its successor. Latin hypercube coordinates need a binary format (doubling exact; proved for double precision with ties upwards). No overflow, underflow or subnormal numbers. Sweeps: per coordinate of a box."
  },
  {
   "property": "C173",
   "status": "partial",
   "theorems": [
    "Verif.Demo.runJob_history",
    "Verif.Demo.runJob_clean",
    "Verif.Demo.runJob_clean_given",
    "Verif.Demo.runJob_outside",
    "Verif.Demo.runJob_kept",
    "Verif.Demo.runJob_again",
    "Verif.Demo.runJob_refused",
    "Verif.Demo.runJob_leaks",
    "Verif.Demo.runBatch_pointwise",
    "Verif.Demo.runBatch_kept_false",
    "Verif.Demo.tmpSpec_exists"
   ],
   "note": "Everything is proved for calls that succeed. The disk is not as before after a call that raises: the directory of a run whose results cannot be read is left behind (runJob_leaks), and directories made above a given one remain (runJob_clean_given). A batch of two or more points with a kept directory always raises (runBatch_kept_false). File system: directories and text files by path; no links, permissions or full disks; tempfile.mkdtemp by its contract."
  },
  {
   "property": "C174",
   "status": "proved",
   "theorems": [
    "Verif.Demo.tasks_isolated",
    "Verif.Demo.tasks_safe",
    "Verif.Demo.tasks_clean",
    "Verif.Demo.tasks_finish",
    "Verif.Demo.jobTask_alone"
   ],
   "note": "Each step (writing a file, a step of the program inside its directory, removing the directory) is atomic; mkdtemp returns a name not in use at that time, which may be one used earlier. The programs see their own directory only (container mounts)."
  },
  {
   "property": "C175",
   "status": "partial",
   "theorems": [
    "Verif.Demo.log_possible_iff",
    "Verif.Demo.log_sound",
    "Verif.Demo.log_complete_false",
    "Verif.Demo.runJob_log_free",
    "Verif.Demo.demo_log_free",
    "Verif.Demo.runJob_exitCode"
   ],
   "note": "False: the logs that can occur are exactly the beginnings of the output with at least one line (log_possible_iff), so lines printed before the end may be missing (log_complete_false); the exit code has no influence on result or disk (runJob_exitCode): a failing program that leaves a results file is believed. Proved: logs are beginnings of the output; results do not depend on the log."
  },
  {
   "property": "C176",
   "status": "partial",
   "theorems": [
    "Verif.Demo.multif_ctor_used",
    "Verif.Demo.multif_ctor_ignored",
    "Verif.Demo.multif_bound_ok_iff",
    "Verif.Demo.multif_ctor_keep_raises",
    "Verif.Demo.naca_ctor_used",
    "Verif.Demo.dec16_error",
    "Verif.Demo.dec16_injective_false",
    "Verif.Demo.oas_batch",
    "Verif.Demo.oas_one",
    "Verif.Demo.bumps_spec"
   ],
   "note": "False: MULTIF drops level, su2_maxiter and workdir given to its constructor (multif_ctor_ignored), so keeping data as documented always raises (multif_ctor_keep_raises); inputs are written with sixteen digits, which does not separate neighbouring doubles (dec16_injective_false; relative error at most 5e-16 by dec16_error); a batch of one point of OpenAeroStruct raises (oas_batch). The rest is proved."
  },
  {
   "property": "C177",
   "status": "partial",
   "theorems": [
    "Verif.Lip.uncertainty_order",
    "Verif.Lip.constantFit_order",
    "Verif.Lip.fitScale_perm",
    "Verif.Lip.finishFit_order",
    "Verif.Lip.lipFit_order",
    "Verif.Geo.nearest_order",
    "Verif.Geo.fillOver_order",
    "Verif.Geo.voronoi1d_order",
    "Verif.Geo.fillDistance1d_order",
    "Verif.Geo.uniquePoints_order_false",
    "Verif.Geo.uniquePoints_order_partial",
    "Verif.Misc.perpBandwidth_order",
    "Verif.Misc.localLinear_order",
    "Verif.Basis.arnoldi_same",
    "Verif.Basis.arnoldiBasis_order",
    "Verif.Basis.vandermondeArnoldi_order"
   ],
   "note": "False for unique_points: three points, each within the tolerance of the next, leave one or two points depending on their order (uniquePoints_order_false); points of which no two are close are all kept in every order. Local linear models need affinely spanning samples and least squares that succeed. The Lipschitz matrix has the same trace and is a smallest one for both orders; the solver may return different matrices of that trace. Exact arithmetic. Gaussian processes: C122 (gp_mean_perm), active subspaces: asFit_perm."
  },
  {
   "property": "C178",
   "status": "partial",
   "theorems": [
    "Verif.Misc.percentile_ok_iff",
    "Verif.Misc.percentile_between",
    "Verif.Misc.safety_count",
    "Verif.Misc.safety_fraction_partial",
    "Verif.Misc.chance_upper",
    "Verif.Misc.chance_lower",
    "Verif.Misc.randomRidge_split",
    "Verif.Misc.chance_docs_false",
    "Verif.Misc.safety_fraction_false",
    "Verif.Misc.randomRidge_ignores"
   ],
   "note": "Proved when prob times the number of samples is a whole number (safety_fraction_partial), otherwise fewer than (N-1) prob + 1 samples violate. False for probabilities below one sample (safety_fraction_false): the percentile interpolates. The direction in the documentation of the modes is reversed for increasing profiles (chance_docs_false). The number of samples asked for is ignored (randomRidge_ignores). The module cannot be imported as it stands (it imports a class that does not exist); the functions are modelled as written."
  },
  {
   "property": "C179",
   "status": "partial",
   "theorems": [
    "Verif.Domain.nearest_exists",
    "Verif.Domain.nearest_unique_sees",
    "Verif.Domain.nearest_nonexpansive",
    "Verif.Domain.pts_closed",
    "Verif.Domain.seesAll_eye",
    "Verif.Domain.closest_total",
    "Verif.Domain.closest_idempotent",
    "Verif.Domain.closest_stable_partial",
    "Verif.Domain.closest_jump_false"
   ],
   "note": "Proved: existence, uniqueness, totality of the call after any history, idempotence. The comparison of two answers is proved for points that are not merely inside up to the tolerance (closest_stable_partial); it is false without that condition (closest_jump_false): a point that is inside up to the tolerance is returned unchanged while a point a little further out is projected, so the answer jumps by the tolerance."
  },
  {
   "property": "C180",
   "status": "partial",
   "theorems": [
    "Verif.Misc.densityCurve_ok_iff",
    "Verif.Misc.densityCurve_sound",
    "Verif.Misc.kde_total",
    "Verif.Misc.kde_mean",
    "Verif.Misc.kde_pos_iff",
    "Verif.Misc.density_range_mass",
    "Verif.Misc.densityCurve_raises_false",
    "Verif.Misc.forwardPdf_mean",
    "Verif.Misc.randomRidgePdf_ignores"
   ],
   "note": "Proved: number of points, range, nonnegativity, integral one, mean of the samples. False: the exported range always carries less than the whole mass, at least half of it (density_range_mass), because the curve stops at the extreme samples; samples whose quartiles coincide raise ValueError although they differ (densityCurve_raises_false). random_ridge_pdf ignores the number of samples (randomRidgePdf_ignores)."
  },
  {
   "property": "C181",
   "status": "partial",
   "theorems": [
    "Verif.Domain.corner_describes",
    "Verif.Domain.corner_total",
    "Verif.Domain.corner_subadditive",
    "Verif.Domain.corner_homogeneous",
    "Verif.Domain.corner_mono",
    "Verif.Domain.corner_determines",
    "Verif.Domain.corner_distance_le",
    "Verif.Domain.corner_distance_attained",
    "Verif.Domain.box_corner_describes",
    "Verif.Domain.corner_describes_false"
   ],
   "note": "Proved for all domains whose normalization is right (no mixed finite and infinite bounds, quadratic centers not moved) and for boxes with finite float bounds. False for mixed bounds (corner_describes_false): on a strip no direction gets a corner."
  },
  {
   "property": "C182",
   "status": "partial",
   "theorems": [
    "Verif.Misc.fd_table",
    "Verif.Misc.fd_rate",
    "Verif.Misc.curvedAlong_of_deriv",
    "Verif.Misc.fd_rate_sharp",
    "Verif.Misc.fd_gradErr",
    "Verif.Misc.fd_active_near",
    "Verif.Misc.fd_active_converges",
    "Verif.Misc.fd_fixed_step_false"
   ],
   "note": "Proved for all steps, in real arithmetic. The step of the code is fixed at 1e-7: for every fixed step there is an analytic function whose finite difference is zero where the derivative is one (fd_fixed_step_false); rounding errors of the differences are not in this model."
  },
  {
   "property": "C183",
   "status": "partial",
   "theorems": [
    "Verif.Domain.normal_law_limit",
    "Verif.Domain.normal_moments",
    "Verif.Domain.normal_truncated_moments",
    "Verif.Domain.normal_truncated_cov_false",
    "Verif.Domain.normal_average",
    "Verif.Domain.normal_average_cov",
    "Verif.Domain.normal_law_prob",
    "Verif.Domain.lognormal_mean",
    "Verif.Domain.lognormal_law",
    "Verif.Domain.box_moments",
    "Verif.Domain.condBox_pi"
   ],
   "note": "Proved for normal domains without truncation, boxes and untruncated lognormal domains (draws of the generator independent and exactly distributed). With truncation the mean is right but the covariance of the samples is that of the domain times a factor less than one (normal_truncated_moments, normal_truncated_cov_false)."
  },
  {
   "property": "C184",
   "status": "partial",
   "theorems": [
    "Verif.Geo.fillEstimate_limit",
    "Verif.Geo.fillEstimate_almost_sure",
    "Verif.Geo.fillEstimate_ge",
    "Verif.Geo.fillEstimate_segment",
    "Verif.Geo.fillEstimate_limit_false"
   ],
   "note": "Proved provided that starts near the points furthest from the samples never approach a sample at a positive rate below the absolute tolerance 1e-8 (always so with one sample). Without the provision it is false: for a metric of size 1e-4 on an interval every start is moved next to a sample, and no number of starts brings the estimate above a hundredth of the fill distance (fillEstimate_limit_false)."
  },
  {
   "property": "C185",
   "status": "partial",
   "theorems": [
    "Verif.Samp.design_fills",
    "Verif.Samp.design_dense",
    "Verif.Samp.design_almost_sure",
    "Verif.Samp.iid_recurs",
    "Verif.Samp.seq_follows",
    "Verif.Samp.seq_stays",
    "Verif.Samp.exists_seq_design"
   ],
   "note": "Proved for one metric provided that each search keeps a vertex at least as far from the samples as one of its starting points, up to a tolerance that also limits how well the domain is filled, and that the candidates are separated (as in C99). The provision follows from C92 when no sample is approached slowly; the tolerance accounts for the vertices merged by unique_points. Starting points are independent draws from the domain, as for metrics that are multiples of the identity."
  },
  {
   "property": "C186",
   "status": "partial",
   "theorems": [
    "Verif.Samp.packing",
    "Verif.Samp.coffee_apart",
    "Verif.Samp.coffee_net",
    "Verif.Samp.coffee_almost_sure",
    "Verif.Samp.covers_of_sure",
    "Verif.Samp.coffee_stays"
   ],
   "note": "Proved whenever the candidates of every pass include, for each starting point, one at least as far from the points so far. The search delivers such candidates (covers_of_sure, with the randomization used by the code) if no sample is approached at a positive rate below 1e-8 and no direction has a positive size below 1e-8; for metrics of tiny scale this fails (C92, C184). The starting points of all sizes are taken from one sequence of independent draws."
  },
  {
   "property": "C187",
   "status": "partial",
   "theorems": [
    "Verif.Misc.fitFunction_returns",
    "Verif.Misc.exists_reportedQ",
    "Verif.Misc.fitFunction_C_limit",
    "Verif.Misc.fitFunction_limit_partial",
    "Verif.Misc.fitFunction_values_limit",
    "Verif.Misc.fitFunction_subspace_limit_partial",
    "Verif.Misc.linQ_regular",
    "Verif.Misc.fitFunction_subspace_false",
    "Verif.Misc.fitFunction_average_false"
   ],
   "note": "Proved with the integral in place of the average, and for the directions if none is reported as zero. Refuted: the matrix is not divided by the volume of the domain; for x^2 on [-1,1] the reported direction is zero for every N."
  },
  {
   "property": "C188",
   "status": "proved",
   "theorems": [
    "Verif.Func.fit_consistent",
    "Verif.Func.fit_returns",
    "Verif.Func.bestMean_exists",
    "Verif.Func.bestMean_iff",
    "Verif.Func.noise_best",
    "Verif.Func.samples_unisolvent",
    "Verif.Func.moments_of_bounded"
   ],
   "note": "Exact solvers (FitSolver.Exact), real arithmetic. moments_of_bounded: bounded samples whose points charge the open subsets of some open set meet the hypotheses. The fits of all N use the first N samples of one sequence."
  },
  {
   "property": "C189",
   "status": "proved",
   "theorems": [
    "Verif.Func.affine_direction_consistent",
    "Verif.Func.affine_direction_returns",
    "Verif.Func.affine_direction_noise",
    "Verif.Func.ridge_affine_consistent",
    "Verif.Func.ridge_affine_best",
    "Verif.Func.best_consistent",
    "Verif.Func.affSolve_best",
    "Verif.Func.deg_one_affine"
   ],
   "note": "Exact solvers (FitSolver.Exact), real arithmetic; that a direction is returned also needs a solver that answers whenever a solution exists (FitSolver.Answers). That the final fit of the coefficients along the direction returns is a hypothesis of ridge_affine_consistent. With a zero slope of the best affine function nothing is claimed: the direction then depends on the noise. The fits of all N use the first N samples of one sequence."
  }
 ]
}