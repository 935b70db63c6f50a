{
 "claims": [
  {
   "property": "C01",
   "status": "proved",
   "theorems": [
    "Slp.program_correct",
    "Slp.value_correct"
   ],
   "note": "All programs over the modelled API, over the reals, set_value on independent variables only; Slp.set_value_on_constant_lost shows what happens otherwise."
  },
  {
   "property": "C02",
   "status": "proved",
   "theorems": [
    "Slp.Graph.sort_correct"
   ],
   "note": "All graphs whose operands are created before their users; scratch unbounded integer."
  },
  {
   "property": "C03",
   "status": "proved",
   "theorems": [
    "Slp.construction_meaning_un",
    "Slp.construction_meaning_bin"
   ],
   "note": "All unary and binary builders, over the reals; 0^0 and log 0 are outside the domain, see Slp.pow_zero_zero, Slp.log_zero and Slp.zero_mul_inf for the values returned there."
  },
  {
   "property": "C04",
   "status": "proved",
   "theorems": [
    "Slp.type_sound"
   ],
   "note": ""
  },
  {
   "property": "C05",
   "status": "proved",
   "theorems": [
    "Slp.jacobian_correct"
   ],
   "note": "wrt variables distinct; Slp.jacobian_repeated_wrt shows that repeated ones are treated differently. Gradient is the one-row case."
  },
  {
   "property": "C06",
   "status": "proved",
   "theorems": [
    "Slp.jacobian_never_stale"
   ],
   "note": "set_value on independent variables; Slp.jacobian_stale_after_constant_changed is the counterexample for constants."
  },
  {
   "property": "C07",
   "status": "proved",
   "theorems": [
    "Slp.jacobian_get_eq_value",
    "Slp.hessian_get_eq_value"
   ],
   "note": ""
  },
  {
   "property": "C08",
   "status": "proved",
   "theorems": [
    "Slp.hessian_correct"
   ],
   "note": "At points where every elementary operation is smooth."
  },
  {
   "property": "C09",
   "status": "proved",
   "theorems": [
    "Slp.derivatives_leave_no_trace",
    "Slp.no_links_retained"
   ],
   "note": ""
  },
  {
   "property": "C10",
   "status": "proved",
   "theorems": [
    "Slp.Mem.memory_safe",
    "Slp.Mem.released_iff_unreachable",
    "Slp.Mem.no_leak"
   ],
   "note": "All operation sequences; Slp.Mem.self_operand_assignment_undefined and Slp.Mem.cycle_leaks are the two counterexamples outside the hypotheses."
  },
  {
   "property": "C11",
   "status": "proved",
   "theorems": [
    "Slp.Pool.pool_correct",
    "Slp.Pool.allocate_succeeds",
    "Slp.Pool.reuse"
   ],
   "note": "All call sequences with one request size; Slp.Pool.different_sizes_overlap is the counterexample for mixed sizes."
  },
  {
   "property": "C12",
   "status": "proved",
   "theorems": [
    "Slp.Slicing.slice_python",
    "Slp.Slicing.slice_two",
    "Slp.Slicing.slice_single",
    "Slp.Slicing.slice_single_defined",
    "Slp.Slicing.slice_all"
   ],
   "note": "All int arguments; Slp.Slicing.slice_single_overflow and Slp.Slicing.adjust_twice are the counterexamples outside the hypotheses."
  },
  {
   "property": "C13",
   "status": "proved",
   "theorems": [
    "Slp.VMat.view_reads",
    "Slp.VMat.view_reads_index",
    "Slp.VMat.view_writes_one",
    "Slp.VMat.view_writes",
    "Slp.VMat.view_compound",
    "Slp.VMat.view_compound_scalar",
    "Slp.VMat.view_copies",
    "Slp.VMat.access_rejected",
    "Slp.VMat.access_rejected_view",
    "Slp.VMat.view_operand",
    "Slp.VMat.matrix_index",
    "Slp.VMat.whole_view"
   ],
   "note": "All chains of view calls whose composed steps fit an int; nested_steps_overflow and overlapping_assignment are the counterexamples outside the hypotheses."
  },
  {
   "property": "C14",
   "status": "proved",
   "theorems": [
    "Slp.VMat.mul_correct",
    "Slp.VMat.add_correct",
    "Slp.VMat.sub_correct",
    "Slp.VMat.neg_correct",
    "Slp.VMat.smul_correct",
    "Slp.VMat.sdiv_correct",
    "Slp.VMat.transpose_correct",
    "Slp.VMat.map_correct",
    "Slp.VMat.zip_correct",
    "Slp.VMat.mulAssign_correct"
   ],
   "note": "All shapes; mulAssign_self and scale_by_own_element show the aliased compound assignments that the hypotheses exclude."
  },
  {
   "property": "C15",
   "status": "partial",
   "theorems": [
    "Slp.VMat.solve_correct_partial",
    "Slp.VMat.solve_drops_columns"
   ],
   "note": "Proved for sizes 2 to 4 with any B and for size 1 with one right-hand column. False for a 1x1 A with several columns: solve_drops_columns."
  },
  {
   "property": "C16",
   "status": "proved",
   "theorems": [
    "Slp.VMat.eq_correct",
    "Slp.VMat.ge_correct",
    "Slp.VMat.le_correct",
    "Slp.VMat.bounds_correct",
    "Slp.VMat.concat_correct",
    "Slp.VMat.strict_is_weak"
   ],
   "note": "Scalar and matrix operands of all shapes."
  },
  {
   "property": "C17",
   "status": "proved",
   "theorems": [
    "Slp.VMat.block_correct",
    "Slp.VMat.covered"
   ],
   "note": "All lists of blocks; block_rejects and block_empty are the excluded cases."
  },
  {
   "property": "C18",
   "status": "proved",
   "theorems": [
    "Slp.Scope.called_iff",
    "Slp.Scope.exactly_once",
    "Slp.Profile.stops_once",
    "Slp.Profile.all_stopped",
    "Slp.Profile.average_correct",
    "Slp.Profile.measure_correct",
    "Slp.Profile.setup_correct"
   ],
   "note": ""
  },
  {
   "property": "C19",
   "status": "proved",
   "theorems": [
    "Slp.decision_matrix_correct",
    "Slp.symmetric_matrix_correct",
    "Slp.symmetric_matrix_shares",
    "Slp.variables_distinct",
    "Slp.values_correct"
   ],
   "note": "All shapes and all programs of declarations."
  },
  {
   "property": "C20",
   "status": "proved",
   "theorems": [
    "Slp.program_builds",
    "Slp.maximize_correct",
    "Slp.maxType_correct",
    "Slp.problem_types"
   ],
   "note": "All programs of Problem calls."
  },
  {
   "property": "C21",
   "status": "proved",
   "theorems": [
    "Slp.solver_selected"
   ],
   "note": ""
  },
  {
   "property": "C22",
   "status": "proved",
   "theorems": [
    "Slp.solve_success",
    "Slp.ipm_success",
    "Slp.sqp_correct_partial",
    "Slp.newton_correct",
    "Slp.error_bounds_ipm",
    "Slp.error_bounds_sqp",
    "Slp.error_bounds_newton",
    "Slp.unscaled_error_ipm",
    "Slp.unscaled_error_sqp",
    "Slp.unscaled_error_newton"
   ],
   "note": "Whole runs of the three solvers including feasibility restoration, arbitrary linear solver answers; values entering the error finite. For SQP this is the SUCCESS clause of sqp_correct_partial, whose other clauses are partial."
  },
  {
   "property": "C23",
   "status": "partial",
   "theorems": [
    "Slp.solve_returns",
    "Slp.bounds_exist",
    "Slp.ipm_ends",
    "Slp.ipm_iterations",
    "Slp.ipm_timeout_partial",
    "Slp.timeout_measured",
    "Slp.timeout_monotone",
    "Slp.sqp_correct_partial",
    "Slp.newton_correct",
    "Slp.restoration_ignores_timeout",
    "Slp.timeout_reported_as_failure"
   ],
   "note": "Termination and iteration limit proved for all runs. The timeout is measured by each feasibility restoration on its own clock: restoration_ignores_timeout is a run that goes on after the timeout, timeout_reported_as_failure one that ends at it with FEASIBILITY_RESTORATION_FAILED."
  },
  {
   "property": "C24",
   "status": "partial",
   "theorems": [
    "Slp.program_builds",
    "Slp.solve_callbacks_partial",
    "Slp.ipm_callbacks_partial",
    "Slp.sqp_correct_partial",
    "Slp.newton_correct",
    "Slp.restoration_ignores_stop"
   ],
   "note": "A true result during a feasibility restoration ends the restoration, not the solve: restoration_ignores_stop is a run that ends with SUCCESS although a callback returned true."
  },
  {
   "property": "C25",
   "status": "proved",
   "theorems": [
    "Slp.ipm_slacks_positive",
    "Slp.ipm_multipliers_positive",
    "Slp.sqp_correct_partial"
   ],
   "note": "Exact real arithmetic. Multipliers: if the linear solver never yields NaN multiplier estimates and, in feasible mode, inequality constraints and Jacobian are finite at finite points."
  },
  {
   "property": "C26",
   "status": "proved",
   "theorems": [
    "Slp.update_correct",
    "Slp.barrierLoop_correct",
    "Slp.barrierRounds_enough",
    "Slp.ipm_barrier",
    "Slp.error_barrier"
   ],
   "note": "Positive tolerance; if the tolerance exceeds 1 the initial value is already below the floor."
  },
  {
   "property": "C27",
   "status": "proved",
   "theorems": [
    "Slp.line_search_ends",
    "Slp.line_search_sound",
    "Slp.sqp_line_search_ends",
    "Slp.sqp_line_search_sound",
    "Slp.newton_line_search_ends",
    "Slp.newton_line_search_sound",
    "Slp.accepted_step_size",
    "Slp.iteration_moves_legally",
    "Slp.slope_correct",
    "Slp.error_one_ipm",
    "Slp.error_one_sqp",
    "Slp.error_one_newton"
   ],
   "note": "Arbitrary trial values, NaN included."
  },
  {
   "property": "C28",
   "status": "proved",
   "theorems": [
    "Slp.boundary_correct",
    "Slp.boundary_positive"
   ],
   "note": "Exact real arithmetic."
  },
  {
   "property": "C29",
   "status": "proved",
   "theorems": [
    "Slp.accepted_sound",
    "Slp.accepted_complete",
    "Slp.region_shrinks",
    "Slp.left_behind",
    "Slp.entries_pairwise",
    "Slp.added_not_dominated",
    "Slp.no_cycling",
    "Slp.reset_correct",
    "Slp.violation_limits",
    "Slp.ipm_entry_value",
    "Slp.sqp_entry_value",
    "Slp.newton_entry_value",
    "Slp.entry_nonfinite"
   ],
   "note": "Slp.can_return and Slp.redundant_entry are the counterexamples that delimit the statement."
  },
  {
   "property": "C30",
   "status": "proved",
   "theorems": [
    "Slp.Bounds.bounds_tight",
    "Slp.Bounds.conflict_infeasible"
   ],
   "note": "Slp.Bounds.empty_row_asserts shows the case where the code asserts instead."
  },
  {
   "property": "C31",
   "status": "proved",
   "theorems": [
    "Slp.Bounds.project_two",
    "Slp.Bounds.project_fixed",
    "Slp.Bounds.project_lower",
    "Slp.Bounds.project_upper",
    "Slp.Bounds.project_free",
    "Slp.Bounds.project_each"
   ],
   "note": "Exact real arithmetic."
  },
  {
   "property": "C32",
   "status": "proved",
   "theorems": [
    "Slp.scaling_correct",
    "Slp.scaling_tight",
    "Slp.scaled_optimal_iff",
    "Slp.scaled_feasible_iff",
    "Slp.unscaled_error_ipm",
    "Slp.unscaled_error_sqp",
    "Slp.unscaled_error_newton",
    "Slp.unscaled_error_identity",
    "Slp.row_norm_correct",
    "Slp.callbacks_correct",
    "Slp.callbacks_scaling",
    "Slp.error_zero_iff"
   ],
   "note": "Exact real arithmetic, finite derivatives."
  },
  {
   "property": "C33",
   "status": "proved",
   "theorems": [
    "Slp.newton_step_correct",
    "Slp.soc_step_correct",
    "Slp.sqp_step_correct",
    "Slp.newton_step_linearises",
    "Slp.iteration_newton",
    "Slp.sqp_iteration_newton",
    "Slp.newton_accepted_newton",
    "Slp.ipm_step_newton",
    "Slp.ipm_correction_newton",
    "Slp.sqp_step_newton",
    "Slp.newton_step_newton",
    "Slp.kktDense_assembled"
   ],
   "note": "Given the linear solver contract (the returned vector solves the regularised system); exact real arithmetic. The iteration theorems say it of the solver loops: with an exact linear solver and finite values, each iteration that does not restore feasibility moves along such a step."
  },
  {
   "property": "C34",
   "status": "proved",
   "theorems": [
    "Slp.Ldlt.compute_terminates",
    "Slp.Ldlt.compute_attempts",
    "Slp.Ldlt.compute_sound",
    "Slp.Ldlt.compute_unregularised",
    "Slp.Ldlt.ideal_positive_curvature",
    "Slp.Ldlt.accepted_nonsingular",
    "Slp.Ldlt.descent_direction"
   ],
   "note": "Arbitrary factorisation behaviour; the last three assume an exact factorisation."
  },
  {
   "property": "C35",
   "status": "partial",
   "theorems": [
    "Slp.append_exact",
    "Slp.append_column_major",
    "Slp.append_stacks",
    "Slp.append_diagonal_correct",
    "Slp.Restore.restoration_equality_jacobian",
    "Slp.Restore.restoration_inequality_jacobian",
    "Slp.Restore.restoration_sqp_jacobian",
    "Slp.Restore.restoration_gradient",
    "Slp.Restore.restoration_cost_hessian",
    "Slp.Restore.restoration_hessian_partial",
    "Slp.Restore.restoration_hessian_wrong"
   ],
   "note": "The restoration Hessian misses the curvature of the constraints: restoration_hessian_wrong."
  },
  {
   "property": "C36",
   "status": "proved",
   "theorems": [
    "Slp.compute_p_n_optimal",
    "Slp.compute_p_n_rows"
   ],
   "note": "Exact real arithmetic."
  },
  {
   "property": "C37",
   "status": "proved",
   "theorems": [
    "Slp.sqp_estimate_correct",
    "Slp.aHat_blocks",
    "Slp.ipm_estimate_correct"
   ],
   "note": "Given that the linear solver solves the normal equations; exact real arithmetic."
  },
  {
   "property": "C38",
   "status": "partial",
   "theorems": [
    "Slp.solve_statuses",
    "Slp.globally_infeasible",
    "Slp.conflict_reported",
    "Slp.ipm_setup_status",
    "Slp.ipm_status_partial",
    "Slp.stuck_violates",
    "Slp.sqp_correct_partial",
    "Slp.newton_correct",
    "Slp.locally_infeasible_at_feasible_point",
    "Slp.timeout_reported_as_failure"
   ],
   "note": "LOCALLY_INFEASIBLE from feasibility restoration can be returned at a feasible point (locally_infeasible_at_feasible_point is such a run); timeouts inside restoration are reported as failures of the restoration (timeout_reported_as_failure)."
  },
  {
   "property": "C39",
   "status": "proved",
   "theorems": [
    "Slp.solution_written"
   ],
   "note": "All problems and outcomes."
  },
  {
   "property": "C40",
   "status": "proved",
   "theorems": [
    "Slp.transcription_correct",
    "Slp.two_argument_dynamics"
   ],
   "note": "All dynamics given by expressions with a real-valued meaning, all sizes, all timestep modes."
  },
  {
   "property": "C41",
   "status": "proved",
   "theorems": [
    "Slp.shooting_correct"
   ],
   "note": ""
  },
  {
   "property": "C42",
   "status": "proved",
   "theorems": [
    "Slp.collocation_correct",
    "Slp.collocation_exact",
    "Slp.collocation_rejects"
   ],
   "note": "Nonzero timesteps."
  },
  {
   "property": "C43",
   "status": "proved",
   "theorems": [
    "Slp.ocp_variables",
    "Slp.for_each_step_correct",
    "Slp.for_each_step_two_correct",
    "Slp.ocp_constraints"
   ],
   "note": ""
  },
  {
   "property": "C44",
   "status": "partial",
   "theorems": [
    "Slp.multistart_deterministic",
    "Slp.multistart_throws",
    "Slp.multistart_defined",
    "Slp.multistart_ends",
    "Slp.multistart_best_partial",
    "Slp.multistart_not_best",
    "Slp.multistart_prefers_failure",
    "Slp.multistart_not_lowest"
   ],
   "note": "False as stated: an unsuccessful solve of lower cost listed after a successful one wins (multistart_not_best). Proved when no unsuccessful solve has lower cost than a successful one and no cost is NaN; schedule independence, exceptions and the empty list for all inputs."
  },
  {
   "property": "C45",
   "status": "proved",
   "theorems": [
    "Slp.SpyFile.spy_round_trip",
    "Slp.SpyFile.spy_interrupted",
    "Slp.SpyFile.spy_long_title"
   ],
   "note": "Both byte orders; numbers that fit 32 bits."
  },
  {
   "property": "C46",
   "status": "partial",
   "theorems": [
    "Slp.Diag.powerText_correct",
    "Slp.Diag.powerOf10_correct",
    "Slp.Diag.powerOf10_zero",
    "Slp.Diag.powerText_width",
    "Slp.Diag.histogram_correct",
    "Slp.Diag.toMs_correct",
    "Slp.Diag.shares_correct",
    "Slp.Diag.backtracks_correct",
    "Slp.Diag.correction_backtracks",
    "Slp.Diag.inequality_report",
    "Slp.Diag.equality_report_partial",
    "Slp.Diag.equality_report_misses"
   ],
   "note": "False for equality constraints, of which positive violations are not listed, and for the number of backtracks after an accepted second-order correction. The rest is proved in exact arithmetic."
  },
  {
   "property": "C47",
   "status": "proved",
   "theorems": [
    "Slp.callbacks_correct",
    "Slp.callbacks_scaling",
    "Slp.objective_value",
    "Slp.setup_allowed",
    "Slp.api_callbacks_correct",
    "Slp.api_matches_model"
   ],
   "note": "callbacks_correct: the record of functions that the solver models get. api_callbacks_correct: the same for the calls that solve() makes of the autodiff machine (heap, caches), after any history; api_matches_model relates the two."
  },
  {
   "property": "C48",
   "status": "proved",
   "theorems": [
    "Slp.restoration_returns",
    "Slp.sqp_restoration_returns",
    "Slp.restoration_multipliers",
    "Slp.sqp_restoration_multipliers"
   ],
   "note": "Both solvers, all problems, callbacks and linear solver answers; the statement on multipliers assumes exact estimates and functions finite at finite points."
  },
  {
   "property": "C49",
   "status": "proved",
   "theorems": [
    "Slp.solve_linked",
    "Slp.solve_success_exact",
    "Slp.sqp_solve_linked",
    "Slp.sqp_success_exact",
    "Slp.newton_solve_linked"
   ],
   "note": "Whole runs of the three solvers, exact real arithmetic, linear solver and multiplier estimates required to be exact (exactEnv is one that is)."
  },
  {
   "property": "C50",
   "status": "proved",
   "theorems": [
    "Slp.solved_state",
    "Slp.value_after_solve",
    "Slp.jacobian_after_solve",
    "Slp.hessian_after_solve"
   ],
   "note": "On the autodiff machine with its heap and caches; iteration callbacks of the user that themselves change variables are left out."
  },
  {
   "property": "C51",
   "status": "proved",
   "theorems": [
    "Slp.ipm_progress",
    "Slp.sqp_progress",
    "Slp.newton_progress"
   ],
   "note": "Whole runs of the three solvers, for every linear solver. A NaN violation, possible after a second-order correction, counts as within the limit, as in the code."
  },
  {
   "property": "C52",
   "status": "partial",
   "theorems": [
    "Slp.Py.py_reads_partial",
    "Slp.Py.py_element",
    "Slp.Py.py_block_element_partial",
    "Slp.Py.py_index",
    "Slp.Py.py_block_index_partial",
    "Slp.Py.py_setitem",
    "Slp.Py.py_setitem_scalar",
    "Slp.Py.py_setitem_size",
    "Slp.Py.py_block_setitem_size_partial",
    "Slp.Py.py_block_setitem_partial",
    "Slp.Py.py_block_setitem_scalar_partial",
    "Slp.Py.py_setitem_index",
    "Slp.Py.py_block_setitem_index_partial",
    "Slp.Py.py_negative_row",
    "Slp.Py.py_too_large_raises",
    "Slp.Py.py_too_small_not_raised",
    "Slp.Py.py_index_not_raised",
    "Slp.Py.py_invalid_raises"
   ],
   "note": "Missing because false of the code: a negative row integer beside a slice in VariableMatrix.__getitem__ names rows outside the matrix (py_negative_row), and most integers out of range do not raise (py_too_small_not_raised, py_index_not_raised). Steps fit an int; composed steps leave room for the size."
  },
  {
   "property": "C53",
   "status": "proved",
   "theorems": [
    "Slp.newton_quadratic",
    "Slp.sqp_quadratic",
    "Slp.strongly_convex_pivots",
    "Slp.strongly_convex_unregularised"
   ],
   "note": "Whole runs in exact arithmetic. An iteration limit of one reports MAX_ITERATIONS_EXCEEDED even when that iteration reached the minimiser."
  },
  {
   "property": "C54",
   "status": "proved",
   "theorems": [
    "Slp.VMat.ofLists_correct",
    "Slp.VMat.ofView_correct",
    "Slp.VMat.ofDiagonal_correct",
    "Slp.VMat.ofArray_correct",
    "Slp.VMat.ofSpan_correct",
    "Slp.VMat.fill_correct",
    "Slp.VMat.identity_correct",
    "Slp.VMat.scalar_round_trip",
    "Slp.VMat.compound_correct",
    "Slp.VMat.compoundScalar_correct",
    "Slp.VMat.compoundOne_correct",
    "Slp.VMat.assign_correct",
    "Slp.VMat.matrix_iteration",
    "Slp.VMat.view_iteration"
   ],
   "note": "Every shape, source and view; element operations are arbitrary."
  },
  {
   "property": "C55",
   "status": "partial",
   "theorems": [
    "Slp.VMat.exp_now_partial",
    "Slp.VMat.block_exp_now_partial",
    "Slp.VMat.exp_later_partial",
    "Slp.VMat.exp_now_wrong",
    "Slp.VMat.luSolve_solves",
    "Slp.VMat.luSolve_later",
    "Slp.VMat.matrix_exp_partial",
    "Slp.VMat.matrix_exp_small_partial",
    "Slp.VMat.block_exp_partial",
    "Slp.VMat.exp_quotient",
    "Slp.VMat.exp_wrong"
   ],
   "note": "Row sums up to 4 only at the values at which exp() runs: the code does not scale and square, and exp_now_wrong shows that exp() of [20] is negative. At values set later, row sums up to 1 for a matrix that is zero while exp() runs: the rows of the LU factorisation were swapped by the values at that time. Rounding of the coefficients is covered, that of the operations is not."
  },
  {
   "property": "C56",
   "status": "proved",
   "theorems": [
    "Slp.newton_converges",
    "Slp.newton_succeeds",
    "Slp.newton_convex"
   ],
   "note": "Whole runs of Newton's method in exact arithmetic with an exact, possibly regularising linear solver. The guaranteed decrease per iteration carries the Armijo constant 1e-8 of the filter, so for small tolerances the bound exceeds INT_MAX; C57 gives a realistic one near a minimiser."
  },
  {
   "property": "C57",
   "status": "proved",
   "theorems": [
    "Slp.newton_fast",
    "Slp.SmoothCost.newton_full_step"
   ],
   "note": "Whole runs of Newton's method in exact arithmetic, for linear solvers that do not regularise these systems."
  },
  {
   "property": "C58",
   "status": "proved",
   "theorems": [
    "Slp.convex_success",
    "Slp.convex_success_slater",
    "Slp.lagrangian_bound",
    "Slp.gradient_le",
    "Slp.stationary_guess",
    "Slp.success_at_maximum"
   ],
   "note": "Positive inequality multipliers: either by default options (feasible_ipm off) and multiplier estimates that are not NaN, or given of the result, as C61 does; finite smooth values at the result as in C22."
  },
  {
   "property": "C59",
   "status": "proved",
   "theorems": [
    "Slp.restoration_problem_correct",
    "Slp.restoration_bound"
   ],
   "note": "Exact real arithmetic. The constraint part of the Hessian is lost by the code (see C33 and DESIGN.md); the model and the theorem say so."
  },
  {
   "property": "C60",
   "status": "proved",
   "theorems": [
    "Slp.infeasible_distance",
    "Slp.infeasible_distance_exact",
    "Slp.stuck_guess",
    "Slp.infeasible_false_alarm"
   ],
   "note": "infeasible_distance assumes that the restorations that succeed end with finite values and positive multipliers, which infeasible_distance_exact derives from an exact linear solver. Constraint violations are those of the scaled constraints; the factors are 1 for constraints whose derivatives at the guess are at most 100."
  },
  {
   "property": "C61",
   "status": "proved",
   "theorems": [
    "Slp.solve_finite",
    "Slp.success_exact",
    "Slp.convex_success_exact",
    "Slp.infeasible_distance_exact"
   ],
   "note": "Exact real arithmetic: overflow is not modelled. The linear solver and the multiplier estimates are exact, possibly with regularisation."
  },
  {
   "property": "C62",
   "status": "proved",
   "theorems": [
    "Slp.rounded_boundary",
    "Slp.rounded_positive",
    "Slp.rounded_barrier_terminates",
    "Slp.rounded_slack_zero"
   ],
   "note": "Rounding to nearest with relative error u; no overflow or underflow; feasible_ipm off. rounded_slack_zero shows that the condition on u is needed: with double, the default tolerance and a cost gradient of 1e10 at the guess a slack can become 0."
  },
  {
   "property": "C63",
   "status": "proved",
   "theorems": [
    "Slp.rounded_success",
    "Slp.rounded_success_attained",
    "Slp.KktData.computes_exists",
    "Slp.rounded_success_sqp",
    "Slp.rounded_success_attained_sqp",
    "Slp.rounded_success_newton",
    "Slp.rounded_success_attained_newton",
    "Slp.KktData.computesSqp_exists"
   ],
   "note": "The stopping tests of all three solvers. The values and derivatives are those autodiff returns: their own rounding errors are in C68. No overflow or underflow."
  },
  {
   "property": "C64",
   "status": "proved",
   "theorems": [
    "Slp.transcription_accurate",
    "Slp.shooting_accurate",
    "Slp.collocation_accurate"
   ],
   "note": "Exact real arithmetic. The solution of the differential equation is given; that it exists is not claimed. States of collocated points are assumed to be bounded by R."
  },
  {
   "property": "C65",
   "status": "proved",
   "theorems": [
    "Slp.Pool.threads_sound",
    "Slp.Pool.threads_private",
    "Slp.Pool.threads_progress",
    "Slp.Pool.returned_expression_dangles",
    "Slp.Pool.foreign_drop_dangles",
    "Slp.Pool.foreign_drop_wraps"
   ],
   "note": "Blocks of one size (every request in the library is for an Expression of one scalar type). Data races of the program itself are not modelled."
  },
  {
   "property": "C66",
   "status": "proved",
   "theorems": [
    "Slp.callbacks_see_iterate"
   ],
   "note": "Callbacks that change variables themselves are not modelled."
  },
  {
   "property": "C67",
   "status": "proved",
   "theorems": [
    "Slp.FloatMath.float_programs_accurate",
    "Slp.FloatMath.float_value",
    "Slp.FloatMath.float_jacobian",
    "Slp.FloatMath.error_le",
    "Slp.FloatMath.error_exact",
    "Slp.Term.majorant_noCancel"
   ],
   "note": "Polynomial expressions. Hessians, get() and expressions with other functions are not covered. No overflow or underflow."
  },
  {
   "property": "C68",
   "status": "proved",
   "theorems": [
    "Slp.FloatMath.float_success",
    "Slp.FloatMath.float_success_attained",
    "Slp.FloatMath.float_success_sqp",
    "Slp.FloatMath.float_success_newton",
    "Slp.FloatMath.float_success_attained_sqp",
    "Slp.FloatMath.float_success_attained_newton",
    "Slp.FloatMath.valueOf_exists",
    "Slp.FloatMath.partialOf_exists"
   ],
   "note": "Polynomial problems solved through Problem::solve(). The values and derivatives are those of any program that ends with the variables at the given values. No overflow or underflow."
  },
  {
   "property": "C69",
   "status": "proved",
   "theorems": [
    "Slp.callbacks_shown",
    "Slp.shown_gradient_scaled"
   ],
   "note": "Exact real arithmetic. shown_gradient_scaled is a solve in which the gradient shown differs from that of the cost as given. Callbacks that change variables themselves are not modelled."
  },
  {
   "property": "C70",
   "status": "proved",
   "theorems": [
    "Slp.Py.py_arith_correct",
    "Slp.Py.py_size_mismatch",
    "Slp.Py.py_unsupported",
    "Slp.Py.py_compare_correct",
    "Slp.Py.py_compare_mismatch",
    "Slp.Py.py_array_dimension",
    "Slp.Py.py_array_reads",
    "Slp.Py.py_function_correct",
    "Slp.Py.py_function_array",
    "Slp.Py.py_math_correct",
    "Slp.Py.py_math_refuses",
    "Slp.Py.py_power_correct",
    "Slp.Py.py_power_refuses",
    "Slp.Py.py_negation_correct",
    "Slp.Py.py_bounds_correct",
    "Slp.Py.py_bounds_refuses"
   ],
   "note": "The rules of nanobind, CPython and NumPy for choosing a function are part of the model. Not covered: NumPy scalars, arrays of one element, subclasses, augmented assignments."
  },
  {
   "property": "C71",
   "status": "proved",
   "theorems": [
    "Slp.Py.solve_options",
    "Slp.Py.solve_called_iff",
    "Slp.Py.solve_unknown_option"
   ],
   "note": "nanobind's casts are part of the model. Large integers are not rounded to double."
  },
  {
   "property": "C72",
   "status": "partial",
   "theorems": [
    "Slp.Py.py_solve_returned",
    "Slp.Py.py_solve_raised",
    "Slp.Py.ordinary_after",
    "Slp.Py.py_functions_returned",
    "Slp.Py.py_exception_source",
    "Slp.Py.ctrl_c_partial",
    "Slp.Py.ocp_ignores_signals"
   ],
   "note": "False for objects of class OCP, which do not check for signals (ocp_ignores_signals). What the variables hold after an exception is C66."
  },
  {
   "property": "C73",
   "status": "proved",
   "theorems": [
    "Slp.FloatMath.float_programs_complete",
    "Slp.FloatMath.float_programs_converge",
    "Slp.FloatMath.float_value_error",
    "Slp.FloatMath.float_jacobian_error",
    "Slp.FloatMath.binary_lib",
    "Slp.FloatMath.float_value_tendsto",
    "Slp.FloatMath.float_jacobian_tendsto"
   ],
   "note": "Hessians and get() are not covered. No overflow or underflow; any real number may be stored, only results of operations are rounded."
  },
  {
   "property": "C74",
   "status": "proved",
   "theorems": [
    "Slp.value_direct",
    "Slp.real_laws",
    "Slp.binary_laws",
    "Slp.demoD_values",
    "Slp.negative_zero_differs"
   ],
   "note": "Hessians and Jacobian::get() are not covered. Signs of zeros are not distinguished; negative_zero_differs shows that they are lost. std::pow(x, 2) is assumed to round as x * x does."
  },
  {
   "property": "C75",
   "status": "partial",
   "theorems": [
    "Slp.VMat.solve_square_partial",
    "Slp.VMat.solve_later_partial",
    "Slp.VMat.solve_tall_partial",
    "Slp.VMat.solve_wide_partial",
    "Slp.VMat.solve_ignores_lower",
    "Slp.VMat.solve_stale"
   ],
   "note": "Proved at the values that the variables have when solve() is called, and at later values at which solve() would return the same expressions. False at other values: solve() of a 5 by 5 matrix of new decision variables ignores everything below the diagonal from then on (solve_ignores_lower, solve_stale). Householder QR is modelled after the description of Eigen, whose source is not part of the repository."
  },
  {
   "property": "C76",
   "status": "proved",
   "theorems": [
    "Slp.Py.py_declare_correct",
    "Slp.Py.py_call_fits",
    "Slp.Py.py_call_wrong",
    "Slp.Py.py_problem_correct",
    "Slp.Py.py_cost_correct",
    "Slp.Py.py_cost_type",
    "Slp.Py.py_values_correct",
    "Slp.Py.chain_keeps_one",
    "Slp.Py.chain_drops_bound",
    "Slp.Py.py_constrain_states",
    "Slp.Py.py_input_bounds",
    "Slp.Py.py_ocp_mismatch",
    "Slp.Py.py_ocp_refuses"
   ],
   "note": "chain_drops_bound: subject_to(-1 <= x <= 1) for a new variable allows x = -5. Arrays given to the methods of OCP are those with elements of type float64, since others are converted or refused by nanobind. Negative sizes are outside the model."
  },
  {
   "property": "C77",
   "status": "proved",
   "theorems": [
    "Slp.value_positions",
    "Slp.positions_cover",
    "Slp.value_elements",
    "Slp.ipm_top_left",
    "Slp.ipm_step_correct",
    "Slp.factorizations_defined",
    "Slp.restoration_defined",
    "Slp.solve_factorizations",
    "Slp.sparse_choice",
    "Slp.sparse_choice_counts",
    "Slp.pattern_required"
   ],
   "note": "Eigen is assumed to store the union of positions in sums and all positions with a pair of stored factors in products. pattern_required: with other positions the factorisation would be undefined."
  },
  {
   "property": "C78",
   "status": "proved",
   "theorems": [
    "Slp.sqp_affine_converges",
    "Slp.sqp_affine_succeeds",
    "Slp.sqp_affine_convex",
    "Slp.AffineProblem.system_solvable",
    "Slp.AffineProblem.minimiser"
   ],
   "note": "The linear algebra is exact and does not regularise the systems met, which have a solution when the constraints are independent (AffineProblem.system_solvable). The ratio of the curvatures is at most 9.9e6, since the line search gives up at steps below 1e-7."
  },
  {
   "property": "C79",
   "status": "partial",
   "theorems": [
    "Slp.FnRef.function_ref_partial",
    "Slp.FnRef.assign_refers_to_reference",
    "Slp.FnRef.assign_follows",
    "Slp.FnRef.self_assignment_overflows",
    "Slp.FnRef.std_swap_dangles"
   ],
   "note": "False for assignments of function_ref objects that are not constant: the assignment template is the better match and stores the address of the right-hand side (assign_refers_to_reference). Hence a = b follows later changes of b (assign_follows), a = a recurses without end (self_assignment_overflows), and std::swap() leaves both objects dangling (std_swap_dangles). The library only constructs and copies function_ref objects."
  },
  {
   "property": "C80",
   "status": "partial",
   "theorems": [
    "Slp.PyView.py_views_partial",
    "Slp.PyView.py_views_rule",
    "Slp.PyView.line_dangles",
    "Slp.PyView.py_matrices_freed"
   ],
   "note": "False for the results of row() and col(): they are bound without nb::keep_alive, so x = x.row(0) leaves a view of a destroyed matrix (line_dangles). py_views_partial covers all functions that do not call them; py_views_rule says exactly which accesses are defined in all functions: those to matrices that a name keeps."
  },
  {
   "property": "C81",
   "status": "proved",
   "theorems": [
    "Slp.sqp_affine_fast",
    "Slp.affine_full",
    "Slp.AffineProblem.slope_of_residual",
    "Slp.AffineProblem.step_of_slope"
   ],
   "note": "Whole runs of SQP in exact arithmetic from guesses that satisfy the constraints, for linear solvers that do not regularise these systems. The first dual variables are zero, so the residual is bounded from the first iteration on only."
  },
  {
   "property": "C82",
   "status": "proved",
   "theorems": [
    "Slp.sqp_affine_start",
    "Slp.sqp_affine_start_succeeds",
    "Slp.start_tryAdd"
   ],
   "note": "Whole runs of SQP in exact arithmetic; the linear solver does not regularise the systems met. Guesses whose violation is at most 1e-4 while the cost has a large slope and would rise are not covered: there the line search shortens the first step."
  },
  {
   "property": "C83",
   "status": "proved",
   "theorems": [
    "Slp.ipm_linear",
    "Slp.sqp_linear",
    "Slp.ipm_violation",
    "Slp.sqp_violation",
    "Slp.sqp_stays_feasible"
   ],
   "note": "Exact linear algebra that does not regularise the constraints; gentle_answers and gentle_sqp_answers show that such a linear solver exists if the equality constraints are independent. Callbacks that return true during feasibility restoration end it at a point that may violate the constraints more."
  },
  {
   "property": "C84",
   "status": "partial",
   "theorems": [
    "Slp.linear_ineqs_stay_partial",
    "Slp.linear_ineqs_hold_partial",
    "Slp.solve_adjacent",
    "Slp.feasible_ipm_leaves"
   ],
   "note": "False for nonlinear constraints: feasible_ipm_leaves is a whole run with an exact linear solver that minimises -4x subject to 1-x^2>=0 from 0 and ends at 2, because second-order corrections ignore the option. The partial theorems are for linear inequality constraints, until feasibility restoration runs."
  },
  {
   "property": "C85",
   "status": "proved",
   "theorems": [
    "Slp.cost_constant",
    "Slp.objective_constant",
    "Slp.newton_cost_constant",
    "Slp.sqp_cost_constant",
    "Slp.interior_point_cost_constant"
   ],
   "note": "Exact arithmetic. cost_constant and objective_constant are for whole calls of solve(); they assume that autodiff adds the constant also where the cost is undefined or not finite (a + c is computed from a there as well)."
  },
  {
   "property": "C86",
   "status": "proved",
   "theorems": [
    "Slp.silent_callbacks",
    "Slp.silent_persistent",
    "Slp.spy_silent",
    "Slp.silent_solve",
    "Slp.newton_silent",
    "Slp.sqp_silent",
    "Slp.interior_point_silent",
    "Slp.slow_callbacks",
    "Slp.slow_callbacks_cut"
   ],
   "note": "The clock gives the same readings in both runs, except in slow_callbacks and slow_callbacks_cut. Callbacks are functions of all calls so far; silent_persistent and spy_silent assume that the earlier callbacks do not look at the calls of the further one."
  },
  {
   "property": "C87",
   "status": "proved",
   "theorems": [
    "Slp.higher_limits",
    "Slp.higher_limits_success",
    "Slp.newton_limits",
    "Slp.sqp_limits",
    "Slp.interior_point_limits"
   ],
   "note": "The clock gives the same readings in both runs; for different ones see C92."
  },
  {
   "property": "C88",
   "status": "proved",
   "theorems": [
    "Slp.solve_restart",
    "Slp.sqp_restart",
    "Slp.restart_step"
   ],
   "note": "Exact arithmetic; the linear solver does not regularise linearly independent constraints and makes the curvature along them positive, as a factorisation of the accepted inertia does (ideal_positive_curvature, C34); convexEnv_convexifies shows that there is one. Without constraints: stationary_guess (C58). With inequality constraints the interior-point method moves the guess, so nothing is claimed."
  },
  {
   "property": "C89",
   "status": "proved",
   "theorems": [
    "Slp.solve_unused",
    "Slp.ipm_unused",
    "Slp.sqp_unused",
    "Slp.newton_unused",
    "Slp.Ldlt.accepted_nonsingular"
   ],
   "note": "Exact arithmetic; the linear solver accepts no singular matrix, as the inertia without zeros that it requires says (accepted_nonsingular); exactEnv_nonsingular shows that there is one. The expressions are smooth for all values of the decision variables."
  },
  {
   "property": "C90",
   "status": "proved",
   "theorems": [
    "Slp.newton_tightens",
    "Slp.sqp_tightens",
    "Slp.tighter_tolerance"
   ],
   "note": "With inequality constraints the tolerance also determines the smallest barrier parameter, so the paths differ; this case is not claimed. Feasibility restorations are recognised by the number of solvers that read the clock at their start."
  },
  {
   "property": "C91",
   "status": "proved",
   "theorems": [
    "Slp.solve_again",
    "Slp.stationary_guess"
   ],
   "note": "With constraints this is false, since multipliers start at zero; C88 is about equality constraints."
  },
  {
   "property": "C92",
   "status": "proved",
   "theorems": [
    "Slp.solve_clock_free",
    "Slp.timed_prefix",
    "Slp.timing_only_cuts",
    "Slp.timed_success",
    "Slp.slow_callbacks",
    "Slp.slow_callbacks_cut",
    "Slp.newton_clock_free",
    "Slp.sqp_clock_free",
    "Slp.interior_point_clock_free"
   ],
   "note": "Answers of the linear solver depend on the system and the number of the call, not on time."
  },
  {
   "property": "C93",
   "status": "proved",
   "theorems": [
    "Slp.formulas_do_not_matter",
    "Slp.formulas_of_bounds_matter",
    "Slp.interiorPoint_agree",
    "Slp.sqp_agree",
    "Slp.newton_agree"
   ],
   "note": "Exact arithmetic; expressions smooth for all values of the decision variables, and finite initial values, so that no callback is evaluated where the two ways of writing could differ. formulas_of_bounds_matter shows that the condition on linear inequality constraints is needed."
  },
  {
   "property": "C94",
   "status": "proved",
   "theorems": [
    "Slp.parameters_are_constants",
    "Slp.only_functions_matter"
   ],
   "note": "Exact arithmetic. Derivatives that are part of the expressions are by decision variables. The problem with constants may have other expression types, but linear inequality constraints must be so in both (a product of a variable and a parameter is of quadratic type, so a bound with such a product is not recognised as one, compare formulas_of_bounds_matter, C93)."
  },
  {
   "property": "C95",
   "status": "partial",
   "theorems": [
    "Slp.Diag.table_rows",
    "Slp.Diag.table_framed",
    "Slp.Diag.table_headings",
    "Slp.Diag.table_heading_count_partial",
    "Slp.Diag.heading_repeats"
   ],
   "note": "False where a second-order correction is accepted in an iteration whose number is a multiple of 20: the heading is printed twice (twice the top border at iteration 0). The rest holds for all sequences of iterations."
  },
  {
   "property": "C96",
   "status": "proved",
   "theorems": [
    "Slp.exit_conditions_listed",
    "Slp.exit_conditions_apply",
    "Slp.classes_correct",
    "Slp.analysis_correct",
    "Slp.conflict_lines_correct"
   ],
   "note": "Positive tolerances; for conflicting bounds, finite values of all variables and linear constraints that are smooth and depend on a decision variable (LinearOk); the choice between singular and plural is left out."
  }
 ]
}