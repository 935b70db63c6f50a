{"id": "C01", "title": "value() equals the mathematical value of the expression", "statement": "For any program that builds Variables with the arithmetic and elementary functions, sharing subexpressions freely, and interleaves set_value() on independent variables with value() on any Variable, every value() call returns the mathematical value of the written formula at the current independent-variable values, whenever the formula is defined there. No earlier value(), caching, pruning or constant folding changes the answer.", "quantifier": "all finite API call histories, all expression DAGs, all variable values in the formula's domain", "why_tests_cant": "The number of DAG shapes and interleavings of set_value/value calls is unbounded; tests sample a few formulas.", "anchors": ["include/sleipnir/autodiff/variable.hpp: Variable::value, Variable::set_value", "include/sleipnir/autodiff/expression_graph.hpp: topological_sort, update_values", "include/sleipnir/autodiff/expression.hpp: operator*, operator/, operator+, operator-, all elementary functions"]}
{"id": "C02", "title": "Graph traversal visits every dependency exactly once in dependency order", "statement": "For any acyclic expression graph, traversal terminates, lists every node the expression depends on exactly once, lists each node before the operands it uses, and leaves the per-node bookkeeping in its default state so that any later traversal of any overlapping graph behaves the same.", "quantifier": "all finite expression DAGs (any sharing, including the same operand used twice) and all sequences of traversals", "why_tests_cant": "Graph shapes are unbounded; a bookkeeping leak only shows after particular sequences of traversals of overlapping graphs.", "anchors": ["include/sleipnir/autodiff/expression_graph.hpp: topological_sort"]}
{"id": "C03", "title": "Pruning and constant folding preserve meaning", "statement": "Every arithmetic operator and elementary function on Variables returns an expression whose value, for every assignment of the independent variables at which the unsimplified formula is defined, equals the unsimplified formula.", "quantifier": "all operators, all operand expressions, all assignments", "why_tests_cant": "Simplification rules interact (a fold can trigger another prune); only a proof covers all combinations.", "anchors": ["include/sleipnir/autodiff/expression.hpp: operator*, operator/, operator+, operator-, abs..tanh, pow, hypot"]}
{"id": "C04", "title": "type() is sound", "statement": "If type() reports CONSTANT the value does not depend on any independent variable; if LINEAR it is an affine function of them; if QUADRATIC it is a polynomial of degree at most two; NONE is never reported for an expression.", "quantifier": "all expressions that can be built with the API, all assignments", "why_tests_cant": "Solver selection and derivative caching rest on type(); a single wrong combination rule silently yields wrong derivatives at untested points.", "anchors": ["include/sleipnir/autodiff/expression.hpp: operator*, operator/, operator+, operator-, pow, type()", "include/sleipnir/autodiff/expression_type.hpp"]}
{"id": "C05", "title": "Gradient and Jacobian values are the true partial derivatives", "statement": "Jacobian::value() (and Gradient::value()) holds in entry (i, j) exactly the partial derivative of variable i with respect to wrt j at the current variable values, for every expression whose elementary operations are differentiable there.", "quantifier": "all expression DAGs, all wrt lists of distinct independent variables, all points of differentiability", "why_tests_cant": "Derivative errors at particular shapes (shared operands, paths that meet again) need all graphs and all points.", "anchors": ["include/sleipnir/autodiff/jacobian.hpp:Jacobian::value", "include/sleipnir/autodiff/gradient.hpp: Gradient::value", "include/sleipnir/autodiff/expression_graph.hpp: append_triplets", "include/sleipnir/autodiff/expression.hpp: grad_l, grad_r"]}
{"id": "C06", "title": "Cached Jacobian rows never go stale", "statement": "Rows of a Jacobian that are computed once at construction stay equal to the true derivative after any later history of set_value() calls on independent variables.", "quantifier": "all expressions, all later histories of set_value/value calls", "why_tests_cant": "Staleness depends on call order and on soundness of the type classification.", "anchors": ["include/sleipnir/autodiff/jacobian.hpp:Jacobian::Jacobian, Jacobian::value", "include/sleipnir/autodiff/hessian.hpp"]}
{"id": "C07", "title": "Symbolic and numeric derivatives agree", "statement": "For distinct wrt variables, evaluating the expression matrix returned by Jacobian::get() gives the same numbers as Jacobian::value() at every assignment of the independent variables.", "quantifier": "all expressions, all wrt lists of distinct independent variables, all assignments in the domain", "why_tests_cant": "Two separately written derivative rule sets per function must agree at all inputs.", "anchors": ["include/sleipnir/autodiff/jacobian.hpp:Jacobian::get, Jacobian::value", "include/sleipnir/autodiff/variable_matrix.hpp: gradient_tree", "include/sleipnir/autodiff/expression.hpp: grad_expr_l, grad_expr_r"]}
{"id": "C08", "title": "Hessian values are the true second derivatives", "statement": "Hessian::value() holds in entry (i, j) the second partial derivative of the variable with respect to wrt i and wrt j; the lower-triangular variant holds exactly its lower triangle.", "quantifier": "all twice differentiable expression DAGs, all points", "why_tests_cant": "Composition of symbolic and numeric differentiation over unbounded expressions.", "anchors": ["include/sleipnir/autodiff/hessian.hpp:Hessian::Hessian, Hessian::value", "include/sleipnir/autodiff/variable_matrix.hpp: gradient_tree"]}
{"id": "C09", "title": "Derivative computations leave no trace", "statement": "Constructing or evaluating Gradient, Jacobian or Hessian objects, in any order and any number, does not change the value of any Variable, the result of any other derivative object, or retain links between expression nodes and their derivative expressions.", "quantifier": "all histories of derivative and value calls over overlapping graphs", "why_tests_cant": "Scratch state is shared between all traversals; interference depends on call history.", "anchors": ["include/sleipnir/autodiff/expression_graph.hpp", "include/sleipnir/autodiff/jacobian.hpp", "include/sleipnir/autodiff/hessian.hpp", "include/sleipnir/autodiff/variable_matrix.hpp: gradient_tree"]}
{"id": "C10", "title": "Expression memory: no leak, no double free, no use after free", "statement": "For any history of creating, copying, assigning and destroying Variables, a node is released exactly when no live Variable can reach it; once every Variable is gone every node has been released; releasing terminates and uses no recursion however deep the expression.", "quantifier": "all histories of handle operations and all acyclic expression graphs", "why_tests_cant": "Leaks and double frees depend on the history and on sharing.", "anchors": ["include/sleipnir/autodiff/expression.hpp: inc_ref_count, dec_ref_count", "include/sleipnir/util/intrusive_shared_ptr.hpp: IntrusiveSharedPtr"]}
{"id": "C11", "title": "The pool never hands out the same block twice", "statement": "Under any sequence of allocate and deallocate calls that all request the same (arbitrary) size and in which each live block is returned at most once, blocks handed out are pairwise disjoint while live, lie within memory the pool owns, and blocks_in_use() equals the number of live blocks.", "quantifier": "all allocate/deallocate histories and all block sizes", "why_tests_cant": "Overlap only appears for particular histories across chunk boundaries.", "anchors": ["include/sleipnir/util/pool.hpp: PoolResource::allocate, deallocate, add_chunk, blocks_in_use"]}
{"id": "C12", "title": "Slicing follows Python semantics", "statement": "Slice{start, stop, step} applied to a dimension of length n selects exactly the indices Python's slice(start, stop, step).indices(n) selects, in the same order, and reports their count.", "quantifier": "all combinations of omitted and integer start/stop/step (step nonzero, no integer overflow) and all lengths", "why_tests_cant": "Boundary combinations of negative and out-of-range bounds and steps are unbounded.", "anchors": ["include/sleipnir/autodiff/slice.hpp: Slice::adjust, constructors"]}
{"id": "C13", "title": "Views address exactly the selected elements", "statement": "A block of a matrix, taken with slices (any nonzero steps, also of another block), reads element (i, j) from the parent element the composed selection names, distinct view positions name distinct parent elements, and assignment through the view changes exactly the selected elements. Blocks, rows, columns and segments that reach outside of the matrix or view are rejected.", "quantifier": "all matrices, all (nested) slices, all indices", "why_tests_cant": "Nested strided and reversed views give unboundedly many index combinations.", "anchors": ["include/sleipnir/autodiff/variable_block.hpp: VariableBlock", "include/sleipnir/autodiff/slice.hpp"]}
{"id": "C14", "title": "Matrix arithmetic matches linear algebra", "statement": "The value of A*B, A+B, A-B, -A, A*c, A/c, A^T, cwise maps and reductions over VariableMatrix equals the corresponding real matrix operation on the values, with the stated shapes.", "quantifier": "all dimensions and all element expressions", "why_tests_cant": "Row-major index errors show only for particular non-square shapes, and value-based tests with symmetric or repeated entries cannot see them; the claim is an equality of expressions for every shape.", "anchors": ["include/sleipnir/autodiff/variable_matrix.hpp: operators, T, cwise_transform, cwise_reduce"]}
{"id": "C15", "title": "solve(A, B) solves A X = B", "statement": "For square A of size 1 to 4 with nonzero determinant, the values of solve(A, B) satisfy A X = B exactly in real arithmetic.", "quantifier": "all A with nonzero determinant, all B of matching height", "why_tests_cant": "Hand-expanded 3x3 and 4x4 inverse formulas have many sign positions; sampling can miss cancellations.", "anchors": ["include/sleipnir/autodiff/variable_matrix.hpp: solve"]}
{"id": "C16", "title": "Constraints mean what they say", "statement": "lhs == rhs, lhs >= rhs, lhs <= rhs and bounds(l, x, u), for scalars and matrices, produce constraint lists whose truth value is exactly the elementwise comparison of the values, in row-major order, one scalar constraint per element.", "quantifier": "all operand shapes and values", "why_tests_cant": "Sign conventions and broadcasting must hold for all shapes and values.", "anchors": ["include/sleipnir/autodiff/variable.hpp: make_constraints, EqualityConstraints, InequalityConstraints, bounds"]}
{"id": "C17", "title": "block() assembles block matrices faithfully", "statement": "block({{...}, ...}) returns the matrix whose (i, j) element is the element of the listed block covering that position, for every list of rows of equal height whose widths add up.", "quantifier": "all nested lists of blocks with consistent sizes", "why_tests_cant": "Offsets accumulate over lists of blocks of unbounded length and mixed sizes; a test fixes a few layouts.", "anchors": ["include/sleipnir/autodiff/variable_matrix.hpp: block"]}
{"id": "C18", "title": "Scope guards and profilers run exactly once", "statement": "A scope_exit guard runs its function exactly once unless released or moved from, for any history of moves and releases; a ScopedProfiler stops its profiler exactly once; profiler averages equal total over count.", "quantifier": "all histories of moves, releases and destruction", "why_tests_cant": "Guards can be moved, released and destroyed in any order; a double or missing action appears only in particular orders, and histories are unbounded.", "anchors": ["include/sleipnir/util/scope_exit.hpp: scope_exit", "include/sleipnir/util/profiler.hpp: SetupProfiler, SolveProfiler, ScopedProfiler"]}
{"id": "C19", "title": "Decision variables are fresh and laid out as documented", "statement": "decision_variable(rows, cols) returns rows*cols distinct new variables in row-major order; symmetric_decision_variable(n) returns a symmetric matrix over exactly n(n+1)/2 new variables; the problem's variable list grows by exactly those variables; new variables have the value 0, and later calls change no value except that set_value() sets that of its variable.", "quantifier": "all call histories and sizes", "why_tests_cant": "Aliasing between the two triangles, and the count and order of variables, must be right for every size and after every history of calls; tests look at small fixed sizes.", "anchors": ["include/sleipnir/optimization/problem.hpp: Problem::decision_variable, symmetric_decision_variable"]}
{"id": "C20", "title": "maximize is minimize of the negation; type queries report the maximum", "statement": "maximize(f) makes the problem minimize -f, the last objective wins; the reported cost and constraint types are the largest type among the entries, NONE if there are none.", "quantifier": "all problems and call histories", "why_tests_cant": "The order of constraints, the sign of the objective and the reported types must be right for every mixture of constraint lists; tests cover a few lists.", "anchors": ["include/sleipnir/optimization/problem.hpp: minimize, maximize, cost_function_type, equality_constraint_type, inequality_constraint_type"]}
{"id": "C21", "title": "The solver is selected by the constraints present", "statement": "solve() runs unconstrained Newton iff there are no constraints, SQP iff there are only equality constraints, the interior-point method iff there are inequality constraints, and does nothing (variables untouched, SUCCESS) iff every expression is constant.", "quantifier": "all problems", "why_tests_cant": "The choice depends on the combination of cost type, constraint types and emptiness of each list; a wrong comparison of types is visible only in a combination that no test happens to solve.", "anchors": ["include/sleipnir/optimization/problem.hpp: Problem::solve"]}
{"id": "C22", "title": "SUCCESS means first-order optimal and feasible within tolerance", "statement": "If solve() returns SUCCESS for a problem with a non-constant expression and no NaN arises, then at the returned values every equality constraint holds within the tolerance, every inequality is violated by no more than the tolerance, and the scaled stationarity and complementarity errors are within the tolerance.", "quantifier": "all problems, all linear solver behaviours, all iteration histories", "why_tests_cant": "Holds along arbitrary iteration histories; tests see only convergent samples.", "anchors": ["include/sleipnir/optimization/solver/newton.hpp", "include/sleipnir/optimization/solver/sqp.hpp", "include/sleipnir/optimization/solver/interior_point.hpp", "include/sleipnir/optimization/solver/util/kkt_error.hpp", "include/sleipnir/optimization/problem.hpp: Problem::solve"]}
{"id": "C23", "title": "Iteration limit and timeout are honoured", "statement": "A solve performs at most max(1, max_iterations) outer iterations and stops after the first iteration that ends past the timeout; every run of the outer loop terminates.", "quantifier": "all problems, clocks, oracles and callback behaviours", "why_tests_cant": "It is a statement on every execution, including the ones in which line searches fail, restorations nest or the clock jumps; tests only see solves that behave well.", "anchors": ["include/sleipnir/optimization/solver/newton.hpp", "include/sleipnir/optimization/solver/sqp.hpp", "include/sleipnir/optimization/solver/interior_point.hpp", "include/sleipnir/optimization/solver/options.hpp"]}
{"id": "C24", "title": "Callback protocol", "statement": "Each iteration calls the callbacks in registration order (ordinary ones before persistent ones) until one returns true; a true result ends the solve with CALLBACK_REQUESTED_STOP and the returned variables are the iterate shown to that callback; clear_callbacks removes only ordinary callbacks.", "quantifier": "all callback lists and behaviours, all iteration histories", "why_tests_cant": "Callbacks are arbitrary functions that may stop at any point; a test uses one or two fixed callbacks and one place to stop.", "anchors": ["include/sleipnir/optimization/problem.hpp: add_callback, add_persistent_callback, clear_callbacks", "include/sleipnir/optimization/solver/interior_point.hpp", "include/sleipnir/optimization/solver/sqp.hpp", "include/sleipnir/optimization/solver/newton.hpp"]}
{"id": "C25", "title": "Slacks and inequality multipliers stay positive", "statement": "At every iterate shown to callbacks by the interior-point solver every slack and every inequality dual is strictly positive.", "quantifier": "all problems, all steps produced by the linear solver, all iteration counts", "why_tests_cant": "Invariant along unbounded iteration histories for arbitrary steps.", "anchors": ["include/sleipnir/optimization/solver/interior_point.hpp", "include/sleipnir/optimization/solver/util/fraction_to_the_boundary_rule.hpp"]}
{"id": "C26", "title": "The barrier parameter decreases to its floor", "statement": "The barrier parameter never increases, never falls below its floor, its update loop terminates, and the fraction-to-the-boundary factor stays in [0.99, 1).", "quantifier": "all histories of barrier updates, all scalings and tolerances", "why_tests_cant": "The barrier parameter is updated in a nested loop whose number of rounds depends on the scaling and the errors met; a test observes a few sequences out of a continuum.", "anchors": ["include/sleipnir/optimization/solver/interior_point.hpp:update_barrier_parameter_and_reset_filter"]}
{"id": "C27", "title": "Line search terminates with a legal step", "statement": "Every backtracking line search terminates; the accepted step size is positive and at most the fraction-to-the-boundary maximum; a step is only accepted when it was accepted by the filter or reduced the KKT error by the required factor.", "quantifier": "all filters, trial evaluations (finite or not) and second-order-correction outcomes", "why_tests_cant": "Trial values are arbitrary; termination is an all-executions claim.", "anchors": ["include/sleipnir/optimization/solver/interior_point.hpp", "include/sleipnir/optimization/solver/sqp.hpp", "include/sleipnir/optimization/solver/newton.hpp"]}
{"id": "C28", "title": "Fraction-to-the-boundary rule", "statement": "The step length limit used to keep positive quantities x positive along a direction p is the largest alpha in (0, 1] with x + alpha p >= (1 - tau) x, for positive x and tau in (0, 1).", "quantifier": "all vectors x > 0 and p, all tau in (0,1)", "why_tests_cant": "The largest admissible step is a maximum over a continuum, and a rule that is slightly too short or long still passes tests that only check that solves converge.", "anchors": ["include/sleipnir/optimization/solver/util/fraction_to_the_boundary_rule.hpp"]}
{"id": "C29", "title": "Filter acceptance", "statement": "A trial point is accepted exactly when its cost is finite, it is not dominated by any remembered entry, has its constraint violation within the limit, and makes sufficient progress from the current point. A point left behind by a step that extends the filter never dominates a later accepted point, no remembered entry is dominated by a newer one, the accepted region only shrinks until reset, and a run confined to finitely many points accepts a bounded number of steps.", "quantifier": "all histories of add/try_add/reset", "why_tests_cant": "That points never become acceptable again is a statement over unbounded histories of additions and resets; a wrong comparison only makes some solves cycle.", "anchors": ["include/sleipnir/optimization/solver/util/filter.hpp: Filter, FilterEntry"]}
{"id": "C30", "title": "Bound detection is sound and complete", "statement": "The bounds the solver extracts are, for each decision variable, exactly the tightest interval implied by the inequality constraints that are linear in a single variable; a conflict is found iff that interval is empty; exactly those constraints are identified as bounds; variable values are left unchanged; GLOBALLY_INFEASIBLE is reported only if no assignment satisfies the constraints.", "quantifier": "all lists of inequality constraints with nonzero finite coefficients", "why_tests_cant": "The result depends on the order of the constraints, their signs and on ties between bounds; there are unboundedly many combinations and several of them never occur in examples.", "anchors": ["include/sleipnir/optimization/solver/util/bounds.hpp: get_bounds", "include/sleipnir/optimization/problem.hpp: Problem::solve"]}
{"id": "C31", "title": "Initial points are moved strictly inside bounds", "statement": "Projection of the initial guess moves every bounded variable strictly inside its non-degenerate interval (onto it when degenerate), and leaves unbounded variables and already interior points alone.", "quantifier": "all points, all bounds and parameters", "why_tests_cant": "Bounds, one-sided or two-sided, and points range over a continuum, with special cases at equality and infinity that random tests do not hit.", "anchors": ["include/sleipnir/optimization/solver/util/bounds.hpp: project_onto_bounds"]}
{"id": "C32", "title": "Problem scaling preserves the solution set", "statement": "Scaling factors lie in (0, 1], bring every scaled gradient row to at most 100 in magnitude, and a point satisfies the unscaled first-order optimality conditions with unscaled multipliers iff it satisfies the scaled ones.", "quantifier": "all gradients, Jacobians and multipliers", "why_tests_cant": "Equivalence of the scaled and the original conditions is an algebraic statement over all gradients, Jacobians and multipliers; a wrong factor only shifts where solves stop.", "anchors": ["include/sleipnir/optimization/solver/util/problem_scaling.hpp", "include/sleipnir/optimization/solver/util/kkt_error.hpp", "include/sleipnir/optimization/problem.hpp: Problem::solve"]}
{"id": "C33", "title": "The condensed step solves the full primal-dual Newton system", "statement": "The step computed from the condensed linear system together with the recovered slack and dual steps satisfies all four blocks of the linearised perturbed optimality conditions; with second-order correction it solves the corrected ones.", "quantifier": "all problem data with positive slacks", "why_tests_cant": "A matrix identity over all data with positive slacks: a sign error in one block may still give a descent direction and converge on every test problem.", "anchors": ["include/sleipnir/optimization/solver/interior_point.hpp", "include/sleipnir/optimization/solver/sqp.hpp", "docs/algorithms.md"]}
{"id": "C34", "title": "Regularised factorisation terminates and is trustworthy", "statement": "Regularised factorisation terminates whatever the factorisation reports, and on success the factored matrix has the inertia required for a descent direction (as many positive pivots as variables, as many negative as equality constraints, no zero).", "quantifier": "all behaviours of the underlying factorisation", "why_tests_cant": "The factorisation may report any sequence of failures and inertias; the sequences that exercise each exit of the loop are rarely produced by real matrices.", "anchors": ["include/sleipnir/optimization/solver/util/regularized_ldlt.hpp", "include/sleipnir/optimization/solver/util/dense_regularized_ldlt.hpp", "include/sleipnir/optimization/solver/util/sparse_regularized_ldlt.hpp", "include/sleipnir/optimization/solver/util/inertia.hpp"]}
{"id": "C35", "title": "Sparse assembly equals block stacking", "statement": "Assembling solver matrices by stacking blocks produces exactly the nonzeros of the vertically stacked matrices at the offset, in column-major order without duplicates; the restoration problem's matrices built from triplets equal the derivatives of the restoration functions.", "quantifier": "all sparse matrices and offsets", "why_tests_cant": "Duplicated, empty and shifted patterns interact; a misplaced triplet is visible only for particular patterns and then only as slower convergence.", "anchors": ["include/sleipnir/optimization/solver/util/append_as_triplets.hpp", "include/sleipnir/optimization/solver/util/feasibility_restoration.hpp"]}
{"id": "C36", "title": "Restoration slack initialisation", "statement": "The feasibility-restoration slacks are initialised to strictly positive p and n with c - p + n = 0 that minimise the restoration barrier objective for fixed x.", "quantifier": "all c, all rho, mu > 0", "why_tests_cant": "Optimality over all constraint values and parameters; a nearly optimal slack also converges.", "anchors": ["include/sleipnir/optimization/solver/util/feasibility_restoration.hpp:compute_p_n"]}
{"id": "C37", "title": "Multiplier estimate is the least-squares estimate", "statement": "The Lagrange multiplier estimate solves the stated least-squares problem and its inequality part is clamped positive.", "quantifier": "all data", "why_tests_cant": "Least-squares optimality is a claim against every other vector of multipliers; a test compares with single numbers.", "anchors": ["include/sleipnir/optimization/solver/util/lagrange_multiplier_estimate.hpp"]}
{"id": "C38", "title": "Exit statuses mean what the documentation says", "statement": "TOO_FEW_DOFS iff there are more equality constraints than variables, NONFINITE_INITIAL_GUESS iff the initial evaluation is not finite, GLOBALLY_INFEASIBLE only if bounds conflict, LOCALLY_INFEASIBLE only at a point violating a constraint, and statuses from feasibility restoration are reported faithfully.", "quantifier": "all problems and executions", "why_tests_cant": "Each status must be justified on every execution history; tests check that the expected status is returned on problems that were chosen to return it.", "anchors": ["include/sleipnir/optimization/solver/exit_status.hpp", "include/sleipnir/optimization/solver/sqp.hpp", "include/sleipnir/optimization/solver/interior_point.hpp", "include/sleipnir/optimization/solver/util/feasibility_restoration.hpp", "include/sleipnir/optimization/solver/util/is_locally_infeasible.hpp"]}
{"id": "C39", "title": "The solution is written back", "statement": "After solve() every decision variable holds the corresponding entry of the solver's final iterate; when solve() returns without running a solver, no variable changes.", "quantifier": "all problems and executions", "why_tests_cant": "Every way out of solve() must write back the right vector and nothing else; tests look at successful solves.", "anchors": ["include/sleipnir/optimization/problem.hpp: Problem::solve"]}
{"id": "C40", "title": "OCP: direct transcription", "statement": "With direct transcription and discrete dynamics the constraints hold exactly iff every state equals the dynamics applied to the previous state and input; with continuous dynamics iff it equals the classical RK4 step; the number of constraints is num_steps * num_states.", "quantifier": "all dynamics, sizes and trajectories", "why_tests_cant": "Dynamics are arbitrary functions and horizons unbounded; an index shifted by one at the first or last step is hidden by constant inputs or autonomous dynamics, which most examples have.", "anchors": ["include/sleipnir/optimization/ocp.hpp: OCP"]}
{"id": "C41", "title": "OCP: single shooting", "statement": "With single shooting, the state expressions are exactly the iterated dynamics from the first state under the inputs, with no constraints added.", "quantifier": "all dynamics and input sequences", "why_tests_cant": "Unbounded recursion over the horizon with arbitrary dynamics; a test fixes one of each.", "anchors": ["include/sleipnir/optimization/ocp.hpp: OCP"]}
{"id": "C42", "title": "OCP: direct collocation is Hermite-Simpson", "statement": "The collocation constraint holds iff the cubic Hermite interpolant through the endpoint states and slopes has at the midpoint the slope given by the dynamics there; it is exact for every trajectory that is a cubic polynomial in time.", "quantifier": "all dynamics, step sizes and states", "why_tests_cant": "The defect equation is an identity over all dynamics, step sizes and states; a wrong weight still converges to a nearby trajectory.", "anchors": ["include/sleipnir/optimization/ocp.hpp: OCP::constrain_direct_collocation"]}
{"id": "C43", "title": "OCP: time grid", "statement": "for_each_step and the dynamics see time as the sum of the preceding timesteps, for fixed, variable and single-variable timestep modes; min and max timestep and input bounds constrain exactly the documented variables.", "quantifier": "all modes, horizons and timestep values", "why_tests_cant": "The grid depends on the mode, the horizon and on which variables are shared; tests check one horizon per mode.", "anchors": ["include/sleipnir/optimization/ocp.hpp: OCP"]}
{"id": "C44", "title": "Multistart prefers successful solves and then lower cost", "statement": "Multistart returns one of the results of the initial guesses; if any solve succeeded the returned one succeeded, and among successful ones it has the lowest cost.", "quantifier": "all lists of results", "why_tests_cant": "The outcome depends on the order of statuses and costs and on the schedule of the threads, of which a test run sees one.", "anchors": ["include/sleipnir/optimization/multistart.hpp: Multistart"]}
{"id": "C45", "title": "Spy files round-trip", "statement": "The sparsity file written by Spy is decoded by the viewer into exactly the titles, sizes and the sequence of sparsity patterns with signs.", "quantifier": "all titles, sizes and sequences of matrices", "why_tests_cant": "The format must round-trip for every byte string, size and sign pattern, and for files cut short at any byte.", "anchors": ["include/sleipnir/util/spy.hpp: Spy", "tools/spy.py"]}
{"id": "C46", "title": "Diagnostics formatting", "statement": "A histogram always has the requested width and its filled part is the value rounded down to an eighth of a character; the text for a regularization factor denotes the power of ten next to it and fits its column; times, percentages and backtrack counts are the documented numbers; infeasibility reports list exactly the violated constraints, in order.", "quantifier": "all inputs", "why_tests_cant": "Rounding at the boundaries between glyphs, powers of ten and percentages happens on sets that sampled inputs miss.", "anchors": ["include/sleipnir/util/print_diagnostics.hpp: histogram, power_of_10, print_c_e_local_infeasibility_error"]}
{"id": "C47", "title": "Solvers receive the true derivatives of the stated problem", "statement": "During solve(), the values, gradients, Jacobians and Lagrangian Hessians the solver works with are exactly those of the user's cost and constraints at the current iterate, multiplied by the scaling factors, whatever iterate and multipliers it asks for.", "quantifier": "all problems smooth at the iterate, all iterates and multipliers", "why_tests_cant": "Derivatives of arbitrary expressions at arbitrary points and multipliers; finite differences in a test hide errors below their own, and a wrong Hessian term only slows convergence.", "anchors": ["include/sleipnir/optimization/problem.hpp: Problem::solve"]}
{"id": "C48", "title": "How a solve continues after feasibility restoration", "statement": "When a solve with constraints enters feasibility restoration and continues afterwards, then either a user callback returned true during the restoration, or the point it continues from has a total constraint violation below nine tenths of that of the point where restoration began and is accepted by the same filter as a step from there. The iterate, the multipliers and all function values used next belong to the same point; the multipliers are the least-squares estimates for that point, with inequality multipliers brought into the range that the barrier parameter allows; and the barrier parameter is unchanged.", "quantifier": "All problems, all iterates at which restoration starts, all callbacks, both solvers with constraints", "why_tests_cant": "Restoration starts only after a line search fails; a test meets a handful of such points and cannot tell whether a continuation that lost progress or kept stale multipliers happened to converge anyway.", "anchors": ["include/sleipnir/optimization/solver/interior_point.hpp: feasibility restoration block and its callback", "include/sleipnir/optimization/solver/sqp.hpp: feasibility restoration block and its callback", "include/sleipnir/optimization/solver/util/feasibility_restoration.hpp: feasibility_restoration()"]}
{"id": "C49", "title": "Whole solves consist of Newton steps and restorations, and stay finite", "statement": "If the cost, constraints and their derivatives are finite at every finite point and the linear algebra is exact, then a solve started from a finite guess shows its callbacks only finite iterates, the first of which is the guess; each following iterate is reached from the previous one either along a fraction in (0, 1] of a step that solves the regularised linearised optimality conditions there (or a second-order corrected version of it), or through a feasibility restoration; the returned point, slacks and multipliers are finite, slacks and inequality multipliers positive; and SUCCESS means that the error of the original, unscaled problem is at most the tolerance, never that it was NaN.", "quantifier": "All such problems, guesses, option values with positive tolerance, callbacks and clocks; all three solvers", "why_tests_cant": "It is a statement on every iteration of every solve, including what happens after line searches fail; tests see the final answers of a few solves.", "anchors": ["include/sleipnir/optimization/solver/interior_point.hpp: interior_point()", "include/sleipnir/optimization/solver/sqp.hpp: sqp()", "include/sleipnir/optimization/solver/newton.hpp: newton()"]}
{"id": "C50", "title": "What solve() leaves behind", "statement": "After solve() every Variable that existed before still stands for the same expression, and value() on it returns the value of that expression with the decision variables at the solution and all other variables at their previous values; Jacobians and Hessians made before solve() are evaluated at the solution as well. Nothing the solver evaluated on the way shows, whatever points, multipliers and derivatives it asked for.", "quantifier": "all programs that build expressions before solve(), all problems made of them, all sequences of evaluations by the solver, all solutions", "why_tests_cant": "The solver evaluates the user's own expression graph in place hundreds of times with other values; a stale value or cached row shows only for particular sharing between expressions and particular last evaluations.", "anchors": ["include/sleipnir/optimization/problem.hpp: Problem::solve (setup of autodiff, matrix callbacks, assignment of the solution)", "include/sleipnir/autodiff/variable_matrix.hpp: set_value, value"]}
{"id": "C51", "title": "Every iteration makes progress", "statement": "Compare consecutive iterates that a solve shows to its iteration callbacks. With constraints, the later one was reached by a step of size at least 1e-7 after which the cost (with the barrier term) or the total constraint violation is lower by the documented margin and the violation is at most ten thousand times the larger of 1 and the initial violation; or the 1-norm of the optimality error fell by a thousandth; or feasibility restoration cut the violation by a tenth; or a callback asked to stop during feasibility restoration. Without constraints the cost is lower whenever the step is a direction of descent, or else the gradient norm fell by a thousandth. No iterate is accepted for any other reason.", "quantifier": "all problems, guesses, options with positive tolerance, callbacks, clocks and all answers of the linear solver", "why_tests_cant": "It is a statement on every iteration of every solve; a test that converges does not notice iterations accepted without progress, and wrong limits only matter on problems that need them.", "anchors": ["include/sleipnir/optimization/solver/interior_point.hpp: interior_point()", "include/sleipnir/optimization/solver/sqp.hpp: sqp()", "include/sleipnir/optimization/solver/newton.hpp: newton()", "include/sleipnir/optimization/solver/util/filter.hpp: Filter"]}
{"id": "C52", "title": "Subscripts in Python select what NumPy selects", "statement": "For a VariableMatrix or VariableBlock in Python, A[e, f] and chains of such subscripts, with integers and slices that NumPy accepts for an array of that shape, and A[k], taken in the flattened array, read exactly the elements NumPy would select, in NumPy's order; blocks are views of the matrix; assignments to such subscripts write exactly these elements. Subscripts that NumPy rejects raise an exception.", "quantifier": "all matrix sizes and contents, all integers, all slices with absent, negative, out-of-range or huge bounds and any step, all chains of subscripts, all assigned values", "why_tests_cant": "Indices and slices combine sign, range, step and nesting in unboundedly many ways; the existing tests use a few of them and miss that negative row integers next to a slice are not counted from the end.", "anchors": ["python/cpp/autodiff/bind_variable_matrix.cpp: __getitem__, __setitem__", "python/cpp/autodiff/bind_variable_block.cpp: __getitem__, __setitem__", "include/sleipnir/autodiff/variable_matrix.hpp: VariableMatrix::operator[]", "include/sleipnir/autodiff/variable_block.hpp: VariableBlock::operator[]", "include/sleipnir/autodiff/slice.hpp: Slice"]}
{"id": "C53", "title": "Quadratic problems are solved in one iteration", "statement": "A quadratic cost without constraints whose Hessian is symmetric with eigenvalues of at least 1e-4 is minimised in at most one iteration from any finite guess; the linear system is not regularised. So is a convex quadratic cost with linear equality constraints whenever the linear solver needs no regularisation and the guess is feasible or violates the constraints by more than 1e-4 in total; the multipliers returned then satisfy the optimality condition. The solve reports SUCCESS unless a callback, the timeout, the checks of the guess itself or an iteration limit of one ended it.", "quantifier": "all numbers of variables and constraints, all such costs and constraints, all scalings, guesses, callbacks, clocks and nonnegative tolerances", "why_tests_cant": "A test fixes one quadratic problem and a tolerance; an almost right step, an unnecessary regularisation or a full step rejected by the line search only costs further iterations.", "anchors": ["include/sleipnir/optimization/solver/newton.hpp:newton()", "include/sleipnir/optimization/solver/sqp.hpp:sqp()", "include/sleipnir/optimization/solver/util/filter.hpp: Filter", "include/sleipnir/optimization/solver/util/dense_regularized_ldlt.hpp: compute()", "include/sleipnir/optimization/solver/util/sparse_regularized_ldlt.hpp:compute()"]}
{"id": "C54", "title": "Matrices hold what they are made from, and iterate row by row", "statement": "A VariableMatrix built from lists, a block or slice, an Eigen diagonal matrix, an Eigen array or a span of Variables has the shape and the elements of its source at the same positions; fill() and identity() hold the value or the unit matrix; +=, -=, *= and /= with a matrix, a Variable or a number leave in the target exactly the elements of the corresponding expression evaluated on the old target; assignment of a scalar writes the only element of a 1 by 1 matrix; converting a Variable to a 1 by 1 matrix and back returns it; begin() to end() visits every element of a matrix, a block or a view exactly once, row by row, and rbegin() to rend() the same backwards.", "quantifier": "every element type, shape (including zero rows or columns), source, block, slice with any start and step, and every operand of a compound assignment", "why_tests_cant": "Shapes and views are unbounded and an index error (row stride, swapped size, iteration over the parent matrix instead of the view) shows only for particular non-square or sliced shapes.", "anchors": ["include/sleipnir/autodiff/variable_matrix.hpp: VariableMatrix(...), operator+=, operator-=, operator*=, operator/=, begin, end, rbegin, rend", "include/sleipnir/autodiff/variable_block.hpp: iterator, begin, end, operator+="]}
{"id": "C55", "title": "The matrix exponential", "statement": "For a square matrix of expressions, exp() returns a matrix of the same shape whose elements are within 2e-17 + 4000u of the elements of the true matrix exponential, where u is the relative rounding of the coefficients, at every point at which each row of the matrix has absolute sum at most 4 (and within 1e-33 + 12u if the sums are at most 1), as long as the linear system in it is solved exactly.", "quantifier": "every size, every square matrix of expressions with row sums at most 4, every rounding of the coefficients up to 1e-3 and every exact linear solver", "why_tests_cant": "The bound is over a continuum of matrices of every size; sampled matrices, typically rotations with small angles, do not show where the approximation stops being one.", "anchors": ["include/sleipnir/autodiff/variable_matrix.hpp: exp", "include/sleipnir/autodiff/variable_block.hpp: exp"]}
{"id": "C56", "title": "Without constraints, solving converges", "statement": "Let the cost be twice differentiable where it is finite, let the points that are no worse than the guess form a closed bounded set inside the box of 1e10, and let the linear solver be exact with regularised Hessians between a and b times the identity, b at most 9e19 a. Then the cost never rises, every iteration lowers it by at least 1e-8 min(1, 0.99 a/b) tol^2/b, so the number of iterations is bounded, and solve() ends with SUCCESS at a point of the domain whose gradient is within the tolerance unless a callback, the timeout or an iteration limit below that bound stops it. If the Hessian itself is at least a >= 1e-4 times the identity on a convex level set, a minimiser over the whole domain exists and SUCCESS means being within sqrt(n) tol/a of it.", "quantifier": "all numbers of variables, all such costs including ones that are infinite outside an open domain, all guesses, scalings, callbacks, clocks and positive tolerances", "why_tests_cant": "Global convergence is a statement on infinitely many costs and unbounded runs; a broken acceptance test or a step length that shrinks without need only shows as a failure on costs that no test has.", "anchors": ["include/sleipnir/optimization/solver/newton.hpp:newton()", "include/sleipnir/optimization/solver/util/filter.hpp: Filter::try_add()", "include/sleipnir/optimization/solver/util/kkt_error.hpp: unscaled_kkt_error()"]}
{"id": "C57", "title": "Near a minimiser, solving converges quadratically", "statement": "Let the Hessian of an unconstrained cost be at least a times the identity and Lipschitz continuous with constant L on the set of points no worse than the guess, let the linear solver be exact and need no regularisation there, and let the gradient at the guess be at most a^2/L. Then solve() takes full steps only, after k iterations the gradient is at most 2a^2/L times (1/2)^(2^k), and solve() ends with SUCCESS within the number of iterations that this bound needs to reach the tolerance unless a callback, the timeout or an iteration limit of at most that number stops it.", "quantifier": "all numbers of variables, all such costs, guesses, scalings, callbacks, clocks and positive tolerances", "why_tests_cant": "A rate is a statement on all iterations of all such costs; rejecting full steps, or a slightly wrong step, still converges on every test, only linearly.", "anchors": ["include/sleipnir/optimization/solver/newton.hpp:newton()", "include/sleipnir/optimization/solver/util/filter.hpp: Filter::try_add()"]}
{"id": "C58", "title": "For convex problems, SUCCESS bounds the distance from the global optimum", "statement": "If the minimised cost is convex, the equality constraints are affine and the inequality constraints concave expressions kept nonnegative, then after SUCCESS no feasible point has a cost lower than the returned one by more than the tolerance times a factor computed from the final multipliers and the distance to that point. Without equality constraints and with a strictly feasible point the factor depends on the problem only. Without convexity SUCCESS claims no more than stationarity: a stationary guess of an unconstrained problem is returned unchanged with SUCCESS, be it a minimum or a maximum.", "quantifier": "all convex problems in any number of variables and constraints, all feasible points to compare with, all tolerances, linear solver answers, clocks, callbacks and guesses", "why_tests_cant": "A comparison with every feasible point of every convex problem is not something runs can show; a sign error in a multiplier or a missing complementarity term can still lead tests to the right minimiser.", "anchors": ["include/sleipnir/optimization/problem.hpp: Problem::solve()", "include/sleipnir/optimization/solver/interior_point.hpp:interior_point()", "include/sleipnir/optimization/solver/sqp.hpp:sqp()", "include/sleipnir/optimization/solver/newton.hpp:newton()", "include/sleipnir/optimization/solver/util/kkt_error.hpp: unscaled_kkt_error()"]}
{"id": "C59", "title": "The feasibility restoration problem", "statement": "When the solver gives up following the cost and restores feasibility, the problem it then solves is: minimise one thousand times the sum of nonnegative relaxations of all constraints plus the weighted squared distance from the iterate where the restoration began (weights 1/x^2 capped at 1, times half the root of the restoration's barrier parameter), such that every equality and inequality constraint holds after relaxation. Its gradient and Jacobians are those of this problem. If the restoration ends successfully at a point, and the equality constraints are affine and the inequality constraints concave, then no point in space has a noticeably smaller sum of a thousandfold constraint violation and that distance: the excess is bounded by the tolerance times an explicit factor.", "quantifier": "all numbers of variables and constraints, all constraint functions, points, weights, barrier parameters, scalings with factors up to 1 and tolerances up to 1; every comparison point", "why_tests_cant": "A relaxation variable attached to the wrong constraint, or a wrong weight, still drives the violation down on test problems; that nothing in the whole space is better is not observable by running.", "anchors": ["include/sleipnir/optimization/solver/util/feasibility_restoration.hpp:feasibility_restoration()", "include/sleipnir/optimization/solver/util/kkt_error.hpp: unscaled_kkt_error()"]}
{"id": "C60", "title": "LOCALLY_INFEASIBLE and how far feasible points are", "statement": "If solve() returns LOCALLY_INFEASIBLE for a problem with affine equality and concave inequality constraints, then the returned values violate an equality constraint and every point that satisfies all constraints is farther than 100 away; or they violate an inequality constraint and every point that satisfies all constraints is farther than 1e-6 away; or no point has a noticeably smaller sum of a thousandfold constraint violation and of the weighted squared distance from a point at which the solver gave up following the cost. The second distance is no better: minimising x subject to a x >= b from 0 is given up at once, with unchanged values, whenever a b < 1e-6 < b, although b/a is feasible and optimal.", "quantifier": "all problems whose equality constraints are affine and whose inequality constraints are concave on a convex set, all initial values, tolerances up to 1, options, callbacks, linear solvers; every comparison point", "why_tests_cant": "It compares the result with all points of the space, and the thresholds only matter for badly scaled constraints; a test sees the status of the problems it was given.", "anchors": ["include/sleipnir/optimization/problem.hpp: Problem::solve()", "include/sleipnir/optimization/solver/util/is_locally_infeasible.hpp", "include/sleipnir/optimization/solver/util/feasibility_restoration.hpp:feasibility_restoration()", "include/sleipnir/optimization/solver/interior_point.hpp", "include/sleipnir/optimization/solver/sqp.hpp"]}
{"id": "C61", "title": "solve() leaves finite values", "statement": "If the expressions are smooth for all values of the decision variables, the initial values are finite and the linear solver answers finite systems exactly, then solve() leaves finite values in all variables whatever status it returns, and the multipliers of the inequality constraints that it ends with are positive. Hence SUCCESS then means that the first-order conditions hold within the tolerance and, for convex problems with a strictly feasible point, that the cost is within the tolerance times a problem-dependent factor of the optimum, with no condition on the result; likewise LOCALLY_INFEASIBLE.", "quantifier": "all problems with smooth expressions, all finite initial values, options, callbacks and tolerances, every exit status", "why_tests_cant": "NaN or infinity may enter through any of the exits of nested loops and restorations; a test that converges never meets those exits.", "anchors": ["include/sleipnir/optimization/problem.hpp: Problem::solve()", "include/sleipnir/optimization/solver/interior_point.hpp", "include/sleipnir/optimization/solver/sqp.hpp", "include/sleipnir/optimization/solver/newton.hpp", "include/sleipnir/optimization/solver/util/feasibility_restoration.hpp"]}
{"id": "C62", "title": "Slacks stay positive in floating-point arithmetic", "statement": "In floating-point arithmetic, if the unit roundoff times 110 (k + l + 2) is at most the tolerance times the cost's scaling factor, k being the number of inequality constraints and l that of the variables that feasibility restoration adds, then every slack and every inequality multiplier of an interior-point solve is positive at all times, whatever the step directions are, so that no division by a zero slack and no logarithm of a nonpositive one happens; the bounds used to clamp the multipliers are in order; and the loop that reduces the barrier parameter ends.", "quantifier": "All sequences of steps, halvings, second-order corrections, barrier reductions and restorations; all roundings (fused or not) with relative error at most the unit roundoff", "why_tests_cant": "The rounding error of every step of every solve has to be accounted for; a failure needs a particular combination of step, slack and rounding.", "anchors": ["include/sleipnir/optimization/solver/util/fraction_to_the_boundary_rule.hpp", "include/sleipnir/optimization/solver/interior_point.hpp:interior_point()", "include/sleipnir/optimization/solver/util/feasibility_restoration.hpp", "include/sleipnir/optimization/solver/util/lagrange_multiplier_estimate.hpp"]}
{"id": "C63", "title": "SUCCESS in floating-point arithmetic", "statement": "In floating-point arithmetic, a stopping test that passes means that the user's unscaled optimality conditions hold exactly up to the tolerance enlarged by a factor theta and by theta - 1 times the magnitude of their terms, where theta is (1 - u) to the power -(D + 13) for the interior-point method, -(D + 7) for SQP and -3 for Newton's method, u the unit roundoff and D the largest number of roundings a term goes through in a sum; constraints hold up to theta times the tolerance. Conversely the test passes whenever they hold up to an epsilon with theta (epsilon + (theta - 1) M) at most the tolerance.", "quantifier": "All problem values, scaling factors, slacks and multipliers; all orders of summation; all roundings with relative error at most u", "why_tests_cant": "It bounds the rounding error of the test for all data and all orders in which Eigen may add.", "anchors": ["include/sleipnir/optimization/solver/util/kkt_error.hpp: unscaled_kkt_error, kkt_error", "include/sleipnir/optimization/problem.hpp: Problem::solve"]}
{"id": "C64", "title": "Optimal control states follow the system", "statement": "For four times continuously differentiable dynamics there are constants C and h0, which depend only on the dynamics and on a bound R of the inputs, the solution and the final time, such that for every number of steps, timestep method and point at which no timestep exceeds h <= h0 and every constraint value is at most epsilon in magnitude, each state of a problem with explicit ODE dynamics differs from the solution of the differential equation at that time by at most C times (initial error + h^4 + steps * epsilon) for direct transcription and single shooting, where inputs are held during each step, and C times (initial error + h^4 + epsilon) for direct collocation, where inputs are interpolated linearly with slopes of at most R.", "quantifier": "All smooth dynamics; all horizons, timestep methods, points and tolerances within the stated bounds; all solutions of the differential equation", "why_tests_cant": "It is a statement of convergence with uniform constants, over a continuum of dynamics and step sizes; a wrong weight in the integrator lowers the order but still passes a test with a tolerance.", "anchors": ["include/sleipnir/optimization/ocp.hpp: OCP::OCP, rk4, direct_transcription, direct_collocation, single_shooting"]}
{"id": "C65", "title": "Expressions and threads", "statement": "In a program with several threads, each of which drops all expressions it made, and no others, before it ends, every expression lives in memory that exists and shares it with no other, and the pool's count of blocks in use on each running thread is the number of its expressions. Memory stays sound even if threads drop the expressions of others, as long as no thread ends while a block of its pool is used or may be reused by another. Both conditions are needed: an expression returned from a thread that ends dangles, and so may a later expression of a thread that dropped another thread's expression; the count of that thread wraps around.", "quantifier": "All numbers of threads and all interleavings of their constructions, releases and ends", "why_tests_cant": "Interleavings are unbounded and a dangling block usually still holds its old contents, so that a test passes.", "anchors": ["include/sleipnir/util/pool.hpp: PoolResource, PoolAllocator, global_pool_resource", "src/util/pool.cpp: global_pool_resource", "include/sleipnir/optimization/multistart.hpp: multistart"]}
{"id": "C66", "title": "Decision variables during callbacks", "statement": "Whenever callbacks run during a solve, every decision variable of the problem holds the element of the iterate shown to the callback that belongs to it, so that a callback may read variables or evaluate expressions instead of indexing info.x. This also holds during feasibility restoration, whose iterates have further elements, and after trial points that the line search rejected. Variables of other problems keep their values. An exception thrown by a callback leaves the variables in this state.", "quantifier": "all problems, guesses, options, callbacks, numeric results of the linear algebra (also wrong or nonfinite ones), clocks and iterations", "why_tests_cant": "Between two calls the solver evaluates the problem at many points: trial points, second-order corrections, points of a restoration. One of them left behind is only visible in the iterations in which a step was rejected and the callback reads variables.", "anchors": ["include/sleipnir/optimization/problem.hpp: solve, x_ad", "include/sleipnir/optimization/solver/interior_point.hpp", "include/sleipnir/optimization/solver/sqp.hpp", "include/sleipnir/optimization/solver/newton.hpp", "include/sleipnir/optimization/solver/util/feasibility_restoration.hpp"]}
{"id": "C67", "title": "Values and derivatives are accurate in floating-point arithmetic", "statement": "When a program that builds polynomials (declarations, numbers, +, - and *, copies, assignments, set_value) runs in floating-point arithmetic with unit roundoff u, it never fails, and after any sequence of calls value() of an expression with n written operations differs from the exact value by at most ((1-u)^-n - 1) times the value that the expression with all signs made positive has at the absolute values of the variables. Every entry of Jacobian::value() and Gradient::value() differs from the exact partial derivative by at most ((1-u)^-(4n+1) - 1) times the corresponding derivative of that positive expression. Pruning, constant folding, caching of linear rows and the order in which adjoints are summed do not matter for the bound.", "quantifier": "all allowed programs of polynomial expressions of any size, with shared subexpressions, all values of the variables and all arithmetics whose operations have relative error at most u < 1 (no overflow or underflow)", "why_tests_cant": "A test compares a few derivatives with a tolerance chosen by hand; the bound concerns every graph, every order of accumulation and every rounding, including expressions with massive cancellation where a fixed tolerance means nothing.", "anchors": ["include/sleipnir/autodiff/expression.hpp:Expression::operator*", "include/sleipnir/autodiff/expression_graph.hpp:append_triplets", "include/sleipnir/autodiff/expression_graph.hpp:update_values", "include/sleipnir/autodiff/jacobian.hpp:Jacobian::value", "include/sleipnir/autodiff/variable.hpp:Variable::value"]}
{"id": "C68", "title": "SUCCESS for polynomial problems, evaluation included", "statement": "When cost and constraints are polynomials with at most N operations each, everything is computed in floating-point arithmetic with unit roundoff u - values and derivatives by automatic differentiation, scaling, and the stopping test - and the stopping test passes, then the optimality conditions of the problem as written hold exactly at the values of the variables, up to theta times the tolerance plus theta - 1 times the magnitude of their terms without cancellation, where theta is (1 - u) to the power -(D + 4N + 14) for the interior-point method, -(D + 4N + 8) for SQP and -(4N + 4) for Newton's method. Conversely, the test passes if these conditions hold up to an epsilon with theta (epsilon + (theta - 1) M) at most the tolerance.", "quantifier": "All polynomial problems of any size, all programs that build them, all values of variables and multipliers, all orders of summation, all arithmetics with relative errors at most u < 1 (no overflow or underflow)", "why_tests_cant": "The rounding errors of evaluating, differentiating, scaling and testing interact; a test sees one problem on one machine.", "anchors": ["include/sleipnir/optimization/solver/util/kkt_error.hpp: unscaled_kkt_error", "include/sleipnir/optimization/problem.hpp: Problem::solve", "include/sleipnir/autodiff/jacobian.hpp:Jacobian::value", "include/sleipnir/autodiff/variable.hpp: Variable::value"]}
{"id": "C69", "title": "Callbacks are shown the derivatives at the iterate", "statement": "In every call of a callback, the gradient, the Jacobians and the Hessian in the iteration information are derivatives at the point x of the same information, for the multipliers y and z of the same information. They are those of the scaled problem: the cost and each constraint are multiplied by factors in (0, 1] that do not change during the solve, that bring the derivatives at the initial values to at most 100 and that are 1 where they are at most 100 already. Of the Hessian of the Lagrangian the lower triangle is shown, zeros elsewhere. During a feasibility restoration the information has further variables at the end; the leading columns of the Jacobians are still those of the constraints, but gradient and Hessian belong to the restoration problem.", "quantifier": "all problems whose expressions are smooth at the points shown, all solver behaviours, linear solvers, clocks, options and callbacks, every call", "why_tests_cant": "The information is assembled from variables that are updated at different places of a loop; one that is stale for some kind of step (second-order correction, restoration) is visible only in callbacks called after such a step, and no test compares derivatives inside a callback.", "anchors": ["include/sleipnir/optimization/solver/iteration_info.hpp:IterationInfo", "include/sleipnir/optimization/solver/interior_point.hpp", "include/sleipnir/optimization/solver/sqp.hpp", "include/sleipnir/optimization/solver/newton.hpp", "include/sleipnir/optimization/problem.hpp:Problem::solve"]}
{"id": "C70", "title": "Operators in Python", "statement": "In Python, +, -, *, /, @, ==, <, <=, >, >=, unary minus and ** on Variable, VariableMatrix and VariableBlock objects, mixed with each other, with int and float and with two-dimensional NumPy arrays on either side, give the mathematical result of the operands' values: the same expression or constraint whatever the types and the order of the operands, each constraint being true exactly if the stated relation holds for all elements. Sizes that do not fit raise ValueError; combinations that an operator does not take raise TypeError. Functions such as sin apply to all elements of a matrix, functions of several scalars keep the order of their arguments, and bounds(l, x, u) states l <= x and x <= u.", "quantifier": "All operators, all pairs of operand types, all sizes, strides and element types of arrays, all values of the variables, all numbers of function arguments.", "why_tests_cant": "Which C++ operator runs is decided by two passes of overload resolution, NotImplemented, reflected methods and NumPy's dispatch; there are hundreds of combinations of operator and operand types, for each of which the operands may be swapped, and the tests try a few of them on one size.", "anchors": ["python/cpp/autodiff/bind_variable.cpp", "python/cpp/autodiff/bind_variable_matrix.cpp:__array_ufunc__", "python/cpp/autodiff/bind_variable_block.cpp", "python/cpp/try_cast.hpp:apply_eigen_op", "python/cpp/main.cpp:bounds"]}
{"id": "C71", "title": "Keyword arguments of solve() in Python", "statement": "Problem.solve(**kwargs) in Python solves with exactly the options given: each option has the value of its keyword argument, or the documented default if there is none, whatever the order. An unknown name raises KeyError, and a value of the wrong type raises an exception, both before solving starts.", "quantifier": "All combinations of distinct keyword arguments in any order, all values of each type.", "why_tests_cant": "Options are copied by hand from names to members. A name that sets the wrong member, or one that is forgotten, changes only when a solve stops, which no test that expects SUCCESS notices.", "anchors": ["python/cpp/optimization/bind_problem.cpp:solve", "include/sleipnir/optimization/solver/options.hpp:Options"]}
{"id": "C72", "title": "Exceptions and Ctrl-C during a solve in Python", "statement": "In Python, an exception raised by a callback, or a result that is neither True nor False, leaves solve() at that call, after all earlier callbacks returned; if solve() returns, no callback raised. Ctrl-C ends a solve: if a signal is pending at an iterate at which no other callback stops the solve, solve() raises KeyboardInterrupt, whatever callbacks were added and cleared before.", "quantifier": "All callbacks, all histories of adding and clearing them, all times at which signals arrive, all solves.", "why_tests_cant": "Signals arrive at arbitrary times and callbacks are arbitrary functions; tests neither send signals nor raise exceptions in callbacks.", "anchors": ["python/cpp/optimization/bind_problem.cpp:__init__", "python/cpp/optimization/bind_problem.cpp:add_callback", "python/cpp/optimization/bind_ocp.cpp:bind_ocp", "include/sleipnir/optimization/problem.hpp:add_persistent_callback"]}
{"id": "C73", "title": "Derivatives of all smooth expressions converge with the precision", "statement": "For every sequence of calls that declares variables, builds expressions with any of the operators and functions, copies, assigns, sets values, and takes values, types, Jacobians and gradients, the same calls run to completion in every floating-point arithmetic, and there is a constant C such that in every arithmetic whose unit roundoff u is small enough (and whose functions have relative error at most u) every value() and every entry of Jacobian::value() or Gradient::value() returned along the way differs from the exact value or partial derivative by at most C times u, wherever the expression is smooth. C depends only on the expression and the values of its variables, not on the arithmetic or the calls that led there. In particular, with ever more bits the results tend to the exact ones.", "quantifier": "all allowed sequences of calls without Jacobian::get() and Hessians, all expressions smooth at the values of their variables, all arithmetics with relative errors at most u that represent small integers (no overflow or underflow)", "why_tests_cant": "The derivative formulas of some thirty functions are evaluated in rounded arithmetic at rounded arguments; one that loses all digits in some region - cancellation in 1 - x*x, a quotient of small numbers, a wrong branch - passes tests elsewhere, and no test can vary the precision.", "anchors": ["include/sleipnir/autodiff/expression.hpp:Expression", "include/sleipnir/autodiff/expression_graph.hpp:append_triplets", "include/sleipnir/autodiff/expression_graph.hpp:update_values", "include/sleipnir/autodiff/jacobian.hpp:Jacobian::value", "include/sleipnir/autodiff/variable.hpp:Variable::value"]}
{"id": "C74", "title": "Values of expressions are exactly those of direct computation", "statement": "value() returns exactly the number that the same formula gives when it is computed directly with the arithmetic of the scalar type, operation by operation: the simplifications that the library makes while it builds an expression (dropping 0 + x, 1 * x, x / 1, pow(x, 1), turning pow(x, 2) into x * x, folding constants, shortcuts of functions at 0 and 1), shared subexpressions, copies, reassignments and cached evaluation orders change no bit of it. It holds wherever direct computation meets finite numbers only and never pow(0, 0). The sign of a zero is not preserved.", "quantifier": "all scalar types whose arithmetic satisfies the laws of 0, 1, -1 and 2 among its finite numbers (real numbers and binary floating-point numbers with any number of bits do), all sequences of calls without Jacobian::get() and Hessians, all finite numbers", "why_tests_cant": "A simplification that is right for real numbers may be wrong in the last bit, or only for particular constants; comparing with a tolerance cannot see it, and the combinations of constants, operations and histories are unbounded.", "anchors": ["include/sleipnir/autodiff/expression.hpp:Expression", "include/sleipnir/autodiff/variable.hpp:Variable::value", "include/sleipnir/autodiff/variable.hpp:Variable::set_value", "include/sleipnir/autodiff/expression_graph.hpp:update_values"]}
{"id": "C75", "title": "solve(A, B) for large and for non-square matrices", "statement": "For A larger than 4 by 4, solve(A, B) returns expressions that satisfy A X = B exactly in real arithmetic wherever A is invertible, also after the values of the variables in A and B are changed. For A with more rows than columns and independent columns, every column of X minimises the sum of squares of the corresponding column of A X - B. For A with more columns than rows and an invertible leading block, A X = B with zeros for the remaining unknowns.", "quantifier": "all sizes, all matrices of expressions, all values of the variables when solve() is called and when the result is evaluated", "why_tests_cant": "The decomposition compares expressions while it builds the result, so the expression that is returned depends on the values at that moment; a test that evaluates the result at the same values cannot see this, and sizes are unbounded.", "anchors": ["include/sleipnir/autodiff/variable_matrix.hpp:solve", "include/sleipnir/autodiff/variable_matrix.hpp:VariableMatrix::to_eigen", "include/sleipnir/autodiff/variable.hpp:InequalityConstraints::operator bool", "include/sleipnir/autodiff/variable.hpp:EqualityConstraints::operator bool"]}
{"id": "C76", "title": "Problems built in Python state what is written", "statement": "After any sequence of calls of decision_variable, symmetric_decision_variable, minimize, maximize, subject_to and set_value in Python, the feasible set of the problem consists of exactly the points at which every comparison or bounds() given to subject_to() holds, elementwise, and the objective is that of the last minimize() or maximize(). The operands may be numbers, variables, matrices, blocks and NumPy arrays on either side. Calls with operands of different shapes, objectives that are not single numbers, and sizes that are not integers raise ValueError or TypeError and leave the problem as it was. constrain_initial_state, constrain_final_state, set_lower_input_bound and set_upper_input_bound of OCP constrain the first or last state or every input to the given number or column and reject others in the same way. A chained comparison such as l <= x <= u states one of its two comparisons only: the second if the first holds for the values at the time of the call, otherwise the first.", "quantifier": "all sequences of calls, all kinds of operands, all sizes and values", "why_tests_cant": "Overload resolution, implicit conversions and Python's reflected operators select different C++ functions for each combination of types; which comparison a chain keeps depends on the values at the time. Tests use a few combinations at a few values.", "anchors": ["python/cpp/optimization/bind_problem.cpp:bind_problem", "python/cpp/optimization/bind_ocp.cpp:bind_ocp", "python/cpp/optimization/bind_equality_constraints.cpp:__bool__", "python/cpp/optimization/bind_inequality_constraints.cpp:__bool__", "include/sleipnir/optimization/problem.hpp:subject_to", "include/sleipnir/optimization/ocp.hpp:set_lower_input_bound"]}
{"id": "C77", "title": "Which elements of derivatives are stored does not depend on values", "statement": "The sparse matrices that Jacobian.value() and Hessian.value() return for one object store the same elements whenever they are called, whatever the variables hold, including elements that happen to be zero. Hence the matrices that Newton's method, SQP, the interior-point method and feasibility restoration factorise in one solve all store the same elements, for all iterates, multipliers, scalings and regularisations, and the sparse factorisation, which analyses the first matrix and reuses the analysis, is never given a matrix it has not analysed. The choice between the dense and the sparse factorisation does not depend on values either.", "quantifier": "All programs of API calls; all iterates, multipliers, scalings, barrier terms, restoration points and sequences of regularisations.", "why_tests_cant": "An element that is zero at one iterate only (say the derivative of x² at 0) must still be stored; a test has to start at or pass through such a point and to use a problem large and sparse enough for the sparse solver.", "anchors": ["include/sleipnir/autodiff/jacobian.hpp:Jacobian::value", "include/sleipnir/autodiff/hessian.hpp:Hessian::value", "include/sleipnir/autodiff/gradient_expression_graph.hpp:append_triplets", "include/sleipnir/optimization/solver/util/sparse_regularized_ldlt.hpp:SparseRegularizedLDLT::compute", "include/sleipnir/optimization/solver/interior_point.hpp:interior_point", "include/sleipnir/optimization/solver/sqp.hpp:sqp", "include/sleipnir/optimization/solver/newton.hpp:newton", "include/sleipnir/optimization/solver/util/feasibility_restoration.hpp:feasibility_restoration"]}
{"id": "C78", "title": "With linear equality constraints, solving from a feasible guess converges", "statement": "Solving a problem with a nonlinear cost and linear equality constraints only, from a guess that satisfies the constraints, keeps every iterate on the constraints and never raises the cost above that of the guess. If the cost is smooth on the feasible points with no larger cost, bounded from below there, with a Lipschitz continuous Hessian whose curvatures along the constraints are positive, the number of iterations is bounded by a number computed from these constants, and the exit status is SUCCESS with a KKT error of at most the tolerance, unless a callback, the timeout or the iteration limit stops the solver first. If the problem is convex, the result is as close to the minimiser as the KKT residual divided by the smallest curvature.", "quantifier": "All costs on open domains with such constants, all numbers of variables and constraints, all feasible guesses, positive scalings, tolerances, limits and callbacks.", "why_tests_cant": "Convergence for all costs is a statement over a continuum of problems and unboundedly many iterations, and it depends on every part of the solver at once: the filter, the second-order correction, the update of the multipliers and the scaled stopping test. Tests solve a few problems.", "anchors": ["include/sleipnir/optimization/solver/sqp.hpp:sqp", "include/sleipnir/optimization/solver/util/filter.hpp:Filter::try_add", "include/sleipnir/optimization/solver/util/kkt_error.hpp:kkt_error", "include/sleipnir/optimization/solver/util/all_finite.hpp:all_finite"]}
{"id": "C79", "title": "A function_ref calls the callable it refers to", "statement": "A function_ref calls the callable it was last made to refer to, by construction, by assignment of a callable or of another function_ref, or by swapping. A call is defined if that callable still exists, whatever has become of the function_ref objects it was copied from.", "quantifier": "All histories of constructing, copying, assigning, swapping, calling and destroying callables and function_ref objects, with any value categories.", "why_tests_cant": "The type erasure is exercised in the library by construction and copies only; assignments from and swaps of non-const objects take other overloads, and the error shows only if the source is changed or destroyed before the call.", "anchors": ["include/sleipnir/util/function_ref.hpp:function_ref"]}
{"id": "C80", "title": "Views of matrices in Python keep their matrix", "statement": "In Python, what is read and written through slices, slices of slices, rows, columns and iterators of a matrix is what the matrix's elements are, whatever names are rebound or deleted: a view keeps the matrix it refers to. A matrix that no name refers to, directly or through views, is destroyed.", "quantifier": "All functions with any number of names, all sequences of making matrices, slices, rows, columns and iterators, copying and deleting names, reading and writing elements, and all element types.", "why_tests_cant": "Lifetimes depend on the whole history of names and views, and access to a destroyed matrix usually still reads the old elements, so that tests pass by accident.", "anchors": ["python/cpp/autodiff/bind_variable_matrix.cpp:bind_variable_matrix", "python/cpp/autodiff/bind_variable_block.cpp:bind_variable_block", "include/sleipnir/autodiff/variable_block.hpp:VariableBlock"]}
{"id": "C81", "title": "With linear equality constraints, solving converges quadratically near a minimiser", "statement": "Let the constraints be linear equality constraints that the guess satisfies, let the Hessian of the cost have curvatures of at least a along the constraints and be Lipschitz continuous with constant L on the feasible points no worse than the guess, let the linear solver be exact and need no regularisation there, and let the slope of the cost along the constraints be at most a^2/L at the guess. Then solve() takes full steps only; after k iterations the slope of the cost along the constraints is at most 2a^2/L times (1/2)^(2^k), and for k > 0 so is the residual of the optimality conditions with the returned dual variables. solve() ends with SUCCESS within the number of iterations that this bound needs to reach the tolerance unless a callback, the timeout or an iteration limit of at most that number stops it.", "quantifier": "all numbers of variables and constraints, all such costs, feasible guesses, scalings, callbacks, clocks and positive tolerances", "why_tests_cant": "A rate is a statement on all iterations of all such problems; multipliers that are updated wrongly, or full steps that are rejected, still converge on every test, only more slowly.", "anchors": ["include/sleipnir/optimization/solver/sqp.hpp:sqp", "include/sleipnir/optimization/solver/util/filter.hpp:Filter::try_add", "include/sleipnir/optimization/solver/util/kkt_error.hpp:kkt_error"]}
{"id": "C82", "title": "With linear equality constraints, solving also converges from infeasible guesses", "statement": "Let the constraints be linear equality constraints and let the guess violate them. If the second-order Taylor polynomial of the cost at the guess has a minimiser v on the constraints at which the cost is defined, and moving there is worthwhile (the violation is more than 1e-4, or the slope of the cost is small compared to it, or the cost decreases), then the first iteration moves to v, however much the cost rises, and all later iterates satisfy the constraints with costs no larger than at v. Under the conditions of the convergence property from feasible guesses, required only below the cost of v, the exit status is SUCCESS with a KKT error of at most the tolerance after a bounded number of iterations, unless a callback, the timeout or the iteration limit stops the solver first.", "quantifier": "All costs on open domains with such constants, all numbers of variables and constraints, all guesses for which the solver does not report infeasible constraints at once, positive scalings, tolerances, limits and callbacks.", "why_tests_cant": "Whether the filter lets the solver return to the constraints at the price of a larger cost, and whether the filter's memory of the guess then blocks later iterates, depends on violations and costs of all sizes; tests use a few guesses.", "anchors": ["include/sleipnir/optimization/solver/sqp.hpp:sqp", "include/sleipnir/optimization/solver/util/filter.hpp:Filter::try_add", "include/sleipnir/optimization/solver/util/is_locally_infeasible.hpp:is_equality_locally_infeasible"]}
{"id": "C83", "title": "With linear constraints, the violation never grows", "statement": "Let the constraints be linear, let the linear solver be exact and not regularise the constraints, and let no callback return true. Then no iterate shown to the callbacks violates the constraints (with slacks, which are 1 at the guess) more than an earlier one, and the returned point does not violate them more than the guess or any iterate, unless the exit status is LOCALLY_INFEASIBLE or FEASIBILITY_RESTORATION_FAILED. More precisely, from each iterate to the next the violations of all equality constraints shrink by one common factor below 1, those of all inequality constraints by another, or feasibility restoration reduced the total violation by a tenth. In particular the SQP solver never leaves the constraints if the guess satisfies them.", "quantifier": "all costs, numbers of variables and of linear constraints, guesses, options, scalings, clocks and failures of factorisations", "why_tests_cant": "Step lengths, second-order corrections, slacks that are reset and feasibility restoration all change the violation; a test sees the violations of a few runs.", "anchors": ["include/sleipnir/optimization/solver/interior_point.hpp:interior_point", "include/sleipnir/optimization/solver/sqp.hpp:sqp", "include/sleipnir/optimization/solver/util/fraction_to_the_boundary_rule.hpp:fraction_to_the_boundary_rule", "include/sleipnir/optimization/solver/util/feasibility_restoration.hpp:feasibility_restoration"]}
{"id": "C84", "title": "With feasible_ipm, satisfied inequality constraints stay satisfied", "statement": "When Options::feasible_ipm is set and all inequality constraints hold at an iterate, they hold at the next one, since the options promise that steps are shortened to keep them (false in general: a second-order correction uses slacks that are not the constraint values, so a whole solve that starts where a constraint holds can end where it does not). For linear inequality constraints, with any cost, any equality constraints and either value of the option: once all of them hold with at least the slacks (which are 1 at the guess), they do so at every later iterate and at the result, until feasibility restoration runs.", "quantifier": "all costs, equality constraints, linear inequality constraints, numbers of variables, guesses, options, scalings, clocks, callbacks, exact linear solvers with any regularisation", "why_tests_cant": "That no step of any run leaves the constraints is a statement on all iterations; the tests of this option only look at results, and the path on which it is ignored needs a rejected full step.", "anchors": ["include/sleipnir/optimization/solver/options.hpp:Options::feasible_ipm", "include/sleipnir/optimization/solver/interior_point.hpp:interior_point"]}
{"id": "C85", "title": "Adding a constant to the cost changes nothing", "statement": "minimize(f + c) and minimize(f), or maximize(f + c) and maximize(f), with the same constraints, options, callbacks and guess: solve() returns the same status, calls the callbacks with the same arguments, solves the same linear systems and leaves the same values in the variables. (In exact arithmetic. Rounding errors of large constants can of course change steps.)", "quantifier": "all costs, constants, constraints, guesses, options, scalings, clocks, linear solvers, callbacks, also where functions return infinities and NaN", "why_tests_cant": "The line search compares costs with those of earlier iterates, with entries of the filter and with sums of costs and barrier terms; one comparison of an absolute cost shows only for constants of the right size. A test tries a few constants.", "anchors": ["include/sleipnir/optimization/problem.hpp:Problem::minimize", "include/sleipnir/optimization/problem.hpp:Problem::solve", "include/sleipnir/optimization/solver/util/filter.hpp:Filter", "include/sleipnir/optimization/solver/interior_point.hpp:interior_point", "include/sleipnir/optimization/solver/sqp.hpp:sqp", "include/sleipnir/optimization/solver/newton.hpp:newton"]}
{"id": "C86", "title": "Callbacks that do not stop the solver do not change it", "statement": "Callbacks that never return true, added with add_callback() or add_persistent_callback(), and the spy argument of solve() change nothing: the iterates, the linear systems, the exit status and the values left in all variables are those of a solve without them. Callbacks added before a further one that never returns true are called with the same arguments at the same iterates and stop the solver as without it, even if they count their calls. More generally two lists of callbacks that decide alike give the same solve. (For equal readings of the clock: time spent in callbacks counts towards the timeout. With an infinite timeout it does not matter how long the callbacks take, and with a finite one slow callbacks can only end the solve earlier, after the same iterates.)", "quantifier": "all problems, guesses, options, linear solvers, clocks, lists of callbacks with any state of their own, also during feasibility restoration", "why_tests_cant": "That observing a solve does not disturb it is a statement about pairs of runs; tests register callbacks and look at what they are given.", "anchors": ["include/sleipnir/optimization/problem.hpp:Problem::add_callback", "include/sleipnir/optimization/problem.hpp:Problem::add_persistent_callback", "include/sleipnir/optimization/problem.hpp:Problem::solve", "include/sleipnir/optimization/solver/interior_point.hpp:interior_point", "include/sleipnir/optimization/solver/sqp.hpp:sqp", "include/sleipnir/optimization/solver/newton.hpp:newton", "include/sleipnir/optimization/solver/util/feasibility_restoration.hpp:feasibility_restoration"]}
{"id": "C87", "title": "Higher limits continue the same run", "statement": "Two calls of solve() that differ in max_iterations and timeout only, the second having limits that are not lower: both return the same and leave the same values, or the first ended by MAX_ITERATIONS_EXCEEDED, TIMEOUT or FEASIBILITY_RESTORATION_FAILED (a limit reached during restoration) and everything it showed to callbacks, iterates and results of callbacks included, is the beginning of what the second shows. In particular a solve that succeeds does exactly the same with higher limits.", "quantifier": "all problems, guesses, other options, limits (also infinite and not positive ones), linear solvers, clocks, callbacks, also during feasibility restoration", "why_tests_cant": "That a limit only cuts a run and never steers it is a statement about pairs of runs of any length; tests look at one run that hits a limit.", "anchors": ["include/sleipnir/optimization/solver/options.hpp:Options::max_iterations", "include/sleipnir/optimization/solver/options.hpp:Options::timeout", "include/sleipnir/optimization/problem.hpp:Problem::solve", "include/sleipnir/optimization/solver/interior_point.hpp:interior_point", "include/sleipnir/optimization/solver/sqp.hpp:sqp", "include/sleipnir/optimization/solver/newton.hpp:newton", "include/sleipnir/optimization/solver/util/feasibility_restoration.hpp:feasibility_restoration"]}
{"id": "C88", "title": "Solving again from a solution changes nothing", "statement": "If a problem has equality constraints but no inequality constraints, and the variables hold values that meet the constraints exactly and satisfy the Lagrange conditions (the gradient of the cost is a combination of those of the constraints, which are linearly independent), then solve() leaves every value as it is, makes at most one iteration and returns SUCCESS, unless a callback, the timeout or an iteration limit of one stops it.", "quantifier": "all problems with smooth costs and equality constraints, all solutions with entries up to 1e10, scalings, tolerances, callbacks, autodiff and linear solvers with exact arithmetic that convexify along the constraints only", "why_tests_cant": "It ranges over all problems and solutions. The first multipliers are zero, so the guess does not pass the convergence check; that the step found from there leaves the point alone depends on the regularisation, the filter and the sign conventions together.", "anchors": ["include/sleipnir/optimization/problem.hpp:Problem::solve", "include/sleipnir/optimization/solver/sqp.hpp:sqp", "include/sleipnir/optimization/solver/util/filter.hpp:Filter::try_add", "include/sleipnir/optimization/solver/util/regularized_ldlt.hpp:RegularizedLDLT", "include/sleipnir/optimization/solver/util/kkt_error.hpp:kkt_error"]}
{"id": "C89", "title": "Variables that nothing depends on keep their values", "statement": "A decision variable whose value affects neither the cost nor any constraint has the same value after solve() as before, whatever the exit status and also if feasibility was restored on the way, and every callback is shown that value.", "quantifier": "all problems whose expressions are smooth for all values of the decision variables, all decision variables on whose value no expression depends, all finite initial values, options with a positive tolerance, callbacks, autodiff, and linear solvers with exact arithmetic that accept no singular matrix", "why_tests_cant": "A spare variable makes every Newton matrix singular before regularisation, so that it stays in place depends on the regularisation in every iteration, on corrections, and on the problem and multipliers with which feasibility is restored; tests look at a few runs of problems without spare variables.", "anchors": ["include/sleipnir/optimization/problem.hpp:Problem::solve", "include/sleipnir/optimization/solver/newton.hpp:newton", "include/sleipnir/optimization/solver/sqp.hpp:sqp", "include/sleipnir/optimization/solver/interior_point.hpp:interior_point", "include/sleipnir/optimization/solver/util/feasibility_restoration.hpp:feasibility_restoration", "include/sleipnir/optimization/solver/util/regularized_ldlt.hpp:RegularizedLDLT"]}
{"id": "C90", "title": "A tighter tolerance continues the same run", "statement": "For a problem without inequality constraints, let two calls of solve() from the same values differ in the options only, the second with a tolerance that is not larger and with max_iterations and timeout that are not lower. Both return the same and leave the same values, or the first ended with SUCCESS, MAX_ITERATIONS_EXCEEDED or TIMEOUT; then everything the first showed to callbacks is the beginning of what the second shows, and the second reaches the values that the first left after the same number of iterations. If there are equality constraints, the first call must not have restored feasibility.", "quantifier": "all problems without inequality constraints, all expressions, guesses, callbacks, options, clocks and answers of the linear solver", "why_tests_cant": "Tests solve with one tolerance. That the tolerance does not affect the path, so that a looser one trades accuracy for time and nothing else, is a statement about pairs of runs of any length.", "anchors": ["include/sleipnir/optimization/solver/newton.hpp:newton", "include/sleipnir/optimization/solver/sqp.hpp:sqp", "include/sleipnir/optimization/solver/options.hpp:Options::tolerance", "include/sleipnir/optimization/problem.hpp:Problem::solve"]}
{"id": "C91", "title": "Without constraints, solving again after SUCCESS returns at once", "statement": "For a problem without constraints, if solve() returns SUCCESS, a second call with a tolerance that is not smaller returns SUCCESS too, makes no iteration, calls no callback and changes no value, whatever the other options are.", "quantifier": "all problems without constraints, all guesses, callbacks, options and answers of the linear solver of both calls, if the values are finite and the cost is smooth at the values the first call left", "why_tests_cant": "The second call scales the problem anew at its own starting point, so that its error could exceed the tolerance which the first call reached; tests try few problems.", "anchors": ["include/sleipnir/optimization/solver/newton.hpp:newton", "include/sleipnir/optimization/solver/util/problem_scaling.hpp:ProblemScaling", "include/sleipnir/optimization/solver/util/kkt_error.hpp:unscaled_kkt_error", "include/sleipnir/optimization/problem.hpp:Problem::solve"]}
{"id": "C92", "title": "The clock changes nothing but when a solve ends", "statement": "solve() with an infinite timeout does the same however long its parts take: the status, the iterates, the calls of callbacks and the values left in all variables do not depend on the readings of the clock. Two solves of the same problem from the same values that differ in max_iterations, timeout and the time that everything takes do the same, or a limit ended one of them; then what one showed to callbacks is the beginning of what the other showed, the solve that no limit ended being the longer one. In particular, if both succeed they leave the same values.", "quantifier": "all problems, guesses, options with a timeout that is not NaN, callbacks, linear solvers, and all pairs of clocks, also ones that go backwards; also during feasibility restoration", "why_tests_cant": "A test measures one run on one machine. That no decision but the end of the loop depends on time is a statement about pairs of runs with any readings of the clock.", "anchors": ["include/sleipnir/optimization/solver/options.hpp:Options::timeout", "include/sleipnir/optimization/problem.hpp:Problem::solve", "include/sleipnir/optimization/solver/newton.hpp:newton", "include/sleipnir/optimization/solver/sqp.hpp:sqp", "include/sleipnir/optimization/solver/interior_point.hpp:interior_point", "include/sleipnir/optimization/solver/util/feasibility_restoration.hpp:feasibility_restoration"]}
{"id": "C93", "title": "How a formula is written does not matter to solve()", "statement": "Two problems whose cost and constraints are, position by position, the same functions of the variables, written with different expressions, are solved alike from the same initial values: the same exit status, the same iterates shown to the same callbacks, and the same values left in all variables. Constraints of a single variable are the exception: inequality constraints of linear type must be recognised as bounds in both problems or in neither, since bounds that conflict are reported as GLOBALLY_INFEASIBLE only if they are written with linear expressions.", "quantifier": "all pairs of problems of which either both or neither are of constant type, with expressions that are smooth for all values of the decision variables, all finite initial values, all options with a positive tolerance, all callbacks, and every exact linear solver", "why_tests_cant": "An expression can be written in infinitely many ways, and a test compares a few; that the solver sees nothing of the expression graph but the function it computes is a statement about all of them and about runs of any length.", "anchors": ["include/sleipnir/optimization/problem.hpp:Problem::solve", "include/sleipnir/optimization/solver/util/bounds.hpp:get_bounds", "include/sleipnir/optimization/solver/newton.hpp:newton", "include/sleipnir/optimization/solver/sqp.hpp:sqp", "include/sleipnir/optimization/solver/interior_point.hpp:interior_point", "include/sleipnir/optimization/solver/util/feasibility_restoration.hpp:feasibility_restoration", "include/sleipnir/autodiff/expression_graph.hpp:topological_sort"]}
{"id": "C94", "title": "Variables that are not decision variables act as constants", "statement": "Expressions may contain variables that are not decision variables of the problem. solve() then does the same as for the problem that is written with the values of these variables in their place: the same exit status, the same iterates shown to the callbacks, and the same values left in the decision variables. So a problem may be built once and solved again after set_value() on such parameters, with the result of a problem built anew; and variables that do not occur in a problem have no influence on it.", "quantifier": "all problems, all finite values of all variables, expressions that are smooth for all values of the decision variables, options with a positive tolerance, callbacks, and every exact linear solver; inequality constraints are of linear type with the variables if and only if they are with the constants", "why_tests_cant": "Tests re-solve few problems with few values of the parameters. That nothing computed when the problem was built, and no variable outside of it, leaks into the solve is a statement about all problems, all values and runs of any length.", "anchors": ["include/sleipnir/optimization/problem.hpp:Problem::solve", "include/sleipnir/autodiff/variable.hpp:Variable::set_value", "include/sleipnir/optimization/solver/util/bounds.hpp:get_bounds", "include/sleipnir/optimization/solver/newton.hpp:newton", "include/sleipnir/optimization/solver/sqp.hpp:sqp", "include/sleipnir/optimization/solver/interior_point.hpp:interior_point"]}
{"id": "C95", "title": "The table of iterations", "statement": "With diagnostics on, a solve prints its iterations in order, numbered from 0 without gaps, each after the second-order correction accepted in it; nothing is printed without an iteration, and otherwise the table opens with its top border and heading and closes with its bottom border; a row is right below a heading exactly if its number is a multiple of 20, so there is one heading for every 20 iterations and one top border.", "quantifier": "all sequences of iterations, with and without accepted corrections and feasibility restoration", "why_tests_cant": "Headings recur every 20 iterations and corrections are accepted at arbitrary ones; no test reads the printed table.", "anchors": ["include/sleipnir/util/print_diagnostics.hpp:print_iteration_diagnostics", "include/sleipnir/util/print_diagnostics.hpp:print_bottom_iteration_diagnostics", "include/sleipnir/optimization/solver/interior_point.hpp:interior_point"]}
{"id": "C96", "title": "The report on a problem", "statement": "With diagnostics on, solve() first prints the exit conditions and the structure of the problem. A solve ends with SUCCESS, CALLBACK_REQUESTED_STOP, MAX_ITERATIONS_EXCEEDED or TIMEOUT only if that condition was printed; the request of a callback is printed only if a callback is registered, and a time only if it is limited. The constraints are listed by class, the simplest first, each class that occurs with its number; the numbers add up to the number of constraints, and the class named as the structure of the constraints is the last one listed. If the solve ends with GLOBALLY_INFEASIBLE, each printed line names two inequality constraints of which the first is a lower bound on a variable greater than the upper bound that the second is.", "quantifier": "all problems, options other than a time limit of minus infinity, functions and linear solver answers", "why_tests_cant": "Tests do not read the printed report, and whether an unlisted condition can end a solve is a question about all runs.", "anchors": ["include/sleipnir/optimization/problem.hpp:solve", "include/sleipnir/optimization/problem.hpp:print_exit_conditions", "include/sleipnir/optimization/problem.hpp:print_problem_analysis", "include/sleipnir/util/print_diagnostics.hpp:print_bound_constraint_global_infeasibility_error"]}
