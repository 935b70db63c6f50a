# Design of the formal model of Sleipnir

Source: `/repo` (SleipnirGroup/Sleipnir, pinned commit). Paths below are relative to `/repo/include/sleipnir` unless they
start with `docs/`, `tools/`, `python/` or `src/`.

Properties are in `properties.jsonl`, the theorems that establish each in `MANIFEST.json`, the Lean development in
`lean/Verif`, the attempts to break the theorems with wrong programs in `seeded/LOG.jsonl`.

## Trusted base

* Lean 4.33.0's kernel, and the Mathlib definitions used in statements (`ℝ`, `HasDerivAt`, `Matrix`, `Finset.sum`, ...).
* Axioms: every theorem depends on at most `propext`, `Classical.choice`, `Quot.sound`. There is no `sorry`, no
  `native_decide`, no `bv_decide`, no axiom of our own.
* The reading of the C++ source: each definition cites the lines it models, and where it is simplified the comment on it
  says so. The model is not extracted from the code; nothing was compiled or run.
* The specifications: the definitions in the `*Props.lean` and `*Spec.lean` files that statements use, and the English in
  `properties.jsonl`.

## Modelling conventions

* **Scalars.** Algebraic and analytic claims are about exact real arithmetic (`ℝ`), except C62, C63, C67, C68 and C73, where every
  operation has a relative error of at most a unit roundoff `u` (`Rounding`; no overflow or underflow; `Rounding.binary p`
  is the instance for `p` bits, and `x + α * p` may be contracted or not). Claims
  about exceptional values (NaN, infinities) use `Fl` (`nan`, `pinf`, `ninf`, `fin r`) with IEEE comparison semantics and
  exact arithmetic on finite values. Claims that do not depend on the scalar (graph traversal, value propagation,
  indexing, memory, and C74) are parametric in the scalar type and its operations, so they also hold for IEEE doubles
  with rounding.
* **Machine integers.** Slice and block arithmetic uses `int`: every operation that could leave the range of `int` is
  checked and overflow is a distinct outcome. Sizes, counters and reference counts are unbounded otherwise.
* **Pointers.** Expression nodes are natural-number identifiers of a heap. Operands are always allocated before the node
  that uses them, so an operand's identifier is smaller.
* **Loops** whose termination is not structural carry fuel; running out of fuel is a separate outcome (`none`), and
  theorems show it does not happen.
* **Undefined behaviour and failed assertions** are a distinct outcome (`none` or an explicit constructor) of the modelled
  function.
* **Oracles.** The sparse and dense factorisations of Eigen, their solves, the clock and the user's callbacks are arbitrary
  functions, also of the history. Where a statement needs the linear algebra to be exact, it says so by a hypothesis
  (`Env.ExactSolve`, `Env.ExactEstimate`), and `exactEnv` (`Solver/ExactModel.lean`) is an oracle that satisfies it.
  Oracles receive the system they are asked to solve.
* **The solvers' view of the problem** is an arbitrary record of functions (`Nlp`). `Problem/ProblemModel.lean` builds that
  record from the user's expressions the way `Problem::solve` does, with the autodiff results as an oracle where
  expressions are not smooth. `Problem/SetupModel.lean` has the calls of the autodiff API that `Problem::solve` makes, and
  `api_matches_model` shows that these calls, run on the autodiff machine after any history, return what the record says.

## What is modelled

| source | model | remarks |
|---|---|---|
| `autodiff/expression.hpp` | `Autodiff/ExprModel` | every node class, constructor, pruning rule, type rule, value and derivative function |
| `autodiff/expression_graph.hpp` | `Autodiff/GraphModel`, `AutodiffModel` | topological sort with its counters, value update, symbolic and numeric adjoints |
| `autodiff/gradient.hpp`, `jacobian.hpp`, `hessian.hpp` | `Autodiff/AutodiffModel` | construction with cached rows, `get`, `value` |
| `autodiff/variable.hpp` | `Autodiff/ApiModel`, `ApiOps`, `Matrix/ConstraintModel` | operators, `set_value`, `value`, constraints, `bounds` |
| `autodiff/slice.hpp`, `variable_block.hpp`, `variable_matrix.hpp` | `Matrix/*Model` | constructors, indexing, views, iterators, assignment, arithmetic, `solve`, `block`, reductions, `exp`; without printing |
| `util/intrusive_shared_ptr.hpp`, release loop in `expression.hpp` | `Memory/RefModel` | reference counts of nodes, iterative release |
| `util/pool.hpp` | `Memory/PoolModel` | one pool |
| `src/util/pool.cpp` | `Memory/ThreadModel` | one pool per thread, destroyed when the thread ends; arbitrary interleavings |
| `util/scope_exit.hpp`, `profiler.hpp` | `Util/ScopeModel` | |
| `util/function_ref.hpp` | `Util/FunctionRefModel` | overload resolution of the assignments included; programs that do not compile excluded |
| `util/spy.hpp`, `tools/spy.py` | `Util/SpyModel` | bytes written and read |
| `util/print_diagnostics.hpp` | `Util/DiagModel`, `Util/TableModel` | numbers, histogram, infeasibility reports, order of the lines of the iteration table; not the table of times |
| the general branch of `solve` (`variable_matrix.hpp:1737-1740`) | `Matrix/QrModel` | Eigen's Householder QR, from its description, with comparisons decided by present values |
| the linear solver of `exp` (`variable_matrix.hpp:1124-1125`) | `Matrix/LuModel` | Eigen's LU with partial pivoting, from its description, with comparisons decided by present values |
| `optimization/problem.hpp` | `Problem/ProblemModel`, `Problem/SetupModel`, `Problem/ReportModel` | declarations, solver selection, setup, callbacks, write-back, report on the problem |
| `optimization/ocp.hpp` | `Problem/OcpModel` | all transcription methods and timestep modes |
| `optimization/multistart.hpp` | `Problem/MultistartModel` | threads as arbitrary interleavings of results |
| `optimization/solver/newton.hpp`, `sqp.hpp`, `interior_point.hpp` | `Solver/NewtonModel`, `SqpModel`, `IpmModel`, `LoopModel` | the whole loops; without profiling and printing |
| `solver/*_matrix_callbacks.hpp` | `Solver/LoopModel` (`Nlp`), `Problem/ProblemModel` | |
| `solver/util/feasibility_restoration.hpp` | `Solver/RestoreModel`, `RestoreInitModel`, `RestoreLoopModel` | problem construction, initial slacks, the nested solve, return to the caller |
| `solver/util/filter.hpp` | `Solver/FilterModel` | |
| `solver/util/kkt_error.hpp`, `problem_scaling.hpp`, `sparse_inf_norms.hpp` | `Solver/KktModel`, `SparseModel` | |
| `solver/util/append_as_triplets.hpp` | `Solver/SparseModel` | |
| `solver/util/bounds.hpp` | `Solver/BoundsModel` | |
| `solver/util/lagrange_multiplier_estimate.hpp` | `Solver/MultiplierModel` | |
| `solver/util/*_regularized_ldlt.hpp`, `inertia.hpp` | `Solver/LdltModel` | the regularisation loop over an arbitrary factorisation |
| the same, sums and products of sparse matrices in the solvers | `Solver/PatternModel` | stored positions, reuse of the pattern analysis, choice between dense and sparse |
| `solver/util/fraction_to_the_boundary_rule.hpp`, `is_locally_infeasible.hpp`, `all_finite.hpp` | `Solver/BoundaryModel`, `LoopModel` | |
| the same, `interior_point.hpp` and `kkt_error.hpp`, in rounded arithmetic | `Rounding/RoundModel`, `KktRoundModel`, `BinaryModel` | slacks, multipliers, barrier parameter and the stopping test; step directions are arbitrary |
| the headers of `autodiff` as templates over `Scalar`, in rounded arithmetic | `Rounding/FloatModel` | the same definitions as over `ℝ`; any real number may be stored, results of operations are rounded |
| `python/cpp/autodiff/bind_variable_matrix.cpp`, `bind_variable_block.cpp` | `Python/PyIndexModel` | `__getitem__` and `__setitem__`, with CPython's slice arithmetic |
| the same, `bind_variable.cpp`, `main.cpp` (`bounds`), `try_cast.hpp` | `Python/PyOpsModel` | operators and functions, with nanobind's overload resolution, Python's reflected methods and NumPy's `__array_ufunc__` |
| `python/cpp/optimization/bind_problem.cpp`, `bind_ocp.cpp` | `Python/PySolveModel`, `PyCallbackModel` | `solve(**kwargs)`; constructors, callbacks, exceptions |
| `bind_variable_matrix.cpp`, `bind_variable_block.cpp` | `Python/PyViewModel` | references between names, matrices, views and iterators; selections are lists of positions |
| `bind_problem.cpp`, `bind_ocp.cpp`, `bind_equality_constraints.cpp`, `bind_inequality_constraints.cpp` | `Python/PyProblemModel` | declarations, objective, constraints with Python's chained comparisons, bounds on states and inputs of `OCP` |

Not modelled: rounding outside C62, C63, C67, C68, C73 and C74, overflow and underflow of floating-point numbers; Eigen's own algorithms (orderings, factorisations, sparse storage) except Householder QR in `solve` and LU in `exp`; `util/print.hpp` and all
console output except the contents above; `symbol_exports.hpp`, `concepts.hpp`, `assert.hpp`,
`empty.hpp`; the rest of the Python bindings; examples, benchmarks, build
system and documentation tools.

## Properties

| id | what is modelled | how it is proved | status |
|----|-------|-------|---|
| C01 | API machine: handles, heap, `set_value`, `value` with cached graph | refinement to evaluation of the written formula, induction over histories | proved |
| C02 | two-pass traversal with the scratch counter | loop invariants on edge counts | proved |
| C03 | every constructor with its pruning rules | value equation per constructor on the domain of definition | proved |
| C04 | type computed by every constructor | induction: affine and degree-2 forms | proved |
| C05 | adjoint accumulation over the traversal | invariant "sum of adjoint times forward derivative is constant", `HasDerivAt` for each function | proved |
| C06 | Jacobian object with cached rows | from C04 and C05 | proved |
| C07 | symbolic adjoints on the heap | simulation between symbolic and numeric accumulation | proved |
| C08 | Hessian object | C07 gives the gradient function, C05 its derivative | proved |
| C09 | same machine | state equality before and after, induction | proved |
| C10 | reference counts and release loop | counting invariant, induction over histories | proved |
| C11 | pool free list and chunks | invariant by induction over histories | proved |
| C12 | `Slice` on checked integers | equality with a transcription of Python's definition | proved; `slice_single_defined`: only `Slice{INT_MAX}` overflows |
| C13 | block index arithmetic | composition lemma, injectivity, frame property of assignment | proved |
| C14 | row-major matrix operations | equality with Mathlib `Matrix` operations | proved |
| C15 | the expanded `solve` formulas | field identities | partial: false for a 1×1 A with several right-hand sides (`solve_drops_columns`) |
| C16 | `make_constraints` and the comparison operators | list equality with elementwise comparison | proved |
| C17 | `block()` | offset arithmetic | proved |
| C18 | guard and profiler state machines | induction over histories | proved |
| C19–C21, C39 | `Problem` | equations and induction over programs of calls (values of variables: `values_correct`) | proved |
| C22 | whole solves | loop invariants; the error that the loop tests bounds each residual | proved |
| C23 | whole solves | measure on rounds; history of ends of iterations | partial: a restoration measures the timeout on its own clock (`restoration_ignores_timeout`, `timeout_reported_as_failure`) |
| C24 | whole solves | history of calls in batches | partial: a stop during restoration does not end the solve (`restoration_ignores_stop`) |
| C25 | interior-point loop | invariant through the fraction-to-the-boundary rule | proved |
| C26 | barrier update loop | measure, invariant over whole solves | proved |
| C27 | line searches | measure on the step size, case analysis of acceptance | proved |
| C28 | the rule as a fold | maximality | proved |
| C29 | filter as a list with operations | invariant over histories | proved |
| C30, C31 | bounds | fold invariant, equivalence with feasibility of the bound constraints | proved |
| C32 | scaling factors and unscaled error | inequalities, equivalence of optimality conditions | proved |
| C33 | condensed system, its assembly from triplets, step recovery | matrix identities, lifted to iterations of the loops | proved |
| C34 | regularisation loop over an arbitrary factorisation | measure, case analysis; quadratic forms for an exact one | proved |
| C35 | triplet lists | sums and sortedness | partial: the restoration Hessian loses the constraints' curvature (`restoration_hessian_wrong`) |
| C36 | closed form | quadratic identity, convexity | proved |
| C37 | normal equations | least-squares optimality | proved |
| C38 | whole solves | case analysis on the exits | partial: LOCALLY_INFEASIBLE is possible at a feasible point (`locally_infeasible_at_feasible_point`) |
| C40–C43 | OCP transcription over arbitrary dynamics | induction over steps | proved |
| C44 | `min_element` with the given comparator over any schedule | fold invariant; witnesses for what is false | partial: `multistart_not_best`, `multistart_prefers_failure`, `multistart_not_lowest` |
| C45 | writer and reader on bytes | round trip | proved |
| C46 | formatting functions | arithmetic | partial: the report omits positive equality violations (`equality_report_misses`); the number of backtracks is wrong after a second-order correction (`correction_backtracks`) |
| C47 | the matrix callbacks built by `Problem::solve` | equations from the autodiff contract; the same for the API calls on the autodiff machine, by refinement | proved |
| C48 | leaving feasibility restoration | the restoration's own callback as the only way out | proved |
| C49 | whole solves with exact linear algebra | invariant relating consecutive snapshots | proved |
| C50 | all API calls of `Problem::solve` on the autodiff machine | refinement, frame property | proved |
| C51 | whole solves with any linear algebra | invariant relating consecutive snapshots | proved |
| C52 | indexing functions of the Python bindings | refinement to NumPy's selections, induction over chains | partial: negative row integers (`py_negative_row`), missing range checks |
| C53 | whole solves of quadratic problems by Newton's method and SQP | one Newton step, the line search and the loop test evaluated symbolically | proved |
| C54 | constructors, compound assignment and iterators of matrices and views | element-wise characterisation for every shape, `RowByRow` for iterators | proved |
| C55 | `exp()` of matrices | Taylor remainder in the operator norm, exact rational bounds for the Padé coefficients, invariant of LU with partial pivoting | partial: row sums up to 4 (`exp_now_wrong` for larger ones), up to 1 at values set later |
| C56 | Newton's method for costs without constraints | Armijo decrease from the second-order bound along a segment, backtracking and loop by induction | proved |
| C57 | Newton's method near a minimiser | the full step accepted and the gradient squared, loop invariant `NearAfter` | proved |
| C58 | SUCCESS of `solve()` for convex problems | directional derivatives of expressions, gradient inequality, weak duality on C22 | proved |
| C59 | feasibility restoration problem | block-wise specification; elastic problem's bound from its KKT error | proved |
| C60 | LOCALLY_INFEASIBLE of `solve()` | Cauchy-Schwarz on the two infeasibility checks, C59 for restorations; sharpness by a family of problems | proved |
| C61 | finite results of `solve()` | C47 and C49 joined; corollaries for C22, C58 and C60 | proved |
| C62 | slacks and multipliers in rounded arithmetic | invariant of a transition system with nested restorations; error growth of the boundary rule | proved |
| C63 | the stopping test in rounded arithmetic, any order of summation | factors of accumulated roundings | proved |
| C64 | states of explicit ODE problems against solutions of the differential equation, tolerance included | Taylor expansion along the flow and a discrete Gronwall inequality | proved |
| C65 | one pool per thread, interleaved | invariant on all blocks; refinement of each thread's view to C11; counterexample histories for programs that break the rule | proved |
| C66 | values of the variables at each call of callbacks | invariant over the loops and the nested restoration | proved |
| C67 | programs of polynomials in rounded arithmetic | the API invariant with error bounds relative to a majorant; drift of the weighted sum of tangents during accumulation | proved |
| C68 | polynomial problems evaluated, scaled and tested in rounded arithmetic | C67 gives the distance of the data, C63 that of the test | proved |
| C69 | the derivatives in the information for callbacks | invariant over the loops and the nested restoration, joined with C47 | proved |
| C70 | operators, functions and `bounds` of the Python bindings | overload resolution reduced to a finite table checked for all kinds of operands, then C14 and C16 | proved |
| C71 | `solve(**kwargs)` in Python | induction over the keyword arguments | proved |
| C72 | callbacks that throw, the check for signals | from C24 | partial: `OCP` does not check for signals (`ocp_ignores_signals`) |
| C73 | programs of arbitrary smooth expressions in rounded arithmetic | the computed tangents converge linearly in `u` by induction over expressions; local error of each operation near smooth points | proved |
| C74 | programs over any scalar type | each builder preserves the number that direct computation gives; induction over the calls | proved; `negative_zero_differs`: `atan2(0 + x, -1)` for `x = -0` is `-π`, directly computed `π` |
| C75 | Householder QR over expressions whose comparisons look at present values | orthogonal invariant by induction over columns | partial: `solve()` ignores elements below the diagonal that are zero when it is called (`solve_ignores_lower`, `solve_stale`) |
| C76 | calls that build problems, overload resolution, chained comparisons | from C70 and C19 by induction over the calls | proved; `chain_drops_bound`: `subject_to(-1 <= x <= 1)` allows `x = -5` |
| C77 | sparse matrices with their stored positions, the sparse solver with the positions it analysed | positions of triplets are functions of what no call changes; every operation keeps equality of positions | proved |
| C78 | SQP with linear equality constraints from feasible guesses | iterates stay feasible, so that the filter asks for the Armijo condition only; long steps lower the cost by a fixed amount, short ones are taken in full and end the run | proved |
| C79 | `function_ref` objects and callables with lifetimes, value categories of assignments | refinement to the documentation, induction over histories | partial: assignment from a `function_ref` that is not constant stores its address (`assign_follows`, `self_assignment_overflows`, `std_swap_dangles`) |
| C80 | matrices, views and iterators in Python with reference counts | refinement to handles without lifetimes, invariant: counts are numbers of references | partial: `row` and `col` do not keep the matrix (`line_dangles`); `py_views_rule` is exact |
| C81 | rate of SQP with linear equality constraints near a minimiser | short full steps pass the filter, the residual at their end is quadratically small, the next step is bounded by the residual; induction over iterations | proved |
| C82 | the first iteration of SQP from guesses that violate linear equality constraints | the full step ends on the constraints and passes the filter, whose new entry does not exclude feasible points; then C78 | proved |
| C83 | whole runs of the interior-point and SQP solvers on problems with linear constraints | accepted steps scale the violations of constraints, also after second-order corrections, whose constraint values are those of Newton steps before; induction over the iterations | proved |
| C84 | whole runs of the interior-point solver; `feasible_ipm` | iterates in a row are linked by Newton steps unless a restoration shows iterates between them; such steps scale `cᵢ − s` | partial: linear inequality constraints, until restoration; negation for others |
| C85 | whole runs of the three solvers, feasibility restoration and `solve()`, for a cost and the cost plus a constant | simulation: states that differ by the constant in the cost, in the filter's entries and in the corrected initial cost; induction over the iterations | proved |
| C86 | whole runs of the three solvers, feasibility restoration and `solve()`, with two lists of callbacks | simulation: states that are equal but for the calls made, which look alike in a view; induction over the iterations | proved |
| C87 | whole runs of the three solvers, feasibility restoration and `solve()`, with two pairs of limits | the runs agree until the lower limits end the first; what was shown only grows afterwards; induction over the iterations | proved |
| C88 | the whole run of `solve()` with the SQP solver from a point that satisfies the first-order conditions | the step is zero by the curvature along the constraints, the filter accepts it, the error is then zero | proved |
| C89 | the whole run of `solve()`, all three solvers, with feasibility restoration | invariant of the loops: the variable's row of each linear system only has a positive diagonal entry and a zero right-hand side | proved |
| C90 | `newton()`, `sqp()` and `solve()` with two tolerances | simulation of one run by the other up to the point where the first ends | proved |
| C91 | `solve()` twice, through `newton()` and the scaling | C22 for the first call gives a stationary guess for the second | proved |
| C92 | `solve()` with all three solvers and feasibility restoration | lockstep of two runs apart from the readings of the clock; with C87 for limits | proved |
| C93 | `solve()` of two problems, through `get_bounds()`, the callbacks, all three solvers and feasibility restoration | lockstep of two runs on functions that agree at finite arguments; iterates stay finite | proved |
| C94 | `solve()` with variables outside of the problem | C93 for functions of the decision variables only; substitution into terms | proved |
| C95 | the table of iterations | induction on the iterations | partial: an accepted second-order correction in an iteration whose number is a multiple of 20 repeats the heading (`heading_repeats`) |
| C96 | the report of `solve()` on the problem | the histories of C23 and C24; counting | proved |

No property is `not_applicable`.

## Where the code departs from what a user would expect

Found while modelling. Names in parentheses are theorems that exhibit the behaviour in the model; the others follow from
reading the code or from a hypothesis that a theorem needs.

Autodiff
* `pow(0, 0)` is 0, `log(0)` is 0, and `0 * inf` is pruned to 0 (`pow_zero_zero`, `log_zero`, `zero_mul_inf`).
* `set_value` on a constant is not propagated to expressions built before (`set_value_on_constant_lost`), and a cached
  Jacobian row goes stale (`jacobian_stale_after_constant_changed`).
* Pruned results alias their operand (`pruned_result_aliases_operand`).
* With a variable repeated in `wrt`, `Jacobian::value()` has the derivative in the last of the equal columns only and
  `get()` in the first only (`jacobian_repeated_wrt`).

Memory
* `x = x->args[0]` uses a released node (`self_operand_assignment_undefined`); a node that is its own adjoint leaks
  (`cycle_leaks`). Neither is reachable through the API.
* Blocks of different sizes from one pool overlap (`different_sizes_overlap`). The library uses one size.
* Expressions must not outlive the thread that made them: a `Variable` returned by a solve of `multistart()` refers to a
  destroyed pool (`returned_expression_dangles`). Dropping another thread's expressions is harmful too, once that thread
  ends (`foreign_drop_dangles`), and makes `blocks_in_use()` wrap around (`foreign_drop_wraps`).
* A node released on another thread goes into that thread's pool, which may outlive the memory.
* `a = b` for `function_ref` objects makes `a` refer to the object `b` unless `b` is constant (`assign_follows`), `a = a`
  makes calls of `a` recurse without end (`self_assignment_overflows`), and `std::swap(a, b)` leaves both dangling
  (`std_swap_dangles`). The library constructs and copies `function_ref` objects only.

Slices and matrices
* `Slice(INT_MAX)` overflows (`slice_single_overflow`), `adjust` is not idempotent (`adjust_twice`), nested large steps
  overflow (`nested_steps_overflow`).
* `A *= A` and `A *= A[0, 0]` read elements already overwritten (`mulAssign_self`, `scale_by_own_element`); so does
  assignment between overlapping blocks (`overlapping_assignment`).
* `solve` with a 1×1 A uses only the first column of B (`solve_drops_columns`).
* `solve` with a larger A compares expressions by their present values while it builds the result. Elements below the
  diagonal that are zero at that time, as those of new decision variables are, are ignored at all later values
  (`solve_ignores_lower`, `solve_stale`).
* `block({})` asks for −1 columns (`block_empty`).
* `segment` rejects an empty segment at the end that `block` accepts.
* `<` and `>` build `<=` and `>=` constraints.
* `exp()` evaluates a (13, 13) Padé approximant without scaling and squaring, so it is wrong for large matrices: `exp()`
  of the matrix `[20]` is below −10⁷ instead of 4.85·10⁸ (`exp_wrong`).

Filter
* The solver may return to a point it has left (`can_return`); entries may be redundant (`redundant_entry`).
* A NaN violation passes the `>` test of the limit; the flag of the last rejection is stale after a rejection by the first
  check.

Solver
* A NaN error ends the loop with SUCCESS, since the loop tests `E > tolerance`. C22 assumes finite values; under the
  hypotheses of C49 this does not happen.
* SUCCESS means stationarity: minimising `-x²` from 0 succeeds at the maximum (`success_at_maximum`).
* Newton's method ignores a failed factorisation.
* With `max_iterations <= 0` one iteration runs. With a limit of 1 a solve that converges in its only iteration is
  reported as MAX_ITERATIONS_EXCEEDED (part of `newton_quadratic`, `sqp_quadratic`).
* A callback that returns true during restoration ends only the restoration (`restoration_ignores_stop`). Callbacks see
  the larger iterate of the restoration problem, and the same iteration number twice.
* Restoration measures the timeout from its own start; TIMEOUT and MAX_ITERATIONS_EXCEEDED inside it are reported as
  FEASIBILITY_RESTORATION_FAILED.
* Restoration that converges at a feasible point not accepted by the filter is reported as LOCALLY_INFEASIBLE
  (`locally_infeasible_at_feasible_point`).
* The check for violated inequality constraints uses 1e-6 both for the violation and for its gradient (that for equality
  constraints uses 1e-2 for the violation), so a feasible problem with flat constraints is reported as LOCALLY_INFEASIBLE
  before the first step: minimising `x` subject to `0.0001 x ≥ 0.005` from 0, where 50 is optimal (`infeasible_false_alarm`).
* The Hessian of the restoration problem loses the constraints' curvature: `resize` discards the entries
  (`restoration_hessian_wrong`).
* With a tolerance above 1 the initial barrier parameter is below its floor. Tolerances that are not positive are not
  covered.
* A step size below the minimum sets the restoration flag, but the loop tests one more point.
* Second-order corrections are accepted without testing that the equality constraints are finite.
* `feasible_ipm` is ignored by second-order corrections and by the fallback on the KKT error: both use slacks that are not
  the constraint values, so a step may leave the feasible set (`feasible_ipm_leaves`: minimising `-4x` subject to
  `1 - x² ≥ 0` from 0 moves to 2).
* With `feasible_ipm` and a nonfinite inequality Jacobian multipliers may become NaN.
* The factor of the fraction-to-the-boundary rule is `1 - μ`, which is rounded to 1 for `μ < 2⁻⁵⁴`. The barrier parameter
  gets there if the cost's gradient at the guess is 10¹⁰ with the default tolerance; then a slack can become exactly 0
  (`rounded_slack_zero`). C62 gives a condition that excludes this.
* The first regularisation tried may exceed the limit 1e20 that ends later rounds.

Problem
* SUCCESS is returned without running for constant constraints that do not hold.
* Bound detection asserts on a LINEAR constraint whose gradient is zero (`empty_row_asserts`).
* An infinite gradient at the initial point gives a scaling factor 0.
* The spy callback adds matrices of the restoration problem to files whose header has the original size.

Others
* The multistart comparator is not a strict weak order, and an empty list of guesses is undefined behaviour.
* `IterationInfo` is documented to hold the gradient of the cost and the Jacobians of the constraints; it holds those of
  the scaled problem, as are the multipliers, and only the lower triangle of the Hessian (`shown_gradient_scaled`). The
  factors are not accessible to callbacks. During a restoration the vectors are longer than the documentation says.
* The infeasibility report for equality constraints tests `c < 0` (`equality_report_misses`).
* The report on conflicting bounds counts inequality constraints from 0 (`conflict_lines_correct`), the reports on violated
  constraints count from 1 (`inequality_report`).
* The rows of an iteration with an accepted second-order correction show backtracks that did not happen, even a negative
  number (`correction_backtracks`).
* A second-order correction accepted in iteration 0, 20, 40, … prints the heading of the iteration table a second time
  (`heading_repeats`).
* `power_of_10` of a negative, infinite or NaN argument, `histogram` of NaN and backtrack counts with a maximal step 0
  convert to `int` out of range (`powerOf10_undefined`, `histogram_nan`, `backtracks_undefined`).
* The OCP documentation says that the last input is unused, but collocation uses it; it mentions implicit ODEs, which do
  not exist; collocation with discrete dynamics asserts (`collocation_rejects`). With single shooting the first state is
  not a decision variable.
* Spy titles of 2 GiB or more cannot be read back (`spy_long_title`).

Python bindings
* `A[-k, slice]` on a `VariableMatrix` is not counted from the end: the block it returns lies outside the matrix
  (`py_negative_row`). Assignment to it, and the same subscript of a `VariableBlock`, work.
* Integers below `-n`, and any integer out of range in `A[k]`, are not rejected (`py_too_small_not_raised`,
  `py_index_not_raised`). A step of 2**32 becomes 0.
* `len(A)` is the number of rows while iteration yields all elements.
* `OCP` does not install the callback that lets Ctrl-C stop a solve; `Problem` does (`ocp_ignores_signals`).
* `block * block`, `block @ block` and `block @ matrix` raise `TypeError`, though C++ has these products and `matrix @ block`
  works; `matrix * array` raises `TypeError`, though `matrix @ array` works (`py_unsupported`).
* `==` may exchange its operands, so that the sign of the constraint's value depends on the types of the operands; that of
  `<=` and `>=` does not.
* A callback that returns nothing makes `solve()` raise an exception: unlike in C++, there is no `add_callback` for such
  functions.
* `subject_to(l <= x <= u)` is accepted, but states only one of the two comparisons, which depends on the present values:
  Python evaluates it as `(l <= x) and (x <= u)`, and constraints convert to `bool` (`chain_keeps_one`,
  `chain_drops_bound`). `bounds(l, x, u)` states both.
* `row` and `col` return views that do not keep the matrix, while slices do: `x = x.row(0)` and
  `problem.decision_variable(2, 3).row(0)` are views of a destroyed matrix (`line_dangles`).
* `minimize` and `maximize` do not take NumPy arrays.
* `VariableBlock` has no `__matmul__`. In C++, `operator--(int)` of its `const_iterator` does not compile.

## Hypotheses worth knowing

* C01, C06: `set_value` only on independent variables.
* C05, C07, C08: distinct `wrt` variables; every elementary operation differentiable (C08: smooth) at the point.
* C11: one request size. C10: no cycles of nodes, which the API cannot build.
* C13: composed steps fit an `int`; C14: operands of compound assignments do not alias the target.
* C22–C27, C38, C48, C51: positive tolerance; the linear algebra is arbitrary.
* C33, C37, C49: the linear algebra is exact.
* C25 (multipliers): no NaN multiplier estimate; in feasible mode finite inequality constraints and Jacobian at finite
  points.
* C60: constraint violations are those of the scaled constraints. C61: the linear algebra is exact, expressions are smooth
  everywhere.
* C62: `feasible_ipm` off; the unit roundoff is small compared to `scaling.f * tolerance / (k + l + 2)`; neither overflow
  nor underflow. C63: the values and derivatives are those that autodiff returned (C68 adds their errors).
* C67: expressions built with `+`, `-` and `*`; `Jacobian` and `Gradient` but not `Hessian` or `get()`; neither overflow
  nor underflow. C73: all functions, but the constant is not explicit; small integers are exact and library functions
  accurate to `u` relative to their results (`FloatMath.Lib`).
* C74: direct computation meets finite numbers only and no `pow(0, 0)`; zeros have no sign; `std::pow(x, 2)` rounds as
  `x * x` does.
* C64: dynamics four times continuously differentiable; inputs, final time and solution (collocation: also the states)
  bounded by `R`, on which the constants depend; errors small enough compared to these constants.
* C42: nonzero timesteps. C45: numbers that fit 32 bits.
* C52: sizes and steps fit an `int`; composed steps leave room for the size of the matrix.
* C53: the linear algebra is exact and does not regularise. For Newton's method `strongly_convex_unregularised` derives
  the latter from a unit lower triangular factorisation of the permuted matrix. A guess that violates the constraints by
  at most 1e-4 is excluded, since its full step may be tested by the Armijo condition on the cost.
* C55: the operations are exact, the coefficients may be rounded. Eigen's LU factorisation chooses its pivots from the
  values while `exp()` runs. `exp_now_partial` is about these values; `exp_later_partial` is about a matrix that is zero
  while `exp()` runs and small later. A pivot that becomes zero at other values is outside the theorems.
* C56, C57: the linear algebra is exact; the level set of the guess is closed and inside the box beyond which the solver
  reports DIVERGING_ITERATES. C56 allows regularisation but asks for a condition number of at most 9e19, since the line
  search gives up at steps below 1e-20. The decrease per iteration guaranteed by C56 carries the Armijo constant 1e-8 of
  the filter: for tolerances below about 1e-4 the bound on the iterations exceeds INT_MAX.
* C83: the linear algebra is exact; the primal block may be regularised, the constraints may not (the code regularises them
  by at least 1e-10 when the constraints are dependent). A callback that returns true during feasibility restoration, and
  restoration that fails, end the solve at points that may violate the constraints more.
* C84: the linear algebra is exact and may regularise. Constraints that hold with less than their slacks (at the guess: less
  than 1) are not covered, nor are iterates after a feasibility restoration.
* C85: arithmetic is exact, so a large constant does not absorb the cost. Autodiff is taken to add the constant also where the
  cost is undefined (`Autodiff.Adds`).
* C88: exact linear algebra; constraints that are linearly independent are not regularised.
* C89: exact linear algebra that accepts no singular matrix (`Env.NonsingularSolve`), which is so for what
  the regularised factorisation accepts (`accepted_nonsingular`);
  expressions that are smooth for all values of the decision variables.
* C90: no inequality constraints, since `interior_point()` derives the smallest barrier parameter from the tolerance; no
  feasibility restoration, which starts with the barrier parameter `tolerance / 10`.
* C86, C87, C90: the two runs read the same clock values, so time spent in callbacks is not counted. Without a
  timeout the readings do not matter (C92).
* C93, C94: every expression is smooth for all values of the decision variables, the initial values are finite and the
  linear solver is exact. Inequality constraints of linear type need the same stored derivatives in both problems; `formulas_of_bounds_matter` shows that this
  is not a mere convenience. Rounding depends on how a formula is written (C67), so the theorem is about exact arithmetic.
* C78, C81, C82: the linear algebra is exact and does not regularise. The guess satisfies the constraints exactly, or (C82)
  violates them so that the filter takes the full first step. The condition
  number along the constraints is at most 9.9e6 in C78 and C82, since the line search gives up at steps below 1e-7. The remark on the
  bound on the iterations under C56 applies.

## Wrong programs

`seeded/LOG.jsonl` has one line for each edit of the model that was tried in a copy outside this repository: the
definition, the edit, the claim it breaks, the theorems whose proofs failed, and the theorems tightened if none did. Only
the first files to fail appear, since files that import them are not built. Edits marked as equivalent do not change any
observable behaviour. Edits marked as void did not compile, so they say nothing about any theorem; some were tried again
in a form that compiles.
