import Verif.Problem.ProblemModel

/-! What `solve()` prints about the problem before it starts, with diagnostics on (`problem.hpp:752-816`). -/

namespace Slp

/-- A line of "User-configured exit conditions" (`problem.hpp:754-765`). -/
inductive ExitLine where
  | errorBelow (tolerance : ℝ)
  | callbackStop
  | executed (iterations : ℤ)
  | elapsed (timeout : Fl)

/-- `print_exit_conditions` (`problem.hpp:752-766`). `std::isfinite` of an `int` always holds. -/
noncomputable def Problem.exitConditions (p : Problem) (opts : SolverOptions) : List ExitLine :=
  [.errorBelow opts.tolerance] ++
    (if p.callbacks ≠ [] ∨ p.persistent ≠ [] then [.callbackStop] else []) ++
    [.executed opts.maxIterations] ++
    if opts.timeout.isFinite then [.elapsed opts.timeout] else []

/-- `types` (`problem.hpp:769-770`). -/
def structureNames : List String := ["no", "constant", "linear", "quadratic", "nonlinear"]

/-- The names in `print_constraint_types` (`problem.hpp:794-795`). -/
def classNames : List String := ["empty", "constant", "linear", "quadratic", "nonlinear"]

/-- `counts` (`problem.hpp:789-792`). -/
def classCounts (constraints : List UserExpr) : List ℕ :=
  constraints.foldl (fun counts e => counts.modify e.ty.rank (· + 1)) (List.replicate 5 0)

/-- `print_constraint_types` (`problem.hpp:787-800`): pairs of count and name. -/
def classLines (constraints : List UserExpr) : List (ℕ × String) :=
  ((classCounts constraints).zip classNames).filter fun l => l.1 > 0

/-- `print_problem_analysis` (`problem.hpp:768-816`), without the choice between singular and plural. -/
structure Analysis where
  cost : String
  equality : String
  inequality : String
  numVariables : ℕ
  equalities : ℕ
  equalityClasses : List (ℕ × String)
  inequalities : ℕ
  inequalityClasses : List (ℕ × String)

/-- The printed numbers and names (`problem.hpp:768-816`). -/
def Problem.analysis (p : Problem) : Analysis where
  cost := structureNames[p.costType.rank]?.getD "?"
  equality := structureNames[p.eqType.rank]?.getD "?"
  inequality := structureNames[p.ineqType.rank]?.getD "?"
  numVariables := p.vars.length
  equalities := p.eqs.length
  equalityClasses := classLines p.eqs
  inequalities := p.ineqs.length
  inequalityClasses := classLines p.ineqs

/-- The pairs of numbers in the lines of `print_bound_constraint_global_infeasibility_error`
(`print_diagnostics.hpp:154-168`, `problem.hpp:600-605`). -/
noncomputable def Problem.conflictLines (p : Problem) (ad : Autodiff) (s : Store) : List (ℤ × ℤ) :=
  (p.bounds ad s).elim [] fun b => b.1.conflicts

end Slp
