import Verif.Solver.Fl
import Mathlib.Data.Real.Basic

/-!
Model of the keyword arguments of `Problem.solve()` in Python (`python/cpp/optimization/bind_problem.cpp:78-111`).
-/

namespace Slp.Py

/-- A value in Python, as far as `nb::cast` distinguishes it (`bind_problem.cpp:91-103`). `float` includes infinities
and NaN. -/
inductive Val where
  | bool (b : Bool)
  | int (z : ℤ)
  | float (x : Fl)
  | other

/-- The variables `options` and `spy` (`bind_problem.cpp:81-82`, `options.hpp:13-38`). -/
structure SolveOptions where
  tolerance : Fl
  maxIterations : ℤ
  timeout : Fl
  feasibleIpm : Bool
  diagnostics : Bool
  spy : Bool

/-- The default values (`options.hpp:15-37`, `bind_problem.cpp:82`). -/
noncomputable def SolveOptions.default : SolveOptions := ⟨.fin 1e-8, 5000, .pinf, false, false, false⟩

/-- `nb::cast<double>` (`bind_problem.cpp:93,98`): `True` and `False` are integers in Python. Simplification: large
integers are not rounded. -/
noncomputable def castOptDouble : Val → Option Fl
  | .bool b => some (.fin (if b then 1 else 0))
  | .int z => some (.fin z)
  | .float x => some x
  | .other => none

/-- `nb::cast<int>` (`bind_problem.cpp:95`): a `float` is not converted, and the number must fit. -/
def castOptInt : Val → Option ℤ
  | .bool b => some (if b then 1 else 0)
  | .int z => if -2147483648 ≤ z ∧ z ≤ 2147483647 then some z else none
  | _ => none

/-- `nb::cast<bool>` (`bind_problem.cpp:100,102,104`): only `True` and `False` are converted. -/
def castOptBool : Val → Option Bool
  | .bool b => some b
  | _ => none

/-- What `solve(**kwargs)` does: it throws, or it calls `solve(options, spy)` (`bind_problem.cpp:80-111`). -/
inductive SolveCall where
  | keyError
  | castError
  | call (o : SolveOptions)

/-- The body of the loop over the keyword arguments (`bind_problem.cpp:84-108`). -/
noncomputable def setOption (o : SolveOptions) (key : String) (v : Val) : SolveCall :=
  if key = "tolerance" then (castOptDouble v).elim .castError fun x => .call { o with tolerance := x }
  else if key = "max_iterations" then (castOptInt v).elim .castError fun z => .call { o with maxIterations := z }
  else if key = "timeout" then (castOptDouble v).elim .castError fun x => .call { o with timeout := x }
  else if key = "feasible_ipm" then (castOptBool v).elim .castError fun b => .call { o with feasibleIpm := b }
  else if key = "diagnostics" then (castOptBool v).elim .castError fun b => .call { o with diagnostics := b }
  else if key = "spy" then (castOptBool v).elim .castError fun b => .call { o with spy := b }
  else .keyError

/-- The loop (`bind_problem.cpp:84-109`). An exception leaves it. -/
noncomputable def setOptions : SolveOptions → List (String × Val) → SolveCall
  | o, [] => .call o
  | o, (k, v) :: l =>
      match setOption o k v with
      | .call o' => setOptions o' l
      | e => e

/-- `solve(**kwargs)` (`bind_problem.cpp:80-111`). -/
noncomputable def solveKwargs (kwargs : List (String × Val)) : SolveCall := setOptions .default kwargs

end Slp.Py
