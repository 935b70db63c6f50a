import Verif.Problem.OcpModel
import Verif.Python.PyOpsModel

/-!
Model of the Python methods that build problems (`python/cpp/optimization/bind_problem.cpp:42-71`,
`bind_ocp.cpp:40-116`), and of the constraints that Python code writes as their arguments.

Expressions are those of `Verif.Problem.ProblemModel`; how they are added, subtracted and so on is given by instances.
-/

namespace Slp.Py

open Slp.VMat Slp.Slicing

/-- Exceptions: `TypeError` of nanobind, `ValueError` after a failed assertion (`assert.hpp:10-18`), and calls that are
not modelled (operators of other libraries, negative sizes, `bind_problem.cpp:42-50`). -/
inductive PyError where
  | typeError
  | valueError
  | outside
  deriving DecidableEq

/-- A constraint as written in Python: a comparison, a chained comparison such as `l <= x <= r`, or a call of `bounds`
(`bind_variable_matrix.cpp:453-490`, `main.cpp:59-75`). -/
inductive Cmp where
  | compare (op : PyOp) (l r : Obj UserExpr)
  | chain (l : Obj UserExpr) (op : PyOp) (x : Obj UserExpr) (op' : PyOp) (r : Obj UserExpr)
  | bounds (l x u : Obj UserExpr)

/-- The argument of `subject_to`: a constraint, or a list of constraints made into `EqualityConstraints` or
`InequalityConstraints` (`bind_equality_constraints.cpp:20-22`, `bind_inequality_constraints.cpp:21-23`). -/
inductive ConstraintArg where
  | one (c : Cmp)
  | equalities (l : List Cmp)
  | inequalities (l : List Cmp)

/-- The calls (`bind_problem.cpp:42-71`), and `set_value` of a decision variable (`bind_variable.cpp:97-98`). -/
inductive PyCmd where
  | decisionVariable (args : List (Obj UserExpr))
  | symmetricDecisionVariable (args : List (Obj UserExpr))
  | minimize (x : Obj UserExpr)
  | maximize (x : Obj UserExpr)
  | subjectTo (c : ConstraintArg)
  | setValue (k : ℕ) (x : Fl)

/-- A constant (`variable.hpp:70-99`). -/
def constant (x : ℝ) : UserExpr := ⟨.lit x, .constant⟩

/-- The value of an expression (C01; `variable.hpp:143-151`). Simplification: variables are finite and operations are
defined. -/
noncomputable def valueAt (v : ℕ → ℝ) (e : UserExpr) : ℝ := e.term.eval v

section

variable [Zero UserExpr] [Add UserExpr] [Sub UserExpr] [Mul UserExpr] [Div UserExpr]

/-- `__bool__` of constraints, at the current values (`bind_equality_constraints.cpp:23-26`,
`bind_inequality_constraints.cpp:24-27`). Other results of comparisons do not occur. -/
noncomputable def isTrue (now : ℕ → ℝ) : Res UserExpr → Bool
  | .eq c => c.toBool (valueAt now)
  | .ineq c => c.toBool (valueAt now)
  | _ => true

/-- The value of the written constraint. Python reads `l op x op' r` as `l op x and x op' r`, and `a and b` is `b` if
`bool(a)` is true and otherwise `a` (Python's language reference, for the constraints of
`bind_inequality_constraints.cpp:24-27`). The identity comparison gives `False` for objects of different types. -/
noncomputable def Cmp.eval (now : ℕ → ℝ) : Cmp → Outcome UserExpr
  | .compare op l r => binary constant op l r
  | .chain l op x op' r =>
      match binary constant op l x with
      | .ok c => if isTrue now c then binary constant op' x r else .ok c
      | e => e
  | .bounds l x u => pyBounds constant l x u

/-- The exception of an evaluation, or the constraint; `True` and `False` are no constraints
(`bind_problem.cpp:64-71`). -/
def Outcome.get : Outcome UserExpr → Except PyError (Res UserExpr)
  | .ok r => .ok r
  | .typeError => .error .typeError
  | .valueError => .error .valueError
  | .identity => .error .typeError
  | .foreign => .error .outside

/-- The elements of a list of constraints, evaluated in order (`bind_equality_constraints.cpp:20-22`). -/
noncomputable def evalAll (now : ℕ → ℝ) (l : List Cmp) : Except PyError (List (Res UserExpr)) :=
  l.mapM fun c => Outcome.get (c.eval now)

/-- `EqualityConstraints` (`bind_equality_constraints.cpp:20-22`). -/
def asEq : Res UserExpr → Except PyError (EqualityConstraints UserExpr)
  | .eq c => .ok c
  | _ => .error .typeError

/-- `InequalityConstraints` (`bind_inequality_constraints.cpp:21-23`). -/
def asIneq : Res UserExpr → Except PyError (InequalityConstraints UserExpr)
  | .ineq c => .ok c
  | _ => .error .typeError

/-- The argument of `subject_to` (`bind_problem.cpp:64-71`). -/
noncomputable def ConstraintArg.eval (now : ℕ → ℝ) : ConstraintArg → Except PyError (Res UserExpr)
  | .one c => Outcome.get (c.eval now)
  | .equalities l => do
      let rs ← evalAll now l
      let cs ← rs.mapM asEq
      .ok (.eq (.concat cs))
  | .inequalities l => do
      let rs ← evalAll now l
      let cs ← rs.mapM asIneq
      .ok (.ineq (.concat cs))

/-- A size: an integer that fits an `int`, and here not negative (`bind_problem.cpp:45-50`). -/
def sizeArg : Obj UserExpr → Except PyError ℕ
  | .int z => if intMin ≤ z ∧ z ≤ intMax then if 0 ≤ z then .ok z.toNat else .error .outside else .error .typeError
  | _ => .error .typeError

/-- The argument of `minimize` and `maximize`: `double`, `Variable` or `VariableMatrix`; a matrix is converted to a
`Variable` (`bind_problem.cpp:51-63`, `variable_matrix.hpp:948-951`). -/
def costArg (x : Obj UserExpr) : Except PyError UserExpr :=
  match resolve constant [[.float], [.var], [.mat]] [x] with
  | some [.scalar a] => .ok a
  | some [.matrix A] =>
      if A.rows = 1 ∧ A.cols = 1 then
        match A.get 0 0 with
        | some a => .ok a
        | none => .error .valueError
      else .error .valueError
  | _ => .error .typeError

/-- The call of C++ that a call in Python makes (`bind_problem.cpp:42-71`). -/
noncomputable def PyCmd.call (now : ℕ → ℝ) : PyCmd → Except PyError ProblemCmd
  | .decisionVariable [] => .ok .variable
  | .decisionVariable [r] => do .ok (.matrix (← sizeArg r) 1)
  | .decisionVariable [r, c] => do .ok (.matrix (← sizeArg r) (← sizeArg c))
  | .decisionVariable _ => .error .typeError
  | .symmetricDecisionVariable [r] => do .ok (.symmetric (← sizeArg r))
  | .symmetricDecisionVariable _ => .error .typeError
  | .minimize x => do .ok (.minimize (← costArg x))
  | .maximize x => do .ok (.maximize (← costArg x))
  | .subjectTo c => do
      match ← c.eval now with
      | .eq c => .ok (.subjectToEq c.constraints)
      | .ineq c => .ok (.subjectToIneq c.constraints)
      | _ => .error .typeError
  | .setValue k x => .ok (.setValue k x)

/-- One call; an exception is caught by the program (`bind_problem.cpp:42-71`). -/
noncomputable def PyCmd.exec (st : Problem × Store) (c : PyCmd) : Problem × Store :=
  match c.call (reals st.2.val) with
  | .ok cmd => cmd.exec st
  | .error _ => st

/-- A program (`bind_problem.cpp:42-71`). -/
noncomputable def runPy (st : Problem × Store) (cs : List PyCmd) : Problem × Store := cs.foldl PyCmd.exec st

/-! ### Optimal control problems -/

/-- The argument of the methods that constrain states and inputs: `double`, `int`, `Variable`, `nb::DRef` or
`VariableMatrix` (`bind_ocp.cpp:40-56`, `58-73`, `84-99`, `101-116`). -/
def columnArg (x : Obj UserExpr) : Except PyError (Operand UserExpr) :=
  match resolve constant [[.float], [.int], [.var], [.array], [.mat]] [x] with
  | some [a] => .ok a
  | _ => .error .typeError

/-- A column of states or inputs (`ocp.hpp:224,236,283,288`). -/
def columnView (ty : Term → Slp.Ty) {n : ℕ} (x : Fin n → Term) : View UserExpr :=
  ⟨n, 1, fun r c => if h : 0 ≤ r ∧ r < n ∧ c = 0 then
      let t := x ⟨r.toNat, by omega⟩
      some ⟨t, ty t⟩
    else none⟩

variable {ns ni : ℕ}

/-- `constrain_initial_state` or `constrain_final_state`, for the column that it constrains
(`bind_ocp.cpp:40-73`, `ocp.hpp:162-175`). -/
def constrainState (ty : Term → Slp.Ty) (o : Ocp ns ni) (column : ℕ) (x : Obj UserExpr) :
    Except PyError (Ocp ns ni) := do
  let a ← columnArg x
  match eqOp (.matrix (columnView ty (o.X column))) a with
  | some c => .ok { o with problem := o.problem.subjectToEq c.constraints }
  | none => .error .valueError

/-- `constrain_initial_state(x)` (`bind_ocp.cpp:40-56`, `ocp.hpp:162-166,283`). -/
def pyConstrainInitial (ty : Term → Slp.Ty) (o : Ocp ns ni) (x : Obj UserExpr) : Except PyError (Ocp ns ni) :=
  constrainState ty o 0 x

/-- `constrain_final_state(x)` (`bind_ocp.cpp:58-73`, `ocp.hpp:171-175,288`). -/
def pyConstrainFinal (ty : Term → Slp.Ty) (o : Ocp ns ni) (x : Obj UserExpr) : Except PyError (Ocp ns ni) :=
  constrainState ty o o.steps x

/-- The loop of `set_lower_input_bound` and `set_upper_input_bound`: the problem afterwards, and whether a comparison
failed, which leaves the loop (`ocp.hpp:223-225`, `235-237`). -/
def inputLoop (compare : Operand UserExpr → Operand UserExpr → Option (InequalityConstraints UserExpr))
    (column : ℕ → View UserExpr) (a : Operand UserExpr) : List ℕ → Problem → Problem × Bool
  | [], p => (p, false)
  | i :: l, p =>
      match compare (.matrix (column i)) a with
      | some c => inputLoop compare column a l (p.subjectToIneq c.constraints)
      | none => (p, true)

/-- `set_lower_input_bound(x)`: the problem afterwards, and the exception (`bind_ocp.cpp:84-99`,
`ocp.hpp:220-226`). -/
def pyLowerInput (ty : Term → Slp.Ty) (o : Ocp ns ni) (x : Obj UserExpr) : Ocp ns ni × Option PyError :=
  match columnArg x with
  | .error e => (o, some e)
  | .ok a =>
      let res := inputLoop geOp (fun i => columnView ty (o.U i)) a (List.range (o.steps + 1)) o.problem
      ({ o with problem := res.1 }, if res.2 then some .valueError else none)

/-- `set_upper_input_bound(x)` (`bind_ocp.cpp:101-116`, `ocp.hpp:232-238`). -/
def pyUpperInput (ty : Term → Slp.Ty) (o : Ocp ns ni) (x : Obj UserExpr) : Ocp ns ni × Option PyError :=
  match columnArg x with
  | .error e => (o, some e)
  | .ok a =>
      let res := inputLoop leOp (fun i => columnView ty (o.U i)) a (List.range (o.steps + 1)) o.problem
      ({ o with problem := res.1 }, if res.2 then some .valueError else none)

end

end Slp.Py
