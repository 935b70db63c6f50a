import Verif.Autodiff.TermSpec
import Verif.Solver.BoundsModel
import Verif.Solver.NewtonModel
import Verif.Solver.SqpModel

/-!
Model of `optimization/problem.hpp`.

Variables are numbered in the order of declaration. An expression is known by the mathematical expression it denotes
(what the autodiff system makes of it is modelled in `Verif.Autodiff`) and by the type the autodiff system reports.
Diagnostics are not modelled, and `SLEIPNIR_ENABLE_BOUND_PROJECTION` is not defined, as by default.
-/

namespace Slp

open Classical

/-- The variables that exist, with their values (`variable.hpp:269-279`). -/
structure Store where
  next : ℕ
  val : ℕ → Fl

/-- No variables (`variable.hpp:269-279`). -/
noncomputable def Store.empty : Store := ⟨0, fun _ => 0⟩

/-- `Variable()` (`variable.hpp:61`): a new variable of value zero. -/
noncomputable def Store.fresh (s : Store) : ℕ × Store := (s.next, ⟨s.next + 1, Function.update s.val s.next 0⟩)

/-- An expression: its meaning and `type()` (`variable.hpp:157,269-272`). -/
structure UserExpr where
  term : Term
  ty : Ty

/-- The constant zero (`problem.hpp:318`). -/
noncomputable def UserExpr.zero : UserExpr := ⟨.lit 0, .constant⟩

/-- `-e` (`expression.hpp:327-348`), which has the type of `e`. -/
def UserExpr.neg (e : UserExpr) : UserExpr := ⟨.un .neg e.term, e.ty⟩

/-- `Problem` (`problem.hpp:733-750`). -/
structure Problem where
  vars : List ℕ
  cost : Option UserExpr
  eqs : List UserExpr
  ineqs : List UserExpr
  callbacks : List Callback
  persistent : List Callback

/-- `Problem()` (`problem.hpp:70`). -/
def Problem.new : Problem := ⟨[], none, [], [], [], []⟩

/-! ### Decision variables -/

/-- The elements of a matrix of variables, given so far (`problem.hpp:94-100,129-136`). -/
abbrev VarTable := ℕ → ℕ → Option ℕ

/-- `vars[row, col] = v` (`problem.hpp:94-100,129-136`). -/
def VarTable.set (t : VarTable) (r c v : ℕ) : VarTable := fun i j => if i = r ∧ j = c then some v else t i j

/-- The program's state in the loops below (`problem.hpp:94-100,129-136`). -/
structure Declaring where
  problem : Problem
  store : Store
  table : VarTable

/-- `m_decision_variables.emplace_back()`, and the assignment of the new variable to the elements at the given
positions, in order (`problem.hpp:94-100,129-136`). -/
noncomputable def Declaring.add (d : Declaring) (at_ : List (ℕ × ℕ)) : Declaring :=
  let v := d.store.fresh
  ⟨{ d.problem with vars := d.problem.vars ++ [v.1] }, v.2, at_.foldl (fun t p => t.set p.1 p.2 v.1) d.table⟩

/-- `decision_variable()` (`problem.hpp:77-81`). -/
noncomputable def Problem.decisionVariable (p : Problem) (s : Store) : ℕ × Problem × Store :=
  let v := s.fresh
  (v.1, { p with vars := p.vars ++ [v.1] }, v.2)

/-- `decision_variable(rows, cols)` (`problem.hpp:90-104`) for sizes that are not negative. -/
noncomputable def Problem.decisionMatrix (p : Problem) (s : Store) (rows cols : ℕ) : Declaring :=
  (List.range rows).foldl (fun d r => (List.range cols).foldl (fun d c => d.add [(r, c)]) d) ⟨p, s, fun _ _ => none⟩

/-- `symmetric_decision_variable(rows)` (`problem.hpp:117-140`). -/
noncomputable def Problem.symmetricMatrix (p : Problem) (s : Store) (rows : ℕ) : Declaring :=
  (List.range rows).foldl (fun d r => (List.range (r + 1)).foldl (fun d c => d.add [(r, c), (c, r)]) d)
    ⟨p, s, fun _ _ => none⟩

/-! ### Cost, constraints and callbacks -/

/-- `minimize(cost)` (`problem.hpp:151,162`). -/
def Problem.minimize (p : Problem) (e : UserExpr) : Problem := { p with cost := some e }

/-- `maximize(objective)` (`problem.hpp:173-190`). -/
def Problem.maximize (p : Problem) (e : UserExpr) : Problem := { p with cost := some e.neg }

/-- `subject_to(equality constraints)` (`problem.hpp:196-212`). -/
def Problem.subjectToEq (p : Problem) (es : List UserExpr) : Problem := { p with eqs := p.eqs ++ es }

/-- `subject_to(inequality constraints)` (`problem.hpp:218-234`). -/
def Problem.subjectToIneq (p : Problem) (es : List UserExpr) : Problem := { p with ineqs := p.ineqs ++ es }

/-- `add_callback` (`problem.hpp:705-711`). -/
def Problem.addCallback (p : Problem) (c : Callback) : Problem := { p with callbacks := p.callbacks ++ [c] }

/-- `add_callback` of a function that returns nothing (`problem.hpp:686-697`). -/
def Problem.addVoidCallback (p : Problem) : Problem := { p with callbacks := p.callbacks ++ [fun _ _ => false] }

/-- `clear_callbacks()` (`problem.hpp:714`). -/
def Problem.clearCallbacks (p : Problem) : Problem := { p with callbacks := [] }

/-- `add_persistent_callback` (`problem.hpp:724-730`). -/
def Problem.addPersistent (p : Problem) (c : Callback) : Problem := { p with persistent := p.persistent ++ [c] }

/-- `std::ranges::max(constraints, {}, type).type()`: the first element of the greatest type
(`problem.hpp:252-254,265-267`). -/
def maxType : List UserExpr → Ty
  | [] => .none
  | e :: es => es.foldl (fun t e => if t.rank < e.ty.rank then e.ty else t) e.ty

/-- `cost_function_type()` (`problem.hpp:239-245`). -/
def Problem.costType (p : Problem) : Ty := p.cost.elim .none UserExpr.ty

/-- `equality_constraint_type()` (`problem.hpp:250-258`). -/
def Problem.eqType (p : Problem) : Ty := maxType p.eqs

/-- `inequality_constraint_type()` (`problem.hpp:263-271`). -/
def Problem.ineqType (p : Problem) : Ty := maxType p.ineqs

/-! ### Evaluation -/

/-- What autodiff returns where an expression has no meaning (a variable is not finite, or some operation is
undefined or not smooth), and which elements a Jacobian stores (`problem.hpp:349-355,422-443,534-560`). -/
structure Autodiff where
  value : Term → (ℕ → Fl) → Fl
  partialAt : Term → ℕ → (ℕ → Fl) → Fl
  second : Term → ℕ → ℕ → (ℕ → Fl) → Fl
  curvature : List Term → List Fl → ℕ → ℕ → (ℕ → Fl) → Fl
  stored : Term → ℕ → Bool
  factor : ℕ → ℝ

/-- Every variable is finite (modelling only, of the vectors the callbacks of `problem.hpp:349-660` return). -/
def AllFinite (v : ℕ → Fl) : Prop := ∀ k, (v k).isFinite = true

/-- The values of finite variables (modelling only, of the vectors the callbacks of `problem.hpp:349-660` return). -/
noncomputable def reals (v : ℕ → Fl) : ℕ → ℝ := fun k => (v k).toReal

/-- `value()` (C01). -/
noncomputable def Autodiff.eval (ad : Autodiff) (t : Term) (v : ℕ → Fl) : Fl :=
  if AllFinite v ∧ t.Dom (reals v) then .fin (t.eval (reals v)) else ad.value t v

/-- An element of a gradient or Jacobian (C05). -/
noncomputable def Autodiff.pd (ad : Autodiff) (t : Term) (k : ℕ) (v : ℕ → Fl) : Fl :=
  if AllFinite v ∧ t.Smooth (reals v) then .fin ((Term.pd k t).eval (reals v)) else ad.partialAt t k v

/-- An element of a Hessian (C08). -/
noncomputable def Autodiff.pd2 (ad : Autodiff) (t : Term) (k l : ℕ) (v : ℕ → Fl) : Fl :=
  if AllFinite v ∧ t.Smooth (reals v) then .fin ((Term.pd l (Term.pd k t)).eval (reals v)) else ad.second t k l v

/-- An element of the Hessian of minus the sum of products of multipliers and constraints, `H_c`
(`problem.hpp:435`, `547-548`): the second derivative of that sum. -/
noncomputable def Autodiff.hc (ad : Autodiff) (ts : List Term) (ys : List Fl) (k l : ℕ) (v : ℕ → Fl) : Fl :=
  if AllFinite v ∧ (∀ t ∈ ts, t.Smooth (reals v)) ∧ ∀ y ∈ ys, y.isFinite = true then
    .fin (-((ts.zip ys).map fun p => p.2.toReal * (Term.pd l (Term.pd k p.1)).eval (reals v)).sum)
  else ad.curvature ts ys k l v

/-- `set_value` on a list of variables (`variable_matrix.hpp:295-303`). -/
def assign (v : ℕ → Fl) : List ℕ → List Fl → ℕ → Fl
  | k :: ks, x :: xs => assign (Function.update v k x) ks xs
  | _, _ => v

/-- A matrix with all elements stored. (Which zeros are stored does not matter to `sparse_inf_norms()`.) (the
products of `sparse_inf_norms.hpp:17-32` read their matrix this way) -/
noncomputable def sparseOf {m n : ℕ} (A : FMat m n) : Sparse :=
  ⟨m, n, fun j => if h : j < n then List.ofFn fun i : Fin m => ((i : ℕ), (A i ⟨j, h⟩).toReal) else []⟩

/-- `ProblemScaling{g.value(), A_e.value(), A_i.value()}` (`problem.hpp:379-382`, `473-477`, `612-616`). If a
derivative is not finite, the factors may be anything. -/
noncomputable def scalingAt {n m k : ℕ} (ad : Autodiff) (g : Vec n) (Ae : FMat m n) (Ai : FMat k n) : Scaling m k :=
  if g.Finite ∧ Ae.Finite ∧ Ai.Finite then .of m k g.real (sparseOf Ae) (sparseOf Ai)
  else .factors (ad.factor 0) (fun i => ad.factor (1 + i)) (fun i => ad.factor (1 + m + i))

/-- `scaling.f`, `scaling.c_e` and `scaling.c_i` (`problem_scaling.hpp:29-36`). -/
noncomputable def Scaling.fF {m k : ℕ} (S : Scaling m k) : Fl := .fin S.f

/-- The scaling of the equality constraints: `problem_scaling.hpp:29-36`. -/
noncomputable def Scaling.ceF {m k : ℕ} : Scaling m k → Fin m → Fl
  | .identity, _ => .fin 1
  | .factors _ de _, i => .fin (de i)

/-- The scaling of the inequality constraints: `problem_scaling.hpp:29-36`. -/
noncomputable def Scaling.ciF {m k : ℕ} : Scaling m k → Fin k → Fl
  | .identity, _ => .fin 1
  | .factors _ _ di, i => .fin (di i)

/-- The matrix callbacks (`problem.hpp:384-398`, `479-508`, `618-660`), at an initial guess. Each sets the decision
variables `vars` and evaluates; other variables keep their values `v`. -/
noncomputable def matrixCallbacks (ad : Autodiff) (v : ℕ → Fl) (vars : List ℕ) (f : Term) (eqs ineqs : List Term)
    (x0 : Vec vars.length) : Nlp vars.length eqs.length ineqs.length :=
  let env (x : Vec vars.length) : ℕ → Fl := assign v vars (List.ofFn x)
  let g (x : Vec vars.length) : Vec vars.length := fun j => ad.pd f vars[j] (env x)
  let Ae (x : Vec vars.length) : FMat eqs.length vars.length := fun i j => ad.pd eqs[i] vars[j] (env x)
  let Ai (x : Vec vars.length) : FMat ineqs.length vars.length := fun i j => ad.pd ineqs[i] vars[j] (env x)
  let S := scalingAt ad (g x0) (Ae x0) (Ai x0)
  { f := fun x => S.fF * ad.eval f (env x)
    g := fun x j => S.fF * g x j
    H := fun x y z i j =>
      if j ≤ i then S.fF * ad.pd2 f vars[i] vars[j] (env x) +
        ad.hc (eqs ++ ineqs) (List.ofFn (fun i => S.ceF i * y i) ++ List.ofFn fun i => S.ciF i * z i) vars[i] vars[j]
          (env x)
      else 0
    ce := fun x i => S.ceF i * ad.eval eqs[i] (env x)
    Ae := fun x i j => S.ceF i * Ae x i j
    ci := fun x i => S.ciF i * ad.eval ineqs[i] (env x)
    Ai := fun x i j => S.ciF i * Ai x i j
    scaling := S }

/-! ### Solving -/

/-- The initial guess (`problem.hpp:287-291`). -/
def Problem.guess (p : Problem) (s : Store) : Vec p.vars.length := fun i => s.val p.vars[i]

/-- `m_f.value_or(0)` (`problem.hpp:318`). -/
noncomputable def Problem.objective (p : Problem) : UserExpr := p.cost.getD .zero

/-- The callbacks in the order of calls (`problem.hpp:324-331`), with that of the sparsity plots (`problem.hpp:371-375`,
`464-469`, `587-593`). -/
def Problem.allCallbacks (p : Problem) (spy : Bool) : List Callback :=
  p.callbacks ++ p.persistent ++ if spy then [fun _ _ => false] else []

/-- An inequality constraint as `get_bounds()` sees it (`problem.hpp:597-599`, `bounds.hpp:54-58`). -/
noncomputable def boundConstraint (ad : Autodiff) (v : ℕ → Fl) (vars : List ℕ) (e : UserExpr) : Bounds.Constraint where
  linear := e.ty == .linear
  row := (List.finRange vars.length).filterMap fun j : Fin vars.length =>
    if ad.stored e.term vars[j] then some ((j : ℕ), ad.pd e.term vars[j] v) else none
  value := fun x => ad.eval e.term (assign v vars (List.ofFn fun i : Fin vars.length => x i))

/-- What `solve()` did (how `problem.hpp:281-679` ends (returns at `312`, `605`, `679`)). -/
inductive Outcome (n m k : ℕ) where
  | noop
  | conflict
  | newton (res : NewtonResult n)
  | sqp (res : SqpResult n m)
  | ipm (res : IpmResult n m k)

/-- The status that `solve()` returns (how `problem.hpp:281-679` ends (returns at `312`, `605`, `679`)). -/
def Outcome.status {n m k : ℕ} : Outcome n m k → ExitStatus
  | .noop => .success
  | .conflict => .globallyInfeasible
  | .newton res => res.status
  | .sqp res => res.status
  | .ipm res => res.status

/-- All calls of callbacks during the solve (`newton.hpp:174-178`, `sqp.hpp:281-285`, `interior_point.hpp:414-418`). -/
def Outcome.calls {n m k : ℕ} : Outcome n m k → List Call
  | .noop => []
  | .conflict => []
  | .newton res => res.world.calls
  | .sqp res => res.world.calls
  | .ipm res => res.world.calls

/-- The assignment of the solution (`problem.hpp:675-676`). -/
def Store.write (s : Store) (vars : List ℕ) (x : List Fl) : Store := { s with val := assign s.val vars x }

/-- The problem as given to the Newton solver (`problem.hpp:379-398`). -/
noncomputable def Problem.newtonNlp (p : Problem) (ad : Autodiff) (s : Store) : Nlp p.vars.length 0 0 :=
  matrixCallbacks ad s.val p.vars p.objective.term [] [] (p.guess s)

/-- The problem as given to the SQP solver (`problem.hpp:473-508`). -/
noncomputable def Problem.sqpNlp (p : Problem) (ad : Autodiff) (s : Store) :
    Nlp p.vars.length (p.eqs.map UserExpr.term).length 0 :=
  matrixCallbacks ad s.val p.vars p.objective.term (p.eqs.map UserExpr.term) [] (p.guess s)

/-- The problem as given to the interior-point solver (`problem.hpp:612-660`). -/
noncomputable def Problem.ipmNlp (p : Problem) (ad : Autodiff) (s : Store) :
    Nlp p.vars.length (p.eqs.map UserExpr.term).length (p.ineqs.map UserExpr.term).length :=
  matrixCallbacks ad s.val p.vars p.objective.term (p.eqs.map UserExpr.term) (p.ineqs.map UserExpr.term) (p.guess s)

/-- The kinds of results of `solve()` (how `problem.hpp:281-679` ends (returns at `312`, `605`, `679`)). -/
abbrev Problem.Outcome (p : Problem) : Type :=
  Slp.Outcome p.vars.length (p.eqs.map UserExpr.term).length (p.ineqs.map UserExpr.term).length

/-- `get_bounds()` in `solve()` (`problem.hpp:597-599`). -/
noncomputable def Problem.bounds (p : Problem) (ad : Autodiff) (s : Store) : Option (Bounds.State × (ℕ → Fl)) :=
  Bounds.getBounds p.vars.length (p.ineqs.map (boundConstraint ad s.val p.vars))
    fun j => if h : j < p.vars.length then p.guess s ⟨j, h⟩ else 0

/-- `solve(options, spy)` (`problem.hpp:281-679`). `none` is a failed assertion of `get_bounds()`. -/
noncomputable def Problem.solve (p : Problem) (ad : Autodiff) (env : Env) (opts : SolverOptions) (spy : Bool)
    (s : Store) : Option (p.Outcome × Store) :=
  if p.costType.rank ≤ Ty.constant.rank ∧ p.eqType.rank ≤ Ty.constant.rank ∧ p.ineqType.rank ≤ Ty.constant.rank then
    some (.noop, s)
  else if p.eqs = [] ∧ p.ineqs = [] then
    (newton env opts (p.newtonNlp ad s) (p.allCallbacks spy) (p.guess s) .start).map fun res =>
      (.newton res, s.write p.vars (List.ofFn res.x))
  else if p.ineqs = [] then
    (sqp env opts (p.sqpNlp ad s) (p.allCallbacks spy) (p.guess s) .start).map fun res =>
      (.sqp res, s.write p.vars (List.ofFn res.x))
  else (p.bounds ad s).bind fun b =>
    if b.1.conflicts ≠ [] then
      some (.conflict, s.write p.vars (List.ofFn fun i : Fin p.vars.length => b.2 i))
    else
      (interiorPoint env opts (p.ipmNlp ad s) (p.allCallbacks spy) (p.guess s) .start).map fun res =>
        (.ipm res, s.write p.vars (List.ofFn res.x))

/-! ### Programs -/

/-- Calls that change a problem or a variable (the calls of `problem.hpp:70-234,686-730`). -/
inductive ProblemCmd where
  | variable
  | matrix (rows cols : ℕ)
  | symmetric (rows : ℕ)
  | minimize (e : UserExpr)
  | maximize (e : UserExpr)
  | subjectToEq (es : List UserExpr)
  | subjectToIneq (es : List UserExpr)
  | addCallback (c : Callback)
  | addVoidCallback
  | addPersistent (c : Callback)
  | clearCallbacks
  /-- a variable outside of the problem, `Variable x;` -/
  | otherVariable
  /-- `x.set_value(v)` on a variable -/
  | setValue (k : ℕ) (v : Fl)

/-- One call (the calls of `problem.hpp:70-234,686-730`). -/
noncomputable def ProblemCmd.exec : ProblemCmd → Problem × Store → Problem × Store
  | .variable, (p, s) => (p.decisionVariable s).2
  | .matrix r c, (p, s) => ((p.decisionMatrix s r c).problem, (p.decisionMatrix s r c).store)
  | .symmetric r, (p, s) => ((p.symmetricMatrix s r).problem, (p.symmetricMatrix s r).store)
  | .minimize e, (p, s) => (p.minimize e, s)
  | .maximize e, (p, s) => (p.maximize e, s)
  | .subjectToEq es, (p, s) => (p.subjectToEq es, s)
  | .subjectToIneq es, (p, s) => (p.subjectToIneq es, s)
  | .addCallback c, (p, s) => (p.addCallback c, s)
  | .addVoidCallback, (p, s) => (p.addVoidCallback, s)
  | .addPersistent c, (p, s) => (p.addPersistent c, s)
  | .clearCallbacks, (p, s) => (p.clearCallbacks, s)
  | .otherVariable, (p, s) => (p, s.fresh.2)
  | .setValue k v, (p, s) => (p, { s with val := Function.update s.val k v })

/-- A program that makes a problem (the calls of `problem.hpp:70-234,686-730`). -/
noncomputable def Problem.after (cs : List ProblemCmd) : Problem × Store :=
  cs.foldl (fun st c => c.exec st) (.new, .empty)

end Slp
