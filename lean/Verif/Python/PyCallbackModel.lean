import Verif.Problem.ProblemModel
import Verif.Python.PySolveModel

/-!
Model of callbacks in Python (`python/cpp/optimization/bind_problem.cpp:28-42,132-140`, `bind_ocp.cpp:29-38`): functions
that may raise exceptions, and the check for signals.
-/

namespace Slp.Py

/-- What a function in Python does: it returns a value, or it raises an exception (`bind_problem.cpp:134`). -/
inductive Reply where
  | returns (v : Val)
  | raises

/-- A function in C++ that may throw: `none` (`bind_problem.cpp:34-39,134`). -/
abbrev Thrower := List Call → Info → Option Bool

/-- A callback given to `add_callback`: `std::function<bool(const IterationInfo<double>&)>` made from a function in
Python casts its result to `bool`, and throws if the cast fails (`bind_problem.cpp:132-138`, nanobind's own code). -/
def ofPython (f : List Call → Info → Reply) : Thrower := fun calls info =>
  match f calls info with
  | .returns v => castOptBool v
  | .raises => none

/-- The callback that checks for signals such as that of Ctrl-C (`bind_problem.cpp:33-39`). `pending` tells whether one
has arrived, after the calls of callbacks so far. -/
def signalCheck (pending : List Call → Bool) : Thrower := fun calls _ => if pending calls then none else some false

/-- The two classes (`bind_problem.cpp:25`, `bind_ocp.cpp:26`). -/
inductive ProblemClass where
  | problem
  | ocp
  deriving DecidableEq

/-- The callbacks of an object (`problem.hpp:746-750`). -/
structure Callbacks where
  ordinary : List Thrower
  persistent : List Thrower

/-- `Problem()` adds the check for signals (`bind_problem.cpp:28-40`), `OCP(…)` only constructs the object
(`bind_ocp.cpp:29-38`). -/
def construct (pending : List Call → Bool) : ProblemClass → Callbacks
  | .problem => ⟨[], [signalCheck pending]⟩
  | .ocp => ⟨[], []⟩

/-- `add_callback` and `clear_callbacks` (`bind_problem.cpp:132-140`, `problem.hpp:705-714`). -/
inductive CallbackCmd where
  | add (f : List Call → Info → Reply)
  | clear

/-- One call (`bind_problem.cpp:132-140`, `problem.hpp:705-714`). -/
def CallbackCmd.exec (c : Callbacks) : CallbackCmd → Callbacks
  | .add f => { c with ordinary := c.ordinary ++ [ofPython f] }
  | .clear => { c with ordinary := [] }

/-- An object after some calls (`bind_problem.cpp:28-40,132-140`). -/
def callbacksAfter (pending : List Call → Bool) (k : ProblemClass) (cs : List CallbackCmd) : Callbacks :=
  cs.foldl CallbackCmd.exec (construct pending k)

/-- The callbacks in the order of calls (`problem.hpp:324-331`), with that of the sparsity plots
(`problem.hpp:371-375,464-469,587-593`). -/
def Callbacks.all (c : Callbacks) (spy : Bool) : List Thrower :=
  c.ordinary ++ c.persistent ++ if spy then [fun _ _ => some false] else []

/-- A callback that returns false where the given one throws (modelling only, of `bind_problem.cpp:33-39,132-138`). -/
def Thrower.total (t : Thrower) : Callback := fun calls info => (t calls info).getD false

/-- The problem with these callbacks, were they not to throw (modelling only, of `problem.hpp:324-331`). -/
def withCallbacks (p : Problem) (c : Callbacks) : Problem :=
  { p with callbacks := c.ordinary.map Thrower.total, persistent := c.persistent.map Thrower.total }

/-- The first call that throws (modelling only, of the calls of `interior_point.hpp:414-418`, `sqp.hpp:281-285` and
`newton.hpp:174-178`). -/
def firstThrow (cbs : List Thrower) (calls : List Call) : Option ℕ :=
  (List.range calls.length).find? fun j =>
    match calls[j]? with
    | some c =>
        match cbs[c.index]? with
        | some t => (t (calls.take j) c.info).isNone
        | none => false
    | none => false

/-- How `solve()` ends in Python (`bind_problem.cpp:111`). -/
inductive PyResult (p : Problem) where
  /-- it returns a status -/
  | returned (o : p.Outcome) (s : Store)
  /-- it raises an exception after these calls of callbacks; the last one threw -/
  | raised (calls : List Call)

/-- `solve()` in Python (`bind_problem.cpp:111`, `problem.hpp:281-679`). No code catches exceptions, so that a solve is
the same up to the first call that throws, where the exception leaves it: the model lets the call return false, and
forgets all that comes after. -/
noncomputable def pySolve (p : Problem) (c : Callbacks) (ad : Autodiff) (env : Env) (opts : SolverOptions) (spy : Bool)
    (s : Store) : Option (PyResult p) :=
  ((withCallbacks p c).solve ad env opts spy s).map fun r =>
    match firstThrow (c.all spy) r.1.calls with
    | some j => .raised (r.1.calls.take (j + 1))
    | none => .returned r.1 r.2

end Slp.Py
