import Verif.Autodiff.ApiOps

/-!
The autodiff API as a machine: a table of `Variable` objects and of `Jacobian` / `Hessian` objects
over one heap of expression nodes, and one command per API call. `Gradient` (`gradient.hpp:36-60`) is
a `Jacobian` with one row, whose `value()` and `get()` are transposed.

`step` returns `none` where the C++ would dereference a null pointer or not terminate, or when a
command names an object that does not exist.
-/

namespace Slp

variable {S : Type} [ScalarOps S]

/-- API calls. Objects are named by their position in the tables; results are appended (calls of
`variable.hpp:54-357,405-714`, `jacobian.hpp:54-156`, `hessian.hpp:49-157`, `gradient.hpp:31-57`). -/
inductive Cmd (S : Type) where
  /-- `Variable x;` (`variable.hpp:61`, `271-272`) -/
  | decl
  /-- `Variable x{c};` (`variable.hpp:70-73`) -/
  | lit (c : S)
  | un (f : UnOp) (i : ℕ)
  | bin (f : BinOp) (i j : ℕ)
  /-- `hypot(x, y, z)` (`variable.hpp:711-714`) -/
  | hypot3 (i j k : ℕ)
  /-- copy construction (implicit): copies the expression and the cached graph -/
  | copy (i : ℕ)
  /-- `xi = xj` (implicit copy assignment) -/
  | assign (i j : ℕ)
  /-- `xi = c` (`variable.hpp:114-120`) -/
  | assignLit (i : ℕ) (c : S)
  | setValue (i : ℕ) (v : S)
  | value (i : ℕ)
  | type (i : ℕ)
  /-- `Jacobian{rows, wrt}` -/
  | jac (rows wrt : List ℕ)
  | jacValue (j : ℕ)
  | jacGet (j : ℕ)
  /-- `Hessian<Scalar, UpLo>{x, wrt}`; `lower` is `UpLo == Eigen::Lower` -/
  | hess (lower : Bool) (i : ℕ) (wrt : List ℕ)
  | hessValue (j : ℕ)
  | hessGet (j : ℕ)

/-- What a call returns to the user. Matrices are lists of rows (what `variable.hpp:269-279`,
`jacobian.hpp:107-156`, `hessian.hpp:105-157` return). -/
inductive Obs (S : Type) where
  | unit
  | num (x : S)
  | ty (t : Ty)
  | mat (m : List (List S))

/-- All live objects (modelling of the objects a program holds: `variable.hpp:54-357`, `jacobian.hpp:54-156`,
`hessian.hpp:49-157`). -/
structure Api (S : Type) where
  heap : Heap S
  objs : List VarObj
  jacs : List (JacObj S)
  hess : List (Bool × JacObj S)

/-- No objects (modelling of the objects a program holds: `variable.hpp:54-357`, `jacobian.hpp:54-156`,
`hessian.hpp:49-157`). -/
def Api.empty : Api S where
  heap := { next := 0, op := fun _ => .constant, ty := fun _ => .none, args := fun _ => (none, none),
            val := fun _ => ScalarOps.zero, adjoint := fun _ => ScalarOps.zero,
            adjE := fun _ => none, scratch := fun _ => -1 }
  objs := []
  jacs := []
  hess := []

/-- A matrix given by a function, as a list of rows (the matrix that `value()` returns, entry by entry:
`jacobian.hpp:153`, `hessian.hpp:151`). -/
def dense (m : ℕ → ℕ → S) (rows cols : ℕ) : List (List S) :=
  (List.range rows).map fun i => (List.range cols).map fun j => m i j

/-- Expression nodes of the named `Variable` objects (the arguments `jacobian.hpp:54-70`, `hessian.hpp:49-70`). -/
def exprs (objs : List VarObj) (is : List ℕ) : List ℕ :=
  is.filterMap fun i => (objs[i]?).map VarObj.expr

/-- A `Variable` that was just constructed from an expression (`variable.hpp:99-108`). -/
def freshObj (e : ℕ) : VarObj := ⟨e, none⟩

/-- Add the result of a smart constructor to the table (modelling of the objects a program holds:
`variable.hpp:54-357`, `jacobian.hpp:54-156`, `hessian.hpp:49-157`). -/
def Api.push (s : Api S) (m : HM S ℕ) : Api S :=
  let r := m s.heap
  { s with heap := r.2, objs := s.objs ++ [freshObj r.1] }

/-- One API call (modelling of a program that calls the API of `variable.hpp:54-357,405-714`, `jacobian.hpp:54-156`,
`hessian.hpp:49-157`, `gradient.hpp:31-57`). -/
def step (c : Cmd S) (s : Api S) : Option (Obs S × Api S) :=
  match c with
  | .decl => some (.unit, s.push mkVar)
  | .lit c => some (.unit, s.push (mkConst c))
  | .un f i =>
    match s.objs[i]? with
    | some x => some (.unit, s.push (f.build x.expr))
    | none => none
  | .bin f i j =>
    match s.objs[i]?, s.objs[j]? with
    | some x, some y => some (.unit, s.push (f.build x.expr y.expr))
    | _, _ => none
  | .hypot3 i j k =>
    match s.objs[i]?, s.objs[j]?, s.objs[k]? with
    | some x, some y, some z => some (.unit, s.push (hypot3 x.expr y.expr z.expr))
    | _, _, _ => none
  | .copy i =>
    match s.objs[i]? with
    | some x => some (.unit, { s with objs := s.objs ++ [x] })
    | none => none
  | .assign i j =>
    match s.objs[i]?, s.objs[j]? with
    | some _, some y => some (.unit, { s with objs := s.objs.set i y })
    | _, _ => none
  | .assignLit i c =>
    match s.objs[i]? with
    | some _ =>
      let r := mkConst c s.heap
      some (.unit, { s with heap := r.2, objs := s.objs.set i (freshObj r.1) })
    | none => none
  | .setValue i v =>
    match s.objs[i]? with
    | some x => some (.unit, { s with heap := setValue x v s.heap })
    | none => none
  | .value i =>
    match s.objs[i]? with
    | some x =>
      match value x s.heap with
      | some (v, x', h) => some (.num v, { s with heap := h, objs := s.objs.set i x' })
      | none => none
    | none => none
  | .type i =>
    match s.objs[i]? with
    | some x => some (.ty (s.heap.ty x.expr), s)
    | none => none
  | .jac rows wrt =>
    match jacobian ((exprs s.objs rows).map some) (exprs s.objs wrt) s.heap with
    | some (J, h) => some (.unit, { s with heap := h, jacs := s.jacs ++ [J] })
    | none => none
  | .jacValue j =>
    match s.jacs[j]? with
    | some J =>
      let r := J.value s.heap
      some (.mat (dense r.1 J.vars.length J.wrt.length),
        { s with heap := r.2.2, jacs := s.jacs.set j r.2.1 })
    | none => none
  | .jacGet j =>
    match s.jacs[j]? with
    | some J =>
      match J.get s.heap with
      | some (es, h) => some (.unit, { s with heap := h, objs := s.objs ++ es.flatten.map freshObj })
      | none => none
    | none => none
  | .hess lower i wrt =>
    match s.objs[i]? with
    | some x =>
      match hessian x.expr (exprs s.objs wrt) s.heap with
      | some (H, h) => some (.unit, { s with heap := h, hess := s.hess ++ [(lower, H)] })
      | none => none
    | none => none
  | .hessValue j =>
    match s.hess[j]? with
    | some (lower, H) =>
      let r := hessianValue lower H s.heap
      some (.mat (dense r.1 H.vars.length H.wrt.length),
        { s with heap := r.2.2, hess := s.hess.set j (lower, r.2.1) })
    | none => none
  | .hessGet j =>
    match s.hess[j]? with
    | some (_, H) =>
      match H.get s.heap with
      | some (es, h) => some (.unit, { s with heap := h, objs := s.objs ++ es.flatten.map freshObj })
      | none => none
    | none => none

/-- A sequence of API calls, with everything that they return (modelling of a program that calls the API of
`variable.hpp:54-357,405-714`, `jacobian.hpp:54-156`, `hessian.hpp:49-157`, `gradient.hpp:31-57`). -/
def run : List (Cmd S) → Api S → Option (List (Obs S) × Api S)
  | [], s => some ([], s)
  | c :: cs, s =>
    match step c s with
    | none => none
    | some (o, s1) =>
      match run cs s1 with
      | none => none
      | some (os, s2) => some (o :: os, s2)

end Slp
