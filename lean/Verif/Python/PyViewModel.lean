import Mathlib.Data.List.Basic

/-!
Model of matrices, blocks of them and iterators over them as objects in Python
(`python/cpp/autodiff/bind_variable_matrix.cpp:161-238,493-501`, `bind_variable_block.cpp:141-225,449-458`): which objects
exist, and what an access through a block reads and writes.

Simplifications: a selection is the list of the positions that it selects (C12, C13 and C52 say which ones they are), and
matrices are lists of elements in row-major order. Elements are of any type. The references which the interpreter holds
while it evaluates a call are left out, apart from that to the result: names hold the arguments.
-/

namespace Slp.PyView

variable {α : Type}

/-- What an object in Python contains: a `VariableMatrix`; a `VariableBlock`, which has a pointer to a matrix and the
selected positions (`variable_block.hpp:805-809`); or an iterator, which has a pointer to a matrix's elements
(`variable_matrix.hpp:1170-1171`) or to a block (`variable_block.hpp:675-677,721-723`), and a position. -/
inductive Kind (α : Type) where
  | matrix (values : List α)
  | block (target : ℕ) (sel : List ℕ)
  | iter (source pos : ℕ)
deriving DecidableEq

/-- An object in Python: `keeps` is the object that `nb::keep_alive<0, 1>` holds a reference to for as long as this object
exists (`bind_variable_matrix.cpp:169,233,501`, `bind_variable_block.cpp:149,217,458`), and `refs` is the number of
references to this object. It is destroyed when there are none. -/
structure Obj (α : Type) where
  kind : Kind α
  keeps : Option ℕ
  refs : ℕ
deriving DecidableEq

/-- A function in Python that runs: all objects so far, its local names, and what it has read (`none` is the end of an
iteration). -/
structure State (α : Type) where
  objects : List (Obj α)
  names : List (Option ℕ)
  log : List (Option α)

/-- How a run can end early: an exception about a name without a value, an object of the wrong type or a bad index; or
undefined behaviour. -/
inductive Fault where
  | name
  | type
  | index
  | undefined
deriving DecidableEq

/-- The statements: `n = VariableMatrix(…)`; `n = m[…]` for a slice; `n = m.row(…)` and `n = m.col(…)`; `n = iter(m)`;
`next(m)`; `n = m`; `del n`; `m[k]`; and `m[k] = v` (`bind_variable_matrix.cpp:41-56,82-90,161-238,496-501`,
`bind_variable_block.cpp:59-68,141-225,452-458`). -/
inductive Op (α : Type) where
  | matrix (n : ℕ) (values : List α)
  | slice (n m : ℕ) (picks : List ℕ)
  | line (n m : ℕ) (picks : List ℕ)
  | iter (n m : ℕ)
  | next (m : ℕ)
  | copy (n m : ℕ)
  | del (n : ℕ)
  | get (m k : ℕ)
  | set (m k : ℕ) (v : α)
deriving DecidableEq

/-- Takes a new reference (Python's own code). -/
def incRef (objs : List (Obj α)) (o : ℕ) : List (Obj α) :=
  match objs[o]? with
  | some x => objs.set o { x with refs := x.refs + 1 }
  | none => objs

/-- Drops a reference. An object without references is destroyed, which drops its reference to the object that it keeps
(Python's and nanobind's own code). The first argument bounds the number of objects destroyed; an object keeps older ones
only. -/
def decRef : ℕ → List (Obj α) → ℕ → List (Obj α)
  | 0, objs, _ => objs
  | fuel + 1, objs, o =>
    match objs[o]? with
    | none => objs
    | some x =>
      if x.refs = 1 then
        match x.keeps with
        | some p => decRef fuel (objs.set o { x with refs := 0 }) p
        | none => objs.set o { x with refs := 0 }
      else objs.set o { x with refs := x.refs - 1 }

/-- The object, if it exists. -/
def State.live (s : State α) (o : ℕ) : Except Fault (Obj α) :=
  match s.objects[o]? with
  | some x => if x.refs = 0 then .error .undefined else .ok x
  | none => .error .undefined

/-- The value of a name (Python's own code). -/
def State.load (s : State α) (m : ℕ) : Except Fault ℕ :=
  match s.names[m]? with
  | some (some o) => .ok o
  | _ => .error .name

/-- Gives a name a value, whose reference is taken over, and drops the reference to the old value, if any (Python's own
code). -/
def State.store (s : State α) (n : ℕ) (new : Option ℕ) : Except Fault (State α) :=
  match s.names[n]? with
  | none => .error .name
  | some none => .ok { s with names := s.names.set n new }
  | some (some q) => .ok { s with names := s.names.set n new, objects := decRef s.objects.length s.objects q }

/-- Makes a new object with one reference, that of the result, and lets it keep another object
(`nb::keep_alive<0, 1>`, nanobind's own code). -/
def State.push (s : State α) (k : Kind α) (keeps : Option ℕ) : State α :=
  { s with
    objects := (match keeps with | some p => incRef s.objects p | none => s.objects) ++ [⟨k, keeps, 1⟩] }

/-- The matrix that a matrix or block refers to, and the positions in it: all for a matrix
(`variable_matrix.hpp:1105,468-505`), those in the block's members for a block (`variable_block.hpp:805-809`). -/
def State.selection (s : State α) (o : ℕ) : Except Fault (ℕ × List ℕ) := do
  match (← s.live o).kind with
  | .matrix vs => .ok (o, List.range vs.length)
  | .block t sel => .ok (t, sel)
  | .iter _ _ => .error .type

/-- Selects from a selection (`variable_block.hpp:271-343`, `variable_matrix.hpp:468-505`). -/
def pick (sel : List ℕ) : List ℕ → Except Fault (List ℕ)
  | [] => .ok []
  | k :: ks =>
    match sel[k]? with
    | some j => do .ok (j :: (← pick sel ks))
    | none => .error .index

/-- The elements of the matrix that a block points to, `*m_mat` (`variable_block.hpp:229,241`). -/
def State.values (s : State α) (t : ℕ) : Except Fault (List α) := do
  match (← s.live t).kind with
  | .matrix vs => .ok vs
  | _ => .error .undefined

/-- Runs one statement. Slices and iterators keep the matrix or block that they are made from
(`bind_variable_matrix.cpp:169,233,501`, `bind_variable_block.cpp:149,217,458`); the results of `row` and `col` do not
(`bind_variable_matrix.cpp:235-238`, `bind_variable_block.cpp:219-224`). An element is a copy of the `Variable`
(`bind_variable_matrix.cpp:163-168`). -/
def step (s : State α) : Op α → Except Fault (State α)
  | .matrix n vs => (s.push (.matrix vs) none).store n (some s.objects.length)
  | .slice n m picks => do
      let o ← s.load m
      let (t, sel) ← s.selection o
      let sel' ← pick sel picks
      (s.push (.block t sel') (some o)).store n (some s.objects.length)
  | .line n m picks => do
      let o ← s.load m
      let (t, sel) ← s.selection o
      let sel' ← pick sel picks
      (s.push (.block t sel') none).store n (some s.objects.length)
  | .iter n m => do
      let o ← s.load m
      let _ ← s.selection o
      (s.push (.iter o 0) (some o)).store n (some s.objects.length)
  | .next m => do
      let o ← s.load m
      let x ← s.live o
      match x.kind with
      | .iter src pos =>
          let (t, sel) ← s.selection src
          match sel[pos]? with
          | none => .ok { s with log := s.log ++ [none] }
          | some j =>
              let vs ← s.values t
              match vs[j]? with
              | none => .error .undefined
              | some v =>
                  .ok { s with objects := s.objects.set o { x with kind := .iter src (pos + 1) },
                               log := s.log ++ [some v] }
      | _ => .error .type
  | .copy n m => do
      let o ← s.load m
      { s with objects := incRef s.objects o : State α }.store n (some o)
  | .del n => do
      let _ ← s.load n
      s.store n none
  | .get m k => do
      let o ← s.load m
      let (t, sel) ← s.selection o
      match sel[k]? with
      | none => .error .index
      | some j =>
          let vs ← s.values t
          match vs[j]? with
          | none => .error .undefined
          | some v => .ok { s with log := s.log ++ [some v] }
  | .set m k v => do
      let o ← s.load m
      let (t, sel) ← s.selection o
      match sel[k]? with
      | none => .error .index
      | some j =>
          let x ← s.live t
          let vs ← s.values t
          if j < vs.length then
            .ok { s with objects := s.objects.set t { x with kind := .matrix (vs.set j v) } }
          else .error .undefined

/-- Runs a function with `k` local names. -/
def run (k : ℕ) (prog : List (Op α)) : Except Fault (State α) :=
  prog.foldlM step ⟨[], List.replicate k none, []⟩

end Slp.PyView
