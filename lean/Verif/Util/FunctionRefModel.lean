import Mathlib.Data.Nat.Notation

/-!
Model of `util/function_ref.hpp`.

Function objects and `function_ref` objects are numbered in the order of their construction. The signature is fixed, and
what a function object does when it is called is represented by its number.
-/

namespace Slp.FnRef

/-- The type of an object, with `obj_` for a `function_ref` (`function_ref.hpp:87-88`). `callback_` calls the object at
`obj_` as what it was when the pointer was stored. -/
inductive Kind where
  | fn
  | ref (obj : ℕ)
deriving DecidableEq

/-- An object and whether it still exists (`function_ref.hpp:17-89`). -/
structure Object where
  kind : Kind
  alive : Bool
deriving DecidableEq

/-- All objects so far and the function objects that were called (`function_ref.hpp:17-89`). -/
structure State where
  objects : List Object
  log : List ℕ
deriving DecidableEq

/-- Undefined behaviour, or more nested calls than the stack holds (`function_ref.hpp:82-84`). -/
inductive Fault where
  | undefined
  | overflow
deriving DecidableEq

/-- The value category of the right-hand side of an assignment (`function_ref.hpp:50-51,57-59`). -/
inductive Category where
  | constLvalue
  | lvalue
  | rvalue
deriving DecidableEq

/-- What a program can do (`function_ref.hpp:17-96`). The static types decide between the operations on function objects
and those on `function_ref` objects. -/
inductive Op where
  | make
  | bindFn (f : ℕ)
  | bindRef (r : ℕ)
  | assignFn (r f : ℕ)
  | assignRef (r q : ℕ) (c : Category)
  | swap (r q : ℕ)
  | stdSwap (r q : ℕ)
  | destroy (o : ℕ)
  | call (r : ℕ)
deriving DecidableEq

/-- The object, if it exists (`function_ref.hpp:17-89`). -/
def State.live (s : State) (o : ℕ) : Except Fault Object :=
  match s.objects[o]? with
  | some x => if x.alive then .ok x else .error .undefined
  | none => .error .undefined

/-- The function object, if it exists (`function_ref.hpp:17-89`). -/
def State.fn (s : State) (f : ℕ) : Except Fault Unit := do
  match (← s.live f).kind with
  | .fn => .ok ()
  | .ref _ => .error .undefined

/-- `obj_` of a `function_ref`, if it exists (`function_ref.hpp:87`). -/
def State.ref (s : State) (r : ℕ) : Except Fault ℕ := do
  match (← s.live r).kind with
  | .fn => .error .undefined
  | .ref t => .ok t

/-- Stores `obj_` (`function_ref.hpp:87`). -/
def State.set (s : State) (r t : ℕ) : State := { s with objects := s.objects.set r ⟨.ref t, true⟩ }

/-- A new object (`function_ref.hpp:25-44`). -/
def State.push (s : State) (k : Kind) : State := { s with objects := s.objects ++ [⟨k, true⟩] }

/-- The end of an object's lifetime (`function_ref.hpp:17-89`; destructors do nothing). -/
def State.kill (s : State) (o : ℕ) (x : Object) : State :=
  { s with objects := s.objects.set o { x with alive := false } }

/-- Calls an object with room for `d` nested calls: `operator()` (`function_ref.hpp:82-84`) calls `callback_`, which calls
the object at `obj_` (`function_ref.hpp:39-43,61-65`), which may be another `function_ref`. -/
def State.invoke (s : State) : ℕ → ℕ → Except Fault ℕ
  | 0, o => do
    match (← s.live o).kind with
    | .fn => .ok o
    | .ref _ => .error .overflow
  | d + 1, o => do
    match (← s.live o).kind with
    | .fn => .ok o
    | .ref t => s.invoke d t

/-- `r = q` for `function_ref` objects. The copy assignment (`function_ref.hpp:50-51`) takes `const function_ref&`. The
template (`function_ref.hpp:57-68`) also accepts a `function_ref`, since that can be called, and is the better match for
right-hand sides that are not constant; it stores the address of the right-hand side. -/
def State.assignRef (s : State) (r q t : ℕ) : Category → State
  | .constLvalue => s.set r t
  | .lvalue | .rvalue => s.set r q

/-- Runs one operation with room for `d` nested calls: construction of a function object; the template constructor
(`function_ref.hpp:32-44`); the copy constructor, which the constraint on the template leaves for all `function_ref`
arguments (`function_ref.hpp:25-26,33`); the assignments (`function_ref.hpp:50-68`); `swap()` as a member and in namespace
slp (`function_ref.hpp:73-76,92-96`); `std::swap()`, which constructs a temporary from the first argument, assigns the
second argument and then the temporary, both as rvalues, and destroys the temporary; destruction; and a call. -/
def step (d : ℕ) (s : State) : Op → Except Fault State
  | .make => .ok (s.push .fn)
  | .bindFn f => do
      s.fn f
      .ok (s.push (.ref f))
  | .bindRef r => do
      let t ← s.ref r
      .ok (s.push (.ref t))
  | .assignFn r f => do
      let _ ← s.ref r
      s.fn f
      .ok (s.set r f)
  | .assignRef r q c => do
      let _ ← s.ref r
      let t ← s.ref q
      .ok (s.assignRef r q t c)
  | .swap r q => do
      let t ← s.ref r
      let u ← s.ref q
      .ok ((s.set r u).set q t)
  | .stdSwap r q => do
      let t ← s.ref r
      let u ← s.ref q
      let tmp := s.objects.length
      let s1 := (s.push (.ref t)).assignRef r q u .rvalue
      let s2 := s1.assignRef q tmp t .rvalue
      .ok (s2.kill tmp ⟨.ref t, true⟩)
  | .destroy o => do
      let x ← s.live o
      .ok (s.kill o x)
  | .call r => do
      let _ ← s.ref r
      let f ← s.invoke d r
      .ok { s with log := s.log ++ [f] }

/-- Runs a history from the start of the program (`function_ref.hpp:17-96`). -/
def run (d : ℕ) (ops : List Op) : Except Fault State := ops.foldlM (step d) ⟨[], []⟩

end Slp.FnRef
