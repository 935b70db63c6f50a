import Verif.Util.FunctionRefModel

/-! The documentation of `function_ref`, for C79: each object refers to a function object. -/

namespace Slp.FnRef

/-- An object by its documentation: the function object it refers to (its own number for a function object), whether it
is a `function_ref`, and whether it exists. -/
structure Entry where
  fn : ℕ
  isRef : Bool
  alive : Bool
deriving DecidableEq

/-- The objects and the calls so far. -/
structure Doc where
  entries : List Entry
  log : List ℕ
deriving DecidableEq

/-- The entry of an object that exists. -/
def Doc.live (s : Doc) (o : ℕ) : Option Entry := s.entries[o]?.filter fun e => e.alive

/-- The entry of a function object that exists. -/
def Doc.fn (s : Doc) (o : ℕ) : Option Entry := (s.live o).filter fun e => !e.isRef

/-- The entry of a `function_ref` that exists. -/
def Doc.ref (s : Doc) (o : ℕ) : Option Entry := (s.live o).filter fun e => e.isRef

/-- The reference `r` refers to the function object `f` from now on. -/
def Doc.refer (s : Doc) (r f : ℕ) : Doc := { s with entries := s.entries.set r ⟨f, true, true⟩ }

/-- What each operation does by the documentation; nothing if it uses an object that does not exist. -/
def Doc.step (s : Doc) : Op → Option Doc
  | .make => some { s with entries := s.entries ++ [⟨s.entries.length, false, true⟩] }
  | .bindFn f => do
      let e ← s.fn f
      some { s with entries := s.entries ++ [⟨e.fn, true, true⟩] }
  | .bindRef r => do
      let e ← s.ref r
      some { s with entries := s.entries ++ [⟨e.fn, true, true⟩] }
  | .assignFn r f => do
      let _ ← s.ref r
      let e ← s.fn f
      some (s.refer r e.fn)
  | .assignRef r q _ => do
      let _ ← s.ref r
      let e ← s.ref q
      some (s.refer r e.fn)
  | .swap r q => do
      let e ← s.ref r
      let e' ← s.ref q
      some ((s.refer r e'.fn).refer q e.fn)
  | .stdSwap r q => do
      let e ← s.ref r
      let e' ← s.ref q
      let s' := (s.refer r e'.fn).refer q e.fn
      some { s' with entries := s'.entries ++ [⟨e.fn, true, false⟩] }
  | .destroy o => do
      let e ← s.live o
      some { s with entries := s.entries.set o { e with alive := false } }
  | .call r => do
      let e ← s.ref r
      let _ ← s.live e.fn
      some { s with log := s.log ++ [e.fn] }

/-- A history by the documentation. -/
def Doc.run (ops : List Op) : Option Doc := ops.foldlM Doc.step ⟨[], []⟩

/-- `function_ref` objects are assigned from constants only, and `std::swap()` is not used. -/
def Op.Careful : Op → Prop
  | .assignRef _ _ c => c = .constLvalue
  | .stdSwap _ _ => False
  | _ => True

end Slp.FnRef
