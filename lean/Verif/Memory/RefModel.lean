import Mathlib.Logic.Function.Basic
import Mathlib.Data.List.Basic
import Mathlib.Data.Int.Notation

/-!
Model of `util/intrusive_shared_ptr.hpp` and of `inc_ref_count` / `dec_ref_count`
(`autodiff/expression.hpp:722-767`).

A state holds the expression nodes that are currently allocated and the `IntrusiveSharedPtr` objects
("slots") of the program: variables, function arguments, temporaries, elements of containers.

* `mem n = none` means that node `n` is not allocated (not yet, or already released); touching it is
  undefined behaviour and makes the operation return `none`.
* Node identities are never reused: a new allocation has a new identity even when the allocator
  returns the same address (the allocator is modelled in `PoolModel`).
* Simplification: `ref_count` is an unbounded natural number, not a `uint32_t`; decrementing a count
  of zero returns `none`.
* The other fields of a node (`val`, `adjoint`, `scratch`) do not influence memory management and are
  left out.
-/

namespace Slp.Mem

/-- The pointer fields and the reference count of `Expression` (`expression.hpp:98-118`). -/
structure Node where
  args : Option ℕ × Option ℕ
  adj : Option ℕ
  rc : ℕ

/-- Targets of the pointer fields in the order in which `dec_ref_count` pushes them
(`expression.hpp:747-754`). -/
def Node.links (nd : Node) : List ℕ := nd.adj.toList ++ nd.args.1.toList ++ nd.args.2.toList

/-- The nodes that are allocated: `expression.hpp:99-139`, `pool.hpp:49-69`. -/
abbrev Memory := ℕ → Option Node

/-- The memory and the pointers that the program holds: `intrusive_shared_ptr.hpp:26-262`. -/
structure State where
  mem : Memory
  /-- Number of allocations so far; identities are handed out in order. -/
  next : ℕ
  /-- The `IntrusiveSharedPtr` objects in order of construction. `none`: destroyed; `some none`: holds
  `nullptr`; `some (some n)`: points to node `n`. -/
  slots : List (Option (Option ℕ))

/-- No pointer and no node: the start of a program (modelling only; no lines of `intrusive_shared_ptr.hpp:26-262`). -/
def State.empty : State := ⟨fun _ => none, 0, []⟩

/-- `if (m_ptr != nullptr) inc_ref_count(m_ptr)` (`intrusive_shared_ptr.hpp:43-47`,
`expression.hpp:723-725`). -/
def inc (p : Option ℕ) (m : Memory) : Option Memory :=
  match p with
  | none => some m
  | some n =>
    match m n with
    | none => none
    | some nd => some (Function.update m n (some { nd with rc := nd.rc + 1 }))

/-- The loop of `dec_ref_count` (`expression.hpp:740-766`). The head of the list is the top of the
stack. `none`: a released node is touched, a zero count is decremented, or the fuel ran out. -/
def decLoop : ℕ → List ℕ → Memory → Option Memory
  | _, [], m => some m
  | 0, _ :: _, _ => none
  | fuel + 1, e :: stack, m =>
    match m e with
    | none => none
    | some nd =>
      if nd.rc = 0 then none
      else if nd.rc = 1 then
        decLoop fuel (nd.links.reverse ++ stack) (Function.update m e none)
      else decLoop fuel stack (Function.update m e (some { nd with rc := nd.rc - 1 }))

/-- `if (m_ptr != nullptr) dec_ref_count(m_ptr)` (`intrusive_shared_ptr.hpp:50-52`). The fuel is enough
for every reachable state (proved, not assumed). -/
def dec (p : Option ℕ) (next : ℕ) (m : Memory) : Option Memory :=
  match p with
  | none => some m
  | some n => decLoop (4 * next + 1) [n] m

/-- An existing `IntrusiveSharedPtr` that is read: a slot, or a field of the node a slot points to
(`expression.hpp:126-139`). -/
inductive Src where
  | slot (i : ℕ)
  | arg (i : ℕ) (right : Bool)
  | adj (i : ℕ)

/-- The operations of `IntrusiveSharedPtr` as the library uses them. New slots are appended
(`intrusive_shared_ptr.hpp:26-262,273-279`). -/
inductive Op where
  /-- `IntrusiveSharedPtr p;` (`intrusive_shared_ptr.hpp:32-37`) -/
  | null
  /-- `allocate_intrusive_shared<T>(alloc, l, r)` (`intrusive_shared_ptr.hpp:273-279`), the arguments
  being copied from slots (`none`: `nullptr`) and moved into the node (`expression.hpp:126-139`). -/
  | make (l r : Option ℕ)
  /-- Copy construction (`intrusive_shared_ptr.hpp:57-62`). -/
  | copy (src : Src)
  /-- Move construction from a slot (`intrusive_shared_ptr.hpp:131-132`). -/
  | move (i : ℕ)
  /-- Move construction from `p->adjoint_expr` (`variable_matrix.hpp:1794`). -/
  | takeAdj (i : ℕ)
  /-- Copy assignment to a slot (`intrusive_shared_ptr.hpp:83-100`). -/
  | assign (i : ℕ) (src : Src)
  /-- Move assignment between slots (`intrusive_shared_ptr.hpp:147-156`). -/
  | moveAssign (i j : ℕ)
  /-- Move assignment from slot `j` to `p->adjoint_expr` (`variable_matrix.hpp:1769, 1782, 1801`). -/
  | moveToAdj (i j : ℕ)
  /-- Destruction (`intrusive_shared_ptr.hpp:49-53`). -/
  | destroy (i : ℕ)

/-- The pointer held by a slot; `none` if there is no such slot or it was destroyed
(`intrusive_shared_ptr.hpp:178-193`). -/
def State.get (s : State) (i : ℕ) : Option (Option ℕ) := (s.slots[i]?).join

/-- `p->` for a slot: the node it points to; `none` for `nullptr` or a released node
(`intrusive_shared_ptr.hpp:178-193`). -/
def State.deref (s : State) (i : ℕ) : Option (ℕ × Node) :=
  match s.get i with
  | some (some n) => (s.mem n).map (n, ·)
  | _ => none

/-- The pointer held by a source (`intrusive_shared_ptr.hpp:178-193`). -/
def State.read (s : State) : Src → Option (Option ℕ)
  | .slot i => s.get i
  | .arg i right => (s.deref i).map fun r => if right then r.2.args.2 else r.2.args.1
  | .adj i => (s.deref i).map fun r => r.2.adj

/-- The pointer held by an optional slot argument, `nullptr` if omitted (`intrusive_shared_ptr.hpp:178-193`). -/
def State.operand (s : State) : Option ℕ → Option (Option ℕ)
  | none => some none
  | some i => s.get i

/-- One operation; `none` is undefined behaviour (modelling of a sequence of the calls of
`intrusive_shared_ptr.hpp:26-262,273-279`, `expression.hpp:722-767`). -/
def step (s : State) : Op → Option State
  | .null => some { s with slots := s.slots ++ [some none] }
  | .make l r => do
    let pl ← s.operand l
    let pr ← s.operand r
    -- the by-value parameters of the constructor
    let m1 ← inc pl s.mem
    let m2 ← inc pr m1
    -- allocate and construct; the parameters are moved into `args`
    let m3 := Function.update m2 s.next (some ⟨(pl, pr), none, 0⟩)
    -- `IntrusiveSharedPtr<T>{ptr}`
    let m4 ← inc (some s.next) m3
    some ⟨m4, s.next + 1, s.slots ++ [some (some s.next)]⟩
  | .copy src => do
    let p ← s.read src
    let m ← inc p s.mem
    some { s with mem := m, slots := s.slots ++ [some p] }
  | .move i => do
    let p ← s.get i
    some { s with slots := s.slots.set i (some none) ++ [some p] }
  | .takeAdj i => do
    let r ← s.deref i
    some { s with
      mem := Function.update s.mem r.1 (some { r.2 with adj := none })
      slots := s.slots ++ [some r.2.adj] }
  | .assign i src => do
    let p ← s.get i
    let q ← s.read src
    if p = q then some s
    else do
      let m ← dec p s.next s.mem
      -- `m_ptr = rhs.m_ptr` reads the source again, after the release
      let q' ← ({ s with mem := m } : State).read src
      let m' ← inc q' m
      some { s with mem := m', slots := s.slots.set i (some q') }
  | .moveAssign i j => do
    let p ← s.get i
    let q ← s.get j
    if p = q then some s
    else some { s with slots := (s.slots.set i (some q)).set j (some p) }
  | .moveToAdj i j => do
    let r ← s.deref i
    let q ← s.get j
    if r.2.adj = q then some s
    else some { s with
      mem := Function.update s.mem r.1 (some { r.2 with adj := q })
      slots := s.slots.set j (some r.2.adj) }
  | .destroy i => do
    let p ← s.get i
    let m ← dec p s.next s.mem
    some { s with mem := m, slots := s.slots.set i none }

/-- A history of operations (modelling of a sequence of the calls of `intrusive_shared_ptr.hpp:26-262,273-279`,
`expression.hpp:722-767`). -/
def run : List Op → State → Option State
  | [], s => some s
  | o :: os, s => (step s o).bind (run os)

end Slp.Mem
