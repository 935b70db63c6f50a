import Mathlib.Data.List.Basic
import Mathlib.Data.Int.Notation

/-!
Model of `PoolResource` (`util/pool.hpp:19-103`).

An address is a pair of a chunk number and a byte offset in that chunk; `new std::byte[n]` returns
memory disjoint from all other chunks, so different chunk numbers never overlap. Requests carry the
number of bytes asked for. Simplification: sizes and counts are unbounded natural numbers, and
`blocks_per_chunk` fits an `int`.
-/

namespace Slp.Pool

/-- A `std::byte*` into the pool: chunk number and offset (`pool.hpp:49-58`). -/
abbrev Addr := ℕ × ℕ

/-- The memory resource, with the members of `pool.hpp:89-90`. -/
structure Resource where
  /-- Sizes in bytes of the chunks in `m_buffer` (`pool.hpp:89`), oldest first. -/
  chunks : List ℕ
  /-- `m_free_list` (`pool.hpp:90`); the head of the list is `back()`. -/
  free : List Addr
  blocksPerChunk : ℕ

/-- `explicit PoolResource(size_t)` (`pool.hpp:24-25`). -/
def Resource.new (blocksPerChunk : ℕ) : Resource := ⟨[], [], blocksPerChunk⟩

/-- `add_chunk(bytes_per_block)` (`pool.hpp:97-102`): the blocks are appended from the last one to the
first one, so the first one is at the back of the free list. -/
def Resource.addChunk (p : Resource) (bytes : ℕ) : Resource :=
  { p with
    chunks := p.chunks ++ [bytes * p.blocksPerChunk]
    free := (List.range p.blocksPerChunk).map (fun i => (p.chunks.length, bytes * i)) ++ p.free }

/-- `allocate(bytes)` (`pool.hpp:49-58`). `none`: `back()` of an empty list, undefined behaviour. -/
def Resource.allocate (p : Resource) (bytes : ℕ) : Option (Addr × Resource) :=
  let p' := if p.free.isEmpty then p.addChunk bytes else p
  match p'.free with
  | [] => none
  | a :: rest => some (a, { p' with free := rest })

/-- `deallocate(p, bytes)` (`pool.hpp:65-69`). -/
def Resource.deallocate (p : Resource) (a : Addr) : Resource := { p with free := a :: p.free }

/-- `blocks_in_use()` (`pool.hpp:84-86`); `none` if the unsigned subtraction wraps around. -/
def Resource.blocksInUse (p : Resource) : Option ℕ :=
  if p.free.length ≤ p.chunks.length * p.blocksPerChunk then
    some (p.chunks.length * p.blocksPerChunk - p.free.length)
  else none

/-- A call on the pool (`pool.hpp:49-86`). -/
inductive Call where
  | allocate (bytes : ℕ)
  | deallocate (a : Addr)

/-- One call, and the blocks the caller holds after it (most recent first) (modelling of a sequence of the calls of
`pool.hpp:49-86`). -/
def step (st : Resource × List Addr) : Call → Option (Resource × List Addr)
  | .allocate bytes => (st.1.allocate bytes).map fun r => (r.2, r.1 :: st.2)
  | .deallocate a => if a ∈ st.2 then some (st.1.deallocate a, st.2.erase a) else none

/-- A history of calls in which every returned block is held by the caller (`none` otherwise) (modelling of a
sequence of the calls of `pool.hpp:49-86`). -/
def run : List Call → Resource × List Addr → Option (Resource × List Addr)
  | [], st => some st
  | c :: cs, st => (step st c).bind (run cs)

end Slp.Pool
