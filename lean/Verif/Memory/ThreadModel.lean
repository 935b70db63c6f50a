import Verif.Memory.PoolModel

/-!
Model of `global_pool_resource()` (`src/util/pool.cpp:5-8`): each thread has a pool of its own, made on first use and
destroyed when the thread ends. `PoolAllocator` goes to the pool of the thread that runs it (`pool.hpp:150-157`), whichever
thread made the block. (The objects with static storage duration of the main thread are destroyed after its pool, so they
count as released after the end of the main thread.)

Events of different threads are interleaved arbitrarily. Simplification: all requests have one size (see
`different_sizes_overlap`), and the program's own data races are not modelled.
-/

namespace Slp.Pool

/-- A block of some thread's pool: the thread that owns the memory, and the address (one resource per thread,
`pool.cpp:5-8`, and its blocks, `pool.hpp:19-103`). -/
abbrev GAddr := ℕ × Addr

/-- The pool of one thread. Its free list may contain blocks of other threads (one resource per thread,
`pool.cpp:5-8`, and its blocks, `pool.hpp:19-103`). -/
structure Local where
  /-- `m_buffer` -/
  chunks : List ℕ
  /-- `m_free_list`; the head of the list is `back()` -/
  free : List GAddr

/-- A program with several threads (one resource per thread, `pool.cpp:5-8`, and its blocks, `pool.hpp:19-103`). -/
structure Threads where
  pool : ℕ → Local
  /-- The threads that have ended. Their chunks are gone. -/
  ended : List ℕ
  /-- The blocks in which expressions live. -/
  held : List GAddr

/-- Every thread starts with an empty resource of its own: `pool.cpp:5-8`. -/
def Threads.new : Threads := ⟨fun _ => ⟨[], []⟩, [], []⟩

/-- What a thread does (modelling of the calls of `pool.hpp:49-86,110-157` by several threads). -/
inductive Event where
  /-- thread `t` makes an expression -/
  | make (t : ℕ)
  /-- thread `t` drops the last reference to an expression -/
  | drop (t : ℕ) (a : GAddr)
  /-- thread `t` ends; `thread_local` objects are destroyed -/
  | finish (t : ℕ)

/-- The thread of an event (modelling of the calls of `pool.hpp:49-86,110-157` by several threads). -/
def Event.thread : Event → ℕ
  | .make t => t
  | .drop t _ => t
  | .finish t => t

/-- `add_chunk` (`pool.hpp:97-102`) on thread `t`, for blocks of `n` bytes, `k` per chunk. -/
def Local.addChunk (n k t : ℕ) (p : Local) : Local where
  chunks := p.chunks ++ [n * k]
  free := (List.range k).map (fun i => (t, p.chunks.length, n * i)) ++ p.free

/-- `allocate` (`pool.hpp:49-58`) on thread `t`. -/
def Local.allocate (n k t : ℕ) (p : Local) : Option (GAddr × Local) :=
  let p' := if p.free.isEmpty then p.addChunk n k t else p
  match p'.free with
  | [] => none
  | a :: rest => some (a, { p' with free := rest })

/-- `deallocate` (`pool.hpp:65-69`). -/
def Local.deallocate (p : Local) (a : GAddr) : Local := { p with free := a :: p.free }

/-- `blocks_in_use()` (`pool.hpp:84-86`); `none` if the unsigned subtraction wraps around. -/
def Local.blocksInUse (k : ℕ) (p : Local) : Option ℕ :=
  if p.free.length ≤ p.chunks.length * k then some (p.chunks.length * k - p.free.length) else none

/-- One event. `none`: it cannot happen, as its thread has ended or the block is not held (modelling of the calls of
`pool.hpp:49-86,110-157` by several threads). -/
def Threads.step (n k : ℕ) (w : Threads) (e : Event) : Option Threads :=
  if e.thread ∈ w.ended then none else
    match e with
    | .make t => ((w.pool t).allocate n k t).map fun r =>
        { w with pool := Function.update w.pool t r.2, held := r.1 :: w.held }
    | .drop t a => if a ∈ w.held then
        some { w with pool := Function.update w.pool t ((w.pool t).deallocate a), held := w.held.erase a }
      else none
    | .finish t => some { w with ended := t :: w.ended }

/-- A history (modelling of the calls of `pool.hpp:49-86,110-157` by several threads). -/
def Threads.run (n k : ℕ) : List Event → Threads → Option Threads
  | [], w => some w
  | e :: es, w => (w.step n k e).bind (Threads.run n k es)

end Slp.Pool
