import Mathlib.Data.Real.Basic
import Mathlib.Data.List.Count

/-!
Model of `util/scope_exit.hpp` and `util/profiler.hpp`.

Guard objects are numbered in the order of their construction. The function of a guard is named by the
number of the guard that was constructed from it.
-/

namespace Slp.Scope

/-- A `scope_exit` object (`scope_exit.hpp:14-44`): the function `m_f`, `m_active`, and whether the
object has been destroyed. -/
structure Guard where
  fn : ℕ
  active : Bool
  alive : Bool
deriving DecidableEq

/-- All guard objects so far and the functions that were called (`scope_exit.hpp:14-44`). -/
structure State where
  guards : List Guard
  log : List ℕ
deriving DecidableEq

/-- What a program can do with guards (the calls of `scope_exit.hpp:14-44`). -/
inductive Op where
  | make
  | move (g : ℕ)
  | release (g : ℕ)
  | destroy (g : ℕ)
deriving DecidableEq

/-- The guard `g` if it is alive. Anything else is undefined behavior (the calls of `scope_exit.hpp:14-44`). -/
def State.live (s : State) (g : ℕ) : Option Guard := s.guards[g]?.filter fun x => x.alive

/-- Runs one operation: the constructor (`scope_exit.hpp:19`), the move constructor
(`scope_exit.hpp:30-33`), `release()` (`scope_exit.hpp:39`) and the destructor
(`scope_exit.hpp:21-25`). -/
def step (s : State) : Op → Option State
  | .make => some { s with guards := s.guards ++ [⟨s.guards.length, true, true⟩] }
  | .move g => do
      let x ← s.live g
      some { s with guards := s.guards.set g { x with active := false } ++ [⟨x.fn, x.active, true⟩] }
  | .release g => do
      let x ← s.live g
      some { s with guards := s.guards.set g { x with active := false } }
  | .destroy g => do
      let x ← s.live g
      some { guards := s.guards.set g { x with alive := false }
             log := if x.active then s.log ++ [x.fn] else s.log }

/-- Runs a history from the start of the program (the calls of `scope_exit.hpp:14-44`). -/
def run (ops : List Op) : Option State := ops.foldlM step ⟨[], []⟩

end Slp.Scope

namespace Slp.Profile

/-- `SolveProfiler` (`profiler.hpp:60-132`) with time points and durations in seconds as real numbers. -/
structure Solve where
  startTime : ℝ
  stopTime : ℝ
  current : ℝ
  total : ℝ
  num : ℕ
  average : ℝ

/-- The initial state (`profiler.hpp:125-131`). -/
noncomputable def Solve.init : Solve := ⟨0, 0, 0, 0, 0, 0⟩

/-- `SolveProfiler::start()` (`profiler.hpp:68-72`); `now` is the clock. -/
def Solve.start (p : Solve) (now : ℝ) : Solve := { p with startTime := now }

/-- `SolveProfiler::stop()` (`profiler.hpp:76-88`). -/
noncomputable def Solve.stop (p : Solve) (now : ℝ) : Solve :=
  let current := now - p.startTime
  let num := p.num + 1
  { p with
    stopTime := now
    current := current
    total := p.total + current
    num := num
    average := ((num : ℝ) - 1) / num * p.average + 1 / num * current }

/-- `SetupProfiler` (`profiler.hpp:15-55`). -/
structure Setup where
  startTime : ℝ
  stopTime : ℝ
  duration : ℝ

/-- `SetupProfiler::start()` (`profiler.hpp:23-27`). -/
def Setup.start (p : Setup) (now : ℝ) : Setup := { p with startTime := now }

/-- `SetupProfiler::stop()` (`profiler.hpp:30-35`). -/
noncomputable def Setup.stop (p : Setup) (now : ℝ) : Setup :=
  { p with stopTime := now, duration := now - p.startTime }

/-- A `ScopedProfiler<SolveProfiler>` (`profiler.hpp:138-186`): the profiler, `m_active` and whether the
object still exists. -/
structure Scoped where
  profiler : ℕ
  active : Bool
  alive : Bool

/-- The profilers, numbered, and all ScopedProfiler objects so far (`profiler.hpp:138-186`). -/
structure State where
  profilers : ℕ → Solve
  scopes : List Scoped

/-- What a program can do with scoped profilers; `now` is the clock (the calls of `profiler.hpp:138-186`). -/
inductive Op where
  | make (p : ℕ) (now : ℝ)
  | move (g : ℕ)
  | stop (g : ℕ) (now : ℝ)
  | destroy (g : ℕ) (now : ℝ)

/-- The scoped profiler `g` if it is alive (the calls of `profiler.hpp:138-186`). -/
def State.live (s : State) (g : ℕ) : Option Scoped := s.scopes[g]?.filter fun x => x.alive

/-- Calls `stop()` on a profiler (`profiler.hpp:168-173`). -/
noncomputable def State.stopProfiler (s : State) (p : ℕ) (now : ℝ) : ℕ → Solve :=
  Function.update s.profilers p ((s.profilers p).stop now)

/-- Runs one operation: the constructor (`profiler.hpp:143-145`), the move constructor
(`profiler.hpp:157-160`), `stop()` (`profiler.hpp:168-173`) and the destructor
(`profiler.hpp:148-152`). -/
noncomputable def step (s : State) : Op → Option State
  | .make p now => some
      { profilers := Function.update s.profilers p ((s.profilers p).start now)
        scopes := s.scopes ++ [⟨p, true, true⟩] }
  | .move g => do
      let x ← s.live g
      some { s with scopes := s.scopes.set g { x with active := false } ++ [⟨x.profiler, x.active, true⟩] }
  | .stop g now => do
      let x ← s.live g
      if x.active then
        some { profilers := s.stopProfiler x.profiler now
               scopes := s.scopes.set g { x with active := false } }
      else some s
  | .destroy g now => do
      let x ← s.live g
      some { profilers := if x.active then s.stopProfiler x.profiler now else s.profilers
             scopes := s.scopes.set g { x with alive := false } }

/-- Runs a history from the start of the program (the calls of `profiler.hpp:138-186`). -/
noncomputable def run (ops : List Op) : Option State := ops.foldlM step ⟨fun _ => .init, []⟩

end Slp.Profile
