import Verif.Solver.LoopModel

/-! `multistart()` (`include/sleipnir/optimization/multistart.hpp`): solving from several initial guesses on separate
threads and choosing the best result. -/

namespace Slp

/-- `MultistartResult` (`multistart.hpp:21-29`); `guess` is its `variables`. -/
structure MultistartResult (D : Type) where
  status : ExitStatus
  cost : Fl
  guess : D

variable {D : Type}

/-- The comparison passed to `std::ranges::min_element` (`multistart.hpp:65-73`). -/
noncomputable def betterResult (a b : MultistartResult D) : Bool :=
  if a.status = .success ∧ b.status ≠ .success then true else decide (a.cost < b.cost)

/-- `std::ranges::min_element` as specified by its reference implementation: the candidate is replaced by every later
element that compares less (`multistart.hpp:65-73`). -/
def minElement {R : Type} (less : R → R → Bool) (first : R) (rest : List R) : R :=
  rest.foldl (fun best r => if less r best then r else best) first

/-- What a call of `multistart()` did. `undefined` is dereferencing the end iterator of an empty range
(`multistart.hpp:45-74`). -/
inductive MultistartOutcome (D E : Type) where
  | running
  | returned (r : MultistartResult D)
  | threw (e : E)
  | undefined

/-- A call of `multistart()` in progress: what the threads stored in their futures and what the calling thread collected
(`multistart.hpp:51-63`). -/
structure Multistart (D E : Type) where
  futures : List (Option (Except E (MultistartResult D)))
  collected : List (MultistartResult D)
  outcome : MultistartOutcome D E

/-- A thread's progress: a solve ends, or the calling thread tries to take the next future's result
(`multistart.hpp:45-74`). -/
inductive MultistartStep where
  | finish (i : ℕ)
  | collect

variable {E : Type}

/-- Choosing the result (`multistart.hpp:65-73`). -/
noncomputable def chooseResult : List (MultistartResult D) → MultistartOutcome D E
  | [] => .undefined
  | r :: rest => .returned (minElement betterResult r rest)

/-- After launching a thread for each guess (`multistart.hpp:51-57`). Each thread works on its own copy of the guess
(`std::async` copies its arguments). -/
noncomputable def Multistart.launch (n : ℕ) : Multistart D E :=
  ⟨List.replicate n none, [], if n = 0 then chooseResult [] else .running⟩

/-- One step of the program. `solve` is the user's function; it is taken to be a function of the guess, that is, the
solves do not interfere. `future.get()` blocks until the result is there and rethrows exceptions
(`multistart.hpp:61-63`). -/
noncomputable def Multistart.step (solve : D → Except E (MultistartResult D)) (guesses : List D) (m : Multistart D E) :
    MultistartStep → Multistart D E
  | .finish i =>
    match guesses[i]?, m.futures[i]? with
    | some g, some none => { m with futures := m.futures.set i (some (solve g)) }
    | _, _ => m
  | .collect =>
    match m.outcome with
    | .running =>
      match m.futures[m.collected.length]? with
      | some (some (.ok r)) =>
        { m with
          collected := m.collected ++ [r]
          outcome := if m.collected.length + 1 = m.futures.length then chooseResult (m.collected ++ [r]) else .running }
      | some (some (.error e)) => { m with outcome := .threw e }
      | _ => m
    | _ => m

/-- A run under a schedule of the threads (`multistart.hpp:45-74`). -/
noncomputable def multistart (solve : D → Except E (MultistartResult D)) (guesses : List D)
    (schedule : List MultistartStep) : Multistart D E :=
  schedule.foldl (Multistart.step solve guesses) (Multistart.launch guesses.length)

end Slp
