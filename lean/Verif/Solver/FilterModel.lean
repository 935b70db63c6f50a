import Verif.Solver.Fl

/-! Model of `optimization/solver/util/filter.hpp`. -/

namespace Slp

open Classical

/-- `c.lpNorm<1>()` (`filter.hpp:44,56`). -/
noncomputable def norm1 (c : List Fl) : Fl := (c.map Fl.abs).foldr (· + ·) 0

/-- `FilterEntry` (`filter.hpp:18-67`). -/
structure FilterEntry where
  cost : Fl
  violation : Fl

/-- The SQP entry (`filter.hpp:43-44`). -/
noncomputable def FilterEntry.sqp (f : Fl) (ce : List Fl) : FilterEntry := ⟨f, norm1 ce⟩

/-- The interior-point entry (`filter.hpp:53-57`). -/
noncomputable def FilterEntry.ipm (f : Fl) (s ce ci : List Fl) (μ : Fl) : FilterEntry :=
  ⟨f - μ * (s.map Fl.log).foldr (· + ·) 0, norm1 ce + norm1 (List.zipWith (· - ·) ci s)⟩

/-- `a.dominated_by(b)` (`filter.hpp:63-66`). -/
def FilterEntry.dominatedBy (a b : FilterEntry) : Prop := b.cost ≤ a.cost ∧ b.violation ≤ a.violation

/-- `Filter` (`filter.hpp:75-212`). -/
structure Filter where
  minViolation : Fl
  maxViolation : Fl
  entries : List FilterEntry
  lastRejectionDueToFilter : Bool

/-- The constructor (`filter.hpp:87-94`). -/
noncomputable def Filter.make (initialViolation : Fl) : Filter where
  minViolation := Fl.fin 1e-4 * Fl.max 1 initialViolation
  maxViolation := Fl.fin 1e4 * Fl.max 1 initialViolation
  entries := []
  lastRejectionDueToFilter := false

/-- `reset()` (`filter.hpp:97-100`). -/
def Filter.reset (F : Filter) : Filter := { F with entries := [], lastRejectionDueToFilter := false }

/-- `add()` (`filter.hpp:194-200`). -/
noncomputable def Filter.add (F : Filter) (e : FilterEntry) : Filter :=
  { F with entries := F.entries.filter (fun x => ¬ x.dominatedBy e) ++ [e] }

/-- `in_filter()` (`filter.hpp:206-211`). -/
def Filter.inFilter (F : Filter) (e : FilterEntry) : Prop := ∃ x ∈ F.entries, e.dominatedBy x

/-- The switching condition (`filter.hpp:120-125`). -/
def switching (current : FilterEntry) (D α : Fl) : Prop :=
  D < 0 ∧ α * Fl.pow (-D) 2.3 > Fl.pow current.violation 1.1

/-- The Armijo condition (`filter.hpp:128-130`). -/
def armijo (current trial : FilterEntry) (D α : Fl) : Prop :=
  trial.cost ≤ current.cost + Fl.fin 1e-8 * α * D

/-- The entry that represents the current iterate, with its margin (`filter.hpp:165-167`). -/
noncomputable def envelope (current : FilterEntry) (α : Fl) : FilterEntry :=
  ⟨current.cost - Fl.pow α 1.5 * Fl.fin 1e-8 * current.violation,
    (1 - Fl.pow α 1.5 * Fl.fin 1e-5) * current.violation⟩

/-- The sufficient decrease condition (`filter.hpp:135-141`). -/
def sufficientDecrease (current trial : FilterEntry) (α : Fl) : Prop :=
  trial.cost ≤ (envelope current α).cost ∨ trial.violation ≤ (envelope current α).violation

/-- The end of `try_add()` (`filter.hpp:156-171`). -/
noncomputable def Filter.finish (F : Filter) (current trial : FilterEntry) (D α : Fl) : Filter × Bool :=
  if F.inFilter trial then ({ F with lastRejectionDueToFilter := true }, false)
  else if ¬ switching current D α ∨ ¬ armijo current trial D α then (F.add (envelope current α), true)
  else (F, true)

/-- `try_add()` (`filter.hpp:109-172`): the new filter and the result. -/
noncomputable def Filter.tryAdd (F : Filter) (current trial : FilterEntry) (D α : Fl) : Filter × Bool :=
  if trial.cost.isFinite = false ∨ trial.violation > F.maxViolation then (F, false)
  else if current.violation ≤ F.minViolation ∧ switching current D α then
    if ¬ armijo current trial D α then ({ F with lastRejectionDueToFilter := false }, false)
    else F.finish current trial D α
  else if ¬ sufficientDecrease current trial α then ({ F with lastRejectionDueToFilter := false }, false)
  else F.finish current trial D α

end Slp
