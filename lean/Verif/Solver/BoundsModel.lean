import Verif.Solver.Fl

/-! Model of `optimization/solver/util/bounds.hpp`. -/

namespace Slp.Bounds

open Classical

/-- An inequality constraint `c(x) ≥ 0` as `get_bounds` sees it: whether `type()` is LINEAR, its row of
`A_i` (the stored entries as pairs of column and value) and `value()` as a function of the values of the
decision variables (`bounds.hpp:54-58,101-128`). -/
structure Constraint where
  linear : Bool
  row : List (ℕ × Fl)
  value : (ℕ → Fl) → Fl

/-- `Bounds` and the loop state (`bounds.hpp:26-37`, `76-94`). `indices` are
`decision_var_indices_to_constraint_indices`, with -1 for NO_BOUND. The mask is a list that grows with the
loop instead of an array that is filled with `false` first. -/
structure State where
  mask : List Bool
  bounds : ℕ → Fl × Fl
  indices : ℕ → ℤ × ℤ
  conflicts : List (ℤ × ℤ)

/-- The state before the loop (`bounds.hpp:76-94`). -/
def State.init : State := ⟨[], fun _ => (.ninf, .pinf), fun _ => (-1, -1), []⟩

/-- The value of a constraint with variable `j` set to zero (`bounds.hpp:126-138`), and the variable
values afterwards. -/
noncomputable def evalAtZero (c : Constraint) (x : ℕ → Fl) (j : ℕ) : Fl × (ℕ → Fl) :=
  if ¬ (x j = Fl.fin 0) then
    let x0 := Function.update x j (Fl.fin 0)
    (c.value x0, Function.update x0 j (x j))
  else (c.value x, x)

/-- The update of the bounds of variable `j` by constraint `k` with coefficient `a` and constant `b`
(`bounds.hpp:155-172`). -/
noncomputable def State.updateBounds (s : State) (k j : ℕ) (a b : Fl) : State :=
  let detected := -b / a
  let lower := (s.bounds j).1
  let upper := (s.bounds j).2
  let s' : State :=
    if a < Fl.fin 0 ∧ detected < upper then
      { s with bounds := Function.update s.bounds j (lower, detected)
               indices := Function.update s.indices j ((s.indices j).1, (k : ℤ)) }
    else if a > Fl.fin 0 ∧ detected > lower then
      { s with bounds := Function.update s.bounds j (detected, upper)
               indices := Function.update s.indices j ((k : ℤ), (s.indices j).2) }
    else s
  if (s'.bounds j).1 > (s'.bounds j).2 then { s' with conflicts := s'.conflicts ++ [s'.indices j] } else s'

/-- The loop body for one constraint (`bounds.hpp:96-176`); `none` is a failed assertion or an index out
of range. -/
noncomputable def State.step (n k : ℕ) (c : Constraint) (s : State) (x : ℕ → Fl) :
    Option (State × (ℕ → Fl)) :=
  if c.linear = false then some ({ s with mask := s.mask ++ [false] }, x)
  else
    match c.row with
    | [] => none
    | [(j, a)] =>
        if j < n then
          let r := evalAtZero c x j
          if a ≠ Fl.fin 0 ∧ r.1.isFinite = true ∧ a.isFinite = true then
            let s' := s.updateBounds k j a r.1
            some ({ s' with mask := s'.mask ++ [true] }, r.2)
          else none
        else none
    | _ => some ({ s with mask := s.mask ++ [false] }, x)

/-- The loop, from constraint number `k` on (`bounds.hpp:96-176`). -/
noncomputable def loop (n : ℕ) : ℕ → List Constraint → State → (ℕ → Fl) → Option (State × (ℕ → Fl))
  | _, [], s, x => some (s, x)
  | k, c :: cs, s, x => (s.step n k c x).bind fun r => loop n (k + 1) cs r.1 r.2

/-- `get_bounds(decision_variables, inequality_constraints, A_i)` (`bounds.hpp:54-179`) for `n` decision
variables with values `x`. The result holds the bounds and the variable values afterwards. -/
noncomputable def getBounds (n : ℕ) (cs : List Constraint) (x : ℕ → Fl) : Option (State × (ℕ → Fl)) :=
  loop n 0 cs .init x

/-- The projection of one variable (`bounds.hpp:213-229`); `none` is a failed assertion. -/
noncomputable def projectOne (κ1 κ2 : Fl) (lower upper x : Fl) : Option Fl :=
  if lower ≤ upper then
    if lower.isFinite = true ∧ upper.isFinite = true then
      let pL := Fl.min (κ1 * Fl.max 1 lower.abs) (κ2 * (upper - lower))
      let pU := Fl.min (κ1 * Fl.max 1 upper.abs) (κ2 * (upper - lower))
      some (Fl.min (Fl.max (lower + pL) x) (upper - pU))
    else if lower.isFinite = true then some (Fl.max x (lower + κ1 * Fl.max 1 lower.abs))
    else if upper.isFinite = true then some (Fl.min x (upper - κ1 * Fl.max 1 upper.abs))
    else some x
  else none

/-- `project_onto_bounds(x, bounds, κ_1, κ_2)` (`bounds.hpp:193-231`). -/
noncomputable def project (κ1 κ2 : Fl) (bounds : List (Fl × Fl)) (x : List Fl) : Option (List Fl) :=
  if κ1 > 0 ∧ κ2 > 0 ∧ κ2 < Fl.fin 0.5 ∧ bounds.length ≤ x.length then
    ((List.zip bounds x).mapM fun p => projectOne κ1 κ2 p.1.1 p.1.2 p.2).map
      fun y => y ++ x.drop bounds.length
  else none

end Slp.Bounds
