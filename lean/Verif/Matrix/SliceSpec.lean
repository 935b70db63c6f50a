import Mathlib.Data.Int.Notation
import Mathlib.Data.List.Basic

/-!
Python's slices, transcribed from the language reference: `slice(start, stop, step).indices(n)` and
`range(a, b, s)`. `none` is an omitted argument (Python's `None`).
-/

namespace Slp.Slicing

/-- `slice(start, stop, step).indices(n)` for a nonzero step. -/
def pyIndices (start stop step : Option ℤ) (n : ℤ) : ℤ × ℤ × ℤ :=
  let s := step.getD 1
  let lower := if s < 0 then -1 else 0
  let upper := if s < 0 then n - 1 else n
  let a := start.elim (if s < 0 then upper else lower) fun a =>
    if a < 0 then max (a + n) lower else min a upper
  let b := stop.elim (if s < 0 then lower else upper) fun b =>
    if b < 0 then max (b + n) lower else min b upper
  (a, b, s)

/-- `l` lists the elements of `range(a, b, s)`: `a, a + s, a + 2 s, ...` as long as they stay before
`b` in the direction of `s`. -/
def IsRange (a b s : ℤ) (l : List ℤ) : Prop :=
  (∀ (k : ℕ) (x : ℤ), l[k]? = some x → x = a + k * s ∧ (0 < s → x < b) ∧ (s < 0 → b < x)) ∧
    (0 < s → b ≤ a + l.length * s) ∧ (s < 0 → a + l.length * s ≤ b)

/-- `l` lists the indices that Python's `seq[start:stop:step]` visits in a sequence of length `n`. -/
def PySelects (start stop step : Option ℤ) (n : ℤ) (l : List ℤ) : Prop :=
  IsRange (pyIndices start stop step n).1 (pyIndices start stop step n).2.1
    (pyIndices start stop step n).2.2 l

end Slp.Slicing
