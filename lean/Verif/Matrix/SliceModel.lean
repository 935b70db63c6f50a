import Mathlib.Data.Int.Notation
import Mathlib.Data.List.Basic

/-!
Model of `autodiff/slice.hpp`. `int` is 32 bits wide; signed overflow is undefined behaviour, which the
model returns as `none`. A failed `slp_assert` is `none` as well.
-/

namespace Slp.Slicing

/-- `std::numeric_limits<int>::max()` (the limits of `int` in `slice.hpp:42,50,88-89,94,104,106,120`). -/
def intMax : ℤ := 2147483647

/-- `std::numeric_limits<int>::min()` (the limits of `int` in `slice.hpp:42,50,88-89,94,104,106,120`). -/
def intMin : ℤ := -2147483648

/-- Result of an `int` operation; `none` on overflow (the arithmetic on `int` of `slice.hpp:50,118-155`). -/
def ck (z : ℤ) : Option ℤ := if intMin ≤ z ∧ z ≤ intMax then some z else none

/-- `slp::Slice` (`slice.hpp:25-35`). -/
structure Slice where
  start : ℤ
  stop : ℤ
  step : ℤ
  deriving DecidableEq, Repr

/-- The step: `1` if omitted, `slp_assert(step != 0)`, and the smallest `int` is replaced so that it can
be negated (`slice.hpp:79-90`). -/
def stepArg (step : Option ℤ) : Option ℤ := do
  let step ← step.elim (some 1) fun k => if k ≠ 0 then some k else none
  if step = intMin then ck (-intMax) else some step

/-- The start index (`slice.hpp:92-100`). -/
def startArg (start : Option ℤ) (step : ℤ) : ℤ :=
  start.elim (if step < 0 then intMax else 0) id

/-- The stop index (`slice.hpp:102-110`). -/
def stopArg (stop : Option ℤ) (step : ℤ) : ℤ :=
  stop.elim (if step < 0 then intMin else intMax) id

/-- `Slice(Start, Stop, Step)` (`slice.hpp:71-111`); an argument `none` is `slicing::none_t`. -/
def Slice.mk3 (start stop step : Option ℤ) : Option Slice := do
  let step ← stepArg step
  some ⟨startArg start step, stopArg stop step, step⟩

/-- `Slice(Start, Stop)` (`slice.hpp:58-64`). -/
def Slice.mk2 (start stop : Option ℤ) : Option Slice := Slice.mk3 start stop (some 1)

/-- `Slice(none_t)` (`slice.hpp:41-42`). -/
def Slice.all : Option Slice := Slice.mk3 (some 0) (some intMax) (some 1)

/-- `Slice(int)` (`slice.hpp:48-52`). -/
def Slice.mk1 (start : ℤ) : Option Slice := do
  let stop ← if start = -1 then some intMax else ck (start + 1)
  some ⟨start, stop, 1⟩

/-- The clamping of `start` and of `stop` in `adjust()` (`slice.hpp:122-140`). -/
def clamp (x length step : ℤ) : Option ℤ :=
  if x < 0 then do
    let x ← ck (x + length)
    if x < 0 then some (if step < 0 then -1 else 0) else some x
  else if x ≥ length then
    if step < 0 then ck (length - 1) else some length
  else some x

/-- The count that `adjust()` returns (`slice.hpp:142-154`). `/` on `int` truncates towards zero. -/
def count (start stop step : ℤ) : Option ℤ :=
  if step < 0 then
    if stop < start then do
      let d ← ck (start - stop)
      let e ← ck (d - 1)
      ck ((e.tdiv (-step)) + 1)
    else some 0
  else
    if start < stop then do
      let d ← ck (stop - start)
      let e ← ck (d - 1)
      ck ((e.tdiv step) + 1)
    else some 0

/-- `Slice::adjust(length)` (`slice.hpp:118-155`): the returned count and the modified slice. -/
def Slice.adjust (s : Slice) (length : ℤ) : Option (ℤ × Slice) :=
  if s.step ≠ 0 ∧ s.step ≥ -intMax then do
    let start ← clamp s.start length s.step
    let stop ← clamp s.stop length s.step
    let c ← count start stop s.step
    some (c, ⟨start, stop, s.step⟩)
  else none

/-- The indices a matrix function visits after `adjust()`: `start + i * step` for `i < count`
(`variable_matrix.hpp`, `variable_block.hpp`: element `i` of a sliced dimension) (modelling of the positions a slice
selects: `variable_block.hpp:224-243`). -/
def Slice.indices (r : ℤ × Slice) : List ℤ :=
  (List.range r.1.toNat).map fun (i : ℕ) => r.2.start + i * r.2.step

end Slp.Slicing
