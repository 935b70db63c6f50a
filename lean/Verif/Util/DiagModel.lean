import Verif.Solver.Fl
import Mathlib.Analysis.SpecialFunctions.Log.Base

/-! The text and numbers of the diagnostics (`include/sleipnir/util/print_diagnostics.hpp`). -/

namespace Slp.Diag

open Slp (Fl)

/-- `static_cast<int>` of a floating-point number: towards zero. NaN, infinities and numbers outside the range of `int` are
undefined behaviour (`print_diagnostics.hpp:54,229,263`). -/
noncomputable def toInt : Fl → Option ℤ
  | .fin x =>
    let n := if 0 ≤ x then ⌊x⌋ else ⌈x⌉
    if -2147483648 ≤ n ∧ n ≤ 2147483647 then some n else none
  | _ => none

/-- `log10`. -/
noncomputable def log10 : Fl → Fl
  | .fin x => if 0 < x then .fin (Real.logb 10 x) else if x = 0 then .ninf else .nan
  | .pinf => .pinf
  | _ => .nan

/-- The loop that gathers the digits, the last digit first (`print_diagnostics.hpp:62-67`). -/
def digitsLoop (n : ℕ) : List ℕ :=
  n % 10 :: if h : n / 10 > 0 then digitsLoop (n / 10) else []
termination_by n
decreasing_by omega

/-- `strs` of `power_of_10` (`print_diagnostics.hpp:75-76`). -/
def superscripts : List Char := ['⁰', '¹', '²', '³', '⁴', '⁵', '⁶', '⁷', '⁸', '⁹']

/-- The text for a power (`print_diagnostics.hpp:56-82`). -/
def powerText (exponent : ℤ) : List Char :=
  if exponent = 0 then [' ', '1']
  else if exponent = 1 then ['1', '0']
  else
    ['1', '0'] ++ (if exponent < 0 then ['⁻'] else []) ++
      (digitsLoop exponent.natAbs).reverse.map fun d => superscripts[d]?.getD '?'

open Classical in
/-- `power_of_10` (`print_diagnostics.hpp:49-84`); `none` is undefined behaviour. -/
noncomputable def powerOf10 (value : Fl) : Option (List Char) :=
  if value = .fin 0 then some [' ', '0'] else (toInt (log10 value)).map powerText

/-- `strs` of `histogram` (`print_diagnostics.hpp:265`). -/
def blocks : List Char := [' ', '▏', '▎', '▍', '▌', '▋', '▊', '▉', '█']

/-- `std::clamp(value, 0.0, 1.0)` (`print_diagnostics.hpp:260`). -/
noncomputable def clamp01 (value : Fl) : Fl := if value < .fin 0 then .fin 0 else if .fin 1 < value then .fin 1 else value

/-- The loops of `histogram` for the integral and fractional parts (`print_diagnostics.hpp:268-280`). -/
def histogramText (width ipart fpart : ℕ) : List Char :=
  let full := List.replicate ipart (blocks[8]?.getD '?')
  let partly := if fpart > 0 then [blocks[fpart]?.getD '?'] else []
  full ++ partly ++ List.replicate (width - (full ++ partly).length) (blocks[0]?.getD '?')

/-- `histogram<Width>` (`print_diagnostics.hpp:257-283`); `none` is undefined behaviour, for NaN. -/
noncomputable def histogram (width : ℕ) (value : Fl) : Option (List Char) :=
  match clamp01 value with
  | .fin v =>
    let x := v * width
    (toInt (.fin ((x - ⌊x⌋) * 8))).map fun fpart => histogramText width ⌊x⌋.toNat fpart.toNat
  | _ => none

/-- `to_ms` (`print_diagnostics.hpp:37-42`) of a duration in nanoseconds, without rounding of the final division.
`duration_cast` is towards zero. -/
noncomputable def toMs (nanoseconds : ℤ) : ℝ := (nanoseconds.tdiv 1000 : ℤ) / 1000

/-- `backtracks` (`print_diagnostics.hpp:227-229`), in exact arithmetic; `none` is undefined behaviour. -/
noncomputable def backtracks (primalα primalαMax reduction : Fl) : Option ℤ :=
  toInt (Fl.log (primalα / primalαMax) / Fl.log reduction)

/-- A line of a report: `row + 1`, number of rows, value (`print_diagnostics.hpp:99,122,145`). -/
structure Line where
  number : ℕ
  rows : ℕ
  value : Fl

/-- The lines of `print_too_few_dofs_error` and `print_c_e_local_infeasibility_error`
(`print_diagnostics.hpp:97-101,120-124`). -/
noncomputable def equalityLines (c : List Fl) : List Line :=
  c.zipIdx.filterMap fun r => if r.1 < .fin 0 then some ⟨r.2 + 1, c.length, r.1⟩ else none

/-- The lines of `print_c_i_local_infeasibility_error` (`print_diagnostics.hpp:143-147`). -/
noncomputable def inequalityLines (c : List Fl) : List Line :=
  c.zipIdx.filterMap fun r => if r.1 < .fin 0 then some ⟨r.2 + 1, c.length, r.1⟩ else none

/-- The share of the total time each profiler is shown with (`print_diagnostics.hpp:298-301,333-336`). -/
noncomputable def shares (durations : List ℤ) : List ℝ :=
  let total := toMs (durations.headD 0)
  durations.zipIdx.map fun d => if total = 0 then (if d.2 = 0 then 1 else 0) else toMs d.1 / total

end Slp.Diag
