import Mathlib.Data.List.Basic

/-! The table of iterations a solve prints with diagnostics on
(`include/sleipnir/util/print_diagnostics.hpp` and the solvers that call it). The numbers of a row are those of
`Verif/Util/DiagModel.lean`; here a row is its iteration number and its type. -/

namespace Slp.Diag

/-- `IterationType` (`print_diagnostics.hpp:26-33`). -/
inductive RowType | normal | secondOrderCorrection | feasibilityRestoration
  deriving DecidableEq

/-- A printed line: the border above the first heading `┏…┓`, the border above a later heading `┢…┪`, the names of the
columns, the border under a heading `┡…┩`, a row, the bottom `└…┘` (`print_diagnostics.hpp:205-214,232-238,247`). -/
inductive TableLine
  | top | between | names | under
  | row (iteration : ℕ) (type : RowType)
  | bottom
  deriving DecidableEq

/-- `print_iteration_diagnostics` (`print_diagnostics.hpp:193-239`). -/
def iterationLines (iterations : ℕ) (type : RowType) : List TableLine :=
  (if iterations % 20 = 0 then [if iterations = 0 then .top else .between, .names, .under] else []) ++
    [.row iterations type]

/-- What one pass through the loop of a solver prints besides its own row: whether a second-order correction was accepted
in it, and whether it is an iteration of feasibility restoration. At most one correction is accepted in an iteration,
since the line search ends with it (`interior_point.hpp:568-664`, `sqp.hpp:385-474`). -/
structure Pass where
  corrected : Bool
  restoring : Bool

/-- The prints of one pass: the accepted correction (`interior_point.hpp:578-599`, `sqp.hpp:394-410`), then the iteration
itself (`interior_point.hpp:836-849`, `sqp.hpp:571-579`, `newton.hpp:266-273`), both with the same number. -/
def passLines (iterations : ℕ) (p : Pass) : List TableLine :=
  (if p.corrected then iterationLines iterations .secondOrderCorrection else []) ++
    iterationLines iterations (if p.restoring then .feasibilityRestoration else .normal)

/-- The passes of a solve, with `++iterations` after each (`interior_point.hpp:852`, `sqp.hpp:582`, `newton.hpp:276`).
Feasibility restoration counts on the counter of the solve it belongs to (`interior_point.hpp:134`,
`feasibility_restoration.hpp:358`). Passes that return before they print are left out. -/
def passesLines : ℕ → List Pass → List TableLine
  | _, [] => []
  | n, p :: l => passLines n p ++ passesLines (n + 1) l

/-- The table of a solve: its passes, and at the end the bottom border if there was an iteration
(`interior_point.hpp:367-380`, `sqp.hpp:247-258`, `newton.hpp:149-160`); restoration prints none of its own
(`interior_point.hpp:371-373`). -/
def table (l : List Pass) : List TableLine :=
  passesLines 0 l ++ if l.length > 0 then [.bottom] else []

end Slp.Diag
