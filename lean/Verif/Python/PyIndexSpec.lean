import Verif.Python.PyIndexModel
import Verif.Matrix.BlockSpec

/-!
NumPy's basic indexing of a two-dimensional array: an integer between `-n` and `n - 1` selects one position,
counting from the end if it is negative; a slice selects what Python's slices select.
-/

namespace Slp.Py

open Slp.Slicing Slp.VMat

/-- The positions that one index selects in a dimension of size `n`. -/
inductive NpSelects (n : ℕ) : PyIndex → List ℤ → Prop where
  | front {i : ℕ} : i < n → NpSelects n (.int i) [(i : ℤ)]
  | back {k : ℕ} : 0 < k → k ≤ n → NpSelects n (.int (-(k : ℤ))) [((n - k : ℕ) : ℤ)]
  | slice {a b s : Option ℤ} {l : List ℤ} : s ≠ some 0 → PySelects a b s n l → NpSelects n (.slice a b s) l

/-- What a chain of subscripts selects of rows `R` and columns `C`. -/
inductive NpChain : List ℤ → List ℤ → List (PyIndex × PyIndex) → List ℤ → List ℤ → Prop where
  | nil {R C} : NpChain R C [] R C
  | cons {R C : List ℤ} {e f : PyIndex} {lr lc R' C' R'' C'' : List ℤ} {es : List (PyIndex × PyIndex)} :
      NpSelects R.length e lr → NpSelects C.length f lc → Picks R lr R' → Picks C lc C' →
      NpChain R' C' es R'' C'' → NpChain R C ((e, f) :: es) R'' C''

/-- The step of an index. -/
def PyIndex.step : PyIndex → ℤ
  | .slice _ _ s => s.getD 1
  | _ => 1

/-- The step of a slice fits an `int`. -/
def PyIndex.StepFits : PyIndex → Prop
  | .slice _ _ (some s) => intMin ≤ s ∧ s ≤ intMax
  | _ => True

/-- The index is a slice. -/
def PyIndex.IsSlice : PyIndex → Prop
  | .slice _ _ _ => True
  | _ => False

/-- The index is not a negative integer. -/
def PyIndex.NotNegative : PyIndex → Prop
  | .int i => 0 ≤ i
  | _ => True

end Slp.Py
