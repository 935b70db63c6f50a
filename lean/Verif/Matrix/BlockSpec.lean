import Verif.Matrix.SliceSpec
import Verif.Matrix.BlockModel

/-!
What chains of view-taking calls select: lists `R` and `C` of row and column numbers of the parent
matrix.
-/

namespace Slp.VMat

open Slp.Slicing

/-- The indices one slice argument selects in a sequence of length `n`. -/
def SliceArg.Selects (n : ℕ) : SliceArg → List ℤ → Prop
  | .all, l => l = (List.range n).map fun k : ℕ => (k : ℤ)
  | .index i, l =>
      l = if 0 ≤ i ∧ i < n then [i] else if -(n : ℤ) ≤ i ∧ i < 0 then [n + i] else []
  | .range a b s, l => PySelects a b s n l

/-- The step of a slice argument. -/
def SliceArg.step : SliceArg → ℤ
  | .all => 1
  | .index _ => 1
  | .range _ _ s => s.getD 1

/-- Arguments are `int`s, the step is not zero and the index is not the largest `int`. -/
def SliceArg.Valid : SliceArg → Prop
  | .all => True
  | .index i => intMin ≤ i ∧ i < intMax
  | .range a b s => (∀ z, a = some z → intMin ≤ z ∧ z ≤ intMax) ∧
      (∀ z, b = some z → intMin ≤ z ∧ z ≤ intMax) ∧ ∀ z, s = some z → (intMin ≤ z ∧ z ≤ intMax) ∧ z ≠ 0

/-- `R'` consists of the elements of `R` at the places `l`. -/
def Picks (R : List ℤ) (l R' : List ℤ) : Prop :=
  R'.length = l.length ∧ ∀ (k : ℕ) (x : ℤ), l[k]? = some x → 0 ≤ x ∧ R'[k]? = R[x.toNat]?

/-- What a call on a view of rows `R` and columns `C` selects. -/
inductive Access.Selects (R C : List ℤ) : Access → List ℤ → List ℤ → Prop where
  | slices {r c : SliceArg} {lr lc R' C'} : r.Valid → c.Valid → r.Selects R.length lr →
      c.Selects C.length lc → Picks R lr R' → Picks C lc C' → Access.Selects R C (.slices r c) R' C'
  | block {ro co br bc : ℕ} : ro + br ≤ R.length → co + bc ≤ C.length →
      Access.Selects R C (.block ro co br bc) ((R.drop ro).take br) ((C.drop co).take bc)
  | row {i : ℕ} {x} : R[i]? = some x → Access.Selects R C (.row i) [x] C
  | col {j : ℕ} {y} : C[j]? = some y → Access.Selects R C (.col j) R [y]
  | segment {o l : ℕ} : C.length = 1 → o < R.length → o + l ≤ R.length →
      Access.Selects R C (.segment o l) ((R.drop o).take l) C

/-- What a chain of calls selects. -/
inductive ChainSelects : List ℤ → List ℤ → List Access → List ℤ → List ℤ → Prop where
  | nil {R C} : ChainSelects R C [] R C
  | cons {R C a R' C' as R'' C''} : Access.Selects R C a R' C' → ChainSelects R' C' as R'' C'' →
      ChainSelects R C (a :: as) R'' C''

/-- The row and column steps of a call. -/
def Access.rowStep : Access → ℤ
  | .slices r _ => r.step
  | _ => 1

def Access.colStep : Access → ℤ
  | .slices _ c => c.step
  | _ => 1

/-- The positions `0, 1, ..., n - 1`. -/
def allOf (n : ℕ) : List ℤ := (List.range n).map fun k : ℕ => (k : ℤ)

end Slp.VMat
