import Verif.Matrix.MatModel

/-!
Chains of view-taking calls on a `VariableMatrix`, such as `A[{1, _, 2}, _].row(2).segment(...)`.
-/

namespace Slp.VMat

open Slp.Slicing

/-- The argument from which a `Slice` is implicitly constructed (`slice.hpp:41-111`): `_`, one index, or
start, stop and step. -/
inductive SliceArg where
  | all
  | index (i : ℤ)
  | range (start stop step : Option ℤ)

/-- The constructor of `Slice` that is called (`slice.hpp:41-111`). -/
def SliceArg.toSlice : SliceArg → Option Slice
  | .all => Slice.all
  | .index i => Slice.mk1 i
  | .range a b s => Slice.mk3 a b s

/-- A call that returns a view (`variable_matrix.hpp:352-498`, `variable_block.hpp:272-430`). -/
inductive Access where
  | slices (r c : SliceArg)
  | block (ro co br bc : ℤ)
  | row (i : ℤ)
  | col (j : ℤ)
  | segment (offset length : ℤ)

/-- The call on a matrix of the given size (`variable_matrix.hpp:352-498`). -/
def Access.onMatrix (rows cols : ℕ) : Access → Option Block
  | .slices r c => r.toSlice.bind fun r => c.toSlice.bind fun c => Block.ofSlices rows cols r c
  | .block ro co br bc => Block.ofBlock rows cols ro co br bc
  | .row i => Block.ofRow rows cols i
  | .col j => Block.ofCol rows cols j
  | .segment o l => Block.ofSegment rows cols o l

/-- The call on a view (`variable_block.hpp:272-430`). -/
def Access.onBlock (b : Block) : Access → Option Block
  | .slices r c => r.toSlice.bind fun r => c.toSlice.bind fun c => b.slices r c
  | .block ro co br bc => b.block ro co br bc
  | .row i => if 0 ≤ i ∧ i < b.rows then b.block i 0 1 b.cols else none
  | .col j => if 0 ≤ j ∧ j < b.cols then b.block 0 j b.rows 1 else none
  | .segment o l =>
      if b.cols = 1 ∧ 0 ≤ o ∧ o < b.rows ∧ 0 ≤ l ∧ l ≤ b.rows - o then b.block o 0 l 1 else none

/-- A chain of calls `A.first().a1().a2()...` (`variable_matrix.hpp:352-498`, `variable_block.hpp:272-430`). -/
def views (rows cols : ℕ) (first : Access) (rest : List Access) : Option Block :=
  (first.onMatrix rows cols).bind fun b => rest.foldlM Access.onBlock b

end Slp.VMat
