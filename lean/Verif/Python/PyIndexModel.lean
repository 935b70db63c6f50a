import Verif.Matrix.MatModel

/-!
Model of the indexing functions of the Python bindings, `python/cpp/autodiff/bind_variable_matrix.cpp` and
`python/cpp/autodiff/bind_variable_block.cpp`.
-/

namespace Slp.Py

open Slp.Slicing Slp.VMat

/-- How a call from Python ends: with a value, with a Python exception, or with a failed `slp_assert` or an
access outside a container (how a call ends, with the exceptions of `bind_variable_matrix.cpp:94-97,156-157,186`). -/
inductive Out (α : Type) where
  | ok (a : α)
  | raised
  | bad
  deriving DecidableEq

variable {α β : Type}

/-- One call after the other (modelling only): `bind_variable_matrix.cpp:91-234`. -/
def Out.bind (x : Out α) (f : α → Out β) : Out β :=
  match x with
  | .ok a => f a
  | .raised => .raised
  | .bad => .bad

/-- A C++ call whose failed assertions are `none` (modelling only: the assertions of the C++ code called in
`bind_variable_matrix.cpp:91-234`). -/
def Out.ofCpp : Option α → Out α
  | some a => .ok a
  | none => .bad

/-- An object between the brackets: an integer of any size, a slice, or something else
(`bind_variable_matrix.cpp:93,105,120`). -/
inductive PyIndex where
  | int (i : ℤ)
  | slice (start stop step : Option ℤ)
  | other

/-- `PY_SSIZE_T_MAX` (Python's own code behind `compute()`, called at `bind_variable_matrix.cpp:107,122,206,218`). -/
def ssizeMax : ℤ := 9223372036854775807

/-- `_PyEval_SliceIndex` of CPython: integers that do not fit are clipped (Python's own code behind `compute()`,
called at `bind_variable_matrix.cpp:107,122,206,218`). -/
def clip (z : ℤ) : ℤ := max (-ssizeMax - 1) (min z ssizeMax)

/-- `PySlice_Unpack` of CPython; `none` is the exception for a zero step (Python's own code behind `compute()`,
called at `bind_variable_matrix.cpp:107,122,206,218`). -/
def unpack (start stop step : Option ℤ) : Option (ℤ × ℤ × ℤ) :=
  let s := step.elim 1 clip
  if s = 0 then none
  else
    let s := if s < -ssizeMax then -ssizeMax else s
    some (start.elim (if s < 0 then ssizeMax else 0) clip,
      stop.elim (if s < 0 then -ssizeMax - 1 else ssizeMax) clip, s)

/-- One bound in `PySlice_AdjustIndices` of CPython (Python's own code behind `compute()`, called at
`bind_variable_matrix.cpp:107,122,206,218`). -/
def adjustBound (x n s : ℤ) : ℤ :=
  if x < 0 then if x + n < 0 then (if s < 0 then -1 else 0) else x + n
  else if x ≥ n then (if s < 0 then n - 1 else n) else x

/-- The number of elements that `PySlice_AdjustIndices` returns (Python's own code behind `compute()`, called at
`bind_variable_matrix.cpp:107,122,206,218`). -/
def adjustCount (a b s : ℤ) : ℤ :=
  if s < 0 then if b < a then (a - b - 1) / (-s) + 1 else 0
  else if a < b then (b - a - 1) / s + 1 else 0

/-- `nb::slice::compute(n)`: start, stop, step and length (Python's own code behind `compute()`, called at
`bind_variable_matrix.cpp:107,122,206,218`). -/
def compute (start stop step : Option ℤ) (n : ℤ) : Option (ℤ × ℤ × ℤ × ℤ) :=
  (unpack start stop step).map fun t =>
    (adjustBound t.1 n t.2.2, adjustBound t.2.1 n t.2.2, t.2.2,
      adjustCount (adjustBound t.1 n t.2.2) (adjustBound t.2.1 n t.2.2) t.2.2)

/-- Conversion of a 64 bit integer to `int` (modulo 2^32 since C++20). -/
def narrow (z : ℤ) : ℤ := (z + 2147483648) % 4294967296 - 2147483648

/-- `Slice{t.get<0>(), t.get<1>(), t.get<2>()}` with 64 bit arguments (`slice.hpp:71-111`): the assertion looks
at the 64 bit step. -/
def sliceOf64 (a b s : ℤ) : Option Slice :=
  if s ≠ 0 then
    some ⟨narrow a, narrow b, if narrow s = intMin then -intMax else narrow s⟩
  else none

/-- `nb::cast<int>(elem)`; it throws if the integer does not fit
(`bind_variable_matrix.cpp:111,126,182-183,210,222`). -/
def castInt (i : ℤ) : Out ℤ := if intMin ≤ i ∧ i ≤ intMax then .ok i else .raised

/-- `Slice{start, start + 1}` with length 1 (`bind_variable_matrix.cpp:115-116,130-131,211-212,226-227`). -/
def single (start : ℤ) : Out (Slice × ℤ) :=
  Out.ofCpp ((ck (start + 1)).bind fun stop => (Slice.mk2 (some start) (some stop)).map fun s => (s, 1))

/-- `if (start < 0) { start += n; }` (`bind_variable_matrix.cpp:112-114,127-129,189-194,223-225`). -/
def wrap (n i : ℤ) : ℤ := if i < 0 then i + n else i

/-- The slice and the length computed from one index of a dimension of size `n`
(`bind_variable_matrix.cpp:104-132` for `__setitem__`, `:215-228` for the columns of `__getitem__`;
`bind_variable_block.cpp:83-111, 184-212` for both dimensions of a block). -/
def elemSlice (n : ℤ) : PyIndex → Out (Slice × ℤ)
  | .slice a b s =>
      match compute a b s n with
      | none => .raised
      | some t => Out.ofCpp ((sliceOf64 t.1 t.2.1 t.2.2.1).map fun sl => (sl, narrow t.2.2.2))
  | .int i => (castInt i).bind fun i => single (wrap n i)
  | .other => .raised

/-- The rows of `VariableMatrix.__getitem__` (`bind_variable_matrix.cpp:203-213`): the code of `elemSlice`
without the statement that makes negative integers count from the end. -/
def elemSliceRowGet (n : ℤ) : PyIndex → Out (Slice × ℤ)
  | .slice a b s => elemSlice n (.slice a b s)
  | .int i => (castInt i).bind fun i => single i
  | .other => .raised

/-- `VariableMatrix::operator[](Slice, int, Slice, int)` (`variable_matrix.hpp:414-420`): the slices are taken as
they are. -/
def rawBlock (r c : Slice × ℤ) : Block := ⟨r.1, r.2, c.1, c.2⟩

/-- `VariableBlock::operator[](Slice, int, Slice, int)` (`variable_block.hpp:332-344`). -/
def rawSub (b : Block) (r c : Slice × ℤ) : Option Block := do
  let rs ← composeSlice b.rowSlice r.1
  let cs ← composeSlice b.colSlice c.1
  some ⟨rs, r.2, cs, c.2⟩

/-- What `__getitem__` returns (`bind_variable_matrix.cpp:173,195,230-231`). -/
inductive Item (α : Type) where
  | var (v : α)
  | block (b : Block)
  deriving DecidableEq

/-- Both integers fit an `int` (`nb::isinstance<int>`): the element, after a check against the number of rows and
columns (`bind_variable_matrix.cpp:179-196`, `bind_variable_block.cpp:160-177`). -/
def getElem2 (rows cols : ℤ) (get : ℤ → ℤ → Option α) (i j : ℤ) : Out (Item α) :=
  if i ≥ rows ∨ j ≥ cols then .raised
  else (Out.ofCpp (get (wrap rows i) (wrap cols j))).bind fun v => .ok (.var v)

/-- Both indices are integers that fit an `int` (`bind_variable_matrix.cpp:181-183`). -/
def bothInts : PyIndex → PyIndex → Option (ℤ × ℤ)
  | .int i, .int j =>
      if (intMin ≤ i ∧ i ≤ intMax) ∧ (intMin ≤ j ∧ j ≤ intMax) then some (i, j) else none
  | _, _ => none

/-- `VariableMatrix.__getitem__(slices)` (`bind_variable_matrix.cpp:171-234`). -/
def matGetItem (A : Mat α) : List PyIndex → Out (Item α)
  | [e, f] =>
      match bothInts e f with
      | some p => getElem2 A.rows A.cols A.get p.1 p.2
      | none => (elemSliceRowGet A.rows e).bind fun r => (elemSlice A.cols f).bind fun c =>
          .ok (.block (rawBlock r c))
  | _ => .raised

/-- `VariableBlock.__getitem__(slices)` (`bind_variable_block.cpp:151-218`). -/
def blockGetItem (b : Block) (A : Mat α) : List PyIndex → Out (Item α)
  | [e, f] =>
      match bothInts e f with
      | some p => getElem2 b.rows b.cols (b.get A) p.1 p.2
      | none => (elemSlice b.rows e).bind fun r => (elemSlice b.cols f).bind fun c =>
          (Out.ofCpp (rawSub b r c)).bind fun b' => .ok (.block b')
  | _ => .raised

/-- `VariableMatrix.__getitem__(row)` (`bind_variable_matrix.cpp:161-170`). -/
def matGetIndex (A : Mat α) (i : ℤ) : Out α :=
  (castInt i).bind fun i => Out.ofCpp (A.getIndex (wrap (A.rows * A.cols : ℕ) i))

/-- `VariableBlock.__getitem__(row)` (`bind_variable_block.cpp:140-150`). -/
def blockGetIndex (b : Block) (A : Mat α) (i : ℤ) : Out α :=
  (castInt i).bind fun i => Out.ofCpp (b.getIndex A (wrap (b.rows * b.cols) i))

/-- Assignment to `A[index]` (`variable_matrix.hpp:331-334`). -/
def setIndex (A : Mat α) (index : ℤ) (v : α) : Option (Mat α) :=
  if 0 ≤ index ∧ index < A.rows * A.cols then some { A with storage := A.storage.set index.toNat v } else none

/-- `VariableMatrix.__setitem__(row, value)` (`bind_variable_matrix.cpp:82-90`). -/
def matSetIndex (A : Mat α) (i : ℤ) (v : α) : Out (Mat α) :=
  (castInt i).bind fun i => Out.ofCpp (setIndex A (wrap (A.rows * A.cols : ℕ) i) v)

/-- `VariableBlock.__setitem__(row, value)` (`bind_variable_block.cpp:59-68`, `variable_block.hpp:249-254`). -/
def blockSetIndex (b : Block) (A : Mat α) (i : ℤ) (v : α) : Out (Mat α) :=
  (castInt i).bind fun i =>
    let index := wrap (b.rows * b.cols) i
    if 0 ≤ index ∧ index < b.rows * b.cols then
      Out.ofCpp (b.set A (index.tdiv b.cols) (index.tmod b.cols) v)
    else .bad

/-- The value on the right of `A[...] = value`: a `VariableMatrix` or a NumPy array, a number or a `Variable`, or an
object of another type (`bind_variable_matrix.cpp:136-158`). -/
inductive Value (α : Type) where
  | matrix (v : View α)
  | scalar (v : α)
  | other

/-- The assignment `lhs = rhs.value()` (`bind_variable_matrix.cpp:134-158`, `bind_variable_block.cpp:113-137`) with
the assignment operators of `variable_block.hpp:138-217`. -/
def assignValue (b : Block) (A : Mat α) : Value α → Out (Mat α)
  | .matrix v => Out.ofCpp (b.assign A v)
  | .scalar v => if b.rows = 1 ∧ b.cols = 1 then Out.ofCpp (b.set A 0 0 v) else .bad
  | .other => .raised

/-- `VariableMatrix.__setitem__(slices, value)` (`bind_variable_matrix.cpp:91-160`). -/
def matSetItem (A : Mat α) (ix : List PyIndex) (v : Value α) : Out (Mat α) :=
  match ix with
  | [e, f] => (elemSlice A.rows e).bind fun r => (elemSlice A.cols f).bind fun c => assignValue (rawBlock r c) A v
  | _ => .raised

/-- `VariableBlock.__setitem__(slices, value)` (`bind_variable_block.cpp:69-139`). -/
def blockSetItem (b : Block) (A : Mat α) (ix : List PyIndex) (v : Value α) : Out (Mat α) :=
  match ix with
  | [e, f] => (elemSlice b.rows e).bind fun r => (elemSlice b.cols f).bind fun c =>
      (Out.ofCpp (rawSub b r c)).bind fun b' => assignValue b' A v
  | _ => .raised

/-- A chain `A[e, f][e', f']...` that returns a block (`bind_variable_matrix.cpp:171-234`,
`bind_variable_block.cpp:151-218`). -/
def subscripts (A : Mat α) (first : PyIndex × PyIndex) (rest : List (PyIndex × PyIndex)) : Out (Item α) :=
  rest.foldl (fun o e => o.bind fun
    | .block b => blockGetItem b A [e.1, e.2]
    | .var _ => .raised) (matGetItem A [first.1, first.2])

end Slp.Py
