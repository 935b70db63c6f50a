import Verif.Matrix.SliceModel

/-!
Model of `autodiff/variable_matrix.hpp` and `autodiff/variable_block.hpp`.

The element type `α` stands for `Variable`: a handle to an immutable expression. Copying or assigning an
element copies the handle. The operations of `Variable` are the operations of `α`; the connection with
the expressions of `Verif/Autodiff` is made where theorems are stated (`Term`).
A failed `slp_assert` and `int` overflow in slice arithmetic are `none`. Sizes are natural numbers;
`rows * cols` is assumed to fit an `int`.
-/

namespace Slp.VMat

open Slp.Slicing

/-- `VariableMatrix`: `m_rows`, `m_cols` and the row-major `m_storage`
(`variable_matrix.hpp:1358-1361`). -/
structure Mat (α : Type) where
  rows : ℕ
  cols : ℕ
  storage : List α
  deriving DecidableEq

/-- What matrix functions use of a `MatrixLike` argument (`util/concepts.hpp:17-21`): `rows()`, `cols()` and
`operator[](row, col)`. -/
structure View (α : Type) where
  rows : ℕ
  cols : ℕ
  get : ℤ → ℤ → Option α

variable {α : Type}

/-- `VariableMatrix::operator[](row, col)` (`variable_matrix.hpp:310-325`). -/
def Mat.get (A : Mat α) (row col : ℤ) : Option α :=
  if 0 ≤ row ∧ row < A.rows ∧ 0 ≤ col ∧ col < A.cols then
    A.storage[(row * A.cols + col).toNat]?
  else none

/-- Assignment to `A[row, col]` (`variable_matrix.hpp:310-325`). -/
def Mat.set (A : Mat α) (row col : ℤ) (v : α) : Option (Mat α) :=
  if 0 ≤ row ∧ row < A.rows ∧ 0 ≤ col ∧ col < A.cols then
    some { A with storage := A.storage.set (row * A.cols + col).toNat v }
  else none

/-- `VariableMatrix::operator[](index)` (`variable_matrix.hpp:331-343`). -/
def Mat.getIndex (A : Mat α) (index : ℤ) : Option α :=
  if 0 ≤ index ∧ index < A.rows * A.cols then A.storage[index.toNat]? else none

/-- The elements of a matrix by position: `variable_matrix.hpp:310-325`. -/
def Mat.view (A : Mat α) : View α := ⟨A.rows, A.cols, A.get⟩

/-- Index pairs in the order of the loops
`for (int row = 0; row < rows; ++row) for (int col = 0; col < cols; ++col)` (the loops over rows and columns, such
as `variable_matrix.hpp:209-240,578-600`). -/
def pairs (rows cols : ℕ) : List (ℕ × ℕ) :=
  (List.range rows).flatMap fun i => (List.range cols).map fun j => (i, j)

/-- A new matrix filled by such a loop nest with `result[row, col] = f(row, col)` (the loops over rows and columns,
such as `variable_matrix.hpp:209-240,578-600`). -/
def Mat.ofFnM (rows cols : ℕ) (f : ℕ → ℕ → Option α) : Option (Mat α) :=
  ((pairs rows cols).mapM fun p => f p.1 p.2).map fun s => ⟨rows, cols, s⟩

/-! ### Blocks -/

/-- `VariableBlock` without its pointer to the matrix (`variable_block.hpp:805-811`); the functions below
take the matrix as an argument. -/
structure Block where
  rowSlice : Slice
  rows : ℤ
  colSlice : Slice
  cols : ℤ
  deriving DecidableEq

/-- The position in the matrix of element `(row, col)` of the block (`variable_block.hpp:224-243`). -/
def Block.index (b : Block) (row col : ℤ) : Option (ℤ × ℤ) :=
  if 0 ≤ row ∧ row < b.rows ∧ 0 ≤ col ∧ col < b.cols then do
    let r1 ← ck (row * b.rowSlice.step)
    let r ← ck (b.rowSlice.start + r1)
    let c1 ← ck (col * b.colSlice.step)
    let c ← ck (b.colSlice.start + c1)
    some (r, c)
  else none

/-- `VariableBlock::operator[](row, col)` for reading (`variable_block.hpp:224-243`). -/
def Block.get (b : Block) (A : Mat α) (row col : ℤ) : Option α := do
  let p ← b.index row col
  A.get p.1 p.2

/-- Assignment to `block[row, col]` (`variable_block.hpp:224-243`). -/
def Block.set (b : Block) (A : Mat α) (row col : ℤ) (v : α) : Option (Mat α) := do
  let p ← b.index row col
  A.set p.1 p.2 v

/-- `VariableBlock::operator[](index)` (`variable_block.hpp:249-263`). -/
def Block.getIndex (b : Block) (A : Mat α) (index : ℤ) : Option α :=
  if 0 ≤ index ∧ index < b.rows * b.cols then b.get A (index.tdiv b.cols) (index.tmod b.cols) else none

/-- The elements of a block by position: `variable_block.hpp:224-243`. -/
def Block.view (b : Block) (A : Mat α) : View α := ⟨b.rows.toNat, b.cols.toNat, b.get A⟩

/-- `VariableMatrix::operator[](Slice, Slice)` (`variable_matrix.hpp:384-402`), for a matrix of the given
size. -/
def Block.ofSlices (rows cols : ℕ) (rs cs : Slice) : Option Block := do
  let r ← rs.adjust rows
  let c ← cs.adjust cols
  some ⟨r.2, r.1, c.2, c.1⟩

/-- Composition of an adjusted slice with the slice of a block (`variable_block.hpp:334-344`). The result
is built with the constructor `Slice(int, int, int)`. -/
def composeSlice (outer inner : Slice) : Option Slice := do
  let a ← ck (inner.start * outer.step)
  let start ← ck (outer.start + a)
  let b ← ck (inner.stop * outer.step)
  let stop ← ck (outer.start + b)
  let step ← ck (inner.step * outer.step)
  Slice.mk3 (some start) (some stop) (some step)

/-- `VariableBlock::operator[](Slice, Slice)` (`variable_block.hpp:304-320` and `332-370`). -/
def Block.slices (b : Block) (rs cs : Slice) : Option Block := do
  let r ← rs.adjust b.rows
  let c ← cs.adjust b.cols
  let rs' ← composeSlice b.rowSlice r.2
  let cs' ← composeSlice b.colSlice c.2
  some ⟨rs', r.1, cs', c.1⟩

/-- `VariableMatrix::block(row_offset, col_offset, block_rows, block_cols)`
(`variable_matrix.hpp:352-377`, `variable_block.hpp:107-113`). -/
def Block.ofBlock (rows cols : ℕ) (ro co br bc : ℤ) : Option Block :=
  if 0 ≤ ro ∧ ro ≤ rows ∧ 0 ≤ co ∧ co ≤ cols ∧ 0 ≤ br ∧ br ≤ rows - ro ∧ 0 ≤ bc ∧ bc ≤ cols - co then do
    let re ← ck (ro + br)
    let ce ← ck (co + bc)
    let rs ← Slice.mk3 (some ro) (some re) (some 1)
    let cs ← Slice.mk3 (some co) (some ce) (some 1)
    Block.ofSlices rows cols rs cs
  else none

/-- `VariableBlock::block(...)` (`variable_block.hpp:272-297`). -/
def Block.block (b : Block) (ro co br bc : ℤ) : Option Block :=
  if 0 ≤ ro ∧ ro ≤ b.rows ∧ 0 ≤ co ∧ co ≤ b.cols ∧ 0 ≤ br ∧ br ≤ b.rows - ro ∧ 0 ≤ bc ∧
      bc ≤ b.cols - co then do
    let re ← ck (ro + br)
    let ce ← ck (co + bc)
    let rs ← Slice.mk3 (some ro) (some re) (some 1)
    let cs ← Slice.mk3 (some co) (some ce) (some 1)
    b.slices rs cs
  else none

/-- `row(i)` (`variable_matrix.hpp:468-480`). -/
def Block.ofRow (rows cols : ℕ) (i : ℤ) : Option Block :=
  if 0 ≤ i ∧ i < rows then Block.ofBlock rows cols i 0 1 cols else none

/-- `col(j)` (`variable_matrix.hpp:486-498`). -/
def Block.ofCol (rows cols : ℕ) (j : ℤ) : Option Block :=
  if 0 ≤ j ∧ j < cols then Block.ofBlock rows cols 0 j rows 1 else none

/-- `segment(offset, length)` (`variable_matrix.hpp:444-462`). -/
def Block.ofSegment (rows cols : ℕ) (offset length : ℤ) : Option Block :=
  if cols = 1 ∧ 0 ≤ offset ∧ offset < rows ∧ 0 ≤ length ∧ length ≤ rows - offset then
    Block.ofBlock rows cols offset 0 length 1
  else none

/-- A loop nest over the block that assigns `block[row, col] = f(row, col)`, where `f` may read the
matrix as it is at that moment (`variable_block.hpp:456-527`). -/
def Block.update (b : Block) (f : Mat α → ℕ → ℕ → Option α) (A : Mat α) : Option (Mat α) :=
  (pairs b.rows.toNat b.cols.toNat).foldlM (fun A p => do
    let v ← f A p.1 p.2
    b.set A p.1 p.2 v) A

/-- `block = values` for a matrix or Eigen matrix (`variable_block.hpp:157-216`); also for a block of
another matrix. -/
def Block.assign (b : Block) (A : Mat α) (values : View α) : Option (Mat α) :=
  if b.rows.toNat = values.rows ∧ b.cols.toNat = values.cols then
    b.update (fun _ i j => values.get i j) A
  else none

/-- `block = other_block` where both point into the same matrix (`variable_block.hpp:38-92`). -/
def Block.assignSame (b b' : Block) (A : Mat α) : Option (Mat α) :=
  if b.rows.toNat = b'.rows.toNat ∧ b.cols.toNat = b'.cols.toNat then
    b.update (fun A i j => b'.get A i j) A
  else none

/-- `block op= values` elementwise (`+=`, `-=`: `variable_block.hpp:485-527`). -/
def Block.compound (b : Block) (op : α → α → α) (A : Mat α) (values : View α) : Option (Mat α) :=
  if b.rows.toNat = values.rows ∧ b.cols.toNat = values.cols then
    b.update (fun A i j => do
      let x ← b.get A i j
      let y ← values.get i j
      some (op x y)) A
  else none

/-- `block op= scalar` (`*=`, `/=`: `variable_block.hpp:456-479`). -/
def Block.compoundScalar (b : Block) (op : α → α → α) (A : Mat α) (c : α) : Option (Mat α) :=
  b.update (fun A i j => do
    let x ← b.get A i j
    some (op x c)) A

/-- The block that covers a whole matrix (`variable_block.hpp:94-98`). -/
def Block.whole (rows cols : ℕ) : Option Block := Block.ofBlock rows cols 0 0 rows cols

/-! ### Arithmetic -/

/-- The inner loop of matrix multiplication: `sum = 0; sum += lhs[i, k] * rhs[k, j]`
(`variable_matrix.hpp:512-515`). -/
def dotRow [Zero α] [Add α] [Mul α] (n : ℕ) (l r : ℕ → Option α) : Option α :=
  (List.range n).foldlM (fun sum k => do
    let x ← l k
    let y ← r k
    some (sum + x * y)) 0

/-- `lhs * rhs` for matrices (`variable_matrix.hpp:504-585`). -/
def mul [Zero α] [Add α] [Mul α] (A B : View α) : Option (Mat α) :=
  if A.cols = B.rows then
    Mat.ofFnM A.rows B.cols fun i j => dotRow A.cols (fun k => A.get i k) (fun k => B.get k j)
  else none

/-- A loop nest that applies an operation to each element: `-A`, `A * c`, `A / c`, `cwise_transform`
(`variable_matrix.hpp:591-637, 679-728, 932-943, 1027-1039`). -/
def map (op : α → α) (A : View α) : Option (Mat α) :=
  Mat.ofFnM A.rows A.cols fun i j => (A.get i j).map op

/-- Elementwise binary operations: `+`, `-`, `cwise_reduce`
(`variable_matrix.hpp:750-802, 842-894, 1378-1395`). -/
def zip (op : α → α → α) (A B : View α) : Option (Mat α) :=
  if A.rows = B.rows ∧ A.cols = B.cols then
    Mat.ofFnM A.rows A.cols fun i j => do
      let x ← A.get i j
      let y ← B.get i j
      some (op x y)
  else none

/-- `T()` (`variable_matrix.hpp:955-965`): `result[col, row] = (*this)[row, col]`. -/
def transpose (A : View α) : Option (Mat α) :=
  Mat.ofFnM A.cols A.rows fun i j => A.get j i

/-- `A *= B` for matrices (`variable_matrix.hpp:643-658`); `rhs` reads the right-hand side, which may be
`A` itself, at that moment. -/
def mulAssign [Zero α] [Add α] [Mul α] (A : Mat α) (rrows rcols : ℕ)
    (rhs : Mat α → ℤ → ℤ → Option α) : Option (Mat α) :=
  if A.cols = rrows ∧ A.cols = rcols then
    (List.range A.rows).foldlM (fun (A : Mat α) (i : ℕ) => do
      -- `VariableMatrix lhs_old_row = row(i);`
      let old ← (List.range A.cols).mapM fun (k : ℕ) => A.get i k
      (List.range rcols).foldlM (fun (A : Mat α) (j : ℕ) => do
        let sum ← dotRow A.cols (fun k => old[k]?) (fun k => rhs A k j)
        A.set i j sum) A) A
  else none

/-! ### `block()` and `solve()` -/

/-- The sizes computed by `block()` (`variable_matrix.hpp:1409-1432`): total rows, and columns starting
from -1. `none`: an assertion failed. -/
def blockSize (list : List (List (Mat α))) : Option (ℤ × ℤ) :=
  list.foldlM (fun st row => do
    let rows := st.1 + (row.head?.elim 0 fun m => (m.rows : ℤ))
    let latest ← row.foldlM (fun acc elem =>
      if row.head?.map Mat.rows = some elem.rows then some (acc + (elem.cols : ℤ)) else none) (0 : ℤ)
    if st.2 = -1 then some (rows, latest)
    else if st.2 = latest then some (rows, st.2) else none) (0, -1)

/-- `block(list)` (`variable_matrix.hpp:1406-1450`). The new matrix first holds null Variables, here
`none`. -/
def block (list : List (List (Mat α))) : Option (Mat (Option α)) := do
  let size ← blockSize list
  let result : Mat (Option α) :=
    ⟨size.1.toNat, size.2.toNat, List.replicate (size.1 * size.2).toNat none⟩
  let st ← list.foldlM (fun (st : Mat (Option α) × ℤ) row => do
    let st' ← row.foldlM (fun (st : Mat (Option α) × ℤ × ℤ) elem => do
      let b ← Block.ofBlock st.1.rows st.1.cols st.2.1 st.2.2 elem.rows elem.cols
      let m ← b.assign st.1 ⟨elem.rows, elem.cols, fun i j => (elem.get i j).map some⟩
      some (m, st.2.1, st.2.2 + elem.cols)) (st.1, st.2, 0)
    some (st'.1, st.2 + (row.head?.elim 0 fun m => (m.rows : ℤ)))) (result, 0)
  some st.1

/-- A matrix from a nested list (`variable_matrix.hpp:77-95`). -/
def Mat.ofLists (l : List (List α)) : Option (Mat α) :=
  let cols := (l.head?.map List.length).getD 0
  if ∀ row ∈ l, row.length = cols then some ⟨l.length, cols, l.flatten⟩ else none

section Solve

variable [Zero α] [Add α] [Sub α] [Mul α] [Div α] [Neg α]

/-- `adj_A / det_A * B` (`variable_matrix.hpp:1535-1537,1583-1587,1731-1736`). -/
def adjSolve (adj : List (List α)) (det : α) (B : Mat α) : Option (Mat α) := do
  let adjA ← Mat.ofLists adj
  let q ← map (· / det) adjA.view
  mul q.view B.view

/-- `solve(A, B)` for 1x1 matrices (`variable_matrix.hpp:1521-1523`): a 1x1 matrix made of
`B[0, 0] / A[0, 0]`. -/
def solve1 (A B : Mat α) : Option (Mat α) := do
  let x ← B.get 0 0
  let a ← A.get 0 0
  some ⟨1, 1, [x / a]⟩

/-- `solve(A, B)` for 2x2 matrices (`variable_matrix.hpp:1524-1537`). -/
def solve2 (A B : Mat α) : Option (Mat α) := do
  let a ← A.get 0 0
  let b ← A.get 0 1
  let c ← A.get 1 0
  let d ← A.get 1 1
  adjSolve [[d, -b], [-c, a]] (a * d - b * c) B

/-- `solve(A, B)` for 3x3 matrices (`variable_matrix.hpp:1538-1587`). -/
def solve3 (A B : Mat α) : Option (Mat α) := do
  let a ← A.get 0 0
  let b ← A.get 0 1
  let c ← A.get 0 2
  let d ← A.get 1 0
  let e ← A.get 1 1
  let f ← A.get 1 2
  let g ← A.get 2 0
  let h ← A.get 2 1
  let i ← A.get 2 2
  let ae := a * e
  let af := a * f
  let ah := a * h
  let ai := a * i
  let bd := b * d
  let bf := b * f
  let bg := b * g
  let bi := b * i
  let cd := c * d
  let ce := c * e
  let cg := c * g
  let ch := c * h
  let dh := d * h
  let di := d * i
  let eg := e * g
  let ei := e * i
  let fg := f * g
  let fh := f * h
  let adj00 := ei - fh
  let adj10 := fg - di
  let adj20 := dh - eg
  adjSolve [[adj00, ch - bi, bf - ce], [adj10, ai - cg, cd - af], [adj20, bg - ah, ae - bd]]
    (a * adj00 + b * adj10 + c * adj20) B

/-- `solve(A, B)` for 4x4 matrices (`variable_matrix.hpp:1588-1736`). The product `bjp`, which is
computed but not used, is left out. -/
def solve4 (A B : Mat α) : Option (Mat α) := do
  let a ← A.get 0 0
  let b ← A.get 0 1
  let c ← A.get 0 2
  let d ← A.get 0 3
  let e ← A.get 1 0
  let f ← A.get 1 1
  let g ← A.get 1 2
  let h ← A.get 1 3
  let i ← A.get 2 0
  let j ← A.get 2 1
  let k ← A.get 2 2
  let l ← A.get 2 3
  let m ← A.get 3 0
  let n ← A.get 3 1
  let o ← A.get 3 2
  let p ← A.get 3 3
  let afk := a * f * k
  let afl := a * f * l
  let afo := a * f * o
  let afp := a * f * p
  let agj := a * g * j
  let agl := a * g * l
  let agn := a * g * n
  let agp := a * g * p
  let ahj := a * h * j
  let ahk := a * h * k
  let ahn := a * h * n
  let aho := a * h * o
  let ajo := a * j * o
  let ajp := a * j * p
  let akn := a * k * n
  let akp := a * k * p
  let aln := a * l * n
  let alo := a * l * o
  let bek := b * e * k
  let bel := b * e * l
  let beo := b * e * o
  let bep := b * e * p
  let bgi := b * g * i
  let bgl := b * g * l
  let bgm := b * g * m
  let bgp := b * g * p
  let bhi := b * h * i
  let bhk := b * h * k
  let bhm := b * h * m
  let bho := b * h * o
  let bio := b * i * o
  let bip := b * i * p
  let bkm := b * k * m
  let bkp := b * k * p
  let blm := b * l * m
  let blo := b * l * o
  let cej := c * e * j
  let cel := c * e * l
  let cen := c * e * n
  let cep := c * e * p
  let cfi := c * f * i
  let cfl := c * f * l
  let cfm := c * f * m
  let cfp := c * f * p
  let chi := c * h * i
  let chj := c * h * j
  let chm := c * h * m
  let chn := c * h * n
  let cin := c * i * n
  let cip := c * i * p
  let cjm := c * j * m
  let cjp := c * j * p
  let clm := c * l * m
  let cln := c * l * n
  let dej := d * e * j
  let dek := d * e * k
  let den := d * e * n
  let deo := d * e * o
  let dfi := d * f * i
  let dfk := d * f * k
  let dfm := d * f * m
  let dfo := d * f * o
  let dgi := d * g * i
  let dgj := d * g * j
  let dgm := d * g * m
  let dgn := d * g * n
  let din := d * i * n
  let dio := d * i * o
  let djm := d * j * m
  let djo := d * j * o
  let dkm := d * k * m
  let dkn := d * k * n
  let ejo := e * j * o
  let ejp := e * j * p
  let ekn := e * k * n
  let ekp := e * k * p
  let eln := e * l * n
  let elo := e * l * o
  let fio := f * i * o
  let fip := f * i * p
  let fkm := f * k * m
  let fkp := f * k * p
  let flm := f * l * m
  let flo := f * l * o
  let gin := g * i * n
  let gip := g * i * p
  let gjm := g * j * m
  let gjp := g * j * p
  let glm := g * l * m
  let gln := g * l * n
  let hin := h * i * n
  let hio := h * i * o
  let hjm := h * j * m
  let hjo := h * j * o
  let hkm := h * k * m
  let hkn := h * k * n
  let adj00 := fkp - flo - gjp + gln + hjo - hkn
  let adj01 := -bkp + blo + cjp - cln - djo + dkn
  let adj02 := bgp - bho - cfp + chn + dfo - dgn
  let adj03 := -bgl + bhk + cfl - chj - dfk + dgj
  let adj10 := -ekp + elo + gip - glm - hio + hkm
  let adj11 := akp - alo - cip + clm + dio - dkm
  let adj12 := -agp + aho + cep - chm - deo + dgm
  let adj13 := agl - ahk - cel + chi + dek - dgi
  let adj20 := ejp - eln - fip + flm + hin - hjm
  let adj21 := -ajp + aln + bip - blm - din + djm
  let adj22 := afp - ahn - bep + bhm + den - dfm
  let adj23 := -afl + ahj + bel - bhi - dej + dfi
  let adj30 := -ejo + ekn + fio - fkm - gin + gjm
  let adj31 := ajo - akn - bio + bkm + cin - cjm
  let adj32 := -afo + agn + beo - bgm - cen + cfm
  let adj33 := afk - agj - bek + bgi + cej - cfi
  adjSolve [[adj00, adj01, adj02, adj03], [adj10, adj11, adj12, adj13], [adj20, adj21, adj22, adj23],
    [adj30, adj31, adj32, adj33]] (a * adj00 + b * adj10 + c * adj20 + d * adj30) B

/-- `solve(A, B)` (`variable_matrix.hpp:1515-1741`). `qr` is the general branch, Eigen's Householder QR,
see `QrModel`. -/
def solve (qr : Mat α → Mat α → Option (Mat α)) (A B : Mat α) : Option (Mat α) :=
  if A.rows = B.rows then
    if A.rows = 1 ∧ A.cols = 1 then solve1 A B
    else if A.rows = 2 ∧ A.cols = 2 then solve2 A B
    else if A.rows = 3 ∧ A.cols = 3 then solve3 A B
    else if A.rows = 4 ∧ A.cols = 4 then solve4 A B
    else qr A B
  else none

end Solve

end Slp.VMat
