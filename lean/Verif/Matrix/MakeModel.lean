import Verif.Matrix.MatModel
import Mathlib.Data.Rat.Init
import Mathlib.Algebra.Order.Field.Rat

/-!
Model of the remaining constructors of `VariableMatrix`, of its compound assignments, iterators and of `exp()`
(`autodiff/variable_matrix.hpp`, `autodiff/variable_block.hpp`).
-/

namespace Slp.VMat

variable {α : Type}

/-! ### Constructors

Nested lists are `Mat.ofLists`. -/

/-- A matrix from an Eigen matrix, or a block (`variable_matrix.hpp:155-164, 206-229`). -/
def Mat.ofView (values : View α) : Option (Mat α) :=
  Mat.ofFnM values.rows values.cols fun i j => values.get i j

/-- A matrix from an Eigen diagonal matrix with the given diagonal; `zero` is the constant `Scalar(0)`
(`variable_matrix.hpp:171-184`). -/
def Mat.ofDiagonal (zero : α) (d : List α) : Option (Mat α) :=
  Mat.ofFnM d.length d.length fun i j => if i = j then d[i]? else some zero

/-- A matrix from a Variable (`variable_matrix.hpp:190-200`). -/
def Mat.ofVariable (v : α) : Mat α := ⟨1, 1, [v]⟩

/-- A matrix from an array (`variable_matrix.hpp:248-257`): `values[row * cols + col]`. -/
def Mat.ofArray (values : List α) (rows cols : ℕ) : Option (Mat α) :=
  if values.length = rows * cols then Mat.ofFnM rows cols fun i j => values[i * cols + j]? else none

/-- A column vector from an array (`variable_matrix.hpp:233-241`). -/
def Mat.ofSpan (values : List α) : Option (Mat α) :=
  Mat.ofFnM values.length 1 fun i j => values[i * 1 + j]?

/-- `zero(rows, cols)`, `one(rows, cols)`, `constant(rows, cols, c)` (`variable_matrix.hpp:1317-1356`): every element of
the storage is assigned. -/
def Mat.fill (rows cols : ℕ) (c : α) : Mat α := ⟨rows, cols, (List.replicate (rows * cols) ()).map fun _ => c⟩

/-- `identity(rows)` (`variable_matrix.hpp:1300-1310`). -/
def Mat.identity (zero one : α) (rows : ℕ) : Option (Mat α) :=
  Mat.ofFnM rows rows fun i j => some (if i = j then one else zero)

/-- The conversion of a matrix to a Variable (`variable_matrix.hpp:947-950`). -/
def Mat.toVariable (A : Mat α) : Option α := if A.rows = 1 ∧ A.cols = 1 then A.get 0 0 else none

/-- The conversion of a block to a Variable (`variable_block.hpp:547-550`). -/
def Block.toVariable (b : Block) (A : Mat α) : Option α := if b.rows = 1 ∧ b.cols = 1 then b.get A 0 0 else none

/-- Assignment of a scalar to a matrix (`variable_matrix.hpp:282-288`). -/
def Mat.assignScalar (A : Mat α) (v : α) : Option (Mat α) :=
  if A.rows = 1 ∧ A.cols = 1 then A.set 0 0 v else none

/-! ### Compound assignment -/

/-- A loop nest that assigns `(*this)[row, col] = f(row, col)`
(`variable_matrix.hpp:664-672,735-743,809-835,901-927`). -/
def Mat.update (f : Mat α → ℕ → ℕ → Option α) (A : Mat α) : Option (Mat α) :=
  (pairs A.rows A.cols).foldlM (fun (A : Mat α) p => do
    let v ← f A p.1 p.2
    A.set p.1 p.2 v) A

/-- `A op= values` (`+=`, `-=`: `variable_matrix.hpp:809-819, 901-911`). -/
def Mat.compound (op : α → α → α) (A : Mat α) (values : View α) : Option (Mat α) :=
  if A.rows = values.rows ∧ A.cols = values.cols then
    A.update fun A i j => do
      let x ← A.get i j
      let y ← values.get i j
      some (op x y)
  else none

/-- `A op= scalar` (`*=`, `/=`: `variable_matrix.hpp:664-672, 735-743`). -/
def Mat.compoundScalar (op : α → α → α) (A : Mat α) (c : α) : Option (Mat α) :=
  A.update fun A i j => do
    let x ← A.get i j
    some (op x c)

/-- `A += scalar`, `A -= scalar` (`variable_matrix.hpp:825-835, 917-927`). -/
def Mat.compoundOne (op : α → α → α) (A : Mat α) (c : α) : Option (Mat α) :=
  if A.rows = 1 ∧ A.cols = 1 then A.compoundScalar op c else none

/-- Assignment of an Eigen matrix (`variable_matrix.hpp:264-274`). -/
def Mat.assign (A : Mat α) (values : View α) : Option (Mat α) :=
  if A.rows = values.rows ∧ A.cols = values.cols then A.update fun _ i j => values.get i j else none

/-! ### Iterators

An iterator of a matrix is a position in `m_storage` (`variable_matrix.hpp:1130-1216`), one of a block an index into the
block (`variable_block.hpp:636-724`). Both are natural numbers here, since the loops below do not leave the range. -/

/-- What range-based loops use: the positions of `begin()` and `end()` and `operator*`
(`variable_matrix.hpp:1130-1251`, `variable_block.hpp:636-759`). -/
structure Range (α : Type) where
  first : ℕ
  last : ℕ
  deref : ℕ → Option α

/-- `begin()`, `end()` and dereferencing for a matrix (`variable_matrix.hpp:1168, 1212, 1226-1251`). -/
def Mat.range (A : Mat α) : Range α := ⟨0, A.storage.length, fun k => A.storage[k]?⟩

/-- The same for a block (`variable_block.hpp:673, 717-719, 734-759`): `(*m_mat)[m_index]`. -/
def Block.range (b : Block) (A : Mat α) : Range α := ⟨0, (b.rows * b.cols).toNat, fun k => b.getIndex A k⟩

/-- `for (it = begin(); it != end(); ++it)`: the elements met, `none` if dereferencing is undefined or the loop does
not end within `fuel` rounds (`variable_matrix.hpp:1130-1251`, `variable_block.hpp:636-759`). -/
def Range.forward (R : Range α) : ℕ → ℕ → Option (List α)
  | 0, it => if it = R.last then some [] else none
  | fuel + 1, it => if it = R.last then some [] else do
      let x ← R.deref it
      let l ← R.forward fuel (it + 1)
      some (x :: l)

/-- `for (it = rbegin(); it != rend(); ++it)`: a reverse iterator holds the position behind its element
(`variable_matrix.hpp:1256-1289`, `variable_block.hpp:764-797`). -/
def Range.backward (R : Range α) : ℕ → ℕ → Option (List α)
  | 0, it => if it = R.first then some [] else none
  | fuel + 1, it => if it = R.first then some [] else do
      let x ← R.deref (it - 1)
      let l ← R.backward fuel (it - 1)
      some (x :: l)

/-! ### The matrix exponential -/

/-- The coefficients `p` (`variable_matrix.hpp:1068-1081`), before they are rounded to the scalar type. -/
def padeP : List ℚ := [
  1.0,
  0.499999999999999999999987615564159,
  0.119999999999999999999993719796468,
  0.0183333333333333333333318078905823,
  0.00199275362318840579710121408775205,
  0.00016304347826086956521736560868541,
  1.03519668737060041407846479512981e-05,
  5.17598343685300207039205144279119e-07,
  2.04315135665250081725989398668247e-08,
  6.30602270571759511499920806570486e-10,
  1.48377004840414002705850442238441e-11,
  2.52915349159796595521307855480881e-13,
  2.81017054621996217245857568431558e-15,
  1.54404975067030888596595580141692e-17]

/-- The coefficients `q` (`variable_matrix.hpp:1082-1095`), before they are rounded to the scalar type. -/
def padeQ : List ℚ := [
  1.0,
  -0.500000000000000000000012384435841,
  0.120000000000000000000006104232309,
  -0.0183333333333333333333347707904729,
  0.00199275362318840579710166350137732,
  -0.000163043478260869565217413851346892,
  1.03519668737060041407885187519331e-05,
  -5.17598343685300207039443859549262e-07,
  2.04315135665250081726103781506842e-08,
  -6.30602270571759511500345035969254e-10,
  1.48377004840414002705969744674248e-11,
  -2.52915349159796595521550648156349e-13,
  2.81017054621996217246180850207342e-15,
  -1.54404975067030888596810607146175e-17]

/-- The transposed polynomials `Q` and `P` of `exp()` (`variable_matrix.hpp:1044-1119,1125`). `p` and `q` are the
coefficients as constants. -/
def Mat.expParts [Zero α] [Add α] [Mul α] (p q : List α) (A : Mat α) : Option (Mat α × Mat α) :=
  if A.rows = A.cols then
    match p, q with
    | p0 :: p, q0 :: q => do
      let P ← Mat.ofDiagonal 0 (List.replicate A.rows p0)
      let Q ← Mat.ofDiagonal 0 (List.replicate A.rows q0)
      let st ← (p.zip q).foldlM (fun (st : Mat α × Mat α × Mat α) c => do
        let pA ← map (· * c.1) st.2.2.view
        let P ← st.1.compound (· + ·) pA.view
        let qA ← map (· * c.2) st.2.2.view
        let Q ← st.2.1.compound (· + ·) qA.view
        let pow ← mulAssign st.2.2 A.rows A.cols fun _ => A.get
        some (P, Q, pow)) (P, Q, A)
      let Qt ← transpose st.2.1.view
      let Pt ← transpose st.1.view
      some (Qt, Pt)
    | _, _ => none
  else none

/-- `exp()` (`variable_matrix.hpp:1044-1126`); `lu Q P` is `Q.to_eigen().lu().solve(P.to_eigen())`, see `LuModel`. -/
def Mat.exp [Zero α] [Add α] [Mul α] (lu : Mat α → Mat α → Option (Mat α)) (p q : List α) (A : Mat α) :
    Option (Mat α) := do
  let QP ← A.expParts p q
  let X ← lu QP.1 QP.2
  transpose X.view

/-- `exp()` of a block (`variable_block.hpp:630-632`). -/
def Block.exp [Zero α] [Add α] [Mul α] (lu : Mat α → Mat α → Option (Mat α)) (p q : List α) (b : Block)
    (A : Mat α) : Option (Mat α) := do
  let M ← Mat.ofView (b.view A)
  M.exp lu p q

end Slp.VMat
